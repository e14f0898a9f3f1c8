/-!
# Learnt short clauses shared by threads

Model of the blocks of learnt binary and ternary clauses in `ShortImplicationsGraph` (src/shared_context.cpp:91-195, clasp/shared_context.h:360-425): one implication list of a
shared graph, to which several threads add clauses while others go through it.  Each access to a shared word is one step; atomic operations are sequentially consistent (a
release store of `size_lock` and an acquire load would do).  Lists of different literals are independent of each other.
-/

namespace Clasp.Imp

/-- A literal as it is stored in a block: its number and its flag (clasp/literal.h:70-128). -/
structure Word where
  lit : Nat
  flag : Bool
deriving DecidableEq, Repr

/-- What is added to the list of `~p`: the other literal of a binary clause with `p`, or the two others of a ternary clause; `none` is the sentinel `lit_false()`
(src/shared_context.cpp:144-146). -/
abbrev Cl := Nat × Option Nat

/-- `nc` and `ns` (src/shared_context.cpp:145-147): the first word of a binary clause is flagged. -/
def enc : Cl → List Word
  | (p, none) => [⟨p, true⟩]
  | (p, some q) => [⟨p, false⟩, ⟨q, false⟩]

/-- clasp/shared_context.h:388-404 `Block`: `size` and `lock` are the two parts of `size_lock`.  Not in the code: `ent`, the clauses it stores. -/
structure Blk where
  data : Nat → Word
  size : Nat
  lock : Bool
  next : Option Nat
  ent : List Cl

/-- src/shared_context.cpp:92-96: an empty block. -/
def Blk.new : Blk where
  data := fun _ => ⟨0, false⟩
  size := 0
  lock := false
  next := none
  ent := []

/-- std::copy in `addUnlock`, one word (src/shared_context.cpp:98). -/
def Blk.put (b : Blk) (i : Nat) (w : Word) : Blk := { b with data := fun j => if j = i then w else b.data j }

/-- src/shared_context.cpp:98 `addUnlock(0, nc, ns)` on a block that no other thread knows: the words are written in one step. -/
def Blk.full (c : Cl) (x : Nat) : Blk where
  data := fun j => (enc c)[j]?.getD ⟨0, false⟩
  size := (enc c).length
  lock := false
  next := some x
  ent := [c]

/-- Where a thread is.  `load` to `pub`: in `addLearnt` (src/shared_context.cpp:144-173) with the clause `c`; `load`: before reading `learnt` (149); `lockb x`: before
`tryLock` of block `x` (151); `copy x n j`: it has locked `x` with size `n` and copied `j` words (98); `store`: before storing `size_lock` (99); `pub`: the new block is
ready and about to be published (158); `cas`: before the exchange (168).  `rhead` to `rnext`: in `forEach` (clasp/shared_context.h:371-378) or the loop in
src/shared_context.cpp:110-112; `rhead`: before reading `learnt`; `rsize x`: before reading the size of block `x`; `rword x e k`: the end is `e`, before reading word `k`;
`rsnd x e k w`: the first word `w` of a ternary clause was read, before reading word `k + 1`; `rnext x`: before reading `next`.  `acc` are the clauses seen so far;
`rdone`: it has seen all.  Not in the code: `snap`, all clauses that had been added when `learnt` was read. -/
inductive Pc
  | idle
  | load (c : Cl)
  | lockb (c : Cl) (x : Nat)
  | copy (c : Cl) (x n j : Nat)
  | store (c : Cl) (x n : Nat)
  | pub (c : Cl) (x : Nat)
  | cas (c : Cl)
  | rhead
  | rsize (x : Nat) (snap acc : List Cl)
  | rword (x e k : Nat) (snap acc : List Cl)
  | rsnd (x e k : Nat) (w : Word) (snap acc : List Cl)
  | rnext (x : Nat) (snap acc : List Cl)
  | rdone (snap acc : List Cl)

/-- The state: the blocks that were published, by age, `learnt` (clasp/shared_context.h:424), and the threads.  Not in the code: `added`, the clauses added so far;
`bad`, a word outside of a block or a block that does not exist was accessed. -/
structure St where
  cap : Nat
  blk : List Blk
  head : Option Nat
  th : Nat → Pc
  added : List Cl
  bad : Bool

/-- An empty list (clasp/shared_context.h:408); `cap` is `block_cap` (13 with 64 bit pointers, clasp/shared_context.h:393). -/
def St.new (cap : Nat) : St where
  cap := cap
  blk := []
  head := none
  th := fun _ => .idle
  added := []
  bad := false

/-- Thread `i` moves to `p` (no code). -/
def St.go (s : St) (i : Nat) (p : Pc) : St := { s with th := fun j => if j = i then p else s.th j }

/-- An access that is undefined (no code). -/
def St.err (s : St) : St := { s with bad := true }

/-- The next step of thread `i` (src/shared_context.cpp:97-173, clasp/shared_context.h:371-378); `none` if it is not in one of the functions. -/
def next (s : St) (i : Nat) : Option St :=
  match s.th i with
  | .idle => none
  | .load c =>
    match s.head with
    | some x => some (s.go i (.lockb c x))
    | none => some (s.go i (.cas c))
  | .lockb c x =>
    match s.blk[x]? with
    | none => some s.err
    | some b =>
      if b.lock then some (s.go i (.load c))
      else
        let s := { s with blk := s.blk.set x { b with lock := true } }
        if b.size + (enc c).length ≤ s.cap then some (s.go i (.copy c x b.size 0)) else some (s.go i (.pub c x))
  | .copy c x n j =>
    match s.blk[x]?, (enc c)[j]? with
    | some b, some w =>
      if n + j < s.cap then
        let s := { s with blk := s.blk.set x (b.put (n + j) w) }
        if j + 1 = (enc c).length then some (s.go i (.store c x n)) else some (s.go i (.copy c x n (j + 1)))
      else some s.err
    | _, _ => some s.err
  | .store c x n =>
    match s.blk[x]? with
    | none => some s.err
    | some b =>
      let s := { s with
        blk := s.blk.set x { b with
          size := n + (enc c).length
          lock := false
          ent := b.ent ++ [c] }
        added := s.added ++ [c] }
      some (s.go i .idle)
  | .pub c x =>
    let s := { s with
      blk := s.blk ++ [Blk.full c x]
      head := some s.blk.length
      added := s.added ++ [c] }
    some (s.go i .idle)
  | .cas c =>
    match s.head with
    | some _ => some (s.go i (.load c))
    | none =>
      let s := { s with
        blk := s.blk ++ [Blk.new]
        head := some s.blk.length }
      some (s.go i (.load c))
  | .rhead =>
    match s.head with
    | some x => some (s.go i (.rsize x s.added []))
    | none => some (s.go i (.rdone s.added []))
  | .rsize x snap acc =>
    match s.blk[x]? with
    | none => some s.err
    | some b => some (s.go i (.rword x b.size 0 snap acc))
  | .rword x e k snap acc =>
    if k = e then some (s.go i (.rnext x snap acc))
    else
      match s.blk[x]? with
      | none => some s.err
      | some b =>
        if k < s.cap then
          if (b.data k).flag then some (s.go i (.rword x e (k + 1) snap (acc ++ [((b.data k).lit, none)])))
          else some (s.go i (.rsnd x e k (b.data k) snap acc))
        else some s.err
  | .rsnd x e k w snap acc =>
    match s.blk[x]? with
    | none => some s.err
    | some b =>
      if k + 1 < s.cap then some (s.go i (.rword x e (k + 2) snap (acc ++ [(w.lit, some (b.data (k + 1)).lit)]))) else some s.err
  | .rnext x snap acc =>
    match s.blk[x]? with
    | none => some s.err
    | some b =>
      match b.next with
      | some y => some (s.go i (.rsize y snap acc))
      | none => some (s.go i (.rdone snap acc))
  | .rdone _ _ => none

/-- The steps: a thread that is not in one of the functions starts to add a clause (src/shared_context.cpp:244-248) or to go through the list, or does its next step. -/
inductive Step : St → St → Prop
  | add {s : St} (i : Nat) (c : Cl) : s.th i = .idle → Step s (s.go i (.load c))
  | read {s : St} (i : Nat) : s.th i = .idle → Step s (s.go i .rhead)
  | fin {s : St} (i : Nat) (snap acc : List Cl) : s.th i = .rdone snap acc → Step s (s.go i .idle)
  | next {s s' : St} (i : Nat) : Imp.next s i = some s' → Step s s'

/-- The reachable states, with any number of threads. -/
inductive Reach (cap : Nat) : St → Prop
  | new : Reach cap (St.new cap)
  | step {s s' : St} : Reach cap s → Step s s' → Reach cap s'

/-- src/shared_context.cpp:175-186 `hasLearnt(q, r)` on the clauses it goes through. -/
def hasLearnt (q : Nat) (r : Option Nat) (l : List Cl) : Bool :=
  l.any fun c => (c.1 == q || r == some c.1) && (c.2.isNone || (r.isSome && (c.2 == some q || c.2 == r)))

end Clasp.Imp
