import Mathlib.Data.List.Basic
/-!
# Model of the Berkmin heuristic

`ClaspBerkmin` (src/heuristics.cpp, clasp/heuristics.h): a decision variable is taken from the most recent learnt nogood that is not satisfied, else it is a most
active free variable, found with a cache, or, before the first conflict, a variable with the best static score.
-/

namespace Clasp.Berk

/-- A literal: variable and sign (clasp/literal.h). -/
abbrev Lit := Nat × Bool

/-- The types of learnt nogoods (clasp/constraint.h, `Constraint_t`). -/
inductive Ty
  | conflict
  | loop
  | other
deriving DecidableEq, Repr

/-- clasp/heuristics.h:88-155 `ClaspBerkmin`, and what it reads from the solver.
Solver: `n` is `numVars()`, `pv` is `numProblemVars()`, `val` the assignment, `db` the learnt nogoods (as clauses; the last one is the most recent).
Heuristic: `act`, `dec` are fields of the scores, `decay` the global counter; `cache` is the part of `cache_` from `cacheFront_` on, `filled` says that
`cache_` is not empty; `csize`, `nv`, `front`, `has` are `cacheSize_`, `numVsids_`, `front_` and `hasActivities()`; `tc` and `tot` are
`topConflict_` and `topOther_`, `none` for `UINT32_MAX`.  Options: `huang`, `maxB` (`maxBerkmin_`), `loop` and `other` (`types_`).
Not in the code: `fresh`: nogoods were not looked at since the last backtracking; `dirty`: activities were changed since the cache was cleared; `lim`: the number of nogoods when they were first looked at after the last
backtracking, `none` if this did not happen yet.
The occurrence counters are left out, since they matter only for the sign (C44); vectors are total, that `score` is long enough is not modelled. -/
structure Bk where
  n : Nat
  pv : Nat
  val : Nat → Option Bool
  db : List (Ty × List Lit)
  act : Nat → Nat
  dec : Nat → Nat
  decay : Nat
  cache : List Nat
  filled : Bool
  csize : Nat
  nv : Nat
  front : Nat
  has : Bool
  tc : Option Nat
  tot : Option Nat
  huang : Bool
  maxB : Option Nat
  loop : Bool
  other : Bool
  dirty : Bool
  lim : Option Nat
  fresh : Bool

/-- The solver and the heuristic before the first step (src/heuristics.cpp:64-83). -/
def Bk.new (huang : Bool) (maxB : Option Nat) (loop other : Bool) : Bk where
  n := 0
  pv := 0
  val := fun _ => none
  db := []
  act := fun _ => 0
  dec := fun _ => 0
  decay := 0
  cache := []
  filled := false
  csize := 5
  nv := 0
  front := 1
  has := false
  tc := none
  tot := none
  huang := huang
  maxB := maxB
  loop := loop
  other := other
  dirty := false
  lim := none
  fresh := true

/-- clasp/solver.h:561 `value(v) == value_free` for the variables `1` to `n`. -/
def Bk.isFree (s : Bk) (v : Nat) : Bool := decide (1 ≤ v) && decide (v ≤ s.n) && (s.val v).isNone

/-- clasp/heuristics.h:97-108, 121 `decayedScore`.  Shifts by 32 or more, which are undefined in the code ("random noise"), give 0 here; then it
does not matter when a score is decayed. -/
def Bk.sc (s : Bk) (v : Nat) : Nat := s.act v >>> (s.decay - s.dec v)

/-- clasp/heuristics.h:115-118 `Order::Compare`. -/
def Bk.before (s : Bk) (v w : Nat) : Bool := decide (s.sc w < s.sc v) || (decide (s.sc v = s.sc w) && decide (v < w))

/-- Adding to the cache (`push_heap`, src/heuristics.cpp:103); the heap is kept as the sorted list that `sort_heap` makes of it in the end. -/
def Bk.ins (s : Bk) (l : List Nat) (v : Nat) : List Nat :=
  match l with
  | [] => [v]
  | w :: t => if s.before v w then v :: w :: t else w :: s.ins t v

/-- src/heuristics.cpp:107-114: a variable replaces the last one of the cache (the root of the heap) if it is better. -/
def Bk.repl (s : Bk) (l : List Nat) (v : Nat) : List Nat :=
  match l.getLast? with
  | none => l
  | some w => if s.before v w then s.ins l.dropLast v else l

/-- The variables from `f` to `n` (src/heuristics.cpp:98, 107). -/
def Bk.range (f n : Nat) : List Nat := List.range' f (n + 1 - f)

/-- src/heuristics.cpp:98, 121: the first free variable from `front_` on; `none` if there is none, which means reading past the end. -/
def Bk.scan (s : Bk) : Option Nat := (range s.front s.n).find? s.isFree

/-- clasp/solver.h:548 `numFreeVars()`. -/
def Bk.numFree (s : Bk) : Nat := ((range 1 s.n).filter s.isFree).length

/-- src/heuristics.cpp:85-117 `getMostActiveFreeVar`.  `none` if it reads past the end. -/
def Bk.most (s0 : Bk) : Option (Nat × Bk) :=
  let s := { s0 with nv := s0.nv + 1 }
  match s.cache.dropWhile fun v => !s.isFree v with
  | v :: t => some (v, { s with cache := v :: t })
  | [] =>
    let csize := if s.filled && decide (s.csize < s.numFree / 10) then 2 * s.csize else s.csize
    match s.scan with
    | none => none
    | some f =>
      let free := (range f s.n).filter s.isFree
      let cs := min csize s.numFree
      if cs = 0 ∨ free.length < cs then none
      else
        let c := (free.take cs).foldl s.ins []
        let c := if cs = csize then (free.drop cs).foldl s.repl c else c
        match c with
        | [] => none
        | v :: t => some (v, { s with
            cache := v :: t
            filled := true
            csize := csize
            front := f
            dirty := false })

/-- src/heuristics.cpp:125-130: the best of the variables in the list; `mo` is `momsScore`. -/
def best (mo : Nat → Nat) (v : Nat) (l : List Nat) : Nat := l.foldl (fun b w => if mo b < mo w then w else b) v

/-- src/heuristics.cpp:119-137 `getTopMoms`. -/
def Bk.moms (s : Bk) (mo : Nat → Nat) : Option (Nat × Bk) :=
  match s.scan with
  | none => none
  | some f =>
    let v := best mo f ((range (f + 1) s.pv).filter s.isFree)
    some (v, { s with
      front := f
      nv := s.nv + 1
      has := s.has || decide (50 ≤ s.nv + 1) || decide (mo v < 2) })

/-- The value of a literal (clasp/solver.h, `isTrue`). -/
def Bk.isTrue (s : Bk) (l : Lit) : Bool := s.val l.1 == some (!l.2)

/-- src/clause.cpp:613-633 `isOpen` for a nogood of a wanted type: its free literals, `none` if it is satisfied.  Literals collected before a true one
is found are dropped at once (in the code: src/heuristics.cpp:250, 266).  A nogood without free literals, which
would be a conflict, counts as not found below. -/
def Bk.isOpen (s : Bk) (c : List Lit) : Option (List Lit) :=
  if c.any s.isTrue then none else some (c.filter fun l => (s.val l.1).isNone)

/-- The type is in the set `types_` (src/heuristics.cpp:53-56, 78-80). -/
def Bk.want (s : Bk) : Ty → Bool
  | .conflict => false
  | .loop => s.loop || s.other
  | .other => s.other

/-- src/heuristics.cpp:242-252: looking for a nogood of another type between `topConflict_` and `topOther_`; `k` is their distance. -/
def Bk.findOther (s : Bk) (tc : Nat) : Nat → Nat × List Lit
  | 0 => (tc, [])
  | k + 1 =>
    match s.db[tc + k]? with
    | none => (tc + k + 1, [])
    | some (t, c) =>
      match (if s.want t then s.isOpen c else none) with
      | some l => (tc + k + 1, l)
      | none => s.findOther tc k

/-- src/heuristics.cpp:255-267: looking for a conflict nogood below `tc`, at most `k` of them.  `o` is the nogood of another type found so far with its position
(`freeOtherLits_`, `topOther_`). -/
def Bk.findConf (s : Bk) (tc : Nat) (k : Nat) (o : Option (Nat × List Lit)) : Nat × List Lit × Option (Nat × List Lit) :=
  match k, tc with
  | 0, tc => (tc, [], o)
  | _ + 1, 0 => (0, [], o)
  | k + 1, tc + 1 =>
    match s.db[tc]? with
    | none => (tc + 1, [], o)
    | some (t, c) =>
      match (if t = .conflict ∨ (o = none ∧ s.want t) then s.isOpen c else none) with
      | none => s.findConf tc k o
      | some l => if t = .conflict then (tc + 1, l, o) else s.findConf tc k (some (tc + 1, l))

/-- `std::min(s.numLearntConstraints(), top)` (src/heuristics.cpp:234-235). -/
def cap (len : Nat) : Option Nat → Nat
  | none => len
  | some k => min len k

/-- src/heuristics.cpp:233-271 `hasTopUnsat`: the free literals of the nogood that was found, empty if there is none. -/
def Bk.top (s : Bk) : List Lit × Bk :=
  let tc := cap s.db.length s.tc
  let tot := cap s.db.length s.tot
  let r1 := if s.loop || s.other then s.findOther tc (tot - tc) else (tot, [])
  let o := if r1.2.isEmpty then none else some r1
  let r2 := s.findConf tc (s.maxB.getD tc) o
  let s' := { s with
    tc := some r2.1
    tot := match r2.2.2 with
      | none => some r2.1
      | some p => some p.1
    lim := if s.fresh then some s.db.length else s.lim
    fresh := false }
  (if r2.2.1.isEmpty then (match r2.2.2 with
    | none => []
    | some p => p.2) else r2.2.1, s')

/-- src/heuristics.cpp:293-318 `selectRange`, the loop: `c` are the candidates (the first one is `candidates[0]`), `ms` is `none` for `-1`. -/
def Bk.rangeLoop (s : Bk) (mo : Nat → Nat) : List Lit → List Lit → Option Nat → List Lit
  | c, [], _ => c
  | [], _ :: _, _ => []
  | c0 :: c, l :: t, ms =>
    if s.sc c0.1 < s.sc l.1 then s.rangeLoop mo [l] t none
    else if s.sc l.1 = s.sc c0.1 then
      let m := ms.getD (mo c0.1)
      if m < mo l.1 then s.rangeLoop mo [l] t (some (mo l.1))
      else if mo l.1 = m ∧ c.length + 1 ≠ 5 then s.rangeLoop mo (c0 :: c ++ [l]) t (some m)
      else s.rangeLoop mo (c0 :: c) t (some m)
    else s.rangeLoop mo (c0 :: c) t ms

/-- src/heuristics.cpp:318: one of the candidates; `rnd` is the value of `irand`. -/
def Bk.selRange (s : Bk) (mo : Nat → Nat) (rnd : Nat) : List Lit → Option Lit
  | [] => none
  | l :: t =>
    let c := s.rangeLoop mo [l] t none
    c[rnd % c.length]?

/-- src/heuristics.cpp:345-351 `resetDecay`. -/
def Bk.resetDecay (s : Bk) : Bk := { s with
  act := s.sc
  dec := fun _ => 0
  decay := 0 }

/-- src/heuristics.cpp:274-279: the global decay counter, if it is its time (`dk`). -/
def Bk.decayStep (s : Bk) (dk : Bool) : Bk :=
  if dk then
    let s := { s with decay := s.decay + (if s.huang then 1 else 2) }
    if s.decay = 65534 then s.resetDecay else s
  else s

/-- How a decision was made. -/
inductive Via
  | nogood
  | active
  | moms
deriving DecidableEq, Repr

/-- src/heuristics.cpp:273-291 `doSelect`, without the choice of the sign (C44). -/
def Bk.select (s : Bk) (dk : Bool) (mo : Nat → Nat) (rnd : Nat) : Option (Nat × Via × Bk) :=
  let s := s.decayStep dk
  let r := s.top
  match r.1 with
  | _ :: _ => (s.selRange mo rnd r.1).map fun l => (l.1, .nogood, r.2)
  | [] =>
    if s.has then r.2.most.map fun p => (p.1, .active, p.2)
    else (r.2.moms mo).map fun p => (p.1, .moms, p.2)

/-- src/heuristics.cpp:222-231 `undoUntil`. -/
def Bk.undone (s : Bk) : Bk := { s with
  tc := none
  tot := none
  front := 1
  cache := []
  filled := false
  csize := if 5 < s.csize ∧ 0 < s.nv ∧ s.nv * 3 < s.csize then s.csize / 2 else s.csize
  nv := 0
  dirty := false
  lim := none
  fresh := true }

/-- The events (src/heuristics.cpp:139-291).
`start`: `startInit`, possibly after changes of the problem.  `done`: `endInit` with the scores computed from the problem: `all` says that all variables go to the cache, `h` that
activities are to be used.  `assign`: a variable is assigned.  `undo`: backtracking, variables outside `keep` become free.  `vars`: `updateVar`, variables are added or removed.
Nogoods over variables that are removed are removed, too.  `learn`: a nogood is added; otherwise
the nogoods do not change between backtracking and the next decision.  `score`: activities are changed (`newConstraint`, `updateReason`, `bump`; during conflict analysis, i.e. before `undo`, or by `bump` at any time), `h`:
there are activities now.  `select`: a decision. -/
inductive Ev
  | start (n pv : Nat) (val : Nat → Option Bool)
  | done (act : Nat → Nat) (all h : Bool)
  | assign (v : Nat) (b : Bool)
  | undo (keep : Nat → Bool)
  | vars (n pv : Nat)
  | learn (t : Ty) (c : List Lit)
  | score (act : Nat → Nat) (h : Bool)
  | select (dk : Bool) (mo : Nat → Nat) (rnd : Nat)

/-- One event (src/heuristics.cpp:139-291); `none` if it is not possible. -/
def step (s : Bk) : Ev → Option Bk
  | .start n pv val => some { s with
      db := s.db.filter fun c => c.2.all fun l => decide (1 ≤ l.1) && decide (l.1 ≤ n)
      n := n
      pv := min pv n
      val := val
      cache := []
      filled := false
      csize := 5
      tc := none
      tot := none
      front := 1
      nv := 0
      dirty := false
      lim := none
      fresh := true }
  | .done act all h =>
    if s.front = 1 ∧ s.cache = [] ∧ s.tc = none then
      let s := { s with
        act := act
        dec := fun _ => s.decay
        has := s.has || h }
      some (if all then { s with
        cache := (Bk.range 1 s.n).foldl s.ins []
        filled := decide (s.n ≠ 0) } else s)
    else none
  | .assign v b => if s.isFree v then some { s with val := fun w => if w = v then some b else s.val w } else none
  | .undo keep => some ({ s with val := fun v => if keep v then s.val v else none }.undone)
  | .vars n pv => some { s with
      db := s.db.filter fun c => c.2.all fun l => decide (1 ≤ l.1) && decide (l.1 ≤ n)
      n := n
      pv := min pv n
      val := fun v => if v ≤ n ∧ v ≤ s.n then s.val v else none
      front := 1
      cache := []
      filled := false
      dirty := false
      lim := none }
  | .learn t c =>
    if c.all fun l => decide (1 ≤ l.1) && decide (l.1 ≤ s.n) then some { s with db := s.db ++ [(t, c)] } else none
  | .score act h => some { s with
      act := act
      dec := fun _ => s.decay
      has := s.has || h
      dirty := true }
  | .select dk mo rnd => if (Bk.range 1 s.n).any s.isFree then (s.select dk mo rnd).map (·.2.2) else none

/-- The reachable states. -/
inductive Reach (huang : Bool) (maxB : Option Nat) (loop other : Bool) : Bk → Prop
  | new : Reach huang maxB loop other (Bk.new huang maxB loop other)
  | step {s s' : Bk} (ev : Ev) : Reach huang maxB loop other s → Berk.step s ev = some s' → Reach huang maxB loop other s'

end Clasp.Berk
