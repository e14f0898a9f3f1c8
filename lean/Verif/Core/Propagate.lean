/-
Unit propagation: the short implication graph (src/shared_context.cpp 93-350, clasp/shared_context.h 309-437), watched
clauses (src/solver.cpp 857-876, src/clause.cpp 487-552) and the propagation loop (src/solver.cpp 830-928).

Simplifications:
* watches of constraints other than clauses (the right part of a watch list) and post propagators are not part of the
  loop; see `Verif/Core/Search.lean` for how their inferences enter;
* literals' watch flags (marking learnt short clauses) and the counters of the graph are left out;
* the blocks of learnt short clauses of a shared graph are one list, in traversal order;
* contracted clauses and clauses with shared literals are not modelled;
* a reason is recorded when the literal is forced; in the C++ it is read off the clause later. While the forced literal
  is true, `ClauseHead::propagate` does not touch the clause (first branch), so the two agree.
-/
import Verif.Core.Sem
namespace Clasp.Core

/-- literal.h:147 `lit_false` -/
def litFalse : Lit := ⟨0, true⟩

/-! ### The short implication graph -/

/-- shared_context.h:407-425 `ImplicationList`: binary part, ternary part, learnt clauses of a shared graph -/
structure ImpList where
  bin : List Lit
  tern : List (Lit × Lit)
  learnt : List (Lit × Option Lit)

/-- shared_context.h:433 `graph_` -/
abbrev Graph := Lit → ImpList

namespace Graph

/-- shared_context.h:433 `graph_` before any short clause was added -/
def empty : Graph := fun _ => ⟨[], [], []⟩

/-- left_right_sequence `push_left` on `getList(p)` -/
def pushBin (G : Graph) (p q : Lit) : Graph := Function.update G p { G p with bin := (G p).bin ++ [q] }
/-- `push_right` on `getList(p)` -/
def pushTern (G : Graph) (p q r : Lit) : Graph := Function.update G p { G p with tern := (G p).tern ++ [(q, r)] }
/-- shared_context.cpp:143-171 `addLearnt` on `getList(p)` (one thread): a new block goes to the front of the block list;
the position inside the traversal order is abstracted to the front -/
def pushLearnt (G : Graph) (p q : Lit) (r : Option Lit) : Graph :=
  Function.update G p { G p with learnt := (q, r) :: (G p).learnt }

/-- shared_context.cpp:175-186 `hasLearnt(q, r)`; `r = none` is the binary case (`r` is the sentinel) -/
def hasLearnt (l : List (Lit × Option Lit)) (q : Lit) (r : Option Lit) : Bool :=
  l.any fun x => (x.1 == q || some x.1 == r) &&
    match x.2 with
    | none => true
    | some y => r.isSome && (y == q || some y == r)

/-- shared_context.cpp:229-261 `add` for a binary clause -/
def add2 (shared learnt : Bool) (G : Graph) (p q : Lit) : Graph × Bool :=
  if !shared then ((G.pushBin p.neg q).pushBin q.neg p, true)
  else if learnt && !hasLearnt (G p.neg).learnt q none then
    ((G.pushLearnt p.neg q none).pushLearnt q.neg p none, true)
  else (G, false)

/-- shared_context.cpp:229-261 `add` for a ternary clause -/
def add3 (shared learnt : Bool) (G : Graph) (p q r : Lit) : Graph × Bool :=
  if !shared then (((G.pushTern p.neg q r).pushTern q.neg p r).pushTern r.neg p q, true)
  else if learnt && !hasLearnt (G p.neg).learnt q (some r) then
    (((G.pushLearnt p.neg q (some r)).pushLearnt q.neg p (some r)).pushLearnt r.neg p (some q), true)
  else (G, false)

/-- shared_context.h:360-381 `forEach`: the order in which the implications of `p` are visited; a second component is
present for a `binary(p, x, y)` call -/
def items (G : Graph) (p : Lit) : List (Lit × Option Lit) :=
  (G p).bin.map (fun x => (x, none)) ++ (G p).tern.map (fun x => (x.1, some x.2)) ++ (G p).learnt

/-- shared_context.cpp:323 `Propagate::unary` -/
def unary (learn : Bool) (s : St) (p x : Lit) : St × Bool :=
  if s.isTrue x then (s, true) else s.force learn x (some [p])

/-- shared_context.cpp:324-330 `Propagate::binary` -/
def binary (learn : Bool) (s : St) (p x y : Lit) : St × Bool :=
  if ¬ s.isTrue x ∧ ¬ s.isTrue y ∧ ¬ (s.value x.var = none ∧ s.value y.var = none) then
    if s.value x.var ≠ none then s.force learn y (some [p, x.neg]) else s.force learn x (some [p, y.neg])
  else (s, true)

/-- one call of the visitor -/
def visit (learn : Bool) (s : St) (p : Lit) : Lit × Option Lit → St × Bool
  | (x, none) => unary learn s p x
  | (x, some y) => binary learn s p x y

/-- shared_context.h:360-381 `forEach(p, Propagate(s))` -/
def propItems (learn : Bool) (s : St) (p : Lit) : List (Lit × Option Lit) → St × Bool
  | [] => (s, true)
  | i :: r =>
    match visit learn s p i with
    | (s, true) => propItems learn s p r
    | (s, false) => (s, false)

/-- shared_context.cpp:349 `propagate` -/
def propagate (G : Graph) (learn : Bool) (s : St) (p : Lit) : St × Bool := propItems learn s p (G.items p)

end Graph

/-! ### Clauses -/

/-- clause.h:318-480, solver_types.h:275-330 `ClauseHead`: the three literals of the head (the first two are watched), the
remaining literals, the position at which the circular search for a new watch starts (`local_.mem[1]`), and whether the
clause is stored in the short format (then `tail` has exactly two entries, padded with `lit_false`) -/
structure Cl where
  h0 : Lit
  h1 : Lit
  h2 : Lit
  tail : List Lit
  idx : Nat
  small : Bool
deriving DecidableEq, Repr

namespace Cl

/-- all literals, including `lit_false` used as padding -/
def lits (c : Cl) : List Lit := c.h0 :: c.h1 :: c.h2 :: c.tail

/-- `head_[w]` for a watch position -/
def watch (c : Cl) (w : Bool) : Lit := if w then c.h1 else c.h0
/-- assignment to `head_[w]` -/
def setWatch (c : Cl) (w : Bool) (p : Lit) : Cl := if w then { c with h1 := p } else { c with h0 := p }

/-- position of the first literal that is not false -/
def scan (s : St) (l : List Lit) : Option Nat := l.findIdx? (fun q => !s.isFalse q)

/-- clause.cpp:487-515 `updateWatch(s, pos)`: search for a replacement in the tail (circular from `idx` in the large
format, from the front in the short format), swap it with the watch -/
def updateWatch (s : St) (c : Cl) (w : Bool) : Option Cl :=
  let swap (i : Nat) (idx : Nat) : Cl :=
    { c.setWatch w (c.tail.getD i litFalse) with tail := c.tail.set i (c.watch w), idx := idx }
  if !c.small then
    match scan s (c.tail.drop c.idx) with
    | some k => some (swap (c.idx + k) (c.idx + k + 1))
    | none =>
      match scan s (c.tail.take c.idx) with
      | some k => some (swap k (k + 1))
      | none => none
  else
    match scan s c.tail with
    | some k => some (swap k c.idx)
    | none => none

/-- clause.cpp:523-537 `reason(s, p, out)` for `p` at watch position `1-w`. The padding (`lit_false`) that the C++ leaves out
appears here as `lit_true`, which every consumer ignores. -/
def reason (c : Cl) (w : Bool) : List Lit := (c.watch w).neg :: c.h2.neg :: c.tail.map Lit.neg

/-- result of `ClauseHead::propagate`: clause, solver, `ok`, `keepWatch` -/
structure PropRes where
  cl : Cl
  st : St
  ok : Bool
  keep : Bool

/-- solver.cpp:857-876 `ClauseHead::propagate(s, p)` without the `addWatch` (done by the caller for `keep = false`) -/
def propagate (learn : Bool) (s : St) (c : Cl) (p : Lit) : PropRes :=
  let w := decide (c.h1 = p.neg)
  if s.isTrue (c.watch !w) then ⟨c, s, true, true⟩
  else if !s.isFalse c.h2 then ⟨{ c.setWatch w c.h2 with h2 := p.neg }, s, true, false⟩
  else
    match c.updateWatch s w with
    | some c' => ⟨c', s, true, false⟩
    | none =>
      let (s', ok) := s.force learn (c.watch !w) (some (c.reason w))
      ⟨c, s', ok, true⟩

end Cl

/-! ### The propagation loop -/

/-- the solver with its short implication graph and its clauses; `watch p` is the left part of `watches_[p.id()]`
(solver.h:872), holding the clauses that watch `~p` -/
structure Db where
  st : St
  graph : Graph
  cls : Nat → Cl
  watch : Lit → List Nat
  /-- the clauses that are in the solver (solver.h:884-885 `constraints_`, `learnts_`) -/
  ids : List Nat

namespace Db

/-- solver.h:435 `addWatch` for the clause stored at `id` -/
def addWatch (d : Db) (p : Lit) (id : Nat) : Db := { d with watch := Function.update d.watch p (d.watch p ++ [id]) }

/-- solver.cpp:891-906: the loop over the clause watches of `p`; `kept` is `[left_begin, j)`, reversed. The rest of the list
is put back on a conflict. -/
def propClauses (learn : Bool) (p : Lit) : List Nat → List Nat → Db → Db × Bool
  | [], kept, d => ({ d with watch := Function.update d.watch p kept.reverse }, true)
  | id :: r, kept, d =>
    let w := decide ((d.cls id).h1 = p.neg)
    let res := (d.cls id).propagate learn d.st p
    let d := { d with st := res.st, cls := Function.update d.cls id res.cl }
    let d := if res.keep then d else d.addWatch (res.cl.watch w).neg id
    let kept := if res.keep then id :: kept else kept
    if res.ok then propClauses learn p r kept d
    else ({ d with watch := Function.update d.watch p (kept.reverse ++ r) }, false)

/-- solver_types.h:586 `markUnits`: mark the variables assigned on level 0 -/
def markUnits (d : Db) : Db :=
  { d with st := { d.st with cell := fun v =>
      if (d.st.trail.map Lit.var).contains v then { d.st.cell v with seen := (true, true) } else d.st.cell v } }

/-- solver.cpp:878-928 `unitPropagate`; the result is `none` if the fuel does not suffice -/
def unitPropagate (learn : Bool) : Nat → Db → Option (Db × Bool)
  | 0, _ => none
  | fuel + 1, d =>
    if d.st.front < d.st.trail.length then
      let p := (d.st.trail.reverse[d.st.front]?).getD litFalse
      let d := { d with st := { d.st with front := d.st.front + 1 } }
      match d.graph.propagate learn d.st p with
      | (s, false) => some ({ d with st := s }, false)
      | (s, true) =>
        let d := { d with st := s }
        match propClauses learn p (d.watch p) [] d with
        | (d, false) => some (d, false)
        | (d, true) => unitPropagate learn fuel d
    else some (if d.st.dl = 0 then d.markUnits else d, true)

/-- solver.cpp:823-826, 828-835 `propagate` and `cancelPropagation` (without post propagators): a failed propagation empties
the queue -/
def propagate (learn : Bool) (fuel : Nat) (d : Db) : Option (Db × Bool) :=
  (unitPropagate learn fuel d).map fun
    | (d, true) => (d, true)
    | (d, false) => ({ d with st := { d.st with front := d.st.trail.length } }, false)

end Db
end Clasp.Core
