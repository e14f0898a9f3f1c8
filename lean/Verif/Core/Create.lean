/-
Adding clauses to a solver: src/clause.cpp 121-320 (`watchOrder`, `prepare`, `status`, `ignoreClause`, `create_prepared`),
src/clause.cpp 402-431 (construction), src/solver_types.cpp 159-175 (`attach`, `detach`), src/solver.cpp 323-344 (`add`).

Simplifications:
* 32-bit values are natural numbers; `umax` is 2^32-1. Levels are smaller than 2^30 in the C++ (`varMax`);
* the marks used by `prepare` to find duplicates are a list of their own. In the C++ they share the cells with the marks of
  level 0 literals, which the loop handles before looking at the marks;
* the choice of watches for problem clauses (`watch_rand`, `watch_least`) and clauses handed to the preprocessor are left
  out; aux variables, the tag, heuristics, scores and distribution of learnt clauses do not affect what is modelled.
-/
import Verif.Core.Propagate
namespace Clasp.Core

/-- UINT32_MAX -/
def umax : Nat := 2 ^ 32 - 1
/-- literal.h:60 `varMax` -/
def varMax : Nat := 2 ^ 30

namespace St

/-- clause.cpp:121-129 `watchOrder`: DL+1 for a free literal, the level for a false one, the complement of the level for a
true one -/
def watchOrder (s : St) (p : Lit) : Nat :=
  match s.value p.var with
  | none => s.dl + 1
  | some b => if b = p.tv then umax - s.level p.var else s.level p.var

end St

/-- local variables of `prepare`: the output array, the write position, the number of literals kept, the watch orders of the
first two literals, the marked literals -/
structure Prep where
  out : Nat → Lit
  j : Nat
  size : Nat
  w1 : Nat
  w2 : Nat
  marks : List Lit

namespace Prep

/-- clause.cpp:146-147 `std::swap(out[i], out[k])` -/
def swap (f : Nat → Lit) (i k : Nat) : Nat → Lit := Function.update (Function.update f i (f k)) k (f i)

/-- clause.cpp:130-133: the state before the loop; nothing is written to `out` yet -/
def init : Prep := ⟨fun _ => litFalse, 0, 0, 0, 0, []⟩

/-- clause.cpp:144-150: keep the literal -/
def keep (s : St) (maxOut : Nat) (x : Prep) (p : Lit) : Prep :=
  let a := s.watchOrder p
  let out := Function.update x.out x.j p
  let (a, w1, out) := if a > x.w1 then (x.w1, a, swap out 0 x.j) else (a, x.w1, out)
  let (w2, out) := if a > x.w2 then (a, swap out 1 x.j) else (x.w2, out)
  ⟨out, if x.j ≠ maxOut then x.j + 1 else x.j, x.size + 1, w1, w2, p :: x.marks⟩

/-- clause.cpp:140-156: the loop; the result says whether it was left early (then `abst_w1` is UINT32_MAX) -/
def loop (s : St) (simplify : Bool) (maxOut : Nat) : List Lit → Prep → Prep
  | [], x => x
  | p :: r, x =>
    let a := s.watchOrder p
    if a ≠ 0 ∧ a ≠ umax ∧ ¬ (simplify ∧ (x.marks.map Lit.var).contains p.var) then loop s simplify maxOut r (x.keep s maxOut p)
    else if a = umax ∨ (simplify ∧ a ≠ 0 ∧ x.marks.contains p.neg) then { x with w1 := umax }
    else loop s simplify maxOut r x

/-- clause.cpp:131-165 `prepare(s, in, inSize, e, flags, out, outMax)` with `maxOut = outMax - 1`: size and output array -/
def prepare (s : St) (lits : List Lit) (force : Bool) (maxOut : Nat) : Nat × (Nat → Lit) :=
  let simplify := force && decide (lits.length > 2) && decide (maxOut + 1 ≥ lits.length)
  let x := loop s simplify maxOut lits init
  if x.w1 = umax ∨ (x.w2 ≠ 0 ∧ (x.out 0).var = (x.out 1).var) then
    (1, Function.update x.out 0 (if x.w1 = umax ∨ x.out 0 = (x.out 1).neg then litTrue else x.out 0))
  else (x.size, x.out)

/-- clause.cpp:168-176 `prepare(s, lits, flags, info)`: the literals left in the vector -/
def prepareVec (s : St) (lits : List Lit) (force : Bool) : List Lit :=
  let lits := if lits.isEmpty then [litFalse] else lits
  let (n, out) := prepare s lits force (umax - 1)
  (List.range n).map out

end Prep

/-! ### Status (clause.h:112-123) -/

/-- clause.h:114 `status_open` -/
def stOpen : Nat := 0
/-- clause.h:115 `status_sat` -/
def stSat : Nat := 1
/-- clause.h:116 `status_unsat` -/
def stUnsat : Nat := 2
/-- clause.h:117 `status_unit` -/
def stUnit : Nat := 4
/-- clause.h:119 `status_sat_asserting` -/
def stSatAsserting : Nat := 5
/-- clause.h:120 `status_asserting` -/
def stAsserting : Nat := 6
/-- clause.h:121 `status_subsumed` -/
def stSubsumed : Nat := 9
/-- clause.h:122 `status_empty` -/
def stEmpty : Nat := 10

namespace St

/-- clause.cpp:189-203 `status(s, c)` for a prepared clause of the given size with the first two literals `l0`, `l1` -/
def status (s : St) (size : Nat) (l0 l1 : Lit) : Nat :=
  let fw := if size ≠ 0 then s.watchOrder l0 else 0
  if fw = umax then stSubsumed
  else
    let sw := if size > 1 then s.watchOrder l1 else 0
    let (st, fw) := if fw > varMax then (stSat, umax - fw)
      else if fw ≤ s.dl then ((if fw ≠ 0 then stUnsat else stEmpty), fw) else (stOpen, fw)
    if sw ≤ s.dl ∧ fw > sw then st ||| stUnit else st

/-- clause.cpp:182-187 `status(s, begin, end)` -/
def statusOf (s : St) (lits : List Lit) : Nat :=
  if lits.isEmpty then stEmpty
  else
    let (n, out) := Prep.prepare s lits false 2
    s.status n (out 0) (out 1)

end St

/-- clause.h:178-186: the flags of `create` that matter here -/
structure CFlags where
  notSat : Bool := false
  notRootSat : Bool := false
  notConflict : Bool := false
  explicit : Bool := false

/-- clause.cpp:205-210 `ignoreClause` -/
def ignoreClause (s : St) (l0 : Lit) (st : Nat) (f : CFlags) : Bool :=
  let x := st &&& 3
  if x = stOpen then false
  else if x = stUnsat then decide (st ≠ stEmpty) && f.notConflict
  else decide (st = stSubsumed) || (decide (st = stSat) && (f.notSat || (f.notRootSat && decide (s.level l0.var ≤ s.root))))

namespace Cl

/-- clause.cpp:402-431: the clause object for at least two literals; up to five literals are stored in the short format -/
def ofLits (l : List Lit) : Cl :=
  if l.length > 5 then ⟨l.getD 0 litFalse, l.getD 1 litFalse, l.getD 2 litFalse, l.drop 3, 0, false⟩
  else ⟨l.getD 0 litFalse, l.getD 1 litFalse, l.getD 2 litFalse, [l.getD 3 litFalse, l.getD 4 litFalse], 0, true⟩

end Cl

namespace Db

/-- solver_types.cpp:166-170 `attach` of a new clause stored at `id` -/
def attach (d : Db) (id : Nat) (c : Cl) : Db :=
  (({ d with cls := Function.update d.cls id c, ids := id :: d.ids } : Db).addWatch c.h0.neg id).addWatch c.h1.neg id

/-- solver_types.cpp:172-175 `detach`, solver.cpp `removeWatch` -/
def detach (d : Db) (id : Nat) : Db :=
  let c := d.cls id
  let w := Function.update d.watch c.h0.neg ((d.watch c.h0.neg).erase id)
  { d with watch := Function.update w c.h1.neg ((w c.h1.neg).erase id), ids := d.ids.erase id }

/-- solver.cpp:323-344 `add` for a prepared clause of two or three literals -/
def addShort (shared learnt : Bool) (d : Db) (l : List Lit) : Db :=
  match l with
  | [a, b] => { d with graph := (d.graph.add2 shared learnt a b).1 }
  | [a, b, c] => { d with graph := (d.graph.add3 shared learnt a b c).1 }
  | _ => d

/-- clause.cpp:289-320 `create_prepared`. `id` is the place of a new clause object, `shared` whether the implication graph is
shared, `learnt` the kind of clause, `implicit` the answer of `allowImplicit`. The result is the reported status. -/
def createPrepared (learn : Bool) (d : Db) (l : List Lit) (id : Nat) (shared learnt implicit : Bool) (f : CFlags) : Db × Nat :=
  let l0 := l.getD 0 litFalse
  let l1 := l.getD 1 litFalse
  let x := d.st.status l.length l0 l1
  if ignoreClause d.st l0 x f then (d, x)
  else if l.length > 1 then
    let expl := decide (l.length > 3) || f.explicit || !implicit
    let d := if expl then d.attach id (Cl.ofLits l) else d.addShort shared learnt l
    if x &&& 6 ≠ 0 then
      let r := d.st.forceAt learn l0 (d.st.level l1.var) (some (if expl then (Cl.ofLits l).reason true else (l.drop 1).map Lit.neg))
      ({ d with st := r.1 }, if r.2 then stUnit else stUnsat)
    else (d, x)
  else
    let r := d.st.forceAt learn l0 0 (some [litTrue])
    ({ d with st := r.1 }, if r.1.hasConflict then stUnsat else stUnit)

end Db
end Clasp.Core
