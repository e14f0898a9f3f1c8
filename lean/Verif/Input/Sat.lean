/-
C34. `SatBuilder` (src/program_builder.cpp 100-219, clasp/program_builder.h 108-165).

`varState_` holds two bits for literals already seen in the current clause or false at level 0 and two for the occurrences. `softClauses_`
is a sequence of (weight, relaxation literal, clause). Simplified: `markAssigned` marks all literals false at level 0, not only those
behind `pos_` (marks of assigned variables are never removed); whether it propagates first is up to the parameter `pr`. Weights are
unbounded integers except for the checked range. Preferred values of variables are not modelled.
-/
import Verif.Input.Db
namespace Clasp.Input
open Core Weight Function

/-- one element of `softClauses_`: weight, relaxation literal, literals (program_builder.cpp:141-146) -/
structure Soft where
  w : Int
  relax : Lit
  cl : List Lit

/-- State of `SatBuilder` (program_builder.h:158-163); `seen` are the lower two bits of `varState_`, `occ` the upper two. -/
structure Sat where
  db : Db
  seen : Lit → Bool
  occ : Lit → Bool
  soft : List Soft
  hard : Int
  vars : Nat
  n : Nat

/-- program_builder.cpp:101-108 `markAssigned` -/
def Sat.markAssigned (pr : Db → Option Top) (s : Sat) : Sat :=
  let d := s.db.prop pr
  { s with db := d, seen := fun l => s.seen l || d.top l.var == some (!l.tv) }

/-- program_builder.cpp:153-159: the first loop of `satisfied`; the bool says whether the clause is satisfied -/
def satLoop : List Lit → (Lit → Bool) → List Lit → (Lit → Bool) × List Lit × Bool
  | [], seen, out => (seen, out, false)
  | x :: xs, seen, out =>
    if seen x = false ∧ seen x.neg = false then satLoop xs (update seen x true) (out ++ [x])
    else if seen x = false ∧ seen x.neg = true then (seen, out, true)
    else satLoop xs seen out

/-- program_builder.cpp:161-164: clear the marks of the literals kept -/
def unsee (c : List Lit) (seen : Lit → Bool) : Lit → Bool := fun l => if c.any (fun x => x.var == l.var) then false else seen l

/-- program_builder.cpp:157, 162: set the occurrence bits -/
def markOcc (c : List Lit) (occ : Lit → Bool) : Lit → Bool := fun l => occ l || c.contains l

/-- program_builder.cpp:150-166 `satisfied`: removes repeated and false literals -/
def Sat.satisfied (s : Sat) (c : List Lit) : Sat × List Lit × Bool :=
  let (seen, out, sat) := satLoop c s.seen []
  ({ s with seen := unsee out seen, occ := if sat then s.occ else markOcc out s.occ }, out, sat)

/-- program_builder.cpp:141-146: store a soft clause -/
def Sat.addSoft (s : Sat) (c : List Lit) (cw : Int) : Sat :=
  match c with
  | [] => { s with soft := s.soft ++ [⟨cw, litTrue, []⟩] }
  | [x] => { s with soft := s.soft ++ [⟨cw, x.neg, []⟩] }
  | c => { s with soft := s.soft ++ [⟨cw, ⟨s.vars + 1, false⟩, c⟩], vars := s.vars + 1 }

/-- program_builder.cpp:134-149 `addClause` -/
def Sat.addClause (pr : Db → Option Top) (s : Sat) (c : List Lit) (cw : Int) : R Sat :=
  if s.db.ok = false then .ok s
  else
    match s.satisfied c with
    | (s, _, true) => .ok s
    | (s, c, false) =>
      if 0 ≤ cw ∧ (cw ≤ MAXW ∨ cw = s.hard) then
        if cw = s.hard then .ok ({ s with db := s.db.clause c }.markAssigned pr)
        else .ok (s.addSoft c cw)
      else .error .range

/-- program_builder.cpp:167-176 `addConstraint` -/
def Sat.addConstraint (s : Sat) (lits : List WL) (bound : Int) : R Sat :=
  if s.db.ok = false then .ok s
  else do
    let r ← create s.db.top lits bound
    let m ← doCreate false false s.db.top litTrue r
    .ok { s with
      occ := if r.isSat || r.isUnsat then s.occ else markOcc (r.lits.map WL.lit) s.occ
      db := s.db.made (m.map fun p => [p.1]) }

/-- program_builder.cpp:119-125 `addObjective` -/
def Sat.addObjective (s : Sat) (min : List WL) : Sat :=
  { s with db := { s.db with mini := s.db.mini ++ min }, occ := markOcc (min.map fun x => x.lit.neg) s.occ }

/-- program_builder.cpp:129-133 `addAssumption` -/
def Sat.addAssumption (s : Sat) (x : Lit) : Sat := { s with occ := markOcc [x] s.occ }

/-- program_builder.cpp:194-204: create the soft clauses; stops at the first conflict -/
def endSoft : List Soft → Db → Db
  | [], d => d
  | e :: es, d =>
    if d.ok = false then d
    else
      let d := if e.cl = [] then d else d.clause (e.relax :: e.cl)
      endSoft es { d with mini := d.mini ++ [⟨e.relax, e.w⟩] }

/-- program_builder.cpp:186-219 `doEndProgram`; the second component says which variables are eliminated if models need not be preserved
(`elim`, line 209) -/
def Sat.doEnd (s : Sat) (elim : Bool) : Db × (Nat → Bool) :=
  let d := if s.db.ok then endSoft s.soft s.db else s.db
  (d, fun v => d.ok && elim && s.soft.isEmpty && decide (1 ≤ v ∧ v ≤ s.n) &&
    !(s.seen ⟨v, false⟩ || s.seen ⟨v, true⟩ || s.occ ⟨v, false⟩ || s.occ ⟨v, true⟩))

/-- The context before `startProgram` (shared_context.cpp:560-570): only the sentinel is assigned -/
def Db.init : Db := ⟨fun v => if v = 0 then some true else none, true, [], [], []⟩

/-- program_builder.cpp:109-118 `prepareProblem` -/
def Sat.prepare (pr : Db → Option Top) (numVars : Nat) (cw : Int) : Sat :=
  Sat.markAssigned pr ⟨.init, fun _ => false, fun _ => false, [], cw, numVars, numVars⟩

/-- The calls between `prepareProblem` and `endProgram` -/
inductive Call where
  | clause (c : List Lit) (cw : Int)
  | con (lits : List WL) (bound : Int)
  | obj (min : List WL)
  | assume (x : Lit)

/-- one call -/
def Sat.call (pr : Db → Option Top) (s : Sat) : Call → R Sat
  | .clause c cw => s.addClause pr c cw
  | .con lits b => s.addConstraint lits b
  | .obj m => .ok (s.addObjective m)
  | .assume x => .ok (s.addAssumption x)

/-- all calls -/
def Sat.calls (pr : Db → Option Top) : List Call → Sat → R Sat
  | [], s => .ok s
  | c :: cs, s => do let s ← s.call pr c; Sat.calls pr cs s

end Clasp.Input
