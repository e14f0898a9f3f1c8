/-
Conflict analysis (src/solver.cpp 1216-1283, 1338-1624): first-UIP resolution, clause minimization, resolution with an
inverse arc, asserting level.

Left out: on-the-fly subsumption (it only removes or strengthens other clauses), scores and heuristic call-backs, the lbd value,
the alternative clause representations of finalizeConflictClause (`ccRepMode`, see AnalyzeRep).
-/
import Verif.Core.Trail
namespace Clasp.Core

/-- solver_types.h:601 `seen(v, 3u)` -/
def Cell.marked (c : Cell) : Bool := c.seen.1 || c.seen.2

namespace St
/-- solver.h:585 -/
def seen (s : St) (v : Nat) : Bool := (s.cell v).marked
/-- solver.h:791, solver_types.h:602 -/
def markSeen (s : St) (v : Nat) : St := { s with cell := Function.update s.cell v { s.cell v with seen := (true, true) } }
/-- solver.h:793, solver_types.h:603 -/
def clearSeen (s : St) (v : Nat) : St := { s with cell := Function.update s.cell v { s.cell v with seen := (false, false) } }
end St

/-- The working state of `analyzeConflict`: solver, clause built so far (`cc_` without its first literal), number of
literals of the conflict level in the resolvent, marks of the decision levels (`DLevel::marked`). -/
structure Ana where
  st : St
  cc : List Lit
  onLevel : Nat
  lm : Nat → Bool

/-- solver.cpp:1231-1247 the loop over `conflict_` -/
def markLoop : List Lit → Ana → Ana
  | [], a => a
  | q :: r, a =>
    let cl := a.st.level q.var
    if a.st.seen q.var then markLoop r a
    else
      let st := a.st.markSeen q.var
      if cl = a.st.dl then markLoop r { a with st := st, onLevel := a.onLevel + 1 }
      else markLoop r { a with st := st, cc := a.cc ++ [q.neg], lm := Function.update a.lm cl true }

/-- solver.cpp:1256-1258 `while (!seen(assign_.last().var())) assign_.undoLast();` (solver_types.h:594) -/
def popUnseen (cell : Nat → Cell) : List Lit → (Nat → Cell) × List Lit
  | [] => (cell, [])
  | p :: t => if (cell p.var).marked then (cell, p :: t) else popUnseen (Function.update cell p.var Cell.free) t

/-- solver.cpp:1227-1267 the main loop; the result is the final state and the UIP. `none`: an assertion of the code would
fail (empty trail, null antecedent, no literal of the conflict level) or `fuel` is exhausted. -/
def anaLoop : Nat → Ana → List Lit → Option (Ana × Lit)
  | 0, _, _ => none
  | fuel + 1, a, conf =>
    let a := markLoop conf a
    if a.onLevel = 0 then none
    else
      match popUnseen a.st.cell a.st.trail with
      | (_, []) => none
      | (c, p :: t) =>
        let a := { a with st := { a.st with cell := c, trail := p :: t }.clearSeen p.var, onLevel := a.onLevel - 1 }
        if a.onLevel = 0 then some (a, p)
        else match a.st.reason p.var with
          | none => none
          | some r => anaLoop fuel a r

/-- solver.cpp:42-52 `CCMinRecursive` with `epoch_`: a variable is open, removable or poison. -/
structure Rec where
  epoch : Nat → Nat
  opn : Nat
deriving Inhabited

/-- solver.cpp:43-45 -/
inductive RState | opn | removable | poison
deriving DecidableEq

/-- solver.cpp:45 `decodeState` of `epoch_[v]` -/
def Rec.state (r : Rec) (v : Nat) : RState :=
  if r.epoch v ≤ r.opn then .opn else if r.epoch v - r.opn = 1 then .removable else .poison
/-- solver.cpp:44, 1483 `epoch_[v] = encodeState(st)` -/
def Rec.set (r : Rec) (v : Nat) (poison : Bool) : Rec :=
  { r with epoch := Function.update r.epoch v (r.opn + if poison then 2 else 1) }

/-- solver.cpp:1805-1809, 1454-1456 `ccMinRecurseInit`: `epoch_[0]` is the counter; sizes are left out. -/
def Rec.start (epoch : Nat → Nat) : Rec :=
  let epoch := if 2 ^ 32 - 1 - epoch 0 < 2 then fun _ => 0 else epoch
  ⟨Function.update epoch 0 (epoch 0 + 2), epoch 0⟩

/-- solver.h:765-767 `ccMinimize(q, rec)` and solver.cpp:1457-1462 `ccMinRecurse` for the literals of one reason
(constraint.h:508-515, solver.cpp:1613-1622, clause.cpp:540-554): pushes open literals, stops at the first literal that
cannot be removed. Result: success and the new stack. `lev` is `hasLevel(level(q))`. -/
def minReason (seen lev : Nat → Bool) (rc : Option Rec) : List Lit → List (Lit × Bool) → Bool × List (Lit × Bool)
  | [], todo => (true, todo)
  | q :: r, todo =>
    if seen q.var then minReason seen lev rc r todo
    else match rc with
      | none => (false, todo)
      | some rec =>
        if lev q.var then
          match rec.state q.var with
          | .poison => (false, todo)
          | .opn => minReason seen lev rc r ((q, false) :: todo)
          | .removable => minReason seen lev rc r todo
        else (false, todo)

/-- solver.cpp:1476-1498 the loop of recursive `ccRemovable`; the flag of a stack entry is the second component.
`reason x` is the usable antecedent of `x` (`none` if null or of a kind excluded by `antes`). -/
def rmLoop (reason : Lit → Ante) (seen lev : Nat → Bool) (p : Lit) : Nat → Rec → List (Lit × Bool) → Bool → Option (Bool × Rec)
  | 0, _, _, _ => none
  | _ + 1, _, [], _ => none -- pop from the empty stack: not reachable
  | fuel + 1, rec, (x, fl) :: todo, poison =>
    if fl then
      if x = p then some (!poison, rec)
      else rmLoop reason seen lev p fuel (rec.set x.var poison) todo poison
    else if poison then rmLoop reason seen lev p fuel rec todo poison
    else match rec.state x.var with
      | .opn =>
        match reason x with
        | none => rmLoop reason seen lev p fuel rec ((x, true) :: todo) true
        | some r =>
          let (ok, todo) := minReason seen lev (some rec) r ((x, true) :: todo)
          rmLoop reason seen lev p fuel rec todo (!ok)
      | .poison => rmLoop reason seen lev p fuel rec todo true
      | .removable => rmLoop reason seen lev p fuel rec todo false

/-- solver.cpp:1465-1499 `ccRemovable`; `rc = none`: no recursive minimization -/
def ccRemovable (reason : Lit → Ante) (seen lev : Nat → Bool) (fuel : Nat) (rc : Option Rec) (p : Lit) : Option (Bool × Option Rec) :=
  match reason p with
  | none => some (false, rc)
  | some r =>
    match rc with
    | none => some ((minReason seen lev none r []).1, none)
    | some rec => (rmLoop reason seen lev p fuel rec [(p, false)] false).map fun (b, rec) => (b, some rec)

/-- solver.cpp:1434-1447 the loop of `ccMinimize` over `cc[1..]`: kept and removed literals, DFS states -/
def minLoop (reason : Lit → Ante) (seen lev : Nat → Bool) (fuel : Nat) : Option Rec → List Lit → Option (List Lit × List Lit × Option Rec)
  | rc, [] => some ([], [], rc)
  | rc, c :: cc =>
    match ccRemovable reason seen lev fuel rc c.neg with
    | none => none
    | some (b, rc) =>
      match minLoop reason seen lev fuel rc cc with
      | none => none
      | some (keep, rem, rc) => some (if b then (keep, c :: rem, rc) else (c :: keep, rem, rc))

/-- position and level of the first literal of greatest level > 0 (solver.cpp:1429-1443 and 1560-1568) -/
def assertAux (level : Nat → Nat) : List Lit → Nat → Nat × Nat → Nat × Nat
  | [], _, best => best
  | c :: cc, i, best => assertAux level cc (i + 1) (if level c.var > best.2 then (i, level c.var) else best)

/-- `std::swap(cc[1], cc[assertPos])` on `cc[1..]` (solver.cpp:1449-1451, 1574) -/
def swapFront (cc : List Lit) (i : Nat) : List Lit :=
  match cc[0]?, cc[i]? with
  | some a, some b => (cc.set 0 b).set i a
  | _, _ => cc

/-- solver.cpp:1521-1536 `ccResolve(cc, 1, reason)` on `cc[1..]` -/
def ccResolve (seen : Nat → Bool) (cc : List Lit) (reason : List Lit) : List Lit :=
  match cc with
  | [] => []
  | _ :: cc =>
    let cc := cc ++ (reason.filter fun x => !seen x.var).map Lit.neg
    -- cc[pos] = cc.back(); cc.pop_back()
    match cc.getLast? with
    | none => []
    | some b => b :: cc.dropLast

/-- Parameters of the analysis. -/
structure AnaCfg where
  /-- may the reason of this variable be used for minimization (solver.cpp:1434, 1467: `antes`) -/
  use : Nat → Bool
  /-- `ccMin_ != 0`, with the current `epoch_` -/
  rc : Option (Nat → Nat)
  /-- solver.cpp:1349-1360: `ccHasReverseArc(cc[1], jl, maxN)`, `reason` of the antecedent found; arguments: the solver
  (with `cc[0]` marked), the false literal, and its level -/
  arc : St → Lit → Nat → Ante

/-- solver.cpp:1349-1361 with 1521-1536: resolution of `cc[1..]` with the inverse arc of its first literal (if it is the
only one of its level and an arc exists). `seen1`: marks with `cc[0]` marked too. Result: new `cc[1..]`, solver, level marks. -/
def arcStep (arc : St → Lit → Nat → Ante) (st : St) (p : Lit) (cc : List Lit) (jl onAssert : Nat) (lm : Nat → Bool) : List Lit × St × (Nat → Bool) :=
  match cc with
  | [] => (cc, st, lm)
  | c :: _ =>
    if onAssert = 1 then
      let st1 := st.markSeen p.var
      match arc st1 c jl with
      | none => (cc, st, lm)
      | some r =>
        let new := r.filter fun x => !st1.seen x.var
        (ccResolve st1.seen cc r, st.clearSeen c.var,
          Function.update ((new.map fun x => st.level x.var).foldl (fun m l => Function.update m l true) lm) (st.level c.var) false)
    else (cc, st, lm)

/-- Result of conflict analysis. -/
structure AnaRes where
  st : St
  clause : List Lit
  jl : Nat
  lm : Nat → Bool
  epoch : Option (Nat → Nat)

/-- solver.cpp:1216-1283 `analyzeConflict` with 1338-1424 `simplifyConflictClause` and 1543-1575
`finalizeConflictClause`. -/
def analyze (cfg : AnaCfg) (fuel : Nat) (s : St) : Option AnaRes :=
  match anaLoop (s.trail.length + 1) ⟨s, [], 0, fun _ => false⟩ s.conflict with
  | none => none
  | some (a, p) =>
    let reason := fun x : Lit => if cfg.use x.var then a.st.reason x.var else none
    match minLoop reason a.st.seen (fun v => a.lm (a.st.level v)) fuel (cfg.rc.map Rec.start) a.cc with
    | none => none
    | some (keep, rem, rc) =>
      let best := assertAux a.st.level keep 0 (0, 0)
      -- 1344-1346
      let st := rem.foldl (fun s c => s.clearSeen c.var) a.st
      -- 1348-1362; `onAssert` (1437-1442) is the number of kept literals of the asserting level
      let res := arcStep cfg.arc st p (swapFront keep best.1) best.2 (keep.filter fun c => decide (a.st.level c.var = best.2)).length a.lm
      -- finalizeConflictClause
      let best := assertAux a.st.level res.1 0 (0, 0)
      let st := res.1.foldl (fun s c => s.clearSeen c.var) res.2.1
      let lm := (res.1.map fun c => a.st.level c.var).foldl (fun m l => Function.update m l false) res.2.2
      -- 1418-1420
      let lm := (rem.map fun c => a.st.level c.var).foldl (fun m l => Function.update m l false) lm
      some ⟨st, p.neg :: swapFront res.1 best.1, best.2, lm, rc.map Rec.epoch⟩

end Clasp.Core
