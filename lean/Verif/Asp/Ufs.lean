import Verif.Asp.Completion
import Mathlib.Logic.Function.Basic

/-!
# Unfounded set checking with source pointers (C29)

Model of `DefaultUnfoundedCheck` (src/unfounded_check.cpp, clasp/unfounded_check.h) for programs without
proper disjunctions.

Simplifications:
* no disjunctions: no sentinel atom, no delta bodies, no minimality check (`mini_`);
* nodes are numbered as in the program, not consecutively, and `ExtData` is stored with its body;
* one step: `init` is called once, on a new checker;
* `isF` is `Solver::isFalse` at the time of the call; how the assignment changes is modelled in
  Verif/Asp/UfsRun.lean;
* counters are unbounded; adjacency lists (`adj_`, `sep_`, idMax-terminated) are lists;
* loops over a growing queue get a number of rounds; that it is never reached is proved
  (`Add.propagate` in Verif/Asp/UfsAdd.lean, `Rem.propagate` in Verif/Asp/UfsRem.lean, `FL.loop` in Verif/Asp/UfsLoop.lean).
-/

namespace Clasp.Ufs
open Clasp.Core

/-- `PrgDepGraph::AtomNode` (clasp/dependency_graph.h 137-172): `bodies` are `bodies_begin()..bodies_end()`,
`succs` the normal bodies among the successors, `extSuccs` the extended bodies with the position of the atom;
`choice` is `inChoice`. -/
structure UAtom where
  lit : Lit
  scc : Nat
  bodies : List Nat
  succs : List Nat
  extSuccs : List (Nat × Nat)
  choice : Bool
  deriving DecidableEq, Repr

/-- `PrgDepGraph::BodyNode` (clasp/dependency_graph.h 184-258): `preds` are the subgoals from the same
component, `lits` the other literals of an extended body; weights of normal and count bodies are 1. -/
structure UBody where
  lit : Lit
  scc : Nat
  heads : List Nat
  ext : Bool
  bound : Int
  preds : List (Nat × Int)
  lits : List (Lit × Int)
  deriving DecidableEq, Repr

/-- `PrgDepGraph` (clasp/dependency_graph.h 303-325 `atoms_`, `bodies_`). -/
structure UGraph where
  atoms : List Nat
  bodies : List Nat
  atom : Nat → UAtom
  body : Nat → UBody

/-- The literals visited by `visitBodyLiterals` (clasp/dependency_graph.h 289-296) in this order, with their
weights `pred_weight` (236-240). -/
def UGraph.subs (g : UGraph) (b : Nat) : List (Lit × Int) :=
  ((g.body b).preds.map fun p => ((g.atom p.1).lit, p.2)) ++ (g.body b).lits

/-- The i-th literal of an extended body (clasp/dependency_graph.h 289-296). -/
def UGraph.slit (g : UGraph) (b i : Nat) : Lit := ((g.subs b)[i]?.map Prod.fst).getD litTrue

/-- `BodyNode::pred_weight` (clasp/dependency_graph.h 236-240). -/
def UGraph.weight (g : UGraph) (b i : Nat) : Int := ((g.subs b)[i]?.map Prod.snd).getD 0

/-- `AtomData` (clasp/unfounded_check.h 145-165): `source = none` is `nill_source`. -/
structure AtomData where
  source : Option Nat
  todo : Bool
  ufs : Bool
  valid : Bool

/-- `BodyData` and `ExtData` (clasp/unfounded_check.h 103-143); `ws` are the flags. -/
structure BodyData where
  watches : Nat
  picked : Bool
  lower : Int
  slack : Int
  ws : Nat → Bool

/-- Elements of `invalidQ_` (clasp/unfounded_check.h 96-101, 167-170): `watch_source_false`,
`watch_head_false` and `watch_subgoal_false` with the body and position from `watches_`. -/
inductive Ev
  | source (b : Nat)
  | head (a : Nat)
  | sub (b i : Nat)
  deriving DecidableEq, Repr

/-- The state of the checker (clasp/unfounded_check.h 291-307): `ufs` is the part of `ufs_` from `qFront` on,
`ufsDone` the part before it. -/
structure St where
  atoms : Nat → AtomData
  bodies : Nat → BodyData
  todo : List Nat
  ufs : List Nat
  ufsDone : List Nat
  invalidQ : List Ev
  sourceQ : List Nat

/-- Replace the data of an atom, `atoms_[a] = ...`  (clasp/unfounded_check.h 294). -/
def St.setA (s : St) (a : Nat) (d : AtomData) : St := { s with atoms := Function.update s.atoms a d }
/-- Replace the data of a body, `bodies_[b] = ...` (clasp/unfounded_check.h 295, 300). -/
def St.setB (s : St) (b : Nat) (d : BodyData) : St := { s with bodies := Function.update s.bodies b d }

/-- `pushTodo` (clasp/unfounded_check.h 279). -/
def St.pushTodo (s : St) (a : Nat) : St :=
  if (s.atoms a).todo then s else { s.setA a { s.atoms a with todo := true } with todo := s.todo ++ [a] }

/-- `pushUfs` (clasp/unfounded_check.h 280). -/
def St.pushUfs (s : St) (a : Nat) : St :=
  if (s.atoms a).ufs then s else { s.setA a { s.atoms a with ufs := true } with ufs := s.ufs ++ [a] }

/-- `resetTodo` (clasp/unfounded_check.h 281). -/
def St.resetTodo (s : St) : St :=
  { s.todo.foldl (fun s a => s.setA a { s.atoms a with todo := false }) s with todo := [] }

/-- `resetUfs` (clasp/unfounded_check.h 282). -/
def St.resetUfs (s : St) : St :=
  { s.ufs.foldl (fun s a => s.setA a { s.atoms a with ufs := false }) s with ufs := [], ufsDone := [] }

/-- `ExtData::addToWs` (clasp/unfounded_check.h 119-125) without the assertion. -/
def St.addToWs (g : UGraph) (s : St) (b i : Nat) : St :=
  s.setB b { s.bodies b with ws := Function.update (s.bodies b).ws i true, lower := (s.bodies b).lower - g.weight b i }

/-- `ExtData::removeFromWs` (clasp/unfounded_check.h 131-136). -/
def St.removeFromWs (g : UGraph) (s : St) (b i : Nat) : St :=
  if (s.bodies b).ws i then
    s.setB b { s.bodies b with ws := Function.update (s.bodies b).ws i false, lower := (s.bodies b).lower + g.weight b i }
  else s

/-- `markSourceInvalid` followed by pushing the atom on `sourceQ_` (src/unfounded_check.cpp 350-351, 383-384). -/
def St.invalidate (s : St) (a : Nat) : St :=
  { s.setA a { s.atoms a with valid := false } with sourceQ := s.sourceQ ++ [a] }

/-- `updateSource` (src/unfounded_check.cpp 297-303). -/
def St.updateSource (s : St) (a b : Nat) : St :=
  let s1 := match (s.atoms a).source with
    | some c => s.setB c { s.bodies c with watches := (s.bodies c).watches - 1 }
    | none => s
  let s2 := s1.setA a { s1.atoms a with source := some b, valid := true }
  s2.setB b { s2.bodies b with watches := (s2.bodies b).watches + 1 }

section
variable (g : UGraph) (isF : Lit → Bool)

/-- `setSource` (src/unfounded_check.cpp 363-373). -/
def setSource (s : St) (a b : Nat) : St :=
  if !(s.atoms a).valid && !isF (g.atom a).lit then
    { s.updateSource a b with sourceQ := (s.updateSource a b).sourceQ ++ [a] }
  else s

/-- `forwardSource` (src/unfounded_check.cpp 331-335). -/
def forwardSource (s : St) (b : Nat) : St := (g.body b).heads.foldl (fun s a => setSource g isF s a b) s

/-- One head in the loop of `forwardUnsource` (src/unfounded_check.cpp 349-356). -/
def unsource (s : St) (b : Nat) (add : Bool) (a : Nat) : St :=
  let s1 := if (s.atoms a).valid && (s.atoms a).source == some b then s.invalidate a else s
  if add && (s1.atoms a).source == some b then s1.pushTodo a else s1

/-- The loop of `forwardUnsource` (src/unfounded_check.cpp 339-357): it stops at the first head from another
component. -/
def forwardUnsourceL (b : Nat) (add : Bool) : List Nat → St → St
  | [], s => s
  | a :: r, s => if (g.atom a).scc ≠ (g.body b).scc then s else forwardUnsourceL b add r (unsource s b add a)

/-- `forwardUnsource` (src/unfounded_check.cpp 338-358). -/
def forwardUnsource (s : St) (b : Nat) (add : Bool) : St := forwardUnsourceL g b add (g.body b).heads s

/-- `AddSource::operator()` for a normal body (clasp/unfounded_check.h 225-228). -/
def addSourceN (s : St) (b : Nat) : St :=
  let s1 := s.setB b { s.bodies b with lower := (s.bodies b).lower - 1 }
  if (s1.bodies b).lower == 0 && !isF (g.body b).lit then forwardSource g isF s1 b else s1

/-- `AddSource::operator()` for an extended body (src/unfounded_check.cpp 306-317). -/
def addSourceE (s : St) (b i : Nat) : St :=
  let s1 := if decide (0 < (s.bodies b).lower) || (s.bodies b).watches == 0 then s.addToWs g b i else s
  if !isF (g.body b).lit && decide ((s1.bodies b).lower ≤ 0) then forwardSource g isF s1 b else s1

/-- `RemoveSource::operator()` for a normal body (clasp/unfounded_check.h 236-240). -/
def removeSourceN (s : St) (b : Nat) (add : Bool) : St :=
  let s1 := s.setB b { s.bodies b with lower := (s.bodies b).lower + 1 }
  if (s1.bodies b).lower == 1 && (s1.bodies b).watches != 0 then forwardUnsource g s1 b add else s1

/-- `RemoveSource::operator()` for an extended body (src/unfounded_check.cpp 319-328). -/
def removeSourceE (s : St) (b i : Nat) : St :=
  let s1 := s.removeFromWs g b i
  if decide (0 < (s1.bodies b).lower) && (s1.bodies b).watches != 0 then forwardUnsource g s1 b true else s1

/-- `visitSuccessors(AddSource)` (clasp/dependency_graph.h 163-170). -/
def visitAdd (s : St) (a : Nat) : St :=
  (g.atom a).extSuccs.foldl (fun s x => addSourceE g isF s x.1 x.2) ((g.atom a).succs.foldl (fun s b => addSourceN g isF s b) s)

/-- `visitSuccessors(RemoveSource)` (clasp/dependency_graph.h 163-170). -/
def visitRemove (s : St) (a : Nat) (add : Bool) : St :=
  (g.atom a).extSuccs.foldl (fun s x => removeSourceE g s x.1 x.2) ((g.atom a).succs.foldl (fun s b => removeSourceN g s b add) s)

/-- `propagateSource` (src/unfounded_check.cpp 282-294); the first argument bounds the rounds. -/
def propagateSourceL : Nat → St → St
  | 0, s => s
  | n + 1, s => match s.sourceQ with
    | [] => s
    | a :: r =>
      let s1 := { s with sourceQ := r }
      propagateSourceL n (if (s1.atoms a).valid then visitAdd g isF s1 a else visitRemove g s1 a false)

/-- `propagateSource` (src/unfounded_check.cpp 282-294). -/
def propagateSource (s : St) : St := propagateSourceL g isF g.atoms.length s

/-- One head in the loop of `removeSource` (src/unfounded_check.cpp 380-388). -/
def removeHead (s : St) (b a : Nat) : St :=
  if (s.atoms a).source == some b then (if (s.atoms a).valid then s.invalidate a else s).pushTodo a else s

/-- `removeSource` (src/unfounded_check.cpp 378-390). -/
def removeSource (s : St) (b : Nat) : St :=
  propagateSource g isF ((g.body b).heads.foldl (fun s a => removeHead s b a) s)

/-- One element in the loop of `updateAssignment` (src/unfounded_check.cpp 397-431). -/
def handleEv (s : St) : Ev → St
  | .source b => removeSource g isF s b
  | .head a =>
    match (s.atoms a).source with
    | some b =>
      if (s.atoms a).valid && !isF (g.body b).lit then
        propagateSource g isF (visitRemove g (s.setA a { s.atoms a with valid := false }) a true)
      else s
    | none => s
  | .sub b i =>
    let s1 := s.removeFromWs g b i
    if decide (0 < (s1.bodies b).lower) && (s1.bodies b).watches != 0 && !(s1.bodies b).picked && !isF (g.body b).lit then
      let s2 := removeSource g isF s1 b
      s2.setB b { s2.bodies b with picked := true }
    else s1

/-- `updateAssignment` (src/unfounded_check.cpp 395-437). `pickedExt_` contains the bodies with `picked` set;
resetting it (432-435) is written as resetting the flag of all bodies. -/
def updateAssignment (s : St) : St :=
  let s1 := s.invalidQ.foldl (fun s e => handleEv g isF s e) s
  { s1 with bodies := fun b => { s1.bodies b with picked := false }, invalidQ := [] }

/-- The check of `hasSource()` for a subgoal, which is missing for other literals (src/unfounded_check.cpp 525, 533). -/
def posValid (s : St) (b i : Nat) : Bool := match (g.body b).preds[i]? with
  | some p => (s.atoms p.1).valid
  | none => true

/-- One position in the loops of `isValidSource` (src/unfounded_check.cpp 524-536). -/
def refill (b : Nat) (s : St) (i : Nat) : St :=
  if !(s.bodies b).ws i && !isF (g.slit b i) && posValid g s b i then s.addToWs g b i else s

/-- `isValidSource` (src/unfounded_check.cpp 509-539). -/
def isValidSource (s : St) (b : Nat) : Bool × St :=
  if !(g.body b).ext then (decide ((s.bodies b).lower = 0), s)
  else if 0 < (s.bodies b).lower then
    let s1 := (List.range (g.subs b).length).foldl (refill g isF b) s
    (decide ((s1.bodies b).lower ≤ 0), s1)
  else (true, s)

/-- `addUnsourced` (src/unfounded_check.cpp 543-550). -/
def addUnsourced (s : St) (b : Nat) : St :=
  (g.body b).preds.foldl (fun s p => if !(s.atoms p.1).valid && !isF (g.atom p.1).lit then s.pushUfs p.1 else s) s

/-- The loop over the bodies of an atom in `findSource` (src/unfounded_check.cpp 469-481): true if a source
was found. -/
def tryBodies (a : Nat) : List Nat → St → Bool × St
  | [], s => (false, s)
  | b :: r, s =>
    if isF (g.body b).lit then tryBodies a r s
    else
      let (ok, s1) := if (g.body b).scc ≠ (g.atom a).scc then (true, s) else isValidSource g isF s b
      if ok then
        (true, propagateSource g isF (setSource g isF (s1.setA a { s1.atoms a with ufs := false }) a b))
      else tryBodies a r (addUnsourced g isF s1 b)

/-- The main loop of `findSource` (src/unfounded_check.cpp 464-490); `inv` is `invalidQ_`, `new` is `newSource`. -/
def findLoop : Nat → List Nat → Nat → St → List Nat × Nat × St
  | 0, inv, new, s => (inv, new, s)
  | n + 1, inv, new, s => match s.ufs with
    | [] => (inv, new, s)
    | a :: r =>
      let s0 := { s with ufs := r, ufsDone := s.ufsDone ++ [a] }
      if (s0.atoms a).valid then findLoop n inv (new + 1) (s0.setA a { s0.atoms a with ufs := false })
      else
        let (found, s1) := tryBodies g isF a (g.atom a).bodies s0
        findLoop n (if (s1.atoms a).valid then inv else inv ++ [a]) (if found then new + 1 else new) s1

/-- Adding what is still unfounded (src/unfounded_check.cpp 499-501). -/
def requeue (s : St) (a : Nat) : St :=
  let s1 := s.setA a { s.atoms a with ufs := !(s.atoms a).valid }
  if (s.atoms a).valid then s1 else { s1 with ufs := s1.ufs ++ [a] }

/-- `findSource` (src/unfounded_check.cpp 459-506): true if no unfounded set was found. -/
def findSource (s : St) (a : Nat) : Bool × St :=
  let (inv, new, s1) := findLoop g isF g.atoms.length [] 0 (s.pushUfs a)
  let s2 : St := { s1 with ufs := s1.ufsDone ++ s1.ufs, ufsDone := [] }
  let s3 := if new ≠ 0 then
      let visited := s2.ufs.length
      let s' : St := { s2 with ufs := [] }
      if visited ≠ new then inv.foldl requeue s' else s'
    else s2
  (s3.ufs.isEmpty, s3)

/-- The loop of `findUfs` (src/unfounded_check.cpp 443-451) over `todo_`: true if an unfounded set was found. -/
def todoLoop : List Nat → St → Bool × St
  | [], s => (false, { s with todo := [] })
  | a :: r, s =>
    let s1 := { s.setA a { s.atoms a with todo := false } with todo := r }
    if !(s1.atoms a).valid && !isF (g.atom a).lit then
      let (ok, s2) := findSource g isF s1 a
      if ok then todoLoop r s2 else (true, s2)
    else todoLoop r s1

/-- `findUfs` (src/unfounded_check.cpp 439-453): true is `ufs_poly`, false `ufs_none`. -/
def findUfs (s : St) : Bool × St :=
  let s1 := updateAssignment g isF s
  todoLoop g isF s1.todo s1

/-! ### Initialization -/

/-- `initSuccessors` (src/unfounded_check.cpp 193-202). -/
def initSuccessors (s : St) (b : Nat) : St :=
  if isF (g.body b).lit then s
  else (g.body b).heads.foldl (fun s' a =>
    if (g.atom a).scc ≠ (g.body b).scc ∨ (s.bodies b).lower ≤ 0 then setSource g isF s' a b else s') s

/-- `initBody` and `initExtBody` with `InitExtWatches` (src/unfounded_check.cpp 167-190,
clasp/unfounded_check.h 202-213). -/
def initBody (s : St) (b : Nat) : St :=
  let d := s.bodies b
  let n := (g.subs b).length
  if !(g.body b).ext then initSuccessors g isF (s.setB b { d with lower := ((g.body b).preds.length : Int) }) b
  else
    let s1 := s.setB b { d with lower := (g.body b).bound, slack := -(g.body b).bound, ws := fun _ => false }
    let s2 := (List.range n).foldl (fun s i =>
      let s' := s.setB b { s.bodies b with slack := (s.bodies b).slack + g.weight b i }
      if decide ((g.body b).preds.length ≤ i) && !isF (g.slit b i) then s'.addToWs g b i else s') s1
    initSuccessors g isF s2 b

/-- The state of a new checker (clasp/unfounded_check.h 104, 146). -/
def St.empty : St where
  atoms := fun _ => ⟨none, false, false, false⟩
  bodies := fun _ => ⟨0, false, 0, 0, fun _ => false⟩
  todo := []
  ufs := []
  ufsDone := []
  invalidQ := []
  sourceQ := []

/-- `init` (src/unfounded_check.cpp 117-138): the bodies and source pointers. What follows, forcing the
atoms without source to false, is part of Verif/Asp/UfsRun.lean. -/
def init : St := propagateSource g isF (g.bodies.foldl (initBody g isF) St.empty)

/-! ### Watches -/

/-- The watches of literal `p` (src/unfounded_check.cpp 135, 144-146, 205-209, clasp/unfounded_check.h 205). -/
def UGraph.watches (p : Lit) : List Ev :=
  (g.bodies.filter fun b => decide ((g.body b).lit.neg = p)).map .source ++
  (g.atoms.filter fun a => (g.atom a).choice && decide ((g.atom a).lit.neg = p)).map .head ++
  (g.bodies.filter fun b => (g.body b).ext).flatMap fun b =>
    ((List.range (g.subs b).length).filter fun i => decide ((g.slit b i).neg = p)).map (.sub b)

/-- `propagate` (clasp/unfounded_check.h 185-192). -/
def St.enqueue (s : St) : Ev → St
  | .source b => if (s.bodies b).watches ≠ 0 then { s with invalidQ := s.invalidQ ++ [.source b] } else s
  | e => { s with invalidQ := s.invalidQ ++ [e] }

/-- All calls of `propagate` for a literal that became true (src/solver.cpp 750-800). -/
def St.notify (s : St) (p : Lit) : St := (g.watches p).foldl St.enqueue s

/-! ### Reasons -/

/-- `IN_UFS` (src/unfounded_check.cpp 659). -/
def inUfs (s : St) (a : Nat) : Bool := (s.atoms a).ufs && !isF (g.atom a).lit

/-- The loop of `isExternal` (src/unfounded_check.cpp 658-672): the final value of `S`. -/
def extLoop (s : St) : List (Nat × Int) → Int → Int
  | [], S => S
  | p :: r, S => if S < 0 then S else extLoop s r (if inUfs g isF s p.1 then S - p.2 else S)

/-- `addReasonLit` (src/unfounded_check.cpp 727-736); `seen` means already in the clause. The order of the
literals is left out. -/
def addReasonLit (c : List Lit) (p : Lit) : List Lit := if p ∈ c then c else c ++ [p]

/-- `AddReasonLit` applied to the literals of an extended body (clasp/unfounded_check.h 265-275). -/
def addFalseLits : List (Lit × Int) → Int → List Lit → List Lit
  | [], _, c => c
  | (p, w) :: r, S, c => if isF p && decide (0 ≤ S) then addFalseLits r (S - w) (addReasonLit c p) else addFalseLits r S c

/-- `addIfReason` (src/unfounded_check.cpp 675-692): clause and `pickedExt_`. -/
def addIfReason (s : St) (uScc : Nat) (c : List Lit × List Nat) (b : Nat) : List Lit × List Nat :=
  let n := g.body b
  let inF := isF n.lit
  if !n.ext || n.scc ≠ uScc then
    if inF && !decide (n.lit ∈ c.1) && (decide (n.scc ≠ uScc) || decide (0 ≤ extLoop g isF s n.preds 0)) then
      (addReasonLit c.1 n.lit, c.2)
    else c
  else if b ∈ c.2 then c
  else
    let S := extLoop g isF s n.preds (s.bodies b).slack
    let r := if 0 ≤ S then (if inF then addReasonLit c.1 n.lit else addFalseLits isF (g.subs b) S c.1) else c.1
    (r, c.2 ++ [b])

/-- `computeReason` (src/unfounded_check.cpp 628-643): the literals of the loop clause other than the
unfounded atom. What `finalizeConflictClause` does with it (644-655) is not modelled here. -/
def computeReason (s : St) : List Lit :=
  let uScc := match s.ufs with | a :: _ => (g.atom a).scc | [] => 0
  (s.ufs.foldl (fun c a => if isF (g.atom a).lit then c else (g.atom a).bodies.foldl (addIfReason g isF s uScc) c) ([], [])).1

end

end Clasp.Ufs
