import Verif.Core.Sem
/-!
# The adaptor for theory propagators

Models `ClingoPropagator` (clasp/clingo.h:168-227, src/clingo.cpp:90-395): the object that tells a user's propagator about changes of watched literals, calls
its `check` and undoes changes on backtracking.  The solver is the part the adaptor talks to: trail, levels, queue, watches and undo watches.  It is driven by
arbitrary events: assignments, propagation from the queue, decisions, tests of literals by lookahead, conflicts and backjumps; they may also happen while the
user's callback is active (`Control::addClause`, `Control::propagate`).

Simplifications: the trail of the adaptor has fewer than 2^31 elements, so that an offset is smaller than a value with the check bit; clauses added by the user
appear only as the assignments, conflicts and backjumps they cause (`toClause`, `addClause`, `reason`, `simplify` are left out); the check and undo modes change only in
`init`; variables are not removed; locks are left out; stop conflicts are left out.
-/

namespace Clasp.Clingo
open Clasp.Core (Lit)

/-- src/clingo.cpp:203-222: an element of `undo_`, i.e. an offset into the trail of the adaptor or a variable with the check bit set. -/
inductive Mark
  | pos (n : Nat)
  | chk (v : Nat)
  deriving DecidableEq, Repr

/-- src/clingo.cpp:211: comparison of two elements of `undo_` (the check bit is the highest bit). -/
def Mark.lt : Mark → Mark → Bool
  | .pos a, .pos b => a < b
  | .pos _, .chk _ => true
  | .chk _, .pos _ => false
  | .chk a, .chk b => a < b

/-- src/clingo.cpp:212, 235, 253: is the check bit set? -/
def Mark.isChk : Mark → Bool
  | .pos _ => false
  | .chk _ => true

/-- A call of the user's propagator (Potassco::AbstractPropagator::propagate, undo, check; src/clingo.cpp:238, 243, 284, 289) with the decision level of the solver, and for
`check` the assignment of the solver. -/
inductive Call
  | propagate (l : Nat) (ch : List Lit)
  | undo (l : Nat) (ch : List Lit)
  | check (l : Nat) (tr : List (Lit × Nat))
  deriving DecidableEq, Repr

/-- clasp/clingo.h:210-226 and the part of the solver the adaptor talks to.  Solver: `trail` (literals with their levels), `front` (elements before it were
taken from the queue), decision level `dl`, literals watched by the adaptor, levels with an undo watch of the adaptor (newest first), levels opened by lookahead
(`probe`), conflict.  Adaptor: `trail_`, `undo_` (newest first), `prop_`, `level_`, `front_` (`none` for INT32_MAX), `epoch_`, `propL_`; modes `total`, `fix`, `always`.
Control flow: `busy` (inside `propagate` or `check` of the user), `model` (inside `isModel`), `nest` (the value of `epoch` in `Control::propagate`).  Ghost state: the calls made so far (newest
first), literals whose watch was added when they had already been taken from the queue (`late`), levels on which `check` was called (`seen`), the level on
which `Control::propagate` was called (`nl`), whether this level was removed since then (`hit`), and the
literals that were watched at some time (`wat`). -/
structure St where
  trail : List (Lit × Nat)
  front : Nat
  dl : Nat
  watch : List Lit
  uw : List Nat
  probe : Nat
  confl : Bool
  ptrail : List Lit
  undo : List Mark
  prop : Nat
  lev : Nat
  pfront : Option Int
  epoch : Nat
  propL : Option Nat
  total : Bool
  fix : Bool
  always : Bool
  busy : Bool
  model : Bool
  nest : Option Nat
  log : List Call
  late : List Lit
  seen : List Nat
  nl : Nat
  hit : Bool
  wat : List Lit
  deriving DecidableEq, Repr

/-- src/clingo.cpp:167-170 and the start of a solver. -/
def St.start : St :=
  { trail := [], front := 0, dl := 0, watch := [], uw := [], probe := 0, confl := false, ptrail := [], undo := [], prop := 0, lev := 0, pfront := some (-1),
    epoch := 0, propL := none, total := true, fix := false, always := false, busy := false, model := false, nest := none, log := [], late := [], seen := [], nl := 0, hit := false, wat := [] }

/-- clasp/solver.h `level(v)`: the level of a variable (0 if it is not assigned). -/
def St.levelOf (σ : St) (v : Nat) : Nat := ((σ.trail.find? fun e => e.1.var == v).map Prod.snd).getD 0

/-- clasp/solver.h `decision(dl)`: the first literal of a level. -/
def St.decision (σ : St) (l : Nat) : Lit := ((σ.trail.find? fun e => e.2 == l).map Prod.fst).getD ⟨0, false⟩

/-- Is the literal's variable unassigned? (clasp/solver.h `value(v) == value_free`) -/
def St.isFree (σ : St) (p : Lit) : Bool := σ.trail.all fun e => e.1.var != p.var

/-- src/clingo.cpp:203-217 `registerUndo`; `none` if a requirement is violated. -/
def registerUndo (σ : St) (d : Mark) : Option St :=
  if σ.dl ≠ σ.lev then
    if σ.dl > σ.lev then some { σ with uw := σ.dl :: σ.uw, lev := σ.dl, undo := d :: σ.undo } else none
  else
    match σ.undo with
    | [] => some σ
    | b :: bs => if d.lt b then (if b.isChk then some { σ with undo := d :: bs } else none) else some σ

/-- src/clingo.cpp:218-222 `registerUndoCheck`. -/
def registerUndoCheck (σ : St) : Option St :=
  if σ.dl ≠ 0 then registerUndo σ (.chk (σ.decision σ.dl).var) else some σ

/-- src/clingo.cpp:224-228 `propagate`: a watched literal was taken from the queue. -/
def notify (σ : St) (p : Lit) : Option St :=
  match registerUndo σ (.pos σ.ptrail.length) with
  | none => none
  | some τ => some { τ with ptrail := τ.ptrail ++ [p] }

/-- src/clingo.cpp:235-239: an empty change list is undone in mode Always. -/
def undoEmpty (σ : St) (b : Mark) : St :=
  if b.isChk ∧ σ.always then { σ with log := .undo σ.dl [] :: σ.log, epoch := σ.epoch + 1 } else σ

/-- src/clingo.cpp:241-249: changes are undone, or an active call of `Control::propagate` is told that its level is gone. -/
def undoChanges (σ : St) (b : Mark) : St :=
  match b with
  | .pos n =>
    if σ.prop > n then
      { σ with log := .undo σ.dl ((σ.ptrail.drop n).take (σ.prop - n)) :: σ.log, epoch := σ.epoch + 1, prop := n }
    else if some σ.lev = σ.propL then { σ with propL := none, epoch := σ.epoch + 1 } else σ
  | .chk _ => if some σ.lev = σ.propL then { σ with propL := none, epoch := σ.epoch + 1 } else σ

/-- src/clingo.cpp:251-254: the position of the last check is forgotten, the trail is cut off. -/
def undoTrail (σ : St) (b : Mark) : St :=
  match b with
  | .pos n => { σ with pfront := σ.pfront.map fun _ => -1, ptrail := σ.ptrail.take n }
  | .chk _ => { σ with pfront := σ.pfront.map fun _ => -1 }

/-- src/clingo.cpp:256-269: the highest level that is left. -/
def undoLev (σ : St) : Option St :=
  match σ.undo with
  | [] => some { σ with lev := 0 }
  | .chk v :: _ => some { σ with lev := σ.levelOf v }
  | .pos n :: _ =>
    match σ.ptrail[n]? with
    | none => none
    | some q => some { σ with lev := σ.levelOf q.var }

/-- src/clingo.cpp:230-271 `undoLevel`; `none` if a requirement is violated. -/
def undoLevel (σ : St) : Option St :=
  if σ.dl ≠ σ.lev then none
  else
    match σ.undo with
    | [] => none
    | b :: bs => undoLev (undoTrail (undoChanges (undoEmpty { σ with undo := bs } b) b) b)

/-- src/solver.cpp:1105-1116 `Solver::undoLevel`: the assignments of the level are removed, then the undo watches are notified. -/
def popLevel (σ : St) : Option St :=
  let tr := σ.trail.filter fun e => e.2 < σ.dl
  let σ1 := { σ with trail := tr, front := tr.length, confl := false, seen := σ.seen.filter (· < σ.dl), hit := σ.hit || σ.dl ≤ σ.nl,
                     late := σ.late.filter fun p => tr.any fun e => e.1 == p }
  match (σ.uw.filter (· == σ.dl)).foldlM (fun τ _ => undoLevel τ) σ1 with
  | none => none
  | some τ => some { τ with uw := σ.uw.filter (· != σ.dl), dl := σ.dl - 1, probe := σ.probe - 1 }

/-- src/solver.cpp:878-928 `unitPropagate`: the next literal of the queue; only the watches of the adaptor matter. -/
def dequeue (σ : St) : Option St :=
  match σ.trail[σ.front]? with
  | none => some σ
  | some e => if e.1 ∈ σ.watch then notify { σ with front := σ.front + 1 } e.1 else some { σ with front := σ.front + 1 }

/-- src/clingo.cpp:278-285: new changes are passed to the user's propagator. -/
def callProp (σ : St) : Option St :=
  match (σ.ptrail.drop σ.prop) with
  | [] => none
  | p :: ps =>
    if σ.levelOf p.var = σ.dl then
      some { σ with prop := σ.ptrail.length, log := .propagate σ.dl (p :: ps) :: σ.log, epoch := σ.epoch + 1, busy := true }
    else none

/-- src/clingo.cpp:286-290: the user's propagator is asked to check the assignment. -/
def callCheck (σ : St) : Option St :=
  match registerUndoCheck σ with
  | none => none
  | some τ => some { τ with pfront := some τ.trail.length, log := .check τ.dl τ.trail :: τ.log, epoch := τ.epoch + 1, busy := true, seen := τ.dl :: τ.seen }

/-- src/clingo.cpp:277: `front_ < numAssignedVars`. -/
def behind (σ : St) : Bool :=
  match σ.pfront with
  | none => false
  | some f => f < σ.trail.length

/-- src/clingo.cpp:138-155 `Control::addWatch`; `ini` is the state flag `state_init`. -/
def addWatch (σ : St) (p : Lit) (ini : Bool) : Option St :=
  if p ∈ σ.watch then some σ
  else
    let done : Bool := (σ.trail.take σ.front).any fun e => e.1 == p
    let inQ : Bool := (σ.trail.drop σ.front).any fun e => e.1 == p
    let σ1 := { σ with watch := p :: σ.watch, wat := p :: σ.wat, late := if done ∧ ¬ ini then p :: σ.late else σ.late }
    if ini ∧ done ∧ ¬ inQ ∧ p ∉ σ.ptrail then notify σ1 p else some σ1

/-- src/clingo.cpp:156-161 `Control::removeWatch`. -/
def removeWatch (σ : St) (p : Lit) : St := { σ with watch := σ.watch.filter (· ≠ p) }

/-- src/clingo.cpp:188-197 `init`, without the watches (see `addWatch`). -/
def init (σ : St) (total fix always : Bool) : St := { σ with total, fix, always, pfront := if fix then some (-1) else none }

/-- src/clingo.cpp:117-128 `Control::propagate`, before the propagation. -/
def ctrlBegin (σ : St) : Option St :=
  match registerUndoCheck σ with
  | none => none
  | some τ => some { τ with nest := some τ.epoch, propL := some τ.dl, nl := τ.dl, hit := false }

/-- src/clingo.cpp:126-127 `Control::propagate`, after the propagation. -/
def ctrlEnd (σ : St) : St := { σ with nest := none, propL := none }

/-- src/clingo.cpp:126: `Control::propagate` returns true (if propagation was successful). -/
def ctrlOk (σ : St) : Bool := σ.nest = some σ.epoch

/-- src/clingo.cpp:379-387 `isModel`: begin. -/
def modelBegin (σ : St) : St := { σ with pfront := some (-1), model := true }

/-- src/clingo.cpp:384 `isModel`: end. -/
def modelEnd (σ : St) : St := { σ with pfront := if σ.fix then σ.pfront else none, model := false }

/-- src/clingo.cpp:277: the loop of `propagateFixpoint` is left. -/
def settled (σ : St) : Bool := σ.prop = σ.ptrail.length ∧ ¬ behind σ

/-- Specification of the environment: the events.  `propagateFixpoint` (src/clingo.cpp:273-297) is called with an empty queue when no test of lookahead is active; a decision is made
after propagation has come to an end without conflict (src/solver.cpp:828-835, 1860-1880); lookahead tests literals also before the adaptor was called since its priority is
higher (src/solver.cpp:941-956); after a conflict the queue is emptied (src/solver.cpp:823-826) and the level is removed. -/
inductive Step : St → St → Prop
  | assign {σ} (p : Lit) : σ.confl = false → σ.isFree p = true → Step σ { σ with trail := σ.trail ++ [(p, σ.dl)] }
  | dequeue {σ τ} : σ.confl = false → dequeue σ = some τ → Step σ τ
  | conflict {σ} : Step σ { σ with confl := true, front := σ.trail.length }
  | decide {σ} (p : Lit) : σ.confl = false → σ.isFree p = true → σ.front = σ.trail.length → σ.busy = false → σ.model = false → σ.probe = 0 → settled σ = true →
      Step σ { σ with dl := σ.dl + 1, trail := σ.trail ++ [(p, σ.dl + 1)] }
  | test {σ} (p : Lit) : σ.confl = false → σ.isFree p = true → σ.front = σ.trail.length →
      Step σ { σ with dl := σ.dl + 1, trail := σ.trail ++ [(p, σ.dl + 1)], probe := σ.probe + 1 }
  | pop {σ τ} : 0 < σ.dl → popLevel σ = some τ → Step σ τ
  | propagate {σ τ} : σ.confl = false → σ.busy = false → σ.probe = 0 → σ.front = σ.trail.length → σ.prop ≠ σ.ptrail.length → callProp σ = some τ → Step σ τ
  | check {σ τ} : σ.confl = false → σ.busy = false → σ.probe = 0 → σ.front = σ.trail.length → σ.prop = σ.ptrail.length → behind σ = true → callCheck σ = some τ → Step σ τ
  | ret {σ} : σ.busy = true → σ.nest = none → Step σ { σ with busy := false }
  | ctrlBegin {σ τ} : σ.confl = false → σ.busy = true → σ.nest = none → ctrlBegin σ = some τ → Step σ τ
  | ctrlEnd {σ} : σ.nest.isSome → Step σ (ctrlEnd σ)
  | addWatch {σ τ} (p : Lit) : σ.busy = true → addWatch σ p false = some τ → Step σ τ
  | initWatch {σ τ} (p : Lit) : σ.busy = false → σ.model = false → σ.confl = false → σ.dl = 0 → addWatch σ p true = some τ → Step σ τ
  | removeWatch {σ} (p : Lit) : σ.busy = true ∨ (σ.model = false ∧ σ.dl = 0) → Step σ (removeWatch σ p)
  | init {σ} (t f a : Bool) : σ.busy = false → σ.model = false → σ.dl = 0 → Step σ (init σ t f a)
  | modelBegin {σ} : σ.confl = false → σ.busy = false → σ.model = false → σ.probe = 0 → σ.total = true → settled σ = true → Step σ (modelBegin σ)
  | modelEnd {σ} : σ.model = true → σ.busy = false → Step σ (modelEnd σ)

/-- Specification: the reachable states. -/
inductive Reach : St → Prop
  | start : Reach St.start
  | step {σ τ} : Reach σ → Step σ τ → Reach τ

/-- Specification: what the user's propagator knows after a sequence of calls (newest first): the literals it was told about and that were not undone, with
their levels.  An `undo` of a level has to pass exactly the literals of this level, and there may be none of higher levels. -/
inductive View : List Call → List (Nat × Lit) → Prop
  | nil : View [] []
  | propagate {L v} (l ch) : View L v → View (.propagate l ch :: L) (v ++ ch.map fun p => (l, p))
  | undo {L v} (l ch) : View L (v ++ ch.map fun p => (l, p)) → (∀ x ∈ v, x.1 < l) → View (.undo l ch :: L) v
  | check {L v} (l tr) : View L v → View (.check l tr :: L) v

/-- Specification: the assignment seen by the last call of `check`. -/
def lastCheck : List Call → Option (List (Lit × Nat))
  | [] => none
  | .check _ tr :: _ => some tr
  | .propagate _ _ :: L => lastCheck L
  | .undo _ _ :: L => lastCheck L

end Clasp.Clingo
