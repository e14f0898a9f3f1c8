/-
The search of one solver as a transition system. Each step is one call a solve algorithm makes; which step is taken next
(decisions, restarts, deletion, what external propagators and enumerators do) is not restricted.

Code: src/solver.cpp 485-520 (root level), 823-928 (propagation), 957-994 (conflicts), 1026-1036 (undo), 1625-1640 (decisions),
1839-1890 (`search`), 1648-1803 (`reduceLearnts`), src/clause.cpp 168-320 (adding clauses), src/model_enumerators.cpp 49-235 and
src/enumerator.cpp 109-160 (reporting models).

Simplifications:
* constraints other than clauses and the post propagators are given by the set `E` of assignments they accept; they act by
  forcing literals with reasons (`force`), by adding implied clauses (`implied`), and by accepting total assignments;
* clauses are not shortened and aux variables are not used; conditional knowledge (`tag_`) is not modelled;
* projection with backtracking and domain recording are not modelled.
-/
import Verif.Core.Resolve
namespace Clasp.Core
open St

namespace St

/-- solver.cpp:1871-1873: the assignment reported as model -/
def model (s : St) : Asg := fun v => s.value v == some true

/-- enumerator.cpp:210: no conflict, everything propagated, no free variable among `1..n` -/
structure Total (n : Nat) (s : St) : Prop where
  conf : s.conflict = []
  front : s.front = s.trail.length
  all : ∀ v, v ≤ n → s.value v ≠ none

/-- model_enumerators.cpp:205-228 `BacktrackFinder::doCommitModel` without projection: the level to return to, and `solution` -/
def btCommit (s : St) : St × List Lit :=
  (s.setBacktrackLevel s.dl undoPopBt, [if s.dl = 0 then litFalse else (s.decision s.dl).neg])

/-- model_enumerators.cpp:163-200 `BacktrackFinder::doUpdate`; `none` for the branches used with projection only -/
def btUpdate (learn : Bool) (s : St) (solution : List Lit) : Option (St × Bool) :=
  let s := s.undoUntil learn s.flip undoPopBt
  let rep := Prep.prepareVec s solution false
  if rep = [] ∨ s.isFalse (rep.getD 0 litFalse) = true then some (s.backtrack learn) else none

/-- model_enumerators.cpp:60-65 `RecordFinder::addDecisionNogood` without aux variables -/
def decisionNogood (s : St) : List Lit := (List.range s.dl).map fun i => (s.decision (s.dl - i)).neg

/-- solver.h:574 `trueLit` -/
def trueLit (s : St) (v : Nat) : Lit := ⟨v, !(s.value v == some true)⟩

/-- model_enumerators.cpp:75-84 `RecordFinder::addProjectNogood` without domain heuristics; `project` are the projection
variables, `step` is the step literal -/
def projectNogood (s : St) (n : Nat) (project : Nat → Bool) (step : Lit) : List Lit :=
  (((List.range n).map (· + 1)).filter project).map (fun v => (s.trueLit v).neg) ++ [step.neg]

end St

/-- A solver with the history of its use. `db` is the solver, everything else is bookkeeping for the specification. -/
structure Sys where
  db : Db
  /-- the clauses of the problem -/
  orig : List (List Lit)
  /-- solution recording: the recorded nogoods (as clauses) and the models reported with them -/
  recs : List (List Lit × Asg)
  /-- clause objects that are not learnt -/
  prob : List Nat
  /-- models reported in enumeration by backtracking -/
  found : List Asg
  /-- the assumptions -/
  asm : List Lit

/-- equal on the variables `1..n` selected by `P` -/
def agreeOn (P : Nat → Bool) (n : Nat) (M M' : Asg) : Prop := ∀ v, 1 ≤ v → v ≤ n → P v = true → M v = M' v

namespace Sys

/-- solver.cpp:90-127: an empty solver -/
def init : Sys := ⟨⟨St.init, Graph.empty, fun _ => ⟨litFalse, litFalse, litFalse, [], 0, true⟩, fun _ => [], []⟩, [], [], [], [], []⟩

/-- the assignment, trail and levels of the solver (not in the code: a projection) -/
def st (x : Sys) : St := x.db.st
/-- the solver with another assignment, trail and levels (not in the code) -/
def setSt (x : Sys) (s : St) : Sys := { x with db := { x.db with st := s } }

/-! ### Specification -/

/-- the models of the problem -/
def base (E : Asg → Prop) (x : Sys) (M : Asg) : Prop := M.sat litTrue ∧ E M ∧ ∀ C ∈ x.orig, M.satC C
/-- the models that satisfy the recorded nogoods -/
def core (E : Asg → Prop) (x : Sys) (M : Asg) : Prop := x.base E M ∧ ∀ r ∈ x.recs, M.satC r.1
/-- the models not yet reported by backtracking -/
def todo (E : Asg → Prop) (n : Nat) (x : Sys) (M : Asg) : Prop := x.core E M ∧ ∀ M' ∈ x.found, ¬ agreeOn (fun _ => true) n M M'
/-- `M` makes the literals of level 0 true -/
def zeroSat (x : Sys) (M : Asg) : Prop := ∀ q ∈ x.st.trail, x.st.level q.var = 0 → M.sat q
/-- the models used to judge reasons (`F`), and the models the search has to visit (`G`) -/
def th (E : Asg → Prop) (n : Nat) (x : Sys) : Th :=
  ⟨fun M => x.core E M ∧ x.zeroSat M, fun M => x.todo E n M ∧ x.zeroSat M, fun _ h => ⟨h.1.1, h.2⟩⟩

/-! ### Steps -/

/-- The calls made on a solver. `learn`: whether conflict analysis is enabled; `n`: number of variables; `P`: projection. -/
inductive Step (learn : Bool) (n : Nat) (E : Asg → Prop) (P : Nat → Bool) : Sys → Sys → Prop
  /-- clause.cpp:289-320, 327-338: a clause of the problem -/
  | clause {x : Sys} (C : List Lit) (id : Nat) (simp lr implicit : Bool) (hc : x.st.conflict = []) (hf : x.found = []) (hr : x.recs = [])
      (hid : id ∉ x.db.ids) (hv : ∀ p ∈ C, p.var ≤ n) (hlen : C.length < umax) (hd : simp = true ∨ C.Nodup ∨ C.length ≤ 2) :
      Step learn n E P x { x with
        db := (x.db.createPrepared learn (Prep.prepareVec x.st C simp) id false lr implicit {}).1, orig := C :: x.orig, prob := id :: x.prob }
  /-- a clause that follows from the constraints, e.g. a loop nogood or a clause of another solver -/
  | implied {x : Sys} (C : List Lit) (id : Nat) (simp shared lr implicit : Bool) (f : CFlags) (hc : x.st.conflict = [])
      (hid : id ∉ x.db.ids) (hlen : C.length < umax) (hd : simp = true ∨ C.Nodup ∨ C.length ≤ 2) (hF : ∀ M, x.th E n M → M.satC C) :
      Step learn n E P x { x with db := (x.db.createPrepared learn (Prep.prepareVec x.st C simp) id shared lr implicit f).1 }
  /-- solver.cpp:823-835 -/
  | propagate {x : Sys} (fuel : Nat) (d' : Db) (ok : Bool) (hc : x.st.conflict = []) (h : x.db.propagate learn fuel = some (d', ok)) :
      Step learn n E P x { x with db := d' }
  /-- solver.h:353-360: an external constraint forces `p` because of `r`; a conflict involves the current level -/
  | force {x : Sys} (p : Lit) (r : List Lit) (hc : x.st.conflict = []) (hr : ∀ q ∈ r, x.st.tl q)
      (hF : ∀ M, x.th E n M → M.all r → M.sat p)
      (htop : x.st.isFalse p = true → x.st.dl ≠ x.st.flip → ∃ q ∈ p.neg :: r, q ∈ x.st.trail ∧ x.st.level q.var = x.st.dl) :
      Step learn n E P x (x.setSt (x.st.force learn p (some r)).1)
  /-- solver.cpp:813-821, 1625-1640: a decision after propagation -/
  | decide {x : Sys} (p : Lit) (hc : x.st.conflict = []) (hf : x.st.front = x.st.trail.length) (hp : x.st.value p.var = none) (hv : p.var ≤ n) :
      Step learn n E P x (x.setSt (x.st.decide' p))
  /-- solver.cpp:957-977 -/
  | resolve {x : Sys} (cfg : AnaCfg) (fuel id : Nat) (shared implicit : Bool) (d' : Db) (hc : x.st.conflict ≠ []) (hid : id ∉ x.db.ids)
      (hep : ∀ e, cfg.rc = some e → ∀ v, e v ≤ e 0) (harc : ArcOk (x.th E n).F cfg.arc)
      (h : x.db.resolve learn cfg fuel id shared implicit = some (d', true)) : Step learn n E P x { x with db := d' }
  /-- solver.cpp:1026-1036: restarts, and everything else that undoes levels in the default mode -/
  | undo {x : Sys} (k : Nat) : Step learn n E P x (x.setSt (x.st.undoUntil learn k undoDefault))
  /-- solver.cpp:1648-1803: deletion of a learnt clause -/
  | delete {x : Sys} (id : Nat) (h : id ∉ x.prob) : Step learn n E P x { x with db := x.db.detach id }
  /-- solver.cpp:688-738, clause.cpp 572-600: removal of a clause that is true on level 0 -/
  | removeSat {x : Sys} (id : Nat) (p : Lit) (hi : id ∈ x.db.ids) (hp : p ∈ (x.db.cls id).lits) (ht : x.st.tl p) (hl : x.st.level p.var = 0) :
      Step learn n E P x { x with db := x.db.detach id }
  /-- solver.cpp:489-497: an assumption that is free -/
  | assume {x : Sys} (p : Lit) (hc : x.st.conflict = []) (hd : x.st.dl = x.st.root) (hf : x.st.front = x.st.trail.length)
      (hp : x.st.value p.var = none) (hv : p.var ≤ n) (hfd : x.found = []) (hr : x.recs = []) :
      Step learn n E P x { x.setSt ((x.st.decide' p).pushRootLevel 1) with asm := p :: x.asm }
  /-- solver.cpp:493: an assumption that holds -/
  | assumeTrue {x : Sys} (p : Lit) (hc : x.st.conflict = []) (hd : x.st.dl = x.st.root) (hp : x.st.isTrue p = true)
      (hfd : x.found = []) (hr : x.recs = []) : Step learn n E P x { x with asm := p :: x.asm }
  /-- solver.cpp:583-591: the first decision above the root level becomes an assumption when work is split off -/
  | split {x : Sys} (hc : x.st.conflict = []) (hd : x.st.root < x.st.dl) (hfd : x.found = []) (hr : x.recs = []) :
      Step learn n E P x { x.setSt (x.st.pushRootLevel 1) with asm := x.st.decision (x.st.root + 1) :: x.asm }
  /-- solver.cpp:499-520: assumptions are withdrawn -/
  | popRoot {x : Sys} (k : Nat) (hfd : x.found = []) (hr : x.recs = []) :
      Step learn n E P x { x.setSt (x.st.popRootLevel learn k).1 with
        asm := (List.range (x.st.root - k)).map fun i => x.st.decision (i + 1) }
  /-- the same after backtracking has failed (solver.cpp:981, 536-552) -/
  | popFail {x : Sys} (k : Nat) (hfd : x.found = []) (hr : x.recs = []) (hc : x.st.conflict ≠ []) (hb : (x.st.backtrack learn).2 = false) :
      Step learn n E P x { x.setSt ((x.st.backtrack learn).1.popRootLevel learn k).1 with
        asm := (List.range (x.st.root - k)).map fun i => x.st.decision (i + 1) }
  /-- enumeration by backtracking: model_enumerators.cpp:163-228, enumerator.cpp:209-213 -/
  | modelBt {x : Sys} (ht : x.st.Total n) (hE : E x.st.model) (s' : St)
      (h : x.st.btCommit.1.btUpdate learn x.st.btCommit.2 = some (s', true)) :
      Step learn n E P x { x.setSt s' with found := x.st.model :: x.found }
  /-- enumeration by recording: model_enumerators.cpp:49-97, enumerator.cpp:117-135; the clause is added after undoing to `k`
  (`k ≥ dl`: not at all). Without projection the decisions are recorded. -/
  | modelRec {x : Sys} (ht : x.st.Total n) (hE : E x.st.model) (k id : Nat) (lr implicit : Bool) (C : List Lit) (hfd : x.found = [])
      (hid : id ∉ x.db.ids) (hu : (x.st.undoUntil learn k undoDefault).conflict = []) (hlen : C.length < umax)
      (hC : (C = x.st.decisionNogood ∧ ∀ v, P v = true) ∨ ∃ step, (step = litTrue ∨ (step ∈ x.asm ∧ step.var ≤ n ∧ P step.var = false)) ∧
        C = x.st.projectNogood n P step) :
      Step learn n E P x { x with
        db := (({ x.db with st := x.st.undoUntil learn k undoDefault } : Db).createPrepared learn
          (Prep.prepareVec (x.st.undoUntil learn k undoDefault) C false) id false lr implicit {}).1
        recs := (C, x.st.model) :: x.recs
        prob := id :: x.prob }

/-- The states of a solver. -/
inductive Reach (learn : Bool) (n : Nat) (E : Asg → Prop) (P : Nat → Bool) : Sys → Prop
  | init : Reach learn n E P Sys.init
  | step {x y : Sys} : Reach learn n E P x → Step learn n E P x y → Reach learn n E P y

/-- The ways a solver reports that there are no (more) models. -/
inductive Unsat (learn : Bool) (n : Nat) (E : Asg → Prop) : Sys → Prop
  /-- solve_algorithms.cpp:131-134, solver.cpp:976: a conflict on the root level -/
  | root {x : Sys} (hc : x.st.conflict ≠ []) (hd : x.st.dl = x.st.root) : Unsat learn n E x
  /-- solver.cpp:1863-1866: the conflict cannot be resolved -/
  | resolve {x : Sys} (cfg : AnaCfg) (fuel id : Nat) (shared implicit : Bool) (d' : Db) (hc : x.st.conflict ≠ []) (hid : id ∉ x.db.ids)
      (hep : ∀ e, cfg.rc = some e → ∀ v, e v ≤ e 0) (harc : ArcOk (x.th E n).F cfg.arc)
      (h : x.db.resolve learn cfg fuel id shared implicit = some (d', false)) : Unsat learn n E x

/-- model_enumerators.cpp:169, enumerator.cpp:130-135: no further model after the current one -/
def Last (learn : Bool) (x : Sys) : Prop := ∃ s', x.st.btCommit.1.btUpdate learn x.st.btCommit.2 = some (s', false)

end Sys
end Clasp.Core
