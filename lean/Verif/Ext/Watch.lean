import Verif.Core.Sem
/-!
# Registration of watches for theory propagators

Models `ClingoPropagatorInit` (clasp/clingo.h:78-166, src/clingo.cpp:389-513): watches of a propagator are registered for all solvers or for one of them, over several
solving steps, and are passed on to a solver when it is attached in a step.

Simplifications: literals are integers as in the interface; step numbers do not overflow; the watches of a solver are only changed by `init` (not by the propagator inside its callbacks).
-/

namespace Clasp.Watch

/-- clasp/clingo.h:139 `Action`. -/
inductive Action
  | remove
  | add
  | freeze
  deriving DecidableEq, Repr

/-- clasp/clingo.h:141-149 `Change`. -/
structure Change where
  lit : Int
  sId : Int
  act : Action
  deriving DecidableEq, Repr

/-- src/clingo.cpp:396-399: order by variable, then by literal. -/
def Change.lt (a b : Change) : Bool := if a.lit.natAbs ≠ b.lit.natAbs then a.lit.natAbs < b.lit.natAbs else a.lit < b.lit

/-- The order as needed for stable sorting: `b` is not smaller than `a` (src/clingo.cpp:432, 498). -/
def Change.le (a b : Change) : Bool := !(b.lt a)

/-- src/clingo.cpp:400-402 `solverMask`. -/
def Change.mask (c : Change) : BitVec 64 := if 0 ≤ c.sId ∧ c.sId ≤ 63 then 1#64 <<< c.sId.toNat else BitVec.allOnes 64

/-- src/clingo.cpp:403-409 `apply`: the watches of a solver. -/
def Change.apply (W : List Int) (c : Change) : List Int :=
  match c.act with
  | .add => if c.lit ∈ W then W else c.lit :: W
  | .remove => W.filter (· ≠ c.lit)
  | .freeze => W

/-- clasp/clingo.h:117-130: the calls of the interface. -/
inductive Op
  | addAll (p : Int)
  | addFor (i : Nat) (p : Int)
  | removeAll (p : Int)
  | removeFor (i : Nat) (p : Int)
  | freeze (p : Int)
  deriving DecidableEq, Repr

/-- src/clingo.cpp:460-481: the change stored for a call. -/
def Op.change : Op → Change
  | .addAll p => ⟨p, -1, .add⟩
  | .addFor i p => ⟨p, i, .add⟩
  | .removeAll p => ⟨p, -1, .remove⟩
  | .removeFor i p => ⟨p, i, .remove⟩
  | .freeze p => ⟨p, 64, .freeze⟩

/-- src/clingo.cpp:466, 477: the requirement `sId < 64`. -/
def Op.ok : Op → Bool
  | .addFor i _ => i < 64
  | .removeFor i _ => i < 64
  | _ => true

/-- src/clingo.cpp:411-425 `History`: the masks of literals; `keys` are the literals that were ever inserted (an erased entry has mask 0). -/
structure Hist where
  keys : List Int
  mask : Int → BitVec 64

/-- src/clingo.cpp:412-424 `History::add`. -/
def Hist.add (h : Hist) (c : Change) : Hist :=
  match c.act with
  | .add => { keys := c.lit :: h.keys, mask := fun p => if p = c.lit then h.mask p ||| c.mask else h.mask p }
  | .remove => { h with mask := fun p => if p = c.lit then h.mask p &&& ~~~ c.mask else h.mask p }
  | .freeze => h

/-- src/clingo.cpp:433-446: the loop over the changes for one literal: its mask and whether it is frozen. -/
def group (cs : List Change) : BitVec 64 × Bool :=
  cs.foldl (fun x c => match c.act with | .add => (x.1 ||| c.mask, x.2) | .remove => (x.1 &&& ~~~ c.mask, x.2) | .freeze => (x.1, true)) (0, false)

/-- src/clingo.cpp:433-447: the variables frozen by the loop over the sorted changes. -/
def frozen : Nat → List Change → List Nat
  | 0, _ => []
  | _, [] => []
  | n + 1, c :: cs =>
    let g := group (c :: cs.takeWhile fun d => d.lit = c.lit)
    let rest := frozen n (cs.dropWhile fun d => d.lit = c.lit)
    if g.2 ∨ g.1 ≠ 0 then c.lit.natAbs :: rest else rest

/-- src/clingo.cpp:491-496: is the change for the solver? -/
def forSolver (i : Nat) (c : Change) : Bool := c.sId < 0 ∨ c.sId = i

/-- src/clingo.cpp:490, 493: are the changes sorted already? -/
def isSorted : List Change → Bool
  | [] => true
  | [_] => true
  | c :: d :: cs => !(d.lt c) && isSorted (d :: cs)

/-- src/clingo.cpp:499-504: all but the last of consecutive changes for a literal are skipped. -/
def lastOnly : List Change → List Change
  | [] => []
  | [c] => [c]
  | c :: d :: cs => if d.lit = c.lit then lastOnly (d :: cs) else c :: lastOnly (d :: cs)

/-- src/clingo.cpp:488-504: the changes are applied to a solver. -/
def applyChanges (cs : List Change) (i : Nat) (W : List Int) : List Int :=
  let mine := cs.filter (forSolver i)
  (lastOnly (if isSorted mine then mine else mine.mergeSort Change.le)).foldl Change.apply W

/-- src/clingo.cpp:483-507, clasp/clingo.h:151-159: the registration object; `last` and `watch` belong to the solvers.  `hist` is only used if the history is enabled.  Ghost
state: `skipped`, the solvers that were not attached in a step after they had been attached before, or that were first attached after the first step without history. -/
structure St where
  enabled : Bool
  hist : Hist
  changes : List Change
  step : Nat
  last : Nat → Nat
  watch : Nat → List Int
  frozen : List Nat
  skipped : Nat → Bool

/-- src/clingo.cpp:427-429: the start. -/
def St.start (enabled : Bool) : St :=
  { enabled, hist := ⟨[], fun _ => 0⟩, changes := [], step := 1, last := fun _ => 0, watch := fun _ => [], frozen := [], skipped := fun _ => false }

/-- src/clingo.cpp:460-481: a call is recorded. -/
def record (σ : St) (o : Op) : St := { σ with changes := σ.changes ++ [o.change] }

/-- src/clingo.cpp:431-448 `prepare`. -/
def prepare (σ : St) : St :=
  let cs := σ.changes.mergeSort Change.le
  { σ with changes := cs, frozen := frozen cs.length cs ++ σ.frozen }

/-- src/clingo.cpp:449-457 `unfreeze`. -/
def unfreeze (σ : St) : St :=
  { σ with hist := if σ.enabled then σ.changes.foldl Hist.add σ.hist else σ.hist, changes := [], step := σ.step + 1 }

/-- src/clingo.cpp:484-489: watches from earlier steps. -/
def fromHist (σ : St) (i : Nat) : List Int :=
  if σ.enabled ∧ σ.step - σ.last i > 1 then
    (σ.hist.keys.filter fun p => (σ.hist.mask p).getLsbD i).foldl (fun W p => Change.apply W ⟨p, i, .add⟩) (σ.watch i)
  else σ.watch i

/-- src/clingo.cpp:483-506 `init` for solver `i`. -/
def init (σ : St) (i : Nat) : St :=
  let W := applyChanges σ.changes i (fromHist σ i)
  { σ with watch := fun j => if j = i then W else σ.watch j, last := fun j => if j = i then σ.step else σ.last j,
           skipped := fun j => if j = i then σ.skipped i || (decide (1 < σ.step - σ.last i) && (decide (σ.last i ≠ 0) || !σ.enabled)) else σ.skipped j }

/-- Specification: does solver `i` have to watch `p` after the calls, if it did before (`b`)? -/
def want (i : Nat) (p : Int) : Bool → List Op → Bool
  | b, [] => b
  | b, .addAll q :: os => want i p (if q = p then true else b) os
  | b, .addFor j q :: os => want i p (if q = p ∧ j = i then true else b) os
  | b, .removeAll q :: os => want i p (if q = p then false else b) os
  | b, .removeFor j q :: os => want i p (if q = p ∧ j = i then false else b) os
  | b, .freeze _ :: os => want i p b os

/-- Specification of the environment: calls, `prepare` once the calls of a step are made, attaching of solvers, end of the step.  `ops` are all calls so far, `cur` those of the
current step; `open_` is true until the step's preparation. -/
inductive Reach (e : Bool) : St → (old cur : List Op) → (open_ : Bool) → Prop
  | start : Reach e (St.start e) [] [] true
  | op {σ old cur} (o : Op) : Reach e σ old cur true → o.ok = true → Reach e (record σ o) old (cur ++ [o]) true
  | prepare {σ old cur} : Reach e σ old cur true → Reach e (prepare σ) old cur false
  | init {σ old cur} (i : Nat) : i < 64 → Reach e σ old cur false → Reach e (init σ i) old cur false
  | unfreeze {σ old cur} : Reach e σ old cur false → Reach e (unfreeze σ) (old ++ cur) [] true

end Clasp.Watch
