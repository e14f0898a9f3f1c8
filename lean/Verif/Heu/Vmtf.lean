import Mathlib.Data.List.Nodup
import Mathlib.Tactic.SplitIfs
/-!
# Model of the move-to-front heuristic

`ClaspVmtf` (src/heuristics.cpp, clasp/heuristics.h): a doubly linked list of variables in an array, with variable 0 as its sentinel, a current front, and the
choice of the next decision variable.
-/

namespace Clasp.Heu

/-- clasp/heuristics.h:166-234 `ClaspVmtf`. `nx` and `pv` are the fields `next_` and `prev_` of `score_` (total here: that `score_` is long enough is not modelled), `front` is `front_`.
`act` is the decayed activity of a variable; any change of activities is an event. The solver: `n` is `numVars()`, `tr` the variables of the trail, `elim` the eliminated variables,
`base` the length of the part of the trail that is known to be on level 0 (src/solver.cpp:684-697, `lastSimp_`).
Not in the code: `ready` says that `endInit` was called after the last change of the problem;
`again` marks that a variable was added to the list while it was its only element, `stuck` that a variable that does not exist any more was left in the list because it was its
only element, `stale` that the variable `front` was removed. -/
structure Vm where
  nx : Nat → Nat
  pv : Nat → Nat
  front : Nat
  act : Nat → Nat
  n : Nat
  tr : List Nat
  elim : Nat → Bool
  base : Nat
  ready : Bool
  again : Bool
  stuck : Bool
  stale : Bool

/-- Assigning one entry of an array (`score_[k].next_ = v`, src/heuristics.cpp:366). -/
def upd (f : Nat → Nat) (k v : Nat) : Nat → Nat := fun i => if i = k then v else f i

/-- clasp/solver.h:561 `value(v) == value_free`; `none` if `v` is no variable of the solver (the sentinel variable 0 is always assigned). -/
def Vm.isFree (s : Vm) (v : Nat) : Option Bool := if s.n < v then none else some (v ≠ 0 && !s.tr.contains v && !s.elim v)

/-- clasp/heuristics.h:205 `inList`. -/
def Vm.inList (s : Vm) (v : Nat) : Bool := s.pv v != s.nx v

/-- Not in the code: `v` is the only element of the list. -/
def Vm.only (s : Vm) (v : Nat) : Bool := s.nx 0 == v

/-- src/heuristics.cpp:362-371 `addToList`. -/
def Vm.add (s : Vm) (v : Nat) : Vm :=
  let tl := s.pv 0
  { s with nx := upd (upd s.nx v 0) tl v, pv := upd (upd s.pv v tl) 0 v }

/-- src/heuristics.cpp:373-380 `removeFromList`. -/
def Vm.rem (s : Vm) (v : Nat) : Vm :=
  let pv := upd s.pv (s.nx v) (s.pv v)
  -- the link of `v` may just have been changed
  let nx := upd s.nx (pv v) (s.nx v)
  { s with nx := upd nx v 0, pv := upd pv v 0 }

/-- src/heuristics.cpp:382-392 `moveToFront`. -/
def Vm.move (s : Vm) (v : Nat) : Vm :=
  if s.nx 0 = v then s else
    let s := s.rem v
    let ph := s.nx 0
    let nx := upd s.nx v ph
    let pv := upd s.pv ph v
    { s with nx := upd nx 0 v, pv := upd pv v 0 }

/-- clasp/heuristics.h:189 `getFront`: the front is the first element again. -/
def Vm.home (s : Vm) : Vm := { s with front := s.nx 0, stale := false }

/-- src/heuristics.cpp:394-434 `endInit` without the order of new variables, which is given by `vs`. -/
def Vm.addNew (s : Vm) : List Nat → Vm
  | [] => s
  | v :: vs => (if s.inList v then s else { s.add v with again := s.again || s.only v }).addNew vs

/-- src/heuristics.cpp:394-434 `endInit`; `vs` are the free variables in the order in which they are added. -/
def Vm.endInit (s : Vm) (vs : List Nat) : Vm := { (s.addNew vs).home with ready := true, base := s.tr.length }

/-- src/heuristics.cpp:437-443 `updateVar` for a new variable, with src/solver.cpp:385-392 `pushAuxVar`. -/
def Vm.pushAux (s : Vm) : Vm :=
  let v := s.n + 1
  let s := { s with n := v, elim := fun w => if w = v then false else s.elim w }
  if s.inList v then s.home else { s.add v with again := s.again || s.only v }

/-- src/heuristics.cpp:446-450: variables are removed, the last one first. -/
def Vm.dropVars (s : Vm) : List Nat → Vm
  | [] => s
  | v :: vs => (if s.inList v then { s.rem v with stale := s.stale || s.front == v } else { s with stuck := s.stuck || s.only v }).dropVars vs

/-- src/heuristics.cpp:444-451 `updateVar` for removed variables, with src/solver.cpp:411-474 `popVars`. -/
def Vm.popAux (s : Vm) (k : Nat) : Vm :=
  ({ s with n := s.n - k, tr := s.tr.filter (· ≤ s.n - k), base := ((s.tr.take s.base).filter (· ≤ s.n - k)).length } : Vm).dropVars (List.range' (s.n - k + 1) k).reverse

/-- src/heuristics.cpp:455-459: fixed variables are removed. -/
def Vm.dropFixed (s : Vm) : List Nat → Vm
  | [] => s
  | v :: vs => (if s.inList v then s.rem v else s).dropFixed vs

/-- src/heuristics.cpp:454-461 `simplify`. -/
def Vm.simplify (s : Vm) (i : Nat) : Vm := { (s.dropFixed (s.tr.drop i)).home with base := s.tr.length }

/-- src/heuristics.cpp:485-490: the chosen variables are moved to the front. -/
def Vm.moveAll (s : Vm) : List Nat → Vm
  | [] => s
  | v :: vs => (if s.inList v then s.move v else s).moveAll vs

/-- src/heuristics.cpp:463-494 `newConstraint` for a learnt constraint; `vs` are the variables in `mtf_`, which are variables of the constraint. -/
def Vm.learn (s : Vm) (vs : List Nat) : Vm := (s.moveAll vs).home

/-- src/heuristics.cpp:496-498 `undoUntil`. -/
def Vm.tell (s : Vm) : Vm := s.home

/-- src/heuristics.cpp:520 and 525-528: the next free variable from `v` on; `f` bounds the number of steps of the loop, which has no bound in the code. -/
def Vm.scan (s : Vm) : Nat → Nat → Option Nat
  | 0, _ => none
  | f + 1, v =>
    match s.isFree v with
    | none => none
    | some true => some v
    | some false => s.scan f (s.nx v)

/-- src/heuristics.cpp:518-537 `doSelect`; `free` is the result of `numFreeVars()`, `dist` the value of `distance`. The sign of the literal is not modelled. -/
def Vm.select (s : Vm) (f : Nat) (free dist : Nat) : Option (Nat × Vm) :=
  match s.scan f s.front with
  | none => none
  | some v =>
    let s := { s with front := v }
    if 1 < free then
      match s.scan f (s.nx v) with
      | none => none
      | some v2 => if s.act v2 < s.act v + 2 * dist + 3 then some (v, s) else some (v2, s)
    else some (v, s)

/-- clasp/solver.h:559 `numFreeVars`: the number of free variables. -/
def Vm.numFree (s : Vm) : Nat := ((List.range' 1 s.n).filter fun v => s.isFree v == some true).length

/-- The calls the solver makes (src/solver.cpp:252, 286, 390, 472, 695, 1021, 1218, 1405, 1522; src/clause.cpp:300, 341, 913; clasp/solver.h:1047) and the changes of its
assignment. `setup`: anything that happens while a problem is set up; `score`: activities change. -/
inductive VmEv where
  | setup (n : Nat) (tr : List Nat) (elim : Nat → Bool)
  | endInit (vs : List Nat)
  | assign (v : Nat)
  | score (act : Nat → Nat)
  | learn (vs : List Nat)
  | tell
  | pop
  | simplify (i : Nat)
  | pushAux
  | popAux (k : Nat)
  | select (f dist : Nat)

/-- What the solver guarantees about its calls, as for `VsEv.can`: assigned variables were free (clasp/solver_types.h:559-582), variables assigned on
level 0 stay assigned, `simplify` (src/solver.cpp:686) and `endInit` are called on level 0, a decision is only made with a free variable (clasp/solver.h:1047); `endInit` adds all free variables (src/heuristics.cpp:398-431); variable 0 is not on the trail; learnt constraints are over
existing variables; variables of earlier problems stay (src/shared_context.cpp:917-934 `popVars` is not modelled). -/
def VmEv.can (s : Vm) : VmEv → Prop
  | .setup n tr _ => s.n ≤ n ∧ ∀ v ∈ tr, v ≠ 0 ∧ v ≤ n
  | .endInit vs => vs.Nodup ∧ ∀ v, v ∈ vs ↔ s.isFree v = some true
  | .assign v => s.isFree v = some true
  | .score _ => True
  | .learn vs => ∀ v ∈ vs, v ≠ 0 ∧ v ≤ s.n
  | .tell => True
  | .pop => s.base < s.tr.length
  | .simplify _ => True
  | .pushAux => True
  | .popAux k => k ≤ s.n
  | .select _ _ => s.ready = true ∧ ∃ v, s.isFree v = some true

/-- The effect of a call; the functions cite the code. -/
def VmEv.exec (s : Vm) : VmEv → Option Vm
  | .setup n tr elim => some { s with n := n, tr := tr, elim := elim, base := tr.length, ready := false }
  | .endInit vs => some (s.endInit vs)
  | .assign v => some { s with tr := s.tr ++ [v] }
  | .score act => some { s with act := act }
  | .learn vs => some (s.learn vs)
  | .tell => some s.tell
  | .pop => some { s with tr := s.tr.dropLast }
  | .simplify i => some (s.simplify i)
  | .pushAux => some s.pushAux
  | .popAux k => some (s.popAux k)
  | .select f dist => (s.select f s.numFree dist).map (·.2)

/-- src/heuristics.cpp:345-347: the heuristic of a new solver. -/
def Vm.init : Vm := ⟨fun _ => 0, fun _ => 0, 0, fun _ => 0, 0, [], fun _ => false, 0, false, false, false, false⟩

/-- Executions: the solver may make any calls within its guarantees. -/
inductive VmReach : Vm → Prop where
  | init : VmReach Vm.init
  | step {s s' : Vm} {e : VmEv} : VmReach s → e.can s → e.exec s = some s' → VmReach s'

end Clasp.Heu
