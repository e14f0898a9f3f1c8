import Verif.Heu.Heap
import Mathlib.Data.Prod.Lex
/-!
# Model of the activity-based decision heuristic

`ClaspVsids_t` and the score of `DomainHeuristic` (src/heuristics.cpp, clasp/heuristics.h): the priority queue of
variables, the changes of scores, and the choice of the next decision variable, together with the part of the solver
that the heuristic sees: the number of variables, the assigned variables in order, and the eliminated ones.
-/

namespace Clasp.Heu

/-- clasp/heuristics.h:258-331 `ClaspVsids_t` and `DomScore`. `lev` and `val` are the fields of `score_` (`DomScore::level`, which is
0 for `VsidsScore`, and `VsidsScore::value`); `ν` stands for `double` without NaN. `score_` is total here: that it is long enough is
not modelled. `q` is `vars_`. The solver: `n` is `numVars()`, `tr` the variables of the trail, `elim` the eliminated variables.
`told` and `ready` are not in the code: `told` is the trail position from which on the solver announced that it is going to
unassign variables (src/solver.cpp:1021, 1218), `ready` says that `endInit` was called after the last change of the problem. -/
structure Vs (ν : Type) where
  lev : Nat → Int
  val : Nat → ν
  q : Pq
  n : Nat
  tr : List Nat
  elim : Nat → Bool
  told : Option Nat
  ready : Bool

variable {ν : Type} [LinearOrder ν]

/-- clasp/heuristics.h:317-335 `DomScore::operator>` with `CmpScore` (clasp/heuristics.h:289-295): the queue compares level first, then
activity. -/
def Vs.key (s : Vs ν) (v : Nat) : Int ×ₗ ν := toLex (s.lev v, s.val v)

/-- clasp/solver.h:561 `value(v) == value_free`; `none` if `v` is no variable of the solver (the sentinel variable 0 is always assigned). -/
def Vs.isFree (s : Vs ν) (v : Nat) : Option Bool := if s.n < v then none else some (v ≠ 0 && !s.tr.contains v && !s.elim v)

/-- src/heuristics.cpp:592-599: all free variables are pushed; src/heuristics.cpp:723-727: variables that are going to be unassigned
are pushed unless they are in the queue. -/
def pushAll (sc : Nat → Int ×ₗ ν) : Pq → List Nat → Option Pq
  | q, [] => some q
  | q, v :: vs =>
    if q.has v then pushAll sc q vs else
      match q.push sc v with
      | none => none
      | some q' => pushAll sc q' vs

/-- src/heuristics.cpp:656-658 and 632: variables are removed one after the other. -/
def removeAll (sc : Nat → Int ×ₗ ν) : Pq → List Nat → Option Pq
  | q, [] => some q
  | q, v :: vs =>
    match q.remove sc v with
    | none => none
    | some q' => removeAll sc q' vs

/-- src/heuristics.cpp:587-606 `endInit` without the scores, which `setup` may set to anything. -/
def Vs.endInit (s : Vs ν) : Option (Vs ν) :=
  match pushAll s.key Pq.clear ((List.range' 1 s.n).filter fun v => s.isFree v == some true) with
  | none => none
  | some q => some { s with q := q, ready := true, told := none }

/-- src/heuristics.cpp:608-623 `updateVarActivity` for the new activity `x`; `g` is the effect of `normalize` (src/heuristics.cpp:662-676) on
activities, the identity if it is not called. -/
def Vs.bump (s : Vs ν) (v : Nat) (x : ν) (g : ν → ν) : Option (Vs ν) :=
  let s' := { s with val := fun w => g (if w = v then x else s.val w) }
  if s.q.has v then
    match (if s.val v ≤ x then s.q.increase s'.key v else s.q.decrease s'.key v) with
    | none => none
    | some q => some { s' with q := q }
  else some s'

/-- src/heuristics.cpp:946-949 `applyAction` for a new level. -/
def Vs.level (s : Vs ν) (v : Nat) (l : Int) : Option (Vs ν) :=
  let s' := { s with lev := fun w => if w = v then l else s.lev w }
  if s.q.has v then
    match s.q.update s'.key v with
    | none => none
    | some q => some { s' with q := q }
  else some s'

/-- src/heuristics.cpp:721-728 `undoUntil`. -/
def Vs.tell (s : Vs ν) (st : Nat) : Option (Vs ν) :=
  match pushAll s.key s.q (s.tr.drop st) with
  | none => none
  | some q => some { s with q := q, told := some st }

/-- src/heuristics.cpp:655-659 `simplify`. -/
def Vs.simplify (s : Vs ν) (i : Nat) : Option (Vs ν) :=
  match removeAll s.key s.q (s.tr.drop i) with
  | none => none
  | some q => some { s with q := q, told := none }

/-- src/solver.cpp:385-392 `pushAuxVar` with src/heuristics.cpp:626-630 `updateVar`. -/
def Vs.pushAux (s : Vs ν) : Option (Vs ν) :=
  let s' := { s with n := s.n + 1, elim := fun v => if v = s.n + 1 then false else s.elim v }
  match s'.q.update s'.key (s.n + 1) with
  | none => none
  | some q => some { s' with q := q }

/-- src/solver.cpp:411-474 `popVars` with src/heuristics.cpp:631-633 `updateVar`: the last `k` variables disappear. -/
def Vs.popAux (s : Vs ν) (k : Nat) : Option (Vs ν) :=
  let s' := { s with n := s.n - k, tr := s.tr.filter (· ≤ s.n - k), told := none }
  match removeAll s'.key s'.q (List.range' (s.n - k + 1) k) with
  | none => none
  | some q => some { s' with q := q }

/-- src/heuristics.cpp:731-733: assigned variables are popped until a free one is at the top. -/
def Vs.skip (s : Vs ν) : Nat → Pq → Option (Nat × Pq)
  | 0, _ => none
  | f + 1, q =>
    match q.top with
    | none => none
    | some t =>
      match s.isFree t with
      | none => none
      | some true => some (t, q)
      | some false =>
        match q.pop s.key with
        | none => none
        | some q' => s.skip f q'

/-- src/heuristics.cpp:730-735 `doSelect`; the sign of the literal is not modelled. The loop ends after at most as many steps as there
are elements in the queue. -/
def Vs.select (s : Vs ν) : Option (Nat × Vs ν) :=
  match s.skip (s.q.heap.length + 1) s.q with
  | none => none
  | some (t, q) => some (t, { s with q := q, told := none })

/-- The calls the solver makes (src/solver.cpp:252, 286, 390, 472, 695, 1021, 1218, 1228, 1405, 1522; clasp/solver.h:1047), and the changes of the
solver's assignment. `setup`: anything that happens while a problem is set up. -/
inductive VsEv (ν : Type) where
  | setup (n : Nat) (tr : List Nat) (elim : Nat → Bool) (lev : Nat → Int) (val : Nat → ν)
  | endInit
  | assign (v : Nat)
  | bump (v : Nat) (x : ν) (g : ν → ν)
  | level (v : Nat) (l : Int)
  | tell (st : Nat)
  | pop
  | simplify (i : Nat)
  | pushAux
  | popAux (k : Nat)
  | select

/-- What the solver guarantees about its calls: an assigned variable was free (clasp/solver_types.h:559-582 `assign`); a variable
is only unassigned after `undoUntil` was called for its position (src/solver.cpp:1019-1023, 1216-1218); `normalize` keeps the order of
activities (it is monotone on floating-point numbers); `select` is only called with a free variable (clasp/solver.h:1047). -/
def VsEv.can (s : Vs ν) : VsEv ν → Prop
  | .setup n tr _ _ _ => ∀ v ∈ tr, v ≤ n
  | .endInit => True
  | .assign v => s.isFree v = some true
  | .bump _ _ g => ∀ a b, a ≤ b → g a ≤ g b
  | .level _ _ => True
  | .tell _ => True
  | .pop => ∃ st, s.told = some st ∧ st < s.tr.length
  | .simplify _ => True
  | .pushAux => True
  | .popAux k => k ≤ s.n
  | .select => s.ready = true ∧ ∃ v, s.isFree v = some true

/-- The effect of a call; the functions cite the code. Assigning and unassigning only changes the trail (src/solver.cpp:1105-1115 `undoLevel`,
clasp/solver_types.h:559-595). -/
def VsEv.exec (s : Vs ν) : VsEv ν → Option (Vs ν)
  | .setup n tr elim lev val => some { s with n := n, tr := tr, elim := elim, lev := lev, val := val, told := none, ready := false }
  | .endInit => s.endInit
  | .assign v => some { s with tr := s.tr ++ [v], told := none }
  | .bump v x g => s.bump v x g
  | .level v l => s.level v l
  | .tell st => s.tell st
  | .pop => some { s with tr := s.tr.dropLast }
  | .simplify i => s.simplify i
  | .pushAux => s.pushAux
  | .popAux k => s.popAux k
  | .select => s.select.map (·.2)

/-- src/heuristics.cpp:561-566: the heuristic of a new solver. -/
def Vs.init (d : ν) : Vs ν := ⟨fun _ => 0, fun _ => d, Pq.clear, 0, [], fun _ => false, none, false⟩

/-- Executions: the solver may make any calls within its guarantees. -/
inductive VsReach (d : ν) : Vs ν → Prop where
  | init : VsReach d (Vs.init d)
  | step {s s' : Vs ν} {e : VsEv ν} : VsReach d s → e.can s → e.exec s = some s' → VsReach d s'

end Clasp.Heu
