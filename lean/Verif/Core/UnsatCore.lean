/-
Unsatisfiable cores: which of the assumptions are responsible for an unsatisfiable result.

Code: src/solver.cpp 1179-1215 (`resolveToCore`), src/solve_algorithms.cpp 299-325 (`SolveAlgorithm::detach`),
src/solver.cpp 489-497 (`pushRoot`), src/clasp_facade.cpp 308-309 (the step literal is appended to the assumptions).
-/
import Verif.Core.SearchProps
namespace Clasp.Core
open St

namespace St

/-- solver.cpp:1191-1197: marks the variables that are not marked yet and counts them -/
def coreMark : List Lit → (Nat → Bool) → Nat → (Nat → Bool) × Nat
  | [], seen, m => (seen, m)
  | q :: r, seen, m => if seen q.var = true then coreMark r seen m else coreMark r (Function.update seen q.var true) (m + 1)

/-- solver.cpp:1190-1210: the loop, `t` is the part of the trail below `tPos`, `m` is `marked`. `none`: the trail is exhausted, or the
decision literal of level 0 is asked for (both are undefined in the C++). -/
def coreLoop (s : St) : List Lit → (Nat → Bool) → Nat → List Lit → Option (List Lit)
  | _, _, 0, out => some out
  | [], _, _ + 1, _ => none
  | p :: t, seen, m + 1, out =>
    if seen p.var = true then
      match s.reason p.var with
      | some r =>
        let sm := coreMark r (Function.update seen p.var false) m
        coreLoop s t sm.1 sm.2 out
      | none =>
        if s.level p.var = 0 then none
        else coreLoop s t (Function.update seen p.var false) m (if p = s.decision (s.level p.var) then out ++ [p] else out)
    else coreLoop s t seen (m + 1) out

/-- solver.cpp:1184-1187: the literals of the conflict; without learning also all decisions -/
def coreStart (learn : Bool) (s : St) : List Lit :=
  s.conflict ++ if learn = true then [] else (List.range s.dl).map fun i => s.decision (i + 1)

/-- solver.cpp:1179-1213 `resolveToCore`; the marks are restored, so only `out` is returned -/
def resolveToCore (learn : Bool) (s : St) : Option (List Lit) :=
  let sm := coreMark (s.coreStart learn) s.seen 0
  s.coreLoop s.trail sm.1 sm.2 []

/-- solve_algorithms.cpp:316-319: the step literal is removed from the front -/
def dropStep (step : Lit) : List Lit → List Lit
  | [] => []
  | [p] => if p = step then [] else [p]
  | p :: q :: r => if p = step then (q :: r).getLast (by simp) :: (q :: r).dropLast else p :: q :: r

end St

namespace Sys

/-- Steps taken inside one call of `propagate` (solver.cpp:823-835): clauses propagate, other constraints force literals or add
clauses that follow. -/
inductive LStep (learn : Bool) (n : Nat) (E : Asg → Prop) : Sys → Sys → Prop
  | propagate {x : Sys} (fuel : Nat) (d' : Db) (ok : Bool) (hc : x.st.conflict = []) (h : x.db.propagate learn fuel = some (d', ok)) :
      LStep learn n E x { x with db := d' }
  | force {x : Sys} (p : Lit) (r : List Lit) (hc : x.st.conflict = []) (hr : ∀ q ∈ r, x.st.tl q)
      (hF : ∀ M, x.th E n M → M.all r → M.sat p)
      (htop : x.st.isFalse p = true → x.st.dl ≠ x.st.flip → ∃ q ∈ p.neg :: r, q ∈ x.st.trail ∧ x.st.level q.var = x.st.dl) :
      LStep learn n E x (x.setSt (x.st.force learn p (some r)).1)
  | implied {x : Sys} (C : List Lit) (id : Nat) (simp shared lr implicit : Bool) (f : CFlags) (hc : x.st.conflict = [])
      (hid : id ∉ x.db.ids) (hlen : C.length < umax) (hd : simp = true ∨ C.Nodup ∨ C.length ≤ 2) (hF : ∀ M, x.th E n M → M.satC C) :
      LStep learn n E x { x with db := (x.db.createPrepared learn (Prep.prepareVec x.st C simp) id shared lr implicit f).1 }

/-- solver.cpp:823-835: propagation to fixpoint, or to a conflict -/
inductive Settle (learn : Bool) (n : Nat) (E : Asg → Prop) : Sys → Sys → Prop
  | refl (x : Sys) : Settle learn n E x x
  | step {x y z : Sys} : Settle learn n E x y → LStep learn n E y z → Settle learn n E x z

/-- solver.cpp:489-497 `pushRoot` on the root level. The number of root levels is not tracked here: nothing in `detach` reads it, so
an assumption is just a decision. -/
inductive PushRoot (learn : Bool) (n : Nat) (E : Asg → Prop) : Sys → Lit → Sys → Bool → Prop
  | conflict {x : Sys} {p : Lit} (hc : x.st.conflict ≠ []) : PushRoot learn n E x p x false
  | queue {x y : Sys} {p : Lit} (hc : x.st.conflict = []) (hf : x.st.front ≠ x.st.trail.length) (hs : Settle learn n E x y)
      (hy : y.st.conflict ≠ []) : PushRoot learn n E x p y false
  | assigned {x y : Sys} {p : Lit} (hc : x.st.conflict = []) (hs : Settle learn n E x y) (hy : y.st.conflict = [])
      (hf : y.st.front = y.st.trail.length) (hv : y.st.value p.var ≠ none) : PushRoot learn n E x p y (y.st.isTrue p)
  | assume {x y z : Sys} {p : Lit} (hc : x.st.conflict = []) (hs : Settle learn n E x y) (hy : y.st.conflict = [])
      (hf : y.st.front = y.st.trail.length) (hv : y.st.value p.var = none) (hn : p.var ≤ n)
      (hz : Settle learn n E (y.setSt (y.st.decide' p)) z) (ok : Bool)
      (hok : ok = true → z.st.conflict = [] ∧ z.st.front = z.st.trail.length) (hno : ok = false → z.st.conflict ≠ []) :
      PushRoot learn n E x p z ok

/-- solve_algorithms.cpp:306-323: the loop of `detach` over the assumptions, the core so far, and the core finally reported -/
inductive Detach (learn : Bool) (n : Nat) (E : Asg → Prop) (step : Lit) : Sys → List Lit → List Lit → List Lit → Prop
  | done {x : Sys} {core : List Lit} : Detach learn n E step x [] core core
  | skip {x : Sys} {p : Lit} {ps core res : List Lit} (hp : x.st.isTrue p = true ∨ p = step) (h : Detach learn n E step x ps core res) :
      Detach learn n E step x (p :: ps) core res
  | stepFail {x y : Sys} {p : Lit} {ps core : List Lit} (hp : ¬ (x.st.isTrue p = true ∨ p = step)) (hs : ¬ x.st.isTrue step = true)
      (h : PushRoot learn n E x step y false) : Detach learn n E step x (p :: ps) core core
  | push {x y z : Sys} {p : Lit} {ps core res : List Lit} (hp : ¬ (x.st.isTrue p = true ∨ p = step))
      (hs : (x.st.isTrue step = true ∧ y = x) ∨ (¬ x.st.isTrue step = true ∧ PushRoot learn n E x step y true))
      (hz : PushRoot learn n E y p z true) (h : Detach learn n E step z ps (core ++ [p]) res) : Detach learn n E step x (p :: ps) core res
  | false {x y z : Sys} {p : Lit} {ps core : List Lit} (hp : ¬ (x.st.isTrue p = true ∨ p = step))
      (hs : (x.st.isTrue step = true ∧ y = x) ∨ (¬ x.st.isTrue step = true ∧ PushRoot learn n E x step y true))
      (hz : PushRoot learn n E y p z false) (hf : z.st.isFalse p = true) : Detach learn n E step x (p :: ps) core (core ++ [p])
  | resolve {x y z : Sys} {p : Lit} {ps core out : List Lit} (hp : ¬ (x.st.isTrue p = true ∨ p = step))
      (hs : (x.st.isTrue step = true ∧ y = x) ∨ (¬ x.st.isTrue step = true ∧ PushRoot learn n E x step y true))
      (hz : PushRoot learn n E y p z false) (hf : ¬ z.st.isFalse p = true) (hr : z.st.resolveToCore learn = some out) :
      Detach learn n E step x (p :: ps) core (dropStep step out)

end Sys
end Clasp.Core
