import Verif.Ext.ClingoProps
/-!
# The adaptor for theory propagators: example runs and a counterexample

Examples for the theorems of `ClingoProps`, and a run in which `undo` is not called in mode Always.  No code is modelled here.
-/

namespace Clasp.Clingo.Ex
open Clasp.Core (Lit)
open Clasp.Clingo

/-- Example: a watched literal. -/
def a : Lit := ⟨1, false⟩
/-- Example: a literal that is not watched. -/
def x : Lit := ⟨2, false⟩

theorem some_getD {σ : St} {o : Option St} (h : o.isSome = true) : o = some (o.getD σ) := by
  cases o with
  | none => cases h
  | some a => rfl

/-- Example: checks on fixpoints, undo mode Always. -/
def s1 : St := init St.start true true true
/-- Example: `a` is watched. -/
def s2 : St := (addWatch s1 a true).getD s1
/-- Example: `check` is called on level 0. -/
def s3 : St := (callCheck s2).getD s2
/-- Example: `check` returns. -/
def s4 : St := { s3 with busy := false }
/-- Example: decision `x`. -/
def s5 : St := { s4 with dl := s4.dl + 1, trail := s4.trail ++ [(x, s4.dl + 1)] }
/-- Example: `x` is propagated. -/
def s6 : St := (dequeue s5).getD s5
/-- Example: `check` is called on level 1. -/
def s7 : St := (callCheck s6).getD s6
/-- Example: the propagator adds a clause and `a` becomes true. -/
def s8 : St := { s7 with trail := s7.trail ++ [(a, s7.dl)] }

theorem r1 : Reach s1 := .step .start (.init _ _ _ rfl rfl rfl)
theorem r2 : Reach s2 := .step r1 (.initWatch a (by decide +kernel) (by decide +kernel) (by decide +kernel) (by decide +kernel) (some_getD (by decide +kernel)))
theorem r3 : Reach s3 :=
  .step r2 (.check (by decide +kernel) (by decide +kernel) (by decide +kernel) (by decide +kernel) (by decide +kernel) (by decide +kernel) (some_getD (by decide +kernel)))
theorem r4 : Reach s4 := .step r3 (.ret (by decide +kernel) (by decide +kernel))
theorem r5 : Reach s5 :=
  .step r4 (.decide x (by decide +kernel) (by decide +kernel) (by decide +kernel) (by decide +kernel) (by decide +kernel) (by decide +kernel) (by decide +kernel))
theorem r6 : Reach s6 := .step r5 (.dequeue (by decide +kernel) (some_getD (by decide +kernel)))
theorem r7 : Reach s7 :=
  .step r6 (.check (by decide +kernel) (by decide +kernel) (by decide +kernel) (by decide +kernel) (by decide +kernel) (by decide +kernel) (some_getD (by decide +kernel)))
theorem r8 : Reach s8 := .step r7 (.assign a (by decide +kernel) (by decide +kernel))

/-! The good run: the change is reported, checked and undone. -/

/-- Example: the propagator calls `Control::propagate`. -/
def g1 : St := (ctrlBegin s8).getD s8
/-- Example: `a` is propagated. -/
def g2 : St := (dequeue g1).getD g1
/-- Example: `Control::propagate` returns. -/
def g3 : St := ctrlEnd g2
/-- Example: `check` returns. -/
def g4 : St := { g3 with busy := false }
/-- Example: the change is reported. -/
def g5 : St := (callProp g4).getD g4
/-- Example: `propagate` returns. -/
def g6 : St := { g5 with busy := false }
/-- Example: the new fixpoint is checked. -/
def g7 : St := (callCheck g6).getD g6
/-- Example: `check` returns. -/
def g8 : St := { g7 with busy := false }
/-- Example: the level is removed. -/
def g9 : St := (popLevel g8).getD g8

theorem t1 : Reach g1 := .step r8 (.ctrlBegin (by decide +kernel) (by decide +kernel) (by decide +kernel) (some_getD (by decide +kernel)))
theorem t2 : Reach g2 := .step t1 (.dequeue (by decide +kernel) (some_getD (by decide +kernel)))
theorem t3 : Reach g3 := .step t2 (.ctrlEnd (by decide +kernel))
theorem t4 : Reach g4 := .step t3 (.ret (by decide +kernel) (by decide +kernel))
theorem t5 : Reach g5 :=
  .step t4 (.propagate (by decide +kernel) (by decide +kernel) (by decide +kernel) (by decide +kernel) (by decide +kernel) (some_getD (by decide +kernel)))
theorem t6 : Reach g6 := .step t5 (.ret (by decide +kernel) (by decide +kernel))
theorem t7 : Reach g7 :=
  .step t6 (.check (by decide +kernel) (by decide +kernel) (by decide +kernel) (by decide +kernel) (by decide +kernel) (by decide +kernel) (some_getD (by decide +kernel)))
theorem t8 : Reach g8 := .step t7 (.ret (by decide +kernel) (by decide +kernel))

theorem log8 : g8.log = [.check 1 [(x, 1), (a, 1)], .propagate 1 [a], .check 1 [(x, 1)], .check 0 []] := by decide +kernel
theorem view8 : View g8.log [(1, a)] := by
  rw [log8]
  exact .check _ _ (.propagate (v := []) 1 [a] (.check _ _ (.check _ _ .nil)))

/-- Example for `C39_defined` and `C39_balanced`: a state with a change and two checks on level 1. -/
example : (popLevel g8).isSome ∧ ∃ v, View g8.log v ∧ (∀ y ∈ v, (y.2, y.1) ∈ g8.trail ∧ y.2 ∈ g8.wat) ∧ (v.map Prod.snd).Nodup :=
  ⟨(C39_defined t8 a).2.1 (by decide +kernel), C39_balanced t8⟩
/-- Example for `C39_complete`: `a` is known when the level is complete. -/
example : (1, a) ∈ [(1, a)] :=
  C39_complete t8 (by decide +kernel) (by decide +kernel) (by decide +kernel) view8 (by decide +kernel) (by decide +kernel) (by decide +kernel)
/-- Example for `C39_level`: `a` is reported on level 1. -/
example : ∃ ch, ch ≠ [] ∧ g5.log = .propagate g4.dl ch :: g4.log ∧ ∀ p ∈ ch, (p, g4.dl) ∈ g4.trail := C39_level t4 (by decide +kernel) (some_getD (by decide +kernel))
/-- Example for `C39_check`: the last check saw `x` and `a`. -/
example : lastCheck g8.log = some g8.trail := C39_check t8 (by decide +kernel) (Or.inl (by decide +kernel))
/-- Example for `C39_undo`: `a` is undone. -/
example : g9.log = .undo 1 [a] :: g8.log :=
  (C39_undo t8 (by decide +kernel) (some_getD (by decide +kernel)) view8).1 (by decide +kernel)
/-- Example for `C39_undo_always_partial`: level 1 was checked and all changes are known. -/
example : ∃ ch, g9.log = .undo g8.dl ch :: g8.log :=
  C39_undo_always_partial t8 (by decide +kernel) (some_getD (by decide +kernel)) (by decide +kernel) (by decide +kernel) (by decide +kernel)
/-- Example for `C39_control`: level 1 is still there. -/
example : g2.hit = false ∧ g2.nl ≤ g2.dl := C39_control t2 (by decide +kernel)

/-! The bad run: a conflict follows before the change is reported. -/

/-- Example: `check` returns. -/
def b1 : St := { s8 with busy := false }
/-- Example: `a` is propagated. -/
def b2 : St := (dequeue b1).getD b1
/-- Example: propagation ends with a conflict. -/
def b3 : St := { b2 with confl := true, front := b2.trail.length }
/-- Example: the level is removed. -/
def b4 : St := (popLevel b3).getD b3

theorem u1 : Reach b1 := .step r8 (.ret (by decide +kernel) (by decide +kernel))
theorem u2 : Reach b2 := .step u1 (.dequeue (by decide +kernel) (some_getD (by decide +kernel)))
theorem u3 : Reach b3 := .step u2 .conflict

end Clasp.Clingo.Ex

namespace Clasp.Clingo
open Ex

/-- C39, the claim for mode Always is false: `check` was called on level 1, a clause added by the propagator makes a watched literal true, propagating it leads to a conflict, the
level is removed and `undo` is not called. -/
theorem C39_undo_always_fails :
    ∃ σ τ, Reach σ ∧ 0 < σ.dl ∧ popLevel σ = some τ ∧ σ.always = true ∧ (∃ tr, Call.check σ.dl tr ∈ σ.log) ∧ σ.dl ∈ σ.seen ∧ τ.log = σ.log :=
  ⟨b3, b4, u3, by decide +kernel, some_getD (by decide +kernel), by decide +kernel, ⟨[(x, 1)], by decide +kernel⟩, by decide +kernel, by decide +kernel⟩

end Clasp.Clingo
