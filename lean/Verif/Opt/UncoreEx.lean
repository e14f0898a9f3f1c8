import Verif.Opt.UncoreProps
/-!
# Core-guided optimization: example runs and a counterexample

Examples for the theorems of `UncoreProps`, and a run showing what goes wrong with a bound given by the user.  No code is modelled here.
-/

namespace Clasp.Uncore.Ex
open Clasp.Core (Lit Asg)
open Clasp.Uncore

/-- Example: the problem `a ∨ b`. -/
def F (M : Asg) : Prop := M 0 = true ∨ M 1 = true
/-- Example: minimize the number of true atoms, then `a`. -/
def pr : Prob := { lits := [(⟨0, false⟩, fun _ => 1), (⟨1, false⟩, fun k => if k = 0 then 1 else 0)], max := 1 }
/-- Example: a solver that notices nothing. -/
def o : Slv := { top := fun _ _ => false, root := fun _ _ => false, bad := fun _ => false, keep := fun _ => true }
/-- Example: options. -/
def p : Opts := { algo := .oll, succinct := true, disjoint := false, stratify := false, trim := false, groups := fun _ => 1 }
/-- Example: the optimal model (the third variable is auxiliary). -/
def M : Asg := fun v => v = 1 ∨ v = 2

theorem scope : Scope F 2 pr :=
  ⟨fun M M' h => by simp only [F, h 0 (by omega), h 1 (by omega)], by decide⟩
theorem sound : o.Sound F := ⟨fun _ _ h => (nomatch h), fun _ _ h => (nomatch h), fun _ h => (nomatch h)⟩
theorem groups : ∀ n, 1 ≤ p.groups n := fun _ => le_refl _

/-- Example: the first level. -/
def s1 : St := close (initLevel o p pr (St.start 2 none))
/-- Example: the assumptions are pushed. -/
def s2 : St := close (pathRound o p 2 s1)
/-- Example: the assumptions cannot hold together. -/
def s3 : St := close (onCore o p pr s2 [(⟨0, false⟩, 0), (⟨1, false⟩, 1)] false)
/-- Example: the assumptions are pushed again. -/
def s4 : St := close (pathRound o p 3 s3)
/-- Example: a model. -/
def s5 : St := onModel pr s4 M
/-- Example: the second level is already optimal. -/
def s6 : St := close (addNext o p pr s5 false)

theorem r1 : Reach F p pr (St.start 2 none) s1 := .step .start (.init o sound rfl rfl)
theorem r2 : Reach F p pr (St.start 2 none) s2 :=
  .step r1 (.path o 2 sound (by decide +kernel) (by decide +kernel) (by decide +kernel) (by decide +kernel))
theorem core2 : IsCore F s2 [(⟨0, false⟩, 0), (⟨1, false⟩, 1)] where
  ne := by simp
  nodup := by decide
  act := by decide +kernel
  holds := by
    intro M h _
    rcases h with h | h
    · exact ⟨(⟨0, false⟩, 0), by simp, h⟩
    · exact ⟨(⟨1, false⟩, 1), by simp, h⟩
theorem r3 : Reach F p pr (St.start 2 none) s3 :=
  .step r2 (.core o _ false sound (by decide +kernel) (by decide +kernel) (by decide +kernel) core2)
theorem r4 : Reach F p pr (St.start 2 none) s4 :=
  .step r3 (.path o 3 sound (by decide +kernel) (by decide +kernel) (by decide +kernel) (by decide +kernel))
theorem cons4 : s4.cons = [.imp ⟨2, true⟩ [⟨0, false⟩, ⟨1, false⟩] 2] := by decide +kernel
theorem asm4 : s4.asm = [(⟨2, false⟩, 2)] := by decide +kernel
theorem sat4 : Sat s4.cons M := by
  rw [cons4]
  intro c hc
  rw [List.mem_singleton] at hc
  subst hc
  show (2 : Int) ≤ cnt M _ → _
  intro h
  exact absurd h (by decide +kernel)
theorem act4 : ∀ e ∈ s4.asm, (s4.get e.2).assume = true → s4.actW ≤ (s4.get e.2).weight → M.sat e.1 := by
  rw [asm4]
  intro e he _ _
  rw [List.mem_singleton] at he
  subst he
  rfl
theorem fM : F M := Or.inr rfl
theorem r5 : Reach F p pr (St.start 2 none) s5 :=
  .step r4 (.model M (by decide +kernel) (by decide +kernel) fM sat4 (fun _ => act4))
theorem r6 : Reach F p pr (St.start 2 none) s6 :=
  .step r5 (.next o false sound (by decide +kernel) (by decide +kernel))

/-- The lower bound after the core is 1: every model has at least one true atom. -/
example : s4.lower = 1 ∧ ∀ N, F N → 1 ≤ sums pr N 0 ∨ ∃ K, F K ∧ BB.lt 0 (sums pr K) (sums pr N) := by
  have hl : s4.lower = 1 := by decide +kernel
  have hk : s4.level = 0 := by decide +kernel
  refine ⟨hl, fun N hN => ?_⟩
  have := C38_lower scope groups r4 (by decide +kernel) (by decide +kernel) hN
  rwa [hl, hk] at this

/-- The search ends with a bound, and it belongs to an optimal model. -/
example : ∃ u, s6.up = some u ∧ ∃ N, Best F pr N ∧ u = sums pr N := by
  have h1 : s6.up.isSome = true := by decide +kernel
  obtain ⟨u, hu⟩ := Option.isSome_iff_exists.1 h1
  exact ⟨u, hu, (C38_done scope groups r6 (by decide +kernel)).2 u hu⟩

/-- The model found is the first one and is accepted. -/
example : valid pr s4 (sums pr M) = true :=
  (C38_model scope groups r4 (by decide +kernel) (by decide +kernel) fM sat4).2 (fun u hu => by
    have : s4.up.isNone = true := by decide +kernel
    rw [hu] at this; cases this)

/-- Its costs are equal to the lower bound. -/
example : sums pr M 0 = s4.lower := by
  have hk : s4.level = 0 := by decide +kernel
  have := C38_tight scope groups r4 (by decide +kernel) (by decide +kernel) fM sat4 (by decide +kernel) (by decide +kernel) (by decide +kernel) act4
  rwa [hk] at this

/-- The next operation ends the search. -/
example : s6.fin = true ∨ 0 < s6.level := by
  have hk : s4.level = 0 := by decide +kernel
  have := C38_advance scope groups r4 (by decide +kernel) (by decide +kernel) fM sat4 (by decide +kernel) (by decide +kernel) (by decide +kernel) act4 sound false
  rwa [hk] at this
example : s6.fin = true := by decide +kernel

theorem bestM : Best F pr M := by
  refine ⟨fM, ?_⟩
  rintro N hN ⟨i, hi, he, hl⟩
  have hs : ∀ K : Asg, ∀ k, sums pr K k = (if K 0 = true then 1 else 0) + (if K 1 = true then (if k = 0 then 1 else 0) else 0) := by
    intro K k
    simp [sums, pr, Asg.sat, Lit.tv]
  rw [hs, hs] at hl
  have h0 : i = 0 ∨ i = 1 := by simp only [pr] at hi; omega
  rcases h0 with rfl | rfl
  · rcases hN with h | h <;> simp [h, M] at hl <;> split at hl <;> omega
  · have := he 0 (by omega)
    rw [hs, hs] at this
    rcases hN with h | h <;> simp [h, M] at hl
    split at hl <;> omega

/-- The optimal model satisfies the constraints added during the search, also at the end. -/
example : ∃ M', (∀ v < 2, M' v = M v) ∧ Sat s6.cons M' := C38_keep scope groups r6 bestM

/-- At the end, a model that is not optimal does not. -/
example : ¬ ∃ M', (∀ v < 2, M' v = decide (v = 0)) ∧ Sat s6.cons M' := by
  have h1 : s6.up.isSome = true := by decide +kernel
  have hu : s6.up ≠ none := by intro h; rw [h] at h1; cases h1
  rw [C38_enum (M := fun v => decide (v = 0)) scope groups r6 (by decide +kernel) hu (Or.inl rfl)]
  intro h
  exact h.2 M fM ⟨1, by decide, by decide +kernel, by decide +kernel⟩

/-! ## A bound given by the user

The problem has one atom, it is true, and its weight is 4 on the first level and 1 on the second.  The user asks for a solution with costs of at most
`(5, 0)`.  The only solution costs `(4, 1)`, which is lexicographically smaller. -/

/-- Example: the problem `a`. -/
def F1 (M : Asg) : Prop := M 0 = true
/-- Example: weights 4 and 1. -/
def pr1 : Prob := { lits := [(⟨0, false⟩, fun k => if k = 0 then 4 else 1)], max := 1 }
/-- Example: a solver that knows that `a` is true. -/
def o1 : Slv := { top := fun _ q => q == ⟨0, false⟩, root := fun _ q => q == ⟨0, false⟩, bad := fun _ => false, keep := fun _ => true }
/-- Example: the bound. -/
def b1 : Nat → Int := fun k => if k = 0 then 5 else 0
/-- Example: the solution. -/
def M1 : Asg := fun _ => true

theorem sound1 : o1.Sound F1 := by
  have h : ∀ q : Lit, (q == (⟨0, false⟩ : Lit)) = true → ∀ M, F1 M → M.sat q := by
    intro q hq M hM
    rw [beq_iff_eq] at hq
    subst hq; exact hM
  exact ⟨fun _ q hq M hM _ => h q hq M hM, fun _ q hq M hM _ => h q hq M hM, fun _ h => (nomatch h)⟩

/-- Example: the first level is skipped since it has no free literals, the second one is started. -/
def t1 : St := close (initLevel o1 p pr1 (St.start 1 (some b1)))
/-- Example: the lower bound of the second level is above its part of the user's bound. -/
def t2 : St := close (addNext o1 p pr1 t1 false)

theorem q2 : Reach F1 p pr1 (St.start 1 (some b1)) t2 :=
  .step (.step .start (.init o1 sound1 rfl rfl)) (.next o1 false sound1 (by decide +kernel) (by decide +kernel))

end Clasp.Uncore.Ex

namespace Clasp.Uncore
open Ex
open Clasp.Core (Lit Asg)

/-- With a bound given by the user, core-guided optimization can end without a solution although there is one whose costs are within
the bound: if the costs on the first levels are constant and smaller than the bound, the bounds of the following levels are still enforced.  Such a solution
is also rejected when it is found. -/
theorem C38_bound_fails : ∃ (F : Asg → Prop) (n0 : Nat) (pr : Prob) (p : Opts) (b : Nat → Int) (σ τ : St) (M : Asg), Scope F n0 pr ∧ (∀ n, 1 ≤ p.groups n) ∧
    Reach F p pr (St.start n0 (some b)) σ ∧ σ.fin = false ∧ valid pr σ (sums pr M) = false ∧
    Reach F p pr (St.start n0 (some b)) τ ∧ τ.fin = true ∧ τ.found = false ∧ F M ∧ Sat σ.cons M ∧ BB.lt (pr.max + 1) (sums pr M) b := by
  refine ⟨F1, 1, pr1, p, b1, t1, t2, M1, ⟨fun M M' h => by simp only [F1, h 0 (by omega)], by decide⟩, groups, .step .start (.init o1 sound1 rfl rfl), by decide +kernel,
    by decide +kernel, q2, by decide +kernel, by decide +kernel, rfl, ?_, ⟨0, by decide, fun j hj => by omega, by decide +kernel⟩⟩
  have : t1.cons = [] := by decide +kernel
  rw [this]
  intro c hc
  cases hc

end Clasp.Uncore
