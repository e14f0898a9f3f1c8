import Verif.Asp.CompletionLem

/-! Assigning variables loses no supported model (C30). No code is modelled in this file. -/

namespace Clasp.Asp
open Clasp.Core

variable {p : Prg} {M : AtomSet}

/-- Specification: weight bodies are simplified: the bound is positive and can be reached
(src/logic_program_types.cpp 719). -/
def Prg.Simple (p : Prg) : Prop := ∀ b < p.nbodies, (p.body b).rel = true → ∀ ls bound, (p.body b).body = .sum ls bound →
  0 < bound ∧ bound ≤ (ls.map Prod.snd).sum

/-- Invariant: the literals represent `M`. -/
structure Rep (p : Prg) (M : AtomSet) (s : VSt) (A B : Nat → Prop) (σ : Asg) : Prop where
  zero : σ 0 = true
  pos : 1 ≤ s.next
  av : ∀ a, (s.alit a).var < s.next
  bv : ∀ b, (s.blit b).var < s.next
  al : ∀ a < p.natoms, (p.atom a).rel = true → (A a ∨ hasVar (s.alit a) = true) → tval σ (s.alit a) = M a
  bl : ∀ b < p.nbodies, (p.body b).rel = true → (B b ∨ hasVar (s.blit b) = true) → tval σ (s.blit b) = (p.body b).body.holds M M
  an : ∀ a, ¬ A a → s.alit a = litFalse

theorem tval_update {σ : Asg} {v : Nat} {x : Bool} {l : Lit} (h : l.var ≠ v) : tval (Function.update σ v x) l = tval σ l := by
  unfold tval; rw [Function.update_of_ne h]
theorem tval_new {σ : Asg} {v : Nat} {x : Bool} : tval (Function.update σ v x) ⟨v, false⟩ = x := by
  unfold tval; rw [Function.update_self]; cases x <;> rfl

theorem tval_congr_flip {σ : Asg} {l : Lit} {g : BLit} (h : tval σ l = M g.atom) : tval σ (flipIf l g.neg) = g.holds M M := by
  rw [tval_flip, h]; unfold BLit.holds; cases g.neg <;> simp

/-- a body with a single literal holds iff the literal does -/
theorem single_holds (hs : p.Simple) {b : Nat} (hb : b < p.nbodies) (hr : (p.body b).rel = true) {g : BLit}
    (h : (p.body b).body.lits = [g]) : (p.body b).body.holds M M = g.holds M M := by
  cases hbd : (p.body b).body with
  | conj ls => rw [hbd] at h; simp only [Body.lits] at h; subst h; simp [Body.holds]
  | sum ls bound =>
    obtain ⟨h1, h2⟩ := hs b hb hr ls bound hbd
    rw [hbd] at h
    simp only [Body.lits] at h
    match ls, h with
    | [(g', w)], h =>
      simp only [List.map_cons, List.map_nil, List.cons.injEq, and_true] at h
      subst h
      simp only [List.map_cons, List.map_nil, List.sum_cons, List.sum_nil, Int.add_zero] at h2
      have e : (Body.sum [(g', w)] bound).holds M M = decide (bound ≤ wsum M M [(g', w)]) := rfl
      rw [e]
      have ew : wsum M M [(g', w)] = if g'.holds M M = true then w else 0 := by simp [wsum]
      rw [ew]
      cases h3 : g'.holds M M
      · simp; omega
      · simp; exact h2

theorem empty_holds (hs : p.Simple) {b : Nat} (hb : b < p.nbodies) (hr : (p.body b).rel = true)
    (h : (p.body b).body.lits = []) : (p.body b).body.holds M M = true := by
  cases hbd : (p.body b).body with
  | conj ls => rw [hbd] at h; simp only [Body.lits] at h; subst h; simp [Body.holds]
  | sum ls bound =>
    obtain ⟨h1, h2⟩ := hs b hb hr ls bound hbd
    rw [hbd] at h
    simp only [Body.lits, List.map_eq_nil_iff] at h
    subst h
    simp only [List.map_nil, List.sum_nil] at h2
    omega

/-- an atom gets a new variable -/
theorem Rep.freshA {s : VSt} {A B : Nat → Prop} {σ : Asg} (h : Rep p M s A B σ) (a : Nat) :
    Rep p M { s with alit := Function.update s.alit a ⟨s.next, false⟩, next := s.next + 1 } (fun x => A x ∨ x = a) B
      (Function.update σ s.next (M a)) := by
  have hp := h.pos
  refine ⟨?_, by show 1 ≤ s.next + 1; omega, ?_, ?_, ?_, ?_, ?_⟩
  · rw [Function.update_of_ne (by omega)]; exact h.zero
  · intro x
    show (Function.update s.alit a _ x).var < s.next + 1
    by_cases e : x = a
    · rw [e, Function.update_self]; exact Nat.lt_succ_self _
    · rw [Function.update_of_ne e]; exact Nat.lt_succ_of_lt (h.av x)
  · intro b; exact Nat.lt_succ_of_lt (h.bv b)
  · intro x hx hr hA
    show tval _ (Function.update s.alit a _ x) = _
    by_cases e : x = a
    · rw [e, Function.update_self]; exact tval_new
    · rw [Function.update_of_ne e, tval_update (by have := h.av x; omega)]
      refine h.al x hx hr ?_
      dsimp only at hA
      rw [Function.update_of_ne e] at hA
      rcases hA with (hA | hA) | hA
      · exact Or.inl hA
      · exact absurd hA e
      · exact Or.inr hA
  · intro b hb hr hB
    rw [tval_update (by have := h.bv b; dsimp only; omega)]
    exact h.bl b hb hr hB
  · intro x hx
    show Function.update s.alit a _ x = _
    push Not at hx
    rw [Function.update_of_ne hx.2]; exact h.an x hx.1

/-- an atom gets the literal of an equivalent node -/
theorem Rep.eqA {s : VSt} {A B : Nat → Prop} {σ : Asg} (h : Rep p M s A B σ) (a : Nat) (l : Lit) (hl : l.var < s.next) (ht : tval σ l = M a) :
    Rep p M { s with alit := Function.update s.alit a l } (fun x => A x ∨ x = a) B σ := by
  refine ⟨h.zero, h.pos, ?_, h.bv, ?_, h.bl, ?_⟩
  · intro x
    show (Function.update s.alit a _ x).var < s.next
    by_cases e : x = a
    · rw [e, Function.update_self]; exact hl
    · rw [Function.update_of_ne e]; exact h.av x
  · intro x hx hr hA
    show tval _ (Function.update s.alit a _ x) = _
    by_cases e : x = a
    · rw [e, Function.update_self]; exact ht
    · rw [Function.update_of_ne e]
      refine h.al x hx hr ?_
      dsimp only at hA
      rw [Function.update_of_ne e] at hA
      rcases hA with (hA | hA) | hA
      · exact Or.inl hA
      · exact absurd hA e
      · exact Or.inr hA
  · intro x hx
    show Function.update s.alit a _ x = _
    push Not at hx
    rw [Function.update_of_ne hx.2]; exact h.an x hx.1

theorem Rep.freshB {s : VSt} {A B : Nat → Prop} {σ : Asg} (h : Rep p M s A B σ) (b : Nat) :
    Rep p M { s with blit := Function.update s.blit b ⟨s.next, false⟩, next := s.next + 1 } A (fun x => B x ∨ x = b)
      (Function.update σ s.next ((p.body b).body.holds M M)) := by
  have hp := h.pos
  refine ⟨?_, by show 1 ≤ s.next + 1; omega, ?_, ?_, ?_, ?_, h.an⟩
  · rw [Function.update_of_ne (by omega)]; exact h.zero
  · intro a; exact Nat.lt_succ_of_lt (h.av a)
  · intro x
    show (Function.update s.blit b _ x).var < s.next + 1
    by_cases e : x = b
    · rw [e, Function.update_self]; exact Nat.lt_succ_self _
    · rw [Function.update_of_ne e]; exact Nat.lt_succ_of_lt (h.bv x)
  · intro a ha hr hA
    rw [tval_update (by have := h.av a; dsimp only; omega)]
    exact h.al a ha hr hA
  · intro x hx hr hB
    show tval _ (Function.update s.blit b _ x) = _
    by_cases e : x = b
    · rw [e, Function.update_self]; exact tval_new
    · rw [Function.update_of_ne e, tval_update (by have := h.bv x; omega)]
      refine h.bl x hx hr ?_
      dsimp only at hB
      rw [Function.update_of_ne e] at hB
      rcases hB with (hB | hB) | hB
      · exact Or.inl hB
      · exact absurd hB e
      · exact Or.inr hB

theorem Rep.eqB {s : VSt} {A B : Nat → Prop} {σ : Asg} (h : Rep p M s A B σ) (b : Nat) (l : Lit) (hl : l.var < s.next)
    (ht : tval σ l = (p.body b).body.holds M M) :
    Rep p M { s with blit := Function.update s.blit b l } A (fun x => B x ∨ x = b) σ := by
  refine ⟨h.zero, h.pos, h.av, ?_, h.al, ?_, h.an⟩
  · intro x
    show (Function.update s.blit b _ x).var < s.next
    by_cases e : x = b
    · rw [e, Function.update_self]; exact hl
    · rw [Function.update_of_ne e]; exact h.bv x
  · intro x hx hr hB
    show tval _ (Function.update s.blit b _ x) = _
    by_cases e : x = b
    · rw [e, Function.update_self]; exact ht
    · rw [Function.update_of_ne e]
      refine h.bl x hx hr ?_
      dsimp only at hB
      rw [Function.update_of_ne e] at hB
      rcases hB with (hB | hB) | hB
      · exact Or.inl hB
      · exact absurd hB e
      · exact Or.inr hB

/-- what being supported says about an atom and one of its supports -/
theorem eq_support (hM : p.IsSupported M) (hw : p.Wf) {a : Nat} (ha : a < p.natoms) (hr : (p.atom a).rel = true) {e : Edge}
    (he : e ∈ (p.atom a).sups) (hbr : (p.body e.body).rel = true) (hc : e.choice = false)
    (hnew : (p.atom a).sups.length ≤ 1 ∨ (p.body e.body).val = .true) : (p.body e.body).body.holds M M = M a := by
  have hfwd : (p.body e.body).body.holds M M = true → M a = true := by
    intro hh
    have := hM.2.1.1 _ (mem_rules.2 ⟨a, ha, hr, e, he, hbr, rfl⟩) hh
    rw [hc] at this
    simpa using this
  rw [Bool.eq_iff_iff]
  refine ⟨hfwd, fun hMa => ?_⟩
  rcases hnew with hlen | hval
  · obtain ⟨r, hr', hin, hh⟩ := hM.2.1.2 a hMa
    obtain ⟨a', ha', hrel', e', he', hbr', rfl⟩ := mem_rules.1 hr'
    have : a' = a := by
      cases hce : e'.choice <;> rw [hce] at hin <;> simp [Head.atoms] at hin <;> exact hin.symm
    subst this
    have : e' = e := by
      match hs : (p.atom a').sups, hlen, he, he' with
      | [x], _, he, he' => simp at he he'; rw [he, he']
    subst this
    exact hh
  · have := hM.2.2.2 _ (hw.sups a ha hr e he) hbr
    rw [hval] at this
    exact this

theorem run_rep (hM : p.IsSupported M) (hw : p.Wf) (hs : p.Simple) {s : VSt} {A B : Nat → Prop} (h : p.VRun s A B) : ∃ σ, Rep p M s A B σ := by
  induction h with
  | init =>
    refine ⟨fun _ => true, rfl, Nat.le_refl _, ?_, ?_, ?_, ?_, ?_⟩
    · intro a; exact Nat.zero_lt_one
    · intro a; exact Nat.zero_lt_one
    · rintro a _ _ (h | h)
      · cases h
      · simp [VSt.init, hasVar] at h
    · rintro a _ _ (h | h)
      · cases h
      · simp [VSt.init, hasVar] at h
    · intro a _; rfl
  | @head s A B a e allowEq hrun ha he hbr ih =>
    obtain ⟨σ, hσ⟩ := ih
    unfold Prg.assignHead
    by_cases h1 : (hasVar (s.alit a) || !(p.atom a).rel) = true
    · rw [if_pos h1]
      refine ⟨σ, hσ.zero, hσ.pos, hσ.av, hσ.bv, ?_, hσ.bl, fun x hx => hσ.an x fun hA => hx (Or.inl hA)⟩
      intro x hx hr hA
      refine hσ.al x hx hr ?_
      rcases hA with (hA | hA) | hA
      · exact Or.inl hA
      · subst hA; rw [hr] at h1; simp at h1; exact Or.inr h1
      · exact Or.inr hA
    · rw [if_neg h1]
      dsimp only
      split
      · rename_i h2
        simp only [Bool.and_eq_true, Bool.or_eq_true, Bool.not_eq_true', decide_eq_true_eq, Bool.or_eq_false_iff,
          decide_eq_false_iff_not] at h2
        obtain ⟨⟨h3, h4⟩, h5⟩ := h2
        have hrel : (p.atom a).rel = true := by simp at h1; exact h1.2
        refine ⟨σ, hσ.eqA a _ (hσ.bv _) ?_⟩
        rw [hσ.bl _ (hw.sups a ha hrel e he) hbr (Or.inr h4)]
        refine eq_support hM hw ha hrel he hbr h3 ?_
        rcases h5 with h5 | h5
        · left; omega
        · exact Or.inr h5
      · exact ⟨_, hσ.freshA a⟩
  | @body s A B b hrun hb ih =>
    obtain ⟨σ, hσ⟩ := ih
    unfold Prg.assignBody
    dsimp only
    by_cases h1 : (hasVar (s.blit b) || !(p.body b).rel) = true
    · rw [if_pos h1]
      refine ⟨σ, hσ.zero, hσ.pos, hσ.av, hσ.bv, hσ.al, ?_, hσ.an⟩
      intro x hx hr hB
      refine hσ.bl x hx hr ?_
      rcases hB with (hB | hB) | hB
      · exact Or.inl hB
      · subst hB; rw [hr] at h1; simp at h1; exact Or.inr h1
      · exact Or.inr hB
    · rw [if_neg h1]
      have hrel : (p.body b).rel = true := by simp at h1; exact h1.2
      have hval := hM.2.2.2 b hb hrel
      have hp := hσ.pos
      by_cases h2 : (p.body b).body.lits = [] ∨ (p.body b).val = .true
      · rw [if_pos h2]
        refine ⟨σ, hσ.eqB b _ (by show 0 < s.next; omega) ?_⟩
        rw [tval_true hσ.zero]
        rcases h2 with h2 | h2
        · exact (empty_holds hs hb hrel h2).symm
        · rw [h2] at hval; exact hval.symm
      · rw [if_neg h2]
        have hfresh : ∃ σ', Rep p M (if (p.body b).val ≠ .false then
              { s with blit := Function.update s.blit b ⟨s.next, false⟩, next := s.next + 1 }
            else { s with blit := Function.update s.blit b litFalse }) A (fun x => B x ∨ x = b) σ' := by
          by_cases h3 : (p.body b).val ≠ .false
          · rw [if_pos h3]; exact ⟨_, hσ.freshB b⟩
          · rw [if_neg h3]
            refine ⟨σ, hσ.eqB b _ (by show 0 < s.next; omega) ?_⟩
            rw [tval_false hσ.zero]
            push Not at h3
            rw [h3] at hval; exact hval.symm
        split
        · rename_i g hg
          by_cases h4 : hasVar (s.alit g.atom) = true
          · rw [if_pos h4]
            refine ⟨σ, hσ.eqB b _ (by unfold flipIf; split <;> exact hσ.av _) ?_⟩
            have hgoal := hw.goals b hb hrel g (by rw [hg]; simp)
            rw [tval_congr_flip (hσ.al _ hgoal.1 hgoal.2 (Or.inr h4)), single_holds hs hb hrel hg]
          · rw [if_neg h4]; exact hfresh
        · exact hfresh

end Clasp.Asp
