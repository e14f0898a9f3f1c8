import Verif.Ext.ClingoLem
/-!
# The adaptor for theory propagators: a level is removed
-/

namespace Clasp.Clingo
open Clasp.Core (Lit)

/-- Proof device: the trail without its last level. -/
abbrev cut (σ : St) : List (Lit × Nat) := σ.trail.filter fun e => e.2 < σ.dl

/-- Proof device: the state after a level was removed. -/
def popped (σ : St) (us : List Nat) (ms : List Mark) (P : List Lit) (prop : Nat) (pfront : Option Int) (epoch : Nat) (propL : Option Nat) (log : List Call) : St :=
  { σ with trail := cut σ, front := (cut σ).length, confl := false, seen := σ.seen.filter (· < σ.dl), hit := σ.hit || σ.dl ≤ σ.nl,
           late := σ.late.filter (fun p => (cut σ).any fun e => e.1 == p), uw := us, undo := ms, ptrail := P, lev := us.headD 0, prop := prop, pfront := pfront,
           epoch := epoch, propL := propL, log := log, dl := σ.dl - 1, probe := σ.probe - 1 }

theorem take_cut {σ : St} {f l : Nat} (hle : f ≤ σ.trail.length) (h : ∀ e ∈ σ.trail.take f, e.2 ≤ l) (hl : l < σ.dl) :
    (cut σ).take f = σ.trail.take f ∧ f ≤ (cut σ).length := by
  have h1 : cut σ = σ.trail.take f ++ (σ.trail.drop f).filter fun e => e.2 < σ.dl := by
    conv_lhs => rw [cut, ← List.take_append_drop f σ.trail]
    rw [List.filter_append]
    congr 1
    rw [List.filter_eq_self]
    intro e he
    have := h e he
    simp; omega
  have h2 : (σ.trail.take f).length = f := by simp; omega
  rw [h1]
  refine ⟨?_, by rw [List.length_append, h2]; omega⟩
  rw [List.take_append_of_le_length (by omega), List.take_of_length_le (by omega)]

theorem popped_inv {σ : St} (h : Inv σ) (h0 : 0 < σ.dl) {us ms P Q prop pfront epoch propL log}
    (hfr : Fr σ.trail us ms P) (hus : ∀ x ∈ us, x < σ.dl) (hge : ∀ x ∈ σ.uw, x = σ.dl ∨ x ∈ us)
    (hP : σ.ptrail = P ++ Q) (hQ : ∀ q ∈ Q, (q, σ.dl) ∈ σ.trail) (hprop : prop = min σ.prop P.length)
    (hview : ∃ v, View log v ∧ v.map Prod.snd = P.take prop ∧ ∀ x ∈ v, (x.2, x.1) ∈ σ.trail ∧ x.1 < σ.dl)
    (hchk : (∀ f, pfront = some f → f < 0) ∨ (pfront = σ.pfront ∧ σ.dl ∉ σ.uw ∧ lastCheck log = lastCheck σ.log))
    (hfixm : pfront = none → σ.pfront = none) (hep : σ.epoch ≤ epoch) (hpl : σ.propL = some σ.nl → σ.nl < σ.dl → propL = σ.propL)
    (hlt : σ.dl ∈ σ.uw → σ.propL = some σ.dl → σ.epoch < epoch) :
    Inv (popped σ us ms P prop pfront epoch propL log) := by
  have hmem : ∀ p ∈ P, ∃ l, (p, l) ∈ σ.trail ∧ l < σ.dl := by
    intro p hp
    obtain ⟨l, h1, h2⟩ := hfr.mem p hp
    refine ⟨l, h1, ?_⟩
    rcases h2 with h2 | h2
    · omega
    · exact hus l h2
  have hcut : ∀ e, e ∈ cut σ ↔ e ∈ σ.trail ∧ e.2 < σ.dl := by intro e; simp [cut, List.mem_filter]
  have hQP : ∀ p l, (p, l) ∈ cut σ → p ∈ σ.ptrail → p ∈ P := by
    intro p l hp hpt
    rw [hP] at hpt
    rcases List.mem_append.mp hpt with hpt | hpt
    · exact hpt
    · have := lev_unique h.nd (hQ p hpt) ((hcut _).mp hp).1
      have := ((hcut _).mp hp).2
      simp only at this
      omega
  constructor
  · exact h.nd.sublist ((List.filter_sublist).map _)
  · intro e he
    have := ((hcut e).mp he).2
    show e.2 ≤ σ.dl - 1
    omega
  · exact Nat.le_refl _
  · intro e he
    have : (popped σ us ms P prop pfront epoch propL log).trail.drop (popped σ us ms P prop pfront epoch propL log).front = [] := List.drop_length
    rw [this] at he
    cases he
  · intro l hl hl'
    have hl'' : l ≤ σ.dl - 1 := hl'
    obtain ⟨e, he, hel⟩ := h.ne l hl (by omega)
    exact ⟨e, (hcut e).mpr ⟨he, by omega⟩, hel⟩
  · exact hfr.mono fun e he hx => (hcut e).mpr ⟨he, by rcases hx with hx | hx; omega; exact hus _ hx⟩
  · rfl
  · intro l hl
    have := hus l hl
    show l ≤ σ.dl - 1
    omega
  · show prop ≤ P.length
    omega
  · intro p hp
    have hp1 : p ∈ P.drop prop := hp
    have hpP := List.mem_of_mem_drop hp1
    have hps : p ∈ σ.ptrail.drop σ.prop := by
      rw [hP]
      by_cases hle : σ.prop ≤ P.length
      · have : prop = σ.prop := by omega
        rw [List.drop_append_of_le_length hle, ← this]
        exact List.mem_append_left _ hp1
      · have : P.length ≤ prop := by omega
        rw [List.drop_eq_nil_of_le this] at hp1
        cases hp1
    obtain ⟨l, h1, h2⟩ := h.base p hps
    obtain ⟨l', h1', h2'⟩ := hmem p hpP
    have := lev_unique h.nd h1 h1'
    subst this
    refine ⟨l, (hcut _).mpr ⟨h1, h2'⟩, ?_⟩
    show σ.dl - 1 - (σ.probe - 1) ≤ l
    omega
  · intro p hp
    obtain ⟨l, h1, h2⟩ := hmem p hp
    show p ∈ ((cut σ).take (cut σ).length).map Prod.fst
    rw [List.take_length]
    exact List.mem_map.mpr ⟨(p, l), (hcut _).mpr ⟨h1, h2⟩, rfl⟩
  · have := h.pnd
    rw [hP] at this
    exact (List.nodup_append.mp this).1
  · intro p l hp hw hlate
    have hlate' : p ∉ σ.late := by
      intro hx
      apply hlate
      refine List.mem_filter.mpr ⟨hx, ?_⟩
      rw [List.any_eq_true]
      exact ⟨(p, l), hp, by simp⟩
    have hp' := (hcut _).mp hp
    left
    rcases h.comp p l hp'.1 hw hlate' with hc | hc | hc
    · exact hQP p l hp hc
    · obtain ⟨e, he, rfl⟩ := List.mem_map.mp hc
      have h1 := h.q e he
      have h2 := lev_unique h.nd hp'.1 (List.mem_of_mem_drop he)
      have := hp'.2
      simp only at this
      omega
    · have := hp'.2
      simp only at this
      omega
  · obtain ⟨v, h1, h2, h3⟩ := hview
    exact ⟨v, h1, h2, fun x hx => (hcut _).mpr (h3 x hx)⟩
  · intro f hf hf0
    have hf' : pfront = some f := hf
    rcases hchk with hchk | ⟨h1, h2, h3⟩
    · have := hchk f hf'
      omega
    · obtain ⟨l, a1, a2, a3, a4⟩ := h.chk f (by rw [← h1]; exact hf') hf0
      have hl : l < σ.dl := by
        rcases a4 with a4 | a4
        · omega
        · rcases hge l a4 with hx | hx
          · exact absurd (hx ▸ a4) h2
          · exact hus l hx
      obtain ⟨b1, b2⟩ := take_cut a2 a3 hl
      refine ⟨l, ?_, b2, ?_, ?_⟩
      · show lastCheck log = some ((cut σ).take f.toNat)
        rw [b1, h3, a1]
      · intro e he
        have he' : e ∈ (cut σ).take f.toNat := he
        rw [b1] at he'
        exact a3 e he'
      · rcases a4 with a4 | a4
        · exact Or.inl a4
        · rcases hge l a4 with hx | hx
          · omega
          · exact Or.inr hx
  · intro hx hn
    exact h.fixm hx (hfixm hn)
  · intro e he
    obtain ⟨a1, a2, a3⟩ := h.nst e he
    have a1' : e ≤ epoch := by omega
    refine ⟨a1', ?_, ?_⟩
    · intro hh
      have hh' : (σ.hit || decide (σ.dl ≤ σ.nl)) = true := hh
      show e < epoch
      by_cases hit : σ.hit = true
      · have := a2 hit
        omega
      · have hit' : σ.hit = false := by simpa using hit
        rw [hit'] at hh'
        obtain ⟨b1, b2, b3⟩ := a3 hit'
        have hle : σ.dl ≤ σ.nl := by simpa using hh'
        have heq : σ.nl = σ.dl := by omega
        have hu : σ.dl ∈ σ.uw := by rcases b3 with b3 | b3; omega; exact heq ▸ b3
        have := hlt hu (by rw [b1, heq])
        omega
    · intro hh
      have hh' : (σ.hit || decide (σ.dl ≤ σ.nl)) = false := hh
      rw [Bool.or_eq_false_iff] at hh'
      obtain ⟨b1, b2, b3⟩ := a3 hh'.1
      have hlt' : σ.nl < σ.dl := by simpa using hh'.2
      refine ⟨?_, ?_, ?_⟩
      · show propL = some σ.nl
        rw [hpl b1 hlt', b1]
      · show σ.nl ≤ σ.dl - 1
        omega
      · rcases b3 with b3 | b3
        · exact Or.inl b3
        · rcases hge _ b3 with hx | hx
          · omega
          · exact Or.inr hx
  · intro l hl
    have hl' : l ∈ σ.seen.filter (· < σ.dl) := hl
    rw [List.mem_filter] at hl'
    rcases h.seen l hl'.1 with hx | hx
    · exact Or.inl hx
    · rcases hge l hx with hy | hy
      · have := hl'.2
        simp at this
        omega
      · exact Or.inr hy
  · exact ⟨h.wt.1, fun p hp => h.wt.2 p (by rw [hP]; exact List.mem_append_left _ hp)⟩

end Clasp.Clingo
