import Verif.Asp.Transform
import Mathlib.Logic.ExistsUnique
import Mathlib.Tactic.Tauto

/-! Replacing a rule by rules with new atoms (C26). No code is modelled in this file; it contains specifications and proof devices only. -/

namespace Clasp.Asp

/-- Specification: all atoms of the rule are smaller than `n`. -/
def Rule.below (n : Nat) (r : Rule) : Prop := (∀ a ∈ r.head.atoms, a < n) ∧ ∀ l ∈ r.body.lits, l.atom < n

/-- Specification: the atoms smaller than `n`. -/
def res (n : Nat) (X : AtomSet) : AtomSet := fun a => decide (a < n) && X a

variable {n : Nat} {r : Rule} {P R : List Rule} {X Y M N : AtomSet}

theorem res_lt {a : Nat} (h : a < n) : res n X a = X a := by simp [res, h]

theorem holds_below {l : BLit} (h : l.atom < n) (hX : ∀ a < n, X a = Y a) (hM : ∀ a < n, M a = N a) : l.holds X M = l.holds Y N := by
  unfold BLit.holds; rw [hX _ h, hM _ h]

theorem wsum_below {ls : List (BLit × Int)} (h : ∀ x ∈ ls, x.1.atom < n) (hX : ∀ a < n, X a = Y a) (hM : ∀ a < n, M a = N a) : wsum X M ls = wsum Y N ls :=
  wsum_congr ls fun x hx => holds_below (h x hx) hX hM

theorem body_below {b : Body} (h : ∀ l ∈ b.lits, l.atom < n) (hX : ∀ a < n, X a = Y a) (hM : ∀ a < n, M a = N a) : b.holds X M = b.holds Y N :=
  b.holds_congr fun l hl => holds_below (h l hl) hX hM

theorem ok_below (h : r.below n) (hX : ∀ a < n, X a = Y a) (hM : ∀ a < n, M a = N a) : r.ok X M ↔ r.ok Y N := by
  unfold Rule.ok
  rw [body_below h.2 hX hM]
  obtain ⟨h1, _⟩ := h
  cases hh : r.head with
  | disj as =>
    rw [hh] at h1
    have : (∃ a ∈ as, X a = true) ↔ ∃ a ∈ as, Y a = true := by
      constructor <;> rintro ⟨a, ha, hx⟩ <;> refine ⟨a, ha, ?_⟩
      · rw [← hX a (h1 a ha)]; exact hx
      · rw [hX a (h1 a ha)]; exact hx
    simp only [this]
  | choice as =>
    rw [hh] at h1
    have : (∀ a ∈ as, M a = true → X a = true) ↔ ∀ a ∈ as, N a = true → Y a = true := by
      constructor <;> intro h a ha hm
      · rw [← hX a (h1 a ha)]; exact h a ha (by rw [hM a (h1 a ha)]; exact hm)
      · rw [hX a (h1 a ha)]; exact h a ha (by rw [← hM a (h1 a ha)]; exact hm)
    simp only [this]

theorem closed_below (h : ∀ r ∈ P, r.below n) (hX : ∀ a < n, X a = Y a) (hM : ∀ a < n, M a = N a) : Closed P X M ↔ Closed P Y N :=
  ⟨fun hc r hr => (ok_below (h r hr) hX hM).1 (hc r hr), fun hc r hr => (ok_below (h r hr) hX hM).2 (hc r hr)⟩

theorem closed_append : Closed (P ++ R) X M ↔ Closed P X M ∧ Closed R X M := by
  simp only [Closed, List.mem_append]
  exact ⟨fun h => ⟨fun r hr => h r (.inl hr), fun r hr => h r (.inr hr)⟩, fun h r hr => hr.elim (h.1 r) (h.2 r)⟩

theorem closed_single : Closed [r] X M ↔ r.ok X M := by simp [Closed]

/-- Only atoms of the program are in a stable model. -/
theorem stable_below (h : ∀ r ∈ P, r.below n) (hs : Stable P M) : ∀ a, M a = true → a < n := by
  have := hs.2 (res n M) (fun a ha => by simp only [res, Bool.and_eq_true] at ha; exact ha.2)
    ((closed_below h (fun a ha => res_lt ha) fun a _ => rfl).2 hs.1)
  intro a ha
  have := this a ha
  simp only [res, Bool.and_eq_true, decide_eq_true_eq] at this
  exact this.1

/-- Proof device: the rules `R` do the same as `r` does, with the new atoms defined by `E`. -/
structure Ext (n : Nat) (r : Rule) (R : List Rule) (E : AtomSet → AtomSet → AtomSet) : Prop where
  low : ∀ X M a, a < n → E X M a = X a
  cong : ∀ X Y M N, (∀ a < n, X a = Y a) → (∀ a < n, M a = N a) → E X M = E Y N
  A : ∀ M, Closed R M M → Sub (E M M) M ∧ Closed R (E M M) M
  B : ∀ X M, Sub X (E M M) → Closed R X (E M M) → Sub (E X M) X ∧ r.ok X M
  C : ∀ X M, Sub X M → Sub (E X M) (E M M) ∧ (r.ok X M → Closed R (E X M) (E M M))

variable {E : AtomSet → AtomSet → AtomSet}

theorem Ext.forward (h : Ext n r R E) (hP : ∀ r ∈ P, r.below n) (hr : r.below n) (hs : Stable (P ++ [r]) M) : Stable (P ++ R) (E M M) := by
  obtain ⟨hc, hmin⟩ := hs
  rw [closed_append, closed_single] at hc
  have hlow : ∀ X a, a < n → E X M a = X a := fun X a ha => h.low X M a ha
  refine ⟨closed_append.2 ⟨(closed_below hP (fun a ha => hlow M a ha) fun a ha => hlow M a ha).2 hc.1, (h.C M M fun _ h => h).2 hc.2⟩, fun X' hX' hcl => ?_⟩
  rw [closed_append] at hcl
  obtain ⟨h1, h2⟩ := h.B X' M hX' hcl.2
  have hsub : Sub (res n X') M := by
    intro a ha
    simp only [res, Bool.and_eq_true, decide_eq_true_eq] at ha
    rw [← hlow M a ha.1]; exact hX' a ha.2
  have hM := hmin (res n X') hsub (closed_append.2 ⟨(closed_below hP (fun a ha => res_lt ha) fun a ha => (hlow M a ha).symm).2 hcl.1,
    closed_single.2 ((ok_below hr (fun a ha => res_lt ha) fun a _ => rfl).2 h2)⟩)
  have e : E M M = E X' M := h.cong M X' M M (fun a ha => by
    cases hm : M a with
    | true =>
      have := hM a hm
      rw [res_lt ha] at this; rw [this]
    | false =>
      cases hx : X' a with
      | false => rfl
      | true => rw [hsub a (by rw [res_lt ha]; exact hx)] at hm; cases hm) fun _ _ => rfl
  rw [e]; exact h1

theorem Ext.eq (h : Ext n r R E) (hP : ∀ r ∈ P, r.below n) (hs : Stable (P ++ R) M) : M = E M M := by
  obtain ⟨hc, hmin⟩ := hs
  rw [closed_append] at hc
  obtain ⟨h1, h2⟩ := h.A M hc.2
  have h3 := hmin (E M M) h1 (closed_append.2 ⟨(closed_below hP (fun a ha => h.low M M a ha) fun _ _ => rfl).2 hc.1, h2⟩)
  funext a
  rw [Bool.eq_iff_iff]
  exact ⟨h3 a, h1 a⟩

theorem Ext.backward (h : Ext n r R E) (hP : ∀ r ∈ P, r.below n) (hr : r.below n) (hs : Stable (P ++ R) M) : Stable (P ++ [r]) (res n M) := by
  have e := h.eq hP hs
  obtain ⟨hc, hmin⟩ := hs
  rw [closed_append] at hc
  have hcong : E (res n M) (res n M) = M := by
    rw [h.cong (res n M) M (res n M) M (fun a ha => res_lt ha) fun a ha => res_lt ha]; exact e.symm
  have hlowr : ∀ a < n, res n M a = M a := fun a ha => res_lt ha
  have hok : r.ok (res n M) (res n M) := by
    have := (h.B M (res n M) (by rw [hcong]; exact fun _ h => h) (by rw [hcong]; exact hc.2)).2
    exact (ok_below hr hlowr fun _ _ => rfl).2 this
  refine ⟨closed_append.2 ⟨(closed_below hP hlowr hlowr).2 hc.1, closed_single.2 hok⟩, fun X hX hcl => ?_⟩
  rw [closed_append, closed_single] at hcl
  obtain ⟨h1, h2⟩ := h.C X (res n M) hX
  rw [hcong] at h1 h2
  have h3 := hmin (E X (res n M)) h1 (closed_append.2 ⟨(closed_below hP (fun a ha => h.low _ _ a ha) fun a ha => (hlowr a ha).symm).2 hcl.1, h2 hcl.2⟩)
  intro a ha
  simp only [res, Bool.and_eq_true, decide_eq_true_eq] at ha
  rw [← h.low X (res n M) a ha.1]
  exact h3 a ha.2

/-- Specification: the stable models of the programs `P` and `Q` correspond one to one; corresponding ones contain the same atoms smaller than `n`. -/
def SameModels (n : Nat) (P Q : List Rule) : Prop :=
  (∀ M, Stable P M → ∃! M', Stable Q M' ∧ ∀ a < n, M' a = M a) ∧ (∀ M', Stable Q M' → ∃! M, Stable P M ∧ ∀ a < n, M a = M' a)

theorem stable_congr {P Q : List Rule} (h : ∀ r, r ∈ P ↔ r ∈ Q) : Stable P M ↔ Stable Q M := by
  have : ∀ X, Closed P X M ↔ Closed Q X M := fun X => by simp only [Closed, h]
  unfold Stable
  simp only [this]

theorem SameModels.congr {P Q P' Q' : List Rule} (hP : ∀ r, r ∈ P ↔ r ∈ P') (hQ : ∀ r, r ∈ Q ↔ r ∈ Q') (h : SameModels n P Q) : SameModels n P' Q' := by
  unfold SameModels at *
  simp only [← stable_congr hP, ← stable_congr hQ]
  exact h

theorem SameModels.trans {P Q R : List Rule} {n' : Nat} (hn : n ≤ n') (h1 : SameModels n P Q) (h2 : SameModels n' Q R) : SameModels n P R := by
  constructor
  · intro M hM
    obtain ⟨M1, ⟨g1, g2⟩, g3⟩ := h1.1 M hM
    obtain ⟨M2, ⟨k1, k2⟩, k3⟩ := h2.1 M1 g1
    refine ⟨M2, ⟨k1, fun a ha => (k2 a (by omega)).trans (g2 a ha)⟩, ?_⟩
    rintro N ⟨q1, q2⟩
    obtain ⟨N1, ⟨r1, r2⟩, -⟩ := h2.2 N q1
    have : N1 = M1 := g3 N1 ⟨r1, fun a ha => (r2 a (by omega)).trans (q2 a ha)⟩
    subst this
    exact k3 N ⟨q1, fun a ha => (r2 a ha).symm⟩
  · intro M2 hM
    obtain ⟨M1, ⟨g1, g2⟩, g3⟩ := h2.2 M2 hM
    obtain ⟨M, ⟨k1, k2⟩, k3⟩ := h1.2 M1 g1
    refine ⟨M, ⟨k1, fun a ha => (k2 a ha).trans (g2 a (by omega))⟩, ?_⟩
    rintro N ⟨q1, q2⟩
    exact k3 N ⟨q1, fun a ha => (q2 a ha).trans (g2 a (by omega)).symm⟩

theorem Ext.same (h : Ext n r R E) (hP : ∀ r ∈ P, r.below n) (hr : r.below n) : SameModels n (P ++ [r]) (P ++ R) := by
  have hPr : ∀ q ∈ P ++ [r], q.below n := by
    intro q hq
    rcases List.mem_append.1 hq with hq | hq
    · exact hP q hq
    · rw [List.mem_singleton.1 hq]; exact hr
  refine ⟨fun M hs => ⟨E M M, ⟨h.forward hP hr hs, fun a ha => h.low M M a ha⟩, ?_⟩, fun M' hs => ⟨res n M', ⟨h.backward hP hr hs, fun a ha => res_lt ha⟩, ?_⟩⟩
  · rintro M' ⟨h1, h2⟩
    rw [h.eq hP h1]
    exact h.cong _ _ _ _ h2 h2
  · rintro M ⟨h1, h2⟩
    funext a
    by_cases ha : a < n
    · rw [res_lt ha]; exact h2 a ha
    · have : res n M' a = false := by simp [res, ha]
      rw [this]
      cases hm : M a with
      | false => rfl
      | true => exact absurd (stable_below hPr h1 a hm) ha

theorem SameModels.refl (hP : ∀ r ∈ P, r.below n) : SameModels n P P := by
  have key : ∀ M, Stable P M → ∃! M', Stable P M' ∧ ∀ a < n, M' a = M a := by
    intro M hs
    refine ⟨M, ⟨hs, fun _ _ => rfl⟩, ?_⟩
    rintro M' ⟨h1, h2⟩
    funext a
    by_cases ha : a < n
    · exact h2 a ha
    · have : ∀ N, Stable P N → N a = false := by
        intro N hN
        cases hm : N a with
        | false => rfl
        | true => exact absurd (stable_below hP hN a hm) ha
      rw [this M hs, this M' h1]
  exact ⟨key, key⟩

theorem Rule.below.mono {m : Nat} (h : r.below n) (hn : n ≤ m) : r.below m :=
  ⟨fun a ha => Nat.lt_of_lt_of_le (h.1 a ha) hn, fun l hl => Nat.lt_of_lt_of_le (h.2 l hl) hn⟩

theorem mkRule_below {h : Nat} {b : List BLit} (hh : h < n) (hb : ∀ l ∈ b, l.atom < n) : (mkRule h b).below n := by
  refine ⟨fun a ha => ?_, hb⟩
  unfold mkRule headOf Head.atoms at ha
  simp only [] at ha
  split at ha
  · simp at ha
  · rw [List.mem_singleton.1 ha]; exact hh

/-! ### Rules with one head atom -/

theorem mkRule_ok {h : Nat} {b : List BLit} (h0 : h ≠ 0) : (mkRule h b).ok X M ↔ (b.all (·.holds X M) = true → X h = true) := by
  unfold mkRule Rule.ok headOf Body.holds
  simp [h0]

theorem mkRule_ok0 {b : List BLit} : (mkRule 0 b).ok X M ↔ ¬ b.all (·.holds X M) = true := by
  unfold mkRule Rule.ok headOf Body.holds
  simp

/-- Proof device: the body of the sum rules derives `h`: the atom `h` is in `X`, or there is no atom. -/
def Got (X : AtomSet) (h : Nat) : Prop := h ≠ 0 ∧ X h = true

theorem mkRule_got {h : Nat} {b : List BLit} : (mkRule h b).ok X M ↔ (b.all (·.holds X M) = true → Got X h) := by
  unfold Got
  by_cases h0 : h = 0
  · subst h0; rw [mkRule_ok0]; simp
  · rw [mkRule_ok h0]; simp [h0]

theorem head_ok {h : Nat} {ls : List (BLit × Int)} {bound : Int} : (Rule.mk (headOf h) (.sum ls bound)).ok X M ↔ (bound ≤ wsum X M ls → Got X h) := by
  unfold Got Rule.ok headOf Body.holds
  by_cases h0 : h = 0 <;> simp [h0]

end Clasp.Asp
