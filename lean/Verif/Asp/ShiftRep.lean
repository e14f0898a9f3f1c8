import Verif.Asp.Shift
import Verif.Asp.TransformLem

/-! Programs with defined atoms (C48). No code is modelled in this file; it contains specifications and proof devices only. -/

namespace Clasp.Shift
open Clasp.Asp

/-- Proof device: `M` is a minimal set of atoms smaller than `n` with `K`, where `K X M` is the counterpart of "`X` is a model of the reduct by `M`". -/
def StableK (n : Nat) (K : AtomSet → AtomSet → Prop) (M : AtomSet) : Prop := (∀ a, M a = true → a < n) ∧ K M M ∧ ∀ X, Sub X M → K X M → Sub M X

/-- Proof device: the rules `Q` express `K`, with atoms from `n` to `m` that are defined by rules of `Q`; `E X M` is the extension of `X` by them. The rules `G` add nothing. -/
structure Rep (n m : Nat) (K : AtomSet → AtomSet → Prop) (Q G : List Rule) (E : AtomSet → AtomSet → AtomSet) : Prop where
  le : n ≤ m
  low : ∀ X M, ∀ a < n, E X M a = X a
  cong : ∀ X Y M N, (∀ a < n, X a = Y a) → (∀ a < n, M a = N a) → E X M = E Y N
  high : ∀ X M a, m ≤ a → E X M a = false
  mono : ∀ X Y M, Sub X Y → Sub (E X M) (E Y M)
  below : ∀ r ∈ Q ++ G, r.below m
  neg : ∀ r ∈ Q ++ G, ∀ X N N', (∀ a < n, N a = N' a) → (r.ok X N ↔ r.ok X N')
  kcong : ∀ X Y M N, (∀ a < n, X a = Y a) → (∀ a < n, M a = N a) → K X M → K Y N
  f1 : ∀ X M, Sub X M → K X M → Closed (Q ++ G) (E X M) M
  f2 : ∀ X M, Closed Q X M → K X M
  f3 : ∀ X M, Closed Q X M → Sub (E X M) X

variable {n m : Nat} {K : AtomSet → AtomSet → Prop} {Q G : List Rule} {E : AtomSet → AtomSet → AtomSet}

theorem sub_antisymm {X Y : AtomSet} (h1 : Sub X Y) (h2 : Sub Y X) : X = Y := by
  funext a
  exact Bool.eq_iff_iff.2 ⟨h1 a, h2 a⟩

theorem Rep.closed_neg (h : Rep n m K Q G E) {X N N' : AtomSet} (e : ∀ a < n, N a = N' a) : Closed (Q ++ G) X N ↔ Closed (Q ++ G) X N' :=
  ⟨fun hc r hr => (h.neg r hr X N N' e).1 (hc r hr), fun hc r hr => (h.neg r hr X N N' e).2 (hc r hr)⟩

theorem Rep.res_E (h : Rep n m K Q G E) {X M : AtomSet} : res n (E X M) = res n X := by
  funext a
  unfold res
  by_cases ha : a < n
  · rw [h.low X M a ha]
  · simp [ha]

theorem res_of {M : AtomSet} (h : ∀ a, M a = true → a < n) : res n M = M := by
  funext a
  unfold res
  cases hm : M a with
  | false => simp
  | true => simp [h a hm]

theorem res_sub {M : AtomSet} : Sub (res n M) M := fun a ha => by
  unfold res at ha; exact (Bool.and_eq_true _ _ ▸ ha).2

theorem res_dom {M : AtomSet} {a : Nat} (h : res n M a = true) : a < n := by
  unfold res at h
  rw [Bool.and_eq_true, decide_eq_true_eq] at h
  exact h.1

theorem Rep.kres (h : Rep n m K Q G E) {X M : AtomSet} : K X M ↔ K (res n X) (res n M) :=
  ⟨h.kcong _ _ _ _ (fun a ha => (res_lt ha).symm) fun a ha => (res_lt ha).symm, h.kcong _ _ _ _ (fun a ha => res_lt ha) fun a ha => res_lt ha⟩

/-- A program between `Q` and `Q ++ G`. -/
theorem Rep.fwd (h : Rep n m K Q G E) {P : List Rule} (h1 : ∀ r ∈ Q, r ∈ P) (h2 : ∀ r ∈ P, r ∈ Q ++ G) {M : AtomSet} (hM : StableK n K M) : Stable P (E M M) := by
  have hlow : ∀ a < n, E M M a = M a := h.low M M
  refine ⟨fun r hr => ?_, fun X hX hc => ?_⟩
  · exact (h.neg r (h2 r hr) _ _ _ fun a ha => (hlow a ha).symm).1 (h.f1 M M (fun _ h => h) hM.2.1 r (h2 r hr))
  · have hcQ : Closed Q X (E M M) := fun r hr => hc r (h1 r hr)
    have hK := h.f2 _ _ hcQ
    have hK' : K (res n X) M := by
      refine h.kcong _ _ _ _ (fun a ha => (res_lt ha).symm) hlow hK
    have hMX : Sub M (res n X) := hM.2.2 _ (fun a ha => by
      have hn : a < n := res_dom ha
      rw [← hlow a hn]; exact hX a (res_sub _ ha)) hK'
    have e : E X (E M M) = E M M := by
      refine h.cong _ _ _ _ (fun a ha => ?_) hlow
      refine Bool.eq_iff_iff.2 ⟨fun hx => ?_, fun hx => res_sub _ (hMX a hx)⟩
      rw [← hlow a ha]; exact hX a hx
    have := h.f3 _ _ hcQ
    rw [e] at this
    exact this

theorem Rep.bwd (h : Rep n m K Q G E) {P : List Rule} (h1 : ∀ r ∈ Q, r ∈ P) (h2 : ∀ r ∈ P, r ∈ Q ++ G) {M : AtomSet} (hM : Stable P M) :
    StableK n K (res n M) ∧ M = E (res n M) (res n M) := by
  have hcQ : Closed Q M M := fun r hr => hM.1 r (h1 r hr)
  have e0 : E (res n M) (res n M) = E M M := h.cong _ _ _ _ (fun a ha => res_lt ha) fun a ha => res_lt ha
  have hK : K (res n M) (res n M) := h.kres.1 (h.f2 _ _ hcQ)
  have hsub := h.f3 _ _ hcQ
  have hcl : ∀ X, Sub X (res n M) → K X (res n M) → Closed P (E X (res n M)) M := fun X hX hKX r hr =>
    (h.neg r (h2 r hr) _ _ _ fun a ha => res_lt ha).1 (h.f1 _ _ hX hKX r (h2 r hr))
  have heq : M = E (res n M) (res n M) := by
    refine sub_antisymm ?_ (by rw [e0]; exact hsub)
    refine hM.2 _ (by rw [e0]; exact hsub) (hcl _ (fun _ h => h) hK)
  refine ⟨⟨fun a ha => res_dom ha, hK, fun X hX hKX => ?_⟩, heq⟩
  have h3 : Sub (E X (res n M)) M := by
    intro a ha
    rw [heq]
    exact h.mono _ _ _ hX a ha
  have h4 := hM.2 _ h3 (hcl X hX hKX)
  intro a ha
  have hn : a < n := res_dom ha
  have := h4 a (res_sub _ ha)
  rwa [h.low _ _ a hn] at this

/-- The stable models of a program that expresses what `P` expresses. -/
theorem Rep.same (h : Rep n m K Q G E) {P P' : List Rule} (h1 : ∀ r ∈ Q, r ∈ P') (h2 : ∀ r ∈ P', r ∈ Q ++ G) (hP : ∀ M, Stable P M ↔ StableK n K M) : SameModels n P P' := by
  refine ⟨fun M hM => ?_, fun M' hM' => ?_⟩
  · have hk := (hP M).1 hM
    refine ⟨E M M, ⟨h.fwd h1 h2 hk, h.low M M⟩, ?_⟩
    rintro N ⟨hN, hNl⟩
    obtain ⟨-, e⟩ := h.bwd h1 h2 hN
    rw [e]
    have : ∀ a < n, res n N a = M a := fun a ha => by rw [res_lt ha]; exact hNl a ha
    exact h.cong _ _ _ _ this this
  · obtain ⟨hk, e⟩ := h.bwd h1 h2 hM'
    refine ⟨res n M', ⟨(hP _).2 hk, fun a ha => res_lt ha⟩, ?_⟩
    rintro N ⟨hN, hNl⟩
    have := ((hP N).1 hN).1
    funext a
    by_cases ha : a < n
    · rw [res_lt ha]; exact hNl a ha
    · have h0 : res n M' a = false := by simp [res, ha]
      rw [h0]
      cases hv : N a with
      | false => rfl
      | true => exact absurd (this a hv) ha

/-- A program without defined atoms. -/
theorem Rep.base {R : List Rule} (hR : ∀ r ∈ R, r.below n) : Rep n n (Closed R) R [] (fun X _ => res n X) where
  le := Nat.le_refl _
  low := fun X M a ha => res_lt ha
  cong := fun X Y M N h _ => by
    funext a
    unfold res
    by_cases ha : a < n
    · rw [h a ha]
    · simp [ha]
  high := fun X M a ha => by simp [res, Nat.not_lt.2 ha]
  mono := fun X Y M h a ha => by
    unfold res at *
    rw [Bool.and_eq_true] at *
    exact ⟨ha.1, h a ha.2⟩
  below := by simpa using hR
  neg := fun r hr X N N' e => ok_below (hR r (by simpa using hr)) (fun _ _ => rfl) e
  kcong := fun X Y M N h1 h2 => (closed_below hR h1 h2).1
  f1 := fun X M _ hK => by
    rw [List.append_nil]
    exact (closed_below hR (fun a ha => res_lt ha) fun _ _ => rfl).2 hK
  f2 := fun _ _ h => h
  f3 := fun _ _ _ => res_sub

theorem Rep.congrK (h : Rep n m K Q G E) {K' : AtomSet → AtomSet → Prop} (e : ∀ X M, K X M ↔ K' X M) : Rep n m K' Q G E := by
  have : K = K' := by funext X M; exact propext (e X M)
  rw [← this]; exact h

/-- Negative literals of a body are about old atoms. -/
def NegLow (n : Nat) (B : Body) : Prop := ∀ l ∈ B.lits, l.neg = true → l.atom < n

theorem negLow_holds {B : Body} (h : NegLow n B) {X N N' : AtomSet} (e : ∀ a < n, N a = N' a) : B.holds X N = B.holds X N' := by
  refine B.holds_congr fun l hl => ?_
  unfold BLit.holds
  by_cases hn : l.neg = true
  · rw [if_pos hn, if_pos hn, e _ (h l hl hn)]
  · rw [if_neg hn, if_neg hn]

theorem negLow_ok {as : List Nat} {B : Body} (h : NegLow n B) {X N N' : AtomSet} (e : ∀ a < n, N a = N' a) : (Rule.mk (.disj as) B).ok X N ↔ (Rule.mk (.disj as) B).ok X N' := by
  unfold Rule.ok
  rw [negLow_holds h e]

/-- Adding the definition of an atom. -/
theorem Rep.addDef (h : Rep n m K Q G E) {Bs : List Body} (hb : ∀ B ∈ Bs, (∀ l ∈ B.lits, l.atom < m) ∧ NegLow n B ∧ B.nonneg) :
    Rep n (m + 1) K (Q ++ Bs.map fun B => ⟨.disj [m], B⟩) G (fun X M a => if a = m then Bs.any fun B => B.holds (E X M) M else E X M a) where
  le := Nat.le_succ_of_le h.le
  low := fun X M a ha => by
    have := h.le
    show (if a = m then _ else _) = _
    rw [if_neg (by omega)]; exact h.low X M a ha
  cong := fun X Y M N h1 h2 => by
    funext a
    rw [h.cong X Y M N h1 h2]
    by_cases ha : a = m
    · simp only [ha, if_true]
      refine Bool.eq_iff_iff.2 ?_
      simp only [List.any_eq_true]
      constructor <;> rintro ⟨B, hB, hh⟩ <;> refine ⟨B, hB, ?_⟩
      · rw [← negLow_holds (hb B hB).2.1 h2]; exact hh
      · rw [negLow_holds (hb B hB).2.1 h2]; exact hh
    · simp only [ha, if_false]
  high := fun X M a ha => by
    show (if a = m then _ else _) = _
    rw [if_neg (by omega)]; exact h.high X M a (by omega)
  mono := fun X Y M hs a ha => by
    by_cases e : a = m
    · simp only [e, if_true, List.any_eq_true] at ha ⊢
      obtain ⟨B, hB, hh⟩ := ha
      exact ⟨B, hB, Body.holds_mono (h.mono X Y M hs) _ (hb B hB).2.2 hh⟩
    · simp only [e, if_false] at ha ⊢
      exact h.mono X Y M hs a ha
  below := by
    intro r hr
    simp only [List.mem_append, List.mem_map] at hr
    have old : r ∈ Q ++ G → r.below (m + 1) := fun hr => ⟨fun a ha => Nat.lt_succ_of_lt ((h.below r hr).1 a ha), fun l hl => Nat.lt_succ_of_lt ((h.below r hr).2 l hl)⟩
    rcases hr with (hr | ⟨B, hB, rfl⟩) | hr
    · exact old (List.mem_append_left _ hr)
    · exact ⟨fun a ha => by have : a = m := by simpa [Head.atoms] using ha
                            omega, fun l hl => Nat.lt_succ_of_lt ((hb B hB).1 l hl)⟩
    · exact old (List.mem_append_right _ hr)
  neg := by
    intro r hr X N N' e
    simp only [List.mem_append, List.mem_map] at hr
    rcases hr with (hr | ⟨B, hB, rfl⟩) | hr
    · exact h.neg r (List.mem_append_left _ hr) X N N' e
    · exact negLow_ok (hb B hB).2.1 e
    · exact h.neg r (List.mem_append_right _ hr) X N N' e
  kcong := h.kcong
  f1 := by
    intro X M hs hK r hr
    have hE : ∀ a < m, E X M a = (fun a => if a = m then Bs.any fun B => B.holds (E X M) M else E X M a) a := fun a ha => by
      show _ = if a = m then _ else _
      rw [if_neg (by omega)]
    simp only [List.mem_append, List.mem_map] at hr
    have old : r ∈ Q ++ G → r.ok (fun a => if a = m then Bs.any fun B => B.holds (E X M) M else E X M a) M := fun hr =>
      (ok_below (h.below r hr) hE fun _ _ => rfl).1 (h.f1 X M hs hK r hr)
    rcases hr with (hr | ⟨B, hB, rfl⟩) | hr
    · exact old (List.mem_append_left _ hr)
    · intro hh
      refine ⟨m, by simp, ?_⟩
      simp only [if_true, List.any_eq_true]
      refine ⟨B, hB, ?_⟩
      rw [body_below (hb B hB).1 hE fun _ _ => rfl]; exact hh
    · exact old (List.mem_append_right _ hr)
  f2 := fun X M hc => h.f2 X M (closed_append.1 hc).1
  f3 := fun X M hc a ha => by
    obtain ⟨h1, h2⟩ := closed_append.1 hc
    by_cases e : a = m
    · simp only [e, if_true, List.any_eq_true] at ha ⊢
      obtain ⟨B, hB, hh⟩ := ha
      obtain ⟨b, hb', hx⟩ := h2 _ (List.mem_map.2 ⟨B, hB, rfl⟩) (Body.holds_mono (h.f3 X M h1) _ (hb B hB).2.2 hh)
      have : b = m := by simpa using hb'
      rw [← this]; exact hx
    · simp only [e, if_false] at ha
      exact h.f3 X M h1 a ha

/-- Adding a rule. -/
theorem Rep.addRule (h : Rep n m K Q G E) {as : List Nat} {B : Body} (has : ∀ a ∈ as, a < m) (hb : (∀ l ∈ B.lits, l.atom < m) ∧ NegLow n B) {k : AtomSet → AtomSet → Prop}
    (kc : ∀ X Y M N, (∀ a < n, X a = Y a) → (∀ a < n, M a = N a) → k X M → k Y N)
    (h1 : ∀ X M, Sub X M → K X M → k X M → (Rule.mk (.disj as) B).ok (E X M) M)
    (h2 : ∀ X M, Closed Q X M → (Rule.mk (.disj as) B).ok X M → k X M) :
    Rep n m (fun X M => K X M ∧ k X M) (Q ++ [⟨.disj as, B⟩]) G E where
  le := h.le
  low := h.low
  cong := h.cong
  high := h.high
  mono := h.mono
  below := by
    intro r hr
    simp only [List.mem_append, List.mem_singleton] at hr
    rcases hr with (hr | rfl) | hr
    · exact h.below r (List.mem_append_left _ hr)
    · exact ⟨has, hb.1⟩
    · exact h.below r (List.mem_append_right _ hr)
  neg := by
    intro r hr X N N' e
    simp only [List.mem_append, List.mem_singleton] at hr
    rcases hr with (hr | rfl) | hr
    · exact h.neg r (List.mem_append_left _ hr) X N N' e
    · exact negLow_ok hb.2 e
    · exact h.neg r (List.mem_append_right _ hr) X N N' e
  kcong := fun X Y M N e1 e2 hk => ⟨h.kcong X Y M N e1 e2 hk.1, kc X Y M N e1 e2 hk.2⟩
  f1 := by
    intro X M hs hK r hr
    simp only [List.mem_append, List.mem_singleton] at hr
    rcases hr with (hr | rfl) | hr
    · exact h.f1 X M hs hK.1 r (List.mem_append_left _ hr)
    · exact h1 X M hs hK.1 hK.2
    · exact h.f1 X M hs hK.1 r (List.mem_append_right _ hr)
  f2 := fun X M hc => ⟨h.f2 X M (closed_append.1 hc).1, h2 X M (closed_append.1 hc).1 (closed_single.1 (closed_append.1 hc).2)⟩
  f3 := fun X M hc => h.f3 X M (closed_append.1 hc).1

/-- Adding rules that follow. -/
theorem Rep.addGamma (h : Rep n m K Q G E) {G' : List Rule} (hb : ∀ r ∈ G', ∃ as B, r = ⟨.disj as, B⟩ ∧ (∀ a ∈ as, a < m) ∧ (∀ l ∈ B.lits, l.atom < m) ∧ NegLow n B)
    (h1 : ∀ X M, Sub X M → K X M → Closed G' (E X M) M) : Rep n m K Q (G ++ G') E where
  le := h.le
  low := h.low
  cong := h.cong
  high := h.high
  mono := h.mono
  below := by
    intro r hr
    rw [← List.append_assoc, List.mem_append] at hr
    rcases hr with hr | hr
    · exact h.below r hr
    · obtain ⟨as, B, rfl, g1, g2, g3⟩ := hb r hr
      exact ⟨g1, g2⟩
  neg := by
    intro r hr X N N' e
    rw [← List.append_assoc, List.mem_append] at hr
    rcases hr with hr | hr
    · exact h.neg r hr X N N' e
    · obtain ⟨as, B, rfl, g1, g2, g3⟩ := hb r hr
      exact negLow_ok g3 e
  kcong := h.kcong
  f1 := by
    intro X M hs hK r hr
    rw [← List.append_assoc, List.mem_append] at hr
    rcases hr with hr | hr
    · exact h.f1 X M hs hK r hr
    · exact h1 X M hs hK r hr
  f2 := h.f2
  f3 := h.f3

end Clasp.Shift
