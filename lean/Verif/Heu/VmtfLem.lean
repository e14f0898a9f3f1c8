import Verif.Heu.Vmtf
/-!
# Correctness of the move-to-front heuristic: the list
-/

namespace Clasp.Heu

/-- Proof device: the links lead from `a` through `l` to `z` and back. -/
def Seg (nx pv : Nat → Nat) : Nat → List Nat → Nat → Prop
  | a, [], z => nx a = z ∧ pv z = a
  | a, b :: l, z => nx a = b ∧ pv b = a ∧ Seg nx pv b l z

theorem seg_append {nx pv : Nat → Nat} : ∀ {a : Nat} {l1 : List Nat} {b : Nat} {l2 : List Nat} {z : Nat}, Seg nx pv a (l1 ++ b :: l2) z ↔ Seg nx pv a l1 b ∧ Seg nx pv b l2 z
  | a, [], b, l2, z => by simp [Seg, and_assoc]
  | a, c :: l1, b, l2, z => by
    show nx a = c ∧ pv c = a ∧ Seg nx pv c (l1 ++ b :: l2) z ↔ (nx a = c ∧ pv c = a ∧ Seg nx pv c l1 b) ∧ Seg nx pv b l2 z
    rw [seg_append]
    tauto

theorem Seg.frame {nx pv nx' pv' : Nat → Nat} : ∀ {a : Nat} {l : List Nat} {z : Nat}, Seg nx pv a l z → (∀ x ∈ a :: l, nx' x = nx x) → (∀ x ∈ l, pv' x = pv x) → pv' z = pv z → Seg nx' pv' a l z
  | a, [], z, h, h1, _, h3 => ⟨(h1 a (by simp)).trans h.1, h3.trans h.2⟩
  | a, b :: l, z, h, h1, h2, h3 =>
    ⟨(h1 a (by simp)).trans h.1, (h2 b (by simp)).trans h.2.1, h.2.2.frame (fun x hx => h1 x (List.mem_cons_of_mem _ hx)) (fun x hx => h2 x (List.mem_cons_of_mem _ hx)) h3⟩

theorem Seg.last {nx pv : Nat → Nat} : ∀ {a : Nat} {l : List Nat} {z : Nat}, Seg nx pv a l z → pv z ∈ a :: l ∧ nx (pv z) = z
  | a, [], z, h => by rw [h.2]; exact ⟨by simp, h.1⟩
  | a, b :: l, z, h => ⟨List.mem_cons_of_mem _ h.2.2.last.1, h.2.2.last.2⟩

theorem Seg.first {nx pv : Nat → Nat} : ∀ {a : Nat} {l : List Nat} {z : Nat}, Seg nx pv a l z → nx a ∈ l ++ [z] ∧ pv (nx a) = a
  | a, [], z, h => by rw [h.1]; exact ⟨by simp, h.2⟩
  | a, b :: l, z, h => by rw [h.1]; exact ⟨by simp, h.2.1⟩

/-- The end of a segment is moved. -/
theorem Seg.retarget {nx pv nx' pv' : Nat → Nat} : ∀ {a : Nat} {l : List Nat} {v z : Nat}, Seg nx pv a l v → (a :: l).Nodup → (∀ x ∈ a :: l, x ≠ pv v → nx' x = nx x) → nx' (pv v) = z → (∀ x ∈ l, pv' x = pv x) →
    pv' z = pv v → Seg nx' pv' a l z
  | a, [], v, z, h, _, _, h2, _, h4 => by rw [h.2] at h2 h4; exact ⟨h2, h4⟩
  | a, b :: l, v, z, h, hn, h1, h2, h3, h4 => by
    have hn' := List.nodup_cons.1 hn
    have hl := h.2.2.last.1
    refine ⟨(h1 a (by simp) ?_).trans h.1, (h3 b (by simp)).trans h.2.1, h.2.2.retarget hn'.2 (fun x hx => h1 x (List.mem_cons_of_mem _ hx)) h2 (fun x hx => h3 x (List.mem_cons_of_mem _ hx)) h4⟩
    intro e; rw [e] at hn'; exact hn'.1 hl

/-- Proof device: the list of the heuristic is `L`. -/
structure Vm.Rep (s : Vm) (L : List Nat) : Prop where
  seg : Seg s.nx s.pv 0 L 0
  nd : (0 :: L).Nodup
  off : ∀ x, x ∉ 0 :: L → s.nx x = 0 ∧ s.pv x = 0

theorem Vm.Rep.inList {s : Vm} {L : List Nat} (h : s.Rep L) {v : Nat} (hv : v ≠ 0) (hi : s.inList v = true) : v ∈ L := by
  by_contra hc
  obtain ⟨h1, h2⟩ := h.off v (by simp [hv, hc])
  simp [Vm.inList, h1, h2] at hi

theorem Vm.Rep.only {s : Vm} {L : List Nat} (h : s.Rep L) {v : Nat} (hv : v ∈ L) (hi : s.inList v = false) : L = [v] ∧ s.only v = true := by
  obtain ⟨A, B, rfl⟩ := List.append_of_mem hv
  obtain ⟨h1, h2⟩ := seg_append.1 h.seg
  have h3 := h1.last
  have h4 := h2.first
  have he : s.pv v = s.nx v := by simpa [Vm.inList] using hi
  have hnd := h.nd
  have key : s.pv v = 0 ∧ s.nx v = 0 := by
    rcases List.mem_cons.1 h3.1 with e | hA
    · exact ⟨e, he ▸ e⟩
    · exfalso
      rcases List.mem_append.1 h4.1 with hB | hB
      · rw [← he] at hB
        have := List.nodup_append.1 (List.nodup_cons.1 hnd).2
        exact this.2.2 _ hA _ (List.mem_cons_of_mem _ hB) rfl
      · rw [List.mem_singleton, ← he] at hB
        rw [hB] at hA
        exact (List.nodup_cons.1 hnd).1 (List.mem_append_left _ hA)
  have hA : A = [] := by
    cases A with
    | nil => rfl
    | cons a A =>
      exfalso
      have := h1.2.2.last.1
      rw [key.1] at this
      exact (List.nodup_cons.1 hnd).1 (List.mem_append_left _ this)
  have hB : B = [] := by
    cases B with
    | nil => rfl
    | cons b B =>
      exfalso
      have h5 := h2.1
      rw [key.2] at h5
      exact (List.nodup_cons.1 hnd).1 (by rw [h5]; simp)
  subst hA hB
  exact ⟨rfl, by simpa [Vm.only] using h1.1⟩

theorem Vm.Rep.not_only {s : Vm} {L : List Nat} (h : s.Rep L) {v : Nat} (hv : v ∉ L) (h0 : v ≠ 0) : s.only v = false := by
  have h1 := h.seg.first.1
  by_contra hc
  have : s.nx 0 = v := by simpa [Vm.only] using hc
  rw [this] at h1
  rcases List.mem_append.1 h1 with h2 | h2
  · exact hv h2
  · exact h0 (by simpa using h2)

theorem Vm.Rep.add {s : Vm} {L : List Nat} (h : s.Rep L) {v : Nat} (h0 : v ≠ 0) (hv : v ∉ L) : (s.add v).Rep (L ++ [v]) := by
  have hoff : ∀ x, x ∉ 0 :: (L ++ [v]) → (s.add v).nx x = 0 ∧ (s.add v).pv x = 0 := by
    intro x hx
    simp only [List.mem_cons, List.mem_append, List.not_mem_nil, or_false, not_or] at hx
    have h1 := h.off x (by simp [hx.1, hx.2.1])
    have h2 : x ≠ s.pv 0 := by
      intro e
      have := h.seg.last.1
      rw [← e] at this
      rcases List.mem_cons.1 this with h3 | h3
      · exact hx.1 h3
      · exact hx.2.1 h3
    simp [Vm.add, upd, hx.1, hx.2.2, h2, h1]
  have hnd : (0 :: (L ++ [v])).Nodup := by
    have := h.nd
    rw [List.nodup_cons] at this ⊢
    refine ⟨by simp [this.1, Ne.symm h0], List.nodup_append.2 ⟨this.2, by simp, ?_⟩⟩
    intro a ha b hb e
    rw [List.mem_singleton] at hb
    exact hv (hb ▸ e ▸ ha)
  refine ⟨?_, hnd, hoff⟩
  rw [seg_append]
  have hz := (List.nodup_cons.1 h.nd).1
  have hpv : s.pv 0 ≠ v := by
    intro e
    have := h.seg.last.1
    rw [e] at this
    rcases List.mem_cons.1 this with h3 | h3
    · exact h0 h3
    · exact hv h3
  refine ⟨h.seg.retarget h.nd (fun x hx hne => ?_) ?_ (fun x hx => ?_) ?_, ?_, ?_⟩
  · have hxv : x ≠ v := by
      rintro rfl
      rcases List.mem_cons.1 hx with h3 | h3
      · exact h0 h3
      · exact hv h3
    simp [Vm.add, upd, hne, hxv]
  · simp [Vm.add, upd]
  · have h1 : x ≠ v := fun e => hv (e ▸ hx)
    have h2 : x ≠ 0 := fun e => hz (e ▸ hx)
    simp [Vm.add, upd, h1, h2]
  · simp [Vm.add, upd, h0]
  · simp [Vm.add, upd, Ne.symm hpv]
  · simp [Vm.add, upd]

theorem Vm.Rep.rem {s : Vm} {A B : List Nat} {v : Nat} (h : s.Rep (A ++ v :: B)) : (s.rem v).Rep (A ++ B) := by
  obtain ⟨h1, h2⟩ := seg_append.1 h.seg
  have hnd := h.nd
  have hnd2 := List.nodup_cons.1 hnd
  have hz : v ≠ 0 := fun e => hnd2.1 (by rw [e]; simp)
  have hAB := List.nodup_append.1 hnd2.2
  have hvB := List.nodup_cons.1 hAB.2.1
  have hvA : v ∉ A := fun hc => hAB.2.2 v hc v (by simp) rfl
  have hp := h1.last.1
  have hq := h2.first.1
  have hpv : s.pv v ≠ v := by
    intro e; rw [e] at hp
    rcases List.mem_cons.1 hp with h3 | h3
    · exact hz h3
    · exact hvA h3
  have hqv : s.nx v ≠ v := by
    intro e; rw [e] at hq
    rcases List.mem_append.1 hq with h3 | h3
    · exact hvB.1 h3
    · exact hz (by simpa using h3)
  have enx : (s.rem v).nx = upd (upd s.nx (s.pv v) (s.nx v)) v 0 := by
    simp [Vm.rem, upd, Ne.symm hqv]
  have epv : (s.rem v).pv = upd (upd s.pv (s.nx v) (s.pv v)) v 0 := rfl
  have hAn : ∀ x ∈ 0 :: A, x ≠ v := by
    rintro x hx rfl
    rcases List.mem_cons.1 hx with h3 | h3
    · exact hz h3
    · exact hvA h3
  have hA0 : (0 :: A).Nodup := List.nodup_cons.2 ⟨fun hc => hnd2.1 (List.mem_append_left _ hc), hAB.1⟩
  have hqA : s.nx v ∉ A := by
    intro hc
    rcases List.mem_append.1 hq with h3 | h3
    · exact hAB.2.2 _ hc _ (List.mem_cons_of_mem _ h3) rfl
    · rw [List.mem_singleton] at h3
      exact hnd2.1 (by rw [h3] at hc; exact List.mem_append_left _ hc)
  have hSA : Seg (s.rem v).nx (s.rem v).pv 0 A (s.nx v) := by
    refine h1.retarget hA0 (fun x hx hne => ?_) ?_ (fun x hx => ?_) ?_
    · rw [enx]; simp [upd, hne, hAn x hx]
    · rw [enx]; simp [upd, hpv]
    · have h3 : x ≠ v := fun e => hvA (e ▸ hx)
      have h4 : x ≠ s.nx v := fun e => hqA (e ▸ hx)
      rw [epv]; simp [upd, h3, h4]
    · rw [epv]; simp [upd, hqv]
  refine ⟨?_, ?_, fun x hx => ?_⟩
  · cases B with
    | nil =>
      have : s.nx v = 0 := h2.1
      rw [this] at hSA
      rw [List.append_nil]; exact hSA
    | cons b B =>
      have hb : s.nx v = b := h2.1
      rw [hb] at hSA
      refine seg_append.2 ⟨hSA, h2.2.2.frame (fun x hx => ?_) (fun x hx => ?_) ?_⟩
      · have h3 : x ≠ v := fun e => hvB.1 (e ▸ hx)
        have h4 : x ≠ s.pv v := by
          rintro rfl
          rcases List.mem_cons.1 hp with h5 | h5
          · rw [h5] at hx; exact hnd2.1 (List.mem_append_right _ (List.mem_cons_of_mem _ hx))
          · exact hAB.2.2 _ h5 _ (List.mem_cons_of_mem _ hx) rfl
        rw [enx]; simp [upd, h3, h4]
      · have h3 : x ≠ v := fun e => hvB.1 (List.mem_cons_of_mem _ (e ▸ hx))
        have h4 : x ≠ s.nx v := by
          rw [hb]; rintro rfl
          exact (List.nodup_cons.1 hvB.2).1 hx
        rw [epv]; simp [upd, h3, h4]
      · have h4 : 0 ≠ s.nx v := by
          rw [hb]; intro e
          exact hnd2.1 (by rw [e]; simp)
        rw [epv]; simp [upd, Ne.symm hz, h4]
  · rw [List.nodup_cons] at hnd ⊢
    refine ⟨fun hc => hnd.1 ?_, List.nodup_append.2 ⟨hAB.1, hvB.2, fun a ha b hb => hAB.2.2 a ha b (List.mem_cons_of_mem _ hb)⟩⟩
    rcases List.mem_append.1 hc with h3 | h3
    · exact List.mem_append_left _ h3
    · exact List.mem_append_right _ (List.mem_cons_of_mem _ h3)
  · by_cases hxv : x = v
    · subst hxv; rw [enx, epv]; simp [upd]
    · simp only [List.mem_cons, List.mem_append, not_or] at hx
      have h3 := h.off x (by simp [hx.1, hx.2.1, hx.2.2, hxv])
      have h4 : x ≠ s.pv v := by
        rintro rfl
        rcases List.mem_cons.1 hp with h5 | h5
        · exact hx.1 h5
        · exact hx.2.1 h5
      have h5 : x ≠ s.nx v := by
        rintro rfl
        rcases List.mem_append.1 hq with h5 | h5
        · exact hx.2.2 h5
        · exact hx.1 (by simpa using h5)
      rw [enx, epv]; simp [upd, hxv, h3, h4, h5]

theorem Vm.Rep.front {s s' : Vm} {c : Nat} {C : List Nat} {v : Nat} (h : s.Rep (c :: C)) (h0 : v ≠ 0) (hv : v ∉ c :: C)
    (enx : s'.nx = upd (upd s.nx v c) 0 v) (epv : s'.pv = upd (upd s.pv c v) v 0) : s'.Rep (v :: c :: C) := by
  have hz := (List.nodup_cons.1 h.nd).1
  have hcC := List.nodup_cons.1 (List.nodup_cons.1 h.nd).2
  have hcv : c ≠ v := fun e => hv (by simp [e])
  have hc0 : c ≠ 0 := fun e => hz (by simp [e])
  refine ⟨⟨?_, ?_, ?_, ?_, h.seg.2.2.frame (fun x hx => ?_) (fun x hx => ?_) ?_⟩, ?_, fun x hx => ?_⟩
  · rw [enx]; simp [upd]
  · rw [epv]; simp [upd]
  · rw [enx]; simp [upd, h0]
  · rw [epv]; simp [upd, hcv]
  · have h1 : x ≠ v := fun e => hv (e ▸ hx)
    have h2 : x ≠ 0 := fun e => hz (e ▸ hx)
    rw [enx]; simp [upd, h1, h2]
  · have h1 : x ≠ v := fun e => hv (e ▸ List.mem_cons_of_mem _ hx)
    have h2 : x ≠ c := fun e => hcC.1 (e ▸ hx)
    rw [epv]; simp [upd, h1, h2]
  · rw [epv]; simp [upd, Ne.symm h0, Ne.symm hc0]
  · rw [List.nodup_cons, List.nodup_cons]
    refine ⟨?_, hv, (List.nodup_cons.1 h.nd).2⟩
    intro hc
    rcases List.mem_cons.1 hc with h1 | h1
    · exact h0 h1.symm
    · exact hz h1
  · simp only [List.mem_cons, not_or] at hx
    have h1 := h.off x (by simp [hx.1, hx.2.2.1, hx.2.2.2])
    rw [enx, epv]
    simp [upd, hx.1, hx.2.1, hx.2.2.1, h1]

theorem Vm.Rep.move {s : Vm} {L : List Nat} (h : s.Rep L) {v : Nat} (hv : v ∈ L) : ∃ L', (s.move v).Rep L' ∧ ∀ x, x ∈ L' ↔ x ∈ L := by
  unfold Vm.move
  by_cases hc : s.nx 0 = v
  · rw [if_pos hc]; exact ⟨L, h, fun _ => Iff.rfl⟩
  · rw [if_neg hc]
    obtain ⟨A, B, rfl⟩ := List.append_of_mem hv
    have h1 := h.rem
    have hnd2 := List.nodup_cons.1 h.nd
    have hz : v ≠ 0 := fun e => hnd2.1 (by rw [e]; simp)
    have hAB := List.nodup_append.1 hnd2.2
    cases A with
    | nil => exact absurd h.seg.1 hc
    | cons c C =>
      have hf : (s.rem v).nx 0 = c := h1.seg.1
      simp only [hf]
      refine ⟨v :: c :: (C ++ B), h1.front hz ?_ rfl rfl, fun x => ?_⟩
      · intro hm
        rcases List.mem_append.1 (show v ∈ (c :: C) ++ B from hm) with h3 | h3
        · exact hAB.2.2 v h3 v (by simp) rfl
        · exact (List.nodup_cons.1 hAB.2.1).1 h3
      · simp only [List.mem_cons, List.mem_append]; tauto

end Clasp.Heu
