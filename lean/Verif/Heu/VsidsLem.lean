import Verif.Heu.Vsids
import Verif.Heu.HeapLem
/-!
# Correctness of the activity-based heuristic: invariant
-/

namespace Clasp.Heu

variable {ν : Type} [LinearOrder ν]

/-- Proof device: what holds between two calls. -/
structure Vs.Inv (s : Vs ν) : Prop where
  ok : s.q.Ok
  ord : s.ready = true → Ordered s.key s.q.heap
  free : s.ready = true → ∀ v, s.isFree v = some true → v ∈ s.q.heap
  told : s.ready = true → ∀ st v, s.told = some st → v ∈ s.tr.drop st → v ≤ s.n → v ∈ s.q.heap
  bd : s.ready = true → ∀ v ∈ s.q.heap, v ≤ s.n
  trb : ∀ v ∈ s.tr, v ≤ s.n

omit [LinearOrder ν] in
theorem isFree_iff {s : Vs ν} {v : Nat} : s.isFree v = some true ↔ v ≤ s.n ∧ v ≠ 0 ∧ v ∉ s.tr ∧ s.elim v = false := by
  unfold Vs.isFree
  split_ifs with h
  · simp; omega
  · simp; constructor
    · rintro ⟨⟨h1, h2⟩, h3⟩; exact ⟨by omega, h1, h2, h3⟩
    · rintro ⟨_, h1, h2, h3⟩; exact ⟨⟨h1, h2⟩, h3⟩

theorem pushAll_ok (sc : Nat → Int ×ₗ ν) : ∀ (vs : List Nat) (q : Pq), q.Ok → ∃ q', pushAll sc q vs = some q' ∧ q'.Ok ∧ (∀ v, v ∈ q'.heap ↔ v ∈ q.heap ∨ v ∈ vs) ∧ (Ordered sc q.heap → Ordered sc q'.heap)
  | [], q, h => ⟨q, rfl, h, by simp, fun ho => ho⟩
  | v :: vs, q, h => by
    unfold pushAll
    by_cases hv : q.has v = true
    · rw [if_pos hv]
      obtain ⟨q', h1, h2, h3, h4⟩ := pushAll_ok sc vs q h
      refine ⟨q', h1, h2, fun w => ?_, h4⟩
      rw [h3, List.mem_cons]
      have := (q.has_iff h v).1 hv
      constructor
      · rintro (h | h)
        · exact Or.inl h
        · exact Or.inr (Or.inr h)
      · rintro (h | rfl | h)
        · exact Or.inl h
        · exact Or.inl this
        · exact Or.inr h
    · rw [if_neg hv]
      obtain ⟨q1, h1, h2, h3, h4⟩ := Pq.push_ok sc h (fun hc => hv ((q.has_iff h v).2 hc))
      rw [h1]
      obtain ⟨q', h5, h6, h7, h8⟩ := pushAll_ok sc vs q1 h2
      refine ⟨q', h5, h6, fun w => ?_, fun ho => h8 (h4 ho)⟩
      rw [h7, h3.mem_iff, List.mem_cons, List.mem_cons]
      tauto

theorem removeAll_ok (sc : Nat → Int ×ₗ ν) : ∀ (vs : List Nat) (q : Pq), q.Ok → ∃ q', removeAll sc q vs = some q' ∧ q'.Ok ∧ (∀ v, v ∈ q'.heap ↔ v ∈ q.heap ∧ v ∉ vs) ∧ (Ordered sc q.heap → Ordered sc q'.heap)
  | [], q, h => ⟨q, rfl, h, by simp, fun ho => ho⟩
  | v :: vs, q, h => by
    unfold removeAll
    obtain ⟨q1, h1, h2, h3, h4⟩ := Pq.remove_ok sc h v
    rw [h1]
    obtain ⟨q', h5, h6, h7, h8⟩ := removeAll_ok sc vs q1 h2
    refine ⟨q', h5, h6, fun w => ?_, fun ho => h8 (h4 ho)⟩
    rw [h7, h3, List.mem_cons]
    tauto

theorem skip_ok (s : Vs ν) : ∀ (f : Nat) (q : Pq), q.Ok → Ordered s.key q.heap → (∀ v ∈ q.heap, v ≤ s.n) → (∃ v ∈ q.heap, s.isFree v = some true) → q.heap.length < f →
    ∃ t q', s.skip f q = some (t, q') ∧ q'.Ok ∧ Ordered s.key q'.heap ∧ (∀ v ∈ q'.heap, v ∈ q.heap) ∧ (∀ v ∈ q.heap, s.isFree v = some true → v ∈ q'.heap) ∧ q'.top = some t ∧ s.isFree t = some true
  | 0, _, _, _, _, _, hf => absurd hf (Nat.not_lt_zero _)
  | f + 1, q, hq, ho, hb, ⟨v, hv, hvf⟩, hf => by
    have hlen : 0 < q.heap.length := List.length_pos_of_mem hv
    obtain ⟨t, ht⟩ : ∃ t, q.top = some t := ⟨_, List.getElem?_eq_getElem hlen⟩
    have htm : t ∈ q.heap := List.mem_of_getElem? ht
    unfold Vs.skip
    rw [ht]
    simp only
    have hn := hb t htm
    cases hfr : s.isFree t with
    | none => unfold Vs.isFree at hfr; rw [if_neg (by omega)] at hfr; exact nomatch hfr
    | some b =>
      cases b with
      | true => exact ⟨t, q, rfl, hq, ho, fun _ h => h, fun _ h _ => h, ht, hfr⟩
      | false =>
        simp only
        obtain ⟨q1, h1, h2, h3, h4⟩ := Pq.pop_ok s.key hq ht
        rw [h1]
        simp only
        have hmem : ∀ w ∈ q.heap, s.isFree w = some true → w ∈ q1.heap := by
          intro w hw hwf
          rcases List.mem_cons.1 (h3.mem_iff.2 hw) with rfl | h
          · rw [hfr] at hwf; exact nomatch hwf
          · exact h
        have hsub : ∀ w ∈ q1.heap, w ∈ q.heap := fun w hw => h3.mem_iff.1 (List.mem_cons_of_mem _ hw)
        have hl := h3.length_eq
        simp at hl
        obtain ⟨t', q', h5, h6, h7, h8, h9, h10⟩ := skip_ok s f q1 h2 (h4 ho) (fun w hw => hb w (hsub w hw)) ⟨v, hmem v hv hvf, hvf⟩ (by omega)
        exact ⟨t', q', h5, h6, h7, fun w hw => hsub w (h8 w hw), fun w hw hwf => h9 w (hmem w hw hwf) hwf, h10⟩

theorem select_ok {s : Vs ν} (h : s.Inv) (hr : s.ready = true) (hf : ∃ v, s.isFree v = some true) :
    ∃ t s', s.select = some (t, s') ∧ s.isFree t = some true ∧ (∀ v, s.isFree v = some true → s.key v ≤ s.key t) ∧ s'.Inv := by
  obtain ⟨v, hv⟩ := hf
  obtain ⟨t, q', h1, h2, h3, h4, h5, h6, h7⟩ := skip_ok s (s.q.heap.length + 1) s.q h.ok (h.ord hr) (h.bd hr) ⟨v, h.free hr v hv, hv⟩ (Nat.lt_succ_self _)
  refine ⟨t, { s with q := q', told := none }, by unfold Vs.select; rw [h1], h7, fun w hw => Pq.top_max h3 h6 w (h5 w (h.free hr w hw) hw), ?_⟩
  exact ⟨h2, fun _ => h3, fun _ w hw => h5 w (h.free hr w hw) hw, fun _ st w hst => (nomatch hst), fun _ w hw => h.bd hr w (h4 w hw), h.trb⟩

theorem Vs.Inv.init (d : ν) : (Vs.init d).Inv :=
  ⟨Pq.ok_clear, fun h => (nomatch h), fun h => (nomatch h), fun h => (nomatch h), fun h => (nomatch h), fun v hv => (nomatch hv)⟩

theorem key_lt {s : Vs ν} {a b : Nat} : s.key a ≤ s.key b ↔ s.lev a < s.lev b ∨ (s.lev a = s.lev b ∧ s.val a ≤ s.val b) := by
  unfold Vs.key
  rw [Prod.Lex.toLex_le_toLex]

theorem exec_inv {s : Vs ν} (h : s.Inv) {e : VsEv ν} (hc : e.can s) : ∃ s', e.exec s = some s' ∧ s'.Inv := by
  cases e with
  | setup n tr elim lev val => exact ⟨_, rfl, h.ok, fun h => (nomatch h), fun h => (nomatch h), fun h => (nomatch h), fun h => (nomatch h), hc⟩
  | endInit =>
    obtain ⟨q', h1, h2, h3, h4⟩ := pushAll_ok s.key ((List.range' 1 s.n).filter fun v => s.isFree v == some true) Pq.clear Pq.ok_clear
    refine ⟨{ s with q := q', ready := true, told := none }, by simp only [VsEv.exec, Vs.endInit, h1], h2, fun _ => h4 (Ordered.nil _), fun _ v hv => ?_, fun _ st w hst => (nomatch hst), fun _ v hv => ?_, h.trb⟩
    · have hv' := isFree_iff.1 hv
      refine (h3 v).2 (Or.inr (List.mem_filter.2 ⟨by rw [List.mem_range'_1]; simp only at hv'; omega, ?_⟩))
      have hv2 : s.isFree v = some true := hv
      rw [hv2]; rfl
    · rcases (h3 v).1 hv with h5 | h5
      · exact nomatch h5
      · have := (List.mem_filter.1 h5).1
        rw [List.mem_range'_1] at this
        simp only; omega
  | assign v =>
    have hv := isFree_iff.1 hc
    refine ⟨_, rfl, h.ok, h.ord, fun hr w hw => h.free hr w ?_, fun _ st w hst => (nomatch hst), h.bd, fun w hw => ?_⟩
    · have hw' := isFree_iff.1 hw
      simp only [List.mem_append, not_or] at hw'
      exact isFree_iff.2 ⟨hw'.1, hw'.2.1, hw'.2.2.1.1, hw'.2.2.2⟩
    · rcases List.mem_append.1 hw with h1 | h1
      · exact h.trb w h1
      · rw [List.mem_singleton] at h1; subst h1; exact hv.1
  | bump v x g =>
    have hg : ∀ a b, a ≤ b → g a ≤ g b := hc
    obtain ⟨s', hs'⟩ : ∃ s' : Vs ν, s' = { s with val := fun w => g (if w = v then x else s.val w) } := ⟨_, rfl⟩
    have hso : SameOrder s.key s'.key v := by
      intro a b ha hb hab
      rw [key_lt] at hab ⊢
      subst hs'
      simp only [if_neg ha, if_neg hb]
      exact hab.imp id (fun hh => ⟨hh.1, hg _ _ hh.2⟩)
    have hord : v ∉ s.q.heap → Ordered s.key s.q.heap → Ordered s'.key s.q.heap := fun hv ho i a b hi ha hb =>
      hso a b (fun e => hv (e ▸ List.mem_of_getElem? ha)) (fun e => hv (e ▸ List.mem_of_getElem? hb)) (ho i a b hi ha hb)
    have fin : ∀ q' : Pq, q'.Ok → (∀ w, w ∈ q'.heap ↔ w ∈ s.q.heap) → (Ordered s.key s.q.heap → Ordered s'.key q'.heap) → Vs.Inv { s' with q := q' } := by
      intro q' h1 h2 h3
      subst hs'
      exact ⟨h1, fun hr => h3 (h.ord hr), fun hr w hw => (h2 w).2 (h.free hr w hw), fun hr st w hst hw hwn => (h2 w).2 (h.told hr st w hst hw hwn), fun hr w hw => h.bd hr w ((h2 w).1 hw), h.trb⟩
    show ∃ s2, s.bump v x g = some s2 ∧ _
    unfold Vs.bump
    rw [← hs']
    simp only
    by_cases hv : s.q.has v = true
    · have hvm := (s.q.has_iff h.ok v).1 hv
      rw [if_pos hv]
      by_cases hx : s.val v ≤ x
      · rw [if_pos hx]
        obtain ⟨q', h1, h2, h3, h4⟩ := Pq.increase_ok h.ok hvm hso (fun a ha => by
          rw [key_lt] at ha ⊢
          subst hs'
          simp only [if_pos]
          refine ha.imp id (fun hh => ⟨hh.1, hg _ _ ?_⟩)
          split_ifs
          · exact le_refl _
          · exact le_trans hh.2 hx)
        rw [h1]
        exact ⟨_, rfl, fin q' h2 (fun w => h3.mem_iff) h4⟩
      · rw [if_neg hx]
        obtain ⟨q', h1, h2, h3, h4⟩ := Pq.decrease_ok h.ok hvm hso (fun a ha => by
          rw [key_lt] at ha ⊢
          subst hs'
          simp only [if_pos]
          refine ha.imp id (fun hh => ⟨hh.1, hg _ _ ?_⟩)
          split_ifs
          · exact le_refl _
          · exact le_trans (le_of_lt (not_le.1 hx)) hh.2)
        rw [h1]
        exact ⟨_, rfl, fin q' h2 (fun w => h3.mem_iff) h4⟩
    · rw [if_neg hv]
      have hvm : v ∉ s.q.heap := fun hc => hv ((s.q.has_iff h.ok v).2 hc)
      refine ⟨s', rfl, ?_⟩
      have := fin s.q h.ok (fun w => Iff.rfl) (hord hvm)
      subst hs'
      exact this
  | level v l =>
    obtain ⟨s', hs'⟩ : ∃ s' : Vs ν, s' = { s with lev := fun w => if w = v then l else s.lev w } := ⟨_, rfl⟩
    have hso : SameOrder s.key s'.key v := by
      intro a b ha hb hab
      rw [key_lt] at hab ⊢
      subst hs'
      simp only [if_neg ha, if_neg hb]
      exact hab
    have hord : v ∉ s.q.heap → Ordered s.key s.q.heap → Ordered s'.key s.q.heap := fun hv ho i a b hi ha hb =>
      hso a b (fun e => hv (e ▸ List.mem_of_getElem? ha)) (fun e => hv (e ▸ List.mem_of_getElem? hb)) (ho i a b hi ha hb)
    have fin : ∀ q' : Pq, q'.Ok → (∀ w, w ∈ q'.heap ↔ w ∈ s.q.heap) → (Ordered s.key s.q.heap → Ordered s'.key q'.heap) → Vs.Inv { s' with q := q' } := by
      intro q' h1 h2 h3
      subst hs'
      exact ⟨h1, fun hr => h3 (h.ord hr), fun hr w hw => (h2 w).2 (h.free hr w hw), fun hr st w hst hw hwn => (h2 w).2 (h.told hr st w hst hw hwn), fun hr w hw => h.bd hr w ((h2 w).1 hw), h.trb⟩
    show ∃ s2, s.level v l = some s2 ∧ _
    unfold Vs.level
    rw [← hs']
    simp only
    by_cases hv : s.q.has v = true
    · have hvm := (s.q.has_iff h.ok v).1 hv
      rw [if_pos hv]
      obtain ⟨q', h1, h2, h3, h4⟩ := Pq.update_ok h.ok v hso
      rw [h1]
      exact ⟨_, rfl, fin q' h2 (fun w => by rw [h3]; exact ⟨fun hh => hh.elim id (fun e => e ▸ hvm), Or.inl⟩) h4⟩
    · rw [if_neg hv]
      have hvm : v ∉ s.q.heap := fun hc => hv ((s.q.has_iff h.ok v).2 hc)
      refine ⟨s', rfl, ?_⟩
      have := fin s.q h.ok (fun w => Iff.rfl) (hord hvm)
      subst hs'
      exact this
  | tell st =>
    obtain ⟨q', h1, h2, h3, h4⟩ := pushAll_ok s.key (s.tr.drop st) s.q h.ok
    refine ⟨{ s with q := q', told := some st }, by simp only [VsEv.exec, Vs.tell, h1], h2, fun hr => h4 (h.ord hr), fun hr v hv => (h3 v).2 (Or.inl (h.free hr v hv)), fun hr st' w hst hw _ => ?_, fun hr w hw => ?_, h.trb⟩
    · cases hst
      exact (h3 w).2 (Or.inr hw)
    · rcases (h3 w).1 hw with h5 | h5
      · exact h.bd hr w h5
      · exact h.trb w (List.mem_of_mem_drop h5)
  | pop =>
    obtain ⟨st, hst, hlt⟩ := hc
    have hne : s.tr ≠ [] := by intro e; rw [e] at hlt; simp at hlt
    refine ⟨_, rfl, h.ok, h.ord, fun hr v hv => ?_, fun hr st' w hst' hw hwn => ?_, h.bd, fun w hw => h.trb w ((List.dropLast_sublist _).subset hw)⟩
    · have hv' := isFree_iff.1 hv
      by_cases hvt : v ∈ s.tr
      · refine h.told hr st v hst ?_ hv'.1
        obtain ⟨i, hi⟩ := List.mem_iff_getElem?.1 hvt
        obtain ⟨hil, hie⟩ := List.getElem?_eq_some_iff.1 hi
        have : ¬ i + 1 < s.tr.length := by
          intro hlt2
          apply hv'.2.2.1
          refine List.mem_iff_getElem?.2 ⟨i, ?_⟩
          show s.tr.dropLast[i]? = _
          rw [dropLast_get?, if_pos hlt2]; exact hi
        refine List.mem_iff_getElem?.2 ⟨i - st, ?_⟩
        rw [List.getElem?_drop, show st + (i - st) = i by omega]; exact hi
      · exact h.free hr v (isFree_iff.2 ⟨hv'.1, hv'.2.1, hvt, hv'.2.2.2⟩)
    · refine h.told hr st' w hst' ?_ hwn
      obtain ⟨i, hi⟩ := List.mem_iff_getElem?.1 hw
      refine List.mem_iff_getElem?.2 ⟨i, ?_⟩
      rw [List.getElem?_drop] at hi ⊢
      have hi2 : s.tr.dropLast[st' + i]? = some w := hi
      rw [dropLast_get?] at hi2
      split_ifs at hi2
      exact hi2
  | simplify i =>
    obtain ⟨q', h1, h2, h3, h4⟩ := removeAll_ok s.key (s.tr.drop i) s.q h.ok
    refine ⟨{ s with q := q', told := none }, by simp only [VsEv.exec, Vs.simplify, h1], h2, fun hr => h4 (h.ord hr), fun hr v hv => (h3 v).2 ⟨h.free hr v hv, fun hd => ?_⟩, fun _ st w hst => (nomatch hst), fun hr w hw => h.bd hr w ((h3 w).1 hw).1, h.trb⟩
    exact (isFree_iff.1 hv).2.2.1 (List.mem_of_mem_drop hd)
  | pushAux =>
    obtain ⟨s', hs'⟩ : ∃ s' : Vs ν, s' = { s with n := s.n + 1, elim := fun v => if v = s.n + 1 then false else s.elim v } := ⟨_, rfl⟩
    have hq : s'.q = s.q := by rw [hs']
    have hk : s'.key = s.key := by rw [hs']; rfl
    obtain ⟨q', h1, h2, h3, h4⟩ := Pq.update_ok (sc := s.key) (sc' := s.key) h.ok (s.n + 1) (fun a b _ _ hab => hab)
    refine ⟨{ s' with q := q' }, by simp only [VsEv.exec, Vs.pushAux]; rw [← hs', hk, h1, hs'], ?_⟩
    subst hs'
    refine ⟨h2, fun hr => h4 (h.ord hr), fun hr v hv => (h3 v).2 ?_, fun hr st w hst hw hwn => (h3 w).2 ?_, fun hr w hw => ?_, fun w hw => Nat.le_succ_of_le (h.trb w hw)⟩
    · have hv' := isFree_iff.1 hv
      simp only at hv'
      by_cases hvn : v = s.n + 1
      · exact Or.inr hvn
      · rw [if_neg hvn] at hv'
        exact Or.inl (h.free hr v (isFree_iff.2 ⟨by omega, hv'.2⟩))
    · by_cases hwn' : w = s.n + 1
      · exact Or.inr hwn'
      · simp only at hwn
        exact Or.inl (h.told hr st w hst hw (by omega))
    · rcases (h3 w).1 hw with h5 | h5
      · exact Nat.le_succ_of_le (h.bd hr w h5)
      · exact le_of_eq h5
  | popAux k =>
    have hk : k ≤ s.n := hc
    obtain ⟨s', hs'⟩ : ∃ s' : Vs ν, s' = { s with n := s.n - k, tr := s.tr.filter (· ≤ s.n - k), told := none } := ⟨_, rfl⟩
    obtain ⟨q', h1, h2, h3, h4⟩ := removeAll_ok s.key (List.range' (s.n - k + 1) k) s.q h.ok
    have hq : s'.q = s.q := by rw [hs']
    have hkk : s'.key = s.key := by rw [hs']; rfl
    refine ⟨{ s' with q := q' }, by simp only [VsEv.exec, Vs.popAux]; rw [← hs', hkk, h1, hs'], ?_⟩
    subst hs'
    refine ⟨h2, fun hr => h4 (h.ord hr), fun hr v hv => (h3 v).2 ⟨?_, ?_⟩, fun _ st w hst => (nomatch hst), fun hr w hw => ?_, fun w hw => ?_⟩
    · have hv' := isFree_iff.1 hv
      simp only [List.mem_filter, decide_eq_true_eq, not_and] at hv'
      exact h.free hr v (isFree_iff.2 ⟨by omega, hv'.2.1, fun hm => hv'.2.2.1 hm hv'.1, hv'.2.2.2⟩)
    · have hv' := (isFree_iff.1 hv).1
      simp only at hv'
      rw [List.mem_range'_1]; omega
    · have h5 := (h3 w).1 hw
      have h6 := h.bd hr w h5.1
      rw [List.mem_range'_1] at h5
      simp only; omega
    · simpa using (List.mem_filter.1 hw).2
  | select =>
    obtain ⟨t, s', h1, _, _, h2⟩ := select_ok h hc.1 hc.2
    exact ⟨s', by simp only [VsEv.exec, h1, Option.map_some], h2⟩

theorem VsReach.inv {d : ν} {s : Vs ν} (h : VsReach d s) : s.Inv := by
  induction h with
  | init => exact Vs.Inv.init d
  | step _ hc he ih =>
    obtain ⟨s2, h1, h2⟩ := exec_inv ih hc
    rw [h1] at he; cases he
    exact h2

end Clasp.Heu
