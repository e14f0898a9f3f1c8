import Verif.Heu.VmtfLem
/-!
# Invariant of the list of the move-to-front heuristic
-/

namespace Clasp.Heu

/-- Specification: `v` is a variable of the solver that has no value and was not eliminated. -/
def Vm.Free (s : Vm) (v : Nat) : Prop := 1 ≤ v ∧ v ≤ s.n ∧ v ∉ s.tr ∧ s.elim v = false

theorem Vm.free_iff {s : Vm} {v : Nat} : s.isFree v = some true ↔ s.Free v := by
  unfold Vm.isFree Vm.Free
  split_ifs with h
  · simp; omega
  · simp; constructor
    · rintro ⟨⟨h1, h2⟩, h3⟩; exact ⟨by omega, by omega, h2, h3⟩
    · rintro ⟨h1, _, h2, h3⟩; exact ⟨⟨by omega, h2⟩, h3⟩

/-- Proof device: what holds for the list `L` between two calls. -/
structure Vm.Good (s : Vm) (L : List Nat) : Prop where
  rep : s.Rep L
  bd : ∀ v ∈ L, v ≤ s.n
  free : s.ready = true → ∀ v, s.Free v → v ∈ L
  front : s.ready = true → s.stale = false → s.front ∈ 0 :: L
  back : s.ready = true → ∀ v ∈ s.tr.drop s.base, v ∈ L

/-- Proof device: the invariant. -/
structure Vm.Inv (s : Vm) : Prop where
  good : s.again = false → s.stuck = false → ∃ L, s.Good L
  tr : ∀ v ∈ s.tr, v ≠ 0 ∧ v ≤ s.n

/-! ## Finding a free variable -/

theorem scan_seg (s : Vm) : ∀ (l : List Nat) (a z f : Nat), Seg s.nx s.pv a l z → (∀ x ∈ a :: l, x ≤ s.n) →
    (∃ t, s.scan (f + l.length + 1) a = some t ∧ s.Free t) ∨ (s.scan (f + l.length + 1) a = s.scan f z ∧ ∀ x ∈ a :: l, ¬ s.Free x) := by
  intro l
  induction l with
  | nil =>
    intro a z f h hb
    have ha := hb a (by simp)
    cases hfr : s.isFree a with
    | none => unfold Vm.isFree at hfr; rw [if_neg (by omega)] at hfr; exact nomatch hfr
    | some b =>
      cases b with
      | true => exact Or.inl ⟨a, by simp only [Vm.scan, hfr], Vm.free_iff.1 hfr⟩
      | false =>
        refine Or.inr ⟨by simp only [List.length_nil, Nat.add_zero, Vm.scan, hfr, h.1], fun x hx hc => ?_⟩
        rw [List.mem_singleton.1 hx] at hc
        rw [Vm.free_iff.2 hc] at hfr; exact nomatch hfr
  | cons b l ih =>
    intro a z f h hb
    have ha := hb a (by simp)
    cases hfr : s.isFree a with
    | none => unfold Vm.isFree at hfr; rw [if_neg (by omega)] at hfr; exact nomatch hfr
    | some c =>
      cases c with
      | true => exact Or.inl ⟨a, by simp only [Vm.scan, hfr], Vm.free_iff.1 hfr⟩
      | false =>
        have he : s.scan (f + (b :: l).length + 1) a = s.scan (f + l.length + 1) b := by
          rw [show f + (b :: l).length + 1 = (f + l.length + 1) + 1 by simp; omega, Vm.scan, hfr]
          simp only [h.1]
        rw [he]
        rcases ih b z f h.2.2 (fun x hx => hb x (List.mem_cons_of_mem _ hx)) with h1 | ⟨h1, h2⟩
        · exact Or.inl h1
        · refine Or.inr ⟨h1, fun x hx hc => ?_⟩
          rcases List.mem_cons.1 hx with rfl | hx'
          · rw [Vm.free_iff.2 hc] at hfr; exact nomatch hfr
          · exact h2 x hx' hc

theorem scan_mono (s : Vm) : ∀ (f g a t : Nat), f ≤ g → s.scan f a = some t → s.scan g a = some t
  | 0, _, _, _, _, h => nomatch h
  | f + 1, 0, _, _, h, _ => absurd h (by omega)
  | f + 1, g + 1, a, t, hfg, h => by
    unfold Vm.scan at h ⊢
    cases hfr : s.isFree a with
    | none => rw [hfr] at h; exact nomatch h
    | some b =>
      rw [hfr] at h
      cases b with
      | true => exact h
      | false => exact scan_mono s f g _ t (by omega) h

theorem Vm.Good.scan {s : Vm} {L : List Nat} (h : s.Good L) (hr : s.ready = true) (hf : ∃ v, s.Free v) {a : Nat} (ha : a ∈ 0 :: L) :
    ∃ f t, s.Free t ∧ ∀ g, f ≤ g → s.scan g a = some t := by
  have hb : ∀ x ∈ 0 :: L, x ≤ s.n := by
    intro x hx
    rcases List.mem_cons.1 hx with rfl | hx
    · exact Nat.zero_le _
    · exact h.bd x hx
  have from0 : ∃ t, s.scan (L.length + 1) 0 = some t ∧ s.Free t := by
    rcases scan_seg s L 0 0 0 h.rep.seg hb with h1 | ⟨_, h1⟩
    · simpa using h1
    · obtain ⟨v, hv⟩ := hf
      exact absurd hv (h1 v (List.mem_cons_of_mem _ (h.free hr v hv)))
  have key : ∃ f t, s.scan f a = some t ∧ s.Free t := by
    rcases List.mem_cons.1 ha with rfl | ha'
    · obtain ⟨t, h1, h2⟩ := from0
      exact ⟨_, t, h1, h2⟩
    · obtain ⟨A, B, rfl⟩ := List.append_of_mem ha'
      have hseg := (seg_append.1 h.rep.seg).2
      obtain ⟨t0, h1, h2⟩ := from0
      rcases scan_seg s B a 0 ((A ++ a :: B).length + 1) hseg (fun x hx => hb x (List.mem_cons_of_mem _ (List.mem_append_right _ hx))) with ⟨t, h3, h4⟩ | ⟨h3, _⟩
      · exact ⟨_, t, h3, h4⟩
      · exact ⟨_, t0, h3.trans h1, h2⟩
  obtain ⟨f, t, h1, h2⟩ := key
  exact ⟨f, t, h2, fun g hg => scan_mono s f g a t hg h1⟩

/-! ## The invariant -/

theorem Vm.Rep.congr {s s' : Vm} {L : List Nat} (h : s.Rep L) (h1 : s'.nx = s.nx) (h2 : s'.pv = s.pv) : s'.Rep L :=
  ⟨by rw [h1, h2]; exact h.seg, h.nd, by rw [h1, h2]; exact h.off⟩

theorem Vm.Rep.home_mem {s : Vm} {L : List Nat} (h : s.Rep L) : s.nx 0 ∈ 0 :: L := by
  rcases List.mem_append.1 h.seg.first.1 with h1 | h1
  · exact List.mem_cons_of_mem _ h1
  · rw [List.mem_singleton.1 h1]; simp

/-- Proof device: the fields that do not belong to the list are unchanged. -/
structure Vm.Same (s s' : Vm) : Prop where
  n : s'.n = s.n
  tr : s'.tr = s.tr
  elim : s'.elim = s.elim
  ready : s'.ready = s.ready
  base : s'.base = s.base
  front : s'.front = s.front

theorem Vm.Same.refl (s : Vm) : s.Same s := ⟨rfl, rfl, rfl, rfl, rfl, rfl⟩

theorem Vm.Same.trans {s t u : Vm} (h : s.Same t) (h' : t.Same u) : s.Same u :=
  ⟨h'.n.trans h.n, h'.tr.trans h.tr, h'.elim.trans h.elim, h'.ready.trans h.ready, h'.base.trans h.base, h'.front.trans h.front⟩

theorem Vm.same_rem (s : Vm) (v : Nat) : s.Same (s.rem v) ∧ (s.rem v).again = s.again ∧ (s.rem v).stuck = s.stuck ∧ (s.rem v).stale = s.stale := ⟨⟨rfl, rfl, rfl, rfl, rfl, rfl⟩, rfl, rfl, rfl⟩

theorem Vm.same_add (s : Vm) (v : Nat) : s.Same (s.add v) ∧ (s.add v).again = s.again ∧ (s.add v).stuck = s.stuck ∧ (s.add v).stale = s.stale := ⟨⟨rfl, rfl, rfl, rfl, rfl, rfl⟩, rfl, rfl, rfl⟩

theorem Vm.same_move (s : Vm) (v : Nat) : s.Same (s.move v) ∧ (s.move v).again = s.again ∧ (s.move v).stuck = s.stuck ∧ (s.move v).stale = s.stale := by
  unfold Vm.move
  split_ifs
  · exact ⟨Vm.Same.refl s, rfl, rfl, rfl⟩
  · exact ⟨⟨rfl, rfl, rfl, rfl, rfl, rfl⟩, rfl, rfl, rfl⟩

theorem addNew_ok : ∀ (vs : List Nat) (s : Vm) (L : List Nat), s.Rep L → (∀ v ∈ vs, v ≠ 0) → s.Same (s.addNew vs) ∧ (s.addNew vs).stuck = s.stuck ∧
    ((s.addNew vs).again = false → s.again = false ∧ ∃ L', (s.addNew vs).Rep L' ∧ ∀ x, x ∈ L' ↔ x ∈ L ∨ x ∈ vs)
  | [], s, L, h, _ => ⟨Vm.Same.refl s, rfl, fun ha => ⟨ha, L, h, by simp⟩⟩
  | v :: vs, s, L, h, hz => by
    unfold Vm.addNew
    by_cases hi : s.inList v = true
    · rw [if_pos hi]
      obtain ⟨h1, h2, h3⟩ := addNew_ok vs s L h (fun w hw => hz w (List.mem_cons_of_mem _ hw))
      refine ⟨h1, h2, fun ha => ?_⟩
      obtain ⟨h4, L', h5, h6⟩ := h3 ha
      refine ⟨h4, L', h5, fun x => ?_⟩
      have hv := h.inList (hz v (by simp)) hi
      rw [h6, List.mem_cons]
      constructor
      · rintro (h | h)
        · exact Or.inl h
        · exact Or.inr (Or.inr h)
      · rintro (h | rfl | h)
        · exact Or.inl h
        · exact Or.inl hv
        · exact Or.inr h
    · rw [if_neg hi]
      by_cases hv : v ∈ L
      · -- the only element is added again
        have h1 := h.only hv (by simpa using hi)
        have key : ∀ (vs : List Nat) (s : Vm), s.again = true → s.Same (s.addNew vs) ∧ (s.addNew vs).stuck = s.stuck ∧ (s.addNew vs).again = true := by
          intro vs
          induction vs with
          | nil => intro s hs; exact ⟨Vm.Same.refl s, rfl, hs⟩
          | cons w ws ih =>
            intro s hs
            unfold Vm.addNew
            split_ifs
            · exact ih s hs
            · obtain ⟨a1, a2, a3⟩ := ih { s.add w with again := s.again || s.only w } (by simp [hs])
              exact ⟨⟨a1.n, a1.tr, a1.elim, a1.ready, a1.base, a1.front⟩, a2, a3⟩
        obtain ⟨a1, a2, a3⟩ := key vs { s.add v with again := s.again || s.only v } (by simp [h1.2])
        refine ⟨⟨a1.n, a1.tr, a1.elim, a1.ready, a1.base, a1.front⟩, a2, fun ha => ?_⟩
        rw [a3] at ha; exact nomatch ha
      · have h1 := h.add (hz v (by simp)) hv
        have h1' : Vm.Rep { s.add v with again := s.again || s.only v } (L ++ [v]) := h1.congr rfl rfl
        obtain ⟨a1, a2, a3⟩ := addNew_ok vs _ _ h1' (fun w hw => hz w (List.mem_cons_of_mem _ hw))
        refine ⟨⟨a1.n, a1.tr, a1.elim, a1.ready, a1.base, a1.front⟩, a2, fun ha => ?_⟩
        obtain ⟨h4, L', h5, h6⟩ := a3 ha
        simp only [Bool.or_eq_false_iff] at h4
        refine ⟨h4.1, L', h5, fun x => ?_⟩
        rw [h6, List.mem_append, List.mem_singleton, List.mem_cons]; tauto

theorem dropVars_flag : ∀ (vs : List Nat) (s : Vm), (s.dropVars vs).again = s.again ∧ (s.stuck = true → (s.dropVars vs).stuck = true) ∧ s.Same (s.dropVars vs)
  | [], s => ⟨rfl, fun h => h, Vm.Same.refl s⟩
  | v :: vs, s => by
    unfold Vm.dropVars
    split_ifs
    · obtain ⟨h1, h2, h3⟩ := dropVars_flag vs { s.rem v with stale := s.stale || s.front == v }
      exact ⟨h1, h2, h3.n, h3.tr, h3.elim, h3.ready, h3.base, h3.front⟩
    · obtain ⟨h1, h2, h3⟩ := dropVars_flag vs { s with stuck := s.stuck || s.only v }
      exact ⟨h1, fun hs => h2 (by simp [hs]), h3.n, h3.tr, h3.elim, h3.ready, h3.base, h3.front⟩

theorem dropVars_ok : ∀ (vs : List Nat) (s : Vm) (L : List Nat), s.Rep L → (∀ v ∈ vs, v ≠ 0) → (s.dropVars vs).stuck = false →
    ∃ L', (s.dropVars vs).Rep L' ∧ (∀ x, x ∈ L' ↔ x ∈ L ∧ x ∉ vs) ∧ ((s.dropVars vs).stale = false → s.stale = false ∧ s.front ∉ L ∨ s.stale = false ∧ s.front ∉ vs)
  | [], s, L, h, _, _ => ⟨L, h, by simp, fun hs => Or.inr ⟨hs, by simp⟩⟩
  | v :: vs, s, L, h, hz, hst => by
    unfold Vm.dropVars at hst ⊢
    by_cases hi : s.inList v = true
    · rw [if_pos hi] at hst ⊢
      have hv := h.inList (hz v (by simp)) hi
      obtain ⟨A, B, rfl⟩ := List.append_of_mem hv
      have h1 : Vm.Rep { s.rem v with stale := s.stale || s.front == v } (A ++ B) := h.rem.congr rfl rfl
      obtain ⟨L', h2, h3, h4⟩ := dropVars_ok vs _ _ h1 (fun w hw => hz w (List.mem_cons_of_mem _ hw)) hst
      have hnd := List.nodup_append.1 (List.nodup_cons.1 h.nd).2
      refine ⟨L', h2, fun x => ?_, fun hs => ?_⟩
      · rw [h3, List.mem_append, List.mem_append, List.mem_cons, List.mem_cons]
        have hvA : v ∉ A := fun hc => hnd.2.2 v hc v (by simp) rfl
        have hvB := (List.nodup_cons.1 hnd.2.1).1
        constructor
        · rintro ⟨h5, h6⟩
          refine ⟨by tauto, ?_⟩
          rintro (rfl | h7)
          · rcases h5 with h5 | h5
            · exact hvA h5
            · exact hvB h5
          · exact h6 h7
        · rintro ⟨h5, h6⟩
          refine ⟨by tauto, by tauto⟩
      · have h5 := h4 hs
        have hnv : s.stale = false ∧ s.front ≠ v := by
          rcases h5 with h5 | h5 <;> (have h6 := h5.1; simp only [Bool.or_eq_false_iff, beq_eq_false_iff_ne] at h6; exact h6)
        rcases h5 with ⟨_, h5⟩ | ⟨_, h5⟩
        · left
          refine ⟨hnv.1, fun hc => h5 ?_⟩
          simp only [List.mem_append, List.mem_cons] at hc ⊢
          have := hnv.2
          tauto
        · right
          refine ⟨hnv.1, fun hc => ?_⟩
          rcases List.mem_cons.1 hc with h6 | h6
          · exact hnv.2 h6
          · exact h5 h6
    · rw [if_neg hi] at hst ⊢
      have hv : v ∉ L := by
        intro hv
        have h1 := (h.only hv (by simpa using hi)).2
        have h2 := (dropVars_flag vs { s with stuck := s.stuck || s.only v }).2.1 (by simp [h1])
        rw [hst] at h2; exact nomatch h2
      have h1 : Vm.Rep { s with stuck := s.stuck || s.only v } L := h.congr rfl rfl
      obtain ⟨L', h2, h3, h4⟩ := dropVars_ok vs _ _ h1 (fun w hw => hz w (List.mem_cons_of_mem _ hw)) hst
      refine ⟨L', h2, fun x => ?_, fun hs => ?_⟩
      · rw [h3, List.mem_cons]
        constructor
        · rintro ⟨h5, h6⟩
          exact ⟨h5, fun hc => hc.elim (fun e => hv (e ▸ h5)) h6⟩
        · rintro ⟨h5, h6⟩
          exact ⟨h5, fun hc => h6 (Or.inr hc)⟩
      · rcases h4 hs with h5 | ⟨h5, h6⟩
        · exact Or.inl h5
        · by_cases hfv : s.front = v
          · exact Or.inl ⟨h5, by rw [hfv]; exact hv⟩
          · exact Or.inr ⟨h5, by simp only [List.mem_cons, not_or]; exact ⟨hfv, h6⟩⟩

theorem dropFixed_ok : ∀ (vs : List Nat) (s : Vm), s.Same (s.dropFixed vs) ∧ (s.dropFixed vs).again = s.again ∧ (s.dropFixed vs).stuck = s.stuck ∧
    ∀ L, s.Rep L → (∀ v ∈ vs, v ≠ 0) → ∃ L', (s.dropFixed vs).Rep L' ∧ (∀ x ∈ L', x ∈ L) ∧ (∀ x ∈ L, x ∉ vs → x ∈ L')
  | [], s => ⟨Vm.Same.refl s, rfl, rfl, fun L h _ => ⟨L, h, fun _ h => h, fun _ h _ => h⟩⟩
  | v :: vs, s => by
    unfold Vm.dropFixed
    by_cases hi : s.inList v = true
    · rw [if_pos hi]
      obtain ⟨h1, h2, h3, h4⟩ := dropFixed_ok vs (s.rem v)
      refine ⟨(s.same_rem v).1.trans h1, h2, h3, fun L h hz => ?_⟩
      have hv := h.inList (hz v (by simp)) hi
      obtain ⟨A, B, rfl⟩ := List.append_of_mem hv
      obtain ⟨L', h5, h6, h7⟩ := h4 (A ++ B) h.rem (fun w hw => hz w (List.mem_cons_of_mem _ hw))
      refine ⟨L', h5, fun x hx => ?_, fun x hx hn => h7 x ?_ (fun hc => hn (List.mem_cons_of_mem _ hc))⟩
      · have := h6 x hx
        simp only [List.mem_append, List.mem_cons] at this ⊢; tauto
      · simp only [List.mem_append, List.mem_cons, not_or] at hx hn ⊢
        have := hn.1
        tauto
    · rw [if_neg hi]
      obtain ⟨h1, h2, h3, h4⟩ := dropFixed_ok vs s
      refine ⟨h1, h2, h3, fun L h hz => ?_⟩
      obtain ⟨L', h5, h6, h7⟩ := h4 L h (fun w hw => hz w (List.mem_cons_of_mem _ hw))
      exact ⟨L', h5, h6, fun x hx hn => h7 x hx (fun hc => hn (List.mem_cons_of_mem _ hc))⟩

theorem moveAll_ok : ∀ (vs : List Nat) (s : Vm), s.Same (s.moveAll vs) ∧ (s.moveAll vs).again = s.again ∧ (s.moveAll vs).stuck = s.stuck ∧
    ∀ L, s.Rep L → (∀ v ∈ vs, v ≠ 0) → ∃ L', (s.moveAll vs).Rep L' ∧ ∀ x, x ∈ L' ↔ x ∈ L
  | [], s => ⟨Vm.Same.refl s, rfl, rfl, fun L h _ => ⟨L, h, fun _ => Iff.rfl⟩⟩
  | v :: vs, s => by
    unfold Vm.moveAll
    by_cases hi : s.inList v = true
    · rw [if_pos hi]
      obtain ⟨h1, h2, h3, h4⟩ := moveAll_ok vs (s.move v)
      obtain ⟨m1, m2, m3, _⟩ := s.same_move v
      refine ⟨m1.trans h1, h2.trans m2, h3.trans m3, fun L h hz => ?_⟩
      obtain ⟨L1, h5, h6⟩ := h.move (h.inList (hz v (by simp)) hi)
      obtain ⟨L', h7, h8⟩ := h4 L1 h5 (fun w hw => hz w (List.mem_cons_of_mem _ hw))
      exact ⟨L', h7, fun x => (h8 x).trans (h6 x)⟩
    · rw [if_neg hi]
      obtain ⟨h1, h2, h3, h4⟩ := moveAll_ok vs s
      exact ⟨h1, h2, h3, fun L h hz => h4 L h (fun w hw => hz w (List.mem_cons_of_mem _ hw))⟩

theorem Vm.free_congr {s s' : Vm} (h : s.Same s') (v : Nat) : s'.Free v ↔ s.Free v := by
  unfold Vm.Free; rw [h.n, h.tr, h.elim]

theorem Vm.Inv.init : Vm.init.Inv :=
  ⟨fun _ _ => ⟨[], ⟨⟨rfl, rfl⟩, by simp, fun _ _ => ⟨rfl, rfl⟩⟩, (fun _ hv => nomatch hv), (fun h => nomatch h), (fun h => nomatch h), (fun h => nomatch h)⟩, fun _ hv => nomatch hv⟩

theorem Vm.select_same {s s' : Vm} {f k d t : Nat} (h : s.select f k d = some (t, s')) : ∃ v, s.scan f s.front = some v ∧ s' = { s with front := v } := by
  unfold Vm.select at h
  cases hs : s.scan f s.front with
  | none => rw [hs] at h; exact nomatch h
  | some v =>
    rw [hs] at h
    simp only at h
    refine ⟨v, rfl, ?_⟩
    split_ifs at h with h1
    · split at h
      · exact nomatch h
      · split_ifs at h <;> (cases h; rfl)
    · cases h; rfl

theorem scan_free {s : Vm} : ∀ {f a t : Nat}, s.scan f a = some t → s.Free t
  | 0, _, _, h => nomatch h
  | f + 1, a, t, h => by
    unfold Vm.scan at h
    cases hfr : s.isFree a with
    | none => rw [hfr] at h; exact nomatch h
    | some b =>
      rw [hfr] at h
      cases b with
      | true => cases h; exact Vm.free_iff.1 hfr
      | false => exact scan_free (f := f) h

theorem vm_exec_inv {s s' : Vm} (h : s.Inv) {e : VmEv} (hc : e.can s) (he : e.exec s = some s') : s'.Inv := by
  cases e with
  | setup n tr elim =>
    cases he
    refine ⟨fun ha hs => ?_, hc.2⟩
    obtain ⟨L, hL⟩ := h.good ha hs
    exact ⟨L, hL.rep.congr rfl rfl, fun v hv => Nat.le_trans (hL.bd v hv) hc.1, (fun h => nomatch h), (fun h => nomatch h), (fun h => nomatch h)⟩
  | endInit vs =>
    cases he
    have hz : ∀ v ∈ vs, v ≠ 0 := fun v hv => by have := Vm.free_iff.1 ((hc.2 v).1 hv); have := this.1; omega
    have hadd : ∀ L, s.Rep L → _ := fun L hL => addNew_ok vs s L hL hz
    constructor
    · intro ha hs
      have ha : (s.addNew vs).again = false := ha
      have hs : (s.addNew vs).stuck = false := hs
      have mono : ∀ (vs : List Nat) (s : Vm), (s.addNew vs).again = false → s.again = false := by
        intro vs
        induction vs with
        | nil => intro s hs; exact hs
        | cons w ws ih =>
          intro s hs
          unfold Vm.addNew at hs
          split_ifs at hs
          · exact ih s hs
          · have := ih _ hs
            simp only [Bool.or_eq_false_iff] at this
            exact this.1
      have stuckEq : ∀ (vs : List Nat) (s : Vm), (s.addNew vs).stuck = s.stuck := by
        intro vs
        induction vs with
        | nil => intro s; rfl
        | cons w ws ih =>
          intro s
          unfold Vm.addNew
          split_ifs
          · exact ih s
          · rw [ih]; rfl
      obtain ⟨L, hL⟩ := h.good (mono vs s ha) ((stuckEq vs s).symm.trans hs)
      obtain ⟨h1, _, h3⟩ := hadd L hL.rep
      obtain ⟨_, L', h5, h6⟩ := h3 ha
      refine ⟨L', h5.congr rfl rfl, fun v hv => ?_, fun _ v hv => (h6 v).2 (Or.inr ((hc.2 v).2 (Vm.free_iff.2 ?_))), fun _ _ => h5.home_mem, fun _ v hv => ?_⟩
      · show v ≤ (s.addNew vs).n
        rw [h1.n]
        rcases (h6 v).1 hv with h7 | h7
        · exact hL.bd v h7
        · exact (Vm.free_iff.1 ((hc.2 v).1 h7)).2.1
      · have h7 : (s.addNew vs).Free v := hv
        exact (Vm.free_congr h1 v).1 h7
      · have hv : v ∈ (s.addNew vs).tr.drop s.tr.length := hv
        rw [h1.tr, List.drop_length] at hv
        exact nomatch hv
    · have same : ∀ (vs : List Nat) (s : Vm), s.Same (s.addNew vs) := by
        intro vs
        induction vs with
        | nil => intro s; exact Vm.Same.refl s
        | cons w ws ih =>
          intro s
          unfold Vm.addNew
          split_ifs
          · exact ih s
          · have a1 := ih { s.add w with again := s.again || s.only w }
            exact ⟨a1.n, a1.tr, a1.elim, a1.ready, a1.base, a1.front⟩
      intro v hv
      have hv : v ∈ (s.addNew vs).tr := hv
      show v ≠ 0 ∧ v ≤ (s.addNew vs).n
      rw [(same vs s).tr] at hv
      rw [(same vs s).n]
      exact h.tr v hv
  | assign v =>
    cases he
    have hv := Vm.free_iff.1 hc
    refine ⟨fun ha hs => ?_, fun w hw => ?_⟩
    · obtain ⟨L, hL⟩ := h.good ha hs
      refine ⟨L, hL.rep.congr rfl rfl, hL.bd, fun hr w hw => hL.free hr w ⟨hw.1, hw.2.1, fun hm => hw.2.2.1 (List.mem_append_left _ hm), hw.2.2.2⟩, hL.front, fun hr w hw => ?_⟩
      have hw : w ∈ (s.tr ++ [v]).drop s.base := hw
      rw [List.drop_append] at hw
      rcases List.mem_append.1 hw with h1 | h1
      · exact hL.back hr w h1
      · rw [List.mem_singleton.1 (List.mem_of_mem_drop h1)]; exact hL.free hr v hv
    · rcases List.mem_append.1 hw with h1 | h1
      · exact h.tr w h1
      · rw [List.mem_singleton.1 h1]; have := hv.1; exact ⟨by omega, hv.2.1⟩
  | score act =>
    cases he
    refine ⟨fun ha hs => ?_, h.tr⟩
    obtain ⟨L, hL⟩ := h.good ha hs
    exact ⟨L, hL.rep.congr rfl rfl, hL.bd, hL.free, hL.front, hL.back⟩
  | learn vs =>
    cases he
    obtain ⟨h1, h2, h3, h4⟩ := moveAll_ok vs s
    refine ⟨fun ha hs => ?_, fun v hv => ?_⟩
    · obtain ⟨L, hL⟩ := h.good (h2.symm.trans ha) (h3.symm.trans hs)
      obtain ⟨L', h5, h6⟩ := h4 L hL.rep (fun v hv => (hc v hv).1)
      refine ⟨L', h5.congr rfl rfl, fun v hv => ?_, fun hr v hv => (h6 v).2 (hL.free (h1.ready.symm.trans hr) v ((Vm.free_congr h1 v).1 hv)), fun _ _ => h5.home_mem, fun hr v hv => (h6 v).2 (hL.back (h1.ready.symm.trans hr) v ?_)⟩
      rotate_left
      · have hv : v ∈ (s.moveAll vs).tr.drop (s.moveAll vs).base := hv
        rw [h1.tr, h1.base] at hv; exact hv
      show v ≤ (s.moveAll vs).n
      rw [h1.n]; exact hL.bd v ((h6 v).1 hv)
    · have hv : v ∈ (s.moveAll vs).tr := hv
      show v ≠ 0 ∧ v ≤ (s.moveAll vs).n
      rw [h1.tr] at hv; rw [h1.n]; exact h.tr v hv
  | tell =>
    cases he
    refine ⟨fun ha hs => ?_, h.tr⟩
    obtain ⟨L, hL⟩ := h.good ha hs
    exact ⟨L, hL.rep.congr rfl rfl, hL.bd, hL.free, fun _ _ => hL.rep.home_mem, hL.back⟩
  | pop =>
    cases he
    have hlt : s.base < s.tr.length := hc
    refine ⟨fun ha hs => ?_, fun v hv => h.tr v ((List.dropLast_sublist _).subset hv)⟩
    obtain ⟨L, hL⟩ := h.good ha hs
    have hne : s.tr ≠ [] := by intro e; rw [e] at hlt; simp at hlt
    have hdl : s.tr = s.tr.dropLast ++ [s.tr.getLast hne] := (List.dropLast_append_getLast hne).symm
    have hlen : s.tr.dropLast.length + 1 = s.tr.length := by rw [List.length_dropLast]; omega
    have hdrop : s.tr.drop s.base = s.tr.dropLast.drop s.base ++ [s.tr.getLast hne] := by
      conv_lhs => rw [hdl]
      rw [List.drop_append, show s.base - s.tr.dropLast.length = 0 by omega, List.drop_zero]
    refine ⟨L, hL.rep.congr rfl rfl, hL.bd, fun hr v hv => ?_, hL.front, fun hr v hv => hL.back hr v (by rw [hdrop]; exact List.mem_append_left _ hv)⟩
    by_cases hvt : v ∈ s.tr
    · have hvt2 := hvt
      rw [hdl] at hvt2
      rcases List.mem_append.1 hvt2 with h1 | h1
      · exact absurd h1 hv.2.2.1
      · exact hL.back hr v (by rw [hdrop]; exact List.mem_append_right _ h1)
    · exact hL.free hr v ⟨hv.1, hv.2.1, hvt, hv.2.2.2⟩
  | simplify i =>
    cases he
    obtain ⟨h1, h2, h3, h4⟩ := dropFixed_ok (s.tr.drop i) s
    refine ⟨fun ha hs => ?_, fun v hv => ?_⟩
    · obtain ⟨L, hL⟩ := h.good (h2.symm.trans ha) (h3.symm.trans hs)
      obtain ⟨L', h5, h6, h7⟩ := h4 L hL.rep (fun v hv => (h.tr v (List.mem_of_mem_drop hv)).1)
      refine ⟨L', h5.congr rfl rfl, fun v hv => ?_, fun hr v hv => ?_, fun _ _ => h5.home_mem, fun _ v hv => ?_⟩
      · show v ≤ (s.dropFixed (s.tr.drop i)).n
        rw [h1.n]; exact hL.bd v (h6 v hv)
      · have hv' := (Vm.free_congr h1 v).1 hv
        exact h7 v (hL.free (h1.ready.symm.trans hr) v hv') (fun hd => hv'.2.2.1 (List.mem_of_mem_drop hd))
      · have hv : v ∈ (s.dropFixed (s.tr.drop i)).tr.drop s.tr.length := hv
        rw [h1.tr, List.drop_length] at hv
        exact nomatch hv
    · have hv : v ∈ (s.dropFixed (s.tr.drop i)).tr := hv
      show v ≠ 0 ∧ v ≤ (s.dropFixed (s.tr.drop i)).n
      rw [h1.tr] at hv; rw [h1.n]; exact h.tr v hv
  | pushAux =>
    cases he
    obtain ⟨s1, hs1⟩ : ∃ s1 : Vm, s1 = { s with n := s.n + 1, elim := fun w => if w = s.n + 1 then false else s.elim w } := ⟨_, rfl⟩
    have hp : s.pushAux = if s1.inList (s.n + 1) then s1.home else { s1.add (s.n + 1) with again := s1.again || s1.only (s.n + 1) } := by subst hs1; rfl
    have htr : ∀ v ∈ s.tr, v ≠ 0 ∧ v ≤ s.n + 1 := fun v hv => ⟨(h.tr v hv).1, Nat.le_succ_of_le (h.tr v hv).2⟩
    rw [hp]
    split_ifs with hi
    · refine ⟨fun ha hs => ?_, by subst hs1; exact htr⟩
      obtain ⟨L, hL⟩ := h.good (by subst hs1; exact ha) (by subst hs1; exact hs)
      have h1 : s1.Rep L := hL.rep.congr (by rw [hs1]) (by rw [hs1])
      have := hL.bd _ (h1.inList (by omega) hi)
      omega
    · refine ⟨fun ha hs => ?_, by subst hs1; exact htr⟩
      have ha' : s.again = false := by
        have : (s1.again || s1.only (s.n + 1)) = false := ha
        rw [Bool.or_eq_false_iff] at this
        subst hs1; exact this.1
      obtain ⟨L, hL⟩ := h.good ha' (by subst hs1; exact hs)
      have h1 : s1.Rep L := hL.rep.congr (by rw [hs1]) (by rw [hs1])
      have hn : s.n + 1 ∉ L := fun hc => by have := hL.bd _ hc; omega
      refine ⟨L ++ [s.n + 1], (h1.add (by omega) hn).congr rfl rfl, fun v hv => ?_, fun hr v hv => ?_, fun hr hst => ?_, fun hr v hv => ?_⟩
      · show v ≤ s1.n
        subst hs1
        rcases List.mem_append.1 hv with h2 | h2
        · exact Nat.le_succ_of_le (hL.bd v h2)
        · exact Nat.le_of_eq (List.mem_singleton.1 h2)
      · have hv : s1.Free v := hv
        subst hs1
        by_cases hvn : v = s.n + 1
        · exact List.mem_append_right _ (by simp [hvn])
        · have h3 := hv.2.2.2
          have h4 := hv.2.1
          simp only [if_neg hvn] at h3 h4
          exact List.mem_append_left _ (hL.free hr v ⟨hv.1, by omega, hv.2.2.1, h3⟩)
      · subst hs1
        have := hL.front hr hst
        rcases List.mem_cons.1 this with h2 | h2
        · exact List.mem_cons.2 (Or.inl h2)
        · exact List.mem_cons_of_mem _ (List.mem_append_left _ h2)
      · subst hs1
        exact List.mem_append_left _ (hL.back hr v hv)
  | popAux k =>
    cases he
    obtain ⟨s1, hs1⟩ : ∃ s1 : Vm, s1 = { s with n := s.n - k, tr := s.tr.filter (· ≤ s.n - k), base := ((s.tr.take s.base).filter (· ≤ s.n - k)).length } := ⟨_, rfl⟩
    have hp : s.popAux k = s1.dropVars (List.range' (s.n - k + 1) k).reverse := by subst hs1; rfl
    have hk : k ≤ s.n := hc
    obtain ⟨h1, h2, h3⟩ := dropVars_flag (List.range' (s.n - k + 1) k).reverse s1
    rw [hp]
    constructor
    · intro ha hs
      have hst : s1.stuck = false := by
        by_contra hcon
        rw [h2 (by simpa using hcon)] at hs
        exact nomatch hs
      obtain ⟨L, hL⟩ := h.good (by rw [h1] at ha; subst hs1; exact ha) (by subst hs1; exact hst)
      have hr1 : s1.Rep L := hL.rep.congr (by rw [hs1]) (by rw [hs1])
      have hmem : ∀ x, x ∈ (List.range' (s.n - k + 1) k).reverse ↔ s.n - k < x ∧ x ≤ s.n := by
        intro x; rw [List.mem_reverse, List.mem_range'_1]; omega
      obtain ⟨L', h4, h5, h6⟩ := dropVars_ok _ s1 L hr1 (fun v hv => by have := (hmem v).1 hv; omega) hs
      have hin : ∀ x ∈ L, x ≤ s.n - k → x ∈ L' := fun x hx hxn => (h5 x).2 ⟨hx, fun hc => by have := (hmem x).1 hc; omega⟩
      refine ⟨L', h4, fun v hv => ?_, fun hr v hv => ?_, fun hr hst2 => ?_, fun hr v hv => ?_⟩
      · rw [h3.n, hs1]
        obtain ⟨h7, h8⟩ := (h5 v).1 hv
        have := hL.bd v h7
        rw [hmem] at h8
        show v ≤ s.n - k
        omega
      · have hv' : s1.Free v := (Vm.free_congr h3 v).1 hv
        rw [h3.ready] at hr
        subst hs1
        have h7 : v ≤ s.n - k := hv'.2.1
        refine hin v (hL.free hr v ⟨hv'.1, by omega, fun hm => hv'.2.2.1 (List.mem_filter.2 ⟨hm, by simpa using h7⟩), hv'.2.2.2⟩) h7
      · rw [h3.front]
        rw [h3.ready] at hr
        rcases h6 hst2 with ⟨h7, h8⟩ | ⟨h7, h8⟩
        · have h9 := hL.front (by subst hs1; exact hr) (by subst hs1; exact h7)
          have e : s1.front = s.front := by rw [hs1]
          rw [e] at h8 ⊢
          rcases List.mem_cons.1 h9 with h10 | h10
          · rw [h10]; simp
          · exact absurd h10 h8
        · have h9 := hL.front (by subst hs1; exact hr) (by subst hs1; exact h7)
          have e : s1.front = s.front := by rw [hs1]
          rw [e] at h8 ⊢
          rcases List.mem_cons.1 h9 with h10 | h10
          · rw [h10]; simp
          · exact List.mem_cons_of_mem _ ((h5 _).2 ⟨h10, h8⟩)
      · rw [h3.ready] at hr
        rw [h3.tr, h3.base] at hv
        subst hs1
        have hv : v ∈ (s.tr.filter (· ≤ s.n - k)).drop ((s.tr.take s.base).filter (· ≤ s.n - k)).length := hv
        rw [← List.take_append_drop s.base s.tr, List.filter_append, List.take_append_drop, List.drop_left] at hv
        obtain ⟨h7, h8⟩ := List.mem_filter.1 hv
        exact hin v (hL.back hr v h7) (by simpa using h8)
    · intro v hv
      rw [h3.tr] at hv
      rw [h3.n]
      subst hs1
      obtain ⟨h7, h8⟩ := List.mem_filter.1 hv
      exact ⟨(h.tr v h7).1, by simpa using h8⟩
  | select f d =>
    simp only [VmEv.exec] at he
    cases hsel : s.select f s.numFree d with
    | none => rw [hsel] at he; exact nomatch he
    | some p =>
      obtain ⟨t, s2⟩ := p
      rw [hsel] at he
      cases he
      obtain ⟨v, h1, rfl⟩ := Vm.select_same hsel
      refine ⟨fun ha hs => ?_, h.tr⟩
      obtain ⟨L, hL⟩ := h.good ha hs
      exact ⟨L, hL.rep.congr rfl rfl, hL.bd, hL.free, fun hr _ => List.mem_cons_of_mem _ (hL.free hr v (scan_free h1)), hL.back⟩

end Clasp.Heu
