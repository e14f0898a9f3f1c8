import Verif.Core.LookSem

/-! # Lookahead: the invariant of all reachable states -/

namespace Clasp.Look

theorem clear_none {s : St} (h : DepOk s) :
    (∀ v b, (clearDeps s).seen v b = false) ∧ (∀ v b, (clearDeps s).tested v b = false) := by
  constructor
  · intro v b
    simp only [clearDeps]
    split_ifs with hv
    · rfl
    · by_contra hh
      exact hv (h v b (Or.inl (by simpa using hh)))
  · intro v b
    simp only [clearDeps]
    split_ifs with hv
    · rfl
    · by_contra hh
      exact hv (h v b (Or.inr (by simpa using hh)))

theorem clear_dep {s : St} (h : DepOk s) : DepOk (clearDeps s) := by
  intro v b hv
  rw [(clear_none h).1, (clear_none h).2] at hv
  simp at hv

/-- Proof device: the invariant of all reachable states. -/
structure RInv (e : Env) (s : St) : Prop where
  lists : ∃ C sg, Core s C (flat sg) ∧ Sv s sg
  oth : Oth e s

theorem undoLevel_spec {s : St} {C sg} (hc : Core s C (flat sg)) (hs : Sv s sg) (h : Has sg s.dl) (d0 : s.dl ≠ 0) :
    ∃ s1, undoLevel { s with trail := s.trail.filter fun e => decide (e.2 < s.dl) } s.dl = some s1 ∧
      (∃ C' sg', Core { s1 with dl := s.dl - 1 } C' (flat sg') ∧ Sv { s1 with dl := s.dl - 1 } sg') ∧
      (∃ sv w nx, s1 = clearDeps { s with trail := s.trail.filter fun e => decide (e.2 < s.dl), saved := sv, watch := w, next := nx }) := by
  obtain ⟨h1, h2, h3⟩ := resize_spec sg (s.dl + 1) (fun l hl => by have := hs.wle l hl; omega)
  have hl := resize_len sg (s.dl + 1)
  have hm := resize_map (·.getLastD 1) sg (s.dl + 1)
  obtain ⟨R, hR⟩ : ∃ R, resize sg (s.dl + 1) = R := ⟨_, rfl⟩
  rw [hR] at h1 h2 h3 hl hm
  cases R with
  | nil => simp at hl
  | cons x rest =>
    have hrl : rest.length = s.dl := by simpa using hl
    have hx : ∃ seg, x = some seg := by
      rcases (h3 s.dl).2 h with hh | hh
      · exact Option.isSome_iff_exists.1 hh.2
      · have := Has_lt hh; omega
    obtain ⟨seg, rfl⟩ := hx
    have hfl : flat sg = seg ++ flat rest := by rw [← h1]; simp [flat]
    rw [hfl] at hc
    obtain ⟨tf, htf⟩ : ∃ tf, s.trail.filter (fun e => decide (e.2 < s.dl)) = tf := ⟨_, rfl⟩
    rw [htf]
    obtain ⟨s0, hs0⟩ : ∃ s0 : St, ({ s with
        trail := tf
        saved := rest.map (Option.map (·.getLastD 1))
        watch := Function.update s.watch s.dl false } : St) = s0 := ⟨_, rfl⟩
    have hc0 : Core s0 C (seg ++ flat rest) := by
      refine hc.upd ?_ ?_ ?_ ?_ ?_ ?_ <;> rw [← hs0]
      intro e he
      have he : e ∈ tf := he
      rw [← htf] at he
      exact hc.lev e (List.mem_filter.1 he).1
    obtain ⟨C', hc'⟩ := splice_core hc0
    have hsp : ∃ nx, splice s0 (seg.getLastD 1) = { s0 with next := nx } := by
      unfold splice; split_ifs
      · exact ⟨_, rfl⟩
      · exact ⟨_, rfl⟩
    obtain ⟨nx, hnx⟩ := hsp
    have hu : undoLevel { s with trail := tf } s.dl = some (clearDeps (splice s0 (seg.getLastD 1))) := by
      unfold undoLevel
      have hne : ¬ s.dl = s.saved.length := by
        have := Has_lt h
        rw [hs.sav]; simp; omega
      rw [if_neg hne]
      have hm' : resize s.saved (s.dl + 1) = some (seg.getLastD 1) :: rest.map (Option.map (·.getLastD 1)) := by
        rw [hs.sav, hm]; rfl
      simp only [hm', ← hs0]
    refine ⟨_, hu, ⟨C', rest, ?_, ?_⟩, rest.map (Option.map (·.getLastD 1)), Function.update s.watch s.dl false, nx, ?_⟩
    · rw [hnx] at hc' ⊢
      refine hc'.upd rfl rfl rfl rfl rfl ?_
      intro e he
      have he : e ∈ s0.trail := he
      rw [← hs0] at he
      have he : e ∈ tf := he
      rw [← htf] at he
      have := (List.mem_filter.1 he).2
      simp at this
      show e.2 ≤ s.dl - 1
      omega
    · rw [hnx, ← hs0]
      refine ⟨rfl, ?_, ?_, ?_⟩
      · intro i l hi
        obtain ⟨e, he, hv, hle⟩ := hs.asg i l ((h2 i l).1 (Or.inr hi))
        have hlt := Has_lt (In_has hi)
        refine ⟨e, ?_, hv, hle⟩
        show e ∈ tf
        rw [← htf]
        exact List.mem_filter.2 ⟨he, by simp; omega⟩
      · intro l
        show Function.update s.watch s.dl false l = true ↔ _
        simp only [Function.update_apply]
        split_ifs with hh
        · simp only [Bool.false_eq_true, false_iff, not_and]
          intro _ hr
          have := Has_lt hr; omega
        · rw [hs.wat, ← h3]
          simp [Has, hrl, hh]
      · intro l hr
        have := Has_lt hr
        show l ≤ s.dl - 1
        omega
    · rw [hnx, ← hs0]

theorem undoUntil_spec (e : Env) (k : Nat) : ∀ (f : Nat) (s : St), RInv e s → s.dl ≤ f →
    ∃ s', undoUntil s k f = some s' ∧ RInv e s' ∧ s'.n = s.n ∧ s'.lit = s.lit ∧ s'.imps = s.imps ∧
      s'.dl = min s.dl k ∧ s'.trail = s.trail.filter (fun x => decide (x.2 ≤ s'.dl)) := by
  intro f
  induction f with
  | zero =>
    intro s h hf
    refine ⟨s, rfl, h, rfl, rfl, rfl, by omega, ?_⟩
    obtain ⟨⟨C, sg, hc, -⟩, -⟩ := h
    rw [List.filter_eq_self.2]
    intro x hx; simpa using hc.lev x hx
  | succ f ih =>
    intro s h hf
    rw [undoUntil]
    by_cases hk : s.dl ≤ k
    · rw [if_pos hk]
      refine ⟨s, rfl, h, rfl, rfl, rfl, by omega, ?_⟩
      obtain ⟨⟨C, sg, hc, -⟩, -⟩ := h
      rw [List.filter_eq_self.2]
      intro x hx; simpa using hc.lev x hx
    · rw [if_neg hk]
      obtain ⟨⟨C, sg, hc, hs⟩, ho⟩ := h
      have d0 : s.dl ≠ 0 := by omega
      have ff : ∀ (s1 s' : St), s1.trail = s.trail.filter (fun e => decide (e.2 < s.dl)) →
          s'.dl = min (s.dl - 1) k → s'.trail = s1.trail.filter (fun x => decide (x.2 ≤ s'.dl)) →
          s'.dl = min s.dl k ∧ s'.trail = s.trail.filter (fun x => decide (x.2 ≤ s'.dl)) := by
        intro s1 s' a b c
        refine ⟨by omega, ?_⟩
        rw [c, a, List.filter_filter]
        apply List.filter_congr
        intro x _
        by_cases hx : x.2 ≤ s'.dl
        · have : x.2 < s.dl := by omega
          simp [hx, this]
        · simp [hx]
      by_cases hw : s.watch s.dl = true
      · simp only [if_pos hw]
        obtain ⟨s1, g1, ⟨C', sg', g2, g3⟩, sv, w, nx, g4⟩ := undoLevel_spec hc hs ((hs.wat _).1 hw).2 d0
        simp only [g1]
        have ho' : Oth e { s1 with dl := s.dl - 1 } := by
          rw [g4]
          exact ⟨clear_dep (s := { s with trail := s.trail.filter fun e => decide (e.2 < s.dl), saved := sv, watch := w, next := nx }) ho.dep,
            ho.imp, ho.inj, ho.typ⟩
        obtain ⟨s', a1, a2, a3, a4, a5, a6, a7⟩ := ih { s1 with dl := s.dl - 1 } ⟨⟨C', sg', g2, g3⟩, ho'⟩ (by simp; omega)
        refine ⟨s', a1, a2, by rw [a3, g4]; rfl, by rw [a4, g4]; rfl, by rw [a5, g4]; rfl, ?_⟩
        exact ff { s1 with dl := s.dl - 1 } s' (by rw [g4]; rfl) a6 a7
      · simp only [if_neg hw]
        have hh : ¬ Has sg s.dl := fun hh => hw ((hs.wat _).2 ⟨d0, hh⟩)
        have hr : RInv e { s with trail := s.trail.filter (fun e => decide (e.2 < s.dl)), dl := s.dl - 1 } := by
          refine ⟨⟨C, sg, hc.upd rfl rfl rfl rfl rfl ?_, hs.sav, ?_, hs.wat, ?_⟩, ho.dep, ho.imp, ho.inj, ho.typ⟩
          · intro x hx
            have := (List.mem_filter.1 hx).2
            simp at this
            show x.2 ≤ s.dl - 1
            omega
          · intro i l hi
            obtain ⟨x, hx, hv, hle⟩ := hs.asg i l hi
            have hHas := In_has hi
            have := hs.wle l hHas
            have hne : l ≠ s.dl := fun h => hh (h ▸ hHas)
            exact ⟨x, List.mem_filter.2 ⟨hx, by simp; omega⟩, hv, hle⟩
          · intro l hl
            have := hs.wle l hl
            have hne : l ≠ s.dl := fun h => hh (h ▸ hl)
            show l ≤ s.dl - 1
            omega
        obtain ⟨s', a1, a2, a3, a4, a5, a6, a7⟩ := ih _ hr (by simp; omega)
        exact ⟨s', a1, a2, a3, a4, a5, ff _ s' rfl a6 a7⟩

/-- Proof device: what the invariants of a run need to know about the nodes still to be visited. -/
structure Todo (e : Env) (s : St) (todo : List Nat) : Prop where
  vars : (todo.map fun i => (s.lit i).var).Nodup
  typ : ∀ t ∈ todo, (s.lit t).var ≠ 0 → e.typ (s.lit t).var = true

theorem Todo.tail {e s t todo} (h : Todo e s (t :: todo)) : Todo e s todo :=
  ⟨by have := h.vars; rw [List.map_cons, List.nodup_cons] at this; exact this.2,
    fun x hx => h.typ x (List.mem_cons_of_mem _ hx)⟩

theorem Todo.lit {e s s' todo} (h : Todo e s todo) (hl : s'.lit = s.lit) : Todo e s' todo :=
  ⟨by rw [hl]; exact h.vars, by rw [hl]; exact h.typ⟩

theorem todo_of {e : Env} {s : St} {C U} (hc : Core s C U) (ho : Oth e s) : Todo e s C := by
  have nd := List.nodup_append.1 hc.nd
  have n1 : ∀ t ∈ C, t ≠ 1 := fun t ht h1 => nd.2.2 t ht t (by simp [h1]) rfl
  have lt : ∀ t ∈ C, t < s.n := fun t ht => (hc.mem t).1 (by simp [ht])
  constructor
  · refine (List.nodup_map_iff_inj_on nd.1).2 ?_
    intro x hx y hy hxy
    by_cases hx0 : x = 0
    · by_cases hy0 : y = 0
      · rw [hx0, hy0]
      · have := hc.vn y (by have := n1 y hy; omega) (lt y hy)
        rw [← hxy, hx0, hc.v0] at this; exact absurd rfl this
    · by_cases hy0 : y = 0
      · have := hc.vn x (by have := n1 x hx; omega) (lt x hx)
        rw [hxy, hy0, hc.v0] at this; exact absurd rfl this
      · exact ho.inj x y (by have := n1 x hx; omega) (lt x hx) (by have := n1 y hy; omega) (lt y hy) hxy
  · intro t ht h0
    refine ho.typ t ?_ (lt t ht)
    have := n1 t ht
    have : t ≠ 0 := by rintro rfl; exact h0 hc.v0
    omega

theorem free_ne {s : St} {v} (h : s.free v = true) : v ≠ 0 := by
  simp only [St.free, Bool.and_eq_true, decide_eq_true_eq] at h; exact h.1

theorem start_fst {s : St} : ∃ sv w, (start s).1 = clearDeps { s with saved := sv, watch := w } ∧ sv.length = s.dl + 1 := by
  unfold start
  simp only
  split
  · exact ⟨_, _, rfl, resize_len _ _⟩
  · exact ⟨_, _, rfl, resize_len _ _⟩

/-- Lookahead keeps the invariant, and does not go wrong. -/
theorem run_inv {e : Env} (he : Ext e) {s : St} (h : RInv e s) :
    ∃ res s', propagateLevel e s = some (res, s') ∧ RInv e s' ∧ res ≠ .bad ∧
      s'.n = s.n ∧ s'.lit = s.lit ∧ s'.flg = s.flg ∧ s'.imp1 = s.imp1 ∧ s'.dl = s.dl ∧
      (∃ new : List (L × Nat), s'.trail = s.trail ++ new ∧ ∀ e ∈ new, e.2 = s.dl) := by
  obtain ⟨⟨C, sg, hc, hs⟩, ho⟩ := h
  obtain ⟨sv, w, hst, hsl⟩ := start_fst (s := s)
  have := pl_gen e
    (fun s todo => Todo e s todo ∧ DepOk s ∧ (s.imp1 = false → s.imps = []) ∧ s.dl + 1 = s.saved.length)
    (fun r s => DepOk s ∧ (s.imp1 = false → s.imps = []) ∧ r ≠ .bad)
    (fun s nx todo h => ⟨h.1.lit rfl, h.2⟩)
    (fun s todo h => by
      obtain ⟨f, -, i, se, te, de, -⟩ := split_frame e s
      refine ⟨h.1.lit f.lit, ?_, by rw [f.imp1, i]; exact h.2.2.1, by rw [f.dl, f.saved]; exact h.2.2.2⟩
      intro v b; rw [se, te, de]; exact h.2.1 v b)
    (fun s t todo h hf hok => by
      have f := test_frame e s (s.lit t) (s.flg t)
      refine ⟨h.1.tail.lit f.lit, test_dep he (h.1.typ t (by simp) (free_ne hf)) h.2.1, ?_, by rw [f.dl, f.saved]; exact h.2.2.2⟩
      intro hi
      rw [f.imp1] at hi
      exact test_imp1 ⟨hi, h.2.2.1 hi⟩)
    (fun s t todo h hf => ⟨h.1.tail, h.2⟩)
    (fun s t todo h hf hok => by
      have f := test_frame e s (s.lit t) (s.flg t)
      refine ⟨test_dep he (h.1.typ t (by simp) (free_ne hf)) h.2.1, ?_, test_bad h.2.2.2⟩
      intro hi
      exact test_imp1 ⟨by rw [← f.imp1]; exact hi, h.2.2.1 (by rw [← f.imp1]; exact hi)⟩)
    (fun s h => ⟨h.2.1, h.2.2.1, by simp⟩)
    (fun s todo h _ => ⟨h.2.1, h.2.2.1, by simp⟩)
    (fun r s x h => h)
    hc hs (by
      rw [hst]
      exact ⟨(todo_of hc ho).lit rfl, clear_dep ho.dep, ho.imp, hsl.symm⟩)
  obtain ⟨res, s', C', sg', a1, a2, a3, a4, a5, a6, a7, a8, a9, a10⟩ := this
  exact ⟨res, s', a1, ⟨⟨C', sg', a2, a3⟩, a10.1, a10.2.1, by rw [a4, a5]; exact ho.inj, by rw [a4, a5]; exact ho.typ⟩,
    a10.2.2, a4, a5, a6, a7, a8, a9⟩

theorem reach_inv {e : Env} (he : Ext e) {imp1 : Bool} {s : St} (h : Reach e imp1 s) : RInv e s := by
  induction h with
  | init =>
    refine ⟨⟨[0], [], ⟨rfl, ?_, ?_, by simp [flat], ?_, by simp, by simp [St.init], rfl, fun _ => rfl, by simp [St.init],
      rfl, ?_⟩, rfl, fun i l h => h.elim, ?_, fun l h => h.elim⟩, ?_, fun _ => rfl, ?_, ?_⟩
    · simp [St.init]
    · simp [St.init, flat]
    · intro i; simp [St.init, flat]; omega
    · intro i h1 h2; simp [St.init] at h2; omega
    · intro l; simp [St.init, Has]
    · intro v b; simp [St.init]
    · intro i j h1 h2; simp [St.init] at h2; omega
    · intro i h1 h2; simp [St.init] at h2; omega
  | @step s s' ev _ hstep ih =>
    cases ev with
    | append p both =>
      simp only [step] at hstep
      split_ifs at hstep with hc
      cases hstep
      simp only [Bool.and_eq_true, List.all_eq_true, List.mem_range, bne_iff_ne, ne_eq] at hc
      obtain ⟨⟨hfr, hty⟩, hnew⟩ := hc
      obtain ⟨⟨C, sg, hc, hs⟩, ho⟩ := ih
      obtain ⟨C', hc'⟩ := append_core hc p both (free_ne hfr)
      have hlit : ∀ i, i < s.n → (append s p both).lit i = s.lit i := by
        intro i hi
        simp only [append, Function.update_apply]; rw [if_neg]; omega
      have hlitn : (append s p both).lit s.n = p := by simp [append]
      refine ⟨⟨C', sg, hc', hs.sav, ?_, hs.wat, hs.wle⟩, ho.dep, ho.imp, ?_, ?_⟩
      · intro i l hi
        obtain ⟨x, hx, hv, hle⟩ := hs.asg i l hi
        have : i < s.n := by
          refine (hc.mem i).1 ?_
          have : i ∈ flat sg := by
            clear hs hc hc' hx hv hle
            induction sg with
            | nil => exact hi.elim
            | cons y r ih =>
              rcases hi with ⟨-, z, rfl, hz⟩ | hi
              · simp [flat, hz]
              · have := ih hi
                simp only [flat, List.flatMap_cons, List.mem_append] at this ⊢
                exact Or.inr this
          simp [this]
        exact ⟨x, hx, by rw [hlit i this]; exact hv, hle⟩
      · intro i j h1 h2 h3 h4 hv
        have h2 : i < s.n + 1 := h2
        have h4 : j < s.n + 1 := h4
        by_cases hi : i = s.n
        · by_cases hj : j = s.n
          · rw [hi, hj]
          · rw [hi, hlitn, hlit j (by omega)] at hv
            exact absurd hv.symm (hnew j (by omega))
        · by_cases hj : j = s.n
          · rw [hj, hlitn, hlit i (by omega)] at hv
            exact absurd hv (hnew i (by omega))
          · rw [hlit i (by omega), hlit j (by omega)] at hv
            exact ho.inj i j h1 (by omega) h3 (by omega) hv
      · intro i h1 h2
        have h2 : i < s.n + 1 := h2
        by_cases hi : i = s.n
        · rw [hi, hlitn]; exact hty
        · rw [hlit i (by omega)]; exact ho.typ i h1 (by omega)
    | assign p =>
      simp only [step] at hstep
      split_ifs at hstep with hc
      cases hstep
      obtain ⟨⟨C, sg, hc, hs⟩, ho⟩ := ih
      refine ⟨⟨C, sg, hc.upd rfl rfl rfl rfl rfl ?_, hs.sav, ?_, hs.wat, hs.wle⟩, ho.dep, ho.imp, ho.inj, ho.typ⟩
      · intro x hx
        rcases List.mem_append.1 hx with h | h
        · exact hc.lev x h
        · rw [List.mem_singleton.1 h]; exact Nat.le_refl _
      · intro i l hi
        obtain ⟨x, hx, hv, hle⟩ := hs.asg i l hi
        exact ⟨x, List.mem_append_left _ hx, hv, hle⟩
    | decide p =>
      simp only [step] at hstep
      split_ifs at hstep with hc
      cases hstep
      obtain ⟨⟨C, sg, hc, hs⟩, ho⟩ := ih
      refine ⟨⟨C, sg, hc.upd rfl rfl rfl rfl rfl ?_, hs.sav, ?_, hs.wat, ?_⟩, ho.dep, ho.imp, ho.inj, ho.typ⟩
      · intro x hx
        rcases List.mem_append.1 hx with h | h
        · have := hc.lev x h; show x.2 ≤ s.dl + 1; omega
        · rw [List.mem_singleton.1 h]; exact Nat.le_refl _
      · intro i l hi
        obtain ⟨x, hx, hv, hle⟩ := hs.asg i l hi
        exact ⟨x, List.mem_append_left _ hx, hv, hle⟩
      · intro l hl
        have := hs.wle l hl; show l ≤ s.dl + 1; omega
    | undo k =>
      obtain ⟨s1, h1, h2, -⟩ := undoUntil_spec e k s.dl s ih (Nat.le_refl _)
      simp only [step, h1, Option.some.injEq] at hstep
      rw [← hstep]; exact h2
    | run =>
      simp only [step] at hstep
      split_ifs at hstep with hc
      obtain ⟨res, s1, h1, h2, -⟩ := run_inv he ih
      simp only [h1, Option.map_some, Option.some.injEq] at hstep
      rw [← hstep]; exact h2

end Clasp.Look
