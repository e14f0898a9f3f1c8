/-
Implied literals, chronological backtracking and the root level keep the invariant. No code is modelled in this file.
-/
import Verif.Core.StateOps
namespace Clasp.Core
namespace St

section
variable {learn : Bool} {F : Th} {s t u : St}

theorem undoImpl_spec (h : s.Inv learn F) (d : Nat) : Down s (s.undoUntilImpl d) ∧
    (s.undoUntilImpl d).dl = min s.dl (max d s.flip) ∧ Same s (s.undoUntilImpl d) ∧ (s.conflict = [] → (s.undoUntilImpl d).conflict = []) ∧
    (∀ q, s.tl q → s.level q.var ≤ (s.undoUntilImpl d).dl → (s.undoUntilImpl d).tl q ∧ (s.undoUntilImpl d).level q.var = s.level q.var) ∧
    (∀ q, (s.undoUntilImpl d).tl q → s.tl q ∧ (s.undoUntilImpl d).level q.var = s.level q.var) := by
  have hb := h.base
  by_cases hd : max d s.flip < s.dl
  · rw [undo_max]
    obtain ⟨c, hs⟩ := cut_undo hb.wf hd (by omega)
    have hbu := c.base hb (hb.wf.undoUntilImpl _)
    have hto : UndoTo s (s.undoUntilImpl (max d s.flip)) (max d s.flip) :=
      ⟨fun _ => ⟨_, c, hbu, Ext.refl _⟩, fun hn => absurd hd (by omega)⟩
    refine ⟨hto.down hb hbu ?_ (.of_imp hs.imp), by rw [c.dl]; omega, hs, fun _ => c.conf, ?_, ?_⟩
    · intro q k hk _ hq
      rw [c.dl] at hk
      rcases hq with hq | ⟨x, hx, hq⟩
      · have := (c.tl_iff hb).2 ⟨hq.1, by omega⟩
        exact Or.inl ⟨this, by rw [c.level hb this]; exact hq.2⟩
      · exact Or.inr ⟨x, by rw [hs.imp]; exact hx, hq⟩
    · intro q hq hl
      rw [c.dl] at hl
      have := (c.tl_iff hb).2 ⟨hq, hl⟩
      exact ⟨this, c.level hb this⟩
    · intro q hq
      exact ⟨((c.tl_iff hb).1 hq).1, c.level hb hq⟩
  · rw [undo_noop (by omega)]
    exact ⟨Down.refl s, by omega, Same.refl s, fun h => h, fun q h _ => ⟨h, rfl⟩, fun q h => ⟨h, rfl⟩⟩

theorem force_keeps (hb : s.Base) (p : Lit) (a : Ante) : Keeps s (s.force learn p a).1 := by
  intro q k _ _ hq
  refine (force_ext p a).fine hb (fun x hx => ?_) hq
  rw [(force_imp p a).1]; exact hx

theorem tl_var_ne (hb : s.Base) {p : Lit} (h : 0 < s.level p.var) (ht : s.tl p) : p ∈ s.trail := by
  rcases ht with rfl | ht
  · unfold St.level at h; rw [litTrue_var, hb.c0] at h; simp at h
  · exact ht

theorem forceImplied_spec (h : s.Inv learn F) (hc : s.conflict = []) {p : Lit} {lv : Nat} {r : List Lit}
    (hr : ∀ q ∈ r, s.tl q ∧ s.level q.var ≤ lv) (hF : ∀ M, F M → M.all r → M.sat p) (hlt : lv < s.dl)
    (htop : lv = 0 ∨ ∃ q ∈ r, s.level q.var = lv) :
    (s.forceImplied learn ⟨p, lv, some r⟩).1.Inv learn F ∧ Down s (s.forceImplied learn ⟨p, lv, some r⟩).1 ∧
    (s.forceImplied learn ⟨p, lv, some r⟩).1.root = s.root ∧ (s.forceImplied learn ⟨p, lv, some r⟩).1.flip = s.flip ∧
    (s.forceImplied learn ⟨p, lv, some r⟩).1.mode = s.mode ∧
    ((s.forceImplied learn ⟨p, lv, some r⟩).2 = true → (s.forceImplied learn ⟨p, lv, some r⟩).1.conflict = [] ∧
      (s.forceImplied learn ⟨p, lv, some r⟩).1.tl p ∧ (s.forceImplied learn ⟨p, lv, some r⟩).1.Fine p lv) ∧
    ((s.forceImplied learn ⟨p, lv, some r⟩).2 = false → (s.forceImplied learn ⟨p, lv, some r⟩).1.conflict ≠ [] ∧
      (lv < (s.forceImplied learn ⟨p, lv, some r⟩).1.dl → (s.forceImplied learn ⟨p, lv, some r⟩).1.Fine p lv)) := by
  have hb := h.base
  unfold forceImplied
  by_cases h0 : s.isTrue p ∧ s.level p.var ≤ lv
  · rw [if_pos h0]
    have := (hb.isTrue_iff p).1 h0.1
    exact ⟨h, Down.refl s, rfl, rfl, rfl, fun _ => ⟨hc, this, Or.inl ⟨this, h0.2⟩⟩, fun hn => by simp at hn⟩
  · rw [if_neg h0]
    dsimp only
    generalize hfd : (if s.isTrue p = true then s.imp.findIdx? (fun x => decide (x.lit = p)) else none) = fd
    cases fd with
    | some i =>
      have htr : s.isTrue p = true := by
        by_contra hn; rw [if_neg hn] at hfd; simp at hfd
      have hpt := (hb.isTrue_iff p).1 htr
      have hplv : lv < s.level p.var := by
        by_contra hn; exact h0 ⟨htr, by omega⟩
      rw [if_pos htr, List.findIdx?_eq_some_iff_getElem] at hfd
      obtain ⟨hi, hy, _⟩ := hfd
      simp only [decide_eq_true_eq] at hy
      have hget : s.imp[i]? = some s.imp[i] := List.getElem?_eq_getElem hi
      dsimp only
      rw [hget]
      dsimp only
      generalize hye : s.imp[i] = y at *
      have hym : y ∈ s.imp := by rw [← hye]; exact List.getElem_mem hi
      by_cases hlv : y.lev > lv
      · rw [if_pos hlv]
        have hpm : p ∈ s.trail := tl_var_ne hb (by omega) hpt
        have hset : ∀ z ∈ s.imp.set i ⟨p, lv, some r⟩, z ∈ s.imp ∨ z = ⟨p, lv, some r⟩ := fun z hz => List.mem_or_eq_of_mem_set hz
        have h1 : ({ s with imp := s.imp.set i ⟨p, lv, some r⟩ } : St).Inv learn F := by
          refine ⟨⟨⟨hb.wf.congr rfl rfl rfl hb.wf.front hb.wf.rf hb.wf.fd, hb.c0, hb.toff, hb.asg, hb.qlev⟩,
            ⟨h.sound.tt, h.sound.reason, h.sound.impl, h.sound.null⟩, h.stop, h.mode, h.dead, h.conf, h.confF, h.confTop,
            h.m1, h.m2⟩, ⟨?_, ?_, ?_, ?_, ?_, ?_, ?_⟩⟩
          · intro z hz r' hr'
            rcases hset z hz with hz | rfl
            · exact h.imp.snd z hz r' hr'
            · cases hr'; exact ⟨hr, hF⟩
          · intro z hz hn
            rcases hset z hz with hz | rfl
            · exact h.imp.nul z hz hn
            · simp at hn
          · show s.impFront ≤ (s.imp.set i _).length
            rw [List.length_set]; exact h.imp.fr
          · intro z hz hq
            rcases hset z hz with hz | rfl
            · exact h.imp.low z hz hq
            · exact Nat.le_of_lt hplv
          · intro z hz
            rcases hset z hz with hz | rfl
            · exact h.imp.asg z hz
            · have := h.imp.asg y hym; rw [hy] at this; exact this
          · intro z hz
            have hz : z ∈ (s.imp.set i ⟨p, lv, some r⟩).take s.impFront := hz
            rw [List.take_set] at hz
            rcases List.mem_or_eq_of_mem_set hz with hz' | rfl
            · exact h.imp.rt z hz'
            · by_cases hif : i < s.impFront
              · have := h.imp.rt y (by
                  rw [List.mem_take_iff_getElem]
                  exact ⟨i, by omega, hye⟩)
                rw [hy] at this; exact this
              · rw [List.set_eq_of_length_le (by rw [List.length_take]; omega)] at hz
                exact h.imp.rt _ hz
          · intro z hz
            rcases hset z hz with hz | rfl
            · exact h.imp.lvl z hz
            · have := h.imp.lvl y hym; rw [hy] at this; exact this
        have h2 := h1.setReason (p := p) (r := r) hpm (fun q hq => ⟨(hr q hq).1, Nat.lt_of_le_of_lt (hr q hq).2 hplv⟩) hF
        have hf : ∀ q k, s.Fine q k → (({ s with imp := s.imp.set i ⟨p, lv, some r⟩ } : St).setReason p (some r)).Fine q k := by
          refine fine_mono rfl rfl (fun x hx => ?_)
          obtain ⟨j, hj, hjx⟩ := List.getElem_of_mem hx
          by_cases hij : i = j
          · subst hij
            refine ⟨⟨p, lv, some r⟩, ?_, ?_, ?_⟩
            · show _ ∈ s.imp.set i _
              exact List.mem_set hi _
            · rw [← hjx, hye]; exact hy.symm
            · rw [← hjx, hye]; exact Nat.le_of_lt hlv
          · refine ⟨x, ?_, rfl, Nat.le_refl _⟩
            show x ∈ s.imp.set i _
            rw [List.mem_iff_getElem]
            exact ⟨j, by simpa using hj, by rw [List.getElem_set_ne hij]; exact hjx⟩
        have hfl : FlpKeep s (({ s with imp := s.imp.set i ⟨p, lv, some r⟩ } : St).setReason p (some r)) := by
          rintro q k _ ⟨x, hx, h1, h2, h3⟩
          obtain ⟨j, hj, hjx⟩ := List.getElem_of_mem hx
          by_cases hij : i = j
          · subst hij
            rw [hye] at hjx
            subst hjx
            refine ⟨⟨p, lv, some r⟩, ?_, hy.symm.trans h1, ?_, Or.inr ?_⟩
            · show _ ∈ s.imp.set i _
              exact List.mem_set hi _
            · show lv ≤ k
              omega
            · show lv < k
              omega
          · refine ⟨x, ?_, h1, h2, h3⟩
            show x ∈ s.imp.set i _
            rw [List.mem_iff_getElem]
            exact ⟨j, by simpa using hj, by rw [List.getElem_set_ne hij]; exact hjx⟩
        refine ⟨h2, Down.of_eq rfl rfl rfl rfl rfl hf hfl, rfl, rfl, rfl, fun _ => ⟨hc, hpt, Or.inr ⟨⟨p, lv, some r⟩, ?_, rfl, Nat.le_refl _⟩⟩,
          fun hn => by simp at hn⟩
        show _ ∈ s.imp.set i _
        exact List.mem_set hi _
      · rw [if_neg hlv]
        exact ⟨h, Down.refl s, rfl, rfl, rfl, fun _ => ⟨hc, hpt, Or.inr ⟨y, hym, hy, by omega⟩⟩, fun hn => by simp at hn⟩
    | none =>
      dsimp only
      obtain ⟨d1, d2, d3, d4, d5, d6⟩ := undoImpl_spec h lv
      have hu := h.undoImpl lv
      have hcu := d4 hc
      generalize hue : s.undoUntilImpl lv = u at *
      have hub := hu.base
      have hdl : u.dl = max lv s.flip := by have := hb.wf.fd; omega
      have hru : ∀ q ∈ r, u.tl q ∧ u.level q.var ≤ lv := fun q hq => by
        have h1 := hr q hq
        have := d5 q h1.1 (by omega)
        exact ⟨this.1, by rw [this.2]; exact h1.2⟩
      have hplv : u.isTrue p = true → p ∈ u.trail ∧ lv < u.level p.var := by
        intro htr
        obtain ⟨h1, h2⟩ := d6 p ((hub.isTrue_iff p).1 htr)
        have : lv < u.level p.var := by
          by_contra hn
          exact h0 ⟨(hb.isTrue_iff p).2 h1, by omega⟩
        exact ⟨tl_var_ne hub (by omega) ((hub.isTrue_iff p).1 htr), this⟩
      by_cases hne : u.dl ≠ lv
      · rw [if_pos hne]
        have hflip : u.dl = u.flip := by rw [d3.flip]; omega
        have hit : (u.impAdd u.dl ⟨p, lv, some r⟩).isTrue p = u.isTrue p := rfl
        rw [hit]
        have hadd : ∀ v : St, v.imp = u.imp → ∀ x ∈ v.imp, ∃ y ∈ (v.impAdd u.dl ⟨p, lv, some r⟩).imp, y.lit = x.lit ∧ y.lev ≤ x.lev := by
          intro v hv x hx
          exact ⟨x, by show x ∈ v.imp ++ [_]; simp [hx], rfl, Nat.le_refl _⟩
        by_cases htr : u.isTrue p = true
        · rw [if_pos htr]
          obtain ⟨h1, h2⟩ := hplv htr
          have h3 := hu.setReason (p := p) (r := r) h1 (fun q hq => ⟨(hru q hq).1, Nat.lt_of_le_of_lt (hru q hq).2 h2⟩) hF
          have h4 : ((u.setReason p (some r)).impAdd (u.setReason p (some r)).dl ⟨p, lv, some r⟩).Inv learn F := by
            refine h3.impAdd ?_ (fun hn => by simp at hn) (fun _ => Nat.le_of_lt h2) (Or.inl ⟨Or.inr h1, ?_⟩)
            · intro r' hr'; cases hr'; exact ⟨hru, hF⟩
            · show u.level p.var ≤ u.flip
              rw [← hflip]; exact hub.level_le (Or.inr h1)
          refine ⟨h4, d1.trans (Down.of_eq rfl rfl rfl rfl rfl (fine_mono rfl rfl (hadd u rfl)) (.of_sub fun y hy => List.mem_append_left _ hy)), d3.root, d3.flip, d3.mode,
            fun _ => ⟨hcu, Or.inr h1, Or.inr ⟨⟨p, lv, some r⟩, ?_, rfl, Nat.le_refl _⟩⟩, fun hn => by simp at hn⟩
          show _ ∈ u.imp ++ [_]
          simp
        · rw [if_neg htr, impAdd_force]
          have h3 := hu.force hcu (p := p) (fun q hq => (hru q hq).1) hF (fun _ hn => absurd hflip hn)
          have hext := force_ext (learn := learn) (s := u) p (some r)
          have him := force_imp (learn := learn) (s := u) p (some r)
          have hres := force_res (learn := learn) hub p (some r)
          have hkp := force_keeps (learn := learn) hub p (some r)
          have hkf := force_flp (learn := learn) (s := u) p (some r)
          generalize hg : u.force learn p (some r) = g at *
          obtain ⟨v, b⟩ := g
          dsimp only at *
          have hvdl : v.dl = u.dl := hext.dl
          have hnp : ¬ u.tl p := fun hn => htr ((hub.isTrue_iff p).2 hn)
          have h4 : (v.impAdd v.dl ⟨p, lv, some r⟩).Inv learn F := by
            refine h3.impAdd ?_ (fun hn => by simp at hn) (fun hv => ?_) ?_
            · intro r' hr'; cases hr'
              exact ⟨fun q hq => ⟨hext.tl (hru q hq).1, by rw [hext.level hub (hru q hq).1]; exact (hru q hq).2⟩, hF⟩
            · have := (hext.tl_new hv).resolve_left hnp
              rw [this]; dsimp only; omega
            · dsimp only
              cases b with
              | true =>
                have := (hres.1 rfl hcu).2
                exact Or.inl ⟨this, by rw [hext.flip, ← hflip, ← hvdl]; exact h3.base.level_le this⟩
              | false => exact Or.inr ⟨hres.2 rfl, by rw [hvdl, hext.flip]; exact hflip⟩
          rw [hvdl] at h4
          refine ⟨h4, (d1.trans (hext.down hub h3.base hkp hkf)).trans (Down.of_eq rfl rfl rfl rfl rfl (fine_mono rfl rfl (hadd v him.1)) (.of_sub fun y hy => List.mem_append_left _ hy)),
            hext.root.trans d3.root, hext.flip.trans d3.flip, hext.mode.trans d3.mode, fun hb' => ?_, fun hb' => ⟨hres.2 hb', fun _ => ?_⟩⟩
          · have := hres.1 hb' hcu
            refine ⟨this.1, this.2, Or.inr ⟨⟨p, lv, some r⟩, ?_, rfl, Nat.le_refl _⟩⟩
            show _ ∈ v.imp ++ [_]
            simp
          · refine Or.inr ⟨⟨p, lv, some r⟩, ?_, rfl, Nat.le_refl _⟩
            show _ ∈ v.imp ++ [_]
            simp
      · rw [if_neg hne]
        have hne : u.dl = lv := by omega
        have htr : ¬ u.isTrue p = true := fun htr => by
          have := hplv htr
          have := hub.level_le (Or.inr this.1)
          omega
        rw [if_neg htr]
        have h3 := hu.force hcu (p := p) (fun q hq => (hru q hq).1) hF (fun _ hn => by
          rcases htop with h1 | ⟨q, hq, h1⟩
          · have := hub.wf.fd; omega
          · have h2 := d5 q (hr q hq).1 (by omega)
            have hpos : 0 < u.level q.var := by
              have := hub.wf.fd; rw [h2.2, h1]; omega
            exact ⟨q, by simp [hq], tl_var_ne hub hpos h2.1, by rw [h2.2, h1, hne]⟩)
        have hext := force_ext (learn := learn) (s := u) p (some r)
        have hres := force_res (learn := learn) hub p (some r)
        have hkp := force_keeps (learn := learn) hub p (some r)
        have hkf := force_flp (learn := learn) (s := u) p (some r)
        generalize hg : u.force learn p (some r) = g at *
        obtain ⟨v, b⟩ := g
        dsimp only at *
        refine ⟨h3, d1.trans (hext.down hub h3.base hkp hkf), hext.root.trans d3.root, hext.flip.trans d3.flip, hext.mode.trans d3.mode,
          fun hb' => ?_, fun hb' => ⟨hres.2 hb', fun hn => absurd hn (by rw [hext.dl]; omega)⟩⟩
        have := hres.1 hb' hcu
        exact ⟨this.1, this.2, Or.inl ⟨this.2, by have := h3.base.level_le this.2; rw [hext.dl] at this; omega⟩⟩

/-! ### Chronological backtracking -/

theorem Inv.setFlip (h : s.Inv learn F) {m : Nat} (hm : m ≤ 1) : ({ s with flip := s.dl, mode := m } : St).Inv learn F := by
  have hb := h.base
  have hfd := hb.wf.fd
  refine ⟨⟨⟨hb.wf.congr rfl rfl rfl hb.wf.front (Nat.le_trans hb.wf.rf hb.wf.fd) (Nat.le_refl _), hb.c0, hb.toff, hb.asg, hb.qlev⟩,
    ⟨h.sound.tt, h.sound.reason, h.sound.impl, ?_⟩, h.stop, hm, h.dead, h.conf, fun _ _ hn => absurd rfl hn, fun _ _ hn => absurd rfl hn,
    h.m1, h.m2⟩, ⟨h.imp.snd, h.imp.nul, h.imp.fr, h.imp.low, ?_, h.imp.rt, h.imp.lvl⟩⟩
  · intro q hq hn hf
    have hf : s.dl < s.level q.var := hf
    have := trail_lev_le hb.wf hq
    omega
  · intro x hx
    show (s.tl _ ∧ s.level _ ≤ s.dl) ∨ (s.conflict ≠ [] ∧ s.dl = s.dl)
    rcases h.imp.asg x hx with h1 | h1
    · exact Or.inl ⟨h1.1, hb.level_le h1.1⟩
    · exact Or.inr ⟨h1.1, rfl⟩

/-- Forcing the complement of the undone decision. -/
theorem Inv.forceNull (h : s.Inv learn F) (hc : s.conflict = []) (hd : s.dl = s.flip) {p : Lit} (hp : ∀ M, F.G M → s.pathSat M s.dl → M.sat p) :
    (s.force learn p none).1.Inv learn F := by
  have hb := h.base
  have asg : ∀ x ∈ s.imp, s.tl x.lit ∧ s.level x.lit.var ≤ s.flip := fun x hx => by
    rcases h.imp.asg x hx with h1 | h1
    · exact h1
    · exact absurd hc h1.1
  rcases s.value_cases p with hv | hv | hv
  · rw [force_free hv]
    have hne : ∀ {q : Lit}, s.tl q → q.var ≠ p.var := fun hq => free_ne_of_tl hb hv hq
    have hps' : ∀ M d, d ≤ s.dl → (s.push p none).pathSat M d → s.pathSat M d := by
      intro M d hd hps i h1 hi
      rw [← push_decision hb.wf (p := p) none h1 (Nat.le_trans hi hd)]; exact hps i h1 hi
    refine ⟨⟨hb.push hv _, ⟨h.sound.tt, ?_, ?_, ?_⟩, h.stop, h.mode, fun hn => absurd hc hn, ?_, fun _ hn => absurd hc hn,
      fun _ hn => absurd hc hn, ?_, ?_⟩, ⟨?_, ?_, h.imp.fr, ?_, ?_, ?_, ?_⟩⟩
    · intro t1 q t2 ht r' hr'
      have ht : p :: s.trail = t1 ++ q :: t2 := ht
      have hr' : Function.update s.reason p.var none q.var = some r' := hr'
      cases t1 with
      | nil =>
        simp only [List.nil_append, List.cons.injEq] at ht
        rw [← ht.1, Function.update_self] at hr'; simp at hr'
      | cons x t1 =>
        simp only [List.cons_append, List.cons.injEq] at ht
        rw [Function.update_of_ne (hne (Or.inr (by rw [ht.2]; simp)))] at hr'
        exact h.sound.reason t1 q t2 ht.2 r' hr'
    · intro q hq M hM hps
      rcases List.mem_cons.1 hq with rfl | hq
      · rw [push_level, if_pos rfl] at hps
        exact hp M hM (hps' M _ (Nat.le_refl _) hps)
      · rw [push_level_tl hb hv _ (Or.inr hq)] at hps
        exact h.sound.impl q hq M hM (hps' M _ (trail_lev_le hb.wf hq) hps)
    · intro q hq hn hf
      have hf : s.flip < (s.push p none).level q.var := hf
      have := trail_lev_le (hb.push hv none).wf hq
      rw [push_dl] at this
      omega
    · intro q hq
      have : q ∈ s.conflict := hq
      rw [hc] at this; simp at this
    · intro q hq hs
      rw [seen_push] at hs
      rcases List.mem_cons.1 hq with rfl | hq
      · simp at hs
      · rw [if_neg (hne (Or.inr hq))] at hs
        rw [push_level_tl hb hv _ (Or.inr hq)]
        exact h.m1 q hq hs
    · intro hd q hq hl
      rcases List.mem_cons.1 hq with rfl | hq
      · rw [push_level, if_pos rfl] at hl
        have : 0 < s.dl := hd
        omega
      · rw [seen_push, if_neg (hne (Or.inr hq))]
        rw [push_level_tl hb hv _ (Or.inr hq)] at hl
        exact h.m2 hd q hq hl
    · intro x hx r' hr'
      obtain ⟨h1, h2⟩ := h.imp.snd x hx r' hr'
      refine ⟨fun q hq => ⟨(push_tl q _).2 (Or.inl (h1 q hq).1), ?_⟩, h2⟩
      rw [push_level_tl hb hv _ (h1 q hq).1]; exact (h1 q hq).2
    · intro x hx hn
      obtain ⟨h1, h2⟩ := h.imp.nul x hx hn
      exact ⟨List.mem_cons_of_mem _ h1, by rw [push_level_tl hb hv _ (Or.inr h1)]; exact h2⟩
    · intro x hx _
      rw [push_level_tl hb hv _ (asg x hx).1]
      exact h.imp.low x hx (asg x hx).1
    · intro x hx
      left
      exact ⟨(push_tl _ _).2 (Or.inl (asg x hx).1), by rw [push_level_tl hb hv _ (asg x hx).1]; exact (asg x hx).2⟩
    · intro x hx
      rcases h.imp.rt x hx with h1 | h1
      · left; exact ⟨(push_tl _ _).2 (Or.inl h1.1), by rw [push_level_tl hb hv _ h1.1]; exact h1.2⟩
      · exact absurd hc h1.1
    · intro x hx
      rcases h.imp.lvl x hx with h1 | h1
      · left; exact ⟨(push_tl _ _).2 (Or.inl h1.1), by rw [push_level_tl hb hv _ h1.1]; exact h1.2⟩
      · exact absurd hc h1.1
  · rw [force_true hv]; exact h
  · rw [force_false hv]
    have hpn : s.tl p.neg := (hb.isFalse_iff p).1 hv
    have hcs : (s.setConflict learn p none).conflict = [p.neg] := by
      show s.conflict ++ _ = _
      rw [hc]; cases learn <;> rfl
    refine ⟨⟨⟨hb.wf.congr rfl rfl rfl hb.wf.front hb.wf.rf hb.wf.fd, hb.c0, hb.toff, hb.asg, hb.qlev⟩,
      ⟨h.sound.tt, h.sound.reason, h.sound.impl, h.sound.null⟩, h.stop, h.mode, ?_, ?_, fun _ _ hn => absurd hd hn,
      fun _ _ hn => absurd hd hn, h.m1, h.m2⟩, ⟨h.imp.snd, h.imp.nul, h.imp.fr, h.imp.low, fun x hx => Or.inl (asg x hx), ?_, ?_⟩⟩
    · intro _ M hM hps
      have hps : s.pathSat M s.dl := hps
      exact (Asg.sat_neg M p).1 (h.sound.impl_tl hpn hM (hb.level_le hpn) hps) (hp M hM hps)
    · intro q hq
      rw [hcs] at hq
      rw [List.mem_singleton.1 hq]; exact hpn
    · intro x hx
      rcases h.imp.rt x hx with h1 | h1
      · exact Or.inl h1
      · exact absurd hc h1.1
    · intro x hx
      rcases h.imp.lvl x hx with h1 | h1
      · exact Or.inl h1
      · exact absurd hc h1.1

theorem backtrackLoop_spec : ∀ (fuel : Nat) (s : St), s.Inv learn F → (∀ M, F.G M → ¬ s.pathSat M s.dl) → s.dl - s.root < fuel →
    ((backtrackLoop learn fuel s).2 = true → (backtrackLoop learn fuel s).1.Inv learn F ∧ (backtrackLoop learn fuel s).1.conflict = [] ∧
      Down s (backtrackLoop learn fuel s).1 ∧ (backtrackLoop learn fuel s).1.dl < s.dl ∧
      (backtrackLoop learn fuel s).1.flip = (backtrackLoop learn fuel s).1.dl ∧ (backtrackLoop learn fuel s).1.root = s.root ∧
      (s.decision ((backtrackLoop learn fuel s).1.dl + 1)).neg ∈ (backtrackLoop learn fuel s).1.trail ∧
      (backtrackLoop learn fuel s).1.level (s.decision ((backtrackLoop learn fuel s).1.dl + 1)).var = (backtrackLoop learn fuel s).1.dl ∧
      (backtrackLoop learn fuel s).1.Flp (s.decision ((backtrackLoop learn fuel s).1.dl + 1)).neg (backtrackLoop learn fuel s).1.dl) ∧
    ((backtrackLoop learn fuel s).2 = false → ∃ u : St, (backtrackLoop learn fuel s).1 = u.setStopConflict ∧ u.Inv learn F ∧ Down s u ∧
      u.dl = u.root ∧ u.root = s.root ∧ ∀ M, F.G M → ¬ u.pathSat M u.dl) := by
  intro fuel
  induction fuel with
  | zero => intro s _ _ hf; omega
  | succ fuel ih =>
    intro s h hdead hf
    have hb := h.base
    unfold backtrackLoop
    by_cases hr : s.dl = s.root
    · rw [if_pos hr]
      exact ⟨fun hn => by simp at hn, fun _ => ⟨s, rfl, h, Down.refl s, hr, rfl, hdead⟩⟩
    · rw [if_neg hr]
      have hrd : s.root < s.dl := by have := hb.wf.rf; have := hb.wf.fd; omega
      obtain ⟨dm, dl⟩ := decision_mem hb.wf (d := s.dl) (by omega) (Nat.le_refl _)
      generalize hdec : s.decision s.dl = d at *
      obtain ⟨u1, u2, u3, u4, u5, u6⟩ := h.undoUntil (level := s.dl - 1) (mode := undoPopProj) (Nat.le_trans h.mode (by decide))
      dsimp only
      have huf := undo_flp (learn := learn) s (s.dl - 1) undoPopProj
      generalize hu : s.undoUntil learn (s.dl - 1) undoPopProj = u at *
      rw [show max (s.dl - 1) s.root = s.dl - 1 by omega] at u5
      have hdu := u5.down hb u1.base u6 huf
      obtain ⟨c, hc, hcb, he⟩ := u5.1 (by omega)
      have hudl : u.dl = s.dl - 1 := by rw [he.dl, hc.dl]
      have hset : u.setBacktrackLevel u.dl undoPopBt = { u with flip := u.dl, mode := 1 } := by
        unfold setBacktrackLevel
        have : undoPopBt ≥ u.mode := u1.mode
        rw [if_pos this, Nat.min_self, Nat.max_eq_left (by omega)]; rfl
      rw [hset]
      have hv := u1.setFlip (m := 1) (Nat.le_refl _)
      have hdv : Down s { u with flip := u.dl, mode := 1 } := hdu.trans (Down.of_eq rfl rfl rfl rfl rfl (fun _ _ h => h) (.of_imp rfl))
      have hvroot : ({ u with flip := u.dl, mode := 1 } : St).root = s.root := u2
      have hvdl : ({ u with flip := u.dl, mode := 1 } : St).dl = s.dl - 1 := hudl
      have hvflip : ({ u with flip := u.dl, mode := 1 } : St).dl = ({ u with flip := u.dl, mode := 1 } : St).flip := rfl
      have htln : ∀ q, ({ u with flip := u.dl, mode := 1 } : St).tl q → c.tl q ∨ ({ u with flip := u.dl, mode := 1 } : St).level q.var = s.dl - 1 := fun q hq => by
        rcases he.tl_new hq with h1 | h1
        · exact Or.inl h1
        · right; rw [hc.dl] at h1; exact h1
      generalize hve : ({ u with flip := u.dl, mode := 1 } : St) = v at *
      have hvb := hv.base
      -- models of the remaining path satisfy the complement of the decision
      have hinv : ∀ M, F.G M → v.pathSat M v.dl → M.sat d.neg := by
        intro M hM hps
        rw [Asg.sat_neg]
        intro hsat
        refine hdead M hM (fun i h1 h2 => ?_)
        by_cases hi : i = s.dl
        · rw [hi, hdec]; exact hsat
        · rw [← hdv.dec i h1 (by omega)]; exact hps i h1 (by omega)
      have hrec : ∀ w : St, w.Inv learn F → Down v w → w.dl = v.dl → w.root = v.root → w.conflict ≠ [] →
          ((backtrackLoop learn fuel w).2 = true → (backtrackLoop learn fuel w).1.Inv learn F ∧ (backtrackLoop learn fuel w).1.conflict = [] ∧
          Down s (backtrackLoop learn fuel w).1 ∧ (backtrackLoop learn fuel w).1.dl < s.dl ∧
          (backtrackLoop learn fuel w).1.flip = (backtrackLoop learn fuel w).1.dl ∧ (backtrackLoop learn fuel w).1.root = s.root ∧
          (s.decision ((backtrackLoop learn fuel w).1.dl + 1)).neg ∈ (backtrackLoop learn fuel w).1.trail ∧
          (backtrackLoop learn fuel w).1.level (s.decision ((backtrackLoop learn fuel w).1.dl + 1)).var = (backtrackLoop learn fuel w).1.dl ∧
      (backtrackLoop learn fuel w).1.Flp (s.decision ((backtrackLoop learn fuel w).1.dl + 1)).neg (backtrackLoop learn fuel w).1.dl) ∧
        ((backtrackLoop learn fuel w).2 = false → ∃ u : St, (backtrackLoop learn fuel w).1 = u.setStopConflict ∧ u.Inv learn F ∧ Down s u ∧
          u.dl = u.root ∧ u.root = s.root ∧ ∀ M, F.G M → ¬ u.pathSat M u.dl) := by
        intro w hw hdw hwd hwr hwc
        obtain ⟨i1, i2⟩ := ih w hw (hw.dead hwc) (by rw [hwd, hwr, hvroot, hvdl]; omega)
        refine ⟨fun hb => ?_, fun hb => ?_⟩
        · obtain ⟨j1, j2, j3, j4, j5, j6, j7, j8, j9⟩ := i1 hb
          have hd2 := hdv.trans hdw
          have : w.decision ((backtrackLoop learn fuel w).1.dl + 1) = s.decision ((backtrackLoop learn fuel w).1.dl + 1) :=
            hd2.dec _ (by omega) (by omega)
          rw [this] at j7 j8 j9
          exact ⟨j1, j2, hd2.trans j3, by omega, j5, by rw [j6, hwr, hvroot], j7, j8, j9⟩
        · obtain ⟨x, j1, j2, j3, j4, j5, j6⟩ := i2 hb
          exact ⟨x, j1, j2, (hdv.trans hdw).trans j3, j4, by rw [j5, hwr, hvroot], j6⟩
      by_cases hcf : v.conflict = []
      · rw [if_neg (by rw [hasConflict_false.2 ⟨hcf, hv.stop⟩]; simp)]
        have hfi := hv.forceNull hcf hvflip hinv
        have hfe := force_ext (learn := learn) (s := v) d.neg none
        have hfm := force_imp (learn := learn) (s := v) d.neg none
        have hfr := force_res (learn := learn) hvb d.neg none
        have hfk := force_keeps (learn := learn) hvb d.neg none
        have hff := force_flp (learn := learn) (s := v) d.neg none
        generalize hg : v.force learn d.neg none = g at *
        obtain ⟨w, b⟩ := g
        dsimp only at *
        have hdw := hfe.down hvb hfi.base hfk hff
        cases b with
        | false =>
          dsimp only
          exact hrec w hfi hdw hfe.dl hfe.root (hfr.2 rfl)
        | true =>
          dsimp only
          obtain ⟨r1, r2⟩ := hfr.1 rfl hcf
          have hwdl : w.dl = s.dl - 1 := by rw [hfe.dl, hvdl]
          have hd0 : d.neg.var ≠ 0 := hb.toff d dm
          have hmem : d.neg ∈ w.trail := by
            rcases r2 with r2 | r2
            · exact absurd (by rw [r2]; rfl) hd0
            · exact r2
          have hlev : w.level d.neg.var = w.dl := by
            rcases hfe.tl_new r2 with h1 | h1
            · rw [hfe.level hvb h1, hwdl]
              rcases htln _ h1 with h2 | h2
              · exfalso
                have := (hc.tl_iff hb).1 h2
                exact hb.not_both (Or.inr dm) this.1
              · exact h2
            · rw [h1, ← hfe.dl]
          have hwflip : w.flip = w.dl := by rw [hfe.flip, ← hvflip, ← hfe.dl]
          have hadd := hfi.impAdd (x := ⟨d.neg, w.dl, none⟩) (fun r hr => by simp at hr) (fun _ => ⟨hmem, hlev⟩) (fun _ => by rw [hlev]; exact Nat.le_refl _)
            (Or.inl ⟨r2, by rw [hlev, hwflip]; exact Nat.le_refl _⟩)
          refine ⟨fun _ => ⟨hadd, r1, (hdv.trans hdw).trans (Down.of_eq rfl rfl rfl rfl rfl (fine_mono rfl rfl ?_) (.of_sub fun y hy => List.mem_append_left _ hy)), ?_, hwflip, ?_, ?_, ?_, ?_⟩,
            fun hn => by simp at hn⟩
          · intro x hx
            exact ⟨x, by show x ∈ w.imp ++ [_]; simp [hx], rfl, Nat.le_refl _⟩
          · show w.dl < s.dl
            omega
          · show w.root = s.root
            rw [hfe.root, hvroot]
          · show (s.decision (w.dl + 1)).neg ∈ w.trail
            rw [hwdl, show s.dl - 1 + 1 = s.dl by omega, hdec]; exact hmem
          · show w.level (s.decision (w.dl + 1)).var = w.dl
            rw [hwdl, show s.dl - 1 + 1 = s.dl by omega, hdec, ← hwdl]; exact hlev
          · show (w.impAdd w.dl ⟨d.neg, w.dl, none⟩).Flp (s.decision (w.dl + 1)).neg w.dl
            rw [show s.decision (w.dl + 1) = d by rw [hwdl, show s.dl - 1 + 1 = s.dl by omega, hdec]]
            exact ⟨⟨d.neg, w.dl, none⟩, List.mem_append_right _ (List.mem_singleton.2 rfl), rfl, Nat.le_refl _, Or.inl rfl⟩
      · rw [if_pos (by unfold hasConflict; simp [hcf])]
        exact hrec v hv (Down.refl v) rfl rfl hcf

/-- `backtrack`: either the last decision that can be undone is undone and its complement holds one level below, or the
root level is refuted. -/
theorem backtrack_spec (h : s.Inv learn F) (hdead : ∀ M, F.G M → ¬ s.pathSat M s.dl) :
    ((s.backtrack learn).2 = true → (s.backtrack learn).1.Inv learn F ∧ (s.backtrack learn).1.conflict = [] ∧
      Down s (s.backtrack learn).1 ∧ (s.backtrack learn).1.dl < s.dl ∧
      (s.backtrack learn).1.flip = (s.backtrack learn).1.dl ∧ (s.backtrack learn).1.root = s.root ∧
      (s.decision ((s.backtrack learn).1.dl + 1)).neg ∈ (s.backtrack learn).1.trail ∧
      (s.backtrack learn).1.level (s.decision ((s.backtrack learn).1.dl + 1)).var = (s.backtrack learn).1.dl ∧
      (s.backtrack learn).1.Flp (s.decision ((s.backtrack learn).1.dl + 1)).neg (s.backtrack learn).1.dl) ∧
    ((s.backtrack learn).2 = false → ∃ u : St, (s.backtrack learn).1 = u.setStopConflict ∧ u.Inv learn F ∧ Down s u ∧
      u.dl = u.root ∧ u.root = s.root ∧ ∀ M, F.G M → ¬ u.pathSat M u.dl) :=
  backtrackLoop_spec (s.dl + 1) s h hdead (by omega)

/-! ### Root level -/

theorem Inv.pushRoot (h : s.Inv learn F) (hc : s.conflict = []) (i : Nat) : (s.pushRootLevel i).Inv learn F ∧ Down s (s.pushRootLevel i) ∧
    (s.pushRootLevel i).dl = s.dl ∧ s.root ≤ (s.pushRootLevel i).root := by
  have hb := h.base
  have hfd := hb.wf.fd
  have hrf := hb.wf.rf
  have hr : s.root ≤ min s.dl (s.root + i) := by omega
  refine ⟨⟨⟨⟨hb.wf.congr rfl rfl rfl hb.wf.front ?_ ?_, hb.c0, hb.toff, hb.asg, hb.qlev⟩,
    ⟨h.sound.tt, h.sound.reason, h.sound.impl, ?_⟩, h.stop, h.mode, h.dead, h.conf, fun _ hn => absurd hc hn, fun _ hn => absurd hc hn,
    h.m1, h.m2⟩, ⟨h.imp.snd, h.imp.nul, h.imp.fr, h.imp.low, ?_, ?_, h.imp.lvl⟩⟩, Down.of_eq rfl rfl rfl rfl rfl (fun _ _ h => h) (.of_imp rfl), rfl, hr⟩
  · show min s.dl (s.root + i) ≤ max s.flip (min s.dl (s.root + i))
    omega
  · show max s.flip (min s.dl (s.root + i)) ≤ s.dl
    omega
  · intro q hq hn hf
    have hf : max s.flip (min s.dl (s.root + i)) < s.level q.var := hf
    exact h.sound.null q hq hn (by omega)
  · intro x hx
    rcases h.imp.asg x hx with h1 | h1
    · exact Or.inl ⟨h1.1, Nat.le_trans h1.2 (Nat.le_max_left _ _)⟩
    · exact absurd hc h1.1
  · intro x hx
    rcases h.imp.rt x hx with h1 | h1
    · exact Or.inl ⟨h1.1, Nat.le_trans h1.2 hr⟩
    · exact absurd hc h1.1

/-- A stop conflict raised on the root level is removed by `clearStopConflict` without a trace. -/
theorem stop_clear (h : s.stop = none) (hd : s.dl = s.root) (hf : s.flip ≤ s.dl) (hr : s.root ≤ s.flip) :
    s.setStopConflict.clearStopConflict = s := by
  unfold setStopConflict clearStopConflict
  by_cases hc : s.conflict = []
  · have : s.hasConflict = false := hasConflict_false.2 ⟨hc, h⟩
    rw [this]
    simp only [Bool.false_eq_true, if_false, pushRootLevel]
    cases s; simp_all
  · have : s.hasConflict = true := by unfold hasConflict; simp [hc]
    rw [this]
    simp only [if_true, pushRootLevel]
    rw [h]
    have e1 : min s.dl (s.root + s.dl) = s.root := by omega
    have e2 : max s.flip s.root = s.flip := by omega
    simp only [e1, e2]
    rw [← h]

/-- `popRootLevel`: the assumptions above the new root level are undone. -/
theorem popRoot_spec (h : s.clearStopConflict.Inv learn F) (n : Nat) :
    (s.popRootLevel learn n).1.Inv learn F ∧ (s.popRootLevel learn n).1.root = s.clearStopConflict.root - n ∧
    (s.popRootLevel learn n).1.flip = s.clearStopConflict.root - n ∧
    Down s.clearStopConflict (s.popRootLevel learn n).1 ∧
    (s.popRootLevel learn n).1.dl = s.clearStopConflict.root - n ∧
    ((s.popRootLevel learn n).2 = true ↔ (s.popRootLevel learn n).1.conflict = []) := by
  unfold popRootLevel
  generalize s.clearStopConflict = c at *
  dsimp only
  have hb := h.base
  have hrf := hb.wf.rf
  have e : c.root - min n c.root = c.root - n := by omega
  rw [e, undoUntil_eq]
  dsimp only
  rw [if_neg (by omega)]
  obtain ⟨h1, h2, h3, h4, h5, h6⟩ := undo_core (level := c.root - n) h (r := c.root - n) (f := c.root - n) (m := 0) (i := 0)
    (Nat.le_refl _) (by omega) (by omega) (by omega) (Or.inr rfl) (Or.inr (Nat.le_refl _))
  rw [Nat.max_self] at h2
  refine ⟨h1, h4, h5, h2.down hb h1.base h3 (undoFin_flp rfl _), ?_, ?_⟩
  · have hfd := hb.wf.fd
    by_cases hd : c.root - n < c.dl
    · obtain ⟨u, hc, _, he⟩ := h2.1 hd
      rw [he.dl, hc.dl]
    · obtain ⟨u, he, _, _, _, _, hlv, _⟩ := h2.2 (by omega)
      rw [he.dl]
      have : u.dl = c.dl := by unfold dl; rw [hlv]
      omega
  · rw [Bool.not_eq_true', hasConflict_false]
    exact ⟨fun h => h.1, fun h => ⟨h, h1.stop⟩⟩

/-- `undoUntil(level)` in the mode that gives up the backtrack level. -/
theorem undoPop_spec (h : s.Inv learn F) {mode : Nat} (hm : 1 ≤ mode) (level : Nat) :
    (s.undoUntil learn level mode).Inv learn F ∧ Down s (s.undoUntil learn level mode) ∧
    (s.undoUntil learn level mode).root = s.root ∧ (s.undoUntil learn level mode).flip ≤ s.flip ∧
    (s.undoUntil learn level mode).dl = min s.dl (max level s.root) := by
  obtain ⟨u1, u2, u3, u4, u5, u6⟩ := h.undoUntil (level := level) (mode := mode) (Nat.le_trans h.mode hm)
  have hb := h.base
  have hrf := hb.wf.rf
  refine ⟨u1, u5.down hb u1.base u6 (undo_flp _ _ _), u2, by rw [u4]; split <;> omega, ?_⟩
  by_cases hd : max level s.root < s.dl
  · obtain ⟨u, hc, _, he⟩ := u5.1 hd
    rw [he.dl, hc.dl]; omega
  · obtain ⟨u, he, _, _, _, _, hlv, _⟩ := u5.2 (by omega)
    rw [he.dl]
    have : u.dl = s.dl := by unfold dl; rw [hlv]
    omega

end
end St
end Clasp.Core
