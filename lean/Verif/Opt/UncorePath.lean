import Verif.Opt.UncoreStep
/-! Helper lemmas for core-guided optimization: pushing the assumptions keeps the invariant. No code is modelled here. -/

namespace Clasp.Uncore
open Clasp.Core (Lit Asg)

/-- Proof device: the invariant of the loop in `pushPath`. -/
structure PInv (V : Env) (vl : Nat → Int) (σ0 : St) (t : PS) : Prop where
  m : Main V vl t.st
  rdy : t.st.ready = false
  shr : t.st.shrink = false
  same : Same σ0 t.st
  keep : ∀ i d, t.st.dat[i]? = some d → d.assume = true → (d.lit, i) ∈ t.kept ++ t.st.asm.drop t.pos
  sub : ∀ e ∈ t.kept, e ∈ t.st.asm
  fixW : ∀ f, t.fixW = some f → ∃ u, t.st.up = some u ∧ u t.st.level - t.st.lower ≤ f
  nw0 : 0 ≤ t.st.nextW
  nw : t.st.nextW = 0 → ∀ e ∈ t.kept, (t.st.get e.2).assume = true → t.st.actW ≤ (t.st.get e.2).weight

theorem Main.notodo {V vl} {σ : St} (m : Main V vl σ) (hs : σ.shrink = false) {i : Nat} {d : Dat} (hd : σ.dat[i]? = some d) (ha : d.assume = true) : i ∉ tids σ := by
  intro h
  obtain ⟨e, he, rfl⟩ := List.mem_map.1 h
  obtain ⟨c, hc, hec⟩ := List.mem_flatten.1 he
  obtain ⟨d', hd', _, _, ha'⟩ := m.todo.el c hc e hec
  rw [hd] at hd'; cases hd'
  rw [ha] at ha'
  have : σ.disj = false := by
    cases hq : σ.disj with
    | false => rfl
    | true => rw [hq] at ha'; cases ha'
  rw [m.todo.nshr hs this] at hc; simp at hc

theorem Main.nextW {V vl} {σ : St} (m : Main V vl σ) (z : Int) (hr : σ.ready = false) : Main V vl { σ with nextW := z } :=
  ⟨m.st, m.wf.cast rfl rfl rfl rfl, m.good.cast rfl rfl rfl, ⟨m.todo.ne, m.todo.nodup, m.todo.el, m.todo.holds, m.todo.shr, m.todo.nshr⟩,
    fun h => absurd (hr.symm.trans h) (by simp), m.lev⟩

theorem pathLit_inv {V : Env} {o : Slv} (ho : o.Sound V.F) {p : Opts} (hg : ∀ n, 1 ≤ p.groups n) {vl} {σ0 : St} {t : PS} (h : PInv V vl σ0 t)
    {e : Lit × Nat} (he : t.st.asm[t.pos]? = some e) (hok : t.ok = true) :
    ((pathLit o p t e).ok = true → PInv V vl σ0 (pathLit o p t e)) ∧ ((pathLit o p t e).ok = false → NoQ (V.ctx vl σ0.level σ0.up)) := by
  obtain ⟨d, hd, hl⟩ := h.m.wf.asm1 e (List.mem_of_getElem? he)
  have hok1 := h.m.wf.dat _ _ hd
  have hdrop : t.st.asm.drop t.pos = e :: t.st.asm.drop (t.pos + 1) := by
    obtain ⟨h1, h2⟩ := List.getElem?_eq_some_iff.1 he
    rw [← h2]; exact List.drop_eq_getElem_cons h1
  have hkeep := h.keep
  rw [hdrop] at hkeep
  have hctx : V.ctx vl σ0.level σ0.up = V.ctx vl t.st.level t.st.up := by rw [h.same.level, h.same.up]
  have hlen : e.2 < t.st.dat.length := (List.getElem?_eq_some_iff.1 hd).1
  unfold pathLit
  simp only [get_of hd]
  by_cases ha : d.assume = true
  swap
  · rw [if_pos ha]
    refine ⟨fun _ => ⟨h.m, h.rdy, h.shr, h.same, ?_, h.sub, h.fixW, h.nw0, h.nw⟩, fun q => by simp only at q; rw [hok] at q; cases q⟩
    intro i d' hd' ha'
    have := hkeep i d' hd' ha'
    simp only [List.mem_append, List.mem_cons] at this ⊢
    rcases this with q | q | q
    · exact Or.inl q
    · have : i = e.2 := by rw [← q]
      subst this; rw [hd] at hd'; cases hd'; exact absurd ha' ha
    · exact Or.inr q
  rw [if_neg (by simpa using ha)]
  have hwpos : 0 < d.weight := by
    have := hok1.nn
    have : d.weight ≠ 0 := fun q => by have := (hok1.zero q).1; rw [ha] at this; cases this
    omega
  have hk2 : ∀ i d', t.st.dat[i]? = some d' → d'.assume = true → (d'.lit, i) ∈ (t.kept ++ [e]) ++ t.st.asm.drop (t.pos + 1) := by
    intro i d' hd' ha'
    have := hkeep i d' hd' ha'
    simp only [List.mem_append, List.mem_cons, List.not_mem_nil, or_false] at this ⊢
    tauto
  have hsub2 : ∀ x ∈ t.kept ++ [e], x ∈ t.st.asm := by
    intro x hx
    rcases List.mem_append.1 hx with q | q
    · exact h.sub x q
    · simp at q; subst q; exact List.mem_of_getElem? he
  have hnt := h.m.notodo h.shr hd ha
  -- changes to the data of the assumption only
  have hkeepE : ∀ (τ : St), Fr (fun j => j = e.2) t.st τ → (τ.get e.2).assume = false → Wf V.F V.n0 (tset t.st) τ →
      ∀ i d', τ.dat[i]? = some d' → d'.assume = true → (d'.lit, i) ∈ t.kept ++ τ.asm.drop (t.pos + 1) := by
    intro τ f hz W i d' hd' ha'
    obtain ⟨Y, hY⟩ := f.asm
    have hplt : t.pos < t.st.asm.length := (List.getElem?_eq_some_iff.1 he).1
    rw [hY, List.drop_append_of_le_length (by omega)]
    by_cases hi : i < t.st.dat.length
    · have hie : i ≠ e.2 := by
        rintro rfl; rw [get_of hd', ha'] at hz; cases hz
      rw [f.dat i hi hie] at hd'
      have := hkeep i d' hd' ha'
      simp only [List.mem_append, List.mem_cons] at this ⊢
      rcases this with q | q | q
      · exact Or.inl q
      · exact absurd (by rw [← q]) hie
      · exact Or.inr (Or.inl q)
    · have := W.asm2 i d' hd' ha'
      rw [hY] at this
      rcases List.mem_append.1 this with q | q
      · obtain ⟨d2, hd2, _⟩ := h.m.wf.asm1 _ q
        exact absurd (List.getElem?_eq_some_iff.1 hd2).1 hi
      · simp only [List.mem_append]; exact Or.inr (Or.inr q)
  have hnwE : ∀ (τ : St), Fr (fun j => j = e.2) t.st τ → (τ.get e.2).assume = false → (0 ≤ τ.nextW) ∧
      (τ.nextW = 0 → ∀ x ∈ t.kept, (τ.get x.2).assume = true → τ.actW ≤ (τ.get x.2).weight) := by
    intro τ f hz
    have h0 := h.nw0
    refine ⟨h0.trans f.nextW.1, fun hq x hx hax => ?_⟩
    have hxe : x.2 ≠ e.2 := fun q => by rw [q, hz] at hax; cases hax
    obtain ⟨dx, hdx, _⟩ := h.m.wf.asm1 x (h.sub x hx)
    have hdx2 : τ.dat[x.2]? = some dx := by rw [f.dat x.2 (List.getElem?_eq_some_iff.1 hdx).1 hxe, hdx]
    rw [get_of hdx2] at hax ⊢
    have := h.nw (by have := f.nextW.1; omega) x hx (by rw [get_of hdx]; exact hax)
    rw [get_of hdx] at this
    rw [f.misc.2.2.2.2.2.2.2.2.1]; exact this
  have hmainE : ∀ (τ : St), Fr (fun j => j = e.2) t.st τ → Wf V.F V.n0 (tset t.st) τ → Good (V.ctx vl t.st.level t.st.up) τ (fun _ => - pend t.st) → Main V vl τ := by
    intro τ f W g
    have e1 := f.misc
    have sm := Same.of_fr f
    obtain ⟨t1, t2, t3, t4⟩ := h.m.todo.frame f (by rintro i hi rfl; exact hnt hi)
    refine ⟨?_, by rw [t4]; exact W, ?_, t1, ?_, ?_⟩
    · rw [sm.level, sm.up, sm.found]; exact h.m.st.mono f.cons
    · rw [sm.level, sm.up, t2]; exact g
    · intro q; rw [e1.2.2.2.2.2.2.2.2.2.1, h.rdy] at q; cases q
    · rw [sm.level]; exact h.m.lev
  have hall : ∀ (τ : St) (fw : Option Int) (ps : Bool), Fr (fun j => j = e.2) t.st τ → Wf V.F V.n0 (tset t.st) τ → Good (V.ctx vl t.st.level t.st.up) τ (fun _ => - pend t.st) →
      (τ.get e.2).assume = false → (∀ f, fw = some f → ∃ u, t.st.up = some u ∧ u t.st.level - τ.lower ≤ f) →
      PInv V vl σ0 { t with pos := t.pos + 1, st := τ, fixW := fw, push := ps } := by
    intro τ fw ps f W g hz hfw
    have e1 := f.misc
    have sm := Same.of_fr f
    have q := hnwE τ f hz
    refine ⟨hmainE τ f W g, by rw [e1.2.2.2.2.2.2.2.2.2.1, h.rdy], by rw [e1.2.1, h.shr], ?_, hkeepE τ f hz W, ?_, ?_, q.1, q.2⟩
    · have s0 := h.same
      exact ⟨sm.fin.trans s0.fin, sm.init.trans s0.init, sm.level.trans s0.level, sm.found.trans s0.found, s0.low.trans sm.low, sm.up.trans s0.up⟩
    · intro x hx
      obtain ⟨Y, hY⟩ := f.asm
      simp only [hY, List.mem_append]
      exact Or.inl (h.sub x hx)
    · intro f' hf'
      obtain ⟨u, hu, hle⟩ := hfw f' hf'
      exact ⟨u, by rw [← hu]; exact sm.up, by simp only [sm.level]; exact hle⟩
  by_cases hlt : d.weight < t.st.actW
  · rw [if_pos hlt]
    refine ⟨fun _ => ⟨h.m.nextW _ h.rdy, h.rdy, h.shr, ⟨h.same.fin, h.same.init, h.same.level, h.same.found, h.same.low, h.same.up⟩, hk2, hsub2, h.fixW, ?_, ?_⟩,
      fun q => by simp only at q; rw [hok] at q; cases q⟩
    · exact h.nw0.trans (le_max_left _ _)
    · intro q
      have : d.weight ≤ max t.st.nextW d.weight := le_max_right _ _
      simp only at q
      omega
  rw [if_neg hlt]
  by_cases hex : exceeds d.weight t.fixW = true
  · rw [if_pos hex]
    simp only
    obtain ⟨f, hf, hwf⟩ : ∃ f, t.fixW = some f ∧ f < d.weight := by
      cases hq : t.fixW with
      | none => rw [hq] at hex; simp [exceeds] at hex
      | some f => rw [hq] at hex; exact ⟨f, rfl, by simpa [exceeds] using hex⟩
    obtain ⟨u, hu, hle⟩ := h.fixW f hf
    have h1 := fixLit_post (X := V.ctx vl t.st.level t.st.up) (S := fun j => j = e.2) (p := e.1) ho h.m.good h.m.wf (hl ▸ hok1.var) (by
      intro M hF hQ hs hv
      by_contra hns
      have := harden (X := V.ctx vl t.st.level t.st.up) h.m.wf h.m.todo hF hs hv hnt
      have h2 : sums V.pr M t.st.level ≤ u t.st.level := hQ.2 u hu
      rw [get_of hd, hl] at this
      simp only [viol, hns, if_false, mul_one] at this
      have h3 : (V.ctx vl t.st.level t.st.up).c M = sums V.pr M t.st.level := rfl
      rw [h3] at this
      omega)
    have hfx : (fixLit o t.st e.1).1 = { t.st with cons := .clause [e.1] :: t.st.cons } := rfl
    rw [hctx]
    refine ⟨fun hy => ?_, h1.2⟩
    obtain ⟨g1, w1, f1⟩ := h1.1 hy
    rw [hfx] at g1 w1 f1 ⊢
    have hd1 : ({ t.st with cons := .clause [e.1] :: t.st.cons } : St).dat[e.2]? = some d := hd
    have hok2 := w1.dat _ _ hd1
    have := hall (({ t.st with cons := .clause [e.1] :: t.st.cons } : St).put e.2 { d with assume := false, weight := 0, core := none }) t.fixW false
      (f1.trans (Fr.put (S := fun j => j = e.2) rfl _ _))
      (w1.put hd1 _ _ rfl (by simp) (fun _ _ q => q) ⟨hok1.var, le_refl _, fun _ => ⟨rfl, rfl⟩, fun q => absurd rfl q, fun c q => by cases q⟩)
      (g1.same w1.n0 rfl (fun M hF hs => by
        rw [val_put hd1]
        have hsat : M.sat e.1 := by
          obtain ⟨q, hq, hqs⟩ := (Sat_cons.1 hs).1
          simp at hq; exact hq ▸ hqs
        have hp0 : d.pot M = 0 := by
          unfold Dat.pot
          rw [hl]
          simp only [viol, hsat, if_true, mul_zero, zero_add]
          cases hc : d.core with
          | none => rfl
          | some c =>
            have := (hok2.core c hc).link M hF hs (hl ▸ hsat)
            simp only
            rw [max_eq_left (by omega), mul_zero]
        rw [hp0]
        simp [Dat.pot]))
      (by rw [get_of (d := { d with assume := false, weight := 0, core := none }) (by simp [St.put, hlen])])
      (by
        intro f' hf'
        rw [hf] at hf'; cases hf'
        exact ⟨u, hu, hle⟩)
    exact ⟨this.m, this.rdy, this.shr, this.same, this.keep, this.sub, this.fixW, this.nw0, this.nw⟩
  rw [if_neg hex]
  by_cases hroot : o.root t.st.cons e.1.neg = true
  swap
  · rw [if_pos hroot]
    refine ⟨fun _ => ⟨h.m, h.rdy, h.shr, h.same, hk2, hsub2, h.fixW, h.nw0, ?_⟩, fun q => by simp only at q; rw [hok] at q; cases q⟩
    intro hq x hx hax
    rcases List.mem_append.1 hx with q | q
    · exact h.nw hq x q hax
    · simp at q; subst q; simp only [get_of hd]; omega
  · rw [if_neg (by simpa using hroot)]
    simp only
    have h1 := addCore_post (X := V.ctx vl t.st.level t.st.up) (T := tset t.st) (p := p) (σ := t.st) (core := [(e.1.neg, e.2)]) (w := d.weight) ho hg true (Dep.const _ (- pend t.st)) hwpos (by simp) h.m.wf
      (by
        intro x hx
        simp at hx; subst hx
        exact ⟨d, hd, by simp [hl], le_refl _, Or.inr ha⟩) (by simp) (by
        intro M hF hs
        exact cnt_pos ⟨e.1.neg, by simp, ho.root _ _ hroot M hF hs⟩) h.m.good
    rw [hctx]
    generalize addCore o p t.st [(e.1.neg, e.2)] d.weight true = y at h1
    obtain ⟨h1, hz, hlow⟩ := h1
    refine ⟨fun hy => ?_, h1.2⟩
    obtain ⟨g1, w1, f1⟩ := h1.1 hy
    have := hall y.1 (t.fixW.map (· - d.weight)) (t.push && o.keep y.1.cons) (f1.mono (by simp)) (w1.weaken (fun _ q => q.1)) (by simpa using g1)
      (hz (e.1.neg, e.2) (by simp) (by simp [get_of hd]) hy) (by
        intro f' hf'
        obtain ⟨f, hf, rfl⟩ := Option.map_eq_some_iff.1 hf'
        obtain ⟨u, hu, hle⟩ := h.fixW f hf
        have := hlow hy
        simp only [if_true] at this
        exact ⟨u, hu, by omega⟩)
    exact ⟨this.m, this.rdy, this.shr, this.same, this.keep, this.sub, this.fixW, this.nw0, this.nw⟩

theorem pathLoop_inv {V : Env} {o : Slv} (ho : o.Sound V.F) {p : Opts} (hg : ∀ n, 1 ≤ p.groups n) {vl} {σ0 : St} (fuel : Nat) : ∀ t : PS,
    (t.ok = true → PInv V vl σ0 t) → (t.ok = false → NoQ (V.ctx vl σ0.level σ0.up)) →
    ((pathLoop o p fuel t).ok = true → PInv V vl σ0 (pathLoop o p fuel t)) ∧ ((pathLoop o p fuel t).ok = false → NoQ (V.ctx vl σ0.level σ0.up)) := by
  induction fuel with
  | zero => intro t h1 h2; exact ⟨h1, h2⟩
  | succ fuel ih =>
    intro t h1 h2
    unfold pathLoop
    cases he : t.st.asm[t.pos]? with
    | none => exact ⟨h1, h2⟩
    | some e =>
      simp only
      by_cases hok : t.ok = true
      · rw [if_neg (by simpa using hok)]
        have := pathLit_inv ho hg (h1 hok) he hok
        exact ih _ this.1 this.2
      · rw [if_pos (by simpa using hok)]; exact ⟨h1, h2⟩

theorem pathRound_main {V : Env} {o : Slv} (ho : o.Sound V.F) {p : Opts} (hg : ∀ n, 1 ≤ p.groups n) {vl} {σ : St} (m : Main V vl σ) (hs : σ.shrink = false) (fuel : Nat) :
    ((pathRound o p fuel σ).2 = true → Main V vl (pathRound o p fuel σ).1 ∧ Same σ (pathRound o p fuel σ).1) ∧
    ((pathRound o p fuel σ).2 = false → NoQ (V.ctx vl σ.level σ.up)) := by
  have h0 : PInv V vl σ { st := { σ with nextW := 0, ready := false }, kept := [], pos := 0, push := true, maxW := 0, fixW := σ.up.map (fun u => u σ.level - σ.lower), ok := true } := by
    refine ⟨⟨m.st, m.wf.cast rfl rfl rfl rfl, m.good.cast rfl rfl rfl, ⟨m.todo.ne, m.todo.nodup, m.todo.el, m.todo.holds, m.todo.shr, m.todo.nshr⟩, by simp, m.lev⟩,
      rfl, hs, ⟨rfl, rfl, rfl, rfl, le_refl _, rfl⟩, ?_, by simp, ?_, le_refl _, by simp⟩
    · intro i d hd ha
      simpa using m.wf.asm2 i d hd ha
    · intro f hf
      obtain ⟨u, hu, rfl⟩ := Option.map_eq_some_iff.1 hf
      exact ⟨u, hu, le_refl _⟩
  have h1 := pathLoop_inv ho hg fuel _ (fun _ => h0) (fun q => by cases q)
  unfold pathRound
  simp only
  generalize pathLoop o p fuel { st := { σ with nextW := 0, ready := false }, kept := [], pos := 0, push := true, maxW := 0, fixW := σ.up.map (fun u => u σ.level - σ.lower), ok := true } = t at h1
  refine ⟨fun hok => ?_, h1.2⟩
  have h := h1.1 hok
  refine ⟨⟨h.m.st, ⟨h.m.wf.n0, h.m.wf.cons, h.m.wf.dat, ?_, ?_⟩, h.m.good.cast rfl rfl rfl,
    ⟨h.m.todo.ne, h.m.todo.nodup, h.m.todo.el, h.m.todo.holds, h.m.todo.shr, h.m.todo.nshr⟩, ?_, h.m.lev⟩, ⟨h.same.fin, h.same.init, h.same.level, h.same.found, h.same.low, h.same.up⟩⟩
  · intro e he
    refine h.m.wf.asm1 e ?_
    rcases List.mem_append.1 he with q | q
    · exact h.sub e q
    · exact List.mem_of_mem_drop q
  · exact h.keep
  · intro hr hn e he ha
    simp only [decide_eq_true_eq, hok, and_true] at hr
    refine h.nw hn e ?_ ha
    simp only [hr.1, List.drop_length, List.append_nil] at he
    exact he

end Clasp.Uncore
