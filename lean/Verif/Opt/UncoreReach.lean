import Verif.Opt.UncoreLevel
import Verif.Opt.UncoreUp
/-! Helper lemmas for core-guided optimization: every step keeps the invariant. No code is modelled here. -/

namespace Clasp.Uncore
open Clasp.Core (Lit Asg)

theorem Main.clean {V vl} {σ : St} (m : Main V vl σ) (ht : σ.todo = []) (hs : σ.shrink = false) (hr : σ.ready = false) (a : Int) (b c : Bool) :
    Main V vl { σ with actW := a, disj := b, next := c } := by
  have g := m.good
  have : pend σ = 0 := by simp [pend, ht]
  rw [this, neg_zero] at g
  exact Main.mk0 m.st (Wf.cast (m.wf.weaken (fun i q => by have := q.2; simp [tids, ht] at this)) rfl rfl rfl rfl) (g.cast rfl rfl rfl) ht hs hr m.lev

theorem Main.unready {V vl} {σ : St} (m : Main V vl σ) : Main V vl { σ with ready := false } :=
  ⟨m.st, m.wf.cast rfl rfl rfl rfl, m.good.cast rfl rfl rfl, ⟨m.todo.ne, m.todo.nodup, m.todo.el, m.todo.holds, m.todo.shr, m.todo.nshr⟩, by simp, m.lev⟩

theorem addNext_up_lt (o : Slv) (p : Opts) (pr : Prob) (σ : St) (shr : Bool) (h : cmpUp σ = .lt) : (addNext o p pr σ shr).1.up = σ.up := by
  unfold addNext
  rw [h]
  simp only
  split <;> simp [flushTodo_up]

theorem addNext_main {V : Env} {o : Slv} (ho : o.Sound V.F) {p : Opts} (hg : ∀ n, 1 ≤ p.groups n) {vl} {σ : St} (m : Main V vl σ) (hi : σ.init = false) (hf : σ.fin = false) (shr : Bool) :
    ((addNext o p V.pr σ shr).2 = true → (addNext o p V.pr σ shr).1.fin = false ∧ (addNext o p V.pr σ shr).1.init = false ∧ ∃ vl0, Main V vl0 (addNext o p V.pr σ shr).1) ∧
    ((addNext o p V.pr σ shr).2 = false → Done V (addNext o p V.pr σ shr).1) := by
  have h1 := flushTodo_main ho hg m.unready rfl shr
  cases hc : cmpUp σ with
  | gt =>
    exfalso
    unfold cmpUp at hc
    cases hu : σ.up with
    | none => rw [hu] at hc; cases hc
    | some u =>
      rw [hu] at hc
      have := m.lower_le hu
      simp only [Int.compare_eq_gt] at hc
      omega
  | lt =>
    have hup := addNext_up_lt o p V.pr σ shr hc
    have e : ∀ y, flushTodo o p { σ with ready := false } shr = y → addNext o p V.pr σ shr =
        if ¬ y.1.shrink ∧ y.1.nextW ≠ 0 then ({ y.1 with next := false, disj := p.disjoint, actW := y.1.nextW }, y.2) else ({ y.1 with next := false, disj := false }, y.2) := by
      intro y hy
      unfold addNext
      rw [hc, hy]
    have e1 := e _ rfl
    generalize flushTodo o p { σ with ready := false } shr = y at h1 e1
    have h2 : (addNext o p V.pr σ shr).2 = y.2 := by rw [e1]; split <;> rfl
    refine ⟨fun q => ?_, fun q => Done.of_noq m.st (h1.2 (h2 ▸ q)) hup⟩
    obtain ⟨m1, s1, r1, t1, _⟩ := h1.1 (h2 ▸ q)
    rw [e1]
    split
    · rename_i hx
      have hs : y.1.shrink = false := by simpa using hx.1
      exact ⟨s1.fin.trans hf, s1.init.trans hi, vl, m1.clean (t1 hs) hs r1 y.1.nextW p.disjoint false⟩
    · refine ⟨s1.fin.trans hf, s1.init.trans hi, vl, ?_⟩
      cases hs : y.1.shrink with
      | false => exact m1.clean (t1 hs) hs r1 y.1.actW false false
      | true =>
        have hd := (m1.todo.shr hs).1
        have hr : ∀ x, x = y.1.disj → Main V vl { y.1 with next := false, disj := x } := by
          intro x hx
          subst hx
          exact ⟨m1.st, m1.wf.cast rfl rfl rfl rfl, m1.good.cast rfl rfl rfl, ⟨m1.todo.ne, m1.todo.nodup, m1.todo.el, m1.todo.holds, m1.todo.shr, m1.todo.nshr⟩, m1.ready, m1.lev⟩
        exact hr false hd.symm
  | eq =>
    cases hu : σ.up with
    | none => unfold cmpUp at hc; rw [hu] at hc; cases hc
    | some u =>
      have hl : σ.lower = u σ.level := by
        unfold cmpUp at hc; rw [hu] at hc; simpa only [Int.compare_eq_eq] using hc
      have hfound := (m.st.bnd u hu).1
      have e1 : ∀ y, flushTodo o p { σ with ready := false } shr = y → addNext o p V.pr σ shr = initLevel o p V.pr (fixLevel o { y.1 with next := false, disj := false }).1 := by
        intro y hy
        unfold addNext
        rw [hc, hy]
        simp only
        rw [if_pos (Or.inr hfound)]
      have e1 := e1 _ rfl
      generalize flushTodo o p { σ with ready := false } shr = y at h1 e1
      have hy : y.2 = true := by
        by_contra hq
        have := (m.st.noq (h1.2 (by simpa using hq))).1
        rw [hu] at this; cases this
      obtain ⟨m1, s1, r1, t1, t2⟩ := h1.1 hy
      have hc' : cmpUp { σ with ready := false } ≠ .lt := by
        have : cmpUp { σ with ready := false } = cmpUp σ := rfl
        rw [this, hc]; simp
      obtain ⟨ht, hs⟩ := t2 hc'
      have m2 := m1.clean ht hs r1 y.1.actW false false
      have hu2 : y.1.up = some u := s1.up.trans hu
      have hl2 : y.1.lower = u y.1.level := by
        have a := m1.lower_le hu2
        have b := s1.low
        have c : y.1.level = σ.level := s1.level
        rw [c] at a ⊢
        simp only at b
        omega
      obtain ⟨b1, b2, b3, b4, b5⟩ := fixLevel_btw o (σ := { y.1 with next := false, disj := false }) m2 ht hu2 hl2
      rw [e1]
      generalize fixLevel o { y.1 with next := false, disj := false } = z at *
      have hi2 : z.1.init = false := b4.trans (s1.init.trans hi)
      have hk : (if z.1.init = true then z.1.level else z.1.level + 1) = z.1.level + 1 := by rw [hi2]; simp
      refine initLevel_spec ho p (vl := Function.update vl y.1.level y.1.lower) (σ := z.1) ?_ ?_ ?_ ?_ (b5.trans (s1.fin.trans hf))
      · rw [hk, b3]; exact b1
      · rw [hk, b3]; have := m1.lev; simp only; omega
      · intro q; rw [hi2] at q; cases q
      · intro _ q; rw [b2] at q; simp only at q; rw [hu2] at q; cases q

theorem cmpFrom_lt {s u : Nat → Int} : ∀ f k, cmpFrom s u f k = .lt → ∃ i, k ≤ i ∧ i < k + f ∧ (∀ j, k ≤ j → j < i → s j = u j) ∧ s i < u i := by
  intro f
  induction f with
  | zero => intro k h; simp [cmpFrom] at h
  | succ f ih =>
    intro k h
    unfold cmpFrom at h
    split at h
    · rename_i he
      obtain ⟨i, h1, h2, h3, h4⟩ := ih _ h
      refine ⟨i, by omega, by omega, fun j hj hji => ?_, h4⟩
      by_cases hk : j = k
      · subst hk; exact he
      · exact h3 j (by omega) hji
    · refine ⟨k, le_refl _, by omega, fun j hj hji => by omega, ?_⟩
      exact Int.compare_eq_lt.1 h

theorem cmpFrom_of_lt {s u : Nat → Int} : ∀ f k i, k ≤ i → i < k + f → (∀ j, k ≤ j → j < i → s j = u j) → s i < u i → cmpFrom s u f k = .lt := by
  intro f
  induction f with
  | zero => intro k i h1 h2; omega
  | succ f ih =>
    intro k i h1 h2 h3 h4
    unfold cmpFrom
    by_cases hk : i = k
    · subst hk
      rw [if_neg (by omega)]
      exact Int.compare_eq_lt.2 h4
    · rw [if_pos (h3 k (le_refl _) (by omega))]
      exact ih _ i (by omega) (by omega) (fun j hj hji => h3 j (by omega) hji) h4

theorem onModel_main {V : Env} {vl} {σ : St} (m : Main V vl σ) {M : Asg} (hF : V.F M) (hs : Sat σ.cons M) :
    Main V vl (onModel V.pr σ M) ∧ (onModel V.pr σ M).fin = σ.fin ∧ (onModel V.pr σ M).init = σ.init := by
  unfold onModel
  have hT := m.todo
  split
  · rename_i hv
    refine ⟨⟨⟨m.st.pref, m.st.opt, (nomatch ·), fun u q => ?_⟩, m.wf.cast rfl rfl rfl rfl, ?_, ⟨hT.ne, hT.nodup, hT.el, hT.holds, hT.shr, hT.nshr⟩, m.ready, m.lev⟩, rfl, rfl⟩
    · cases q
      exact ⟨rfl, M, hF, rfl, m.st.pref M hF hs⟩
    · refine ⟨fun N hN hQ => m.good.A N hN ⟨hQ.1, fun u hu => ?_⟩, m.good.B⟩
      have h1 : sums V.pr N σ.level ≤ sums V.pr M σ.level := hQ.2 _ rfl
      unfold valid at hv
      rw [hu] at hv
      simp only at hv
      have hfound := (m.st.bnd u hu).1
      cases hc : cmpFrom (sums V.pr M) u (V.pr.max + 1 - σ.level) σ.level with
      | gt => rw [hc] at hv; cases hv
      | eq => rw [hc, hfound] at hv; cases hv
      | lt =>
        obtain ⟨i, a, b, c, d⟩ := cmpFrom_lt _ _ hc
        by_cases hi : i = σ.level
        · rw [hi] at d; omega
        · have := c σ.level (le_refl _) (by omega); omega
  · exact ⟨⟨m.st, m.wf.cast rfl rfl rfl rfl, m.good.cast rfl rfl rfl, ⟨hT.ne, hT.nodup, hT.el, hT.holds, hT.shr, hT.nshr⟩, m.ready, m.lev⟩, rfl, rfl⟩

theorem trimStop_main {V : Env} {vl} {σ : St} (m : Main V vl σ) (hs : σ.shrink = true) : Main V vl { dropTrim σ with shrink := false, ready := false } := by
  have hd := (m.todo.shr hs).1
  unfold dropTrim
  rw [if_pos hs]
  refine Main.mk0 m.st ?_ ?_ rfl rfl rfl m.lev
  · exact Wf.cast (m.wf.weaken (fun i q => by have := q.1; rw [hd] at this; cases this)) rfl rfl rfl rfl
  · have g := m.good
    refine ⟨fun M hF hQ => ?_, fun M hF hs => ?_⟩
    · obtain ⟨M', a, b, c⟩ := g.A M hF hQ
      refine ⟨M', a, b, ?_⟩
      rw [← c]; simp only [val, pend]; ring
    · have := g.B M hF hs
      have e : val σ M + - pend σ = val { σ with lower := σ.lower - (σ.todo.map (minW σ.wt)).sum, todo := [], shrink := false, ready := false } M + 0 := by
        simp only [val, pend]; ring
      rw [e] at this; exact this

theorem start_btw (V : Env) : Btw V (fun _ => 0) 0 (St.start V.n0 none) :=
  ⟨⟨fun _ _ _ j hj => by omega, fun _ _ j hj => by omega, fun _ => ⟨rfl, fun _ _ j hj => by omega⟩, fun u q => by cases q⟩,
    fun M _ _ => ⟨M, fun _ _ => rfl, by simp [Sat, St.start]⟩, le_refl _, by simp [St.start], rfl, rfl, rfl, rfl⟩

theorem Done.congr {V : Env} {σ τ : St} (h : Done V σ) (hu : τ.up = σ.up) (hc : τ.cons = σ.cons) : Done V τ :=
  ⟨by rw [hu]; exact h.unb, by rw [hu]; exact h.bnd, by rw [hu, hc]; exact h.enum, by rw [hc]; exact h.keep⟩

theorem inv_close {V : Env} {x : St × Bool} (h1 : x.2 = true → x.1.fin = false ∧ x.1.init = false ∧ ∃ vl, Main V vl x.1) (h2 : x.2 = false → Done V x.1) : Inv V (close x) := by
  cases hx : x.2 with
  | true => rw [close_true hx]; exact Or.inr (Or.inr (h1 hx))
  | false =>
    obtain ⟨a, b, c⟩ := close_false hx
    exact Or.inl ⟨a, (h2 hx).congr b c⟩

theorem Inv.step {V : Env} {p : Opts} (hg : ∀ n, 1 ≤ p.groups n) {σ τ : St} (h : Inv V σ) (s : Step V.F p V.pr σ τ) : Inv V τ := by
  have hmain : σ.fin = false → σ.init = false → ∃ vl, Main V vl σ := by
    intro hf hi
    rcases h with h | rfl | h
    · rw [hf] at h; cases h.1
    · cases hi
    · exact h.2.2
  cases s with
  | init o ho hf hi =>
    rcases h with h | rfl | h
    · rw [hf] at h; cases h.1
    · refine inv_close ?_ ?_
      all_goals
        have := initLevel_spec ho p (σ := St.start V.n0 none) (vl := fun _ => 0) (start_btw V) (by simp [St.start]) (fun _ => Nat.zero_le _) (fun q => by cases q) rfl
      · exact this.1
      · exact this.2
    · rw [hi] at h; cases h.2.1
  | path o fuel ho hf hi hn hs =>
    obtain ⟨vl, m⟩ := hmain hf hi
    obtain ⟨h1, h2⟩ := pathRound_main ho hg m hs fuel
    refine inv_close (fun q => ?_) (fun q => Done.of_noq m.st (h2 q) (pathRound_up ..))
    obtain ⟨a, b⟩ := h1 q
    exact ⟨b.fin.trans hf, b.init.trans hi, vl, a⟩
  | core o core shr ho hf hi hn hc =>
    obtain ⟨vl, m⟩ := hmain hf hi
    obtain ⟨h1, h2⟩ := onCore_main ho hg m hc shr
    refine inv_close (fun q => ?_) (fun q => Done.of_noq m.st (h2 q) (onCore_up ..))
    obtain ⟨a, b, c⟩ := h1 q
    exact ⟨b.trans hf, c.trans hi, vl, a⟩
  | model M hf hi hF hs hx =>
    obtain ⟨vl, m⟩ := hmain hf hi
    obtain ⟨a, b, c⟩ := onModel_main m hF hs
    exact Or.inr (Or.inr ⟨b.trans hf, c.trans hi, vl, a⟩)
  | next o shr ho hf hi =>
    obtain ⟨vl, m⟩ := hmain hf hi
    obtain ⟨h1, h2⟩ := addNext_main ho hg m hi hf shr
    exact inv_close h1 h2
  | trimStop hf hs =>
    rcases h with h | rfl | h
    · rw [hf] at h; cases h.1
    · cases hs
    · obtain ⟨_, hi, vl, m⟩ := h
      refine Or.inr (Or.inr ⟨?_, ?_, vl, trimStop_main m hs⟩)
      · simp only [dropTrim, hs, if_true]; exact hf
      · simp only [dropTrim, hs, if_true]; exact hi
  | unsat hf hn =>
    refine Or.inl ⟨rfl, ?_⟩
    rcases h with h | rfl | h
    · rw [hf] at h; cases h.1
    · obtain ⟨a, b⟩ := (start_btw V).bad hn
      exact Done.of_none a b
    · obtain ⟨_, hi, vl, m⟩ := h
      exact Done.of_noq m.st (m.good.nosat hn) rfl

theorem Inv.reach {V : Env} {p : Opts} (hg : ∀ n, 1 ≤ p.groups n) {σ : St} (h : Reach V.F p V.pr (St.start V.n0 none) σ) : Inv V σ := by
  induction h with
  | start => exact Or.inr (Or.inl rfl)
  | step _ s ih => exact ih.step hg s

end Clasp.Uncore
