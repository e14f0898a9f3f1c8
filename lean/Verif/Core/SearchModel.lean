/-
The invariant of the search: backtracking, assumptions, conflicts, and reporting models. No code is modelled in this file.
-/
import Verif.Core.SearchInv
import Verif.Core.AnalyzeFuel
namespace Clasp.Core
open St

namespace Db
theorem resolve_mono {learn : Bool} {cfg : AnaCfg} {fuel k id : Nat} {shared implicit : Bool} {d : Db} {r : Db × Bool}
    (h : d.resolve learn cfg fuel id shared implicit = some r) : d.resolve learn cfg (fuel + k) id shared implicit = some r := by
  unfold resolve at *
  split at h
  · rename_i h1
    rw [if_pos h1]
    split at h
    · rename_i h2
      rw [if_pos h2]
      split at h
      · simp at h
      · rename_i r' hr
        rw [analyze_mono (k := k) hr]; exact h
    · rename_i h2
      rw [if_neg h2]; exact h
  · rename_i h1
    rw [if_neg h1]; exact h
end Db

namespace St
theorem backtrackLoop_mode {learn : Bool} : ∀ (fuel : Nat) (s : St), (backtrackLoop learn fuel s).2 = true → 1 ≤ (backtrackLoop learn fuel s).1.mode := by
  intro fuel
  induction fuel with
  | zero => intro s h; simp [backtrackLoop] at h
  | succ fuel ih =>
    intro s h
    unfold backtrackLoop at h ⊢
    split at h
    · simp at h
    · rename_i h1
      rw [if_neg h1]
      dsimp only at h ⊢
      have hm : 1 ≤ ((s.undoUntil learn (s.dl - 1) undoPopProj).setBacktrackLevel (s.undoUntil learn (s.dl - 1) undoPopProj).dl undoPopBt).mode := by
        unfold setBacktrackLevel
        split
        · show 1 ≤ max (undoPopBt % 4) undoPopBt
          decide
        · rename_i hn; unfold undoPopBt at hn; omega
      generalize (s.undoUntil learn (s.dl - 1) undoPopProj).setBacktrackLevel (s.undoUntil learn (s.dl - 1) undoPopProj).dl undoPopBt = u at *
      split at h
      · rename_i h2; rw [if_pos h2]; exact ih u h
      · rename_i h2
        rw [if_neg h2]
        have e := (force_ext (learn := learn) (s := u) (s.decision s.dl).neg none).mode
        generalize u.force learn (s.decision s.dl).neg none = g at *
        obtain ⟨t, ok⟩ := g
        cases ok with
        | false => exact ih t h
        | true =>
          dsimp only at e ⊢
          show 1 ≤ t.mode
          rw [e]; exact hm
end St

namespace Sys
variable {learn : Bool} {n : Nat} {E : Asg → Prop} {P : Nat → Bool} {x : Sys}

/-! ### Total assignments -/

theorem model_sat {s : St} (hb : s.Base) {q : Lit} (h : s.tl q) : s.model.sat q := by
  have := (hb.isTrue_iff q).2 h
  unfold St.isTrue at this
  unfold Asg.sat St.model
  have hv : s.value q.var = some q.tv := by simpa using this
  rw [hv]
  cases q.sign <;> simp_all [Lit.tv]

theorem Total.tl {s : St} (hb : s.Base) (ht : s.Total n) {p : Lit} (hp : p.var ≤ n) : s.tl p ∨ s.tl p.neg := by
  have := ht.all p.var hp
  rcases s.value_cases p with hv | hv | hv
  · exact absurd hv this
  · exact Or.inl ((hb.isTrue_iff p).1 hv)
  · rw [isFalse_eq] at hv
    exact Or.inr ((hb.isTrue_iff _).1 hv)

theorem fine_tl {T : Th} {s : St} (hi : s.Inv learn T) (hc : s.conflict = []) {q : Lit} {k : Nat} (h : s.Fine q k) : s.tl q := by
  rcases h with h | ⟨y, hy, rfl, _⟩
  · exact h.1
  · rcases hi.imp.asg y hy with h | h
    · exact h.1
    · exact absurd hc h.1

theorem Total.done {s : St} (ht : s.Total n) {q : Lit} (hq : q ∈ s.trail) : s.Done q := by
  unfold Done
  rw [if_pos ht.conf]
  obtain ⟨t1, t2, e⟩ := List.append_of_mem hq
  refine ⟨t1, t2, e, ?_⟩
  rw [ht.front, e]; simp; omega

/-- Clauses of the database are satisfied by a total assignment that was propagated. -/
theorem has_sat {T : Th} {d : Db} (h : d.Ok learn T) (ht : d.st.Total n) {Q : Nat → Prop} {C : List Lit} (hC : Db.Has Q d C ∨ ∃ p ∈ C, p.neg ∈ C)
    (hv : ∀ p ∈ C, p.var ≤ n) : d.st.model.satC C := by
  have hb := h.inv.base
  have htf : ∀ {p : Lit}, d.st.tl p.neg → p ≠ litFalse → d.st.Done p.neg := fun hp hn => by
    rcases hp with hp | hp
    · exact absurd (by have := congrArg Lit.neg hp; rw [Lit.neg_neg] at this; exact this) hn
    · exact Total.done ht hp
  have hfl : ¬ d.st.tl litFalse := by
    intro hf
    have := model_sat hb hf
    have h2 := model_sat hb (Or.inl rfl : d.st.tl litTrue)
    exact (Asg.sat_neg _ litTrue).1 this h2
  rcases hC with (⟨i, h1, h2, h3⟩ | ⟨a, ha, b, hb', hg⟩ | ⟨a, ha, b, hb', c, hc, hg⟩ | ⟨p, hp, hg⟩) | ⟨p, hp, hn⟩
  · have hmem : ∀ w, (d.cls i).watch w ∈ C := fun w => by
      rcases h3 ((d.cls i).watch w) (by cases w <;> simp [Cl.watch, Cl.lits]) with e | e
      · exact absurd e (h.wok.nz i h1 w)
      · exact e
    rcases Total.tl hb ht (hv _ (hmem false)) with h4 | h4
    · exact ⟨_, hmem false, model_sat hb h4⟩
    · rcases h.good i h1 false (htf h4 (h.wok.nz i h1 false)) with h5 | h5
      · exact ⟨_, hmem true, model_sat hb (fine_tl h.inv ht.conf h5)⟩
      · exact ⟨_, hmem false, model_sat hb (fine_tl h.inv ht.conf h5)⟩
  · rcases Total.tl hb ht (hv a ha) with h4 | h4
    · exact ⟨a, ha, model_sat hb h4⟩
    · rcases h.good23.g2 a b hg.2 (htf h4 (hg.1.2 a (by simp))) with h6 | h6
      · exact ⟨b, hb', model_sat hb (fine_tl h.inv ht.conf h6)⟩
      · exact ⟨a, ha, model_sat hb (fine_tl h.inv ht.conf h6)⟩
  · rcases Total.tl hb ht (hv a ha) with h4 | h4
    · exact ⟨a, ha, model_sat hb h4⟩
    rcases Total.tl hb ht (hv b hb') with h5 | h5
    · exact ⟨b, hb', model_sat hb h5⟩
    rcases h.good23.g3 a b c hg.2 (htf h4 (hg.1.2 a (by simp))) (htf h5 (hg.1.2 b (by simp))) with (h6 | h6) | h6
    · exact ⟨c, hc, model_sat hb (fine_tl h.inv ht.conf h6)⟩
    · exact ⟨a, ha, model_sat hb (fine_tl h.inv ht.conf h6)⟩
    · exact ⟨b, hb', model_sat hb (fine_tl h.inv ht.conf h6)⟩
  · rcases hg with hg | hg
    · exact absurd ht.conf hg.1
    · have := fine_tl h.inv ht.conf hg
      rcases hp with hp | rfl
      · exact ⟨p, hp, model_sat hb this⟩
      · exact absurd this hfl
  · rcases Total.tl hb ht (hv p hp) with h4 | h4
    · exact ⟨p, hp, model_sat hb h4⟩
    · exact ⟨_, hn, model_sat hb h4⟩

/-- A total assignment accepted by the other constraints is a model that satisfies the recorded nogoods and assumptions. -/
theorem Inv.model (h : x.Inv learn n E P) (ht : x.st.Total n) (hE : E x.st.model) : x.core E x.st.model ∧ x.st.model.all x.asm := by
  have hb := h.ok.inv.base
  refine ⟨⟨⟨model_sat hb (Or.inl rfl), hE, fun C hC => ?_⟩, fun r hr => ?_⟩, fun a ha => model_sat hb (h.asm a ha).1⟩
  · exact has_sat h.ok ht (h.has C (Or.inl hC)).1 (h.has C (Or.inl hC)).2
  · exact has_sat h.ok ht (h.has r.1 (Or.inr ⟨r, hr, rfl⟩)).1 (h.has r.1 (Or.inr ⟨r, hr, rfl⟩)).2

/-- A model on the path to a total assignment is that assignment. -/
theorem path_agree {T : Th} {s : St} (hi : s.Inv learn T) (ht : s.Total n) {M : Asg} (hM : T.G M) (hp : s.pathSat M s.dl) :
    agreeOn (fun _ => true) n M s.model := by
  have hb := hi.base
  intro v h1 h2 _
  rcases hb.asg v (ht.all v h2) with e | ⟨q, hq, rfl⟩
  · omega
  · have e1 : M.sat q := hi.sound.impl_tl (Or.inr hq) hM (trail_lev_le hb.wf hq) hp
    have e2 := model_sat hb (Or.inr hq : s.tl q)
    unfold Asg.sat at e1 e2
    cases hs : q.sign <;> simp_all

theorem agree_sat {M M' : Asg} (h : agreeOn P n M M') {q : Lit} (h1 : 1 ≤ q.var) (h2 : q.var ≤ n) (h3 : P q.var = true) : M.sat q ↔ M'.sat q := by
  have := h q.var h1 h2 h3
  unfold Asg.sat; rw [this]

/-! ### Backtracking -/

/-- Chronological backtracking from a path without models. -/
theorem back (hok : x.db.Ok learn (x.th E n)) (hzero : ∀ M, x.todo E n M → x.zeroSat M) (hids : x.db.ids.Nodup)
    (hdec : ∀ i, 1 ≤ i → i ≤ x.st.dl → (x.st.decision i).var ≤ n)
    (hasm : ∀ a ∈ x.asm, x.st.tl a ∧ x.st.level a.var ≤ x.st.root) (hroot : ∀ i, 1 ≤ i → i ≤ x.st.root → x.st.decision i ∈ x.asm)
    (hfnd : ∀ M ∈ x.found, x.core E M ∧ (((∀ i, 1 ≤ i → i ≤ x.st.dl → M.sat (x.st.decision i)) ∧ ∀ q ∈ x.st.trail, x.st.level q.var < x.st.dl → M.sat q) ∨
      ∃ k ≤ x.st.flip, (∀ i, 1 ≤ i → i ≤ k → M.sat (x.st.decision i)) ∧ (∀ q ∈ x.st.trail, x.st.level q.var < k → M.sat q) ∧ ∃ q ∈ x.st.trail, x.st.level q.var = k ∧ ¬ M.sat q ∧ q.var ≤ n ∧ x.st.Flp q k))
    (hfnp : x.found.Pairwise fun M M' => ¬ agreeOn (fun _ => true) n M M')
    (hrcd : ∀ r ∈ x.recs, x.base E r.2 ∧ r.2.all x.asm ∧ ∀ M : Asg, M.sat litTrue → M.all x.asm → M.satC r.1 → ¬ agreeOn P n M r.2)
    (hcov : ∀ M, x.base E M → M.all x.asm → (∀ r ∈ x.recs, M.satC r.1) ∨ ∃ r ∈ x.recs, agreeOn P n M r.2)
    (hrcp : x.recs.Pairwise fun r r' => ¬ agreeOn P n r.2 r'.2)
    (hhas : ∀ C, (C ∈ x.orig ∨ ∃ r ∈ x.recs, C = r.1) → (Db.Has (· ∈ x.prob) x.db C ∨ ∃ p ∈ C, p.neg ∈ C) ∧ ∀ p ∈ C, p.var ≤ n)
    (hdead : ∀ M, (x.th E n).G M → ¬ x.st.pathSat M x.st.dl) (h : (x.st.backtrack learn).2 = true) :
    (x.setSt (x.st.backtrack learn).1).Inv learn n E P ∧ (x.st.backtrack learn).1.conflict = [] := by
  have hb := hok.inv.base
  have hmd := backtrackLoop_mode (learn := learn) (x.st.dl + 1) x.st h
  obtain ⟨b1, b2, b3, b4, b5, b6, b7, b8, b9⟩ := (backtrack_spec hok.inv hdead).1 h
  change 1 ≤ (x.st.backtrack learn).1.mode at hmd
  change _ = x.st.root at b6
  change _ < x.st.dl at b4
  change (x.st.decision _).neg ∈ _ at b7
  change _ = _ at b8
  change St.Flp _ (x.st.decision _).neg _ at b9
  generalize hs : (x.st.backtrack learn).1 = s' at *
  have hs' : (x.db.st.backtrack learn).1 = s' := hs
  rw [hs'] at b1 b2 b3 b4 b5 b6 b7 b8 b9
  have hok' : Db.Ok learn (x.th E n) { x.db with st := s' } := hok.setSt b1 b3
  have hb' := b1.base
  have hrd : x.st.root ≤ s'.dl := by rw [← b6]; exact Nat.le_trans hb'.wf.rf hb'.wf.fd
  obtain ⟨r1, r2⟩ := retheory (y := x.setSt s') hzero hok' (fun q hq hl => by
      have hl' : x.db.st.level q.var = 0 := hl
      have := b3.lit q hq (by omega); exact ⟨this.1, this.2.trans hl⟩) (fun M m => m) (fun M m => m)
  have b3d : ∀ i, 1 ≤ i → i ≤ s'.dl → s'.decision i = x.st.decision i := b3.dec
  have b3l : ∀ q ∈ x.st.trail, x.st.level q.var ≤ s'.dl → q ∈ s'.trail ∧ s'.level q.var = x.st.level q.var := b3.lit
  refine ⟨⟨⟨r1, r2, fun hm => ?_, hids, fun i h1 h2 => ?_, fun a ha => ?_, fun i h1 h2 => ?_, fun M hM => ?_, hfnp, hrcd, hcov, hrcp⟩, fun C hC => ?_⟩, b2⟩
  · have hm : s'.mode = 0 := hm
    omega
  · have h2 : i ≤ s'.dl := h2
    show (s'.decision i).var ≤ n
    rw [b3d i h1 h2]; exact hdec i h1 (by omega)
  · obtain ⟨a1, a2⟩ := hasm a ha
    show s'.tl a ∧ s'.level a.var ≤ s'.root
    rw [b6]
    rcases a1 with rfl | a1
    · exact ⟨Or.inl rfl, by unfold St.level; rw [litTrue_var, hb'.c0]; simp⟩
    · obtain ⟨q1, q2⟩ := b3l a a1 (by omega)
      exact ⟨Or.inr q1, by omega⟩
  · have h2 : i ≤ s'.root := h2
    show s'.decision i ∈ x.asm
    rw [b3d i h1 (by omega)]; exact hroot i h1 (by omega)
  · obtain ⟨f1, f3⟩ := hfnd M hM
    have hnew : M.sat (x.st.decision (s'.dl + 1)) → (∀ i, 1 ≤ i → i ≤ s'.dl → M.sat (x.st.decision i)) → (∀ q ∈ x.st.trail, x.st.level q.var < s'.dl → M.sat q) →
        ∃ k ≤ s'.flip, (∀ i, 1 ≤ i → i ≤ k → M.sat (s'.decision i)) ∧ (∀ q ∈ s'.trail, s'.level q.var < k → M.sat q) ∧ ∃ q ∈ s'.trail, s'.level q.var = k ∧ ¬ M.sat q ∧ q.var ≤ n ∧ s'.Flp q k := by
      intro hsat hpre hlow
      refine ⟨s'.dl, by omega, fun i h1 h2 => by rw [b3d i h1 h2]; exact hpre i h1 h2, fun q hq hl => ?_, _, b7, b8, ?_, hdec (s'.dl + 1) (by omega) (by omega), b9⟩
      · have := b3.old hb' hq hl
        change q ∈ x.st.trail ∧ x.st.level q.var = _ at this
        exact hlow q this.1 (by omega)
      · intro hn
        exact (Asg.sat_neg M _).1 hn hsat
    refine ⟨f1, ?_⟩
    show ∃ k ≤ s'.flip, (∀ i, 1 ≤ i → i ≤ k → M.sat (s'.decision i)) ∧ (∀ q ∈ s'.trail, s'.level q.var < k → M.sat q) ∧ ∃ q ∈ s'.trail, s'.level q.var = k ∧ ¬ M.sat q ∧ q.var ≤ n ∧ s'.Flp q k
    rcases f3 with ⟨f3, f4⟩ | ⟨k, hk, f3, f4, q, hq, hl, hn, hv, hF⟩
    · exact hnew (f3 _ (by omega) (by omega)) (fun i h1 h2 => f3 i h1 (by omega)) (fun q hq hl => f4 q hq (by omega))
    · by_cases hks : k ≤ s'.dl
      · obtain ⟨q1, q2⟩ := b3l q hq (by omega)
        exact ⟨k, by omega, fun i h1 h2 => by rw [b3d i h1 (by omega)]; exact f3 i h1 h2, fun q hq hl => by
          have := b3.old hb' hq (Nat.lt_of_lt_of_le hl hks)
          change q ∈ x.st.trail ∧ x.st.level q.var = _ at this
          exact f4 q this.1 (by omega), q, q1, q2.trans hl, hn, hv, b3.flp q k hks hF⟩
      · exact hnew (f3 _ (by omega) (by omega)) (fun i h1 h2 => f3 i h1 (by omega)) (fun q hq hl => f4 q hq (by omega))
  · exact ⟨(hhas C hC).1.imp (fun hh => hh.mono b3.zero (fun i hi hp => ⟨hp, hi, fun _ hx => hx⟩) (fun _ _ h => h) (fun _ _ _ h => h)) (fun h => h),
      (hhas C hC).2⟩

/-! ### Conflicts -/

theorem Inv.resolve (h : x.Inv learn n E P) (hn : n < varMax) {cfg : AnaCfg} {fuel id : Nat} {shared implicit : Bool} {d' : Db}
    (hc : x.st.conflict ≠ []) (hid : id ∉ x.db.ids) (hep : ∀ e, cfg.rc = some e → ∀ v, e v ≤ e 0) (harc : ArcOk (x.th E n).F cfg.arc)
    (hr : x.db.resolve learn cfg fuel id shared implicit = some (d', true)) : ({ x with db := d' } : Sys).Inv learn n E P ∧ d'.st.conflict = [] := by
  have hr0 := hr
  unfold Db.resolve at hr
  split at hr
  · split at hr
    · rename_i h1 h2
      obtain ⟨h2, rfl⟩ := h2
      have hfd := h.ok.inv.base.wf.fd
      obtain ⟨d1, l, N, e1, e2, e3, _⟩ := Db.resolve_learn h.ok hc (show x.db.st.flip < x.db.st.dl by omega) h.mode
        (fun q hq hl M m => m.2 q hq hl) (Nat.lt_of_le_of_lt h.dl_le hn) cfg hep harc hid shared implicit
      have := Db.resolve_mono (k := N) hr0
      rw [e1 _ (by omega)] at this
      simp only [Option.some.injEq, Prod.mk.injEq, and_true] at this
      subst this
      exact ⟨h.created e2 hid, e3⟩
    · simp only [Option.some.injEq, Prod.mk.injEq] at hr
      obtain ⟨rfl, h2⟩ := hr
      exact back h.ok h.zero h.ids h.dec h.asm h.root (fun M hM => ⟨(h.fnd M hM).1, Or.inr (h.fnd M hM).2⟩) h.fnp h.rcd h.cov h.rcp
        h.has (h.ok.inv.dead hc) h2
  · simp at hr

/-! ### Assumptions -/

theorem Inv.assume (h : x.Inv learn n E P) {p : Lit} (hc : x.st.conflict = []) (hd : x.st.dl = x.st.root) (hf : x.st.front = x.st.trail.length)
    (hp : x.st.value p.var = none) (hv : p.var ≤ n) (hr : x.recs = []) :
    ({ x.setSt ((x.st.decide' p).pushRootLevel 1) with asm := p :: x.asm } : Sys).Inv learn n E P := by
  have h1 := h.decide hc hf hp hv
  have hb := h.ok.inv.base
  obtain ⟨i1, i2, i3, i4⟩ := h1.ok.inv.pushRoot hc 1
  have hrf := hb.wf.rf
  have hfd' := hb.wf.fd
  change (((x.st.decide' p).pushRootLevel 1).Inv learn _) at i1
  change Down (x.st.decide' p) ((x.st.decide' p).pushRootLevel 1) at i2
  have er : ((x.st.decide' p).pushRootLevel 1).root = x.st.dl + 1 := by
    show min (x.st.decide' p).dl (x.st.root + 1) = _
    rw [decide_dl]; omega
  have ef : ((x.st.decide' p).pushRootLevel 1).flip = x.st.dl + 1 := by
    show max x.st.flip (min (x.st.decide' p).dl (x.st.root + 1)) = _
    rw [decide_dl]
    change x.st.root ≤ x.st.flip at hrf
    change x.st.flip ≤ x.st.dl at hfd'
    omega
  have hok := h1.ok.setSt i1 i2
  obtain ⟨r1, r2⟩ := retheory (y := { x.setSt ((x.st.decide' p).pushRootLevel 1) with asm := p :: x.asm }) h1.zero hok (fun q hq hl => ⟨hq, hl⟩)
    (fun M m => m) (fun M m => m)
  refine ⟨⟨r1, r2, fun _ => ef.trans er.symm, h.ids, h1.dec, fun a ha => ?_, fun i j1 j2 => ?_, fun M hM => ?_, h.fnp, fun r hM => ?_, fun M _ _ => Or.inl fun r hM => ?_, h.rcp⟩, fun C hC => ?_⟩
  · rcases List.mem_cons.1 ha with rfl | ha
    · refine ⟨Or.inr (List.mem_cons_self ..), ?_⟩
      show (x.st.decide' a).level a.var ≤ ((x.st.decide' a).pushRootLevel 1).root
      rw [er, decide_level, if_pos rfl]
    · obtain ⟨a1, a2⟩ := h1.asm a ha
      exact ⟨a1, Nat.le_trans a2 i4⟩
  · change i ≤ ((x.st.decide' p).pushRootLevel 1).root at j2
    show (x.st.decide' p).decision i ∈ _
    rw [er] at j2
    by_cases hi : i ≤ x.st.dl
    · rw [show (x.st.decide' p).decision i = x.st.decision i from decide_decision hb.wf p j1 hi]
      exact List.mem_cons_of_mem _ (h.root i j1 (by omega))
    · obtain rfl : i = x.st.dl + 1 := by omega
      rw [decide_new]; exact List.mem_cons_self ..
  · obtain ⟨f1, k, hk, f3⟩ := h1.fnd M hM
    change k ≤ x.st.flip at hk
    change x.st.flip ≤ x.st.dl at hfd'
    refine ⟨f1, k, ?_, f3⟩
    show k ≤ ((x.st.decide' p).pushRootLevel 1).flip
    omega
  · change r ∈ x.recs at hM; rw [hr] at hM; simp at hM
  · change r ∈ x.recs at hM; rw [hr] at hM; simp at hM
  · exact ⟨(h1.has C hC).1.imp (fun hh => hh.mono i2.zero (fun i hi hp => ⟨hp, hi, fun _ hx => hx⟩) (fun _ _ h => h) (fun _ _ _ h => h)) (fun h => h),
      (h1.has C hC).2⟩

theorem Inv.assumeTrue (h : x.Inv learn n E P) {p : Lit} (hd : x.st.dl = x.st.root) (hp : x.st.isTrue p = true)
    (hr : x.recs = []) : ({ x with asm := p :: x.asm } : Sys).Inv learn n E P := by
  have hb := h.ok.inv.base
  obtain ⟨r1, r2⟩ := retheory (y := { x with asm := p :: x.asm }) h.zero h.ok (fun q hq hl => ⟨hq, hl⟩) (fun M m => m) (fun M m => m)
  refine ⟨⟨r1, r2, h.mode, h.ids, h.dec, fun a ha => ?_, fun i h1 h2 => List.mem_cons_of_mem _ (h.root i h1 h2), fun M hM => ?_, h.fnp, fun r hM => ?_,
    fun M _ _ => Or.inl fun r hM => ?_, h.rcp⟩, h.has⟩
  · rcases List.mem_cons.1 ha with rfl | ha
    · have ht := (hb.isTrue_iff a).1 hp
      refine ⟨ht, ?_⟩
      show x.st.level a.var ≤ x.st.root
      rw [← hd]
      rcases ht with rfl | ht
      · unfold St.level; rw [litTrue_var]; show (x.db.st.cell 0).lev ≤ _; rw [hb.c0]; simp
      · exact trail_lev_le hb.wf ht
    · exact h.asm a ha
  · exact h.fnd M hM
  · change r ∈ x.recs at hM; rw [hr] at hM; simp at hM
  · change r ∈ x.recs at hM; rw [hr] at hM; simp at hM

theorem Inv.split (h : x.Inv learn n E P) (hc : x.st.conflict = []) (hd : x.st.root < x.st.dl) (hr : x.recs = []) :
    ({ x.setSt (x.st.pushRootLevel 1) with asm := x.st.decision (x.st.root + 1) :: x.asm } : Sys).Inv learn n E P := by
  have hb := h.ok.inv.base
  obtain ⟨i1, i2, i3, i4⟩ := h.ok.inv.pushRoot hc 1
  change ((x.st.pushRootLevel 1).Inv learn _) at i1
  change Down x.st (x.st.pushRootLevel 1) at i2
  change x.st.root ≤ (x.st.pushRootLevel 1).root at i4
  have er : (x.st.pushRootLevel 1).root = x.st.root + 1 := by
    show min x.st.dl (x.st.root + 1) = _
    omega
  have ef : (x.st.pushRootLevel 1).flip = max x.st.flip (x.st.root + 1) := by
    show max x.st.flip (min x.st.dl (x.st.root + 1)) = _
    omega
  have hok := h.ok.setSt i1 i2
  obtain ⟨r1, r2⟩ := retheory (y := { x.setSt (x.st.pushRootLevel 1) with asm := x.st.decision (x.st.root + 1) :: x.asm }) h.zero hok (fun q hq hl => ⟨hq, hl⟩)
    (fun M m => m) (fun M m => m)
  refine ⟨⟨r1, r2, fun hm => ?_, h.ids, h.dec, fun a ha => ?_, fun i j1 j2 => ?_, fun M hM => ?_, h.fnp, fun r hM => ?_, fun M _ _ => Or.inl fun r hM => ?_, h.rcp⟩, fun C hC => ?_⟩
  · show (x.st.pushRootLevel 1).flip = (x.st.pushRootLevel 1).root
    rw [er, ef, h.mode hm]; omega
  · rcases List.mem_cons.1 ha with rfl | ha
    · have hm := decision_mem hb.wf (show 1 ≤ x.st.root + 1 by omega) hd
      exact ⟨Or.inr hm.1, Nat.le_trans (Nat.le_of_eq hm.2) (Nat.le_of_eq er.symm)⟩
    · obtain ⟨a1, a2⟩ := h.asm a ha
      exact ⟨a1, Nat.le_trans a2 i4⟩
  · change i ≤ (x.st.pushRootLevel 1).root at j2
    show x.st.decision i ∈ _
    rw [er] at j2
    by_cases hi : i ≤ x.st.root
    · exact List.mem_cons_of_mem _ (h.root i j1 hi)
    · obtain rfl : i = x.st.root + 1 := by omega
      exact List.mem_cons_self ..
  · obtain ⟨f1, k, hk, f3⟩ := h.fnd M hM
    refine ⟨f1, k, ?_, f3⟩
    show k ≤ (x.st.pushRootLevel 1).flip
    omega
  · change r ∈ x.recs at hM; rw [hr] at hM; simp at hM
  · change r ∈ x.recs at hM; rw [hr] at hM; simp at hM
  · exact ⟨(h.has C hC).1.imp (fun hh => hh.mono i2.zero (fun i hi hp => ⟨hp, hi, fun _ hx => hx⟩) (fun _ _ h => h) (fun _ _ _ h => h)) (fun h => h),
      (h.has C hC).2⟩

theorem Inv.popRoot' (h : x.Inv learn n E P) {s u : St} (hcl : s.clearStopConflict = u) (hi : u.Inv learn (x.th E n)) (hdn : Down x.st u)
    (hrt : u.root = x.st.root) (k : Nat) (hfd : x.found = []) (hr : x.recs = []) :
    ({ x.setSt (s.popRootLevel learn k).1 with asm := (List.range (x.st.root - k)).map fun i => x.st.decision (i + 1) } : Sys).Inv learn n E P := by
  have hb := h.ok.inv.base
  obtain ⟨p1, p2, p3, p4, p5, _⟩ := popRoot_spec (hcl ▸ hi : s.clearStopConflict.Inv learn _) k
  rw [hcl] at p2 p3 p4 p5
  rw [hrt] at p2 p3 p5
  replace p4 := hdn.trans p4
  have hok := h.ok.setSt p1 p4
  generalize hs : (s.popRootLevel learn k).1 = s' at *
  have hdl := p4.dl
  obtain ⟨r1, r2⟩ := retheory (y := { x.setSt s' with asm := (List.range (x.st.root - k)).map fun i => x.st.decision (i + 1) }) h.zero hok
    (fun q hq hl => by have := p4.lit q hq (by omega); exact ⟨this.1, this.2.trans hl⟩) (fun M m => m) (fun M m => m)
  have hdec : ∀ i, 1 ≤ i → i ≤ s'.dl → s'.decision i = x.st.decision i := p4.dec
  refine ⟨⟨r1, r2, fun _ => p3.trans p2.symm, h.ids, fun i h1 h2 => ?_, fun a ha => ?_, fun i h1 h2 => ?_, fun M hM => ?_, h.fnp, fun r hM => ?_,
    fun M _ _ => Or.inl fun r hM => ?_, h.rcp⟩, fun C hC => ?_⟩
  · change i ≤ s'.dl at h2
    show (s'.decision i).var ≤ n
    rw [hdec i h1 h2]; exact h.dec i h1 (by omega)
  · obtain ⟨i, hi, rfl⟩ := List.mem_map.1 ha
    have hi := List.mem_range.1 hi
    show s'.tl (x.st.decision (i + 1)) ∧ s'.level (x.st.decision (i + 1)).var ≤ s'.root
    have := decision_mem p1.base.wf (show 1 ≤ i + 1 by omega) (show i + 1 ≤ s'.dl by omega)
    rw [hdec _ (by omega) (by omega)] at this
    exact ⟨Or.inr this.1, by omega⟩
  · change i ≤ s'.root at h2
    show s'.decision i ∈ _
    rw [hdec i h1 (by omega)]
    exact List.mem_map.2 ⟨i - 1, List.mem_range.2 (by omega), by rw [show i - 1 + 1 = i by omega]⟩
  · change M ∈ x.found at hM; rw [hfd] at hM; simp at hM
  · change r ∈ x.recs at hM; rw [hr] at hM; simp at hM
  · change r ∈ x.recs at hM; rw [hr] at hM; simp at hM
  · exact ⟨(h.has C hC).1.imp (fun hh => hh.mono p4.zero (fun i hi hp => ⟨hp, hi, fun _ hx => hx⟩) (fun _ _ h => h) (fun _ _ _ h => h)) (fun h => h),
      (h.has C hC).2⟩

theorem Inv.popRoot (h : x.Inv learn n E P) (k : Nat) (hfd : x.found = []) (hr : x.recs = []) :
    ({ x.setSt (x.st.popRootLevel learn k).1 with asm := (List.range (x.st.root - k)).map fun i => x.st.decision (i + 1) } : Sys).Inv learn n E P :=
  h.popRoot' (by unfold clearStopConflict; rw [show x.st.stop = none from h.ok.inv.stop]; rfl) h.ok.inv (Down.refl _) rfl k hfd hr

theorem Inv.popFail (h : x.Inv learn n E P) (k : Nat) (hfd : x.found = []) (hr : x.recs = []) (hc : x.st.conflict ≠ [])
    (hb : (x.st.backtrack learn).2 = false) :
    ({ x.setSt ((x.st.backtrack learn).1.popRootLevel learn k).1 with
        asm := (List.range (x.st.root - k)).map fun i => x.st.decision (i + 1) } : Sys).Inv learn n E P := by
  obtain ⟨u, b1, b2, b3, b4, b5, _⟩ := (backtrack_spec h.ok.inv (h.ok.inv.dead hc)).2 hb
  have hrf := b2.base.wf.rf
  have hfu := b2.base.wf.fd
  exact h.popRoot' (s := (x.st.backtrack learn).1) (by rw [show (x.st.backtrack learn).1 = _ from b1]; exact stop_clear b2.stop b4 hfu hrf) b2 b3 b5 k hfd hr

/-! ### Models -/

theorem Inv.not_found (h : x.Inv learn n E P) {M : Asg} (hM : M ∈ x.found) : ¬ agreeOn (fun _ => true) n x.st.model M := by
  intro ha
  have hb := h.ok.inv.base
  obtain ⟨_, k, _, _, _, q, hq, _, hn, hv, _⟩ := h.fnd M hM
  exact hn ((agree_sat ha (Nat.one_le_iff_ne_zero.2 (hb.toff q hq)) hv rfl).1 (model_sat hb (Or.inr hq)))

theorem commit_eq {T : Th} {s : St} (hi : s.Inv learn T) : s.btCommit.1 = { s with flip := s.dl, mode := 1 } := by
  have hm := hi.mode
  have h1 := hi.base.wf.rf
  have h2 := hi.base.wf.fd
  unfold btCommit setBacktrackLevel
  dsimp only
  rw [if_pos (show undoPopBt ≥ s.mode from hm)]
  rw [show max (min s.dl s.dl) s.root = s.dl by omega]; rfl

/-- The state from which enumeration by backtracking goes back. -/
theorem Inv.bt (h : x.Inv learn n E P) (ht : x.st.Total n) :
    ∃ t : St, x.st.btCommit.1.undoUntil learn x.st.btCommit.1.flip undoPopBt = t ∧
      (let x2 : Sys := { x.setSt t with found := x.st.model :: x.found }
       x2.db.Ok learn (x2.th E n) ∧ (∀ M, x2.todo E n M → x2.zeroSat M) ∧ Down x.st t ∧ t.root = x.st.root ∧ t.flip = x.st.dl ∧ t.dl = x.st.dl ∧
       (∀ M, (x2.th E n).G M → ¬ t.pathSat M t.dl)) := by
  have hi := h.ok.inv
  have hb := hi.base
  refine ⟨_, rfl, ?_⟩
  dsimp only
  rw [show x.st.btCommit.1 = { x.st with flip := x.st.dl, mode := 1 } from commit_eq hi]
  obtain ⟨r1, r2⟩ := retheory (y := { x with found := x.st.model :: x.found }) h.zero h.ok (fun q hq hl => ⟨hq, hl⟩)
    (fun M m => m) (fun M m => ⟨m.1, fun M' hM' => m.2 M' (List.mem_cons_of_mem _ hM')⟩)
  have j1 := r1.inv.setFlip (m := 1) (by omega)
  change St.Inv learn _ ({ x.st with flip := x.st.dl, mode := 1 } : St) at j1
  have d1 : Down x.st { x.st with flip := x.st.dl, mode := 1 } := Down.of_eq rfl rfl rfl rfl rfl (fun _ _ h => h) (.of_imp rfl)
  obtain ⟨u1, u2, u3, u4, u5, u6⟩ := j1.undoUntil (level := x.st.dl) (mode := undoPopBt) (Nat.le_refl 1)
  have hrd : x.st.root ≤ x.st.dl := Nat.le_trans hb.wf.rf hb.wf.fd
  obtain ⟨_, _, _, _, v5⟩ := undoPop_spec j1 (mode := undoPopBt) (Nat.le_refl 1) x.st.dl
  have hdown := d1.trans (u5.down j1.base u1.base u6 (undo_flp _ _ _))
  show Db.Ok learn _ _ ∧ _
  generalize ({ x.st with flip := x.st.dl, mode := 1 } : St).undoUntil learn ({ x.st with flip := x.st.dl, mode := 1 } : St).flip undoPopBt = t at *
  change t.dl = min x.st.dl (max x.st.dl x.st.root) at v5
  have edl : t.dl = x.st.dl := by omega
  have hok := r1.setSt u1 hdown
  obtain ⟨s1, s2⟩ := retheory (x := { x with found := x.st.model :: x.found }) (y := { x.setSt t with found := x.st.model :: x.found }) r2 hok
    (fun q hq hl => by
      have hl' : x.st.level q.var = 0 := hl
      have := hdown.lit q hq (by omega); exact ⟨this.1, this.2.trans hl⟩) (fun M m => m) (fun M m => m)
  refine ⟨s1, s2, hdown, u2, ?_, edl, ?_⟩
  · rw [u4, if_neg (by show ¬ x.st.dl < x.st.dl; omega)]
  · intro M m hp
    have hG : (x.th E n).G M := by
      have : x.todo E n M := ⟨m.1.1, fun M' hM' => m.1.2 M' (List.mem_cons_of_mem _ hM')⟩
      exact ⟨this, h.zero M this⟩
    have hp' : x.st.pathSat M x.st.dl := fun i h1 h2 => by
      rw [← hdown.dec i h1 (by omega)]; exact hp i h1 (by omega)
    exact m.1.2 x.st.model (List.mem_cons_self ..) (path_agree hi ht hG hp')

/-- Without projection, enumeration by backtracking always takes its first branch. -/
theorem Inv.bt_branch (h : x.Inv learn n E P) (hn : n < varMax) (ht : x.st.Total n) :
    ∃ t : St, x.st.btCommit.1.undoUntil learn x.st.btCommit.1.flip undoPopBt = t ∧
      x.st.btCommit.1.btUpdate learn x.st.btCommit.2 = some (t.backtrack learn) := by
  obtain ⟨t, e, hok, _, hdn, _, _, hdl, _⟩ := h.bt ht
  refine ⟨t, e, ?_⟩
  have hlv : t.LvOk := hok.inv.base.lvOk (by show t.dl < varMax; rw [hdl]; exact Nat.lt_of_le_of_lt h.dl_le hn)
  have hb := hok.inv.base
  change t.Base at hb
  unfold btUpdate
  rw [e]
  dsimp only
  rw [if_pos ?_]
  have hsol : x.st.btCommit.2 = [if x.st.dl = 0 then litFalse else (x.st.decision x.st.dl).neg] := rfl
  rw [hsol]
  generalize hp : (if x.st.dl = 0 then litFalse else (x.st.decision x.st.dl).neg) = p
  have hpf : t.isFalse p = true := by
    rw [hb.isFalse_iff, ← hp]
    split
    · exact Or.inl rfl
    · rename_i h0
      rw [Lit.neg_neg]
      have := decision_mem h.ok.inv.base.wf (show 1 ≤ x.st.dl by omega) (Nat.le_refl _)
      exact Or.inr (hdn.lit _ this.1 (by rw [hdl]; exact Nat.le_of_eq this.2)).1
  have hum := umax_val
  rcases prepareVec_spec hlv (lits := [p]) (force := false) (by simp [hum]) (by simp) with ⟨_, h1⟩ | ⟨_, h2, _⟩
  · exfalso
    rcases h1 with ⟨q, hq, h3, _⟩ | ⟨q, hq, h3⟩
    · rw [List.mem_singleton.1 hq] at h3
      rw [St.true_false h3] at hpf; simp at hpf
    · rw [List.mem_singleton.1 hq, List.mem_singleton] at h3
      exact absurd (congrArg Lit.sign h3) (by simp [Lit.neg])
  · cases hl : Prep.prepareVec t [p] false with
    | nil => exact Or.inl rfl
    | cons a l =>
      right
      have := ((h2 a).1 (by rw [hl]; simp)).1
      rw [List.mem_singleton.1 this] 
      exact hpf

theorem Inv.modelBt (h : x.Inv learn n E P) (hn : n < varMax) (ht : x.st.Total n) (hE : E x.st.model) {s' : St}
    (hu : x.st.btCommit.1.btUpdate learn x.st.btCommit.2 = some (s', true)) :
    ({ x.setSt s' with found := x.st.model :: x.found } : Sys).Inv learn n E P ∧ s'.conflict = [] := by
  have hb := h.ok.inv.base
  obtain ⟨m1, m2⟩ := h.model ht hE
  obtain ⟨t, e, h2⟩ := h.bt_branch hn ht
  obtain ⟨t', e', k1, k2, k3, k4, k5, k6, k7⟩ := h.bt ht
  obtain rfl : t = t' := e.symm.trans e'
  rw [h2] at hu
  simp only [Option.some.injEq] at hu
  have hfd := hb.wf.fd
  have hrd : x.st.root ≤ x.st.dl := Nat.le_trans hb.wf.rf hb.wf.fd
  have kd : ∀ i, 1 ≤ i → i ≤ x.st.dl → t.decision i = x.st.decision i := fun i h1 h2 => k3.dec i h1 (by omega)
  have kl : ∀ q ∈ x.st.trail, q ∈ t.trail ∧ t.level q.var = x.st.level q.var := fun q hq =>
    k3.lit q hq (by rw [k6]; exact trail_lev_le hb.wf hq)
  have ko : ∀ q ∈ t.trail, t.level q.var < t.dl → q ∈ x.st.trail ∧ x.st.level q.var = t.level q.var := fun q hq hl => k3.old k1.inv.base hq hl
  have := back (x := { x.setSt t with found := x.st.model :: x.found }) (learn := learn) (n := n) (E := E) (P := P) k1 k2 h.ids ?_ ?_ ?_ ?_ ?_ h.rcd h.cov h.rcp ?_ k7
    (by show (t.backtrack learn).2 = true; rw [hu])
  · have e2 : (t.backtrack learn).1 = s' := by rw [hu]
    change Sys.Inv learn n E P { x.setSt (t.backtrack learn).1 with found := x.st.model :: x.found } ∧ (t.backtrack learn).1.conflict = [] at this
    rw [e2] at this
    exact this
  · intro i h1 h2
    show (t.decision i).var ≤ n
    change i ≤ t.dl at h2
    rw [kd i h1 (by omega)]; exact h.dec i h1 (by omega)
  · intro a ha
    obtain ⟨a1, a2⟩ := h.asm a ha
    show t.tl a ∧ t.level a.var ≤ t.root
    rw [k4]
    rcases a1 with rfl | a1
    · have hb' := k1.inv.base
      change t.Base at hb'
      exact ⟨Or.inl rfl, by unfold St.level; rw [litTrue_var, hb'.c0]; simp⟩
    · obtain ⟨q1, q2⟩ := kl a a1
      exact ⟨Or.inr q1, by omega⟩
  · intro i h1 h2
    change i ≤ t.root at h2
    show t.decision i ∈ x.asm
    rw [kd i h1 (by omega)]; exact h.root i h1 (by omega)
  · intro M hM
    rcases List.mem_cons.1 hM with rfl | hM
    · refine ⟨m1, Or.inl ⟨fun i h1 h2 => ?_, fun q hq hl => model_sat hb (Or.inr (ko q hq hl).1)⟩⟩
      change i ≤ t.dl at h2
      show x.st.model.sat (t.decision i)
      rw [kd i h1 (by omega)]
      exact model_sat hb (Or.inr (decision_mem hb.wf h1 (show i ≤ x.st.dl by omega)).1)
    · obtain ⟨f1, k, hk, f3, f4, q, hq, hl, hn, hv, hF⟩ := h.fnd M hM
      refine ⟨f1, Or.inr ⟨k, ?_, fun i h1 h2 => ?_, fun q hq hl => ?_, q, (kl q hq).1, (kl q hq).2.trans hl, hn, hv, k3.flp q k (by rw [k6]; exact Nat.le_trans hk hfd) hF⟩⟩
      · show k ≤ t.flip
        change x.st.flip ≤ x.st.dl at hfd
        omega
      · show M.sat (t.decision i)
        change x.st.flip ≤ x.st.dl at hfd
        rw [kd i h1 (by omega)]; exact f3 i h1 h2
      · change t.level q.var < k at hl
        obtain ⟨o1, o2⟩ := ko q hq (by change x.st.flip ≤ x.st.dl at hfd; omega)
        exact f4 q o1 (by omega)
  · exact List.pairwise_cons.2 ⟨fun M hM => h.not_found hM, h.fnp⟩
  · intro C hC
    exact ⟨(h.has C hC).1.imp (fun hh => hh.mono k3.zero (fun i hi hp => ⟨hp, hi, fun _ hx => hx⟩) (fun _ _ h => h) (fun _ _ _ h => h)) (fun h => h),
      (h.has C hC).2⟩

/-! ### Recording -/

theorem mem_decisionNogood {s : St} {p : Lit} : p ∈ s.decisionNogood ↔ ∃ i, 1 ≤ i ∧ i ≤ s.dl ∧ p = (s.decision i).neg := by
  unfold decisionNogood
  simp only [List.mem_map, List.mem_range]
  constructor
  · rintro ⟨i, hi, rfl⟩; exact ⟨s.dl - i, by omega, by omega, rfl⟩
  · rintro ⟨i, h1, h2, rfl⟩; exact ⟨s.dl - i, by omega, by rw [show s.dl - (s.dl - i) = i by omega]⟩

theorem decisionNogood_nodup {s : St} (hb : s.Base) : s.decisionNogood.Nodup := by
  unfold decisionNogood
  refine (List.nodup_map_iff_inj_on List.nodup_range).2 ?_
  intro i hi j hj hij
  have hi := List.mem_range.1 hi
  have hj := List.mem_range.1 hj
  have hv : (s.decision (s.dl - i)).var = (s.decision (s.dl - j)).var := by
    have := congrArg Lit.var hij
    simpa [Lit.neg_var] using this
  have e1 := (decision_mem hb.wf (show 1 ≤ s.dl - i by omega) (by omega)).2
  have e2 := (decision_mem hb.wf (show 1 ≤ s.dl - j by omega) (by omega)).2
  rw [hv] at e1
  omega

theorem mem_projectNogood {s : St} {step p : Lit} : p ∈ s.projectNogood n P step ↔ (∃ v, 1 ≤ v ∧ v ≤ n ∧ P v = true ∧ p = (s.trueLit v).neg) ∨ p = step.neg := by
  unfold projectNogood
  simp only [List.mem_append, List.mem_map, List.mem_filter, List.mem_range, List.mem_singleton]
  constructor
  · rintro (⟨v, ⟨⟨i, hi, rfl⟩, hP⟩, rfl⟩ | h)
    · exact Or.inl ⟨i + 1, by omega, by omega, hP, rfl⟩
    · exact Or.inr h
  · rintro (⟨v, h1, h2, hP, rfl⟩ | h)
    · exact Or.inl ⟨v, ⟨⟨v - 1, by omega, by omega⟩, hP⟩, rfl⟩
    · exact Or.inr h

theorem projectNogood_nodup {s : St} {step : Lit} (hs : step.var = 0 ∨ P step.var = false) : (s.projectNogood n P step).Nodup := by
  unfold projectNogood
  rw [List.nodup_append]
  refine ⟨?_, List.nodup_singleton _, ?_⟩
  · refine (List.nodup_map_iff_inj_on ?_).2 ?_
    · refine List.Nodup.filter _ ((List.nodup_map_iff_inj_on List.nodup_range).2 ?_)
      intro i _ j _ h; omega
    · intro i _ j _ hij
      have := congrArg Lit.var hij
      simpa [Lit.neg_var, trueLit] using this
  · intro a ha b hb hab
    obtain ⟨v, hv, rfl⟩ := List.mem_map.1 ha
    rw [List.mem_singleton] at hb
    have hb := congrArg Lit.var (hab.trans hb)
    rw [Lit.neg_var, Lit.neg_var] at hb
    have hv := List.mem_filter.1 hv
    obtain ⟨i, _, rfl⟩ := List.mem_map.1 hv.1
    change i + 1 = step.var at hb
    rcases hs with hs | hs
    · omega
    · rw [← hb] at hs; rw [hv.2] at hs; simp at hs

theorem sat_trueLit {s : St} {M : Asg} {v : Nat} : M.sat (s.trueLit v) ↔ M v = s.model v := by
  unfold Asg.sat trueLit St.model
  dsimp only
  cases M v <;> cases (s.value v == some true) <;> simp [Lit.tv]

theorem Inv.modelRec (h : x.Inv learn n E P) (hn : n < varMax) (ht : x.st.Total n) (hE : E x.st.model) {k id : Nat} {lr implicit : Bool} {C : List Lit}
    (hfd : x.found = []) (hid : id ∉ x.db.ids) (hu : (x.st.undoUntil learn k undoDefault).conflict = []) (hlen : C.length < umax)
    (hC : (C = x.st.decisionNogood ∧ ∀ v, P v = true) ∨ ∃ step, (step = litTrue ∨ (step ∈ x.asm ∧ step.var ≤ n ∧ P step.var = false)) ∧
      C = x.st.projectNogood n P step) :
    ({ x with
        db := (({ x.db with st := x.st.undoUntil learn k undoDefault } : Db).createPrepared learn
          (Prep.prepareVec (x.st.undoUntil learn k undoDefault) C false) id false lr implicit {}).1
        recs := (C, x.st.model) :: x.recs
        prob := id :: x.prob } : Sys).Inv learn n E P := by
  have hi := h.ok.inv
  have hb := hi.base
  obtain ⟨m1, m2⟩ := h.model ht hE
  have hnd : C.Nodup := by
    rcases hC with ⟨rfl, _⟩ | ⟨step, hs, rfl⟩
    · exact decisionNogood_nodup hb
    · exact projectNogood_nodup (hs.imp (fun e => by rw [e]; rfl) (fun e => e.2.2))
  have hv : ∀ p ∈ C, p.var ≤ n := by
    intro p hp
    rcases hC with ⟨rfl, _⟩ | ⟨step, hs, rfl⟩
    · obtain ⟨i, h1, h2, rfl⟩ := mem_decisionNogood.1 hp
      rw [Lit.neg_var]; exact h.dec i h1 h2
    · rcases mem_projectNogood.1 hp with ⟨v, _, h2, _, rfl⟩ | rfl
      · exact h2
      · rw [Lit.neg_var]
        rcases hs with rfl | hs
        · exact Nat.zero_le _
        · exact hs.2.1
  -- the clause excludes the projection of the model
  have hex : ∀ M : Asg, M.sat litTrue → M.all x.asm → M.satC C → ¬ agreeOn P n M x.st.model := by
    intro M htt ha ⟨p, hp, hs⟩ hag
    rcases hC with ⟨rfl, hP⟩ | ⟨step, hst, rfl⟩
    · obtain ⟨i, h1, h2, rfl⟩ := mem_decisionNogood.1 hp
      have hd := decision_mem hb.wf h1 h2
      refine (Asg.sat_neg M _).1 hs ((agree_sat hag (Nat.one_le_iff_ne_zero.2 (hb.toff _ hd.1)) (h.dec i h1 h2) (hP _)).2 (model_sat hb (Or.inr hd.1)))
    · rcases mem_projectNogood.1 hp with ⟨v, h1, h2, h3, rfl⟩ | rfl
      · exact (Asg.sat_neg M _).1 hs (sat_trueLit.2 (hag v h1 h2 h3))
      · refine (Asg.sat_neg M _).1 hs ?_
        rcases hst with rfl | hst
        · exact htt
        · exact ha _ hst.1
  -- and nothing else
  have hcv : ∀ M, x.base E M → M.all x.asm → (∀ r ∈ x.recs, M.satC r.1) → M.satC C ∨ agreeOn P n M x.st.model := by
    intro M hM ha hr
    by_cases hs : M.satC C
    · exact Or.inl hs
    · right
      have hall : ∀ p ∈ C, ¬ M.sat p := fun p hp hsat => hs ⟨p, hp, hsat⟩
      rcases hC with ⟨rfl, _⟩ | ⟨step, hst, rfl⟩
      · have htd : x.todo E n M := ⟨⟨hM, hr⟩, by rw [hfd]; simp⟩
        have := path_agree hi ht (M := M) ⟨htd, h.zero M htd⟩ (fun i h1 h2 => by
          have := hall _ (mem_decisionNogood.2 ⟨i, h1, h2, rfl⟩)
          rw [Asg.sat_neg] at this; exact not_not.1 this)
        exact fun v h1 h2 _ => this v h1 h2 rfl
      · intro v h1 h2 h3
        have := hall _ (mem_projectNogood.2 (Or.inl ⟨v, h1, h2, h3, rfl⟩))
        rw [Asg.sat_neg] at this
        exact sat_trueLit.1 (not_not.1 this)
  have h0 := h.undo k
  generalize x.st.undoUntil learn k undoDefault = s0 at *
  have hcore : ∀ M, ({ x.setSt s0 with recs := (C, x.st.model) :: x.recs, prob := id :: x.prob } : Sys).core E M → (x.setSt s0).core E M := fun M m =>
    ⟨m.1, fun r hr => m.2 r (List.mem_cons_of_mem _ hr)⟩
  obtain ⟨r1, r2⟩ := retheory (y := { x.setSt s0 with recs := (C, x.st.model) :: x.recs, prob := id :: x.prob }) h0.zero h0.ok (fun q hq hl => ⟨hq, hl⟩) hcore
    (fun M m => ⟨hcore M m.1, m.2⟩)
  have hp : ({ x.setSt s0 with recs := (C, x.st.model) :: x.recs, prob := id :: x.prob } : Sys).Pre learn n E P := by
    refine ⟨r1, r2, h0.mode, h0.ids, h0.dec, h0.asm, h0.root, ?_, h0.fnp, ?_, ?_, ?_⟩
    · intro M hM; change M ∈ x.found at hM; rw [hfd] at hM; simp at hM
    · intro r hr
      rcases List.mem_cons.1 hr with rfl | hr
      · exact ⟨m1.1, m2, hex⟩
      · exact h.rcd r hr
    · intro M hM ha
      rcases h.cov M hM ha with hc | ⟨r, hr, hag⟩
      · rcases hcv M hM ha hc with h1 | h1
        · left
          intro r hr
          rcases List.mem_cons.1 hr with rfl | hr
          · exact h1
          · exact hc r hr
        · exact Or.inr ⟨_, List.mem_cons_self .., h1⟩
      · exact Or.inr ⟨r, List.mem_cons_of_mem _ hr, hag⟩
    · refine List.pairwise_cons.2 ⟨fun r hr => ?_, h.rcp⟩
      exact (h.rcd r hr).2.2 x.st.model m1.1.1 m2 (m1.2 r hr)
  refine hp.addClause hn C ?_ hu hid (List.mem_cons_self ..) hlen (Or.inr (Or.inl hnd)) (fun M m => m.2 _ (List.mem_cons_self ..)) hv
  intro D hD
  have old : (D ∈ x.orig ∨ ∃ r ∈ x.recs, D = r.1) → ((Db.Has (fun i => i ∈ id :: x.prob) (x.setSt s0).db D ∨ ∃ p ∈ D, p.neg ∈ D) ∧ ∀ p ∈ D, p.var ≤ n) :=
    fun hD => ⟨(h0.has D hD).1.imp (fun hh => hh.mono (fun _ h => h) (fun i hi hp => ⟨List.mem_cons_of_mem _ hp, hi, fun _ h => h⟩)
        (fun _ _ h => h) (fun _ _ _ h => h)) (fun h => h), (h0.has D hD).2⟩
  rcases hD with hD | ⟨r, hr, rfl⟩
  · exact Or.inr (old (Or.inl hD))
  · rcases List.mem_cons.1 hr with rfl | hr
    · exact Or.inl rfl
    · exact Or.inr (old (Or.inr ⟨r, hr, rfl⟩))

/-! ### All steps -/

theorem init_base : St.init.Base := by
  refine ⟨WF.init, rfl, by simp [St.init], ?_, by simp [St.init]⟩
  intro v hv
  left
  by_contra hn
  simp [St.init, St.value, hn, Cell.free] at hv

theorem Inv.init : Sys.init.Inv learn n E P := by
  have hi : St.init.Inv learn (Sys.init.th E n) := by
    refine ⟨⟨init_base, ⟨fun M m => m.1.1.1, by simp [St.init], by simp [St.init], by simp [St.init]⟩, rfl, by simp [St.init], by simp [St.init],
      by simp [St.init], by simp [St.init], by simp [St.init], by simp [St.init], by simp [St.init]⟩, ⟨?_, ?_, ?_, ?_, ?_, ?_, ?_⟩⟩ <;> simp [St.init]
  refine ⟨⟨⟨hi, ⟨?_, ?_, ?_, ?_⟩, ?_, ⟨?_, ?_⟩, ⟨?_, ?_⟩, ?_, ⟨?_, ?_⟩, ?_⟩, ?_, ?_, ?_, ?_, ?_, ?_, ?_, ?_, ?_, ?_, ?_⟩, ?_⟩
  all_goals simp [Sys.init, Sys.st, St.init, Db.Models, Graph.has2, Graph.has3, Graph.items, Graph.empty, Db.Good, Marked, zeroSat, St.dl]
  all_goals intro i h1 h2; omega

theorem Inv.step {y : Sys} (h : x.Inv learn n E P) (hn : n < varMax) (hs : Step learn n E P x y) : y.Inv learn n E P := by
  cases hs with
  | clause C id simp lr implicit hc hf hr hid hv hlen hd => exact h.clause hn hc hf hr hid hv hlen hd
  | implied C id simp shared lr implicit f hc hid hlen hd hF => exact h.lemma hn hc hid hlen hd hF
  | propagate fuel d' ok hc hp => exact (h.propagate hc hp).1
  | force p r hc hr hF htop => exact h.force hc hr hF htop
  | decide p hc hf hp hv => exact h.decide hc hf hp hv
  | resolve cfg fuel id shared implicit d' hc hid hep harc hr => exact (h.resolve hn hc hid hep harc hr).1
  | undo k => exact h.undo k
  | delete id hi => exact h.detach (Or.inl hi)
  | removeSat id p hi hp ht hl => exact h.detach (Or.inr ⟨hi, p, hp, ht, hl⟩)
  | assume p hc hd hf hp hv hfd hr => exact h.assume hc hd hf hp hv hr
  | assumeTrue p hc hd hp hfd hr => exact h.assumeTrue hd hp hr
  | split hc hd hfd hr => exact h.split hc hd hr
  | popRoot k hfd hr => exact h.popRoot k hfd hr
  | popFail k hfd hr hc hb => exact h.popFail k hfd hr hc hb
  | modelBt ht hE s' hu => exact (h.modelBt hn ht hE hu).1
  | modelRec ht hE k id lr implicit C hfd hid hu hlen hC => exact h.modelRec hn ht hE hfd hid hu hlen hC

theorem Reach.inv (hn : n < varMax) (h : Reach learn n E P x) : x.Inv learn n E P := by
  induction h with
  | init => exact Inv.init
  | step _ hs ih => exact ih.step hn hs

end Sys
end Clasp.Core
