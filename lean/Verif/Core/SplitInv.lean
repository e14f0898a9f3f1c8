/-
A solver leaves its guiding path, and takes another one. No code is modelled in this file except `Leave` and `renew`.
-/
import Verif.Core.SearchProps
namespace Clasp.Core
open St

namespace St
variable {learn : Bool} {M : Asg}

/-- Proof device: the assignment extends the values of the solver. -/
def ValSat (s : St) (M : Asg) : Prop := ∀ v b, s.value v = some b → M v = b

theorem ValSat.force {s : St} (h : s.ValSat M) {p : Lit} (hp : M.sat p) (a : Ante) :
    (s.force learn p a).1.ValSat M ∧ (s.force learn p a).1.conflict = s.conflict ∧ (s.force learn p a).2 = true ∧ (s.force learn p a).1.dl = s.dl := by
  unfold St.force assign
  cases hv : s.value p.var with
  | none =>
    refine ⟨fun v b hb => ?_, rfl, rfl, rfl⟩
    change (Function.update s.cell p.var _ v).val = some b at hb
    by_cases e : v = p.var
    · subst e
      rw [Function.update_self] at hb
      change some p.tv = some b at hb
      rw [← Option.some.inj hb]; exact hp
    · rw [Function.update_of_ne e] at hb; exact h v b hb
  | some b =>
    have : b = p.tv := (h _ _ hv).symm.trans hp
    subst this
    simp only [beq_self_eq_true]
    exact ⟨h, trivial, trivial, trivial⟩

theorem ValSat.impLoop : ∀ (l : List Implied) (s : St) (ok : Bool), s.ValSat M → (∀ y ∈ l, y.lev ≤ s.dl → M.sat y.lit) →
    (impLoop learn l s ok).1.ValSat M ∧ (St.impLoop learn l s ok).1.conflict = s.conflict := by
  intro l
  induction l with
  | nil => intro s ok h _; exact ⟨h, rfl⟩
  | cons x r ih =>
    intro s ok h hl
    unfold St.impLoop
    split
    · rename_i hle
      dsimp only
      cases ok with
      | false => exact ih s false h (fun y hy => hl y (List.mem_cons_of_mem _ hy))
      | true =>
        obtain ⟨f1, f2, _, f4⟩ := h.force (learn := learn) (hl x (List.mem_cons_self ..) hle) x.ante
        simp only [if_true]
        have := ih (s.force learn x.lit x.ante).1 (s.force learn x.lit x.ante).2 f1 (fun y hy hle => hl y (List.mem_cons_of_mem _ hy) (by omega))
        exact ⟨this.1, this.2.trans f2⟩
    · exact ih s ok h (fun y hy => hl y (List.mem_cons_of_mem _ hy))

/-- Models that agree with level 0 are not lost when all levels are undone. -/
theorem pop_sat {T : Th} {s : St} (hi : s.clearStopConflict.Inv learn T) (hr : 0 < s.clearStopConflict.root) (hT : T.F M)
    (hz : ∀ q ∈ s.clearStopConflict.trail, s.clearStopConflict.level q.var = 0 → M.sat q) {k : Nat} (hk : s.clearStopConflict.root ≤ k) :
    (s.popRootLevel learn k).1.conflict = [] ∧ ∀ q ∈ (s.popRootLevel learn k).1.trail, M.sat q := by
  have hpb := (popRoot_spec hi k).1.base
  suffices h : (s.popRootLevel learn k).1.conflict = [] ∧ (s.popRootLevel learn k).1.ValSat M by
    refine ⟨h.1, fun q hq => h.2 q.var q.tv ?_⟩
    have := (hpb.isTrue_iff q).2 (Or.inr hq)
    unfold St.isTrue at this
    simpa using this
  unfold popRootLevel
  generalize s.clearStopConflict = c at *
  dsimp only
  have hb := hi.base
  have hd : c.root ≤ c.dl := Nat.le_trans hb.wf.rf hb.wf.fd
  rw [show c.root - min k c.root = 0 by omega, undoUntil_eq, if_neg (by simp)]
  unfold undoFin
  dsimp only
  have hw : ({ c with root := 0, flip := 0, mode := 0, impFront := 0 } : St).WF :=
    hb.wf.congr rfl rfl rfl hb.wf.front (Nat.le_refl _) (Nat.zero_le _)
  obtain ⟨cut, hs⟩ := cut_undo (s := { c with root := 0, flip := 0, mode := 0, impFront := 0 }) (d := 0) hw (by show 0 < c.dl; omega) (by simp)
  have hcb : ({ c with root := 0, flip := 0, mode := 0, impFront := 0 } : St).Base := ⟨hw, hb.c0, hb.toff, hb.asg, hb.qlev⟩
  have hbu := cut.base hcb (hw.undoUntilImpl _)
  have himp : (({ c with root := 0, flip := 0, mode := 0, impFront := 0 } : St).undoUntilImpl 0).imp = c.imp := undoImpl_imp _ _
  have hif : (({ c with root := 0, flip := 0, mode := 0, impFront := 0 } : St).undoUntilImpl 0).impFront = 0 := hs.impFront
  generalize ({ c with root := 0, flip := 0, mode := 0, impFront := 0 } : St).undoUntilImpl 0 = u at *
  have hval : u.ValSat M := by
    intro v b hv
    have ht : u.isTrue ⟨v, !b⟩ = true := by unfold St.isTrue; rw [hv]; simp [Lit.tv]
    have : M.sat ⟨v, !b⟩ := by
      rcases (hbu.isTrue_iff _).1 ht with h | h
      · rw [h]; exact hi.sound.tt M hT
      · rw [cut.trail] at h
        obtain ⟨h1, h2⟩ := List.mem_filter.1 h
        have h2 : c.level v ≤ 0 := of_decide_eq_true h2
        exact hz _ h1 (Nat.le_zero.1 h2)
    unfold Asg.sat Lit.tv at this
    simpa using this
  split
  · unfold impAssign
    dsimp only
    have := hval.impLoop (learn := learn) (u.imp.drop u.impFront) u (!u.hasConflict) (fun y hy hle => by
      rw [cut.dl] at hle
      rw [hif, himp] at hy
      have hy : y ∈ c.imp := hy
      cases hya : y.ante with
      | none =>
        obtain ⟨t1, t2⟩ := hi.imp.nul y hy hya
        exact hz _ t1 (by omega)
      | some r =>
        obtain ⟨t1, t2⟩ := hi.imp.snd y hy r hya
        refine t2 M hT fun q hq => ?_
        obtain ⟨q1, q2⟩ := t1 q hq
        rcases q1 with rfl | q1
        · exact hi.sound.tt M hT
        · exact hz q q1 (by omega))
    exact ⟨this.2.trans cut.conf, this.1⟩
  · exact ⟨cut.conf, hval⟩

end St

theorem Db.Ok.upgrade {learn : Bool} {T T' : Th} {d : Db} (h : d.Ok learn T) (hc : d.st.conflict = [])
    (hF : ∀ M, T'.F M → T.F M) (hG : ∀ M, T'.G M → ∀ q ∈ d.st.trail, M.sat q) : d.Ok learn T' := by
  have hi := h.inv
  refine ⟨⟨⟨hi.base, ⟨fun M m => hi.sound.tt M (hF M m), fun t1 p t2 e r hr => ⟨(hi.sound.reason t1 p t2 e r hr).1, fun M m => (hi.sound.reason t1 p t2 e r hr).2 M (hF M m)⟩,
      fun q hq M m _ => hG M m q hq, hi.sound.null⟩, hi.stop, hi.mode, fun h => absurd hc h, hi.conf, fun _ h => absurd hc h, fun _ h => absurd hc h, hi.m1, hi.m2⟩,
      ⟨fun x hx r hr => ⟨(hi.imp.snd x hx r hr).1, fun M m => (hi.imp.snd x hx r hr).2 M (hF M m)⟩, hi.imp.nul, hi.imp.fr, hi.imp.low, hi.imp.asg, hi.imp.rt, hi.imp.lvl⟩⟩,
    h.wok, fun id hid M m => h.mods id hid M (hF M m), h.sym,
    ⟨fun a b hab M m => h.gmods.m2 a b hab M (hF M m), fun a b c hab M m => h.gmods.m3 a b c hab M (hF M m)⟩, h.good, h.good23, h.marked⟩

namespace Sys
variable {learn : Bool} {n : Nat} {E : Asg → Prop} {P : Nat → Bool} {x : Sys}

/-- parallel_solve.cpp:500-532, solver.cpp:957-994, model_enumerators.cpp:163-200: the states in which a solver leaves its path:
the current one, or the one after a failed attempt to backtrack from a conflict or from the last model. -/
inductive Leave (learn : Bool) (n : Nat) (E : Asg → Prop) (x : Sys) : St → Prop
  | direct : Leave learn n E x x.st
  | fail (hc : x.st.conflict ≠ []) (hb : (x.st.backtrack learn).2 = false) : Leave learn n E x (x.st.backtrack learn).1
  | last (s' : St) (ht : x.st.Total n) (hE : E x.st.model) (h : x.st.btCommit.1.btUpdate learn x.st.btCommit.2 = some (s', false)) : Leave learn n E x s'

/-- parallel_solve.cpp:425-460: all assumptions are withdrawn (`popRootLevel(rootLevel())`). `f` are the reported models that remain
excluded; the others belong to the path that is left. -/
def renew (learn : Bool) (x : Sys) (s : St) (f : List Asg) : Sys := { x.setSt (s.popRootLevel learn x.st.root).1 with asm := [], found := f }

theorem Leave.spec (h : x.Inv learn n E P) (hn : n < varMax) {s : St} (hl : Leave learn n E x s) (h0 : 0 < x.st.root) :
    ∃ u : St, ∃ T : Th, s.clearStopConflict = u ∧ Db.Ok learn T { x.db with st := u } ∧ Down x.st u ∧ u.root = x.st.root ∧
      ∀ M, T.F M ↔ x.core E M ∧ x.zeroSat M := by
  have hb := h.ok.inv.base
  cases hl with
  | direct =>
    exact ⟨x.st, x.th E n, by unfold clearStopConflict; rw [show x.st.stop = none from h.ok.inv.stop], h.ok, Down.refl _, rfl, fun M => Iff.rfl⟩
  | fail hc hb =>
    obtain ⟨u, b1, b2, b3, b4, b5, _⟩ := (backtrack_spec h.ok.inv (h.ok.inv.dead hc)).2 hb
    have hrf := b2.base.wf.rf
    have hfu := b2.base.wf.fd
    exact ⟨u, x.th E n, by rw [show (x.st.backtrack learn).1 = _ from b1]; exact stop_clear b2.stop b4 hfu hrf, h.ok.setSt b2 b3, b3, b5, fun M => Iff.rfl⟩
  | last _ ht hE hu =>
    obtain ⟨t, e, h2⟩ := h.bt_branch hn ht
    obtain ⟨t', e', k1, k2, k3, k4, k5, k6, k7⟩ := h.bt ht
    obtain rfl : t = t' := e.symm.trans e'
    rw [h2] at hu
    simp only [Option.some.injEq] at hu
    obtain ⟨u, b1, b2, b3, b4, b5, _⟩ := (backtrack_spec k1.inv k7).2 (show (t.backtrack learn).2 = false by rw [hu])
    have hrf := b2.base.wf.rf
    have hfu := b2.base.wf.fd
    have hu' : s = u.setStopConflict := by
      have e3 : (t.backtrack learn).1 = s := by rw [hu]
      rw [← e3]; exact b1
    refine ⟨u, _, by rw [hu']; exact stop_clear b2.stop b4 hfu hrf, k1.setSt b2 b3, k3.trans b3, b5.trans k4, fun M => ?_⟩
    show x.core E M ∧ (∀ q ∈ t.trail, t.level q.var = 0 → M.sat q) ↔ _
    refine and_congr_right fun _ => ⟨fun hz q hq hl => ?_, fun hz q hq hl => ?_⟩
    · obtain ⟨q1, q2⟩ := k3.lit q hq (by omega)
      exact hz q q1 (q2.trans hl)
    · have hrd : x.st.root ≤ x.st.dl := Nat.le_trans hb.wf.rf hb.wf.fd
      obtain ⟨q1, q2⟩ := k3.old k1.inv.base hq (by rw [hl]; omega)
      exact hz q q1 (q2.trans hl)

/-- The models that hold on level 0 are still possible after all assumptions have been withdrawn. -/
theorem Leave.sat (h : x.Inv learn n E P) (hn : n < varMax) {s : St} (hl : Leave learn n E x s) (h0 : 0 < x.st.root) {M : Asg}
    (hM : x.core E M) (hz : x.zeroSat M) :
    (s.popRootLevel learn x.st.root).1.conflict = [] ∧ ∀ q ∈ (s.popRootLevel learn x.st.root).1.trail, M.sat q := by
  obtain ⟨u, T, e, hok, hdn, hrt, hT⟩ := hl.spec h hn h0
  subst e
  refine pop_sat hok.inv (by show 0 < s.clearStopConflict.root; omega) ((hT M).2 ⟨hM, hz⟩) (fun q hq hl => ?_) (Nat.le_of_eq hrt)
  have hb := hok.inv.base
  change s.clearStopConflict.Base at hb
  have hrd : s.clearStopConflict.root ≤ s.clearStopConflict.dl := Nat.le_trans hb.wf.rf hb.wf.fd
  obtain ⟨q1, q2⟩ := hdn.old hb hq (by omega)
  exact hz q q1 (q2.trans hl)

/-- A solver that has left its path can be used for another one. -/
theorem Inv.renew (h : x.Inv learn n E P) (hn : n < varMax) (hsup : ∀ M, E M → ∀ v, n < v → M v = false) {s : St} (hl : Leave learn n E x s) (h0 : 0 < x.st.root)
    (hr : x.recs = []) (hc : (s.popRootLevel learn x.st.root).1.conflict = []) {f : List Asg} (hf : f.Sublist x.found)
    (hf' : ∀ M ∈ x.found, M ∈ f ↔ ¬ x.zeroSat M) : (x.renew learn s f).Inv learn n E P := by
  have hb := h.ok.inv.base
  have hsat := fun M => hl.sat h hn h0 (M := M)
  obtain ⟨u, T, e, hok, hdn, hrt, hT⟩ := hl.spec h hn h0
  obtain ⟨p1, p2, p3, p4, p5, _⟩ := popRoot_spec (e ▸ hok.inv : s.clearStopConflict.Inv learn _) x.st.root
  rw [e] at p2 p3 p4 p5
  rw [hrt, Nat.sub_self] at p2 p3 p5
  have hok' := hok.setSt p1 p4
  replace p4 := hdn.trans p4
  change Db.Ok learn T { x.db with st := (s.popRootLevel learn x.st.root).1 } at hok'
  unfold Sys.renew
  generalize hs : (s.popRootLevel learn x.st.root).1 = s' at *
  have hz' : ∀ M, (∀ q ∈ s'.trail, s'.level q.var = 0 → M.sat q) → x.zeroSat M := fun M hz q hq hl => by
    have := p4.lit q hq (by omega)
    exact hz q this.1 (this.2.trans hl)
  have hall : ∀ q ∈ s'.trail, s'.level q.var = 0 := fun q hq => by
    have := trail_lev_le p1.base.wf hq
    omega
  refine ⟨⟨?_, fun M hM => ?_, fun _ => p3.trans p2.symm, h.ids, fun i h1 h2 => ?_, fun a ha => by simp at ha, fun i h1 h2 => ?_, fun M hM => ?_, h.fnp.sublist hf, fun r hM => ?_,
    fun M _ _ => Or.inl fun r hM => ?_, h.rcp⟩, fun C hC => ?_⟩
  · refine hok'.upgrade hc (fun M m => (hT M).2 ⟨m.1, hz' M m.2⟩) (fun M m q hq => m.2 q hq (hall q hq))
  · have hx : x.zeroSat M := by
      by_cases hfd : ∃ M' ∈ x.found, agreeOn (fun _ => true) n M M'
      · obtain ⟨M', hM', ha⟩ := hfd
        have hcore := (h.fnd M' hM').1
        have heq : M = M' := by
          funext v
          by_cases hv0 : v = 0
          · subst hv0
            have e1 := hM.1.1.1
            have e2 := hcore.1.1
            exact e1.trans e2.symm
          · by_cases hv : v ≤ n
            · exact ha v (by omega) hv rfl
            · rw [hsup M hM.1.1.2.1 v (by omega), hsup M' hcore.1.2.1 v (by omega)]
        subst heq
        by_contra hnz
        exact hM.2 M ((hf' M hM').2 hnz) (fun _ _ _ _ => rfl)
      · push Not at hfd
        exact h.zero M ⟨hM.1, hfd⟩
    exact fun q hq _ => (hsat M hM.1 hx).2 q hq
  · change i ≤ s'.dl at h2
    omega
  · change i ≤ s'.root at h2
    omega
  · change M ∈ f at hM
    have hMx := hf.subset hM
    obtain ⟨f1, k, hk, f3, f4, q, hq, hl', hns, hv, hF⟩ := h.fnd M hMx
    have hk0 : k = 0 := by
      by_contra hk0
      exact (hf' M hMx).1 hM fun q hq hl => f4 q hq (by omega)
    subst hk0
    obtain ⟨q1, q2⟩ := p4.lit q hq (by omega)
    refine ⟨f1, 0, Nat.zero_le _, fun i h1 h2 => by omega, fun q _ hl => by omega, q, q1, q2.trans hl', hns, hv, p4.flp q 0 (Nat.zero_le _) hF⟩
  · change r ∈ x.recs at hM; rw [hr] at hM; simp at hM
  · change r ∈ x.recs at hM; rw [hr] at hM; simp at hM
  · exact ⟨(h.has C hC).1.imp (fun hh => hh.mono p4.zero (fun i hi hp => ⟨hp, hi, fun _ hx => hx⟩) (fun _ _ h => h) (fun _ _ _ h => h)) (fun h => h),
      (h.has C hC).2⟩

end Sys
end Clasp.Core
