/-
Handling a conflict: src/solver.cpp 958-977 (`resolveConflict`). Proof that the learnt clause is unit after backtracking.
-/
import Verif.Core.CreateDb
import Verif.Core.AnalyzeProps
namespace Clasp.Core
open St

namespace St
variable {learn : Bool} {F : Th} {s : St}

/-- Implied literals that are true need no assignment. -/
theorem impLoop_true : ∀ (l : List Implied) (s : St), (∀ x ∈ l, s.isTrue x.lit = true) →
    (impLoop learn l s true).1 = s := by
  intro l
  induction l with
  | nil => intro s _; rfl
  | cons x r ih =>
    intro s h
    unfold impLoop
    by_cases hx : x.lev ≤ s.dl
    · rw [if_pos hx]
      simp only [if_true]
      rw [force_true (h x (by simp))]
      exact ih s (fun y hy => h y (List.mem_cons_of_mem _ hy))
    · rw [if_neg hx]; exact ih s (fun y hy => h y (List.mem_cons_of_mem _ hy))

theorem undoDef_eq (h0 : s.mode = 0 → s.flip = s.root) (level : Nat) :
    s.undoUntil learn level undoDefault = undoFin learn s level := by
  rw [undoUntil_eq]
  split
  · rename_i h
    have hm : s.mode = 0 := by have := h.2; unfold undoDefault at this; omega
    have : max s.root level = s.flip := by rw [h0 hm] at h ⊢; omega
    rw [this]
  · rfl

/-- Backtracking in the default mode from a level above the backtrack level. -/
theorem undoDef_spec (h : s.Inv learn F) (h0 : s.mode = 0 → s.flip = s.root) {level : Nat} (hlt : max level s.flip < s.dl) :
    (s.undoUntil learn level undoDefault).Inv learn F ∧ Down s (s.undoUntil learn level undoDefault) ∧
    (s.undoUntil learn level undoDefault).root = s.root ∧ (s.undoUntil learn level undoDefault).flip = s.flip ∧
    (s.undoUntil learn level undoDefault).mode = s.mode ∧ (s.undoUntil learn level undoDefault).dl = max level s.flip ∧
    (s.undoUntil learn level undoDefault).conflict = [] ∧
    (s.undoUntil learn level undoDefault).cell = (s.undoUntilImpl level).cell ∧
    (s.undoUntil learn level undoDefault).trail = (s.undoUntilImpl level).trail := by
  have hb := h.base
  rw [undoDef_eq h0]
  have e : s = { s with root := s.root, flip := s.flip, mode := s.mode, impFront := s.impFront } := rfl
  obtain ⟨c1, c2, c3, c4, c5, c6⟩ := undo_core (level := level) h (Nat.le_refl _ |>.trans hb.wf.rf) (Nat.le_refl _) (Nat.le_refl _) h.mode
    (Or.inl ⟨rfl, rfl⟩) (Or.inl rfl)
  rw [← e] at c1 c2 c3 c4 c5 c6
  obtain ⟨i1, i2, i3, _, i5, i6⟩ := undoImpl_spec h level
  have hne : s.dl ≠ s.flip := by omega
  obtain ⟨cu, _⟩ := cut_undo hb.wf hlt (by omega)
  rw [← undo_max] at cu
  have hbu := cu.base hb (hb.wf.undoUntilImpl _)
  have hcon : (s.undoUntilImpl level).conflict = [] ∧ (s.undoUntilImpl level).stop = none := ⟨cu.conf, cu.stop⟩
  have hsame : (undoFin learn s level).cell = (s.undoUntilImpl level).cell ∧ (undoFin learn s level).trail = (s.undoUntilImpl level).trail ∧
      (undoFin learn s level).conflict = (s.undoUntilImpl level).conflict ∧ (undoFin learn s level).lv = (s.undoUntilImpl level).lv := by
    have hbt : ∀ x ∈ (s.undoUntilImpl level).imp, (s.undoUntilImpl level).isTrue x.lit = true := by
      intro x hx
      rw [i3.imp] at hx
      rcases h.imp.asg x hx with ⟨h1, h2⟩ | ⟨_, h2⟩
      · exact (hbu.isTrue_iff x.lit).2 (i5 x.lit h1 (by omega)).1
      · exact absurd h2 hne
    unfold undoFin
    dsimp only
    split
    · unfold impAssign
      have : (!(s.undoUntilImpl level).hasConflict) = true := by rw [hasConflict_false.2 hcon]; rfl
      rw [this]
      have := impLoop_true (learn := learn) ((s.undoUntilImpl level).imp.drop (s.undoUntilImpl level).impFront) (s.undoUntilImpl level)
        (fun x hx => hbt x (List.mem_of_mem_drop hx))
      generalize impLoop learn ((s.undoUntilImpl level).imp.drop (s.undoUntilImpl level).impFront) (s.undoUntilImpl level) true = g at *
      obtain ⟨v, ok, kept⟩ := g
      dsimp only at *
      subst this
      exact ⟨rfl, rfl, rfl, rfl⟩
    · exact ⟨rfl, rfl, rfl, rfl⟩
  refine ⟨c1, c2.down hb c1.base c3 (undoFin_flp rfl _), c4, c5, c6, ?_, hsame.2.2.1.trans hcon.1, hsame.1, hsame.2.1⟩
  unfold St.dl at i2 ⊢
  rw [hsame.2.2.2, i2]; unfold St.dl at hlt; omega


/-- The decision of a level is its oldest literal. -/
theorem decision_oldest (h : s.WF) {d : Nat} (h1 : 1 ≤ d) (hd : d ≤ s.dl) {t1 t2 : List Lit} (ht : s.trail = t1 ++ s.decision d :: t2) :
    ∀ q ∈ t2, s.level q.var < d := by
  obtain ⟨l1, l, hl, hlen⟩ := lv_split (show d - 1 < s.dl by omega)
  rw [show d - 1 + 1 = d by omega] at hl
  have hq : s.levelStart d < s.trail.length := (List.pairwise_cons.1 h.lvs).1 _ (by rw [hl]; simp)
  have hlt : s.levelStart d < s.trail.reverse.length := by simpa using hq
  have hget : s.trail.reverse[s.levelStart d]? = some (s.decision d) := by
    unfold decision; rw [List.getElem?_eq_getElem hlt]; rfl
  have hnd : s.trail.reverse.Nodup := List.nodup_reverse.2 (List.Nodup.of_map _ h.nodup)
  have hpos : s.levelStart d = t2.length := by
    have h2 : s.trail.reverse[t2.length]? = some (s.decision d) := by
      rw [ht]; simp
    rw [List.getElem?_eq_some_iff] at hget h2
    obtain ⟨a1, a2⟩ := hget
    obtain ⟨b1, b2⟩ := h2
    exact (List.Nodup.getElem_inj_iff hnd).1 (a2.trans b2.symm)
  intro q hq2
  obtain ⟨i, hi, hqi⟩ := List.getElem_of_mem (List.mem_reverse.2 hq2)
  have hi' : i < t2.length := by simpa using hi
  have hg : s.trail.reverse[i]? = some q := by
    rw [ht]
    simp only [List.reverse_append, List.reverse_cons, List.append_assoc]
    rw [List.getElem?_append_left hi, List.getElem?_eq_getElem hi, hqi]
  unfold level
  rw [h.lev _ _ hg]
  have hlv := (List.pairwise_cons.1 h.lvs).2
  rw [hl] at hlv
  have hlv := List.pairwise_append.1 hlv
  unfold posLev
  rw [hl, List.countP_append, List.countP_cons, List.countP_eq_zero.2, if_neg]
  · have := List.countP_le_length (p := fun x => decide (x ≤ i)) (l := l)
    omega
  · simp; omega
  · intro x hx
    have := hlv.2.2 x hx (s.levelStart d) (by simp)
    simp; omega

/-- The state of a conflict above the backtrack level meets the requirements of conflict analysis. -/
theorem Inv.anaPre (h : s.Inv true F) (hc : s.conflict ≠ []) (hd : s.flip < s.dl)
    (h0 : ∀ q ∈ s.trail, s.level q.var = 0 → ∀ M, F M → M.sat q) : AnaPre F.F s := by
  have hb := h.base
  have hne : s.dl ≠ s.flip := by omega
  refine ⟨hb.wf, by omega, h.sound.tt, ⟨by unfold St.seen; rw [hb.c0]; rfl, by unfold St.level; rw [hb.c0]⟩, by unfold St.value; rw [hb.c0],
    hb.toff, hb.asg, fun q hq => ⟨h.m1 q hq, h.m2 (by omega) q hq⟩, h0, h.sound.reason, ?_, h.conf, h.confF rfl hc hne, ?_⟩
  · intro t1 p t2 ht hl hr q hq
    have hp : p ∈ s.trail := by rw [ht]; simp
    have e := h.sound.null p hp hr (by omega)
    rw [hl] at e
    rw [e] at ht
    exact decision_oldest hb.wf (by omega) (Nat.le_refl _) ht q hq
  · obtain ⟨q, h1, _, h3⟩ := h.confTop rfl hc hne
    exact ⟨q, h1, h3⟩

/-- A free literal can be assigned. -/
theorem forceAt_free (h : s.Inv learn F) (hc : s.conflict = []) {p : Lit} (hv : s.value p.var = none) (d : Nat) (a : Ante) :
    (s.forceAt learn p d a).2 = true ∧ (s.forceAt learn p d a).1.conflict = [] := by
  unfold forceAt
  split
  · rw [force_free hv]; exact ⟨rfl, hc⟩
  · unfold forceImplied
    have hnt := free_true hv
    dsimp only
    rw [if_neg (by rw [hnt]; simp)]
    simp only [hnt, Bool.false_eq_true, if_false]
    obtain ⟨_, _, _, i4, _, i6⟩ := undoImpl_spec h d
    have hbu := h.base.wf.undoUntilImpl d
    have hub : (s.undoUntilImpl d).Base := by
      by_cases hd : max d s.flip < s.dl
      · obtain ⟨cu, _⟩ := cut_undo h.base.wf hd (by omega)
        rw [← undo_max] at cu
        exact cu.base h.base hbu
      · rw [undo_noop (by omega)]; exact h.base
    have hu : (s.undoUntilImpl d).value p.var = none := by
      rcases (s.undoUntilImpl d).value_cases p with h1 | h1 | h1
      · exact h1
      · have := i6 p ((hub.isTrue_iff p).1 h1)
        exact absurd hv (tl_value h.base this.1)
      · have := i6 p.neg ((hub.isFalse_iff p).1 h1)
        have := tl_value h.base this.1
        rw [Lit.neg_var] at this
        exact absurd hv this
    have hcu := i4 hc
    generalize hg : s.undoUntilImpl d = u at *
    split
    · have hv2 : (u.impAdd u.dl ⟨p, d, a⟩).value p.var = none := hu
      rw [free_true hv2, force_free hv2]
      exact ⟨rfl, hcu⟩
    · rw [free_true hu, force_free hu]
      exact ⟨rfl, hcu⟩

end St

namespace Db
variable {learn : Bool} {F : Th} {d : Db}

/-- solver.cpp:957-977 `resolveConflict`: conflict analysis above the backtrack level (search mode with learning), backtracking
otherwise, `false` on the root level. `id`, `shared`, `implicit`: as for `createPrepared`. -/
def resolve (learn : Bool) (cfg : AnaCfg) (fuel : Nat) (id : Nat) (shared implicit : Bool) (d : Db) : Option (Db × Bool) :=
  if d.st.dl > d.st.root then
    if d.st.dl ≠ d.st.flip ∧ learn = true then
      match analyze cfg fuel d.st with
      | none => none
      | some r =>
        let x := createPrepared learn { d with st := r.st.undoUntil learn r.jl undoDefault } r.clause id shared true implicit {}
        some (x.1, x.2 &&& stUnsat = 0)
    else
      let r := d.st.backtrack learn
      some ({ d with st := r.1 }, r.2)
  else some (d, false)

/-- Learning from a conflict always succeeds, and leaves no conflict. -/
theorem resolve_learn (h : Ok true F d) (hc : d.st.conflict ≠ []) (hd : d.st.flip < d.st.dl) (h0 : d.st.mode = 0 → d.st.flip = d.st.root)
    (hz : ∀ q ∈ d.st.trail, d.st.level q.var = 0 → ∀ M, F M → M.sat q) (hv : d.st.dl < varMax)
    (cfg : AnaCfg) (hep : ∀ e, cfg.rc = some e → ∀ v, e v ≤ e 0) (harc : ArcOk F.F cfg.arc) {id : Nat} (hid : id ∉ d.ids) (shared implicit : Bool) :
    ∃ d' l N, (∀ fuel ≥ N, resolve true cfg fuel id shared implicit d = some (d', true)) ∧ Created true F d d' l id ∧ d'.st.conflict = [] ∧
      (∀ x ∈ l, x.neg ∈ d.st.trail) := by
  have hi := h.inv
  have hb := hi.base
  obtain ⟨a, p, u, keep, rem, rc, N, res, hm, hN, hL, _, _, ⟨w, u', hw, hst⟩, _, _⟩ := analyze_spec (hi.anaPre hc hd hz) cfg hep harc
  have hjl := hL.below
  have hlt : max res.jl d.st.flip < d.st.dl := by omega
  have hsame : res.st.undoUntilImpl res.jl = d.st.undoUntilImpl res.jl := by
    rw [hst]; exact undo_same hb.wf hw hm.uip.lev hlt
  have heq : res.st.undoUntil true res.jl undoDefault = d.st.undoUntil true res.jl undoDefault := by
    rw [undoDef_eq h0, undoDef_eq]
    · unfold undoFin; rw [hsame]
    · rw [hst]; exact h0
  obtain ⟨i1, i2, i3, i4, i5, i6, i7, i8, i9⟩ := undoDef_spec hi h0 hlt
  generalize ht : d.st.undoUntil true res.jl undoDefault = t at *
  have hok : Ok true F { d with st := t } := h.setSt i1 i2
  obtain ⟨x, tl, hcl, hxl, htl, hhd, hnl⟩ := hL.shape
  have hdlt : t.dl < varMax := by omega
  have hlv := i1.base.lvOk hdlt
  have hun := learnt_unit hb.wf hL hb.asg (by unfold St.level; rw [hb.c0]) (d := max res.jl d.st.flip) (by omega) (by omega) (by omega)
  rw [← undo_max] at hun
  have hval : ∀ v, t.value v = (d.st.undoUntilImpl res.jl).value v := fun v => by unfold St.value; rw [i8]
  obtain ⟨x', tl', e1, hx, htf⟩ := hun
  rw [hcl] at e1
  simp only [List.cons.injEq] at e1
  obtain ⟨rfl, rfl⟩ := e1
  have hxfree : t.value x.var = none := by rw [hval]; exact hx
  have htfalse : ∀ c ∈ tl, t.isFalse c = true := fun c hc => by
    have := htf c hc; unfold St.isFalse at this ⊢; rw [hval]; exact this
  have htrail : ∀ c ∈ res.clause, c.neg ∈ d.st.trail := by
    intro c hc'
    rcases (hb.isFalse_iff c).1 (hL.false c hc') with e | e
    · exfalso
      have hl0 : d.st.level c.var = 0 := by rw [← Lit.neg_var, e]; unfold St.level; rw [litTrue_var, hb.c0]
      rw [hcl] at hc'
      rcases List.mem_cons.1 hc' with rfl | hc'
      · omega
      · have := (htl c hc').1; omega
    · exact e
  have hlev : ∀ c ∈ tl, t.level c.var = d.st.level c.var := by
    intro c hc'
    have h1 := htrail c (by rw [hcl]; simp [hc'])
    have h2 := htl c hc'
    have := (i2.lit _ h1 (by rw [Lit.neg_var]; omega)).2
    simpa using this
  have hordt : ∀ c ∈ tl, t.watchOrder c = d.st.level c.var := by
    intro c hc'
    rcases hlv.order c with ⟨hv', _⟩ | ⟨hv', _, _⟩ | ⟨_, _, ho'⟩
    · exact absurd hv' (false_free (htfalse c hc'))
    · have := htfalse c hc'; rw [true_false hv'] at this; simp at this
    · rw [ho', hlev c hc']
  have hordx : t.watchOrder x = t.dl + 1 := by
    unfold St.watchOrder; rw [hxfree]
  have hnd : res.clause.Nodup := List.Nodup.of_map _ hL.nodup
  have hzf : ∀ q ∈ res.clause, q ≠ litFalse := by
    intro q hq e
    have h1 := htrail q hq
    rw [e] at h1
    exact hb.toff _ h1 rfl
  have hbest : ∀ a b rest, res.clause = a :: b :: rest → Best t a b rest := by
    intro a' b rest e
    rw [hcl] at e
    simp only [List.cons.injEq] at e
    obtain ⟨rfl, rfl⟩ := e
    have hbl := hhd b rfl
    refine ⟨?_, fun c hc' => ?_⟩
    · rw [hordx, hordt b (by simp)]; omega
    · rw [hordt c (by simp [hc']), hordt b (by simp), hbl]; exact (htl c (by simp [hc'])).2
  have hcr := createPrepared_spec (learn := true) (shared := shared) (lr := true) (implicit := implicit) (f := {}) hok i7 hlv hid hnd hzf hL.implied hbest
  -- the first literal can be assigned
  have hres : (createPrepared true { d with st := t } res.clause id shared true implicit {}).1.st.conflict = [] ∧
      (createPrepared true { d with st := t } res.clause id shared true implicit {}).2 = stUnit := by
    have hum := umax_val
    have hvm := varMax_val
    have hst : ∀ n b, n ≠ 0 → (1 < n → t.watchOrder b ≤ t.dl) → t.status n x b = stUnit := by
      intro n b hn hb'
      unfold St.status
      dsimp only
      rw [if_pos hn, hordx, if_neg (by omega)]
      simp only [show ¬ (t.dl + 1 > varMax) by omega, show ¬ (t.dl + 1 ≤ t.dl) by omega, if_false]
      rw [if_pos]
      · rfl
      · split
        · rename_i h1; have := hb' h1; omega
        · omega
    rw [hcl]
    unfold createPrepared
    cases htl' : tl with
    | nil =>
      dsimp only
      simp only [List.getD_cons_zero, List.length_singleton]
      rw [hst 1 _ (by omega) (by omega)]
      rw [if_neg (by simp [ignoreClause, stUnit, stOpen]), if_neg (by decide)]
      obtain ⟨f1, f2⟩ := forceAt_free i1 i7 hxfree 0 (some [litTrue])
      dsimp only
      refine ⟨f2, ?_⟩
      have : (t.forceAt true x 0 (some [litTrue])).1.hasConflict = false := by
        rw [hasConflict_false]
        have := (forceAt_unit i1 i7 (F := F) (a := x) (fun M hM => ?_)).1.stop
        · exact ⟨f2, this⟩
        · obtain ⟨y, hy, hs⟩ := hL.implied M hM
          rw [hcl, htl'] at hy
          rw [List.mem_singleton.1 hy] at hs; exact hs
      rw [this]; rfl
    | cons b rest =>
      dsimp only
      simp only [List.getD_cons_zero, List.getD_cons_succ, List.length_cons]
      have hbm : b ∈ tl := by rw [htl']; simp
      rw [hst (rest.length + 1 + 1) b (by omega) (fun _ => by rw [hordt b hbm]; have := (htl b hbm).2; omega)]
      rw [if_neg (by simp [ignoreClause, stUnit, stOpen]), if_pos (by omega), if_pos (by decide)]
      rw [st_comm]
      obtain ⟨f1, f2⟩ := forceAt_free i1 i7 hxfree (t.level b.var)
        (some (if (decide (rest.length + 1 + 1 > 3) || false || !implicit) = true then (Cl.ofLits (x :: b :: rest)).reason true else ((x :: b :: rest).drop 1).map Lit.neg))
      dsimp only
      exact ⟨f2, by rw [f1]; rfl⟩
  refine ⟨_, res.clause, N, fun fuel hf => ?_, ?_, hres.1, htrail⟩
  · unfold resolve
    rw [if_pos (by have := hb.wf.rf; omega), if_pos ⟨by omega, rfl⟩, hN fuel hf]
    dsimp only
    rw [heq, hres.2]
    rfl
  · exact ⟨hcr.ok, i2.trans hcr.down, hcr.root.trans i3, hcr.flip.trans i4, hcr.mode.trans i5, hcr.ids, hcr.cls, hcr.g2, hcr.g3⟩

end Db
end Clasp.Core
