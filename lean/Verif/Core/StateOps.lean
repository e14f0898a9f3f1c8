/-
The invariant of the solver state is kept by undoing, by literals implied on earlier levels, by chronological
backtracking and by changes of the root level. No code is modelled in this file.
-/
import Verif.Core.StateInv
namespace Clasp.Core
namespace St

section
variable {learn : Bool} {F : Th} {s t u : St}

theorem Ext.dl (e : Ext s t) : t.dl = s.dl := by unfold St.dl; rw [e.lv]

theorem Ext.tl (e : Ext s t) {q : Lit} (h : s.tl q) : t.tl q := by
  obtain ⟨w, hw, _⟩ := e.trail
  rcases h with h | h
  · exact Or.inl h
  · exact Or.inr (by rw [hw]; simp [h])

theorem tl_value (h : s.Base) {q : Lit} (hq : s.tl q) : s.value q.var ≠ none := by
  have := (h.isTrue_iff q).2 hq
  unfold isTrue at this
  intro hn; rw [hn] at this; simp at this

theorem Ext.level (e : Ext s t) (h : s.Base) {q : Lit} (hq : s.tl q) : t.level q.var = s.level q.var := by
  unfold St.level; rw [(e.keep _ (tl_value h hq)).1]

theorem Ext.mem (e : Ext s t) {q : Lit} (h : s.trail.Mem q ∨ q ∈ s.trail) : q ∈ t.trail := by
  obtain ⟨w, hw, _⟩ := e.trail
  have : q ∈ s.trail := by rcases h with h | h <;> exact h
  rw [hw]; simp [this]

theorem Ext.tl_new (e : Ext s t) {q : Lit} (hq : t.tl q) : s.tl q ∨ (t.level q.var = s.dl) := by
  obtain ⟨w, hw, h⟩ := e.trail
  rcases hq with hq | hq
  · exact Or.inl (Or.inl hq)
  · rw [hw] at hq
    rcases List.mem_append.1 hq with hq | hq
    · exact Or.inr (h q hq).1
    · exact Or.inl (Or.inr hq)

theorem Ext.decision (e : Ext s t) (h : s.WF) {i : Nat} (h1 : 1 ≤ i) (hi : i ≤ s.dl) : t.decision i = s.decision i := by
  obtain ⟨w, hw, _⟩ := e.trail
  unfold St.decision
  have e' : t.levelStart i = s.levelStart i := by unfold levelStart; rw [e.lv]
  rw [e']
  obtain ⟨l1, l, hl, hlen⟩ := lv_split (show i - 1 < s.dl by omega)
  rw [show i - 1 + 1 = i by omega] at hl
  have hlt : s.levelStart i < s.trail.length := (List.pairwise_cons.1 h.lvs).1 _ (by rw [hl]; simp)
  rw [hw, List.reverse_append, List.getElem?_append_left (by simpa using hlt)]

theorem push_ext {p : Lit} (hp : s.value p.var = none) (a : Ante) : Ext s (s.push p a) := by
  refine ⟨⟨[p], rfl, ?_⟩, rfl, ?_, rfl, rfl, rfl, rfl, id⟩
  · intro q hq
    rw [List.mem_singleton.1 hq]
    refine ⟨by rw [push_level, if_pos rfl], hp, ?_⟩
    unfold St.value push; dsimp only; rw [Function.update_self]; simp
  · intro v hv
    have : v ≠ p.var := fun h => hv (by rw [h]; exact hp)
    unfold push; dsimp only
    rw [Function.update_of_ne this, Function.update_of_ne this]; exact ⟨rfl, rfl⟩

theorem conflict_ext (p : Lit) (a : Ante) : Ext s (s.setConflict learn p a) :=
  ⟨⟨[], rfl, by simp⟩, rfl, fun _ _ => ⟨rfl, rfl⟩, rfl, rfl, rfl, rfl, fun h hn => h (List.append_eq_nil_iff.1 hn).1⟩

theorem force_ext (p : Lit) (a : Ante) : Ext s (s.force learn p a).1 := by
  rcases s.value_cases p with hv | hv | hv
  · rw [force_free hv]; exact push_ext hv a
  · rw [force_true hv]; exact Ext.refl s
  · rw [force_false hv]; exact conflict_ext p a

theorem force_imp (p : Lit) (a : Ante) : (s.force learn p a).1.imp = s.imp ∧ (s.force learn p a).1.impLevel = s.impLevel ∧
    (s.force learn p a).1.impFront = s.impFront := by
  rcases s.value_cases p with hv | hv | hv
  · rw [force_free hv]; exact ⟨rfl, rfl, rfl⟩
  · rw [force_true hv]; exact ⟨rfl, rfl, rfl⟩
  · rw [force_false hv]; exact ⟨rfl, rfl, rfl⟩

theorem force_res (hb : s.Base) (p : Lit) (a : Ante) : ((s.force learn p a).2 = true → s.conflict = [] → (s.force learn p a).1.conflict = [] ∧
    (s.force learn p a).1.tl p) ∧ ((s.force learn p a).2 = false → (s.force learn p a).1.conflict ≠ []) := by
  rcases s.value_cases p with hv | hv | hv
  · rw [force_free hv]; exact ⟨fun _ hc => ⟨hc, (push_tl _ _).2 (Or.inr rfl)⟩, fun h => by simp at h⟩
  · rw [force_true hv]; exact ⟨fun _ hc => ⟨hc, (hb.isTrue_iff p).1 hv⟩, fun h => by simp at h⟩
  · rw [force_false hv]; refine ⟨fun h => by simp at h, fun _ => ?_⟩
    show s.conflict ++ _ ≠ []
    simp

theorem impLoop_false : ∀ (l : List Implied) (s : St), (impLoop learn l s false).1 = s ∧ (impLoop learn l s false).2.1 = false ∧
    (impLoop learn l s false).2.2 = l.filter (fun x => x.lev ≤ s.dl ∧ (x.lev < s.dl ∨ x.ante = none)) := by
  intro l
  induction l with
  | nil => intro s; simp [impLoop]
  | cons x r ih =>
    intro s
    obtain ⟨h1, h2, h3⟩ := ih s
    unfold impLoop
    by_cases hx : x.lev ≤ s.dl
    · rw [if_pos hx]
      refine ⟨h1, h2, ?_⟩
      by_cases hk : x.lev < s.dl ∨ x.ante = none
      · rw [List.filter_cons_of_pos (by simp [hx, hk])]
        simp [h3, hk]
      · rw [List.filter_cons_of_neg (by simpa [hx] using hk)]
        simp [h3, hk]
    · rw [if_neg hx, List.filter_cons_of_neg (by simp [hx])]
      exact ⟨h1, h2, h3⟩

/-- The loop over the implied literals. -/
theorem impLoop_spec : ∀ (l : List Implied) (s : St), s.Inv0 learn F → s.conflict = [] →
    (∀ x ∈ l, x.lev ≤ s.dl → (∀ r, x.ante = some r → (∀ q ∈ r, s.tl q) ∧ ∀ M, F M → M.all r → M.sat x.lit) ∧
      (x.ante = none → s.tl x.lit)) →
    (s.dl ≠ s.flip → ∀ x ∈ l, x.lev ≤ s.dl → s.tl x.lit) →
    (impLoop learn l s true).1.Inv0 learn F ∧ Ext s (impLoop learn l s true).1 ∧
    ((impLoop learn l s true).2.1 = true → (impLoop learn l s true).1.conflict = [] ∧
      ∀ x ∈ l, x.lev ≤ s.dl → (impLoop learn l s true).1.tl x.lit) ∧
    ((impLoop learn l s true).2.1 = false → (impLoop learn l s true).1.conflict ≠ []) ∧
    (impLoop learn l s true).2.2 = l.filter (fun x => x.lev ≤ s.dl ∧ (x.lev < s.dl ∨ x.ante = none)) ∧
    (impLoop learn l s true).1.imp = s.imp ∧ (impLoop learn l s true).1.impLevel = s.impLevel ∧
    (impLoop learn l s true).1.impFront = s.impFront := by
  intro l
  induction l with
  | nil => intro s hi hc _ _; simp [impLoop, hi, hc, Ext.refl]
  | cons x r ih =>
    intro s hi hc hp ht
    have hb := hi.base
    by_cases hx : x.lev ≤ s.dl
    · have hp' := hp x (by simp) hx
      -- the forced state
      have hf : (s.force learn x.lit x.ante).1.Inv0 learn F := by
        cases ha : x.ante with
        | none => rw [force_true ((hb.isTrue_iff _).2 (hp'.2 ha))]; exact hi
        | some r =>
          obtain ⟨h1, h2⟩ := hp'.1 r ha
          refine hi.force hc h1 h2 (fun hfa hd => ?_)
          exact absurd ((hb.isFalse_iff _).1 hfa) (fun h => hb.not_both (ht hd x (by simp) hx) h)
      have he := force_ext (learn := learn) (s := s) x.lit x.ante
      have hm := force_imp (learn := learn) (s := s) x.lit x.ante
      have hr := force_res (learn := learn) hb x.lit x.ante
      have hdl := he.dl
      unfold impLoop
      rw [if_pos hx]
      simp only [if_true]
      generalize hg : s.force learn x.lit x.ante = g at *
      obtain ⟨s', ok⟩ := g
      dsimp only at *
      have hflt : ∀ l', l' = r.filter (fun x => decide (x.lev ≤ s'.dl ∧ (x.lev < s'.dl ∨ x.ante = none))) →
          (if x.lev < s'.dl ∨ x.ante = none then x :: l' else l') =
          (x :: r).filter (fun x => decide (x.lev ≤ s.dl ∧ (x.lev < s.dl ∨ x.ante = none))) := by
        intro l' hl'
        rw [hl', hdl]
        by_cases hk : x.lev < s.dl ∨ x.ante = none
        · rw [List.filter_cons_of_pos (by simp [hx, hk]), if_pos hk]
        · rw [List.filter_cons_of_neg (by simpa [hx] using hk), if_neg hk]
      cases ok with
      | true =>
        have hr' := hr.1 rfl hc
        have := ih s' hf hr'.1 (fun y hy hl => ?_) (fun hd y hy hl => ?_)
        · obtain ⟨i1, i2, i3, i4, i5, i6, i7, i8⟩ := this
          refine ⟨i1, he.trans i2, fun hok => ⟨(i3 hok).1, ?_⟩, i4, hflt _ i5, i6.trans hm.1, i7.trans hm.2.1, i8.trans hm.2.2⟩
          intro y hy hl
          rcases List.mem_cons.1 hy with rfl | hy
          · exact i2.tl hr'.2
          · exact (i3 hok).2 y hy (by rw [hdl]; exact hl)
        · rw [hdl] at hl
          obtain ⟨h1, h2⟩ := hp y (List.mem_cons_of_mem _ hy) hl
          exact ⟨fun r hr => ⟨fun q hq => he.tl ((h1 r hr).1 q hq), (h1 r hr).2⟩, fun hn => he.tl (h2 hn)⟩
        · rw [hdl] at hl hd; rw [he.flip] at hd
          exact he.tl (ht hd y (List.mem_cons_of_mem _ hy) hl)
      | false =>
        obtain ⟨i1, i2, i3⟩ := impLoop_false (learn := learn) r s'
        refine ⟨by rw [i1]; exact hf, by rw [i1]; exact he, fun hok => by rw [i2] at hok; simp at hok, fun _ => by rw [i1]; exact hr.2 rfl,
          hflt _ i3, by rw [i1]; exact hm.1, by rw [i1]; exact hm.2.1, by rw [i1]; exact hm.2.2⟩
    · unfold impLoop
      rw [if_neg hx]
      obtain ⟨i1, i2, i3, i4, i5, i6, i7, i8⟩ := ih s hi hc (fun y hy => hp y (List.mem_cons_of_mem _ hy)) (fun hd y hy => ht hd y (List.mem_cons_of_mem _ hy))
      refine ⟨i1, i2, fun hok => ⟨(i3 hok).1, ?_⟩, i4, ?_, i6, i7, i8⟩
      · intro y hy hl
        rcases List.mem_cons.1 hy with rfl | hy
        · exact absurd hl hx
        · exact (i3 hok).2 y hy hl
      · rw [i5, List.filter_cons_of_neg (by simp [hx])]

/-- What `ImpliedList::assign` needs. -/
structure ImpPre (F : Th) (u : St) : Prop where
  snd : ∀ x ∈ u.imp, (x.lev ≤ u.dl ∨ x ∈ u.imp.take u.impFront) → ∀ r, x.ante = some r →
    (∀ q ∈ r, u.tl q ∧ u.level q.var ≤ x.lev) ∧ ∀ M, F M → M.all r → M.sat x.lit
  nul : ∀ x ∈ u.imp, (x.lev ≤ u.dl ∨ x ∈ u.imp.take u.impFront) → x.ante = none → x.lit ∈ u.trail ∧ u.level x.lit.var = x.lev
  low : ∀ x ∈ u.imp, u.tl x.lit → x.lev ≤ u.level x.lit.var
  asg : u.dl ≠ u.flip → ∀ x ∈ u.imp, u.tl x.lit ∧ u.level x.lit.var ≤ u.flip
  rt : ∀ x ∈ u.imp.take u.impFront, (u.tl x.lit ∧ u.level x.lit.var ≤ u.root) ∨ (u.conflict ≠ [] ∧ u.dl ≤ u.root)
  fr : u.impFront ≤ u.imp.length

/-- `q` holds on a level `≤ k`, or it is known that it has to be assigned on such a level after backtracking. -/
def Fine (s : St) (q : Lit) (k : Nat) : Prop := (s.tl q ∧ s.level q.var ≤ k) ∨ ∃ x ∈ s.imp, x.lit = q ∧ x.lev ≤ k

/-- Consequences of the levels that stay are kept. -/
def Keeps (s t : St) : Prop := ∀ q k, k ≤ t.dl → (t.conflict ≠ [] → k < t.dl) → s.Fine q k → t.Fine q k

theorem Fine.mono {q : Lit} {k l : Nat} (h : s.Fine q k) (hl : k ≤ l) : s.Fine q l := by
  rcases h with h | ⟨x, h1, h2, h3⟩
  · exact Or.inl ⟨h.1, by omega⟩
  · exact Or.inr ⟨x, h1, h2, by omega⟩

theorem Ext.fine (e : Ext s t) (h : s.Base) (hi : ∀ x ∈ s.imp, x ∈ t.imp) {q : Lit} {k : Nat} (hf : s.Fine q k) : t.Fine q k := by
  rcases hf with h1 | ⟨x, h1, h2, h3⟩
  · exact Or.inl ⟨e.tl h1.1, by rw [e.level h h1.1]; exact h1.2⟩
  · exact Or.inr ⟨x, hi x h1, h2, h3⟩

theorem impAssign_spec (h : u.Inv0 learn F) (hp : ImpPre F u) : (u.impAssign learn).Inv learn F ∧ Ext u (u.impAssign learn) ∧
    Keeps u (u.impAssign learn) := by
  have hb := h.base
  -- the state after the loop
  obtain ⟨v, ok, kept, hv, hvi, hve, h1, h2, hk, h3, h4, h5⟩ : ∃ v ok kept, impLoop learn (u.imp.drop u.impFront) u (!u.hasConflict) = (v, ok, kept) ∧
      v.Inv0 learn F ∧ Ext u v ∧ (ok = true → v.conflict = [] ∧ ∀ x ∈ u.imp.drop u.impFront, x.lev ≤ u.dl → v.tl x.lit) ∧
      (ok = false → v.conflict ≠ []) ∧
      kept = (u.imp.drop u.impFront).filter (fun x => x.lev ≤ u.dl ∧ (x.lev < u.dl ∨ x.ante = none)) ∧
      v.imp = u.imp ∧ v.impLevel = u.impLevel ∧ v.impFront = u.impFront ∧ (u.conflict ≠ [] → v = u) := by
    by_cases hc : u.conflict = []
    · have e : (!u.hasConflict) = true := by rw [hasConflict_false.2 ⟨hc, h.stop⟩]; rfl
      rw [e]
      obtain ⟨i1, i2, i3, i4, i5, i6, i7, i8⟩ := impLoop_spec (u.imp.drop u.impFront) u h hc
        (fun x hx hl => ⟨fun r hr => ⟨fun q hq => ((hp.snd x (List.mem_of_mem_drop hx) (Or.inl hl) r hr).1 q hq).1,
          (hp.snd x (List.mem_of_mem_drop hx) (Or.inl hl) r hr).2⟩,
          fun hn => Or.inr (hp.nul x (List.mem_of_mem_drop hx) (Or.inl hl) hn).1⟩)
        (fun hd x hx _ => (hp.asg hd x (List.mem_of_mem_drop hx)).1)
      exact ⟨_, _, _, rfl, i1, i2, i3, i4, i5, i6, i7, i8, fun hn => absurd hc hn⟩
    · have e : (!u.hasConflict) = false := by
        have : u.hasConflict = true := by
          by_contra hn
          exact hc (hasConflict_false.1 (by simpa using hn)).1
        rw [this]; rfl
      rw [e]
      obtain ⟨i1, i2, i3⟩ := impLoop_false (learn := learn) (u.imp.drop u.impFront) u
      refine ⟨_, _, _, rfl, by rw [i1]; exact h, by rw [i1]; exact Ext.refl u, fun hok => by rw [i2] at hok; simp at hok,
        fun _ => by rw [i1]; exact hc, i3, by rw [i1], by rw [i1], by rw [i1], fun _ => i1⟩
  obtain ⟨h5, h6⟩ := h5
  have hvb := hvi.base
  have hdl := hve.dl
  set lits := u.imp.take u.impFront ++ kept with hlits
  set lev := (if lits.isEmpty then 0 else v.dl) with hlev
  have e : u.impAssign learn = { v with imp := lits, impLevel := lev, impFront := if lev > v.root then v.impFront else lits.length } := by
    unfold impAssign; rw [hv]
  have hne : ∀ x ∈ lits, lev = v.dl := by
    intro x hx
    have : lits ≠ [] := fun h => by rw [h] at hx; simp at hx
    rw [hlev, if_neg (by simpa using this)]
  have hkm : ∀ x ∈ kept, x ∈ u.imp ∧ x ∈ u.imp.drop u.impFront ∧ x.lev ≤ u.dl := by
    intro x hx
    rw [hk, List.mem_filter] at hx
    have := hx.2
    simp only [decide_eq_true_eq] at this
    exact ⟨List.mem_of_mem_drop hx.1, hx.1, this.1⟩
  have hlm : ∀ x ∈ lits, x ∈ u.imp ∧ (x.lev ≤ u.dl ∨ x ∈ u.imp.take u.impFront) := by
    intro x hx
    rcases List.mem_append.1 hx with hx | hx
    · exact ⟨List.mem_of_mem_take hx, Or.inr hx⟩
    · exact ⟨(hkm x hx).1, Or.inl (hkm x hx).2.2⟩
  have hrt : ∀ x ∈ u.imp.take u.impFront, (v.tl x.lit ∧ v.level x.lit.var ≤ v.root) ∨ (v.conflict ≠ [] ∧ v.dl ≤ v.root) := by
    intro x hx
    rw [hve.root, hdl]
    rcases hp.rt x hx with h7 | h7
    · exact Or.inl ⟨hve.tl h7.1, by rw [hve.level hb h7.1]; exact h7.2⟩
    · rw [h6 h7.1]; exact Or.inr h7
  have hkt : ∀ x ∈ kept, v.tl x.lit ∨ v.conflict ≠ [] := by
    intro x hx
    cases ok with
    | true => exact Or.inl ((h1 rfl).2 x (hkm x hx).2.1 (hkm x hx).2.2)
    | false => exact Or.inr (h2 rfl)
  have hlv : ∀ x ∈ lits, (v.tl x.lit ∧ v.level x.lit.var ≤ lev) ∨ (v.conflict ≠ [] ∧ v.dl ≤ lev) := by
    intro x hx
    rw [hne x hx]
    rcases List.mem_append.1 hx with hx | hx
    · rcases hrt x hx with h7 | h7
      · exact Or.inl ⟨h7.1, hvb.level_le h7.1⟩
      · exact Or.inr ⟨h7.1, Nat.le_refl _⟩
    · rcases hkt x hx with h7 | h7
      · exact Or.inl ⟨h7, hvb.level_le h7⟩
      · exact Or.inr ⟨h7, Nat.le_refl _⟩
  rw [e]
  refine ⟨⟨⟨⟨hvb.wf.congr rfl rfl rfl hvb.wf.front hvb.wf.rf hvb.wf.fd, hvb.c0, hvb.toff, hvb.asg, hvb.qlev⟩,
    ⟨hvi.sound.tt, hvi.sound.reason, hvi.sound.impl, hvi.sound.null⟩, hvi.stop, hvi.mode, hvi.dead, hvi.conf, hvi.confF, hvi.confTop,
    hvi.m1, hvi.m2⟩, ⟨?_, ?_, ?_, ?_, ?_, ?_, hlv⟩⟩, ⟨hve.trail, hve.lv, hve.keep, hve.front, hve.root, hve.flip, hve.mode, hve.conf⟩, ?_⟩
  · intro x hx r hr
    obtain ⟨m1, m2⟩ := hlm x hx
    obtain ⟨h7, h8⟩ := hp.snd x m1 m2 r hr
    refine ⟨fun q hq => ⟨hve.tl (h7 q hq).1, ?_⟩, h8⟩
    have := hve.level hb (h7 q hq).1
    show v.level q.var ≤ _
    rw [this]; exact (h7 q hq).2
  · intro x hx hn
    obtain ⟨m1, m2⟩ := hlm x hx
    obtain ⟨h7, h8⟩ := hp.nul x m1 m2 hn
    refine ⟨hve.mem (Or.inr h7), ?_⟩
    show v.level _ = _
    rw [hve.level hb (Or.inr h7)]; exact h8
  · show (if lev > v.root then v.impFront else lits.length) ≤ lits.length
    split
    · rw [h5, hlits, List.length_append, List.length_take]
      have := hp.fr
      omega
    · exact Nat.le_refl _
  · intro x hx hl
    have hl : v.tl x.lit := hl
    obtain ⟨m1, m2⟩ := hlm x hx
    show _ ≤ v.level _
    by_cases hs : u.tl x.lit
    · rw [hve.level hb hs]; exact hp.low x m1 hs
    · have h7 : v.level x.lit.var = u.dl := (hve.tl_new hl).resolve_left hs
      rw [h7]
      rcases m2 with m2 | m2
      · exact m2
      · rcases hp.rt x m2 with h8 | h8
        · exact absurd h8.1 hs
        · rw [h6 h8.1] at hl; exact absurd hl hs
  · intro x hx
    obtain ⟨m1, m2⟩ := hlm x hx
    show (v.tl _ ∧ v.level _ ≤ v.flip) ∨ (v.conflict ≠ [] ∧ v.dl = v.flip)
    by_cases hd : u.dl = u.flip
    · rcases hlv x hx with h7 | h7
      · exact Or.inl ⟨h7.1, by rw [hve.flip, ← hd, ← hdl]; exact hvb.level_le h7.1⟩
      · exact Or.inr ⟨h7.1, by rw [hve.flip, hdl]; exact hd⟩
    · have h7 := hp.asg hd x m1
      exact Or.inl ⟨hve.tl h7.1, by rw [hve.level hb h7.1, hve.flip]; exact h7.2⟩
  · dsimp only
    intro x hx
    show (v.tl _ ∧ v.level _ ≤ v.root) ∨ (v.conflict ≠ [] ∧ v.dl ≤ v.root)
    have hx' : x ∈ lits := List.mem_of_mem_take hx
    by_cases hl : lev > v.root
    · rw [if_pos hl, h5] at hx
      have : x ∈ u.imp.take u.impFront := by
        by_cases hlen : u.impFront ≤ u.imp.length
        · rw [hlits, List.take_append_of_le_length (by simp [hlen]), List.take_take, Nat.min_self] at hx; exact hx
        · have hk0 : kept = [] := by rw [hk, List.drop_of_length_le (by omega)]; rfl
          rw [hlits, hk0, List.append_nil] at hx'; exact hx'
      exact hrt x this
    · have hl' := hne x hx'
      rcases hlv x hx' with h7 | h7
      · exact Or.inl ⟨h7.1, by omega⟩
      · exact Or.inr ⟨h7.1, by omega⟩
  · intro q k hkd hkc hf
    have hkd : k ≤ v.dl := hkd
    have hkc : v.conflict ≠ [] → k < v.dl := hkc
    show (v.tl q ∧ v.level q.var ≤ k) ∨ ∃ x ∈ lits, x.lit = q ∧ x.lev ≤ k
    rcases hf with hf | ⟨x, hx, hq, hxl⟩
    · exact Or.inl ⟨hve.tl hf.1, by rw [hve.level hb hf.1]; exact hf.2⟩
    · rw [← List.take_append_drop u.impFront u.imp] at hx
      rcases List.mem_append.1 hx with hx | hx
      · exact Or.inr ⟨x, List.mem_append_left _ hx, hq, hxl⟩
      · by_cases hkeep : x.lev < u.dl ∨ x.ante = none
        · refine Or.inr ⟨x, List.mem_append_right _ ?_, hq, hxl⟩
          rw [hk, List.mem_filter]
          exact ⟨hx, by simp only [decide_eq_true_eq]; exact ⟨by omega, hkeep⟩⟩
        · have hlt : ¬ x.lev < u.dl := fun h => hkeep (Or.inl h)
          cases ok with
          | true =>
            have := (h1 rfl).2 x hx (by omega)
            rw [hq] at this
            exact Or.inl ⟨this, by have := hvb.level_le this; omega⟩
          | false => have := hkc (h2 rfl); omega

/-- the second half of `undoUntil(level, mode)` -/
def undoFin (learn : Bool) (s : St) (level : Nat) : St :=
  let s := s.undoUntilImpl level
  if s.impActive s.dl then s.impAssign learn else s

theorem undoUntil_eq (s : St) (level mode : Nat) : s.undoUntil learn level mode =
    undoFin learn (if level < s.flip ∧ mode ≥ s.mode then { s with flip := max s.root level } else s) level := rfl

/-- Relation between the states before and after undoing to level `d`. -/
def UndoTo (s t : St) (d : Nat) : Prop := (d < s.dl → ∃ u, Cut s u d ∧ u.Base ∧ Ext u t) ∧ (s.dl ≤ d → ∃ u, Ext u t ∧ u.Base ∧ u.cell = s.cell ∧ u.reason = s.reason ∧ u.trail = s.trail ∧ u.lv = s.lv ∧ u.front = s.front ∧ u.conflict = s.conflict)

theorem inactive {d : Nat} (h : s.impActive d = false) : s.impLevel ≤ d ∨ s.impFront = s.imp.length := by
  unfold impActive at h
  simp only [Bool.and_eq_false_iff, decide_eq_false_iff_not, bne_eq_false_iff_eq] at h
  omega

theorem undo_core (h : s.Inv learn F) {r f m i level : Nat} (hrf : r ≤ f) (hf : f ≤ s.flip) (hr : r ≤ s.root) (hm : m ≤ 1)
    (hi : (i = s.impFront ∧ r = s.root) ∨ i = 0) (hl : f = s.flip ∨ level ≤ f) :
    (undoFin learn { s with root := r, flip := f, mode := m, impFront := i } level).Inv learn F ∧
    UndoTo s (undoFin learn { s with root := r, flip := f, mode := m, impFront := i } level) (max level f) ∧
    Keeps s (undoFin learn { s with root := r, flip := f, mode := m, impFront := i } level) ∧
    (undoFin learn { s with root := r, flip := f, mode := m, impFront := i } level).root = r ∧
    (undoFin learn { s with root := r, flip := f, mode := m, impFront := i } level).flip = f ∧
    (undoFin learn { s with root := r, flip := f, mode := m, impFront := i } level).mode = m := by
  have hb := h.base
  have hif : i ≤ s.imp.length := by
    have := h.imp.fr
    omega
  have hw1 : ({ s with root := r, flip := f, mode := m, impFront := i } : St).WF := 
    hb.wf.congr rfl rfl rfl hb.wf.front hrf (Nat.le_trans hf hb.wf.fd)
  generalize hs1 : ({ s with root := r, flip := f, mode := m, impFront := i } : St) = s1 at *
  have eflip : s1.flip = f := by rw [← hs1]
  have edl : s1.dl = s.dl := by rw [← hs1]; rfl
  by_cases hd : max level f < s.dl
  · -- real undo
    have hmax : s1.undoUntilImpl level = s1.undoUntilImpl (max level f) := by rw [undo_max, eflip]
    obtain ⟨c1, hsm⟩ := cut_undo hw1 (d := max level f) (by rw [edl]; exact hd) (by rw [eflip]; omega)
    have hwu := hw1.undoUntilImpl (max level f)
    generalize hd' : max level f = d at *
    have c : Cut s (s1.undoUntilImpl d) d := by
      refine ⟨?_, ?_, ?_, ?_, ?_, c1.dl, ?_, c1.front, c1.conf, c1.stop⟩
      · rw [c1.trail, ← hs1]; rfl
      · have := c1.suf; rw [← hs1] at this ⊢; exact this
      · have := c1.cell; rw [← hs1] at this ⊢; exact this
      · have := c1.free; rw [← hs1] at this ⊢; exact this
      · rw [c1.reason, ← hs1]
      · have := c1.dec; rw [← hs1] at this ⊢; exact this
    generalize hu : s1.undoUntilImpl d = u at *
    have hroot : u.root = r := by rw [hsm.root, ← hs1]
    have hflip : u.flip = f := by rw [hsm.flip, ← hs1]
    have hmode : u.mode = m := by rw [hsm.mode, ← hs1]
    have himp : u.imp = s.imp := by rw [hsm.imp, ← hs1]
    have himl : u.impLevel = s.impLevel := by rw [hsm.impLevel, ← hs1]
    have himf : u.impFront = i := by rw [hsm.impFront, ← hs1]
    have hu0 : u.Inv0 learn F := h.toInv0.cut c hwu hd (by rw [hflip]; omega) (by rw [hmode]; exact hm)
    have hcs : s.conflict = [] ∨ s.dl ≠ s.flip ∨ d < s.flip := by omega
    have htl : ∀ {q : Lit}, s.tl q → s.level q.var ≤ d → u.tl q := fun h1 h2 => (c.tl_iff hb).2 ⟨h1, h2⟩
    have hrd : r ≤ d := by omega
    have hrt : ∀ x ∈ s.imp.take i, s.tl x.lit ∧ s.level x.lit.var ≤ r := by
      intro x hx
      rcases hi with ⟨h1, h2⟩ | h1
      · rw [h1] at hx; rw [h2]
        rcases h.imp.rt x hx with h3 | h3
        · exact h3
        · omega
      · rw [h1] at hx; simp at hx
    have hpre : ImpPre F u := by
      have aux : ∀ x ∈ s.imp, (x.lev ≤ d ∨ x ∈ s.imp.take i) → x.lev ≤ d := by
        intro x hx hc
        rcases hc with h1 | h1
        · exact h1
        · have := hrt x h1
          have := h.imp.low x hx this.1
          omega
      refine ⟨?_, ?_, ?_, ?_, ?_, by rw [himf, himp]; exact hif⟩
      · intro x hx hc r' hr'
        rw [himp] at hx; rw [himp, himf, c.dl] at hc
        obtain ⟨h1, h2⟩ := h.imp.snd x hx r' hr'
        have hxd := aux x hx hc
        refine ⟨fun q hq => ?_, h2⟩
        have := htl (h1 q hq).1 (Nat.le_trans (h1 q hq).2 hxd)
        exact ⟨this, by rw [c.level hb this]; exact (h1 q hq).2⟩
      · intro x hx hc hn
        rw [himp] at hx; rw [himp, himf, c.dl] at hc
        obtain ⟨h1, h2⟩ := h.imp.nul x hx hn
        have hxd := aux x hx hc
        have := c.mem.2 ⟨h1, by omega⟩
        exact ⟨this, by rw [c.level hb (Or.inr this)]; exact h2⟩
      · intro x hx hq
        rw [himp] at hx
        rw [c.level hb hq]; exact h.imp.low x hx ((c.tl_iff hb).1 hq).1
      · intro hne x hx
        rw [c.dl, hflip] at hne; rw [himp] at hx; rw [hflip]
        have hff : f = s.flip := by omega
        rcases h.imp.asg x hx with h1 | h1
        · have := htl h1.1 (by omega)
          exact ⟨this, by rw [c.level hb this]; omega⟩
        · omega
      · intro x hx
        rw [himp, himf] at hx; rw [hroot]
        have h1 := hrt x hx
        have := htl h1.1 (by omega)
        exact Or.inl ⟨this, by rw [c.level hb this]; exact h1.2⟩
    have hub := hu0.base
    have hfine : ∀ q k, k ≤ d → s.Fine q k → u.Fine q k := by
      intro q k hkd hq
      rcases hq with hq | ⟨x, hx, hq⟩
      · have := htl hq.1 (by omega)
        exact Or.inl ⟨this, by rw [c.level hb this]; exact hq.2⟩
      · exact Or.inr ⟨x, by rw [himp]; exact hx, hq⟩
    have hfin : undoFin learn s1 level = if u.impActive d then u.impAssign learn else u := by
      unfold undoFin; rw [hmax]; dsimp only; rw [c.dl]
    rw [hfin]
    cases hact : u.impActive d with
    | true =>
      rw [if_pos rfl]
      obtain ⟨h1, h2, h3⟩ := impAssign_spec hu0 hpre
      exact ⟨h1, ⟨fun _ => ⟨u, c, hub, h2⟩, fun hn => absurd hd (by omega)⟩,
        fun q k hkd hkc hq => h3 q k hkd hkc (hfine q k (by rw [h2.dl, c.dl] at hkd; exact hkd) hq), by rw [h2.root, hroot], by rw [h2.flip, hflip],
        by rw [h2.mode, hmode]⟩
    | false =>
      rw [if_neg (by simp)]
      refine ⟨⟨hu0, ?_⟩, ⟨fun _ => ⟨u, c, hub, Ext.refl u⟩, fun hn => absurd hd (by omega)⟩,
        fun q k hkd _ hq => hfine q k (by rw [c.dl] at hkd; exact hkd) hq, hroot, hflip, hmode⟩
      have hall : ∀ x ∈ s.imp, s.tl x.lit ∧ s.level x.lit.var ≤ d := by
        intro x hx
        rcases inactive hact with h1 | h1
        · rw [himl] at h1
          rcases h.imp.lvl x hx with h2 | h2
          · exact ⟨h2.1, by omega⟩
          · omega
        · rw [himf, himp] at h1
          have := hrt x (by rw [h1, List.take_length]; exact hx)
          exact ⟨this.1, by omega⟩
      have hall' : ∀ x ∈ s.imp, u.tl x.lit ∧ u.level x.lit.var = s.level x.lit.var := fun x hx => by
        have := htl (hall x hx).1 (hall x hx).2
        exact ⟨this, c.level hb this⟩
      refine ⟨?_, ?_, hpre.fr, hpre.low, ?_, hpre.rt, ?_⟩
      · intro x hx r' hr'
        refine hpre.snd x hx (Or.inl ?_) r' hr'
        rw [himp] at hx
        rw [c.dl]
        have := h.imp.low x hx (hall x hx).1
        have := (hall x hx).2
        omega
      · intro x hx hn
        refine hpre.nul x hx (Or.inl ?_) hn
        rw [himp] at hx
        rw [c.dl]
        have := h.imp.low x hx (hall x hx).1
        have := (hall x hx).2
        omega
      · intro x hx
        left
        rw [himp] at hx
        rw [hflip, (hall' x hx).2]
        refine ⟨(hall' x hx).1, ?_⟩
        by_cases hff : f = s.flip
        · rcases h.imp.asg x hx with h1 | h1
          · rw [hff]; exact h1.2
          · omega
        · have := (hall x hx).2; omega
      · intro x hx
        left
        rw [himp] at hx
        rw [himl, (hall' x hx).2]
        refine ⟨(hall' x hx).1, ?_⟩
        rcases h.imp.lvl x hx with h1 | h1
        · exact h1.2
        · rcases inactive hact with h2 | h2
          · rw [himl] at h2; omega
          · have := hb.level_le (hall x hx).1
            omega
  · -- nothing is undone
    have hfd := hb.wf.fd
    have hff : f = s.flip := by omega
    have hno : s1.undoUntilImpl level = s1 := undo_noop (by rw [edl, eflip]; omega)
    have hb1 : s1.Base := by rw [← hs1]; exact ⟨by rw [← hs1] at hw1; exact hw1, hb.c0, hb.toff, hb.asg, hb.qlev⟩
    have h01 : s1.Inv0 learn F := by
      refine ⟨hb1, ?_, ?_, ?_, ?_, ?_, ?_, ?_, ?_, ?_⟩
      · rw [← hs1]
        exact ⟨h.sound.tt, h.sound.reason, h.sound.impl, fun q hq hn hlt => h.sound.null q hq hn (by rw [← hff]; exact hlt)⟩
      all_goals rw [← hs1]
      · exact h.stop
      · exact hm
      · exact h.dead
      · exact h.conf
      · intro a b e; exact h.confF a b (by rw [← hff]; exact e)
      · intro a b e; exact h.confTop a b (by rw [← hff]; exact e)
      · exact h.m1
      · exact h.m2
    have hrt : ∀ x ∈ s1.imp.take s1.impFront, (s1.tl x.lit ∧ s1.level x.lit.var ≤ s1.root) ∨ (s1.conflict ≠ [] ∧ s1.dl ≤ s1.root) := by
      rw [← hs1]
      rcases hi with ⟨h1, h2⟩ | h1
      · subst h1 h2; exact h.imp.rt
      · subst h1; intro x hx; simp at hx
    have hfin : undoFin learn s1 level = if s1.impActive s.dl then s1.impAssign learn else s1 := by
      unfold undoFin; rw [hno]; dsimp only; rw [edl]
    rw [hfin]
    have hpre : ImpPre F s1 := by
      refine ⟨?_, ?_, ?_, ?_, hrt, by rw [← hs1]; exact hif⟩
      all_goals rw [← hs1]
      · intro x hx _; exact h.imp.snd x hx
      · intro x hx _; exact h.imp.nul x hx
      · exact h.imp.low
      · intro hne x hx
        rcases h.imp.asg x hx with h1 | h1
        · exact ⟨h1.1, by rw [hff]; exact h1.2⟩
        · exact absurd h1.2 (by rw [← hff]; exact hne)
    have hrel : ∀ t, Ext s1 t → UndoTo s t (max level f) := by
      intro t ht
      refine ⟨fun hn => absurd hn hd, fun _ => ⟨s1, ht, hb1, ?_⟩⟩
      rw [← hs1]; exact ⟨rfl, rfl, rfl, rfl, rfl, rfl⟩
    have hfine : ∀ q k, s.Fine q k → s1.Fine q k := by rw [← hs1]; exact fun _ _ hq => hq
    have e1 : s1.root = r := by rw [← hs1]
    have e2 : s1.mode = m := by rw [← hs1]
    cases hact : s1.impActive s.dl with
    | true =>
      rw [if_pos rfl]
      obtain ⟨h1, h2, h3⟩ := impAssign_spec h01 hpre
      exact ⟨h1, hrel _ h2, fun q k hkd hkc hq => h3 q k hkd hkc (hfine q k hq), by rw [h2.root, e1], by rw [h2.flip, eflip], by rw [h2.mode, e2]⟩
    | false =>
      rw [if_neg (by simp)]
      refine ⟨⟨h01, ?_⟩, hrel _ (Ext.refl s1), fun q k _ _ hq => hfine q k hq, e1, eflip, e2⟩
      refine ⟨?_, ?_, by rw [← hs1]; exact hif, ?_, ?_, hrt, ?_⟩
      all_goals rw [← hs1]
      · exact h.imp.snd
      · exact h.imp.nul
      · exact h.imp.low
      · rw [hff]; exact h.imp.asg
      · exact h.imp.lvl

/-- `undoUntil(level, mode)` keeps the invariant. -/
theorem Inv.undoUntil (h : s.Inv learn F) {level mode : Nat} (hm : s.mode ≤ mode) :
    (s.undoUntil learn level mode).Inv learn F ∧
    (s.undoUntil learn level mode).root = s.root ∧ (s.undoUntil learn level mode).mode = s.mode ∧
    (s.undoUntil learn level mode).flip = (if level < s.flip then max s.root level else s.flip) ∧
    UndoTo s (s.undoUntil learn level mode) (max level s.root) ∧ Keeps s (s.undoUntil learn level mode) := by
  rw [undoUntil_eq]
  have hrf := h.base.wf.rf
  by_cases hl : level < s.flip
  · rw [if_pos ⟨hl, hm⟩, if_pos hl]
    obtain ⟨h1, h2, h6, h3, h4, h5⟩ := undo_core (level := level) h (r := s.root) (f := max s.root level) (m := s.mode) (i := s.impFront)
      (by omega) (by omega) (by omega) h.mode (Or.inl ⟨rfl, rfl⟩) (Or.inr (by omega))
    exact ⟨h1, h3, h5, h4, by rw [show max level s.root = max level (max s.root level) by omega]; exact h2, h6⟩
  · rw [if_neg (fun h => hl h.1), if_neg hl]
    obtain ⟨h1, h2, h6, h3, h4, h5⟩ := undo_core (level := level) h (r := s.root) (f := s.flip) (m := s.mode) (i := s.impFront)
      hrf (Nat.le_refl _) (Nat.le_refl _) h.mode (Or.inl ⟨rfl, rfl⟩) (Or.inl rfl)
    exact ⟨h1, h3, h5, h4, by rw [show max level s.root = max level s.flip by omega]; exact h2, h6⟩

/-! ### Literals implied on an earlier level -/

theorem Inv.impAdd (h : t.Inv learn F) {x : Implied}
    (h1 : ∀ r, x.ante = some r → (∀ q ∈ r, t.tl q ∧ t.level q.var ≤ x.lev) ∧ ∀ M, F M → M.all r → M.sat x.lit)
    (h2 : x.ante = none → x.lit ∈ t.trail ∧ t.level x.lit.var = x.lev) (h3 : t.tl x.lit → x.lev ≤ t.level x.lit.var)
    (h4 : (t.tl x.lit ∧ t.level x.lit.var ≤ t.flip) ∨ (t.conflict ≠ [] ∧ t.dl = t.flip)) : (t.impAdd t.dl x).Inv learn F := by
  have hb := h.base
  have hm : ∀ y ∈ (t.impAdd t.dl x).imp, y ∈ t.imp ∨ y = x := fun y hy => by
    have hy : y ∈ t.imp ++ [x] := hy
    simpa using hy
  have hlev : t.impLevel ≤ (t.impAdd t.dl x).impLevel ∧ t.dl ≤ (t.impAdd t.dl x).impLevel := by
    unfold St.impAdd; dsimp only; split <;> omega
  refine ⟨⟨⟨hb.wf.congr rfl rfl rfl hb.wf.front hb.wf.rf hb.wf.fd, hb.c0, hb.toff, hb.asg, hb.qlev⟩,
    ⟨h.sound.tt, h.sound.reason, h.sound.impl, h.sound.null⟩, h.stop, h.mode, h.dead, h.conf, h.confF, h.confTop,
    h.m1, h.m2⟩, ⟨?_, ?_, ?_, ?_, ?_, ?_, ?_⟩⟩
  · intro y hy
    rcases hm y hy with hy | rfl
    · exact h.imp.snd y hy
    · exact h1
  · intro y hy
    rcases hm y hy with hy | rfl
    · exact h.imp.nul y hy
    · exact h2
  · show t.impFront ≤ (t.imp ++ [x]).length
    have := h.imp.fr
    simp; omega
  · intro y hy
    rcases hm y hy with hy | rfl
    · exact h.imp.low y hy
    · exact h3
  · intro y hy
    rcases hm y hy with hy | rfl
    · exact h.imp.asg y hy
    · exact h4
  · intro y hy
    have hy : y ∈ (t.imp ++ [x]).take t.impFront := hy
    rw [List.take_append_of_le_length h.imp.fr] at hy
    exact h.imp.rt y hy
  · intro y hy
    rcases hm y hy with hy | rfl
    · rcases h.imp.lvl y hy with h5 | h5
      · exact Or.inl ⟨h5.1, Nat.le_trans h5.2 hlev.1⟩
      · exact Or.inr ⟨h5.1, Nat.le_trans h5.2 hlev.1⟩
    · rcases h4 with h5 | h5
      · exact Or.inl ⟨h5.1, Nat.le_trans (hb.level_le h5.1) hlev.2⟩
      · exact Or.inr ⟨h5.1, hlev.2⟩

theorem impAdd_force (s : St) (d : Nat) (x : Implied) (p : Lit) (a : Ante) :
    (s.impAdd d x).force learn p a = ((s.force learn p a).1.impAdd d x, (s.force learn p a).2) := by
  rcases s.value_cases p with hv | hv | hv
  · rw [force_free hv, force_free (s := s.impAdd d x) hv]; rfl
  · rw [force_true hv, force_true (s := s.impAdd d x) hv]
  · rw [force_false hv, force_false (s := s.impAdd d x) hv]; rfl

/-- A literal of a lower level is older. -/
theorem older (h : s.Base) {t1 t2 : List Lit} {p q : Lit} (ht : s.trail = t1 ++ p :: t2) (hq : s.tl q)
    (hl : s.level q.var < s.level p.var) : q = litTrue ∨ q ∈ t2 := by
  rcases hq with hq | hq
  · exact Or.inl hq
  · right
    rw [ht] at hq
    rcases List.mem_append.1 hq with h1 | h1
    · have hs := trail_sorted h.wf
      rw [ht] at hs
      have := (List.pairwise_append.1 hs).2.2 q h1 p (by simp)
      omega
    · rcases List.mem_cons.1 h1 with rfl | h1
      · omega
      · exact h1

theorem Inv.setReason (h : s.Inv learn F) {p : Lit} {r : List Lit} (hp : p ∈ s.trail)
    (hr : ∀ q ∈ r, s.tl q ∧ s.level q.var < s.level p.var) (hF : ∀ M, F M → M.all r → M.sat p) :
    (s.setReason p (some r)).Inv learn F := by
  have hb := h.base
  refine ⟨⟨⟨hb.wf.congr rfl rfl rfl hb.wf.front hb.wf.rf hb.wf.fd, hb.c0, hb.toff, hb.asg, hb.qlev⟩,
    ⟨h.sound.tt, ?_, h.sound.impl, ?_⟩, h.stop, h.mode, h.dead, h.conf, h.confF, h.confTop,
    h.m1, h.m2⟩, ⟨h.imp.snd, h.imp.nul, h.imp.fr, h.imp.low, h.imp.asg, h.imp.rt, h.imp.lvl⟩⟩
  · intro t1 q t2 ht r' hr'
    have ht : s.trail = t1 ++ q :: t2 := ht
    have hr' : Function.update s.reason p.var (some r) q.var = some r' := hr'
    by_cases e : q.var = p.var
    · have hqp : q = p := same_var_eq hb.wf (by rw [ht]; simp) hp e
      subst hqp
      rw [Function.update_self] at hr'
      cases hr'
      exact ⟨fun x hx => older hb ht (hr x hx).1 (hr x hx).2, hF⟩
    · rw [Function.update_of_ne e] at hr'
      exact h.sound.reason t1 q t2 ht r' hr'
  · intro q hq hn hf
    have hn : Function.update s.reason p.var (some r) q.var = none := hn
    by_cases e : q.var = p.var
    · rw [e, Function.update_self] at hn; simp at hn
    · rw [Function.update_of_ne e] at hn
      exact h.sound.null q hq hn hf

/-! ### What every operation except a decision keeps -/

/-- `p` was taken from the queue and its watches were processed; on a conflict the current level does not count. -/
def Done (s : St) (p : Lit) : Prop :=
  if s.conflict = [] then ∃ t1 t2, s.trail = t1 ++ p :: t2 ∧ t2.length < s.front else p ∈ s.trail ∧ s.level p.var < s.dl

theorem Done.mem {p : Lit} (h : s.Done p) : p ∈ s.trail := by
  unfold Done at h
  split at h
  · obtain ⟨t1, t2, h1, _⟩ := h; rw [h1]; simp
  · exact h.1

theorem done_of_lt (hb : s.Base) {p : Lit} (hp : p ∈ s.trail) (hl : s.level p.var < s.dl) : s.Done p := by
  unfold Done
  split
  · obtain ⟨t1, t2, ht⟩ := List.append_of_mem hp
    refine ⟨t1, t2, ht, ?_⟩
    by_contra hn
    have := hb.qlev t1 p t2 ht (by omega)
    omega
  · exact ⟨hp, hl⟩

/-- Processed literals of `t` are processed literals of `s`, and what they imply is kept. -/
def Mono (s t : St) : Prop := ∀ p, t.Done p → s.Done p ∧ t.cell p.var = s.cell p.var ∧
  ∀ q, s.Fine q (s.level p.var) → t.Fine q (s.level p.var)

/-- A conflict on level 0. -/
def D0 (s : St) : Prop := s.conflict ≠ [] ∧ s.dl = 0

/-- A literal stored as implied on level `k` or below, such that it stays stored as long as level `k` exists. -/
def Flp (s : St) (q : Lit) (k : Nat) : Prop := ∃ y ∈ s.imp, y.lit = q ∧ y.lev ≤ k ∧ (y.ante = none ∨ y.lev < k)

/-- Proof device: such literals are kept. -/
def FlpKeep (s t : St) : Prop := ∀ q k, k ≤ t.dl → s.Flp q k → t.Flp q k

theorem FlpKeep.of_imp (h : t.imp = s.imp) : FlpKeep s t := fun _ _ _ hq => by unfold Flp; rw [h]; exact hq
theorem FlpKeep.of_sub (h : ∀ y ∈ s.imp, y ∈ t.imp) : FlpKeep s t := fun _ _ _ ⟨y, h1, h2⟩ => ⟨y, h y h1, h2⟩

theorem force_flp (p : Lit) (a : Ante) : FlpKeep s (s.force learn p a).1 := .of_imp (force_imp p a).1

theorem assign_lv (p : Lit) (k : Nat) (a : Ante) : (s.assign p k a).1.lv = s.lv := by
  unfold assign; split <;> rfl

theorem force_lv (p : Lit) (a : Ante) : (s.force learn p a).1.lv = s.lv := by
  have := assign_lv (s := s) p s.dl a
  unfold force
  split <;> rename_i h <;> rw [h] at this <;> exact this

/-- Literals that stay stored are among the entries the loop keeps. -/
theorem impLoop_keeps : ∀ (l : List Implied) (s : St) (ok : Bool) (y : Implied), y ∈ l → (∃ k ≤ s.dl, y.lev ≤ k ∧ (y.ante = none ∨ y.lev < k)) →
    y ∈ (impLoop learn l s ok).2.2 := by
  intro l
  induction l with
  | nil => intro s ok y hy; simp at hy
  | cons x r ih =>
    intro s ok y hy ⟨k, hk, h1, h2⟩
    have hlv : (if ok then s.force learn x.lit x.ante else (s, ok)).1.dl = s.dl := by
      split
      · unfold St.dl; rw [force_lv]
      · rfl
    unfold impLoop
    split
    · dsimp only
      generalize (if ok then s.force learn x.lit x.ante else (s, ok)) = g at *
      rcases List.mem_cons.1 hy with rfl | hy
      · rw [if_pos (by rw [hlv]; rcases h2 with h2 | h2; exact Or.inr h2; exact Or.inl (by omega))]
        exact List.mem_cons_self ..
      · have := ih g.1 g.2 y hy ⟨k, by omega, h1, h2⟩
        split
        · exact List.mem_cons_of_mem _ this
        · exact this
    · rcases List.mem_cons.1 hy with rfl | hy
      · omega
      · exact ih s ok y hy ⟨k, hk, h1, h2⟩

theorem impLoop_lv : ∀ (l : List Implied) (s : St) (ok : Bool), (impLoop learn l s ok).1.lv = s.lv := by
  intro l
  induction l with
  | nil => intro s ok; rfl
  | cons x r ih =>
    intro s ok
    unfold impLoop
    split
    · dsimp only
      rw [ih]
      split
      · exact force_lv ..
      · rfl
    · exact ih s ok

theorem impAssign_flp (s : St) : FlpKeep s (s.impAssign learn) := by
  intro q k hk ⟨y, hy, h1, h2⟩
  have hdl : (s.impAssign learn).dl = s.dl := by
    unfold St.dl impAssign
    exact congrArg List.length (impLoop_lv (learn := learn) (s.imp.drop s.impFront) s (!s.hasConflict))
  refine ⟨y, ?_, h1, h2⟩
  show y ∈ s.imp.take s.impFront ++ (impLoop learn (s.imp.drop s.impFront) s (!s.hasConflict)).2.2
  rw [← List.take_append_drop s.impFront s.imp] at hy
  rcases List.mem_append.1 hy with hy | hy
  · exact List.mem_append_left _ hy
  · exact List.mem_append_right _ (impLoop_keeps _ _ _ y hy ⟨k, by omega, h2⟩)

theorem undoLevel_imp (s : St) : s.undoLevel.imp = s.imp := by
  unfold undoLevel
  split
  · rfl
  · show (s.undoTrail _).imp = _
    unfold undoTrail
    split <;> rfl

theorem undoN_imp : ∀ (n : Nat) (s : St), (undoN n s).imp = s.imp := by
  intro n
  induction n with
  | zero => intro s; rfl
  | succ n ih => intro s; unfold undoN; rw [ih, undoLevel_imp]

theorem undoImpl_imp (s : St) (d : Nat) : (s.undoUntilImpl d).imp = s.imp := by
  unfold undoUntilImpl
  dsimp only
  split
  · rfl
  · rw [undoN_imp]

theorem undoFin_flp {u : St} (hu : u.imp = s.imp) (level : Nat) : FlpKeep s (undoFin learn u level) := by
  intro q k hk h
  have h' : (u.undoUntilImpl level).Flp q k := by
    unfold Flp; rw [undoImpl_imp, hu]; exact h
  unfold undoFin at hk ⊢
  dsimp only at hk ⊢
  split at hk
  · rename_i hc; rw [if_pos hc]; exact impAssign_flp _ q k hk h'
  · rename_i hc; rw [if_neg hc]; exact h'

theorem undo_flp (s : St) (level mode : Nat) : FlpKeep s (s.undoUntil learn level mode) := by
  rw [undoUntil_eq]
  exact undoFin_flp (by split <;> rfl) level

/-- What a state reached without decisions keeps of an earlier one. -/
structure Down (s t : St) : Prop where
  dl : t.dl ≤ s.dl
  dec : ∀ i, 1 ≤ i → i ≤ t.dl → t.decision i = s.decision i
  lit : ∀ q ∈ s.trail, s.level q.var ≤ t.dl → q ∈ t.trail ∧ t.level q.var = s.level q.var
  mono : Mono s t
  zero : ∀ q, s.D0 ∨ s.Fine q 0 → t.D0 ∨ t.Fine q 0
  flp : FlpKeep s t

theorem Keeps.zero (hk : Keeps s t) (hd : s.D0 → t.D0) : ∀ q, s.D0 ∨ s.Fine q 0 → t.D0 ∨ t.Fine q 0 := by
  intro q hq
  rcases hq with hq | hq
  · exact Or.inl (hd hq)
  · by_cases h : t.D0
    · exact Or.inl h
    · refine Or.inr (hk q 0 (by omega) (fun hc => ?_) hq)
      by_contra hn
      exact h ⟨hc, by omega⟩

theorem Mono.level (h : Mono s t) {p : Lit} (hp : t.Done p) : t.level p.var = s.level p.var := by
  unfold St.level; rw [(h p hp).2.1]

theorem Mono.trans (a : Mono s t) (b : Mono t u) : Mono s u := by
  intro p hp
  obtain ⟨h1, h2, h3⟩ := b p hp
  obtain ⟨h4, h5, h6⟩ := a p h1
  refine ⟨h4, h2.trans h5, fun q hq => ?_⟩
  have e := a.level h1
  rw [e] at h3
  exact h3 q (h6 q hq)

theorem Mono.refl (s : St) : Mono s s := fun _ hp => ⟨hp, rfl, fun _ h => h⟩

theorem Down.refl (s : St) : Down s s := ⟨Nat.le_refl _, fun _ _ _ => rfl, fun _ h _ => ⟨h, rfl⟩, Mono.refl s, fun _ h => h, fun _ _ _ h => h⟩

theorem Down.trans (a : Down s t) (b : Down t u) : Down s u := by
  refine ⟨Nat.le_trans b.dl a.dl, fun i h1 h2 => by rw [b.dec i h1 h2, a.dec i h1 (Nat.le_trans h2 b.dl)], ?_, a.mono.trans b.mono, fun q h => b.zero q (a.zero q h),
    fun q k hk h => b.flp q k hk (a.flp q k (Nat.le_trans hk b.dl) h)⟩
  intro q hq hl
  obtain ⟨h1, h2⟩ := a.lit q hq (Nat.le_trans hl b.dl)
  obtain ⟨h3, h4⟩ := b.lit q h1 (by rw [h2]; exact hl)
  exact ⟨h3, h4.trans h2⟩

/-- A state that differs only in parts that do not matter for `Down`. -/
theorem Down.of_eq (h1 : t.cell = s.cell) (h2 : t.trail = s.trail) (h3 : t.lv = s.lv) (h4 : t.front = s.front)
    (h5 : t.conflict = s.conflict) (h6 : ∀ q k, s.Fine q k → t.Fine q k) (h7 : FlpKeep s t) : Down s t := by
  have hd : t.dl = s.dl := by unfold St.dl; rw [h3]
  have hl : ∀ v, t.level v = s.level v := fun v => by unfold St.level; rw [h1]
  refine ⟨by omega, fun i _ _ => ?_, fun q hq _ => ⟨by rw [h2]; exact hq, hl _⟩, fun p hp => ⟨?_, by rw [h1], fun q hq => h6 q _ hq⟩,
    fun q h => h.imp (fun h => ⟨by rw [h5]; exact h.1, by rw [hd]; exact h.2⟩) (h6 q 0), h7⟩
  · unfold St.decision levelStart; rw [h2, h3]
  · unfold Done at hp ⊢
    rw [h5, h2, h4, hd, hl] at hp; exact hp

theorem fine_mono (h1 : t.cell = s.cell) (h2 : t.trail = s.trail) (h3 : ∀ x ∈ s.imp, ∃ y ∈ t.imp, y.lit = x.lit ∧ y.lev ≤ x.lev) :
    ∀ q k, s.Fine q k → t.Fine q k := by
  intro q k hq
  rcases hq with hq | ⟨x, hx, e, hl⟩
  · left; unfold tl St.level at hq ⊢; rw [h1, h2]; exact hq
  · obtain ⟨y, hy, e', hl'⟩ := h3 x hx
    exact Or.inr ⟨y, hy, e'.trans e, by omega⟩

theorem Done.level_le (hb : s.Base) {p : Lit} (h : s.Done p) : s.level p.var ≤ s.dl ∧ (s.conflict ≠ [] → s.level p.var < s.dl) := by
  refine ⟨hb.level_le (Or.inr h.mem), fun hc => ?_⟩
  unfold Done at h; rw [if_neg hc] at h; exact h.2

theorem Ext.done (e : Ext s t) (hb : s.Base) (ht : t.Base) {p : Lit} (hp : t.Done p) : s.Done p := by
  have hll := hp.level_le ht
  obtain ⟨w, hw, hnew⟩ := e.trail
  by_cases hc : t.conflict = []
  · have hcs : s.conflict = [] := by by_contra hn; exact e.conf hn hc
    unfold Done at hp ⊢
    rw [if_pos hc] at hp; rw [if_pos hcs]
    obtain ⟨t1, t2, h1, h2⟩ := hp
    rw [e.front] at h2
    rw [hw] at h1
    have hfs := hb.wf.front
    rcases List.append_eq_append_iff.1 h1 with ⟨a, ha, hb'⟩ | ⟨a, ha, hb'⟩
    · exact ⟨a, t2, hb', h2⟩
    · cases a with
      | nil => exact ⟨[], t2, by simpa using hb'.symm, h2⟩
      | cons y a =>
        exfalso
        simp only [List.cons_append, List.cons.injEq] at hb'
        have := congrArg List.length hb'.2
        simp only [List.length_append] at this
        omega
  · have hp' := hp
    unfold Done at hp'
    rw [if_neg hc] at hp'
    have hps : p ∈ s.trail := by
      rw [hw] at hp'
      rcases List.mem_append.1 hp'.1 with h1 | h1
      · have h3 := (hnew p h1).1
        have h4 := hll.2 hc
        rw [e.dl] at h4
        omega
      · exact h1
    exact done_of_lt hb hps (by rw [← e.level hb (Or.inr hps), ← e.dl]; exact hp'.2)

theorem Ext.down (e : Ext s t) (hb : s.Base) (ht : t.Base) (hk : Keeps s t) (hf : FlpKeep s t) : Down s t := by
  refine ⟨by rw [e.dl]; exact Nat.le_refl _, fun i h1 h2 => e.decision hb.wf h1 (by rw [e.dl] at h2; exact h2),
    fun q hq _ => ⟨e.mem (Or.inr hq), e.level hb (Or.inr hq)⟩, ?_, hk.zero (fun h => ⟨e.conf h.1, by rw [e.dl]; exact h.2⟩), hf⟩
  intro p hp
  have hll := hp.level_le ht
  have hmem : s.Done p := e.done hb ht hp
  have hv := e.keep _ (tl_value hb (Or.inr hmem.mem))
  have hle := e.level hb (Or.inr hmem.mem)
  refine ⟨hmem, hv.1, fun q hq => ?_⟩
  rw [hle] at hll
  exact hk q _ hll.1 hll.2 hq

theorem UndoTo.down {d : Nat} (h : UndoTo s t d) (hb : s.Base) (ht : t.Base) (hk : Keeps s t) (hf : FlpKeep s t) : Down s t := by
  by_cases hd : d < s.dl
  · obtain ⟨u, c, hub, e⟩ := h.1 hd
    have hdl : t.dl = d := by rw [e.dl, c.dl]
    refine ⟨by omega, fun i h1 h2 => ?_, fun q hq hl => ?_, ?_, hk.zero (fun h => by have := h.2; omega), hf⟩
    · rw [e.decision hub.wf h1 (by rw [← e.dl]; exact h2), c.dec i h1 (by omega)]
    · have := c.mem.2 ⟨hq, by omega⟩
      exact ⟨e.mem (Or.inr this), by rw [e.level hub (Or.inr this), c.level hb (Or.inr this)]⟩
    · intro p hp
      have hll := hp.level_le ht
      have hpu : p ∈ u.trail := (e.done hub ht hp).mem
      have h1 := c.mem.1 hpu
      have e1 := (e.keep _ (tl_value hub (Or.inr hpu))).1
      have e2 := c.level_mem hpu
      have e3 : t.level p.var = s.level p.var := by unfold St.level; rw [e1, e2]
      rw [e3] at hll
      exact ⟨done_of_lt hb h1.1 (by omega), e1.trans e2, fun q hq => hk q _ hll.1 hll.2 hq⟩
  · obtain ⟨u, e, hub, h1, h2, h3, h4, h5, h6⟩ := h.2 (by omega)
    have hd' : u.dl = s.dl := by unfold St.dl; rw [h4]
    have hl : ∀ v, u.level v = s.level v := fun v => by unfold St.level; rw [h1]
    refine ⟨by rw [e.dl, hd']; exact Nat.le_refl _, fun i h1 h2' => ?_, fun q hq hl' => ?_, ?_,
      hk.zero (fun h => ⟨e.conf (by rw [h6]; exact h.1), by rw [e.dl, hd']; exact h.2⟩), hf⟩
    · rw [e.decision hub.wf h1 (by rw [← e.dl]; exact h2')]
      unfold St.decision levelStart; rw [h3, h4]
    · have : q ∈ u.trail := by rw [h3]; exact hq
      exact ⟨e.mem (Or.inr this), by rw [e.level hub (Or.inr this), hl]⟩
    · intro p hp
      have hll := hp.level_le ht
      have hdu := e.done hub ht hp
      have e1 := (e.keep _ (tl_value hub (Or.inr hdu.mem))).1
      have e3 : t.level p.var = s.level p.var := by unfold St.level; rw [e1, h1]
      rw [e3] at hll
      refine ⟨?_, by rw [e1, h1], fun q hq => hk q _ hll.1 hll.2 hq⟩
      unfold Done at hdu ⊢
      rw [h6, h3, h5, hd', hl] at hdu; exact hdu

end
end St
end Clasp.Core
