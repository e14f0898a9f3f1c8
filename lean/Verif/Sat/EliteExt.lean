/- Extension of models along the stack of removed clauses (helper lemmas for `EliteProps`). No code is modelled here. -/
import Verif.Sat.Elite
import Mathlib.Tactic.ByContra
namespace Clasp.Elite
open Clasp.Core Function

/-- Specification: `M` with the literal `x` made true. -/
def Asg.setL (M : Asg) (x : Lit) : Asg := update M x.var x.tv

theorem sat_setL (M : Asg) (x : Lit) : Asg.sat (Asg.setL M x) x := by simp [Asg.sat, Asg.setL]
theorem sat_update_ne {M : Asg} {v : Nat} {b : Bool} {y : Lit} (h : y.var ≠ v) : Asg.sat (update M v b) y ↔ M.sat y := by
  simp [Asg.sat, update_of_ne h]
theorem satC_update_ne {M : Asg} {v : Nat} {b : Bool} {D : Cl} (h : ∀ y ∈ D, y.var ≠ v) :
    Asg.satC (update M v b) D ↔ M.satC D := by
  constructor
  · rintro ⟨y, hy, h2⟩; exact ⟨y, hy, (sat_update_ne (h y hy)).mp h2⟩
  · rintro ⟨y, hy, h2⟩; exact ⟨y, hy, (sat_update_ne (h y hy)).mpr h2⟩
theorem satC_cons {M : Asg} {x : Lit} {D : Cl} : M.satC (x :: D) ↔ M.sat x ∨ M.satC D := by simp [Asg.satC]

/-- Proof device: how the removed clauses on the stack, the eliminated variables and the current problem arise from the problem
`F0` by equivalence transformations, removal of blocked clauses and elimination of variables. -/
inductive Chain (F0 : Asg → Prop) : List ECl → (Nat → Prop) → (Asg → Prop) → Prop
  | nil : Chain F0 [] (fun _ => False) F0
  | equiv {st E F} (F' : Asg → Prop) : Chain F0 st E F → (∀ M, F M ↔ F' M) → Chain F0 st E F'
  | bce {st E F} (F' : Asg → Prop) (x : Lit) (D : Cl) : Chain F0 st E F → (∀ M, F M ↔ F' M ∧ M.satC (x :: D)) →
      (∀ M, F' M → ¬ M.satC (x :: D) → F' (Asg.setL M x)) → ¬ E x.var → (∀ y ∈ D, y.var ≠ x.var ∧ ¬ E y.var) →
      Chain F0 (⟨x :: D, true⟩ :: st) E F'
  | ve {st E F} (F' F1 : Asg → Prop) (v : Nat) (G : List Cl) : Chain F0 st E F →
      (∀ M, F M ↔ F1 M ∧ ∀ c ∈ G, M.satC c) → (∀ M b, F1 M → F1 (update M v b)) → (∀ M, F M → F' M) →
      (∀ M, F' M → ∃ b, F (update M v b)) → ¬ E v →
      (∀ c ∈ G, ∃ x D, c = x :: D ∧ x.var = v ∧ ∀ y ∈ D, y.var ≠ v ∧ ¬ E y.var) →
      Chain F0 (G.map (fun c => ⟨c, false⟩) ++ st) (fun w => E w ∨ w = v) F'

theorem Chain.imp {F0 st E F} (h : Chain F0 st E F) : ∀ M, F0 M → F M := by
  induction h with
  | nil => exact fun _ h => h
  | equiv F' _ he ih => exact fun M h => (he M).mp (ih M h)
  | bce F' x D _ he _ _ _ ih => exact fun M h => ((he M).mp (ih M h)).1
  | ve F' F1 v G _ _ _ hi _ _ _ ih => exact fun M h => hi M (ih M h)

theorem Chain.sat {F0 st E F} (h : Chain F0 st E F) : ∀ M, F M → ∃ M', F0 M' := by
  induction h with
  | nil => exact fun M h => ⟨M, h⟩
  | equiv F' _ he ih => exact fun M h => ih M ((he M).mpr h)
  | bce F' x D _ he hf _ _ ih =>
    intro M h
    by_cases hc : M.satC (x :: D)
    · exact ih M ((he M).mpr ⟨h, hc⟩)
    · exact ih _ ((he _).mpr ⟨hf M h hc, satC_cons.mpr (Or.inl (sat_setL M x))⟩)
  | ve F' F1 v G _ _ _ _ hx _ _ ih => exact fun M h => let ⟨b, hb⟩ := hx M h; ih _ hb

/-- Specification: the total assignment stored in a value vector; a variable without value counts as true. -/
def asg (m : Nat → VRep) : Asg := fun v => (m v).val.getD true

theorem asg_update (m : Nat → VRep) (v : Nat) (r : VRep) : asg (update m v r) = update (asg m) v (r.val.getD true) := by
  funext w; by_cases h : w = v
  · subst h; simp [asg]
  · simp [asg, update_of_ne h]

/-- Proof device: the state between two clauses on the stack. -/
structure Mid (F : Asg → Prop) (E : Nat → Prop) (e : Ext) : Prop where
  old : e.old = []
  sat : F (asg e.m)
  last : ∀ v, e.last = some v → ¬ E v
  tot : ∀ v, (e.m v).val = none → e.last = some v ∧ (e.m v).el = true
  forced : ∀ v, e.last = some v → e.check = false → ∃ x D, x.var = v ∧ (∀ y ∈ D, y.var ≠ v) ∧ ¬ (asg e.m).satC D ∧
    ∀ M, F M → M.satC (x :: D)

theorem Mid.close {F E e} (h : Mid F E e) : (closeGroup e).old = [] ∧ F (asg (closeGroup e).m) ∧
    ∀ v, ((closeGroup e).m v).val ≠ none := by
  unfold closeGroup
  split
  · next hl =>
    refine ⟨h.old, h.sat, fun v hv => ?_⟩
    have := (h.tot v hv).1; rw [hl] at this; cases this
  · next v hl =>
    split
    · next hm =>
      refine ⟨h.old, ?_, fun w hw => ?_⟩
      · have : asg (update e.m v ⟨some true, true⟩) = asg e.m := by
          rw [asg_update]; funext w; by_cases hw : w = v
          · subst hw; simp [asg, hm]
          · simp [update_of_ne hw]
        simp only [this]; exact h.sat
      · by_cases hwv : w = v
        · subst hwv; simp at hw
        · simp only [update_of_ne hwv] at hw
          have := (h.tot w hw).1; rw [hl] at this; exact hwv (Option.some.inj this).symm
    · next hm =>
      refine ⟨h.old, h.sat, fun w hw => ?_⟩
      have h2 := h.tot w hw
      have h3 := h2.1; rw [hl] at h3; cases h3
      apply hm
      cases hmv : e.m v with | mk a b =>
      rw [hmv] at hw h2; simp only at hw h2; rw [hw, h2.2]

/-- the test "all other literals are false" -/
theorem all_false_iff {m : Nat → VRep} {D : Cl} (h : ∀ y ∈ D, (m y.var).val ≠ none) :
    D.all (fun y => (m y.var).val = some (!y.tv)) = true ↔ ¬ (asg m).satC D := by
  rw [List.all_eq_true]
  constructor
  · rintro h1 ⟨y, hy, h2⟩
    have := of_decide_eq_true (h1 y hy)
    simp only [Asg.sat, asg, this, Option.getD_some] at h2
    cases hh : y.tv <;> simp [hh] at h2
  · intro h1 y hy
    apply decide_eq_true
    have h2 : ¬ (asg m).sat y := fun h3 => h1 ⟨y, hy, h3⟩
    have h3 := h y hy
    cases hv : (m y.var).val with
    | none => exact absurd hv h3
    | some b =>
      simp only [Asg.sat, asg, hv, Option.getD_some] at h2
      cases b <;> cases hh : y.tv <;> simp_all

theorem Mid.bce {F F' : Asg → Prop} {E e} {x : Lit} {D : Cl} (h : Mid F' E e) (he : ∀ M, F M ↔ F' M ∧ M.satC (x :: D))
    (hf : ∀ M, F' M → ¬ M.satC (x :: D) → F' (Asg.setL M x)) (hD : ∀ y ∈ D, y.var ≠ x.var)
    (hl : e.last = some x.var) : Mid F E (exClause x D e) := by
  have htD : ∀ y ∈ D, (e.m y.var).val ≠ none := fun y hy hn => by
    have := (h.tot _ hn).1; rw [hl] at this; exact hD y hy (Option.some.inj this).symm
  unfold exClause
  split
  · next hc =>
    split
    · next ha =>
      have ha := (all_false_iff htD).mp ha
      have hs : asg (update e.m x.var ⟨some x.tv, false⟩) = Asg.setL (asg e.m) x := asg_update ..
      have hF' : F' (Asg.setL (asg e.m) x) := by
        by_cases hx : (asg e.m).satC (x :: D)
        · have hx : (asg e.m).sat x := (satC_cons.mp hx).resolve_right ha
          have : Asg.setL (asg e.m) x = asg e.m := by
            funext w; by_cases hw : w = x.var
            · subst hw; simp only [Asg.setL, update_self]; exact hx.symm
            · simp [Asg.setL, update_of_ne hw]
          rw [this]; exact h.sat
        · exact hf _ h.sat hx
      refine ⟨h.old, ?_, h.last, fun w hw => ?_, fun v hv _ => ⟨x, D, ?_, ?_, ?_, fun M hM => ((he M).mp hM).2⟩⟩
      · simp only [hs]; exact (he _).mpr ⟨hF', satC_cons.mpr (Or.inl (sat_setL _ x))⟩
      · by_cases hwx : w = x.var
        · subst hwx; simp at hw
        · simp only [update_of_ne hwx] at hw ⊢; exact h.tot w hw
      · simp only [hl] at hv; exact Option.some.inj hv
      · simp only [hl] at hv; cases hv; exact hD
      · simp only [hs]; rw [Asg.setL, satC_update_ne hD]; exact ha
    · next ha =>
      have ha : (asg e.m).satC D := by
        by_contra hn; exact ha ((all_false_iff htD).mpr hn)
      exact ⟨h.old, (he _).mpr ⟨h.sat, satC_cons.mpr (Or.inr ha)⟩, h.last, h.tot, fun v _ h2 => by simp [hc.2] at h2⟩
  · next hc =>
    by_cases hch : e.check = true
    · have hm : e.m x.var = ⟨some x.tv, false⟩ := by
        by_contra hn; exact hc ⟨hn, hch⟩
      refine ⟨h.old, (he _).mpr ⟨h.sat, satC_cons.mpr (Or.inl ?_)⟩, h.last, h.tot, fun v _ h2 => by simp [hch] at h2⟩
      simp [Asg.sat, asg, hm]
    · have hch : e.check = false := by cases hh : e.check <;> simp_all
      obtain ⟨x1, D1, hx1, hD1, hn1, hi1⟩ := h.forced _ hl hch
      have hsat : (asg e.m).satC (x :: D) := by
        by_contra hn
        have h1 := hi1 _ (hf _ h.sat hn)
        have h2 := hi1 _ h.sat
        have hnx : ¬ (asg e.m).sat x := fun h3 => hn (satC_cons.mpr (Or.inl h3))
        have hx1s := (satC_cons.mp h2).resolve_right hn1
        rcases satC_cons.mp h1 with h3 | h3
        · rcases Lit.eq_or_neg hx1 with rfl | rfl
          · exact hnx hx1s
          · rw [Asg.sat_neg] at h3; exact h3 (sat_setL _ x)
        · rw [Asg.setL, satC_update_ne hD1] at h3; exact hn1 h3
      exact ⟨h.old, (he _).mpr ⟨h.sat, hsat⟩, h.last, h.tot, fun v hv h2 =>
        let ⟨x1, D1, a, b, c, d⟩ := h.forced v hv h2
        ⟨x1, D1, a, b, c, fun M hM => d M ((he M).mp hM).1⟩⟩

theorem Mid.open_marked {F E e} {x : Lit} {D : Cl} (h : Mid F E e) (hx : ¬ E x.var) :
    Mid F E (openGroup ⟨x :: D, true⟩ x (closeGroup e)) := by
  obtain ⟨h1, h2, h3⟩ := h.close
  unfold openGroup
  simp only [h1, if_true]
  exact ⟨rfl, h2, fun v hv => by cases hv; exact hx, fun v hv => absurd hv (h3 v), fun v _ hc => by simp at hc⟩

/-- Proof device: the state between two clauses of an eliminated variable. -/
structure VMid (M0 : Asg) (v : Nat) (P : List Cl) (e : Ext) : Prop where
  old : e.old = []
  last : e.last = some v
  tot : ∀ w, w ≠ v → (e.m w).val ≠ none
  base : ∀ w, w ≠ v → asg e.m w = M0 w
  cases : (e.check = true ∧ e.m v = ⟨none, true⟩ ∧ ∀ c ∈ P, (asg e.m).satC c.tail) ∨
    (e.check = false ∧ ∃ x D, x :: D ∈ P ∧ x.var = v ∧ ¬ (asg e.m).satC D ∧ e.m v = ⟨some x.tv, false⟩)

theorem VMid.step {M0 v P e} {x : Lit} {D : Cl} (h : VMid M0 v P e) (hx : x.var = v) (hD : ∀ y ∈ D, y.var ≠ v) :
    VMid M0 v (P ++ [x :: D]) (exClause x D e) := by
  subst hx
  have htD : ∀ y ∈ D, (e.m y.var).val ≠ none := fun y hy => h.tot _ (hD y hy)
  unfold exClause
  rcases h.cases with ⟨hc, hm, hP⟩ | ⟨hc, x1, D1, hP, hx1, hD1, hm⟩
  · rw [if_pos ⟨by rw [hm]; simp, hc⟩]
    split
    · next ha =>
      have ha := (all_false_iff htD).mp ha
      refine ⟨h.old, h.last, fun w hw => ?_, fun w hw => ?_, Or.inr ⟨rfl, x, D, by simp, rfl, ?_, by simp⟩⟩
      · simp only [update_of_ne hw]; exact h.tot w hw
      · simp only [asg_update, update_of_ne hw]; exact h.base w hw
      · simp only [asg_update]; rw [satC_update_ne hD]; exact ha
    · next ha =>
      have ha : (asg e.m).satC D := by
        by_contra hn; exact ha ((all_false_iff htD).mpr hn)
      refine ⟨h.old, h.last, h.tot, h.base, Or.inl ⟨hc, hm, fun c hcm => ?_⟩⟩
      rcases List.mem_append.mp hcm with h1 | h1
      · exact hP c h1
      · simp only [List.mem_singleton] at h1; subst h1; exact ha
  · rw [if_neg (by simp [hc])]
    exact ⟨h.old, h.last, h.tot, h.base, Or.inr ⟨hc, x1, D1, List.mem_append.mpr (Or.inl hP), hx1, hD1, hm⟩⟩

theorem VMid.loop {M0 v} (st : List ECl) : ∀ (G P : List Cl) (e : Ext), VMid M0 v P e →
    (∀ c ∈ G, ∃ x D, c = x :: D ∧ x.var = v ∧ ∀ y ∈ D, y.var ≠ v) →
    ∃ e', exLoop (G.map (fun c => ⟨c, false⟩) ++ st) e = exLoop st e' ∧ VMid M0 v (P ++ G) e'
  | [], P, e, h, _ => ⟨e, by simp, by simpa using h⟩
  | c :: G, P, e, h, hG => by
    obtain ⟨x, D, rfl, hx, hD⟩ := hG c (by simp)
    obtain ⟨e', h1, h2⟩ := VMid.loop st G (P ++ [x :: D]) _ (h.step hx hD) (fun c hc => hG c (by simp [hc]))
    refine ⟨e', ?_, by simpa using h2⟩
    rw [← h1]
    simp only [List.map_cons, List.cons_append, exLoop, h.last, hx, if_true]

theorem VMid.done {F F' F1 : Asg → Prop} {E : Nat → Prop} {M0 v G e} (h : VMid M0 v G e) (hF' : F' M0)
    (he : ∀ M, F M ↔ F1 M ∧ ∀ c ∈ G, M.satC c) (h1 : ∀ M b, F1 M → F1 (update M v b))
    (hx : ∀ M, F' M → ∃ b, F (update M v b)) (hv : ¬ E v)
    (hG : ∀ c ∈ G, ∃ x D, c = x :: D ∧ x.var = v ∧ ∀ y ∈ D, y.var ≠ v ∧ ¬ E y.var) : Mid F E e := by
  obtain ⟨b, hb⟩ := hx M0 hF'
  have hM : ∀ b', asg e.m v = b' → asg e.m = update M0 v b' := fun b' hb' => by
    funext w; by_cases hw : w = v
    · subst hw; simpa using hb'
    · rw [update_of_ne hw]; exact h.base w hw
  refine ⟨h.old, ?_, fun w hw => ?_, fun w hw => ?_, fun w hw hc => ?_⟩
  · rcases h.cases with ⟨hc, hm, hP⟩ | ⟨hc, x1, D1, hP, hx1, hD1, hm⟩
    · refine (he _).mpr ⟨?_, fun c hcG => ?_⟩
      · rw [hM true (by simp [asg, hm])]
        have := h1 _ true ((he _).mp hb).1
        rwa [update_idem] at this
      · obtain ⟨x, D, rfl, _, _⟩ := hG c hcG
        exact satC_cons.mpr (Or.inr (hP _ hcG))
    · have hmv : asg e.m v = x1.tv := by simp [asg, hm]
      have hc1 := ((he _).mp hb).2 _ hP
      obtain ⟨x, D, hxD, hxv, hD⟩ := hG _ hP
      cases hxD
      have hDf : ¬ Asg.satC (update M0 v b) D1 := by
        rw [satC_update_ne (fun y hy => (hD y hy).1)]
        rw [hM _ hmv, satC_update_ne (fun y hy => (hD y hy).1)] at hD1
        exact hD1
      have hx1s := (satC_cons.mp hc1).resolve_right hDf
      simp only [Asg.sat, hx1, update_self] at hx1s
      rw [hM _ hmv, ← hx1s]; exact hb
  · rw [h.last] at hw; cases hw; exact hv
  · by_cases hwv : w = v
    · subst hwv
      rcases h.cases with ⟨hc, hm, hP⟩ | ⟨hc, x1, D1, hP, hx1, hD1, hm⟩
      · exact ⟨h.last, by rw [hm]⟩
      · rw [hm] at hw; simp at hw
    · exact absurd hw (h.tot w hwv)
  · rw [h.last] at hw; cases hw
    rcases h.cases with ⟨hc', hm, hP⟩ | ⟨hc, x1, D1, hP, hx1, hD1, hm⟩
    · rw [hc] at hc'; cases hc'
    · obtain ⟨x, D, hxD, hxv, hD⟩ := hG _ hP
      cases hxD
      exact ⟨x1, D1, hx1, fun y hy => (hD y hy).1, hD1, fun M hM => ((he M).mp hM).2 _ hP⟩

/-- The loop over the stack turns a model of the simplified problem into a model of the original one. -/
theorem exLoop_sat {F0 st E F} (h : Chain F0 st E F) : ∀ e, Mid F E e → F0 (asg (exLoop st e).m) ∧
    ∀ v, ((exLoop st e).m v).val ≠ none := by
  induction h with
  | nil => intro e he; have := he.close; exact ⟨this.2.1, this.2.2⟩
  | equiv F' _ hq ih =>
    intro e he
    exact ih e ⟨he.old, (hq _).mpr he.sat, he.last, he.tot, fun v h1 h2 =>
      let ⟨x, D, a, b, c, d⟩ := he.forced v h1 h2; ⟨x, D, a, b, c, fun M hM => d M ((hq M).mp hM)⟩⟩
  | bce F' x D _ hq hf hx hD ih =>
    intro e he
    simp only [exLoop]
    apply ih
    split
    · next hl => exact he.bce hq hf (fun y hy => (hD y hy).1) hl
    · next hl =>
      refine (he.open_marked (D := D) hx).bce hq hf (fun y hy => (hD y hy).1) ?_
      unfold openGroup
      have := he.close.1
      simp only [this]
  | @ve st E F F' F1 v G _ hq h1 hi hx hv hG ih =>
    intro e he
    cases G with
    | nil =>
      apply ih
      obtain ⟨b, hb⟩ := hx _ he.sat
      have hF : F (asg e.m) := by
        have h2 := h1 _ (asg e.m v) ((hq _).mp hb).1
        rw [update_idem, update_eq_self] at h2
        exact (hq _).mpr ⟨h2, by simp⟩
      exact ⟨he.old, hF, fun w hw hE => he.last w hw (Or.inl hE), he.tot, fun w a b =>
        let ⟨x, D, c1, c2, c3, c4⟩ := he.forced w a b; ⟨x, D, c1, c2, c3, fun M hM => c4 M (hi M hM)⟩⟩
    | cons c G =>
      obtain ⟨x, D, rfl, hxv, hD⟩ := hG c (by simp)
      have hl : e.last ≠ some x.var := fun hl => he.last _ hl (Or.inr hxv)
      obtain ⟨c1, c2, c3⟩ := he.close
      have hV : VMid (asg (closeGroup e).m) v [] (openGroup ⟨x :: D, false⟩ x (closeGroup e)) := by
        unfold openGroup
        simp only [c1]
        refine ⟨rfl, by rw [hxv], fun w hw => ?_, fun w hw => ?_, Or.inl ⟨rfl, by simp [hxv], by simp⟩⟩
        · simp only [hxv, Bool.false_eq_true, if_false, update_of_ne hw]; exact c3 w
        · simp only [hxv, Bool.false_eq_true, if_false, asg_update, update_of_ne hw]
      have hV := hV.step hxv (fun y hy => (hD y hy).1)
      obtain ⟨e', g1, g2⟩ := hV.loop st G _ _ (fun c hc =>
        let ⟨x, D, a, b, d⟩ := hG c (by simp [hc]); ⟨x, D, a, b, fun y hy => (d y hy).1⟩)
      simp only [List.map_cons, List.cons_append, exLoop, if_neg hl]
      rw [g1]
      apply ih
      exact VMid.done (by simpa using g2) c2 hq h1 hx hv hG

/-- Proof device: only true or missing values carry the flag. -/
def ElOk (m : Nat → VRep) : Prop := ∀ v, (m v).el = true → (m v).val ≠ some false

theorem ElOk.upd {m : Nat → VRep} (h : ElOk m) (v : Nat) {r : VRep} (hr : r.el = true → r.val ≠ some false) :
    ElOk (update m v r) := by
  intro w hw
  by_cases h1 : w = v
  · subst h1; rw [update_self] at hw ⊢; exact hr hw
  · rw [update_of_ne h1] at hw ⊢; exact h w hw

theorem ElOk.loop : ∀ (st : List ECl) (e : Ext), ElOk e.m → ElOk (exLoop st e).m
  | [], e, h => close e h
  | r :: rs, e, h => by
    unfold exLoop
    split
    · exact ElOk.loop rs e h
    · next x t _ =>
      apply ElOk.loop rs
      have : ElOk (if e.last = some x.var then e else openGroup r x (closeGroup e)).m := by
        split
        · exact h
        · have h := close e h
          have h2 : ElOk (if r.marked then (closeGroup e).m else update (closeGroup e).m x.var ⟨none, true⟩) := by
            split
            · exact h
            · exact h.upd _ (by simp)
          unfold openGroup
          generalize (if r.marked then (closeGroup e).m else update (closeGroup e).m x.var ⟨none, true⟩) = m' at h2
          simp only []
          split
          · exact h2
          · split
            · exact h2.upd _ (by simp)
            · exact h2
      generalize (if e.last = some x.var then e else openGroup r x (closeGroup e)) = e' at this
      unfold exClause
      split
      · split
        · exact this.upd _ (by simp)
        · exact this
      · exact this
where
  close (e : Ext) (h : ElOk e.m) : ElOk (closeGroup e).m := by
    unfold closeGroup
    split
    · exact h
    · split
      · exact h.upd _ (by simp)
      · exact h

theorem exFinish_asg : ∀ (vs : List Nat) (m : Nat → VRep) (unc : List Lit), (∀ v, (m v).el = true → (m v).val = some true) →
    asg (exFinish vs m unc).1 = asg m
  | [], _, _, _ => rfl
  | v :: vs, m, unc, h => by
    unfold exFinish
    split
    · next he =>
      rw [exFinish_asg vs]
      · rw [asg_update]; funext w; by_cases hw : w = v
        · subst hw; simp [asg, h w he]
        · simp [update_of_ne hw]
      · intro w hw
        by_cases hwv : w = v
        · subst hwv; simp at hw
        · rw [update_of_ne hwv] at hw ⊢; exact h w hw
    · exact exFinish_asg vs m unc h

/-- `doExtendModel` without remembered literals turns a model of the simplified problem into one of the original problem. -/
theorem doExtend_sat {F0 st E F} (h : Chain F0 st E F) {m : Nat → VRep} (hm : F (asg m)) (ht : ∀ v, (m v).val ≠ none)
    (he : ∀ v, (m v).el = false) : F0 (asg (doExtendModel st m []).1) := by
  have hel : ElOk m := fun v hv => by rw [he v] at hv; cases hv
  have hmid : Mid F E ⟨m, none, true, [], []⟩ :=
    ⟨rfl, hm, fun v hv => (nomatch hv), fun v hv => absurd hv (ht v), fun v hv => (nomatch hv)⟩
  obtain ⟨h1, h2⟩ := exLoop_sat h _ hmid
  cases st with
  | nil => exact h1
  | cons r rs =>
    show F0 (asg (exFinish _ _ _).1)
    rw [exFinish_asg]
    · exact h1
    · intro v hv
      have h3 := ElOk.loop (r :: rs) ⟨m, none, true, [], []⟩ hel v hv
      cases h4 : ((exLoop (r :: rs) ⟨m, none, true, [], []⟩).m v).val with
      | none => exact absurd h4 (h2 v)
      | some b => cases b with
        | true => rfl
        | false => exact absurd h4 h3

end Clasp.Elite
