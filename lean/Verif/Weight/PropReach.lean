/- C22: every reachable state satisfies the invariant; a path above a level does not touch what belongs to that level. -/
import Verif.Weight.PropUndo
namespace Clasp.WC
open Core Weight

/-- Specification: the constraint is created on level 0 from normalised literals that are all free; the constraint literal may be assigned, and
must be if the bound is trivially (un)reachable. -/
structure Start (W : Lit) (r : Rep) (tr : List Entry) : Prop where
  pos : ∀ e ∈ r.lits, 0 < e.w
  sorted : r.lits.Pairwise fun a b => a.w ≥ b.w
  reach : r.reach = total r.lits
  free : ∀ e ∈ r.lits, assigned tr e.lit.var = false
  lower : 0 < r.bound ∨ isTrue tr W = true
  upper : r.bound ≤ r.reach ∨ isTrue tr W.neg = true
  nodup : (tr.map fun e => e.lit.var).Nodup
  top : ∀ e ∈ tr, e.lev = 0 ∧ e.rs = none

/-- Specification: the sub-constraint `c` (`true`: sum reached → W; `false`: W → sum reached) is in use. -/
def Used (W : Lit) (act : Option Side) (tr : List Entry) (c : Side) : Prop :=
  if isTrue tr W then c = false else if isTrue tr W.neg then c = true else act ≠ some (!c)

/-- Specification: the parameters of the invariant for a new constraint. -/
def parOf (W : Lit) (r : Rep) (act : Option Side) (tr : List Entry) : Par :=
  { lits := ⟨W.neg, 1⟩ :: r.lits
    isW := (initCon W r act true tr).isW
    b := (initCon W r act true tr).bound
    en := fun c => (initCon W r act true tr).active ≠ some (!c) }

theorem en_iff {W : Lit} {r : Rep} {act : Option Side} {tr : List Entry} (hs : Start W r tr) (c : Side) :
    (parOf W r act tr).en c = true ↔ Used W act tr c := by
  have hn : TrN tr := hs.nodup
  unfold parOf Used initCon
  dsimp only
  by_cases h1 : isTrue tr W = true
  · obtain ⟨l, hl⟩ := isTrue_iff.1 h1
    have h2 : isTrue tr W.neg = false := by
      rw [← Bool.not_eq_true, isTrue_iff]; rintro ⟨l', hl'⟩; exact hn.neg hl hl'
    rw [if_pos h1, assigned_of hl, h2]
    cases c <;> simp
  · rw [if_neg h1]
    by_cases h2 : isTrue tr W.neg = true
    · obtain ⟨l, hl⟩ := isTrue_iff.1 h2
      have := assigned_of hl
      rw [Lit.neg_var] at this
      rw [if_pos h2, this, h2]
      cases c <;> simp
    · have : assigned tr W.var = false := by
        rw [← Bool.not_eq_true, assigned_iff]
        rintro ⟨p, l, hp, hl⟩
        rcases Lit.eq_or_neg hp with rfl | rfl
        · exact h1 (isTrue_iff.2 ⟨l, hl⟩)
        · exact h2 (isTrue_iff.2 ⟨l, hl⟩)
      rw [if_neg h2, this]
      simp

theorem wOf_cons (l : WL) (ls : List WL) (i : Nat) : wOf (l :: ls) (i + 1) = wOf ls i := by simp [wOf]
theorem wOf_get {ls : List WL} {i : Nat} (h : i < ls.length) : wOf ls i = (ls[i]).w := by simp [wOf, List.getD, h]
theorem litOf_get {ls : List WL} {i : Nat} (h : i < ls.length) : litOf ls i = (ls[i]).lit := by simp [litOf, List.getD, h]

theorem par_ok {W : Lit} {r : Rep} {act : Option Side} {tr : List Entry} (hs : Start W r tr) : (parOf W r act tr).OK := by
  have hsrt : ∀ i j, i ≤ j → j < r.lits.length → wOf r.lits j ≤ wOf r.lits i := by
    intro i j hij hj
    rw [wOf_get hj, wOf_get (by omega)]
    rcases Nat.lt_or_ge i j with h | h
    · exact List.pairwise_iff_getElem.1 hs.sorted i j (by omega) hj h
    · have : i = j := by omega
      subst this; exact Int.le_refl _
  refine ⟨?_, by simp [parOf], rfl, ?_, ?_, ?_, ?_⟩
  · intro e he
    rcases List.mem_cons.1 he with rfl | he
    · exact Int.one_pos
    · exact hs.pos e he
  · intro i j hi hij hj
    obtain ⟨i, rfl⟩ : ∃ k, i = k + 1 := ⟨i - 1, by omega⟩
    obtain ⟨j, rfl⟩ : ∃ k, j = k + 1 := ⟨j - 1, by omega⟩
    simp only [parOf, wOf_cons, List.length_cons] at hj ⊢
    exact hsrt i j (by omega) (by omega)
  · intro hw i hi
    cases i with
    | zero => rfl
    | succ i =>
      simp only [parOf, wOf_cons, List.length_cons] at hi ⊢
      have h1 := hsrt 0 i (by omega) (by omega)
      have h2 := hs.pos _ (List.getElem_mem (show i < r.lits.length by omega))
      rw [← wOf_get] at h2
      have h3 : wOf r.lits 0 ≤ 1 := by
        revert hw
        simp only [parOf, initCon]
        cases hl : r.lits with
        | nil => rw [hl] at hi; simp at hi
        | cons a ls => simp [wOf]
      omega
  · simp only [parOf, initCon, total_cons]
    rw [if_pos trivial, if_neg (by decide), hs.reach]; omega
  · intro c hc
    rw [en_iff hs] at hc
    unfold Used at hc
    simp only [parOf, initCon]
    have h1 := hs.lower
    have h2 := hs.upper
    have hn : TrN tr := hs.nodup
    by_cases h3 : isTrue tr W = true
    · rw [if_pos h3] at hc
      subst hc
      rcases h2 with h2 | h2
      · rw [if_neg (by decide)]; omega
      · obtain ⟨l, hl⟩ := isTrue_iff.1 h3
        obtain ⟨l', hl'⟩ := isTrue_iff.1 h2
        exact (hn.neg hl hl').elim
    · rw [if_neg h3] at hc
      have h1 := h1.resolve_right h3
      cases c
      · by_cases h4 : isTrue tr W.neg = true
        · rw [if_pos h4] at hc; cases hc
        · have h2 := h2.resolve_right h4
          rw [if_neg (by decide)]; omega
      · rw [if_pos rfl]; omega

theorem inv_init {W : Lit} {r : Rep} {act : Option Side} {frz : Bool} {tr : List Entry} (hs : Start W r tr) :
    Inv (parOf W r act tr) none (initWd W r act frz tr) := by
  have hok := par_ok (act := act) hs
  have hl0 : ∀ {p l}, Lv tr p l → l = 0 := by
    rintro p l ⟨e, he, _, rfl⟩; exact (hs.top e he).1
  have hfree : ∀ i, i + 1 < (parOf W r act tr).lits.length → ∀ c l, ¬ Lv tr (sub (parOf W r act tr).lits (i + 1) c).neg l := by
    intro i hi c l hl
    have hi' : i < r.lits.length := by simpa [parOf] using hi
    have := assigned_of hl
    rw [Lit.neg_var, sub_var] at this
    simp only [parOf, litOf_cons] at this
    rw [litOf_get hi', hs.free _ (List.getElem_mem hi')] at this
    cases this
  have hact : ∀ c, (initCon W r act frz tr).active = some c → (parOf W r act tr).en (!c) = false := by
    intro c hc
    simp only [parOf]
    have : (initCon W r act true tr).active = some c := hc
    rw [this]; simp
  exact {
    lits := rfl
    isW := rfl
    nod := hs.nodup
    lev := fun e he => Nat.le_of_eq (hs.top e he).1
    pendA := by
      intro i hi
      simp only [initWd] at hi
      split at hi
      · rename_i ha
        rw [List.mem_singleton] at hi
        subst hi
        refine ⟨by simp [parOf], ?_⟩
        obtain ⟨p, l, hp, hl⟩ := assigned_iff.1 ha
        have := hl0 hl; subst this
        rcases sub_cases (lits := (parOf W r act tr).lits) (i := 0) (p := p) true (by simp [parOf, litOf, Lit.neg_var, hp]) with rfl | rfl
        · exact ⟨true, hl⟩
        · exact ⟨false, by rw [← Bool.not_true, sub_not]; exact hl⟩
      · cases hi
    pendN := by simp only [initWd]; split <;> simp
    pendS := by intro i _ c hm; cases hm
    stk := by intro u hu; cases hu
    stkN := List.nodup_nil
    stkO := List.Pairwise.nil
    seen := by intro i; simp [initWd, initCon]
    bnd := by
      intro c
      rw [sumI_nil (fun i h => by cases h)]
      simp [initWd, parOf, initCon]
    und := by intro l; simp [initWd, initCon]
    on0 := fun c => rfl
    wat := by
      show ((initCon W r act frz tr).watched = 2 ∧ _) ∨ ((initCon W r act frz tr).watched = 3 ∧ _) ∨ _
      by_cases h : (initCon W r act true tr).active.isSome ∨ frz = false
      · exact .inl ⟨if_pos h, fun c => rfl⟩
      · refine .inr (.inl ⟨if_neg h, fun c => ?_⟩)
        have : (initCon W r act true tr).active = none := by
          cases hx : (initCon W r act true tr).active
          · rfl
          · exact absurd (.inl (by rw [hx]; rfl)) h
        have e : decide ((initCon W r act true tr).active ≠ some (!c)) = true := by rw [this]; rfl
        exact ⟨e, e⟩
    act := fun c hc => .inr (.inl (hact c hc))
    proc := by
      intro c hen i hi l ⟨l', _, hl'⟩
      cases i with
      | succ i => exact absurd hl' (hfree i hi c l')
      | zero =>
        left
        have := assigned_of hl'
        rw [Lit.neg_var, sub_var] at this
        have : assigned tr W.var = true := by simpa [initWd, parOf, litOf, Lit.neg_var] using this
        simp [initWd, this]
    prp := by
      intro c hen l hl _
      have e : left (parOf W r act tr) tr [] c l = (parOf W r act tr).b c := by
        unfold left; rw [sumI_nil (fun i h => by cases h.1)]; simp
      refine ⟨fun _ hx => ?_, fun hx => by cases hx.1⟩
      have := hok.start c hen
      change left (parOf W r act tr) tr [] c l ≤ 0 at hx
      omega
    bp := .inl rfl
    rsn := by
      intro pre e post d he hd
      have := (hs.top e (by change tr = _ at he; rw [he]; simp)).2
      rw [hd] at this; cases this
    cnf := by intro p d hx; cases hx }

theorem inv_step {q : Par} {w w' : Wd} (hq : q.OK) (h : Inv q none w) (hs : Step w w') : Inv q none w' := by
  cases hs with
  | assign p hc hp => exact h.push hc hp (by intro d hd; cases hd)
  | decide p hc hpd hp => exact (h.nextLevel hc hpd).push hc hp (by intro d hd; cases hd)
  | notify i r hc hi => exact h.notify hq hc hi
  | undo hd => exact h.undo hd

theorem inv_reach {W : Lit} {r : Rep} {act : Option Side} {frz : Bool} {tr : List Entry} {w : Wd} (hs : Start W r tr)
    (h : Reach W r act frz tr w) : Inv (parOf W r act tr) none w := by
  induction h with
  | init => exact inv_init hs
  | step _ h2 ih => exact inv_step (par_ok hs) ih h2

end Clasp.WC
