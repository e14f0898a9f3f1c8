/- C37: the arithmetic of the minimize constraint is the arithmetic of lexicographically ordered vectors. -/
import Verif.Opt.Min
import Verif.Opt.BuilderLem
import Mathlib.Algebra.Order.Group.PiLex
import Mathlib.Algebra.Order.Group.Int
import Mathlib.Algebra.Order.Group.Defs
import Mathlib.Data.Fintype.Order
import Mathlib.Algebra.BigOperators.Group.List.Basic
import Mathlib.Algebra.Order.BigOperators.Group.List
namespace Clasp.MinC
open Core
open Clasp.Mini (Data LW vec at' isVec at'_cons at'_nil at'_not vec_append)

/-- Proof device: cost vectors with `n` levels, ordered lexicographically. -/
abbrev G (n : Nat) := Lex (Fin n → ℤ)

/-- Proof device: the first `n` levels of a vector. -/
def V (n : Nat) (f : Nat → Int) : G n := toLex fun i => f i

theorem V_lt {n : Nat} {f g : Nat → Int} : V n f < V n g ↔ ∃ i < n, (∀ j < i, f j = g j) ∧ f i < g i := by
  constructor
  · rintro ⟨i, h1, h2⟩
    exact ⟨i, i.2, fun j hj => h1 ⟨j, by omega⟩ hj, h2⟩
  · rintro ⟨i, hi, h1, h2⟩
    exact ⟨⟨i, hi⟩, fun j hj => h1 j hj, h2⟩

theorem V_add {n : Nat} (f g : Nat → Int) : V n (fun L => f L + g L) = V n f + V n g := rfl
theorem V_sub {n : Nat} (f g : Nat → Int) : V n (fun L => f L - g L) = V n f - V n g := rfl
theorem V_zero {n : Nat} : V n (fun _ => 0) = 0 := rfl
theorem V_congr {n : Nat} {f g : Nat → Int} (h : ∀ i < n, f i = g i) : V n f = V n g := by
  unfold V; congr 1; funext i; exact h i i.2

/-- Proof device: a sparse vector as read by the arithmetic (the sentinel has weight 0). -/
structure Vec (n : Nat) (g : List LW) : Prop where
  vec : isVec g
  inc : g.Pairwise (fun a b => a.level < b.level)
  lev : ∀ w ∈ g, w.level < n

/-- Proof device: the vector of a weight. -/
def wv (d : Data) (x : Int) : Nat → Int := fun L =>
  if d.weights = [] then (if L = 0 then x else 0) else at' (vec (d.weights.drop x.toNat)) L

/-- Proof device: `x` is a weight of the data. -/
def Good (d : Data) (x : Int) : Prop := d.weights ≠ [] → ∃ g r, d.weights.drop x.toNat = g ++ r ∧ Vec (rules d) g

/-- Proof device: the most important level of a weight. -/
def lvl (d : Data) (x : Int) : Nat := if d.weights = [] then 0 else ((d.weights.drop x.toNat).headD ⟨0, false, 0⟩).level

theorem addV_eq (lhs : Nat → Int) (g : List LW) (h : g.Pairwise (fun a b => a.level < b.level)) :
    addV lhs g = fun L => lhs L + at' g L := by
  induction g generalizing lhs with
  | nil => funext L; simp [addV]
  | cons w g ih =>
    have h1 := List.pairwise_cons.1 h
    funext L
    rw [addV, ih _ h1.2, at'_cons]
    beta_reduce
    by_cases hL : w.level = L
    · subst hL
      rw [if_pos rfl, at'_not fun v hv => by have := h1.1 v hv; omega]
      simp
    · rw [if_neg hL, Function.update_of_ne (fun e => hL e.symm)]

theorem subV_eq (lhs : Nat → Int) (g : List LW) (h : g.Pairwise (fun a b => a.level < b.level)) :
    subV lhs g = fun L => lhs L - at' g L := by
  induction g generalizing lhs with
  | nil => funext L; simp [subV]
  | cons w g ih =>
    have h1 := List.pairwise_cons.1 h
    funext L
    rw [subV, ih _ h1.2, at'_cons]
    beta_reduce
    by_cases hL : w.level = L
    · subst hL
      rw [if_pos rfl, at'_not fun v hv => by have := h1.1 v hv; omega]
      simp
    · rw [if_neg hL, Function.update_of_ne (fun e => hL e.symm)]

theorem add_eq {d : Data} {x : Int} (hx : Good d x) (lhs : Nat → Int) : add d lhs x = fun L => lhs L + wv d x L := by
  unfold add wv
  split
  · funext L
    by_cases hL : L = 0
    · subst hL; simp
    · rw [Function.update_of_ne hL]; simp [hL]
  · rename_i hw
    obtain ⟨g, r, e, hg⟩ := hx hw
    rw [e, vec_append hg.vec, addV_eq _ _ hg.inc]

theorem sub_eq {d : Data} {x : Int} (hx : Good d x) (lhs : Nat → Int) (a : Nat) : (sub d lhs x a).1 = fun L => lhs L - wv d x L := by
  unfold sub wv
  split
  · funext L
    by_cases hL : L = 0
    · subst hL; simp
    · simp only; rw [Function.update_of_ne hL]; simp [hL]
  · rename_i hw
    obtain ⟨g, r, e, hg⟩ := hx hw
    simp only
    rw [e, vec_append hg.vec, subV_eq _ _ hg.inc]

theorem sub_lev {d : Data} {x : Int} (lhs : Nat → Int) (a : Nat) (hw : d.weights ≠ []) : (sub d lhs x a).2 = min a (lvl d x) := by
  unfold sub lvl; rw [if_neg hw, if_neg hw]

/-- Below its most important level a weight is zero. -/
theorem wv_lt {d : Data} {x : Int} (hx : Good d x) {L : Nat} (hL : L < lvl d x) : wv d x L = 0 := by
  unfold lvl at hL; unfold wv
  split at hL
  · omega
  · rename_i hw
    rw [if_neg hw]
    obtain ⟨g, r, e, hg⟩ := hx hw
    rw [e] at hL ⊢
    rw [vec_append hg.vec]
    cases g with
    | nil => rfl
    | cons w g =>
      apply at'_not
      have h1 := List.pairwise_cons.1 hg.inc
      simp only [List.cons_append, List.headD_cons] at hL
      intro v hv
      rcases List.mem_cons.1 hv with rfl | hv
      · omega
      · have := h1.1 v hv; omega

theorem skipEq_spec (lhs rhs : Nat → Int) : ∀ k lev, lev ≤ skipEq lhs rhs k lev ∧ skipEq lhs rhs k lev ≤ lev + k ∧
    ∀ j, lev ≤ j → j < skipEq lhs rhs k lev → lhs j = rhs j := by
  intro k
  induction k with
  | zero => intro lev; exact ⟨Nat.le_refl _, Nat.le_refl _, fun j h1 h2 => by simp only [skipEq] at h2; omega⟩
  | succ k ih =>
    intro lev
    rw [skipEq]
    split
    · rename_i h
      obtain ⟨a, b, c⟩ := ih (lev + 1)
      refine ⟨by omega, by omega, fun j h1 h2 => ?_⟩
      by_cases e : j = lev
      · subst e; exact h
      · exact c j (by omega) h2
    · exact ⟨Nat.le_refl _, by omega, fun j h1 h2 => by omega⟩

/-- What `impLoop` decides: from level `i` on, the first difference is positive. -/
theorem impLoop_spec (lhs rhs : Nat → Int) : ∀ k i ws (v : Nat → Int),
    ((∃ g r, ws = g ++ r ∧ isVec g ∧ g.Pairwise (fun a b => a.level < b.level) ∧ (∀ w ∈ g, i ≤ w.level) ∧ ∀ L, i ≤ L → v L = at' g L) ∨
      ((∃ w r, ws = w :: r ∧ w.level < i ∧ w.next = false) ∧ ∀ L, i ≤ L → v L = 0)) →
    (impLoop lhs rhs k i ws = true ↔ ∃ m, i ≤ m ∧ m < i + k ∧ (∀ j, i ≤ j → j < m → lhs j + v j = rhs j) ∧ rhs m < lhs m + v m) := by
  intro k
  induction k with
  | zero => intro i ws v _; simp only [impLoop]; constructor
            · intro h; exact absurd h (by simp)
            · rintro ⟨m, h1, h2, _⟩; omega
  | succ k ih =>
    intro i ws v h
    have key : (term lhs i ws).1 = lhs i + v i ∧
      ((∃ g r, (term lhs i ws).2 = g ++ r ∧ isVec g ∧ g.Pairwise (fun a b => a.level < b.level) ∧ (∀ w ∈ g, i + 1 ≤ w.level) ∧ ∀ L, i + 1 ≤ L → v L = at' g L) ∨
      ((∃ w r, (term lhs i ws).2 = w :: r ∧ w.level < i + 1 ∧ w.next = false) ∧ ∀ L, i + 1 ≤ L → v L = 0)) := by
      rcases h with ⟨g, r, rfl, h1, h2, h3, h4⟩ | ⟨⟨w, r, rfl, h1, h2⟩, h3⟩
      · cases g with
        | nil => exact absurd h1 (by simp [isVec])
        | cons w g =>
          have h5 := List.pairwise_cons.1 h2
          have h6 := h3 w (.head _)
          simp only [List.cons_append, term]
          by_cases e : i = w.level
          · rw [if_pos e]
            have hv : v i = w.weight := by rw [h4 i (Nat.le_refl _), at'_cons, if_pos e.symm]
            refine ⟨by simp [hv], ?_⟩
            cases g with
            | nil =>
              have hn : w.next = false := h1
              right
              refine ⟨⟨w, r, by simp [hn], by omega, hn⟩, fun L hL => ?_⟩
              rw [h4 L (by omega), at'_cons, if_neg (by omega)]; rfl
            | cons w2 g =>
              have hn : w.next = true := h1.1
              left
              refine ⟨w2 :: g, r, by simp [hn], h1.2, h5.2, fun u hu => by have := h5.1 u hu; omega, fun L hL => ?_⟩
              rw [h4 L (by omega), at'_cons, if_neg (by omega)]
          · rw [if_neg e]
            have hv : v i = 0 := by
              rw [h4 i (Nat.le_refl _)]
              apply at'_not
              intro u hu
              rcases List.mem_cons.1 hu with rfl | hu
              · omega
              · have := h5.1 u hu; omega
            refine ⟨by simp [hv], .inl ⟨w :: g, r, rfl, h1, h2, ?_, fun L hL => h4 L (by omega)⟩⟩
            intro u hu
            rcases List.mem_cons.1 hu with rfl | hu
            · omega
            · have := h5.1 u hu; omega
      · simp only [term]
        rw [if_neg (by omega)]
        exact ⟨by simp [h3 i (Nat.le_refl _)], .inr ⟨⟨w, r, rfl, by omega, h2⟩, fun L hL => h3 L (by omega)⟩⟩
    rw [impLoop]
    rw [key.1]
    split
    · rename_i hne
      simp only [decide_eq_true_eq]
      constructor
      · intro hgt; exact ⟨i, Nat.le_refl _, by omega, fun j h1 h2 => by omega, hgt⟩
      · rintro ⟨m, h1, h2, h3, h4⟩
        rcases Nat.lt_or_ge i m with h5 | h5
        · exact absurd (h3 i (Nat.le_refl _) h5) hne
        · have : m = i := by omega
          subst this; exact h4
    · rename_i he
      have he : lhs i + v i = rhs i := by simpa using he
      rw [ih (i + 1) _ v key.2]
      constructor
      · rintro ⟨m, h1, h2, h3, h4⟩
        refine ⟨m, by omega, by omega, fun j h5 h6 => ?_, h4⟩
        by_cases e : j = i
        · subst e; exact he
        · exact h3 j (by omega) h6
      · rintro ⟨m, h1, h2, h3, h4⟩
        have : m ≠ i := by rintro rfl; omega
        exact ⟨m, by omega, by omega, fun j h5 h6 => h3 j (by omega) h6, h4⟩

/-- `imp` compares the sum plus the weight with the bound. -/
theorem imp_spec {d : Data} {x : Int} (hx : Good d x) (hn : d.weights = [] → rules d = 1) {lhs rhs : Nat → Int} {lev : Nat}
    (hl : d.weights ≠ [] → lev ≤ lvl d x) (he : ∀ j < lev, lhs j = rhs j) :
    ∃ b l, imp d lhs x rhs lev = some (b, l) ∧ (b = true ↔ V (rules d) rhs < V (rules d) lhs + V (rules d) (wv d x)) ∧
      (∀ j < l, lhs j = rhs j) ∧ (d.weights ≠ [] → l ≤ lvl d x) := by
  rw [← V_add, V_lt]
  unfold imp
  split
  · rename_i hw
    refine ⟨_, _, rfl, ?_, he, fun h => absurd hw h⟩
    rw [hn hw]
    simp only [decide_eq_true_eq, wv, hw, if_true]
    constructor
    · intro h; exact ⟨0, by omega, fun j hj => by omega, by simpa using h⟩
    · rintro ⟨i, h1, _, h3⟩
      have : i = 0 := by omega
      subst this; simpa using h3
  · rename_i hw
    obtain ⟨g, r, e, hg⟩ := hx hw
    have hl := hl hw
    have hwv : wv d x = at' g := by
      funext L; unfold wv; rw [if_neg hw, e, vec_append hg.vec]
    cases g with
    | nil => exact absurd hg.vec (by simp [isVec])
    | cons w g =>
      have hlv : lvl d x = w.level := by unfold lvl; rw [if_neg hw, e]; rfl
      have hL := hg.lev w (.head _)
      have h5 := List.pairwise_cons.1 hg.inc
      rw [e, List.cons_append]
      simp only
      rw [if_pos ⟨by omega, by simpa using he⟩]
      obtain ⟨s1, s2, s3⟩ := skipEq_spec lhs rhs (w.level - lev) lev
      generalize hl' : skipEq lhs rhs (w.level - lev) lev = l at *
      have he' : ∀ j < l, lhs j = rhs j := fun j hj => by
        rcases Nat.lt_or_ge j lev with h | h
        · exact he j h
        · exact s3 j h hj
      refine ⟨_, _, rfl, ?_, he', fun _ => by omega⟩
      have hge : ∀ u ∈ w :: g, l ≤ u.level := fun u hu => by
        rcases List.mem_cons.1 hu with rfl | hu
        · omega
        · have := h5.1 u hu; omega
      rw [impLoop_spec lhs rhs _ l (w :: (g ++ r)) (at' (w :: g)) (.inl ⟨w :: g, r, rfl, hg.vec, hg.inc, hge, fun L _ => rfl⟩), hwv]
      constructor
      · rintro ⟨m, h1, h2, h3, h4⟩
        refine ⟨m, by omega, fun j hj => ?_, h4⟩
        rcases Nat.lt_or_ge j l with h | h
        · rw [he' j h, at'_not fun u hu => by have := hge u hu; omega, Int.add_zero]
        · exact (h3 j h hj).symm
      · rintro ⟨m, h1, h2, h3⟩
        refine ⟨m, ?_, by omega, fun j hj1 hj2 => (h2 j hj2).symm, h3⟩
        by_contra hlt
        have hlt : m < l := by omega
        rw [he' m hlt, at'_not fun u hu => by have := hge u hu; omega, Int.add_zero] at h3
        omega

end Clasp.MinC
