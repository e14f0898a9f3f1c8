/-
C21: the normal form of a weight constraint has the same models.
`val M lits` is the sum of the weights of the true literals, `ext M top` says that `M` agrees with the level 0 assignment.
-/
import Verif.Weight.RepLem
import Mathlib.Data.List.Sort
import Mathlib.Algebra.Order.Group.Abs
import Mathlib.Tactic.SplitIfs
namespace Clasp.Weight
open Core

/-! ## Specification -/

/-- Specification: the linear constraint `sum(lits) >= bound` holds in `M`. -/
def holds (M : Asg) (lits : List WL) (bound : Int) : Prop := bound ≤ val M lits

/-- Specification: what the constraint class requires of its literals: positive weights in decreasing order, distinct free
variables, `reach` is the sum of the weights, and no weight exceeds a positive bound. -/
structure Normal (top : Top) (r : Rep) : Prop where
  pos : ∀ e ∈ r.lits, 0 < e.w
  sorted : r.lits.Pairwise (fun a b => a.w ≥ b.w)
  nodup : (r.lits.map (fun e => e.lit.var)).Nodup
  free : ∀ e ∈ r.lits, top e.lit.var = none
  reach : r.reach = total r.lits
  coef : ∀ e ∈ r.lits, e.w ≤ max r.bound 1

/-! ## `create` -/

theorem nodup_map1 {ls : List WL} (h : (ls.map (fun e => e.lit.var)).Nodup) (f : WL → Int) :
    ((ls.map (fun e => (⟨e.lit, f e⟩ : WL))).map (fun e => e.lit.var)).Nodup := by
  simpa [List.map_map, Function.comp_def] using h

theorem total_perm {a b : List WL} (h : a.Perm b) : total a = total b := (h.map _).sum_eq

/-- C21: whenever the normal form is computed without failure, it is satisfied by exactly the same assignments. -/
theorem C21_create {top : Top} {lits : List WL} {bound : Int} {r : Rep} (h : create top lits bound = .ok r) :
    (∀ M, ext M top → (holds M r.lits r.bound ↔ holds M lits bound)) ∧ Normal top r := by
  unfold create at h
  obtain ⟨a, h1, h⟩ := bind_ok.1 h
  obtain ⟨⟨ls, m⟩, h2, h⟩ := bind_ok.1 h
  have hi : AInv top ⟨[], fun _ => false, bound⟩ := ⟨by simp, by simp, by simp, by simp⟩
  obtain ⟨ha, hv⟩ := hi.loop1 h1
  obtain ⟨e1, e2, e3, e4, e5, e6, e7, e8, e9⟩ := loop2_spec (by omega) h2 ha.pos (by dsimp only; omega) (by simp)
  dsimp only at h e2 e4 e5 e6 e7 e9
  have hval : ∀ M, ext M top → (a.bound ≤ val M ls ↔ bound ≤ val M lits) := by
    intro M hM
    have hv' := hv M hM
    dsimp only at hv'
    rw [val_nil, zero_add] at hv'
    have := clamp_iff (M := M) (bound := a.bound) (B := max a.bound 1) (by omega) (by omega) ha.pos 0 (by simp)
    rw [← e1, zero_add, zero_add] at this
    rw [this]; omega
  have hpos : ∀ e ∈ ls, 0 < e.w := by
    rw [e1]; intro e he; obtain ⟨x, hx, rfl⟩ := List.mem_map.1 he
    have := ha.pos x hx; dsimp only; omega
  have hnd : (ls.map (fun e => e.lit.var)).Nodup := by rw [e1]; exact nodup_map1 ha.nodup _
  have hfree : ∀ e ∈ ls, top e.lit.var = none := by
    rw [e1]; intro e he; obtain ⟨x, hx, rfl⟩ := List.mem_map.1 he; exact ha.free x hx
  have hcoef : ∀ e ∈ ls, e.w ≤ max a.bound 1 := by
    rw [e1]; intro e he; obtain ⟨x, hx, rfl⟩ := List.mem_map.1 he; dsimp only; omega
  have hsum : m.sum = total ls := by rw [e2]; simp
  split at h
  · cases h
    have hp := List.mergeSort_perm ls (fun x y => decide (x.w ≥ y.w))
    refine ⟨fun M hM => by unfold holds; dsimp only; rw [val_perm hp]; exact hval M hM, ?_⟩
    refine ⟨fun e he => hpos e (hp.mem_iff.1 he), ?_, (hp.map _).nodup_iff.2 hnd, fun e he => hfree e (hp.mem_iff.1 he), ?_,
      fun e he => hcoef e (hp.mem_iff.1 he)⟩
    · have := List.pairwise_mergeSort (le := fun x y : WL => decide (x.w ≥ y.w)) (fun a b c => by simp; omega) (fun a b => by simp; omega) ls
      exact this.imp (by simp)
    · dsimp only; rw [total_perm hp]; exact hsum
  · rename_i heq
    simp only [ne_eq, not_not] at heq
    have hall : ∀ e ∈ ls, e.w = m.mn := fun e he => by have := e8 e he; omega
    split at h
    · rename_i hne
      have hb : 1 < a.bound := by
        by_contra hb
        have : max a.bound 1 = 1 := by omega
        omega
      obtain ⟨t1, t2, t3, t4, t5⟩ := toCard_spec h (by omega) (by dsimp only; omega) hall hsum
      dsimp only at t1 t3 t4
      have hw1 : ∀ e ∈ r.lits, e.w = 1 := by
        rw [t1]; intro e he; obtain ⟨x, hx, rfl⟩ := List.mem_map.1 he; rfl
      refine ⟨fun M hM => by unfold holds; rw [t3 M]; exact hval M hM, ?_⟩
      refine ⟨fun e he => by rw [hw1 e he]; simp, ?_, ?_, ?_, t2, fun e he => by rw [hw1 e he]; omega⟩
      · rw [List.pairwise_iff_forall_sublist]; intro x y hxy
        have h1 := hw1 x (hxy.mem (by simp)); have h2 := hw1 y (hxy.mem (by simp)); omega
      · rw [t1]; exact nodup_map1 hnd _
      · rw [t1]; intro e he; obtain ⟨x, hx, rfl⟩ := List.mem_map.1 he; exact hfree x hx
    · cases h
      refine ⟨fun M hM => hval M hM, hpos, ?_, hnd, hfree, hsum, hcoef⟩
      rw [List.pairwise_iff_forall_sublist]; intro x y hxy
      have h1 := hall x (hxy.mem (by simp)); have h2 := hall y (hxy.mem (by simp)); omega

/-- C21: no memory error for any input. -/
theorem C21_defined (top : Top) (lits : List WL) (bound : Int) : create top lits bound ≠ .error .bad := by
  have hi : AInv top ⟨[], fun _ => false, bound⟩ := ⟨by simp, by simp, by simp, by simp⟩
  refine bind_ne_bad hi.loop1_ne_bad fun a _ => bind_ne_bad loop2_ne fun q _ => ?_
  dsimp only
  split
  · exact ok_ne_bad
  · split
    · exact bind_ne_bad chk_ne_bad fun _ _ => bind_ne_bad chk_ne_bad fun _ _ => ok_ne_bad
    · exact ok_ne_bad

/-! ### Inputs that cannot overflow -/

/-- Specification: sum of the absolute values of the weights. -/
def mass (ls : List WL) : Int := (ls.map fun l => |l.w|).sum

@[simp] theorem mass_cons (l : WL) (ls : List WL) : mass (l :: ls) = |l.w| + mass ls := by simp [mass]

theorem total_append (a b : List WL) : total (a ++ b) = total a + total b := by simp [total]

theorem total_nonneg {ls : List WL} (h : ∀ e ∈ ls, 0 < e.w) : 0 ≤ total ls := by
  induction ls with
  | nil => simp
  | cons l ls ih => have := ih (fun x hx => h x (.tail _ hx)); have := h l (.head _); rw [total_cons]; omega

theorem le_total {ls : List WL} (h : ∀ e ∈ ls, 0 < e.w) {e : WL} (he : e ∈ ls) : e.w ≤ total ls := by
  induction ls with
  | nil => cases he
  | cons l ls ih =>
    have h0 := total_nonneg (fun x hx => h x (.tail _ hx))
    have h1 := h l (.head _)
    rw [total_cons]
    rcases List.mem_cons.1 he with rfl | he
    · omega
    · have := ih (fun x hx => h x (.tail _ hx)) he; omega

theorem chk_ok_of {x : Int} (h : |x| ≤ 2 ^ 30) : chk x = .ok x := by
  rw [chk_ok]; have := abs_le.1 h; refine ⟨rfl, ?_, ?_⟩
  · omega
  · unfold MAXW; omega

theorem addAt_total {x : Lit} {w : Int} (hw : 0 < w) : ∀ {ls : List WL}, (∀ e ∈ ls, 0 < e.w) → x ∈ ls.map WL.lit → total ls + w ≤ 2 ^ 30 →
    ∃ ls', addAt x w ls = .ok ls' ∧ total ls' = total ls + w := by
  intro ls
  induction ls with
  | nil => intro _ h; simp at h
  | cons e r ih =>
    intro hp hx ht
    rw [total_cons] at ht
    have h0 := total_nonneg (fun x hx => hp x (.tail _ hx))
    have h1 := hp e (.head _)
    unfold addAt
    by_cases he : e.lit = x
    · rw [if_pos he]
      have : chk (e.w + w) = .ok (e.w + w) := chk_ok_of (by rw [abs_le]; omega)
      rw [this]
      exact ⟨_, rfl, by simp only [total_cons]; ring⟩
    · rw [if_neg he]
      have hx' : x ∈ r.map WL.lit := by
        rw [List.map_cons, List.mem_cons] at hx; rcases hx with h | h
        · exact absurd h.symm he
        · exact h
      obtain ⟨r', hr, ht'⟩ := ih (fun x hx => hp x (.tail _ hx)) hx' (by omega)
      rw [hr]
      exact ⟨_, rfl, by simp only [total_cons]; omega⟩

theorem subAt_total {x : Lit} {w : Int} (hw : 0 < w) : ∀ {ls : List WL}, (∀ e ∈ ls, 0 < e.w) → x.neg ∈ ls.map WL.lit → total ls + w ≤ 2 ^ 30 →
    ∃ ls' d, subAt x w ls = .ok (ls', d) ∧ (0 ≤ d → total ls' = total ls - w) ∧
      (d < 0 → total ls' = total ls - w - 2 * d ∧ 0 < w + d) ∧ -w < d := by
  intro ls
  induction ls with
  | nil => intro _ h; simp at h
  | cons e r ih =>
    intro hp hx ht
    rw [total_cons] at ht
    have h0 := total_nonneg (fun x hx => hp x (.tail _ hx))
    have h1 := hp e (.head _)
    unfold subAt
    by_cases he : e.lit = x.neg
    · rw [if_pos he]
      have : chk (e.w - w) = .ok (e.w - w) := chk_ok_of (by rw [abs_le]; omega)
      rw [this]
      simp only [bind, Except.bind]
      by_cases hd : e.w - w < 0
      · rw [if_pos hd]
        have : chk (-(e.w - w)) = .ok (-(e.w - w)) := chk_ok_of (by rw [abs_le]; omega)
        rw [this]
        refine ⟨_, _, rfl, by omega, fun _ => ⟨?_, by omega⟩, by omega⟩
        simp only [total_cons]; ring
      · rw [if_neg hd]
        split
        · exact ⟨_, _, rfl, fun _ => by rw [total_cons]; omega, by omega, by omega⟩
        · exact ⟨_, _, rfl, fun _ => by simp only [total_cons]; ring, by omega, by omega⟩
    · rw [if_neg he]
      have hx' : x.neg ∈ r.map WL.lit := by
        rw [List.map_cons, List.mem_cons] at hx; rcases hx with h | h
        · exact absurd h.symm he
        · exact h
      obtain ⟨r', d, hr, t1, t2, t3⟩ := ih (fun x hx => hp x (.tail _ hx)) hx' (by omega)
      rw [hr]
      refine ⟨_, _, rfl, ?_, ?_, t3⟩
      · intro hd; have := t1 hd; simp only [total_cons]; omega
      · intro hd; have := t2 hd; simp only [total_cons]; omega

theorem addPos_total {top : Top} {a : Acc} (h : AInv top a) {x : Lit} {w : Int} (hw : 0 < w)
    (ht : |a.bound| + total a.out + w ≤ 2 ^ 30) :
    ∃ a', addPos a x w = .ok a' ∧ |a'.bound| + total a'.out ≤ |a.bound| + total a.out + w := by
  have h0 := total_nonneg h.pos
  have hb := abs_nonneg a.bound
  have hbl := le_abs_self a.bound
  have hbn := neg_abs_le a.bound
  unfold addPos
  split
  · exact ⟨_, rfl, by simp only [total_append, total_cons, total_nil]; omega⟩
  · rename_i hs
    split
    · rename_i hn
      have hx : x ∈ a.out.map WL.lit := by
        rw [← h.seen]; simp at hs hn; cases hsx : a.seen x
        · simp [hs hsx] at hn
        · rfl
      obtain ⟨ls', h1, h2⟩ := addAt_total hw h.pos hx (by omega)
      rw [h1]
      exact ⟨_, rfl, by simp only; omega⟩
    · rename_i hn
      have hx : x.neg ∈ a.out.map WL.lit := by rw [← h.seen]; simpa using hn
      obtain ⟨ls', d, h1, h2, h3, h4⟩ := subAt_total hw h.pos hx (by omega)
      rw [chk_ok_of (x := a.bound - w) (by rw [abs_le]; omega)]
      rw [h1]
      simp only [bind, Except.bind]
      by_cases hd : d < 0
      · obtain ⟨h5, h6⟩ := h3 hd
        rw [if_pos hd, chk_ok_of (x := a.bound - w + -d) (by rw [abs_le]; omega)]
        refine ⟨_, rfl, ?_⟩
        have : |a.bound - w + -d| ≤ |a.bound| + (w + d) := by rw [abs_le]; omega
        simp only; omega
      · have h5 := h2 (by omega)
        have : |a.bound - w| ≤ |a.bound| + w := by rw [abs_le]; omega
        rw [if_neg hd]
        split
        · exact ⟨_, rfl, by simp only; omega⟩
        · exact ⟨_, rfl, by simp only; omega⟩

theorem step1_total {top : Top} {a : Acc} (h : AInv top a) {l : WL} (ht : |a.bound| + total a.out + 2 * |l.w| ≤ 2 ^ 30) :
    ∃ a', step1 top a l = .ok a' ∧ |a'.bound| + total a'.out ≤ |a.bound| + total a.out + 2 * |l.w| := by
  have h0 := total_nonneg h.pos
  have hb := abs_nonneg a.bound
  have hbl := le_abs_self a.bound
  have hbn := neg_abs_le a.bound
  have hwl := le_abs_self l.w
  have hwn := neg_abs_le l.w
  unfold step1
  split
  · rename_i hl
    split
    · rename_i hneg
      have e : |l.w| = -l.w := abs_of_neg hneg
      rw [chk_ok_of (x := -l.w) (by rw [abs_le]; omega)]
      simp only [bind, Except.bind]
      rw [if_pos (by unfold MAXW; omega), chk_ok_of (x := a.bound + -l.w) (by rw [abs_le]; omega)]
      have h' : AInv top { a with bound := a.bound + -l.w } := ⟨h.seen, h.nodup, h.pos, h.free⟩
      have hab : |a.bound + -l.w| ≤ |a.bound| + -l.w := by rw [abs_le]; omega
      obtain ⟨a', h1, h2⟩ := addPos_total h' (x := l.lit.neg) (w := -l.w) (by omega) (by simp only; omega)
      exact ⟨a', h1, by simp only at h2; omega⟩
    · have hpos : 0 < l.w := by have := hl.1; omega
      obtain ⟨a', h1, h2⟩ := addPos_total h (x := l.lit) hpos (by omega)
      exact ⟨a', h1, by omega⟩
  · split
    · rw [chk_ok_of (x := a.bound - l.w) (by rw [abs_le]; omega)]
      refine ⟨_, rfl, ?_⟩
      have : |a.bound - l.w| ≤ |a.bound| + |l.w| := by rw [abs_le]; omega
      simp only; omega
    · exact ⟨_, rfl, by omega⟩

theorem mass_nonneg (ls : List WL) : 0 ≤ mass ls := by
  induction ls with
  | nil => simp [mass]
  | cons l ls ih => rw [mass_cons]; have := abs_nonneg l.w; omega

theorem loop1_total {top : Top} : ∀ {ls : List WL} {a : Acc}, AInv top a → |a.bound| + total a.out + 2 * mass ls ≤ 2 ^ 30 →
    ∃ a', loop1 top ls a = .ok a' ∧ |a'.bound| + total a'.out ≤ |a.bound| + total a.out + 2 * mass ls := by
  intro ls
  induction ls with
  | nil => intro a _ _; exact ⟨a, rfl, by simp [mass]⟩
  | cons l ls ih =>
    intro a h ht
    rw [mass_cons] at ht
    have := mass_nonneg ls
    obtain ⟨a1, h1, h2⟩ := step1_total h (l := l) (by omega)
    obtain ⟨a2, h3, h4⟩ := ih (h.step1 h1).1 (by omega)
    refine ⟨a2, ?_, by rw [mass_cons]; omega⟩
    unfold loop1; rw [h1]; exact h3

theorem loop2_total {B : Int} (hB : 1 ≤ B) : ∀ {ls : List WL} {a : Acc2}, (∀ e ∈ ls, 0 < e.w) → 0 ≤ a.sum → a.sum + total ls ≤ 2 ^ 30 →
    ∃ q, loop2 B ls a = .ok q := by
  intro ls
  induction ls with
  | nil => intro a _ _ _; exact ⟨_, rfl⟩
  | cons l ls ih =>
    intro a hp h0 ht
    rw [total_cons] at ht
    have hl := hp l (.head _)
    have hp' : ∀ e ∈ ls, 0 < e.w := fun e he => hp e (.tail _ he)
    have ht0 := total_nonneg hp'
    unfold loop2
    obtain ⟨w, hw⟩ : ∃ w, w = (if l.w > a.mx then min l.w B else l.w) := ⟨_, rfl⟩
    have hw1 : 0 < w ∧ w ≤ l.w := by rw [hw]; split <;> omega
    simp only [← hw]
    rw [if_pos (by unfold MAXW; omega), chk_ok_of (x := a.sum + w) (by rw [abs_le]; omega)]
    obtain ⟨q, hq⟩ := ih (a := ⟨if w < a.mn then w else a.mn, if l.w > a.mx then w else a.mx, a.sum + w⟩) hp' (by dsimp only; omega) (by dsimp only; omega)
    simp only [bind, Except.bind, hq]
    exact ⟨_, rfl⟩

/-- C21: if the weights and the bound are small enough (`|bound| + 2 * sum |w|` at most 2^30) nothing overflows and no error is
raised. -/
theorem C21_total {top : Top} {lits : List WL} {bound : Int} (h : |bound| + 2 * mass lits ≤ 2 ^ 30) :
    ∃ r, create top lits bound = .ok r := by
  have hi : AInv top ⟨[], fun _ => false, bound⟩ := ⟨by simp, by simp, by simp, by simp⟩
  obtain ⟨a, h1, h2⟩ := loop1_total hi (ls := lits) (by simp only [total_nil]; omega)
  simp only [total_nil, add_zero] at h2
  have ha := (hi.loop1 h1).1
  have hab := abs_nonneg a.bound
  have hbl := le_abs_self a.bound
  obtain ⟨⟨ls, m⟩, h3⟩ := loop2_total (B := max a.bound 1) (by omega) (a := ⟨MAXW, 1, 0⟩) ha.pos (by simp) (by simp only; omega)
  obtain ⟨e1, e2, e3, e4, e5, e6, e7, e8, e9⟩ := loop2_spec (by omega) h3 ha.pos (by dsimp only; omega) (by simp)
  dsimp only at e2 e4 e5 e6 e7 e9
  have htn := total_nonneg ha.pos
  unfold create
  rw [h1]
  simp only [bind, Except.bind, h3]
  split
  · exact ⟨_, rfl⟩
  · rename_i heq
    split
    · rename_i hne
      have hsum : m.sum ≤ total a.out ∧ m.mn ≤ total ls ∧ 0 < m.mn ∧ total ls ≤ total a.out ∧ m.mn ≤ max a.bound 1 := by
        have hpos : ∀ e ∈ ls, 0 < e.w := by
          rw [e1]; intro e he; obtain ⟨x, hx, rfl⟩ := List.mem_map.1 he
          have := ha.pos x hx; dsimp only; omega
        have hle : total ls ≤ total a.out := by
          rw [e1]
          have : ∀ xs : List WL, total (xs.map fun l => (⟨l.lit, min l.w (max a.bound 1)⟩ : WL)) ≤ total xs := by
            intro xs; induction xs with
            | nil => simp
            | cons x xs ih => simp only [List.map_cons, total_cons]; omega
          exact this _
        have hex : ∃ e ∈ ls, e.w = m.mn := by
          refine e7 ?_
          intro h7
          simp only [ne_eq, not_not] at heq
          have := e3; rw [heq, h7] at this; unfold MAXW at this; omega
        obtain ⟨e, he, hem⟩ := hex
        have := hpos e he
        have := le_total hpos he
        simp only [ne_eq, not_not] at heq
        refine ⟨by omega, by omega, by omega, hle, by omega⟩
      have hb1 : 1 ≤ a.bound := by
        by_contra hb
        simp only [ne_eq, not_not] at heq
        have : max a.bound 1 = 1 := by omega
        omega
      unfold toCard
      have c1 : chk (a.bound + (m.mn - 1)) = .ok (a.bound + (m.mn - 1)) := by
        rw [chk_ok]; refine ⟨rfl, by omega, ?_⟩; unfold MAXW; omega
      have c2 : chk (m.sum + (m.mn - 1)) = .ok (m.sum + (m.mn - 1)) := by
        rw [chk_ok]; refine ⟨rfl, by omega, ?_⟩; unfold MAXW; omega
      rw [c1]; simp only [bind, Except.bind]; rw [c2]; exact ⟨_, rfl⟩
    · exact ⟨_, rfl⟩

end Clasp.Weight
