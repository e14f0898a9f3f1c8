/-
Lemmas about `prepare` and `status`. No code is modelled in this file.
-/
import Verif.Core.Create
import Verif.Core.State
import Mathlib.Data.List.Perm.Lattice
import Mathlib.Logic.Equiv.Basic
import Mathlib.Data.List.Perm.Basic
namespace Clasp.Core
namespace Prep

theorem swap_same (f : Nat → Lit) (i : Nat) : swap f i i = f := by
  unfold swap; funext x
  by_cases h : x = i
  · subst h; simp
  · simp [Function.update_of_ne h]

theorem swap_left (f : Nat → Lit) {i k : Nat} : swap f i k i = f k := by
  unfold swap
  by_cases h : i = k
  · subst h; simp
  · rw [Function.update_of_ne h, Function.update_self]

theorem swap_right (f : Nat → Lit) {i k : Nat} : swap f i k k = f i := by
  unfold swap; rw [Function.update_self]

theorem swap_other (f : Nat → Lit) {i k x : Nat} (h1 : x ≠ i) (h2 : x ≠ k) : swap f i k x = f x := by
  unfold swap; rw [Function.update_of_ne h2, Function.update_of_ne h1]

theorem swap_perm (f : Nat → Lit) {i k n : Nat} (hi : i < n) (hk : k < n) : ((List.range n).map (swap f i k)).Perm ((List.range n).map f) := by
  have e : swap f i k = f ∘ (Equiv.swap i k) := by
    funext x
    by_cases h1 : x = i
    · subst h1; rw [swap_left]; simp
    · by_cases h2 : x = k
      · subst h2; rw [swap_right]; simp
      · rw [swap_other f h1 h2]; simp [Equiv.swap_apply_of_ne_of_ne h1 h2]
  rw [e, ← List.map_map]
  refine List.Perm.map f ?_
  rw [List.perm_ext_iff_of_nodup (List.nodup_range.map (Equiv.swap i k).injective) List.nodup_range]
  intro a
  simp only [List.mem_map, List.mem_range]
  constructor
  · rintro ⟨b, hb, rfl⟩
    by_cases h1 : b = i
    · subst h1; simpa using hk
    · by_cases h2 : b = k
      · subst h2; simpa using hi
      · rw [Equiv.swap_apply_of_ne_of_ne h1 h2]; exact hb
  · intro ha
    refine ⟨Equiv.swap i k a, ?_, by simp⟩
    by_cases h1 : a = i
    · subst h1; simpa using hk
    · by_cases h2 : a = k
      · subst h2; simpa using hi
      · rw [Equiv.swap_apply_of_ne_of_ne h1 h2]; exact ha

theorem update_perm (f : Nat → Lit) (n : Nat) (p : Lit) : ((List.range (n + 1)).map (Function.update f n p)).Perm (p :: (List.range n).map f) := by
  rw [List.range_succ, List.map_append, List.map_singleton, Function.update_self]
  have : (List.range n).map (Function.update f n p) = (List.range n).map f := by
    refine List.map_congr_left (fun a ha => ?_)
    rw [Function.update_of_ne]
    have := List.mem_range.1 ha; omega
  rw [this]
  exact List.perm_append_singleton _ _

/-- The first two literals have the highest watch orders among the literals kept. -/
structure Top (s : St) (x : Prep) : Prop where
  z : x.size = 0 → x.w1 = 0 ∧ x.w2 = 0
  one : x.size = 1 → x.marks = [x.out 0] ∧ x.w1 = s.watchOrder (x.out 0) ∧ x.w2 = 0
  two : 2 ≤ x.size → ∃ rest, x.marks.Perm (x.out 0 :: x.out 1 :: rest) ∧ x.w1 = s.watchOrder (x.out 0) ∧ x.w2 = s.watchOrder (x.out 1) ∧
    x.w2 ≤ x.w1 ∧ ∀ y ∈ rest, s.watchOrder y ≤ x.w2

structure PInv (s : St) (maxOut : Nat) (x : Prep) : Prop where
  size : x.size = x.marks.length
  top : Top s x
  ord : ∀ m ∈ x.marks, s.watchOrder m ≠ 0 ∧ s.watchOrder m ≠ umax
  j : x.j = min x.size maxOut
  all : x.size ≤ maxOut + 1 → ((List.range x.size).map x.out).Perm x.marks

theorem PInv.init (s : St) (maxOut : Nat) : PInv s maxOut Prep.init := by
  refine ⟨rfl, ⟨fun _ => ⟨rfl, rfl⟩, fun h => by simp [Prep.init] at h, fun h => by simp [Prep.init] at h⟩, by simp [Prep.init], by simp [Prep.init], fun _ => by simp [Prep.init]⟩

theorem keep_perm {s : St} {maxOut : Nat} {x : Prep} (h : PInv s maxOut x) (p : Lit) (hs : x.size ≤ maxOut) :
    ((List.range (x.size + 1)).map (x.keep s maxOut p).out).Perm (p :: x.marks) := by
  have hj : x.j = x.size := by rw [h.j]; omega
  have hu := (update_perm x.out x.size p).trans ((h.all (by omega)).cons p)
  have h0 : x.w2 = 0 ∨ 1 < x.size + 1 := by
    by_cases h : 1 < x.size + 1
    · exact Or.inr h
    · exact Or.inl (‹PInv s maxOut x›.top.z (by omega)).2
  by_cases hz : x.size = 0
  · -- the first literal
    obtain ⟨z1, z2⟩ := h.top.z hz
    have hm : x.marks = [] := by
      have := h.size; rw [hz] at this; exact List.eq_nil_of_length_eq_zero this.symm
    unfold keep
    dsimp only
    rw [hj, hz, z1, z2, hm]
    by_cases ha : s.watchOrder p > 0
    · simp [ha, swap_same]
    · have : s.watchOrder p = 0 := by omega
      simp [this]
  · have hlt : 1 < x.size + 1 := by omega
    unfold keep
    dsimp only
    rw [hj]
    by_cases h1 : s.watchOrder p > x.w1
    · simp only [if_pos h1]
      by_cases h2 : x.w1 > x.w2
      · simp only [if_pos h2]
        exact ((swap_perm _ hlt (by omega)).trans (swap_perm _ (by omega) (by omega))).trans hu
      · simp only [if_neg h2]
        exact (swap_perm _ (by omega) (by omega)).trans hu
    · simp only [if_neg h1]
      by_cases h2 : s.watchOrder p > x.w2
      · simp only [if_pos h2]
        exact (swap_perm _ hlt (by omega)).trans hu
      · simp only [if_neg h2]; exact hu

theorem keep_top {s : St} {maxOut : Nat} (h2 : 2 ≤ maxOut) {x : Prep} (h : PInv s maxOut x) (p : Lit) (hp : s.watchOrder p ≠ 0) :
    Top s (x.keep s maxOut p) := by
  by_cases hz : x.size = 0
  · obtain ⟨z1, z2⟩ := h.top.z hz
    have hm : x.marks = [] := by
      have := h.size; rw [hz] at this; exact List.eq_nil_of_length_eq_zero this.symm
    have hj : x.j = 0 := by rw [h.j, hz]; omega
    have ha : s.watchOrder p > 0 := by omega
    unfold keep
    dsimp only
    rw [hj, hz, z1, z2, hm]
    simp only [if_pos ha, swap_same, gt_iff_lt, Nat.lt_irrefl, if_false]
    exact ⟨fun h => by simp at h, fun _ => by simp, fun h => by simp at h⟩
  · by_cases ho : x.size = 1
    · obtain ⟨o1, o2, o3⟩ := h.top.one ho
      have hj : x.j = 1 := by rw [h.j, ho]; omega
      have ha : s.watchOrder p > 0 := by omega
      have hw : x.w1 > 0 := by
        rw [o2]
        have := (h.ord (x.out 0) (by rw [o1]; simp)).1
        omega
      unfold keep
      dsimp only
      rw [hj, ho, o3]
      refine ⟨fun h => by dsimp only at h; omega, fun h => by dsimp only at h; omega, fun _ => ⟨[], ?_⟩⟩
      by_cases h1 : s.watchOrder p > x.w1
      · simp only [if_pos h1, if_pos hw, swap_same]
        rw [swap_left, swap_right, Function.update_self, Function.update_of_ne (by omega), o1]
        refine ⟨List.Perm.refl _, rfl, o2, by omega, by simp⟩
      · simp only [if_neg h1, if_pos ha, swap_same]
        rw [Function.update_self, Function.update_of_ne (by omega), o1]
        refine ⟨List.Perm.swap _ _ _, o2, rfl, by omega, by simp⟩
    · obtain ⟨rest, t1, t2, t3, t4, t5⟩ := h.top.two (by omega)
      have hj : 2 ≤ x.j := by rw [h.j]; omega
      unfold keep
      dsimp only
      refine ⟨fun h => by dsimp only at h; omega, fun h => by dsimp only at h; omega, fun _ => ?_⟩
      have n0 : (0 : Nat) ≠ x.j := by omega
      have n1 : (1 : Nat) ≠ x.j := by omega
      by_cases h1 : s.watchOrder p > x.w1
      · simp only [if_pos h1]
        by_cases hw : x.w1 > x.w2
        · simp only [if_pos hw]
          refine ⟨x.out 1 :: rest, ?_⟩
          rw [swap_left, swap_right, swap_other _ (by omega) n0, swap_left, Function.update_self, Function.update_of_ne n0]
          refine ⟨(t1.cons p), rfl, t2, by omega, fun y hy => ?_⟩
          rcases List.mem_cons.1 hy with rfl | hy
          · rw [← t3]; omega
          · exact Nat.le_trans (t5 y hy) (by omega)
        · simp only [if_neg hw]
          refine ⟨x.out 0 :: rest, ?_⟩
          rw [swap_left, swap_other _ (by omega) n1, Function.update_self, Function.update_of_ne n1]
          refine ⟨(t1.cons p).trans ((List.Perm.swap _ _ _).cons p), rfl, t3, by omega, fun y hy => ?_⟩
          rcases List.mem_cons.1 hy with rfl | hy
          · rw [← t2]; omega
          · exact t5 y hy
      · simp only [if_neg h1]
        by_cases hw : s.watchOrder p > x.w2
        · simp only [if_pos hw]
          refine ⟨x.out 1 :: rest, ?_⟩
          rw [swap_left, swap_other _ (by omega) n0, Function.update_self, Function.update_of_ne n0]
          refine ⟨(t1.cons p).trans (List.Perm.swap _ _ _), t2, rfl, by omega, fun y hy => ?_⟩
          rcases List.mem_cons.1 hy with rfl | hy
          · rw [← t3]; omega
          · exact Nat.le_trans (t5 y hy) (by omega)
        · simp only [if_neg hw]
          refine ⟨p :: rest, ?_⟩
          rw [Function.update_of_ne n0, Function.update_of_ne n1]
          refine ⟨(t1.cons p).trans ((List.Perm.swap _ _ _).trans ((List.Perm.swap _ _ _).cons _)), t2, t3, t4, fun y hy => ?_⟩
          rcases List.mem_cons.1 hy with rfl | hy
          · omega
          · exact t5 y hy

theorem keep_size (s : St) (maxOut : Nat) (x : Prep) (p : Lit) : (x.keep s maxOut p).size = x.size + 1 := by unfold keep; rfl
theorem keep_marks (s : St) (maxOut : Nat) (x : Prep) (p : Lit) : (x.keep s maxOut p).marks = p :: x.marks := by unfold keep; rfl
theorem keep_j (s : St) (maxOut : Nat) (x : Prep) (p : Lit) : (x.keep s maxOut p).j = if x.j ≠ maxOut then x.j + 1 else x.j := by unfold keep; rfl

theorem PInv.keep {s : St} {maxOut : Nat} (h2 : 2 ≤ maxOut) {x : Prep} (h : PInv s maxOut x) {p : Lit} (hp : s.watchOrder p ≠ 0)
    (hp' : s.watchOrder p ≠ umax) : PInv s maxOut (x.keep s maxOut p) := by
  refine ⟨by rw [keep_size, keep_marks, h.size]; simp, keep_top h2 h p hp, ?_, ?_, ?_⟩
  · rw [keep_marks]
    intro m hm
    rcases List.mem_cons.1 hm with rfl | hm
    · exact ⟨hp, hp'⟩
    · exact h.ord m hm
  · rw [keep_j, keep_size, h.j]
    split <;> omega
  · rw [keep_size, keep_marks]
    intro hs
    exact keep_perm h p (by omega)

theorem PInv.w1 {s : St} {maxOut : Nat} {x : Prep} (h : PInv s maxOut x) : x.w1 ≠ umax := by
  by_cases hz : x.size = 0
  · rw [(h.top.z hz).1]; decide
  · by_cases ho : x.size = 1
    · obtain ⟨o1, o2, _⟩ := h.top.one ho
      rw [o2]; exact (h.ord _ (by rw [o1]; simp)).2
    · obtain ⟨rest, t1, t2, _⟩ := h.top.two (by omega)
      rw [t2]; exact (h.ord _ (t1.mem_iff.2 (by simp))).2

/-- What the loop has done after the literals `l`. -/
structure LoopOk (s : St) (simplify : Bool) (maxOut : Nat) (l : List Lit) (x y : Prep) : Prop where
  inv : PInv s maxOut y
  sub : ∀ p ∈ y.marks, p ∈ x.marks ∨ p ∈ l
  keep : ∀ p ∈ x.marks, p ∈ y.marks
  all : ∀ p ∈ l, s.watchOrder p ≠ umax ∧ (s.watchOrder p = 0 ∨ p ∈ y.marks)
  len : y.marks.length ≤ x.marks.length + l.length
  nodup : simplify = true → (x.marks.map Lit.var).Nodup → (y.marks.map Lit.var).Nodup
  eq : simplify = false → y.marks = (l.filter (fun p => decide (s.watchOrder p ≠ 0))).reverse ++ x.marks

theorem loop_spec {s : St} {simplify : Bool} {maxOut : Nat} (h2 : 2 ≤ maxOut) : ∀ (l : List Lit) (x : Prep), PInv s maxOut x →
    ((loop s simplify maxOut l x).w1 = umax ∧ ((∃ p ∈ l, s.watchOrder p = umax) ∨ ∃ p ∈ l, p.neg ∈ x.marks ∨ p.neg ∈ l)) ∨
    LoopOk s simplify maxOut l x (loop s simplify maxOut l x) := by
  intro l
  induction l with
  | nil =>
    intro x h
    exact Or.inr ⟨h, fun p hp => Or.inl hp, fun p hp => hp, by simp, by simp [loop], fun _ h => h, by simp [loop]⟩
  | cons p r ih =>
    intro x h
    unfold loop
    dsimp only
    split
    · rename_i hk
      obtain ⟨k1, k2, k3⟩ := hk
      rcases ih _ (h.keep h2 k1 k2) with ⟨hw, hc⟩ | hl
      · left
        refine ⟨hw, ?_⟩
        rcases hc with ⟨q, hq, e⟩ | ⟨q, hq, e⟩
        · exact Or.inl ⟨q, List.mem_cons_of_mem _ hq, e⟩
        · right
          refine ⟨q, List.mem_cons_of_mem _ hq, ?_⟩
          rw [keep_marks] at e
          rcases e with e | e
          · rcases List.mem_cons.1 e with e | e
            · exact Or.inr (by rw [e]; simp)
            · exact Or.inl e
          · exact Or.inr (List.mem_cons_of_mem _ e)
      · right
        refine ⟨hl.inv, ?_, ?_, ?_, by have := hl.len; rw [keep_marks] at this; simp only [List.length_cons] at this ⊢; omega, ?_, ?_⟩
        · intro q hq
          have := hl.sub q hq
          rw [keep_marks] at this
          simp only [List.mem_cons] at this ⊢; tauto
        · intro q hq; exact hl.keep q (by rw [keep_marks]; exact List.mem_cons_of_mem _ hq)
        · intro q hq
          rcases List.mem_cons.1 hq with rfl | hq
          · exact ⟨k2, Or.inr (hl.keep q (by rw [keep_marks]; simp))⟩
          · exact hl.all q hq
        · intro hs hn
          refine hl.nodup hs ?_
          rw [keep_marks, List.map_cons, List.nodup_cons]
          refine ⟨fun hm => k3 ⟨hs, ?_⟩, hn⟩
          simpa using hm
        · intro hs
          rw [hl.eq hs, keep_marks]
          simp [k1]
    · rename_i hk
      split
      · rename_i hc
        left
        refine ⟨rfl, ?_⟩
        rcases hc with hc | ⟨_, _, hc⟩
        · exact Or.inl ⟨p, by simp, hc⟩
        · exact Or.inr ⟨p, by simp, Or.inl (by simpa using hc)⟩
      · rename_i hc
        push Not at hc
        have hp : s.watchOrder p = 0 ∨ (simplify = true ∧ p ∈ x.marks) := by
          by_cases h0 : s.watchOrder p = 0
          · exact Or.inl h0
          · right
            have hs : simplify = true ∧ (x.marks.map Lit.var).contains p.var = true := by
              by_contra hn; exact hk ⟨h0, hc.1, hn⟩
            refine ⟨hs.1, ?_⟩
            have hm : p.var ∈ x.marks.map Lit.var := by simpa using hs.2
            obtain ⟨q, hq, e⟩ := List.mem_map.1 hm
            rcases Lit.eq_or_neg e with e | e
            · rw [← e]; exact hq
            · exfalso
              apply hc.2 hs.1 h0
              rw [e] at hq
              simpa using hq
        rcases ih x h with ⟨hw, hc⟩ | hl
        · left
          refine ⟨hw, ?_⟩
          rcases hc with ⟨q, hq, e⟩ | ⟨q, hq, e⟩
          · exact Or.inl ⟨q, List.mem_cons_of_mem _ hq, e⟩
          · exact Or.inr ⟨q, List.mem_cons_of_mem _ hq, e.imp id (List.mem_cons_of_mem _)⟩
        · right
          refine ⟨hl.inv, ?_, hl.keep, ?_, by have := hl.len; simp only [List.length_cons]; omega, hl.nodup, ?_⟩
          · intro q hq
            exact (hl.sub q hq).imp id (List.mem_cons_of_mem _)
          · intro q hq
            rcases List.mem_cons.1 hq with rfl | hq
            · exact ⟨hc.1, hp.imp id (fun h => hl.keep q h.2)⟩
            · exact hl.all q hq
          · intro hs
            rw [hl.eq hs]
            rcases hp with h0 | h0
            · simp [h0]
            · rw [hs] at h0; simp at h0

/-- Possible results of `prepare`. -/
theorem prepare_spec {s : St} {lits : List Lit} {force : Bool} {maxOut : Nat} (h2 : 2 ≤ maxOut) {simplify : Bool}
    (hsi : simplify = (force && decide (lits.length > 2) && decide (maxOut + 1 ≥ lits.length))) :
    (∃ n out, prepare s lits force maxOut = (n, out)  ∧
      ((n = 1 ∧ out 0 = litTrue ∧ ((∃ p ∈ lits, s.watchOrder p = umax) ∨ ∃ p ∈ lits, p.neg ∈ lits)) ∨
       ∃ x, LoopOk s simplify maxOut lits init x ∧
        ((n = x.size ∧ out = x.out ∧ (2 ≤ n → (out 0).var ≠ (out 1).var)) ∨
         (n = 1 ∧ out 0 = x.out 0 ∧ simplify = false ∧ 2 ≤ x.size ∧ x.out 0 = x.out 1)))) := by
  refine ⟨(prepare s lits force maxOut).1, (prepare s lits force maxOut).2, rfl, ?_⟩
  unfold prepare
  dsimp only
  rw [← hsi]
  rcases loop_spec (s := s) (simplify := simplify) h2 lits init (PInv.init s maxOut) with ⟨hw, hc⟩ | hl
  · rw [if_pos (Or.inl hw)]
    left
    refine ⟨rfl, ?_, ?_⟩
    · dsimp only; rw [Function.update_self, if_pos (Or.inl hw)]
    · rcases hc with hc | ⟨p, hp, e⟩
      · exact Or.inl hc
      · simp only [init, List.not_mem_nil, false_or] at e
        exact Or.inr ⟨p, hp, e⟩
  · generalize loop s simplify maxOut lits init = x at *
    have hw := hl.inv.w1
    have hw2 : 2 ≤ x.size → x.w2 ≠ 0 := fun hs => by
      obtain ⟨rest, t1, t2, t3, _⟩ := hl.inv.top.two hs
      rw [t3]; exact (hl.inv.ord _ (t1.mem_iff.2 (by simp))).1
    have hsz : x.w2 ≠ 0 → 2 ≤ x.size := fun hs => by
      by_contra hn
      rcases (show x.size = 0 ∨ x.size = 1 by omega) with h | h
      · exact hs (hl.inv.top.z h).2
      · exact hs (hl.inv.top.one h).2.2
    split
    · rename_i hc
      rcases hc with hc | ⟨h0, hv⟩
      · exact absurd hc hw
      · obtain ⟨rest, t1, _⟩ := hl.inv.top.two (hsz h0)
        have m0 : x.out 0 ∈ lits := by simpa [init] using hl.sub _ (t1.mem_iff.2 (by simp))
        have m1 : x.out 1 ∈ lits := by simpa [init] using hl.sub _ (t1.mem_iff.2 (by simp))
        by_cases he : x.out 0 = (x.out 1).neg
        · left
          refine ⟨rfl, ?_, Or.inr ⟨x.out 1, m1, by rw [← he]; exact m0⟩⟩
          dsimp only; rw [Function.update_self, if_pos (Or.inr he)]
        · right
          refine ⟨x, hl, Or.inr ⟨rfl, ?_, ?_, hsz h0, ?_⟩⟩
          · dsimp only; rw [Function.update_self, if_neg]
            rintro (h | h)
            · exact hw h
            · exact he h
          · by_contra hs
            have hn := hl.nodup (by simpa using hs) (by simp [init])
            have := (t1.map Lit.var).nodup_iff.1 hn
            simp [hv] at this
          · rcases Lit.eq_or_neg hv with h | h
            · exact h
            · exact absurd h he
    · rename_i hc
      right
      refine ⟨x, hl, Or.inl ⟨rfl, rfl, ?_⟩⟩
      intro hs hv
      exact hc (Or.inr ⟨hw2 hs, hv⟩)

end Prep
end Clasp.Core
