/-
C02 (scores and infos), C03 (preferred values), C04 (antecedents).
Specification: a word *means* a record of independent fields (`Fields`), read off its numeric value by
division and remainder; every operation is a plain record update.
-/
import Verif.Basic.Packed
import Verif.Basic.LiteralProps
namespace Clasp

/-- Specification record of an info word. -/
structure Fields where
  act : Nat   -- activity, 20 bits
  lbd : Nat   -- stored lbd, 7 bits, 0 = none
  bmp : Nat   -- bumped flag
  ty  : Nat   -- constraint type, 2 bits
  aux : Nat   -- aux flag
  tag : Nat   -- tag flag
deriving DecidableEq, Repr

/-- The fields of a word, low to high: 20 + 7 + 1 + 2 + 1 + 1 = 32 bits. -/
def fieldsOf (x : BitVec 32) : Fields :=
  { act := x.toNat % 2^20, lbd := x.toNat / 2^20 % 2^7, bmp := x.toNat / 2^27 % 2,
    ty := x.toNat / 2^28 % 4, aux := x.toNat / 2^30 % 2, tag := x.toNat / 2^31 % 2 }

/-- Every word is determined by its fields. -/
theorem fieldsOf_inj {x y : BitVec 32} (h : fieldsOf x = fieldsOf y) : x = y := by
  apply BitVec.eq_of_toNat_eq
  simp only [fieldsOf, Fields.mk.injEq] at h
  have := x.isLt; have := y.isLt
  omega

theorem fieldsOf_eq (x : BitVec 32) (lo m b hi : Nat) (h : x.toNat = lo + m * 2^20 + b * 2^27 + hi * 2^28)
    (h1 : lo < 2^20) (h2 : m < 2^7) (h3 : b < 2) : fieldsOf x = ⟨lo, m, b, hi % 4, hi / 4 % 2, hi / 8 % 2⟩ := by
  simp only [fieldsOf, Fields.mk.injEq]
  refine ⟨by omega, by omega, by omega, by omega, by omega, by omega⟩

/-! Helper lemmas: masks as arithmetic. -/

theorem and_mask_toNat (x : BitVec 32) (k n : Nat) (m : BitVec 32) (hm : m.toNat = (2^n - 1) * 2^k) :
    (x &&& m).toNat = x.toNat / 2^k % 2^n * 2^k := by
  rw [BitVec.toNat_and, hm]
  apply Nat.eq_of_testBit_eq
  intro i
  rw [← Nat.shiftLeft_eq, ← Nat.shiftLeft_eq, Nat.testBit_and, Nat.testBit_shiftLeft, Nat.testBit_shiftLeft,
    Nat.testBit_two_pow_sub_one, Nat.testBit_mod_two_pow, ← Nat.shiftRight_eq_div_pow, Nat.testBit_shiftRight]
  by_cases h : k ≤ i
  · have : k + (i - k) = i := by omega
    simp [h, this, Bool.and_comm]
  · simp [h]

theorem clear_mask_toNat (x : BitVec 32) (k n : Nat) (m : BitVec 32) (hm : m.toNat = (2^n - 1) * 2^k) :
    (x &&& ~~~m).toNat = x.toNat - x.toNat / 2^k % 2^n * 2^k := by
  have h1 : (x &&& m) &&& (x &&& ~~~m) = 0#32 := by
    apply BitVec.eq_of_getLsbD_eq; intro i hi
    simp only [BitVec.getLsbD_and, BitVec.getLsbD_not, hi, decide_true, Bool.true_and, BitVec.getLsbD_zero]
    cases x.getLsbD i <;> cases m.getLsbD i <;> rfl
  have h2 : (x &&& m) ||| (x &&& ~~~m) = x := by
    apply BitVec.eq_of_getLsbD_eq; intro i hi
    simp only [BitVec.getLsbD_and, BitVec.getLsbD_or, BitVec.getLsbD_not, hi, decide_true, Bool.true_and]
    cases x.getLsbD i <;> cases m.getLsbD i <;> rfl
  have h3 := BitVec.toNat_add_of_and_eq_zero h1
  rw [BitVec.add_eq_or_of_and_eq_zero _ _ h1, h2, and_mask_toNat x k n m hm] at h3
  omega

theorem or_disj_toNat (x y : BitVec 32) (k n : Nat) (hx : x.toNat / 2^k % 2^n = 0)
    (hy : ∃ z, z < 2^n ∧ y.toNat = z * 2^k) : (x ||| y).toNat = x.toNat + y.toNat := by
  obtain ⟨z, hz, hy⟩ := hy
  have h1 : x &&& y = 0#32 := by
    apply BitVec.eq_of_toNat_eq
    rw [BitVec.toNat_and, hy]
    apply Nat.eq_of_testBit_eq
    intro i
    simp only [BitVec.toNat_ofNat, Nat.zero_mod, Nat.zero_testBit]
    rw [← Nat.shiftLeft_eq, Nat.testBit_and, Nat.testBit_shiftLeft]
    by_cases h : k ≤ i
    · by_cases hn : i - k < n
      · have : (x.toNat / 2^k % 2^n).testBit (i - k) = false := by rw [hx]; simp
        rw [Nat.testBit_mod_two_pow, ← Nat.shiftRight_eq_div_pow, Nat.testBit_shiftRight] at this
        have e : k + (i - k) = i := by omega
        simp [hn, e] at this
        simp [this]
      · have : z.testBit (i - k) = false :=
          Nat.testBit_lt_two_pow (Nat.lt_of_lt_of_le hz (Nat.pow_le_pow_right (by omega) (by omega)))
        simp [this]
    · simp [h]
  have h3 := BitVec.toNat_add_of_and_eq_zero h1
  rwa [BitVec.add_eq_or_of_and_eq_zero _ _ h1] at h3

theorem testBit_iff (x : BitVec 32) (n : Nat) (hn : n < 32) : testBit x n = decide (x.toNat / 2^n % 2 = 1) := by
  have hm : (bitMask n).toNat = (2^1 - 1) * 2^n := by
    simp [bitMask, Nat.shiftLeft_eq, Nat.mod_eq_of_lt (Nat.pow_lt_pow_right (a := 2) (by omega) hn)]
  unfold testBit
  have := and_mask_toNat x n 1 _ hm
  have hp : 0 < 2^n := Nat.two_pow_pos n
  rcases Nat.mod_two_eq_zero_or_one (x.toNat / 2^n) with h | h
  · have : (x &&& bitMask n) = 0#32 := by apply BitVec.eq_of_toNat_eq; rw [this]; simp [h]
    simp [this, h]
  · have : (x &&& bitMask n) ≠ 0#32 := by
      intro hc; rw [hc] at this; simp [h] at this; omega
    simp [this, h]

namespace Score

theorem activity_toNat (x : BitVec 32) : (activity x).toNat = (fieldsOf x).act := by
  have := and_mask_toNat x 0 20 actMax (by decide)
  simpa [activity, fieldsOf] using this

theorem lbdfield (x : BitVec 32) : (x &&& lbdMask).toNat = (fieldsOf x).lbd * 2^20 :=
  and_mask_toNat x 20 7 lbdMask (by decide)

theorem hasLbd_iff (x : BitVec 32) : hasLbd x = decide ((fieldsOf x).lbd ≠ 0) := by
  have h := lbdfield x
  unfold hasLbd
  by_cases h0 : (fieldsOf x).lbd = 0
  · have : x &&& lbdMask = 0#32 := by apply BitVec.eq_of_toNat_eq; rw [h, h0]; simp
    simp [this, h0]
  · have : x &&& lbdMask ≠ 0#32 := by intro hc; rw [hc] at h; simp at h; omega
    simp [this, h0]

theorem lbd_toNat (x : BitVec 32) : (lbd x).toNat = if (fieldsOf x).lbd = 0 then 127 else (fieldsOf x).lbd := by
  have h := lbdfield x
  unfold lbd
  rw [hasLbd_iff]
  by_cases h0 : (fieldsOf x).lbd = 0
  · simp [h0, lbdMax]
  · simp only [ne_eq, h0, not_false_eq_true, decide_true, if_true, if_false]
    rw [BitVec.toNat_ushiftRight, h, Nat.shiftRight_eq_div_pow, lbdShift]
    omega

theorem umin_toNat (a b : BitVec 32) : (umin a b).toNat = min a.toNat b.toNat := by
  unfold umin
  simp only [BitVec.ult, decide_eq_true_eq]
  split <;> omega

theorem reset_fields (x a l : BitVec 32) :
    fieldsOf (reset x a l) =
      { fieldsOf x with act := min a.toNat (2^20 - 1), lbd := min l.toNat 127, bmp := 0 } := by
  have hc := clear_mask_toNat x 0 28 bitsMask (by decide)
  have hl : (umin l lbdMax <<< lbdShift).toNat = min l.toNat 127 * 2^20 := by
    rw [BitVec.toNat_shiftLeft, umin_toNat, Nat.shiftLeft_eq]; simp [lbdMax, lbdShift]; omega
  have ha : (umin a actMax).toNat = min a.toNat (2^20 - 1) := by
    rw [umin_toNat, show actMax.toNat = 2^20 - 1 by decide]
  have hx := x.isLt
  simp only [Nat.pow_zero, Nat.div_one, Nat.mul_one] at hc
  have o1 := or_disj_toNat (x &&& ~~~bitsMask) (umin l lbdMax <<< lbdShift) 20 7 (by rw [hc]; omega)
    ⟨min l.toNat 127, by omega, hl⟩
  have o2 := or_disj_toNat ((x &&& ~~~bitsMask) ||| (umin l lbdMax <<< lbdShift)) (umin a actMax) 0 20
    (by rw [o1, hc, hl]; omega) ⟨min a.toNat (2^20-1), by omega, by omega⟩
  have : (reset x a l).toNat = x.toNat - x.toNat % 2^28 + min l.toNat 127 * 2^20 + min a.toNat (2^20-1) := by
    unfold reset; rw [o2, o1, hc, hl, ha]
  simp only [fieldsOf, this, Fields.mk.injEq]
  omega

theorem bumpActivity_fields (x : BitVec 32) :
    fieldsOf (bumpActivity x) = { fieldsOf x with act := min ((fieldsOf x).act + 1) (2^20 - 1) } := by
  have ha := activity_toNat x
  have hx := x.isLt
  unfold bumpActivity
  simp only [BitVec.ult, decide_eq_true_eq, ha, show actMax.toNat = 2^20 - 1 by decide]
  split
  · rename_i h
    have h : x.toNat % 2^20 < 2^20 - 1 := h
    have : (x + 1#32).toNat = x.toNat + 1 := by rw [BitVec.toNat_add, BitVec.toNat_ofNat]; omega
    simp only [fieldsOf, this, Fields.mk.injEq]; omega
  · rename_i h
    have h : ¬ x.toNat % 2^20 < 2^20 - 1 := h
    have e : x.toNat % 2^20 = min (x.toNat % 2^20 + 1) (2^20 - 1) := by omega
    simp only [fieldsOf, Fields.mk.injEq, and_true]; exact e

theorem bumpLbd_fields (x l : BitVec 32) :
    fieldsOf (bumpLbd x l) =
      if l.toNat < (if (fieldsOf x).lbd = 0 then 127 else (fieldsOf x).lbd)
      then { fieldsOf x with lbd := l.toNat, bmp := 1 } else fieldsOf x := by
  unfold bumpLbd
  have hL : (lbd x).toNat ≤ 127 := by
    rw [lbd_toNat]; have : (fieldsOf x).lbd < 128 := Nat.mod_lt _ (by omega)
    split <;> omega
  rw [← lbd_toNat]
  simp only [BitVec.ult, decide_eq_true_eq]
  by_cases h : l.toNat < (lbd x).toNat
  · simp only [h, if_true]
    have hl : l.toNat < 127 := by omega
    have hx := x.isLt
    have hc := clear_mask_toNat x 20 7 lbdMask (by decide)
    have hls : (l <<< lbdShift).toNat = l.toNat * 2^20 := by
      rw [BitVec.toNat_shiftLeft, Nat.shiftLeft_eq]; simp [lbdShift]; omega
    have hb : (bitMask bmpBit).toNat = 2^27 := by decide
    have o1 := or_disj_toNat (x &&& ~~~lbdMask) (l <<< lbdShift) 20 7 (by rw [hc]; omega) ⟨l.toNat, by omega, hls⟩
    rw [← BitVec.or_assoc]
    rw [hls, hc] at o1
    -- setting bit 27, whether or not it was set
    have hb2 : ∀ y : BitVec 32, (y ||| bitMask bmpBit).toNat = y.toNat - y.toNat / 2^27 % 2 * 2^27 + 2^27 := by
      intro y
      have e : y ||| bitMask bmpBit = (y &&& ~~~ bitMask bmpBit) ||| bitMask bmpBit := by
        apply BitVec.eq_of_getLsbD_eq; intro i hi
        simp only [BitVec.getLsbD_and, BitVec.getLsbD_or, BitVec.getLsbD_not, hi, decide_true, Bool.true_and]
        cases y.getLsbD i <;> cases (bitMask bmpBit).getLsbD i <;> rfl
      have c := clear_mask_toNat y 27 1 (bitMask bmpBit) (by decide)
      rw [e, or_disj_toNat _ _ 27 1 (by rw [c]; have := y.isLt; omega) ⟨1, by omega, by rw [hb]⟩, c, hb]
    have hb3 := hb2 ((x &&& ~~~lbdMask) ||| (l <<< lbdShift))
    rw [o1] at hb3
    obtain ⟨lo, m, b, hi, hxe, h1, h2, h3⟩ : ∃ lo m b hi, x.toNat = lo + m * 2^20 + b * 2^27 + hi * 2^28 ∧
        lo < 2^20 ∧ m < 2^7 ∧ b < 2 :=
      ⟨x.toNat % 2^20, x.toNat / 2^20 % 2^7, x.toNat / 2^27 % 2, x.toNat / 2^28, by omega, by omega, by omega, by omega⟩
    have e1 : x.toNat - x.toNat / 2^20 % 2^7 * 2^20 + l.toNat * 2^20 = lo + l.toNat * 2^20 + b * 2^27 + hi * 2^28 := by
      omega
    have e2 : (lo + l.toNat * 2^20 + b * 2^27 + hi * 2^28) / 2^27 % 2 = b := by omega
    rw [e1, e2] at hb3
    rw [fieldsOf_eq _ lo l.toNat 1 hi (by rw [hb3]; omega) h1 (by omega) (by omega), fieldsOf_eq x lo m b hi hxe h1 h2 h3]
  · simp only [h, if_false]

theorem clearBumped_fields (x : BitVec 32) : fieldsOf (clearBumped x) = { fieldsOf x with bmp := 0 } := by
  have hc := clear_mask_toNat x 27 1 (bitMask bmpBit) (by decide)
  have hx := x.isLt
  simp only [clearBumped, clearBit, fieldsOf, hc, Fields.mk.injEq]; omega

theorem reduce_fields (x : BitVec 32) :
    fieldsOf (reduce x) = { fieldsOf x with act := (fieldsOf x).act / 2, bmp := 0 } := by
  unfold reduce
  simp only
  have h1 := clearBumped_fields x
  have ha := activity_toNat (clearBumped x)
  generalize hr : clearBumped x = r at h1 ha
  have hact : (fieldsOf r).act = (fieldsOf x).act := by rw [h1]
  split
  · have hc := clear_mask_toNat r 0 20 actMax (by decide)
    have hs : (activity r >>> 1).toNat = (fieldsOf r).act / 2 := by
      rw [BitVec.toNat_ushiftRight, ha, Nat.shiftRight_eq_div_pow]
    have hrl := r.isLt
    have hlt : (fieldsOf r).act < 2^20 := by simp only [fieldsOf]; omega
    have o1 := or_disj_toNat (r &&& ~~~actMax) (activity r >>> 1) 0 20 (by rw [hc]; omega)
      ⟨(fieldsOf r).act / 2, by omega, by omega⟩
    rw [hc, hs] at o1
    have : fieldsOf ((r &&& ~~~actMax) ||| (activity r >>> 1)) = { fieldsOf r with act := (fieldsOf r).act / 2 } := by
      simp only [fieldsOf, o1, Fields.mk.injEq] at hlt ⊢
      omega
    rw [this, h1]
  · rename_i h
    have h0 : activity r = 0#32 := by simpa using h
    have : (fieldsOf x).act = 0 := by rw [← hact, ← ha, h0]; rfl
    rw [h1, this]; simp [this]

theorem assign_fields (x o : BitVec 32) :
    fieldsOf (assign x o) =
      { fieldsOf x with act := (fieldsOf o).act, lbd := (fieldsOf o).lbd, bmp := (fieldsOf o).bmp } := by
  have hc := clear_mask_toNat x 0 28 bitsMask (by decide)
  have hm := and_mask_toNat o 0 28 bitsMask (by decide)
  have hx := x.isLt; have ho := o.isLt
  have o1 := or_disj_toNat (x &&& ~~~bitsMask) (o &&& bitsMask) 0 28 (by rw [hc]; omega)
    ⟨o.toNat % 2^28, by omega, by rw [hm]; omega⟩
  rw [hc, hm] at o1
  simp only [assign, fieldsOf, o1, Fields.mk.injEq]; omega

end Score

namespace Info
open Score

theorem type_toNat (x : BitVec 32) : (type x).toNat = (fieldsOf x).ty := by
  have := and_mask_toNat x 28 2 typeMask (by decide)
  unfold type
  rw [BitVec.toNat_ushiftRight, this, Nat.shiftRight_eq_div_pow]
  simp only [typeShift, fieldsOf]; omega

theorem toggle_fields (x : BitVec 32) (k : Nat) (hk : k < 32) :
    (toggleBit x k).toNat = if x.toNat / 2^k % 2 = 1 then x.toNat - 2^k else x.toNat + 2^k := by
  have hm : (bitMask k).toNat = 2^k := by
    simp [bitMask, Nat.shiftLeft_eq, Nat.mod_eq_of_lt (Nat.pow_lt_pow_right (a := 2) (by omega) hk)]
  have hm' : (bitMask k).toNat = (2^1 - 1) * 2^k := by omega
  have hg : ∀ i, (bitMask k).getLsbD i = decide (i = k) := by
    intro i
    rw [← BitVec.testBit_toNat, hm, Nat.testBit_two_pow]; simp [eq_comm]
  have hxg : x.getLsbD k = decide (x.toNat / 2^k % 2 = 1) := by
    rw [← BitVec.testBit_toNat, Nat.testBit_eq_decide_div_mod_eq]
  split
  · rename_i h
    have e : toggleBit x k = x &&& ~~~ bitMask k := by
      apply BitVec.eq_of_getLsbD_eq; intro i hi
      simp only [toggleBit, BitVec.getLsbD_xor, BitVec.getLsbD_and, BitVec.getLsbD_not, hg, hi, decide_true]
      by_cases hik : i = k
      · subst hik; simp [hxg, h]
      · simp [hik]
    rw [e, clear_mask_toNat x k 1 _ hm']; simp [h]
  · rename_i h
    have e : toggleBit x k = x ||| bitMask k := by
      apply BitVec.eq_of_getLsbD_eq; intro i hi
      simp only [toggleBit, BitVec.getLsbD_xor, BitVec.getLsbD_or, hg]
      by_cases hik : i = k
      · subst hik; simp [hxg, h]
      · simp [hik]
    rw [e, or_disj_toNat x _ k 1 (by omega) ⟨1, by omega, by omega⟩, hm]

theorem setTagged_fields (x : BitVec 32) (b : Bool) :
    fieldsOf (setTagged x b) = { fieldsOf x with tag := if b then 1 else 0 } := by
  have hx := x.isLt
  unfold setTagged
  rw [testBit_iff x tagBit (by decide)]
  have ht := toggle_fields x tagBit (by decide)
  simp only [tagBit] at *
  by_cases h : x.toNat / 2^31 % 2 = 1 <;> cases b <;> simp only [h, if_true, if_false] at ht <;>
    simp [h, fieldsOf, ht] <;> omega

theorem setAux_fields (x : BitVec 32) (b : Bool) :
    fieldsOf (setAux x b) = { fieldsOf x with aux := if b then 1 else 0 } := by
  have hx := x.isLt
  unfold setAux
  rw [testBit_iff x auxBit (by decide)]
  have ht := toggle_fields x auxBit (by decide)
  simp only [auxBit] at *
  by_cases h : x.toNat / 2^30 % 2 = 1 <;> cases b <;> simp only [h, if_true, if_false] at ht <;>
    simp [h, fieldsOf, ht] <;> omega

theorem setType_fields (x t : BitVec 32) (ht : t.toNat < 4) :
    fieldsOf (setType x t) = { fieldsOf x with ty := t.toNat } := by
  have hc := clear_mask_toNat x 28 2 typeMask (by decide)
  have hx := x.isLt
  have hs : (t <<< typeShift).toNat = t.toNat * 2^28 := by
    rw [BitVec.toNat_shiftLeft, Nat.shiftLeft_eq]; simp [typeShift]; omega
  have o1 := or_disj_toNat (x &&& ~~~typeMask) (t <<< typeShift) 28 2 (by rw [hc]; omega) ⟨t.toNat, by omega, hs⟩
  rw [hc, hs] at o1
  simp only [setType, fieldsOf, o1, Fields.mk.injEq]; omega

end Info

open Score Info

/-- C02a: the accessors read the fields (an absent lbd reads as the maximum 127; `aux` is implied by `tagged`). -/
theorem C02_read (x : BitVec 32) :
    (activity x).toNat = (fieldsOf x).act ∧
    (lbd x).toNat = (if (fieldsOf x).lbd = 0 then 127 else (fieldsOf x).lbd) ∧
    hasLbd x = decide ((fieldsOf x).lbd ≠ 0) ∧
    bumped x = decide ((fieldsOf x).bmp = 1) ∧
    (Info.type x).toNat = (fieldsOf x).ty ∧
    tagged x = decide ((fieldsOf x).tag = 1) ∧
    aux x = decide ((fieldsOf x).tag = 1 ∨ (fieldsOf x).aux = 1) ∧
    learnt x = decide ((fieldsOf x).ty ≠ 0) := by
  refine ⟨activity_toNat x, lbd_toNat x, hasLbd_iff x, testBit_iff x 27 (by omega), type_toNat x,
    testBit_iff x 31 (by omega), ?_, ?_⟩
  · simp only [aux, tagged, tagBit, auxBit]
    rw [testBit_iff x 31 (by omega), testBit_iff x 30 (by omega), Bool.decide_or]; rfl
  · have := type_toNat x
    unfold learnt
    by_cases h : (fieldsOf x).ty = 0
    · have : Info.type x = 0#32 := by apply BitVec.eq_of_toNat_eq; rw [this, h]; rfl
      simp [this, h]
    · have : Info.type x ≠ 0#32 := by intro hc; rw [hc] at this; simp at this; omega
      simp [this, h]

example : (fieldsOf 0xB2900005#32) = ⟨5, 41, 0, 3, 0, 1⟩ := by decide

/-- C02b: every write operation changes exactly the fields it is meant to change, saturating, and leaves all
other fields (in particular those of the info sharing the word) alone. -/
theorem C02_write (x a l o t : BitVec 32) (b : Bool) :
    fieldsOf (reset x a l) = { fieldsOf x with act := min a.toNat (2^20-1), lbd := min l.toNat 127, bmp := 0 } ∧
    fieldsOf (bumpActivity x) = { fieldsOf x with act := min ((fieldsOf x).act + 1) (2^20-1) } ∧
    fieldsOf (clearBumped x) = { fieldsOf x with bmp := 0 } ∧
    fieldsOf (reduce x) = { fieldsOf x with act := (fieldsOf x).act / 2, bmp := 0 } ∧
    fieldsOf (bumpLbd x l) =
      (if l.toNat < (lbd x).toNat then { fieldsOf x with lbd := l.toNat, bmp := 1 } else fieldsOf x) ∧
    fieldsOf (setScore x o) =
      { fieldsOf x with act := (fieldsOf o).act, lbd := (fieldsOf o).lbd, bmp := (fieldsOf o).bmp } ∧
    (t.toNat < 4 → fieldsOf (setType x t) = { fieldsOf x with ty := t.toNat }) ∧
    fieldsOf (setTagged x b) = { fieldsOf x with tag := if b then 1 else 0 } ∧
    fieldsOf (setAux x b) = { fieldsOf x with aux := if b then 1 else 0 } ∧
    fieldsOf (setActivity x a) =
      { fieldsOf x with act := min a.toNat (2^20-1), lbd := (lbd x).toNat, bmp := 0 } ∧
    fieldsOf (setLbd x l) = { fieldsOf x with lbd := min l.toNat 127, bmp := 0 } := by
  refine ⟨reset_fields x a l, bumpActivity_fields x, clearBumped_fields x, reduce_fields x,
    by rw [bumpLbd_fields, lbd_toNat], assign_fields x o, setType_fields x t, setTagged_fields x b,
    setAux_fields x b, ?_, ?_⟩
  · have hl : (lbd x).toNat ≤ 127 := by
      rw [lbd_toNat]; have : (fieldsOf x).lbd < 128 := Nat.mod_lt _ (by omega)
      split <;> omega
    rw [setActivity, assign_fields, makeScore, reset_fields]
    simp only [Fields.mk.injEq, true_and, and_true]; omega
  · have ha := activity_toNat x
    have hl : (activity x).toNat < 2^20 := by rw [ha]; simp only [fieldsOf]; omega
    rw [setLbd, assign_fields, makeScore, reset_fields]
    simp only [Fields.mk.injEq, and_true]; omega

-- a word with all fields set, activity just below saturation
example : fieldsOf 0xFFFFFFFE#32 = { act := 2^20-2, lbd := 127, bmp := 1, ty := 3, aux := 1, tag := 1 } ∧
    fieldsOf (bumpActivity (bumpActivity 0xFFFFFFFE#32)) = { act := 2^20-1, lbd := 127, bmp := 1, ty := 3, aux := 1, tag := 1 } := by
  decide

/-- C02c: reducing never increases activity and clears the bumped flag; setting the activity does not change
the lbd that is read back; bumping never increases the lbd. -/
theorem C02_monotone (x a l : BitVec 32) :
    (activity (reduce x)).toNat ≤ (activity x).toNat ∧ bumped (reduce x) = false ∧
    (lbd (setActivity x a)) = lbd x ∧ (0 < l.toNat → (lbd (bumpLbd x l)).toNat = min l.toNat (lbd x).toNat) := by
  have w := C02_write x a l 0#32 0#32 false
  refine ⟨?_, ?_, ?_, fun h0 => ?_⟩
  · rw [activity_toNat, activity_toNat, reduce_fields]; simp only; omega
  · have := (C02_read (reduce x)).2.2.2.1
    rw [this, reduce_fields]; simp
  · apply BitVec.eq_of_toNat_eq
    rw [lbd_toNat, w.2.2.2.2.2.2.2.2.2.1]; simp only
    split
    · rename_i h; rw [lbd_toNat] at h; split at h <;> omega
    · rfl
  · rw [lbd_toNat (bumpLbd x l), w.2.2.2.2.1]
    split
    · simp only; split <;> omega
    · have := lbd_toNat x; omega

example : (lbd (bumpLbd (makeScore 7#32 30#32) 4#32)).toNat = 4 ∧
    (activity (bumpLbd (makeScore 7#32 30#32) 4#32)).toNat = 7 := by decide

/-- C02d (recorded corner): bumping with lbd 0 makes the stored lbd *absent*, i.e. it reads as the maximum. The
callers in /repo pass lbd ≥ 1, hence the hypothesis `0 < l` of `C02_monotone`; without it the claim is false. -/
theorem C02_bump_zero_corner : (lbd (bumpLbd (makeScore 7#32 30#32) 0#32)).toNat = 127 := by decide

/-! ### C03 -/

open ValueSet in
/-- The value held by a slot, written independently of the code: bits `2k, 2k+1` of the byte. -/
def slotValue (rep : BitVec 8) (v : ValueSet.Slot) : Nat :=
  rep.toNat / 4 ^ (match v with | .user => 0 | .saved => 1 | .pref => 2 | .dflt => 3) % 4

/-- C03a: setting a slot to a value (free, true, false) is read back from that slot and leaves the others
unchanged; `save` sets the saved slot. -/
theorem C03_set_get : ∀ (rep : BitVec 8) (v w : ValueSet.Slot) (x : BitVec 8), x.toNat < 4 →
    (ValueSet.get rep v).toNat = slotValue rep v ∧
    (slotValue (ValueSet.set rep v x) w = if w = v then x.toNat else slotValue rep w) ∧
    ValueSet.save rep x = ValueSet.set rep .saved x ∧
    (ValueSet.has rep v = decide (slotValue rep v ≠ 0)) := by
  have key : ∀ (r : Fin 256) (v w : Fin 4) (x : Fin 4),
      let sl : Fin 4 → ValueSet.Slot := fun i => match i with | 0 => .user | 1 => .saved | 2 => .pref | 3 => .dflt
      let rep := BitVec.ofNat 8 r.val
      let xx := BitVec.ofNat 8 x.val
      (ValueSet.get rep (sl v)).toNat = slotValue rep (sl v) ∧
      (slotValue (ValueSet.set rep (sl v) xx) (sl w) = if sl w = sl v then xx.toNat else slotValue rep (sl w)) ∧
      ValueSet.save rep xx = ValueSet.set rep .saved xx ∧
      (ValueSet.has rep (sl v) = decide (slotValue rep (sl v) ≠ 0)) := by decide +kernel
  intro rep v w x hx
  have k := fun i j => key ⟨rep.toNat, rep.isLt⟩ i j ⟨x.toNat, hx⟩
  simp only [BitVec.ofNat_toNat, BitVec.setWidth_eq] at k
  cases v <;> cases w
  · exact k 0 0
  · exact k 0 1
  · exact k 0 2
  · exact k 0 3
  · exact k 1 0
  · exact k 1 1
  · exact k 1 2
  · exact k 1 3
  · exact k 2 0
  · exact k 2 1
  · exact k 2 2
  · exact k 2 3
  · exact k 3 0
  · exact k 3 1
  · exact k 3 2
  · exact k 3 3

example : ValueSet.get (ValueSet.set (ValueSet.set 0#8 .pref 2#8) .user 1#8) .pref = 2#8 := by decide

/-- The first non-free value in the documented order user, saved, preferred, default. -/
def firstValue (rep : BitVec 8) : Nat :=
  ((([ValueSet.Slot.user, .saved, .pref, .dflt]).map (slotValue rep)).find? (· ≠ 0)).getD 0

/-- C03b: the proposed sign is the one of the first non-free slot in the order user, saved, preferred, default
(a slot holds `value_false = 2` exactly when its sign bit is the lowest set one); `empty` iff all are free. -/
theorem C03_sign (rep : BitVec 8) :
    (ValueSet.sign rep = true ↔ firstValue rep = 2) ∧ (ValueSet.empty rep = true ↔ firstValue rep = 0) := by
  have key : ∀ (r : Fin 256), let rep := BitVec.ofNat 8 r.val
      (ValueSet.sign rep = true ↔ firstValue rep = 2) ∧ (ValueSet.empty rep = true ↔ firstValue rep = 0) := by
    decide +kernel
  simpa using key ⟨rep.toNat, rep.isLt⟩

example : ValueSet.sign (ValueSet.set (ValueSet.set 0#8 .pref 2#8) .dflt 1#8) = true ∧
    ValueSet.sign (ValueSet.set (ValueSet.set 0#8 .pref 2#8) .user 1#8) = false := by decide

/-! ### C04 -/
open Antecedent

theorem and3_toNat (a : BitVec 64) : (a &&& 3#64).toNat = a.toNat % 4 := by
  rw [BitVec.toNat_and]
  exact Nat.and_two_pow_sub_one_eq_mod a.toNat 2

theorem anteType_eq (a : BitVec 64) : Antecedent.type a =
    (if a.toNat % 4 = 0 then some .generic else if a.toNat % 4 = 1 then some .ternary
     else if a.toNat % 4 = 2 then some .binary else none) := by
  have h : ∀ k : Nat, k < 4 → ((a &&& 3#64 == BitVec.ofNat 64 k) = decide (a.toNat % 4 = k)) := by
    intro k hk
    rw [Bool.eq_iff_iff, beq_iff_eq, decide_eq_true_eq, ← BitVec.toNat_inj, and3_toNat]
    simp; omega
  unfold Antecedent.type
  simp only [h 0 (by omega), h 1 (by omega), h 2 (by omega), decide_eq_true_eq]

/-- C04a: an antecedent made of one literal is a non-null binary antecedent returning that literal. -/
theorem C04_binary (p : Literal) (hf : p.flagged = false) :
    type (ofLit p) = some .binary ∧ firstLiteral (ofLit p) = p ∧ isNull (ofLit p) = false := by
  have hp := (Literal.id_toNat p)
  have hlt : p.id.toNat < 2^31 := by have := p.rep.isLt; omega
  have hn : (ofLit p).toNat = p.id.toNat * 2^33 + 2 := by
    simp [ofLit, BitVec.toNat_add, BitVec.toNat_shiftLeft, Nat.shiftLeft_eq]; omega
  refine ⟨?_, ?_, ?_⟩
  · rw [anteType_eq, hn]
    have h2 : (p.id.toNat * 2^33 + 2) % 4 = 2 := by omega
    simp [h2]
  · have : ((ofLit p) >>> 33).setWidth 32 = p.id := by
      apply BitVec.eq_of_toNat_eq
      rw [BitVec.toNat_setWidth, BitVec.toNat_ushiftRight, hn, Nat.shiftRight_eq_div_pow]; omega
    rw [firstLiteral, this]
    exact (C01_xor p false).2.2.2 hf
  · have : ofLit p ≠ 0#64 := by intro h; rw [h] at hn; simp at hn
    simpa [isNull] using this

example : firstLiteral (ofLit (Literal.mk' 1073741823#32 true)) = Literal.mk' 1073741823#32 true := by decide

/-- C04b: an antecedent made of two literals is ternary and gives back both, in order. -/
theorem C04_ternary (p q : Literal) (hp : p.flagged = false) (hq : q.flagged = false) :
    type (ofLits p q) = some .ternary ∧ firstLiteral (ofLits p q) = p ∧ secondLiteral (ofLits p q) = q ∧
    isNull (ofLits p q) = false := by
  have h1 : p.id.toNat < 2^31 := by have := Literal.id_toNat p; have := p.rep.isLt; omega
  have h2 : q.id.toNat < 2^31 := by have := Literal.id_toNat q; have := q.rep.isLt; omega
  have hn : (ofLits p q).toNat = p.id.toNat * 2^33 + q.id.toNat * 4 + 1 := by
    simp [ofLits, BitVec.toNat_add, BitVec.toNat_shiftLeft, Nat.shiftLeft_eq]; omega
  refine ⟨?_, ?_, ?_, ?_⟩
  · rw [anteType_eq, hn]
    have h2 : (p.id.toNat * 2^33 + q.id.toNat * 4 + 1) % 4 = 1 := by omega
    simp [h2]
  · have : ((ofLits p q) >>> 33).setWidth 32 = p.id := by
      apply BitVec.eq_of_toNat_eq
      rw [BitVec.toNat_setWidth, BitVec.toNat_ushiftRight, hn, Nat.shiftRight_eq_div_pow]; omega
    rw [firstLiteral, this]
    exact (C01_xor p false).2.2.2 hp
  · have : (((ofLits p q) >>> 1).setWidth 32) >>> 1 = q.id := by
      apply BitVec.eq_of_toNat_eq
      rw [BitVec.toNat_ushiftRight, BitVec.toNat_setWidth, BitVec.toNat_ushiftRight, hn,
        Nat.shiftRight_eq_div_pow, Nat.shiftRight_eq_div_pow]; omega
    rw [secondLiteral, this]
    exact (C01_xor q false).2.2.2 hq
  · have : ofLits p q ≠ 0#64 := by intro h; rw [h] at hn; simp at hn
    simpa [isNull] using this

example : secondLiteral (ofLits (Literal.mk' 1073741823#32 true) (Literal.mk' 1073741822#32 true)) =
    Literal.mk' 1073741822#32 true := by decide

/-- C04c: a reference to a (4-byte aligned) constraint is generic and returned unchanged; it is null iff the
reference is. On 32-bit systems the additional data stored in the high word is returned exactly and the
reference in the low word is unaffected. -/
theorem C04_generic (c : BitVec 64) (hc : c.toNat % 4 = 0) :
    type (ofPtr c) = some .generic ∧ constraint (ofPtr c) = c ∧ (isNull (ofPtr c) = true ↔ c = 0#64) ∧
    ∀ d : BitVec 32, decode32 (encode32 c d) = d ∧ (encode32 c d).setWidth 32 = c.setWidth 32 ∧
      type (encode32 c d) = some .generic := by
  refine ⟨by rw [anteType_eq]; simp [ofPtr, hc], rfl, by simp [isNull, ofPtr], fun d => ?_⟩
  have hd : decode32 (encode32 c d) = d := by
    apply BitVec.eq_of_getLsbD_eq; intro i hi
    have h1 : 32 + i < 64 := by omega
    have h2 : i < 64 := by omega
    simp [decode32, encode32, hi, h1, h2]
  have hc2 : (encode32 c d).setWidth 32 = c.setWidth 32 := by
    apply BitVec.eq_of_getLsbD_eq; intro i hi
    simp [encode32, hi]
  refine ⟨hd, hc2, ?_⟩
  have : (encode32 c d).toNat % 4 = 0 := by
    have h := congrArg BitVec.toNat hc2
    simp only [BitVec.toNat_setWidth] at h
    omega
  rw [anteType_eq, this]; simp

example : decode32 (encode32 0x1000#64 77#32) = 77#32 := by decide

end Clasp
