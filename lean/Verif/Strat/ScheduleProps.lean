/-
C07: restart schedules produce the documented sequences.
-/
import Verif.Strat.Schedule
import Mathlib.Tactic.Linarith
import Mathlib.Tactic.Ring
namespace Clasp.Sched

/-! ### Specification -/

/-- The Luby sequence, built by doubling: `lubySeq (m+1)` is `lubySeq m` twice followed by the next power of two:
1; 1 1 2; 1 1 2 1 1 2 4; ... -/
def lubySeq : Nat → List Nat
  | 0 => [1]
  | m + 1 => lubySeq m ++ lubySeq m ++ [2 ^ (m + 1)]

/-- The `n`-th position of a schedule that starts with period `len` and, whenever a period is exhausted, starts over
with the next one (`grow len`). -/
def period (grow : Nat → Nat) (len : Nat) : Nat → Nat × Nat
  | 0 => (0, len)
  | n + 1 =>
    let (i, l) := period grow len n
    if i + 1 = l then (0, grow l) else (i + 1, l)

/-! ### lubyR -/

theorem and_mask_zero (x k n : Nat) : (x &&& (2^n - 1) * 2^k) ≠ 0 ↔ x / 2^k % 2^n ≠ 0 := by
  have e : (x &&& (2^n - 1) * 2^k) = x / 2^k % 2^n * 2^k := by
    apply Nat.eq_of_testBit_eq
    intro i
    rw [← Nat.shiftLeft_eq, ← Nat.shiftLeft_eq, Nat.testBit_and, Nat.testBit_shiftLeft, Nat.testBit_shiftLeft,
      Nat.testBit_two_pow_sub_one, Nat.testBit_mod_two_pow, ← Nat.shiftRight_eq_div_pow, Nat.testBit_shiftRight]
    by_cases h : k ≤ i
    · have : k + (i - k) = i := by omega
      simp [h, this, Bool.and_comm]
    · simp [h]
  rw [e]
  have := Nat.two_pow_pos k
  simp

theorem log2_spec (x : Nat) (h0 : 0 < x) (h : x < W) : 2 ^ log2 x ≤ x ∧ x < 2 ^ (log2 x + 1) := by
  have m16 : ∀ x, (x &&& 0xFFFF0000) ≠ 0 ↔ x / 2^16 % 2^16 ≠ 0 := fun x => and_mask_zero x 16 16
  have m8 : ∀ x, (x &&& 0xFF00) ≠ 0 ↔ x / 2^8 % 2^8 ≠ 0 := fun x => and_mask_zero x 8 8
  have m4 : ∀ x, (x &&& 0xF0) ≠ 0 ↔ x / 2^4 % 2^4 ≠ 0 := fun x => and_mask_zero x 4 4
  have m2 : ∀ x, (x &&& 0xC) ≠ 0 ↔ x / 2^2 % 2^2 ≠ 0 := fun x => and_mask_zero x 2 2
  have m1 : ∀ x, (x &&& 0x2) ≠ 0 ↔ x / 2 % 2 ≠ 0 := fun x => and_mask_zero x 1 1
  unfold W at h
  unfold log2
  simp only [m16, m8, m4, m2, m1, Nat.shiftRight_eq_div_pow]
  split <;> rename_i a16 <;> simp only <;> split <;> rename_i a8 <;> simp only <;> split <;> rename_i a4 <;> simp only <;>
    split <;> rename_i a2 <;> simp only <;> split <;> rename_i a1 <;>
    simp <;> omega

theorem and_succ_zero {i : Nat} : (i &&& (i + 1)) = 0 ↔ ∃ k, i + 1 = 2 ^ k := by
  have := @Nat.and_sub_one_eq_zero_iff_isPowerOfTwo (i + 1) (by omega)
  rw [Nat.add_sub_cancel, Nat.and_comm] at this
  exact this

theorem length_lubySeq (m : Nat) : (lubySeq m).length = 2 ^ (m + 1) - 1 := by
  induction m with
  | zero => rfl
  | succ m ih =>
    simp only [lubySeq, List.length_append, ih, List.length_singleton]
    have := Nat.one_le_two_pow (n := m + 1)
    rw [Nat.pow_succ 2 (m+1)]; omega

theorem lubyLoop_spec (m : Nat) : ∀ (fuel i : Nat), m ≤ fuel → 0 < i → i < 2 ^ (m + 1) → i + 1 < W →
    (lubyLoop fuel i + 1) / 2 = (lubySeq m)[i - 1]?.getD 0 ∧ lubyLoop fuel i ≤ i := by
  induction m with
  | zero =>
    intro fuel i _ h0 hi _
    have : i = 1 := by simp at hi; omega
    subst this
    cases fuel <;> simp [lubyLoop, lubySeq, W]
  | succ m ih =>
    intro fuel i hf h0 hi hW
    obtain ⟨fuel, rfl⟩ : ∃ f, fuel = f + 1 := ⟨fuel - 1, by omega⟩
    have hlen := length_lubySeq m
    have hp := Nat.one_le_two_pow (n := m + 1)
    have hpp : 2 ^ (m + 1 + 1) = 2 ^ (m + 1) * 2 := Nat.pow_succ 2 (m+1)
    rw [lubyLoop, Nat.mod_eq_of_lt hW]
    by_cases hsm : i < 2 ^ (m + 1)
    · -- inside the first copy
      have hget : (lubySeq (m + 1))[i - 1]? = (lubySeq m)[i - 1]? := by
        simp only [lubySeq]
        rw [List.append_assoc, List.getElem?_append_left (by omega)]
      rw [hget]
      have := ih (fuel + 1) i (by omega) h0 hsm hW
      rw [lubyLoop, Nat.mod_eq_of_lt hW] at this
      exact this
    · by_cases hlast : i + 1 = 2 ^ (m + 1 + 1)
      · have hz : (i &&& (i + 1)) = 0 := and_succ_zero.mpr ⟨_, hlast⟩
        rw [if_neg (by simpa using hz)]
        refine ⟨?_, Nat.le_refl _⟩
        have hget : (lubySeq (m + 1))[i - 1]? = some (2 ^ (m + 1)) := by
          simp only [lubySeq]
          rw [List.getElem?_append_right (by simp; omega)]
          have : i - 1 - (lubySeq m ++ lubySeq m).length = 0 := by simp; omega
          rw [this]; rfl
        rw [hget, hlast]; simp; omega
      · -- inside the second copy
        have hz : (i &&& (i + 1)) ≠ 0 := by
          intro hz
          obtain ⟨k, hk⟩ := and_succ_zero.mp hz
          have h1 : 2 ^ (m + 1) < 2 ^ k := by omega
          have h2 : 2 ^ k < 2 ^ (m + 1 + 1) := by omega
          have := (Nat.pow_lt_pow_iff_right (a := 2) (by omega)).mp h1
          have := (Nat.pow_lt_pow_iff_right (a := 2) (by omega)).mp h2
          omega
        rw [if_pos hz]
        have hl := log2_spec i h0 (by omega)
        have hle : log2 i = m + 1 := by
          have a := (Nat.pow_lt_pow_iff_right (a := 2) (by omega)).mp (show 2 ^ log2 i < 2 ^ (m + 1 + 1) by omega)
          have b := (Nat.pow_lt_pow_iff_right (a := 2) (by omega)).mp (show 2 ^ (m + 1) < 2 ^ (log2 i + 1) by omega)
          omega
        rw [hle, Nat.shiftLeft_eq, Nat.one_mul]
        have hget : (lubySeq (m + 1))[i - 1]? = (lubySeq m)[i - (2 ^ (m + 1) - 1) - 1]? := by
          simp only [lubySeq]
          rw [List.append_assoc, List.getElem?_append_right (by omega), List.getElem?_append_left (by omega)]
          congr 1; omega
        rw [hget]
        obtain ⟨a, b⟩ := ih fuel (i - (2 ^ (m + 1) - 1)) (by omega) (by omega) (by omega) (by omega)
        exact ⟨a, by omega⟩

/-- C07a: `lubyR(i)` is the `i`-th element of the Luby sequence 1,1,2,1,1,2,4,..., for every index below 2^32 - 2. -/
theorem C07_luby (m i : Nat) (hi : i < (lubySeq m).length) (hW : i < 2 ^ 32 - 2) :
    lubyR i = (lubySeq m)[i] := by
  have hW' : W = 4294967296 := rfl
  -- enough iterations: m ≤ 31 may be assumed
  have mono : ∀ m k, (h : i < (lubySeq m).length) → ∃ h' : i < (lubySeq (m + k)).length, (lubySeq (m + k))[i] = (lubySeq m)[i] := by
    intro m k h
    induction k with
    | zero => exact ⟨h, rfl⟩
    | succ k ih =>
      obtain ⟨h', e⟩ := ih
      have hs : lubySeq (m + (k + 1)) = lubySeq (m + k) ++ (lubySeq (m + k) ++ [2 ^ (m + k + 1)]) := by
        rw [← List.append_assoc]; rfl
      refine ⟨by rw [hs, List.length_append]; omega, ?_⟩
      rw [← e]
      simp only [hs]
      rw [List.getElem_append_left h']
  have h31 : i < (lubySeq 31).length := by rw [length_lubySeq]; omega
  have hm : (lubySeq m)[i] = (lubySeq 31)[i] := by
    rcases Nat.le_total m 31 with h | h
    · obtain ⟨_, e⟩ := mono m (31 - m) hi
      simp only [show m + (31 - m) = 31 by omega] at e
      exact e.symm
    · obtain ⟨_, e⟩ := mono 31 (m - 31) h31
      simp only [show 31 + (m - 31) = m by omega] at e
      exact e
  rw [hm]
  obtain ⟨a, b⟩ := lubyLoop_spec 31 32 (i + 1) (by omega) (by omega) (by omega) (by omega)
  unfold lubyR
  rw [Nat.mod_eq_of_lt (show i + 1 < W by omega), Nat.mod_eq_of_lt (by omega), Nat.shiftRight_eq_div_pow, Nat.pow_one, a]
  simp [List.getElem?_eq_getElem h31]

example : (lubySeq 3) = [1,1,2,1,1,2,4,1,1,2,1,1,2,4,8] ∧ lubyR 14 = 8 ∧ lubyR 9 = 2 := by
  refine ⟨by decide, by decide, by decide⟩

/-- C07a' (recorded corner): at the largest all-ones index the 32-bit computation wraps and yields 0, so the bound
`i < 2^32 - 2` of `C07_luby` is exact. -/
theorem C07_luby_corner : lubyR (2 ^ 32 - 2) = 0 ∧ lubyR (2 ^ 32 - 1) = 0 := by decide

/-! ### next and advanceTo -/

/-- how the period grows when it is exhausted -/
def growOf (t : Ty) (l : Nat) : Nat := if t = .luby then 2 * (l + 1) else l + 1

theorem period_succ (g : Nat → Nat) (len n : Nat) : period g len (n + 1) =
    if (period g len n).1 + 1 = (period g len n).2 then (0, g (period g len n).2)
    else ((period g len n).1 + 1, (period g len n).2) := rfl

theorem period_lt (g : Nat → Nat) (len : Nat) : ∀ n, n < len → period g len n = (n, len)
  | 0, _ => rfl
  | n + 1, h => by rw [period_succ, period_lt g len n (by omega)]; simp; omega

theorem period_len (g : Nat → Nat) (len : Nat) (h : 0 < len) : period g len len = (0, g len) := by
  obtain ⟨k, rfl⟩ : ∃ k, len = k + 1 := ⟨len - 1, by omega⟩
  rw [period_succ, period_lt g (k+1) k (by omega)]; simp

theorem period_add (g : Nat → Nat) (len : Nat) (h : 0 < len) : ∀ n, period g len (len + n) = period g (g len) n
  | 0 => by rw [Nat.add_zero, period_len g len h]; rfl
  | n + 1 => by
    rw [show len + (n+1) = len + n + 1 by omega, period_succ, period_add g len h n, ← period_succ]

theorem period_bound (t : Ty) (len : Nat) (h : 0 < len) : ∀ n, (period (growOf t) len n).1 < (period (growOf t) len n).2 ∧
    ((period (growOf t) len n).2 ≤ 2 * n + 2 ∨ (period (growOf t) len n).2 = len) ∧
    ((period (growOf t) len n).2 = len → (period (growOf t) len n).1 ≤ n) ∧ (period (growOf t) len n).1 ≤ n
  | 0 => ⟨h, Or.inr rfl, fun _ => Nat.le_refl _, Nat.le_refl _⟩
  | n + 1 => by
    obtain ⟨a, b, d, e⟩ := period_bound t len h n
    rw [period_succ]
    generalize period (growOf t) len n = p at *
    split
    · rename_i hp
      refine ⟨by simp [growOf]; split <;> omega, Or.inl ?_, fun _ => by simp, by simp⟩
      simp only [growOf]; split <;> omega
    · refine ⟨by simp only; omega, ?_, fun _ => by simp only; omega, by simp only; omega⟩
      simp only; omega

/-- `n` applications of `next` -/
def S.nextN (s : S) : Nat → S
  | 0 => s
  | n + 1 => (s.nextN n).next

theorem nextN_period (s : S) (h0 : s.idx = 0) (hl : 0 < s.len) (hlW : s.len < W) : ∀ n, n < 2 ^ 31 - 1 →
    s.nextN n = { s with idx := (period (growOf s.ty) s.len n).1, len := (period (growOf s.ty) s.len n).2 }
  | 0, _ => by simp only [S.nextN, period]; cases s; simp_all
  | n + 1, hn => by
    rw [S.nextN, nextN_period s h0 hl hlW n (by omega)]
    obtain ⟨a, b, d, e⟩ := period_bound s.ty s.len hl n
    rw [period_succ]
    generalize period (growOf s.ty) s.len n = p at *
    obtain ⟨i, l⟩ := p
    simp only at *
    have hW : W = 4294967296 := rfl
    have hi : (i + 1) % W = i + 1 := Nat.mod_eq_of_lt (by omega)
    simp only [S.next, hi]
    by_cases hil : i + 1 = l
    · have hlb : l ≤ 2 * n + 2 ∨ l ≤ n + 1 := by omega
      simp only [hil, ne_eq, not_true, if_false, if_true]
      rw [if_pos (by omega)]
      have h1 : (l + 1) % W = l + 1 := Nat.mod_eq_of_lt (by omega)
      rw [h1]
      congr 1
      simp only [growOf]
      by_cases ht : s.ty = .luby
      · simp only [ht, if_true, Nat.shiftLeft_eq]
        rw [Nat.mod_eq_of_lt (by omega)]; omega
      · simp only [ht, if_false, Nat.shiftLeft_eq, Nat.pow_zero, Nat.mul_one]
        exact Nat.mod_eq_of_lt (by omega)
    · simp only [hil, ne_eq, not_false_eq_true, if_true, if_false]

/-- C07b: the index runs through periods: the first has length `len`; when one is exhausted, the index restarts at 0
and the next period is one longer (Luby: twice one longer, which for a length of the form `2*(2^k-1)` is
`2*(2^(k+1)-1)`, i.e. one more inner run). -/
theorem C07_next (s : S) (h0 : s.idx = 0) (hl : 0 < s.len) (hlW : s.len < 2 ^ 32) (n : Nat) (hn : n < 2 ^ 31 - 1) :
    ((s.nextN n).idx, (s.nextN n).len) = period (fun l => if s.ty = .luby then 2 * (l + 1) else l + 1) s.len n := by
  rw [nextN_period s h0 hl hlW n hn]; rfl

example : let s : S := ⟨100, .luby, 0, 2⟩
    ((s.nextN 8).idx, (s.nextN 8).len) = (0, 14) ∧ 0 < s.len := by decide

/-- C07b': without a limit the index just counts (until 32 bits are exhausted, when it starts over). -/
theorem C07_next_unlimited (s : S) (h0 : s.idx = 0) (hl : s.len = 0) (n : Nat) :
    s.nextN n = { s with idx := n % 2 ^ 32 } := by
  induction n with
  | zero => cases s; simp_all [S.nextN]
  | succ n ih =>
    rw [S.nextN, ih]
    have e : (n % 2 ^ 32 + 1) % W = (n + 1) % 2 ^ 32 := by unfold W; omega
    simp only [S.next, e, hl]
    by_cases hz : (n + 1) % 2 ^ 32 = 0
    · simp; cases s; simp_all
    · rw [if_pos hz]

example : ((S.mk 100 .geometric 0 0).nextN 3).idx = 3 := by decide

/-- C07a'': hence the Luby schedule without limit yields `base` times the Luby sequence. -/
theorem C07_luby_schedule (base n m : Nat) (hn : n < 2 ^ 32 - 2) (hm : n < (lubySeq m).length) :
    ((S.mk base .luby 0 0).nextN n).currentLuby = (lubySeq m)[n] * base := by
  rw [C07_next_unlimited _ rfl rfl]
  simp only [S.currentLuby]
  rw [Nat.mod_eq_of_lt (by omega), C07_luby m n hm hn]

example : ((S.mk 100 .luby 0 0).nextN 6).currentLuby = 400 := by decide

theorem advLoop_period (fuel : Nat) : ∀ (n len : Nat), n < fuel → 0 < len → n < 2 ^ 31 - 1 → len < 2 ^ 32 →
    advLoop fuel n len = period (growOf .luby) len n := by
  induction fuel with
  | zero => intro n len h; omega
  | succ fuel ih =>
    intro n len hf hl hn hL
    rw [advLoop]
    have hW : W = 4294967296 := rfl
    split
    · rename_i hge
      have h1 : (len + 1) % W = len + 1 := Nat.mod_eq_of_lt (by omega)
      have h2 : (len + 1) * 2 % W = (len + 1) * 2 := Nat.mod_eq_of_lt (by omega)
      rw [h1, h2, ih _ _ (by omega) (by omega) (by omega) (by omega)]
      have := period_add (growOf .luby) len hl (n - len)
      rw [show len + (n - len) = n by omega] at this
      rw [this, growOf, if_pos rfl, Nat.mul_comm]
    · rw [period_lt _ _ _ (by omega)]

/-- closed form of the arithmetic periods -/
theorem period_arith : ∀ (x len n : Nat), 0 < len → 2 * (x * len) + x * (x - 1) ≤ 2 * n →
    2 * n < 2 * ((x + 1) * len) + (x + 1) * x →
    period (fun l => l + 1) len n = (n - (x * len + (x - 1) * x / 2), len + x)
  | 0, len, n, _, _, h2 => by rw [period_lt _ _ _ (by omega)]; simp
  | x + 1, len, n, hl, h1, h2 => by
    have hx : (x + 1) * len = x * len + len := Nat.succ_mul _ _
    have hx2 : (x + 1 + 1) * len = x * len + len + len := by rw [Nat.succ_mul, Nat.succ_mul]
    have ev : ∃ t, (x + 1) * x = 2 * t := by
      rcases Nat.even_or_odd' x with ⟨k, hk | hk⟩
      · exact ⟨(x + 1) * k, by rw [hk]; ring⟩
      · exact ⟨(k + 1) * x, by rw [hk]; ring⟩
    obtain ⟨t, ht⟩ := ev
    have ev0 : x * (x - 1) + 2 * x = (x + 1) * x := by
      cases x with
      | zero => rfl
      | succ x => simp; ring
    have e3 : (x + 1) * (x + 1 - 1) = (x + 1) * x := by simp
    have e4 : (x + 1 + 1) * (x + 1) = (x + 1) * x + 2 * (x + 1) := by ring
    have e5 : x * (len + 1) = x * len + x := by ring
    have e6 : (x + 1) * (len + 1) = x * len + x + len + 1 := by ring
    rw [e3] at h1
    rw [e4] at h2
    have hn : len ≤ n := by
      have : 0 ≤ x * len := Nat.zero_le _
      omega
    have := period_arith x (len + 1) (n - len) (by omega) (by omega) (by omega)
    have hadd := period_add (fun l => l + 1) len hl (n - len)
    rw [show len + (n - len) = n by omega] at hadd
    rw [hadd, this, e5, hx]
    have e7 : (x + 1 - 1) * (x + 1) = 2 * t := by simp; rw [Nat.mul_comm]; exact ht
    have e8 : (x - 1) * x = 2 * t - 2 * x := by
      have : (x - 1) * x = x * (x - 1) := Nat.mul_comm _ _
      omega
    rw [e7, e8]
    have hxt : x ≤ t := by
      have : x * 2 ≤ (x + 1) * x ∨ x = 0 := by
        rcases Nat.eq_zero_or_pos x with h | h
        · right; exact h
        · left; rw [Nat.mul_comm]; exact Nat.mul_le_mul_right x (by omega)
      omega
    have d1 : (2 * t - 2 * x) / 2 = t - x := by omega
    have d2 : 2 * t / 2 = t := by omega
    rw [d1, d2, Prod.mk.injEq]
    omega

/-- C07c: jumping ahead gives the same state as calling `next` that often. -/
theorem C07_advanceTo (s : S) (h0 : s.idx = 0) (hlW : s.len < 2 ^ 32) (n : Nat) (hn : n < 2 ^ 31 - 1) :
    s.advanceTo n = s.nextN n := by
  have hW : W = 4294967296 := rfl
  by_cases hl : s.len = 0
  · rw [C07_next_unlimited s h0 hl, S.advanceTo, if_pos (Or.inl hl), Nat.mod_eq_of_lt (by omega)]
  · rw [nextN_period s h0 (by omega) hlW n hn]
    unfold S.advanceTo
    by_cases hnl : n < s.len
    · rw [if_pos (Or.inr hnl), period_lt _ _ _ hnl]
    · rw [if_neg (by omega)]
      by_cases ht : s.ty = .luby
      · rw [if_neg (by simpa using ht)]
        simp only [ht]
        rw [advLoop_period (n + 1) n s.len (by omega) (by omega) hn hlW]
      · rw [if_pos ht]
        simp only
        have hg : growOf s.ty = fun l => l + 1 := by funext l; simp [growOf, ht]
        rw [hg]
        generalize hD : s.len * (4 * s.len - 4) + 8 * (n + 1) = D
        generalize hx : (Nat.sqrt D - 2 * s.len + 1) / 2 = x
        have s1 := Nat.sqrt_le D
        have s2 := Nat.sqrt_lt_self  (n := D)
        have s3 := Nat.lt_succ_sqrt D
        generalize Nat.sqrt D = r at *
        obtain ⟨k, hk⟩ : ∃ k, s.len = k + 1 := ⟨s.len - 1, by omega⟩
        have hD' : D = 4 * (k * k) + 4 * k + 8 * n + 8 := by
          rw [← hD, hk, show 4 * (k + 1) - 4 = 4 * k by omega]; ring
        have hr : 2 * s.len ≤ r + 1 := by
          by_contra hc
          have : r + 1 ≤ 2 * k + 1 := by omega
          have := Nat.mul_le_mul this this
          have : (2 * k + 1) * (2 * k + 1) = 4 * (k * k) + 4 * k + 1 := by ring
          simp only [Nat.succ_eq_add_one] at s3
          omega
        rw [period_arith x s.len n (by omega) ?_ ?_]
        · have hr2 : 2 * x + 2 * s.len ≤ r + 1 := by omega
          have hr3 : 2 * x + 2 * k + 1 ≤ r := by omega
          have h4 := Nat.mul_le_mul hr3 hr3
          have e : (2 * x + 2 * k + 1) * (2 * x + 2 * k + 1) = 4 * (x * x) + 8 * (x * k) + 4 * x + 4 * (k * k) + 4 * k + 1 := by ring
          have e2 : x * s.len = x * k + x := by rw [hk]; ring
          have e3 : x * (x - 1) + x = x * x := by cases x <;> simp; ring
          have e4 : ∃ t, x * (x - 1) = 2 * t := by
            cases x with
            | zero => exact ⟨0, rfl⟩
            | succ y =>
              rcases Nat.even_or_odd' y with ⟨z, hz | hz⟩
              · exact ⟨(y + 1) * z, by simp; rw [hz]; ring⟩
              · exact ⟨(z + 1) * y, by simp; rw [hz]; ring⟩
          obtain ⟨t, e4⟩ := e4
          omega
        · have hr3 : r + 1 ≤ 2 * x + 2 * k + 3 := by omega
          have h4 := Nat.mul_le_mul hr3 hr3
          have e : (2 * x + 2 * k + 3) * (2 * x + 2 * k + 3) = 4 * (x * x) + 8 * (x * k) + 12 * x + 4 * (k * k) + 12 * k + 9 := by ring
          have e2 : (x + 1) * s.len = x * k + x + k + 1 := by rw [hk]; ring
          have e3 : (x + 1) * x = x * x + x := by ring
          simp only [Nat.succ_eq_add_one] at s3
          omega

example : let s : S := ⟨100, .geometric, 0, 3⟩
    s.advanceTo 8 = s.nextN 8 ∧ (s.advanceTo 8).len = 5 ∧ (s.advanceTo 8).idx = 1 := by
  refine ⟨by rw [C07_advanceTo _ rfl (by decide) _ (by decide)], ?_, ?_⟩
  all_goals rw [C07_advanceTo _ rfl (by decide) _ (by decide)]; decide

end Clasp.Sched
