/-
C01: the literal encoding is faithful.
The specification is stated with plain variable numbers (Nat), signs and flags (Bool) and
mathematical integers; the code works on 32-bit words.
-/
import Verif.Basic.Literal
namespace Clasp
open Literal

/-- C01a: a literal built from a variable `< varMax` and a sign gives both back, unflagged. -/
theorem C01_construct (v : Nat) (s : Bool) (h : v < varMax) :
    (mk' (BitVec.ofNat 32 v) s).var.toNat = v ∧ (mk' (BitVec.ofNat 32 v) s).sign = s ∧
    (mk' (BitVec.ofNat 32 v) s).flagged = false := by
  have hv : (BitVec.ofNat 32 v).toNat = v := by
    simp; unfold varMax at h; omega
  have hr := toNat_mk' (BitVec.ofNat 32 v) s (by rw [hv]; exact h)
  rw [hv] at hr
  refine ⟨?_, ?_, ?_⟩
  · rw [var_toNat, hr]; cases s <;> simp <;> omega
  · rw [Bool.eq_iff_iff, sign_iff, hr]; cases s <;> simp <;> omega
  · rw [Bool.eq_false_iff]; intro hf; rw [flagged_iff, hr] at hf; cases s <;> simp at hf <;> omega

example : (5 : Nat) < varMax ∧ (mk' (BitVec.ofNat 32 5) true).rep = 22#32 := by decide

/-- C01b: every word is a literal with a variable `< varMax`, and is determined by variable, sign, flag. -/
theorem C01_unique (a b : Literal) :
    a.var.toNat < varMax ∧ (a = b ↔ a.var = b.var ∧ a.sign = b.sign ∧ a.flagged = b.flagged) :=
  ⟨var_lt a, fun h => by subst h; simp, fun ⟨h1, h2, h3⟩ => ext_fields h1 h2 h3⟩

example : (mk' 5#32 true).flag ≠ mk' 5#32 true ∧ (mk' 5#32 true).flag.var = (mk' 5#32 true).var := by decide

theorem neg_fields (a : Literal) : a.neg.var = a.var ∧ a.neg.sign = !a.sign ∧ a.neg.flagged = false := by
  refine ⟨?_, ?_, ?_⟩
  · apply BitVec.eq_of_getLsbD_eq
    intro i _
    simp only [var, getLsbD_ushiftRight', getLsbD_neg]
    have h1 : (2 + i == 1) = false := by simp; omega
    have h0 : (2 + i != 0) = true := by simp
    simp [h1, h0]
  · rw [sign_eq, sign_eq, getLsbD_neg]; simp
  · rw [flagged_eq, getLsbD_neg]; simp

/-- C01c: negation keeps the variable, flips the sign, clears the flag; applied twice it gives the
literal back (with its flag cleared). -/
theorem C01_neg (a : Literal) :
    a.neg.var = a.var ∧ a.neg.sign = !a.sign ∧ a.neg.flagged = false ∧
    a.neg.neg.var = a.var ∧ a.neg.neg.sign = a.sign ∧ (a.flagged = false → a.neg.neg = a) := by
  obtain ⟨h1, h2, h3⟩ := neg_fields a
  obtain ⟨g1, g2, g3⟩ := neg_fields a.neg
  refine ⟨h1, h2, h3, by rw [g1, h1], by rw [g2, h2]; simp, fun hf => ?_⟩
  exact ext_fields (by rw [g1, h1]) (by rw [g2, h2]; simp) (by rw [g3, hf])

example : (mk' 7#32 false).neg = mk' 7#32 true ∧ (mk' 7#32 false).flag.neg.neg = mk' 7#32 false := by decide

/-- C01d: flag/unflag touch only the flag. -/
theorem C01_flag (a : Literal) :
    a.flag.var = a.var ∧ a.flag.sign = a.sign ∧ a.flag.flagged = true ∧
    a.unflag.var = a.var ∧ a.unflag.sign = a.sign ∧ a.unflag.flagged = false := by
  refine ⟨?_, ?_, ?_, ?_, ?_, ?_⟩
  · apply BitVec.eq_of_getLsbD_eq; intro i _
    have h0 : (2 + i == 0) = false := by simp
    simp only [var, flag, getLsbD_ushiftRight', BitVec.getLsbD_or, getLsbD_one, h0, Bool.or_false]
  · rw [sign_eq, sign_eq]; simp [flag]
  · rw [flagged_eq]; simp [flag]
  · apply BitVec.eq_of_getLsbD_eq; intro i hi
    have h0 : (2 + i == 0) = false := by simp
    simp only [var, unflag, getLsbD_ushiftRight', BitVec.getLsbD_and, BitVec.getLsbD_not, getLsbD_one, h0]
    by_cases h : 2 + i < 32
    · simp [h]
    · have : 32 ≤ 2 + i := by omega
      simp [BitVec.getLsbD_of_ge _ _ this]
  · rw [sign_eq, sign_eq]; simp [unflag]
  · rw [flagged_eq]; simp [unflag]

example : (mk' 5#32 true).flag.sign = true ∧ (mk' 5#32 true).flag.flagged = true ∧
    (mk' 5#32 true).flag.unflag = mk' 5#32 true := by decide

/-- C01e: literals compare equal (`operator==`, `index()/id()`) iff variable and sign agree; `<` orders
by variable first, positive before negative. -/
theorem C01_order (a b : Literal) :
    (a.eq b = true ↔ a.var = b.var ∧ a.sign = b.sign) ∧
    (a.lt b = true ↔ a.var.toNat < b.var.toNat ∨ (a.var = b.var ∧ a.sign = false ∧ b.sign = true)) := by
  have ia := id_toNat a; have ib := id_toNat b
  have ra := rep_toNat a; have rb := rep_toNat b
  have ha : a.id.toNat = a.var.toNat * 2 + (if a.sign then 1 else 0) := by
    rw [ia, ra]; cases a.sign <;> cases a.flagged <;> simp <;> omega
  have hb : b.id.toNat = b.var.toNat * 2 + (if b.sign then 1 else 0) := by
    rw [ib, rb]; cases b.sign <;> cases b.flagged <;> simp <;> omega
  constructor
  · simp only [Literal.eq, beq_iff_eq]
    rw [← BitVec.toNat_inj, ha, hb, ← BitVec.toNat_inj]
    cases a.sign <;> cases b.sign <;> simp <;> omega
  · simp only [Literal.lt, BitVec.ult, decide_eq_true_eq]
    rw [ha, hb, ← BitVec.toNat_inj]
    cases a.sign <;> cases b.sign <;> simp <;> omega

example : (mk' 5#32 false).lt (mk' 5#32 true) = true ∧ (mk' 5#32 true).lt (mk' 6#32 false) = true ∧
    (mk' 5#32 false).flag.eq (mk' 5#32 false) = true := by decide

/-- C01f: `toLit`/`toInt` agree with mathematical integers and round-trip. -/
theorem C01_toInt (a : Literal) :
    (toInt a).toInt = (if a.sign then -(a.var.toNat : Int) else (a.var.toNat : Int)) ∧
    (a.flagged = false → a.var.toNat ≠ 0 → toLit (toInt a) = a) := by
  have hv := var_lt a
  unfold varMax at hv
  have key : (toInt a).toInt = (if a.sign then -(a.var.toNat : Int) else (a.var.toNat : Int)) := by
    unfold toInt
    cases h : a.sign
    · simp [BitVec.toInt_eq_toNat_cond]; omega
    · simp only [if_true]
      rw [BitVec.toInt_neg, BitVec.toInt_eq_toNat_cond]
      simp only [Int.bmod]
      split <;> split <;> omega
  refine ⟨key, fun hf h0 => ?_⟩
  have hlt : (toInt a).slt 0#32 = a.sign := by
    rw [BitVec.slt_eq_decide, key]
    cases h : a.sign <;> simp <;> omega
  unfold toLit
  rw [hlt]
  have hvar : BitVec.ofNat 32 a.var.toNat = a.var := by simp
  have hc := fun s => C01_construct a.var.toNat s (var_lt a)
  cases h : a.sign
  · have e : toInt a = a.var := by simp [toInt, h]
    simp only [Bool.false_eq_true, if_false]
    rw [e, posLit]
    have := hc false; rw [hvar] at this
    exact ext_fields (BitVec.eq_of_toNat_eq this.1) (by rw [this.2.1, h]) (by rw [this.2.2, hf])
  · have e : - toInt a = a.var := by simp [toInt, h]
    simp only [if_true]
    rw [e, negLit]
    have := hc true; rw [hvar] at this
    exact ext_fields (BitVec.eq_of_toNat_eq this.1) (by rw [this.2.1, h]) (by rw [this.2.2, hf])

example : (toInt (mk' 9#32 true)).toInt = -9 ∧ toLit (-9#32) = mk' 9#32 true := by decide

/-- C01g: `encodeLit`/`decodeLit` round-trip for every unflagged literal, the sentinels included,
and the encoding is never 0. -/
theorem C01_encode (a : Literal) :
    (encodeLit a).toInt = (if a.sign then -(a.var.toNat + 1 : Int) else (a.var.toNat + 1 : Int)) ∧
    (a.flagged = false → decodeLit (encodeLit a) = a) := by
  have hv := var_lt a
  unfold varMax at hv
  have h1 : (a.var + 1#32).toNat = a.var.toNat + 1 := by
    simp [BitVec.toNat_add]; omega
  have h1i : (a.var + 1#32).toInt = a.var.toNat + 1 := by
    rw [BitVec.toInt_eq_toNat_cond, h1]; split <;> omega
  have key : (encodeLit a).toInt = (if a.sign then -(a.var.toNat + 1 : Int) else (a.var.toNat + 1 : Int)) := by
    unfold encodeLit
    cases h : a.sign
    · simp only [Bool.not_false, if_true, Bool.false_eq_true, if_false]; exact h1i
    · simp only [Bool.not_true, Bool.false_eq_true, if_false, if_true]
      rw [BitVec.toInt_neg, h1i]
      simp only [Int.bmod]
      split <;> omega
  refine ⟨key, fun hf => ?_⟩
  have hlt : (encodeLit a).slt 0#32 = a.sign := by
    rw [BitVec.slt_eq_decide, key]
    cases h : a.sign <;> simp <;> omega
  have hle : BitVec.sle 0#32 (encodeLit a) = !a.sign := by
    rw [BitVec.sle_eq_decide, key]
    cases h : a.sign <;> simp <;> omega
  have hdv : decodeVar (encodeLit a) = a.var := by
    unfold decodeVar
    rw [hle]
    cases h : a.sign
    · simp [encodeLit, h, BitVec.add_sub_cancel]
    · simp [encodeLit, h, BitVec.add_sub_cancel]
  unfold decodeLit
  rw [hlt, hdv]
  have := C01_construct a.var.toNat a.sign (var_lt a)
  rw [show BitVec.ofNat 32 a.var.toNat = a.var by simp] at this
  exact ext_fields (BitVec.eq_of_toNat_eq this.1) this.2.1 (by rw [this.2.2, hf])

example : decodeLit (encodeLit litFalse) = litFalse ∧ encodeLit litFalse = -1#32 := by decide

/-- C01h: the true-value and false-value of a literal are the two assigned values, distinct, and negation
swaps them; the sign of the true-value is the literal's sign. -/
theorem C01_values (a : Literal) :
    trueValue a = (if a.sign then valueFalse else valueTrue) ∧
    falseValue a = (if a.sign then valueTrue else valueFalse) ∧
    trueValue a ≠ falseValue a ∧ trueValue a ≠ valueFree ∧ falseValue a ≠ valueFree ∧
    trueValue a.neg = falseValue a ∧ falseValue a.neg = trueValue a ∧
    valSign (trueValue a) = a.sign := by
  have hn := (neg_fields a).2.1
  cases h : a.sign <;> simp only [trueValue, falseValue, hn, h] <;> decide

example : trueValue (mk' 4#32 true) = valueFalse ∧ falseValue (mk' 4#32 true) = valueTrue := by decide

/-- C01i: `lit ^ sign` negates iff `sign`, and `fromId` inverts `id` up to the flag. -/
theorem C01_xor (a : Literal) (s : Bool) :
    (a.xor s).var = a.var ∧ (a.xor s).sign = (a.sign ^^ s) ∧ (a.xor s).flagged = false ∧
    (a.flagged = false → fromId a.id = a) := by
  have sh : ∀ (x : BitVec 32) (i : Nat), (x <<< 1).getLsbD i = (decide (i < 32) && (decide (1 ≤ i) && x.getLsbD (i-1))) := by
    intro x i; simp
    by_cases h : i < 32 <;> simp [h]
    by_cases h1 : i = 0 <;> simp [h1] ; omega
  have hs : ∀ i, ((BitVec.ofBool s).setWidth 32).getLsbD i = (decide (i = 0) && s) := by
    intro i
    by_cases h : i = 0
    · subst h; cases s <;> simp
    · simp [h]
  have xb : ∀ i, (a.xor s).rep.getLsbD i =
      (decide (i < 32) && (decide (1 ≤ i) && (a.rep.getLsbD i ^^ (decide (i = 1) && s)))) := by
    intro i
    simp only [Literal.xor, fromId, sh, Literal.id, BitVec.getLsbD_xor, getLsbD_ushiftRight', hs]
    by_cases h : 1 ≤ i
    · have e1 : 1 + (i - 1) = i := by omega
      have e2 : (i - 1 = 0) = (i = 1) := by simp; omega
      simp only [e1, e2]
    · simp [h]
  refine ⟨?_, ?_, ?_, fun hf => ?_⟩
  · apply BitVec.eq_of_getLsbD_eq; intro i _
    simp only [var, getLsbD_ushiftRight', xb]
    have h1 : ¬ (2 + i = 1) := by omega
    have h2 : 1 ≤ 2 + i := by omega
    by_cases h : 2 + i < 32
    · simp [h1, h2, h]
    · have : 32 ≤ 2 + i := by omega
      simp [h, BitVec.getLsbD_of_ge _ _ this]
  · rw [sign_eq, sign_eq, xb]; simp
  · rw [flagged_eq, xb]; simp
  · have hr : (fromId a.id).rep.toNat = a.rep.toNat := by
      have h1 := id_toNat a
      have h2 := flagged_iff a
      have hlt := a.rep.isLt
      simp only [fromId, BitVec.toNat_shiftLeft, Nat.shiftLeft_eq, h1]
      simp [hf] at h2; omega
    cases a with | mk r => simpa [fromId] using congrArg Literal.mk (BitVec.eq_of_toNat_eq hr)

example : (mk' 3#32 false).xor true = mk' 3#32 true := by decide

end Clasp
