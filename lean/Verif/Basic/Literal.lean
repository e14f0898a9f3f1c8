/-
Model of clasp/literal.h (lines 40-245): variables, literals, truth values.
-/
namespace Clasp

/-- clasp/literal.h:48 `varMax`. -/
def varMax : Nat := 2 ^ 30
/-- clasp/literal.h:54 `litIdMax`. -/
def litIdMax : Nat := 2 ^ 31

/-- clasp/literal.h:76-143 class `Literal`: a single 32-bit word. -/
structure Literal where
  rep : BitVec 32
  deriving DecidableEq, Repr, Inhabited

namespace Literal

/-- clasp/literal.h:90 `Literal(Var var, bool sign)`: `(var<<2) + (sign<<1)`.
`var` is a 32-bit word; the C++ precondition `var < varMax` is an assertion only. -/
def mk' (var : BitVec 32) (sign : Bool) : Literal :=
  ⟨(var <<< 2) + ((BitVec.ofBool sign).setWidth 32 <<< 1)⟩
/-- clasp/literal.h:95 `var()`. -/
def var (l : Literal) : BitVec 32 := l.rep >>> 2
/-- clasp/literal.h:101 `sign()`. -/
def sign (l : Literal) : Bool := (l.rep &&& 2#32) != 0#32
/-- clasp/literal.h:107 `id()`. -/
def id (l : Literal) : BitVec 32 := l.rep >>> 1
/-- clasp/literal.h:114 `fromId`. -/
def fromId (i : BitVec 32) : Literal := ⟨i <<< 1⟩
/-- clasp/literal.h:119 `fromRep`. -/
def fromRep (r : BitVec 32) : Literal := ⟨r⟩
/-- clasp/literal.h:124 `flag()`. -/
def flag (l : Literal) : Literal := ⟨l.rep ||| 1#32⟩
/-- clasp/literal.h:127 `unflag()`. -/
def unflag (l : Literal) : Literal := ⟨l.rep &&& ~~~(1#32)⟩
/-- clasp/literal.h:130 `flagged()`. -/
def flagged (l : Literal) : Bool := (l.rep &&& 1#32) != 0#32
/-- clasp/literal.h:137 `operator~`. -/
def neg (l : Literal) : Literal := ⟨(l.rep ^^^ 2#32) &&& ~~~(1#32)⟩
/-- clasp/literal.h:145 `operator==`. -/
def eq (a b : Literal) : Bool := a.id == b.id
/-- clasp/literal.h:149 `operator<`. -/
def lt (a b : Literal) : Bool := a.id.ult b.id
/-- clasp/literal.h:156 `operator^(Literal, bool)`. -/
def xor (l : Literal) (s : Bool) : Literal := fromId (l.id ^^^ (BitVec.ofBool s).setWidth 32)
end Literal

open Literal

/-- clasp/literal.h:160 `negLit`. -/
def negLit (v : BitVec 32) : Literal := mk' v true
/-- clasp/literal.h:162 `posLit`. -/
def posLit (v : BitVec 32) : Literal := mk' v false
/-- clasp/literal.h:164 `toLit`; the int32 argument is a two's complement word, `-p` is word negation
(for `p = INT32_MIN` the C++ expression overflows; the properties below never use that value). -/
def toLit (p : BitVec 32) : Literal := if p.slt 0#32 then negLit (-p) else posLit p
/-- clasp/literal.h:166 `toInt`. -/
def toInt (l : Literal) : BitVec 32 := if l.sign then -l.var else l.var
/-- clasp/literal.h:169 `lit_true`. -/
def litTrue : Literal := mk' 0#32 false
/-- clasp/literal.h:172 `lit_false`. -/
def litFalse : Literal := mk' 0#32 true
/-- clasp/literal.h:174 `isSentinel`. -/
def isSentinel (l : Literal) : Bool := l.var == 0#32
/-- clasp/literal.h:179 `encodeLit`. -/
def encodeLit (l : Literal) : BitVec 32 := if !l.sign then l.var + 1#32 else -(l.var + 1#32)
/-- clasp/literal.h:180 `decodeVar`. -/
def decodeVar (x : BitVec 32) : BitVec 32 := (if BitVec.sle 0#32 x then x else -x) - 1#32
/-- clasp/literal.h:181 `decodeLit`. -/
def decodeLit (x : BitVec 32) : Literal := mk' (decodeVar x) (x.slt 0#32)

/-- clasp/literal.h:212-215 `value_free`, `value_true`, `value_false` (8-bit words). -/
def valueFree : BitVec 8 := 0#8
/-- clasp/literal.h:213 `value_true`. -/
def valueTrue : BitVec 8 := 1#8
/-- clasp/literal.h:214 `value_false`. -/
def valueFalse : BitVec 8 := 2#8
/-- clasp/literal.h:226 `trueValue`. -/
def trueValue (l : Literal) : BitVec 8 := 1#8 + (BitVec.ofBool l.sign).setWidth 8
/-- clasp/literal.h:236 `falseValue`. -/
def falseValue (l : Literal) : BitVec 8 := 1#8 + (BitVec.ofBool (!l.sign)).setWidth 8
/-- clasp/literal.h:244 `valSign`. -/
def valSign (v : BitVec 8) : Bool := v != valueTrue

/-! ### Bit-level helper lemmas -/
namespace Literal

/-- A word is determined by its top 30 bits, bit 1 and bit 0. -/
theorem toNat_mk' (v : BitVec 32) (s : Bool) (h : v.toNat < varMax) :
    (mk' v s).rep.toNat = v.toNat * 4 + (if s then 2 else 0) := by
  unfold varMax at h
  cases s <;>
    simp [mk', BitVec.toNat_add, BitVec.toNat_shiftLeft, Nat.shiftLeft_eq] <;> omega

theorem var_toNat (l : Literal) : l.var.toNat = l.rep.toNat / 4 := by
  simp [var, BitVec.toNat_ushiftRight, Nat.shiftRight_eq_div_pow]

theorem id_toNat (l : Literal) : l.id.toNat = l.rep.toNat / 2 := by
  simp [id, BitVec.toNat_ushiftRight, Nat.shiftRight_eq_div_pow]

theorem and_two_pow_ne (x : BitVec 32) (i : Nat) (hi : i < 32) :
    ((x &&& BitVec.twoPow 32 i) != 0#32) = x.getLsbD i := by
  rw [BitVec.and_twoPow]
  cases h : x.getLsbD i
  · simp
  · simp only [if_true]
    have : BitVec.twoPow 32 i ≠ 0#32 := by
      intro e
      have := congrArg (fun y => y.getLsbD i) e
      simp [hi] at this
    simpa using this

theorem sign_eq (l : Literal) : l.sign = l.rep.getLsbD 1 := by
  have := and_two_pow_ne l.rep 1 (by omega)
  simpa [sign, BitVec.twoPow] using this

theorem flagged_eq (l : Literal) : l.flagged = l.rep.getLsbD 0 := by
  have := and_two_pow_ne l.rep 0 (by omega)
  simpa [flagged, BitVec.twoPow] using this

theorem sign_iff (l : Literal) : l.sign = true ↔ l.rep.toNat / 2 % 2 = 1 := by
  rw [sign_eq, ← BitVec.testBit_toNat, Nat.testBit_eq_decide_div_mod_eq]; simp

theorem flagged_iff (l : Literal) : l.flagged = true ↔ l.rep.toNat % 2 = 1 := by
  rw [flagged_eq, ← BitVec.testBit_toNat, Nat.testBit_eq_decide_div_mod_eq]; simp

theorem rep_toNat (l : Literal) : l.rep.toNat =
    l.var.toNat * 4 + (if l.sign then 2 else 0) + (if l.flagged then 1 else 0) := by
  rw [var_toNat]
  have h1 := sign_iff l; have h2 := flagged_iff l
  by_cases a : l.sign = true <;> by_cases b : l.flagged = true <;> simp [a, b] at h1 h2 ⊢ <;> omega

theorem ext_fields {a b : Literal} (hv : a.var = b.var) (hs : a.sign = b.sign)
    (hf : a.flagged = b.flagged) : a = b := by
  cases a with | mk ra => cases b with | mk rb =>
  congr 1
  apply BitVec.eq_of_toNat_eq
  have := rep_toNat ⟨ra⟩; have h2 := rep_toNat ⟨rb⟩
  simp only at this h2
  rw [this, h2, hv, hs, hf]

theorem var_lt (l : Literal) : l.var.toNat < varMax := by
  have := l.rep.isLt
  rw [var_toNat]; unfold varMax; omega

theorem getLsbD_two (i : Nat) : (2#32).getLsbD i = (i == 1) := by
  rw [show (2#32) = BitVec.twoPow 32 1 by rfl, BitVec.getLsbD_twoPow]
  by_cases h : i = 1
  · simp [h]
  · have h' : ¬ 1 = i := fun e => h e.symm
    simp [h, h']

theorem getLsbD_one (i : Nat) : (1#32).getLsbD i = (i == 0) := by
  rw [show (1#32) = BitVec.twoPow 32 0 by rfl, BitVec.getLsbD_twoPow]
  by_cases h : i = 0
  · simp [h]
  · have h' : ¬ 0 = i := fun e => h e.symm
    simp [h, h']

theorem getLsbD_neg (l : Literal) (i : Nat) :
    l.neg.rep.getLsbD i = ((i != 0) && (l.rep.getLsbD i ^^ (i == 1))) := by
  simp only [neg, BitVec.getLsbD_and, BitVec.getLsbD_xor, BitVec.getLsbD_not,
    getLsbD_one, getLsbD_two]
  by_cases h32 : i < 32
  · simp only [h32, decide_true, Bool.true_and, bne]
    exact Bool.and_comm _ _
  · have h : 32 ≤ i := by omega
    have h0 : (i == 1) = false := by simp; omega
    simp [BitVec.getLsbD_of_ge _ _ h, h32, h0]

theorem getLsbD_ushiftRight' (x : BitVec 32) (n i : Nat) : (x >>> n).getLsbD i = x.getLsbD (n + i) := by
  simp
end Literal
end Clasp
