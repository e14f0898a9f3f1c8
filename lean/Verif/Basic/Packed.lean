/-
Packed words: constraint scores and infos, preferred values, antecedents.
Models clasp/constraint.h 420-578, clasp/solver_types.h 423-479, clasp/util/misc_types.h 51-68.
-/
import Verif.Basic.Literal
namespace Clasp

/-! ### Bit helpers (clasp/util/misc_types.h) -/

/-- misc_types.h:51 `bit_mask<uint32>(n)`. -/
def bitMask (n : Nat) : BitVec 32 := 1#32 <<< n
/-- misc_types.h:54 `test_bit`. -/
def testBit (x : BitVec 32) (n : Nat) : Bool := (x &&& bitMask n) != 0#32
/-- misc_types.h:62 `store_clear_bit`. -/
def clearBit (x : BitVec 32) (n : Nat) : BitVec 32 := x &&& ~~~ bitMask n
/-- misc_types.h:66 `store_toggle_bit`. -/
def toggleBit (x : BitVec 32) (n : Nat) : BitVec 32 := x ^^^ bitMask n

/-! ### ConstraintScore (clasp/constraint.h 527-551) -/
namespace Score

/-- constraint.h:527 -/
def lbdMax : BitVec 32 := 127#32
/-- constraint.h:527 `ACT_MAX = (1u << 20) - 1` -/
def actMax : BitVec 32 := (1#32 <<< 20) - 1#32
/-- constraint.h:531 -/
def lbdShift : Nat := 20
/-- constraint.h:531 -/
def bmpBit : Nat := 27
/-- constraint.h:531 `LBD_MASK = LBD_MAX<<LBD_SHIFT` -/
def lbdMask : BitVec 32 := lbdMax <<< lbdShift
/-- constraint.h:531 `BITS_MASK = (1u << BITS_USED) - 1` -/
def bitsMask : BitVec 32 := (1#32 <<< 28) - 1#32

/-- `std::min<uint32>` -/
def umin (a b : BitVec 32) : BitVec 32 := if b.ult a then b else a

/-- constraint.h:532-536 `reset` -/
def reset (rep act lbd : BitVec 32) : BitVec 32 :=
  ((rep &&& ~~~ bitsMask) ||| (umin lbd lbdMax <<< lbdShift)) ||| umin act actMax
/-- constraint.h:537 -/
def activity (rep : BitVec 32) : BitVec 32 := rep &&& actMax
/-- constraint.h:539 -/
def hasLbd (rep : BitVec 32) : Bool := (rep &&& lbdMask) != 0#32
/-- constraint.h:538 -/
def lbd (rep : BitVec 32) : BitVec 32 := if hasLbd rep then (rep &&& lbdMask) >>> lbdShift else lbdMax
/-- constraint.h:540 -/
def bumped (rep : BitVec 32) : Bool := testBit rep bmpBit
/-- constraint.h:541 -/
def bumpActivity (rep : BitVec 32) : BitVec 32 := if (activity rep).ult actMax then rep + 1#32 else rep
/-- constraint.h:542 -/
def bumpLbd (rep x : BitVec 32) : BitVec 32 :=
  if x.ult (lbd rep) then (rep &&& ~~~ lbdMask) ||| ((x <<< lbdShift) ||| bitMask bmpBit) else rep
/-- constraint.h:543 -/
def clearBumped (rep : BitVec 32) : BitVec 32 := clearBit rep bmpBit
/-- constraint.h:544 -/
def reduce (rep : BitVec 32) : BitVec 32 :=
  let r := clearBumped rep
  let a := activity r
  if a != 0#32 then (r &&& ~~~ actMax) ||| (a >>> 1) else r
/-- constraint.h:545 -/
def assign (rep o : BitVec 32) : BitVec 32 := (rep &&& ~~~ bitsMask) ||| (o &&& bitsMask)
/-- constraint.h:548-551 -/
def makeScore (act lbd : BitVec 32) : BitVec 32 := reset 0#32 act lbd

end Score

/-! ### ConstraintInfo (clasp/constraint.h 553-578) -/
namespace Info
open Score

/-- constraint.h:577 -/
def typeShift : Nat := 28
/-- constraint.h:577 -/
def auxBit : Nat := 30
/-- constraint.h:577 -/
def tagBit : Nat := 31
/-- constraint.h:577 `TYPE_MASK = (3u << TYPE_SHIFT)` -/
def typeMask : BitVec 32 := 3#32 <<< typeShift

/-- constraint.h:557-560 constructor -/
def mk (t : BitVec 32) : BitVec 32 := t <<< typeShift
/-- constraint.h:563 -/
def type (rep : BitVec 32) : BitVec 32 := (rep &&& typeMask) >>> typeShift
/-- constraint.h:564 -/
def tagged (rep : BitVec 32) : Bool := testBit rep tagBit
/-- constraint.h:565 -/
def aux (rep : BitVec 32) : Bool := tagged rep || testBit rep auxBit
/-- constraint.h:566; `Constraint_t::Static = 0` -/
def learnt (rep : BitVec 32) : Bool := type rep != 0#32
/-- constraint.h:570 -/
def setType (rep t : BitVec 32) : BitVec 32 := (rep &&& ~~~ typeMask) ||| (t <<< typeShift)
/-- constraint.h:571 -/
def setScore (rep sc : BitVec 32) : BitVec 32 := Score.assign rep sc
/-- constraint.h:572 -/
def setActivity (rep a : BitVec 32) : BitVec 32 := Score.assign rep (makeScore a (lbd rep))
/-- constraint.h:573 -/
def setLbd (rep l : BitVec 32) : BitVec 32 := Score.assign rep (makeScore (activity rep) l)
/-- constraint.h:574 -/
def setTagged (rep : BitVec 32) (b : Bool) : BitVec 32 := if testBit rep tagBit != b then toggleBit rep tagBit else rep
/-- constraint.h:575 -/
def setAux (rep : BitVec 32) (b : Bool) : BitVec 32 := if testBit rep auxBit != b then toggleBit rep auxBit else rep

end Info

/-! ### ValueSet (clasp/solver_types.h 468-479) -/
namespace ValueSet

/-- solver_types.h:470 the four slots, as 8-bit masks -/
inductive Slot | user | saved | pref | dflt
deriving DecidableEq, Repr

/-- solver_types.h:470 -/
def Slot.mask : Slot → BitVec 8
  | .user => 0x03#8 | .saved => 0x0C#8 | .pref => 0x30#8 | .dflt => 0xC0#8

/-- misc_types.h:68 `right_most_bit` on uint8 (promotion to int and truncation give the same byte). -/
def rightMostBit (x : BitVec 8) : BitVec 8 := x &&& (-x)
/-- solver_types.h:471 -/
def sign (rep : BitVec 8) : Bool := (rightMostBit rep &&& 0xAA#8) != 0#8
/-- solver_types.h:472 -/
def empty (rep : BitVec 8) : Bool := rep == 0#8
/-- solver_types.h:473 -/
def has (rep : BitVec 8) (v : Slot) : Bool := (rep &&& v.mask) != 0#8
/-- solver_types.h:475 -/
def get (rep : BitVec 8) (v : Slot) : BitVec 8 := (rep &&& v.mask) / rightMostBit v.mask
/-- solver_types.h:476 -/
def set (rep : BitVec 8) (v : Slot) (to : BitVec 8) : BitVec 8 := (rep &&& ~~~ v.mask) ||| (to * rightMostBit v.mask)
/-- solver_types.h:477 -/
def save (rep : BitVec 8) (x : BitVec 8) : BitVec 8 := (rep &&& ~~~ Slot.saved.mask) ||| (x <<< 2)

end ValueSet

/-! ### Antecedent (clasp/constraint.h 420-525) -/
namespace Antecedent

/-- constraint.h:422 -/
inductive Kind | generic | ternary | binary
deriving DecidableEq, Repr

/-- constraint.h:427 null antecedent -/
def null : BitVec 64 := 0#64
/-- constraint.h:433-437 -/
def ofLit (p : Literal) : BitVec 64 := ((p.id.setWidth 64) <<< 33) + 2#64
/-- constraint.h:443-448 -/
def ofLits (p q : Literal) : BitVec 64 := ((p.id.setWidth 64) <<< 33) + ((q.id.setWidth 64) <<< 2) + 1#64
/-- constraint.h:454 pointer to a constraint; the precondition (asserted there) is that its two lowest bits are 0 -/
def ofPtr (c : BitVec 64) : BitVec 64 := c
/-- constraint.h:460 -/
def isNull (a : BitVec 64) : Bool := a == 0#64
/-- constraint.h:462 `static_cast<Type>( data_ & 3 )`; the value 3 is never produced, mapped to none -/
def type (a : BitVec 64) : Option Kind :=
  if a &&& 3#64 == 0#64 then some .generic else if a &&& 3#64 == 1#64 then some .ternary
  else if a &&& 3#64 == 2#64 then some .binary else none
/-- constraint.h:470-473 -/
def constraint (a : BitVec 64) : BitVec 64 := a
/-- constraint.h:479-482 -/
def firstLiteral (a : BitVec 64) : Literal := Literal.fromId ((a >>> 33).setWidth 32)
/-- constraint.h:488-491 -/
def secondLiteral (a : BitVec 64) : Literal := Literal.fromId (((a >>> 1).setWidth 32) >>> 1)
/-- solver_types.h:426-428 `ReasonStore32::encode`: data in the high word of a generic antecedent -/
def encode32 (a : BitVec 64) (d : BitVec 32) : BitVec 64 := ((d.setWidth 64) <<< 32) ||| ((a.setWidth 32).setWidth 64)
/-- solver_types.h:429-431 `ReasonStore32::decode` -/
def decode32 (a : BitVec 64) : BitVec 32 := (a >>> 32).setWidth 32

end Antecedent
end Clasp
