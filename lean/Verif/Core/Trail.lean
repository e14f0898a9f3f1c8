/-
The solver's assignment, decision levels, backtracking and guiding path
(clasp/solver_types.h 490-690, clasp/solver.h, src/solver.cpp).

Simplifications, used throughout:
* a literal is a variable and a sign (its 32-bit encoding is the subject of C01); `true` as value means `value_true`;
* the word `assign_[v]` is the record `Cell` of its three bit fields (the packing is the subject of `C09_packed`);
* the trail is a list with the newest literal first; so is the list of decision levels;
* an antecedent is the list of (true) literals that its `reason()` delivers for the literal it implies, `none` for the
  null antecedent;
* statistics, heuristic call-backs, undo lists of constraints and phase saving are left out.
-/
import Mathlib.Logic.Function.Basic
import Mathlib.Data.List.Basic
namespace Clasp.Core

/-- literal.h:88-141 -/
structure Lit where
  var : Nat
  sign : Bool
deriving DecidableEq, Repr

/-- literal.h:107 `operator~` -/
def Lit.neg (p : Lit) : Lit := ⟨p.var, !p.sign⟩
@[simp] theorem Lit.neg_neg (p : Lit) : p.neg.neg = p := by cases p; simp [Lit.neg]
@[simp] theorem Lit.neg_var (p : Lit) : p.neg.var = p.var := rfl
@[simp] theorem Lit.neg_sign (p : Lit) : p.neg.sign = !p.sign := rfl
theorem Lit.neg_ne (p : Lit) : p.neg ≠ p := by cases p; simp [Lit.neg]

/-- literal.h:209 `trueValue` -/
def Lit.tv (p : Lit) : Bool := !p.sign

/-- The three fields of `assign_[v]`: bits 0-1 value, 2-3 seen flags, 4-31 level (solver_types.h:516-518, 601-603). -/
structure Cell where
  val : Option Bool
  seen : Bool × Bool
  lev : Nat
deriving DecidableEq, Repr

/-- the word 0 in `assign_[v]`: no value, not seen, level 0 (solver_types.h:601-604) -/
def Cell.free : Cell := ⟨none, (false, false), 0⟩

/-- constraint.h:414-525; see the header comment -/
abbrev Ante := Option (List Lit)

/-- solver_types.h:640-653 `ImpliedLiteral` -/
structure Implied where
  lit : Lit
  lev : Nat
  ante : Ante
deriving DecidableEq, Repr

/-- What `setStopConflict` stores in `conflict_` (solver.cpp:536-551). -/
structure Stop where
  root : Nat
  flip : Nat
  front : Nat
deriving DecidableEq, Repr

/-- solver.h:814-820 (levels), 858-900 (data members), restricted to what the header comment says. -/
structure St where
  /-- solver_types.h:628 -/
  cell : Nat → Cell
  /-- solver_types.h:629 -/
  reason : Nat → Ante
  /-- solver_types.h:504, newest first -/
  trail : List Lit
  /-- solver_types.h:505 -/
  front : Nat
  /-- `DLevel::trailPos` of each level, newest first -/
  lv : List Nat
  /-- solver.h:816 -/
  root : Nat
  /-- solver.h:817 -/
  flip : Nat
  /-- solver.h:818 -/
  mode : Nat
  /-- the violated nogood `conflict_` (true literals) -/
  conflict : List Lit
  /-- the special content of `conflict_` made by `setStopConflict` -/
  stop : Option Stop
  /-- solver_types.h:683-685 `ImpliedList` -/
  imp : List Implied
  impLevel : Nat
  impFront : Nat

namespace St

/-- solver.cpp:132-152: variable 0 is true and marked, nothing else is assigned -/
def init : St where
  cell := fun v => if v = 0 then ⟨some true, (true, true), 0⟩ else Cell.free
  reason := fun _ => none
  trail := []
  front := 0
  lv := []
  root := 0
  flip := 0
  mode := 0
  conflict := []
  stop := none
  imp := []
  impLevel := 0
  impFront := 0

/-- solver_types.h:516 -/
def value (s : St) (v : Nat) : Option Bool := (s.cell v).val
/-- solver_types.h:518 -/
def level (s : St) (v : Nat) : Nat := (s.cell v).lev
/-- solver.h:577-583 -/
def isTrue (s : St) (p : Lit) : Bool := s.value p.var == some p.tv
/-- solver.h:584 -/
def isFalse (s : St) (p : Lit) : Bool := s.value p.var == some (!p.tv)
/-- solver.h:589 -/
def dl (s : St) : Nat := s.lv.length
/-- solver.h:600-606 `hasConflict` -/
def hasConflict (s : St) : Bool := !s.conflict.isEmpty || s.stop.isSome
/-- `levels_[d-1].trailPos`: first trail position of level `d ≥ 1` (solver.h:594) -/
def levelStart (s : St) (d : Nat) : Nat := (s.lv.reverse[d - 1]?).getD 0
/-- solver.h:592 `decision(dl)`: the literal at the first trail position of the level -/
def decision (s : St) (d : Nat) : Lit := (s.trail.reverse[s.levelStart d]?).getD ⟨0, false⟩

/-- solver_types.h:559-570 `Assignment::assign` together with the value returned -/
def assign (s : St) (p : Lit) (lev : Nat) (x : Ante) : St × Bool :=
  match s.value p.var with
  | none => ({ s with cell := Function.update s.cell p.var ⟨some p.tv, (false, false), lev⟩,
                      reason := Function.update s.reason p.var x,
                      trail := p :: s.trail }, true)
  | some b => (s, b == p.tv)

/-- solver.cpp:775-792 `setConflict`; `learn` is `searchMode() != no_learning` -/
def setConflict (learn : Bool) (s : St) (p : Lit) (a : Ante) : St :=
  { s with conflict := s.conflict ++ p.neg :: (if learn then a.getD [] else []) }

/-- solver.h:351-356 `force` -/
def force (learn : Bool) (s : St) (p : Lit) (a : Ante) : St × Bool :=
  match s.assign p s.dl a with
  | (s, true) => (s, true)
  | (s, false) => (s.setConflict learn p a, false)

/-- solver.cpp:813-821 `assume` -/
def assume (s : St) (p : Lit) : St × Bool :=
  if s.value p.var = none then
    let s := { s with lv := s.trail.length :: s.lv }
    s.assign p s.dl none
  else (s, s.isTrue p)

/-- solver_types.h:619-626 `popUntil<clear>(stop)`, 612 `clear`. An empty trail would be popped in the C++; it is not
reached because `stop` is on the trail. -/
def popUntil (stop : Lit) (cell : Nat → Cell) : List Lit → (Nat → Cell) × List Lit
  | [] => (cell, [])
  | p :: t =>
    let cell := Function.update cell p.var Cell.free
    if p = stop then (cell, t) else popUntil stop cell t

/-- solver_types.h:589-593 `undoTrail(first)`, 508 `qReset` -/
def undoTrail (s : St) (first : Nat) : St :=
  match s.trail.reverse[first]? with
  | none => s -- precondition: first < trail.size()
  | some stop =>
    let (c, t) := popUntil stop s.cell s.trail
    { s with cell := c, trail := t, front := t.length }

/-- solver.cpp:1105-1116 `undoLevel` -/
def undoLevel (s : St) : St :=
  match s.lv with
  | [] => s -- precondition: decisionLevel() != 0
  | pos :: l => { s.undoTrail pos with lv := l }

/-- `n` times `undoLevel` (the loop of `undoUntilImpl`, solver.cpp:1022-1023) -/
def undoN : Nat → St → St
  | 0, s => s
  | n + 1, s => undoN n s.undoLevel

/-- solver.cpp:1014-1025 `undoUntilImpl`, also `undoUntil(dl)` (solver.h:520) -/
def undoUntilImpl (s : St) (level : Nat) : St :=
  let level := max level s.flip
  if level ≥ s.dl then s
  else undoN (s.dl - level) { s with conflict := [], stop := none }

/-- solver_types.h:677 `ImpliedList::active` -/
def impActive (s : St) (d : Nat) : Bool := d < s.impLevel && s.impFront != s.imp.length

/-- solver.cpp:999-1004: the loop of `ImpliedList::assign` over `lits[front..)`; result: solver, ok, kept entries -/
def impLoop (learn : Bool) : List Implied → St → Bool → St × Bool × List Implied
  | [], s, ok => (s, ok, [])
  | x :: r, s, ok =>
    if x.lev ≤ s.dl then
      let (s, ok) := if ok then s.force learn x.lit x.ante else (s, ok)
      let keep := x.lev < s.dl ∨ x.ante = none
      let (s, ok, l) := impLoop learn r s ok
      (s, ok, if keep then x :: l else l)
    else impLoop learn r s ok

/-- solver.cpp:995-1010 `ImpliedList::assign` -/
def impAssign (learn : Bool) (s : St) : St :=
  let (s', _, kept) := impLoop learn (s.imp.drop s.impFront) s (!s.hasConflict)
  let lits := s.imp.take s.impFront ++ kept
  let level := if lits.isEmpty then 0 else s'.dl
  { s' with imp := lits, impLevel := level, impFront := if level > s'.root then s'.impFront else lits.length }

/-- solver.h:261 `UndoMode` -/
def undoDefault : Nat := 0
/-- solver.h:262 `undo_pop_bt_level` -/
def undoPopBt : Nat := 1
/-- solver.h:262 `undo_pop_proj_level` -/
def undoPopProj : Nat := 2

/-- solver.cpp:1026-1036 `undoUntil(level, mode)`; `mode` without `undo_save_phases` -/
def undoUntil (learn : Bool) (s : St) (level mode : Nat) : St :=
  let s := if level < s.flip ∧ mode ≥ s.mode then { s with flip := max s.root level } else s
  let s := s.undoUntilImpl level
  if s.impActive s.dl then s.impAssign learn else s

/-- solver.h:269-274 `setBacktrackLevel` -/
def setBacktrackLevel (s : St) (d mode : Nat) : St :=
  if mode ≥ s.mode then { s with flip := max (min d s.dl) s.root, mode := max (mode % 4) undoPopBt } else s

/-- solver.h:195-198 `pushRootLevel` -/
def pushRootLevel (s : St) (i : Nat) : St :=
  let root := min s.dl (s.root + i)
  { s with root := root, flip := max s.flip root }

/-- solver.cpp:536-552 `setStopConflict` -/
def setStopConflict (s : St) : St :=
  let s := if s.hasConflict then s else { s with stop := some ⟨s.root, s.flip, s.front⟩ }
  s.pushRootLevel s.dl

/-- solver.cpp:527-534 `clearStopConflict` -/
def clearStopConflict (s : St) : St :=
  match s.stop with
  | none => s
  | some x => { s with root := x.root, flip := x.flip, front := x.front, stop := none, conflict := [] }

/-- solver_types.h:671-674 `ImpliedList::add` -/
def impAdd (s : St) (d : Nat) (x : Implied) : St :=
  { s with imp := s.imp ++ [x], impLevel := if d > s.impLevel then d else s.impLevel }

/-- solver.h:626-634 `setReason` (without the data) -/
def setReason (s : St) (p : Lit) (a : Ante) : St := { s with reason := Function.update s.reason p.var a }

/-- solver.cpp:793-811 `force(const ImpliedLiteral&)` -/
def forceImplied (learn : Bool) (s : St) (x : Implied) : St × Bool :=
  if s.isTrue x.lit ∧ s.level x.lit.var ≤ x.lev then (s, true)
  else
    let found := if s.isTrue x.lit then s.imp.findIdx? (·.lit = x.lit) else none
    match found with
    | some i =>
      match s.imp[i]? with
      | some y => if y.lev > x.lev then ({ s with imp := s.imp.set i x }.setReason x.lit x.ante, true) else (s, true)
      | none => (s, true) -- not reachable
    | none =>
      let s := s.undoUntilImpl x.lev
      let s := if s.dl ≠ x.lev then s.impAdd s.dl x else s
      if s.isTrue x.lit then (s.setReason x.lit x.ante, true) else s.force learn x.lit x.ante

/-- solver.h:374-376 `force(p, dl, r)` -/
def forceAt (learn : Bool) (s : St) (p : Lit) (d : Nat) (a : Ante) : St × Bool :=
  if d = s.dl then s.force learn p a else s.forceImplied learn ⟨p, d, a⟩

/-- solver.cpp:979-994 `backtrack`, the loop; `fuel` bounds the iterations (each one removes a level) -/
def backtrackLoop (learn : Bool) : Nat → St → St × Bool
  | 0, s => (s.setStopConflict, false)
  | fuel + 1, s =>
    if s.dl = s.root then (s.setStopConflict, false)
    else
      let inv := (s.decision s.dl).neg
      let s := s.undoUntil learn (s.dl - 1) undoPopProj
      let s := s.setBacktrackLevel s.dl undoPopBt
      if s.hasConflict then backtrackLoop learn fuel s
      else
        match s.force learn inv none with
        | (s, false) => backtrackLoop learn fuel s
        | (s, true) => (s.impAdd s.dl ⟨inv, s.dl, none⟩, true)

/-- solver.cpp:979-994 `backtrack` -/
def backtrack (learn : Bool) (s : St) : St × Bool := backtrackLoop learn (s.dl + 1) s

/-- solver.cpp:499-520 `popRootLevel(n)` (without collecting popped literals and without removing conditional
knowledge when the tag literal becomes free) -/
def popRootLevel (learn : Bool) (s : St) (n : Nat) : St × Bool :=
  let s := s.clearStopConflict
  let newRoot := s.root - min n s.root
  let s := { s with root := newRoot, flip := newRoot, mode := 0, impFront := 0 }
  let s := s.undoUntil learn s.root undoPopProj
  (s, !s.hasConflict)

end St
end Clasp.Core
