import Mathlib.Tactic.SplitIfs
/-!
# Model of preferred values and the choice of the sign of a decision (C44)

`ValueSet` (clasp/solver_types.h) packs four preferences for the value of a variable into eight bits; `DecisionHeuristic::selectLiteral` (clasp/solver.h) and `ClaspBerkmin::selectLiteral`
(src/heuristics.cpp) choose the sign of a decision literal.
-/

namespace Clasp.Heu

/-- clasp/solver_types.h:470 `ValueSet::Value`. -/
inductive Which where
  | user | saved | pref | dflt
  deriving DecidableEq, Repr

/-- clasp/solver_types.h:470: the bits of a preference. -/
def Which.mask : Which → BitVec 8
  | .user => 0x03#8
  | .saved => 0x0C#8
  | .pref => 0x30#8
  | .dflt => 0xC0#8

/-- clasp/util/misc_types.h:68 `right_most_bit`. -/
def rightMost (x : BitVec 8) : BitVec 8 := x &&& (-x)

/-- clasp/solver_types.h:471 `sign`. -/
def vsSign (r : BitVec 8) : Bool := (rightMost r &&& 0xAA#8) != 0#8

/-- clasp/solver_types.h:474 `has`. -/
def vsHas (r f : BitVec 8) : Bool := (r &&& f) != 0#8

/-- clasp/solver_types.h:475 `get`. -/
def vsGet (r : BitVec 8) (w : Which) : BitVec 8 := (r &&& w.mask) / rightMost w.mask

/-- clasp/solver_types.h:476 `set`. -/
def vsSet (r : BitVec 8) (w : Which) (to : BitVec 8) : BitVec 8 := (r &&& ~~~w.mask) ||| (to * rightMost w.mask)

/-- clasp/solver_types.h:477 `save`. -/
def vsSave (r x : BitVec 8) : BitVec 8 := (r &&& ~~~(0x0C#8)) ||| (x <<< 2)

/-- clasp/literal.h:213-215 `value_free`, `value_true`, `value_false`. -/
def valRep : Option Bool → BitVec 8
  | none => 0#8
  | some true => 1#8
  | some false => 2#8

/-- Operations on the preferences of a variable: clasp/solver.h:718-722 `setPref`, clasp/solver_types.h:622 `saveAndClear`, clasp/solver_types.h:620 `resetPrefs`. -/
inductive PrefOp where
  | set (w : Which) (v : Option Bool)
  | save (v : Bool)
  | reset

/-- The effect of one operation (the citations are at `PrefOp`, `vsSet` and `vsSave`; clasp/solver_types.h:469: a new set is empty). -/
def PrefOp.exec (r : BitVec 8) : PrefOp → BitVec 8
  | .set w v => vsSet r w (valRep v)
  | .save v => vsSave r (valRep (some v))
  | .reset => 0#8

/-- The effect of several operations on a new set (clasp/solver_types.h:469). -/
def PrefOp.execs (ops : List PrefOp) : BitVec 8 := ops.foldl PrefOp.exec 0#8

/-- clasp/solver.h:1070-1079 `DecisionHeuristic::selectLiteral`: the sign of the literal; `score` is the sign score, `dl` the sign of `defaultLit`. -/
def selSign (r : BitVec 8) (score : Int) (dl : Bool) : Bool :=
  if score ≠ 0 ∧ vsHas r (Which.user.mask ||| Which.saved.mask ||| Which.pref.mask) = false then decide (score < 0)
  else if r ≠ 0#8 then vsSign r
  else dl

/-- src/heuristics.cpp:320-333 `ClaspBerkmin::selectLiteral`; `occ` is `order_.occ(v)`, `w0` and `w1` the results of `estimateBCP`. -/
def berkSign (r : BitVec 8) (huang vsids : Bool) (occ w0 w1 : Int) (dl : Bool) : Bool :=
  if huang = true ∧ 32 < occ.natAbs ∧ vsHas r Which.user.mask = false then decide (occ < 0)
  else
    selSign r (if vsids = true ∧ vsHas r (Which.user.mask ||| Which.pref.mask ||| Which.saved.mask) = false ∧ (w1 ≠ 1 ∨ w0 ≠ w1) then w0 - w1 else occ) dl

/-! ## Specification -/

/-- Specification: the preferences of a variable. -/
structure Prefs where
  user : Option Bool
  saved : Option Bool
  pref : Option Bool
  dflt : Option Bool

/-- Specification: no preferences. -/
def Prefs.nil : Prefs := ⟨none, none, none, none⟩

/-- Specification: the preferences after an operation. -/
def Prefs.step (p : Prefs) : PrefOp → Prefs
  | .set .user v => { p with user := v }
  | .set .saved v => { p with saved := v }
  | .set .pref v => { p with pref := v }
  | .set .dflt v => { p with dflt := v }
  | .save v => { p with saved := some v }
  | .reset => Prefs.nil

/-- Specification: the value of a decision. The user's preference comes first, then the saved value, then the preferred value; without these the sign score decides,
then the default of the variable, then the default of the solver. -/
def Prefs.choose (p : Prefs) (score : Int) (dl : Bool) : Bool :=
  match p.user, p.saved, p.pref with
  | some v, _, _ => v
  | none, some v, _ => v
  | none, none, some v => v
  | none, none, none =>
    if score < 0 then false else if 0 < score then true else
      match p.dflt with
      | some v => v
      | none => dl

/-! ## Proofs -/

/-- Proof device: the encoding of preferences. -/
def Prefs.enc (p : Prefs) : BitVec 8 := valRep p.user ||| (valRep p.saved <<< 2) ||| (valRep p.pref <<< 4) ||| (valRep p.dflt <<< 6)

theorem all_opt {P : Option Bool → Prop} (h0 : P none) (h1 : P (some true)) (h2 : P (some false)) : ∀ o, P o
  | none => h0
  | some true => h1
  | some false => h2

theorem enc_set (p : Prefs) (op : PrefOp) : op.exec p.enc = (p.step op).enc := by
  obtain ⟨u, s, r, d⟩ := p
  cases op with
  | set w v => cases w <;> (revert u s r d v; refine all_opt ?_ ?_ ?_ <;> refine all_opt ?_ ?_ ?_ <;> refine all_opt ?_ ?_ ?_ <;> refine all_opt ?_ ?_ ?_ <;> refine all_opt ?_ ?_ ?_ <;> rfl)
  | save v => cases v <;> (revert u s r d; refine all_opt ?_ ?_ ?_ <;> refine all_opt ?_ ?_ ?_ <;> refine all_opt ?_ ?_ ?_ <;> refine all_opt ?_ ?_ ?_ <;> rfl)
  | reset => exact (by decide : (0#8) = Prefs.nil.enc)

theorem execs_enc (ops : List PrefOp) : PrefOp.execs ops = (ops.foldl Prefs.step Prefs.nil).enc := by
  have h : ∀ (ops : List PrefOp) (p : Prefs), ops.foldl PrefOp.exec p.enc = (ops.foldl Prefs.step p).enc := by
    intro ops
    induction ops with
    | nil => intro p; rfl
    | cons o ops ih => intro p; rw [List.foldl_cons, List.foldl_cons, enc_set, ih]
  exact h ops Prefs.nil

theorem selSign_enc (p : Prefs) (score : Int) (dl : Bool) : selSign p.enc score dl = !(p.choose score (!dl)) := by
  have hs : ∀ score : Int, score < 0 ∨ score = 0 ∨ 0 < score := by intro s; omega
  obtain ⟨u, s, r, d⟩ := p
  unfold selSign Prefs.choose
  rcases hs score with h | h | h
  · have h1 : score ≠ 0 := by omega
    revert u s r d
    refine all_opt ?_ ?_ ?_ <;> refine all_opt ?_ ?_ ?_ <;> refine all_opt ?_ ?_ ?_ <;> refine all_opt ?_ ?_ ?_ <;> simp [h, h1, Prefs.enc, vsHas, vsSign, valRep, Which.mask, rightMost]
  · subst h
    revert u s r d
    refine all_opt ?_ ?_ ?_ <;> refine all_opt ?_ ?_ ?_ <;> refine all_opt ?_ ?_ ?_ <;> refine all_opt ?_ ?_ ?_ <;> simp [Prefs.enc, vsHas, vsSign, valRep, Which.mask, rightMost]
  · have h1 : score ≠ 0 := by omega
    have h2 : ¬ score < 0 := by omega
    revert u s r d
    refine all_opt ?_ ?_ ?_ <;> refine all_opt ?_ ?_ ?_ <;> refine all_opt ?_ ?_ ?_ <;> refine all_opt ?_ ?_ ?_ <;> simp [h, h1, h2, Prefs.enc, vsHas, vsSign, valRep, Which.mask, rightMost]

theorem has_user_enc (p : Prefs) : vsHas p.enc Which.user.mask = p.user.isSome := by
  obtain ⟨u, s, r, d⟩ := p
  revert u s r d
  refine all_opt ?_ ?_ ?_ <;> refine all_opt ?_ ?_ ?_ <;> refine all_opt ?_ ?_ ?_ <;> refine all_opt ?_ ?_ ?_ <;> rfl

theorem get_enc (p : Prefs) (w : Which) : vsGet p.enc w = valRep (match w with | .user => p.user | .saved => p.saved | .pref => p.pref | .dflt => p.dflt) := by
  obtain ⟨u, s, r, d⟩ := p
  cases w <;> (revert u s r d; refine all_opt ?_ ?_ ?_ <;> refine all_opt ?_ ?_ ?_ <;> refine all_opt ?_ ?_ ?_ <;> refine all_opt ?_ ?_ ?_ <;> rfl)

/-! ## Properties -/

/-- **C44** Whatever preferences were set, saved and reset before: a decision gives the variable the value the preferences ask for, in the order user, saved, preferred, sign score, default. -/
theorem C44_sign (ops : List PrefOp) (score : Int) (dl : Bool) :
    selSign (PrefOp.execs ops) score dl = !((ops.foldl Prefs.step Prefs.nil).choose score (!dl)) := by
  rw [execs_enc, selSign_enc]

/-- **C44** The heuristic `Berkmin` always respects the preference of the user. -/
theorem C44_berkmin (ops : List PrefOp) (huang vsids : Bool) (occ w0 w1 : Int) (dl : Bool) {v : Bool} (hu : (ops.foldl Prefs.step Prefs.nil).user = some v) :
    berkSign (PrefOp.execs ops) huang vsids occ w0 w1 dl = !v := by
  unfold berkSign
  rw [execs_enc, has_user_enc, hu, if_neg (by simp), selSign_enc]
  simp [Prefs.choose, hu]

/-- **C44** The stored preferences are those that were set last: reading one returns the last value set for it. -/
theorem C44_get (ops : List PrefOp) (w : Which) :
    vsGet (PrefOp.execs ops) w = valRep (match w with
      | .user => (ops.foldl Prefs.step Prefs.nil).user
      | .saved => (ops.foldl Prefs.step Prefs.nil).saved
      | .pref => (ops.foldl Prefs.step Prefs.nil).pref
      | .dflt => (ops.foldl Prefs.step Prefs.nil).dflt) := by
  rw [execs_enc, get_enc]

/-- Example: a saved value is overruled by the user, until the user's preference is removed again. -/
example : selSign (PrefOp.execs [.set .dflt (some false), .save true, .set .user (some false)]) 7 false = true ∧
    selSign (PrefOp.execs [.set .dflt (some false), .save true, .set .user (some false), .set .user none]) (-7) true = false ∧
    (([PrefOp.save true, .set .user (some false)].foldl Prefs.step Prefs.nil).user = some false) := by decide

end Clasp.Heu
