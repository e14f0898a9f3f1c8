/- C22: concrete executions. -/
import Verif.Weight.PropProps
namespace Clasp.WC.Ex
open Core Weight

/-- Example: variables 1 (W), 2 to 5. -/
def W : Lit := ⟨1, false⟩
/-- Example: `W == (3*x2 + 2*x3 + x4 + x5 >= 3)`, the constraint of the comment at weight_constraint.cpp:399-411. -/
def r : Rep := ⟨[⟨⟨2, false⟩, 3⟩, ⟨⟨3, false⟩, 2⟩, ⟨⟨4, false⟩, 1⟩, ⟨⟨5, false⟩, 1⟩], 3, 7⟩

theorem start : Start W r [] := ⟨by decide, by decide, by decide, by decide, by decide, by decide, by decide, by decide⟩

/-- Example: the new constraint. -/
def s0 : Wd := initWd W r none true []
/-- Example: x3 is decided. -/
def s1 : Wd := push { s0 with dl := 1 } ⟨3, false⟩ none
/-- Example: x3 is processed. -/
def s2 : Wd := notify s1 2 false
/-- Example: another constraint makes W false. -/
def s3 : Wd := push s2 W.neg none
/-- Example: ~W is processed; ~x2, ~x4, ~x5 are forced. -/
def s4 : Wd := notify s3 0 false
/-- Example: these are processed as well. -/
def s5 : Wd := notify (notify (notify s4 1 false) 3 false) 4 false

theorem reach0 : Reach W r none true [] s0 := .init

theorem exc4 : Exc s0 s4 := by
  have h1 := Exc.start (w0 := s0) ⟨3, false⟩ rfl rfl rfl
  have h2 := h1.step (.notify s1 2 false rfl (by decide)) (by decide)
  have h3 := h2.step (.assign s2 W.neg rfl rfl) (by decide)
  exact h3.step (.notify s3 0 false rfl (by decide)) (by decide)

theorem reach4 : Reach W r none true [] s4 := by
  have h1 := reach0.step (.decide s0 ⟨3, false⟩ rfl rfl rfl)
  have h2 := h1.step (.notify s1 2 false rfl (by decide))
  have h3 := h2.step (.assign s2 W.neg rfl rfl)
  exact h3.step (.notify s3 0 false rfl (by decide))

theorem reach5 : Reach W r none true [] s5 := by
  have h1 := reach4.step (.notify s4 1 false rfl (by decide))
  have h2 := h1.step (.notify _ 3 false rfl (by decide))
  exact h2.step (.notify _ 4 false rfl (by decide))

/-- ~x2, ~x4, ~x5 are forced, each with reason {~W, x3}. -/
example : s4.tr.map (fun e => (e.lit, e.rs)) =
    [(⟨5, true⟩, some (some 2)), (⟨4, true⟩, some (some 2)), (⟨2, true⟩, some (some 2)), (W.neg, none), (⟨3, false⟩, none)] ∧
    reason s4.con (some 2) = [W.neg, ⟨3, false⟩] := by decide

example : ∀ M : Asg, iffHolds M W r.lits r.bound → M.sat ⟨3, false⟩ → M.sat W.neg → M.sat ⟨4, true⟩ := by
  intro M h1 h2 h3
  refine (C22_reason start reach4 (pre := [⟨⟨5, true⟩, 1, some (some 2)⟩]) (e := ⟨⟨4, true⟩, 1, some (some 2)⟩) rfl rfl).2 M
    (fun c _ => (sides_iff M).2 h1 c) ?_
  intro x hx
  have : reason s4.con (some 2) = [W.neg, ⟨3, false⟩] := by decide
  rw [this] at hx
  rcases List.mem_cons.1 hx with rfl | hx
  · exact h3
  · rw [List.mem_singleton.1 hx]; exact h2

example : ∀ M : Asg, iffHolds M W r.lits r.bound → M.sat ⟨3, false⟩ → M.sat W.neg → M.sat ⟨4, true⟩ := by
  intro M h1 h2 h3
  refine C22_forced start reach4 (e := ⟨⟨4, true⟩, 1, some (some 2)⟩) (.tail _ (.head _)) h1 ?_
  intro e he _ hr
  simp only [show s4.tr = [⟨⟨5, true⟩, 1, some (some 2)⟩, ⟨⟨4, true⟩, 1, some (some 2)⟩, ⟨⟨2, true⟩, 1, some (some 2)⟩, ⟨W.neg, 1, none⟩,
    ⟨⟨3, false⟩, 1, none⟩] from rfl, List.mem_cons, List.not_mem_nil, or_false] at he
  rcases he with rfl | rfl | rfl | rfl | rfl <;> first | exact h2 | exact h3 | cases hr

example : Closed W r s5.tr true ∧ Closed W r s5.tr false :=
  ⟨C22_complete start reach5 (by decide) rfl (fun h => (by cases h)), C22_complete start reach5 (by decide) rfl (fun h => (by cases h))⟩

/-- The hypothesis of rule `bfb` holds there: W is false, x3 is true. -/
example : isTrue s5.tr W.neg = true ∧ wsum (isTrue s5.tr) r.lits = 2 := by decide

example : (undo s4).con.bound = s0.con.bound ∧ (undo s4).con.stack = [] ∧ s4.con.stack.length = 2 ∧ s4.con.bound true = 0 :=
  ⟨(C22_undo start reach0 exc4 rfl).2.2.2.1, (C22_undo start reach0 exc4 rfl).2.2.1, rfl, rfl⟩

/-- Example: x4 is true before ~W is processed (the situation of the comment). -/
def t4 : Wd := notify (push s3 ⟨4, false⟩ none) 0 false

theorem reacht : Reach W r none true [] t4 := by
  have h1 := reach0.step (.decide s0 ⟨3, false⟩ rfl rfl rfl)
  have h2 := h1.step (.notify s1 2 false rfl (by decide))
  have h3 := h2.step (.assign s2 W.neg rfl rfl)
  have h4 := h3.step (.assign s3 ⟨4, false⟩ rfl rfl)
  exact h4.step (.notify _ 0 false rfl (by decide))

/-- ~x4 cannot be forced. -/
example : t4.conf = some (⟨4, true⟩, some 2) ∧ isTrue t4.tr ⟨4, false⟩ = true :=
  ⟨rfl, (C22_conflict start reacht (p := ⟨4, true⟩) (d := some 2) rfl).1⟩

example : (∀ i ∈ s4.pend, i < s4.con.lits.length ∧ s4.con.seen i = false) ∧ s4.pend = [1, 3, 4] :=
  ⟨(C22_defined start reach4).1, by decide⟩

/-- Example: `W == (x2 >= 1)`. -/
def r1 : Rep := ⟨[⟨⟨2, false⟩, 1⟩], 1, 1⟩
/-- Example: W is true when the constraint is created. -/
def tr1 : List Entry := [⟨W, 0, none⟩]
/-- Example: `create_only_bfb` is given and W is already true. -/
def h0 : Wd := initWd W r1 (some true) true tr1

/-- A finding about half constraints: if only the direction "sum reached → W" is asked for (weight_constraint.h:95) but W is true on level 0 already,
the constructor switches to the other direction (weight_constraint.cpp:269-271) and forces x2, which does not follow from what was asked for. -/
theorem C22_half_witness : ∃ w e, Start W r1 tr1 ∧ Reach W r1 (some true) true tr1 w ∧ e ∈ w.tr ∧ e.rs = some none ∧
    ∃ M : Asg, sideHolds M W r1 true ∧ (∀ e ∈ tr1, M.sat e.lit) ∧ ¬ M.sat e.lit := by
  refine ⟨notify h0 0 true, ⟨⟨2, false⟩, 0, some none⟩, ⟨by decide, by decide, by decide, by decide, by decide, by decide, by decide, by decide⟩,
    Reach.init.step (.notify h0 0 true rfl (by decide)), .head _, rfl, fun v => v == 1, ?_, by decide, by decide⟩
  intro _; decide

end Clasp.WC.Ex
