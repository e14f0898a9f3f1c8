/- C37: a run that meets the hypotheses of the theorems in `MinProps`. -/
import Verif.Opt.MinProps
namespace Clasp.MinC.Ex
open Clasp.Core (Lit Asg)
open Clasp.Mini (Data MLit build)

/-- Example: literals. -/
def a : Lit := ⟨1, false⟩
/-- Example: literals. -/
def b : Lit := ⟨2, false⟩
/-- Example: literals. -/
def c : Lit := ⟨3, false⟩
/-- Example: the assignment on level 0. -/
def top0 : Clasp.Weight.Top := fun v => if v = 0 then some true else none
/-- Example: `#minimize { 2@1 : a; 1@1 : b; 3@0 : b; 1@0 : c }`. -/
def stm : List MLit := [⟨a, 1, 2⟩, ⟨b, 1, 1⟩, ⟨b, 0, 3⟩, ⟨c, 0, 1⟩]
/-- Example: the shared data. -/
def d : Data := ⟨[(a, 0), (b, 1), (c, 3)], [⟨0, false, 2⟩, ⟨0, true, 1⟩, ⟨1, false, 3⟩, ⟨1, false, 1⟩, ⟨1, false, 0⟩], [0, 0], [1, 0]⟩

theorem built : Built d := ⟨top0, stm, rfl, by decide +kernel, by decide +kernel⟩

/-- Example: a vector. -/
def vec2 (x y : Int) : Nat → Int := fun i => if i = 0 then x else y

/-- Example: attached on level 0, where nothing is assigned. -/
def w0 : Wd := init d []
/-- Example: the first bound. -/
def w1 : Wd := { w0 with con := { w0.con with opt := vec2 2 2, pos := 0, act := 0 }, stale := true, target := none }
/-- Example: the sum is compared with the bound. -/
def w2 : Wd := ((check d w1).getD (w1, none)).1
/-- Example: the bound is propagated. -/
def w3 : Wd := (integrate d 0 w2).getD w2
/-- Example: `a` is decided on level 1. -/
def w4 : Wd := push d { w3 with dl := w3.dl + 1, target := none } a none
/-- Example: the constraint is notified and forces `b` to be false. -/
def w5 : Wd := (propagate d { w4 with pend := w4.pend.erase 0, target := none } 0).getD w4
/-- Example: `c` is decided on level 2. -/
def w6 : Wd := push d { w5 with dl := w5.dl + 1, target := none } c none
/-- Example: the constraint is notified; the assignment is total. -/
def w7 : Wd := (propagate d { w6 with pend := w6.pend.erase 2, target := none } 2).getD w6
/-- Example: the next bound. -/
def w8 : Wd := { w7 with con := { w7.con with opt := vec2 2 0, pos := 0, act := 0 }, stale := true, target := none }
/-- Example: the sum is compared with the bound: the solver has to go back to level 1. -/
def w9 : Wd := ((check d w8).getD (w8, none)).1
/-- Example: back to level 1. -/
def w10 : Wd := (undoTo d w9 1).getD w9
/-- Example: the bound is propagated: `c` is false on level 1. -/
def w11 : Wd := (integrate d 0 w10).getD w10
/-- Example: a bound that cannot be met. -/
def w12 : Wd := { w11 with con := { w11.con with opt := vec2 (-1) 0, pos := 0, act := 0 }, stale := true, target := none }

theorem some_getD {α : Type} {x : Option α} {y : α} (h : x.isSome = true) : x = some (x.getD y) := by
  cases x with
  | none => cases h
  | some x => rfl

theorem none_of {α : Type} {x : Option α} (h : x.isNone = true) : x = none := by
  cases x with
  | none => rfl
  | some x => cases h

theorem check_of {w : Wd} (h : ((check d w).bind (·.2)).isNone = true) (h' : (check d w).isSome = true) :
    check d w = some (((check d w).getD (w, none)).1, none) := by
  cases hc : check d w with
  | none => rw [hc] at h'; cases h'
  | some x =>
    obtain ⟨v, r⟩ := x
    rw [hc] at h
    cases r with
    | none => rfl
    | some r => cases h

theorem r3 : Reach d [] w3 := by
  refine .step (.step (.step .init (.bound w0 (vec2 2 2))) (.check w1 w2 rfl rfl (check_of (by decide +kernel) (by decide +kernel)))) ?_
  exact .integrate w2 w3 0 0 (none_of (by decide +kernel)) (by decide +kernel) (by decide +kernel) (by decide +kernel) (by decide +kernel)
    (some_getD (by decide +kernel))

theorem r5 : Reach d [] w5 := by
  refine .step (.step r3 (.decide w3 a (none_of (by decide +kernel)) (by decide +kernel) (by decide +kernel) (by decide +kernel) (by decide +kernel))) ?_
  exact .notify w4 w5 0 (none_of (by decide +kernel)) (by decide +kernel) (by decide +kernel) (some_getD (by decide +kernel))

theorem r7 : Reach d [] w7 := by
  refine .step (.step r5 (.decide w5 c (none_of (by decide +kernel)) (by decide +kernel) (by decide +kernel) (by decide +kernel) (by decide +kernel))) ?_
  exact .notify w6 w7 2 (none_of (by decide +kernel)) (by decide +kernel) (by decide +kernel) (some_getD (by decide +kernel))

theorem r8 : Reach d [] w8 := .step r7 (.bound w7 (vec2 2 0))

theorem r11 : Reach d [] w11 := by
  refine .step (.step (.step r8 (.check w8 w9 (none_of (by decide +kernel)) rfl (check_of (by decide +kernel) (by decide +kernel))))
    (.undo w9 w10 1 (by decide +kernel) (by decide +kernel) (some_getD (by decide +kernel)))) ?_
  exact .integrate w10 w11 0 1 (none_of (by decide +kernel)) (by decide +kernel) (by decide +kernel) (by decide +kernel) (by decide +kernel)
    (some_getD (by decide +kernel))

theorem r12 : Reach d [] w12 := .step r11 (.bound w11 (vec2 (-1) 0))

/-- Example for `C37_defined`: the notification in `w6`, going back in `w9`, a new bound in `w8`, its propagation in `w10`. -/
example : w6.pend = [2] ∧ w9.root = 0 ∧ w9.dl = 2 ∧ w8.stale = true ∧ w10.target = some 1 := by decide +kernel
example : check d w8 ≠ none := (C37_defined built (by simp) r8).2.2.2.1 rfl

/-- Example for `C37_reason`: in `w5`, `b` is false because of `a`, in `w11`, `c` is false on level 1 because of `a`. -/
example : w5.tr.map (fun e => (e.lit, e.lev, e.rs.map (·.up))) = [(b.neg, 1, some 1), (a, 1, none)] := by decide +kernel
example : w11.tr.map (fun e => (e.lit, e.lev, e.rs.map (·.up))) = [(c.neg, 1, some 1), (b.neg, 1, some 1), (a, 1, none)] ∧
    reason d w11.con 1 = some [a] := by decide +kernel

/-- Example for `C37_sum`, `C37_complete`, `C37_model`: the total assignment in `w7` costs (2, 1), the bound is (2, 2). -/
example : w7.conf.isNone = true ∧ w7.stale = false ∧ w7.pend = [] ∧ w7.con.sum 0 = 2 ∧ w7.con.sum 1 = 1 ∧ w7.con.opt 0 = 2 ∧ w7.con.opt 1 = 2 ∧
    (∀ x ∈ d.lits, isTrue w7.tr x.1 = true ∨ isFalse w7.tr x.1 = true) := by decide +kernel
example : BB.le 2 (costOf (fun v => v == 1 || v == 3) d) w7.con.opt :=
  (C37_model built (by simp) r7 (none_of (by decide +kernel)) (by decide +kernel) (by decide +kernel) (by decide +kernel)
    (M := fun v => v == 1 || v == 3) (by
      intro e he
      have hw : ∀ p ∈ w7.tr.map (·.lit), Asg.sat (fun v => v == 1 || v == 3) p := by decide +kernel
      exact hw _ (List.mem_map.2 ⟨e, he, rfl⟩))).2

/-- Example for `C37_check`: in `w8` the solver is told to go back to level 1, in `w12` the bound cannot be met on any level. -/
example : w9.target = some 1 ∧ ((check d w12).bind (·.2)) = some 0 := by decide +kernel

/-! A conflict: the solver has not noticed yet that `a` and `b` are true when the constraint is notified. -/

/-- Example: after `w3`, `a` is decided. -/
def u4 : Wd := push d { w3 with dl := w3.dl + 1, target := none } a none
/-- Example: some other constraint forces `b`. -/
def u5 : Wd := push d u4 b none
/-- Example: the constraint is notified for `a`: `b` would have to be false. -/
def u6 : Wd := (propagate d { u5 with pend := u5.pend.erase 0, target := none } 0).getD u5

theorem s6 : Reach d [] u6 := by
  refine .step (.step (.step r3 (.decide w3 a (none_of (by decide +kernel)) (by decide +kernel) (by decide +kernel) (by decide +kernel) (by decide +kernel)))
    (.assign u4 b (none_of (by decide +kernel)) (by decide +kernel) (by decide +kernel))) ?_
  exact .notify u5 u6 0 (none_of (by decide +kernel)) (by decide +kernel) (by decide +kernel) (some_getD (by decide +kernel))

/-- Example for `C37_conflict`. -/
example : u6.conf.map (fun x => (x.1, x.2.map (·.up))) = some (b.neg, some 1) ∧ reason d u6.con 1 = some [a] := by decide +kernel

end Clasp.MinC.Ex
