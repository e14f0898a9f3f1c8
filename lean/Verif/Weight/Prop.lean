/-
C22. Propagation of weight constraints: class `WeightConstraint` (src/weight_constraint.cpp 252-297, 374-520, clasp/weight_constraint.h
53-245) together with the part of the solver it talks to: the assignment, the notifications that are still to be delivered, undo
watches.

Simplifications: the two arrays that share the storage `undo_` (stack and seen-flags) are separate; bounds are unbounded (they only
decrease from values in range and are restored); notifications that are pending may be delivered in any order, which includes the order
of the solver; the constraint is created on level 0 (`integrateRoot` is not needed then); `minimize` visits the same literals as `reason`.
-/
import Verif.Weight.Rep
namespace Clasp.WC
open Core Weight

/-- weight_constraint.h:117-118: `true` is `FTB_BFB` (1), `false` is `FFB_BTB` (0). -/
abbrev Side := Bool

/-- weight_constraint.h:227-245: the members of `WeightConstraint`. `lits` starts with `~W` (weight 1); the bottom of the undo stack is
the end of `stack`; `active = none` is `NOT_ACTIVE`. `on0` and `on` tell which watches are in the watch lists of the solver: those for
index 0 and those for all other indices. -/
structure Con where
  lits : List WL
  isW : Bool
  bound : Side → Int
  active : Option Side
  watched : Nat
  stack : List (Nat × Side)
  seen : Nat → Bool
  bp : Nat
  on0 : Side → Bool
  on : Side → Bool

/-- weight_constraint.h:164: `WL::lit`. -/
def litOf (lits : List WL) (i : Nat) : Lit := (lits.getD i ⟨litTrue, 1⟩).lit
/-- weight_constraint.h:166: `WL::weight`. -/
def wOf (lits : List WL) (i : Nat) : Int := (lits.getD i ⟨litTrue, 1⟩).w
/-- weight_constraint.h:125: `lit(i, c)`. -/
def sub (lits : List WL) (i : Nat) (c : Side) : Lit := if c then (litOf lits i).neg else litOf lits i

/-- An assigned literal with its level. `rs = some d`: it was forced by the constraint with reason data `d` (`none` is `UINT32_MAX`;
otherwise the number of stack entries, i.e. `up_ - undoStart()`). -/
structure Entry where
  lit : Lit
  lev : Nat
  rs : Option (Option Nat)

/-- The solver as seen from the constraint: trail (newest first), decision level, indices whose notification is pending, levels with an
undo watch of the constraint, conflict (literal that could not be forced, with reason data). -/
structure Wd where
  tr : List Entry
  dl : Nat
  pend : List Nat
  con : Con
  undo : Nat → Bool
  conf : Option (Lit × Option Nat)

/-- solver.h `isTrue`. -/
def isTrue (tr : List Entry) (p : Lit) : Bool := tr.any fun e => e.lit = p
/-- solver.h `value(v) != value_free`. -/
def assigned (tr : List Entry) (v : Nat) : Bool := tr.any fun e => e.lit.var = v
/-- solver.h `level(v)`. -/
def levelOf (tr : List Entry) (v : Nat) : Nat := match tr.find? (fun e => e.lit.var = v) with | some e => e.lev | none => 0

/-- The indices a constraint with literals `lits` is to be notified of when `p` is assigned. -/
def pendOf (lits : List WL) (p : Lit) : List Nat := (List.range lits.length).filter fun i => (litOf lits i).var = p.var

/-- A literal is assigned on the current level and put into the propagation queue. -/
def push (w : Wd) (p : Lit) (rs : Option (Option Nat)) : Wd :=
  { w with tr := ⟨p, w.dl, rs⟩ :: w.tr, pend := w.pend ++ pendOf w.con.lits p }

/-- solver.h `force(p, this, data)`. -/
def force (w : Wd) (p : Lit) (d : Option Nat) : Wd :=
  if isTrue w.tr p then w
  else if isTrue w.tr p.neg then { w with conf := some (p, d) }
  else push w p (some d)

/-- weight_constraint.cpp:375-379: `highestUndoLevel`. -/
def highest (w : Wd) : Nat := match w.con.stack with
  | [] => 0
  | (i, _) :: _ => levelOf w.tr (litOf w.con.lits i).var

/-- weight_constraint.cpp:384-393: `updateConstraint`. -/
def update (w : Wd) (level i : Nat) (c : Side) : Wd :=
  { w with
    undo := if highest w = level then w.undo else Function.update w.undo level true
    con := { w.con with
      bound := Function.update w.con.bound c (w.con.bound c - wOf w.con.lits i)
      stack := (i, c) :: w.con.stack
      seen := Function.update w.con.seen i (!w.con.seen i) } }

/-- weight_constraint.cpp:447-455: backward propagation from index `n`; the flag is false if `force` failed. -/
def backward (c : Side) (d : Option Nat) : Nat → Nat → Wd → Wd × Nat × Bool
  | 0, n, w => (w, n, true)
  | k + 1, n, w =>
    if w.con.bound c - wOf w.con.lits n < 0 then
      if w.con.seen n then backward c d k (n + 1) w
      else
        let w := force { w with con := { w.con with active := some c } } (sub w.con.lits n c) d
        if w.conf.isSome then (w, n, false) else backward c d k (n + 1) w
    else (w, n, true)

/-- weight_constraint.cpp:433-460: the second half of `propagate`. -/
def check (w : Wd) (c : Side) : Wd :=
  if w.con.bound c ≤ 0 ∨ (w.con.isW = true ∧ w.con.seen 0 = true) then
    let d := if w.con.isW then some w.con.stack.length else none
    if w.con.seen 0 then
      let r := backward c d (w.con.lits.length - w.con.bp) w.con.bp w
      if r.2.2 ∧ w.con.isW then { r.1 with con := { r.1.con with bp := r.2.1 } } else r.1
    else force { w with con := { w.con with active := some c } } (sub w.con.lits 0 c) d
  else w

/-- weight_constraint.cpp:423-428: once the constraint literal is assigned on the root level, the watches of the other sub-constraint
are removed. -/
def unwatch (w : Wd) (i : Nat) (c : Side) (atRoot : Bool) : Wd :=
  if i = 0 ∧ atRoot = true ∧ w.con.watched = 3 then
    { w with con := { w.con with watched := c.toNat, on := Function.update w.con.on (!c) false } }
  else w

/-- weight_constraint.cpp:412-463: `propagate`; `atRoot`: the level of the literal is not above the root level. -/
def propagate (w : Wd) (i : Nat) (c : Side) (atRoot : Bool) : Wd :=
  if w.con.active = some (!c) ∨ isTrue w.tr (sub w.con.lits 0 c) then w
  else check (update (unwatch w i c atRoot) (levelOf w.tr (litOf w.con.lits i).var) i c) c

/-- The solver delivers the pending notification for index `i` (if the watch still exists). -/
def notify (w : Wd) (i : Nat) (atRoot : Bool) : Wd :=
  let c : Side := isTrue w.tr (litOf w.con.lits i)
  let w := { w with pend := w.pend.erase i }
  if (if i = 0 then w.con.on0 c else w.con.on c) then propagate w i c atRoot else w

/-- weight_constraint.cpp:468-482: `reason`; the literals are listed from the newest to the oldest. -/
def reason (con : Con) (d : Option Nat) : List Lit :=
  let s := con.stack.drop (match d with | some k => con.stack.length - k | none => 0)
  (s.filter fun u => some u.2 = con.active).map fun u => (sub con.lits u.1 u.2).neg

/-- weight_constraint.cpp:504-509: pop everything that is no longer assigned. -/
def popFree (tr : List Entry) (con : Con) : List (Nat × Side) → Con
  | [] => { con with stack := [] }
  | (i, c) :: s =>
    if assigned tr (litOf con.lits i).var then { con with stack := (i, c) :: s }
    else popFree tr { con with
      seen := Function.update con.seen i (!con.seen i)
      bound := Function.update con.bound c (con.bound c + wOf con.lits i) } s

/-- weight_constraint.cpp:502-520: `undoLevel`. -/
def undoLevel (tr : List Entry) (con : Con) : Con :=
  let con := popFree tr { con with bp := if con.isW then 1 else con.bp } con.stack
  if con.seen 0 then con
  else
    let con := { con with active := none }
    if con.watched < 2 then { con with watched := 3, on := Function.update con.on (!(con.watched == 1)) true } else con

/-- The solver leaves the current decision level (solver.cpp `undoLevel`): its literals become free, the queue and the conflict are
dropped, undo watches are called. -/
def undo (w : Wd) : Wd :=
  let tr := w.tr.filter fun e => e.lev < w.dl
  { tr := tr, dl := w.dl - 1, pend := [], conf := none
    con := if w.undo w.dl then undoLevel tr w.con else w.con
    undo := Function.update w.undo w.dl false }

/-- weight_constraint.cpp:252-297: the constructor for `W == r`; `act`: only one sub-constraint is wanted (196-201), `frz`: `ctx != 0`.
The call of `propagate` for an assigned `W` is a pending notification of the initial state. -/
def initCon (W : Lit) (r : Rep) (act : Option Side) (frz : Bool) (tr : List Entry) : Con :=
  let wa := assigned tr W.var
  let active := if wa then some (isTrue tr W.neg) else act
  { lits := ⟨W.neg, 1⟩ :: r.lits
    isW := match r.lits with | [] => false | l :: _ => decide (1 < l.w)
    bound := fun c => if c then r.bound else r.reach - r.bound + 1
    active := active
    watched := if active.isSome ∨ frz = false then 2 else 3
    stack := [], seen := fun _ => false, bp := 1
    on0 := fun c => active ≠ some (!c)
    on := fun c => active ≠ some (!c) }

/-- The state in which the constraint is created: decision level 0, assignment `tr`. -/
def initWd (W : Lit) (r : Rep) (act : Option Side) (frz : Bool) (tr : List Entry) : Wd :=
  ⟨tr, 0, if assigned tr W.var then [0] else [], initCon W r act frz tr, fun _ => false, none⟩

/-- What can happen next. -/
inductive Step : Wd → Wd → Prop
  /-- another constraint assigns a literal -/
  | assign (w : Wd) (p : Lit) : w.conf = none → assigned w.tr p.var = false → Step w (push w p none)
  /-- solver.cpp `assume`: a decision after propagation is finished -/
  | decide (w : Wd) (p : Lit) : w.conf = none → w.pend = [] → assigned w.tr p.var = false → Step w (push { w with dl := w.dl + 1 } p none)
  /-- a notification is delivered -/
  | notify (w : Wd) (i : Nat) (atRoot : Bool) : w.conf = none → i ∈ w.pend → Step w (notify w i atRoot)
  /-- the solver backtracks -/
  | undo (w : Wd) : 0 < w.dl → Step w (undo w)

/-- Specification: reachable states. -/
inductive Reach (W : Lit) (r : Rep) (act : Option Side) (frz : Bool) (tr : List Entry) : Wd → Prop
  | init : Reach W r act frz tr (initWd W r act frz tr)
  | step {w w' : Wd} : Reach W r act frz tr w → Step w w' → Reach W r act frz tr w'

end Clasp.WC
