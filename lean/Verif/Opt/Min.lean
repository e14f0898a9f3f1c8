/-
C37. Propagation of the bound in branch-and-bound optimization: `DefaultMinimize` (src/minimize_constraint.cpp 179-410, 450-497) with the
arithmetic of `SharedMinimizeData` (src/minimize_constraint.cpp 139-152, clasp/minimize_constraint.h 151-171), together with the part of the
solver it talks to: assignment, decision levels, undo watches, pending notifications, literals that are implied on an earlier level.

The shared data is the one built in `Builder.lean` (C20); which bounds are integrated is the subject of `Bound.lean` (C19): here every
sequence of bounds is possible.

Simplifications: 64-bit sums are unbounded integers; the array `undo_` with its bit fields and two stacks is written as two lists (newest
first) and a function; the literals `tag_` and the step literal appear only as the level `base` on which both are true; notifications that are
pending may be delivered in any order, which includes the order of the solver.
-/
import Verif.Opt.Builder
import Verif.Core.Sem
namespace Clasp.MinC
open Core
open Clasp.Mini (Data LW vec)

/-! ## Arithmetic -/

/-- minimize_constraint.h:197, minimize_constraint.cpp:717: `lits[i].first`; the array ends with a sentinel -/
def lit (d : Data) (i : Nat) : Lit := (d.lits.getD i (litTrue, 0)).1
/-- minimize_constraint.h:197, minimize_constraint.cpp:717: `lits[i].second`, a weight or a position in `weights` -/
def sec (d : Data) (i : Nat) : Int := (d.lits.getD i (litTrue, ((d.weights.length - 1 : Nat) : Int))).2
/-- minimize_constraint.h:85 `numRules()` -/
def rules (d : Data) : Nat := d.adjust.length
/-- minimize_constraint.h:107 `level(i)` -/
def levelAt (d : Data) (i : Nat) : Nat := if rules d = 1 then 0 else ((d.weights.drop (sec d i).toNat).headD ⟨0, false, 0⟩).level

/-- minimize_constraint.h:152: the loop of `add` -/
def addV (lhs : Nat → Int) : List LW → Nat → Int
  | [] => lhs
  | w :: ws => addV (Function.update lhs w.level (lhs w.level + w.weight)) ws
/-- minimize_constraint.h:151-152 `add` -/
def add (d : Data) (lhs : Nat → Int) (x : Int) : Nat → Int :=
  if d.weights = [] then Function.update lhs 0 (lhs 0 + x) else addV lhs (vec (d.weights.drop x.toNat))

/-- minimize_constraint.cpp:141: the loop of `sub` -/
def subV (lhs : Nat → Int) : List LW → Nat → Int
  | [] => lhs
  | w :: ws => subV (Function.update lhs w.level (lhs w.level - w.weight)) ws
/-- minimize_constraint.h:154, minimize_constraint.cpp:139-142 `sub`, with the new value of `aLev` -/
def sub (d : Data) (lhs : Nat → Int) (x : Int) (aLev : Nat) : (Nat → Int) × Nat :=
  if d.weights = [] then (Function.update lhs 0 (lhs 0 - x), aLev)
  else (subV lhs (vec (d.weights.drop x.toNat)), min aLev ((d.weights.drop x.toNat).headD ⟨0, false, 0⟩).level)

/-- minimize_constraint.cpp:145: skip levels where both sides are equal; the first argument is `w->level - lev` -/
def skipEq (lhs rhs : Nat → Int) : Nat → Nat → Nat
  | 0, lev => lev
  | k + 1, lev => if lhs lev = rhs lev then skipEq lhs rhs k (lev + 1) else lev

/-- minimize_constraint.cpp:148: the left-hand side of level `i` and the remaining weights -/
def term (lhs : Nat → Int) (i : Nat) : List LW → Int × List LW
  | [] => (lhs i, [])
  | w :: ws => if i = w.level then (lhs i + w.weight, if w.next then ws else w :: ws) else (lhs i, w :: ws)

/-- minimize_constraint.cpp:146-151: compare `lhs` plus weight with `rhs`; the first argument is the number of remaining levels -/
def impLoop (lhs rhs : Nat → Int) : Nat → Nat → List LW → Bool
  | 0, _, _ => false
  | k + 1, i, ws =>
    let t := term lhs i ws
    if t.1 ≠ rhs i then decide (t.1 > rhs i) else impLoop lhs rhs k (i + 1) t.2

/-- minimize_constraint.h:158-160, minimize_constraint.cpp:143-152 `imp`, with the new value of `lev`; `none`: the assertion fails or the
position is not valid -/
def imp (d : Data) (lhs : Nat → Int) (x : Int) (rhs : Nat → Int) (lev : Nat) : Option (Bool × Nat) :=
  if d.weights = [] then some (decide (lhs 0 + x > rhs 0), lev)
  else match d.weights.drop x.toNat with
    | [] => none
    | w :: ws =>
      if lev ≤ w.level ∧ ((List.range lev).all fun j => decide (lhs j = rhs j)) = true then
        let l := skipEq lhs rhs (w.level - lev) lev
        some (impLoop lhs rhs (rules d - l) l (w :: ws), l)
      else none

/-- minimize_constraint.h:88 `maxBound()` -/
def MAXB : Int := 2 ^ 63 - 1

/-! ## The constraint and the solver -/

/-- minimize_constraint.h:409-424: `opt()`, `sum()`, `pos_` (as an index), the stack of processed literals with the flag `newDL`, the stack of
saved positions, the flags `idxSeen` and `actLev_` -/
structure Con where
  opt : Nat → Int
  sum : Nat → Int
  pos : Nat
  undo : List (Nat × Bool)
  ps : List Nat
  seen : Nat → Bool
  act : Nat

/-- The constraint as antecedent: `up` is the data stored with the literal (minimize_constraint.cpp:358); `bnd` and `base` are recorded for
the specification only: the bound and the level of the tag literal when the literal was forced. -/
structure Rs where
  up : Nat
  bnd : Nat → Int
  base : Nat

/-- solver_types.h:490-640: an assigned literal with its level and antecedent, `none` if that is not the constraint -/
structure Entry where
  lit : Lit
  lev : Nat
  rs : Option Rs

/-- The solver as seen from the constraint: trail (newest first), decision level, root level, level of the tag literal and the step literal,
levels with an undo watch of the constraint (newest first), pending notifications (data of the watches, i.e. indices of literals), conflict
(the literal that could not be forced and its antecedent), and literals implied on an earlier level (solver_types.h:644-681, here an entry whose level is that
earlier level). `stale`: a bound was stored that was not propagated yet (minimize_constraint.cpp:475-482); `target`: the level to which the
solver has to go back before the bound is propagated (minimize_constraint.cpp:477-479). -/
structure Wd where
  tr : List Entry
  dl : Nat
  root : Nat
  base : Nat
  uw : List Nat
  pend : List Nat
  conf : Option (Lit × Option Rs)
  imps : List Entry
  con : Con
  stale : Bool
  target : Option Nat

/-- solver.h:577-583 `isTrue` -/
def isTrue (tr : List Entry) (p : Lit) : Bool := tr.any fun e => decide (e.lit = p)
/-- solver.h:584 `isFalse` -/
def isFalse (tr : List Entry) (p : Lit) : Bool := isTrue tr p.neg
/-- solver.h:586 `level(v)` -/
def levelOf (tr : List Entry) (v : Nat) : Nat := ((tr.find? fun e => decide (e.lit.var = v)).map (·.lev)).getD 0

/-- The watches for `p`: the indices of `p` (minimize_constraint.cpp:228-231). Literals that are assigned when the constraint is attached have
no watch; they are not assigned again. -/
def idxOf (d : Data) (p : Lit) : List Nat := (List.range d.lits.length).filter fun i => decide (lit d i = p)

/-- solver_types.h:559-570: a literal is assigned on the current level and put into the propagation queue -/
def push (d : Data) (w : Wd) (p : Lit) (rs : Option Rs) : Wd :=
  { w with tr := ⟨p, w.dl, rs⟩ :: w.tr, pend := idxOf d p ++ w.pend }

/-- solver.h:351-364 `force(p, a, data)` -/
def force (d : Data) (w : Wd) (p : Lit) (rs : Option Rs) : Wd :=
  if isTrue w.tr p then w else if isFalse w.tr p then { w with conf := some (p, rs) } else push d w p rs

/-- solver_types.h:612 `setReason` -/
def setReason (tr : List Entry) (p : Lit) (rs : Option Rs) : List Entry := tr.map fun e => if e.lit = p then { e with rs := rs } else e

/-- solver.cpp:800: the first entry for `p` is replaced -/
def replaceImp (n : Entry) : List Entry → List Entry
  | [] => []
  | e :: l => if e.lit = n.lit then n :: l else e :: replaceImp n l

/-- solver.h:374-376, solver.cpp:793-811 `force(p, dl, a, data)`. The call of `undoUntil` in line 805 has no effect here: the solver is
already as close to the level as it can get (minimize_constraint.cpp:357). -/
def forceAt (d : Data) (w : Wd) (p : Lit) (lev : Nat) (rs : Option Rs) : Wd :=
  if lev = w.dl then force d w p rs
  else if isTrue w.tr p ∧ levelOf w.tr p.var ≤ lev then w
  else match (if isTrue w.tr p then w.imps.find? (fun e => decide (e.lit = p)) else none) with
    | some x => if lev < x.lev then { w with imps := replaceImp ⟨p, lev, rs⟩ w.imps, tr := setReason w.tr p rs } else w
    | none =>
      let w := { w with imps := w.imps ++ [⟨p, lev, rs⟩] }
      if isTrue w.tr p then { w with tr := setReason w.tr p rs } else force d w p rs

/-- solver.cpp:1000-1005: the loop of `ImpliedList::assign`; literals that are still implied on an earlier level are kept -/
def assignImps (d : Data) : List Entry → Wd → Wd
  | [], w => w
  | e :: l, w =>
    if e.lev ≤ w.dl then
      let w := if w.conf.isNone then force d w e.lit e.rs else w
      assignImps d l { w with imps := if e.lev < w.dl then w.imps ++ [e] else w.imps }
    else assignImps d l w

/-- minimize_constraint.cpp:369-374: pop the literals of one level; `none`: the stack is empty -/
def popLoop (d : Data) : List (Nat × Bool) → Con → Option Con
  | [], _ => none
  | (i, nd) :: u, c =>
    let r := sub d c.sum (sec d i) c.act
    let c := { c with undo := u, seen := Function.update c.seen i false, sum := r.1, act := r.2 }
    if nd then some c else popLoop d u c

/-- minimize_constraint.cpp:376-380: restore the position -/
def restore (d : Data) (c : Con) (idx : Nat) : Con :=
  if idx < c.pos then { c with pos := idx, act := min c.act (levelAt d idx) } else c

/-- minimize_constraint.cpp:365-381 `undoLevel`; `none`: a stack is empty -/
def conUndo (d : Data) (c : Con) : Option Con :=
  match c.ps with
  | [] => none
  | idx :: ps => (popLoop d c.undo { c with ps := ps }).map fun c => restore d c idx

/-- solver.cpp:1109-1114: call the constraint for each of its undo watches of level `l` -/
def undoWatches (d : Data) (l : Nat) : List Nat → Con → Option (List Nat × Con)
  | [], c => some ([], c)
  | x :: u, c => if x = l then (conUndo d c).bind (undoWatches d l u) else some (x :: u, c)

/-- solver.cpp:1105-1116 `undoLevel`: the literals of the level are unassigned, the queue is cleared, the constraint is told -/
def undo1 (d : Data) (w : Wd) : Option Wd :=
  (undoWatches d w.dl w.uw w.con).map fun r =>
    { w with tr := w.tr.dropWhile (fun e => decide (e.lev = w.dl)), pend := [], dl := w.dl - 1, uw := r.1, con := r.2 }

/-- solver.cpp:1022-1023: `n` levels -/
def undoN (d : Data) : Nat → Wd → Option Wd
  | 0, w => some w
  | n + 1, w => (undo1 d w).bind (undoN d n)

/-- solver.cpp:1014-1036 `undoUntil` for a level the solver can go back to -/
def undoTo (d : Data) (w : Wd) (l : Nat) : Option Wd :=
  if w.dl ≤ l then some w
  else (undoN d (w.dl - l) { w with conf := none }).map fun w => assignImps d w.imps { w with imps := [] }

/-- minimize_constraint.cpp:253-257 `lastUndoLevel` -/
def lastUndo (d : Data) (tr : List Entry) : List (Nat × Bool) → Nat
  | [] => 0
  | (i, _) :: _ => levelOf tr (lit d i).var

/-- minimize_constraint.cpp:263-276 `pushUndo`; `none`: the assertion fails -/
def pushUndo (d : Data) (w : Wd) (i : Nat) : Option Wd :=
  if w.con.pos ≤ i then
    let c := { w.con with seen := Function.update w.con.seen i true }
    if lastUndo d w.tr c.undo ≠ w.dl then
      some { w with con := { c with undo := (i, true) :: c.undo, ps := c.pos :: c.ps }, uw := w.dl :: w.uw }
    else some { w with con := { c with undo := (i, false) :: c.undo } }
  else none

/-- minimize_constraint.cpp:310-321: the loop of `computeImplicationSet` for a literal with weight `x`; returns level and `undoPos` -/
def implSet (d : Data) (w : Wd) (x : Int) : List (Nat × Bool) → (Nat → Int) → Nat → Option (Nat × Nat)
  | [], _, _ => some (w.base, 0)
  | (i, _) :: u, temp, lev =>
    let r := sub d temp (sec d i) lev
    match imp d r.1 x w.con.opt r.2 with
    | none => none
    | some (true, l) => implSet d w x u r.1 l
    | some (false, _) => some (max (levelOf w.tr (lit d i).var) w.base, u.length + 1)

/-- minimize_constraint.cpp:303-324 `computeImplicationSet` -/
def computeImpl (d : Data) (w : Wd) (x : Int) : Option (Nat × Nat) := implSet d w x w.con.undo w.con.sum w.con.act

/-- minimize_constraint.cpp:355-359: force the literal with index `i` to be false, implied on level `il` by the first `up` processed literals.
`lim` is the level below which the solver cannot go back. `none`: the assertion `active()` in line 353 fails -/
def forceLit (d : Data) (lim : Nat) (w : Wd) (i il up : Nat) : Option Wd :=
  if w.con.opt 0 = MAXB then none
  else if isFalse w.tr (lit d i) = false ∨ (il < w.dl ∧ il < levelOf w.tr (lit d i).var) then
    (if il ≠ w.dl then undoTo d w (max il lim) else some w).map fun v => forceAt d v (lit d i).neg il (some ⟨up, w.con.opt, w.base⟩)
  else some w

/-- Local variables of `propagateImpl`: `lastW`, `impLevel`, `undoPos` (minimize_constraint.cpp:331-333). -/
structure Loc where
  last : Option Int
  il : Nat
  up : Nat

/-- minimize_constraint.cpp:341-352: the check of the weight of the literal with index `i`; in the result, `none` means that the literal is not implied -/
def checkW (d : Data) (m : Bool) (w : Wd) (i : Nat) (l : Loc) : Option (Wd × Option Loc) :=
  if l.last = some (sec d i) then some (w, some l)
  else match imp d w.con.sum (sec d i) w.con.opt w.con.act with
    | none => none
    | some (b, a) =>
      let w := { w with con := { w.con with act := a } }
      if b then
        if m then (computeImpl d w (sec d i)).map fun r => (w, some ⟨some (sec d i), r.1, r.2⟩)
        else some (w, some { l with last := some (sec d i) })
      else some ({ w with con := { w.con with pos := i } }, none)

/-- minimize_constraint.cpp:336-361: the loop of `propagateImpl` from index `i`; the first argument is the number of remaining literals, `m` says that
a new bound is propagated. `none`: an assertion fails -/
def propLoop (d : Data) (m : Bool) (lim : Nat) : Nat → Nat → Loc → Wd → Option Wd
  | 0, _, _, w => some w
  | k + 1, i, l, w =>
    if w.conf.isSome then some w
    else if w.con.seen i ∨ (m = false ∧ isFalse w.tr (lit d i)) then propLoop d m lim k (i + 1) l w
    else match checkW d m w i l with
      | none => none
      | some (w, none) => some w
      | some (w, some l) => (forceLit d lim w i l.il l.up).bind (propLoop d m lim k (i + 1) l)

/-- minimize_constraint.cpp:325-362 `propagateImpl` -/
def propImpl (d : Data) (m : Bool) (lim : Nat) (w : Wd) : Option Wd :=
  propLoop d m lim (d.lits.length - w.con.pos) w.con.pos ⟨none, if m then w.dl + 1 else w.dl, w.con.undo.length⟩
    { w with con := { w.con with act := min w.con.act (levelAt d w.con.pos) } }

/-- minimize_constraint.cpp:294-298 `propagate` for the literal with index `i` -/
def propagate (d : Data) (w : Wd) (i : Nat) : Option Wd :=
  (pushUndo d w i).bind fun w => propImpl d false 0 { w with con := { w.con with sum := add d w.con.sum (sec d i) } }

/-- minimize_constraint.cpp:385-397 `reason`: the first `up` processed literals, without the step literal and the tag literal. `none`: the
assertion fails -/
def reason (d : Data) (c : Con) (up : Nat) : Option (List Lit) :=
  if up ≤ c.undo.length then some ((c.undo.reverse.take up).map fun x => lit d x.1) else none

/-- minimize_constraint.cpp:450-457 `relaxBound` -/
def relax (w : Wd) : Wd := { w with con := { w.con with opt := fun _ => MAXB, pos := 0, act := 0 }, stale := false, target := none }

/-- minimize_constraint.cpp:474, 477-479: is the sum above the bound? If so, the solver has to go back before level `r.1` (the level computed by
`computeImplicationSet`), and the bound cannot be met if that is not above the root level. `target` is the level to go back to. -/
def check (d : Data) (w : Wd) : Option (Wd × Option Nat) :=
  let x := if d.weights = [] then 0 else ((d.weights.length - 1 : Nat) : Int)
  match imp d w.con.sum x w.con.opt w.con.act with
  | none => none
  | some (b, a) =>
    let w := { w with con := { w.con with act := a } }
    if b then (computeImpl d w x).map fun r => if w.root < r.1 then ({ w with target := some (r.1 - 1) }, none) else (w, some r.1)
    else some ({ w with target := some w.dl }, none)

/-- minimize_constraint.cpp:479-482: propagation of the new bound -/
def integrate (d : Data) (lim : Nat) (w : Wd) : Option Wd :=
  (propImpl d true lim w).map fun w => if w.conf.isNone then { w with stale := false, target := none } else w

/-! ## Runs -/

/-- What can happen to the constraint and the solver. -/
inductive Step (d : Data) : Wd → Wd → Prop
  /-- some other constraint, or a learnt clause, forces a literal -/
  | assign (w : Wd) (p : Lit) : w.conf = none → isTrue w.tr p = false → isFalse w.tr p = false → Step d w (push d w p none)
  /-- some other constraint forces a literal that is implied on an earlier level (solver.cpp:793-811) -/
  | implied (w : Wd) (p : Lit) (lev : Nat) : w.conf = none → lev < w.dl → isFalse w.tr p = false →
      Step d w (forceAt d w p lev none)
  /-- solver.cpp:813-821: a decision, when propagation is complete -/
  | decide (w : Wd) (p : Lit) : w.conf = none → w.pend = [] → w.stale = false → isTrue w.tr p = false → isFalse w.tr p = false →
      Step d w (push d { w with dl := w.dl + 1, target := none } p none)
  /-- solver.cpp:880-895: the constraint is notified -/
  | notify (w v : Wd) (i : Nat) : w.conf = none → w.stale = false → i ∈ w.pend →
      propagate d { w with pend := w.pend.erase i, target := none } i = some v → Step d w v
  /-- some other constraint has a conflict -/
  | conflict (w : Wd) (p : Lit) : Step d w { w with conf := some (p, none) }
  /-- solver.cpp:1014-1036: back to a level that is not below the root level (backjump, restart) -/
  | undo (w v : Wd) (l : Nat) : w.root ≤ l → l < w.dl → undoTo d w l = some v → Step d w v
  /-- solver.h:195-198 `pushRootLevel` -/
  | pushRoot (w : Wd) (r : Nat) : w.root ≤ r → r ≤ w.dl → Step d w { w with root := r }
  /-- solver.cpp:517-535 `popRootLevel`: the solver leaves its guiding path; the bound was removed before (enumerator.cpp:87,
  minimize_constraint.cpp:441-444) -/
  | popRoot (w v : Wd) (r : Nat) : r < w.root → w.con.opt = (fun _ => MAXB) → w.con.pos = 0 → undoTo d w r = some v →
      Step d w { v with root := r, base := 0 }
  /-- minimize_constraint.cpp:161-166, 467: the tag literal is made true before a bound is integrated -/
  | base (w : Wd) (b : Nat) : b ≤ w.root → w.con.opt = (fun _ => MAXB) → Step d w { w with base := b }
  /-- minimize_constraint.cpp:450-457 -/
  | relax (w : Wd) : Step d w (relax w)
  /-- minimize_constraint.cpp:475, 552-554: the next bound -/
  | bound (w : Wd) (o : Nat → Int) :
      Step d w { w with con := { w.con with opt := o, pos := 0, act := 0 }, stale := true, target := none }
  /-- minimize_constraint.cpp:473-475, 516: a bound is loaded from the shared data without a step (`checkNext()` is false). This
  happens only if the constraint has no bound, when the solver enters its guiding path -/
  | load (w : Wd) (o : Nat → Int) : w.con.opt = (fun _ => MAXB) → w.dl = w.root →
      Step d w { w with con := { w.con with opt := o }, stale := true, target := none }
  /-- minimize_constraint.cpp:474, 477: the sum is compared with the bound -/
  | check (w v : Wd) : w.conf = none → w.stale = true → check d w = some (v, none) → Step d w v
  /-- minimize_constraint.cpp:479-482: the bound is propagated; if that leads to a conflict, the solver resolves it and tries again -/
  | integrate (w v : Wd) (lim t : Nat) : w.conf = none → w.target = some t → w.dl ≤ t → w.root ≤ lim → lim ≤ w.dl →
      integrate d lim w = some v → Step d w v

/-- minimize_constraint.cpp:224-251 `attach` on level 0, where the literals `tr` are assigned. The literals of the constraint that are true are
processed there; here they are notified first. -/
def init (d : Data) (tr : List Lit) : Wd where
  tr := tr.map fun p => ⟨p, 0, none⟩
  dl := 0
  root := 0
  base := 0
  uw := []
  pend := tr.flatMap (idxOf d)
  conf := none
  imps := []
  con := ⟨fun _ => MAXB, fun _ => 0, 0, [], [], fun _ => false, 0⟩
  stale := false
  target := none

/-- Specification: reachable states. -/
inductive Reach (d : Data) (tr : List Lit) : Wd → Prop
  | init : Reach d tr (init d tr)
  | step {w v : Wd} : Reach d tr w → Step d w v → Reach d tr v

end Clasp.MinC
