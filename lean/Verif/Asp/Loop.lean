/-
C36. Loop formulas: class `LoopFormula` (src/clause.cpp 888-1090, clasp/clause.h 420-500) and its creation by the unfounded set checker
(src/unfounded_check.cpp 598-626), together with the part of the solver it talks to: the assignment, pending notifications, watches.

A loop formula stands for the clauses `{a, B1, ..., Bm}` for all atoms `a` of a loop (in the code, `a` is a literal that says that the atom
is false). Its literals are stored as `S ai B1...Bm S a1...an` where `S` is a sentinel (the literal that is always true); the *active clause*
is `ai B1...Bm`, two of its positions are watched (the flag of a literal), and all atoms are always watched.

Simplifications: notifications that are pending may be delivered in any order, which includes the order of the solver; the activity and the
memory accounting (`act_`, `str_`) are left out; the compaction of the array in `simplify` is written as a filter.
-/
import Verif.Core.Sem
namespace Clasp.Loop
open Core

/-- A watch (solver_types.h:300-330 `GenericWatch`): the literal of the formula that is watched (the solver notifies when it becomes
false), and the data word `(idx << 1) + dir`. -/
structure Watch where
  lit : Lit
  idx : Nat
  up : Bool
deriving DecidableEq

/-- clause.h:491-500: the members of `LoopFormula`; `fin` is `end_`, `flag i` is the flag of `lits_[i]`. `wat` are the watches of the formula in
the watch lists of the solver. -/
structure Con where
  lit : Nat → Lit
  flag : Nat → Bool
  fin : Nat
  size : Nat
  xPos : Nat
  other : Nat
  wat : List Watch

/-- An assigned literal with its level; `rs`: its antecedent is the formula. -/
structure Entry where
  lit : Lit
  lev : Nat
  rs : Bool
deriving DecidableEq

/-- The solver as seen from the formula: trail (newest first), decision level, literals whose notification is pending, conflict (a literal that could
not be forced). -/
structure Wd where
  tr : List Entry
  dl : Nat
  pend : List Lit
  con : Con
  conf : Option Lit

/-- solver.h `isTrue` -/
def isTrue (tr : List Entry) (p : Lit) : Bool := decide (p = litTrue) || tr.any fun e => decide (e.lit = p)
/-- solver.h `isFalse` -/
def isFalse (tr : List Entry) (p : Lit) : Bool := isTrue tr p.neg
/-- solver.h `value(v) == value_free` -/
def isFree (tr : List Entry) (p : Lit) : Bool := !isTrue tr p && !isFalse tr p
/-- solver.h:590: `reason(p) == this` -/
def reasonIs (tr : List Entry) (p : Lit) : Bool := tr.any fun e => decide (e.lit = p) && e.rs

/-- clause.h:489-490: the atoms, `xBegin()` to `xEnd()` -/
def Con.xs (c : Con) : List Lit := (List.range' (c.fin + 1) (c.size - (c.fin + 1))).map c.lit

/-- The array `S act S xs`. -/
def Con.layout (act : List (Lit × Bool)) (xs : List Lit) (xPos other : Nat) (wat : List Watch) : Con where
  lit i := if i = 0 then litTrue else if i ≤ act.length then (act.getD (i - 1) (litTrue, false)).1
    else if i = act.length + 1 then litTrue else xs.getD (i - (act.length + 2)) litTrue
  flag i := if i = 0 then false else if i ≤ act.length then (act.getD (i - 1) (litTrue, false)).2 else false
  fin := act.length + 1
  size := act.length + 2 + xs.length
  xPos := xPos
  other := other
  wat := wat

/-- clause.cpp:897-917: the constructor; `c1` is the first clause (without its first literal, which is the first atom). -/
def Con.new (bodies atoms : List Lit) : Con :=
  Con.layout ((atoms.headD litTrue, true) :: bodies.mapIdx fun i b => (b, i == 0)) atoms 1 1
    (⟨bodies.headD litTrue, 2, true⟩ :: atoms.map fun a => ⟨a, 1, true⟩)

/-- A literal is assigned on the current level and put into the propagation queue. -/
def push (w : Wd) (p : Lit) (rs : Bool) : Wd := { w with tr := ⟨p, w.dl, rs⟩ :: w.tr, pend := p :: w.pend }

/-- solver.h:353-360 `force(p, this)` -/
def force (w : Wd) (p : Lit) : Wd :=
  if isTrue w.tr p then w else if isFalse w.tr p then { w with conf := some p } else push w p true

/-- clause.cpp:993: literals are forced until one is false. -/
def forceAll : List Lit → Wd → Wd
  | [], w => w
  | p :: ps, w => let w := force w p; if w.conf.isSome then w else forceAll ps w

/-- clause.cpp:936-947 `otherIsSat` -/
def otherIsSat (tr : List Entry) (c : Con) : Bool × Con :=
  if c.other ≠ c.xPos then (isTrue tr (c.lit c.other), c)
  else if isTrue tr (c.lit c.other) = false then (false, c)
  else match c.xs.find? fun a => !isTrue tr a with
    | some a => (false, { c with lit := Function.update c.lit c.xPos a })
    | none => (true, c)

/-- clause.cpp:963-967: walk over false literals and the other watched literal (whose position is remembered) until a literal that may replace
the watch or a sentinel is met. `none`: the end of the array was passed. -/
def scan (tr : List Entry) (c : Con) : Nat → Nat → Bool → Nat → Option (Nat × Nat)
  | 0, _, _, _ => none
  | k + 1, pos, up, o =>
    if up = false ∧ pos = 0 then none
    else
      let pos := if up then pos + 1 else pos - 1
      if isFalse tr (c.lit pos) then scan tr c k pos up o
      else if c.lit pos = litTrue then some (pos, o)
      else if c.flag pos then scan tr c k pos up pos
      else some (pos, o)

/-- clause.cpp:968-974: the watch at `e.idx` is replaced by one at `pos`; the old one is kept if it belongs to an atom -/
def replace (w : Wd) (e : Watch) (pos o : Nat) (up : Bool) : Wd × Option Watch :=
  ({ w with con := { w.con with
      other := o
      flag := Function.update (Function.update w.con.flag e.idx false) pos true
      wat := if pos ≠ w.con.xPos then ⟨w.con.lit pos, pos, up⟩ :: w.con.wat else w.con.wat } },
   if e.idx = w.con.xPos then some { e with up := up } else none)

/-- clause.cpp:981-987: the clause is unit -/
def unit (w : Wd) (e : Watch) (o : Nat) (up : Bool) : Wd × Option Watch :=
  let w := { w with con := { w.con with other := o } }
  let v := force w (w.con.lit o)
  (if o = w.con.xPos ∧ v.conf = none then forceAll w.con.xs v else v, some { e with up := up })

/-- clause.cpp:961-989: the loop of `propagate` -/
def search (w : Wd) (e : Watch) : Option (Wd × Option Watch) :=
  match scan w.tr w.con w.con.size e.idx e.up w.con.other with
  | none => none
  | some (pos, o) =>
    if w.con.lit pos ≠ litTrue then some (replace w e pos o e.up)
    else match scan w.tr w.con w.con.size e.idx (!e.up) o with
      | none => none
      | some (pos, o) => if w.con.lit pos ≠ litTrue then some (replace w e pos o (!e.up)) else some (unit w e o (!e.up))

/-- clause.cpp:948-990 `propagate`: the new state and the watch, if it is kept; `none`: the end of the array was passed -/
def propagate (w : Wd) (e : Watch) : Option (Wd × Option Watch) :=
  let r := otherIsSat w.tr w.con
  let w := { w with con := r.2 }
  if r.1 then some (w, some e)
  else if e.idx = w.con.xPos then
    if w.con.lit e.idx ≠ e.lit ∧ isFalse w.tr (w.con.lit e.idx) then some (w, some e)
    else
      let w := { w with con := { w.con with lit := Function.update w.con.lit e.idx e.lit } }
      if w.con.flag e.idx = false then some (w, some e) else search w e
  else search w e

/-- The result of `propagate` as seen by the solver (solver.cpp:886-895): the watch stays in the list or is removed. -/
def rewatch (r : Wd × Option Watch) : Wd :=
  match r.2 with
  | some e => { r.1 with con := { r.1.con with wat := e :: r.1.con.wat } }
  | none => r.1

/-- The solver delivers the pending notification of the true literal `p`. -/
def notify (w : Wd) (p : Lit) : Option Wd :=
  let w := { w with pend := w.pend.erase p }
  match w.con.wat.find? fun e => decide (e.lit = p.neg) with
  | none => some w
  | some e => (propagate { w with con := { w.con with wat := w.con.wat.erase e } } e).map rewatch

/-- clause.cpp:991-998 `reason` -/
def reason (c : Con) (p : Lit) : List Lit :=
  let s := if c.other = c.xPos then 2 else 1
  ((((List.range' s (c.size - s)).map c.lit).takeWhile fun q => decide (q ≠ litTrue)).filter fun q => decide (q ≠ p)).map Lit.neg

/-- clause.cpp:1009-1018 `locked` -/
def locked (tr : List Entry) (c : Con) : Bool :=
  if c.other ≠ c.xPos ∨ isTrue tr (c.lit c.other) = false then isTrue tr (c.lit c.other) && reasonIs tr (c.lit c.other)
  else c.xs.any fun a => isTrue tr a && reasonIs tr a

/-- The literals of the array from position `s` up to the next sentinel, with their positions. -/
def Con.active (c : Con) (s : Nat) : List (Nat × Lit × Bool) :=
  ((List.range' s (c.size - s)).map fun i => (i, c.lit i, c.flag i)).takeWhile fun q => decide (q.2.1 ≠ litTrue)

/-- clause.cpp:1019-1031 `isOpen` as far as it changes the formula -/
def isOpen (tr : List Entry) (c : Con) : Con :=
  let r := otherIsSat tr c
  if r.1 then r.2
  else match (r.2.active (1 + r.2.xPos)).find? fun q => isTrue tr q.2.1 with
    | some q => { r.2 with other := q.1 }
    | none => r.2

/-- The solver leaves the current decision level: its literals become free, the queue and the conflict are dropped. -/
def undo (w : Wd) : Wd := { w with tr := w.tr.filter (fun e => decide (e.lev < w.dl)), dl := w.dl - 1, pend := [], conf := none }

/-- solver.cpp:637-643 `removeWatch` -/
def rem (wat : List Watch) (p : Lit) : List Watch := wat.eraseP fun e => decide (e.lit = p)

/-- clause.cpp:928-935 `detach`: the watches that are left -/
def detach (c : Con) : List Watch :=
  c.xs.foldl rem ((c.active (1 + c.xPos)).foldl (fun wat q => if q.2.2 then rem wat q.2.1 else wat) c.wat)

/-- clause.cpp:1043-1044: the data of the watch of a literal that is moved to another position is updated -/
def move (wat : List Watch) (p : Lit) (j : Nat) : List Watch := wat.map fun e => if e.lit = p then { e with idx := j } else e

/-- The result of `simplify`: the formula is removed (watches that are left, clauses added instead), or kept. -/
inductive Simp
  | gone (wat : List Watch) (cls : List (List Lit))
  | keep (c : Con)

/-- clause.cpp:1037-1055: the active clause after simplification: literals with flags in their new order, `xPos_`, and the watches -/
def simpActive (tr : List Entry) (c : Con) : List (Lit × Bool) × Nat × List Watch :=
  let act := c.active 1
  let pre := act.takeWhile fun q => isFree tr q.2.1
  let post := act.dropWhile fun q => isFree tr q.2.1
  let xPos := match post with | [] => c.xPos | q :: _ => if q.2.1 = c.lit c.xPos then 0 else c.xPos
  let new := pre ++ post.filter fun q => isFree tr q.2.1
  (new.map Prod.snd, xPos, (new.mapIdx fun j q => (j + 1, q)).foldl (fun wat q => if q.2.2.2 && decide (pre.length < q.1) then move wat q.2.2.1 q.1 else wat) c.wat)

/-- clause.cpp:1056-1072: the formula after simplification: atoms that are true are removed (all if the slot is false), and the formula becomes a
clause if only one is left -/
def simpNew (tr : List Entry) (c : Con) : Con :=
  let a := simpActive tr c
  let ys := c.xs.filter fun q => isFree tr q && decide (a.2.1 ≠ 0)
  let wat := c.xs.foldl (fun wat q => if isFree tr q && decide (a.2.1 ≠ 0) then wat else rem wat q) a.2.2
  let clause := ys.length == 1
  Con.layout a.1 (if clause then [] else ys) (if clause then 0 else a.2.1) ((if clause then 0 else a.2.1) + 1)
    (if clause ∧ (a.1.headD (litTrue, false)).2 = false then rem wat (a.1.headD (litTrue, false)).1 else wat)

/-- clause.cpp:1033: is the formula satisfied by a body or by all atoms? -/
def simpSat (tr : List Entry) (c : Con) : Bool × Con :=
  let r := otherIsSat tr c
  if r.1 = false ∧ r.2.other ≠ r.2.xPos then
    (if r.2.xPos ≠ 0 then otherIsSat tr { r.2 with other := r.2.xPos } else (false, { r.2 with other := r.2.xPos }))
  else r

/-- clause.cpp:1032-1082 `simplify`; `imp`: short clauses may be added to the implication graph (`allowImplicit`). Simplified: where a true literal is
met (1050), `detach` sees an array that is compacted up to that literal; here it sees the array before compaction, which has the same flagged
literals, as those are free. -/
def simplify (tr : List Entry) (c : Con) (imp : Bool) : Simp :=
  let r := simpSat tr c
  let c := r.2
  let a := simpActive tr c
  if r.1 then .gone (detach c) []
  else if (c.active 1).any (fun q => isTrue tr q.2.1) then .gone (detach { c with xPos := a.2.1 }) []
  else
    let n := simpNew tr c
    if (1 < a.1.length ∧ a.1.length < 4) ∧ imp then
      .gone (detach n) (if n.xPos = 0 then [a.1.map Prod.fst] else n.xs.map fun x => x :: (a.1.map Prod.fst).tail)
    else .keep n

/-- Specification: the variables of the formula are distinct. -/
def Distinct (bodies atoms : List Lit) : Prop := (0 :: (bodies ++ atoms).map Lit.var).Nodup

/-- unfounded_check.cpp:598-626: a state in which the checker creates a loop formula: the atoms are true and the formula becomes their antecedent; the
other literals are false, and have been before the atoms became true (they are the reason); the first one became false on the current level
(unfounded_check.cpp:646). -/
structure Start (bodies atoms : List Lit) (w : Wd) : Prop where
  con : w.con = Con.new bodies atoms
  conf : w.conf = none
  dist : Distinct bodies atoms
  ne : bodies ≠ [] ∧ 2 ≤ atoms.length
  vars : (0 :: w.tr.map fun e => e.lit.var).Nodup
  lev : ∀ e ∈ w.tr, e.lev ≤ w.dl
  ord : w.tr.Pairwise fun e f => f.lev ≤ e.lev
  pend : ∀ p ∈ w.pend, ∃ e ∈ w.tr, e.lit = p ∧ e.lev = w.dl
  top : ∃ e ∈ w.tr, e.lit = (bodies.headD litTrue).neg ∧ e.lev = w.dl
  tru : ∀ a ∈ atoms, ∃ e ∈ w.tr, e.lit = a
  rs : ∀ e ∈ w.tr, e.rs = true ↔ e.lit ∈ atoms
  before : ∀ pre e post, w.tr = pre ++ e :: post → e.rs = true → ∀ b ∈ bodies, ∃ f ∈ post, f.lit = b.neg

/-- What can happen next. -/
inductive Step : Wd → Wd → Prop
  /-- another constraint assigns a literal -/
  | assign (w : Wd) (p : Lit) : w.conf = none → isFree w.tr p = true → Step w (push w p false)
  /-- solver.cpp `assume`: a decision after propagation is finished -/
  | decide (w : Wd) (p : Lit) : w.conf = none → w.pend = [] → isFree w.tr p = true → Step w (push { w with dl := w.dl + 1 } p false)
  /-- a notification is delivered -/
  | notify (w v : Wd) (p : Lit) : w.conf = none → p ∈ w.pend → notify w p = some v → Step w v
  /-- clause.cpp:1019-1031 -/
  | isOpen (w : Wd) : w.conf = none → Step w { w with con := isOpen w.tr w.con }
  /-- the solver backtracks -/
  | undo (w : Wd) : 0 < w.dl → Step w (undo w)
  /-- clause.cpp:1032-1082, on level 0 after propagation -/
  | simplify (w : Wd) (imp : Bool) (c : Con) : w.conf = none → w.dl = 0 → w.pend = [] → simplify w.tr w.con imp = .keep c → Step w { w with con := c }

/-- Specification: reachable states. -/
inductive Reach (bodies atoms : List Lit) : Wd → Prop
  | init {w : Wd} : Start bodies atoms w → Reach bodies atoms w
  | step {w w' : Wd} : Reach bodies atoms w → Step w w' → Reach bodies atoms w'

end Clasp.Loop
