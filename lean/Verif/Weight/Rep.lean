/-
C21. Normal form of weight constraints: `WeightLitsRep::create` and `propagate` (src/weight_constraint.cpp 43-141),
`WeightConstraint::create` and `doCreate` up to the construction of the constraint object (172-222).

`weight_t` is `int32`; every arithmetic operation whose result leaves the range is a failure `overflow` (undefined behaviour
in the code), distinct from the errors the code raises (`range`). The solver is at decision level 0; `top` is its assignment there.
-/
import Verif.Core.Sem
namespace Clasp.Weight
open Core

/-- literal.h:236 `WeightLiteral`; weights are kept as integers, the range is checked by the operations. -/
structure WL where
  lit : Lit
  w : Int
deriving DecidableEq

/-- How a computation can fail: signed overflow (undefined behaviour), an error the code raises
(`POTASSCO_REQUIRE`/`POTASSCO_CHECK`, weight_constraint.cpp:57, 98), an access outside the literal array. -/
inductive Fail | overflow | range | bad
deriving DecidableEq

/-- A computation that may fail (see `Fail`). -/
abbrev R := Except Fail

deriving instance DecidableEq for Except

/-- Largest `weight_t` (weight_constraint.cpp:50). -/
def MAXW : Int := 2 ^ 31 - 1

/-- A 32-bit signed operation with the given mathematical result. -/
def chk (x : Int) : R Int := if -2 ^ 31 ≤ x ∧ x ≤ MAXW then .ok x else .error .overflow

/-- Assignment at level 0 (solver.h `topValue`). -/
abbrev Top := Nat → Option Bool

/-- Local state of step 1 (weight_constraint.cpp:49-89): `lits[0..j)`, the seen-flags of the solver, the bound. -/
structure Acc where
  out : List WL
  seen : Lit → Bool
  bound : Int

/-- weight_constraint.cpp:69-70: find the entry with literal `x` and add `w` to its weight. -/
def addAt (x : Lit) (w : Int) : List WL → R (List WL)
  | [] => .error .bad
  | e :: r =>
    if e.lit = x then do let v ← chk (e.w + w); .ok (⟨e.lit, v⟩ :: r)
    else do let r' ← addAt x w r; .ok (e :: r')

/-- weight_constraint.cpp:73-87: find the entry with literal `~x` and subtract `w`; if the rest is negative the entry becomes
`x` with the negated weight, if it is zero the entry is removed. Also returns the rest. -/
def subAt (x : Lit) (w : Int) : List WL → R (List WL × Int)
  | [] => .error .bad
  | e :: r =>
    if e.lit = x.neg then do
      let d ← chk (e.w - w)
      if d < 0 then do let v ← chk (-d); .ok (⟨x, v⟩ :: r, d)
      else if d = 0 then .ok (r, d)
      else .ok (⟨e.lit, d⟩ :: r, d)
    else do let (r', d) ← subAt x w r; .ok (e :: r', d)

/-- Marking and clearing a variable (solver.h `markSeen`, `clearSeen`). -/
def mark (f : Lit → Bool) (x : Lit) : Lit → Bool := fun l => if l = x then true else f l
/-- Clearing a variable (solver.h `clearSeen`). -/
def clear (f : Lit → Bool) (x : Lit) : Lit → Bool := fun l => if l.var = x.var then false else f l

/-- weight_constraint.cpp:63-87: a free literal with positive weight. -/
def addPos (a : Acc) (x : Lit) (w : Int) : R Acc :=
  if !(a.seen x || a.seen x.neg) then .ok ⟨a.out ++ [⟨x, w⟩], mark a.seen x, a.bound⟩
  else if !a.seen x.neg then do
    let out ← addAt x w a.out
    .ok ⟨out, a.seen, a.bound⟩
  else do
    let b ← chk (a.bound - w)
    let (out, d) ← subAt x w a.out
    if d < 0 then do
      let b' ← chk (b + -d)
      .ok ⟨out, mark (clear a.seen x) x, b'⟩
    else if d = 0 then .ok ⟨out, clear a.seen x, b⟩
    else .ok ⟨out, a.seen, b⟩

/-- weight_constraint.cpp:51-89: one round of step 1. -/
def step1 (top : Top) (a : Acc) (l : WL) : R Acc :=
  if l.w ≠ 0 ∧ top l.lit.var = none then
    if l.w < 0 then do
      let w ← chk (-l.w)
      if a.bound < 0 ∨ MAXW - a.bound ≥ w then do
        let b ← chk (a.bound + w)
        addPos { a with bound := b } l.lit.neg w
      else .error .range
    else addPos a l.lit l.w
  else if top l.lit.var = some l.lit.tv then do
    let b ← chk (a.bound - l.w)
    .ok { a with bound := b }
  else .ok a

/-- weight_constraint.cpp:51-90: step 1. -/
def loop1 (top : Top) : List WL → Acc → R Acc
  | [], a => .ok a
  | l :: ls, a => do let a' ← step1 top a l; loop1 top ls a'

/-- Local state of step 2 (weight_constraint.cpp:92-94). -/
structure Acc2 where
  mn : Int
  mx : Int
  sum : Int

/-- weight_constraint.cpp:95-102: step 2, with `B = max(bound, 1)`. -/
def loop2 (B : Int) : List WL → Acc2 → R (List WL × Acc2)
  | [], a => .ok ([], a)
  | l :: ls, a =>
    let w := if l.w > a.mx then min l.w B else l.w
    let mx := if l.w > a.mx then w else a.mx
    let mn := if w < a.mn then w else a.mn
    if MAXW - a.sum ≥ w then do
      let s ← chk (a.sum + w)
      let (r, a') ← loop2 B ls ⟨mn, mx, s⟩
      .ok (⟨l.lit, w⟩ :: r, a')
    else .error .range

/-- weight_constraint.h:47-53 `WeightLitsRep`. -/
structure Rep where
  lits : List WL
  bound : Int
  reach : Int
deriving DecidableEq

/-- weight_constraint.h:50 -/
def Rep.isSat (r : Rep) : Bool := r.bound ≤ 0
/-- weight_constraint.h:51 -/
def Rep.isUnsat (r : Rep) : Bool := r.reach < r.bound

/-- weight_constraint.cpp:107-113 and 134-139: all weights are equal to `B`; C++ division truncates. -/
def toCard (B : Int) (r : Rep) : R Rep := do
  let b ← chk (r.bound + (B - 1))
  let s ← chk (r.reach + (B - 1))
  .ok ⟨r.lits.map (fun l => ⟨l.lit, 1⟩), b.tdiv B, s.tdiv B⟩

/-- weight_constraint.cpp:43-117 `WeightLitsRep::create` (without step 0). -/
def create (top : Top) (lits : List WL) (bound : Int) : R Rep := do
  let a ← loop1 top lits ⟨[], fun _ => false, bound⟩
  let (ls, m) ← loop2 (max a.bound 1) a.out ⟨MAXW, 1, 0⟩
  if m.mx ≠ m.mn then .ok ⟨ls.mergeSort (fun x y => decide (x.w ≥ y.w)), a.bound, m.sum⟩
  else if m.mn ≠ 1 then toCard m.mn ⟨ls, a.bound, m.sum⟩
  else .ok ⟨ls, a.bound, m.sum⟩

/-- solver.h `force` at level 0: `none` is a conflict. -/
def force (top : Top) (p : Lit) : Option Top :=
  match top p.var with
  | none => some (Function.update top p.var (some p.tv))
  | some b => if b = p.tv then some top else none

/-- weight_constraint.cpp:128-133: backward propagation; the bool says whether the function returns in the loop. -/
def backprop (bt : Bool) (B : Int) : Top → List WL → Int → Int → R (Option (Top × Rep × Bool))
  | _, [], _, _ => .error .bad
  | top, l :: ls, bound, reach =>
    if l.w ≥ B then do
      let reach ← chk (reach - l.w)
      match force top (if bt then l.lit else l.lit.neg) with
      | none => .ok none
      | some top =>
        let bound ← if bt then chk (bound - l.w) else .ok bound
        if bt && bound ≤ 0 then .ok (some (top, ⟨l :: ls, bound, reach⟩, true))
        else if ls = [] then .ok (some (top, ⟨[], bound, reach⟩, true))
        else backprop bt B top ls bound reach
    else .ok (some (top, ⟨l :: ls, bound, reach⟩, false))

/-- weight_constraint.cpp:120-141 `WeightLitsRep::propagate`; `none` is a conflict. -/
def propagate (top : Top) (W : Lit) (r : Rep) : R (Option (Top × Rep)) :=
  if r.isSat then .ok ((force top W).map (·, r))
  else if r.isUnsat then .ok ((force top W.neg).map (·, r))
  else if top W.var = none then .ok (some (top, r))
  else do
    let bt := top W.var == some W.tv
    let B ← if bt then do let d ← chk (r.reach - r.bound); chk (d + 1) else .ok r.bound
    match ← backprop bt B top r.lits r.bound r.reach with
    | none => .ok none
    | some (top', r', done) =>
      if done then .ok (some (top', r'))
      else match r'.lits.head?, r'.lits.getLast? with
        | some f, some l => if f.w > 1 ∧ f.w = l.w then do let c ← toCard f.w r'; .ok (some (top', c)) else .ok (some (top', r'))
        | _, _ => .error .bad

/-- What `doCreate` leaves behind: the level 0 assignment, clauses given to the solver, a constraint object for the given
representation. -/
structure Made where
  top : Top
  clauses : List (List Lit)
  con : Option (Lit × Rep)

/-- weight_constraint.cpp:206-220: the clauses for a disjunction (`disj`) or conjunction. -/
def asClauses (disj : Bool) (W : Lit) (ls : List Lit) : List (List Lit) :=
  let flip := fun (b : Bool) (p : Lit) => if b then p.neg else p
  let c0 := flip disj W
  let step := fun (st : List Lit × List (List Lit) × Bool) (l : Lit) =>
    let b0 := c0.neg
    let b1 := flip disj l
    if b0 ≠ b1.neg then (if b0 ≠ b1 then st.1 ++ [b1.neg] else st.1, st.2.1 ++ [[b0, b1]], st.2.2)
    else (st.1, st.2.1, true)
  let r := ls.foldl step ([c0], [], false)
  if r.2.2 then r.2.1 else r.2.1 ++ [r.1]

/-- weight_constraint.cpp:196-222 `doCreate` with both directions active (no `create_only_*`); `explicit` = `create_explicit`,
`addSat` = `create_sat`. `none` is a conflict while propagating; clauses that turn out to be violated are a conflict of the
solver (C12). -/
def doCreate (explicit addSat : Bool) (top : Top) (W : Lit) (r : Rep) : R (Option (Made × Rep)) := do
  match ← propagate top W r with
  | none => .ok none
  | some (top, r) =>
    if r.isUnsat || (r.isSat && !(addSat && !r.lits.isEmpty)) then .ok (some (⟨top, [], none⟩, r))
    else if (r.bound = 1 ∨ r.bound = r.reach) ∧ !explicit then
      .ok (some (⟨top, asClauses (r.bound == 1) W (r.lits.map WL.lit), none⟩, r))
    else .ok (some (⟨top, [], some (W, r)⟩, r))

/-- weight_constraint.cpp:183-186: coefficient reduction after the bound was decreased. -/
def recoef (bound : Int) : List WL → Int → R (List WL × Int)
  | [], s => .ok ([], s)
  | l :: ls, s =>
    if l.w > bound then do
      let s ← chk (s - l.w)
      let s ← chk (s + bound)
      let (r, s') ← recoef bound ls s
      .ok (⟨l.lit, bound⟩ :: r, s')
    else .ok (l :: ls, s)

/-- weight_constraint.cpp:172-190 `WeightConstraint::create`; `none` is a conflict. -/
def createCon (eq explicit addSat : Bool) (top : Top) (W : Lit) (lits : List WL) (bound : Int) : R (Option (List Made)) := do
  let b ← chk (bound + if eq then 1 else 0)
  let r ← create top lits b
  if eq then
    match ← doCreate explicit addSat top W.neg r with
    | none => .ok none
    | some (m1, r) =>
      let b ← chk (r.bound - 1)
      let (ls, s) ← recoef b r.lits r.reach
      match ← doCreate explicit addSat m1.top W ⟨ls, b, s⟩ with
      | none => .ok none
      | some (m0, _) => .ok (some [m1, m0])
  else
    match ← doCreate explicit addSat top W r with
    | none => .ok none
    | some (m0, _) => .ok (some [m0])

end Clasp.Weight
