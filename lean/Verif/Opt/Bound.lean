import Mathlib.Logic.Function.Basic
import Mathlib.Tactic.Common
/-!
# Bound management of branch-and-bound optimization

Models `SharedMinimizeData` (upper and lower bounds shared by all solvers) and the bound management of `DefaultMinimize`
(src/minimize_constraint.cpp:108-134, 411-560) for the four step strategies.  Cost vectors are functions from levels; only levels below
`n = numRules()` matter.  The search itself is abstract: it either delivers a model whose cost is not above the integrated bound or
reports that there is no further model below the bound (see `Step`).

Simplifications: 64-bit sums are unbounded integers and the generation counter does not wrap around (in the code it skips 0); 32-bit
step sizes do wrap.  `updateBounds` is atomic here, i.e. its retry loop on the generation counter is not needed.  Search is not split
(every solver searches the whole space).  Mode is `optimize`/`enumOpt` before the optimum is known (`optGen_ = 0`).
-/

namespace Clasp.BB

/-- Specification: lexicographic order on cost vectors with `n` levels. -/
def lt (n : Nat) (f g : Nat → Int) : Prop := ∃ i < n, (∀ j < i, f j = g j) ∧ f i < g i

/-- Specification: reflexive closure of `lt`. -/
def le (n : Nat) (f g : Nat → Int) : Prop := lt n f g ∨ ∀ i < n, f i = g i

/-- clasp/minimize_constraint.h:88: `maxBound()`. -/
def MAXB : Int := 2 ^ 63 - 1

/-- clasp/solver_strategies.h:207-212 -/
inductive Strat
  | lin | hier | inc | dec
  deriving DecidableEq, Repr

/-- clasp/minimize_constraint.h:176-182: the current upper bound, the lower bounds and the generation counter. -/
structure Shared where
  upper : Nat → Int
  lower : Nat → Int
  gen : Nat

/-- Where a solver is with respect to its bound: searching, in the loop of `integrateBound` (before `updateBounds`, after it), or
stopped because no bound could be integrated. -/
inductive Pc
  | run | integ | check | failed
  deriving DecidableEq, Repr

/-- clasp/minimize_constraint.h:432-446: the part of `DefaultMinimize` that manages the bound: `step_` and the arrays `opt()` and
`end()` (own lower bounds).  `gen` remembers the generation read last. -/
structure Loc where
  strat : Strat
  lev : Nat
  size : Nat
  low : Nat → Int
  bound : Nat → Int
  gen : Nat
  pc : Pc

/-- Conversion of a sum to `uint32` (minimize_constraint.cpp:541, 547). -/
def u32 (x : Int) : Nat := (x % 2 ^ 32).toNat

/-- minimize_constraint.cpp:541: `(diff>>1) | (diff&1)` before the conversion to `uint32`. -/
def halfOf (d : Int) : Int := if d % 2 = 1 ∧ (d / 2) % 2 = 0 then d / 2 + 1 else d / 2

/-- minimize_constraint.cpp:459-463: `stepInit(k)`. -/
def stepInit (n k : Nat) (l : Loc) : Loc :=
  if l.strat = .lin then { l with size := 1, lev := n - 1 }
  else { l with
    size := if l.strat = .dec then 0 else 1
    lev := k
    low := if k = n then l.low else Function.update l.low k (-MAXB) }

/-- minimize_constraint.cpp:451-457: `relaxBound(false)` while optimizing. -/
def relax (l : Loc) : Loc := { l with bound := fun _ => MAXB }

/-- Outcome of (a part of) `updateBounds`: the function returns, or the loop goes on, or the assertion in line 551 fails. -/
inductive Upd
  | ret (b : Bool) (l : Loc)
  | cont (l : Loc) (appLev : Nat)
  | abort

/-- minimize_constraint.cpp:541-550: the step size used next for `diff = U - L`. -/
def nextSize (s : Strat) (size : Nat) (diff : Int) : Nat :=
  match s with
  | .inc => min size (u32 (halfOf diff))
  | .dec => if size = 0 then u32 diff else u32 (halfOf diff)
  | _ => size

/-- minimize_constraint.cpp:505-555: body of the loop in `updateBounds` for level `i`. -/
def updLevel (n : Nat) (sh : Shared) (i : Nat) (l : Loc) (appLev : Nat) : Upd :=
  let U := sh.upper i
  let B := l.bound i
  if i ≠ appLev then
    let up := l.strat ≠ .lin ∧ (i > l.lev ∨ sh.lower i > l.low i)
    let L := if l.strat = .lin ∨ up then sh.lower i else l.low i
    let l := if up then { l with low := Function.update l.low i (sh.lower i) } else l
    if i > appLev then .cont { l with bound := Function.update l.bound i MAXB } appLev
    else if L ≤ U then .cont { l with bound := Function.update l.bound i U } appLev
    else .ret false (stepInit n n l)
  else if l.strat ≠ .lin then
    let L := max (l.low i) (sh.lower i)
    let l := { l with low := Function.update l.low i L }
    if U < L then .ret false (stepInit n n l)
    else if B < L then .ret false l
    else if B < U then .ret true l
    else if U = L then .cont (stepInit n (appLev + 1) { l with bound := Function.update l.bound i U }) (appLev + 1)
    else
      let s := nextSize l.strat l.size (U - L)
      if s = 0 then .abort else .cont { l with size := s, bound := Function.update l.bound i (U - s) } appLev
  else if l.size = 0 then .abort
  else .cont { l with bound := Function.update l.bound i (U - l.size) } appLev

/-- minimize_constraint.cpp:505-559: levels `i, i+1, ..., i+k-1 = n-1` and the final result. -/
def updLoop (n : Nat) (sh : Shared) : Nat → Nat → Loc → Nat → Upd
  | 0, _, l, _ => .ret (decide (l.lev ≠ n ∨ sh.gen = 0)) l
  | k + 1, i, l, appLev =>
    match updLevel n sh i l appLev with
    | .cont l a => updLoop n sh k (i + 1) l a
    | r => r

/-- minimize_constraint.cpp:499-560: `updateBounds(checkNext())`; `checkNext()` is `gen ≠ 0` (minimize_constraint.h:111). -/
def updateBounds (n : Nat) (sh : Shared) (l : Loc) : Upd :=
  updLoop n sh n 0 { l with gen := sh.gen } (if sh.gen ≠ 0 then l.lev else n)

/-- minimize_constraint.cpp:105-117, 415-418: `commitUpperBound`: the cost of the model becomes the shared upper bound. -/
def commitUpper (sh : Shared) (c : Nat → Int) : Shared := { sh with upper := c, gen := sh.gen + 1 }

/-- minimize_constraint.cpp:417: the step size is doubled (in 32 bits). -/
def doubled (l : Loc) : Loc := if l.strat = .inc then { l with size := (2 * l.size) % 2 ^ 32 } else l

/-- clasp/minimize_constraint.h:342: `active()`. -/
def active (l : Loc) : Prop := l.bound 0 ≠ MAXB

/-- minimize_constraint.cpp:421: is there more to do after the search space was exhausted? -/
def more (n : Nat) (l : Loc) : Prop := l.lev < n ∧ (1 < l.size ∨ l.lev ≠ n - 1)

instance (n : Nat) (l : Loc) : Decidable (more n l) := inferInstanceAs (Decidable (_ ∧ _))

instance (l : Loc) : Decidable (active l) := inferInstanceAs (Decidable (_ ≠ _))

/-- minimize_constraint.cpp:419-437: `commitLowerBound(s, up)` together with the `relaxBound` in `handleUnsat` (438-448); afterwards
the solver integrates the bound again (if there is more). -/
def commitLower (n : Nat) (up : Bool) (sh : Shared) (l : Loc) : Shared × Loc :=
  if active l ∧ sh.gen ≠ 0 ∧ l.strat ≠ .lin ∧ l.lev < n then
    let L := l.bound l.lev + 1
    let sv := if up then max (sh.lower l.lev) L else L
    (if up then { sh with lower := Function.update sh.lower l.lev sv } else sh,
     { relax l with low := Function.update l.low l.lev sv, size := if l.strat = .inc then 1 else l.size, pc := .integ })
  else (sh, { relax l with pc := .integ })

/-- minimize_constraint.cpp:480-484: the bound turned out to be impossible, try the next one. -/
def bump (l : Loc) : Loc :=
  if l.strat = .lin then { l with lev := l.lev + 1, pc := .integ }
  else { l with
    bound := Function.update l.bound l.lev (l.bound l.lev + 1)
    low := Function.update l.low l.lev (l.bound l.lev + 1)
    pc := .integ }

/-- All solvers of a run with the shared bounds; `hist` are the costs of the models found so far (newest first), `done` is set when a
solver reports that the search space is exhausted. -/
structure Sys where
  sh : Shared
  loc : Nat → Loc
  hist : List (Nat → Int)
  done : Bool

/-- Specification: what is still looked for: models below the initial bound, and strictly below the last one found. -/
def better (n : Nat) (Md : (Nat → Int) → Prop) (sh : Shared) (m : Nat → Int) : Prop :=
  Md m ∧ (if sh.gen = 0 then le n m sh.upper else lt n m sh.upper)

/-- One step of one solver `t`.  `Md` are the costs of the models of the problem (under the assumptions of the solve call). -/
inductive Step (n : Nat) (Md : (Nat → Int) → Prop) : Sys → Sys → Prop
  /-- minimize_constraint.cpp:466: `integrateBound` is called -/
  | begin (s : Sys) (t : Nat) : s.done = false → (s.loc t).pc = .run →
      Step n Md s { s with loc := Function.update s.loc t { s.loc t with pc := .integ } }
  /-- minimize_constraint.cpp:469-472: the tag literal is true on level 0: continue with linear steps -/
  | fallback (s : Sys) (t : Nat) : s.done = false → (s.loc t).pc = .integ → 
      Step n Md s { s with loc := Function.update s.loc t (stepInit n 0 { s.loc t with strat := .lin }) }
  /-- minimize_constraint.cpp:473: there is a bound and no model yet -/
  | keep (s : Sys) (t : Nat) : s.done = false → (s.loc t).pc = .integ → active (s.loc t) → s.sh.gen = 0 →
      Step n Md s { s with loc := Function.update s.loc t { s.loc t with pc := .run } }
  /-- minimize_constraint.cpp:475: a bound was computed -/
  | upd (s : Sys) (t : Nat) (l : Loc) : s.done = false → (s.loc t).pc = .integ → updateBounds n s.sh (s.loc t) = .ret true l →
      Step n Md s { s with loc := Function.update s.loc t { l with pc := .check } }
  /-- minimize_constraint.cpp:475, 486-491: no bound is left -/
  | updFail (s : Sys) (t : Nat) (l : Loc) : s.done = false → (s.loc t).pc = .integ → updateBounds n s.sh (s.loc t) = .ret false l →
      Step n Md s { s with loc := Function.update s.loc t { relax l with pc := .failed } }
  /-- minimize_constraint.cpp:479-482: the bound is integrated and search goes on -/
  | ok (s : Sys) (t : Nat) : s.done = false → (s.loc t).pc = .check →
      Step n Md s { s with loc := Function.update s.loc t { s.loc t with pc := .run } }
  /-- minimize_constraint.cpp:478-488: the bound cannot be met below the assumptions; the next bound is tried -/
  | imp (s : Sys) (t : Nat) : s.done = false → (s.loc t).pc = .check → s.sh.gen ≠ 0 →
      (∀ m, better n Md s.sh m → ¬ le n m (s.loc t).bound) →
      Step n Md s { s with loc := Function.update s.loc t (bump (s.loc t)) }
  /-- minimize_constraint.cpp:478-493: as before, but there is no next bound yet (line 483) or the solver has a conflict -/
  | impFail (s : Sys) (t : Nat) : s.done = false → (s.loc t).pc = .check →
      (∀ m, better n Md s.sh m → ¬ le n m (s.loc t).bound) →
      Step n Md s { s with
        loc := Function.update s.loc t { relax (if s.sh.gen = 0 then s.loc t else bump (s.loc t)) with pc := .failed } }
  /-- enumerator.cpp:166-179, minimize_constraint.cpp:438-448: the stopped solver is asked to handle the end of search -/
  | retry (s : Sys) (t : Nat) : s.done = false → (s.loc t).pc = .failed → more n (s.loc t) →
      Step n Md s { s with loc := Function.update s.loc t { s.loc t with pc := .integ } }
  | stop (s : Sys) (t : Nat) : s.done = false → (s.loc t).pc = .failed → ¬ more n (s.loc t) → Step n Md s { s with done := true }
  /-- parallel_solve.cpp:651-680, minimize_constraint.cpp:415-418: a model within the bound, checked against the newest bounds -/
  | model (s : Sys) (t : Nat) (c : Nat → Int) : s.done = false → (s.loc t).pc = .run → (s.loc t).gen = s.sh.gen → Md c →
      le n c (s.loc t).bound →
      Step n Md s { s with sh := commitUpper s.sh c, loc := Function.update s.loc t (doubled (s.loc t)), hist := c :: s.hist }
  /-- minimize_constraint.cpp:438-448: no further model within the bound -/
  | unsat (s : Sys) (t : Nat) (up : Bool) : s.done = false → (s.loc t).pc = .run →
      (∀ m, better n Md s.sh m → ¬ le n m (s.loc t).bound) →
      Step n Md s { s with
        sh := (commitLower n up s.sh (s.loc t)).1
        loc := Function.update s.loc t (commitLower n up s.sh (s.loc t)).2
        done := decide (¬ more n (s.loc t)) }

/-- minimize_constraint.cpp:209-229, 459-463: a solver after `attach`; a hierarchical strategy with a single level is replaced by the
linear one (173-175). -/
def Loc.init (n : Nat) (st : Strat) : Loc :=
  stepInit n 0 ⟨if st = .hier ∧ n = 1 then .lin else st, 0, 0, fun _ => 0, fun _ => MAXB, 0, .integ⟩

/-- minimize_constraint.cpp:33-68: fresh shared data; `U0` is the initial bound (69-88), `maxBound()` on every level if none is given. -/
def Sys.init (n : Nat) (U0 low0 : Nat → Int) (st : Nat → Strat) : Sys :=
  ⟨⟨U0, low0, 0⟩, fun t => Loc.init n (st t), [], false⟩

/-- Specification: reachable systems. -/
inductive Reach (n : Nat) (Md : (Nat → Int) → Prop) (U0 low0 : Nat → Int) (st : Nat → Strat) : Sys → Prop
  | init : Reach n Md U0 low0 st (Sys.init n U0 low0 st)
  | step {s s' : Sys} : Reach n Md U0 low0 st s → Step n Md s s' → Reach n Md U0 low0 st s'

end Clasp.BB
