/-!
# Limits on conflicts and restarts

Model of the loop in `BasicSolve::State::solve` (src/solve_algorithms.cpp:129-246) and of repeated calls of `BasicSolve::solve` (src/solve_algorithms.cpp:79-84) with its limits.  `none` is `UINT64_MAX`, which stays
as it is when something is subtracted.  `Solver::search` is an arbitrary answer; deletion of learnt constraints is left out except for its schedule.
-/

namespace Clasp.Limits

/-- `std::min` with `none` for `UINT64_MAX` (src/solve_algorithms.cpp:142). -/
def omin : Option Nat → Option Nat → Option Nat
  | none, y => y
  | some x, none => some x
  | some x, some y => some (min x y)

/-- Subtraction with `none` for `UINT64_MAX` (src/solve_algorithms.cpp:143). -/
def osub (x : Option Nat) (n : Nat) : Option Nat := x.map (· - n)

/-- `x >= y` for a number and a limit (src/solver.cpp:1836). -/
def atLeast (x : Nat) : Option Nat → Bool
  | none => false
  | some y => decide (y ≤ x)

/-- Parameters: local restarts, dynamic restarts, the values of the restart schedule by number of restarts, and the ones of the schedules for deletion and growth (any values, C07). -/
structure Par where
  loc : Bool
  dyn : Bool
  sched : Nat → Option Nat
  red : Nat → Option Nat
  grow : Nat → Option Nat

/-- What `Solver::search` (src/solver.cpp:1841-1884) gives: the conflicts (`limit.used`), what was added to the limit for restarts by blocking, the result (`none`: free), whether a restart is due by the dynamic
limit or the conflicts of the branch (src/solver.cpp:1834-1837), and whether the limits on learnt constraints are reached; and what `DynamicLimit::restart` gives (src/solver_strategies.cpp:226-245). -/
structure Ans where
  used : Nat
  add : Nat
  res : Option Bool
  due : Bool
  full : Bool
  next : Option Nat

/-- `sLimit.restart.conflicts` is `rs`, the other three fields of `cLimit` are `red`, `grow`, `glob`; `left` is `limRestarts`; `stop` is set when the call has returned; `nRs`, `nRed`, `nGrow` are the positions
in the schedules.  Not in the code: `used`, all conflicts so far; `over`, the part of them beyond the limits of the searches; `made`, the number of restarts so far; `run`, the conflicts since the last restart (or the start of the
call), `runOver` the part of them beyond the limits of the searches, `blk` what blocking added since then; `bad`, a search was started without any conflict allowed (assertion in line 178). -/
structure St where
  red : Option Nat
  grow : Option Nat
  rs : Option Nat
  glob : Option Nat
  left : Option Nat
  stop : Bool
  nRs : Nat
  nRed : Nat
  nGrow : Nat
  used : Nat
  over : Nat
  made : Nat
  run : Nat
  runOver : Nat
  blk : Nat
  bad : Bool

/-- The start of a call (src/solve_algorithms.cpp:149-172); `glob` and `left` are those of the limits (line 151-152), the others are those of the state.  `dbGrowNext` is the value of the growth schedule or at least 1 (line 191).
The number of restarts `n` is continued or 0 (line 186); `v` is the limit of dynamic restarts (line 162). -/
def St.call (p : Par) (s : St) (n : Nat) (v grow : Option Nat) : St :=
  { s with
    nRs := n
    red := p.red s.nRed
    grow := grow
    rs := if p.dyn then v else p.sched n
    stop := false
    run := 0
    runOver := 0
    blk := 0 }

/-- Before the first call, with the given limits (src/solve_algorithms.cpp:98-127, clasp/solve_algorithms.h:43-46). -/
def St.new (conf rst : Option Nat) : St where
  red := none
  grow := none
  rs := none
  glob := conf
  left := rst
  stop := true
  nRs := 0
  nRed := 0
  nGrow := 0
  used := 0
  over := 0
  made := 0
  run := 0
  runOver := 0
  blk := 0
  bad := false

/-- `sLimit.conflicts` (src/solve_algorithms.cpp:175-178). -/
def St.lim (p : Par) (s : St) : Option Nat := omin (omin s.red s.grow) (omin (if p.loc then none else s.rs) s.glob)

/-- `std::min(sLimit.used, sLimit.conflicts)` (src/solve_algorithms.cpp:182). -/
def cnt (p : Par) (s : St) (a : Ans) : Nat := match s.lim p with
  | none => a.used
  | some c => min a.used c

/-- src/solve_algorithms.cpp:181-182: the search and `update`. -/
def St.search (p : Par) (s : St) (a : Ans) : St :=
  let n := cnt p s a
  { s with
    red := osub s.red n
    grow := osub s.grow n
    rs := if p.dyn then s.rs else s.rs.map (· + a.add)
    glob := osub s.glob n
    used := s.used + a.used
    over := s.over + (a.used - n)
    run := s.run + a.used
    runOver := s.runOver + (a.used - n)
    blk := if p.dyn then s.blk else s.blk + a.add
    bad := s.bad || s.lim p == some 0 }

/-- src/solve_algorithms.cpp:196: whether a restart is reached, `s` is the state after the search. -/
def reached (p : Par) (s : St) (a : Ans) : Bool := a.due || (!p.loc && atLeast a.used s.rs)

/-- src/solve_algorithms.cpp:197-219: a restart. -/
def St.restart (p : Par) (s : St) (v : Option Nat) : St :=
  { s with
    nRs := s.nRs + 1
    made := s.made + 1
    rs := if p.dyn then v else p.sched (s.nRs + 1)
    left := osub s.left 1
    stop := s.left == some 1
    run := 0
    runOver := 0
    blk := 0 }

/-- src/solve_algorithms.cpp:220-222. -/
def St.keep (p : Par) (s : St) (n : Nat) : St := if p.loc then s else { s with rs := osub s.rs n }

/-- src/solve_algorithms.cpp:223-240: the schedules for deletion and growth; `off` is whether the maximal size is reached (line 238). -/
def St.reduce (p : Par) (s : St) (full off : Bool) : St :=
  let s := if s.red = some 0 then { s with
      red := p.red (s.nRed + 1)
      nRed := s.nRed + 1 }
    else if full then { s with red := p.red s.nRed } else s
  if s.grow = some 0 then { s with
      grow := if off then none else p.grow (s.nGrow + 1)
      nGrow := s.nGrow + 1 }
  else s

/-- One round of the loop (src/solve_algorithms.cpp:174-241). -/
def St.round (p : Par) (s : St) (a : Ans) (off : Bool) : St :=
  let n := cnt p s a
  let t := s.search p a
  if a.res.isSome then { t with stop := true }
  else if reached p t a then
    let t := t.restart p a.next
    if t.stop then t
    else
      let t := t.reduce p a.full off
      { t with stop := t.glob == some 0 }
  else
    let t := (t.keep p n).reduce p a.full off
    { t with stop := t.glob == some 0 }

/-- The steps: a call if no limit is reached (src/solve_algorithms.cpp:79-84), or a round of the loop. -/
inductive Step (p : Par) : St → St → Prop
  | call {s : St} (n : Nat) (v g : Option Nat) : s.stop = true → s.glob ≠ some 0 → s.left ≠ some 0 → g ≠ some 0 → v ≠ some 0 → (n = s.nRs ∨ n = 0) → Step p s (s.call p n v g)
  | round {s : St} (a : Ans) (off : Bool) : s.stop = false → a.next ≠ some 0 → Step p s (s.round p a off)

/-- The reachable states. -/
inductive Reach (p : Par) (conf rst : Option Nat) : St → Prop
  | new : Reach p conf rst (St.new conf rst)
  | step {s s' : St} : Reach p conf rst s → Step p s s' → Reach p conf rst s'

end Clasp.Limits
