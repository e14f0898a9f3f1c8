import Mathlib.Logic.Function.Basic
import Mathlib.Data.List.Basic

/-!
# Parallel solving: paths, synchronization and termination

Model of the protocol by which the threads of `ParallelSolve` (src/parallel_solve.cpp) share the search
space, restart together and agree that the search is finished.

The search space is a list `X` of points; a path stands for the points it contains.  Each operation on a
shared flag, and each section protected by `workM`, is one step of a thread; the steps of the threads
are interleaved arbitrarily.  The counters `threads` and `waiting` are read off the states of the
threads.  Not modelled: tentative models (`enumOpt`), the generator used for asynchronous solving, exchange
of clauses, the numbers of conflicts that cause a restart, the number of split requests (a thread may
split at any time), and errors other than running out of memory (they end the search like an
interrupt).  If the enumerator does not support splitting, `initQueue` switches to competition in the
first synchronization, before any path is handed out (src/parallel_solve.cpp 602-607); the model starts
with the resulting mode.
-/

namespace Clasp.Par

/-- A path (`LitVec*`): whether it is the initial path `shared_->path` (src/parallel_solve.cpp 176, 283),
which nobody owns, and its points. -/
abbrev Path := Bool × List Nat

/-- Where a thread is.
`req`: in the loop of `ParallelSolve::requestWork` (src/parallel_solve.cpp 500-533), with the path it already has.
`init`, `sub`, `lock0`, `lock`, `wait`: in `SharedData::requestWork` (98-125): before the test of `initVec`, before
`initVec -= m`, before the second test of `allowSplit`, before and while waiting on `workCond`.
`got`: before `s.simplify()` (517-520).  `none`: before the test in line 526; the flag says that
`SharedData::requestWork` returned because of a message.  `term1` to `term3`: in `terminate` (537-552), before the test, before
`terminate_flag` is set, before `complete_flag` is set.  `sync`: in `waitSync` (147-155), waiting or not; `fin`: the last
thread, before it completes the synchronization (563-596).  `run`: solving a path (426-453, 811-829).
`left`: after `leaveAlgorithm` (156-162). -/
inductive Pc
  | req (a : Option Path)
  | init
  | sub
  | lock0
  | lock
  | wait
  | got (a : Path)
  | none (c : Bool)
  | term1 (c : Bool)
  | term2 (c : Bool)
  | term3
  | sync (a : Option Path) (w : Bool)
  | fin (a : Option Path)
  | run
  | left
deriving DecidableEq, Repr

/-- A thread (clasp/mt/parallel_solve.h 253-275, and the local variable `a` in src/parallel_solve.cpp 429).
`ptr`: the path `a`, also after it is finished.  `sp`: the points of its path still to be searched.  `fixed`: the type of the
path is `gp_fixed`, not `gp_split`.  `disj`: `EnumerationConstraint::disjoint_` (clasp/enumerator.h 282).  `rq`: `allowRestart` was
seen to be true in `requestRestart`. -/
structure Th where
  pc : Pc
  ptr : Option Path
  sp : List Nat
  fixed : Bool
  disj : Bool
  rq : Bool
deriving DecidableEq, Repr

/-- The state (src/parallel_solve.cpp 36-194).
`bt`: models are enumerated by backtracking (`!supportsRestarts()`, clasp/model_enumerators.h 99).  `mode`: `modeSplit_`.  `allow`,
`forbid`, `term`, `compl`, `sync`, `restart`: the flags of `control`.  `iv`: `initVec`.  `queue`: `workQ`.  `num`: 0 before the first
model, 1 while it is being committed, 2 afterwards.  `done`: the points that were searched, latest first.  `lost` is not in the code: it is set
by the steps that may lose a path. -/
structure St where
  n : Nat
  X : List Nat
  bt : Bool
  mode : Bool
  th : Nat → Th
  allow : Bool
  forbid : Bool
  term : Bool
  compl : Bool
  sync : Bool
  restart : Bool
  iv : Nat
  queue : List Path
  num : Nat
  done : List Nat
  lost : Bool

/-- `ParallelSolve::beginSolve` (src/parallel_solve.cpp 269-303): all threads are about to request work, a first synchronization
is active. -/
def St.init (n : Nat) (X : List Nat) (bt mode : Bool) : St where
  n := n
  X := X
  bt := bt
  mode := mode
  th := fun i => ⟨if i < n then .req none else .left, none, [], true, false, false⟩
  allow := mode
  forbid := !mode
  term := false
  compl := false
  sync := true
  restart := false
  iv := 0
  queue := []
  num := 0
  done := []
  lost := false

/-- Thread `i` changes to `t`; a helper for the steps below (src/parallel_solve.cpp 426-730). -/
def St.put (s : St) (i : Nat) (t : Th) : St := { s with th := Function.update s.th i t }

/-- Waiting on `workCond`, or not in the algorithm any more (src/parallel_solve.cpp 138-146, 156-162). -/
def Pc.idle : Pc → Bool
  | .wait => true
  | .sync _ true => true
  | .left => true
  | _ => false

/-- `(waiting + 1) >= threads` (src/parallel_solve.cpp 140) for thread `i`. -/
def St.last (s : St) (i : Nat) : Bool := (List.range s.n).all fun j => j == i || (s.th j).pc.idle

/-- The path a thread has but has not begun (`a` in src/parallel_solve.cpp 501). -/
def Pc.hold : Pc → Option Path
  | .req a => a
  | .got a => some a
  | .sync a _ => a
  | .fin a => a
  | _ => Option.none

/-- All points were searched: what a conflict on the top level means (src/parallel_solve.cpp 505-508). -/
def St.all (s : St) : Bool := s.X.all fun x => decide (x ∈ s.done)

/-- The events; most of them are steps of a thread, `interrupt` comes from outside (src/parallel_solve.cpp 419-846, lines in the functions
below). -/
inductive Ev
  | leave (i : Nat)
  | conflict (i : Nat)
  | enter (i : Nat)
  | go (i : Nat)
  | take (i : Nat)
  | sub (i v : Nat)
  | skip (i : Nat)
  | lock0 (i : Nat)
  | lock (i : Nat)
  | wake (i : Nat)
  | none (i : Nat)
  | term (i : Nat)
  | simp (i : Nat) (ok : Bool)
  | wsync (i : Nat)
  | fin (i : Nat)
  | search (i x : Nat)
  | split (i : Nat) (A : List Nat)
  | finish (i : Nat) (c : Bool)
  | limit (i : Nat)
  | stop (i : Nat)
  | want (i : Nat)
  | post (i : Nat)
  | model1 (i : Nat)
  | model2
  | update (i : Nat)
  | fail (i : Nat)
  | interrupt
deriving Repr

/-- `requestWork` in line 502: the algorithm was terminated. -/
def leave (s : St) (i : Nat) : Option St :=
  match (s.th i).pc with
  | .req _ => if s.term then some (s.put i { s.th i with pc := .left }) else none
  | _ => none

/-- Lines 505-508: a real conflict on the top level, which means that nothing is left to be searched. -/
def conflict (s : St) (i : Nat) : Option St :=
  match (s.th i).pc with
  | .req _ => if s.all then some (s.put i { s.th i with pc := .term1 true }) else none
  | _ => none

/-- Lines 509-513, and `handleMessages` in lines 708-713: a synchronization is active.  A thread with a path gives
it up afterwards, since the value of `waitOnSync` is true for it: `restart_abandoned_flag` is cleared together with `sync_flag`
(line 584) and is never seen (line 592).  If optimization continues the path nevertheless (`commitUnsat`), this counts as
no work here. -/
def enter (s : St) (i : Nat) : Option St :=
  if s.sync then
    match (s.th i).pc with
    | .req a => some (s.put i { s.th i with pc := .sync a false })
    | .got a => some (s.put i { s.th i with pc := .sync (some a) false })
    | .run => some (s.put i { s.th i with pc := .sync Option.none false })
    | _ => none
  else none

/-- Lines 509-517: no synchronization is active; a path that is already there is used. -/
def go (s : St) (i : Nat) : Option St :=
  match (s.th i).pc with
  | .req a =>
    if s.sync then none
    else match a with
      | some p => some (s.put i { s.th i with pc := .got p })
      | Option.none => some (s.put i { s.th i with pc := .init })
  | _ => none

/-- Lines 100-110: the bit of the thread in `initVec` is set.  With splitting the whole vector is exchanged with 0; without
splitting only the bit is removed, in a later step. -/
def take (s : St) (i : Nat) : Option St :=
  match (s.th i).pc with
  | .init =>
    if s.iv.testBit i then
      if s.allow then
        some ({ s with iv := 0 }.put i { s.th i with pc := .got (true, s.X), ptr := some (true, s.X) })
      else some (s.put i { s.th i with pc := .sub })
    else none
  | _ => none

/-- Line 103 `initVec -= m`.  If `initVec` was set to 0 in between (line 666), the result is any number `v` here. -/
def sub (s : St) (i v : Nat) : Option St :=
  match (s.th i).pc with
  | .sub => some ({ s with iv := if s.iv.testBit i then s.iv - 2 ^ i else v }.put i
      { s.th i with pc := .got (true, s.X), ptr := some (true, s.X) })
  | _ => none

/-- Line 100: the bit of the thread is not set. -/
def skip (s : St) (i : Nat) : Option St :=
  match (s.th i).pc with
  | .init => if s.iv.testBit i then none else some (s.put i { s.th i with pc := .lock0 })
  | _ => none

/-- Line 111. -/
def lock0 (s : St) (i : Nat) : Option St :=
  match (s.th i).pc with
  | .lock0 => some (s.put i { s.th i with pc := if s.allow then .lock else .none false })
  | _ => none

/-- Lines 115-123, 138-143: one round of the loop with the lock. -/
def lock (s : St) (i : Nat) : Option St :=
  match (s.th i).pc with
  | .lock =>
    if s.term || s.sync then some (s.put i { s.th i with pc := .none true })
    else match s.queue with
      | p :: q => some ({ s with queue := q }.put i { s.th i with pc := .got p, ptr := some p })
      | [] => some (s.put i { s.th i with pc := if s.last i then .none false else .wait })
  | _ => none

/-- Lines 142-144: a thread goes on after it was notified, or without reason. -/
def wake (s : St) (i : Nat) : Option St :=
  match (s.th i).pc with
  | .wait => some (s.put i { s.th i with pc := .lock })
  | .sync a true => some (s.put i { s.th i with pc := .sync a false })
  | _ => none

/-- Lines 526-529: there is no work, and no synchronization is active (any more). -/
def noWork (s : St) (i : Nat) : Option St :=
  match (s.th i).pc with
  | .none c =>
    if s.sync then some (s.put i { s.th i with pc := .req Option.none })
    else some ({ s with lost := s.lost || (c && !s.term) }.put i { s.th i with pc := .term1 true })
  | _ => none

/-- `terminate` (lines 537-552) without tentative models. -/
def term (s : St) (i : Nat) : Option St :=
  match (s.th i).pc with
  | .term1 c => some (s.put i { s.th i with pc := if s.term then .req Option.none else .term2 c })
  | .term2 c => some ({ s with term := true }.put i { s.th i with pc := if c then .term3 else .req Option.none })
  | .term3 => some ({ s with compl := true }.put i { s.th i with pc := .req Option.none })
  | _ => none

/-- Lines 517-524 and 438-441: the path is begun, or `simplify` has a conflict (possibly only a stop conflict). -/
def simp (s : St) (i : Nat) (ok : Bool) : Option St :=
  match (s.th i).pc with
  | .got a =>
    if ok then
      some (s.put i { s.th i with pc := .run, sp := a.2, fixed := a.1 && !s.mode, disj := !a.1 })
    else some (s.put i { s.th i with pc := .req (some a) })
  | _ => none

/-- `waitSync` (lines 147-155). -/
def wsync (s : St) (i : Nat) : Option St :=
  match (s.th i).pc with
  | .sync a false =>
    if s.sync then some (s.put i { s.th i with pc := if s.last i then .fin a else .sync a true })
    else some (s.put i { s.th i with pc := .req a })
  | _ => none

/-- Lines 563-592: the last thread completes the synchronization.  Only a synchronization for a restart that is no longer
allowed does not begin again with the initial path (`handleRestartMessage` is always true, so that `cancel_restart_flag` is never
set). -/
def fin (s : St) (i : Nat) : Option St :=
  match (s.th i).pc with
  | .fin a =>
    let s1 := { s with
      sync := false
      restart := false }
    if s.restart && s.forbid then some ({ s1 with lost := true }.put i { s.th i with pc := .req a })
    else some ({ s1 with
      queue := []
      iv := 2 ^ 64 - 1
      lost := s.lost || (s.bt && s.restart && !(List.range s.n).all fun j => (s.th j).pc.hold.isNone) }.put i
        { s.th i with pc := .req a })
  | _ => none

/-- A point of the path is searched (`BasicSolve::solve`, line 820). -/
def search (s : St) (i x : Nat) : Option St :=
  match (s.th i).pc with
  | .run =>
    if x ∈ (s.th i).sp then
      some ({ s with done := x :: s.done }.put i { s.th i with sp := (s.th i).sp.filter (· ≠ x) })
    else none
  | _ => none

/-- `handleMessages` lines 715-727, `handleSplitMessage` (839-846): the points `A` are split off (C24). -/
def split (s : St) (i : Nat) (A : List Nat) : Option St :=
  match (s.th i).pc with
  | .run =>
    if !(s.th i).fixed && A.all fun x => decide (x ∈ (s.th i).sp) then
      some ({ s with queue := s.queue ++ [(false, A)] }.put i { s.th i with
        sp := (s.th i).sp.filter (· ∉ A)
        disj := true })
    else none
  | _ => none

/-- The path is finished (lines 823-829, 442-446); with a fixed path `commitUnsat` may terminate at once (line 646). -/
def finish (s : St) (i : Nat) (c : Bool) : Option St :=
  match (s.th i).pc with
  | .run =>
    if (s.th i).sp = [] then
      some (s.put i { s.th i with pc := if c && (s.th i).fixed then .term1 true else .req Option.none })
    else none
  | _ => none

/-- Line 441-442: a limit was reached; line 678: enough models. -/
def limit (s : St) (i : Nat) : Option St :=
  match (s.th i).pc with
  | .run => some (s.put i { s.th i with pc := .term1 false })
  | _ => none

/-- `handleMessages`, lines 702-707. -/
def stop (s : St) (i : Nat) : Option St :=
  match (s.th i).pc with
  | .run => if s.term then some (s.put i { s.th i with pc := .req Option.none }) else none
  | _ => none

/-- `requestRestart` (lines 736-740): the test of `allowRestart`. -/
def want (s : St) (i : Nat) : Option St :=
  match (s.th i).pc with
  | .run => if s.forbid then none else some (s.put i { s.th i with rq := true })
  | _ => none

/-- `requestRestart` (lines 736-740): the last request is posted. -/
def post (s : St) (i : Nat) : Option St :=
  match (s.th i).pc with
  | .run =>
    if (s.th i).rq then
      some ({ s with
        sync := true
        restart := true }.put i { s.th i with rq := false })
    else none
  | _ => none

/-- `commitModel`, lines 660-665: the first model when models are enumerated by backtracking. -/
def model1 (s : St) (i : Nat) : Option St :=
  match (s.th i).pc with
  | .run =>
    if s.bt && s.num == 0 then
      some ({ s with
        num := 1
        forbid := true
        allow := true }.put i { s.th i with
          fixed := false
          disj := true })
    else none
  | _ => none

/-- `commitModel`, lines 666 and 681: `initVec` is cleared, the model becomes known. -/
def model2 (s : St) : Option St :=
  if s.num = 1 then
    some { s with
      iv := 0
      num := 2 }
  else none

/-- `integrateModels` (lines 731-734) with `BacktrackFinder::doUpdate` (src/model_enumerators.cpp 159-197): a thread whose path is
not known to be disjoint from the others gives it up once a model is known. -/
def update (s : St) (i : Nat) : Option St :=
  match (s.th i).pc with
  | .run =>
    if s.bt && s.num == 2 && !(s.th i).disj then some (s.put i { s.th i with pc := .req Option.none }) else none
  | _ => none

/-- Where a thread may run out of memory: not while it holds the lock, waits, or terminates (src/parallel_solve.cpp 419-458). -/
def Pc.mayFail : Pc → Bool
  | .req _ => true
  | .init => true
  | .lock0 => true
  | .got _ => true
  | .run => true
  | _ => false

/-- `exception` (lines 474-490) for `bad_alloc` in a thread other than the master; the path goes back to the queue if there is
splitting, and the thread leaves. -/
def fail (s : St) (i : Nat) : Option St :=
  if i ≠ 0 ∧ (s.th i).pc.mayFail then
    some ({ s with
      queue := if s.allow then s.queue ++ (s.th i).ptr.toList else s.queue
      lost := s.lost || (s.allow && (s.bt && (s.th i).ptr.isSome || (s.th i).ptr.isNone && s.iv != 0)) }.put i
        { s.th i with pc := .left })
  else none

/-- One event (src/parallel_solve.cpp; lines in the functions above); `none` if it is not possible. -/
def step (s : St) : Ev → Option St
  | .leave i => leave s i
  | .conflict i => conflict s i
  | .enter i => enter s i
  | .go i => go s i
  | .take i => take s i
  | .sub i v => sub s i v
  | .skip i => skip s i
  | .lock0 i => lock0 s i
  | .lock i => lock s i
  | .wake i => wake s i
  | .none i => noWork s i
  | .term i => term s i
  | .simp i ok => simp s i ok
  | .wsync i => wsync s i
  | .fin i => fin s i
  | .search i x => search s i x
  | .split i A => split s i A
  | .finish i c => finish s i c
  | .limit i => limit s i
  | .stop i => stop s i
  | .want i => want s i
  | .post i => post s i
  | .model1 i => model1 s i
  | .model2 => model2 s
  | .update i => update s i
  | .fail i => fail s i
  | .interrupt => some { s with term := true }

/-- The states that can be reached with `n` threads. -/
inductive Reach (n : Nat) (X : List Nat) (bt mode : Bool) : St → Prop
  | init : Reach n X bt mode (St.init n X bt mode)
  | step {s s' : St} (ev : Ev) : Reach n X bt mode s → Par.step s ev = some s' → Reach n X bt mode s'

end Clasp.Par
