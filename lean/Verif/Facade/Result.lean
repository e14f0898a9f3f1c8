/-!
# Solve results and exit codes (C32)

Model of how a search outcome becomes the result of a solve step and the exit code of the
application:

* `SequentialSolve::doSolve` and `doNext` (src/solve_algorithms.cpp 437-489) together with the
  parts of `SolveAlgorithm` around them (`attach` 283-297, `solve` 334-355, `next` 361-374,
  `more` 375-377, `reportModel` 384-391, `moreModels` 403-405),
* `ClaspFacade::SolveStrategy::startAlgo`, `continueAlgo`, `detachAlgo`
  (src/clasp_facade.cpp 258-371), `ClaspFacade::stopStep` (916-942), `onModel` (1063-1068),
* `ClaspAppBase::exitCode`, `shutdown`, `run`, `onSignal` (src/clasp_app.cpp 198-283).

The two search loops are modelled as automata: every call they make to the solver, the
enumerator, the model handler or the interrupt counter is an *event* carrying the answer, and
`Pc.step` says which call comes next and what is returned. What the callees guarantee is stated
separately (`Env.Step`), as a relation on a specification state.

Not modelled: time stamps, statistics, the unsat core (see C25), `ParallelSolve`, the
condition variables of the asynchronous strategy (its thread runs `startAlgo` too), and the
limit messages of `Scoped::solve`.
-/

namespace Clasp.Facade

/-- Answers of `BasicSolve::solve()`: `value_true`, `value_false`, `value_free`
(clasp/literal.h value constants). -/
inductive Val
  | tt | ff | free
  deriving DecidableEq, Repr

/-- The calls made by the search loops, with their answers (src/solve_algorithms.cpp 437-489,
384-391). `M` is the type of models.
* `intr b`: `interrupted()` (or the test `term_ > 0`) was evaluated to `b` (line 436),
* `attach b`: `ctx.attach(s)`, `install`: construction of `InterruptHandler`,
* `start b`: `enumerator().start(s, gp)`, preceded by `enumerator().end(s)` on a restart,
* `solve r m`: `solve.solve()` answered `r`; `m` is the model if `r = tt`,
* `commitModel b`, `commitUnsat b`, `commitComplete b`, `update`: the enumerator functions,
* `onModel b`: `onModel_->onModel(s, m)`; `limit b`: `hasLimit(m)`,
* `sym o`: `commitSymmetric`, with the next symmetric model if it answered true,
* `more b`: `moreModels(s)`. -/
inductive Ev (M : Type)
  | intr (b : Bool)
  | attach (b : Bool)
  | install
  | start (b : Bool)
  | solve (r : Val) (m : Option M)
  | commitModel (b : Bool)
  | onModel (b : Bool)
  | limit (b : Bool)
  | sym (o : Option M)
  | update
  | more (b : Bool)
  | commitUnsat (b : Bool)
  | commitComplete (b : Bool)
  deriving Repr

/-- Control points of `SolveAlgorithm::solve` + `SequentialSolve::doSolve`
(src/solve_algorithms.cpp 283-297, 334-355, 471-489). `ret b` means that the function returned
`b` ("there may be more models"). -/
inductive Pc
  | attach0 (ctxOk : Bool)  -- attach(): line 287, `interrupted()`
  | chk          -- doSolve: line 475, `!interrupted()`
  | att          -- line 475, `ctx.attach(s)`
  | start0       -- line 475, `enumerator().start(s, gp)`
  | inst (more : Bool)  -- line 476, InterruptHandler
  | top          -- line 479, `solve.solve()`
  | com          -- line 479, `commitModel`
  | rep          -- reportModel line 386, `onModel`
  | repLim (ok : Bool)  -- line 388, `hasLimit`
  | repInt       -- line 388, `interrupted()`
  | repSym       -- line 389, `commitSymmetric`
  | upd          -- lines 480, 484, `update`
  | mm           -- line 482, `moreModels`
  | uchk         -- line 483, `interrupted()`
  | cu           -- line 484, `commitUnsat`
  | cc           -- line 485, `commitComplete`
  | restart      -- line 486, `end` and `start`
  | ret (more : Bool)
  deriving DecidableEq, Repr

/-- One step of `doSolve` (src/solve_algorithms.cpp 471-489, `reportModel` 384-391, `attach`
283-297). `none`: this call is not made at this point. The disjunction in line 388 is
short-circuiting; a failing handler is followed directly by `return false`. -/
def Pc.step {M : Type} : Pc → Ev M → Option Pc
  | .attach0 ok, .intr b => some (if b then .ret ok else .chk)
  | .chk, .intr b => some (if b then .inst false else .att)
  | .att, .attach b => some (if b then .start0 else .inst false)
  | .start0, .start b => some (.inst b)
  | .inst b, .install => some (if b then .top else .ret false)
  | .top, .solve .tt (some _) => some .com
  | .top, .solve .ff none => some .uchk
  | .top, .solve .free none => some (.ret true)
  | .com, .commitModel b => some (if b then .rep else .upd)
  | .rep, .onModel b => some (if b then .repLim true else .mm)
  | .repLim _, .limit b => some (if b then .mm else .repInt)
  | .repInt, .intr b => some (if b then .mm else .repSym)
  | .repSym, .sym (some _) => some .rep
  | .repSym, .sym none => some .upd
  | .upd, .update => some .top
  | .mm, .more b => some (.ret b)
  | .uchk, .intr b => some (if b then .ret true else .cu)
  | .cu, .commitUnsat b => some (if b then .upd else .cc)
  | .cc, .commitComplete b => some (if b then .ret false else .restart)
  | .restart, .start b => some (if b then .top else .ret false)
  | _, _ => none

/-- Runs `doSolve` on a sequence of calls (src/solve_algorithms.cpp 471-489). -/
def Pc.run {M : Type} (p : Pc) : List (Ev M) → Option Pc
  | [] => some p
  | e :: es => (p.step e).bind fun q => q.run es

/-- Control points of the iterative interface `SolveAlgorithm::start`, `next`, `more`
(src/solve_algorithms.cpp 356-377) with `SequentialSolve::doStart`, `doNext` (437-461).
`idle l` is the state between two calls of `next` with `last_ = l`; `none` for `value_stop`.
`closed l` is the state after `stop()`. -/
inductive Nc
  | attach0 (ctxOk : Bool)  -- attach(): line 287
  | start0              -- doStart: line 438
  | idle (last : Option Val) (solve : Bool)  -- between calls of next(); solve_ still there?
  | chk (last : Val) (solve : Bool)  -- doNext: line 442, `interrupted()`
  | inst (last : Val)   -- line 444, InterruptHandler
  | upd                 -- line 445, `update`
  | top                 -- line 446, `solve()`
  | uchk                -- line 448, `term_ > 0`
  | cu                  -- line 449, `commitUnsat`
  | cc                  -- line 450, `commitComplete`
  | restart             -- lines 452-453
  | com                 -- line 457, `commitModel`
  | rep                 -- next(): line 368, reportModel: `onModel`
  | repLim
  | repInt
  | closed (last : Val)
  deriving DecidableEq, Repr

/-- One step of the iterative interface (src/solve_algorithms.cpp 356-391, 437-461). Calling
`next()` in state `idle` is the event of its first call: `commitSymmetric` if the last answer
was a model, else `interrupted()`. `install` is only an event of the first iteration of
`doNext`. -/
def Nc.step {M : Type} : Nc → Ev M → Option Nc
  | .attach0 ok, .intr b => some (if b then .closed (if ok then .free else .ff) else .start0)
  | .start0, .start b => some (.idle (some .free) b)
  | .idle (some .tt) _, .sym (some _) => some .rep
  | .idle (some .tt) s, .sym none => some (.chk .tt s)
  | .idle (some l) s, .intr b =>
    if l = .tt then none
    else some (if b || !s then (if s then .closed .free else .closed .ff) else .inst l)
  | .chk l s, .intr b =>
    some (if b || !s then (if s then .closed .free else .closed .ff) else .inst l)
  | .inst l, .install => some (if l = .free then .top else .upd)
  | .upd, .update => some .top
  | .top, .solve .tt (some _) => some .com
  | .top, .solve .ff none => some .uchk
  | .top, .solve .free none => some (.closed .free)
  | .uchk, .intr b => some (if b then .closed .free else .cu)
  | .cu, .commitUnsat b => some (if b then .upd else .cc)
  | .cc, .commitComplete b => some (if b then .closed .ff else .restart)
  | .restart, .start b => some (if b then .top else .closed .ff)
  | .com, .commitModel b => some (if b then .rep else .upd)
  | .rep, .onModel b => some (if b then .repLim else .idle none true)
  | .repLim, .limit b => some (if b then .idle none true else .repInt)
  | .repInt, .intr b => some (if b then .idle none true else .idle (some .tt) true)
  | _, _ => none

/-- Runs the iterative interface on a sequence of calls (src/solve_algorithms.cpp 356-461). -/
def Nc.run {M : Type} (p : Nc) : List (Ev M) → Option Nc
  | [] => some p
  | e :: es => (p.step e).bind fun q => q.run es

/-- `SolveAlgorithm::more()`: `last_ != value_false` (src/solve_algorithms.cpp 375-377). Inside
`next()` (only reachable here by an exception or a signal) `last_` is the answer of the previous
call, which was not `value_false`. -/
def Nc.more : Nc → Bool
  | .closed .ff => false
  | _ => true

/-- Number of models handed to `ClaspFacade::onModel` (src/clasp_facade.cpp 1063-1068:
`++step_.numEnum`). -/
def numEnum {M : Type} : List (Ev M) → Nat
  | [] => 0
  | .onModel _ :: es => numEnum es + 1
  | _ :: es => numEnum es

/-- `SolveResult` (clasp/clasp_facade.h 120-140). -/
structure Result where
  flags : BitVec 8
  signal : BitVec 8
  deriving DecidableEq, Repr

namespace Result
/-- `SolveResult::sat()`: base is SAT = 1 (clasp/clasp_facade.h 122-138). -/
def sat (r : Result) : Bool := r.flags &&& 3#8 == 1#8
/-- `SolveResult::unsat()`: base is UNSAT = 2 (clasp/clasp_facade.h 122-138). -/
def unsat (r : Result) : Bool := r.flags &&& 3#8 == 2#8
/-- `SolveResult::unknown()`: base is UNKNOWN = 0 (clasp/clasp_facade.h 122-138). -/
def unknown (r : Result) : Bool := r.flags &&& 3#8 == 0#8
/-- `SolveResult::exhausted()`: EXT_EXHAUST = 4 (clasp/clasp_facade.h 129, 135). -/
def exhausted (r : Result) : Bool := r.flags &&& 4#8 != 0#8
/-- `SolveResult::interrupted()`: EXT_INTERRUPT = 8 (clasp/clasp_facade.h 130, 136). -/
def interrupted (r : Result) : Bool := r.flags &&& 8#8 != 0#8
end Result

/-- The result computed by `ClaspFacade::stopStep(signal, complete)`
(src/clasp_facade.cpp 926-930), `n` is `step_.numEnum`. -/
def stopStep (signal : Nat) (complete : Bool) (n : Nat) : Result :=
  let base : BitVec 8 :=
    if complete then (if n ≠ 0 then 1#8 else 2#8) ||| 4#8
    else (if n ≠ 0 then 1#8 else 0#8)
  { flags := if signal ≠ 0 then base ||| 8#8 else base, signal := BitVec.ofNat 8 signal }

/-- `SolveStrategy::SIGERROR` and `SIGCANCEL` (src/clasp_facade.cpp 206). -/
def sigError : Nat := 128
/-- See `sigError` (src/clasp_facade.cpp 206). -/
def sigCancel : Nat := 9

/-- `detachAlgo(more, nException)` (src/clasp_facade.cpp 344-371): the result of the step and
the final value of `signal_`. If an exception was thrown, `signal_` becomes SIGERROR unless a
signal is already set (line 361) and only then `stopStep` is called. Exceptions thrown by
`algo_->stop()`, `stopStep` or the handler themselves are not modelled. -/
def detachAlgo (signal : Nat) (more exc : Bool) (n : Nat) : Result × Nat :=
  let sig := if exc && signal = 0 then sigError else signal
  (stopStep sig (!more) n, sig)

/-- The search outcomes `startAlgo` can see (src/clasp_facade.cpp 318-343): `skipped` because a
signal was pending or the master solver has a conflict (`ctxOk` is `ctx.ok()`); `algo_->solve`
returned `more`; an exception left it. -/
inductive Outcome
  | skipped (ctxOk : Bool)
  | returned (more : Bool)
  | thrown
  deriving DecidableEq, Repr

/-- `startAlgo` after the search (src/clasp_facade.cpp 318-343): `more` is initialised to true
and keeps this value if an exception is thrown. -/
def finish (signal : Nat) (o : Outcome) (n : Nat) : Result × Nat :=
  match o with
  | .skipped ok => detachAlgo signal ok false n
  | .returned more => detachAlgo signal more false n
  | .thrown => detachAlgo signal true true n

/-- Exit codes (clasp/cli/clasp_app.h 44-53). -/
def eInterrupt : Nat := 1
/-- See `eInterrupt` (clasp/cli/clasp_app.h 47). -/
def eSat : Nat := 10
/-- See `eInterrupt` (clasp/cli/clasp_app.h 48). -/
def eExhaust : Nat := 20
/-- See `eInterrupt` (clasp/cli/clasp_app.h 49). -/
def eMemory : Nat := 33
/-- See `eInterrupt` (clasp/cli/clasp_app.h 50). -/
def eError : Nat := 65

/-- `ClaspAppBase::exitCode(run)` (src/clasp_app.cpp 277-283). -/
def exitCode (r : Result) : Nat :=
  (if r.sat then eSat else 0) ||| (if r.exhausted then eExhaust else 0) |||
    (if r.interrupted then eInterrupt else 0)

/-- How the application ends: `ok` normally, `memory`/`error` by an exception caught in
`ClaspAppBase::run` (src/clasp_app.cpp 218-224), `signalled` by a signal that could not be
forwarded to the search (`onSignal`, 227-233). -/
inductive AppEnd
  | ok | memory | error | signalled
  deriving DecidableEq, Repr

/-- The exit code set before `shutdown` (src/clasp_app.cpp 218-224, 229-231). -/
def preCode : AppEnd → Nat
  | .ok => 0
  | .memory => eMemory
  | .error => eError
  | .signalled => eInterrupt

/-- The process exit code: `setExitCode(getExitCode() | exitCode(result))`
(src/clasp_app.cpp 208). -/
def appCode (a : AppEnd) (r : Result) : Nat := preCode a ||| exitCode r

end Clasp.Facade
