import Mathlib.Logic.Function.Basic
import Mathlib.Data.List.Basic

/-!
# Lookahead (failed-literal detection)

Model of the candidate list and of the tests of the `Lookahead` post propagator
(src/lookahead.cpp, clasp/lookahead.h) together with `Solver::test` (src/solver.cpp 941-956).

The nodes of the two lists are the entries of the vector `nodes_`: node 0 is the head of the
circular candidate list, node 1 the head of the undo list.  `none` stands for `UINT32_MAX`.
Not modelled: the scores (only the marks `seen` and `tested` are kept), the variable `best`, the
lookahead done by `Lookahead::heuristic`, the limit on the number of applications, and literals
that are implied on a lower level than that of the test.
-/

namespace Clasp.Look

/-- A literal (clasp/literal.h 95-170), without its flag. -/
structure L where
  var : Nat
  neg : Bool
deriving DecidableEq, Repr

/-- `~p` (clasp/literal.h 137-140); the result has no flag. -/
def L.not (p : L) : L := ⟨p.var, !p.neg⟩

/-- What lookahead gets from its surroundings.
`typ`: the variable is known to the scores and is of a type to be looked at
(`validVar(v) && (varInfo(v).type() & types)`, src/lookahead.cpp 47, 132-139).
`cl`: propagation by everything of a higher priority than lookahead (`Solver::propagateUntil`,
src/solver.cpp 905-928): from the literals on the trail to those after propagation, `none` on a
conflict.
`stop`: a stop conflict is set during the propagation with the given number (e.g.
`ParallelSolve::handleMessages`, src/parallel_solve.cpp 696-713).
`split`: the answer of `Solver::clearSplitRequest` (src/lookahead.cpp 193). -/
structure Env where
  typ : Nat → Bool
  cl : List L → Option (List L)
  stop : Nat → Bool
  split : Nat → Bool

/-- The state of lookahead (clasp/lookahead.h 128-136, 200-213) and the part of the solver's state
it uses: the trail with the level of each literal, the decision level, the levels with an undo watch
for lookahead.  `saved` is the stack `saved_` with its top first, `imp1` is the flag of the head node
(`topLevelImps`), `limit` is `score.limit` (`none`: `UINT32_MAX`).  `tick` and `stick` count calls of
the surroundings. -/
structure St where
  n : Nat
  lit : Nat → L
  flg : Nat → Bool
  next : Nat → Option Nat
  last : Nat
  pos : Nat
  saved : List (Option Nat)
  imps : List L
  imp1 : Bool
  seen : Nat → Bool → Bool
  tested : Nat → Bool → Bool
  deps : List Nat
  limit : Option Nat
  trail : List (L × Nat)
  dl : Nat
  watch : Nat → Bool
  tick : Nat
  stick : Nat

/-- The constructor (src/lookahead.cpp 72-92), for a solver on level 0 without assignment. -/
def St.init (imp1 : Bool) : St where
  n := 2
  lit := fun _ => ⟨0, false⟩
  flg := fun _ => false
  next := fun i => if i = 0 then some 0 else none
  last := 0
  pos := 0
  saved := []
  imps := []
  imp1 := imp1
  seen := fun _ _ => false
  tested := fun _ _ => false
  deps := []
  limit := none
  trail := []
  dl := 0
  watch := fun _ => false
  tick := 0
  stick := 0

/-- The literals on the trail (`Solver::trail`, clasp/solver.h 561-562). -/
def St.lits (s : St) : List L := s.trail.map (·.1)

/-- `s.value(v) == value_free` (clasp/solver.h 569-571); variable 0 is always assigned. -/
def St.free (s : St) (v : Nat) : Bool := decide (v ≠ 0) && s.trail.all fun e => e.1.var != v

/-- `Lookahead::append` (src/lookahead.cpp 147-154). -/
def append (s : St) (p : L) (both : Bool) : St :=
  { s with
    n := s.n + 1
    lit := Function.update s.lit s.n p
    flg := Function.update s.flg s.n both
    next := Function.update (Function.update s.next s.last (some s.n)) s.n (some 0)
    last := s.n }

/-- `ScoreLook::clearDeps` (src/lookahead.cpp 57-64), for the marks and the limit. -/
def clearDeps (s : St) : St :=
  { s with
    seen := fun v b => if v ∈ s.deps then false else s.seen v b
    tested := fun v b => if v ∈ s.deps then false else s.tested v b
    deps := []
    limit := none }

/-- One round of the loop in `ScoreLook::scoreLits` (src/lookahead.cpp 45-52). -/
def mark (e : Env) (s : St) (l : L) : St :=
  if e.typ l.var then
    { s with
      deps := if s.seen l.var true || s.seen l.var false then s.deps else s.deps ++ [l.var]
      seen := Function.update s.seen l.var (Function.update (s.seen l.var) l.neg true) }
  else s

/-- `ScoreLook::scoreLits` (src/lookahead.cpp 35-54) for the test of `p` with consequences `seg`
(`p` included), with `addDeps` set. -/
def scoreLits (e : Env) (s : St) (p : L) (seg : List L) : St :=
  seg.foldl (mark e)
    { s with tested := Function.update s.tested p.var (Function.update (s.tested p.var) p.neg true) }

/-- `VarScore::testedBoth` (clasp/lookahead.h 64). -/
def St.both (s : St) (v : Nat) : Bool := s.tested v true && s.tested v false

/-- `Lookahead::undoLevel` called by `Solver::test` (src/lookahead.cpp 256-277): `p` was tested on the
level above the current one, `fl` is its flag, `seg` are the literals of that level. -/
def undoTest (e : Env) (s : St) (p : L) (fl : Bool) (seg : List L) : St :=
  let s1 := scoreLits e s p seg
  if s1.dl + 1 = (if s1.imp1 then 1 else 0) then
    if fl then { s1 with imps := (seg.take 2048).tail }
    else if s1.both p.var then { s1 with imps := s1.imps.filter fun l => decide (l ∈ s1.lits ++ seg) }
    else s1
  else s1

/-- Outcome of a test or a run: success, a literal whose test failed, a conflict after adding
implied literals, a stop conflict; `bad` if the end of a test is taken for the end of a level. -/
inductive Res
  | ok
  | failed (q : L)
  | conflict
  | stopped
  | bad
deriving DecidableEq, Repr

/-- `Solver::test` (src/solver.cpp 941-956).  A failing test leaves the solver on the test level until
the conflict is resolved; here that level is gone at once.  `Lookahead::undoLevel` tells the end of a
test by the size of `saved_` (src/lookahead.cpp 257). -/
def sTest (e : Env) (s : St) (p : L) (fl : Bool) : Res × St :=
  let s0 := { s with tick := s.tick + 1 }
  if e.stop s.tick then (.stopped, s0)
  else match e.cl (s.lits ++ [p]) with
    | none => (.failed p, s0)
    | some B =>
      if s.dl + 1 = s.saved.length then (.ok, undoTest e s0 p fl (B.drop s.trail.length)) else (.bad, s0)

/-- The loop of `Lookahead::checkImps` (src/lookahead.cpp 167-169): `Solver::force` for the given
literals in turn; `none` if one of them is false. -/
def forceAll (A : List L) : List L → List L → Option (List L)
  | new, [] => some new
  | new, l :: ls =>
    if l ∈ A ++ new then forceAll A new ls
    else if l.not ∈ A ++ new then none
    else forceAll A (new ++ [l]) ls

/-- `Lookahead::checkImps` (src/lookahead.cpp 163-173). -/
def checkImps (e : Env) (s : St) (p : L) : Res × St :=
  let s0 := { s with imps := [] }
  match forceAll s.lits [] (if s.both p.var then s.imps else []) with
  | none => (.conflict, s0)
  | some [] => (.ok, s0)
  | some new =>
    let s1 := { s0 with tick := s.tick + 1 }
    if e.stop s.tick then (.stopped, { s1 with trail := s.trail ++ new.map fun l => (l, s.dl) })
    else match e.cl (s.lits ++ new) with
      | none => (.conflict, { s1 with trail := s.trail ++ new.map fun l => (l, s.dl) })
      | some B => (.ok, { s1 with trail := s.trail ++ (B.drop s.trail.length).map fun l => (l, s.dl) })

/-- `Lookahead::test` (src/lookahead.cpp 157-161). -/
def test (e : Env) (s : St) (p : L) (fl : Bool) : Res × St :=
  let r1 := if s.seen p.var p.neg then (Res.ok, s) else sTest e s p fl
  if r1.1 ≠ .ok then r1
  else
    let r2 := if !fl || r1.2.seen p.var (!p.neg) then (Res.ok, r1.2) else sTest e r1.2 p.not false
    if r2.1 ≠ .ok then r2
    else if r2.2.imps.isEmpty then (.ok, r2.2)
    else checkImps e r2.2 p

/-- The handling of split requests (src/lookahead.cpp 193-195); the flag says that lookahead is to be
stopped. -/
def splitStep (e : Env) (s : St) : Bool × St :=
  let s0 := { s with stick := s.stick + 1 }
  if !e.split s.stick then (false, { s0 with limit := none })
  else match s.limit with
    | none => (false, { s0 with limit := some 100 })
    | some k => (decide (k - 1 = 0), { s0 with limit := some (k - 1) })

/-- Moving node `t` after `r` from the candidate list to the undo list, after node `u`
(src/lookahead.cpp 202-209). -/
def unlink (s : St) (r t u : Nat) : St :=
  let n1 := Function.update s.next r (s.next t)
  let n2 := Function.update n1 t (n1 u)
  { s with next := Function.update n2 u (some t) }

/-- The loop of `Lookahead::propagateLevel` (src/lookahead.cpp 192-212); the result includes the new
end of the undo list.  `none`: `UINT32_MAX` used as an index, or more than `fuel` rounds. -/
def loop (e : Env) : Nat → St → Nat → Nat → Option (Res × St × Nat)
  | 0, _, _, _ => none
  | fuel + 1, s, r, u =>
    match s.next r with
    | none => none
    | some t =>
      if t = s.pos then some (.ok, s, u)
      else
        let x := splitStep e s
        if x.1 then some (.ok, x.2, u)
        else if x.2.free (x.2.lit t).var then
          let y := test e x.2 (x.2.lit t) (x.2.flg t)
          if y.1 = .ok then loop e fuel y.2 t u
          else some (y.1, { y.2 with pos := t }, u)
        else if t ≠ x.2.last ∧ t ≠ 0 then loop e fuel (unlink x.2 r t u) r t
        else loop e fuel x.2 t u

/-- `saved_.resize(k, UINT32_MAX)` (src/lookahead.cpp 178, 281), with the top first. -/
def resize {α : Type} (sv : List (Option α)) (k : Nat) : List (Option α) :=
  List.replicate (k - sv.length) none ++ sv.drop (sv.length - k)

/-- The beginning of `Lookahead::propagateLevel` (src/lookahead.cpp 178-187), up to the end of the
undo list to use. -/
def start (s : St) : St × Nat :=
  let sv := resize s.saved (s.dl + 1)
  match sv.headD none with
  | some u => (clearDeps { s with saved := sv }, u)
  | none => (clearDeps { s with
      saved := sv
      watch := if s.dl ≠ 0 then Function.update s.watch s.dl true else s.watch }, 1)

/-- `Lookahead::propagateLevel` (src/lookahead.cpp 176-215). -/
def propagateLevel (e : Env) (s : St) : Option (Res × St) :=
  let su := start s
  let s1 := su.1
  let p := s1.lit s1.pos
  let y := if s1.free p.var then test e s1 p (s1.flg s1.pos) else (.ok, s1)
  if y.1 = .ok then
    match loop e (s1.n + 1) y.2 s1.pos su.2 with
    | none => none
    | some (r, s2, u) => some (r, { s2 with saved := some u :: s2.saved.tail })
  else some (y.1, { y.2 with saved := some su.2 :: y.2.saved.tail })

/-- `Lookahead::splice` (src/lookahead.cpp 241-253). -/
def splice (s : St) (ul : Nat) : St :=
  if ul ≠ 1 then
    let first := s.next 1
    let n1 := Function.update s.next 1 (s.next ul)
    let n2 := Function.update n1 ul (n1 0)
    { s with next := Function.update n2 0 first }
  else s

/-- `Lookahead::undoLevel` called when level `l` is undone (src/lookahead.cpp 278-286); `none` if the
entry popped is `UINT32_MAX` or missing, or if the level is taken for a test (257). -/
def undoLevel (s : St) (l : Nat) : Option St :=
  if l = s.saved.length then none
  else match resize s.saved (l + 1) with
  | some ul :: sv => some (clearDeps (splice { s with saved := sv, watch := Function.update s.watch l false } ul))
  | _ => none

/-- `Solver::undoUntil` (src/solver.cpp 1013-1038, 1105-1116): the levels above `k` are undone, the
highest first; the watches of each undone level are called. -/
def undoUntil (s : St) (k : Nat) : Nat → Option St
  | 0 => some s
  | f + 1 =>
    if s.dl ≤ k then some s
    else
      let s0 := { s with trail := s.trail.filter fun e => decide (e.2 < s.dl) }
      if s.watch s.dl then
        match undoLevel s0 s.dl with
        | none => none
        | some s1 => undoUntil { s1 with dl := s.dl - 1 } k f
      else undoUntil { s0 with dl := s.dl - 1 } k f

/-- What can happen: `Lookahead::init` adds a free variable it did not know (src/lookahead.cpp
124-145), the solver assigns a literal on the current level or decides on one, the solver goes back
to level `k`, lookahead is run (src/lookahead.cpp 217-238, one call of `propagateLevel`). -/
inductive Ev
  | append (p : L) (both : Bool)
  | assign (p : L)
  | decide (p : L)
  | undo (k : Nat)
  | run

/-- The effect of one event; `none` if it is not possible or goes wrong.  After a stopped run on level 0
literals may remain in `imps`; the next run is then on level 0 (a stopped solver goes back to its root
level, and `Solver::pushRoot`, src/solver.cpp 476-497, propagates on level 0 before the first
assumption), which is what the condition of `run` says. -/
def step (e : Env) (s : St) : Ev → Option St
  | .append p both =>
    if s.free p.var && e.typ p.var && (List.range s.n).all (fun i => (s.lit i).var != p.var) then
      some (append s p both)
    else none
  | .assign p => if s.free p.var then some { s with trail := s.trail ++ [(p, s.dl)] } else none
  | .decide p =>
    if s.free p.var then some { s with trail := s.trail ++ [(p, s.dl + 1)], dl := s.dl + 1 } else none
  | .undo k => undoUntil s k s.dl
  | .run => if s.imps.isEmpty || s.dl = 0 then (propagateLevel e s).map (·.2) else none

/-- The states that can be reached. -/
inductive Reach (e : Env) (imp1 : Bool) : St → Prop
  | init : Reach e imp1 (St.init imp1)
  | step {s s' : St} (ev : Ev) : Reach e imp1 s → Look.step e s ev = some s' → Reach e imp1 s'

end Clasp.Look
