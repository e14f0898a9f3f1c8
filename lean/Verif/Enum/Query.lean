/-
Cautious consequences by queries: src/cb_enumerator.cpp 85-219 (`CBConsequences::QueryFinder`), 263-282 (`doInit`),
src/enumerator.cpp 104-123, 146-164 (`update`, `commitModel`, `commitUnsat`), src/solver.cpp 489-520 (`pushRoot`, `popRootLevel`),
src/solve_algorithms.cpp 468-491 (`SequentialSolve::doSolve`).

Simplifications: one solver, no optimization, no disjoint paths. The heuristic may select any open literal. Pointers `j` and `it`
running over the same array are a filter.
-/
import Verif.Enum.ConsProps
import Verif.Core.UnsatCoreProps
namespace Clasp.Core
open St

namespace Query
open Cons (trueBit estBit isTrue isEst isDef)

/-- cb_enumerator.cpp:97 `State::open` -/
def isOpen (v : Nat → Nat) (p : Lit) : Bool := decide (v p.var &&& estBit p ≠ 0)
/-- cb_enumerator.cpp:99 `State::push` -/
def push (v : Nat → Nat) (p : Lit) : Nat → Nat := Function.update v p.var (estBit p ||| trueBit p)
/-- cb_enumerator.cpp:100 `State::pop` -/
def pop (v : Nat → Nat) (p : Lit) : Nat → Nat := Function.update v p.var 0
/-- cb_enumerator.cpp:101 `State::fix` -/
def fix (v : Nat → Nat) (p : Lit) : Nat → Nat := Function.update v p.var (trueBit p)

/-- cb_enumerator.cpp:142-151 `initUpper`: the open literals and the values -/
def initUpper (s : St) : List Lit → (Nat → Nat) → List Lit × (Nat → Nat)
  | [], v => ([], v)
  | p :: r, v =>
    if s.isTrue p then
      if s.level p.var ≠ 0 then (p :: (initUpper s r (push v p)).1, (initUpper s r (push v p)).2) else initUpper s r (fix v p)
    else initUpper s r v

/-- cb_enumerator.cpp:153-163 `updateUpper` -/
def updateUpper (s : St) (root : Nat) : List Lit → (Nat → Nat) → List Lit × (Nat → Nat)
  | [], v => ([], v)
  | p :: r, v =>
    if isOpen v p then
      if !s.isTrue p then updateUpper s root r (pop v p)
      else if s.level p.var < root then updateUpper s root r (fix v p)
      else (p :: (updateUpper s root r v).1, (updateUpper s root r v).2)
    else updateUpper s root r v

/-- cb_enumerator.cpp:165-177 `updateOpen`: `front` are the literals before `i`; a removed literal is replaced by the last one. The
number bounds the length of the rest. -/
def openLoop (s : St) : Nat → List Lit → List Lit → (Nat → Nat) → List Lit × (Nat → Nat)
  | 0, front, rest, v => (front ++ rest, v)
  | _ + 1, front, [], v => (front, v)
  | k + 1, front, q :: r, v =>
    if s.value q.var == none && isOpen v q then openLoop s k (front ++ [q]) r v
    else openLoop s k front (r.getLast?.toList ++ r.dropLast) (if s.isTrue q then fix v q else if isOpen v q then pop v q else v)

/-- cb_enumerator.cpp:165-177 `updateOpen` -/
def updateOpen (s : St) (open_ : List Lit) (v : Nat → Nat) : List Lit × (Nat → Nat) := openLoop s open_.length [] open_ v

/-- A solver computing consequences by queries: `QueryFinder::open_`, the values of the shared state, and `query_`.
`due`: `update` is called next; `fin`: there are no further queries; `done` (history): the number of models and refuted queries. -/
structure Sys where
  sys : Core.Sys
  cand : List Lit
  val : Nat → Nat
  query : Lit
  due : Bool
  fin : Bool
  done : Nat

/-- cb_enumerator.cpp:187-198 `doCommitModel` -/
def commitModel (x : Sys) : Sys :=
  let r := if x.query.var = 0 then initUpper x.sys.st x.cand (fix x.val x.query.neg)
    else updateUpper x.sys.st (x.sys.st.level x.query.var) x.cand (pop x.val x.query)
  { x with cand := r.1, val := r.2, due := true, done := x.done + 1 }

/-- cb_enumerator.cpp:127-133 `popQuery`: the number of levels to remove -/
def popLevels (s : St) (q : Lit) : Nat := if s.isFalse q && decide (q ≠ litFalse) then s.root - s.level q.var + 1 else 0

/-- cb_enumerator.cpp:127-133 `popQuery`, solver.cpp:499-520: the solver afterwards; `s` is its state before -/
def popped (learn : Bool) (x : Core.Sys) (s : St) (q : Lit) : Core.Sys :=
  { x.setSt (s.popRootLevel learn (popLevels x.st q)).1 with
    asm := (List.range (x.st.root - popLevels x.st q)).map fun i => x.st.decision (i + 1) }

/-- cb_enumerator.cpp:200-209 `doCommitUnsat` after a conflict on the root level -/
def commitUnsat (learn : Bool) (x : Sys) : Sys :=
  let y := popped learn x.sys x.sys.st x.query
  if x.query.var ≠ 0 ∧ y.st.conflict = [] ∧ isOpen x.val x.query = true then
    { x with sys := y, cand := (updateOpen y.st x.cand (fix x.val x.query)).1, val := (updateOpen y.st x.cand (fix x.val x.query)).2,
             due := true, done := x.done + 1 }
  else { x with sys := y, due := true }

/-- solver.cpp:489-497 `pushRoot(p)` on the root level without conflict. The flag tells whether a query that got a value during
propagation is allowed. -/
inductive PushRoot (learn : Bool) (n : Nat) (E : Asg → Prop) (clean : Bool) : Core.Sys → Lit → Core.Sys → Prop
  /-- solver.cpp:494-496 -/
  | assume {x y : Core.Sys} {p : Lit} (hs : Core.Sys.Settle learn n E x y) (hy : y.st.conflict = []) (hf : y.st.front = y.st.trail.length)
      (hv : y.st.value p.var = none) (hn : p.var ≤ n) :
      PushRoot learn n E clean x p { y.setSt ((y.st.decide' p).pushRootLevel 1) with asm := p :: y.asm }
  /-- solver.cpp:492: propagation fails -/
  | queue {x y : Core.Sys} {p : Lit} (hs : Core.Sys.Settle learn n E x y) (hy : y.st.conflict ≠ []) : PushRoot learn n E clean x p y
  /-- solver.cpp:493: the literal holds already -/
  | holds {x y : Core.Sys} {p : Lit} (hs : Core.Sys.Settle learn n E x y) (hy : y.st.conflict = []) (hf : y.st.front = y.st.trail.length)
      (hv : y.st.isTrue p = true) (hcl : clean = false) : PushRoot learn n E clean x p { y with asm := p :: y.asm }
  /-- solver.cpp:493: the literal is false; `pushRoot` fails without a conflict -/
  | fails {x y : Core.Sys} {p : Lit} (hs : Core.Sys.Settle learn n E x y) (hy : y.st.conflict = []) (hf : y.st.front = y.st.trail.length)
      (hv : y.st.isFalse p = true) (hcl : clean = false) : PushRoot learn n E clean x p y

/-- The run. With `clean = true` a literal that is selected as query is still free when it is pushed (see `PushRoot`), and a query
that is not answered is free when it is asked again. -/
inductive Step (learn : Bool) (n : Nat) (E : Asg → Prop) (clean : Bool) : Sys → Sys → Prop
  /-- any call that changes neither constraints nor assumptions -/
  | solver {x : Sys} (y : Core.Sys) (hd : x.due = false) (hn : x.fin = false) (h : Core.Sys.Step learn n E (fun _ => true) x.sys y)
      (h1 : y.orig = x.sys.orig) (h2 : y.asm = x.sys.asm) (h3 : y.found = []) (h4 : y.recs = []) (h5 : y.st.root = x.sys.st.root) :
      Step learn n E clean x { x with sys := y }
  /-- solve_algorithms.cpp:480, enumerator.cpp:146-151: a model -/
  | model {x : Sys} (hd : x.due = false) (hn : x.fin = false) (ht : x.sys.st.Total n) (hE : E x.sys.st.model) : Step learn n E clean x (commitModel x)
  /-- solve_algorithms.cpp:485, enumerator.cpp:152-162: there is no model; if the conflict remains, the search is complete -/
  | unsat {x : Sys} (hd : x.due = false) (hn : x.fin = false) (hc : x.sys.st.conflict ≠ []) (hr : x.sys.st.dl = x.sys.st.root)
      (hok : (commitUnsat learn x).sys.st.conflict = []) : Step learn n E clean x (commitUnsat learn x)
  /-- the same after backtracking has failed, i.e. with a stop conflict: no commit (cb_enumerator.cpp:202) -/
  | stop {x : Sys} (hd : x.due = false) (hn : x.fin = false) (hc : x.sys.st.conflict ≠ []) (hb : (x.sys.st.backtrack learn).2 = false)
      (hok : (popped learn x.sys (x.sys.st.backtrack learn).1 x.query).st.conflict = []) :
      Step learn n E clean x { x with sys := popped learn x.sys (x.sys.st.backtrack learn).1 x.query, due := true }
  /-- cb_enumerator.cpp:217: the query is not answered yet -/
  | keep {x : Sys} (hd : x.due = true) (ho : isOpen x.val x.query = true) (hv : x.sys.st.value x.query.var ≠ none)
      (hcl : clean = false) : Step learn n E clean x { x with due := false }
  /-- cb_enumerator.cpp:211-216 `doUpdate`, the same query again -/
  | again {x : Sys} (z : Core.Sys) (hd : x.due = true) (ho : isOpen x.val x.query = true) (hv : x.sys.st.value x.query.var = none)
      (hok : (popped learn x.sys x.sys.st x.query).st.conflict = [])
      (hp : PushRoot learn n E clean (popped learn x.sys x.sys.st x.query) x.query.neg z) : Step learn n E clean x { x with sys := z, due := false }
  /-- cb_enumerator.cpp:178-185, 211-216: a new query -/
  | next {x : Sys} (q : Lit) (z : Core.Sys) (hd : x.due = true) (ho : isOpen x.val x.query = false)
      (hok : (popped learn x.sys x.sys.st x.query).st.conflict = [])
      (hq : q ∈ (updateOpen (popped learn x.sys x.sys.st x.query).st x.cand x.val).1)
      (hp : PushRoot learn n E clean (popped learn x.sys x.sys.st x.query) q.neg z) :
      Step learn n E clean x
        { x with
          sys := z, query := q, due := false
          cand := (updateOpen (popped learn x.sys x.sys.st x.query).st x.cand x.val).1
          val := (updateOpen (popped learn x.sys x.sys.st x.query).st x.cand x.val).2 }
  /-- cb_enumerator.cpp:178-185, 211-216: no further query; the conflict set by `force(lit_false())` ends the search -/
  | fin {x : Sys} (hd : x.due = true) (hn : x.fin = false) (ho : isOpen x.val x.query = false)
      (hok : (popped learn x.sys x.sys.st x.query).st.conflict = [])
      (hq : (updateOpen (popped learn x.sys x.sys.st x.query).st x.cand x.val).1 = []) :
      Step learn n E clean x
        { x with
          sys := popped learn x.sys x.sys.st x.query, query := litFalse, due := false, fin := true, cand := []
          val := (updateOpen (popped learn x.sys x.sys.st x.query).st x.cand x.val).2 }

/-- cb_enumerator.cpp:109-111, 281: the start; `cand` are the candidates, the first query is `lit_false()` -/
structure Start (learn : Bool) (n : Nat) (E : Asg → Prop) (x : Sys) : Prop where
  reach : Core.Sys.Reach learn n E (fun _ => true) x.sys
  found : x.sys.found = []
  recs : x.sys.recs = []
  query : x.query = litFalse
  val : x.val = push (fun _ => 0) litFalse
  due : x.due = false
  fin : x.fin = false
  done : x.done = 0
  vars : ∀ p ∈ x.cand, p.var ≤ n

/-- the states of a run -/
inductive Reach (learn : Bool) (n : Nat) (E : Asg → Prop) (clean : Bool) (x0 : Sys) : Sys → Prop
  | init : Reach learn n E clean x0 x0
  | step {x y : Sys} : Reach learn n E clean x0 x → Step learn n E clean x y → Reach learn n E clean x0 y

end Query
end Clasp.Core
