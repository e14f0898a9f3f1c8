import Verif.Ext.DepGraph
/-!
# The acyclicity checker

Models `AcyclicityCheck` (clasp/dependency_graph.h:402-470, src/dependency_graph.cpp:838-1068) with `ExtDepGraph::attach`.  The solver is the part the checker talks to: trail, levels,
queue, watches, conflict.  It is driven by arbitrary events: assignments, propagation from the queue, decisions, conflicts, backjumps, interrupts, growth of the graph and new solving
steps.  The backward search, during which the solver propagates, is a sequence of small steps; the forward search is a function.

Simplifications: `finalizeConflictClause` does not change the clause that is added in mode `prop_full`; the strategy is fixed; the checker is not removed; several
arcs with the same condition are watched by several watches in the order in which these were added.
-/

namespace Clasp.Acyc
open Clasp.Core (Lit)
open Clasp.DepGraph (Arc Inv Gr fwdOf invOf)

/-- An assigned literal with its level (clasp/solver.h `trail`, `level`); `own` says that the checker is its antecedent. -/
structure Ent where
  lit : Lit
  lev : Nat
  own : Bool
  deriving DecidableEq, Repr

/-- clasp/solver.h `conflict_`: a conflict found by something else, or a nogood of the checker whose literals are true. -/
inductive Confl
  | other
  | own (n : List Lit)
  deriving DecidableEq, Repr

/-- clasp/dependency_graph.h:411-415 `Strategy`. -/
inductive Mode
  | full
  | fullImp
  | fwd
  deriving DecidableEq, Repr

/-- The local variables of the loop of `dfsBackward` (src/dependency_graph.cpp:1015-1023); `busy` means that `propagateUntil` (line 1058) is active. -/
structure Bwd where
  root : Arc
  tag : Nat
  stack : List Nat
  node : Nat
  rest : List Inv
  busy : Bool
  deriving DecidableEq, Repr

/-- clasp/dependency_graph.h:457-469 and the part of the solver the checker talks to.  Solver: `trail` (newest first), `queue` (oldest first), decision level, conflict, the queue
saved by a stop conflict, watches of the checker.  Checker: graph, `genId_`, whether post propagators are enabled since the last growth of the graph (`ready`), strategy, `tags_`,
`tagCnt_`, `parent_`, `todo_`, `reason_`, `nogoods_`, the state of a backward search.  Ghost state: clauses added by the checker, the arcs at the time of the last `init` (`att`), whether
an interrupt discarded work (`drop`), whether work was discarded for good (`lost`), and whether watches may refer to wrong arcs (`stale`). -/
structure St where
  g : Gr
  trail : List Ent
  queue : List Lit
  dl : Nat
  confl : Option Confl
  stopq : Option (List Lit)
  watch : List (Lit × Nat)
  gid : Nat × Nat
  ready : Bool
  mode : Mode
  tags : List Nat
  tagCnt : Nat
  parent : List (Lit × Nat)
  todo : List Arc
  reason : List Lit
  nogoods : List (Nat × List Lit)
  phase : Option Bwd
  learnt : List (List Lit)
  att : List Arc
  drop : Bool
  lost : Bool
  stale : Bool
  deriving DecidableEq, Repr

/-- src/dependency_graph.cpp:784, 893 and the start of a solver. -/
def St.start (m : Mode) : St :=
  { g := Gr.start, trail := [], queue := [], dl := 0, confl := none, stopq := none, watch := [], gid := (0, 0), ready := false, mode := m, tags := [], tagCnt := 0, parent := [],
    todo := [], reason := [], nogoods := [], phase := none, learnt := [], att := [], drop := false, lost := false, stale := false }

/-- clasp/solver.h `isTrue(p)`. -/
def isTrue (σ : St) (p : Lit) : Bool := σ.trail.any fun e => e.lit == p

/-- clasp/solver.h `value(v) == value_free`. -/
def isFree (σ : St) (p : Lit) : Bool := σ.trail.all fun e => e.lit.var != p.var

/-- clasp/solver.h `level(v)`: the level of a variable (0 if it is not assigned). -/
def level (σ : St) (v : Nat) : Nat := ((σ.trail.find? fun e => e.lit.var == v).map Ent.lev).getD 0

/-- clasp/solver.h `assign`: a free literal becomes true. -/
def assign (σ : St) (p : Lit) (own : Bool) : St := { σ with trail := ⟨p, σ.dl, own⟩ :: σ.trail, queue := σ.queue ++ [p] }

/-- src/solver.cpp:823-835 `cancelPropagation` after a conflict: the queue is cleared, and `reset` (src/dependency_graph.cpp:944-947) clears the work of the checker. -/
def setConfl (σ : St) (c : Confl) : St := { σ with confl := some c, queue := [], todo := [], reason := [], phase := none }

/-- src/dependency_graph.cpp:842-860: one iteration of the loop of `attach` for arc `a` with identifier `i`; the second component is `update`. -/
def attachArc (σ : St) (u : Nat) (i : Nat) (a : Arc) : St × Nat :=
  if a.head ≠ a.tail then
    if isFree σ a.lit then
      if u = 0 ∨ σ.watch.all (fun w => w.1 != a.lit) then ({ σ with watch := σ.watch ++ [(a.lit, i)] }, u)
      else ({ σ with watch := σ.watch.set (σ.watch.findIdx fun w => w.1 == a.lit) (a.lit, i) }, u - 1)
    else if isTrue σ a.lit then ({ σ with todo := σ.todo ++ [a] }, u)
    else (σ, u)
  else if isTrue σ a.lit.neg then (σ, u)
  else if isFree σ a.lit then (assign σ a.lit.neg false, u)
  else (setConfl σ .other, u)

/-- src/dependency_graph.cpp:843: the loop of `attach`; a conflict ends it. -/
def attachLoop (σ : St) (u : Nat) (i : Nat) : List Arc → St
  | [] => σ
  | a :: as => if σ.confl.isSome then σ else attachLoop (attachArc σ u i a).1 (attachArc σ u i a).2 (i + 1) as

/-- Ghost: may this call of `attach` make watches refer to wrong arcs?  This is the case if all arcs were sorted anew, the checker was attached before, and two arcs share a
condition, a watched literal waits for propagation, or the arc from a node to itself makes a watched literal true (src/dependency_graph.cpp:841, 848-860). -/
def risky (σ : St) : Bool :=
  σ.gid.1 != σ.g.gen && σ.gid.2 != 0 && !(decide (σ.g.fwd.map Arc.lit).Nodup && (σ.watch.all fun w => !σ.queue.contains w.1)
    && σ.watch.all fun w => σ.g.fwd.all fun a => a.tail != a.head || a.lit.neg != w.1)

/-- src/dependency_graph.cpp:914-917: the first part of `init`. -/
def initSt (σ : St) : St :=
  { σ with tags := List.replicate σ.g.maxNode 0, tagCnt := 0, parent := σ.parent.take σ.g.maxNode ++ List.replicate (σ.g.maxNode - σ.parent.length) (⟨0, false⟩, 0), todo := [], ready := false,
           lost := σ.lost || !σ.todo.isEmpty, stale := σ.stale || risky σ }

/-- src/dependency_graph.cpp:839-841: arcs before this one are already attached. -/
def firstArc (σ : St) : Nat := if σ.gid.1 = σ.g.gen then σ.gid.2 else 0

/-- src/dependency_graph.cpp:841: the number of watches that are expected to exist. -/
def oldWatches (σ : St) : Nat := if σ.gid.1 = σ.g.gen then 0 else σ.gid.2

/-- src/dependency_graph.cpp:908-920 `init` with 838-864 `attach`. -/
def init (σ : St) : St :=
  { attachLoop (initSt σ) (oldWatches σ) (firstArc σ) ((σ.g.fwd.take σ.g.com).drop (firstArc σ)) with gid := (σ.g.gen, σ.g.com), ready := true, att := σ.g.fwd }

/-- src/dependency_graph.cpp:922-929 `startSearch`: tags are 32 bit numbers. -/
def startSearch (tags : List Nat) (cnt : Nat) : List Nat × Nat :=
  if cnt + 1 = 2 ^ 32 then (tags.map fun t => if t = cnt then 1 else 0, 2) else (tags, cnt + 1)

/-- The data of a search: `nStack_` (top first), `tags_`, `parent_` (clasp/dependency_graph.h:464-467). -/
structure Sr where
  stack : List Nat
  tags : List Nat
  parent : List (Lit × Nat)
  deriving DecidableEq, Repr

/-- clasp/dependency_graph.h:446-447 `pushVisit` after `setParent`. -/
def Sr.visit (s : Sr) (n : Nat) (tag : Nat) (p : Lit × Nat) : Sr := ⟨n :: s.stack, s.tags.set n tag, s.parent.set n p⟩

/-- src/dependency_graph.cpp:992-1010: the inner loop of `dfsForward`; the result is whether the tail of `root` was reached. -/
def fwdScan (σ : St) (root : Arc) (tag node : Nat) : List Arc → Sr → Sr × Bool
  | [], s => (s, false)
  | a :: as, s =>
    if isTrue σ a.lit then
      if a.head = root.tail then (⟨s.stack, s.tags, s.parent.set a.head (a.lit, node)⟩, true)
      else if s.tags[a.head]? = some tag then fwdScan σ root tag node as s
      else fwdScan σ root tag node as (s.visit a.head tag (a.lit, node))
    else fwdScan σ root tag node as s

/-- src/dependency_graph.cpp:989-1012: the outer loop of `dfsForward`; `none` if it does not end within the given number of iterations. -/
def fwdLoop (σ : St) (root : Arc) (tag : Nat) : Nat → Sr → Option (Sr × Bool)
  | 0, s => if s.stack = [] then some (s, false) else none
  | k + 1, s =>
    match s.stack with
    | [] => some (s, false)
    | n :: st =>
      match fwdScan σ root tag n (fwdOf σ.g n) ⟨st, s.tags, s.parent⟩ with
      | (s1, true) => some (s1, true)
      | (s1, false) => fwdLoop σ root tag k s1

/-- src/dependency_graph.cpp:998-1003, 1032-1043: the literals on the way from `n` to `stop` over the stored parents; `none` if it does not end within the given number of steps. -/
def path (par : List (Lit × Nat)) (stop : Nat) : Nat → Nat → Option (List Lit)
  | 0, n => if n = stop then some [] else none
  | k + 1, n =>
    if n = stop then some [] else
      match par[n]? with
      | none => none
      | some (p, m) => (path par stop k m).map (p :: ·)

/-- src/dependency_graph.cpp:997-1004: the path closes a cycle with `root`: its literal is forced to false.  It is true, so that this is a conflict, unless the arc does not belong to a true
literal. -/
def closeFwd (σ : St) (root : Arc) (ls : List Lit) : St :=
  if isTrue σ root.lit then setConfl σ (.own (root.lit :: ls))
  else if isFree σ root.lit then assign { σ with reason := root.lit.neg :: ls } root.lit.neg true
  else { σ with reason := root.lit.neg :: ls }

/-- src/dependency_graph.cpp:985-1014 `dfsForward`; `none` if a search does not end. -/
def dfsForward (σ : St) (root : Arc) : Option St :=
  let t := startSearch σ.tags σ.tagCnt
  match fwdLoop σ root t.2 (σ.tags.length + 1) ⟨[root.head], t.1.set root.head t.2, σ.parent⟩ with
  | none => none
  | some (s, false) => some { σ with tags := s.tags, tagCnt := t.2, parent := s.parent }
  | some (s, true) =>
    match path s.parent root.head (σ.tags.length + 1) root.tail with
    | none => none
    | some ls => some (closeFwd { σ with tags := s.tags, tagCnt := t.2, parent := s.parent } root ls)

/-- src/dependency_graph.cpp:1016-1019: the start of `dfsBackward`. -/
def startBwd (σ : St) (root : Arc) : St :=
  let t := startSearch σ.tags σ.tagCnt
  { σ with tags := t.1.set root.tail t.2, tagCnt := t.2, phase := some ⟨root, t.2, [root.tail], root.tail, [], false⟩ }

/-- src/dependency_graph.cpp:975-982: one iteration of `propagateFixpoint` up to the backward search for the arc `x`, which was taken from `todo_`. -/
def check (σ : St) (x : Arc) : Option St :=
  match dfsForward σ x with
  | none => none
  | some τ => if τ.confl.isSome ∨ τ.mode = .fwd then some τ else some (startBwd τ x)

/-- src/dependency_graph.cpp:934-942 `addClauseLit` for several literals (here: the true literals): literals of level 0 and literals already seen are skipped. -/
def addLits (σ : St) (acc : List Lit) : List Lit → List Lit
  | [] => acc
  | p :: ps => if level σ p.var ≠ 0 ∧ p ∉ acc then addLits σ (acc ++ [p]) ps else addLits σ acc ps

/-- src/dependency_graph.cpp:1045-1058: the literal `p` of an arc that closes a cycle with the true literals `r` is forced to false, by a clause or by a stored reason. -/
def closeBwd (σ : St) (b : Bwd) (p : Lit) (r : List Lit) : St :=
  if isTrue σ p then setConfl σ (.own (p :: r))
  else if σ.mode = .full then
    { assign σ p.neg false with reason := p.neg :: r.map Lit.neg, learnt := (p.neg :: r.map Lit.neg) :: σ.learnt, phase := some { b with busy := true } }
  else
    { assign σ p.neg true with reason := p.neg :: r, nogoods := (p.var, r) :: σ.nogoods, phase := some { b with busy := true } }

/-- src/dependency_graph.cpp:1026-1044: the reason for the arc from `t` to `b.node`. -/
def bwdReason (σ : St) (b : Bwd) (t : Nat) : Option (List Lit) :=
  match path σ.parent b.root.head (σ.tags.length + 1) t, path σ.parent b.root.tail (σ.tags.length + 1) b.node with
  | some l1, some l2 => some (addLits σ [] (b.root.lit :: l1 ++ l2))
  | _, _ => none

/-- src/dependency_graph.cpp:1023-1064: one iteration of the inner loop of `dfsBackward`, for the inverse arc `a`. -/
def bwdArc (σ : St) (b : Bwd) (a : Inv) : Option St :=
  if isTrue σ a.lit.neg ∨ σ.tags[a.tail]? = some b.tag then some { σ with phase := some b }
  else if σ.tags[a.tail]? = some (b.tag - 1) then
    match bwdReason σ b a.tail with
    | none => none
    | some r => some (closeBwd σ b a.lit r)
  else if isTrue σ a.lit then
    some { σ with parent := σ.parent.set a.tail (a.lit, b.node), tags := σ.tags.set a.tail b.tag, phase := some { b with stack := a.tail :: b.stack } }
  else some { σ with phase := some b }

/-- src/dependency_graph.cpp:1020-1067: one step of the loops of `dfsBackward`. -/
def bwdStep (σ : St) (b : Bwd) : Option St :=
  match b.rest with
  | a :: as => bwdArc σ { b with rest := as } a
  | [] =>
    match b.stack with
    | [] => some { σ with phase := none }
    | n :: st => some { σ with phase := some { b with stack := st, node := n, rest := invOf σ.g n } }

/-- clasp/dependency_graph.h:453-456 `propagate`: the arcs of the watches of `p` are put on the list of work. -/
def notify (σ : St) (p : Lit) : List Arc := (σ.watch.filter fun w => w.1 == p).filterMap fun w => σ.g.fwd[w.2]?

/-- src/solver.cpp `undoUntil`: all levels above `l` are removed. -/
def undoTo (σ : St) (l : Nat) : St := { σ with trail := σ.trail.filter fun e => e.lev ≤ l, dl := l }

/-- src/dependency_graph.cpp:966-973 `reason`. -/
def reasonOf (σ : St) (p : Lit) : List Lit :=
  match σ.reason with
  | q :: r => if q = p then r else ((σ.nogoods.find? fun n => n.1 == p.var).map Prod.snd).getD []
  | [] => ((σ.nogoods.find? fun n => n.1 == p.var).map Prod.snd).getD []

/-- The events.  `grow`: edges are added before a solving step (src/logic_program.cpp:1740-1758, src/solver.cpp:253: post propagators are disabled).  `init`: src/solver.cpp:273-282.  `asg`:
some propagation assigns a literal.  `deq`: src/solver.cpp `unitPropagate`.  `clean`: src/solver.cpp:748-752 removes watches of assigned literals.  `confl`: some
conflict, src/solver.cpp:829-836.  `jump`: src/solver.cpp `undoUntil` after a conflict, for a restart or in src/parallel_solve.cpp:884-887.  `stop`: src/solver.cpp:536-552
`setStopConflict` and 829-836.  `resume`: src/solver.cpp:499-520, 527-534.  `decide`: src/solver.cpp:813-821, after propagation has ended.  `check`: src/dependency_graph.cpp:975-982.  `bwd`: `bwdStep`.  `wake`: the end of
`propagateUntil`. -/
inductive Step : St → St → Prop
  | grow {σ : St} (os : List DepGraph.Op) (g' : Gr) (hd : σ.dl = 0) (hc : σ.confl = none) (hp : σ.phase = none) (hr : DepGraph.run σ.g os = some g') (hf : g'.frozen = true) :
      Step σ { σ with g := g', ready := false }
  | init {σ : St} (hd : σ.dl = 0) (hc : σ.confl = none) (hp : σ.phase = none) (hf : σ.g.frozen = true) : Step σ (init σ)
  | asg {σ : St} (p : Lit) (hc : σ.confl = none) (hp : ∀ b, σ.phase = some b → b.busy = true) (hf : isFree σ p = true) : Step σ (assign σ p false)
  | deq {σ : St} (p : Lit) (q : List Lit) (hc : σ.confl = none) (hp : ∀ b, σ.phase = some b → b.busy = true) (hq : σ.queue = p :: q) :
      Step σ { σ with queue := q, todo := σ.todo ++ notify σ p }
  | clean {σ : St} (hd : σ.dl = 0) (hc : σ.confl = none) (hp : σ.phase = none) (hq : σ.queue = []) : Step σ { σ with watch := σ.watch.filter fun w => isFree σ w.1 }
  | confl {σ : St} (hc : σ.confl = none) (hp : ∀ b, σ.phase = some b → b.busy = true) : Step σ (setConfl σ .other)
  | jump {σ : St} (l : Nat) (r : List Lit) (hl : l < σ.dl) (hs : σ.stopq = none) (hp : σ.phase = none) (hr : r = σ.reason ∨ r = []) :
      Step σ { undoTo σ l with queue := [], todo := [], reason := r, confl := none }
  | stop {σ : St} (hc : σ.confl = none) (hp : ∀ b, σ.phase = some b → b.busy = true) :
      Step σ { setConfl σ .other with stopq := some σ.queue, drop := !σ.todo.isEmpty || σ.phase.isSome }
  | resume {σ : St} (q : List Lit) (l : Nat) (hq : σ.stopq = some q) (hl : l ≤ σ.dl) :
      Step σ { undoTo σ l with queue := if l = σ.dl then q else [], stopq := none, confl := none, lost := σ.lost || (decide (l = σ.dl) && σ.drop) }
  | decide {σ : St} (p : Lit) (hc : σ.confl = none) (hp : σ.phase = none) (hr : σ.ready = true) (hq : σ.queue = []) (ht : σ.todo = []) (hf : isFree σ p = true) :
      Step σ (assign { σ with dl := σ.dl + 1 } p false)
  | check {σ τ : St} (x : Arc) (t : List Arc) (hc : σ.confl = none) (hp : σ.phase = none) (hr : σ.ready = true) (hq : σ.queue = []) (ht : σ.todo = x :: t)
      (hs : check { σ with todo := t } x = some τ) : Step σ τ
  | bwd {σ τ : St} (b : Bwd) (hp : σ.phase = some b) (hb : b.busy = false) (hs : bwdStep σ b = some τ) : Step σ τ
  | wake {σ : St} (b : Bwd) (hp : σ.phase = some b) (hb : b.busy = true) (hq : σ.queue = []) : Step σ { σ with phase := some { b with busy := false } }

/-- All states that can be reached; the graph is finalized before the first `init`. -/
inductive Reach (m : Mode) : St → Prop
  | start : Reach m (St.start m)
  | step {σ τ : St} : Reach m σ → Step σ τ → Reach m τ

end Clasp.Acyc
