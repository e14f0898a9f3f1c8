import Mathlib.Logic.Function.Basic

/-!
# Strongly connected components of the positive dependency graph (C28)

Model of `SccChecker` (src/logic_program_types.cpp 293-399, clasp/logic_program_types.h 589-622).

Simplifications:
* node ids and scc numbers are unbounded numbers; `noNode`, `noScc` have their values in the code, so
  that a clash with a real id or number is visible (see the hypotheses of the theorems);
* the nodes are identified by type and index (`packNode` packs pointer and type);
* the loop over the call stack carries a bound on the number of iterations; `C28_terminates` proves that
  it is never reached.
-/

namespace Clasp.Scc

/-- Nodes of the dependency graph (clasp/logic_program_types.h 64 `PrgNode::Type`). -/
inductive Node
  | atom (i : Nat) | body (i : Nat) | disj (i : Nat)
  deriving DecidableEq, Repr

/-- The part of a program the checker reads: for atoms the bodies containing them with sign
(`PrgAtom::deps_begin`), for bodies the heads (`PrgBody::heads_begin`, true: an atom, false: a
disjunction), for disjunctions the atoms (`PrgDisj::begin`); `vis` is `doVisit` without the test of
`seen` (clasp/logic_program_types.h 608). -/
structure Prg where
  deps : Nat → List (Bool × Nat)
  heads : Nat → List (Bool × Nat)
  atoms : Nat → List Nat
  vis : Node → Bool

/-- The successors of a node at the positions the iterators run over (src/logic_program_types.cpp
354-384); a negative dependency (line 366 `it->sign()`) gives no node. -/
def Prg.succ (P : Prg) : Node → List (Option Node)
  | .atom a => (P.deps a).map fun d => if d.1 then none else some (.body d.2)
  | .body b => (P.heads b).map fun h => some (if h.1 then .atom h.2 else .disj h.2)
  | .disj d => (P.atoms d).map fun a => some (.atom a)

/-- clasp/logic_program_types.h 66 `noNode`. -/
def noNode : Nat := 2 ^ 28 - 1
/-- clasp/logic_program_types.h 65 `noScc`. -/
def noScc : Nat := 2 ^ 27 - 1

/-- `SccChecker::Call` (clasp/logic_program_types.h 598-602). -/
structure Call where
  node : Node
  min : Nat
  next : Nat
  deriving DecidableEq, Repr

/-- The checker (clasp/logic_program_types.h 616-621) with the fields of the nodes it changes: `seen`,
`id` and for atoms `scc`. Stacks have their top in front. -/
structure St where
  seen : Node → Bool
  id : Node → Nat
  scc : Node → Nat
  calls : List Call
  nodes : List Node
  count : Nat
  sccs : Nat
  /-- `sccAtoms_`, newest last -/
  out : List Node

/-- The loops of `recurse` over the successors from position `i` (src/logic_program_types.cpp 354-384)
with `onNode` (388-399): the new minimum and the unseen node to go to, if any. -/
def scan (P : Prg) (s : St) : List (Option Node) → Nat → Nat → Nat × Nat × Option Node
  | [], i, min => (min, i, none)
  | none :: r, i, min => scan P s r (i + 1) min
  | some v :: r, i, min =>
    if P.vis v then
      if !s.seen v then (min, i, some v)
      else scan P s r (i + 1) (if s.id v < min then s.id v else min)
    else scan P s r (i + 1) min

/-- `isNode(n, PrgNode::Atom)` (clasp/logic_program_types.h 607). -/
def Node.isAtom : Node → Bool
  | .atom _ => true
  | _ => false

/-- Lines 327-333: a trivially connected node (src/logic_program_types.cpp). -/
def popTrivial (s : St) (v : Node) : St :=
  { s with scc := if v.isAtom then Function.update s.scc v noScc else s.scc
           id := Function.update s.id v noNode
           nodes := s.nodes.tail }

/-- Lines 335-344: the loop that pops a component (src/logic_program_types.cpp); `l` is the node stack. -/
def popScc (v : Node) : List Node → St → St
  | [], s => s
  | u :: r, s =>
    let s := { s with scc := if u.isAtom then Function.update s.scc u s.sccs else s.scc
                      out := if u.isAtom then s.out ++ [u] else s.out
                      nodes := r
                      id := Function.update s.id u noNode }
    if u = v then s else popScc v r s

/-- The first lines of `recurse` (src/logic_program_types.cpp 349-353): an unseen node is numbered and
put on the node stack. -/
def enter (s : St) (c : Call) : St × Call :=
  if !s.seen c.node then
    ({ s with nodes := c.node :: s.nodes, count := s.count + 1
              id := Function.update s.id c.node s.count, seen := Function.update s.seen c.node true },
     { c with min := s.count })
  else (s, c)

/-- What follows when `recurse` returns false (src/logic_program_types.cpp 322-345). -/
def leave (s : St) (v : Node) (min : Nat) : St :=
  if min < s.id v then { s with id := Function.update s.id v min }
  else if s.nodes.head? = some v then popTrivial s v
  else let s := popScc v s.nodes s; { s with sccs := s.sccs + 1 }

/-- One round of the loop in `visitDfs` (src/logic_program_types.cpp 317-346). -/
def step (P : Prg) (s : St) : St :=
  match s.calls with
  | [] => s
  | c :: rest =>
    let (s, c) := enter { s with calls := rest } c
    match scan P s ((P.succ c.node).drop c.next) c.next c.min with
    | (min, i, some v) => { s with calls := ⟨v, 0, 0⟩ :: ⟨c.node, min, i⟩ :: rest }
    | (min, _, none) => leave s c.node min

/-- The loop of `visitDfs` (src/logic_program_types.cpp 317-346), at most `fuel` rounds. -/
def loop (P : Prg) : Nat → St → Option St
  | 0, s => if s.calls = [] then some s else none
  | fuel + 1, s => if s.calls = [] then some s else loop P fuel (step P s)

/-- `SccChecker::visitDfs` (src/logic_program_types.cpp 308-347). -/
def visitDfs (P : Prg) (fuel : Nat) (s : St) (v : Node) : Option St :=
  if P.vis v && !s.seen v then
    loop P fuel { s with calls := [⟨v, 0, 0⟩], nodes := [], count := 0 }
  else some s

/-- The constructor of `SccChecker` (src/logic_program_types.cpp 297-306): all atoms, then all bodies. -/
def check (P : Prg) (fuel : Nat) : List Node → St → Option St
  | [], s => some s
  | v :: r, s => (visitDfs P fuel s v).bind (check P fuel r)

/-- The state in which the checker starts: no node is seen; `start` is `startScc`
(src/logic_program_types.cpp 297, src/logic_program.cpp 1275-1276). -/
def init (start : Nat) (id scc : Node → Nat) : St :=
  ⟨fun _ => false, id, scc, [], [], 0, start, []⟩

end Clasp.Scc
