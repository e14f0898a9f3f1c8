import Verif.Asp.UfsGraph

/-!
# Minimality check of disjunctive programs (C47)

Model of the component programs of `PrgDepGraph` (src/dependency_graph.cpp) and of the part of `DefaultUnfoundedCheck`
that uses them (src/unfounded_check.cpp 627-770).

Simplifications:
* nodes are numbered as in the program, not consecutively; the supports of an atom are derived from the heads of the bodies;
* the flattened head lists (disjunctions enclosed by sentinels) are lists of heads;
* the tester solver is a list of clauses and its top-level assignment; that it solves them correctly is an assumption
  (`TestR`), as are the literals it derives and a conflict it detects (`Step`);
* one thread: `NonHcfComponent` has one tester. With several threads the mapping is not shortened (`rem` is false);
* clauses are not simplified when they are created (see C12); the 30 bits of a variable number are unbounded.
-/

namespace Clasp.Min
open Clasp.Core Clasp.Asp

/-! ### The program -/

/-- A head of a body (`PrgEdge`, clasp/logic_program_types.h 36-62): an atom or a disjunction. Gamma edges are those of shifted rules. -/
inductive PHead
  | atom (a : Nat) (choice gamma : Bool)
  | disj (as : List Nat)
  deriving DecidableEq, Repr

/-- `PrgAtom` (clasp/logic_program_types.h 262-330): `rel` is `inUpper` and not `ignoreScc`. -/
structure PAtom where
  lit : Lit
  scc : Nat
  rel : Bool
  deriving DecidableEq, Repr

/-- `PrgBody` (clasp/logic_program_types.h 375-543). -/
structure PBody where
  lit : Lit
  body : Body
  heads : List PHead
  deriving DecidableEq, Repr

/-- The part of `LogicProgram` used by the graph (src/dependency_graph.cpp 83-165): atoms and bodies after preprocessing. -/
structure DPrg where
  natoms : Nat
  nbodies : Nat
  atom : Nat → PAtom
  body : Nat → PBody

/-- The atoms of a head (src/logic_program_types.cpp 1330-1331). -/
def PHead.atoms : PHead → List Nat
  | .atom a _ _ => [a]
  | .disj as => as

/-! ### The graph -/

/-- A head in a body node (clasp/dependency_graph.h 203-213). -/
inductive DHead
  | norm (a : Nat)
  | disj (as : List Nat)
  deriving DecidableEq, Repr

/-- `PrgDepGraph::AtomNode` (clasp/dependency_graph.h 137-172). -/
structure DAtom where
  lit : Lit
  scc : Nat
  bodies : List Nat
  disj : Bool
  deriving DecidableEq, Repr

/-- `PrgDepGraph::BodyNode` (clasp/dependency_graph.h 184-258). -/
structure DBody where
  lit : Lit
  scc : Nat
  ext : Bool
  heads : List DHead
  preds : List Nat
  deriving DecidableEq, Repr

/-- `PrgDepGraph` (clasp/dependency_graph.h 303-325): atom nodes in the order of their numbers. -/
structure DGraph where
  atoms : List Nat
  atom : Nat → DAtom
  body : Nat → DBody

section
variable (p : DPrg) (T0 : Lit → Bool)

/-- `relevantPrgAtom` (src/dependency_graph.cpp 70-72); `T0` are the literals true on level 0 when the graph is built. -/
def DPrg.relAtom (a : Nat) : Bool := decide (a < p.natoms) && (p.atom a).rel && decide ((p.atom a).scc ≠ noScc) && !T0 (p.atom a).lit.neg

/-- `relevantPrgBody` (src/dependency_graph.cpp 73-75). -/
def DPrg.relBody (b : Nat) : Bool := decide (b < p.nbodies) && !T0 (p.body b).lit.neg

/-- `PrgBody::scc` (src/logic_program_types.cpp 1311-1344). -/
def DPrg.bscc (b : Nat) : Nat := bodyScc (fun a => (p.atom a).scc) ((p.body b).body.front.map fun x => x.1.atom) ((p.body b).heads.flatMap PHead.atoms)

/-- `addPreds` (src/dependency_graph.cpp 226-235): the positive subgoals from the component of the body. -/
def DPrg.preds (b : Nat) : List Nat :=
  if p.bscc b = noScc then [] else ((p.body b).body.front.map fun x => x.1.atom).filter fun a => p.relAtom T0 a && decide ((p.atom a).scc = p.bscc b)

/-- One head in `addHeads` (src/dependency_graph.cpp 256-270) and `getAtoms` (275-286). -/
def DPrg.head : PHead → Option DHead
  | .atom a _ gamma => if !gamma && p.relAtom T0 a then some (.norm a) else none
  | .disj as => some (.disj (as.filter (p.relAtom T0)))

/-- `addBody` (src/dependency_graph.cpp 203-216) and `initBody` (289-317); the heads from the component of the body come first in the code. -/
def DPrg.bodyNode (b : Nat) : DBody where
  lit := (p.body b).lit
  scc := p.bscc b
  ext := decide (p.bscc b ≠ noScc) && (p.body b).body.isSum
  heads := (p.body b).heads.filterMap (p.head T0)
  preds := p.preds T0 b

/-- The head defines the atom and is not a gamma edge (src/dependency_graph.cpp 110-118). -/
def PHead.defines (a : Nat) : PHead → Bool
  | .atom x _ gamma => !gamma && decide (x = a)
  | .disj as => as.contains a

/-- The head is a disjunction with the atom (src/dependency_graph.cpp 114-118). -/
def PHead.disjWith (a : Nat) : PHead → Bool
  | .atom _ _ _ => false
  | .disj as => as.contains a

/-- The second pass of `addSccs` for one atom (src/dependency_graph.cpp 103-147) and `initAtom` (175-191). -/
def DPrg.atomNode (a : Nat) : DAtom where
  lit := (p.atom a).lit
  scc := (p.atom a).scc
  bodies := (List.range p.nbodies).filter fun b => p.relBody T0 b && (p.body b).heads.any (PHead.defines a)
  disj := (List.range p.nbodies).any fun b => (p.body b).heads.any (PHead.disjWith a)

/-- `addSccs` (src/dependency_graph.cpp 83-151). -/
def DPrg.graph : DGraph := ⟨(List.range p.natoms).filter (p.relAtom T0), p.atomNode T0, p.bodyNode T0⟩

end

/-! ### The component program -/

/-- `Mapping` (src/dependency_graph.cpp 380-396). -/
structure Mapping where
  node : Nat
  var : Nat
  ext : Nat
  deriving DecidableEq, Repr

/-- `disj()` (src/dependency_graph.cpp 386). -/
def Mapping.disj (m : Mapping) : Bool := decide (m.ext ≠ 0)
/-- `hasTp()` (src/dependency_graph.cpp 387). -/
def Mapping.hasTp (m : Mapping) : Bool := decide (m.ext = 2)
/-- `up()` (src/dependency_graph.cpp 388). -/
def Mapping.up (m : Mapping) : Lit := ⟨m.var, false⟩
/-- `hp()` (src/dependency_graph.cpp 389). -/
def Mapping.hp (m : Mapping) : Lit := ⟨m.var + 1, false⟩
/-- `tp()` (src/dependency_graph.cpp 390). -/
def Mapping.tp (m : Mapping) : Lit := ⟨(m.var + 2) * (if m.hasTp then 1 else 0), false⟩
/-- `fb()` (src/dependency_graph.cpp 392). -/
def Mapping.fb (m : Mapping) : Lit := ⟨m.var, decide (m.ext % 2 ≠ 0)⟩
/-- `eq()` (src/dependency_graph.cpp 393). -/
def Mapping.eq (m : Mapping) : Bool := decide (m.ext ≠ 0)

/-- `ComponentMap` (src/dependency_graph.cpp 377-418) with the clauses and the top-level assignment of the tester; `dead` if
the tester has a conflict on level 0 (the component is then removed, or its tests always fail). -/
structure Comp where
  atoms : List Mapping
  bodies : List Mapping
  cls : List (List Lit)
  top : List Lit
  dead : Bool
  deriving DecidableEq, Repr

section
variable (g : DGraph) (old : Bool) (T0 : Lit → Bool)

/-- `addNonHcf` (src/dependency_graph.cpp 329-337): the atoms of the component. -/
def sccAtoms (c : Nat) : List Nat := g.atoms.filter fun a => decide ((g.atom a).scc = c)

/-- `addNonHcf` (src/dependency_graph.cpp 339-350): the bodies defining an atom of the component. -/
def sccBodies (c : Nat) : List Nat := ((sccAtoms g c).flatMap fun a => (g.atom a).bodies).foldl (fun l b => if b ∈ l then l else l ++ [b]) []

/-- `addVars` (src/dependency_graph.cpp 425-444), the atoms: mapping and number of the next variable. The nodes are in
increasing order, so that sorting (446) changes nothing. -/
def addAtoms : List Nat → Nat → List Mapping × Nat
  | [], n => ([], n)
  | a :: r, n =>
    if T0 (g.atom a).lit.neg then addAtoms r n
    else if !(old || (g.atom a).disj) then (⟨a, n, 0⟩ :: (addAtoms r (n + 1)).1, (addAtoms r (n + 1)).2)
    else if T0 (g.atom a).lit then (⟨a, n, 1⟩ :: (addAtoms r (n + 2)).1, (addAtoms r (n + 2)).2)
    else (⟨a, n, 2⟩ :: (addAtoms r (n + 3)).1, (addAtoms r (n + 3)).2)

/-- `addVars` (src/dependency_graph.cpp 447-470), the bodies. A literal is `seen` iff an earlier body has it. -/
def addBodies : List Nat → Nat → List Mapping → List Mapping
  | [], _, ms => ms
  | b :: r, n, ms =>
    if T0 (g.body b).lit.neg then addBodies r n ms
    else if !(ms.any fun m => !m.eq && decide ((g.body m.node).lit = (g.body b).lit)) && !T0 (g.body b).lit then addBodies r (n + 1) (ms ++ [⟨b, n, 0⟩])
    else if T0 (g.body b).lit then addBodies r n (ms ++ [⟨b, 0, 1⟩])
    else addBodies r n (ms ++ [⟨b, ((ms.reverse.find? fun m => decide ((g.body m.node).lit = (g.body b).lit)).map Mapping.var).getD 0, 2⟩])

/-- `findAtom` (src/dependency_graph.cpp 415): the first entry whose node is not smaller. -/
def lookup (as : List Mapping) (a : Nat) : Option Mapping := as.find? fun m => decide (a ≤ m.node)

/-- `findAtom` where an entry is taken for granted. -/
def find (as : List Mapping) (a : Nat) : Mapping := (lookup as a).getD ⟨0, 0, 0⟩

/-- `addAtomConstraints` (src/dependency_graph.cpp 488-495), the clauses of one atom. -/
def atomClauses (m : Mapping) : List (List Lit) :=
  if m.disj then [[m.tp.neg, m.up, m.hp], [m.hp.neg, m.tp], [m.hp.neg, m.up.neg]] else []

/-- `addAtomConstraints` (src/dependency_graph.cpp 484-499). -/
def addAtomConstraints (as : List Mapping) : List (List Lit) := as.flatMap atomClauses ++ [as.map Mapping.up]

/-- The common part of the clauses of a body (src/dependency_graph.cpp 523-529). -/
def bodyBase (c : Nat) (as : List Mapping) (m : Mapping) : List Lit :=
  m.fb :: (if (g.body m.node).scc = c then (g.body m.node).preds.map fun a => (find as a).up else [])

/-- `getAtom(hIt[1]).scc` (src/dependency_graph.cpp 516); the sentinel has no component (50). -/
def disjScc : List Nat → Nat
  | [] => noScc
  | a :: _ => (g.atom a).scc

/-- `addBodyConstraints` (src/dependency_graph.cpp 515-551) for one head. -/
def headClauses (c : Nat) (as : List Mapping) (m : Mapping) : DHead → List (List Lit)
  | .norm a => if (g.atom a).scc ≠ c then [] else [bodyBase g c as m ++ [(find as a).up.neg]]
  | .disj hs => if disjScc g hs ≠ c then [] else
      hs.map fun a => bodyBase g c as m ++ [(find as a).up.neg] ++ (hs.filter fun o => decide (o ≠ a)).map fun o => (find as o).hp

/-- The accesses in `headClauses` are defined: `findAtom` does not return the end (src/dependency_graph.cpp 532, asserted in line 533), and `hp`
(389, asserted there) is used only if it exists. -/
def headDefined (c : Nat) (as : List Mapping) (m : Mapping) : DHead → Bool
  | .norm a => decide ((g.atom a).scc ≠ c) || (lookup as a).isSome && (decide ((g.body m.node).scc ≠ c) || (g.body m.node).preds.all fun x => (lookup as x).isSome)
  | .disj hs => decide (disjScc g hs ≠ c) || (hs.all fun a => (lookup as a).isSome && ((hs.all fun o => decide (o = a)) || (find as a).disj)) &&
      (decide ((g.body m.node).scc ≠ c) || (g.body m.node).preds.all fun x => (lookup as x).isSome)

/-- `addBodyConstraints` (src/dependency_graph.cpp 510-554): the clauses. -/
def addBodyConstraints (c : Nat) (as ms : List Mapping) : List (List Lit) :=
  ms.flatMap fun m => if T0 (g.body m.node).lit.neg then [] else (g.body m.node).heads.flatMap (headClauses g c as m)

/-- No body is extended (src/dependency_graph.cpp 514 `POTASSCO_REQUIRE`), and all accesses are defined. -/
def buildDefined (c : Nat) (as ms : List Mapping) : Bool :=
  ms.all fun m => T0 (g.body m.node).lit.neg || !(g.body m.node).ext && (g.body m.node).heads.all (headDefined g c as m)

/-- The constructor of `NonHcfComponent` (src/dependency_graph.cpp 621-637): none if it throws. Bodies that share a literal with
an earlier one are removed from the mapping (553-555). The first variable of the tester is 1. -/
def build (c : Nat) : Option Comp :=
  let as := addAtoms g old T0 (sccAtoms g c) 1
  let ms := addBodies g T0 (sccBodies g c) as.2 []
  if buildDefined g T0 c as.1 ms then
    some ⟨as.1, ms.filter fun m => !m.eq, addAtomConstraints as.1 ++ addBodyConstraints g T0 c as.1 ms, [], false⟩
  else none

/-- `mapGeneratorAssignment` (src/dependency_graph.cpp 559-574), the assumptions for one atom; `T` are the true literals. -/
def atomAssume (T : Lit → Bool) (m : Mapping) : List Lit :=
  (if m.hasTp then [if T (g.atom m.node).lit then m.tp else m.tp.neg] else []) ++ (if T (g.atom m.node).lit.neg then [m.up.neg] else [])

/-- `mapGeneratorAssignment` (src/dependency_graph.cpp 570-573), the assumption for one body. -/
def bodyAssume (T : Lit → Bool) (m : Mapping) : Lit := if T (g.body m.node).lit.neg then m.fb else m.fb.neg

/-- `mapGeneratorAssignment` (src/dependency_graph.cpp 559-574). -/
def assume (T : Lit → Bool) (k : Comp) : List Lit := k.atoms.flatMap (atomAssume g T) ++ k.bodies.map (bodyAssume g T)

/-- `mapTesterModel` (src/dependency_graph.cpp 576-584). -/
def mapModel (k : Comp) (μ : Asg) : List Nat := (k.atoms.filter fun m => decide (μ.sat m.up)).map Mapping.node

/-- `NonHcfComponent::test` (src/dependency_graph.cpp 653-681) in terms of what `BasicSolve::satisfiable` returns: the unfounded
set, or none. Assumed: the tester finds a model iff there is one. Variable 0 is always true. -/
inductive TestR (T : Lit → Bool) (k : Comp) : Option (List Nat) → Prop
  | sat (μ : Asg) : k.dead = false → μ 0 = true → (∀ cl ∈ k.cls, μ.satC cl) → μ.all k.top → μ.all (assume g T k) → TestR T k (some (mapModel k μ))
  | unsat : (k.dead = true ∨ ¬ ∃ μ : Asg, μ 0 = true ∧ (∀ cl ∈ k.cls, μ.satC cl) ∧ μ.all k.top ∧ μ.all (assume g T k)) → TestR T k none

/-- `Solver::force` on level 0 (clasp/solver.h 398-402): none if the literal is false. -/
def force (top : List Lit) (q : Lit) : Option (List Lit) := if q.neg ∈ top then none else some (if q ∈ top then top else top ++ [q])

/-- Forces literals one after the other (src/dependency_graph.cpp 606-607). -/
def forceAll : List Lit → List Lit → Option (List Lit)
  | [], top => some top
  | q :: r, top => match force top q with
    | none => none
    | some t => forceAll r t

/-- What `ComponentMap::simplify` forces for an atom (src/dependency_graph.cpp 605-607). -/
def atomForced (T : Lit → Bool) (m : Mapping) : List Lit :=
  if !T (g.atom m.node).lit.neg then (if m.hasTp then [m.tp] else [])
  else m.up.neg :: (if m.hasTp then [m.tp.neg] else [])

/-- `ComponentMap::simplify` (src/dependency_graph.cpp 596-613), the atoms: those kept and the new assignment. -/
def simpAtoms (T : Lit → Bool) (rem : Bool) : List Mapping → List Lit → Option (List Mapping × List Lit)
  | [], top => some ([], top)
  | m :: r, top =>
    if !T (g.atom m.node).lit && !T (g.atom m.node).lit.neg then (simpAtoms T rem r top).map fun x => (m :: x.1, x.2)
    else match forceAll (atomForced g T m) top with
      | none => none
      | some t => (simpAtoms T rem r t).map fun x => (if T (g.atom m.node).lit.neg && rem then x.1 else m :: x.1, x.2)

/-- `ComponentMap::simplify` (src/dependency_graph.cpp 596-613), the bodies. -/
def simpBodies (T : Lit → Bool) (rem : Bool) : List Mapping → List Lit → Option (List Mapping × List Lit)
  | [], top => some ([], top)
  | m :: r, top =>
    if !T (g.body m.node).lit && !T (g.body m.node).lit.neg then (simpBodies T rem r top).map fun x => (m :: x.1, x.2)
    else match force top (bodyAssume g T m) with
      | none => none
      | some t => (simpBodies T rem r t).map fun x => (if rem then x.1 else m :: x.1, x.2)

/-- `ComponentMap::simplify` (src/dependency_graph.cpp 585-617) and `PrgDepGraph::simplify` (354-369): `T` are the literals true
on level 0 of the generator; a component whose tester has a conflict is dead. -/
def simplify (T : Lit → Bool) (rem : Bool) (k : Comp) : Comp :=
  match simpAtoms g T rem k.atoms k.top with
  | none => { k with dead := true }
  | some x => match simpBodies g T rem k.bodies x.2 with
    | none => { k with dead := true }
    | some y => { k with atoms := x.1, bodies := y.1, top := y.2 }

end

/-! ### The check -/

section
variable (g : DGraph)

/-- The values the generator solver has given to literals: the literals of each level, level 0 first (clasp/solver_types.h 499-620). -/
abbrev Gen := List (List Lit)

/-- `Solver::isTrue` (clasp/solver.h 500). -/
def Gen.tr (s : Gen) (q : Lit) : Bool := s.any fun l => l.contains q

/-- `Solver::level` of the variable of an assigned literal (clasp/solver.h 494). -/
def Gen.level (s : Gen) (v : Nat) : Nat := s.findIdx fun l => l.any fun q => decide (q.var = v)

/-- `Solver::decisionLevel` (clasp/solver.h 488). -/
def Gen.dl (s : Gen) : Nat := s.length - 1

/-- The loop of `findNonHcfUfs` (src/unfounded_check.cpp 741-770) over the results of the tests, starting with component `i`. -/
def findUfs (res : List (Option (List Nat))) (i : Nat) : Option (List Nat) := ((res.drop i ++ res.take i).find? Option.isSome).join

/-- `findNonHcfUfs` (src/unfounded_check.cpp 751-758): position of the first of the true atoms with the smallest level; `pos` and `minDL` are
those found before, `i` is the position of the next atom. -/
def minPos (s : Gen) : List Nat → Nat → Nat × Option Nat → Nat
  | [], _, (pos, _) => pos
  | a :: r, i, (pos, d) =>
    let q := (g.atom a).lit
    if s.tr q && (match d with | none => true | some d => decide (s.level q.var < d)) then minPos s r (i + 1) (i, some (s.level q.var))
    else minPos s r (i + 1) (pos, d)

/-- `std::swap` of the first element and the one at position `i` (src/unfounded_check.cpp 759-761). -/
def swapFront (l : List Nat) (i : Nat) : List Nat := match l, l[i]? with
  | x :: r, some y => if i = 0 then l else y :: r.set (i - 1) x
  | _, _ => l

/-- `findNonHcfUfs` (src/unfounded_check.cpp 750-761): the order in which the unfounded atoms are falsified. -/
def order (s : Gen) (U : List Nat) : List Nat := swapFront U (minPos g s U 0 (0, none))

/-- `addReasonLit` (src/unfounded_check.cpp 727-736); the order of the literals is left out. -/
def addReasonLit (c : List Lit) (q : Lit) : List Lit := if q ∈ c then c else c ++ [q]

/-- `isExternal` (src/unfounded_check.cpp 658-665) for a body that is not extended. -/
def isExternal (s : Gen) (U : List Nat) (b : Nat) : Bool := (g.body b).preds.all fun x => !(U.contains x && !s.tr (g.atom x).lit.neg)

/-- `addIfReason` (src/unfounded_check.cpp 675-682) for a body that is not extended, or not from the component. -/
def addIfReason (s : Gen) (U : List Nat) (uScc : Nat) (c : List Lit) (b : Nat) : List Lit :=
  if s.tr (g.body b).lit.neg && !decide ((g.body b).lit ∈ c) && (decide ((g.body b).scc ≠ uScc) || isExternal g s U b) then addReasonLit c (g.body b).lit else c

/-- `addDeltaReason` (src/unfounded_check.cpp 711-717): the loop over the atoms of a disjunction; best literal, its level, and whether an atom is in the set. -/
def bestReason (s : Gen) (U : List Nat) : List Nat → Lit × Nat × Bool → Lit × Nat × Bool
  | [], r => r
  | x :: l, (q, lv, inU) =>
    if U.contains x then bestReason s U l (q, lv, true)
    else if s.tr (g.atom x).lit && decide (s.level (g.atom x).lit.var < lv) then bestReason s U l ((g.atom x).lit.neg, s.level (g.atom x).lit.var, inU)
    else bestReason s U l (q, lv, inU)

/-- One head in `addDeltaReason` (src/unfounded_check.cpp 698-722). -/
def deltaHead (s : Gen) (U : List Nat) (uScc b : Nat) (c : List Lit) : DHead → List Lit
  | .norm a => if (g.atom a).scc = uScc then addIfReason g s U uScc c b else c
  | .disj hs =>
    let r := bestReason g s U hs ((g.body b).lit, if s.tr (g.body b).lit.neg then s.level (g.body b).lit.var else s.dl + 1, false)
    if r.2.2 && decide (r.2.1 ≠ 0) && decide (r.2.1 ≤ s.dl) then addReasonLit c r.1 else c

/-- `BodyNode::delta` (clasp/dependency_graph.h 214, src/dependency_graph.cpp 316): the body has a disjunctive head. -/
def DBody.delta (n : DBody) : Bool := n.heads.any fun h => match h with | .norm _ => false | .disj _ => true

/-- `addDeltaReason` (src/unfounded_check.cpp 694-725): clause and picked bodies. -/
def addDeltaReason (s : Gen) (U : List Nat) (uScc : Nat) (c : List Lit × List Nat) (b : Nat) : List Lit × List Nat :=
  if b ∈ c.2 then c else ((g.body b).heads.foldl (deltaHead g s U uScc b) c.1, c.2 ++ [b])

/-- `computeReason` (src/unfounded_check.cpp 627-643) for a set found by the minimality check: the literals of the loop clause other
than the unfounded atom. `finalizeConflictClause` (644) is not modelled here. -/
def computeReason (s : Gen) (U : List Nat) : List Lit :=
  let uScc := match U with | a :: _ => (g.atom a).scc | [] => 0
  (U.foldl (fun c a => if s.tr (g.atom a).lit.neg then c else (g.atom a).bodies.foldl (fun c b =>
    if !(g.body b).delta then (addIfReason g s U uScc c.1 b, c.2) else addDeltaReason g s U uScc c b) c) ([], [])).1

end

/-! ### Runs -/

/-- A component over time: its state and the literals true on level 0 of the generator. -/
structure Run where
  k : Comp
  top : Lit → Bool

/-- What happens to a component between tests: the generator learns facts (assumed: never a literal and its complement), the tester
derives a literal or a conflict from its clauses and facts (assumed: only what follows from them), and
`DefaultUnfoundedCheck::simplify` (src/unfounded_check.cpp 254-258) simplifies it (src/dependency_graph.cpp 585-617). -/
inductive Step (g : DGraph) : Run → Run → Prop
  | fact (r : Run) (T : Lit → Bool) : (∀ q, r.top q = true → T q = true) → (∀ q, T q = true → T q.neg = false) → Step g r { r with top := T }
  | derive (r : Run) (q : Lit) : (∀ μ : Asg, μ 0 = true → (∀ cl ∈ r.k.cls, μ.satC cl) → μ.all r.k.top → μ.sat q) → Step g r { r with k := { r.k with top := r.k.top ++ [q] } }
  | conflict (r : Run) : (¬ ∃ μ : Asg, μ 0 = true ∧ (∀ cl ∈ r.k.cls, μ.satC cl) ∧ μ.all r.k.top) → Step g r { r with k := { r.k with dead := true } }
  | simp (r : Run) (rem : Bool) : r.k.dead = false → Step g r { r with k := simplify g r.top rem r.k }

/-- The states of the component `c` (src/dependency_graph.cpp 329-353, 621-684). -/
inductive Reach (g : DGraph) (old : Bool) (T0 : Lit → Bool) (c : Nat) : Run → Prop
  | init (k : Comp) : build g old T0 c = some k → (∀ q, T0 q = true → T0 q.neg = false) → Reach g old T0 c ⟨k, T0⟩
  | step (r r' : Run) : Reach g old T0 c r → Step g r r' → Reach g old T0 c r'

end Clasp.Min
