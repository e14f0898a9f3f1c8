import Verif.Asp.Sem
import Verif.Core.Sem

/-!
# Creating constraints from a simplified program (C30)

Model of `LogicProgram::addConstraints`, `toConstraint`, `PrgAtom::addConstraints`,
`PrgBody::addConstraints`, `PrgHead::assignVar` and `PrgBody::assignVar`.

Simplifications:
* the program does not change any more while variables are assigned (in the code the assignment of
  variables is interleaved with simplification, src/asp_preprocessor.cpp);
* no disjunctions: the supports of an atom are bodies, and lines 1628-1638 of src/logic_program.cpp do
  nothing;
* one solving step: no atoms thawed, no step literals (src/logic_program.cpp 1625-1627, 1643-1646);
* a clause or weight constraint handed to the solver counts as one constraint with its meaning; what the
  solver does with it is the subject of C08 (clauses) and C21 (weight constraints);
* flags of variables (`setNant`, `setFrozen`, `setInput`, `setVarEq`) are left out, and so is the
  dependency graph (1661-1668).
-/

namespace Clasp.Asp
open Clasp.Core

/-- clasp/literal.h 150 `lit_false`; also the literal of a node without variable, `PrgNode::noLit`
(clasp/logic_program_types.h 67). -/
def litFalse : Lit := litTrue.neg

/-- The values of a node (clasp/literal.h 215-217, clasp/logic_program_types.h 50). -/
inductive Val
  | free | true | false | weak
  deriving DecidableEq, Repr

/-- An edge from an atom to a supporting body (clasp/logic_program_types.h 153-189): `choice` is
`isChoice`; normal and gamma edges are not distinguished here. -/
structure Edge where
  body : Nat
  choice : Bool
  deriving DecidableEq, Repr

/-- The part of a `PrgAtom` used here (clasp/logic_program_types.h 129-135, 314, 337). -/
structure ANode where
  rel : Bool
  val : Val
  lit : Lit
  sups : List Edge
  deriving DecidableEq, Repr

/-- The part of a `PrgBody` used here (clasp/logic_program_types.h 129-135, 430-560). -/
structure BNode where
  rel : Bool
  val : Val
  lit : Lit
  body : Body
  deriving DecidableEq, Repr

/-- The program (clasp/logic_program.h 590-592 `atoms_`, `bodies_`); `conflict` is `hasConflict`
(clasp/logic_program.h 511). -/
structure Prg where
  natoms : Nat
  atom : Nat → ANode
  nbodies : Nat
  body : Nat → BNode
  conflict : Bool

/-- A constraint handed to the solver: a clause (`SharedContext::addUnary`, `addBinary`,
`ClauseCreator::end`) or `WeightConstraint::create` with `W` (src/weight_constraint.cpp 149). -/
inductive Con
  | clause (c : List Lit)
  | weight (W : Lit) (ls : List (Lit × Int)) (bound : Int)
  deriving DecidableEq, Repr

/-- `Literal::operator^` (clasp/literal.h 121). -/
def flipIf (p : Lit) (b : Bool) : Lit := if b then p.neg else p

/-- `PrgNode::hasVar` (clasp/logic_program_types.h 86). -/
def hasVar (l : Lit) : Bool := decide (l ≠ litFalse)

/-- `PrgNode::trueLit` (clasp/logic_program_types.h 96-100). -/
def trueLit (v : Val) (l : Lit) : Lit :=
  if v = .free then litTrue else flipIf l (decide (v = .false))

/-- The literal of a goal: `prg.getAtom(it->var())->literal() ^ it->sign()` (src/logic_program_types.cpp
1291, 1302). -/
def Prg.goal (p : Prg) (l : BLit) : Lit := flipIf (p.atom l.atom).lit l.neg

/-- The supports kept by `PrgAtom::addConstraints` (src/logic_program_types.cpp 643-648). -/
def Prg.supports (p : Prg) (a : Nat) : List Edge :=
  (p.atom a).sups.filter fun e => (p.body e.body).rel && hasVar (p.body e.body).lit

/-- `PrgAtom::addConstraints` (src/logic_program_types.cpp 637-659): the constraints in the order in
which they are added. -/
def Prg.atomCons (p : Prg) (a : Nat) : List Con :=
  ((p.supports a).filter (!·.choice)).map (fun e => .clause [(p.atom a).lit, (p.body e.body).lit.neg]) ++
  [.clause ((p.atom a).lit.neg :: (p.supports a).map fun e => (p.body e.body).lit)]

/-- The loop of `PrgBody::addConstraints` for normal bodies (src/logic_program_types.cpp 1290-1297): the
binary clauses, the literals added to the long clause and `taut`. -/
def Prg.goalLoop (p : Prg) (B : Lit) : List BLit → List Con × List Lit × Bool
  | [] => ([], [], false)
  | g :: r =>
    let li := p.goal g
    let (cs, ls, taut) := p.goalLoop B r
    if li = B then (cs, ls, true)
    else (.clause [B.neg, li] :: cs, if li.var = B.neg.var then ls else li.neg :: ls, taut)

/-- `PrgBody::addConstraints` (src/logic_program_types.cpp 1285-1306). -/
def Prg.bodyCons (p : Prg) (b : Nat) : List Con :=
  let B := (p.body b).lit
  match (p.body b).body with
  | .conj gs =>
    let (cs, ls, taut) := p.goalLoop B gs
    if taut then cs else cs ++ [.clause (B :: ls)]
  | .sum gs bound => [.weight B (gs.map fun g => (p.goal g.1, g.2)) bound]

/-- `toConstraint` for a body (src/logic_program.cpp 197-202). -/
def Prg.bodyAll (p : Prg) (b : Nat) : List Con :=
  let n := p.body b
  (if n.val = .free then [] else [.clause [trueLit n.val n.lit]]) ++ (if n.rel then p.bodyCons b else [])

/-- `toConstraint` for an atom (src/logic_program.cpp 197-202). -/
def Prg.atomAll (p : Prg) (a : Nat) : List Con :=
  let n := p.atom a
  (if n.val = .free then [] else [.clause [trueLit n.val n.lit]]) ++ (if n.rel then p.atomCons a else [])

/-- All constraints in the order of `LogicProgram::addConstraints` (src/logic_program.cpp 1621-1660). -/
def Prg.allCons (p : Prg) : List Con :=
  .clause [if p.conflict then litFalse else litTrue] ::
  ((List.range p.nbodies).flatMap p.bodyAll ++ (List.range p.natoms).flatMap p.atomAll)

/-- Adding constraints one after the other until the solver reports a conflict: every addition in
`LogicProgram::addConstraints` and its callees returns at once with false
(src/logic_program.cpp 1622, 1641, 1652; src/logic_program_types.cpp 650, 1293). `add db c` is what the
solver answers if `c` is added to `db`. -/
def addAll (add : List Con → Con → Bool) : List Con → List Con → Bool × List Con
  | db, [] => (true, db)
  | db, c :: r => if add db c then addAll add (db ++ [c]) r else (false, db ++ [c])

/-- `LogicProgram::addConstraints` (src/logic_program.cpp 1615-1670): the result and the constraints added. -/
def Prg.addConstraints (p : Prg) (add : List Con → Con → Bool) : Bool × List Con := addAll add [] p.allCons

/-! ### Assigning variables -/

/-- The literals assigned so far and the next variable (`SharedContext::addVar`, clasp/shared_context.h). -/
structure VSt where
  alit : Nat → Lit
  blit : Nat → Lit
  next : Nat

/-- `PrgHead::assignVar` (src/logic_program_types.cpp 485-504) for an atom with support `e`.
`allowEq` is `allowEq || !Var_t::isAtom(varInfo(sup->var()).type())`, that is false only if an equality
must not be used. -/
def Prg.assignHead (p : Prg) (s : VSt) (a : Nat) (e : Edge) (allowEq : Bool) : VSt :=
  if hasVar (s.alit a) || !(p.atom a).rel then s
  else
    let newVar := decide (1 < (p.atom a).sups.length) || !allowEq
    if !e.choice && hasVar (s.blit e.body) && (!newVar || decide ((p.body e.body).val = .true)) then
      { s with alit := Function.update s.alit a (s.blit e.body) }
    else { s with alit := Function.update s.alit a ⟨s.next, false⟩, next := s.next + 1 }

/-- `PrgBody::assignVar` (src/logic_program_types.cpp 1182-1200). -/
def Prg.assignBody (p : Prg) (s : VSt) (b : Nat) : VSt :=
  let n := p.body b
  let fresh : VSt :=
    if n.val ≠ .false then { s with blit := Function.update s.blit b ⟨s.next, false⟩, next := s.next + 1 }
    else { s with blit := Function.update s.blit b litFalse }
  if hasVar (s.blit b) || !n.rel then s
  else if n.body.lits = [] ∨ n.val = .true then { s with blit := Function.update s.blit b litTrue }
  else match n.body.lits with
    | [g] => if hasVar (s.alit g.atom) then { s with blit := Function.update s.blit b (flipIf (s.alit g.atom) g.neg) } else fresh
    | _ => fresh

/-- No node has a literal yet (clasp/logic_program_types.h 71); variable 0 is the sentinel. -/
def VSt.init : VSt := ⟨fun _ => litFalse, fun _ => litFalse, 1⟩

/-- A sequence of calls of `assignVar` in the preprocessor (src/asp_preprocessor.cpp 45, 57, 64, 211), and the nodes they
were made for. The order is left open; the support passed for an atom is one of its supports and relevant
(`simplifySupports` in line 63 removes the others). -/
inductive Prg.VRun (p : Prg) : VSt → (Nat → Prop) → (Nat → Prop) → Prop
  | init : VRun p VSt.init (fun _ => False) (fun _ => False)
  | head {s : VSt} {A B : Nat → Prop} {a : Nat} {e : Edge} {allowEq : Bool} : VRun p s A B → a < p.natoms → e ∈ (p.atom a).sups →
      (p.body e.body).rel = true → VRun p (p.assignHead s a e allowEq) (fun x => A x ∨ x = a) B
  | body {s : VSt} {A B : Nat → Prop} {b : Nat} : VRun p s A B → b < p.nbodies → VRun p (p.assignBody s b) A (fun x => B x ∨ x = b)

/-- The program with the literals assigned (src/logic_program_types.cpp `setLiteral`). -/
def Prg.withLits (p : Prg) (s : VSt) : Prg :=
  { p with atom := fun a => { p.atom a with lit := s.alit a }, body := fun b => { p.body b with lit := s.blit b } }

end Clasp.Asp
