import Verif.Asp.Sem

/-!
# Component shifting of disjunctions (C48)

Model of `LogicProgram::finalizeDisjunctions` and `LogicProgram::getEqAtomLit` (src/logic_program.cpp 1379-1501, 1963-2007) with `DlpTr` (1337-1376) and
`RuleTransform::Impl::transformDisjunction` (src/logic_program_types.cpp 158-170).

Simplifications:
* a rule is a head and a body, not an edge between shared nodes; shared bodies are repeated;
* the new rules are not simplified by `simplifyRule` when they are added (that is C27);
* values assigned to auxiliary atoms from the values of bodies, variables and statistics are left out;
* scc checking is on (`options().noSCC` is false), so that `getEqAtomLit` does not use an existing root atom.
-/

namespace Clasp.Shift
open Clasp.Asp

/-- `PrgNode::noScc` (clasp/logic_program_types.h 65). -/
def noScc : Nat := 2 ^ 27 - 1

/-- A body that supports a disjunction (`PrgDisj`, clasp/logic_program_types.h 548-607); `live` is `relevant() && value() != value_false`
(src/logic_program.cpp 1431-1434). -/
structure DSup where
  body : Body
  live : Bool
  deriving DecidableEq, Repr

/-- A disjunction with its supports (`PrgDisj`, clasp/logic_program_types.h 548-607); `same` says that the literal of its last support is the literal of the
disjunction (src/logic_program.cpp 1967). -/
structure Disj where
  atoms : List Nat
  upper : Bool
  sups : List DSup
  same : Bool
  deriving DecidableEq, Repr

/-- What is known about the atoms of the program: root of the equivalence class, whether it is a fact, whether it is in upper, number of the component
(src/logic_program.cpp 1415-1426), and the option `noGamma` (1469). -/
structure Env where
  root : Nat → Nat
  fact : Nat → Bool
  upper : Nat → Bool
  scc : Nat → Nat
  noGamma : Bool

/-- The part of the program that is extended: number of the next atom (`newAtom`), rules, gamma rules (`PrgEdge::Gamma`), components of the new atoms, components
that are not head cycle free (`nonHcfs_`, clasp/logic_program_types.h 624-636). -/
structure St where
  next : Nat
  rules : List Rule
  gammas : List Rule
  aux : List (Nat × Nat)
  nonHcf : List Nat
  deriving DecidableEq, Repr

/-- The loop over the atoms of a disjunction (src/logic_program.cpp 1413-1428); `dx` is false if the literal of the disjunction is false. -/
def headLoop (e : Env) : List Nat → Bool → List Nat → List Nat × Bool
  | [], dx, hd => (hd, dx)
  | a :: as, dx, hd =>
    if !dx then headLoop e as dx hd
    else if e.fact (e.root a) then headLoop e as false hd
    else if e.upper (e.root a) then headLoop e as dx (hd ++ [e.root a])
    else headLoop e as dx hd

/-- The components of the atoms of the head: `sccMap[at->scc()] = seen_scc` (src/logic_program.cpp 1426). -/
def seen0 (e : Env) (hd : List Nat) (c : Nat) : Bool := decide (c ≠ noScc) && hd.any fun a => e.scc a == c

/-- The component of the first positive goal of a body that is in a component of the head (src/logic_program.cpp 1987-1990). -/
def goalScc (e : Env) (seen : Nat → Bool) (B : Body) : Nat :=
  (((B.lits.takeWhile fun l => !l.neg).map fun l => e.scc l.atom).find? fun c => decide (c ≠ noScc) && seen c).getD noScc

/-- The component of the auxiliary atom (src/logic_program.cpp 1984-1991). -/
def auxScc (e : Env) (seen : Nat → Bool) : List Body → Nat
  | [] => noScc
  | B :: Bs => if goalScc e seen B ≠ noScc then goalScc e seen B else auxScc e seen Bs

/-- The literal that stands for the supports: `lit_false()`, `lit_true()` or a literal of the program. -/
inductive Sup
  | fls
  | tru
  | lit (l : BLit)
  deriving DecidableEq, Repr

/-- The literals that are added to the body of a shifted rule (src/logic_program.cpp 1447). -/
def Sup.lits : Sup → List BLit
  | .lit l => [l]
  | _ => []

/-- `LogicProgram::getEqAtomLit` (src/logic_program.cpp 1963-2007); `dx` is false if the literal is false. -/
def eqAtomLit (e : Env) (dx same : Bool) (Bs : List Body) (seen : Nat → Bool) (st : St) : Sup × St :=
  if Bs.isEmpty || !dx then (.fls, st)
  else if Bs.length = 1 ∧ (Bs.headD (.conj [])).lits.length < 2 ∧ same then
    match (Bs.headD (.conj [])).lits with
    | [] => (.tru, st)
    | l :: _ => (.lit l, st)
  else
    (.lit ⟨st.next, false⟩, { st with next := st.next + 1, rules := st.rules ++ Bs.map fun B => ⟨.disj [st.next], B⟩, aux := st.aux ++ [(st.next, auxScc e seen Bs)] })

/-- The rules `h :- lits, not o` for each atom `h` of a disjunction, where `o` are the other ones (`transformDisjunction`, src/logic_program_types.cpp 158-170);
the atoms of `pre` were processed. -/
def shiftAll (lits : List BLit) : List Nat → List Nat → List Rule
  | _, [] => []
  | pre, h :: t => ⟨.disj [h], .conj (lits ++ (pre ++ t).map fun o => ⟨o, true⟩)⟩ :: shiftAll lits (pre ++ [h]) t

/-- The component of an atom, new or old. -/
def sccOf (e : Env) (aux : List (Nat × Nat)) (a : Nat) : Nat := ((aux.find? fun x => x.1 == a).map Prod.snd).getD (e.scc a)

/-- The component of the atom that stands for a large body (src/logic_program.cpp 1473; `PrgBody::scc`, src/logic_program_types.cpp 1311-1349: the component of the head,
if a positive goal is in it). Simplified: the body has no other heads. -/
def bodyScc (e : Env) (aux : List (Nat × Nat)) (c : Nat) (rb : List BLit) : Nat :=
  if (rb.takeWhile fun l => !l.neg).any (fun l => sccOf e aux l.atom == c) then c else noScc

/-- Adding a shifted rule (src/logic_program.cpp 1456-1492). -/
def emit (e : Env) (c : Nat) (rh : List Nat) (rb : List BLit) (st : St) : St :=
  let st := { st with rules := st.rules ++ [⟨.disj rh, .conj rb⟩] }
  if rh.length ≤ 1 then st
  else
    let st := { st with nonHcf := if c ∈ st.nonHcf then st.nonHcf else st.nonHcf ++ [c] }
    if e.noGamma then st
    else if 4 ≤ rb.length then
      { st with next := st.next + 1, rules := st.rules ++ [⟨.disj [st.next], .conj rb⟩], aux := st.aux ++ [(st.next, bodyScc e st.aux c rb)],
                gammas := st.gammas ++ shiftAll [⟨st.next, false⟩] [] rh }
    else { st with gammas := st.gammas ++ shiftAll rb [] rh }

/-- `o` is added to the head of the rule for component `c` (src/logic_program.cpp 1451); for an atom without component no atom is (`scc = UINT32_MAX`, 1444). -/
def mate (e : Env) (c o : Nat) : Bool := decide (c ≠ noScc) && e.scc o == c

/-- The loop over the atoms of the head (src/logic_program.cpp 1440-1494); the atoms of `pre` were processed. -/
def shiftLoop (e : Env) (sup : Sup) : List Nat → List Nat → (Nat → Bool) → St → St
  | _, [], _, st => st
  | pre, h :: t, seen, st =>
    let c := e.scc h
    if c = noScc ∨ seen c then
      let seen := fun x => if x = c then false else seen x
      if sup = .fls then shiftLoop e sup (pre ++ [h]) t seen st
      else
        let rh := h :: (pre ++ t).filter (mate e c)
        let rb := sup.lits ++ ((pre ++ t).filter fun o => !mate e c o).map fun o => ⟨o, true⟩
        shiftLoop e sup (pre ++ [h]) t seen (emit e c rh rb st)
    else shiftLoop e sup (pre ++ [h]) t seen st

/-- One disjunction (src/logic_program.cpp 1409-1494). -/
def step (e : Env) (st : St) (d : Disj) : St :=
  let (hd, dx) := headLoop e d.atoms d.upper []
  let Bs := (d.sups.filter (·.live)).map (·.body)
  let (sup, st) := eqAtomLit e dx d.same Bs (seen0 e hd) st
  shiftLoop e sup [] hd (seen0 e hd) st

/-- `LogicProgram::finalizeDisjunctions` (src/logic_program.cpp 1379-1501), where `next` is the number of atoms. -/
def finalize (e : Env) (next : Nat) (ds : List Disj) : St := ds.foldl (step e) ⟨next, [], [], [], []⟩

end Clasp.Shift
