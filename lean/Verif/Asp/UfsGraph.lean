import Verif.Asp.UfsReason
import Verif.Asp.CompletionProps

/-!
# The dependency graph of a program (C29)

Model of `PrgDepGraph::addSccs` and of `PrgBody::scc` for programs without disjunctions.

Simplifications:
* nodes keep the numbers they have in the program;
* the order of nodes and of the successors of an atom is that of the numbers; the order of the other lists is
  that of the code;
* one step: the graph is empty before;
* `ignoreScc` (clasp/logic_program_types.h 75) is never set and relevant nodes are `inUpper`.
-/

namespace Clasp.Asp
open Clasp.Core Clasp.Ufs

/-- `PrgNode::noScc` (clasp/logic_program_types.h 65). -/
def noScc : Nat := 134217727

/-- The goals of a body with their weights, which are 1 for normal bodies: `PrgBody::goal`, `PrgBody::weight`
(clasp/logic_program_types.h 406-408). -/
def Body.wlits : Body → List (BLit × Int)
  | .conj ls => ls.map fun l => (l, 1)
  | .sum ls _ => ls

/-- `PrgBody::type() != Body_t::Normal` (clasp/logic_program_types.h 397). -/
def Body.isSum : Body → Bool
  | .conj _ => false
  | .sum _ _ => true

/-- `PrgBody::bound` (clasp/logic_program_types.h 402). -/
def Body.bnd : Body → Int
  | .conj ls => ls.length
  | .sum _ b => b

/-- The goals before the first negative one (src/logic_program_types.cpp 1316-1319, src/dependency_graph.cpp 229). -/
def Body.front (b : Body) : List (BLit × Int) := b.wlits.takeWhile fun x => !x.1.neg

/-- `PrgBody::scc` (src/logic_program_types.cpp 1311-1344): `gs` are the atoms of the goals before the first
negative one, `hs` the heads in the order in which they are stored. The mask is written as the list of the
numbers of its bits. -/
def bodyScc (scc : Nat → Nat) (gs hs : List Nat) : Nat :=
  let ss := (gs.map scc).filter fun c => decide (c ≠ noScc)
  let mask := ss.map (· % 64)
  let large := ss.any fun c => decide (63 < c)
  match hs.find? fun h => decide (scc h ≠ noScc) && mask.contains (scc h % 64) && (!large || (gs.map scc).contains (scc h)) with
  | some h => scc h
  | none => noScc

section
variable (p : Prg) (scc : Nat → Nat) (hs : Nat → List Nat) (isF : Lit → Bool)

/-- `PrgDepGraph::relevantPrgAtom` (src/dependency_graph.cpp 70-72). -/
def Prg.relAtom (a : Nat) : Bool := decide (a < p.natoms) && (p.atom a).rel && decide (scc a ≠ noScc) && !isF (p.atom a).lit

/-- `PrgDepGraph::relevantPrgBody` (src/dependency_graph.cpp 73-75); bodies that are not relevant in the program
are not `seen` (line 81). -/
def Prg.relBody (b : Nat) : Bool := decide (b < p.nbodies) && (p.body b).rel && !isF (p.body b).lit

/-- The atoms of the positive goals (src/logic_program_types.cpp 1316-1325). -/
def Prg.posAtoms (b : Nat) : List Nat := (p.body b).body.front.map fun x => x.1.atom

/-- The component number of a body, `prgBody->scc(prg)` (src/dependency_graph.cpp 133, 208). -/
def Prg.bscc (b : Nat) : Nat := bodyScc scc (p.posAtoms b) (hs b)

/-- `BodyNode::extended` as set by the constructor (clasp/dependency_graph.h 188-195). -/
def Prg.isExt (b : Nat) : Bool := decide (p.bscc scc hs b ≠ noScc) && (p.body b).body.isSum

/-- `PrgDepGraph::addPreds` (src/dependency_graph.cpp 226-235): the subgoals from the same component. -/
def Prg.ufsPreds (b : Nat) : List (Nat × Int) :=
  if p.bscc scc hs b = noScc then []
  else ((p.body b).body.front.filter fun x => p.relAtom scc isF x.1.atom && decide (scc x.1.atom = p.bscc scc hs b)).map fun x => (x.1.atom, x.2)

/-- `PrgDepGraph::addPreds` (src/dependency_graph.cpp 236-248): the other literals of an extended body. -/
def Prg.ufsLits (b : Nat) : List (Lit × Int) :=
  if p.isExt scc hs b then
    ((p.body b).body.wlits.filter fun x => (x.1.neg || decide (scc x.1.atom ≠ p.bscc scc hs b)) && !isF (p.goal x.1)).map fun x => (p.goal x.1, x.2)
  else []

/-- `PrgDepGraph::addHeads` and `initBody` (src/dependency_graph.cpp 254-261, 289-304): heads from the same
component first, the others in reverse order. -/
def Prg.ufsHeads (b : Nat) : List Nat :=
  let H := (hs b).filter (p.relAtom scc isF)
  (H.filter fun a => decide (scc a = p.bscc scc hs b)) ++ (H.filter fun a => decide (scc a ≠ p.bscc scc hs b)).reverse

/-- The bodies defining an atom, each once (src/dependency_graph.cpp 106-121), those from other components
first (188-194). -/
def Prg.ufsBodies (a : Nat) : List Nat :=
  let S := (((p.atom a).sups.map Edge.body).filter (p.relBody isF)).eraseDups
  (S.filter fun b => decide (p.bscc scc hs b ≠ scc a)) ++ (S.filter fun b => decide (p.bscc scc hs b = scc a))

/-- The positive dependencies of an atom that become successors (src/dependency_graph.cpp 130-134). -/
def Prg.ufsDeps (a : Nat) : List Nat :=
  (List.range p.nbodies).filter fun b => p.relBody isF b && (p.posAtoms b).contains a && decide (p.bscc scc hs b = scc a)

/-- `BodyNode::get_pred_idx` (clasp/dependency_graph.h 221-228). -/
def Prg.predIdx (b a : Nat) : Nat := (p.ufsPreds scc hs isF b).findIdx fun x => decide (x.1 = a)

/-- `PrgDepGraph::addSccs` (src/dependency_graph.cpp 83-155) on an empty graph. -/
def Prg.ufsGraph : UGraph where
  atoms := (List.range p.natoms).filter (p.relAtom scc isF)
  bodies := (List.range p.nbodies).filter fun b => p.relBody isF b &&
    (List.range p.natoms).any fun a => p.relAtom scc isF a && (((p.atom a).sups.map Edge.body).contains b || (p.ufsDeps scc hs isF a).contains b)
  atom a := {
    lit := (p.atom a).lit
    scc := scc a
    bodies := p.ufsBodies scc hs isF a
    succs := (p.ufsDeps scc hs isF a).filter fun b => !p.isExt scc hs b
    extSuccs := ((p.ufsDeps scc hs isF a).filter fun b => p.isExt scc hs b).map fun b => (b, p.predIdx scc hs isF b a)
    choice := (p.atom a).sups.any fun e => e.choice && p.relBody isF e.body }
  body b := {
    lit := (p.body b).lit
    scc := p.bscc scc hs b
    heads := p.ufsHeads scc hs isF b
    ext := p.isExt scc hs b
    bound := (p.body b).body.bnd
    preds := p.ufsPreds scc hs isF b
    lits := p.ufsLits scc hs isF b }

end

/-- Specification: what the construction of the graph relies on: positive goals come first in a body and are
distinct, weights are not negative, and `hs` lists the heads of each body. -/
structure Prg.GraphOk (p : Prg) (hs : Nat → List Nat) : Prop where
  wf : p.Wf
  front : ∀ b < p.nbodies, (p.body b).rel = true → (p.body b).body.wlits.filter (fun x => !x.1.neg) = (p.body b).body.front
  nodup : ∀ b < p.nbodies, (p.body b).rel = true → (p.posAtoms b).Nodup
  nonneg : ∀ b < p.nbodies, (p.body b).rel = true → (p.body b).body.nonneg
  heads : ∀ b < p.nbodies, (p.body b).rel = true → ∀ a, a ∈ hs b ↔ a < p.natoms ∧ (p.atom a).rel = true ∧ ∃ e ∈ (p.atom a).sups, e.body = b

variable {p : Prg} {scc : Nat → Nat} {hs : Nat → List Nat} {isF : Lit → Bool}

theorem relAtom_iff {a : Nat} : p.relAtom scc isF a = true ↔ a < p.natoms ∧ (p.atom a).rel = true ∧ scc a ≠ noScc ∧ isF (p.atom a).lit = false := by
  unfold Prg.relAtom
  simp only [Bool.and_eq_true, decide_eq_true_eq, Bool.not_eq_true', and_assoc]

theorem relBody_iff {b : Nat} : p.relBody isF b = true ↔ b < p.nbodies ∧ (p.body b).rel = true ∧ isF (p.body b).lit = false := by
  unfold Prg.relBody
  simp only [Bool.and_eq_true, decide_eq_true_eq, Bool.not_eq_true', and_assoc]

theorem mem_ufsBodies {a b : Nat} : b ∈ p.ufsBodies scc hs isF a ↔ p.relBody isF b = true ∧ ∃ e ∈ (p.atom a).sups, e.body = b := by
  unfold Prg.ufsBodies
  simp only [List.mem_append, List.mem_filter, List.mem_eraseDups, List.mem_map, decide_eq_true_eq]
  constructor
  · rintro (⟨⟨h1, h2⟩, _⟩ | ⟨⟨h1, h2⟩, _⟩) <;> exact ⟨h2, h1⟩
  · rintro ⟨h1, h2⟩
    by_cases h : p.bscc scc hs b = scc a
    · exact .inr ⟨⟨h2, h1⟩, h⟩
    · exact .inl ⟨⟨h2, h1⟩, h⟩

theorem mem_ufsHeads {a b : Nat} : a ∈ p.ufsHeads scc hs isF b ↔ a ∈ hs b ∧ p.relAtom scc isF a = true := by
  unfold Prg.ufsHeads
  simp only [List.mem_append, List.mem_filter, List.mem_reverse, decide_eq_true_eq]
  constructor
  · rintro (⟨h, _⟩ | ⟨h, _⟩) <;> exact h
  · intro h1
    by_cases h : scc a = p.bscc scc hs b
    · exact .inl ⟨h1, h⟩
    · exact .inr ⟨h1, h⟩

theorem mem_ufsDeps {a b : Nat} : b ∈ p.ufsDeps scc hs isF a ↔ p.relBody isF b = true ∧ a ∈ p.posAtoms b ∧ p.bscc scc hs b = scc a := by
  unfold Prg.ufsDeps
  simp only [List.mem_filter, List.mem_range, Bool.and_eq_true, List.contains_eq_mem, decide_eq_true_eq]
  constructor
  · rintro ⟨_, ⟨h1, h2⟩, h3⟩; exact ⟨h1, h2, h3⟩
  · rintro ⟨h1, h2, h3⟩; exact ⟨(relBody_iff.1 h1).1, ⟨h1, h2⟩, h3⟩

theorem mem_graph_bodies {b : Nat} : b ∈ (p.ufsGraph scc hs isF).bodies ↔ p.relBody isF b = true ∧ ∃ a, p.relAtom scc isF a = true ∧
    ((∃ e ∈ (p.atom a).sups, e.body = b) ∨ b ∈ p.ufsDeps scc hs isF a) := by
  unfold Prg.ufsGraph
  simp only [List.mem_filter, List.mem_range, Bool.and_eq_true, List.any_eq_true, Bool.or_eq_true, List.contains_eq_mem, decide_eq_true_eq, List.mem_map]
  constructor
  · rintro ⟨_, h1, a, _, h3, h4⟩; exact ⟨h1, a, h3, h4⟩
  · rintro ⟨h1, a, h3, h4⟩; exact ⟨(relBody_iff.1 h1).1, h1, a, (relAtom_iff.1 h3).1, h3, h4⟩

theorem mem_graph_atoms {a : Nat} : a ∈ (p.ufsGraph scc hs isF).atoms ↔ p.relAtom scc isF a = true := by
  unfold Prg.ufsGraph
  simp only [List.mem_filter, List.mem_range]
  exact ⟨fun h => h.2, fun h => ⟨(relAtom_iff.1 h).1, h⟩⟩

theorem graph_pre {b a : Nat} : a ∈ (p.ufsGraph scc hs isF).pre b ↔ p.bscc scc hs b ≠ noScc ∧ a ∈ p.posAtoms b ∧ p.relAtom scc isF a = true ∧ scc a = p.bscc scc hs b := by
  show a ∈ (p.ufsPreds scc hs isF b).map Prod.fst ↔ _
  unfold Prg.ufsPreds Prg.posAtoms
  by_cases hn : p.bscc scc hs b = noScc
  · simp [hn]
  · rw [if_neg hn]
    simp only [List.mem_map, List.mem_filter, Bool.and_eq_true, decide_eq_true_eq]
    constructor
    · rintro ⟨_, ⟨x, ⟨h1, h2, h3⟩, rfl⟩, rfl⟩
      exact ⟨hn, ⟨x, h1, rfl⟩, h2, h3⟩
    · rintro ⟨_, ⟨x, h1, rfl⟩, h2, h3⟩
      exact ⟨_, ⟨x, ⟨h1, h2, h3⟩, rfl⟩, rfl⟩

theorem wlits_nonneg {b : Body} (h : b.nonneg) : ∀ x ∈ b.wlits, 0 ≤ x.2 := by
  cases b with
  | conj ls =>
    intro x hx
    obtain ⟨l, _, rfl⟩ := List.mem_map.1 hx
    exact Int.one_nonneg
  | sum ls bd => exact h

theorem front_sub {b : Body} {x : BLit × Int} (h : x ∈ b.front) : x ∈ b.wlits := (List.takeWhile_prefix _).subset h
theorem front_pos {b : Body} {x : BLit × Int} (h : x ∈ b.front) : x.1.neg = false := by
  unfold Body.front at h
  generalize b.wlits = l at h
  induction l with
  | nil => cases h
  | cons y l ih =>
    rw [List.takeWhile_cons] at h
    split at h
    · rename_i hy
      rcases List.mem_cons.1 h with e | h
      · rw [e]; simpa using hy
      · exact ih h
    · cases h

/-- The graph of a program is consistent. -/
theorem ufsGraph_wf (hp : p.GraphOk hs) : GWf (p.ufsGraph scc hs isF) := by
  have hpreNd : ∀ b, p.relBody isF b = true → ((p.ufsGraph scc hs isF).pre b).Nodup := by
    intro b hb
    obtain ⟨h1, h2, _⟩ := relBody_iff.1 hb
    show ((p.ufsPreds scc hs isF b).map Prod.fst).Nodup
    unfold Prg.ufsPreds
    split
    · simp
    · rw [List.map_map]
      exact List.Nodup.sublist ((List.filter_sublist).map _) (hp.nodup b h1 h2)
  refine ⟨?_, ?_, ?_, ?_, ?_, ?_, ?_, ?_, ?_, ?_, ?_, ?_, ?_, ?_⟩
  · intro b _ a ha
    obtain ⟨_, _, h3, h4⟩ := graph_pre.1 ha
    exact ⟨mem_graph_atoms.2 h3, h4⟩
  · intro b hb
    exact hpreNd b (mem_graph_bodies.1 hb).1
  · intro a ha b hb
    have ha := mem_graph_atoms.1 ha
    obtain ⟨hb, he⟩ := List.mem_filter.1 (show b ∈ (p.ufsDeps scc hs isF a).filter (fun b => !p.isExt scc hs b) from hb)
    obtain ⟨h1, h2, h3⟩ := mem_ufsDeps.1 hb
    refine ⟨mem_graph_bodies.2 ⟨h1, a, ha, .inr hb⟩, (show p.isExt scc hs b = false by simpa using he), graph_pre.2 ⟨?_, h2, ha, h3.symm⟩⟩
    rw [h3]; exact (relAtom_iff.1 ha).2.2.1
  · intro a ha b i hb
    have ha := mem_graph_atoms.1 ha
    obtain ⟨b', hb2, e⟩ := List.mem_map.1 (show (b, i) ∈ ((p.ufsDeps scc hs isF a).filter fun b => p.isExt scc hs b).map fun b => (b, p.predIdx scc hs isF b a) from hb)
    simp only [Prod.mk.injEq] at e
    obtain ⟨rfl, rfl⟩ := e
    obtain ⟨hb, he⟩ := List.mem_filter.1 hb2
    obtain ⟨h1, h2, h3⟩ := mem_ufsDeps.1 hb
    refine ⟨mem_graph_bodies.2 ⟨h1, a, ha, .inr hb⟩, he, ?_⟩
    have hpre : a ∈ (p.ufsGraph scc hs isF).pre b' := graph_pre.2 ⟨by rw [h3]; exact (relAtom_iff.1 ha).2.2.1, h2, ha, h3.symm⟩
    obtain ⟨x, hx, hxa⟩ := List.mem_map.1 hpre
    show (p.ufsPreds scc hs isF b')[p.predIdx scc hs isF b' a]?.map Prod.fst = some a
    have hlt : p.predIdx scc hs isF b' a < (p.ufsPreds scc hs isF b').length := List.findIdx_lt_length_of_exists ⟨x, hx, by simpa using hxa⟩
    rw [List.getElem?_eq_getElem hlt]
    have := List.findIdx_getElem (xs := p.ufsPreds scc hs isF b') (p := fun x : Nat × Int => decide (x.1 = a)) (w := hlt)
    exact congrArg some (of_decide_eq_true this)
  · intro b hb he a ha
    obtain ⟨h1, h2, h3, h4⟩ := graph_pre.1 ha
    have he : p.isExt scc hs b = false := he
    exact List.mem_filter.2 ⟨mem_ufsDeps.2 ⟨(mem_graph_bodies.1 hb).1, h2, h4.symm⟩, by simp [he]⟩
  · intro b hb he a i hi
    have ha := pr_pre hi
    obtain ⟨h1, h2, h3, h4⟩ := graph_pre.1 ha
    have hidx : i = p.predIdx scc hs isF b a := by
      have hlt := pr_lt hi
      have hi' : ((p.ufsGraph scc hs isF).pre b)[i]? = some a := by unfold UGraph.pre; rw [List.getElem?_map]; exact hi
      obtain ⟨x, hx, hxa⟩ := List.mem_map.1 ha
      have hlt2 : p.predIdx scc hs isF b a < (p.ufsPreds scc hs isF b).length := List.findIdx_lt_length_of_exists ⟨x, hx, by simpa using hxa⟩
      have hj : ((p.ufsGraph scc hs isF).pre b)[p.predIdx scc hs isF b a]? = some a := by
        show ((p.ufsPreds scc hs isF b).map Prod.fst)[p.predIdx scc hs isF b a]? = some a
        rw [List.getElem?_map, List.getElem?_eq_getElem hlt2]
        have := List.findIdx_getElem (xs := p.ufsPreds scc hs isF b) (p := fun x : Nat × Int => decide (x.1 = a)) (w := hlt2)
        exact congrArg some (of_decide_eq_true this)
      have hl : i < ((p.ufsGraph scc hs isF).pre b).length := by unfold UGraph.pre; rw [List.length_map]; exact hlt
      exact (List.getElem?_inj hl (hpreNd b (mem_graph_bodies.1 hb).1)).1 (by rw [hi', hj])
    rw [hidx]
    have he : p.isExt scc hs b = true := he
    exact List.mem_map.2 ⟨b, List.mem_filter.2 ⟨mem_ufsDeps.2 ⟨(mem_graph_bodies.1 hb).1, h2, h4.symm⟩, he⟩, rfl⟩
  · intro a _
    show ((p.ufsDeps scc hs isF a).filter (fun b => !p.isExt scc hs b) ++ (((p.ufsDeps scc hs isF a).filter fun b => p.isExt scc hs b).map fun b => (b, p.predIdx scc hs isF b a)).map Prod.fst).Nodup
    have hnd : (p.ufsDeps scc hs isF a).Nodup := List.Nodup.filter _ List.nodup_range
    rw [List.map_map]
    refine List.nodup_append.2 ⟨hnd.filter _, ?_, ?_⟩
    · have : (Prod.fst ∘ fun b => (b, p.predIdx scc hs isF b a)) = id := rfl
      rw [this, List.map_id]; exact hnd.filter _
    · intro x hx y hy e
      obtain ⟨z, hz, rfl⟩ := List.mem_map.1 hy
      have h1 := (List.mem_filter.1 hx).2
      have h2 := (List.mem_filter.1 hz).2
      rw [e] at h1
      simp only [Function.comp] at h1
      rw [h2] at h1; cases h1
  · intro b hb a ha
    obtain ⟨h1, h2⟩ := mem_ufsHeads.1 ha
    have hb := (mem_graph_bodies.1 hb).1
    obtain ⟨h3, h4, _⟩ := relBody_iff.1 hb
    exact ⟨mem_graph_atoms.2 h2, mem_ufsBodies.2 ⟨hb, ((hp.heads b h3 h4 a).1 h1).2.2⟩⟩
  · intro a ha b hb
    have ha := mem_graph_atoms.1 ha
    obtain ⟨h1, h2⟩ := mem_ufsBodies.1 hb
    obtain ⟨h3, h4, _⟩ := relBody_iff.1 h1
    obtain ⟨h5, h6, _⟩ := relAtom_iff.1 ha
    exact ⟨mem_graph_bodies.2 ⟨h1, a, ha, .inl h2⟩, mem_ufsHeads.2 ⟨(hp.heads b h3 h4 a).2 ⟨h5, h6, h2⟩, ha⟩⟩
  · intro b _
    refine ⟨_, _, rfl, ?_, ?_⟩
    · intro a ha; exact of_decide_eq_true (List.mem_filter.1 ha).2
    · intro a ha; exact of_decide_eq_true (List.mem_filter.1 (List.mem_reverse.1 ha)).2
  · intro b hb x hx
    obtain ⟨h3, h4, _⟩ := relBody_iff.1 (mem_graph_bodies.1 hb).1
    have hnn := wlits_nonneg (hp.nonneg b h3 h4)
    rcases List.mem_append.1 hx with h | h
    · obtain ⟨y, hy, rfl⟩ := List.mem_map.1 h
      have hy : y ∈ p.ufsPreds scc hs isF b := hy
      unfold Prg.ufsPreds at hy
      split at hy
      · cases hy
      · obtain ⟨z, hz, rfl⟩ := List.mem_map.1 hy
        exact hnn z (front_sub (List.mem_filter.1 hz).1)
    · have h : x ∈ p.ufsLits scc hs isF b := h
      unfold Prg.ufsLits at h
      split at h
      · obtain ⟨z, hz, rfl⟩ := List.mem_map.1 h
        exact hnn z (List.mem_filter.1 hz).1
      · cases h
  · intro b _ he y hy
    have he : p.isExt scc hs b = false := he
    have hy : y ∈ p.ufsPreds scc hs isF b := hy
    unfold Prg.ufsPreds at hy
    split at hy
    · cases hy
    · rename_i hn
      obtain ⟨z, hz, rfl⟩ := List.mem_map.1 hy
      have hz := front_sub (List.mem_filter.1 hz).1
      unfold Prg.isExt at he
      cases hb : (p.body b).body with
      | conj ls =>
        rw [hb] at hz
        obtain ⟨l, _, rfl⟩ := List.mem_map.1 hz
        rfl
      | sum ls bd =>
        rw [hb] at he
        simp [Body.isSum, hn] at he
  · exact List.Nodup.filter _ List.nodup_range
  · exact List.Nodup.filter _ List.nodup_range

end Clasp.Asp
