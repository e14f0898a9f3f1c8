import Verif.Asp.SccLoop

/-! # The component computation finds the components of the positive dependency graph (C28) -/

namespace Clasp.Scc
open Relation

/-- Specification: the head atom `b` depends positively on the body atom `a`: some rule has `a` in its
positive body and `b` in its head (alone or in a disjunction). Only nodes that take part count. -/
def Dep (P : Prg) (a b : Nat) : Prop :=
  P.vis (.atom a) = true ∧ P.vis (.atom b) = true ∧ ∃ B, P.vis (.body B) = true ∧ (false, B) ∈ P.deps a ∧
    ((true, b) ∈ P.heads B ∨ ∃ d, P.vis (.disj d) = true ∧ (false, d) ∈ P.heads B ∧ b ∈ P.atoms d)

/-- Specification: `a` depends positively on itself. -/
def Cyclic (P : Prg) (a : Nat) : Prop := TransGen (Dep P) a a

/-- Specification: `a` and `b` depend positively on each other or are the same atom. -/
def Together (P : Prg) (a b : Nat) : Prop := ReflTransGen (Dep P) a b ∧ ReflTransGen (Dep P) b a

variable {P : Prg}

theorem edge_atom {a : Nat} {w : Node} (h : Edge P (.atom a) w) : ∃ B, w = .body B ∧ (false, B) ∈ P.deps a := by
  obtain ⟨_, _, h3⟩ := h
  simp only [Prg.succ, List.mem_map] at h3
  obtain ⟨⟨sg, B⟩, h4, h5⟩ := h3
  cases sg
  · simp only [Bool.false_eq_true, if_false, Option.some.injEq] at h5
    exact ⟨B, h5.symm, h4⟩
  · simp at h5

theorem edge_body {B : Nat} {w : Node} (h : Edge P (.body B) w) :
    (∃ b, w = .atom b ∧ (true, b) ∈ P.heads B) ∨ (∃ d, w = .disj d ∧ (false, d) ∈ P.heads B) := by
  obtain ⟨_, _, h3⟩ := h
  simp only [Prg.succ, List.mem_map] at h3
  obtain ⟨⟨k, b⟩, h4, h5⟩ := h3
  cases k
  · simp only [Bool.false_eq_true, if_false, Option.some.injEq] at h5
    exact Or.inr ⟨b, h5.symm, h4⟩
  · simp only [if_true, Option.some.injEq] at h5
    exact Or.inl ⟨b, h5.symm, h4⟩

theorem edge_disj {d : Nat} {w : Node} (h : Edge P (.disj d) w) : ∃ b, w = .atom b ∧ b ∈ P.atoms d := by
  obtain ⟨_, _, h3⟩ := h
  simp only [Prg.succ, List.mem_map, Option.some.injEq] at h3
  obtain ⟨b, h4, h5⟩ := h3
  exact ⟨b, h5.symm, h4⟩

/-- one positive dependency as a path of the graph -/
theorem dep_reach {a b : Nat} (h : Dep P a b) : ∃ B, Edge P (.atom a) (.body B) ∧ Reach P (.body B) (.atom b) := by
  obtain ⟨h1, h2, B, h3, h4, h5⟩ := h
  refine ⟨B, ⟨h1, h3, ?_⟩, ?_⟩
  · simp only [Prg.succ, List.mem_map]
    exact ⟨(false, B), h4, rfl⟩
  · rcases h5 with h5 | ⟨d, h5, h6, h7⟩
    · refine .single ⟨h3, h2, ?_⟩
      simp only [Prg.succ, List.mem_map]
      exact ⟨(true, b), h5, rfl⟩
    · refine .tail (.single (b := .disj d) ⟨h3, h5, ?_⟩) ⟨h5, h2, ?_⟩
      · simp only [Prg.succ, List.mem_map]
        exact ⟨(false, d), h6, rfl⟩
      · simp only [Prg.succ, List.mem_map]
        exact ⟨b, h7, rfl⟩

/-- what a path to the atom `b` from a node means for dependencies -/
def Leads (P : Prg) (b : Nat) : Node → Prop
  | .atom a => ReflTransGen (Dep P) a b
  | .body B => ∃ c, P.vis (.atom c) = true ∧ ((true, c) ∈ P.heads B ∨
      ∃ d, P.vis (.disj d) = true ∧ (false, d) ∈ P.heads B ∧ c ∈ P.atoms d) ∧ ReflTransGen (Dep P) c b
  | .disj d => ∃ c, P.vis (.atom c) = true ∧ c ∈ P.atoms d ∧ ReflTransGen (Dep P) c b

theorem leads_body {a B b : Nat} (he : Edge P (.atom a) (.body B)) (h : Leads P b (.body B)) : TransGen (Dep P) a b := by
  obtain ⟨B', hB, h1⟩ := edge_atom he
  cases hB
  obtain ⟨c, h2, h3, h4⟩ := h
  exact TransGen.head' ⟨he.1, h2, B, he.2.1, h1, h3⟩ h4

theorem reach_leads {u₀ : Node} {b : Nat} (h : Reach P u₀ (.atom b)) : Leads P b u₀ := by
  induction h using ReflTransGen.head_induction_on with
  | refl => exact ReflTransGen.refl
  | @head u w he _ ih =>
    cases u with
    | atom a =>
      obtain ⟨B, rfl, _⟩ := edge_atom he
      exact (leads_body he ih).to_reflTransGen
    | body B =>
      rcases edge_body he with ⟨c, rfl, h1⟩ | ⟨d, rfl, h1⟩
      · exact ⟨c, he.2.1, Or.inl h1, ih⟩
      · obtain ⟨c, h2, h3, h4⟩ := ih
        exact ⟨c, h2, Or.inr ⟨d, he.2.1, h1, h3⟩, h4⟩
    | disj d =>
      obtain ⟨c, rfl, h1⟩ := edge_disj he
      exact ⟨c, he.2.1, h1, ih⟩

theorem reach_atoms {a b : Nat} : Reach P (.atom a) (.atom b) ↔ ReflTransGen (Dep P) a b := by
  constructor
  · exact fun h => reach_leads h
  · intro h
    induction h with
    | refl => exact .refl
    | tail _ hd ih =>
      obtain ⟨B, h1, h2⟩ := dep_reach hd
      exact ih.trans ((ReflTransGen.single h1).trans h2)

theorem together_iff {a b : Nat} : Mut P (.atom a) (.atom b) ↔ Together P a b :=
  and_congr reach_atoms reach_atoms

/-- An atom has a non-trivial component exactly if it lies on a cycle. -/
theorem cyclic_iff {a : Nat} : Cyclic P a ↔ ∃ w, Mut P (.atom a) w ∧ w ≠ .atom a := by
  constructor
  · intro h
    obtain ⟨c, h1, h2⟩ := TransGen.head'_iff.1 h
    obtain ⟨B, h3, h4⟩ := dep_reach h1
    exact ⟨.body B, ⟨.single h3, h4.trans (reach_atoms.2 h2)⟩, by simp⟩
  · rintro ⟨w, ⟨h1, h2⟩, h3⟩
    rcases ReflTransGen.cases_head h1 with e | ⟨x, he, h4⟩
    · exact absurd e.symm h3
    · obtain ⟨B, rfl, _⟩ := edge_atom he
      exact leads_body he (reach_leads (h4.trans h2))

/-- **C28.** On every finite program the component computation ends. Atoms on no positive cycle are
marked as trivially connected, atoms on a positive cycle get the number of a component, two such atoms
the same number iff they depend on each other, and exactly these atoms are reported, each once.

`all` is the finite set of nodes that take part; `roots` are the nodes the checker starts from (all
atoms and bodies). No component number clashes with the mark for trivially connected atoms if fewer than
`noScc` components exist, see `C28_number`. -/
theorem C28_components (all roots : List Node) (start : Nat) (ids scc : Node → Nat)
    (hall : ∀ v, P.vis v = true → v ∈ all) (hnd : all.Nodup) (hlen : all.length ≤ noNode)
    (hroots : ∀ a, P.vis (.atom a) = true → .atom a ∈ roots) :
    ∃ t, check P (2 * all.length + 1) roots (init start ids scc) = some t ∧
      (∀ a, P.vis (.atom a) = true → ¬ Cyclic P a → t.scc (.atom a) = noScc) ∧
      (∀ a, P.vis (.atom a) = true → Cyclic P a → start ≤ t.scc (.atom a) ∧ t.scc (.atom a) < t.sccs) ∧
      (∀ a b, P.vis (.atom a) = true → P.vis (.atom b) = true → Cyclic P a → Cyclic P b →
        (t.scc (.atom a) = t.scc (.atom b) ↔ Together P a b)) ∧
      (∀ v, v ∈ t.out ↔ ∃ a, v = .atom a ∧ P.vis (.atom a) = true ∧ Cyclic P a) ∧ t.out.Nodup := by
  obtain ⟨t, h1, h2, _, h4⟩ := check_spec (start := start) hall hnd hlen roots _ (init_fin start ids scc)
  have hd : ∀ a, P.vis (.atom a) = true → Done t (.atom a) := fun a ha =>
    ⟨h4 _ (hroots a ha) ha, by rw [h2.nodes]; simp⟩
  have hout : ∀ a, P.vis (.atom a) = true → Cyclic P a → start ≤ t.scc (.atom a) ∧ t.scc (.atom a) < t.sccs ∧ .atom a ∈ t.out := by
    intro a ha hc
    obtain ⟨w, h5, h6⟩ := cyclic_iff.1 hc
    exact h2.res.non _ w (hd a ha) rfl h5 h6
  have htriv : ∀ a, P.vis (.atom a) = true → ¬ Cyclic P a → t.scc (.atom a) = noScc ∧ .atom a ∉ t.out := by
    intro a ha hc
    refine h2.res.triv _ (hd a ha) rfl fun w hw => ?_
    by_contra hne
    exact hc (cyclic_iff.2 ⟨w, hw, hne⟩)
  refine ⟨t, h1, fun a ha hc => (htriv a ha hc).1, fun a ha hc => ⟨(hout a ha hc).1, (hout a ha hc).2.1⟩, ?_, ?_, h2.res.nodup⟩
  · intro a b ha hb hca hcb
    rw [h2.res.same _ _ (hd a ha) rfl (hd b hb) rfl (hout a ha hca).2.2 (hout b hb hcb).2.2]
    exact together_iff
  · intro v
    constructor
    · intro hv
      obtain ⟨h5, h6⟩ := h2.res.out v hv
      cases v with
      | atom a =>
        have ha := h2.sv _ h5.1
        refine ⟨a, rfl, ha, ?_⟩
        by_contra hc
        exact (htriv a ha hc).2 hv
      | body b => cases h6
      | disj d => cases h6
    · rintro ⟨a, rfl, ha, hc⟩
      exact (hout a ha hc).2.2

/-- **C28.** As the users of the result see it: as long as the numbers of the components stay below the
mark for trivially connected atoms, an atom has a number iff it lies on a positive cycle, and two
different atoms have the same number iff they depend on each other. -/
theorem C28_number (all roots : List Node) (start : Nat) (ids scc : Node → Nat)
    (hall : ∀ v, P.vis v = true → v ∈ all) (hnd : all.Nodup) (hlen : all.length ≤ noNode)
    (hroots : ∀ a, P.vis (.atom a) = true → .atom a ∈ roots) :
    ∃ t, check P (2 * all.length + 1) roots (init start ids scc) = some t ∧ (t.sccs ≤ noScc →
      (∀ a, P.vis (.atom a) = true → (t.scc (.atom a) ≠ noScc ↔ Cyclic P a)) ∧
      (∀ a b, P.vis (.atom a) = true → P.vis (.atom b) = true → a ≠ b →
        ((t.scc (.atom a) = t.scc (.atom b) ∧ t.scc (.atom a) ≠ noScc) ↔ Together P a b))) := by
  obtain ⟨t, h1, h2, h3, h4, _⟩ := C28_components all roots start ids scc hall hnd hlen hroots
  refine ⟨t, h1, fun hn => ?_⟩
  have key : ∀ a, P.vis (.atom a) = true → (t.scc (.atom a) ≠ noScc ↔ Cyclic P a) := by
    intro a ha
    constructor
    · intro hne
      by_contra hc
      exact hne (h2 a ha hc)
    · intro hc
      have := (h3 a ha hc).2
      omega
  refine ⟨key, fun a b ha hb hab => ?_⟩
  have hcyc : ∀ a b, a ≠ b → Together P a b → Cyclic P a := by
    intro a b hab h
    rcases reflTransGen_iff_eq_or_transGen.1 h.1 with e | h5
    · exact absurd e.symm hab
    · exact h5.trans_left h.2
  constructor
  · rintro ⟨h5, h6⟩
    have hca := (key a ha).1 h6
    have hcb := (key b hb).1 (by rw [← h5]; exact h6)
    exact (h4 a b ha hb hca hcb).1 h5
  · intro h
    have hca := hcyc a b hab h
    have hcb := hcyc b a (Ne.symm hab) ⟨h.2, h.1⟩
    exact ⟨(h4 a b ha hb hca hcb).2 h, (key a ha).2 hca⟩

/-- **C28.** The components are numbered against the direction of the dependencies: if the head atom `b`
depends on the goal `a`, possibly in several steps, then the number of the component of `b` is not larger
than that of `a`. `PrgBody::scc` (logic_program_types.cpp) silently relies on this, see
`Clasp.Asp.Prg.bscc`. -/
theorem C28_topological (all roots : List Node) (start : Nat) (ids scc : Node → Nat)
    (hall : ∀ v, P.vis v = true → v ∈ all) (hnd : all.Nodup) (hlen : all.length ≤ noNode)
    (hroots : ∀ a, P.vis (.atom a) = true → .atom a ∈ roots) :
    ∃ t, check P (2 * all.length + 1) roots (init start ids scc) = some t ∧
      ∀ a b, P.vis (.atom a) = true → P.vis (.atom b) = true → Cyclic P a → Cyclic P b → ReflTransGen (Dep P) a b →
        t.scc (.atom b) ≤ t.scc (.atom a) := by
  obtain ⟨t, h1, h2, _, h4⟩ := check_spec (start := start) hall hnd hlen roots _ (init_fin start ids scc)
  have hout : ∀ a, P.vis (.atom a) = true → Cyclic P a → .atom a ∈ t.out := by
    intro a ha hc
    obtain ⟨w, h5, h6⟩ := cyclic_iff.1 hc
    exact (h2.res.non _ w ⟨h4 _ (hroots a ha) ha, by rw [h2.nodes]; simp⟩ rfl h5 h6).2.2
  exact ⟨t, h1, fun a b ha hb hca hcb hd => h2.res.topo _ _ (hout a ha hca) (hout b hb hcb) (reach_atoms.2 hd)⟩

/-- **C28.** The bound on the number of rounds in the model is never reached: a larger one gives the
same result. -/
theorem C28_terminates (all roots : List Node) (start : Nat) (ids scc : Node → Nat)
    (hall : ∀ v, P.vis v = true → v ∈ all) (hnd : all.Nodup) (hlen : all.length ≤ noNode) (fuel : Nat) (hf : 2 * all.length + 1 ≤ fuel) :
    (check P (2 * all.length + 1) roots (init start ids scc)).isSome = true ∧
    check P fuel roots (init start ids scc) = check P (2 * all.length + 1) roots (init start ids scc) := by
  have hloop : ∀ (n : Nat) (s t : St), loop P n s = some t → ∀ k, n ≤ k → loop P k s = some t := by
    intro n
    induction n with
    | zero =>
      intro s t h k _
      unfold loop at h
      split at h
      · rename_i hc
        cases k <;> (unfold loop; rw [if_pos hc]; exact h)
      · cases h
    | succ n ih =>
      intro s t h k hk
      cases k with
      | zero => omega
      | succ k =>
        unfold loop at h ⊢
        by_cases hc : s.calls = []
        · rw [if_pos hc] at h ⊢; exact h
        · rw [if_neg hc] at h ⊢; exact ih _ _ h k (by omega)
  have hv : ∀ (s t : St) (v : Node), visitDfs P (2 * all.length + 1) s v = some t → visitDfs P fuel s v = some t := by
    intro s t v h
    unfold visitDfs at h ⊢
    split
    · rename_i hc; rw [if_pos hc] at h; exact hloop _ _ _ h _ hf
    · rename_i hc; rw [if_neg hc] at h; exact h
  have hch : ∀ (roots : List Node) (s t : St), check P (2 * all.length + 1) roots s = some t → check P fuel roots s = some t := by
    intro roots
    induction roots with
    | nil => intro s t h; exact h
    | cons v r ih =>
      intro s t h
      unfold check at h ⊢
      cases h1 : visitDfs P (2 * all.length + 1) s v with
      | none => rw [h1] at h; cases h
      | some t' =>
        rw [h1] at h
        rw [hv _ _ _ h1]
        exact ih _ _ h
  obtain ⟨t, h1, _⟩ := check_spec (start := start) hall hnd hlen roots _ (init_fin start ids scc)
  exact ⟨by rw [h1]; rfl, by rw [h1, hch _ _ _ h1]⟩

namespace Ex

/-- Example: `a0 :- a1. a1 :- a0. a2 :- a0. a3 | a4 :- a2. a2 :- a4, not a3.`
with bodies 0: {a1}, 1: {a0}, 2: {a2}, 3: {a4, not a3}; disjunction 0: {a3, a4}. -/
def prg : Prg where
  deps := fun a => match a with
    | 0 => [(false, 1)] | 1 => [(false, 0)] | 2 => [(false, 2)] | 3 => [(true, 3)] | 4 => [(false, 3)] | _ => []
  heads := fun b => match b with
    | 0 => [(true, 0)] | 1 => [(true, 1), (true, 2)] | 2 => [(false, 0)] | 3 => [(true, 2)] | _ => []
  atoms := fun d => match d with
    | 0 => [3, 4] | _ => []
  vis := fun v => match v with
    | .atom a => decide (a < 5) | .body b => decide (b < 4) | .disj d => decide (d < 1)

/-- Example: the nodes of `prg`. -/
def nodes : List Node :=
  [.atom 0, .atom 1, .atom 2, .atom 3, .atom 4, .body 0, .body 1, .body 2, .body 3, .disj 0]

theorem nodes_all : ∀ v, prg.vis v = true → v ∈ nodes := by
  intro v
  cases v with
  | atom i => simp only [prg, decide_eq_true_eq, nodes]; intro h; have : i = 0 ∨ i = 1 ∨ i = 2 ∨ i = 3 ∨ i = 4 := by omega
              rcases this with rfl | rfl | rfl | rfl | rfl <;> simp
  | body i => simp only [prg, decide_eq_true_eq, nodes]; intro h; have : i = 0 ∨ i = 1 ∨ i = 2 ∨ i = 3 := by omega
              rcases this with rfl | rfl | rfl | rfl <;> simp
  | disj i => simp only [prg, decide_eq_true_eq, nodes]; intro h; have : i = 0 := by omega
              subst this; simp

/-- Example: the hypotheses of `C28_components` are met, with two components and one trivial atom. -/
example : (∀ v, prg.vis v = true → v ∈ nodes) ∧ nodes.Nodup ∧ nodes.length ≤ noNode ∧
    (∀ a, prg.vis (.atom a) = true → .atom a ∈ nodes) ∧
    ((check prg 21 nodes (init 7 (fun _ => 3) (fun _ => 5))).map fun t =>
      ([0, 1, 2, 3, 4].map (fun a => t.scc (.atom a)), t.out, t.sccs)) =
      some ([8, 8, 7, noScc, 7], [.atom 4, .atom 2, .atom 1, .atom 0], 9) :=
  ⟨nodes_all, by decide, by decide, fun a h => nodes_all _ h, by decide⟩

/-- Example: on `prg` the atoms 0 and 1 depend on each other, and 2 and 4 lie on a cycle. -/
example : Together prg 0 1 ∧ Cyclic prg 4 ∧ Cyclic prg 2 := by
  have d01 : Dep prg 0 1 := ⟨rfl, rfl, 1, rfl, by simp [prg], Or.inl (by simp [prg])⟩
  have d10 : Dep prg 1 0 := ⟨rfl, rfl, 0, rfl, by simp [prg], Or.inl (by simp [prg])⟩
  have d24 : Dep prg 2 4 := ⟨rfl, rfl, 2, rfl, by simp [prg], Or.inr ⟨0, rfl, by simp [prg], by simp [prg]⟩⟩
  have d42 : Dep prg 4 2 := ⟨rfl, rfl, 3, rfl, by simp [prg], Or.inl (by simp [prg])⟩
  exact ⟨⟨.single d01, .single d10⟩, .tail (.single d42) d24, .tail (.single d24) d42⟩

end Ex

end Clasp.Scc
