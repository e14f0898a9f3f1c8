import Verif.Asp.UfsSem
import Verif.Asp.UfsRun
import Verif.Asp.SccProps
import Verif.Asp.CompletionProps

/-! Source pointers justify a stable model (C29). No code is modelled in this file; it contains specifications and
proof devices only. -/

namespace Clasp.Asp
open Clasp.Core Clasp.Ufs Relation

variable {p : Prg} {scc : Nat → Nat} {hs : Nat → List Nat} {isF : Lit → Bool} {σ : Asg}

/-! ### Component numbers -/

/-- Specification: the numbers of the components as C28 gives them: an atom has one iff it lies on a positive cycle, two
different atoms have the same one iff they depend on each other, and a head has no larger number than a goal it depends on. -/
structure Prg.SccOk (p : Prg) (scc : Nat → Nat) : Prop where
  cyc : ∀ a, p.graph.vis (.atom a) = true → (scc a ≠ noScc ↔ Scc.Cyclic p.graph a)
  same : ∀ a b, p.graph.vis (.atom a) = true → p.graph.vis (.atom b) = true → a ≠ b → ((scc a = scc b ∧ scc a ≠ noScc) ↔ Scc.Together p.graph a b)
  inv : ∀ a, p.graph.vis (.atom a) = false → scc a = noScc
  topo : ∀ a b, scc a ≠ noScc → scc b ≠ noScc → ReflTransGen (Scc.Dep p.graph) a b → scc b ≤ scc a

theorem vis_atom {a : Nat} : p.graph.vis (.atom a) = true ↔ a < p.natoms ∧ (p.atom a).rel = true ∧ hasVar (p.atom a).lit = true := by
  simp only [Prg.graph, Bool.and_eq_true, decide_eq_true_eq, and_assoc]

theorem vis_body {b : Nat} : p.graph.vis (.body b) = true ↔ b < p.nbodies ∧ (p.body b).rel = true ∧ hasVar (p.body b).lit = true := by
  simp only [Prg.graph, Bool.and_eq_true, decide_eq_true_eq, and_assoc]

theorem dep_of {q a b : Nat} (hb : p.graph.vis (.body b) = true) (hq : p.graph.vis (.atom q) = true) (ha : p.graph.vis (.atom a) = true)
    (hl : (⟨q, false⟩ : BLit) ∈ (p.body b).body.lits) (he : ∃ e ∈ (p.atom a).sups, e.body = b) : Scc.Dep p.graph q a := by
  obtain ⟨e, he, rfl⟩ := he
  refine ⟨hq, ha, e.body, hb, ?_, .inl ?_⟩
  · simp only [Prg.graph, List.mem_flatMap, List.mem_map, List.mem_filter, List.mem_range]
    exact ⟨e.body, (vis_body.1 hb).1, ⟨q, false⟩, ⟨hl, by simp⟩, rfl⟩
  · simp only [Prg.graph, List.mem_flatMap, List.mem_map, List.mem_filter, List.mem_range]
    exact ⟨a, (vis_atom.1 ha).1, e, ⟨he, by simp⟩, rfl⟩

theorem Prg.SccOk.vis (h : p.SccOk scc) {a : Nat} (ha : scc a ≠ noScc) : p.graph.vis (.atom a) = true := by
  cases hv : p.graph.vis (.atom a) with
  | true => rfl
  | false => exact absurd (h.inv a hv) ha

theorem Prg.SccOk.tog (h : p.SccOk scc) {a b : Nat} (ha : scc a ≠ noScc) (e : scc a = scc b) : Scc.Together p.graph a b := by
  by_cases hab : a = b
  · subst hab; exact ⟨.refl, .refl⟩
  · exact (h.same a b (h.vis ha) (h.vis (e ▸ ha)) hab).1 ⟨e, ha⟩

theorem Prg.SccOk.eq (h : p.SccOk scc) {a b : Nat} (ha : p.graph.vis (.atom a) = true) (hb : p.graph.vis (.atom b) = true) (ht : Scc.Together p.graph a b) : scc a = scc b := by
  by_cases hab : a = b
  · rw [hab]
  · exact ((h.same a b ha hb hab).2 ht).1

/-- The component of a body is that of its heads and positive goals, in spite of the mask of 64 bits. -/
theorem bscc_eq (hp : p.GraphOk hs) (hk : p.SccOk scc) {b a q : Nat} (hb : p.graph.vis (.body b) = true) (ha : a ∈ hs b) (hq : q ∈ p.posAtoms b)
    (hne : scc a ≠ noScc) (e : scc q = scc a) : p.bscc scc hs b = scc a := by
  have hvb := vis_body.1 hb
  have hheads := hp.heads b hvb.1 hvb.2.1
  have hedge : ∀ x ∈ p.posAtoms b, scc x ≠ noScc → ∀ y ∈ hs b, scc y ≠ noScc → Scc.Dep p.graph x y := fun x hx hxn y hy hyn =>
    dep_of hb (hk.vis hxn) (hk.vis hyn) (pos_lits hx) ((hheads y).1 hy).2.2
  have hqn : scc q ≠ noScc := by rw [e]; exact hne
  unfold Prg.bscc bodyScc
  dsimp only
  generalize hmask : ((List.filter (fun c => decide (c ≠ noScc)) ((p.posAtoms b).map scc)).map (· % 64)) = mask
  generalize hlarge : (List.filter (fun c => decide (c ≠ noScc)) ((p.posAtoms b).map scc)).any (fun c => decide (63 < c)) = large
  have hmem : ∀ c, c ∈ List.filter (fun c => decide (c ≠ noScc)) ((p.posAtoms b).map scc) ↔ c ≠ noScc ∧ ∃ x ∈ p.posAtoms b, scc x = c := by
    intro c; simp [and_comm]
  have hmk : ∀ k, k ∈ mask ↔ ∃ x ∈ p.posAtoms b, scc x ≠ noScc ∧ scc x % 64 = k := by
    intro k
    rw [← hmask, List.mem_map]
    constructor
    · rintro ⟨c, hc, rfl⟩
      obtain ⟨h1, x, hx, rfl⟩ := (hmem c).1 hc
      exact ⟨x, hx, h1, rfl⟩
    · rintro ⟨x, hx, h1, rfl⟩
      exact ⟨scc x, (hmem _).2 ⟨h1, x, hx, rfl⟩, rfl⟩
  have hsome : (hs b).find? (fun h => decide (scc h ≠ noScc) && mask.contains (scc h % 64) && (!large || ((p.posAtoms b).map scc).contains (scc h))) ≠ none := by
    intro hc
    have := List.find?_eq_none.1 hc a ha
    apply this
    have h1 : mask.contains (scc a % 64) = true := by
      rw [List.contains_iff_mem]; exact (hmk _).2 ⟨q, hq, hqn, by rw [e]⟩
    have h2 : ((p.posAtoms b).map scc).contains (scc a) = true := by
      rw [List.contains_iff_mem]; exact List.mem_map.2 ⟨q, hq, e⟩
    rw [h1, h2]; simp [hne]
  cases hf : (hs b).find? (fun h => decide (scc h ≠ noScc) && mask.contains (scc h % 64) && (!large || ((p.posAtoms b).map scc).contains (scc h))) with
  | none => exact absurd hf hsome
  | some y =>
    dsimp only
    have hy := List.mem_of_find?_eq_some hf
    have hyp := List.find?_some hf
    simp only [Bool.and_eq_true, decide_eq_true_eq, Bool.or_eq_true, Bool.not_eq_true', List.contains_iff_mem] at hyp
    obtain ⟨⟨hyn, hym⟩, hyl⟩ := hyp
    -- some goal has the number of `y`
    have : ∃ x ∈ p.posAtoms b, scc x = scc y := by
      rcases hyl with hyl | hyl
      · obtain ⟨x, hx, hxn, hxe⟩ := (hmk _).1 hym
        have hle := hk.topo x y hxn hyn (.single (hedge x hx hxn y hy hyn))
        have hx63 : ¬ 63 < scc x := by
          intro hgt
          rw [← hlarge] at hyl
          have := List.any_eq_false.1 hyl (scc x) ((hmem _).2 ⟨hxn, x, hx, rfl⟩)
          exact this (by simpa using hgt)
        exact ⟨x, hx, by omega⟩
      · obtain ⟨x, hx, hxe⟩ := List.mem_map.1 hyl
        exact ⟨x, hx, hxe⟩
    obtain ⟨x, hx, hxe⟩ := this
    have hxn : scc x ≠ noScc := by rw [hxe]; exact hyn
    refine hk.eq (hk.vis hyn) (hk.vis hne) ⟨?_, ?_⟩
    · exact (hk.tog hyn hxe.symm).1.trans (.single (hedge x hx hxn a ha hne))
    · exact (hk.tog hne e.symm).1.trans (.single (hedge q hq hqn y hy hyn))

/-! ### Levels -/

/-- A model whose atoms have a justification from smaller atoms is stable. -/
theorem stable_of_rank {P : List Rule} {M : AtomSet} (hP : ∀ r ∈ P, r.simpleHead ∧ r.body.nonneg) (m : Nat → Nat) (hc : Closed P M M)
    (h : ∀ a, M a = true → ∃ r ∈ P, a ∈ r.head.atoms ∧ r.body.holds (fun x => M x && decide (m x < m a)) M = true) : Stable P M := by
  refine ⟨hc, fun X hX hcl => ?_⟩
  have key : ∀ n a, m a < n → M a = true → X a = true := by
    intro n
    induction n with
    | zero => intro a h; omega
    | succ n ih =>
      intro a hn ha
      obtain ⟨r, hr, hin, hb⟩ := h a ha
      have hb' : r.body.holds X M = true := Body.holds_mono (fun x hx => by
        simp only [Bool.and_eq_true, decide_eq_true_eq] at hx
        exact ih x (by omega) hx.1) _ (hP r hr).2 hb
      have hok := hcl r hr hb'
      have hs := (hP r hr).1
      unfold Rule.simpleHead at hs
      cases hh : r.head with
      | disj as =>
        rw [hh] at hok hs hin
        obtain ⟨b, hb1, hb2⟩ := hok
        dsimp only [Head.atoms] at hin hs
        match as, hs, hin, hb1 with
        | [c], _, hin, hb1 =>
          simp only [List.mem_singleton] at hin hb1
          rw [hin, ← hb1]; exact hb2
      | choice as =>
        rw [hh] at hok hin
        exact hok a hin ha
  exact fun a ha => key (m a + 1) a (Nat.lt_succ_self _) ha

/-- A body whose true positive goals are smaller holds in the smaller atoms. -/
theorem holds_lower {M : AtomSet} {m : Nat → Nat} {n : Nat} {b : Body} (hb : b.holds M M = true)
    (h : ∀ q, (⟨q, false⟩ : BLit) ∈ b.lits → M q = true → m q < n) : b.holds (fun x => M x && decide (m x < n)) M = true := by
  rw [← hb]
  refine b.holds_congr fun l hl => ?_
  obtain ⟨q, ng⟩ := l
  unfold BLit.holds
  cases ng with
  | true => rfl
  | false =>
    cases hM : M q with
    | false => simp [hM]
    | true => simp [hM, h q hl hM]

open Classical in
/-- Proof device: the number of atoms an atom depends on. -/
noncomputable def Prg.cnt (p : Prg) (a : Nat) : Nat := ((Finset.range p.natoms).filter fun x => ReflTransGen (Scc.Dep p.graph) x a).card

theorem cnt_le {q a : Nat} (h : ReflTransGen (Scc.Dep p.graph) q a) : p.cnt q ≤ p.cnt a := by
  unfold Prg.cnt
  refine Finset.card_le_card fun x hx => ?_
  simp only [Finset.mem_filter] at hx ⊢
  exact ⟨hx.1, hx.2.trans h⟩

theorem cnt_lt {q a : Nat} (h : Scc.Dep p.graph q a) (hn : ¬ ReflTransGen (Scc.Dep p.graph) a q) : p.cnt q < p.cnt a := by
  unfold Prg.cnt
  refine Finset.card_lt_card ⟨fun x hx => ?_, fun hs => hn ?_⟩
  · simp only [Finset.mem_filter] at hx ⊢
    exact ⟨hx.1, hx.2.tail h⟩
  · have := hs (x := a) (by
      simp only [Finset.mem_filter, Finset.mem_range]
      exact ⟨(vis_atom.1 h.2.1).1, .refl⟩)
    simp only [Finset.mem_filter] at this
    exact this.2

/-- Specification: the assignment `f` gives every atom and every body of the program a value. -/
def Prg.Total (p : Prg) (f : Lit → Bool) : Prop :=
  (∀ a < p.natoms, (p.atom a).rel = true → f (p.atom a).lit = true ∨ f (p.atom a).lit.neg = true) ∧
  (∀ b < p.nbodies, (p.body b).rel = true → f (p.body b).lit = true ∨ f (p.body b).lit.neg = true)

theorem slit_goal {b i : Nat} (hi : i < ((p.ufsGraph scc hs isF).subs b).length) :
    ∃ l ∈ (p.body b).body.lits, (p.ufsGraph scc hs isF).slit b i = p.goal l := by
  have hmem : ((p.ufsGraph scc hs isF).subs b)[i] ∈ (p.ufsGraph scc hs isF).subs b := List.getElem_mem _
  have hsl : (p.ufsGraph scc hs isF).slit b i = (((p.ufsGraph scc hs isF).subs b)[i]).1 := by
    unfold UGraph.slit; rw [List.getElem?_eq_getElem hi]; rfl
  rw [hsl]
  generalize ((p.ufsGraph scc hs isF).subs b)[i] = y at *
  unfold UGraph.subs at hmem
  rcases List.mem_append.1 hmem with hm | hm
  · obtain ⟨x, hx, rfl⟩ := List.mem_map.1 hm
    have hx' : x.1 ∈ (p.ufsGraph scc hs isF).pre b := List.mem_map.2 ⟨x, hx, rfl⟩
    exact ⟨⟨x.1, false⟩, pos_lits (graph_pre.1 hx').2.1, rfl⟩
  · have hm : y ∈ p.ufsLits scc hs isF b := hm
    unfold Prg.ufsLits at hm
    split at hm
    · obtain ⟨x, hx, rfl⟩ := List.mem_map.1 hm
      exact ⟨x.1, mem_lits_iff.2 ⟨x.2, (List.mem_filter.1 hx).1⟩, rfl⟩
    · cases hm

/-- If all atoms have sources, a total assignment that satisfies the constraints is a stable model. -/
theorem stable_of_sources (hp : p.GraphOk hs) (hk : p.SccOk scc) (h0 : σ 0 = true) (hm : Models σ p.allCons)
    (hF : ∀ q, isF q = true → tval σ q = false) {f : Lit → Bool} (hf : ∀ q, f q = true → tval σ q = false) (htot : p.Total f)
    {v : Vw} {h : Gh} {Ex : Nat → Prop} (hcore : Ufs.Core (p.ufsGraph scc hs isF) v h Ex)
    (hgood : ∀ a ∈ (p.ufsGraph scc hs isF).atoms, f ((p.ufsGraph scc hs isF).atom a).lit = false → Good (p.ufsGraph scc hs isF) h.G v f a) :
    Stable p.rules (p.modelOf σ) := by
  have hg : GWf (p.ufsGraph scc hs isF) := ufsGraph_wf hp
  obtain ⟨⟨_, hsup, _⟩, hag⟩ := (allCons_spec h0 hp.wf).1 hm
  have hNpos : 0 < h.N := Nat.lt_of_le_of_lt (Nat.zero_le _) (hcore.rkN 0)
  -- true atoms and bodies take part in the graph
  have hMa : ∀ {q}, p.modelOf σ q = true → q < p.natoms ∧ (p.atom q).rel = true ∧ tval σ (p.atom q).lit = true ∧ p.graph.vis (.atom q) = true := by
    intro q hq
    unfold Prg.modelOf at hq
    simp only [Bool.and_eq_true, decide_eq_true_eq] at hq
    exact ⟨hq.1.1, hq.1.2, hq.2, vis_atom.2 ⟨hq.1.1, hq.1.2, hasVar_of h0 hq.2⟩⟩
  have hbody : ∀ {b}, b < p.nbodies → (p.body b).rel = true → f (p.body b).lit = false → tval σ (p.body b).lit = true := by
    intro b h1 h2 h3
    rcases htot.2 b h1 h2 with h4 | h4
    · rw [h3] at h4; cases h4
    · have := hf _ h4
      rw [tval_neg] at this; simpa using this
  have hgoal : ∀ {b l}, b < p.nbodies → (p.body b).rel = true → l ∈ (p.body b).body.lits → f (p.goal l) = false → tval σ (p.goal l) = true := by
    intro b l h1 h2 hl h3
    obtain ⟨h4, h5⟩ := hp.wf.goals b h1 h2 l hl
    have : f (p.goal l) = true ∨ f (p.goal l).neg = true := by
      unfold Prg.goal flipIf
      cases l.neg with
      | false => exact htot.1 _ h4 h5
      | true => simp only [if_true, Lit.neg_neg]; exact (htot.1 _ h4 h5).symm
    rcases this with h6 | h6
    · rw [h3] at h6; cases h6
    · have := hf _ h6
      rw [tval_neg] at this; simpa using this
  let m : Nat → Nat := fun a => p.cnt a * h.N + h.rank a
  have hmlt : ∀ q a, p.cnt q < p.cnt a → m q < m a := by
    intro q a hlt
    have h1 := hcore.rkN q
    have h2 : (p.cnt q + 1) * h.N ≤ p.cnt a * h.N := Nat.mul_le_mul_right _ hlt
    rw [Nat.add_mul, Nat.one_mul] at h2
    show p.cnt q * h.N + h.rank q < p.cnt a * h.N + h.rank a
    omega
  have hmle : ∀ q a, p.cnt q ≤ p.cnt a → h.rank q < h.rank a → m q < m a := by
    intro q a hle hr
    have h2 : p.cnt q * h.N ≤ p.cnt a * h.N := Nat.mul_le_mul_right _ hle
    show p.cnt q * h.N + h.rank q < p.cnt a * h.N + h.rank a
    omega
  refine stable_of_rank (fun r hr => ?_) m hsup.1 fun a ha => ?_
  · obtain ⟨a, ha, hrel, e, he, hbr, rfl⟩ := mem_rules.1 hr
    refine ⟨?_, hp.nonneg _ (hp.wf.sups a ha hrel e he) hbr⟩
    unfold Rule.simpleHead
    cases e.choice <;> simp
  obtain ⟨ha1, ha2, ha3, ha4⟩ := hMa ha
  -- a rule for `a`, given an edge whose body holds in the smaller atoms
  have fin : ∀ b, b < p.nbodies → (p.body b).rel = true → (∃ e ∈ (p.atom a).sups, e.body = b) →
      (p.body b).body.holds (fun x => p.modelOf σ x && decide (m x < m a)) (p.modelOf σ) = true →
      ∃ r ∈ p.rules, a ∈ r.head.atoms ∧ r.body.holds (fun x => p.modelOf σ x && decide (m x < m a)) (p.modelOf σ) = true := by
    rintro b hb1 hb2 ⟨e, he, rfl⟩ hh
    refine ⟨_, mem_rules.2 ⟨a, ha1, ha2, e, he, hb2, rfl⟩, ?_, hh⟩
    cases e.choice <;> simp [Head.atoms]
  by_cases hns : scc a = noScc
  · -- not on a cycle
    have hnc : ¬ Scc.Cyclic p.graph a := fun hc => (hk.cyc a ha4).2 hc hns
    obtain ⟨r, hr, hin, hb⟩ := hsup.2 a ha
    obtain ⟨a', ha', hrel', e, he, hbr, rfl⟩ := mem_rules.1 hr
    have haa : a = a' := by
      cases hch : e.choice <;> rw [hch] at hin <;> simpa [Head.atoms] using hin
    subst haa
    have hbn := hp.wf.sups a ha1 ha2 e he
    refine fin e.body hbn hbr ⟨e, he, rfl⟩ (holds_lower hb fun q hq hMq => hmlt _ _ ?_)
    have hvb : p.graph.vis (.body e.body) = true := vis_body.2 ⟨hbn, hbr, hasVar_of h0 (by rw [hag _ hbn hbr]; exact hb)⟩
    have hd := dep_of hvb (hMa hMq).2.2.2 ha4 hq ⟨e, he, rfl⟩
    exact cnt_lt hd fun hr => hnc (TransGen.tail' hr hd)
  · have hrelA : p.relAtom scc isF a = true := relAtom_iff.2 ⟨ha1, ha2, hns, by
      cases hc : isF (p.atom a).lit with
      | false => rfl
      | true => rw [hF _ hc] at ha3; cases ha3⟩
    have hag' : a ∈ (p.ufsGraph scc hs isF).atoms := mem_graph_atoms.2 hrelA
    have hfa : f (p.atom a).lit = false := by
      cases hc : f (p.atom a).lit with
      | false => rfl
      | true => rw [hf _ hc] at ha3; cases ha3
    obtain ⟨b, hW, hbf, hG⟩ := hgood a hag' hfa
    obtain ⟨hbg, hab⟩ := hcore.hd a hag' b hW
    have hrelB := (mem_graph_bodies.1 hbg).1
    obtain ⟨hb1, hb2, hb3⟩ := relBody_iff.1 hrelB
    have hab : a ∈ hs b := (mem_ufsHeads.1 (show a ∈ p.ufsHeads scc hs isF b from hab)).1
    have hsupB := ((hp.heads b hb1 hb2 a).1 hab).2.2
    have hbt := hbody hb1 hb2 hbf
    have hvb : p.graph.vis (.body b) = true := vis_body.2 ⟨hb1, hb2, hasVar_of h0 hbt⟩
    have hholds : (p.body b).body.holds (p.modelOf σ) (p.modelOf σ) = true := by rw [← hag b hb1 hb2]; exact hbt
    have hdep : ∀ q, (⟨q, false⟩ : BLit) ∈ (p.body b).body.lits → p.modelOf σ q = true → Scc.Dep p.graph q a := fun q hq hMq =>
      dep_of hvb (hMa hMq).2.2.2 ha4 hq hsupB
    -- a goal from another component is smaller
    have hother : ∀ q, (⟨q, false⟩ : BLit) ∈ (p.body b).body.lits → p.modelOf σ q = true → scc q ≠ scc a → m q < m a := fun q hq hMq hne =>
      hmlt _ _ (cnt_lt (hdep q hq hMq) fun hr => hne (hk.eq (hMa hMq).2.2.2 ha4 ⟨.single (hdep q hq hMq), hr⟩))
    refine fin b hb1 hb2 hsupB ?_
    by_cases hsc : p.bscc scc hs b = scc a
    · have hbn : p.bscc scc hs b ≠ noScc := by rw [hsc]; exact hns
      have hrelQ : ∀ q, p.modelOf σ q = true → scc q = scc a → p.relAtom scc isF q = true := fun q hMq hq =>
        relAtom_iff.2 ⟨(hMa hMq).1, (hMa hMq).2.1, by rw [hq]; exact hns, by
          cases hc : isF (p.atom q).lit with
          | false => rfl
          | true => have := (hMa hMq).2.2.1; rw [hF _ hc] at this; cases this⟩
      cases hext : p.isExt scc hs b with
      | false =>
        refine holds_lower hholds fun q hq hMq => ?_
        by_cases hqs : scc q = scc a
        · refine hmle _ _ (cnt_le (.single (hdep q hq hMq))) (hcore.rk a hag' b hW hsc q ?_)
          have hpre : q ∈ (p.ufsGraph scc hs isF).pre b := graph_pre.2 ⟨hbn, lits_pos hp hb1 hb2 hq, hrelQ q hMq hqs, by rw [hqs, hsc]⟩
          obtain ⟨i, hi⟩ := pre_pr hpre
          exact ⟨i, hi, fun he => by
            have he : p.isExt scc hs b = true := he
            rw [hext] at he; cases he⟩
        · exact hother q hq hMq hqs
      | true =>
        have hsum := hcore.gsum a hag' b hW hsc hext
        have hmono : (p.ufsGraph scc hs isF).wsSum b (h.G b) ≤ (p.ufsGraph scc hs isF).wsSum b (fun i => match (p.ufsGraph scc hs isF).pr b i with
            | some q => tval σ (p.atom q).lit && decide (h.rank q < h.rank a)
            | none => tval σ ((p.ufsGraph scc hs isF).slit b i)) := by
          refine wsSum_mono hg hbg fun i hi hGi => ?_
          have hsf := hG hsc hext i hGi
          have hst : tval σ ((p.ufsGraph scc hs isF).slit b i) = true := by
            obtain ⟨l, hl, e⟩ := slit_goal (scc := scc) (hs := hs) (isF := isF) hi
            rw [e] at hsf ⊢
            exact hgoal hb1 hb2 hl hsf
          cases hpr : (p.ufsGraph scc hs isF).pr b i with
          | none => exact hst
          | some q =>
            rw [slit_pr hpr] at hst
            have hr := hcore.rk a hag' b hW hsc q ⟨i, hpr, fun _ => hGi⟩
            have hst : tval σ (p.atom q).lit = true := hst
            simp [hst, hr]
        have hes := ext_sum hp hrelB hext (fun q => tval σ (p.atom q).lit && decide (h.rank q < h.rank a)) (fun q => tval σ q)
          (f := fun i => match (p.ufsGraph scc hs isF).pr b i with
            | some q => tval σ (p.atom q).lit && decide (h.rank q < h.rank a)
            | none => tval σ ((p.ufsGraph scc hs isF).slit b i)) (fun i => by cases (p.ufsGraph scc hs isF).pr b i <;> rfl)
        have hle : (p.body b).body.bnd ≤ _ := Int.le_trans hsum (Int.le_trans hmono (Int.le_of_eq hes))
        have hge := wsum_ge (X := fun x => p.modelOf σ x && decide (m x < m a)) (M := p.modelOf σ)
          (C := fun x => p.asPred scc hs isF b x && (tval σ (p.atom x.1.atom).lit && decide (h.rank x.1.atom < h.rank a)))
          (D := fun x => p.asLit scc hs isF b x && tval σ (p.goal x.1)) (p.body b).body.wlits (wlits_nonneg (hp.nonneg b hb1 hb2)) ?_ ?_
        · have hisum : (p.body b).body.isSum = true := by
            unfold Prg.isExt at hext
            rw [Bool.and_eq_true] at hext; exact hext.2
          cases hbd : (p.body b).body with
          | conj ls => rw [hbd] at hisum; cases hisum
          | sum ls bd =>
            rw [hbd] at hle hge
            have : bd ≤ wsum (fun x => p.modelOf σ x && decide (m x < m a)) (p.modelOf σ) ls := Int.le_trans hle hge
            exact decide_eq_true this
        · intro x hx hCD
          have hxl : x.1 ∈ (p.body b).body.lits := mem_lits_iff.2 ⟨x.2, hx⟩
          obtain ⟨hw1, hw2⟩ := hp.wf.goals b hb1 hb2 _ hxl
          cases hn : x.1.neg with
          | true =>
            rcases hCD with hC | hD
            · unfold Prg.asPred at hC
              simp [hn] at hC
            · have hD := (Bool.and_eq_true _ _ ▸ hD).2
              rw [goal_holds hw1 hw2] at hD
              unfold BLit.holds at hD ⊢
              rw [hn] at hD ⊢
              exact hD
          | false =>
            have hgl : p.goal x.1 = (p.atom x.1.atom).lit := by unfold Prg.goal; rw [hn]; rfl
            have hxl' : (⟨x.1.atom, false⟩ : BLit) ∈ (p.body b).body.lits := by
              have : (⟨x.1.atom, false⟩ : BLit) = x.1 := by
                obtain ⟨⟨a, n⟩, w⟩ := x
                simp at hn; simp [hn]
              rw [this]; exact hxl
            have : p.modelOf σ x.1.atom = true ∧ m x.1.atom < m a := by
              rcases hCD with hC | hD
              · unfold Prg.asPred at hC
                simp only [Bool.and_eq_true, decide_eq_true_eq] at hC
                have hMx : p.modelOf σ x.1.atom = true := by rw [modelOf_rel hw1 hw2]; exact hC.2.1
                exact ⟨hMx, hmle _ _ (cnt_le (.single (hdep _ hxl' hMx))) hC.2.2⟩
              · unfold Prg.asLit at hD
                simp only [hn, Bool.false_or, Bool.and_eq_true, decide_eq_true_eq] at hD
                have hMx : p.modelOf σ x.1.atom = true := by rw [modelOf_rel hw1 hw2, ← hgl]; exact hD.2
                exact ⟨hMx, hother _ hxl' hMx (by rw [← hsc]; exact hD.1.1)⟩
            unfold BLit.holds
            rw [hn]
            simp [this.1, this.2]
        · intro x hC
          unfold Prg.asPred at hC
          unfold Prg.asLit
          simp only [Bool.and_eq_true, decide_eq_true_eq, Bool.not_eq_true'] at hC
          simp [hC.1.1, hC.1.2.2]
    · refine holds_lower hholds fun q hq hMq => hother q hq hMq fun hqs => ?_
      exact hsc (bscc_eq hp hk hvb hab (lits_pos hp hb1 hb2 hq) hns hqs)

end Clasp.Asp
