import Verif.Asp.MinLem

/-! The clauses of a component describe its unfounded sets (C47). No code is modelled in this file; it contains proof devices only. -/

namespace Clasp.Min
open Clasp.Core Clasp.Asp

variable {p : DPrg} {old : Bool} {T0 T : Lit → Bool} {c : Nat} {k : Comp}

/-- Proof device: the entries of the atoms of the component when it is built. -/
def as0 (p : DPrg) (old : Bool) (T0 : Lit → Bool) (c : Nat) : List Mapping := (addAtoms (p.graph T0) old T0 (sccAtoms (p.graph T0) c) 1).1
/-- Proof device: the number of the first variable used for bodies. -/
def n0 (p : DPrg) (old : Bool) (T0 : Lit → Bool) (c : Nat) : Nat := (addAtoms (p.graph T0) old T0 (sccAtoms (p.graph T0) c) 1).2
/-- Proof device: the entries of the bodies of the component when it is built. -/
def ms0 (p : DPrg) (old : Bool) (T0 : Lit → Bool) (c : Nat) : List Mapping := addBodies (p.graph T0) T0 (sccBodies (p.graph T0) c) (n0 p old T0 c) []

theorem build_eq : build (p.graph T0) old T0 c = some k ↔ buildDefined (p.graph T0) T0 c (as0 p old T0 c) (ms0 p old T0 c) = true ∧
    k = ⟨as0 p old T0 c, (ms0 p old T0 c).filter fun m => !m.eq,
      addAtomConstraints (as0 p old T0 c) ++ addBodyConstraints (p.graph T0) T0 c (as0 p old T0 c) (ms0 p old T0 c), [], false⟩ := by
  unfold build
  dsimp only
  unfold as0 ms0 n0
  split
  · next h => rw [Option.some.injEq]; exact ⟨fun e => ⟨h, e.symm⟩, fun e => e.2.symm⟩
  · next h => exact ⟨fun e => (by cases e), fun e => absurd e.1 h⟩

theorem a_ok : AOk (p.graph T0) old T0 1 (n0 p old T0 c) (as0 p old T0 c) := addAtoms_ok _ _ _

theorem a_nodes : (as0 p old T0 c).map Mapping.node = sccAtoms (p.graph T0) c := by
  unfold as0
  rw [addAtoms_nodes, List.filter_eq_self]
  intro a ha
  have := (relAtom_iff.1 (mem_sccAtoms.1 ha).1).2.2.2
  have e : ((p.graph T0).atom a).lit = (p.atom a).lit := rfl
  rw [e, this]; rfl

theorem a_sorted : ((as0 p old T0 c).map Mapping.node).Pairwise (· < ·) := by
  rw [a_nodes]; exact sccAtoms_lt

theorem a_rel {m : Mapping} (hm : m ∈ as0 p old T0 c) : p.relAtom T0 m.node = true ∧ (p.atom m.node).scc = c := by
  have : m.node ∈ (as0 p old T0 c).map Mapping.node := List.mem_map.2 ⟨m, hm, rfl⟩
  rw [a_nodes] at this
  exact mem_sccAtoms.1 this

theorem a_ex {a : Nat} (h1 : p.relAtom T0 a = true) (h2 : (p.atom a).scc = c) : ∃ m ∈ as0 p old T0 c, m.node = a := by
  have : a ∈ (as0 p old T0 c).map Mapping.node := by rw [a_nodes]; exact mem_sccAtoms.2 ⟨h1, h2⟩
  obtain ⟨m, hm, e⟩ := List.mem_map.1 this
  exact ⟨m, hm, e⟩

theorem b_spec : (∃ n', BOk (p.graph T0) T0 (n0 p old T0 c) n' (ms0 p old T0 c)) ∧
    (∀ b ∈ sccBodies (p.graph T0) c, ∃ m ∈ ms0 p old T0 c, m.node = b) ∧ (∀ m ∈ ms0 p old T0 c, m.node ∈ sccBodies (p.graph T0) c) := by
  have h := addBodies_ok (T0 := T0) (p.graph T0) (n0 p old T0 c) (sccBodies (p.graph T0) c) (n0 p old T0 c) []
    ⟨Nat.le_refl _, by simp, by simp, by simp, by simp, by simp, by simp⟩
  refine ⟨h.1, fun b hb => h.2.2.1 b hb ?_, fun m hm => (h.2.2.2 m hm).resolve_left (by simp)⟩
  have := (mem_sccBodies.1 hb).1
  unfold DPrg.relBody at this
  rw [Bool.and_eq_true, Bool.not_eq_true'] at this
  exact this.2

/-! ### What is true of the tester -/

/-- Proof device: the tester's clauses and all assumptions that describe the assignment are true. -/
structure Mod (p : DPrg) (old : Bool) (T0 : Lit → Bool) (c : Nat) (T : Lit → Bool) (μ : Asg) : Prop where
  zero : μ 0 = true
  some : ∃ m ∈ as0 p old T0 c, μ.sat m.up
  def1 : ∀ m ∈ as0 p old T0 c, m.ext ≠ 0 → μ.sat m.hp → μ.sat m.tp ∧ ¬ μ.sat m.up
  def2 : ∀ m ∈ as0 p old T0 c, m.ext ≠ 0 → μ.sat m.tp → μ.sat m.up ∨ μ.sat m.hp
  heads : ∀ m ∈ ms0 p old T0 c, ∀ h ∈ ((p.graph T0).body m.node).heads, ∀ cl ∈ headClauses (p.graph T0) c (as0 p old T0 c) m h, μ.satC cl
  tp : ∀ m ∈ as0 p old T0 c, m.ext = 2 → (μ.sat m.tp ↔ T (p.atom m.node).lit = true)
  up : ∀ m ∈ as0 p old T0 c, T (p.atom m.node).lit.neg = true → ¬ μ.sat m.up
  fb : ∀ m ∈ ms0 p old T0 c, m.ext = 0 → (μ.sat m.fb ↔ T (p.body m.node).lit.neg = true)

theorem satC_cons {μ : Asg} {q : Lit} {cl : List Lit} : μ.satC (q :: cl) ↔ μ.sat q ∨ μ.satC cl := by
  unfold Asg.satC; simp

theorem satC_nil {μ : Asg} : ¬ μ.satC [] := by unfold Asg.satC; simp

/-- Proof device: the assumptions of the component when it is built. -/
def asm0 (p : DPrg) (old : Bool) (T0 : Lit → Bool) (c : Nat) (T : Lit → Bool) : List Lit :=
  (as0 p old T0 c).flatMap (atomAssume (p.graph T0) T) ++ ((ms0 p old T0 c).filter fun m => !m.eq).map (bodyAssume (p.graph T0) T)

/-- Proof device: the clauses of the component. -/
def cls0 (p : DPrg) (old : Bool) (T0 : Lit → Bool) (c : Nat) : List (List Lit) :=
  addAtomConstraints (as0 p old T0 c) ++ addBodyConstraints (p.graph T0) T0 c (as0 p old T0 c) (ms0 p old T0 c)

theorem mod_iff {μ : Asg} : Mod p old T0 c T μ ↔ μ 0 = true ∧ (∀ cl ∈ cls0 p old T0 c, μ.satC cl) ∧ μ.all (asm0 p old T0 c T) := by
  obtain ⟨n', hB⟩ := (b_spec (p := p) (old := old) (T0 := T0) (c := c)).1
  constructor
  · intro h
    refine ⟨h.zero, fun cl hcl => ?_, fun q hq => ?_⟩
    · unfold cls0 addAtomConstraints addBodyConstraints at hcl
      rcases List.mem_append.1 hcl with hcl | hcl
      · rcases List.mem_append.1 hcl with hcl | hcl
        · obtain ⟨m, hm, hcl⟩ := List.mem_flatMap.1 hcl
          unfold atomClauses Mapping.disj at hcl
          by_cases he : m.ext = 0
          · simp [he] at hcl
          · simp only [ne_eq, he, not_false_iff, decide_true, if_true, List.mem_cons, List.not_mem_nil, or_false] at hcl
            rcases hcl with rfl | rfl | rfl
            · by_cases ht : μ.sat m.tp
              · rcases h.def2 m hm he ht with h1 | h1
                · exact ⟨m.up, by simp, h1⟩
                · exact ⟨m.hp, by simp, h1⟩
              · exact ⟨m.tp.neg, by simp, by simpa using ht⟩
            · by_cases hh : μ.sat m.hp
              · exact ⟨m.tp, by simp, (h.def1 m hm he hh).1⟩
              · exact ⟨m.hp.neg, by simp, by simpa using hh⟩
            · by_cases hh : μ.sat m.hp
              · exact ⟨m.up.neg, by simp, by simpa using (h.def1 m hm he hh).2⟩
              · exact ⟨m.hp.neg, by simp, by simpa using hh⟩
        · obtain rfl := List.mem_singleton.1 hcl
          obtain ⟨m, hm, hu⟩ := h.some
          exact ⟨m.up, List.mem_map.2 ⟨m, hm, rfl⟩, hu⟩
      · obtain ⟨m, hm, hcl⟩ := List.mem_flatMap.1 hcl
        rw [if_neg (by rw [hB.fls m hm]; simp)] at hcl
        obtain ⟨hd, hhd, hcl⟩ := List.mem_flatMap.1 hcl
        exact h.heads m hm hd hhd cl hcl
    · unfold asm0 at hq
      rcases List.mem_append.1 hq with hq | hq
      · obtain ⟨m, hm, hq⟩ := List.mem_flatMap.1 hq
        unfold atomAssume Mapping.hasTp at hq
        rcases List.mem_append.1 hq with hq | hq
        · by_cases he : m.ext = 2
          · simp only [he, decide_true, if_true, List.mem_singleton] at hq
            have := h.tp m hm he
            by_cases ht : T (p.atom m.node).lit = true
            · have e : T ((p.graph T0).atom m.node).lit = true := ht
              rw [if_pos e] at hq; subst hq; exact this.2 ht
            · have e : ¬ T ((p.graph T0).atom m.node).lit = true := ht
              rw [if_neg e] at hq; subst hq
              rw [Asg.sat_neg]
              exact fun hs => ht (this.1 hs)
          · simp [he] at hq
        · by_cases ht : T (p.atom m.node).lit.neg = true
          · have e : T ((p.graph T0).atom m.node).lit.neg = true := ht
            rw [if_pos e] at hq
            obtain rfl := List.mem_singleton.1 hq
            rw [Asg.sat_neg]
            exact h.up m hm ht
          · have e : ¬ T ((p.graph T0).atom m.node).lit.neg = true := ht
            rw [if_neg e] at hq; cases hq
      · obtain ⟨m, hm, rfl⟩ := List.mem_map.1 hq
        obtain ⟨hm, he⟩ := List.mem_filter.1 hm
        have he : m.ext = 0 := by simpa [Mapping.eq] using he
        have := h.fb m hm he
        unfold bodyAssume
        by_cases ht : T (p.body m.node).lit.neg = true
        · have e : T ((p.graph T0).body m.node).lit.neg = true := ht
          rw [if_pos e]; exact this.2 ht
        · have e : ¬ T ((p.graph T0).body m.node).lit.neg = true := ht
          rw [if_neg e, Asg.sat_neg]; exact fun hs => ht (this.1 hs)
  · rintro ⟨h0, hc, ha⟩
    have hat : ∀ m ∈ as0 p old T0 c, ∀ cl ∈ atomClauses m, μ.satC cl := fun m hm cl hcl =>
      hc cl (by unfold cls0 addAtomConstraints; simp only [List.mem_append, List.mem_flatMap]; exact .inl (.inl ⟨m, hm, hcl⟩))
    have haa : ∀ m ∈ as0 p old T0 c, ∀ q ∈ atomAssume (p.graph T0) T m, μ.sat q := fun m hm q hq =>
      ha q (by unfold asm0; simp only [List.mem_append, List.mem_flatMap]; exact .inl ⟨m, hm, hq⟩)
    have hba : ∀ m ∈ ms0 p old T0 c, m.ext = 0 → μ.sat (bodyAssume (p.graph T0) T m) := fun m hm he =>
      ha _ (by unfold asm0; rw [List.mem_append]; exact .inr (List.mem_map.2 ⟨m, List.mem_filter.2 ⟨hm, by simp [Mapping.eq, he]⟩, rfl⟩))
    have h3 : ∀ m ∈ as0 p old T0 c, m.ext ≠ 0 → (μ.satC [m.tp.neg, m.up, m.hp] ∧ μ.satC [m.hp.neg, m.tp] ∧ μ.satC [m.hp.neg, m.up.neg]) := by
      intro m hm he
      have e : atomClauses m = [[m.tp.neg, m.up, m.hp], [m.hp.neg, m.tp], [m.hp.neg, m.up.neg]] := by
        unfold atomClauses Mapping.disj; rw [if_pos (by simpa using he)]
      refine ⟨hat m hm _ ?_, hat m hm _ ?_, hat m hm _ ?_⟩ <;> rw [e] <;> simp
    refine ⟨h0, ?_, fun m hm he hh => ?_, fun m hm he ht => ?_, fun m hm h hh cl hcl => ?_, fun m hm he => ?_, fun m hm ht => ?_, fun m hm he => ?_⟩
    · obtain ⟨q, hq, hs⟩ := hc ((as0 p old T0 c).map Mapping.up) (by unfold cls0 addAtomConstraints; simp)
      obtain ⟨m, hm, rfl⟩ := List.mem_map.1 hq
      exact ⟨m, hm, hs⟩
    · obtain ⟨-, h4, h5⟩ := h3 m hm he
      simp only [satC_cons, satC_nil, or_false, Asg.sat_neg] at h4 h5
      exact ⟨h4.resolve_left fun hx => hx hh, h5.resolve_left fun hx => hx hh⟩
    · obtain ⟨h4, -, -⟩ := h3 m hm he
      simp only [satC_cons, satC_nil, or_false, Asg.sat_neg] at h4
      exact h4.resolve_left fun hx => hx ht
    · refine hc cl ?_
      unfold cls0 addBodyConstraints
      rw [List.mem_append]
      refine .inr (List.mem_flatMap.2 ⟨m, hm, ?_⟩)
      rw [if_neg (by rw [hB.fls m hm]; simp)]
      exact List.mem_flatMap.2 ⟨h, hh, hcl⟩
    · have h4 := haa m hm (if T (p.atom m.node).lit then m.tp else m.tp.neg) (by
        unfold atomAssume Mapping.hasTp
        simp only [he, decide_true, if_true, List.mem_append, List.mem_singleton]
        exact .inl rfl)
      by_cases ht : T (p.atom m.node).lit = true
      · rw [if_pos ht] at h4; exact ⟨fun _ => ht, fun _ => h4⟩
      · rw [if_neg ht, Asg.sat_neg] at h4
        exact ⟨fun hx => absurd hx h4, fun hx => absurd hx ht⟩
    · have h4 := haa m hm m.up.neg (by
        unfold atomAssume
        have e : T ((p.graph T0).atom m.node).lit.neg = true := ht
        rw [if_pos e]; simp)
      rwa [Asg.sat_neg] at h4
    · have h4 := hba m hm he
      unfold bodyAssume at h4
      by_cases ht : T (p.body m.node).lit.neg = true
      · have e : T ((p.graph T0).body m.node).lit.neg = true := ht
        rw [if_pos e] at h4; exact ⟨fun _ => ht, fun _ => h4⟩
      · have e : ¬ T ((p.graph T0).body m.node).lit.neg = true := ht
        rw [if_neg e, Asg.sat_neg] at h4
        exact ⟨fun hx => absurd hx h4, fun hx => absurd hx ht⟩

/-! ### Models of the tester and unfounded sets -/

theorem mem_heads {b : Nat} {d : DHead} : d ∈ ((p.graph T0).body b).heads ↔
    (∃ a ch, .atom a ch false ∈ (p.body b).heads ∧ p.relAtom T0 a = true ∧ d = .norm a) ∨ (∃ as, .disj as ∈ (p.body b).heads ∧ d = .disj (as.filter (p.relAtom T0))) := by
  simp only [DPrg.graph, DPrg.bodyNode, List.mem_filterMap]
  constructor
  · rintro ⟨h, hh, hd⟩
    cases h with
    | atom a ch gm =>
      simp only [DPrg.head] at hd
      split at hd
      · next hc =>
        rw [Bool.and_eq_true, Bool.not_eq_true'] at hc
        obtain ⟨rfl, hr⟩ := hc
        exact .inl ⟨a, ch, hh, hr, by simpa using hd.symm⟩
      · cases hd
    | disj as =>
      simp only [DPrg.head, Option.some.injEq] at hd
      exact .inr ⟨as, hh, hd.symm⟩
  · rintro (⟨a, ch, h1, h2, rfl⟩ | ⟨as, h1, rfl⟩)
    · exact ⟨_, h1, by simp [DPrg.head, h2]⟩
    · exact ⟨_, h1, rfl⟩

theorem mem_preds {b x : Nat} : x ∈ ((p.graph T0).body b).preds ↔
    p.bscc b ≠ noScc ∧ x ∈ ((p.body b).body.front.map fun z => z.1.atom) ∧ p.relAtom T0 x = true ∧ (p.atom x).scc = p.bscc b := by
  simp only [DPrg.graph, DPrg.bodyNode, DPrg.preds]
  split
  · next h => simp [h]
  · next h => simp only [List.mem_filter, Bool.and_eq_true, decide_eq_true_eq, ne_eq, h, not_false_iff, true_and]

/-- Proof device: what the tester says about the atom. -/
def upSet (p : DPrg) (old : Bool) (T0 : Lit → Bool) (c : Nat) (μ : Asg) (a : Nat) : Prop := ∃ m ∈ as0 p old T0 c, m.node = a ∧ μ.sat m.up

theorem up_iff {μ : Asg} {m : Mapping} (hm : m ∈ as0 p old T0 c) : upSet p old T0 c μ m.node ↔ μ.sat m.up :=
  ⟨fun ⟨m', h1, h2, h3⟩ => by rw [← node_inj a_sorted h1 hm h2]; exact h3, fun h => ⟨m, hm, rfl, h⟩⟩

theorem find_as {a : Nat} (h1 : p.relAtom T0 a = true) (h2 : (p.atom a).scc = c) : find (as0 p old T0 c) a ∈ as0 p old T0 c ∧ (find (as0 p old T0 c) a).node = a := by
  obtain ⟨m, hm, rfl⟩ := a_ex (old := old) h1 h2
  rw [find_eq a_sorted hm]; exact ⟨hm, rfl⟩

/-- No extended body defines an atom of the component. -/
theorem defined_ext (hd : buildDefined (p.graph T0) T0 c (as0 p old T0 c) (ms0 p old T0 c) = true) {b : Nat} (hb : b ∈ sccBodies (p.graph T0) c) :
    ((p.graph T0).body b).ext = false := by
  obtain ⟨⟨n', hB⟩, h2, -⟩ := b_spec (p := p) (old := old) (T0 := T0) (c := c)
  obtain ⟨m, hm, rfl⟩ := h2 b hb
  have := List.all_eq_true.1 hd m hm
  simp only [hB.fls m hm, Bool.false_or, Bool.and_eq_true, Bool.not_eq_true'] at this
  exact this.1

theorem conj_of {b : Nat} (hbs : p.bscc b ≠ noScc) (he : ((p.graph T0).body b).ext = false) : (p.body b).body.isSum = false := by
  simp only [DPrg.graph, DPrg.bodyNode, Bool.and_eq_false_iff, decide_eq_false_iff_not, not_not] at he
  exact he.resolve_left hbs

theorem Mod.unf {μ : Asg} (hok : p.Ok) (hc : c ≠ noScc) (hd : buildDefined (p.graph T0) T0 c (as0 p old T0 c) (ms0 p old T0 c) = true)
    (hT : ∀ q, T0 q = true → T q = true) (h : Mod p old T0 c T μ) : Unf p T c (upSet p old T0 c μ) := by
  obtain ⟨⟨n', hB⟩, hbm, hmb⟩ := b_spec (p := p) (old := old) (T0 := T0) (c := c)
  have hA := a_ok (p := p) (old := old) (T0 := T0) (c := c)
  refine ⟨?_, ?_, fun b hb hd' hh hg a ha hu => ?_⟩
  · obtain ⟨m, hm, hu⟩ := h.some
    exact ⟨m.node, m, hm, rfl, hu⟩
  · rintro a ⟨m, hm, rfl, hu⟩
    have hr := a_rel hm
    refine ⟨(relAtom_iff.1 hr.1).1, hr.2, ?_⟩
    cases ht : T (p.atom m.node).lit.neg with
    | false => rfl
    | true => exact absurd hu (h.up m hm ht)
  · by_cases hTb : T (p.body b).lit.neg = true
    · exact .inl hTb
    right
    obtain ⟨ma, hma, rfl, hus⟩ := hu
    have hra := a_rel hma
    have hT0b : T0 (p.body b).lit.neg = false := by
      cases ht : T0 (p.body b).lit.neg with
      | false => rfl
      | true => exact absurd (hT _ ht) hTb
    have hbs : b ∈ sccBodies (p.graph T0) c := mem_sccBodies.2 ⟨by
      unfold DPrg.relBody; rw [hT0b]; simpa using hb, hd', hh, hg, ma.node, ha, hra.1, hra.2⟩
    obtain ⟨m, hm, rfl⟩ := hbm b hbs
    -- the literal of the body is not false for the tester
    have hfb : ¬ μ.sat m.fb := by
      intro hf
      have h2 := hB.two m hm
      rcases Nat.lt_or_ge m.ext 1 with h0 | h0
      · exact hTb ((h.fb m hm (by omega)).1 hf)
      · by_cases h1 : m.ext = 1
        · have := (hB.t1 m hm h1).1
          unfold Mapping.fb Asg.sat at hf
          rw [h1, this] at hf
          rw [h.zero] at hf
          simp [Lit.tv] at hf
        · obtain ⟨m', hm', he, hv, hl⟩ := hB.rep m hm (by omega)
          apply hTb
          have e : (p.body m'.node).lit = (p.body m.node).lit := hl
          rw [← e]
          refine (h.fb m' hm' he).1 ?_
          have e2 : m'.fb = m.fb := by
            unfold Mapping.fb; rw [hv, he, show m.ext = 2 by omega]
          rw [e2]; exact hf
    have hext := defined_ext hd hbs
    have hpreds : μ.satC (bodyBase (p.graph T0) c (as0 p old T0 c) m) → ∃ x ls, (p.body m.node).body = .conj ls ∧ (⟨x, false⟩ : BLit) ∈ ls ∧ upSet p old T0 c μ x := by
      rintro ⟨q, hq, hs⟩
      unfold bodyBase at hq
      rcases List.mem_cons.1 hq with rfl | hq
      · exact absurd hs hfb
      · split at hq
        · next hsc =>
          obtain ⟨x, hx, rfl⟩ := List.mem_map.1 hq
          obtain ⟨h1, h2, h3, h4⟩ := mem_preds.1 hx
          have hsc : p.bscc m.node = c := hsc
          have hfx := find_as (old := old) (c := c) h3 (by rw [h4, hsc])
          have hs2 := conj_of h1 hext
          have hp := front_pos h2
          cases hB' : (p.body m.node).body with
          | sum ls bd => rw [hB'] at hs2; cases hs2
          | conj ls =>
            refine ⟨x, ls, rfl, by rw [Pos, hB'] at hp; exact hp, ?_⟩
            rw [← hfx.2]
            exact (up_iff hfx.1).2 hs
        · cases hq
    cases hd' with
    | atom a ch gm =>
      left
      have e : ma.node = a := by simpa [PHead.atoms] using ha
      subst e
      have hgm : gm = false := hg
      subst hgm
      have hcl := h.heads m hm (.norm ma.node) (mem_heads.2 (.inl ⟨_, ch, hh, hra.1, rfl⟩)) _ (by
        have e : ((p.graph T0).atom ma.node).scc = c := hra.2
        simp only [headClauses]
        rw [if_neg (by simpa using e)]
        exact List.mem_singleton.2 rfl)
      rw [Asg.satC_append, find_eq a_sorted hma, satC_cons] at hcl
      rcases hcl with hcl | hcl | hcl
      · exact hpreds hcl
      · exact absurd hus ((Asg.sat_neg _ _).1 hcl)
      · exact absurd hcl satC_nil
    | disj as =>
      have ha' : ma.node ∈ as.filter (p.relAtom T0) := List.mem_filter.2 ⟨ha, hra.1⟩
      have hsame : ∀ o ∈ as, (p.atom o).scc = c := fun o ho => by rw [← hra.2]; exact hok.disj m.node hb as hh o ho ma.node ha
      have hds : disjScc (p.graph T0) (as.filter (p.relAtom T0)) = c := by
        cases hf : as.filter (p.relAtom T0) with
        | nil => rw [hf] at ha'; cases ha'
        | cons o os =>
          have : o ∈ as := (List.mem_filter.1 (show o ∈ as.filter (p.relAtom T0) by rw [hf]; simp)).1
          exact hsame o this
      have hcl := h.heads m hm (.disj (as.filter (p.relAtom T0))) (mem_heads.2 (.inr ⟨as, hh, rfl⟩)) _ (by
        simp only [headClauses]
        rw [if_neg (by simpa using hds)]
        exact List.mem_map.2 ⟨ma.node, ha', rfl⟩)
      rw [Asg.satC_append, Asg.satC_append, find_eq a_sorted hma, satC_cons] at hcl
      rcases hcl with (hcl | hcl | hcl) | hcl
      · exact .inl (hpreds hcl)
      · exact absurd hus ((Asg.sat_neg _ _).1 hcl)
      · exact absurd hcl satC_nil
      · right
        obtain ⟨q, hq, hs⟩ := hcl
        obtain ⟨o, ho, rfl⟩ := List.mem_map.1 hq
        obtain ⟨ho, hne⟩ := List.mem_filter.1 ho
        obtain ⟨ho, hro⟩ := List.mem_filter.1 ho
        obtain ⟨hm1, hm2⟩ := find_as (old := old) hro (hsame o ho)
        generalize hmo : find (as0 p old T0 c) o = mo at *
        subst hm2
        have he : mo.ext ≠ 0 := hA.dis mo hm1 (by rw [graph_disj hb hh ho]; simp)
        obtain ⟨h1, h2⟩ := h.def1 mo hm1 he hs
        refine ⟨as, rfl, mo.node, ho, fun hu => h2 ((up_iff hm1).1 hu), ?_⟩
        by_cases he2 : mo.ext = 2
        · exact (h.tp mo hm1 he2).1 h1
        · exact hT _ (hA.t1 mo hm1 (by have := hA.two mo hm1; omega))

open Classical in
/-- Proof device: the tester's model for an unfounded set. -/
noncomputable def mu (p : DPrg) (old : Bool) (T0 : Lit → Bool) (c : Nat) (T : Lit → Bool) (U : Nat → Prop) : Asg := fun v =>
  decide (v = 0 ∨
    (∃ m ∈ as0 p old T0 c, v = m.var ∧ U m.node ∨ v = m.var + 1 ∧ 1 ≤ m.ext ∧ ¬ U m.node ∧ T (p.atom m.node).lit = true ∨
      v = m.var + 2 ∧ m.ext = 2 ∧ T (p.atom m.node).lit = true) ∨
    (∃ m ∈ ms0 p old T0 c, m.ext ≠ 1 ∧ v = m.var ∧ T (p.body m.node).lit.neg = true))

theorem mu_iff {U : Nat → Prop} {v : Nat} : mu p old T0 c T U v = true ↔ (v = 0 ∨
    (∃ m ∈ as0 p old T0 c, v = m.var ∧ U m.node ∨ v = m.var + 1 ∧ 1 ≤ m.ext ∧ ¬ U m.node ∧ T (p.atom m.node).lit = true ∨
      v = m.var + 2 ∧ m.ext = 2 ∧ T (p.atom m.node).lit = true) ∨
    (∃ m ∈ ms0 p old T0 c, m.ext ≠ 1 ∧ v = m.var ∧ T (p.body m.node).lit.neg = true)) := by
  classical
  unfold mu; simp only [decide_eq_true_eq]

theorem sat_pos {μ : Asg} {v : Nat} : μ.sat ⟨v, false⟩ ↔ μ v = true := by unfold Asg.sat Lit.tv; simp

section
variable {U : Nat → Prop} {m : Mapping}

theorem mu_up (hm : m ∈ as0 p old T0 c) : (mu p old T0 c T U).sat m.up ↔ U m.node := by
  have hA := a_ok (p := p) (old := old) (T0 := T0) (c := c)
  obtain ⟨n', hB⟩ := (b_spec (p := p) (old := old) (T0 := T0) (c := c)).1
  have hr := hA.rng m hm
  unfold Mapping.up
  rw [sat_pos, mu_iff]
  constructor
  · rintro (h | ⟨m', hm', h | h | h⟩ | ⟨m', hm', he, h, _⟩)
    · omega
    · obtain ⟨rfl, _⟩ := hA.inj hm hm' (i := 0) (j := 0) (by omega) (by omega) (by omega)
      exact h.2
    · have := (hA.inj hm hm' (i := 0) (j := 1) (by omega) (by omega) (by omega)).2
      omega
    · have := (hA.inj hm hm' (i := 0) (j := 2) (by omega) (by omega) (by omega)).2
      omega
    · have := hB.rng m' hm' he; omega
  · exact fun h => .inr (.inl ⟨m, hm, .inl ⟨rfl, h⟩⟩)

theorem mu_hp (hm : m ∈ as0 p old T0 c) (he : m.ext ≠ 0) : (mu p old T0 c T U).sat m.hp ↔ ¬ U m.node ∧ T (p.atom m.node).lit = true := by
  have hA := a_ok (p := p) (old := old) (T0 := T0) (c := c)
  obtain ⟨n', hB⟩ := (b_spec (p := p) (old := old) (T0 := T0) (c := c)).1
  have hr := hA.rng m hm
  unfold Mapping.hp
  rw [sat_pos, mu_iff]
  constructor
  · rintro (h | ⟨m', hm', h | h | h⟩ | ⟨m', hm', he, h, _⟩)
    · omega
    · have := (hA.inj hm hm' (i := 1) (j := 0) (by omega) (by omega) (by omega)).2
      omega
    · obtain ⟨rfl, _⟩ := hA.inj hm hm' (i := 1) (j := 1) (by omega) (by omega) (by omega)
      exact h.2.2
    · have := (hA.inj hm hm' (i := 1) (j := 2) (by omega) (by omega) (by omega)).2
      omega
    · have := hB.rng m' hm' he; omega
  · exact fun h => .inr (.inl ⟨m, hm, .inr (.inl ⟨rfl, by omega, h⟩)⟩)

theorem mu_tp (hm : m ∈ as0 p old T0 c) (he : m.ext = 2) : (mu p old T0 c T U).sat m.tp ↔ T (p.atom m.node).lit = true := by
  have hA := a_ok (p := p) (old := old) (T0 := T0) (c := c)
  obtain ⟨n', hB⟩ := (b_spec (p := p) (old := old) (T0 := T0) (c := c)).1
  have hr := hA.rng m hm
  have e : m.tp = ⟨m.var + 2, false⟩ := by unfold Mapping.tp Mapping.hasTp; simp [he]
  rw [e, sat_pos, mu_iff]
  constructor
  · rintro (h | ⟨m', hm', h | h | h⟩ | ⟨m', hm', he', h, _⟩)
    · omega
    · have := (hA.inj hm hm' (i := 2) (j := 0) (by omega) (by omega) (by omega)).2
      omega
    · have := (hA.inj hm hm' (i := 2) (j := 1) (by omega) (by omega) (by omega)).2
      omega
    · obtain ⟨rfl, _⟩ := hA.inj hm hm' (i := 2) (j := 2) (by omega) (by omega) (by omega)
      exact h.2.2
    · have := hB.rng m' hm' he'; omega
  · exact fun h => .inr (.inl ⟨m, hm, .inr (.inr ⟨rfl, he, h⟩)⟩)

theorem mu_fb (hm : m ∈ ms0 p old T0 c) (he : m.ext ≠ 1) : (mu p old T0 c T U).sat m.fb ↔ T (p.body m.node).lit.neg = true := by
  have hA := a_ok (p := p) (old := old) (T0 := T0) (c := c)
  obtain ⟨n', hB⟩ := (b_spec (p := p) (old := old) (T0 := T0) (c := c)).1
  have hr := hB.rng m hm he
  have h2 := hB.two m hm
  have hle := hA.le
  have e : m.fb = ⟨m.var, false⟩ := by
    unfold Mapping.fb
    rcases Nat.lt_or_ge m.ext 1 with h0 | h0
    · rw [show m.ext = 0 by omega]; rfl
    · rw [show m.ext = 2 by omega]; rfl
  rw [e, sat_pos, mu_iff]
  constructor
  · rintro (h | ⟨m', hm', h | h | h⟩ | ⟨m', hm', he', h, ht⟩)
    · omega
    · have := hA.rng m' hm'; omega
    · have := hA.rng m' hm'; omega
    · have := hA.rng m' hm'; omega
    · have : (p.body m.node).lit = (p.body m'.node).lit := hB.inj m hm m' hm' he he' h
      rw [this]; exact ht
  · exact fun h => .inr (.inr ⟨m, hm, he, rfl, h⟩)

end

theorem Unf.mod {U : Nat → Prop} (hok : p.Ok) (hc : c ≠ noScc) (hT : ∀ q, T0 q = true → T q = true) (hcon : ∀ q, T q = true → T q.neg = false) (h : Unf p T c U) :
    Mod p old T0 c T (mu p old T0 c T U) ∧ ∀ a, upSet p old T0 c (mu p old T0 c T U) a ↔ U a := by
  have hA := a_ok (p := p) (old := old) (T0 := T0) (c := c)
  obtain ⟨⟨n', hB⟩, hbm, hmb⟩ := b_spec (p := p) (old := old) (T0 := T0) (c := c)
  have hrel : ∀ a, U a → p.relAtom T0 a = true ∧ (p.atom a).scc = c := by
    intro a ha
    obtain ⟨h1, h2, h3⟩ := h.2.1 a ha
    refine ⟨relAtom_iff.2 ⟨h1, hok.rel a h1 (by rw [h2]; exact hc), by rw [h2]; exact hc, ?_⟩, h2⟩
    cases ht : T0 (p.atom a).lit.neg with
    | false => rfl
    | true => rw [hT _ ht] at h3; cases h3
  have hz : mu p old T0 c T U 0 = true := mu_iff.2 (.inl rfl)
  have htp1 : ∀ m ∈ as0 p old T0 c, m.ext = 1 → (mu p old T0 c T U).sat m.tp := by
    intro m hm he
    have e : m.tp = ⟨0, false⟩ := by unfold Mapping.tp Mapping.hasTp; simp [he]
    rw [e, sat_pos]; exact hz
  have htpT : ∀ m ∈ as0 p old T0 c, m.ext ≠ 0 → ((mu p old T0 c T U).sat m.tp ↔ T (p.atom m.node).lit = true) := by
    intro m hm he
    by_cases he2 : m.ext = 2
    · exact mu_tp hm he2
    · have he1 : m.ext = 1 := by have := hA.two m hm; omega
      exact ⟨fun _ => hT _ (hA.t1 m hm he1), fun _ => htp1 m hm he1⟩
  refine ⟨⟨hz, ?_, ?_, ?_, ?_, fun m hm he => mu_tp hm he, ?_, fun m hm he => mu_fb hm (by omega)⟩, ?_⟩
  · obtain ⟨a, ha⟩ := h.1
    obtain ⟨h1, h2⟩ := hrel a ha
    obtain ⟨m, hm, rfl⟩ := a_ex (old := old) h1 h2
    exact ⟨m, hm, (mu_up hm).2 ha⟩
  · intro m hm he hh
    obtain ⟨h1, h2⟩ := (mu_hp hm he).1 hh
    exact ⟨(htpT m hm he).2 h2, fun hu => h1 ((mu_up hm).1 hu)⟩
  · intro m hm he ht
    by_cases hu : U m.node
    · exact .inl ((mu_up hm).2 hu)
    · exact .inr ((mu_hp hm he).2 ⟨hu, (htpT m hm he).1 ht⟩)
  · intro m hm hd hhd cl hcl
    obtain ⟨hrb, _⟩ := mem_sccBodies.1 (hmb m hm)
    have hbl : m.node < p.nbodies := by
      unfold DPrg.relBody at hrb
      rw [Bool.and_eq_true, decide_eq_true_eq] at hrb; exact hrb.1
    -- a false body, or a goal in the set
    have hbase1 : T (p.body m.node).lit.neg = true → (mu p old T0 c T U).satC (bodyBase (p.graph T0) c (as0 p old T0 c) m) := by
      intro ht
      refine ⟨m.fb, by unfold bodyBase; simp, ?_⟩
      by_cases he : m.ext = 1
      · have h1 := hT _ (hB.t1 m hm he).2
        have e : ((p.graph T0).body m.node).lit = (p.body m.node).lit := rfl
        rw [e] at h1
        rw [hcon _ h1] at ht; cases ht
      · exact (mu_fb hm he).2 ht
    have hbase2 : ∀ h' ∈ (p.body m.node).heads, ∀ a ∈ h'.atoms, (p.atom a).scc = c →
        (∃ x ls, (p.body m.node).body = .conj ls ∧ (⟨x, false⟩ : BLit) ∈ ls ∧ U x) → (mu p old T0 c T U).satC (bodyBase (p.graph T0) c (as0 p old T0 c) m) := by
      rintro h' hh' a ha hac ⟨x, ls, e, hx, hux⟩
      have hpx : Pos (p.body m.node).body x := by unfold Pos; rw [e]; exact hx
      obtain ⟨h1, h2⟩ := hrel x hux
      have hbs : p.bscc m.node = c := by
        rw [bscc_eq hok hbl hh' ha hpx (by rw [hac]; exact hc) (by rw [hac, h2]), hac]
      obtain ⟨hf1, hf2⟩ := find_as (old := old) h1 h2
      refine ⟨(find (as0 p old T0 c) x).up, ?_, (mu_up hf1).2 (by rw [hf2]; exact hux)⟩
      unfold bodyBase
      have e2 : ((p.graph T0).body m.node).scc = c := hbs
      rw [if_pos e2]
      refine List.mem_cons_of_mem _ (List.mem_map.2 ⟨x, mem_preds.2 ⟨by rw [hbs]; exact hc, hok.front _ hbl x hpx, h1, by rw [h2, hbs]⟩, rfl⟩)
    rcases mem_heads.1 hhd with ⟨a, ch, hh, hra, rfl⟩ | ⟨as, hh, rfl⟩
    · simp only [headClauses] at hcl
      split at hcl
      · cases hcl
      · next hsc =>
        have hsc : (p.atom a).scc = c := not_not.1 hsc
        obtain rfl := List.mem_singleton.1 hcl
        obtain ⟨hf1, hf2⟩ := find_as (old := old) hra hsc
        rw [Asg.satC_append, satC_cons, Asg.sat_neg, mu_up hf1, hf2]
        by_cases hu : U a
        · left
          rcases h.2.2 m.node hbl _ hh rfl a (by simp [PHead.atoms]) hu with h1 | h1 | ⟨as, h1, _⟩
          · exact hbase1 h1
          · exact hbase2 _ hh a (by simp [PHead.atoms]) hsc h1
          · cases h1
        · exact .inr (.inl hu)
    · simp only [headClauses] at hcl
      split at hcl
      · cases hcl
      · next hsc =>
        have hsc : disjScc (p.graph T0) (as.filter (p.relAtom T0)) = c := by simpa using hsc
        obtain ⟨a, ha, rfl⟩ := List.mem_map.1 hcl
        obtain ⟨ha, hra⟩ := List.mem_filter.1 ha
        have hall : ∀ o ∈ as, (p.atom o).scc = c := by
          intro o ho
          cases hf : as.filter (p.relAtom T0) with
          | nil =>
            have : a ∈ as.filter (p.relAtom T0) := List.mem_filter.2 ⟨ha, hra⟩
            rw [hf] at this; cases this
          | cons y ys =>
            rw [hf] at hsc
            have hy : y ∈ as := (List.mem_filter.1 (show y ∈ as.filter (p.relAtom T0) by rw [hf]; simp)).1
            rw [hok.disj _ hbl as hh o ho y hy]; exact hsc
        obtain ⟨hf1, hf2⟩ := find_as (old := old) hra (hall a ha)
        rw [Asg.satC_append, Asg.satC_append, satC_cons, Asg.sat_neg, mu_up hf1, hf2]
        by_cases hu : U a
        · rcases h.2.2 m.node hbl _ hh rfl a ha hu with h1 | h1 | ⟨as', h1, o, ho, hno, hto⟩
          · exact .inl (.inl (hbase1 h1))
          · exact .inl (.inl (hbase2 _ hh a ha (hall a ha) h1))
          · cases h1
            right
            have hro : p.relAtom T0 o = true := by
              have hl := hok.heads _ hbl _ hh o ho
              refine relAtom_iff.2 ⟨hl, hok.rel o hl (by rw [hall o ho]; exact hc), by rw [hall o ho]; exact hc, ?_⟩
              cases ht : T0 (p.atom o).lit.neg with
              | false => rfl
              | true => have := hcon _ hto; rw [hT _ ht] at this; cases this
            obtain ⟨ho1, ho2⟩ := find_as (old := old) hro (hall o ho)
            refine ⟨(find (as0 p old T0 c) o).hp, List.mem_map.2 ⟨o, List.mem_filter.2 ⟨List.mem_filter.2 ⟨ho, hro⟩, ?_⟩, rfl⟩, ?_⟩
            · rw [decide_eq_true_eq]; rintro rfl; exact hno hu
            · refine (mu_hp ho1 (hA.dis _ ho1 ?_)).2 (by rw [ho2]; exact ⟨hno, hto⟩)
              rw [ho2, graph_disj hbl hh ho]; simp
        · exact .inl (.inr (.inl hu))
  · intro m hm ht hu
    have := (h.2.1 _ ((mu_up hm).1 hu)).2.2
    rw [ht] at this; cases this
  · intro a
    constructor
    · rintro ⟨m, hm, rfl, hu⟩; exact (mu_up hm).1 hu
    · intro hu
      obtain ⟨h1, h2⟩ := hrel a hu
      obtain ⟨m, hm, rfl⟩ := a_ex (old := old) h1 h2
      exact ⟨m, hm, rfl, (mu_up hm).2 hu⟩

end Clasp.Min
