import Verif.Asp.Min
import Verif.Asp.UfsStable

/-! What the minimality check is about (C47): specification, and facts about it. No code is modelled in this file. -/

namespace Clasp.Min
open Clasp.Core Clasp.Asp Relation

/-- Specification: the head is that of a rule added by shifting, which is redundant. -/
def PHead.gamma : PHead → Bool
  | .atom _ _ gamma => gamma
  | .disj _ => false

/-- Specification: the rule of a head. -/
def PHead.rule (B : Body) : PHead → Rule
  | .atom a choice _ => ⟨if choice then .choice [a] else .disj [a], B⟩
  | .disj as => ⟨.disj as, B⟩

/-- Specification: the rules of the program. -/
def DPrg.rules (p : DPrg) : List Rule :=
  (List.range p.nbodies).flatMap fun b => ((p.body b).heads.filter fun h => !h.gamma).map (PHead.rule (p.body b).body)

/-- Specification: `x` occurs positively in the body. -/
def Pos (B : Body) (x : Nat) : Prop := (⟨x, false⟩ : BLit) ∈ B.lits

/-- Specification: what is known about a program when its graph is built. Atoms exist; the atoms of a disjunction belong to the same
component (`finalizeDisjunctions`, src/logic_program.cpp 1379-1501); atoms of components are relevant; positive goals come first in a body;
component numbers are those of C28: all heads and positive goals of a body that lie on a cycle through the body have the same number, and
a head has no larger number than a goal. -/
structure DPrg.Ok (p : DPrg) : Prop where
  heads : ∀ b < p.nbodies, ∀ h ∈ (p.body b).heads, ∀ a ∈ h.atoms, a < p.natoms
  disj : ∀ b < p.nbodies, ∀ as, .disj as ∈ (p.body b).heads → ∀ a ∈ as, ∀ o ∈ as, (p.atom a).scc = (p.atom o).scc
  rel : ∀ a < p.natoms, (p.atom a).scc ≠ noScc → (p.atom a).rel = true
  goals : ∀ b < p.nbodies, ∀ x, Pos (p.body b).body x → x < p.natoms
  front : ∀ b < p.nbodies, ∀ x, Pos (p.body b).body x → x ∈ (p.body b).body.front.map fun y => y.1.atom
  one : ∀ b < p.nbodies, ∀ h ∈ (p.body b).heads, ∀ a ∈ h.atoms, ∀ x, Pos (p.body b).body x → (p.atom a).scc = (p.atom x).scc → (p.atom a).scc ≠ noScc →
    ∀ h' ∈ (p.body b).heads, ∀ a' ∈ h'.atoms, ∀ x', Pos (p.body b).body x' → (p.atom a').scc = (p.atom x').scc → (p.atom a').scc ≠ noScc →
      (p.atom a).scc = (p.atom a').scc
  topo : ∀ b < p.nbodies, ∀ h ∈ (p.body b).heads, ∀ a ∈ h.atoms, ∀ x, Pos (p.body b).body x → (p.atom a).scc ≠ noScc → (p.atom x).scc ≠ noScc →
    (p.atom a).scc ≤ (p.atom x).scc

/-- Specification: `U` is an unfounded set of component `c` with respect to the (partial) assignment that makes the literals `T` true: a nonempty set
of atoms that are not false, such that a rule with a head in `U` has a false body, or needs an atom of `U`, or is a disjunctive rule that is
satisfied by a true atom outside of `U`. -/
def Unf (p : DPrg) (T : Lit → Bool) (c : Nat) (U : Nat → Prop) : Prop :=
  (∃ a, U a) ∧ (∀ a, U a → a < p.natoms ∧ (p.atom a).scc = c ∧ T (p.atom a).lit.neg = false) ∧
  ∀ b < p.nbodies, ∀ h ∈ (p.body b).heads, h.gamma = false → ∀ a ∈ h.atoms, U a →
    T (p.body b).lit.neg = true ∨
    (∃ x ls, (p.body b).body = .conj ls ∧ (⟨x, false⟩ : BLit) ∈ ls ∧ U x) ∨
    (∃ as, h = .disj as ∧ ∃ o ∈ as, ¬ U o ∧ T (p.atom o).lit = true)

/-- Specification: the true atoms of a total assignment. -/
def DPrg.model (p : DPrg) (σ : Asg) : AtomSet := fun a => decide (a < p.natoms) && tval σ (p.atom a).lit

/-- Specification: the assignment satisfies the completion of the bodies: the literal of a body is true iff the body holds. -/
def DPrg.BodiesOk (p : DPrg) (σ : Asg) : Prop := ∀ b < p.nbodies, tval σ (p.body b).lit = (p.body b).body.holds (p.model σ) (p.model σ)

/-- Specification: `X` without `U`. -/
noncomputable def diff (X : AtomSet) (U : Nat → Prop) : AtomSet := fun a => X a && @decide (¬ U a) (Classical.propDecidable _)

/-- Specification: no body has negative weights. -/
def DPrg.Nonneg (p : DPrg) : Prop := ∀ b < p.nbodies, (p.body b).body.nonneg

/-- Specification: no sum is recursive through component `c`: a sum whose literal is not false and that defines an atom of `c` that is not false has no positive
goal from `c`. `T0` are the literals true on level 0 when the graph is built. -/
def DPrg.NoRecSum (p : DPrg) (T0 : Lit → Bool) (c : Nat) : Prop := ∀ b < p.nbodies, T0 (p.body b).lit.neg = false → ∀ h ∈ (p.body b).heads, h.gamma = false →
  ∀ a ∈ h.atoms, (p.atom a).scc = c → T0 (p.atom a).lit.neg = false → ∀ x, Pos (p.body b).body x → (p.atom x).scc = c → (p.body b).body.isSum = false

/-- Specification: a head atom depends on the positive goals. -/
def DPrg.Dep (p : DPrg) (a x : Nat) : Prop := ∃ b < p.nbodies, ∃ h ∈ (p.body b).heads, h.gamma = false ∧ a ∈ h.atoms ∧ Pos (p.body b).body x

/-- Specification: atoms that depend on each other are in the same component. -/
def DPrg.Comps (p : DPrg) : Prop := ∀ a b, TransGen p.Dep a b → TransGen p.Dep b a → (p.atom a).scc = (p.atom b).scc

variable {p : DPrg}

theorem mem_diff {X : AtomSet} {U : Nat → Prop} {a : Nat} : diff X U a = true ↔ X a = true ∧ ¬ U a := by
  unfold diff
  rw [Bool.and_eq_true, @decide_eq_true_eq _ (Classical.propDecidable _)]

theorem diff_sub {X : AtomSet} {U : Nat → Prop} : Sub (diff X U) X := fun _ h => (mem_diff.1 h).1

theorem mem_rules {r : Rule} : r ∈ p.rules ↔ ∃ b < p.nbodies, ∃ h ∈ (p.body b).heads, h.gamma = false ∧ h.rule (p.body b).body = r := by
  unfold DPrg.rules
  simp only [List.mem_flatMap, List.mem_range, List.mem_map, List.mem_filter, Bool.not_eq_true', and_assoc]

theorem rule_body {B : Body} {h : PHead} : (h.rule B).body = B := by cases h <;> rfl

theorem rule_atoms {B : Body} {h : PHead} : (h.rule B).head.atoms = h.atoms := by
  cases h with
  | atom a c g => cases c <;> rfl
  | disj as => rfl

theorem tval_not {σ : Asg} {q : Lit} : tval σ q.neg = !tval σ q := by
  unfold tval
  cases q with | mk v s => cases s <;> cases h : σ v <;> simp [Lit.neg, Lit.tv, h]

/-- Removing an unfounded set from a model of the rules that extends the assignment leaves a model of the reduct. -/
theorem Unf.closed {T : Lit → Bool} {c : Nat} {U : Nat → Prop} (hU : Unf p T c U) {σ : Asg} (hT : ∀ q, T q = true → tval σ q = true) (hok : p.Ok)
    (hb : p.BodiesOk σ) (hn : p.Nonneg) (hm : Closed p.rules (p.model σ) (p.model σ)) : Closed p.rules (diff (p.model σ) U) (p.model σ) := by
  intro r hr hbody
  obtain ⟨b, hbl, h, hh, hg, rfl⟩ := mem_rules.1 hr
  rw [rule_body] at hbody
  have hM : (p.body b).body.holds (p.model σ) (p.model σ) = true := Body.holds_mono diff_sub _ (hn b hbl) hbody
  have hlit : T (p.body b).lit.neg ≠ true := fun ht => by
    have h1 := hT _ ht
    rw [tval_not, hb b hbl, hM] at h1; cases h1
  have hpos : ¬ ∃ x ls, (p.body b).body = .conj ls ∧ (⟨x, false⟩ : BLit) ∈ ls ∧ U x := by
    rintro ⟨x, ls, e, hx, hux⟩
    rw [e] at hbody
    have := List.all_eq_true.1 hbody _ hx
    exact (mem_diff.1 (by simpa [BLit.holds] using this)).2 hux
  have hr' := hm _ hr (by rw [rule_body]; exact hM)
  cases h with
  | atom a ch gm =>
    have hua : U a → False := fun hu => by
      rcases hU.2.2 b hbl _ hh hg a (by simp [PHead.atoms]) hu with h1 | h1 | ⟨as, h1, _⟩
      · exact hlit h1
      · exact hpos h1
      · cases h1
    cases ch with
    | true =>
      intro a' ha' hma
      have : a' = a := by simpa using ha'
      subst this
      exact mem_diff.2 ⟨hma, hua⟩
    | false =>
      obtain ⟨a', ha', hma⟩ := hr'
      have : a' = a := by simpa using ha'
      subst this
      exact ⟨a', ha', mem_diff.2 ⟨hma, hua⟩⟩
  | disj as =>
    obtain ⟨a, ha, hma⟩ := hr'
    by_cases hu : U a
    · rcases hU.2.2 b hbl _ hh hg a ha hu with h1 | h1 | ⟨as', h1, o, ho, hno, hto⟩
      · exact absurd h1 hlit
      · exact absurd h1 hpos
      · cases h1
        refine ⟨o, ho, mem_diff.2 ⟨?_, hno⟩⟩
        unfold DPrg.model
        rw [Bool.and_eq_true, decide_eq_true_eq]
        exact ⟨hok.heads b hbl _ hh o ho, hT _ hto⟩
    · exact ⟨a, ha, mem_diff.2 ⟨hma, hu⟩⟩

/-- The atoms of an unfounded set are false in all stable models that extend the assignment. -/
theorem Unf.fls {T : Lit → Bool} {c : Nat} {U : Nat → Prop} (hU : Unf p T c U) {σ : Asg} (hT : ∀ q, T q = true → tval σ q = true) (hok : p.Ok)
    (hb : p.BodiesOk σ) (hn : p.Nonneg) (hs : Stable p.rules (p.model σ)) (a : Nat) (ha : U a) : tval σ (p.atom a).lit = false := by
  cases hv : tval σ (p.atom a).lit with
  | false => rfl
  | true =>
    have hsub := hs.2 _ diff_sub (hU.closed hT hok hb hn hs.1)
    have := hsub a (by
      unfold DPrg.model
      rw [Bool.and_eq_true, decide_eq_true_eq]
      exact ⟨(hU.2.1 a ha).1, hv⟩)
    exact absurd ha (mem_diff.1 this).2

/-- If a part of a component can be removed from a model such that the reduct is still satisfied, it is unfounded. -/
theorem Unf.of_closed {c : Nat} {U : Nat → Prop} {σ : Asg} (hok : p.Ok) (hb : p.BodiesOk σ) {T0 : Lit → Bool} (hT0 : ∀ q, T0 q = true → tval σ q = true) (hrs : p.NoRecSum T0 c) (hne : ∃ a, U a)
    (hU : ∀ a, U a → p.model σ a = true ∧ (p.atom a).scc = c) (hcl : Closed p.rules (diff (p.model σ) U) (p.model σ)) : Unf p (tval σ) c U := by
  have hmod : ∀ a, p.model σ a = true → a < p.natoms ∧ tval σ (p.atom a).lit = true := fun a ha => by
    unfold DPrg.model at ha
    rw [Bool.and_eq_true, decide_eq_true_eq] at ha; exact ha
  refine ⟨hne, fun a ha => ⟨(hmod a (hU a ha).1).1, (hU a ha).2, by rw [tval_not, (hmod a (hU a ha).1).2]; rfl⟩, fun b hbl h hh hg a ha hua => ?_⟩
  by_cases hl : tval σ (p.body b).lit.neg = true
  · exact .inl hl
  have hM : (p.body b).body.holds (p.model σ) (p.model σ) = true := by
    rw [← hb b hbl]
    rw [tval_not] at hl
    simpa using hl
  right
  by_cases hD : (p.body b).body.holds (diff (p.model σ) U) (p.model σ) = true
  · right
    have hr := hcl _ (mem_rules.2 ⟨b, hbl, h, hh, hg, rfl⟩) (by rw [rule_body]; exact hD)
    cases h with
    | atom a' ch gm =>
      have : a = a' := by simpa [PHead.atoms] using ha
      subst this
      exfalso
      cases ch with
      | true => exact (mem_diff.1 (hr a (by simp) (hU a hua).1)).2 hua
      | false =>
        obtain ⟨a', ha', hma⟩ := hr
        have : a' = a := by simpa using ha'
        subst this
        exact (mem_diff.1 hma).2 hua
    | disj as =>
      obtain ⟨o, ho, hmo⟩ := hr
      exact ⟨as, rfl, o, ho, (mem_diff.1 hmo).2, (hmod o (mem_diff.1 hmo).1).2⟩
  · left
    have hx : ∃ x, Pos (p.body b).body x ∧ U x := by
      by_contra hno
      push Not at hno
      apply hD
      rw [← hM]
      apply Body.holds_congr
      rintro ⟨x, s⟩ hl
      cases s with
      | true => rfl
      | false =>
        have := hno x hl
        simp only [BLit.holds, Bool.false_eq_true, if_false]
        cases hv : p.model σ x with
        | true => exact mem_diff.2 ⟨hv, this⟩
        | false =>
          cases hd : diff (p.model σ) U x with
          | false => rfl
          | true => rw [(mem_diff.1 hd).1] at hv; cases hv
    obtain ⟨x, hx, hux⟩ := hx
    have hs := hrs b hbl (by
        cases hv : T0 (p.body b).lit.neg with
        | false => rfl
        | true => exact absurd (hT0 _ hv) hl) h hh hg a ha (hU a hua).2 (by
        cases hv : T0 (p.atom a).lit.neg with
        | false => rfl
        | true =>
          have := hT0 _ hv
          rw [tval_not, (hmod a (hU a hua).1).2] at this; cases this) x hx (hU x hux).2
    cases hB : (p.body b).body with
    | sum ls bd => rw [hB] at hs; cases hs
    | conj ls => rw [Pos, hB] at hx; exact ⟨x, ls, rfl, hx, hux⟩

/-- In a finite set there is an element on which all elements depend that it depends on. -/
theorem exists_sink {R : Nat → Nat → Prop} (ht : ∀ a b c, R a b → R b c → R a c) : ∀ L : List Nat, L ≠ [] → ∃ a ∈ L, ∀ b ∈ L, R a b → R b a
  | [], h => absurd rfl h
  | [x], _ => ⟨x, by simp, fun b hb h => by
      have : b = x := by simpa using hb
      subst this; exact h⟩
  | x :: y :: L, _ => by
    obtain ⟨a, ha, h⟩ := exists_sink ht (y :: L) (by simp)
    by_cases hx : R a x ∧ ¬ R x a
    · refine ⟨x, by simp, fun b hb hxb => ?_⟩
      rcases List.mem_cons.1 hb with rfl | hb
      · exact hxb
      · exact ht _ _ _ (h b hb (ht _ _ _ hx.1 hxb)) hx.1
    · refine ⟨a, List.mem_cons_of_mem _ ha, fun b hb hab => ?_⟩
      rcases List.mem_cons.1 hb with rfl | hb
      · by_contra hn; exact hx ⟨hab, hn⟩
      · exact h b hb hab

/-- A model of the reduct that is smaller than the model differs from it by a part of one component that can be removed on its own. -/
theorem one_component {σ : Asg} (hc : p.Comps) (hn : p.Nonneg) (hm : Closed p.rules (p.model σ) (p.model σ)) {X : AtomSet} (hX : Sub X (p.model σ))
    (hcl : Closed p.rules X (p.model σ)) (hne : ¬ Sub (p.model σ) X) :
    ∃ U : Nat → Prop, (∃ a, U a) ∧ (∀ a, U a → p.model σ a = true) ∧ (∀ a b, U a → U b → (p.atom a).scc = (p.atom b).scc) ∧
      Closed p.rules (diff (p.model σ) U) (p.model σ) := by
  let L := (List.range p.natoms).filter fun a => p.model σ a && !X a
  have hL : ∀ a, a ∈ L ↔ p.model σ a = true ∧ X a = false := by
    intro a
    simp only [L, List.mem_filter, List.mem_range, Bool.and_eq_true, Bool.not_eq_true']
    refine ⟨fun h => h.2, fun h => ⟨?_, h⟩⟩
    have := h.1
    unfold DPrg.model at this
    rw [Bool.and_eq_true, decide_eq_true_eq] at this
    exact this.1
  have hLne : L ≠ [] := by
    intro h0
    apply hne
    intro a ha
    cases hx : X a with
    | true => rfl
    | false => have := (hL a).2 ⟨ha, hx⟩; rw [h0] at this; cases this
  obtain ⟨a, ha, hsink⟩ := exists_sink (R := TransGen p.Dep) (fun _ _ _ h1 h2 => h1.trans h2) L hLne
  refine ⟨fun x => x ∈ L ∧ (x = a ∨ TransGen p.Dep a x), ⟨a, ha, .inl rfl⟩, fun x hx => ((hL x).1 hx.1).1, ?_, ?_⟩
  · have key : ∀ x, x ∈ L ∧ (x = a ∨ TransGen p.Dep a x) → (p.atom x).scc = (p.atom a).scc := by
      rintro x ⟨hx, rfl | h⟩
      · rfl
      · exact hc _ _ (hsink x hx h) h
    intro x y hx hy
    rw [key x hx, key y hy]
  · intro r hr hbody
    obtain ⟨b, hbl, h, hh, hg, rfl⟩ := mem_rules.1 hr
    rw [rule_body] at hbody
    have hM : (p.body b).body.holds (p.model σ) (p.model σ) = true := Body.holds_mono diff_sub _ (hn b hbl) hbody
    -- if a head is removed, the body holds in `X`
    have hXb : ∀ o ∈ h.atoms, (o ∈ L ∧ (o = a ∨ TransGen p.Dep a o)) → (p.body b).body.holds X (p.model σ) = true := by
      intro o ho hu
      have : Sub (fun x => diff (p.model σ) (fun x => x ∈ L ∧ (x = a ∨ TransGen p.Dep a x)) x && (!decide (x ∈ L))) X := by
        intro x hx
        rw [Bool.and_eq_true] at hx
        have h1 := (mem_diff.1 hx.1).1
        cases hv : X x with
        | true => rfl
        | false => have := (hL x).2 ⟨h1, hv⟩; simp [this] at hx
      have e : (p.body b).body.holds (diff (p.model σ) fun x => x ∈ L ∧ (x = a ∨ TransGen p.Dep a x)) (p.model σ) =
          (p.body b).body.holds (fun x => diff (p.model σ) (fun x => x ∈ L ∧ (x = a ∨ TransGen p.Dep a x)) x && (!decide (x ∈ L))) (p.model σ) := by
        apply Body.holds_congr
        rintro ⟨x, s⟩ hl
        cases s with
        | true => rfl
        | false =>
          simp only [BLit.holds, Bool.false_eq_true, if_false]
          cases hd : diff (p.model σ) (fun x => x ∈ L ∧ (x = a ∨ TransGen p.Dep a x)) x with
          | false => rfl
          | true =>
            have hnu := (mem_diff.1 hd).2
            have : x ∉ L := by
              intro hx
              apply hnu
              refine ⟨hx, .inr ?_⟩
              have hdep : p.Dep o x := ⟨b, hbl, h, hh, hg, ho, hl⟩
              rcases hu.2 with rfl | h2
              · exact .single hdep
              · exact h2.tail hdep
            simp [this]
      exact Body.holds_mono this _ (hn b hbl) (by rw [← e]; exact hbody)
    have hin : ∀ o, X o = true → diff (p.model σ) (fun x => x ∈ L ∧ (x = a ∨ TransGen p.Dep a x)) o = true := by
      intro o ho
      refine mem_diff.2 ⟨hX o ho, fun hu => ?_⟩
      have := ((hL o).1 hu.1).2
      rw [ho] at this; cases this
    have hmr := hm _ hr (by rw [rule_body]; exact hM)
    have hXr : (p.body b).body.holds X (p.model σ) = true → _ := fun hx => hcl _ hr (by rw [rule_body]; exact hx)
    cases h with
    | atom x ch gm =>
      by_cases hu : x ∈ L ∧ (x = a ∨ TransGen p.Dep a x)
      · have hXb := hXr (hXb x (by simp [PHead.atoms]) hu)
        cases ch with
        | true =>
          intro x' hx' hmx
          exact hin x' (hXb x' hx' hmx)
        | false =>
          obtain ⟨x', hx', hmx⟩ := hXb
          exact ⟨x', hx', hin x' hmx⟩
      · cases ch with
        | true =>
          intro x' hx' hmx
          have : x' = x := by simpa using hx'
          subst this
          exact mem_diff.2 ⟨hmx, hu⟩
        | false =>
          obtain ⟨x', hx', hmx⟩ := hmr
          have : x' = x := by simpa using hx'
          subst this
          exact ⟨x', hx', mem_diff.2 ⟨hmx, hu⟩⟩
    | disj as =>
      obtain ⟨x, hx, hmx⟩ := hmr
      by_cases hu : x ∈ L ∧ (x = a ∨ TransGen p.Dep a x)
      · obtain ⟨x', hx', hmx'⟩ := hXr (hXb x hx hu)
        exact ⟨x', hx', hin x' hmx'⟩
      · exact ⟨x, hx, mem_diff.2 ⟨hmx, hu⟩⟩

end Clasp.Min
