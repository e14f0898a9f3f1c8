import Verif.Asp.Completion
import Mathlib.Data.List.Basic

/-! Meaning of the constraints created from a program (C30). No code is modelled in this file. -/

namespace Clasp.Asp
open Clasp.Core

/-- Specification: the truth value of a literal. -/
def tval (σ : Asg) (p : Lit) : Bool := σ p.var == p.tv

/-- Specification: the weight of the true literals. -/
def lsum (σ : Asg) : List (Lit × Int) → Int
  | [] => 0
  | (l, w) :: r => (if tval σ l then w else 0) + lsum σ r

/-- Specification: what a constraint means; a weight constraint with `W` says that `W` is true exactly if
the weight of the true literals reaches the bound. -/
def Con.sat (σ : Asg) : Con → Prop
  | .clause c => ∃ l ∈ c, tval σ l = true
  | .weight W ls b => tval σ W = decide (b ≤ lsum σ ls)

/-- Specification: all constraints hold. -/
def Models (σ : Asg) (cs : List Con) : Prop := ∀ c ∈ cs, c.sat σ

theorem tval_neg (σ : Asg) (p : Lit) : tval σ p.neg = !tval σ p := by
  cases p with | mk v s => cases s <;> cases h : σ v <;> simp [tval, Lit.neg, Lit.tv, h]

theorem tval_flip (σ : Asg) (p : Lit) (b : Bool) : tval σ (flipIf p b) = (tval σ p != b) := by
  cases b <;> simp [flipIf, tval_neg]

theorem tval_true {σ : Asg} (h : σ 0 = true) : tval σ litTrue = true := by simp [tval, litTrue, Lit.tv, h]
theorem tval_false {σ : Asg} (h : σ 0 = true) : tval σ litFalse = false := by
  unfold litFalse; rw [tval_neg, tval_true h]; rfl

theorem hasVar_false {l : Lit} (h : hasVar l = false) : l = litFalse := by simpa [hasVar] using h
theorem hasVar_of {σ : Asg} (h0 : σ 0 = true) {l : Lit} (h : tval σ l = true) : hasVar l = true := by
  cases hv : hasVar l with
  | true => rfl
  | false => rw [hasVar_false hv, tval_false h0] at h; cases h

variable {p : Prg} {σ : Asg}

/-- Specification: the atoms `σ` makes true. -/
def Prg.modelOf (p : Prg) (σ : Asg) : AtomSet := fun a => decide (a < p.natoms) && (p.atom a).rel && tval σ (p.atom a).lit

/-- Specification: the atoms in relevant bodies are atoms of the program and relevant, supports are bodies of the
program; only relevant nodes have values. -/
structure Prg.Wf (p : Prg) : Prop where
  goals : ∀ b < p.nbodies, (p.body b).rel = true → ∀ l ∈ (p.body b).body.lits, l.atom < p.natoms ∧ (p.atom l.atom).rel = true
  sups : ∀ a < p.natoms, (p.atom a).rel = true → ∀ e ∈ (p.atom a).sups, e.body < p.nbodies
  avals : ∀ a < p.natoms, (p.atom a).rel = false → (p.atom a).val = .free
  bvals : ∀ b < p.nbodies, (p.body b).rel = false → (p.body b).val = .free

/-- Specification: the rules of the program: one for each edge between a relevant atom and a relevant body. -/
def Prg.rules (p : Prg) : List Rule :=
  (List.range p.natoms).flatMap fun a =>
    if (p.atom a).rel then
      ((p.atom a).sups.filter fun e => (p.body e.body).rel).map fun e =>
        ⟨if e.choice then .choice [a] else .disj [a], (p.body e.body).body⟩
    else []

/-- Specification: a value as a condition on a truth value. -/
def Val.ok (v : Val) (b : Bool) : Prop := match v with
  | .free => True
  | .false => b = Bool.false
  | .true => b = Bool.true
  | .weak => b = Bool.true

/-- Specification: `M` respects the values of the nodes. -/
def Prg.Vals (p : Prg) (M : AtomSet) : Prop :=
  (∀ a < p.natoms, (p.atom a).rel = true → (p.atom a).val.ok (M a)) ∧
  (∀ b < p.nbodies, (p.body b).rel = true → (p.body b).val.ok ((p.body b).body.holds M M))

/-- Specification: `M` is a supported model of the program, that is of its rules and values; it contains
relevant atoms only (this follows from being supported). -/
def Prg.IsSupported (p : Prg) (M : AtomSet) : Prop := p.conflict = false ∧ Supported p.rules M ∧ p.Vals M

/-- Specification: the variables of the bodies have the truth values of the bodies. -/
def Prg.Agree (p : Prg) (σ : Asg) : Prop :=
  ∀ b < p.nbodies, (p.body b).rel = true → tval σ (p.body b).lit = (p.body b).body.holds (p.modelOf σ) (p.modelOf σ)

theorem mem_rules {r : Rule} : r ∈ p.rules ↔ ∃ a < p.natoms, (p.atom a).rel = true ∧ ∃ e ∈ (p.atom a).sups, (p.body e.body).rel = true ∧
    r = ⟨if e.choice then .choice [a] else .disj [a], (p.body e.body).body⟩ := by
  unfold Prg.rules
  rw [List.mem_flatMap]
  constructor
  · rintro ⟨a, ha, hr⟩
    split at hr
    · rename_i hrel
      obtain ⟨e, he, rfl⟩ := List.mem_map.1 hr
      obtain ⟨h1, h2⟩ := List.mem_filter.1 he
      exact ⟨a, List.mem_range.1 ha, hrel, e, h1, h2, rfl⟩
    · cases hr
  · rintro ⟨a, ha, hrel, e, h1, h2, rfl⟩
    refine ⟨a, List.mem_range.2 ha, ?_⟩
    rw [if_pos hrel]
    exact List.mem_map.2 ⟨e, List.mem_filter.2 ⟨h1, h2⟩, rfl⟩

/-- the goals of a body in the model of `σ` -/
theorem goal_holds {l : BLit} (h1 : l.atom < p.natoms) (h2 : (p.atom l.atom).rel = true) :
    tval σ (p.goal l) = l.holds (p.modelOf σ) (p.modelOf σ) := by
  unfold Prg.goal BLit.holds Prg.modelOf
  rw [tval_flip]
  cases l.neg <;> simp [h1, h2]

theorem goalLoop_spec (B : Lit) : ∀ gs : List BLit,
    let r := p.goalLoop B gs
    (Models σ r.1 ↔ (tval σ B = true → ∀ g ∈ gs, tval σ (p.goal g) = true)) ∧
    (r.2.2 = true ↔ ∃ g ∈ gs, p.goal g = B) ∧
    ((∃ l ∈ B :: r.2.1, tval σ l = true) ↔ tval σ B = true ∨ ∃ g ∈ gs, p.goal g ≠ B ∧ tval σ (p.goal g) = false) := by
  intro gs
  induction gs with
  | nil => simp [Prg.goalLoop, Models]
  | cons g gs ih =>
    obtain ⟨h1, h2, h3⟩ := ih
    simp only [Prg.goalLoop]
    by_cases e : p.goal g = B
    · rw [if_pos e]
      refine ⟨?_, by simp [e], ?_⟩
      · rw [h1]
        simp only [List.mem_cons, forall_eq_or_imp]
        constructor
        · intro h hB; exact ⟨by rw [e]; exact hB, h hB⟩
        · intro h hB; exact (h hB).2
      · rw [h3]
        simp [e]
    · rw [if_neg e]
      refine ⟨?_, by simp [e, h2], ?_⟩
      · unfold Models at *
        simp only [List.mem_cons, forall_eq_or_imp, h1]
        simp only [Con.sat, List.mem_cons, List.not_mem_nil, or_false, exists_eq_or_imp, exists_eq_left, tval_neg, Bool.not_eq_true']
        cases hB : tval σ B <;> simp
      · by_cases ev : (p.goal g).var = B.neg.var
        · rw [if_pos ev, h3]
          have : p.goal g = B.neg := by
            rcases Lit.eq_or_neg (p := p.goal g) (q := B) ev with h | h
            · exact absurd h e
            · exact h
          simp only [List.mem_cons, exists_eq_or_imp]
          rw [this, tval_neg]
          cases hB : tval σ B <;> simp
        · rw [if_neg ev]
          simp only [List.mem_cons, exists_eq_or_imp, tval_neg, Bool.not_eq_true'] at h3 ⊢
          constructor
          · rintro (h | h | h)
            · exact Or.inl h
            · exact Or.inr (Or.inl ⟨e, h⟩)
            · rcases h3.1 (Or.inr h) with h | h
              · exact Or.inl h
              · exact Or.inr (Or.inr h)
          · rintro (h | ⟨_, h⟩ | h)
            · exact Or.inl h
            · exact Or.inr (Or.inl h)
            · rcases h3.2 (Or.inr h) with h | h
              · exact Or.inl h
              · exact Or.inr (Or.inr h)

theorem lsum_wsum (hg : ∀ g ∈ gs, tval σ (p.goal g.1) = g.1.holds X M) : lsum σ (gs.map fun g => (p.goal g.1, g.2)) = wsum X M gs := by
  induction gs with
  | nil => rfl
  | cons g gs ih =>
    have e : tval σ (p.goal g.1) = g.1.holds X M := hg g (by simp)
    simp only [List.map_cons, lsum, wsum]
    rw [e, ih fun g' h => hg g' (List.mem_cons_of_mem _ h)]

/-- The constraints of a body say that its variable has the truth value of the body. -/
theorem bodyCons_spec (h0 : σ 0 = true) (hw : p.Wf) {b : Nat} (hb : b < p.nbodies) (hr : (p.body b).rel = true) :
    Models σ (p.bodyCons b) ↔ tval σ (p.body b).lit = (p.body b).body.holds (p.modelOf σ) (p.modelOf σ) := by
  have hg : ∀ l ∈ (p.body b).body.lits, tval σ (p.goal l) = l.holds (p.modelOf σ) (p.modelOf σ) := fun l hl =>
    goal_holds (hw.goals b hb hr l hl).1 (hw.goals b hb hr l hl).2
  unfold Prg.bodyCons
  cases hbd : (p.body b).body with
  | conj gs =>
    rw [hbd] at hg
    simp only [Body.lits] at hg
    obtain ⟨h1, h2, h3⟩ := goalLoop_spec (p := p) (σ := σ) (p.body b).lit gs
    rcases hgl : p.goalLoop (p.body b).lit gs with ⟨cs, ls, taut⟩
    rw [hgl] at h1 h2 h3
    simp only [hgl]
    dsimp only at h1 h2 h3
    have hH : (Body.conj gs).holds (p.modelOf σ) (p.modelOf σ) = true ↔ ∀ g ∈ gs, tval σ (p.goal g) = true := by
      simp only [Body.holds, List.all_eq_true]
      exact ⟨fun h g hg' => by rw [hg g hg']; exact h g hg', fun h g hg' => by rw [← hg g hg']; exact h g hg'⟩
    have hEq : tval σ (p.body b).lit = (Body.conj gs).holds (p.modelOf σ) (p.modelOf σ) ↔
        (tval σ (p.body b).lit = true ↔ ∀ g ∈ gs, tval σ (p.goal g) = true) := by rw [Bool.eq_iff_iff, hH]
    rw [hEq]
    by_cases ht : taut = true
    · rw [if_pos ht, h1]
      obtain ⟨g, hg1, hg2⟩ := h2.1 ht
      exact ⟨fun h => ⟨h, fun h' => by rw [← hg2]; exact h' g hg1⟩, fun h => h.1⟩
    · rw [if_neg ht]
      have hnt : ∀ g ∈ gs, p.goal g ≠ (p.body b).lit := fun g hg1 hg2 => ht (h2.2 ⟨g, hg1, hg2⟩)
      have : Models σ (cs ++ [.clause ((p.body b).lit :: ls)]) ↔ Models σ cs ∧ ∃ l ∈ (p.body b).lit :: ls, tval σ l = true := by
        unfold Models
        simp only [List.mem_append, List.mem_singleton, or_imp, forall_and, forall_eq, Con.sat]
      rw [this, h1, h3]
      constructor
      · rintro ⟨h4, h5⟩
        refine ⟨h4, fun h6 => ?_⟩
        rcases h5 with h5 | ⟨g, hg1, _, hg3⟩
        · exact h5
        · rw [h6 g hg1] at hg3; cases hg3
      · intro h4
        refine ⟨h4.1, ?_⟩
        by_contra hc
        push Not at hc
        refine hc.1 (h4.2 fun g hg1 => ?_)
        have := hc.2 g hg1 (hnt g hg1)
        cases hv : tval σ (p.goal g) with
        | true => rfl
        | false => exact absurd hv this
  | sum gs bound =>
    rw [hbd] at hg
    simp only [Body.lits, List.mem_map] at hg
    have := lsum_wsum (p := p) (σ := σ) (X := p.modelOf σ) (M := p.modelOf σ) (gs := gs) fun g hg' => hg g.1 ⟨g, hg', rfl⟩
    simp only [Models, List.mem_singleton, forall_eq, Con.sat, this, Body.holds]

/-- The constraints of an atom: true normal supports make it true, and it needs a true support. -/
theorem atomCons_spec (h0 : σ 0 = true) {a : Nat} : Models σ (p.atomCons a) ↔
    (∀ e ∈ (p.atom a).sups, (p.body e.body).rel = true → e.choice = false → tval σ (p.body e.body).lit = true → tval σ (p.atom a).lit = true) ∧
    (tval σ (p.atom a).lit = true → ∃ e ∈ (p.atom a).sups, (p.body e.body).rel = true ∧ tval σ (p.body e.body).lit = true) := by
  have hm : ∀ e, e ∈ p.supports a ↔ e ∈ (p.atom a).sups ∧ (p.body e.body).rel = true ∧ hasVar (p.body e.body).lit = true := by
    intro e; unfold Prg.supports; rw [List.mem_filter, Bool.and_eq_true]
  unfold Models Prg.atomCons
  simp only [List.mem_append, List.mem_map, List.mem_filter, List.mem_singleton, or_imp, forall_and, forall_eq]
  refine and_congr ?_ ?_
  · constructor
    · intro h e he hr hn hB
      have := h _ ⟨e, ⟨(hm e).2 ⟨he, hr, hasVar_of h0 hB⟩, by simp [hn]⟩, rfl⟩
      simp only [Con.sat, List.mem_cons, List.not_mem_nil, or_false, exists_eq_or_imp, exists_eq_left, tval_neg, hB] at this
      simpa using this
    · rintro h c ⟨e, ⟨he, hn⟩, rfl⟩
      obtain ⟨h1, h2, _⟩ := (hm e).1 he
      simp only [Con.sat, List.mem_cons, List.not_mem_nil, or_false, exists_eq_or_imp, exists_eq_left, tval_neg]
      cases hB : tval σ (p.body e.body).lit with
      | false => simp
      | true => exact Or.inl (h e h1 h2 (by simpa using hn) hB)
  · simp only [Con.sat, List.mem_cons, exists_eq_or_imp, tval_neg, List.mem_map]
    constructor
    · rintro (h | ⟨l, ⟨e, he, rfl⟩, hl⟩) ha
      · rw [ha] at h; cases h
      · obtain ⟨h1, h2, _⟩ := (hm e).1 he
        exact ⟨e, h1, h2, hl⟩
    · intro h
      cases ha : tval σ (p.atom a).lit with
      | false => exact Or.inl rfl
      | true =>
        obtain ⟨e, h1, h2, h3⟩ := h ha
        exact Or.inr ⟨_, ⟨e, (hm e).2 ⟨h1, h2, hasVar_of h0 h3⟩, rfl⟩, h3⟩

theorem val_spec (v : Val) (l : Lit) :
    Models σ (if v = .free then [] else [.clause [trueLit v l]]) ↔ v.ok (tval σ l) := by
  cases v <;> simp [Models, Val.ok, Con.sat, trueLit, tval_flip]

theorem models_append {cs ds : List Con} : Models σ (cs ++ ds) ↔ Models σ cs ∧ Models σ ds := by
  unfold Models; simp only [List.mem_append, or_imp, forall_and]

theorem models_flatMap {f : Nat → List Con} {l : List Nat} : Models σ (l.flatMap f) ↔ ∀ x ∈ l, Models σ (f x) := by
  unfold Models
  simp only [List.mem_flatMap]
  exact ⟨fun h x hx c hc => h c ⟨x, hx, hc⟩, fun h c ⟨x, hx, hc⟩ => h x hx c hc⟩

theorem models_if {c : Bool} {cs : List Con} : Models σ (if c = true then cs else []) ↔ (c = true → Models σ cs) := by
  cases c <;> simp [Models]

theorem modelOf_rel {a : Nat} (ha : a < p.natoms) (hr : (p.atom a).rel = true) : p.modelOf σ a = tval σ (p.atom a).lit := by
  unfold Prg.modelOf; simp [ha, hr]

/-- The constraints are satisfied exactly by the supported models. -/
theorem allCons_spec (h0 : σ 0 = true) (hw : p.Wf) : Models σ p.allCons ↔ p.IsSupported (p.modelOf σ) ∧ p.Agree σ := by
  have hcons : Models σ p.allCons ↔ p.conflict = false ∧
      ((∀ b < p.nbodies, (p.body b).val.ok (tval σ (p.body b).lit) ∧ ((p.body b).rel = true → Models σ (p.bodyCons b))) ∧
       (∀ a < p.natoms, (p.atom a).val.ok (tval σ (p.atom a).lit) ∧ ((p.atom a).rel = true → Models σ (p.atomCons a)))) := by
    unfold Prg.allCons
    rw [← List.singleton_append, models_append, models_append, models_flatMap, models_flatMap]
    refine and_congr ?_ (and_congr ?_ ?_)
    · simp only [Models, List.mem_singleton, forall_eq, Con.sat, exists_eq_left]
      cases p.conflict
      · simp [tval_true h0]
      · simp [tval_false h0]
    · simp only [List.mem_range, Prg.bodyAll, models_append, val_spec, models_if]
    · simp only [List.mem_range, Prg.atomAll, models_append, val_spec, models_if]
  rw [hcons]
  constructor
  · rintro ⟨hc, hB, hA⟩
    have hag : p.Agree σ := fun b hb hr => (bodyCons_spec h0 hw hb hr).1 ((hB b hb).2 hr)
    refine ⟨⟨hc, ⟨?_, ?_⟩, ?_, ?_⟩, hag⟩
    · intro r hr hh
      obtain ⟨a, ha, hrel, e, he, hbr, rfl⟩ := mem_rules.1 hr
      have hbl : tval σ (p.body e.body).lit = true := by rw [hag _ (hw.sups a ha hrel e he) hbr]; exact hh
      have h1 := (atomCons_spec h0).1 ((hA a ha).2 hrel)
      cases hce : e.choice with
      | true => simp
      | false =>
        simp only [Bool.false_eq_true, if_false, List.mem_singleton, exists_eq_left]
        rw [modelOf_rel ha hrel]
        exact h1.1 e he hbr hce hbl
    · intro a ha
      have ha' : a < p.natoms ∧ (p.atom a).rel = true ∧ tval σ (p.atom a).lit = true := by
        unfold Prg.modelOf at ha; simp only [Bool.and_eq_true, decide_eq_true_eq] at ha; exact ⟨ha.1.1, ha.1.2, ha.2⟩
      obtain ⟨hlt, hrel, htv⟩ := ha'
      obtain ⟨e, he, hbr, hbl⟩ := ((atomCons_spec h0).1 ((hA a hlt).2 hrel)).2 htv
      refine ⟨_, mem_rules.2 ⟨a, hlt, hrel, e, he, hbr, rfl⟩, ?_, ?_⟩
      · cases e.choice <;> simp [Head.atoms]
      · dsimp only; rw [← hag _ (hw.sups a hlt hrel e he) hbr]; exact hbl
    · intro a ha hrel
      rw [modelOf_rel ha hrel]; exact (hA a ha).1
    · intro b hb hrel
      rw [← hag b hb hrel]; exact (hB b hb).1
  · rintro ⟨⟨hc, ⟨hcl, hsup⟩, hva, hvb⟩, hag⟩
    refine ⟨hc, fun b hb => ⟨?_, fun hr => (bodyCons_spec h0 hw hb hr).2 (hag b hb hr)⟩, fun a ha => ⟨?_, fun hr => (atomCons_spec h0).2 ⟨?_, ?_⟩⟩⟩
    · cases hr : (p.body b).rel with
      | false => rw [hw.bvals b hb hr]; trivial
      | true => rw [hag b hb hr]; exact hvb b hb hr
    · cases hr : (p.atom a).rel with
      | false => rw [hw.avals a ha hr]; trivial
      | true => have := hva a ha hr; rwa [modelOf_rel ha hr] at this
    · intro e he hbr hce hbl
      have hh := hcl _ (mem_rules.2 ⟨a, ha, hr, e, he, hbr, rfl⟩)
      unfold Rule.ok at hh
      dsimp only at hh
      rw [← hag _ (hw.sups a ha hr e he) hbr, hce] at hh
      have := hh hbl
      simp only [Bool.false_eq_true, if_false, List.mem_singleton, exists_eq_left] at this
      rwa [modelOf_rel ha hr] at this
    · intro htv
      obtain ⟨r, hr', hin, hh⟩ := hsup a (by rw [modelOf_rel ha hr]; exact htv)
      obtain ⟨a', ha', hrel', e, he, hbr, rfl⟩ := mem_rules.1 hr'
      have : a' = a := by
        cases hce : e.choice <;> rw [hce] at hin <;> simp [Head.atoms] at hin <;> exact hin.symm
      subst this
      exact ⟨e, he, hbr, by rw [hag _ (hw.sups a' ha' hrel' e he) hbr]; exact hh⟩

/-- Stopping at the first conflict makes no difference if the solver reports conflicts only for
constraints without a model. -/
theorem addAll_spec {add : List Con → Con → Bool} {V : Asg → Prop}
    (hadd : ∀ db c, add db c = false → ∀ σ, V σ → ¬ Models σ (db ++ [c])) : ∀ (cs db : List Con),
    let r := addAll add db cs
    (∀ σ, V σ → (Models σ r.2 ↔ Models σ (db ++ cs))) ∧ (r.1 = true → r.2 = db ++ cs) ∧ (r.1 = false → ∀ σ, V σ → ¬ Models σ (db ++ cs)) := by
  intro cs
  induction cs with
  | nil => intro db; simp [addAll]
  | cons c r ih =>
    intro db
    simp only [addAll]
    split
    · have := ih (db ++ [c])
      simp only [List.append_assoc, List.singleton_append] at this
      exact this
    · rename_i hf
      have hno := hadd db c (by simpa using hf)
      have hno' : ∀ σ, V σ → ¬ Models σ (db ++ c :: r) := by
        intro σ hσ hM
        refine hno σ hσ fun x hx => hM x ?_
        rcases List.mem_append.1 hx with h | h
        · exact List.mem_append_left _ h
        · rw [List.mem_singleton.1 h]; simp
      refine ⟨fun σ hσ => ⟨fun h => absurd h (hno σ hσ), fun h => absurd h (hno' σ hσ)⟩, by simp, fun _ => hno'⟩

end Clasp.Asp
