import Verif.Asp.CompletionVars
import Verif.Asp.SccProps
import Mathlib.Data.Fintype.Card
import Mathlib.Data.Fintype.EquivFin

/-! # The constraints created for a program have the supported models as models (C30) -/

namespace Clasp.Asp
open Clasp.Core

variable {p : Prg}

/-- **C30.** The constraints handed to the solver are satisfied exactly by the assignments whose true
atoms form a supported model of the rules (and values) of the program and whose body variables have the
truth values of the bodies. `add` is the answer of the solver to a new constraint; the only thing assumed
is that it rejects a constraint only if no assignment satisfies all constraints added so far. -/
theorem C30_supported (hw : p.Wf) (add : List Con → Con → Bool)
    (hadd : ∀ db c, add db c = false → ∀ σ : Asg, σ 0 = true → ¬ Models σ (db ++ [c])) (σ : Asg) (h0 : σ 0 = true) :
    Models σ (p.addConstraints add).2 ↔ p.IsSupported (p.modelOf σ) ∧ p.Agree σ := by
  have := (addAll_spec (V := fun σ => σ 0 = true) hadd p.allCons []).1 σ h0
  unfold Prg.addConstraints
  rw [this, List.nil_append]
  exact allCons_spec h0 hw

/-- **C30.** If adding the constraints fails, the program has no supported model that the variables can
represent. -/
theorem C30_conflict (hw : p.Wf) (add : List Con → Con → Bool)
    (hadd : ∀ db c, add db c = false → ∀ σ : Asg, σ 0 = true → ¬ Models σ (db ++ [c])) (h : (p.addConstraints add).1 = false) (σ : Asg) (h0 : σ 0 = true) :
    ¬ (p.IsSupported (p.modelOf σ) ∧ p.Agree σ) := by
  have := (addAll_spec (V := fun σ => σ 0 = true) hadd p.allCons []).2.2 h σ h0
  rw [List.nil_append] at this
  exact fun hc => this ((allCons_spec h0 hw).2 hc)

/-- **C30.** No supported model is lost by the way variables are assigned and shared between atoms and
bodies: whatever the order in which the nodes get their variables, every supported model of the program
corresponds to an assignment that satisfies all constraints. -/
theorem C30_complete (hw : p.Wf) (hs : p.Simple) {s : VSt} {A B : Nat → Prop} (hrun : p.VRun s A B)
    (hA : ∀ a < p.natoms, (p.atom a).rel = true → (∃ e ∈ (p.atom a).sups, (p.body e.body).rel = true) → A a)
    (hB : ∀ b < p.nbodies, (p.body b).rel = true → B b) (M : AtomSet) (hM : p.IsSupported M) :
    ∃ σ : Asg, σ 0 = true ∧ Models σ (p.withLits s).allCons ∧ (p.withLits s).modelOf σ = M := by
  obtain ⟨σ, hσ⟩ := run_rep hM hw hs hrun
  have hout : ∀ a, M a = true → a < p.natoms ∧ (p.atom a).rel = true ∧ ∃ e ∈ (p.atom a).sups, (p.body e.body).rel = true := by
    intro a ha
    obtain ⟨r, hr, hin, _⟩ := hM.2.1.2 a ha
    obtain ⟨a', ha', hrel', e, he, hbr, rfl⟩ := mem_rules.1 hr
    have : a' = a := by
      cases hce : e.choice <;> rw [hce] at hin <;> simp [Head.atoms] at hin <;> exact hin.symm
    subst this
    exact ⟨ha', hrel', e, he, hbr⟩
  have hmodel : (p.withLits s).modelOf σ = M := by
    funext a
    unfold Prg.modelOf
    show (decide (a < p.natoms) && (p.atom a).rel && tval σ (s.alit a)) = M a
    by_cases h1 : a < p.natoms ∧ (p.atom a).rel = true
    · rw [h1.2]
      simp only [h1.1, decide_true, Bool.true_and]
      by_cases h2 : A a
      · exact hσ.al a h1.1 h1.2 (Or.inl h2)
      · rw [hσ.an a h2, tval_false hσ.zero]
        cases hma : M a with
        | false => rfl
        | true => exact absurd (hA a h1.1 h1.2 (hout a hma).2.2) h2
    · cases hma : M a with
      | true => exact absurd ⟨(hout a hma).1, (hout a hma).2.1⟩ h1
      | false =>
        rw [Bool.and_eq_false_iff]
        left
        rw [Bool.and_eq_false_iff]
        by_cases h2 : a < p.natoms
        · right; simpa [h2] using h1
        · left; simpa using h2
  have hw' : (p.withLits s).Wf := ⟨hw.goals, hw.sups, hw.avals, hw.bvals⟩
  refine ⟨σ, hσ.zero, (allCons_spec hσ.zero hw').2 ?_, hmodel⟩
  rw [Prg.Agree, hmodel]
  exact ⟨hM, fun b hb hr => hσ.bl b hb hr (Or.inl (hB b hb hr))⟩

/-- **C30.** The correspondence is one to one: two assignments for the same supported model agree on the
literals of all atoms and bodies. -/
theorem C30_unique (hw : p.Wf) {σ τ : Asg} (h0 : σ 0 = true) (h0' : τ 0 = true) (h : Models σ p.allCons) (h' : Models τ p.allCons)
    (he : p.modelOf σ = p.modelOf τ) :
    (∀ a < p.natoms, (p.atom a).rel = true → tval σ (p.atom a).lit = tval τ (p.atom a).lit) ∧
    (∀ b < p.nbodies, (p.body b).rel = true → tval σ (p.body b).lit = tval τ (p.body b).lit) := by
  obtain ⟨_, h1⟩ := (allCons_spec h0 hw).1 h
  obtain ⟨_, h2⟩ := (allCons_spec h0' hw).1 h'
  constructor
  · intro a ha hr
    rw [← modelOf_rel ha hr, ← modelOf_rel ha hr, he]
  · intro b hb hr
    rw [h1 b hb hr, h2 b hb hr, he]

/-! ### Tight programs -/

/-- Specification: the program as the component computation of C28 sees it: dependencies from the bodies,
heads from the supports (in the code `deps_` and `heads` are the same edges stored at the other end);
the nodes taking part are relevant and have a variable. -/
def Prg.graph (p : Prg) : Scc.Prg where
  deps a := (List.range p.nbodies).flatMap fun b =>
    ((p.body b).body.lits.filter fun l => decide (l.atom = a)).map fun l => (l.neg, b)
  heads b := (List.range p.natoms).flatMap fun a =>
    ((p.atom a).sups.filter fun e => decide (e.body = b)).map fun _ => (true, a)
  atoms _ := []
  vis
    | .atom a => decide (a < p.natoms) && (p.atom a).rel && hasVar (p.atom a).lit
    | .body b => decide (b < p.nbodies) && (p.body b).rel && hasVar (p.body b).lit
    | .disj _ => false

/-- Specification: all nodes. -/
def Prg.nodes (p : Prg) : List Scc.Node := (List.range p.natoms).map .atom ++ (List.range p.nbodies).map .body

theorem nodes_all (p : Prg) (v : Scc.Node) (h : p.graph.vis v = true) : v ∈ p.nodes := by
  unfold Prg.nodes
  cases v with
  | atom a =>
    simp only [Prg.graph, Bool.and_eq_true, decide_eq_true_eq] at h
    simp [h.1.1]
  | body b =>
    simp only [Prg.graph, Bool.and_eq_true, decide_eq_true_eq] at h
    simp [h.1.1]
  | disj d => simp [Prg.graph] at h

theorem nodes_nodup (p : Prg) : p.nodes.Nodup := by
  unfold Prg.nodes
  refine List.nodup_append.2 ⟨?_, ?_, ?_⟩
  · exact List.Nodup.map (fun a b h => by cases h; rfl) List.nodup_range
  · exact List.Nodup.map (fun a b h => by cases h; rfl) List.nodup_range
  · intro x hx y hy e
    obtain ⟨a, _, rfl⟩ := List.mem_map.1 hx
    obtain ⟨b, _, rfl⟩ := List.mem_map.1 hy
    cases e

/-- a relation without cycles on finitely many numbers is well-founded -/
theorem wf_of_acyclic {R : Nat → Nat → Prop} {n : Nat} (hn : ∀ b a, R b a → b < n ∧ a < n)
    (hac : ∀ a, ¬ Relation.TransGen R a a) : WellFounded R := by
  let R' : Fin n → Fin n → Prop := fun b a => Relation.TransGen R b.1 a.1
  have : IsTrans (Fin n) R' := ⟨fun _ _ _ h h' => h.trans h'⟩
  have : Std.Irrefl R' := ⟨fun a h => hac a.1 h⟩
  have hwf : WellFounded R' := Finite.wellFounded_of_trans_of_irrefl R'
  have key : ∀ x : Fin n, Acc R x.1 := by
    intro x
    induction x using hwf.induction with
    | _ x ih =>
      refine Acc.intro _ fun y hy => ?_
      obtain ⟨h1, _⟩ := hn y x.1 hy
      exact ih ⟨y, h1⟩ (.single hy)
  exact ⟨fun a => Acc.intro _ fun y hy => key ⟨y, (hn y a hy).1⟩⟩

/-- **C30.** If the component computation (C28) reports no component, that is the program is tight, the
constraints are satisfied exactly by the assignments whose true atoms form a stable model (respecting the
values) and whose body variables have the truth values of the bodies. -/
theorem C30_tight (hw : p.Wf) (hnn : ∀ b < p.nbodies, (p.body b).rel = true → (p.body b).body.nonneg)
    (hlen : p.natoms + p.nbodies ≤ Scc.noNode) (start : Nat) (ids scc : Scc.Node → Nat) :
    ∃ t, Scc.check p.graph (2 * p.nodes.length + 1) p.nodes (Scc.init start ids scc) = some t ∧ (t.out = [] →
      ∀ σ : Asg, σ 0 = true → (Models σ p.allCons ↔
        p.conflict = false ∧ Stable p.rules (p.modelOf σ) ∧ p.Vals (p.modelOf σ) ∧ p.Agree σ)) := by
  obtain ⟨t, h1, _, _, _, h5, _⟩ := Scc.C28_components (P := p.graph) p.nodes p.nodes start ids scc (nodes_all p) (nodes_nodup p)
    (by simp [Prg.nodes]; exact hlen) (fun a ha => nodes_all p _ ha)
  refine ⟨t, h1, fun hout σ h0 => ?_⟩
  have hac : ∀ a, p.graph.vis (.atom a) = true → ¬ Scc.Cyclic p.graph a := by
    intro a ha hc
    have := (h5 (.atom a)).2 ⟨a, rfl, ha, hc⟩
    rw [hout] at this; cases this
  have hrules : ∀ r ∈ p.rules, r.simpleHead ∧ r.body.nonneg := by
    intro r hr
    obtain ⟨a, ha, hrel, e, he, hbr, rfl⟩ := mem_rules.1 hr
    refine ⟨?_, hnn _ (hw.sups a ha hrel e he) hbr⟩
    cases e.choice <;> simp [Rule.simpleHead]
  rw [allCons_spec h0 hw]
  constructor
  · rintro ⟨⟨hc, hsup, hv⟩, hag⟩
    refine ⟨hc, hsup.stable (fun r hr => (hrules r hr).1) ?_, hv, hag⟩
    have hdep : ∀ b a, (∃ r ∈ p.rules, a ∈ r.head.atoms ∧ r.body.holds (p.modelOf σ) (p.modelOf σ) = true ∧ p.modelOf σ a = true ∧
        p.modelOf σ b = true ∧ ⟨b, false⟩ ∈ r.body.lits) → Scc.Dep p.graph b a ∧ b < p.natoms ∧ a < p.natoms := by
      rintro b a ⟨r, hr, hin, hh, hMa, hMb, hl⟩
      obtain ⟨a', ha', hrel', e, he, hbr, rfl⟩ := mem_rules.1 hr
      have : a' = a := by
        cases hce : e.choice <;> rw [hce] at hin <;> simp [Head.atoms] at hin <;> exact hin.symm
      subst this
      have hatom : ∀ x, p.modelOf σ x = true → p.graph.vis (.atom x) = true ∧ x < p.natoms := by
        intro x hx
        unfold Prg.modelOf at hx
        simp only [Bool.and_eq_true, decide_eq_true_eq] at hx
        simp only [Prg.graph, Bool.and_eq_true, decide_eq_true_eq]
        exact ⟨⟨⟨hx.1.1, hx.1.2⟩, hasVar_of h0 hx.2⟩, hx.1.1⟩
      have hbl := hw.sups a' ha' hrel' e he
      refine ⟨⟨(hatom b hMb).1, (hatom a' hMa).1, e.body, ?_, ?_, Or.inl ?_⟩, (hatom b hMb).2, ha'⟩
      · simp only [Prg.graph, Bool.and_eq_true, decide_eq_true_eq]
        refine ⟨⟨hbl, hbr⟩, hasVar_of h0 ?_⟩
        rw [hag _ hbl hbr]; exact hh
      · simp only [Prg.graph, List.mem_flatMap, List.mem_map, List.mem_filter, List.mem_range]
        exact ⟨e.body, hbl, ⟨b, false⟩, ⟨hl, by simp⟩, rfl⟩
      · simp only [Prg.graph, List.mem_flatMap, List.mem_map, List.mem_filter, List.mem_range]
        exact ⟨a', ha', e, ⟨he, by simp⟩, rfl⟩
    refine wf_of_acyclic (n := p.natoms) (fun b a h => (hdep b a h).2) fun a ha => ?_
    have hcyc : Scc.Cyclic p.graph a := Relation.TransGen.mono (fun b a h => (hdep b a h).1) _ _ ha
    obtain ⟨c, hc, _⟩ := Relation.TransGen.head'_iff.1 hcyc
    exact hac a hc.1 hcyc
  · rintro ⟨hc, hst, hv, hag⟩
    exact ⟨⟨hc, hst.supported hrules, hv⟩, hag⟩

namespace CompEx

/-- Example: `a0 :- not a1. {a1}. a2 :- a0, not a1. a2 :- 2 <= #sum {2: a1, 1: a0, 1: not a0}. a3 :- a2.`
Bodies 0: {not a1}, 1: {}, 2: {a0, not a1}, 3: the sum, 4: {a2}. -/
def prg : Prg where
  natoms := 4
  atom := fun a => match a with
    | 0 => ⟨true, .free, litFalse, [⟨0, false⟩]⟩
    | 1 => ⟨true, .free, litFalse, [⟨1, true⟩]⟩
    | 2 => ⟨true, .weak, litFalse, [⟨2, false⟩, ⟨3, false⟩]⟩
    | _ => ⟨true, .free, litFalse, [⟨4, false⟩]⟩
  nbodies := 5
  body := fun b => match b with
    | 0 => ⟨true, .free, litFalse, .conj [⟨1, true⟩]⟩
    | 1 => ⟨true, .true, litFalse, .conj []⟩
    | 2 => ⟨true, .free, litFalse, .conj [⟨0, false⟩, ⟨1, true⟩]⟩
    | 3 => ⟨true, .free, litFalse, .sum [(⟨1, false⟩, 2), (⟨0, false⟩, 1), (⟨0, true⟩, 1)] 2⟩
    | _ => ⟨true, .free, litFalse, .conj [⟨2, false⟩]⟩
  conflict := false

/-- Example: literals assigned in the order of the bodies: `a1` gets variable 1, body 0 and `a0` share
its complement, `a2` gets a variable of its own, `a3` and body 4 share it. -/
def lits : VSt :=
  let s := prg.assignBody .init 1
  let s := prg.assignHead s 1 ⟨1, true⟩ true
  let s := prg.assignBody s 0
  let s := prg.assignHead s 0 ⟨0, false⟩ true
  let s := prg.assignBody s 2
  let s := prg.assignBody s 3
  let s := prg.assignHead s 2 ⟨2, false⟩ true
  let s := prg.assignBody s 4
  prg.assignHead s 3 ⟨4, false⟩ true

theorem lits_run : prg.VRun lits (fun x => ((((False ∨ x = 1) ∨ x = 0) ∨ x = 2) ∨ x = 3)) (fun x => (((((False ∨ x = 1) ∨ x = 0) ∨ x = 2) ∨ x = 3) ∨ x = 4)) := by
  refine .head (.body (.head (.body (.body (.head (.body (.head (.body .init ?_) ?_ ?_ ?_) ?_) ?_ ?_ ?_) ?_) ?_) ?_ ?_ ?_) ?_) ?_ ?_ ?_ <;>
    simp [prg]

/-- Example: the literals are shared as described. -/
example : (List.range 4).map lits.alit = [⟨1, true⟩, ⟨1, false⟩, ⟨4, false⟩, ⟨4, false⟩] ∧
    (List.range 5).map lits.blit = [⟨1, true⟩, litTrue, ⟨2, false⟩, ⟨3, false⟩, ⟨4, false⟩] := by decide

/-- Example: the program meets the hypotheses of the theorems above. -/
theorem prg_wf : (prg.withLits lits).Wf ∧ prg.Wf ∧ prg.Simple := by
  have h : prg.Wf := by
    constructor
    · intro b hb
      have : b = 0 ∨ b = 1 ∨ b = 2 ∨ b = 3 ∨ b = 4 := by simp [prg] at hb; omega
      rcases this with rfl | rfl | rfl | rfl | rfl <;> simp [prg, Body.lits]
    · intro a ha
      have : a = 0 ∨ a = 1 ∨ a = 2 ∨ a = 3 := by simp [prg] at ha; omega
      rcases this with rfl | rfl | rfl | rfl <;> simp [prg]
    · intro a ha
      have : a = 0 ∨ a = 1 ∨ a = 2 ∨ a = 3 := by simp [prg] at ha; omega
      rcases this with rfl | rfl | rfl | rfl <;> simp [prg]
    · intro b hb
      have : b = 0 ∨ b = 1 ∨ b = 2 ∨ b = 3 ∨ b = 4 := by simp [prg] at hb; omega
      rcases this with rfl | rfl | rfl | rfl | rfl <;> simp [prg]
  refine ⟨⟨h.goals, h.sups, h.avals, h.bvals⟩, h, ?_⟩
  intro b hb
  have : b = 0 ∨ b = 1 ∨ b = 2 ∨ b = 3 ∨ b = 4 := by simp [prg] at hb; omega
  rcases this with rfl | rfl | rfl | rfl | rfl <;> simp [prg]

/-- Example: `{a1, a2, a3}` is a supported model that respects the values. -/
theorem prg_model : prg.IsSupported fun a => a == 1 || a == 2 || a == 3 := by
  refine ⟨rfl, ⟨?_, ?_⟩, ?_, ?_⟩
  · intro r hr
    obtain ⟨a, ha, _, e, he, _, rfl⟩ := mem_rules.1 hr
    have : a = 0 ∨ a = 1 ∨ a = 2 ∨ a = 3 := by simp [prg] at ha; omega
    rcases this with rfl | rfl | rfl | rfl <;> simp [prg] at he <;>
      (rcases he with rfl | rfl <;> simp [Rule.ok, prg, Body.holds, BLit.holds])
  · intro a ha
    have : a = 1 ∨ a = 2 ∨ a = 3 := by simpa [or_assoc] using ha
    rcases this with rfl | rfl | rfl
    · exact ⟨_, mem_rules.2 ⟨1, by decide, rfl, ⟨1, true⟩, by simp [prg], rfl, rfl⟩, by simp [Head.atoms], rfl⟩
    · exact ⟨_, mem_rules.2 ⟨2, by decide, rfl, ⟨3, false⟩, by simp [prg], rfl, rfl⟩, by simp [Head.atoms], rfl⟩
    · exact ⟨_, mem_rules.2 ⟨3, by decide, rfl, ⟨4, false⟩, by simp [prg], rfl, rfl⟩, by simp [Head.atoms], rfl⟩
  · intro a ha
    have : a = 0 ∨ a = 1 ∨ a = 2 ∨ a = 3 := by simp [prg] at ha; omega
    rcases this with rfl | rfl | rfl | rfl <;> simp [prg, Val.ok]
  · intro b hb
    have : b = 0 ∨ b = 1 ∨ b = 2 ∨ b = 3 ∨ b = 4 := by simp [prg] at hb; omega
    rcases this with rfl | rfl | rfl | rfl | rfl <;> simp [prg, Val.ok, Body.holds]

/-- Example: `C30_complete` applies to it. -/
example : ∃ σ : Asg, σ 0 = true ∧ Models σ (prg.withLits lits).allCons ∧ (prg.withLits lits).modelOf σ = fun a => a == 1 || a == 2 || a == 3 :=
  C30_complete prg_wf.2.1 prg_wf.2.2 lits_run
    (fun a ha _ _ => by simp [prg] at ha; have : a = 0 ∨ a = 1 ∨ a = 2 ∨ a = 3 := by omega
                        rcases this with rfl | rfl | rfl | rfl <;> simp)
    (fun b hb _ => by simp [prg] at hb; have : b = 0 ∨ b = 1 ∨ b = 2 ∨ b = 3 ∨ b = 4 := by omega
                      rcases this with rfl | rfl | rfl | rfl | rfl <;> simp) _ prg_model

/-- Example: the component computation reports no component, as `C30_tight` requires. -/
example : ((Scc.check (prg.withLits lits).graph (2 * (prg.withLits lits).nodes.length + 1) (prg.withLits lits).nodes
    (Scc.init 0 (fun _ => 0) (fun _ => 0))).map fun t => t.out) = some [] := by decide

/-- Example: a solver that never rejects anything meets the assumption about `add`. -/
example : ∀ (db : List Con) (c : Con), (fun _ _ => true : List Con → Con → Bool) db c = false → ∀ σ : Asg, σ 0 = true → ¬ Models σ (db ++ [c]) := by
  intro _ _ h; cases h

end CompEx

end Clasp.Asp
