import Verif.Asp.UfsStable
import Verif.Asp.UfsReason

/-!
# Unfounded set checking: property theorems (C29)

The checker of `Ufs.lean` on the dependency graph of a program (`UfsGraph.lean`), driven by a solver in an arbitrary way
(`UfsRun.lean`), compared with the stable models of the program (`Sem.lean`). The component numbers are those of C28, the
constraints those of C30.
-/

namespace Clasp.Asp
open Clasp.Core Clasp.Ufs Relation

section
variable {p : Prg} {scc : Nat → Nat} {hs : Nat → List Nat} {σ : Asg} {top0 top : List Lit} {r : Run}

/-- Specification: `σ` is an assignment to the variables that satisfies the constraints of the program, and its true atoms
are a stable model of the rules of the program. -/
def Prg.IsStable (p : Prg) (σ : Asg) : Prop := σ 0 = true ∧ Models σ p.allCons ∧ Stable p.rules (p.modelOf σ)

/-- Specification: all literals in `l` are true. -/
def AllTrue (σ : Asg) (l : List Lit) : Prop := ∀ q ∈ l, tval σ q = true

/-- The component numbers a program has after `SccChecker` (src/logic_program_types.cpp 293-399); atoms the checker does
not visit keep `noScc` from the constructor (542). -/
def Prg.sccOf (p : Prg) (t : Scc.St) (a : Nat) : Nat := if p.graph.vis (.atom a) then t.scc (.atom a) else noScc

theorem isFal_false {lv : List (List Lit)} (h : AllTrue σ lv.flatten) (q : Lit) (hq : isFal lv q = true) : tval σ q = false := by
  have := h _ ((isFal_flatten lv q).1 hq)
  rw [tval_neg] at this
  simpa using this

/-- The literals assigned on level 0 when the checker was initialized are never undone. -/
theorem Reach.keeps {g : UGraph} (h : Ufs.Reach g top r) : ∀ n < r.lv.length, ∀ q ∈ top, q ∈ (r.lv.drop n).flatten := by
  suffices hk : r.lv ≠ [] ∧ ∀ n < r.lv.length, ∀ q ∈ top, q ∈ (r.lv.drop n).flatten from hk.2
  induction h with
  | start ht hc =>
    refine ⟨by simp [start], fun n hn q hq => ?_⟩
    have : n = 0 := by simp [start] at hn; omega
    subst this
    simp [start, hq]
  | step _ hs ih =>
    obtain ⟨hne, ih⟩ := ih
    cases hs with
    | @assign l lv s ph p hF =>
      refine ⟨by simp, fun n hn q hq => ?_⟩
      cases n with
      | zero =>
        have := ih 0 (by simp) q hq
        simp only [List.drop_zero, List.flatten_cons, List.mem_append, List.mem_cons] at this ⊢
        tauto
      | succ n => exact ih (n + 1) (by simpa using hn) q hq
    | @decide lv s p hF =>
      refine ⟨by simp, fun n hn q hq => ?_⟩
      cases n with
      | zero =>
        have := ih 0 (List.length_pos_iff.2 hne) q hq
        simp only [List.drop_zero, List.flatten_cons, List.mem_append] at this ⊢
        exact .inr this
      | succ n => exact ih n (by simpa using hn) q hq
    | check => exact ⟨hne, ih⟩
    | pop hu hF => exact ⟨hne, ih⟩
    | undo m kt kq h0 hm =>
      refine ⟨by dsimp only; rw [ne_eq, List.drop_eq_nil_iff]; omega, fun n hn q hq => ?_⟩
      dsimp only at hn ⊢
      rw [List.drop_drop]
      exact ih (m + n) (by rw [List.length_drop] at hn; dsimp only; omega) q hq

/-- **C29.** The numbers computed by the component computation of C28 on the program are what the following theorems need,
as long as there are fewer than 2^28 nodes and 2^27 components. -/
theorem C29_numbers (p : Prg) (start : Nat) (ids scc0 : Scc.Node → Nat) (hlen : p.nodes.length ≤ Scc.noNode) :
    ∃ t, Scc.check p.graph (2 * p.nodes.length + 1) p.nodes (Scc.init start ids scc0) = some t ∧ (t.sccs ≤ noScc → p.SccOk (p.sccOf t)) := by
  have hroots : ∀ a, p.graph.vis (.atom a) = true → .atom a ∈ p.nodes := fun a ha => nodes_all p _ ha
  obtain ⟨t, ht, h1⟩ := Scc.C28_number p.nodes p.nodes start ids scc0 (nodes_all p) (nodes_nodup p) hlen hroots
  obtain ⟨t', ht', h2⟩ := Scc.C28_topological p.nodes p.nodes start ids scc0 (nodes_all p) (nodes_nodup p) hlen hroots
  obtain rfl : t = t' := by rw [ht] at ht'; cases ht'; rfl
  refine ⟨t, ht, fun hn => ?_⟩
  obtain ⟨h3, h4⟩ := h1 hn
  have hvis : ∀ a, p.graph.vis (.atom a) = true → p.sccOf t a = t.scc (.atom a) := fun a ha => by unfold Prg.sccOf; rw [if_pos ha]
  have hinv : ∀ a, p.graph.vis (.atom a) = false → p.sccOf t a = noScc := fun a ha => by
    unfold Prg.sccOf; rw [if_neg (by rw [ha]; decide)]
  have hv : ∀ a, p.sccOf t a ≠ noScc → p.graph.vis (.atom a) = true := fun a ha => by
    cases hc : p.graph.vis (.atom a) with
    | true => rfl
    | false => exact absurd (hinv a hc) ha
  refine ⟨fun a ha => ?_, fun a b ha hb hab => ?_, hinv, fun a b ha hb hd => ?_⟩
  · rw [hvis a ha]; exact h3 a ha
  · rw [hvis a ha, hvis b hb]; exact h4 a b ha hb hab
  · have va := hv a ha
    have vb := hv b hb
    rw [hvis a va] at ha ⊢
    rw [hvis b vb] at hb ⊢
    exact h2 a b va vb ((h3 a va).1 ha) ((h3 b vb).1 hb) hd

/-- **C29.** Initialization is sound: every literal it adds to the top-level assignment is true in every stable model in
which the top-level assignment is. `top0` is the top-level assignment when the graph was built, `top` the one at
initialization. -/
theorem C29_init (hp : p.GraphOk hs) (hsub : ∀ q ∈ top0, q ∈ top) (hst : p.IsStable σ) (ht : AllTrue σ top) :
    AllTrue σ (forced (p.ufsGraph scc hs (isFal [top0])) top) := by
  have hg : GWf (p.ufsGraph scc hs (isFal [top0])) := ufsGraph_wf hp
  have hF : ∀ q, isFal [top] q = true → tval σ q = false := isFal_false (by simpa using ht)
  have hF0 : ∀ q, isFal [top0] q = true → tval σ q = false := isFal_false (by
    intro q hq; exact ht q (hsub q (by simpa using hq)))
  obtain ⟨h, _, _, _, _, _, _, _, _, _, hU⟩ := init_spec (isF := isFal [top]) hg
  intro q hq
  obtain ⟨a, ha, rfl⟩ := List.mem_map.1 hq
  rw [tval_neg]
  have := blocked_sound (scc := scc) (isF := isFal [top0]) (U := (p.ufsGraph scc hs (isFal [top0])).atoms.filter fun a =>
      !(init (p.ufsGraph scc hs (isFal [top0])) (isFal [top])).vw.V a && !isFal [top] ((p.ufsGraph scc hs (isFal [top0])).atom a).lit)
    hp hst.1 hst.2.1 hst.2.2 hF0 (fun x hx => ?_) a ha
  · have this : tval σ (p.atom a).lit = false := this
    have e : tval σ ((p.ufsGraph scc hs (isFal [top0])).atom a).lit = false := this
    rw [e]; rfl
  · exact ⟨mem_graph_atoms.1 (List.mem_filter.1 hx).1, fun b hb => blocked_of_unfSet hg hF hU (fun y hy => (List.mem_filter.1 hy).1) x hx b hb⟩

/-- **C29.** The sets found by the checker are unfounded: whenever it is about to falsify atoms, there is at least one, and
all of them are false in every stable model that agrees with the current assignment. -/
theorem C29_unfounded (hp : p.GraphOk hs) (hsub : ∀ q ∈ top0, q ∈ top) (hr : Ufs.Reach (p.ufsGraph scc hs (isFal [top0])) top r)
    (hph : r.ph = .falsify) : r.st.ufs ≠ [] ∧
    ∀ σ, p.IsStable σ → AllTrue σ r.lv.flatten → ∀ a ∈ r.st.ufs, tval σ (p.atom a).lit = false := by
  have hg : GWf (p.ufsGraph scc hs (isFal [top0])) := ufsGraph_wf hp
  have hi := hr.inv hg
  obtain ⟨hne, hU, c, hc⟩ := hi.fal hph
  refine ⟨hne, fun σ hst ht => ?_⟩
  have hF0 : ∀ q, isFal [top0] q = true → tval σ q = false := isFal_false (by
    intro q hq
    refine ht q ?_
    have := Reach.keeps hr 0 (List.length_pos_iff.2 hi.ne) q (hsub q (by simpa using hq))
    simpa using this)
  exact blocked_sound hp hst.1 hst.2.1 hst.2.2 hF0 fun x hx =>
    ⟨mem_graph_atoms.1 (hc x hx).1, fun b hb => blocked_of_unfSet hg (isFal_false ht) hU (fun y hy => (hc y hy).1) x hx b hb⟩

/-- **C29.** The reasons for the falsified atoms are right: when the checker falsifies an unfounded set after unit
propagation has come to an end (a conjunction with a false goal is false), the literals of the reason it computes are all
false, and in every stable model in which `top0` is true, an atom of the set that is not yet false can only be true if a
literal of the reason is. So the clause "the atom is false or a literal of the reason is true" is unit and may be learnt. -/
theorem C29_reason (hp : p.GraphOk hs) (hr : Ufs.Reach (p.ufsGraph scc hs (isFal [top0])) top r) (hph : r.ph = .falsify)
    (hup : ∀ b < p.nbodies, (p.body b).rel = true → (p.body b).body.isSum = false → ∀ l ∈ (p.body b).body.lits, r.isF (p.goal l) = true → r.isF (p.body b).lit = true) :
    (∀ q ∈ computeReason (p.ufsGraph scc hs (isFal [top0])) r.isF r.st, r.isF q = true) ∧
    ∀ σ, p.IsStable σ → AllTrue σ top0 → ∀ a ∈ r.st.ufs, r.isF (p.atom a).lit = false → tval σ (p.atom a).lit = true →
      ∃ q ∈ computeReason (p.ufsGraph scc hs (isFal [top0])) r.isF r.st, tval σ q = true := by
  have hg : GWf (p.ufsGraph scc hs (isFal [top0])) := ufsGraph_wf hp
  have hi := hr.inv hg
  obtain ⟨_, hU, c, hc⟩ := hi.fal hph
  have hcl : ∀ b ∈ (p.ufsGraph scc hs (isFal [top0])).bodies, ((p.ufsGraph scc hs (isFal [top0])).body b).ext = false → ∀ q ∈ (p.ufsGraph scc hs (isFal [top0])).pre b,
      r.isF ((p.ufsGraph scc hs (isFal [top0])).atom q).lit = true → r.isF ((p.ufsGraph scc hs (isFal [top0])).body b).lit = true := by
    intro b hb he q hq hf
    obtain ⟨h1, h2, _⟩ := relBody_iff.1 (mem_graph_bodies.1 hb).1
    obtain ⟨h3, h4, _⟩ := graph_pre.1 hq
    have he : p.isExt scc hs b = false := he
    have hsum : (p.body b).body.isSum = false := by
      unfold Prg.isExt at he
      simpa [h3] using he
    exact hup b h1 h2 hsum _ (pos_lits h4) hf
  obtain ⟨h1, h2⟩ := computeReason_spec hg hi.ufs hi.slack hU hc hcl
  refine ⟨h1, fun σ hst ht a ha haF hat => ?_⟩
  by_contra hno
  push Not at hno
  have hR : ∀ q ∈ computeReason (p.ufsGraph scc hs (isFal [top0])) r.isF r.st, tval σ q = false := fun q hq => by
    simpa using hno q hq
  have := blocked_sound hp hst.1 hst.2.1 hst.2.2 (isFal_false (by simpa using ht)) (U := r.st.ufs.filter fun a => !r.isF ((p.ufsGraph scc hs (isFal [top0])).atom a).lit)
    (fun x hx => ⟨mem_graph_atoms.1 (hc x (List.mem_filter.1 hx).1).1, fun b hb =>
      blocked_of_expl hg hR (hg.bods x (hc x (List.mem_filter.1 hx).1).1 b hb).1 (h2 x hx b hb)⟩) a
    (List.mem_filter.2 ⟨ha, by
      have haF : r.isF ((p.ufsGraph scc hs (isFal [top0])).atom a).lit = false := haF
      rw [haF]; rfl⟩)
  rw [this] at hat; cases hat

/-- **C29.** The check is complete: when the checker has found no (further) unfounded set and the solver has assigned all
atoms and bodies of the program, every assignment that agrees with the solver's and satisfies the constraints of the program
has a stable model as its true atoms. -/
theorem C29_complete (hp : p.GraphOk hs) (hk : p.SccOk scc) (hsub : ∀ q ∈ top0, q ∈ top) (hr : Ufs.Reach (p.ufsGraph scc hs (isFal [top0])) top r)
    (hph : r.ph = .settled) (htot : p.Total r.isF) (ht : AllTrue σ r.lv.flatten) (hm : Models σ p.allCons) : p.IsStable σ := by
  have hg : GWf (p.ufsGraph scc hs (isFal [top0])) := ufsGraph_wf hp
  have hi := hr.inv hg
  have hpos : 0 < r.lv.length := List.length_pos_iff.2 hi.ne
  have h0 : σ 0 = true := by
    have := ht litTrue (by simpa using hi.bot 0 hpos)
    simpa [tval, litTrue, Lit.tv] using this
  have hF0 : ∀ q, isFal [top0] q = true → tval σ q = false := isFal_false (by
    intro q hq
    refine ht q ?_
    have := Reach.keeps hr 0 hpos q (hsub q (by simpa using hq))
    simpa using this)
  obtain ⟨h, H⟩ := hi.inv
  obtain ⟨h1, h2⟩ := hi.set hph
  have H' := H.settle h2 h1 hi.ufs (hi.prop (by rw [hph]; decide))
  exact ⟨h0, hm, stable_of_sources hp hk h0 hm hF0 (isFal_false ht) htot H'.rem.core (H'.rem.lowG r.isF (by simp))⟩

/-- **C29.** All parts together, with the component numbers the program computes: a total assignment that satisfies the
constraints and on which the checker settles is accepted iff its true atoms are a stable model, because the checker cannot
settle on one that is not (`C29_complete`) and never falsifies an atom of one that is (`C29_unfounded`). -/
theorem C29_answer_sets (hp : p.GraphOk hs) (start : Nat) (ids scc0 : Scc.Node → Nat) (hlen : p.nodes.length ≤ Scc.noNode) :
    ∃ t, Scc.check p.graph (2 * p.nodes.length + 1) p.nodes (Scc.init start ids scc0) = some t ∧ (t.sccs ≤ noScc →
      ∀ top0 top, (∀ q ∈ top0, q ∈ top) → ∀ r, Ufs.Reach (p.ufsGraph (p.sccOf t) hs (isFal [top0])) top r → p.Total r.isF →
        ∀ σ, AllTrue σ r.lv.flatten → Models σ p.allCons →
          (r.ph = .settled → p.IsStable σ) ∧
          (r.ph = .falsify → (∃ a ∈ r.st.ufs, r.isF (p.atom a).lit = false) → ¬ p.IsStable σ)) := by
  obtain ⟨t, ht, hk⟩ := C29_numbers p start ids scc0 hlen
  refine ⟨t, ht, fun hn top0 top hsub r hr htot σ hag hm => ⟨fun hph => C29_complete hp (hk hn) hsub hr hph htot hag hm, ?_⟩⟩
  rintro hph ⟨a, ha, haF⟩ hst
  have hfalse := (C29_unfounded hp hsub hr hph).2 σ hst hag a ha
  have hi := hr.inv (ufsGraph_wf hp)
  obtain ⟨_, _, c, hc⟩ := hi.fal hph
  obtain ⟨h1, h2, _⟩ := relAtom_iff.1 (mem_graph_atoms.1 (hc a ha).1)
  rcases htot.1 a h1 h2 with h3 | h3
  · rw [haF] at h3; cases h3
  · have := isFal_false hag _ h3
    rw [tval_neg, hfalse] at this; cases this

end

namespace UfsEx

/-- Example: `a0 :- 2 <= #sum {1: a1, 1: not a2}. a1 :- a0. {a2}. a1 :- a2. a3 :- a0.` with bodies 0: the sum, 1: {a0}, 2: {}, 3: {a2}. -/
def prg : Prg where
  natoms := 4
  atom := fun a => match a with
    | 0 => ⟨true, .free, ⟨1, false⟩, [⟨0, false⟩]⟩
    | 1 => ⟨true, .free, ⟨2, false⟩, [⟨1, false⟩, ⟨3, false⟩]⟩
    | 2 => ⟨true, .free, ⟨3, false⟩, [⟨2, true⟩]⟩
    | _ => ⟨true, .free, ⟨5, false⟩, [⟨1, false⟩]⟩
  nbodies := 4
  body := fun b => match b with
    | 0 => ⟨true, .free, ⟨4, false⟩, .sum [(⟨1, false⟩, 1), (⟨2, true⟩, 1)] 2⟩
    | 1 => ⟨true, .free, ⟨5, false⟩, .conj [⟨0, false⟩]⟩
    | 2 => ⟨true, .true, litTrue, .conj []⟩
    | _ => ⟨true, .free, ⟨6, false⟩, .conj [⟨2, false⟩]⟩
  conflict := false

/-- Example: the heads of the bodies. -/
def heads : Nat → List Nat
  | 0 => [0]
  | 1 => [1, 3]
  | 2 => [2]
  | 3 => [1]
  | _ => []

theorem lt4 {P : Nat → Prop} (h : P 0 ∧ P 1 ∧ P 2 ∧ P 3) : ∀ b < 4, P b := by
  intro b hb
  have : b = 0 ∨ b = 1 ∨ b = 2 ∨ b = 3 := by omega
  rcases this with rfl | rfl | rfl | rfl
  exacts [h.1, h.2.1, h.2.2.1, h.2.2.2]

/-- Example: the program meets the hypothesis of the theorems. -/
theorem prg_ok : prg.GraphOk heads := by
  refine ⟨⟨?_, ?_, ?_, ?_⟩, ?_, ?_, ?_, ?_⟩
  · exact lt4 (by simp [prg, Body.lits])
  · exact lt4 (by simp [prg])
  · exact lt4 (by simp [prg])
  · exact lt4 (by simp [prg])
  · exact lt4 (by simp [prg, Body.wlits, Body.front])
  · exact lt4 (by simp [prg, Body.wlits, Body.front, Prg.posAtoms])
  · exact lt4 (by simp [prg, Body.nonneg])
  · have key : ∀ b < 4, ∀ a, a < 4 → (a ∈ heads b ↔ a < prg.natoms ∧ (prg.atom a).rel = true ∧ ∃ e ∈ (prg.atom a).sups, e.body = b) := by decide
    intro b hb _ a
    by_cases ha : a < 4
    · exact key b hb a ha
    · constructor
      · intro h
        exfalso
        have : ∀ b < 4, ∀ x ∈ heads b, x < 4 := by decide
        exact ha (this b hb a h)
      · exact fun h => absurd h.1 ha

/-- Example: the computed components. -/
def t : Scc.St := (Scc.check prg.graph (2 * prg.nodes.length + 1) prg.nodes (Scc.init 0 (fun _ => 0) (fun _ => 0))).getD (Scc.init 0 (fun _ => 0) (fun _ => 0))
/-- Example: their numbers. -/
def scc : Nat → Nat := prg.sccOf t

/-- Example: `a0` and `a1` are in a component, `a2` and `a3` are not; the numbers are as `C29_complete` requires. -/
theorem scc_ok : (List.range 4).map scc = [0, 0, noScc, noScc] ∧ prg.SccOk scc := by
  refine ⟨by decide +kernel, ?_⟩
  obtain ⟨t', h1, h2⟩ := C29_numbers prg 0 (fun _ => 0) (fun _ => 0) (by decide)
  have e : t = t' := by unfold t; rw [h1]; rfl
  unfold scc
  rw [e]
  refine h2 ?_
  rw [← e]
  decide +kernel

/-- Example: the graph of the program. -/
def g : UGraph := prg.ufsGraph scc heads (isFal [[litTrue]])

/-- Example: one step of the solver after another; an action is a literal to assign (`some (false, p)`), to decide on (`some (true, p)`), or a check. -/
def act (r : Run) : Option (Bool × Lit) → Run
  | some (false, p) => match r.lv with
    | l :: lv => ⟨(p :: l) :: lv, r.st.notify g p, if r.ph = .settled then .prop else r.ph⟩
    | [] => r
  | some (true, p) => ⟨[p] :: r.lv, r.st.notify g p, .prop⟩
  | none => ⟨r.lv, (findUfs g (isFal r.lv) r.st).2, if (findUfs g (isFal r.lv) r.st).1 then .falsify else .settled⟩

/-- Example: an action is possible. -/
def can (r : Run) : Option (Bool × Lit) → Bool
  | some (false, p) => !isFal r.lv p && !r.lv.isEmpty
  | some (true, p) => !isFal r.lv p && decide (r.ph = .settled)
  | none => decide (r.ph = .prop)

theorem act_step (r : Run) (x : Option (Bool × Lit)) (h : can r x = true) : Step g r (act r x) := by
  obtain ⟨lv, s, ph⟩ := r
  match x with
  | some (false, p) =>
    cases lv with
    | nil => simp [can] at h
    | cons l lv =>
      simp only [can, Bool.and_eq_true, Bool.not_eq_true'] at h
      exact .assign p h.1
  | some (true, p) =>
    simp only [can, Bool.and_eq_true, Bool.not_eq_true', decide_eq_true_eq] at h
    obtain ⟨h1, rfl⟩ := h
    exact .decide p h1
  | none =>
    simp only [can, decide_eq_true_eq] at h
    subst h
    exact .check

/-- Example: a sequence of actions is possible. -/
def canAll : Run → List (Option (Bool × Lit)) → Bool
  | _, [] => true
  | r, x :: xs => can r x && canAll (act r x) xs

theorem acts_reach : ∀ (xs : List (Option (Bool × Lit))) (r : Run), Ufs.Reach g [litTrue] r → canAll r xs = true → Ufs.Reach g [litTrue] (xs.foldl act r)
  | [], _, h, _ => h
  | x :: xs, r, h, hc => by
    simp only [canAll, Bool.and_eq_true] at hc
    exact acts_reach xs _ (h.step (act_step r x hc.1)) hc.2

/-- Example: the start, with nothing but the constant true assigned. -/
theorem start_reach : Ufs.Reach g [litTrue] (start g [litTrue]) := .start (by simp) (by decide +kernel)

/-- Example: `a2` is assumed to be false, and its body. -/
def acts1 : List (Option (Bool × Lit)) := [none, some (true, ⟨3, true⟩), some (false, ⟨6, true⟩), none]
/-- Example: `a2` is assumed to be true and everything that follows is assigned. -/
def acts2 : List (Option (Bool × Lit)) :=
  [none, some (true, ⟨3, false⟩), some (false, ⟨6, false⟩), some (false, ⟨2, false⟩), some (false, ⟨4, true⟩), some (false, ⟨1, true⟩), some (false, ⟨5, true⟩), none]
/-- Example: after `acts1`. -/
def run1 : Run := acts1.foldl act (start g [litTrue])
/-- Example: after `acts2`. -/
def run2 : Run := acts2.foldl act (start g [litTrue])

theorem run1_reach : Ufs.Reach g [litTrue] run1 := acts_reach acts1 _ start_reach (by decide +kernel)
theorem run2_reach : Ufs.Reach g [litTrue] run2 := acts_reach acts2 _ start_reach (by decide +kernel)

/-- Example: the assignments with the stable models `{}` and `{a1, a2}`. -/
def σ1 : Asg := fun v => v == 0
/-- Example: see `σ1`. -/
def σ2 : Asg := fun v => v == 0 || v == 3 || v == 6 || v == 2

/-- Example: satisfaction of a constraint can be decided. -/
instance (σ : Asg) : DecidablePred (Con.sat σ) := fun c => by
  cases c <;> unfold Con.sat <;> infer_instance

/-- Example: `C29_complete` applies to the second run, and its conclusion is that `{a1, a2}` is stable. -/
theorem complete_ex : run2.ph = .settled ∧ prg.IsStable σ2 ∧ (List.range 4).map (prg.modelOf σ2) = [false, true, true, false] := by
  have hph : run2.ph = .settled := by decide +kernel
  refine ⟨hph, C29_complete prg_ok scc_ok.2 (top0 := [litTrue]) (top := [litTrue]) (fun _ h => h) run2_reach hph ?_ ?_ ?_, by decide⟩
  · constructor
    · show ∀ a < 4, _
      decide +kernel
    · show ∀ b < 4, _
      decide +kernel
  · unfold AllTrue; decide +kernel
  · unfold Models; decide +kernel

/-- Example: in the first run the checker finds the unfounded set `{a0, a1}`; its reason is that body 3 is false, and the only external support
of the loop goes through it. The conclusions of `C29_unfounded` and `C29_reason` hold for the stable models of the program. -/
example : run1.ph = .falsify ∧ run1.st.ufs.length = 2 ∧ (∀ σ, prg.IsStable σ → AllTrue σ run1.lv.flatten → ∀ a ∈ run1.st.ufs, tval σ (prg.atom a).lit = false) ∧
    computeReason g run1.isF run1.st = [⟨6, false⟩] := by
  have hph : run1.ph = .falsify := by decide +kernel
  exact ⟨hph, by decide +kernel, (C29_unfounded prg_ok (fun _ h => h) run1_reach hph).2, by decide +kernel⟩

/-- Example: the hypothesis of `C29_reason` about unit propagation is met. -/
example : ∀ b < prg.nbodies, (prg.body b).rel = true → (prg.body b).body.isSum = false → ∀ l ∈ (prg.body b).body.lits, run1.isF (prg.goal l) = true → run1.isF (prg.body b).lit = true := by
  show ∀ b < 4, _
  decide +kernel

/-- Example: with `a2` false already when the checker is initialized, it forces the atoms of the loop to be false. -/
example : forced g [⟨3, true⟩, ⟨6, true⟩, litTrue] = [⟨1, true⟩, ⟨2, true⟩] := by decide +kernel

end UfsEx

end Clasp.Asp
