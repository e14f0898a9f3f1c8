import Verif.Asp.MinRun

/-! Reasons of unfounded sets found by the minimality check (C47). No code is modelled in this file; it contains proof devices only. -/

namespace Clasp.Min
open Clasp.Core Clasp.Asp

variable {p : DPrg} {T0 : Lit → Bool} {c : Nat} {g : DGraph} {s : Gen} {U : List Nat}

theorem tr_iff {q : Lit} : s.tr q = true ↔ ∃ l ∈ s, q ∈ l := by
  unfold Gen.tr
  simp [List.any_eq_true]

theorem level_le {q : Lit} (h : s.tr q = true) : s.level q.var ≤ s.dl := by
  obtain ⟨l, hl, hq⟩ := tr_iff.1 h
  have : s.level q.var < s.length := List.findIdx_lt_length_of_exists ⟨l, hl, by
    rw [List.any_eq_true]; exact ⟨q, hq, by simp⟩⟩
  unfold Gen.dl; omega

theorem level_zero (hcon : ∀ q, s.tr q = true → s.tr q.neg = false) {q : Lit} (h : s.tr q = true) (h0 : s.level q.var = 0) : q ∈ s.headD [] := by
  cases s with
  | nil => obtain ⟨l, hl, _⟩ := tr_iff.1 h; cases hl
  | cons l r =>
    have h1 : (l.any fun x => decide (x.var = q.var)) = true := by
      cases hv : (l.any fun x => decide (x.var = q.var)) with
      | true => rfl
      | false =>
        unfold Gen.level at h0
        rw [List.findIdx_cons, hv] at h0
        simp at h0
    obtain ⟨x, hx, he⟩ := List.any_eq_true.1 h1
    have he : x.var = q.var := by simpa using he
    have hxt : Gen.tr (l :: r) x = true := tr_iff.2 ⟨l, by simp, hx⟩
    have : x = q ∨ x = q.neg := by
      cases x with | mk v a => cases q with | mk w b =>
        have : v = w := he
        subst this
        cases a <;> cases b <;> simp [Lit.neg]
    rcases this with rfl | rfl
    · exact hx
    · rw [hcon q h] at hxt; cases hxt

theorem addReasonLit_mem {cl : List Lit} {q x : Lit} : x ∈ addReasonLit cl q ↔ x ∈ cl ∨ x = q := by
  unfold addReasonLit
  split
  · next h => exact ⟨.inl, fun h' => h'.elim id fun e => e ▸ h⟩
  · simp

/-- Proof device: what the loop over the atoms of a disjunction computes. -/
structure Best (g : DGraph) (s : Gen) (U l : List Nat) (r0 r : Lit × Nat × Bool) : Prop where
  inU : r.2.2 = true ↔ r0.2.2 = true ∨ ∃ x ∈ l, x ∈ U
  le : r.2.1 ≤ r0.2.1
  min : ∀ x ∈ l, x ∉ U → s.tr (g.atom x).lit = true → r.2.1 ≤ s.level (g.atom x).lit.var
  src : (r.1 = r0.1 ∧ r.2.1 = r0.2.1) ∨ ∃ x ∈ l, x ∉ U ∧ s.tr (g.atom x).lit = true ∧ r.1 = (g.atom x).lit.neg ∧ r.2.1 = s.level (g.atom x).lit.var

theorem best_ok : ∀ (l : List Nat) (r0 : Lit × Nat × Bool), Best g s U l r0 (bestReason g s U l r0)
  | [], r0 => ⟨by simp [bestReason], by simp [bestReason], by simp, .inl ⟨rfl, rfl⟩⟩
  | x :: l, (q, lv, f) => by
    unfold bestReason
    split
    · next hx =>
      have hx : x ∈ U := by simpa using hx
      obtain ⟨h1, h2, h3, h4⟩ := best_ok l (q, lv, true)
      refine ⟨⟨fun _ => .inr ⟨x, by simp, hx⟩, fun _ => h1.2 (.inl rfl)⟩, h2, fun y hy hyu hyt => ?_, ?_⟩
      · rcases List.mem_cons.1 hy with rfl | hy
        · exact absurd hx hyu
        · exact h3 y hy hyu hyt
      · exact h4.imp id fun ⟨y, hy, h⟩ => ⟨y, List.mem_cons_of_mem _ hy, h⟩
    · next hx =>
      have hx : x ∉ U := by simpa using hx
      have hm : ∀ f : Bool, (f = true ∨ ∃ y ∈ l, y ∈ U) ↔ (f = true ∨ ∃ y ∈ x :: l, y ∈ U) := by
        intro f
        constructor
        · exact Or.imp id fun ⟨y, hy, h⟩ => ⟨y, List.mem_cons_of_mem _ hy, h⟩
        · refine Or.imp id ?_
          rintro ⟨y, hy, h⟩
          rcases List.mem_cons.1 hy with rfl | hy
          · exact absurd h hx
          · exact ⟨y, hy, h⟩
      split
      · next hc =>
        rw [Bool.and_eq_true, decide_eq_true_eq] at hc
        obtain ⟨h1, h2, h3, h4⟩ := best_ok l ((g.atom x).lit.neg, s.level (g.atom x).lit.var, f)
        dsimp only at h1 h2 h3 h4 ⊢
        refine ⟨h1.trans (hm f), (h2.trans hc.2.le), fun y hy hyu hyt => ?_, .inr ?_⟩
        · rcases List.mem_cons.1 hy with rfl | hy
          · exact h2
          · exact h3 y hy hyu hyt
        · rcases h4 with ⟨h4, h5⟩ | ⟨y, hy, h⟩
          · exact ⟨x, by simp, hx, hc.1, h4, h5⟩
          · exact ⟨y, List.mem_cons_of_mem _ hy, h⟩
      · next hc =>
        rw [Bool.and_eq_true, decide_eq_true_eq, not_and] at hc
        obtain ⟨h1, h2, h3, h4⟩ := best_ok l (q, lv, f)
        dsimp only at h1 h2 h3 h4 ⊢
        refine ⟨h1.trans (hm f), h2, fun y hy hyu hyt => ?_, ?_⟩
        · rcases List.mem_cons.1 hy with rfl | hy
          · have := hc hyt; omega
          · exact h3 y hy hyu hyt
        · exact h4.imp id fun ⟨y, hy, h⟩ => ⟨y, List.mem_cons_of_mem _ hy, h⟩

/-- Proof device: where the search for the best literal of a disjunction starts. -/
def start (g : DGraph) (s : Gen) (b : Nat) : Lit × Nat × Bool := ((g.body b).lit, if s.tr (g.body b).lit.neg then s.level (g.body b).lit.var else s.dl + 1, false)

/-- Proof device: the clause has what the head needs. -/
def CovHead (g : DGraph) (s : Gen) (U : List Nat) (u b : Nat) (cl : List Lit) : DHead → Prop
  | .norm a => (g.atom a).scc = u → s.tr (g.body b).lit.neg = true → ((g.body b).scc ≠ u ∨ isExternal g s U b = true) → (g.body b).lit ∈ cl
  | .disj hs => (bestReason g s U hs (start g s b)).2.2 = true → (bestReason g s U hs (start g s b)).2.1 ≠ 0 → (bestReason g s U hs (start g s b)).2.1 ≤ s.dl →
      (bestReason g s U hs (start g s b)).1 ∈ cl

theorem CovHead.mono {u b : Nat} {cl cl' : List Lit} (hs : ∀ q ∈ cl, q ∈ cl') {h : DHead} (hc : CovHead g s U u b cl h) : CovHead g s U u b cl' h := by
  cases h with
  | norm a => exact fun h1 h2 h3 => hs _ (hc h1 h2 h3)
  | disj l => exact fun h1 h2 h3 => hs _ (hc h1 h2 h3)

theorem addIf_mem {u b : Nat} {cl : List Lit} {q : Lit} : q ∈ addIfReason g s U u cl b ↔
    q ∈ cl ∨ (q = (g.body b).lit ∧ s.tr (g.body b).lit.neg = true ∧ ((g.body b).scc ≠ u ∨ isExternal g s U b = true)) := by
  unfold addIfReason
  split
  · next h =>
    simp only [Bool.and_eq_true, Bool.or_eq_true, decide_eq_true_eq] at h
    rw [addReasonLit_mem]
    exact ⟨Or.imp id fun e => ⟨e, h.1.1, h.2⟩, Or.imp id fun e => e.1⟩
  · next h =>
    simp only [Bool.and_eq_true, Bool.or_eq_true, decide_eq_true_eq, Bool.not_eq_true', decide_eq_false_iff_not] at h
    refine ⟨.inl, fun h' => h'.elim id ?_⟩
    rintro ⟨rfl, h1, h2⟩
    by_contra hn
    exact h ⟨⟨h1, hn⟩, h2⟩

theorem deltaHead_disj {u b : Nat} {cl : List Lit} {l : List Nat} : ∃ r, bestReason g s U l (start g s b) = r ∧
    deltaHead g s U u b cl (.disj l) = if r.2.2 && decide (r.2.1 ≠ 0) && decide (r.2.1 ≤ s.dl) then addReasonLit cl r.1 else cl := ⟨_, rfl, rfl⟩

theorem deltaHead_cov {u b : Nat} {cl : List Lit} {h : DHead} : CovHead g s U u b (deltaHead g s U u b cl h) h := by
  cases h with
  | norm a =>
    intro h1 h2 h3
    simp only [deltaHead, h1, if_true]
    exact addIf_mem.2 (.inr ⟨rfl, h2, h3⟩)
  | disj l =>
    intro h1 h2 h3
    unfold deltaHead
    dsimp only
    have e : (bestReason g s U l (start g s b)).2.2 && decide ((bestReason g s U l (start g s b)).2.1 ≠ 0) &&
        decide ((bestReason g s U l (start g s b)).2.1 ≤ s.dl) := by simp [h1, h2, h3]
    unfold start at e ⊢
    rw [if_pos e]
    exact addReasonLit_mem.2 (.inr rfl)

theorem deltaHead_sub {u b : Nat} {cl : List Lit} {h : DHead} {q : Lit} (hq : q ∈ cl) : q ∈ deltaHead g s U u b cl h := by
  cases h with
  | norm a =>
    simp only [deltaHead]
    split
    · exact addIf_mem.2 (.inl hq)
    · exact hq
  | disj l =>
    obtain ⟨r, _, e⟩ := deltaHead_disj (g := g) (s := s) (U := U) (u := u) (b := b) (cl := cl) (l := l)
    rw [e]
    split
    · exact addReasonLit_mem.2 (.inl hq)
    · exact hq

theorem deltaHead_false {u b : Nat} {cl : List Lit} {h : DHead} (hcl : ∀ q ∈ cl, s.tr q.neg = true) : ∀ q ∈ deltaHead g s U u b cl h, s.tr q.neg = true := by
  intro q hq
  cases h with
  | norm a =>
    simp only [deltaHead] at hq
    split at hq
    · rcases addIf_mem.1 hq with hq | ⟨rfl, h1, _⟩
      · exact hcl q hq
      · exact h1
    · exact hcl q hq
  | disj l =>
    obtain ⟨r, hr, e⟩ := deltaHead_disj (g := g) (s := s) (U := U) (u := u) (b := b) (cl := cl) (l := l)
    rw [e] at hq
    split at hq
    · next hc =>
      simp only [Bool.and_eq_true, decide_eq_true_eq] at hc
      have hB := best_ok (g := g) (s := s) (U := U) l (start g s b)
      rw [hr] at hB
      rcases addReasonLit_mem.1 hq with hq | rfl
      · exact hcl q hq
      · rcases hB.src with ⟨h1, h2⟩ | ⟨x, _, _, h3, h4, _⟩
        · unfold start at h1 h2
          rw [h1]
          have hle := hc.2
          rw [h2] at hle
          dsimp only at hle ⊢
          by_contra hn
          rw [if_neg hn] at hle
          omega
        · rw [h4, Lit.neg_neg]; exact h3
    · exact hcl q hq

/-- Proof device: the clause has what the body needs. -/
def Cov (g : DGraph) (s : Gen) (U : List Nat) (u : Nat) (cl : List Lit) (b : Nat) : Prop :=
  if (g.body b).delta = true then ∀ h ∈ (g.body b).heads, CovHead g s U u b cl h
  else s.tr (g.body b).lit.neg = true → ((g.body b).scc ≠ u ∨ isExternal g s U b = true) → (g.body b).lit ∈ cl

theorem Cov.mono {u b : Nat} {cl cl' : List Lit} (hs : ∀ q ∈ cl, q ∈ cl') (hc : Cov g s U u cl b) : Cov g s U u cl' b := by
  unfold Cov at hc ⊢
  split
  · next h => rw [if_pos h] at hc; exact fun x hx => (hc x hx).mono hs
  · next h => rw [if_neg h] at hc; exact fun h1 h2 => hs _ (hc h1 h2)

theorem heads_fold {u b : Nat} : ∀ (hs : List DHead) (cl : List Lit), (∀ q ∈ cl, s.tr q.neg = true) →
    (∀ q ∈ cl, q ∈ hs.foldl (deltaHead g s U u b) cl) ∧ (∀ q ∈ hs.foldl (deltaHead g s U u b) cl, s.tr q.neg = true) ∧
    ∀ h ∈ hs, CovHead g s U u b (hs.foldl (deltaHead g s U u b) cl) h
  | [], cl, hcl => ⟨fun _ h => h, hcl, by simp⟩
  | h :: hs, cl, hcl => by
    obtain ⟨h1, h2, h3⟩ := heads_fold hs (deltaHead g s U u b cl h) (deltaHead_false hcl)
    rw [List.foldl_cons]
    refine ⟨fun q hq => h1 q (deltaHead_sub hq), h2, fun x hx => ?_⟩
    rcases List.mem_cons.1 hx with rfl | hx
    · exact deltaHead_cov.mono h1
    · exact h3 x hx

/-- Proof device: invariant of the loops of `computeReason`. -/
structure RInv (g : DGraph) (s : Gen) (U : List Nat) (u : Nat) (x : List Lit × List Nat) : Prop where
  fls : ∀ q ∈ x.1, s.tr q.neg = true
  cov : ∀ b ∈ x.2, Cov g s U u x.1 b

/-- Proof device: one body in `computeReason`. -/
def bodyStep (g : DGraph) (s : Gen) (U : List Nat) (u : Nat) (x : List Lit × List Nat) (b : Nat) : List Lit × List Nat :=
  if !(g.body b).delta then (addIfReason g s U u x.1 b, x.2) else addDeltaReason g s U u x b

theorem bodyStep_ok {u b : Nat} {x : List Lit × List Nat} (h : RInv g s U u x) :
    RInv g s U u (bodyStep g s U u x b) ∧ (∀ q ∈ x.1, q ∈ (bodyStep g s U u x b).1) ∧ Cov g s U u (bodyStep g s U u x b).1 b := by
  unfold bodyStep
  split
  · next hd =>
    have hd : (g.body b).delta = false := by simpa using hd
    have hsub : ∀ q ∈ x.1, q ∈ addIfReason g s U u x.1 b := fun q hq => addIf_mem.2 (.inl hq)
    refine ⟨⟨fun q hq => ?_, fun b' hb' => (h.cov b' hb').mono hsub⟩, hsub, ?_⟩
    · rcases addIf_mem.1 hq with hq | ⟨rfl, h1, _⟩
      · exact h.fls q hq
      · exact h1
    · unfold Cov
      rw [if_neg (by simp [hd])]
      exact fun h1 h2 => addIf_mem.2 (.inr ⟨rfl, h1, h2⟩)
  · next hd =>
    have hd : (g.body b).delta = true := by simpa using hd
    unfold addDeltaReason
    split
    · next hb => exact ⟨h, fun _ hq => hq, h.cov b hb⟩
    · obtain ⟨h1, h2, h3⟩ := heads_fold (g := g) (U := U) (u := u) (b := b) (g.body b).heads x.1 h.fls
      have hb : Cov g s U u ((g.body b).heads.foldl (deltaHead g s U u b) x.1) b := by
        unfold Cov
        rw [if_pos hd]; exact h3
      refine ⟨⟨h2, fun b' hb' => ?_⟩, h1, hb⟩
      rcases List.mem_append.1 hb' with hb' | hb'
      · exact (h.cov b' hb').mono h1
      · have : b' = b := by simpa using hb'
        subst this; exact hb

theorem bodies_fold {u : Nat} : ∀ (bs : List Nat) (x : List Lit × List Nat), RInv g s U u x →
    RInv g s U u (bs.foldl (bodyStep g s U u) x) ∧ (∀ q ∈ x.1, q ∈ (bs.foldl (bodyStep g s U u) x).1) ∧ ∀ b ∈ bs, Cov g s U u (bs.foldl (bodyStep g s U u) x).1 b
  | [], x, h => ⟨h, fun _ hq => hq, by simp⟩
  | b :: bs, x, h => by
    obtain ⟨h1, h2, h3⟩ := bodyStep_ok (b := b) h
    obtain ⟨h4, h5, h6⟩ := bodies_fold bs _ h1
    rw [List.foldl_cons]
    refine ⟨h4, fun q hq => h5 q (h2 q hq), fun b' hb' => ?_⟩
    rcases List.mem_cons.1 hb' with rfl | hb'
    · exact h3.mono h5
    · exact h6 b' hb'

theorem atoms_fold {u : Nat} : ∀ (L : List Nat) (x : List Lit × List Nat), RInv g s U u x →
    ∃ y, L.foldl (fun x a => if s.tr (g.atom a).lit.neg then x else (g.atom a).bodies.foldl (bodyStep g s U u) x) x = y ∧
      RInv g s U u y ∧ (∀ q ∈ x.1, q ∈ y.1) ∧ ∀ a ∈ L, s.tr (g.atom a).lit.neg = false → ∀ b ∈ (g.atom a).bodies, Cov g s U u y.1 b
  | [], x, h => ⟨x, rfl, h, fun _ hq => hq, by simp⟩
  | a :: L, x, h => by
    rw [List.foldl_cons]
    split
    · next hf =>
      obtain ⟨y, e, h1, h2, h3⟩ := atoms_fold L x h
      refine ⟨y, e, h1, h2, fun a' ha' hn => ?_⟩
      rcases List.mem_cons.1 ha' with rfl | ha'
      · rw [hf] at hn; cases hn
      · exact h3 a' ha' hn
    · obtain ⟨h4, h5, h6⟩ := bodies_fold (g.atom a).bodies x h
      obtain ⟨y, e, h1, h2, h3⟩ := atoms_fold L _ h4
      refine ⟨y, e, h1, fun q hq => h2 q (h5 q hq), fun a' ha' hn b hb => ?_⟩
      rcases List.mem_cons.1 ha' with rfl | ha'
      · exact (h6 b hb).mono h2
      · exact h3 a' ha' hn b hb

theorem reason_spec {u : Nat} (hu : ∀ a ∈ U, (g.atom a).scc = u) : (∀ q ∈ computeReason g s U, s.tr q.neg = true) ∧
    ∀ a ∈ U, s.tr (g.atom a).lit.neg = false → ∀ b ∈ (g.atom a).bodies, Cov g s U u (computeReason g s U) b := by
  cases U with
  | nil => exact ⟨by simp [computeReason], by simp⟩
  | cons x r =>
    obtain ⟨y, e, h1, -, h3⟩ := atoms_fold (g := g) (s := s) (U := x :: r) (u := u) (x :: r) ([], []) ⟨by simp, by simp⟩
    have : computeReason g s (x :: r) = y.1 := by
      rw [← e]
      unfold computeReason
      dsimp only
      rw [hu x (by simp)]
      rfl
    rw [this]
    exact ⟨h1.fls, h3⟩

/-- An atom of the set is true in a stable model only if a literal of the reason is. -/
theorem reason_sound (hok : p.Ok) (hc : c ≠ noScc) (hrs : p.NoRecSum T0 c) {s0 : Lit → Bool} {U0 : Nat → Prop} (hU : Unf p s0 c U0) (hs0 : ∀ q, s0 q = true → s.tr q = true)
    (hcon : ∀ q, s.tr q = true → s.tr q.neg = false) (hsub : ∀ a ∈ U, U0 a) (hrest : ∀ a, U0 a → a ∈ U ∨ s.tr (p.atom a).lit.neg = true)
    (hprop : ∀ b < p.nbodies, ∀ x ls, (p.body b).body = .conj ls → (⟨x, false⟩ : BLit) ∈ ls → s.tr (p.atom x).lit.neg = true → s.tr (p.body b).lit.neg = true)
    (hT0 : ∀ q, T0 q = true → q ∈ s.headD []) {σ : Asg} (h0 : ∀ q ∈ s.headD [], tval σ q = true) (hb : p.BodiesOk σ) (hn : p.Nonneg) (hst : Stable p.rules (p.model σ))
    {a : Nat} (ha : a ∈ U) (hna : s.tr (p.atom a).lit.neg = false) (hta : tval σ (p.atom a).lit = true) : ∃ q ∈ computeReason (p.graph T0) s U, tval σ q = true := by
  by_contra hno
  have hno : ∀ q ∈ computeReason (p.graph T0) s U, tval σ q = false := fun q hq => by
    cases hv : tval σ q with
    | false => rfl
    | true => exact absurd ⟨q, hq, hv⟩ hno
  have hscc : ∀ a ∈ U, ((p.graph T0).atom a).scc = c := fun a ha => (hU.2.1 a (hsub a ha)).2.1
  obtain ⟨-, hcov⟩ := reason_spec (g := p.graph T0) (s := s) hscc
  -- a conjunction with a false goal is false
  have hgoal : ∀ b < p.nbodies, ∀ x ls, (p.body b).body = .conj ls → (⟨x, false⟩ : BLit) ∈ ls → tval σ (p.atom x).lit = false → tval σ (p.body b).lit.neg = true := by
    intro b hbl x ls e hx hv
    rw [tval_not, hb b hbl, e, Bool.not_eq_true']
    rw [Body.holds, List.all_eq_false]
    refine ⟨_, hx, ?_⟩
    simp [BLit.holds, DPrg.model, hv]
  have key : Unf p (tval σ) c (fun x => x ∈ U ∧ s.tr (p.atom x).lit.neg = false ∧ tval σ (p.atom x).lit = true) := by
    refine ⟨⟨a, ha, hna, hta⟩, fun x hx => ⟨(hU.2.1 x (hsub x hx.1)).1, hscc x hx.1, by rw [tval_not, hx.2.2]; rfl⟩, fun b hbl h hh hg x hxh hx => ?_⟩
    by_cases hbf : tval σ (p.body b).lit.neg = true
    · exact .inl hbf
    have hbt : tval σ (p.body b).lit = true := by rw [tval_not] at hbf; simpa using hbf
    have hxc : (p.atom x).scc = c := hscc x hx.1
    have hxn : x < p.natoms := (hU.2.1 x (hsub x hx.1)).1
    have hrelx : p.relAtom T0 x = true := by
      refine relAtom_iff.2 ⟨hxn, hok.rel x hxn (by rw [hxc]; exact hc), by rw [hxc]; exact hc, ?_⟩
      cases hv : T0 (p.atom x).lit.neg with
      | false => rfl
      | true =>
        have := h0 _ (hT0 _ hv)
        rw [tval_not, hx.2.2] at this; cases this
    have hrelb : p.relBody T0 b = true := by
      unfold DPrg.relBody
      rw [Bool.and_eq_true, decide_eq_true_eq, Bool.not_eq_true']
      refine ⟨hbl, ?_⟩
      cases hv : T0 (p.body b).lit.neg with
      | false => rfl
      | true => exact absurd (h0 _ (hT0 _ hv)) hbf
    have hbx : b ∈ ((p.graph T0).atom x).bodies := mem_bodies.2 ⟨hrelb, h, hh, hg, hxh⟩
    have hC := hcov x hx.1 hx.2.1 b hbx
    -- the rule is not a disjunction and its body is false
    have hnorm : s.tr (p.body b).lit.neg = true → (((p.graph T0).body b).scc ≠ c ∨ isExternal (p.graph T0) s U b = true → (p.body b).lit ∈ computeReason (p.graph T0) s U) →
        ∃ y ls, (p.body b).body = .conj ls ∧ (⟨y, false⟩ : BLit) ∈ ls ∧ (y ∈ U ∧ s.tr (p.atom y).lit.neg = false ∧ tval σ (p.atom y).lit = true) := by
      intro hf himp
      have hnot : ¬ (((p.graph T0).body b).scc ≠ c ∨ isExternal (p.graph T0) s U b = true) := fun hh' => by
        have := hno _ (himp hh')
        rw [hbt] at this; cases this
      push Not at hnot
      obtain ⟨h1, h2⟩ := hnot
      unfold isExternal at h2
      rw [ne_eq, Bool.not_eq_true, List.all_eq_false] at h2
      obtain ⟨y, hy, h3⟩ := h2
      have h3 : y ∈ U ∧ s.tr (p.atom y).lit.neg = false := by
        rw [Bool.not_eq_true, Bool.not_eq_false', Bool.and_eq_true, Bool.not_eq_true'] at h3
        exact ⟨by simpa using h3.1, h3.2⟩
      obtain ⟨_, hf1, _, _⟩ := mem_preds.1 hy
      have hpos := front_pos hf1
      have hs := hrs b hbl (by
        unfold DPrg.relBody at hrelb
        rw [Bool.and_eq_true, Bool.not_eq_true'] at hrelb; exact hrelb.2) h hh hg x hxh hxc (relAtom_iff.1 hrelx).2.2.2 y hpos (hscc y h3.1)
      cases hB : (p.body b).body with
      | sum ls bd => rw [hB] at hs; cases hs
      | conj ls =>
        rw [Pos, hB] at hpos
        refine ⟨y, ls, rfl, hpos, h3.1, h3.2, ?_⟩
        cases hv : tval σ (p.atom y).lit with
        | true => rfl
        | false => exact absurd (hgoal b hbl y ls hB hpos hv) hbf
    have hdelta : ∀ as, h = .disj as → ((p.graph T0).body b).delta = true := fun as e => by
      subst e
      unfold DBody.delta
      rw [List.any_eq_true]
      exact ⟨_, mem_heads.2 (.inr ⟨as, hh, rfl⟩), rfl⟩
    -- the rule is a disjunction, and its body is false or it has a true atom
    have hdisj : ∀ as, h = .disj as → (s.tr (p.body b).lit.neg = true ∨ ∃ o ∈ as, ¬ o ∈ U ∧ s.tr (p.atom o).lit = true) →
        ∃ o ∈ as, ¬ (o ∈ U ∧ s.tr (p.atom o).lit.neg = false ∧ tval σ (p.atom o).lit = true) ∧ tval σ (p.atom o).lit = true := by
      intro as e hor
      have hd := hdelta as e
      subst e
      unfold Cov at hC
      rw [if_pos hd] at hC
      have hC := hC _ (mem_heads.2 (.inr ⟨as, hh, rfl⟩))
      obtain ⟨r, hr⟩ : ∃ r, bestReason (p.graph T0) s U (as.filter (p.relAtom T0)) (start (p.graph T0) s b) = r := ⟨_, rfl⟩
      have hB := best_ok (g := p.graph T0) (s := s) (U := U) (as.filter (p.relAtom T0)) (start (p.graph T0) s b)
      rw [hr] at hB
      unfold CovHead at hC
      dsimp only at hC
      rw [hr] at hC
      have hin : r.2.2 = true := hB.inU.2 (.inr ⟨x, List.mem_filter.2 ⟨hxh, hrelx⟩, hx.1⟩)
      have hle : r.2.1 ≤ s.dl := by
        rcases hor with hf | ⟨o, ho, hou, hot⟩
        · refine hB.le.trans ?_
          have e : s.tr ((p.graph T0).body b).lit.neg = true := hf
          unfold start
          dsimp only
          rw [if_pos e]
          exact level_le (q := (p.body b).lit.neg) hf
        · have hoc : (p.atom o).scc = c := by rw [← hxc]; exact hok.disj b hbl as hh o ho x hxh
          have hon : o < p.natoms := hok.heads b hbl _ hh o ho
          have hro : p.relAtom T0 o = true := by
            refine relAtom_iff.2 ⟨hon, hok.rel o hon (by rw [hoc]; exact hc), by rw [hoc]; exact hc, ?_⟩
            cases hv : T0 (p.atom o).lit.neg with
            | false => rfl
            | true =>
              have h1 := hT0 _ hv
              have h2 : s.tr (p.atom o).lit.neg = true := by
                cases s with
                | nil => cases h1
                | cons l _ => exact tr_iff.2 ⟨l, by simp, h1⟩
              rw [hcon _ hot] at h2; cases h2
          exact (hB.min o (List.mem_filter.2 ⟨ho, hro⟩) hou hot).trans (level_le hot)
      have hfalse : tval σ r.1 = false := by
        by_cases hz : r.2.1 = 0
        · rcases hB.src with ⟨h1, h2⟩ | ⟨o, ho, hou, hot, h1, h2⟩
          · have hf : s.tr (p.body b).lit.neg = true := by
              by_contra hf
              rw [h2] at hz
              unfold start at hz
              dsimp only at hz
              have e : ¬ s.tr ((p.graph T0).body b).lit.neg = true := hf
              rw [if_neg e] at hz
              omega
            exfalso
            apply hbf
            apply h0
            apply level_zero hcon hf
            rw [h2] at hz
            unfold start at hz
            dsimp only at hz
            have e : s.tr ((p.graph T0).body b).lit.neg = true := hf
            rw [if_pos e] at hz
            exact hz
          · rw [h1]
            have h3 : tval σ (p.atom o).lit = true := h0 _ (level_zero hcon hot (h2.symm.trans hz))
            have : tval σ (p.atom o).lit.neg = false := by rw [tval_not, h3]; rfl
            exact this
        · exact hno _ (hC hin hz hle)
      rcases hB.src with ⟨h1, h2⟩ | ⟨o, ho, hou, hot, h1, h2⟩
      · exfalso
        rw [h1] at hfalse
        have : tval σ (p.body b).lit = false := hfalse
        rw [hbt] at this; cases this
      · refine ⟨o, (List.mem_filter.1 ho).1, fun h => hou h.1, ?_⟩
        have : tval σ (p.atom o).lit.neg = false := by
          have e : ((p.graph T0).atom o).lit = (p.atom o).lit := rfl
          rw [h1, e] at hfalse; exact hfalse
        rw [tval_not] at this
        simpa using this
    have hbody : s.tr (p.body b).lit.neg = true →
        (∃ y ls, (p.body b).body = .conj ls ∧ (⟨y, false⟩ : BLit) ∈ ls ∧ (y ∈ U ∧ s.tr (p.atom y).lit.neg = false ∧ tval σ (p.atom y).lit = true)) ∨
        ∃ as, h = .disj as ∧ ∃ o ∈ as, ¬ (o ∈ U ∧ s.tr (p.atom o).lit.neg = false ∧ tval σ (p.atom o).lit = true) ∧ tval σ (p.atom o).lit = true := by
      intro hf
      cases h with
      | disj as => exact .inr ⟨as, rfl, hdisj as rfl (.inl hf)⟩
      | atom a' ch gm =>
        left
        have : x = a' := by simpa [PHead.atoms] using hxh
        subst this
        have hg : gm = false := hg
        subst hg
        apply hnorm hf
        unfold Cov at hC
        split at hC
        · exact hC _ (mem_heads.2 (.inl ⟨x, ch, hh, hrelx, rfl⟩)) hxc hf
        · exact hC hf
    right
    rcases hU.2.2 b hbl h hh hg x hxh (hsub x hx.1) with h1 | ⟨y, ls, e, hy, hyu⟩ | ⟨as, e, o, ho, hou, hot⟩
    · exact hbody (hs0 _ h1)
    · rcases hrest y hyu with h2 | h2
      · cases h3 : s.tr (p.atom y).lit.neg with
        | true => exact hbody (hprop b hbl y ls e hy h3)
        | false =>
          left
          refine ⟨y, ls, e, hy, h2, h3, ?_⟩
          cases hv : tval σ (p.atom y).lit with
          | true => rfl
          | false => exact absurd (hgoal b hbl y ls e hy hv) hbf
      · exact hbody (hprop b hbl y ls e hy h2)
    · exact .inr ⟨as, e, hdisj as e (.inr ⟨o, ho, fun h => hou (hsub o h), hs0 _ hot⟩)⟩
  have := key.fls (fun _ h => h) hok hb hn hst a ⟨ha, hna, hta⟩
  rw [hta] at this; cases this

/-! ### Which atom comes first -/

theorem minPos_ok (s : Gen) (L : List Nat) : ∀ (l : List Nat) (i : Nat) (pos : Nat) (d : Option Nat), L.drop i = l →
    (∀ a ∈ L.take i, s.tr (g.atom a).lit = true → ∃ e, d = some e ∧ e ≤ s.level (g.atom a).lit.var) →
    (match d with | none => pos = 0 | some e => ∃ a, L[pos]? = some a ∧ s.tr (g.atom a).lit = true ∧ s.level (g.atom a).lit.var = e) →
    (minPos g s l i (pos, d) = 0 ∧ ∀ a ∈ L, s.tr (g.atom a).lit = false) ∨
    ∃ a, L[minPos g s l i (pos, d)]? = some a ∧ s.tr (g.atom a).lit = true ∧ ∀ b ∈ L, s.tr (g.atom b).lit = true → s.level (g.atom a).lit.var ≤ s.level (g.atom b).lit.var
  | [], i, pos, d, hl, h1, h2 => by
    have hi : L.take i = L := by
      have := List.take_append_drop i L
      rw [hl, List.append_nil] at this; exact this
    rw [hi] at h1
    unfold minPos
    cases d with
    | none =>
      refine .inl ⟨h2, fun a ha => ?_⟩
      cases hv : s.tr (g.atom a).lit with
      | false => rfl
      | true => obtain ⟨e, h, _⟩ := h1 a ha hv; cases h
    | some e =>
      obtain ⟨a, h3, h4, h5⟩ := h2
      refine .inr ⟨a, h3, h4, fun b hb hbt => ?_⟩
      obtain ⟨e', he, hle⟩ := h1 b hb hbt
      cases he
      rw [h5]; exact hle
  | a :: r, i, pos, d, hl, h1, h2 => by
    have hlt : i < L.length := by
      by_contra hge
      rw [List.drop_eq_nil_of_le (by omega)] at hl; cases hl
    rw [List.drop_eq_getElem_cons hlt] at hl
    injection hl with ha hr
    have htake : L.take (i + 1) = L.take i ++ [a] := by
      rw [List.take_add_one, List.getElem?_eq_getElem hlt, ha]; rfl
    unfold minPos
    dsimp only
    split_ifs with hc
    · rw [Bool.and_eq_true] at hc
      refine minPos_ok s L r (i + 1) i _ hr (fun x hx hxt => ?_) ⟨a, by rw [List.getElem?_eq_getElem hlt, ha], hc.1, rfl⟩
      refine ⟨_, rfl, ?_⟩
      rw [htake] at hx
      rcases List.mem_append.1 hx with hx | hx
      · obtain ⟨e, rfl, hle⟩ := h1 x hx hxt
        have := hc.2
        simp only [decide_eq_true_eq] at this
        omega
      · have : x = a := by simpa using hx
        subst this; exact le_refl _
    · rw [Bool.and_eq_true, not_and] at hc
      refine minPos_ok s L r (i + 1) pos d hr (fun x hx hxt => ?_) h2
      rw [htake] at hx
      rcases List.mem_append.1 hx with hx | hx
      · exact h1 x hx hxt
      · have : x = a := by simpa using hx
        subst this
        have := hc hxt
        cases d with
        | none => simp at this
        | some e =>
          simp only [decide_eq_true_eq, not_lt] at this
          exact ⟨e, rfl, this⟩

theorem swap_front {l : List Nat} {i a : Nat} (h : l[i]? = some a) : (swapFront l i).Perm l ∧ (swapFront l i).head? = some a := by
  cases l with
  | nil => cases h
  | cons x r =>
    unfold swapFront
    rw [h]
    dsimp only
    split
    · next hi => subst hi; exact ⟨.refl _, h⟩
    · next hi =>
      obtain ⟨j, rfl⟩ : ∃ j, i = j + 1 := ⟨i - 1, by omega⟩
      refine ⟨?_, rfl⟩
      have hj : r[j]? = some a := by simpa using h
      have hlt : j < r.length := by
        by_contra hge
        rw [List.getElem?_eq_none (by omega)] at hj; cases hj
      rw [List.getElem?_eq_getElem hlt] at hj
      injection hj with hj
      have e : r = r.take j ++ a :: r.drop (j + 1) := by
        rw [← hj, ← List.drop_eq_getElem_cons hlt, List.take_append_drop]
      have e2 : (r.set (j + 1 - 1) x) = r.take j ++ x :: r.drop (j + 1) := by
        rw [Nat.add_sub_cancel, List.set_eq_take_append_cons_drop, if_pos hlt]
      rw [e2]
      conv_rhs => rw [e]
      calc a :: (r.take j ++ x :: r.drop (j + 1)) |>.Perm (a :: x :: (r.take j ++ r.drop (j + 1))) := .cons _ List.perm_middle
        _ |>.Perm (x :: a :: (r.take j ++ r.drop (j + 1))) := .swap _ _ _
        _ |>.Perm (x :: (r.take j ++ a :: r.drop (j + 1))) := .cons _ List.perm_middle.symm

end Clasp.Min
