import Verif.Asp.ShiftComp

/-!
# C48: component shifting of disjunctions

The theorems are about `finalize` (Shift.lean). Stable models are those of Sem.lean, `SameModels` is from TransformLem.lean, the input is specified by `InOk` (ShiftSem.lean) and
`CompsOk` (ShiftComp.lean). `R` are the rules of the program that are no disjunctions, `disjRules e ds` the rules of the disjunctions.
-/

namespace Clasp.Shift
open Clasp.Asp Relation

section
variable {n : Nat} {R : List Rule} {e : Env} {ds : List Disj}

/-- **C48.** Replacing the disjunctions of a program by their component-shifted rules and the redundant rules does not change the stable models: they correspond one to one and agree on the
atoms of the program. -/
theorem C48_models (ok : InOk e n R ds) : SameModels n (R ++ disjRules e ds) (R ++ (finalize e n ds).rules ++ (finalize e n ds).gammas) := by
  obtain ⟨E, h⟩ := finalize_rep (e := e) ok.below ok.disj
  exact h.same (fun r hr => List.mem_append_left _ hr) (fun r hr => hr) fun M => stable_iff ok

/-- **C48.** The redundant rules are redundant: without them the stable models are the same. -/
theorem C48_gamma (ok : InOk e n R ds) (M : AtomSet) : Stable (R ++ (finalize e n ds).rules) M ↔ Stable (R ++ (finalize e n ds).rules ++ (finalize e n ds).gammas) M := by
  obtain ⟨E, h⟩ := finalize_rep (e := e) ok.below ok.disj
  constructor
  · intro hM
    obtain ⟨h1, h2⟩ := h.bwd (fun r hr => hr) (fun r hr => List.mem_append_left _ hr) hM
    rw [h2]
    exact h.fwd (fun r hr => List.mem_append_left _ hr) (fun r hr => hr) h1
  · intro hM
    obtain ⟨h1, h2⟩ := h.bwd (fun r hr => List.mem_append_left _ hr) (fun r hr => hr) hM
    rw [h2]
    exact h.fwd (fun r hr => hr) (fun r hr => List.mem_append_left _ hr) h1

/-- **C48.** Every disjunction that remains lies in one component, and exactly the components of those disjunctions are recorded as not head cycle free. No new rule is a constraint; the redundant
rules are normal. -/
theorem C48_heads : (∀ r ∈ (finalize e n ds).rules, ∃ as, r.head = .disj as ∧ as ≠ [] ∧ (2 ≤ as.length → ∃ c ∈ (finalize e n ds).nonHcf, c ≠ noScc ∧ ∀ a ∈ as, e.scc a = c)) ∧
    (∀ c ∈ (finalize e n ds).nonHcf, ∃ r ∈ (finalize e n ds).rules, ∃ as, r.head = .disj as ∧ 2 ≤ as.length ∧ ∀ a ∈ as, e.scc a = c) ∧
    ∀ r ∈ (finalize e n ds).gammas, ∃ a, r.head = .disj [a] := by
  obtain ⟨h1, h2, h3⟩ := finalize_hcf (e := e) (n := n) (ds := ds)
  refine ⟨h2, fun c hc => ?_, h3⟩
  obtain ⟨r, hr, as, k1, k2, k3⟩ := h1 c hc
  exact ⟨r, hr, as, k1, k2, k3.2⟩

/-- **C48.** The new atoms get the right components without computing components anew: atoms of the shifted program, old or new, that depend on each other have the same component. -/
theorem C48_comps (ok : InOk e n R ds) (hc : CompsOk e R ds) {a b : Nat} (hab : a ≠ b) (h1 : TransGen (Dep' R (finalize e n ds)) a b) (h2 : TransGen (Dep' R (finalize e n ds)) b a) :
    sccOf e (finalize e n ds).aux a ≠ noScc ∧ sccOf e (finalize e n ds).aux b = sccOf e (finalize e n ds).aux a := by
  obtain ⟨T, ht⟩ := finalize_tr (e := e) (n := n) (ds := ds)
  exact comps' ok hc ht hab h1 h2

end

/-! ### The hypotheses can be met -/

namespace Ex

/-- Example: literals. -/
def p (a : Nat) : BLit := ⟨a, false⟩
/-- Example: literals. -/
def m (a : Nat) : BLit := ⟨a, true⟩

/-- Example: `1 :- 2. 2 :- 1. {4}. {5}. 7.  :- 6.` -/
def R : List Rule := [⟨.disj [1], .conj [p 2]⟩, ⟨.disj [2], .conj [p 1]⟩, ⟨.choice [4, 5], .conj []⟩, ⟨.disj [7], .conj []⟩, ⟨.disj [], .conj [p 6]⟩]

/-- Example: `1 | 2 | 3 | 6 :- 4, not 5.  1 | 2 | 3 | 6 :- 5.` and `3 | 7 :- 4`. -/
def ds : List Disj := [⟨[1, 2, 3, 6], true, [⟨.conj [p 4, m 5], true⟩, ⟨.conj [p 5], true⟩], false⟩, ⟨[3, 7], true, [⟨.conj [p 4], true⟩], true⟩]

/-- Example: `1` and `2` are in a component, `7` is a fact and `6` is false. -/
def e : Env := ⟨id, fun a => a == 7, fun a => a != 6, fun a => if a = 1 ∨ a = 2 then 0 else noScc, false⟩

/-- the dependencies of the example -/
theorem dep_mem {a x : Nat} (h : Dep e R ds a x) : (a = 1 ∧ x = 2) ∨ (a = 2 ∧ x = 1) := by
  obtain ⟨ga, gx, h⟩ := h
  have g4 : Given R 4 := ⟨⟨.choice [4, 5], .conj []⟩, by simp [R], rfl, .inr ⟨[4, 5], rfl, by simp⟩⟩
  have g5 : Given R 5 := ⟨⟨.choice [4, 5], .conj []⟩, by simp [R], rfl, .inr ⟨[4, 5], rfl, by simp⟩⟩
  rcases h with ⟨r, hr, ha, hx⟩ | ⟨d, hd, _, _, _, s, hs, _, hx⟩
  · simp only [R, List.mem_cons, List.not_mem_nil, or_false] at hr
    rcases hr with rfl | rfl | rfl | rfl | rfl <;> simp [Head.atoms, Body.lits, p] at ha hx
    · exact .inl ⟨ha, hx⟩
    · exact .inr ⟨ha, hx⟩
  · exfalso
    simp only [ds, List.mem_cons, List.not_mem_nil, or_false] at hd
    rcases hd with rfl | rfl
    · simp only [List.mem_cons, List.not_mem_nil, or_false] at hs
      rcases hs with rfl | rfl <;> simp [Body.lits, p, m] at hx <;> subst hx
      · exact gx g4
      · exact gx g5
    · simp only [List.mem_cons, List.not_mem_nil, or_false] at hs
      rcases hs with rfl
      simp [Body.lits, p] at hx
      subst hx; exact gx g4

theorem path_mem {a b : Nat} (h : TransGen (Dep e R ds) a b) : (a = 1 ∨ a = 2) ∧ (b = 1 ∨ b = 2) := by
  induction h with
  | single h => rcases dep_mem h with ⟨rfl, rfl⟩ | ⟨rfl, rfl⟩ <;> simp
  | tail _ h ih => rcases dep_mem h with ⟨rfl, rfl⟩ | ⟨rfl, rfl⟩ <;> simp [ih.1]

theorem inOk : InOk e 8 R ds where
  below := by
    intro r hr
    simp only [R, List.mem_cons, List.not_mem_nil, or_false] at hr
    rcases hr with rfl | rfl | rfl | rfl | rfl <;> simp [Rule.below, Head.atoms, Body.lits, p]
  nonneg := by
    intro r hr
    simp only [R, List.mem_cons, List.not_mem_nil, or_false] at hr
    rcases hr with rfl | rfl | rfl | rfl | rfl <;> trivial
  disj := by
    intro d hd
    simp only [ds, List.mem_cons, List.not_mem_nil, or_false] at hd
    rcases hd with rfl | rfl
    · exact ⟨by simp [e], by simp [e], by
        intro s hs
        simp only [List.mem_cons, List.not_mem_nil, or_false] at hs
        rcases hs with rfl | rfl <;> simp [Body.lits, p, m, Body.nonneg]⟩
    · exact ⟨by simp [e], by simp [e], by
        intro s hs
        simp only [List.mem_cons, List.not_mem_nil, or_false] at hs
        rcases hs with rfl
        simp [Body.lits, p, Body.nonneg]⟩
  fact := by
    intro d hd a _ hf
    simp only [e, id, beq_iff_eq] at hf
    subst hf
    simp [R, e]
  upper := by
    intro d hd a _ hf
    have : a = 6 := by simpa [e] using hf
    subst this
    simp [R, e, p]
  dead := by
    intro d hd s hs h
    simp only [ds, List.mem_cons, List.not_mem_nil, or_false] at hd
    rcases hd with rfl | rfl <;> simp only [List.mem_cons, List.not_mem_nil, or_false] at hs
    · rcases hs with rfl | rfl <;> simp at h
    · subst hs; simp at h
  some := by
    intro d hd _
    simp only [ds, List.mem_cons, List.not_mem_nil, or_false] at hd
    rcases hd with rfl | rfl
    · exact ⟨1, by simp, by simp [e]⟩
    · exact ⟨3, by simp, by simp [e]⟩
  comps := by
    intro a b _ h1 _
    obtain ⟨h1, h2⟩ := path_mem h1
    have h0 : (0 : Nat) ≠ noScc := by decide
    rcases h1 with rfl | rfl <;> rcases h2 with rfl | rfl <;> exact ⟨h0, rfl⟩

theorem not_given1 : ¬ Given R 1 := by
  rintro ⟨r, hr, hb, hh⟩
  simp only [R, List.mem_cons, List.not_mem_nil, or_false] at hr
  rcases hr with rfl | rfl | rfl | rfl | rfl <;> simp at hb hh

theorem not_given2 : ¬ Given R 2 := by
  rintro ⟨r, hr, hb, hh⟩
  simp only [R, List.mem_cons, List.not_mem_nil, or_false] at hr
  rcases hr with rfl | rfl | rfl | rfl | rfl <;> simp at hb hh

theorem compsOk : CompsOk e R ds where
  cyc := fun a h => by
    rcases (path_mem h).1 with rfl | rfl <;> exact (by decide : (0 : Nat) ≠ noScc)
  same := by
    intro a b hab ha hb
    have h1 : a = 1 ∨ a = 2 := by
      by_contra hn
      exact ha (by show (if a = 1 ∨ a = 2 then 0 else noScc) = noScc; rw [if_neg hn])
    have h2 : b = 1 ∨ b = 2 := by
      by_contra hn
      exact ha (by rw [← hb]; show (if b = 1 ∨ b = 2 then 0 else noScc) = noScc; rw [if_neg hn])
    have d1 : Dep e R ds 1 2 := ⟨not_given1, not_given2, .inl ⟨⟨.disj [1], .conj [p 2]⟩, by simp [R], by simp [Head.atoms], by simp [Body.lits, p]⟩⟩
    have d2 : Dep e R ds 2 1 := ⟨not_given2, not_given1, .inl ⟨⟨.disj [2], .conj [p 1]⟩, by simp [R], by simp [Head.atoms], by simp [Body.lits, p]⟩⟩
    rcases h1 with rfl | rfl <;> rcases h2 with rfl | rfl
    · exact absurd rfl hab
    · exact .single d1
    · exact .single d2
    · exact absurd rfl hab
  given := by
    intro a hg
    by_contra hn
    have : a = 1 ∨ a = 2 := by
      by_contra h
      exact hn (by show (if a = 1 ∨ a = 2 then 0 else noScc) = noScc; rw [if_neg h])
    rcases this with rfl | rfl
    · exact not_given1 hg
    · exact not_given2 hg
  front := by
    intro d hd s hs x hx
    simp only [ds, List.mem_cons, List.not_mem_nil, or_false] at hd
    rcases hd with rfl | rfl
    · simp only [List.mem_cons, List.not_mem_nil, or_false] at hs
      rcases hs with rfl | rfl
      · have : x = 4 := by simpa [Body.lits, p, m] using hx
        subst this; simp [Body.lits, p, m]
      · have : x = 5 := by simpa [Body.lits, p, m] using hx
        subst this; simp [Body.lits, p]
    · simp only [List.mem_cons, List.not_mem_nil, or_false] at hs
      subst hs
      have : x = 4 := by simpa [Body.lits, p, m] using hx
      subst this; simp [Body.lits, p]

/-- The first disjunction becomes `8 :- 4, not 5.  8 :- 5.  1 | 2 :- 8, not 3.  3 :- 8, not 1, not 2.` and the redundant rules `1 :- 8, not 3, not 2.  2 :- 8, not 3, not 1`;
the second one is dropped, because `7` is a fact. -/
example : finalize e 8 ds = ⟨9, [⟨.disj [8], .conj [p 4, m 5]⟩, ⟨.disj [8], .conj [p 5]⟩, ⟨.disj [1, 2], .conj [p 8, m 3]⟩, ⟨.disj [3], .conj [p 8, m 1, m 2]⟩],
    [⟨.disj [1], .conj [p 8, m 3, m 2]⟩, ⟨.disj [2], .conj [p 8, m 3, m 1]⟩], [(8, noScc)], [0]⟩ := by decide

example : SameModels 8 (R ++ disjRules e ds) (R ++ (finalize e 8 ds).rules ++ (finalize e 8 ds).gammas) := C48_models inOk
example (M : AtomSet) : Stable (R ++ (finalize e 8 ds).rules) M ↔ Stable (R ++ (finalize e 8 ds).rules ++ (finalize e 8 ds).gammas) M := C48_gamma inOk M
example : ∃ r ∈ (finalize e 8 ds).rules, ∃ as, r.head = .disj as ∧ 2 ≤ as.length ∧ ∀ a ∈ as, e.scc a = 0 := C48_heads.2.1 0 (by decide)
example : sccOf e (finalize e 8 ds).aux 1 ≠ noScc ∧ sccOf e (finalize e 8 ds).aux 2 = sccOf e (finalize e 8 ds).aux 1 :=
  C48_comps inOk compsOk (by decide) (.single ⟨not_given1, not_given2, ⟨.disj [1], .conj [p 2]⟩, List.mem_append_left _ (by simp [R]), by simp [Head.atoms], by simp [Body.lits, p]⟩)
    (.single ⟨not_given2, not_given1, ⟨.disj [2], .conj [p 1]⟩, List.mem_append_left _ (by simp [R]), by simp [Head.atoms], by simp [Body.lits, p]⟩)

end Ex

/-! ### Why the hypotheses are needed -/

/-- Example: the program `1 :- 2. 2 :- 1.` -/
def loopR : List Rule := [⟨.disj [1], .conj [⟨2, false⟩]⟩, ⟨.disj [2], .conj [⟨1, false⟩]⟩]

/-- Example: nothing is known about components. -/
def flatE : Env := ⟨id, fun _ => false, fun _ => true, fun _ => noScc, true⟩

/-- Components matter: if `1 | 2.` is shifted in the program `1 :- 2. 2 :- 1.` as if `1` and `2` did not depend on each other, the stable model is lost. -/
theorem C48_needs_components : Stable (loopR ++ disjRules flatE [⟨[1, 2], true, [⟨.conj [], true⟩], true⟩]) (fun a => a == 1 || a == 2) ∧
    ∀ M, ¬ Stable (loopR ++ (finalize flatE 3 [⟨[1, 2], true, [⟨.conj [], true⟩], true⟩]).rules) M := by
  have e1 : disjRules flatE [⟨[1, 2], true, [⟨.conj [], true⟩], true⟩] = [⟨.disj [1, 2], .conj []⟩] := rfl
  have e2 : (finalize flatE 3 [⟨[1, 2], true, [⟨.conj [], true⟩], true⟩]).rules = [⟨.disj [1], .conj [⟨2, true⟩]⟩, ⟨.disj [2], .conj [⟨1, true⟩]⟩] := rfl
  rw [e1, e2]
  refine ⟨⟨?_, fun X hX hc a ha => ?_⟩, fun M hM => ?_⟩
  · intro r hr
    simp only [loopR, List.mem_append, List.mem_cons, List.not_mem_nil, or_false] at hr
    rcases hr with (rfl | rfl) | rfl <;> simp [Rule.ok]
  · have h1 := hc ⟨.disj [1], .conj [⟨2, false⟩]⟩ (by simp [loopR])
    have h2 := hc ⟨.disj [2], .conj [⟨1, false⟩]⟩ (by simp [loopR])
    have h3 := hc ⟨.disj [1, 2], .conj []⟩ (by simp)
    simp [Rule.ok, Body.holds, BLit.holds] at h1 h2 h3
    simp at ha
    rcases h3 with h3 | h3
    · rcases ha with rfl | rfl
      · exact h3
      · exact h2 h3
    · rcases ha with rfl | rfl
      · exact h1 h3
      · exact h3
  · have g1 := hM.1 ⟨.disj [1], .conj [⟨2, false⟩]⟩ (by simp [loopR])
    have g2 := hM.1 ⟨.disj [2], .conj [⟨1, false⟩]⟩ (by simp [loopR])
    have g3 := hM.1 ⟨.disj [1], .conj [⟨2, true⟩]⟩ (by simp)
    simp [Rule.ok, Body.holds, BLit.holds] at g1 g2 g3
    have h1 : M 1 = true := by
      cases h : M 2 with
      | true => exact g1 h
      | false => exact g3 h
    have h2 := g2 h1
    have := hM.2 (fun _ => false) (fun _ h => by cases h) (fun r hr => by
      simp only [loopR, List.mem_append, List.mem_cons, List.not_mem_nil, or_false] at hr
      rcases hr with (rfl | rfl) | (rfl | rfl) <;> simp [Rule.ok, Body.holds, BLit.holds, h1, h2]) 1 h1
    cases this

end Clasp.Shift
