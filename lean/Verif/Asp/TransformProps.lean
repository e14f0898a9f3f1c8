import Verif.Asp.TransformRule

/-!
# C26: translating extended rules preserves stable models

The theorems are about `transform`, `translate` (Transform.lean) and the specification of stable models in Sem.lean. `SameModels n P Q` (TransformLem.lean)
says that the stable models of `P` and `Q` correspond one to one and agree on the atoms below `n`.
-/

namespace Clasp.Asp

section
variable {s : Strategy} {r : Rule} {aux : List Nat} {next : Nat} {P : List Rule}

/-- The transformation of a rule succeeds exactly if the rule is valid; otherwise the exception "invalid weight rule" is thrown. No array is accessed out of
bounds, no assertion fails, and the loops end. -/
theorem C26_defined (hnext : next ≠ 0) (hr : r.below next) (h0 : ∀ a ∈ r.head.atoms, a ≠ 0) (haux : ∀ a ∈ aux, a = 0) (hd : ¬ r.properDisj) :
    (r.valid → ∃ t, transform s r aux next = .ok t) ∧ (¬ r.valid → transform s r aux next = .error .invalid) := by
  refine ⟨fun hv => ?_, fun hv => ?_⟩
  · obtain ⟨t, e, _⟩ := transform_spec (s := s) hnext hr h0 haux hv hd
    exact ⟨t, e⟩
  · obtain ⟨hd', body⟩ := r
    cases body with
    | conj ls => exact absurd trivial hv
    | sum ls b =>
      have hv' : ∀ h m, transformSum s h b ls aux m = .error .invalid := fun h m => transformSum_invalid hv
      unfold transform
      simp only [hv']
      split <;> rfl

theorem valid_of_ok {t : TRes} (hnext : next ≠ 0) (hr : r.below next) (h0 : ∀ a ∈ r.head.atoms, a ≠ 0) (haux : ∀ a ∈ aux, a = 0) (hd : ¬ r.properDisj)
    (ht : transform s r aux next = .ok t) : r.valid := by
  by_contra hv
  rw [(C26_defined hnext hr h0 haux hd).2 hv] at ht
  cases ht

theorem Ext.or_self {R : List Rule} (hP : ∀ q ∈ P, q.below next) (hr : r.below next) (h : (∃ E, Ext next r R E) ∨ R = [r]) : SameModels next (P ++ [r]) (P ++ R) := by
  rcases h with ⟨E, h⟩ | rfl
  · exact h.same hP hr
  · refine SameModels.refl fun q hq => ?_
    rcases List.mem_append.1 hq with hq | hq
    · exact hP q hq
    · rw [List.mem_singleton.1 hq]; exact hr

/-- Replacing a choice rule, a cardinality rule or a weight rule by the rules of its translation does not change the stable models, in any program, for every
strategy. -/
theorem C26_rule {t : TRes} (hnext : next ≠ 0) (hP : ∀ q ∈ P, q.below next) (hr : r.below next) (h0 : ∀ a ∈ r.head.atoms, a ≠ 0) (haux : ∀ a ∈ aux, a = 0)
    (hd : ¬ r.properDisj) (ht : transform s r aux next = .ok t) : SameModels next (P ++ [r]) (P ++ t.rules) := by
  obtain ⟨t', e, _, _, g⟩ := transform_spec (s := s) hnext hr h0 haux (valid_of_ok hnext hr h0 haux hd ht) hd
  rw [ht] at e; cases e
  exact Ext.or_self hP hr g

/-- The rules of the translation are normal rules; only the head of a rule that has a sum as body and a choice or a disjunction as head is kept. They use no atoms but
the old ones and the new ones, and the translator can be used again. -/
theorem C26_normal {t : TRes} (hnext : next ≠ 0) (hr : r.below next) (h0 : ∀ a ∈ r.head.atoms, a ≠ 0) (haux : ∀ a ∈ aux, a = 0) (hd : ¬ r.properDisj)
    (ht : transform s r aux next = .ok t) :
    (∀ q ∈ t.rules, q.plain ∨ (q.head = r.head ∧ ∃ ls, q.body = .conj ls)) ∧ next ≤ t.next ∧ (∀ q ∈ t.rules, q.below t.next) ∧ ∀ a ∈ t.aux, a = 0 := by
  obtain ⟨t', e, g1, g2, _⟩ := transform_spec (s := s) hnext hr h0 haux (valid_of_ok hnext hr h0 haux hd ht) hd
  rw [ht] at e; cases e
  exact ⟨g2, g1.1, g1.2.2, g1.2.1⟩

/-- A choice rule with a normal body is replaced by normal rules only. -/
theorem C26_choice_normal {as : List Nat} {cond : List BLit} {t : TRes} (has : as ≠ []) (ht : transform s ⟨.choice as, .conj cond⟩ aux next = .ok t) :
    ∀ q ∈ t.rules, q.plain := by
  cases as with
  | nil => exact absurd rfl has
  | cons a b =>
    rw [transform_choice] at ht
    split at ht <;> cases ht
    · intro q hq
      rcases List.mem_cons.1 hq with rfl | hq
      · exact mkRule_plain
      · exact choice_plain q hq
    · exact choice_plain

/-- Without new atoms if asked for: the strategy `noAux` for a rule with a sum as body and at most one head atom. -/
theorem C26_noAux {h : Nat} {ls : List (BLit × Int)} {bound : Int} {t : TRes} (ht : transformSum .noAux h bound ls aux next = .ok t) : t.next = next := by
  unfold transformSum at ht
  split at ht
  · cases ht
  · simp only [] at ht
    split at ht
    · cases ht; rfl
    · split at ht
      · cases ht; rfl
      · split at ht
        · cases ht
        · split at ht
          · cases ht; rfl
          · rw [if_pos (.inl trivial)] at ht
            split at ht
            · cases ht
            · cases ht; rfl

end

/-! ### Whole programs -/

section
variable {m : Mode}

/-- Specification: what is required of the rules of a program with atoms below `next`. -/
def Rule.inOk (next : Nat) (r : Rule) : Prop := r.below next ∧ (∀ a ∈ r.head.atoms, a ≠ 0) ∧ r.body.nonneg ∧ r.valid

theorem Rule.inOk.mono {n n' : Nat} {r : Rule} (h : r.inOk n) (hn : n ≤ n') : r.inOk n' := ⟨h.1.mono hn, h.2⟩

theorem native_disj {r : Rule} (h : handleNatively m r ≠ true) : ¬ r.properDisj := by
  intro hp
  apply h
  obtain ⟨hd, body⟩ := r
  unfold Rule.properDisj at hp
  cases hd with
  | choice as => cases body <;> exact hp.elim
  | disj as => cases body with
    | sum => exact hp.elim
    | conj ls => simp [handleNatively, Rule.isNormal]

theorem extendRule_spec {r : Rule} {aux : List Nat} {next : Nat} (hnext : next ≠ 0) (hr : r.inOk next) (haux : ∀ a ∈ aux, a = 0) (hd : ¬ r.properDisj) :
    ∃ t, extendRule m r aux next = .ok t ∧ t.Fine next ∧ ∀ P : List Rule, (∀ q ∈ P, q.below next) → SameModels next (P ++ [r]) (P ++ t.rules) := by
  obtain ⟨hr, h0, hnn, hv⟩ := hr
  unfold extendRule
  split
  · obtain ⟨t, e, g1, _, g2⟩ := transform_spec (s := .dflt) hnext hr h0 haux hv hd
    exact ⟨t, e, g1, fun P hP => Ext.or_self hP hr g2⟩
  · next hc =>
    obtain ⟨hd', body⟩ := r
    cases body with
    | conj ls => exact absurd (.inl rfl) hc
    | sum ls bound =>
      simp only []
      have hls : ∀ x ∈ ls, x.1.atom < next := fun x hx => hr.2 x.1 (List.mem_map.2 ⟨x, hx, rfl⟩)
      -- the new atom for the body
      have hext : ∀ P : List Rule, (∀ q ∈ P, q.below next) → SameModels next (P ++ [⟨hd', .sum ls bound⟩])
          (P ++ [⟨hd', .conj [⟨next, false⟩]⟩, ⟨.disj [next], .sum ls bound⟩]) := by
        intro P hP
        have hsim : Sim next (next + 1) (next + 1) (fun X M => bound ≤ wsum X M ls) next [⟨.disj [next], .sum ls bound⟩] (fun _ _ _ => false) := by
          refine Sim.plain hls hnn fun X M => ?_
          rw [closed_single]
          have := head_ok (X := X) (M := M) (h := next) (ls := ls) (bound := bound)
          simp only [headOf, if_neg hnext] at this
          exact this
        exact (hsim.extAux hnext hr.1).same hP hr
      have hb1 : Rule.below (next + 1) ⟨.disj [next], .sum ls bound⟩ :=
        ⟨fun a ha => by simp [Head.atoms] at ha; omega, fun l hl => by have := hr.2 l hl; omega⟩
      have hb2 : Rule.below (next + 1) ⟨hd', .conj [⟨next, false⟩]⟩ :=
        ⟨fun a ha => by have := hr.1 a ha; omega, fun l hl => by simp [Body.lits] at hl; simp [hl]⟩
      -- the rule for the new atom
      have step1 : ∃ t1, (if handleNatively m ⟨.disj [next], .sum ls bound⟩ then .ok ⟨[⟨.disj [next], .sum ls bound⟩], next + 1, aux⟩ else
          transform (if transformNoAux ⟨.disj [next], .sum ls bound⟩ then .noAux else .dflt) ⟨.disj [next], .sum ls bound⟩ aux (next + 1) : Except TFail TRes) = .ok t1 ∧
          t1.Fine (next + 1) ∧ ∀ P : List Rule, (∀ q ∈ P, q.below (next + 1)) → SameModels (next + 1) (P ++ [⟨.disj [next], .sum ls bound⟩]) (P ++ t1.rules) := by
        split
        · refine ⟨_, rfl, ⟨Nat.le_refl _, haux, fun q hq => by rw [List.mem_singleton.1 hq]; exact hb1⟩, fun P hP => ?_⟩
          exact Ext.or_self hP hb1 (.inr rfl)
        · obtain ⟨t, e, g1, _, g2⟩ := transform_spec (s := if transformNoAux ⟨.disj [next], .sum ls bound⟩ then .noAux else .dflt) (next := next + 1) (by omega) hb1
            (fun a ha => by simp [Head.atoms] at ha; omega) haux (show Rule.valid ⟨.disj [next], .sum ls bound⟩ from hv) (fun h => h)
          exact ⟨t, e, g1, fun P hP => Ext.or_self hP hb1 g2⟩
      obtain ⟨t1, e1, ⟨f1, f2, f3⟩, g1⟩ := step1
      rw [e1]
      simp only []
      have step2 : ∃ t2, (if handleNatively m ⟨hd', .conj [⟨next, false⟩]⟩ then .ok ⟨[⟨hd', .conj [⟨next, false⟩]⟩], t1.next, t1.aux⟩ else
          transform .dflt ⟨hd', .conj [⟨next, false⟩]⟩ t1.aux t1.next : Except TFail TRes) = .ok t2 ∧
          t2.Fine t1.next ∧ ∀ P : List Rule, (∀ q ∈ P, q.below t1.next) → SameModels t1.next (P ++ [⟨hd', .conj [⟨next, false⟩]⟩]) (P ++ t2.rules) := by
        split
        · refine ⟨_, rfl, ⟨Nat.le_refl _, f2, fun q hq => by rw [List.mem_singleton.1 hq]; exact hb2.mono f1⟩, fun P hP => ?_⟩
          exact Ext.or_self hP (hb2.mono f1) (.inr rfl)
        · next hnat =>
          obtain ⟨t, e, g1, _, g2⟩ := transform_spec (s := .dflt) (next := t1.next) (r := ⟨hd', .conj [⟨next, false⟩]⟩) (by omega) (hb2.mono f1)
            h0 f2 trivial (native_disj hnat)
          exact ⟨t, e, g1, fun P hP => Ext.or_self hP (hb2.mono f1) g2⟩
      obtain ⟨t2, e2, ⟨k1, k2, k3⟩, g2⟩ := step2
      rw [e2]
      refine ⟨_, rfl, ⟨by simp only []; omega, k2, fun q hq => ?_⟩, fun P hP => ?_⟩
      · rcases List.mem_append.1 hq with hq | hq
        · exact (f3 q hq).mono k1
        · exact k3 q hq
      · have a1 := hext P hP
        have hP2 : ∀ q ∈ P ++ [⟨hd', .conj [⟨next, false⟩]⟩], q.below (next + 1) := by
          intro q hq
          rcases List.mem_append.1 hq with hq | hq
          · exact (hP q hq).mono (by omega)
          · rw [List.mem_singleton.1 hq]; exact hb2
        have a2 := g1 (P ++ [⟨hd', .conj [⟨next, false⟩]⟩]) hP2
        have hP3 : ∀ q ∈ P ++ t1.rules, q.below t1.next := by
          intro q hq
          rcases List.mem_append.1 hq with hq | hq
          · exact (hP q hq).mono (by omega)
          · exact f3 q hq
        have a3 := g2 (P ++ t1.rules) hP3
        refine ((a1.trans (Nat.le_succ _) (a2.congr (fun q => ?_) (fun q => Iff.rfl))).trans (by omega : next ≤ t1.next) (a3.congr (fun q => ?_) fun q => ?_))
        · simp
        · simp only [List.mem_append, List.mem_cons, List.not_mem_nil, or_false]; tauto
        · simp only [List.mem_append]; tauto

theorem extendAll_spec : ∀ (rs : List Rule) (aux : List Nat) (next : Nat), next ≠ 0 → (∀ r ∈ rs, r.inOk next ∧ ¬ r.properDisj) → (∀ a ∈ aux, a = 0) →
    ∃ t, extendAll m rs aux next = .ok t ∧ next ≤ t.next ∧ ∀ P : List Rule, (∀ q ∈ P, q.below next) → SameModels next (P ++ rs) (P ++ t.rules)
  | [], aux, next, _, _, _ => ⟨_, rfl, Nat.le_refl _, fun P hP => by simpa using SameModels.refl hP⟩
  | r :: rs, aux, next, hnext, hrs, haux => by
    obtain ⟨h1, h2⟩ := hrs r (by simp)
    obtain ⟨t, e, ⟨f1, f2, f3⟩, g⟩ := extendRule_spec (m := m) hnext h1 haux h2
    obtain ⟨t', e', k, g'⟩ := extendAll_spec rs t.aux t.next (by omega) (fun q hq => ⟨(hrs q (by simp [hq])).1.mono f1, (hrs q (by simp [hq])).2⟩) f2
    unfold extendAll
    rw [e]
    simp only []
    rw [e']
    refine ⟨_, rfl, by simp only []; omega, fun P hP => ?_⟩
    have a1 := g (P ++ rs) (fun q hq => by
      rcases List.mem_append.1 hq with hq | hq
      · exact hP q hq
      · exact (hrs q (by simp [hq])).1.1)
    have a2 := g' (P ++ t.rules) (fun q hq => by
      rcases List.mem_append.1 hq with hq | hq
      · exact (hP q hq).mono f1
      · exact f3 q hq)
    have hA : ∀ q, q ∈ P ++ rs ++ [r] ↔ q ∈ P ++ r :: rs := by
      intro q; simp only [List.mem_append, List.mem_cons, List.not_mem_nil, or_false]; tauto
    have hB : ∀ q, q ∈ P ++ rs ++ t.rules ↔ q ∈ P ++ t.rules ++ rs := by
      intro q; simp only [List.mem_append]; tauto
    have hC : ∀ q, q ∈ P ++ t.rules ++ t'.rules ↔ q ∈ P ++ (t.rules ++ t'.rules) := by
      intro q; simp only [List.mem_append]; tauto
    exact (a1.congr hA hB).trans f1 (a2.congr (fun _ => Iff.rfl) hC)

theorem dispatch_spec {r : Rule} {next : Nat} (hnext : next ≠ 0) (hr : r.inOk next) :
    ∃ a b, dispatch m r next = .ok (a, b) ∧ (∀ q ∈ a, q.below next) ∧ (∀ q ∈ b, q = r ∧ ¬ r.properDisj) ∧
      ∀ P : List Rule, (∀ q ∈ P, q.below next) → SameModels next (P ++ [r]) (P ++ (a ++ b)) := by
  unfold dispatch
  split
  · refine ⟨_, _, rfl, by simpa using hr.1, by simp, fun P hP => ?_⟩
    simpa using Ext.or_self hP hr.1 (.inr rfl)
  · next hnat =>
    split
    · next hc =>
      obtain ⟨t, e, g1, _, g2⟩ := transform_spec (s := .noAux) (aux := []) hnext hr.1 hr.2.1 (by simp) hr.2.2.2 (native_disj hnat)
      have ht : t.next = next := by
        obtain ⟨hd, body⟩ := r
        obtain ⟨c1, c2⟩ := hc
        cases hd with
        | choice as => simp [transformNoAux] at c2
        | disj as => cases body with
          | conj ls => simp [transformNoAux] at c2
          | sum ls b =>
            unfold transform at e
            simp only [] at e
            match as, c1, e with
            | [], _, e => exact C26_noAux e
            | [h], _, e => exact C26_noAux e
      rw [e]
      refine ⟨_, _, rfl, fun q hq => ?_, by simp, fun P hP => ?_⟩
      · have := g1.2.2 q hq; rwa [ht] at this
      · simpa using Ext.or_self hP hr.1 g2
    · refine ⟨_, _, rfl, by simp, fun q hq => ⟨List.mem_singleton.1 hq, native_disj hnat⟩, fun P hP => ?_⟩
      simpa using Ext.or_self hP hr.1 (.inr rfl)

theorem dispatchAll_spec {next : Nat} (hnext : next ≠ 0) : ∀ rs : List Rule, (∀ r ∈ rs, r.inOk next) →
    ∃ a b, dispatchAll m next rs = .ok (a, b) ∧ (∀ q ∈ a, q.below next) ∧ (∀ q ∈ b, q.inOk next ∧ ¬ q.properDisj) ∧
      ∀ P : List Rule, (∀ q ∈ P, q.below next) → SameModels next (P ++ rs) (P ++ (a ++ b))
  | [], _ => ⟨_, _, rfl, by simp, by simp, fun P hP => by simpa using SameModels.refl hP⟩
  | r :: rs, h => by
    obtain ⟨a, b, e, h1, h2, h3⟩ := dispatch_spec (m := m) hnext (h r (by simp))
    obtain ⟨a', b', e', h1', h2', h3'⟩ := dispatchAll_spec hnext rs fun q hq => h q (by simp [hq])
    unfold dispatchAll
    rw [e]
    simp only []
    rw [e']
    have hb : ∀ q ∈ b, q.inOk next ∧ ¬ q.properDisj := fun q hq => by
      obtain ⟨rfl, g⟩ := h2 q hq; exact ⟨h q (by simp), g⟩
    refine ⟨_, _, rfl, fun q hq => ?_, fun q hq => ?_, fun P hP => ?_⟩
    · exact (List.mem_append.1 hq).elim (h1 q) (h1' q)
    · exact (List.mem_append.1 hq).elim (hb q) (h2' q)
    · have a1 := h3 (P ++ rs) (fun q hq => by
        rcases List.mem_append.1 hq with hq | hq
        · exact hP q hq
        · exact (h q (by simp [hq])).1)
      have a2 := h3' (P ++ (a ++ b)) (fun q hq => by
        rcases List.mem_append.1 hq with hq | hq
        · exact hP q hq
        · exact (List.mem_append.1 hq).elim (h1 q) fun hq => (hb q hq).1.1)
      refine SameModels.trans (Nat.le_refl _) (a1.congr (fun q => ?_) fun q => ?_) (a2.congr (fun _ => Iff.rfl) fun q => ?_)
      · simp only [List.mem_append, List.mem_cons, List.not_mem_nil, or_false]; tauto
      · simp only [List.mem_append]; tauto
      · simp only [List.mem_append]; tauto

/-- Whatever the mode is for extended rules: the translation of a program succeeds, and the program that is solved has the stable models of the program that was
added. -/
theorem C26_program {rs : List Rule} {next : Nat} (hnext : next ≠ 0) (hrs : ∀ r ∈ rs, r.inOk next) :
    ∃ out, translate m rs next = .ok out ∧ SameModels next rs out := by
  obtain ⟨a, b, e, h1, h2, h3⟩ := dispatchAll_spec (m := m) hnext rs hrs
  obtain ⟨t, e', _, h4⟩ := extendAll_spec (m := m) b [] next hnext h2 (by simp)
  unfold translate
  rw [e]
  simp only []
  rw [e']
  refine ⟨_, rfl, ?_⟩
  have a1 := h3 [] (by simp)
  have a2 := h4 a h1
  simp only [List.nil_append] at a1
  exact a1.trans (Nat.le_refl _) a2

end

/-! ### Disjunctions

A proper disjunction is translated by shifting. That is not an equivalence in general; clasp uses it for components without head cycles only. What always holds is
that nothing is added. -/

section
variable {X M : AtomSet}

theorem disj_mem (lits : List BLit) : ∀ (as pre : List Nat) (r : Rule), r ∈ transformDisjunction lits pre as ↔
    ∃ l a r', as = l ++ a :: r' ∧ r = mkRule a (lits ++ (pre ++ l).map (⟨·, true⟩) ++ r'.map (⟨·, true⟩))
  | [], pre, r => by simp [transformDisjunction]
  | a :: as, pre, r => by
    unfold transformDisjunction
    rw [List.mem_cons, disj_mem lits as (pre ++ [a]) r]
    constructor
    · rintro (rfl | ⟨l, b, r', rfl, rfl⟩)
      · exact ⟨[], a, as, rfl, by simp⟩
      · exact ⟨a :: l, b, r', rfl, by simp⟩
    · rintro ⟨l, b, r', h, rfl⟩
      cases l with
      | nil =>
        simp only [List.nil_append, List.cons.injEq] at h
        obtain ⟨rfl, rfl⟩ := h
        left; simp
      | cons c l =>
        simp only [List.cons_append, List.cons.injEq] at h
        obtain ⟨rfl, rfl⟩ := h
        right; exact ⟨l, b, r', rfl, by simp⟩

theorem disj_closed {lits : List BLit} {as : List Nat} (h0 : ∀ a ∈ as, a ≠ 0) : Closed (transformDisjunction lits [] as) X M ↔
    ∀ l a r', as = l ++ a :: r' → lits.all (·.holds X M) = true → (∀ b ∈ l ++ r', M b = false) → X a = true := by
  unfold Closed
  have key : ∀ l a r', as = l ++ a :: r' → ((mkRule a (lits ++ ([] ++ l).map (⟨·, true⟩) ++ r'.map (⟨·, true⟩))).ok X M ↔
      (lits.all (·.holds X M) = true → (∀ b ∈ l ++ r', M b = false) → X a = true)) := by
    intro l a r' he
    rw [mkRule_ok (h0 a (by rw [he]; simp))]
    simp only [List.all_append, List.nil_append, Bool.and_eq_true, List.all_map, List.mem_append]
    have : ∀ l : List Nat, (l.all ((fun x => BLit.holds X M x) ∘ fun x => ⟨x, true⟩) = true) ↔ ∀ b ∈ l, M b = false := by
      intro l; simp [BLit.holds]
    rw [this, this]
    constructor
    · intro h g1 g2; exact h ⟨⟨g1, fun b hb => g2 b (.inl hb)⟩, fun b hb => g2 b (.inr hb)⟩
    · rintro h ⟨⟨g1, g2⟩, g3⟩; exact h g1 fun b hb => hb.elim (g2 b) (g3 b)
  constructor
  · intro h l a r' he
    exact (key l a r' he).1 (h _ ((disj_mem lits as [] _).2 ⟨l, a, r', he, rfl⟩))
  · intro h r hr
    obtain ⟨l, a, r', he, rfl⟩ := (disj_mem lits as [] _).1 hr
    exact (key l a r' he).2 (h l a r' he)

/-- Shifting: each stable model after the translation of a disjunction (without new atom for the body) is a stable model before. -/
theorem C26_disjunction {P : List Rule} {as : List Nat} {cond : List BLit} {aux : List Nat} {next : Nat} {t : TRes} (hlen : 2 ≤ as.length) (h0 : ∀ a ∈ as, a ≠ 0)
    (ht : transform .noAux ⟨.disj as, .conj cond⟩ aux next = .ok t) (hs : Stable (P ++ t.rules) M) : Stable (P ++ [⟨.disj as, .conj cond⟩]) M := by
  have hr : t.rules = transformDisjunction cond [] as := by
    unfold transform at ht
    match as, hlen, ht with
    | a :: b :: c, _, ht => simp at ht; rw [← ht]
  rw [hr] at hs
  obtain ⟨hc, hmin⟩ := hs
  rw [closed_append, disj_closed h0] at hc
  refine ⟨closed_append.2 ⟨hc.1, closed_single.2 fun hb => ?_⟩, fun X hX hcl => hmin X hX ?_⟩
  · by_contra hn'
    have hn : ∀ a ∈ as, ¬ M a = true := fun a ha h => hn' ⟨a, ha, h⟩
    match as, hlen, hn, hc with
    | a :: b :: c, _, hn, hc =>
      have := hc.2 [] a (b :: c) rfl hb fun q hq => by
        have := hn q (by simp only [List.nil_append] at hq; simp only [List.mem_cons] at hq ⊢; exact .inr hq)
        simpa using this
      exact hn a (by simp) this
  · rw [closed_append, closed_single] at hcl
    refine closed_append.2 ⟨hcl.1, (disj_closed h0).2 fun l a r' he hb hno => ?_⟩
    obtain ⟨q, hq, hXq⟩ := hcl.2 hb
    rw [he] at hq
    simp only [List.mem_append, List.mem_cons] at hq
    by_cases hqa : q = a
    · rw [← hqa]; exact hXq
    · have := hno q (by simp only [List.mem_append]; tauto)
      rw [hX q hXq] at this; cases this

end

/-! ### Examples -/

namespace TransformEx

/-- Example: the literal of an atom. -/
def p (a : Nat) : BLit := ⟨a, false⟩

/-- Example: `1 :- 2 {2, 3, not 4, 5}.`, the rule in the comment of the code. -/
def card : Rule := ⟨.disj [1], .sum [(p 2, 1), (p 3, 1), (⟨4, true⟩, 1), (p 5, 1)] 2⟩

/-- Example: a weight rule with different weights and a weight above the bound. -/
def wt : Rule := ⟨.disj [1], .sum [(p 2, 1), (p 3, 9), (⟨4, true⟩, 3), (p 5, 2)] 5⟩

/-- Example: a choice rule with two body literals. -/
def ch : Rule := ⟨.choice [1, 2], .conj [p 3, ⟨4, true⟩]⟩

/-- Example: a choice rule with a sum. -/
def chSum : Rule := ⟨.choice [1, 2], .sum [(p 3, 2), (p 4, 1)] 2⟩

/-- Example: a program that makes the sums recursive. -/
def prg : List Rule := [⟨.choice [3, 4], .conj []⟩, ⟨.disj [2], .conj [p 1]⟩, ⟨.disj [5], .conj [p 3]⟩]

theorem card_in : card.below 6 ∧ (∀ a ∈ card.head.atoms, a ≠ 0) ∧ ¬ card.properDisj := by
  refine ⟨⟨by decide, by decide⟩, by decide, fun h => h⟩
theorem wt_in : wt.below 6 ∧ (∀ a ∈ wt.head.atoms, a ≠ 0) ∧ ¬ wt.properDisj := by
  refine ⟨⟨by decide, by decide⟩, by decide, fun h => h⟩
theorem ch_in : ch.below 6 ∧ (∀ a ∈ ch.head.atoms, a ≠ 0) ∧ ¬ ch.properDisj := by
  refine ⟨⟨by decide, by decide⟩, by decide, fun h => h⟩
theorem prg_in : ∀ q ∈ prg, q.below 6 := by
  intro q hq
  simp only [prg, List.mem_cons, List.not_mem_nil, or_false] at hq
  rcases hq with rfl | rfl | rfl <;> exact ⟨by decide, by decide⟩

/-- the eight rules of the comment in the code -/
example : (transform .allowAux card [] 6).toOption.map (·.rules) = some [mkRule 1 [p 2, p 6], mkRule 1 [p 7], mkRule 6 [p 3], mkRule 6 [p 8],
    mkRule 7 [p 3, p 8], mkRule 7 [⟨4, true⟩, p 5], mkRule 8 [⟨4, true⟩], mkRule 8 [p 5]] := by decide +kernel

/-- the six rules of the comment in the code -/
example : (transform .noAux card [] 6).toOption.map (·.rules) = some [mkRule 1 [p 2, p 3], mkRule 1 [p 2, ⟨4, true⟩], mkRule 1 [p 2, p 5],
    mkRule 1 [p 3, ⟨4, true⟩], mkRule 1 [p 3, p 5], mkRule 1 [⟨4, true⟩, p 5]] := by decide +kernel

example : ∃ t, transform .allowAux card [] 6 = .ok t ∧ SameModels 6 (prg ++ [card]) (prg ++ t.rules) := by
  obtain ⟨h1, h2, h3⟩ := card_in
  obtain ⟨t, ht⟩ := (C26_defined (s := .allowAux) (aux := []) (by decide) h1 h2 (by simp) h3).1 ⟨by decide, by decide⟩
  exact ⟨t, ht, C26_rule (by decide) prg_in h1 h2 (by simp) h3 ht⟩

example : ∃ t, transform .dflt wt [] 6 = .ok t ∧ SameModels 6 (prg ++ [wt]) (prg ++ t.rules) ∧ t.next = 8 := by
  obtain ⟨h1, h2, h3⟩ := wt_in
  obtain ⟨t, ht⟩ := (C26_defined (s := .dflt) (aux := []) (by decide) h1 h2 (by simp) h3).1 ⟨by decide, by decide⟩
  refine ⟨t, ht, C26_rule (by decide) prg_in h1 h2 (by simp) h3 ht, ?_⟩
  have : (transform .dflt wt [] 6).toOption.map (·.next) = some 8 := by decide +kernel
  rw [ht] at this
  simpa [Except.toOption] using this

example : ∃ t, transform .dflt ch [] 6 = .ok t ∧ SameModels 6 (prg ++ [ch]) (prg ++ t.rules) ∧ t.rules.length = 5 ∧ ∀ q ∈ t.rules, q.plain := by
  obtain ⟨h1, h2, h3⟩ := ch_in
  obtain ⟨t, ht⟩ := (C26_defined (s := .dflt) (aux := []) (by decide) h1 h2 (by simp) h3).1 trivial
  refine ⟨t, ht, C26_rule (by decide) prg_in h1 h2 (by simp) h3 ht, ?_, C26_choice_normal (by decide) ht⟩
  have : (transform .dflt ch [] 6).toOption.map (·.rules.length) = some 5 := by decide +kernel
  rw [ht] at this
  simpa [Except.toOption] using this

example : ∃ t, transform .dflt wt [] 6 = .ok t ∧ ∀ q ∈ t.rules, q.plain ∨ (q.head = wt.head ∧ ∃ ls, q.body = .conj ls) := by
  obtain ⟨h1, h2, h3⟩ := wt_in
  obtain ⟨t, ht⟩ := (C26_defined (s := .dflt) (aux := []) (by decide) h1 h2 (by simp) h3).1 ⟨by decide, by decide⟩
  exact ⟨t, ht, (C26_normal (by decide) h1 h2 (by simp) h3 ht).1⟩

example : ∃ t, transformSum .noAux 1 2 [(p 2, 1), (p 3, 1), (p 5, 1)] [] 6 = .ok t ∧ t.rules.length = 3 ∧ t.next = 6 := by
  refine ⟨_, rfl, by decide +kernel, ?_⟩
  exact C26_noAux (aux := []) (next := 6) (h := 1) (bound := 2) (ls := [(p 2, 1), (p 3, 1), (p 5, 1)]) rfl

/-- a negative bound is rejected if there is a literal -/
example : transform .dflt ⟨.disj [1], .sum [(p 2, 1)] (-1)⟩ [] 6 = .error .invalid :=
  (C26_defined (by decide) ⟨by decide, by decide⟩ (by decide) (by simp) (show ¬ Rule.properDisj ⟨.disj [1], .sum [(p 2, 1)] (-1)⟩ from fun h => h)).2 fun h => absurd (h.1 (p 2, 1) (by simp)) (by decide)

/-- Example: a program with a recursive cardinality rule, a weight rule, a choice and a choice with a sum. -/
def all : List Rule := prg ++ [card, wt, ch, chSum]

theorem all_in : ∀ r ∈ all, r.inOk 6 := by
  intro q hq
  simp only [all, prg, List.cons_append, List.nil_append, List.mem_cons, List.not_mem_nil, or_false] at hq
  rcases hq with rfl | rfl | rfl | rfl | rfl | rfl | rfl
  · exact ⟨⟨by decide, by decide⟩, by decide, trivial, trivial⟩
  · exact ⟨⟨by decide, by decide⟩, by decide, trivial, trivial⟩
  · exact ⟨⟨by decide, by decide⟩, by decide, trivial, trivial⟩
  · exact ⟨⟨by decide, by decide⟩, by decide, (show ∀ x ∈ _, _ from by decide), by decide, by decide⟩
  · exact ⟨⟨by decide, by decide⟩, by decide, (show ∀ x ∈ _, _ from by decide), by decide, by decide⟩
  · exact ⟨⟨by decide, by decide⟩, by decide, trivial, trivial⟩
  · exact ⟨⟨by decide, by decide⟩, by decide, (show ∀ x ∈ _, _ from by decide), by decide, by decide⟩

example (m : Mode) : ∃ out, translate m all 6 = .ok out ∧ SameModels 6 all out := C26_program (by decide) all_in

/-- in mode `transform` nothing but normal rules is left -/
example : ∃ out, translate .transform all 6 = .ok out ∧ out.length = 24 ∧ (out.all fun q => q.isNormal && (match q.head with | .disj as => decide (as.length ≤ 1) | .choice _ => false)) = true := by
  refine ⟨_, rfl, by decide +kernel, by decide +kernel⟩

/-- a disjunction: `1 | 2. 1 :- 2. 2 :- 1.` has the stable model {1, 2}, which is lost by shifting -/
example : Stable ([⟨.disj [1], .conj [p 2]⟩, ⟨.disj [2], .conj [p 1]⟩] ++ [⟨.disj [1, 2], .conj []⟩]) (fun a => decide (a = 1 ∨ a = 2)) ∧
    (transform .noAux ⟨.disj [1, 2], .conj []⟩ [] 3).toOption.map (·.rules) = some [mkRule 1 [⟨2, true⟩], mkRule 2 [⟨1, true⟩]] ∧
    ¬ Stable ([⟨.disj [1], .conj [p 2]⟩, ⟨.disj [2], .conj [p 1]⟩] ++ [mkRule 1 [⟨2, true⟩], mkRule 2 [⟨1, true⟩]]) (fun a => decide (a = 1 ∨ a = 2)) := by
  refine ⟨⟨?_, ?_⟩, by decide, ?_⟩
  · simp [Closed, Rule.ok, Body.holds, BLit.holds, p]
  · intro X hX hc a ha
    simp [Closed, Rule.ok, Body.holds, BLit.holds, p] at hc ha
    rcases ha with rfl | rfl
    · exact hc.2.2.elim id hc.1
    · exact hc.2.2.elim hc.2.1 id
  · rintro ⟨_, h⟩
    have := h (fun _ => false) (fun _ h => by cases h) (by simp [Closed, Rule.ok, Body.holds, BLit.holds, p, mkRule, headOf]) 1 (by decide)
    cases this

/-- a stable model that is kept -/
example : Stable ([] ++ [⟨.disj [1, 2], .conj []⟩]) (fun a => decide (a = 1)) := by
  refine C26_disjunction (t := ⟨[mkRule 1 [⟨2, true⟩], mkRule 2 [⟨1, true⟩]], 3, []⟩) (aux := []) (next := 3) (by decide) (by decide) rfl ⟨?_, ?_⟩
  · simp [Closed, Rule.ok, Body.holds, BLit.holds, mkRule, headOf]
  · intro X hX hc a ha
    simp [Closed, Rule.ok, Body.holds, BLit.holds, mkRule, headOf] at hc ha
    rw [ha]; exact hc

end TransformEx

end Clasp.Asp
