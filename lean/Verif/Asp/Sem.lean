import Mathlib.Logic.Relation
import Mathlib.Tactic.Push
import Mathlib.Tactic.ByContra

/-!
# Logic programs and their stable models

Specification used by C26, C27, C29 and C30. No code of clasp is modelled in this file: the rules are those of
the input format (aspif), their meaning is the usual one (Gelfond-Lifschitz reduct, choice rules and
weight bodies as in lparse).
-/

namespace Clasp.Asp

/-- Specification: a set of atoms. -/
abbrev AtomSet := Nat → Bool

/-- Specification: an atom or its default negation. -/
structure BLit where
  atom : Nat
  neg : Bool
  deriving DecidableEq, Repr

/-- Specification: a conjunction, or a sum with lower bound. -/
inductive Body
  | conj (ls : List BLit)
  | sum (ls : List (BLit × Int)) (bound : Int)
  deriving DecidableEq, Repr

/-- Specification: a disjunction (empty: integrity constraint) or a choice. -/
inductive Head
  | disj (as : List Nat)
  | choice (as : List Nat)
  deriving DecidableEq, Repr

/-- Specification: a rule. -/
structure Rule where
  head : Head
  body : Body
  deriving DecidableEq, Repr

/-- Specification: positive literals are evaluated in `X`, negative ones in `M`. -/
def BLit.holds (X M : AtomSet) (l : BLit) : Bool := if l.neg then !M l.atom else X l.atom

/-- Specification: the weight of the literals that hold. -/
def wsum (X M : AtomSet) : List (BLit × Int) → Int
  | [] => 0
  | (l, w) :: r => (if l.holds X M then w else 0) + wsum X M r

/-- Specification: the body holds in `X` after the negative literals were evaluated in `M`. -/
def Body.holds (X M : AtomSet) : Body → Bool
  | .conj ls => ls.all (·.holds X M)
  | .sum ls b => decide (b ≤ wsum X M ls)

/-- Specification: `X` satisfies what the reduct of `P` with respect to `M` keeps of a rule: a
disjunctive rule as it is, a choice rule for those head atoms that are in `M`. -/
def Rule.ok (X M : AtomSet) (r : Rule) : Prop :=
  r.body.holds X M = true → match r.head with
    | .disj as => ∃ a ∈ as, X a = true
    | .choice as => ∀ a ∈ as, M a = true → X a = true

/-- Specification: `X` is a model of the reduct of `P` with respect to `M`. -/
def Closed (P : List Rule) (X M : AtomSet) : Prop := ∀ r ∈ P, r.ok X M

/-- Specification: set inclusion. -/
def Sub (X Y : AtomSet) : Prop := ∀ a, X a = true → Y a = true

/-- Specification: `M` is a stable model (answer set) of `P`: a minimal model of the reduct. -/
def Stable (P : List Rule) (M : AtomSet) : Prop := Closed P M M ∧ ∀ X, Sub X M → Closed P X M → Sub M X

/-- Specification: the head atoms of a rule. -/
def Head.atoms : Head → List Nat
  | .disj as => as
  | .choice as => as

/-- Specification: `M` is a supported model of a program without proper disjunctions. -/
def Supported (P : List Rule) (M : AtomSet) : Prop :=
  Closed P M M ∧ ∀ a, M a = true → ∃ r ∈ P, a ∈ r.head.atoms ∧ r.body.holds M M = true

/-- Specification: the literals of a body. -/
def Body.lits : Body → List BLit
  | .conj ls => ls
  | .sum ls _ => ls.map Prod.fst

/-- Specification: no weight is negative. -/
def Body.nonneg : Body → Prop
  | .conj _ => True
  | .sum ls _ => ∀ x ∈ ls, 0 ≤ x.2

/-- Specification: the rule has at most one atom in a disjunctive head. -/
def Rule.simpleHead (r : Rule) : Prop := match r.head with
  | .disj as => as.length ≤ 1
  | .choice _ => True

/-! ### Facts about the specification -/

theorem BLit.holds_mono {X Y M : AtomSet} (h : Sub X Y) (l : BLit) (hl : l.holds X M = true) : l.holds Y M = true := by
  unfold BLit.holds at *
  by_cases hn : l.neg = true
  · rw [if_pos hn] at *; exact hl
  · rw [if_neg hn] at *; exact h _ hl

theorem wsum_mono {X Y M : AtomSet} (h : Sub X Y) : ∀ (ls : List (BLit × Int)), (∀ x ∈ ls, 0 ≤ x.2) → wsum X M ls ≤ wsum Y M ls
  | [], _ => Int.le_refl _
  | (l, w) :: r, hw => by
    have ih := wsum_mono (M := M) h r fun x hx => hw x (List.mem_cons_of_mem _ hx)
    have h0 : 0 ≤ w := hw (l, w) (by simp)
    unfold wsum
    by_cases h1 : l.holds X M = true
    · rw [if_pos h1, if_pos (l.holds_mono h h1)]; omega
    · rw [if_neg h1]
      split <;> omega

theorem Body.holds_mono {X Y M : AtomSet} (h : Sub X Y) (b : Body) (hw : b.nonneg) (hb : b.holds X M = true) : b.holds Y M = true := by
  cases b with
  | conj ls =>
    simp only [Body.holds, List.all_eq_true] at *
    exact fun l hl => l.holds_mono h (hb l hl)
  | sum ls b =>
    simp only [Body.holds, decide_eq_true_eq] at *
    have := wsum_mono (M := M) h ls hw
    omega

theorem wsum_congr {X Y M N : AtomSet} : ∀ (ls : List (BLit × Int)), (∀ x ∈ ls, x.1.holds X M = x.1.holds Y N) → wsum X M ls = wsum Y N ls
  | [], _ => rfl
  | (l, w) :: r, h => by
    have e : l.holds X M = l.holds Y N := h (l, w) (by simp)
    unfold wsum
    rw [e, wsum_congr r fun x hx => h x (List.mem_cons_of_mem _ hx)]

/-- the truth of a body depends on its literals only -/
theorem Body.holds_congr {X Y M N : AtomSet} (b : Body) (h : ∀ l ∈ b.lits, l.holds X M = l.holds Y N) : b.holds X M = b.holds Y N := by
  cases b with
  | conj ls =>
    simp only [Body.holds]
    exact Bool.eq_iff_iff.2 (by
      simp only [List.all_eq_true]
      exact ⟨fun g l hl => by rw [← h l hl]; exact g l hl, fun g l hl => by rw [h l hl]; exact g l hl⟩)
  | sum ls b =>
    simp only [Body.holds]
    rw [wsum_congr ls fun x hx => h x.1 (List.mem_map.2 ⟨x, hx, rfl⟩)]

/-- A stable model is supported. -/
theorem Stable.supported {P : List Rule} {M : AtomSet} (hP : ∀ r ∈ P, r.simpleHead ∧ r.body.nonneg) (h : Stable P M) : Supported P M := by
  refine ⟨h.1, fun a ha => ?_⟩
  by_contra hc
  push Not at hc
  have hsub : Sub (fun b => M b && b != a) M := fun b hb => (Bool.and_eq_true _ _ ▸ hb).1
  have := h.2 (fun b => M b && b != a) hsub ?_ a ha
  · simp at this
  · intro r hr hb
    obtain ⟨hs, hw⟩ := hP r hr
    have hb' := r.body.holds_mono hsub hw hb
    have hna : a ∉ r.head.atoms := fun hin => by
      have := hc r hr hin
      rw [hb'] at this; exact this rfl
    have hok := h.1 r hr hb'
    cases hh : r.head with
    | disj as =>
      rw [hh] at hok hna
      obtain ⟨b, hb1, hb2⟩ := hok
      exact ⟨b, hb1, by simp only [Bool.and_eq_true, bne_iff_ne]; exact ⟨hb2, fun e => hna (e ▸ hb1)⟩⟩
    | choice as =>
      rw [hh] at hna
      intro b hb1 hb2
      simp only [Bool.and_eq_true, bne_iff_ne]
      exact ⟨hb2, fun e => hna (e ▸ hb1)⟩

/-- Specification: `a` is in the head of a rule with `b` in its positive body. -/
def PosDep (P : List Rule) (b a : Nat) : Prop := ∃ r ∈ P, a ∈ r.head.atoms ∧ ⟨b, false⟩ ∈ r.body.lits

/-- A supported model is stable if its atoms depend on each other in a well-founded way. Only rules
whose body holds matter. -/
theorem Supported.stable {P : List Rule} {M : AtomSet} (hP : ∀ r ∈ P, r.simpleHead)
    (hwf : WellFounded fun b a => ∃ r ∈ P, a ∈ r.head.atoms ∧ r.body.holds M M = true ∧ M a = true ∧ M b = true ∧ ⟨b, false⟩ ∈ r.body.lits)
    (h : Supported P M) : Stable P M := by
  refine ⟨h.1, fun X hX hc a => ?_⟩
  induction a using hwf.induction with
  | _ a ih =>
    intro ha
    obtain ⟨r, hr, hin, hb⟩ := h.2 a ha
    have hb' : r.body.holds X M = true := by
      rw [← hb]
      refine r.body.holds_congr fun l hl => ?_
      unfold BLit.holds
      by_cases hn : l.neg = true
      · rw [if_pos hn, if_pos hn]
      · rw [if_neg hn, if_neg hn]
        cases hm : M l.atom with
        | false =>
          cases hx : X l.atom with
          | false => rfl
          | true => rw [hX _ hx] at hm; cases hm
        | true =>
          refine ih l.atom ⟨r, hr, hin, hb, ha, hm, ?_⟩ hm
          have : l = ⟨l.atom, false⟩ := by cases l; simp at hn; simp [hn]
          rw [← this]; exact hl
    have hok := hc r hr hb'
    have hs := hP r hr
    unfold Rule.simpleHead at hs
    cases hh : r.head with
    | disj as =>
      rw [hh] at hok hs hin
      obtain ⟨b, hb1, hb2⟩ := hok
      dsimp only [Head.atoms] at hin hs
      match as, hs, hin, hb1 with
      | [c], _, hin, hb1 =>
        simp only [List.mem_singleton] at hin hb1
        rw [hin, ← hb1]; exact hb2
    | choice as =>
      rw [hh] at hok hin
      exact hok a hin ha

end Clasp.Asp
