/-
The short implication graph holds exactly the clauses added to it. No code is modelled in this file.
-/
import Verif.Core.WatchLoop
namespace Clasp.Core
namespace Graph

theorem items_bin (G : Graph) (p q r : Lit) (x : Lit × Option Lit) :
    x ∈ (G.pushBin p q).items r ↔ x ∈ G.items r ∨ (r = p ∧ x = (q, none)) := by
  unfold items pushBin
  by_cases h : r = p
  · subst h; simp only [Function.update_self, List.mem_append, List.mem_map, List.mem_singleton]
    constructor
    · rintro ((⟨y, hy | rfl, rfl⟩ | h) | h) <;> simp_all
    · rintro (((⟨y, hy, rfl⟩ | h) | h) | ⟨_, rfl⟩) <;> simp_all
  · simp [h]

theorem items_tern (G : Graph) (p q q' r : Lit) (x : Lit × Option Lit) :
    x ∈ (G.pushTern p q q').items r ↔ x ∈ G.items r ∨ (r = p ∧ x = (q, some q')) := by
  unfold items pushTern
  by_cases h : r = p
  · subst h; simp only [Function.update_self, List.mem_append, List.mem_map, List.mem_singleton]
    constructor
    · rintro ((h | ⟨y, hy | rfl, rfl⟩) | h) <;> simp_all
    · rintro (((h | ⟨y, hy, rfl⟩) | h) | ⟨_, rfl⟩) <;> simp_all
  · simp [h]

theorem items_learnt (G : Graph) (p q : Lit) (q' : Option Lit) (r : Lit) (x : Lit × Option Lit) :
    x ∈ (G.pushLearnt p q q').items r ↔ x ∈ G.items r ∨ (r = p ∧ x = (q, q')) := by
  unfold items pushLearnt
  by_cases h : r = p
  · subst h; simp only [Function.update_self, List.mem_append, List.mem_map, List.mem_cons, true_and]; generalize (∃ a, a ∈ (G r).bin ∧ (a, none) = x) = A; generalize (∃ a, a ∈ (G r).tern ∧ (a.fst, some a.snd) = x) = B; tauto
  · simp [h]

theorem Lit.neg_inj' {a b : Lit} : a.neg = b.neg ↔ a = b := by
  cases a; cases b; simp [Lit.neg]

/-- The short clauses after adding `{p, q}`. -/
theorem add2_has2 (shared learnt : Bool) (G : Graph) (p q a b : Lit) : (add2 shared learnt G p q).1.has2 a b ↔
    G.has2 a b ∨ ((add2 shared learnt G p q).2 = true ∧ ((a = p ∧ b = q) ∨ (a = q ∧ b = p))) := by
  unfold add2 has2
  cases shared with
  | false =>
    simp only [Bool.not_false, if_true, items_bin, Lit.neg_inj', Prod.mk.injEq, and_true, true_and]; tauto
  | true =>
    simp only [Bool.not_true, Bool.false_eq_true, if_false]
    split
    · simp only [items_learnt, Lit.neg_inj', Prod.mk.injEq, and_true, true_and]; tauto
    · simp

theorem add2_has3 (shared learnt : Bool) (G : Graph) (p q a b c : Lit) : (add2 shared learnt G p q).1.has3 a b c ↔ G.has3 a b c := by
  unfold add2 has3
  cases shared with
  | false =>
    simp only [Bool.not_false, if_true, items_bin, Prod.mk.injEq, reduceCtorEq, and_false, or_false]
  | true =>
    simp only [Bool.not_true, Bool.false_eq_true, if_false]
    split
    · simp only [items_learnt, Prod.mk.injEq, reduceCtorEq, and_false, or_false]
    · rfl

/-- `{a, b, c}` is a permutation of `{p, q, r}` -/
def same3 (p q r a b c : Lit) : Prop := (a = p ∧ ((b = q ∧ c = r) ∨ (b = r ∧ c = q))) ∨ (a = q ∧ ((b = p ∧ c = r) ∨ (b = r ∧ c = p))) ∨
  (a = r ∧ ((b = p ∧ c = q) ∨ (b = q ∧ c = p)))

theorem add3_has3 (shared learnt : Bool) (G : Graph) (p q r a b c : Lit) : (add3 shared learnt G p q r).1.has3 a b c ↔
    G.has3 a b c ∨ ((add3 shared learnt G p q r).2 = true ∧ same3 p q r a b c) := by
  unfold add3 has3 same3
  cases shared with
  | false =>
    simp only [Bool.not_false, if_true, items_tern, Lit.neg_inj', Prod.mk.injEq, Option.some.injEq, true_and]; grind
  | true =>
    simp only [Bool.not_true, Bool.false_eq_true, if_false]
    split
    · simp only [items_learnt, Lit.neg_inj', Prod.mk.injEq, Option.some.injEq, true_and]; grind
    · simp

theorem add3_has2 (shared learnt : Bool) (G : Graph) (p q r a b : Lit) : (add3 shared learnt G p q r).1.has2 a b ↔ G.has2 a b := by
  unfold add3 has2
  cases shared with
  | false =>
    simp only [Bool.not_false, if_true, items_tern, Prod.mk.injEq, reduceCtorEq, and_false, or_false]
  | true =>
    simp only [Bool.not_true, Bool.false_eq_true, if_false]
    split
    · simp only [items_learnt, Prod.mk.injEq, reduceCtorEq, and_false, or_false]
    · rfl

theorem Sym.empty : Sym Graph.empty := by
  constructor <;> intros <;> simp_all [has2, has3, items, Graph.empty]

theorem Sym.add2 {G : Graph} (h : G.Sym) (shared learnt : Bool) (p q : Lit) : (G.add2 shared learnt p q).1.Sym := by
  refine ⟨fun a b hab => ?_, fun a b c habc => ?_⟩
  · rw [add2_has2] at hab ⊢
    rcases hab with h1 | h1
    · exact Or.inl (h.s2 a b h1)
    · right; tauto
  · rw [add2_has3] at habc ⊢; exact h.s3 a b c habc

theorem Sym.add3 {G : Graph} (h : G.Sym) (shared learnt : Bool) (p q r : Lit) : (G.add3 shared learnt p q r).1.Sym := by
  refine ⟨fun a b hab => ?_, fun a b c habc => ?_⟩
  · rw [add3_has2] at hab ⊢; exact h.s2 a b hab
  · rw [add3_has3] at habc ⊢
    rcases habc with h1 | ⟨h1, h2⟩
    · exact Or.inl (h.s3 a b c h1)
    · right; refine ⟨h1, ?_⟩; unfold same3 at *; tauto

theorem Models.add2 {F : Th} {G : Graph} (h : G.Models F) {shared learnt : Bool} {p q : Lit} (hF : ∀ M, F M → M.sat p ∨ M.sat q) :
    (G.add2 shared learnt p q).1.Models F := by
  refine ⟨fun a b hab M hM => ?_, fun a b c habc => ?_⟩
  · rw [add2_has2] at hab
    rcases hab with h1 | ⟨_, ⟨rfl, rfl⟩ | ⟨rfl, rfl⟩⟩
    · exact h.m2 a b h1 M hM
    · exact hF M hM
    · exact (hF M hM).symm
  · rw [add2_has3] at habc; exact h.m3 a b c habc

theorem Models.add3 {F : Th} {G : Graph} (h : G.Models F) {shared learnt : Bool} {p q r : Lit}
    (hF : ∀ M, F M → M.sat p ∨ M.sat q ∨ M.sat r) : (G.add3 shared learnt p q r).1.Models F := by
  refine ⟨fun a b hab => ?_, fun a b c habc M hM => ?_⟩
  · rw [add3_has2] at hab; exact h.m2 a b hab
  · rw [add3_has3] at habc
    rcases habc with h1 | ⟨_, h2⟩
    · exact h.m3 a b c h1 M hM
    · have := hF M hM
      unfold same3 at h2
      rcases h2 with ⟨rfl, ⟨rfl, rfl⟩ | ⟨rfl, rfl⟩⟩ | ⟨rfl, ⟨rfl, rfl⟩ | ⟨rfl, rfl⟩⟩ | ⟨rfl, ⟨rfl, rfl⟩ | ⟨rfl, rfl⟩⟩ <;> tauto

end Graph
end Clasp.Core
