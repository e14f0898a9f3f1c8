/- Semantics used in the specifications: total assignments, literals, clauses, nogoods. No code is modelled here. -/
import Verif.Core.Trail
import Mathlib.Tactic.Push
namespace Clasp.Core

/-- A total assignment. -/
abbrev Asg := Nat → Bool

/-- `M` makes `p` true. -/
def Asg.sat (M : Asg) (p : Lit) : Prop := M p.var = p.tv
/-- `M` satisfies a clause. -/
def Asg.satC (M : Asg) (c : List Lit) : Prop := ∃ p ∈ c, M.sat p
/-- `M` makes all literals of a list true. -/
def Asg.all (M : Asg) (c : List Lit) : Prop := ∀ p ∈ c, M.sat p

instance (M : Asg) (p : Lit) : Decidable (M.sat p) := inferInstanceAs (Decidable (_ = _))

@[simp] theorem Asg.sat_neg (M : Asg) (p : Lit) : M.sat p.neg ↔ ¬ M.sat p := by
  cases p with | mk v s => cases s <;> cases h : M v <;> simp [Asg.sat, Lit.neg, Lit.tv, h]

theorem Asg.satC_iff_not_all_neg (M : Asg) (c : List Lit) : M.satC c ↔ ¬ M.all (c.map Lit.neg) := by
  simp only [Asg.satC, Asg.all, List.mem_map, forall_exists_index, and_imp, forall_apply_eq_imp_iff₂, Asg.sat_neg]
  push Not; rfl

theorem Asg.satC_append (M : Asg) (a b : List Lit) : M.satC (a ++ b) ↔ M.satC a ∨ M.satC b := by
  simp only [Asg.satC, List.mem_append, or_and_right, exists_or]

theorem Lit.eq_or_neg {p q : Lit} (h : p.var = q.var) : p = q ∨ p = q.neg := by
  cases p with | mk v s => cases q with | mk w t =>
  simp only at h; subst h
  cases s <;> cases t <;> simp [Lit.neg]

/-- The always true literal (literal.h:143 `lit_true`). -/
def litTrue : Lit := ⟨0, false⟩

/-- The models of the problem (`F`) and those the search still has to visit (`G`): backtracking from a reported model flips
decisions that are consequences of `G` only, while reasons and learnt clauses are consequences of `F`. -/
structure Th where
  F : Asg → Prop
  G : Asg → Prop
  sub : ∀ M, G M → F M

instance : CoeFun Th (fun _ => Asg → Prop) := ⟨Th.F⟩

/-- every model still has to be visited -/
def Th.of (F : Asg → Prop) : Th := ⟨F, F, fun _ h => h⟩

/-- `T'` has fewer models than `T` -/
structure Th.Le (T' T : Th) : Prop where
  f : ∀ M, T'.F M → T.F M
  g : ∀ M, T'.G M → T.G M

end Clasp.Core
