/-
The result of conflict analysis does not depend on the fuel. No code is modelled in this file.
-/
import Verif.Core.Analyze
namespace Clasp.Core

theorem rmLoop_mono {reason : Lit → Ante} {seen lev : Nat → Bool} {p : Lit} : ∀ (fuel k : Nat) (rec : Rec) (todo : List (Lit × Bool)) (poison : Bool) (r : Bool × Rec),
    rmLoop reason seen lev p fuel rec todo poison = some r → rmLoop reason seen lev p (fuel + k) rec todo poison = some r := by
  intro fuel
  induction fuel with
  | zero => intro k rec todo poison r h; simp [rmLoop] at h
  | succ fuel ih =>
    intro k rec todo poison r h
    rw [show fuel + 1 + k = (fuel + k) + 1 by omega]
    match todo with
    | [] => simp [rmLoop] at h
    | (x, fl) :: todo =>
      simp only [rmLoop] at h ⊢
      split at h
      · rename_i h1
        simp only [h1, if_true]
        split at h
        · rename_i h2; simp only [h2, if_true]; exact h
        · rename_i h2; simp only [h2, if_false]; exact ih k _ _ _ _ h
      · rename_i h1
        simp only [h1]
        split at h
        · rename_i h2; rw [if_pos h2]; exact ih k _ _ _ _ h
        · rename_i h2
          simp only [h2]
          grind

theorem ccRemovable_mono {reason : Lit → Ante} {seen lev : Nat → Bool} {fuel k : Nat} {rc : Option Rec} {p : Lit} {r : Bool × Option Rec}
    (h : ccRemovable reason seen lev fuel rc p = some r) : ccRemovable reason seen lev (fuel + k) rc p = some r := by
  unfold ccRemovable at *
  split at h
  · exact h
  · split at h
    · exact h
    · rw [Option.map_eq_some_iff] at h
      obtain ⟨a, h1, h2⟩ := h
      dsimp only
      rw [rmLoop_mono _ k _ _ _ _ h1, ← h2]; rfl

theorem minLoop_mono {reason : Lit → Ante} {seen lev : Nat → Bool} {fuel k : Nat} : ∀ (l : List Lit) (rc : Option Rec) (r : List Lit × List Lit × Option Rec),
    minLoop reason seen lev fuel rc l = some r → minLoop reason seen lev (fuel + k) rc l = some r := by
  intro l
  induction l with
  | nil => intro rc r h; simpa [minLoop] using h
  | cons c l ih =>
    intro rc r h
    simp only [minLoop] at h ⊢
    have := @ccRemovable_mono reason seen lev fuel k
    grind

theorem analyze_mono {cfg : AnaCfg} {fuel k : Nat} {s : St} {r : AnaRes} (h : analyze cfg fuel s = some r) : analyze cfg (fuel + k) s = some r := by
  unfold analyze at *
  split at h
  · simp at h
  · rename_i a p he
    dsimp only at h ⊢
    split at h
    · simp at h
    · rename_i keep rem rc hm
      rw [minLoop_mono (k := k) _ _ _ hm]
      exact h

end Clasp.Core
