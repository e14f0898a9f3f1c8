import Verif.Opt.UncoreInv
import Mathlib.Tactic.SplitIfs
/-! Helper lemmas for core-guided optimization: adding a core does not change the upper bound. No code is modelled here. -/

namespace Clasp.Uncore
open Clasp.Core (Lit Asg)

theorem addClauses_up (o : Slv) (cs : List (List Lit)) (σ : St) : (addClauses o cs σ).1.up = σ.up := by
  induction cs generalizing σ with
  | nil => rfl
  | cons c cs ih => simp only [addClauses]; split <;> simp [ih, addCon]

theorem addPmrCon_up (o : Slv) (s c σ h a b) : (addPmrCon o s c σ h a b).1.up = σ.up := by
  simp only [addPmrCon, addClauses_up]

theorem pmrLoop_up (o : Slv) (s w ls bp) (σ : St) : (pmrLoop o s w ls bp σ).1.up = σ.up := by
  induction ls generalizing bp σ with
  | nil => rfl
  | cons a ls ih =>
    cases ls with
    | nil => simp [pmrLoop, addPmrCon_up, newLit, newAssumption]
    | cons b ls =>
      simp only [pmrLoop]
      split <;> [skip; split] <;> simp [ih, addPmrCon_up, newLit, newAssumption]

theorem addPmr_up (o : Slv) (s) (σ : St) (ls w) : (addPmr o s σ ls w).1.up = σ.up := by
  unfold addPmr; split <;> simp [pmrLoop_up]

theorem kOuts_up (o : Slv) (w n) (σ : St) (c b) : (kOuts o w n σ c b).1.up = σ.up := by
  induction n generalizing σ c b with
  | zero => rfl
  | succ n ih =>
    simp only [kOuts, ih]
    cases b <;> simp [kLink, addImplication, addCon, newLit, newAssumption]

theorem kGroup_up (o : Slv) (w) (σ : St) (cp xs c) : (kGroup o w σ cp xs c).1.up = σ.up := by
  cases c <;> simp [kGroup, addCon, kOuts_up, newLit]

theorem kLoop_up (o : Slv) (w k f) (σ : St) (cp xs) : (kLoop o w k f σ cp xs).1.up = σ.up := by
  induction f generalizing σ cp xs with
  | zero => rfl
  | succ f ih => simp only [kLoop]; split_ifs <;> simp [ih, kGroup_up]

theorem addK_up (o : Slv) (p) (σ : St) (k ls w) : (addK o p σ k ls w).1.up = σ.up := by
  unfold addK
  split
  · rfl
  · simp only; split <;> [skip; split] <;> simp [kLoop_up, addCon]

theorem addOllCon_up (o : Slv) (s) (σ : St) (c w) : (addOllCon o s σ c w).1.up = σ.up := by
  unfold addOllCon ollBound ollNew
  simp only
  split <;> split <;> simp [St.put, addCon, newLit, newAssumption]

theorem addOll_up (o : Slv) (s) (σ : St) (ls w) : (addOll o s σ ls w).1.up = σ.up := by
  unfold addOll; simp only; split <;> [skip; split] <;> simp [addOllCon_up, fixLit, addCon]

theorem closeCore_up (o : Slv) (σ : St) (i b) : (closeCore o σ i b).1.up = σ.up := by
  unfold closeCore; split <;> [skip; (simp only; split)] <;> simp [fixLit, addCon, St.put]

theorem relaxCore_up (o : Slv) (s) (σ : St) (i) : (relaxCore o s σ i).1.up = σ.up := by
  unfold relaxCore; split <;> [skip; (simp only; split)] <;> simp [closeCore_up, addOllCon_up]

theorem payLit_up (σ : St) (w e) : (payLit σ w e).up = σ.up := by
  unfold payLit; simp only; split <;> [skip; split] <;> simp [St.put]

theorem payCore_up (o : Slv) (s w es) (σ : St) : (payCore o s w es σ).1.up = σ.up := by
  induction es generalizing σ with
  | nil => rfl
  | cons e es ih =>
    simp only [payCore]
    split <;> split <;> simp [ih, relaxCore_up, payLit_up]

theorem newCore_up (o : Slv) (p) (σ : St) (ls w) : (newCore o p σ ls w).1.up = σ.up := by
  unfold newCore; split <;> [skip; split] <;> simp [fixLit, addCon, addOll_up, addK_up, addPmr_up]

theorem addCore_up (o : Slv) (p) (σ : St) (c w b) : (addCore o p σ c w b).1.up = σ.up := by
  unfold addCore; simp only; split_ifs <;> simp [payCore_up, newCore_up]

theorem resetTrim_up (o : Slv) (p) (σ : St) : (resetTrim o p σ).1.up = σ.up := by
  unfold resetTrim; split <;> simp [addCore_up]

theorem addTodo_up (o : Slv) (p cs) (σ : St) : (addTodo o p cs σ).1.up = σ.up := by
  induction cs generalizing σ with
  | nil => rfl
  | cons c cs ih => simp only [addTodo]; split <;> simp [ih, addCore_up]

theorem flushTodo_up (o : Slv) (p) (σ : St) (b) : (flushTodo o p σ b).1.up = σ.up := by
  unfold flushTodo; split <;> [skip; split] <;> simp [resetTrim_up, addTodo_up]

theorem unassume_fields (c : List (Lit × Nat)) (σ : St) : unassume c σ = { σ with dat := (unassume c σ).dat } := by
  induction c generalizing σ with
  | nil => rfl
  | cons e es ih => unfold unassume; rw [ih]; rfl

theorem dropTrim_up (σ : St) : (dropTrim σ).up = σ.up := by unfold dropTrim; split <;> rfl

theorem onCore_up (o : Slv) (p pr) (σ : St) (c b) : (onCore o p pr σ c b).1.up = σ.up := by
  unfold onCore
  simp only
  split <;> [skip; split]
  · rw [unassume_fields]; simp [dropTrim_up]
  · simp [dropTrim_up]
  · simp [resetTrim_up, dropTrim_up]

theorem pathLit_up (o : Slv) (p t e) : (pathLit o p t e).st.up = t.st.up := by
  unfold pathLit
  simp only
  split <;> [skip; split <;> [skip; split <;> [skip; split]]] <;> simp [St.put, fixLit, addCon, addCore_up]

theorem pathLoop_up (o : Slv) (p f t) : (pathLoop o p f t).st.up = t.st.up := by
  induction f generalizing t with
  | zero => rfl
  | succ f ih => simp only [pathLoop]; split <;> [skip; split] <;> simp [ih, pathLit_up]

theorem pathRound_up (o : Slv) (p f σ) : (pathRound o p f σ).1.up = σ.up := by
  simp [pathRound, pathLoop_up]

end Clasp.Uncore
