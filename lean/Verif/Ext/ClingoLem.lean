import Verif.Ext.Clingo
import Mathlib.Tactic.SplitIfs
/-!
# The adaptor for theory propagators: the invariant
-/

namespace Clasp.Clingo
open Clasp.Core (Lit)

/-- Proof device: the undo stack `ms` describes the segments of the adaptor's trail `P`, one for each level of `us` (newest first). -/
inductive Fr (tr : List (Lit × Nat)) : List Nat → List Mark → List Lit → Prop
  | base (P) : (∀ p ∈ P, (p, 0) ∈ tr) → Fr tr [] [] P
  | pos {us ms P P' l} (Q : List Lit) : Fr tr us ms P → P' = P ++ Q → Q ≠ [] → (∀ p ∈ Q, (p, l) ∈ tr) → (∀ x ∈ us, x < l) → 0 < l → Fr tr (l :: us) (.pos P.length :: ms) P'
  | chk {us ms P l v} : Fr tr us ms P → (∃ e ∈ tr, e.1.var = v ∧ e.2 = l) → (∀ x ∈ us, x < l) → 0 < l → Fr tr (l :: us) (.chk v :: ms) P

theorem Fr.mono {tr tr' us ms P} (h : Fr tr us ms P) (hs : ∀ e ∈ tr, e.2 = 0 ∨ e.2 ∈ us → e ∈ tr') : Fr tr' us ms P := by
  induction h with
  | base P h => exact .base P fun p hp => hs _ (h p hp) (Or.inl rfl)
  | @pos us ms P P' l Q h e hq hm hl h0 ih =>
    exact .pos Q (ih fun e he hx => hs e he (by rcases hx with hx | hx <;> simp [hx])) e hq (fun p hp => hs _ (hm p hp) (by simp)) hl h0
  | @chk us ms P l v h hv hl h0 ih =>
    obtain ⟨e, he, h1, h2⟩ := hv
    exact .chk (ih fun e he hx => hs e he (by rcases hx with hx | hx <;> simp [hx])) ⟨e, hs e he (by simp [h2]), h1, h2⟩ hl h0

theorem Fr.mem {tr us ms P} (h : Fr tr us ms P) : ∀ p ∈ P, ∃ l, (p, l) ∈ tr ∧ (l = 0 ∨ l ∈ us) := by
  induction h with
  | base P h => exact fun p hp => ⟨0, h p hp, Or.inl rfl⟩
  | @pos us ms P P' l Q h e hq hm hl h0 ih =>
    subst e
    intro p hp
    rcases List.mem_append.mp hp with hp | hp
    · obtain ⟨k, h1, h2⟩ := ih p hp
      exact ⟨k, h1, by rcases h2 with h2 | h2 <;> simp [h2]⟩
    · exact ⟨l, hm p hp, by simp⟩
  | @chk us ms P l v h hv hl h0 ih =>
    intro p hp
    obtain ⟨k, h1, h2⟩ := ih p hp
    exact ⟨k, h1, by rcases h2 with h2 | h2 <;> simp [h2]⟩

theorem Fr.pos_us {tr us ms P} (h : Fr tr us ms P) : ∀ l ∈ us, 0 < l := by
  induction h with
  | base P h => simp
  | pos Q h e hq hm hl h0 ih => simpa using ⟨h0, ih⟩
  | chk h hv hl h0 ih => simpa using ⟨h0, ih⟩

theorem find_var {tr : List (Lit × Nat)} (nd : (tr.map (·.1.var)).Nodup) {e : Lit × Nat} (he : e ∈ tr) : tr.find? (fun x => x.1.var == e.1.var) = some e := by
  induction tr with
  | nil => cases he
  | cons a t ih =>
    rw [List.map_cons, List.nodup_cons] at nd
    rcases List.mem_cons.mp he with rfl | he'
    · simp
    · have : (a.1.var == e.1.var) = false := by
        rw [beq_eq_false_iff_ne]
        intro hx
        exact nd.1 (List.mem_map.mpr ⟨e, he', hx.symm⟩)
      rw [List.find?_cons_of_neg (by simp [this])]
      exact ih nd.2 he'

theorem levelOf_eq {σ : St} (nd : (σ.trail.map (·.1.var)).Nodup) {e : Lit × Nat} (he : e ∈ σ.trail) : σ.levelOf e.1.var = e.2 := by
  simp [St.levelOf, find_var nd he]

theorem lev_unique {tr : List (Lit × Nat)} (nd : (tr.map (·.1.var)).Nodup) {p : Lit} {a b : Nat} (ha : (p, a) ∈ tr) (hb : (p, b) ∈ tr) : a = b := by
  have h1 := find_var nd ha
  have h2 := find_var nd hb
  simp only at h1 h2
  rw [h1] at h2
  simpa using h2

/-- Proof device: the invariant. -/
structure Inv (σ : St) : Prop where
  nd : (σ.trail.map (·.1.var)).Nodup
  lv : ∀ e ∈ σ.trail, e.2 ≤ σ.dl
  fl : σ.front ≤ σ.trail.length
  q : ∀ e ∈ σ.trail.drop σ.front, e.2 = σ.dl
  ne : ∀ l, 0 < l → l ≤ σ.dl → ∃ e ∈ σ.trail, e.2 = l
  fr : Fr σ.trail σ.uw σ.undo σ.ptrail
  lev : σ.lev = σ.uw.headD 0
  uwb : ∀ l ∈ σ.uw, l ≤ σ.dl
  pr : σ.prop ≤ σ.ptrail.length
  base : ∀ p ∈ σ.ptrail.drop σ.prop, ∃ l, (p, l) ∈ σ.trail ∧ σ.dl - σ.probe ≤ l
  done : ∀ p ∈ σ.ptrail, p ∈ (σ.trail.take σ.front).map Prod.fst
  pnd : σ.ptrail.Nodup
  comp : ∀ p l, (p, l) ∈ σ.trail → p ∈ σ.watch → p ∉ σ.late → p ∈ σ.ptrail ∨ p ∈ (σ.trail.drop σ.front).map Prod.fst ∨ (σ.confl = true ∧ l = σ.dl)
  view : ∃ v, View σ.log v ∧ v.map Prod.snd = σ.ptrail.take σ.prop ∧ ∀ x ∈ v, (x.2, x.1) ∈ σ.trail
  chk : ∀ f, σ.pfront = some f → 0 ≤ f → ∃ l, lastCheck σ.log = some (σ.trail.take f.toNat) ∧ f.toNat ≤ σ.trail.length ∧ (∀ e ∈ σ.trail.take f.toNat, e.2 ≤ l) ∧ (l = 0 ∨ l ∈ σ.uw)
  fixm : σ.fix = true ∨ σ.model = true → σ.pfront ≠ none
  nst : ∀ e, σ.nest = some e → e ≤ σ.epoch ∧ (σ.hit = true → e < σ.epoch) ∧ (σ.hit = false → σ.propL = some σ.nl ∧ σ.nl ≤ σ.dl ∧ (σ.nl = 0 ∨ σ.nl ∈ σ.uw))
  seen : ∀ l ∈ σ.seen, l = 0 ∨ l ∈ σ.uw
  wt : (∀ p ∈ σ.watch, p ∈ σ.wat) ∧ ∀ p ∈ σ.ptrail, p ∈ σ.wat

theorem Inv.start : Inv St.start where
  nd := by simp [St.start]
  lv := by simp [St.start]
  fl := by simp [St.start]
  q := by simp [St.start]
  ne := by intro l h1 h2; simp [St.start] at h2; omega
  fr := .base _ (by simp [St.start])
  lev := by simp [St.start]
  uwb := by simp [St.start]
  pr := by simp [St.start]
  base := by simp [St.start]
  done := by simp [St.start]
  pnd := by simp [St.start]
  comp := by simp [St.start]
  view := ⟨[], .nil, by simp [St.start], by simp⟩
  chk := by intro f h h0; simp [St.start] at h; omega
  fixm := by simp [St.start]
  nst := by simp [St.start]
  seen := by simp [St.start]
  wt := by simp [St.start]

/-- Proof device: the part of the invariant about the undo stack. -/
structure Pre (σ : St) : Prop where
  fr : Fr σ.trail σ.uw σ.undo σ.ptrail
  lev : σ.lev = σ.uw.headD 0
  uwb : ∀ l ∈ σ.uw, l ≤ σ.dl

theorem Inv.pre {σ : St} (h : Inv σ) : Pre σ := ⟨h.fr, h.lev, h.uwb⟩

theorem Fr.lt {tr us ms P} (h : Fr tr us ms P) : ∀ l us', us = l :: us' → ∀ x ∈ us', x < l := by
  cases h with
  | base P h => intro l us' e; cases e
  | pos Q h e hq hm hl h0 => intro l us' e; cases e; exact hl
  | chk h hv hl h0 => intro l us' e; cases e; exact hl

theorem Pre.cur {σ : St} (h : Pre σ) (h0 : 0 < σ.dl) (hd : σ.dl = σ.lev) : ∃ us, σ.uw = σ.dl :: us := by
  have hl := h.lev
  cases hu : σ.uw with
  | nil => rw [hu] at hl; simp at hl; omega
  | cons a us => rw [hu] at hl; simp at hl; exact ⟨us, by rw [hd, hl]⟩

theorem Pre.lev_le {σ : St} (h : Pre σ) : σ.lev ≤ σ.dl := by
  have hl := h.lev
  cases hu : σ.uw with
  | nil => rw [hu] at hl; simp at hl; omega
  | cons a us => rw [hu] at hl; simp at hl; rw [hl]; exact h.uwb a (by simp [hu])

/-- The levels with an undo watch are below the current one if that has none. -/
theorem Pre.uw_lt {σ : St} (h : Pre σ) (hd : σ.dl ≠ σ.lev) : ∀ x ∈ σ.uw, x < σ.dl := by
  have hl := h.lev
  have hb := h.uwb
  have hf := h.fr.lt
  intro x hx
  have hle := hb x hx
  rcases Nat.lt_or_ge x σ.dl with hlt | hge
  · exact hlt
  · exfalso
    have hx2 : x = σ.dl := by omega
    cases hu : σ.uw with
    | nil => rw [hu] at hx; cases hx
    | cons a us =>
      have hlt := hf a us hu
      rw [hu] at hl hx
      simp at hl
      rcases List.mem_cons.mp hx with rfl | hx
      · omega
      · have ha := hb a (by simp [hu])
        have := hlt x hx
        omega

/-- What `registerUndo` does to the undo stack. -/
structure Reg (σ : St) (us : List Nat) (ms : List Mark) (P : List Lit) : Prop where
  fr : Fr σ.trail us ms P
  lev : σ.dl = us.headD 0
  le : ∀ x ∈ us, x ∈ σ.uw ∨ x = σ.dl
  ge : ∀ x ∈ σ.uw, x ∈ us

theorem notify_ok {σ : St} (h : Pre σ) {p : Lit} (hp : (p, σ.dl) ∈ σ.trail) :
    ∃ us ms, notify σ p = some { σ with uw := us, lev := σ.dl, undo := ms, ptrail := σ.ptrail ++ [p] } ∧ Reg σ us ms (σ.ptrail ++ [p]) := by
  by_cases hd : σ.dl ≠ σ.lev
  · have hlt := h.uw_lt hd
    have hg : σ.dl > σ.lev := by have := h.lev_le; omega
    refine ⟨σ.dl :: σ.uw, .pos σ.ptrail.length :: σ.undo, ?_, ?_, by simp, by simp; grind, by simp; grind⟩
    · simp only [notify, registerUndo]
      rw [if_pos hd, if_pos hg]
    · exact .pos [p] h.fr rfl (by simp) (by simpa using hp) hlt (by omega)
  · have hd' : σ.dl = σ.lev := by simpa using hd
    have hl := h.lev
    rcases hσ : σ with ⟨trail, front, dl, watch, uw, probe, confl, ptrail, undo, prop, lev, pfront, epoch, propL, total, fix, always, busy, model, nest, log, late, seen, nl, hit, wat⟩
    subst hσ
    simp only at hd hd' hl hp
    subst hd'
    have hf := h.fr
    simp only at hf
    generalize hP : ptrail = P at hf
    cases hf with
    | base P hb =>
      simp at hl
      subst hP
      refine ⟨[], [], by simp [notify, registerUndo], .base _ ?_, by simpa using hl, by simp, by simp⟩
      intro q hq
      rcases List.mem_append.mp hq with hq | hq
      · exact hb q hq
      · simp at hq; subst hq; rw [hl] at hp; exact hp
    | @pos us ms P P' l Q hf e hq hm hlt h0 =>
      simp at hl
      subst hl
      subst e
      subst hP
      refine ⟨_, _, ?_, ⟨.pos (Q ++ [p]) hf (by simp) (by simp) ?_ hlt h0, by simp, by simp; grind, by simp⟩⟩
      · have : ¬ (P.length + Q.length < P.length) := by omega
        simp [notify, registerUndo, Mark.lt, this]
      · intro q hq
        rcases List.mem_append.mp hq with hq | hq
        · exact hm q hq
        · simp at hq; subst hq; exact hp
    | @chk us ms P l v hf hv hlt h0 =>
      simp at hl
      subst hl
      subst hP
      refine ⟨_, _, ?_, ⟨.pos [p] hf rfl (by simp) (by simpa using hp) hlt h0, by simp, by simp; grind, by simp⟩⟩
      simp [notify, registerUndo, Mark.lt, Mark.isChk]

theorem decision_ok {σ : St} (h : ∃ e ∈ σ.trail, e.2 = σ.dl) : ∃ e ∈ σ.trail, e.1.var = (σ.decision σ.dl).var ∧ e.2 = σ.dl := by
  obtain ⟨e, he, hl⟩ := h
  cases hf : σ.trail.find? fun e => e.2 == σ.dl with
  | none =>
    have := List.find?_eq_none.mp hf e he
    simp [hl] at this
  | some x =>
    have h1 := List.mem_of_find?_eq_some hf
    have h2 := List.find?_some hf
    exact ⟨x, h1, by simp [St.decision, hf], by simpa using h2⟩

theorem check_ok {σ : St} (h : Pre σ) (hne : 0 < σ.dl → ∃ e ∈ σ.trail, e.2 = σ.dl) :
    ∃ us ms, registerUndoCheck σ = some { σ with uw := us, lev := σ.dl, undo := ms } ∧ Reg σ us ms σ.ptrail := by
  by_cases h0 : σ.dl = 0
  · have h1 := h.lev_le
    have hl : σ.lev = σ.dl := by omega
    refine ⟨σ.uw, σ.undo, ?_, h.fr, by rw [← hl]; exact h.lev, by grind, by grind⟩
    simp only [registerUndoCheck]
    rw [if_neg (by simpa using h0)]
    cases σ
    simp only at hl
    rw [hl]
  · have hdec := decision_ok (hne (by omega))
    simp only [registerUndoCheck]
    rw [if_pos h0]
    generalize (σ.decision σ.dl).var = w at hdec
    by_cases hd : σ.dl ≠ σ.lev
    · have hlt := h.uw_lt hd
      have hg : σ.dl > σ.lev := by have := h.lev_le; omega
      refine ⟨σ.dl :: σ.uw, .chk w :: σ.undo, ?_, ?_, by simp, by simp; grind, by simp; grind⟩
      · simp only [registerUndo]
        rw [if_pos hd, if_pos hg]
      · exact .chk h.fr hdec hlt (by omega)
    · have hd' : σ.dl = σ.lev := by simpa using hd
      have hl := h.lev
      rcases hσ : σ with ⟨trail, front, dl, watch, uw, probe, confl, ptrail, undo, prop, lev, pfront, epoch, propL, total, fix, always, busy, model, nest, log, late, seen, nl, hit, wat⟩
      subst hσ
      simp only at hd hd' hl hdec h0
      subst hd'
      have hf := h.fr
      simp only at hf
      have hf0 := hf
      generalize hP : ptrail = P at hf
      cases hf with
      | base P hb => simp at hl; omega
      | @pos us ms P P' l Q hf e hq hm hlt h0 =>
        simp at hl
        subst hl
        subst e
        subst hP
        refine ⟨dl :: us, .pos P.length :: ms, ?_, hf0, by simp, by simp; grind, by simp⟩
        simp [registerUndo, Mark.lt]
      | @chk us ms P l v hf hv hlt h0 =>
        simp at hl
        subst hl
        subst hP
        by_cases hwv : w < v
        · refine ⟨_, _, ?_, ⟨.chk hf hdec hlt h0, by simp, by simp; grind, by simp⟩⟩
          simp [registerUndo, Mark.lt, Mark.isChk, hwv]
        · refine ⟨dl :: us, .chk v :: ms, ?_, hf0, by simp, by simp; grind, by simp⟩
          simp [registerUndo, Mark.lt, Mark.isChk]
          omega

theorem undoLev_ok {σ : St} {us : List Nat} (nd : (σ.trail.map (·.1.var)).Nodup) (hf : Fr σ.trail us σ.undo σ.ptrail) :
    undoLev σ = some { σ with lev := us.headD 0 } := by
  rcases hσ : σ with ⟨trail, front, dl, watch, uw, probe, confl, ptrail, undo, prop, lev, pfront, epoch, propL, total, fix, always, busy, model, nest, log, late, seen, nl, hit, wat⟩
  subst hσ
  have nd' := nd
  simp only at hf nd'
  generalize hP : ptrail = P at hf
  cases hf with
  | base P hb => simp [undoLev]
  | @pos us ms P P' l Q hf e hq hm hlt h0 =>
    subst e
    subst hP
    cases Q with
    | nil => exact absurd rfl hq
    | cons a Q =>
      have := levelOf_eq nd (hm a (by simp))
      simp [undoLev]
      exact this
  | @chk us ms P l v hf hv hlt h0 =>
    obtain ⟨e, he, h1, h2⟩ := hv
    have := levelOf_eq nd he
    simp [undoLev]
    rw [← h1, ← h2]
    exact this

end Clasp.Clingo
