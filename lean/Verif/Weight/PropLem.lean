/- C22: lemmas about sums over literal positions, the trail and the parts of `propagate` and `undoLevel`. -/
import Verif.Weight.Prop
import Verif.Weight.MakeProps
namespace Clasp.WC
open Core Weight

/-! ### Sums over positions -/

open Classical in
/-- Specification: sum of the weights at the positions in `P`; positions are counted from `k`. -/
noncomputable def sumI (P : Nat → Prop) : List WL → Nat → Int
  | [], _ => 0
  | l :: r, k => (if P k then l.w else 0) + sumI P r (k + 1)

theorem sumI_congr {P Q : Nat → Prop} {ls : List WL} {k : Nat} (h : ∀ i, k ≤ i → i < k + ls.length → (P i ↔ Q i)) :
    sumI P ls k = sumI Q ls k := by
  induction ls generalizing k with
  | nil => rfl
  | cons l r ih =>
    simp only [sumI, List.length_cons] at *
    rw [ih fun i h1 h2 => h i (by omega) (by omega)]
    have := h k (by omega) (by omega)
    by_cases hk : P k
    · rw [if_pos hk, if_pos (this.1 hk)]
    · rw [if_neg hk, if_neg (fun h => hk (this.2 h))]

theorem sumI_mono {P Q : Nat → Prop} {ls : List WL} {k : Nat} (hp : ∀ e ∈ ls, 0 < e.w)
    (h : ∀ i, k ≤ i → i < k + ls.length → P i → Q i) : sumI P ls k ≤ sumI Q ls k := by
  induction ls generalizing k with
  | nil => exact Int.le_refl _
  | cons l r ih =>
    simp only [sumI, List.length_cons] at *
    have h1 := ih (k := k + 1) (fun e he => hp e (.tail _ he)) fun i h1 h2 => h i (by omega) (by omega)
    have h2 := h k (by omega) (by omega)
    have h3 := hp l (.head _)
    by_cases hk : P k
    · rw [if_pos hk, if_pos (h2 hk)]; omega
    · rw [if_neg hk]; split <;> omega

theorem sumI_insert {P Q : Nat → Prop} {ls : List WL} {k j : Nat} (hj : k ≤ j) (hj' : j < k + ls.length) (hP : ¬ P j)
    (h : ∀ i, Q i ↔ (i = j ∨ P i)) : sumI Q ls k = sumI P ls k + wOf ls (j - k) := by
  induction ls generalizing k with
  | nil => simp at hj'; omega
  | cons l r ih =>
    simp only [sumI, List.length_cons] at *
    by_cases hk : k = j
    · subst hk
      rw [if_pos ((h k).2 (.inl rfl)), if_neg hP]
      have : sumI Q r (k + 1) = sumI P r (k + 1) := sumI_congr fun i h1 h2 => by
        rw [h i]; constructor
        · rintro (h | h); · omega
          · exact h
        · exact .inr
      rw [this]; simp [wOf]; omega
    · rw [ih (by omega) (by omega)]
      have e : wOf (l :: r) (j - k) = wOf r (j - (k + 1)) := by
        unfold wOf
        rw [show j - k = (j - (k + 1)) + 1 by omega]; simp
      rw [e]
      by_cases hp : P k
      · rw [if_pos hp, if_pos ((h k).2 (.inr hp))]; omega
      · rw [if_neg hp, if_neg (by rw [h k]; rintro (h | h); · exact hk h
                                  · exact hp h)]; omega

theorem sumI_disj {P Q : Nat → Prop} {ls : List WL} {k : Nat} (hp : ∀ e ∈ ls, 0 < e.w) (h : ∀ i, k ≤ i → P i → ¬ Q i) :
    sumI P ls k + sumI Q ls k ≤ total ls := by
  induction ls generalizing k with
  | nil => simp [sumI]
  | cons l r ih =>
    simp only [sumI, total_cons] at *
    have h1 := ih (k := k + 1) (fun e he => hp e (.tail _ he)) fun i hi => h i (by omega)
    have h3 := hp l (.head _)
    by_cases hk : P k
    · rw [if_pos hk, if_neg (h k (by omega) hk)]; omega
    · rw [if_neg hk]; split <;> omega

theorem sumI_nil {P : Nat → Prop} {ls : List WL} {k : Nat} (h : ∀ i, ¬ P i) : sumI P ls k = 0 := by
  induction ls generalizing k with
  | nil => rfl
  | cons l r ih => simp only [sumI]; rw [if_neg (h k), ih]; rfl

theorem sumI_compl {P Q : Nat → Prop} {ls : List WL} {k : Nat} (h : ∀ i, k ≤ i → i < k + ls.length → (Q i ↔ ¬ P i)) :
    sumI P ls k + sumI Q ls k = total ls := by
  induction ls generalizing k with
  | nil => simp [sumI]
  | cons l r ih =>
    simp only [sumI, total_cons, List.length_cons] at *
    have h1 := ih (k := k + 1) fun i hi hi' => h i (by omega) (by omega)
    have h2 := h k (by omega) (by omega)
    by_cases hk : P k
    · rw [if_pos hk, if_neg (fun hq => h2.1 hq hk)]; omega
    · rw [if_neg hk, if_pos (h2.2 hk)]; omega

theorem litOf_cons (l : WL) (ls : List WL) (i : Nat) : litOf (l :: ls) (i + 1) = litOf ls i := by simp [litOf]

theorem val_eq {M : Asg} {ls : List WL} {k : Nat} : val M ls = sumI (fun i => M.sat (litOf ls (i - k))) ls k := by
  induction ls generalizing k with
  | nil => rfl
  | cons l r ih =>
    have : sumI (fun i => M.sat (litOf (l :: r) (i - k))) r (k + 1) = sumI (fun i => M.sat (litOf r (i - (k + 1)))) r (k + 1) :=
      sumI_congr fun i h1 h2 => by
        rw [show i - k = (i - (k + 1)) + 1 by omega, litOf_cons]
    simp only [sumI]
    rw [this, ← ih]
    unfold val
    simp only [List.map_cons, List.sum_cons, Nat.sub_self, litOf, List.getD_cons_zero]

/-! ### The trail -/

/-- Specification: literal `p` is true, assigned on level `l`. -/
def Lv (tr : List Entry) (p : Lit) (l : Nat) : Prop := ∃ e ∈ tr, e.lit = p ∧ e.lev = l

/-- Specification: literal `p` is true, assigned on a level up to `l`. -/
def At (tr : List Entry) (p : Lit) (l : Nat) : Prop := ∃ l' ≤ l, Lv tr p l'

/-- Specification: no variable is assigned twice. -/
def TrN (tr : List Entry) : Prop := (tr.map fun e => e.lit.var).Nodup

theorem At.mono {tr : List Entry} {p : Lit} {l l' : Nat} (h : At tr p l) (hl : l ≤ l') : At tr p l' := by
  obtain ⟨a, h1, h2⟩ := h; exact ⟨a, by omega, h2⟩

theorem isTrue_iff {tr : List Entry} {p : Lit} : isTrue tr p = true ↔ ∃ l, Lv tr p l := by
  unfold isTrue Lv
  simp only [List.any_eq_true, decide_eq_true_eq]
  constructor
  · rintro ⟨e, h1, h2⟩; exact ⟨_, e, h1, h2, rfl⟩
  · rintro ⟨_, e, h1, h2, _⟩; exact ⟨e, h1, h2⟩

theorem assigned_iff {tr : List Entry} {v : Nat} : assigned tr v = true ↔ ∃ p l, p.var = v ∧ Lv tr p l := by
  unfold assigned Lv
  simp only [List.any_eq_true, decide_eq_true_eq]
  constructor
  · rintro ⟨e, h1, h2⟩; exact ⟨e.lit, _, h2, e, h1, rfl, rfl⟩
  · rintro ⟨p, _, h, e, h1, h2, _⟩; exact ⟨e, h1, by rw [h2, h]⟩

theorem assigned_of {tr : List Entry} {p : Lit} {l : Nat} (h : Lv tr p l) : assigned tr p.var = true := assigned_iff.2 ⟨p, l, rfl, h⟩

theorem TrN.uniq {tr : List Entry} (h : TrN tr) {e e' : Entry} (he : e ∈ tr) (he' : e' ∈ tr) (hv : e.lit.var = e'.lit.var) : e = e' :=
  List.inj_on_of_nodup_map h he he' hv

theorem TrN.lv {tr : List Entry} (h : TrN tr) {p q : Lit} {l l' : Nat} (h1 : Lv tr p l) (h2 : Lv tr q l') (hv : p.var = q.var) : p = q ∧ l = l' := by
  obtain ⟨e, a, rfl, rfl⟩ := h1
  obtain ⟨e', a', rfl, rfl⟩ := h2
  obtain rfl := h.uniq a a' hv
  exact ⟨rfl, rfl⟩

theorem TrN.neg {tr : List Entry} (h : TrN tr) {p : Lit} {l l' : Nat} (h1 : Lv tr p l) (h2 : Lv tr p.neg l') : False :=
  Lit.neg_ne p (h.lv h2 h1 rfl).1

theorem levelOf_eq {tr : List Entry} (h : TrN tr) {p : Lit} {l : Nat} (hp : Lv tr p l) {v : Nat} (hv : p.var = v) : levelOf tr v = l := by
  obtain ⟨e, he, rfl, rfl⟩ := hp
  unfold levelOf
  cases hf : tr.find? (fun e => decide (e.lit.var = v)) with
  | none => exact absurd (List.find?_eq_none.1 hf e he) (by simp [hv])
  | some e' =>
    have h1 := List.find?_some hf
    have h2 := List.mem_of_find?_eq_some hf
    simp only [decide_eq_true_eq] at h1
    rw [h.uniq h2 he (by rw [h1, hv])]

theorem sub_not (lits : List WL) (i : Nat) (c : Side) : sub lits i (!c) = (sub lits i c).neg := by
  cases c <;> simp [sub]

theorem sub_var (lits : List WL) (i : Nat) (c : Side) : (sub lits i c).var = (litOf lits i).var := by
  cases c <;> simp [sub]

/-- Every literal over the variable at position `i` is one of the two. -/
theorem sub_cases {lits : List WL} {i : Nat} {p : Lit} (c : Side) (h : p.var = (litOf lits i).var) : p = sub lits i c ∨ p = (sub lits i c).neg := by
  rw [← sub_var lits i c] at h; exact Lit.eq_or_neg h

/-! ### `popFree` -/

theorem popFree_spec {tr : List Entry} {lits : List WL} {b : Side → Int} (s : List (Nat × Side)) :
    ∀ con : Con, con.lits = lits → (∀ i, con.seen i = true ↔ ∃ c, (i, c) ∈ s) → (∀ c, con.bound c = b c - sumI (fun i => (i, c) ∈ s) lits 0) →
    (s.map Prod.fst).Nodup → (∀ u ∈ s, u.1 < lits.length) →
    let con' := popFree tr con s
    con'.stack = s.dropWhile (fun u => !assigned tr (litOf lits u.1).var) ∧
    (∀ i, con'.seen i = true ↔ ∃ c, (i, c) ∈ con'.stack) ∧ (∀ c, con'.bound c = b c - sumI (fun i => (i, c) ∈ con'.stack) lits 0) ∧
    con'.lits = lits ∧ con'.isW = con.isW ∧ con'.active = con.active ∧ con'.watched = con.watched ∧ con'.bp = con.bp ∧ con'.on0 = con.on0 ∧ con'.on = con.on := by
  induction s with
  | nil => intro con h1 h2 h3 _ _; exact ⟨rfl, h2, h3, h1, rfl, rfl, rfl, rfl, rfl, rfl⟩
  | cons u s ih =>
    obtain ⟨i, c⟩ := u
    intro con h1 h2 h3 h4 h5
    simp only [List.map_cons, List.nodup_cons] at h4
    have hi : ∀ c', (i, c') ∉ s := fun c' hm => h4.1 (List.mem_map.2 ⟨_, hm, rfl⟩)
    unfold popFree
    by_cases ha : assigned tr (litOf con.lits i).var
    · rw [if_pos ha]
      rw [h1] at ha
      refine ⟨?_, h2, h3, h1, rfl, rfl, rfl, rfl, rfl, rfl⟩
      simp [List.dropWhile, ha]
    · rw [if_neg ha]
      have := ih { con with
        seen := Function.update con.seen i (!con.seen i)
        bound := Function.update con.bound c (con.bound c + wOf con.lits i) } h1 ?_ ?_ h4.2 (fun u hu => h5 u (.tail _ hu))
      · obtain ⟨e1, e2⟩ := this
        refine ⟨?_, e2⟩
        rw [e1, ← h1]
        simp [List.dropWhile, ha]
      · intro j
        dsimp only
        by_cases hj : j = i
        · subst hj
          have : con.seen j = true := (h2 j).2 ⟨c, .head _⟩
          simp [this, hi]
        · rw [Function.update_of_ne hj, h2 j]; simp [hj]
      · intro c'
        dsimp only
        by_cases hc : c' = c
        · subst hc
          rw [Function.update_self, h3, h1, sumI_insert (P := fun i => (i, c') ∈ s) (j := i) (by omega) (by simpa using h5 _ (.head _)) (hi _)]
          · rw [Nat.sub_zero]; omega
          · intro k; simp
        · rw [Function.update_of_ne hc, h3]
          rw [sumI_congr (Q := fun i => (i, c') ∈ s)]
          intro k _ _; simp [hc]

end Clasp.WC
