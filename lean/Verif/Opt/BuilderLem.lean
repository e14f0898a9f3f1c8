/- Auxiliary facts about the construction of minimize data (C20). -/
import Verif.Opt.Builder
import Mathlib.Data.List.Sort
import Mathlib.Order.Lattice
namespace Clasp.Mini
open Core
open Clasp.Weight (R Fail Top MAXW ext bind_ok chk_ok bind_ne_bad ok_ne_bad)

/-! ### Specification -/

/-- Specification: cost of `M` at priority `P` under the statements `l`. -/
def cost (M : Asg) (l : List MLit) (P : Int) : Int := (l.map fun e => if e.prio = P ∧ M.sat e.lit then e.weight else 0).sum

@[simp] theorem cost_nil (M : Asg) (P : Int) : cost M [] P = 0 := rfl
@[simp] theorem cost_cons (M : Asg) (e : MLit) (l : List MLit) (P : Int) :
    cost M (e :: l) P = (if e.prio = P ∧ M.sat e.lit then e.weight else 0) + cost M l P := by simp [cost]
@[simp] theorem cost_append (M : Asg) (a b : List MLit) (P : Int) : cost M (a ++ b) P = cost M a P + cost M b P := by simp [cost]
theorem cost_perm {M : Asg} {a b : List MLit} (h : a.Perm b) (P : Int) : cost M a P = cost M b P := (h.map _).sum_eq
theorem cost_zero {M : Asg} {l : List MLit} {P : Int} (h : ∀ e ∈ l, e.prio ≠ P) : cost M l P = 0 := by
  induction l with
  | nil => rfl
  | cons a l ih => rw [cost_cons, ih fun e he => h e (.tail _ he)]; simp [h a (.head _)]

/-! ### Sorting -/

section Srt
variable {α : Type} {cmp : α → α → Bool}

theorem insertBy_perm (a : α) (l : List α) : (insertBy cmp a l).Perm (a :: l) := by
  induction l with
  | nil => exact .refl _
  | cons b l ih => unfold insertBy; split
                   · exact ((List.Perm.cons b ih).trans (List.Perm.swap a b l))
                   · exact .refl _

theorem ssort_perm (l : List α) : (ssort cmp l).Perm l := by
  induction l with
  | nil => exact .refl _
  | cons a l ih => exact (insertBy_perm a _).trans (List.Perm.cons a ih)

theorem insertBy_sorted {S : α → Prop} (hasym : ∀ a b, S a → S b → cmp a b = true → cmp b a = false)
    (htr : ∀ a b c, S a → S b → S c → cmp b a = false → cmp c b = false → cmp c a = false) {a : α} (ha : S a) :
    ∀ {l : List α}, (∀ x ∈ l, S x) → l.Pairwise (fun x y => cmp y x = false) →
      (insertBy cmp a l).Pairwise (fun x y => cmp y x = false) := by
  intro l
  induction l with
  | nil => intro _ _; simp [insertBy]
  | cons b l ih =>
    intro hS hp
    obtain ⟨h1, h2⟩ := List.pairwise_cons.1 hp
    have hb := hS b (.head _)
    unfold insertBy
    split
    · rename_i hc
      refine List.pairwise_cons.2 ⟨?_, ih (fun x hx => hS x (.tail _ hx)) h2⟩
      intro x hx
      rcases List.mem_cons.1 ((insertBy_perm a l).mem_iff.1 hx) with rfl | hx
      · exact hasym _ _ hb ha hc
      · exact h1 x hx
    · rename_i hc
      have hc : cmp b a = false := by simpa using hc
      refine List.pairwise_cons.2 ⟨?_, hp⟩
      intro x hx
      rcases List.mem_cons.1 hx with rfl | hx
      · exact hc
      · exact htr _ _ _ ha hb (hS x (.tail _ hx)) hc (h1 x hx)

theorem ssort_sorted {S : α → Prop} (hasym : ∀ a b, S a → S b → cmp a b = true → cmp b a = false)
    (htr : ∀ a b c, S a → S b → S c → cmp b a = false → cmp c b = false → cmp c a = false) :
    ∀ {l : List α}, (∀ x ∈ l, S x) → (ssort cmp l).Pairwise (fun x y => cmp y x = false) := by
  intro l
  induction l with
  | nil => intro _; exact .nil
  | cons a l ih =>
    intro hS
    exact insertBy_sorted hasym htr (hS a (.head _))
      (fun x hx => hS x (.tail _ ((ssort_perm l).mem_iff.1 hx))) (ih fun x hx => hS x (.tail _ hx))

end Srt

theorem litLt_var {p q : Lit} (h : p.var ≠ q.var) : litLt p q = decide (p.var < q.var) := by
  unfold litLt; simp [h]

theorem cmpPrio_le {a b : MLit} : cmpPrio b a = false ↔
    b.prio < a.prio ∨ b.prio = a.prio ∧ (a.lit.var < b.lit.var ∨ a.lit.var = b.lit.var ∧ b.weight ≤ a.weight) := by
  unfold cmpPrio
  split
  · rename_i h; simp only [decide_eq_false_iff_not]; omega
  · rename_i h; simp only [ne_eq, not_not] at h
    split
    · rename_i h2; rw [litLt_var h2]; simp only [decide_eq_false_iff_not]; omega
    · rename_i h2; simp only [ne_eq, not_not] at h2; simp only [decide_eq_false_iff_not]; omega

theorem cmpLit_le {a b : MLit} : cmpLit b a = false ↔
    a.lit.var < b.lit.var ∨ a.lit.var = b.lit.var ∧ (a.prio < b.prio ∨ a.prio = b.prio ∧ b.weight ≤ a.weight) := by
  unfold cmpLit
  split
  · rename_i h2; rw [litLt_var h2]; simp only [decide_eq_false_iff_not]; omega
  · rename_i h2; simp only [ne_eq, not_not] at h2
    split
    · rename_i h; simp only [decide_eq_false_iff_not]; omega
    · rename_i h; simp only [ne_eq, not_not] at h; simp only [decide_eq_false_iff_not]; omega

theorem sorted_prio (l : List MLit) : (ssort cmpPrio l).Pairwise (fun x y => cmpPrio y x = false) := by
  refine ssort_sorted (S := fun _ => True) ?_ ?_ (by simp)
  · intro a b _ _ h; by_contra hc
    have h1 : ¬ (cmpPrio a b = false) := by simp [h]
    rw [cmpPrio_le] at h1
    have h2 : ¬ (cmpPrio b a = false) := hc
    rw [cmpPrio_le] at h2
    omega
  · intro a b c _ _ _ h1 h2; rw [cmpPrio_le] at *; omega

theorem sorted_lit (l : List MLit) : (ssort cmpLit l).Pairwise (fun x y => cmpLit y x = false) := by
  refine ssort_sorted (S := fun _ => True) ?_ ?_ (by simp)
  · intro a b _ _ h; by_contra hc
    have h1 : ¬ (cmpLit a b = false) := by simp [h]
    rw [cmpLit_le] at h1
    have h2 : ¬ (cmpLit b a = false) := hc
    rw [cmpLit_le] at h2
    omega
  · intro a b c _ _ _ h1 h2; rw [cmpLit_le] at *; omega

/-! ### prepareLevels -/

theorem eq_neg_of_var {p q : Lit} (h : p.var = q.var) (hne : p ≠ q) : p = q.neg := by
  cases p; cases q; simp [Lit.neg] at *; subst h; exact ⟨rfl, Bool.eq_not_of_ne (by simpa using hne)⟩

theorem absorb_spec {x : Lit} {P : Int} : ∀ {ks : List MLit} {w R : Int}, ∃ pre,
    ks = pre ++ (absorb x P w R ks).2.2 ∧ (∀ e ∈ pre, e.lit.var = x.var ∧ e.prio = P) ∧
    (∀ e, (absorb x P w R ks).2.2.head? = some e → ¬ (e.lit.var = x.var ∧ e.prio = P)) ∧
    ∀ M : Asg, (if M.sat x then w else 0) + R + cost M pre P =
      (if M.sat x then (absorb x P w R ks).1 else 0) + (absorb x P w R ks).2.1 := by
  intro ks
  induction ks with
  | nil => intro w R; exact ⟨[], by simp [absorb], by simp, by simp [absorb], by simp [absorb]⟩
  | cons k ks ih =>
    intro w R
    unfold absorb
    split
    · rename_i hk
      split
      · rename_i he
        obtain ⟨pre, i1, i2, i3, i4⟩ := ih (w := w + k.weight) (R := R)
        refine ⟨k :: pre, by rw [List.cons_append, ← i1], ?_, i3, ?_⟩
        · intro e h; rcases List.mem_cons.1 h with rfl | h
          · exact hk
          · exact i2 e h
        · intro M; rw [← i4 M, cost_cons, he]; simp only [hk.2, true_and]; split <;> ring
      · rename_i he
        obtain ⟨pre, i1, i2, i3, i4⟩ := ih (w := w - k.weight) (R := R + k.weight)
        refine ⟨k :: pre, by rw [List.cons_append, ← i1], ?_, i3, ?_⟩
        · intro e h; rcases List.mem_cons.1 h with rfl | h
          · exact hk
          · exact i2 e h
        · intro M; rw [← i4 M, cost_cons, eq_neg_of_var hk.1 he]
          simp only [hk.2, true_and, Asg.sat_neg]
          by_cases hs : M.sat x <;> simp [hs] <;> ring
    · rename_i hk
      refine ⟨[], by simp, by simp, ?_, by simp⟩
      intro e he; simp at he; subst he; exact hk

theorem levelLoop_spec {top : Top} {P : Int} {L : Nat} : ∀ {n : Nat} {es out rest : List MLit} {R0 R' : Int},
    levelLoop top P L n R0 es = .ok (out, R', rest) → es.Pairwise (fun x y => cmpPrio y x = false) →
    ∃ pre, es = pre ++ rest ∧ (∀ e ∈ pre, e.prio = P) ∧ (∀ e, rest.head? = some e → e.prio ≠ P) ∧
      (∀ M, ext M top → R0 + cost M pre P = R' + cost M out L) ∧
      (∀ e ∈ out, e.prio = L ∧ 0 < e.weight ∧ e.weight ≤ MAXW ∧ top e.lit.var = none ∧ ∃ q ∈ pre, q.lit.var = e.lit.var) ∧
      out.Pairwise (fun a b => a.lit.var < b.lit.var) := by
  intro n
  induction n with
  | zero => intro es out rest R0 R' h; simp [levelLoop] at h
  | succ n ih =>
    intro es out rest R0 R' h hs
    cases es with
    | nil =>
      simp [levelLoop] at h; obtain ⟨rfl, rfl, rfl⟩ := h
      exact ⟨[], rfl, by simp, by simp, by simp, by simp, .nil⟩
    | cons e es =>
      unfold levelLoop at h
      split at h
      · rename_i hP
        obtain ⟨p1, a1, a2, a3, a4⟩ := absorb_spec (x := e.lit) (P := P) (ks := es) (w := e.weight) (R := R0)
        generalize absorb e.lit P e.weight R0 es = a at *
        dsimp only at h
        set w := if a.1 < 0 then -a.1 else a.1 with hw
        set x := if a.1 < 0 then e.lit.neg else e.lit with hx
        set R1 := if a.1 < 0 then a.2.1 + a.1 else a.2.1 with hR1
        have hsr : a.2.2.Pairwise (fun x y => cmpPrio y x = false) := by
          rw [a1] at hs; exact (List.pairwise_append.1 (List.pairwise_cons.1 hs).2).2.1
        have hxv : x.var = e.lit.var := by rw [hx]; split <;> rfl
        have hw0 : 0 ≤ w := by rw [hw]; split <;> omega
        have hval : ∀ M : Asg, R0 + cost M (e :: p1) P = R1 + (if M.sat x then w else 0) := by
          intro M
          have := a4 M
          rw [cost_cons, hR1, hx, hw]; simp only [hP, true_and]
          by_cases hn : a.1 < 0
          · simp only [hn, if_true, Asg.sat_neg]
            by_cases hs : M.sat e.lit <;> simp [hs] at this ⊢ <;> omega
          · simp only [hn, if_false]
            by_cases hs : M.sat e.lit <;> simp [hs] at this ⊢ <;> omega
        -- elements of the rest with the same priority have a larger variable
        have hlt : ∀ q ∈ a.2.2, q.prio = P → e.lit.var < q.lit.var := by
          intro q hq hqP
          rw [a1] at hs
          have h0 := (List.pairwise_cons.1 hs).1
          cases hh : a.2.2 with
          | nil => rw [hh] at hq; cases hq
          | cons r rs =>
            have h3 := a3 r (by rw [hh]; rfl)
            have h4 := cmpPrio_le.1 (h0 r (List.mem_append_right _ (by rw [hh]; exact .head _)))
            rw [hh] at hq
            rcases List.mem_cons.1 hq with rfl | hq
            · rcases h4 with h4 | ⟨h4, h5 | h5⟩
              · omega
              · exact h5
              · exact absurd ⟨h5.1.symm, hqP⟩ h3
            · have h5 : cmpPrio q r = false := by
                rw [hh] at hsr; exact (List.pairwise_cons.1 hsr).1 q hq
              rw [cmpPrio_le] at h5
              rcases h4 with h4 | ⟨h4, h6 | h6⟩
              · omega
              · omega
              · exact absurd ⟨h6.1.symm, by omega⟩ h3
        have hpre : ∀ p2 : List MLit, (∀ q ∈ p2, q.prio = P) → ∀ q ∈ e :: p1 ++ p2, q.prio = P := by
          intro p2 h2 q hq
          rcases List.mem_append.1 hq with hq | hq
          · rcases List.mem_cons.1 hq with rfl | hq
            · exact hP
            · exact (a2 q hq).2
          · exact h2 q hq
        split at h
        · rename_i hfree
          split at h
          · rename_i hmax
            obtain ⟨r, hr, h⟩ := bind_ok.1 h
            simp only [Except.ok.injEq, Prod.mk.injEq] at h
            obtain ⟨rfl, rfl, rfl⟩ := h
            obtain ⟨p2, i1, i2, i3, i4, i5, i6⟩ := ih (out := r.1) (R' := r.2.1) (rest := r.2.2) hr hsr
            refine ⟨e :: p1 ++ p2, by rw [List.append_assoc, ← i1, List.cons_append, ← a1], hpre p2 i2, i3, ?_, ?_, ?_⟩
            · intro M hM
              rw [cost_append, ← add_assoc, hval M, cost_cons]
              have := i4 M hM
              simp only [true_and]; omega
            · intro o ho
              rcases List.mem_cons.1 ho with rfl | ho
              · exact ⟨rfl, by dsimp only; omega, hmax, hfree.2, e, by simp, hxv.symm⟩
              · obtain ⟨k1, k2, k3, k4, q, k5, k6⟩ := i5 o ho
                exact ⟨k1, k2, k3, k4, q, List.mem_append_right _ k5, k6⟩
            · refine List.pairwise_cons.2 ⟨?_, i6⟩
              intro o ho
              obtain ⟨_, _, _, _, q, k5, k6⟩ := i5 o ho
              dsimp only; rw [hxv, ← k6]
              exact hlt q (by rw [i1]; exact List.mem_append_left _ k5) (i2 q k5)
          · simp at h
        · rename_i hfree
          obtain ⟨p2, i1, i2, i3, i4, i5, i6⟩ := ih h hsr
          refine ⟨e :: p1 ++ p2, by rw [List.append_assoc, ← i1, List.cons_append, ← a1], hpre p2 i2, i3, ?_, ?_, i6⟩
          · intro M hM
            rw [cost_append, ← add_assoc, hval M, ← i4 M hM]
            have : (if M.sat x then w else 0) = (if top x.var = some x.tv then w else 0) := by
              by_cases hw' : w = 0
              · simp [hw']
              · cases ht : top x.var with
                | none => exact absurd ⟨hw', ht⟩ hfree
                | some b =>
                  have := hM _ _ ht
                  have hiff : M.sat x ↔ some b = some x.tv := by unfold Asg.sat; rw [this]; simp
                  simp only [hiff]
            rw [this]; split <;> omega
          · intro o ho
            obtain ⟨k1, k2, k3, k4, q, k5, k6⟩ := i5 o ho
            exact ⟨k1, k2, k3, k4, q, List.mem_append_right _ k5, k6⟩
      · rename_i hP
        simp only [Except.ok.injEq, Prod.mk.injEq] at h
        obtain ⟨rfl, rfl, rfl⟩ := h
        exact ⟨[], rfl, by simp, fun q hq => by simp at hq; subst hq; exact hP, by simp, by simp, .nil⟩

theorem levels_spec {top : Top} : ∀ {n L : Nat} {es out : List MLit} {adj ps : List Int},
    levels top n L es = .ok (out, adj, ps) → es.Pairwise (fun x y => cmpPrio y x = false) →
    adj.length = ps.length ∧ ps.Pairwise (· > ·) ∧ (∀ P, P ∈ ps ↔ ∃ e ∈ es, e.prio = P) ∧
    (∀ i P a, ps[i]? = some P → adj[i]? = some a → ∀ M, ext M top → a + cost M out ((L + i : Nat) : Int) = cost M es P) ∧
    (∀ e ∈ out, ∃ i, i < ps.length ∧ e.prio = ((L + i : Nat) : Int)) ∧
    (∀ e ∈ out, 0 < e.weight ∧ e.weight ≤ MAXW ∧ top e.lit.var = none) ∧
    out.Pairwise (fun a b => a.prio < b.prio ∨ a.prio = b.prio ∧ a.lit.var < b.lit.var) := by
  intro n
  induction n with
  | zero => intro L es out adj ps h; simp [levels] at h
  | succ n ih =>
    intro L es out adj ps h hs
    cases es with
    | nil => simp [levels] at h; obtain ⟨rfl, rfl, rfl⟩ := h; simp
    | cons e es =>
      unfold levels at h
      obtain ⟨⟨o1, R1, rest⟩, h1, h⟩ := bind_ok.1 h
      obtain ⟨⟨o2, a2, p2⟩, h2, h⟩ := bind_ok.1 h
      simp only [Except.ok.injEq, Prod.mk.injEq] at h
      obtain ⟨rfl, rfl, rfl⟩ := h
      obtain ⟨pre, b1, b2, b3, b4, b5, b6⟩ := levelLoop_spec h1 hs
      have hsr : rest.Pairwise (fun x y => cmpPrio y x = false) := by
        rw [b1] at hs; exact (List.pairwise_append.1 hs).2.1
      obtain ⟨i1, i2, i3, i4, i5, i6, i7⟩ := ih h2 hsr
      -- priorities of the rest are smaller
      have hlt : ∀ q ∈ rest, q.prio < e.prio := by
        intro q hq
        have hin : q ∈ e :: es := by rw [b1]; exact List.mem_append_right _ hq
        have hfirst : ∀ r ∈ e :: es, r.prio ≤ e.prio := by
          intro r hr; rcases List.mem_cons.1 hr with rfl | hr
          · exact le_refl _
          · have := cmpPrio_le.1 ((List.pairwise_cons.1 hs).1 r hr); omega
        cases hh : rest with
        | nil => rw [hh] at hq; cases hq
        | cons r rs =>
          have h3 := b3 r (by rw [hh]; rfl)
          have h4 := hfirst r (by rw [b1, hh]; simp)
          rw [hh] at hq hsr
          rcases List.mem_cons.1 hq with rfl | hq
          · omega
          · have := cmpPrio_le.1 ((List.pairwise_cons.1 hsr).1 q hq); omega
      have hne : pre ≠ [] := by
        rintro rfl
        have : rest.head? = some e := by rw [← List.nil_append rest, ← b1]; rfl
        exact b3 e this rfl
      refine ⟨by simp [i1], ?_, ?_, ?_, ?_, ?_, ?_⟩
      · refine List.pairwise_cons.2 ⟨fun P hP => ?_, i2⟩
        obtain ⟨q, hq, rfl⟩ := (i3 P).1 hP
        exact hlt q hq
      · intro P
        rw [List.mem_cons, i3]
        constructor
        · rintro (rfl | ⟨q, hq, rfl⟩)
          · exact ⟨e, .head _, rfl⟩
          · exact ⟨q, by rw [b1]; exact List.mem_append_right _ hq, rfl⟩
        · rintro ⟨q, hq, rfl⟩
          rw [b1] at hq
          rcases List.mem_append.1 hq with hq | hq
          · exact .inl (b2 q hq)
          · exact .inr ⟨q, hq, rfl⟩
      · intro i P a hP ha M hM
        rw [b1, cost_append, cost_append]
        cases i with
        | zero =>
          simp at hP ha; subst hP; subst ha
          have h3 := b4 M hM
          have h4 : cost M o2 ((L + 0 : Nat) : Int) = 0 := cost_zero fun q hq => by
            obtain ⟨i, _, hi⟩ := i5 q hq; rw [hi]; omega
          have h5 : cost M rest e.prio = 0 := cost_zero fun q hq => by have := hlt q hq; omega
          simp only [add_zero] at h4 ⊢; omega
        | succ i =>
          simp at hP ha
          have h3 := i4 i P a hP ha M hM
          have hPe : P ≠ e.prio := by
            obtain ⟨q, hq, rfl⟩ := (i3 P).1 (List.mem_of_getElem? hP)
            have := hlt q hq; omega
          have h4 : cost M o1 ((L + (i + 1) : Nat) : Int) = 0 := cost_zero fun q hq => by
            rw [(b5 q hq).1]; omega
          have h5 : cost M pre P = 0 := cost_zero fun q hq => by rw [b2 q hq]; exact hPe.symm
          rw [show L + 1 + i = L + (i + 1) by omega] at h3
          omega
      · intro q hq
        rcases List.mem_append.1 hq with hq | hq
        · exact ⟨0, by simp, by simpa using (b5 q hq).1⟩
        · obtain ⟨i, hi, hi2⟩ := i5 q hq
          exact ⟨i + 1, by simpa using hi, by rw [hi2]; omega⟩
      · intro q hq
        rcases List.mem_append.1 hq with hq | hq
        · exact ⟨(b5 q hq).2.1, (b5 q hq).2.2.1, (b5 q hq).2.2.2.1⟩
        · exact i6 q hq
      · refine List.pairwise_append.2 ⟨?_, i7, ?_⟩
        · refine b6.imp_of_mem ?_
          intro a b ha hb hab
          exact .inr ⟨by rw [(b5 a ha).1, (b5 b hb).1], hab⟩
        · intro a ha b hb
          obtain ⟨i, _, hi⟩ := i5 b hb
          left; rw [(b5 a ha).1, hi]; omega

/-! ### Sparse vectors -/

/-- A complete sparse vector. -/
def isVec : List LW → Prop
  | [] => False
  | [w] => w.next = false
  | w :: ws => w.next = true ∧ isVec ws

theorem vec_append {g : List LW} (h : isVec g) (r : List LW) : vec (g ++ r) = g := by
  induction g with
  | nil => exact h.elim
  | cons w ws ih =>
    cases ws with
    | nil => simp [isVec] at h; simp [vec, h]
    | cons v vs =>
      simp [isVec] at h
      have := ih h.2
      simp only [List.cons_append] at this ⊢
      rw [vec, if_pos h.1, this]

theorem vec_self {g : List LW} (h : isVec g) : vec g = g := by simpa using vec_append h []

theorem isVec_pushNext {g : List LW} (h : isVec g) {x : LW} (hx : x.next = false) : isVec (pushNext g x) := by
  induction g with
  | nil => exact h.elim
  | cons w ws ih =>
    cases ws with
    | nil => simp [pushNext, isVec, hx]
    | cons v vs =>
      simp only [pushNext]
      simp only [isVec] at h
      have h2 := ih h.2
      cases hv : pushNext (v :: vs) x with
      | nil => cases vs <;> simp [pushNext] at hv
      | cons a as => rw [hv] at h2; exact ⟨h.1, h2⟩

theorem pushNext_append {a g : List LW} (h : g ≠ []) (x : LW) : pushNext (a ++ g) x = a ++ pushNext g x := by
  induction a with
  | nil => rfl
  | cons w ws ih =>
    rw [List.cons_append, List.cons_append, ← ih]
    cases hv : ws ++ g with
    | nil => simp at hv; exact absurd hv.2 h
    | cons => rfl

theorem pushNext_map {g : List LW} (x : LW) : (pushNext g x).map (fun w => (w.level, w.weight)) =
    g.map (fun w => (w.level, w.weight)) ++ [(x.level, x.weight)] := by
  induction g with
  | nil => rfl
  | cons w ws ih =>
    cases ws with
    | nil => rfl
    | cons v vs => simp only [pushNext, List.map_cons, List.cons_append]; rw [ih]; rfl

theorem pushNext_ne (g : List LW) (x : LW) : pushNext g x ≠ [] := by
  cases g with
  | nil => simp [pushNext]
  | cons w ws => cases ws <;> simp [pushNext]

/-- The weight of a sparse vector at a level. -/
def at' (g : List LW) (L : Nat) : Int :=
  match g.find? (fun w => w.level == L) with
  | some w => w.weight
  | none => 0

theorem at'_cons (w : LW) (g : List LW) (L : Nat) : at' (w :: g) L = if w.level = L then w.weight else at' g L := by
  unfold at'; rw [List.find?_cons]
  by_cases h : w.level = L
  · simp [h]
  · have : (w.level == L) = false := by simpa using h
    rw [this]; simp [h]

@[simp] theorem at'_nil (L : Nat) : at' [] L = 0 := rfl

theorem at'_not {g : List LW} {L : Nat} (h : ∀ w ∈ g, w.level ≠ L) : at' g L = 0 := by
  induction g with
  | nil => rfl
  | cons w g ih => rw [at'_cons, if_neg (h w (.head _)), ih fun v hv => h v (.tail _ hv)]

/-- Well-formed sparse vectors: increasing levels, non-zero weights. -/
structure GoodVec (g : List LW) : Prop where
  vec : isVec g
  inc : g.Pairwise (fun a b => a.level < b.level)
  nz : ∀ w ∈ g, w.weight ≠ 0

theorem at'_eq_of_map {g h : List LW} (e : g.map (fun w => (w.level, w.weight)) = h.map (fun w => (w.level, w.weight))) (L : Nat) :
    at' g L = at' h L := by
  induction g generalizing h with
  | nil => cases h <;> simp at e; rfl
  | cons a g ih =>
    cases h with
    | nil => simp at e
    | cons b h => simp at e; rw [at'_cons, at'_cons, e.1.1, e.1.2, ih (by simpa using e.2)]

theorem at'_pushNext {g : List LW} {x : LW} (hx : ∀ w ∈ g, w.level ≠ x.level) (L : Nat) :
    at' (pushNext g x) L = at' g L + if x.level = L then x.weight else 0 := by
  have h : at' (pushNext g x) L = at' (g ++ [x]) L := at'_eq_of_map (by rw [pushNext_map]; simp) L
  rw [h]
  clear h
  induction g with
  | nil => simp [at'_cons]
  | cons w g ih =>
    have hw := hx w (.head _)
    rw [List.cons_append, at'_cons, at'_cons, ih fun v hv => hx v (.tail _ hv)]
    by_cases h : w.level = L
    · subst h; simp [Ne.symm hw]
    · simp [h]

theorem inc_pushNext {g : List LW} {x : LW} (h : g.Pairwise (fun a b => a.level < b.level)) (hx : ∀ w ∈ g, w.level < x.level) :
    (pushNext g x).Pairwise (fun a b => a.level < b.level) := by
  have h1 : ((pushNext g x).map (fun w => (w.level, w.weight))).Pairwise (fun a b => a.1 < b.1) := by
    rw [pushNext_map]
    refine List.pairwise_append.2 ⟨List.pairwise_map.2 h, by simp, ?_⟩
    intro a ha b hb
    obtain ⟨w, hw, rfl⟩ := List.mem_map.1 ha
    simp at hb; subst hb; exact hx w hw
  rw [List.pairwise_map] at h1; exact h1

theorem mem_pushNext {g : List LW} {x w : LW} (h : w ∈ pushNext g x) :
    (w.level = x.level ∧ w.weight = x.weight) ∨ ∃ v ∈ g, w.level = v.level ∧ w.weight = v.weight := by
  have h1 : (w.level, w.weight) ∈ (pushNext g x).map (fun w => (w.level, w.weight)) := List.mem_map.2 ⟨w, h, rfl⟩
  rw [pushNext_map] at h1
  rcases List.mem_append.1 h1 with h1 | h1
  · obtain ⟨v, hv, e⟩ := List.mem_map.1 h1; simp at e; exact .inr ⟨v, hv, e.1.symm, e.2.symm⟩
  · simp at h1; exact .inl h1

/-! ### Order of weight vectors -/

/-- `f` is lexicographically greater than `g`. -/
def LexGt (f g : Nat → Int) : Prop := ∃ i, (∀ j < i, f j = g j) ∧ f i > g i

theorem LexGt.at {f g : Nat → Int} {i : Nat} (h : ∀ j < i, f j = g j) (hn : f i ≠ g i) : LexGt f g ↔ f i > g i := by
  constructor
  · rintro ⟨k, h1, h2⟩
    rcases Nat.lt_trichotomy k i with hk | hk | hk
    · have := h k hk; omega
    · subst hk; exact h2
    · exact absurd (h1 i hk) hn
  · intro h1; exact ⟨i, h, h1⟩

theorem LexGt.irrefl {f g : Nat → Int} (h : ∀ j, f j = g j) : ¬ LexGt f g := by
  rintro ⟨i, _, h2⟩; rw [h i] at h2; exact lt_irrefl _ h2

theorem LexGt.asymm {f g : Nat → Int} (h : LexGt f g) : ¬ LexGt g f := by
  obtain ⟨i, h1, h2⟩ := h
  rw [LexGt.at (fun j hj => (h1 j hj).symm) (by omega)]; omega

theorem LexGt.total {f g : Nat → Int} (h : ¬ LexGt f g) (h' : ¬ LexGt g f) (j : Nat) : f j = g j := by
  induction j using Nat.strong_induction_on with
  | _ j ih =>
    by_contra hn
    rcases lt_or_gt_of_ne hn with hl | hl
    · exact h' ⟨j, fun k hk => (ih k hk).symm, hl⟩
    · exact h ⟨j, ih, hl⟩

theorem LexGt.trans {f g k : Nat → Int} (h : LexGt f g) (h' : LexGt g k) : LexGt f k := by
  obtain ⟨i, h1, h2⟩ := h
  obtain ⟨j, h3, h4⟩ := h'
  rcases Nat.lt_trichotomy i j with hk | hk | hk
  · exact ⟨i, fun m hm => by rw [h1 m hm, h3 m (by omega)], by rw [← h3 i hk]; exact h2⟩
  · subst hk; exact ⟨i, fun m hm => by rw [h1 m hm, h3 m hm], by omega⟩
  · exact ⟨j, fun m hm => by rw [h1 m (by omega), h3 m hm], by rw [h1 j hk]; exact h4⟩

theorem LexGt.not_trans {f g k : Nat → Int} (h : ¬ LexGt g f) (h' : ¬ LexGt k g) : ¬ LexGt k f := by
  intro hk
  by_cases hfg : LexGt f g
  · exact h' (hk.trans hfg)
  · have : ∀ j, f j = g j := LexGt.total hfg h
    apply h'
    obtain ⟨i, h1, h2⟩ := hk
    exact ⟨i, fun j hj => by rw [h1 j hj, this], by rw [← this]; exact h2⟩

theorem GoodVec.tail {w : LW} {g : List LW} (h : GoodVec (w :: g)) (hn : w.next = true) : GoodVec g := by
  refine ⟨?_, (List.pairwise_cons.1 h.inc).2, fun v hv => h.nz v (.tail _ hv)⟩
  have := h.vec
  cases g with
  | nil => simp [isVec, hn] at this
  | cons v vs => exact this.2

theorem GoodVec.single {w : LW} {g : List LW} (h : GoodVec (w :: g)) (hn : w.next = false) : g = [] := by
  have := h.vec
  cases g with
  | nil => rfl
  | cons v vs => simp [isVec, hn] at this

theorem GoodVec.at_lt {w : LW} {g : List LW} (h : GoodVec (w :: g)) {L : Nat} (hL : L < w.level) : at' (w :: g) L = 0 :=
  at'_not fun v hv => by
    rcases List.mem_cons.1 hv with rfl | hv
    · omega
    · have := (List.pairwise_cons.1 h.inc).1 v hv; omega

theorem GoodVec.at_tail {w : LW} {g : List LW} (h : GoodVec (w :: g)) {L : Nat} (hL : L ≤ w.level) : at' g L = 0 :=
  at'_not fun v hv => by have := (List.pairwise_cons.1 h.inc).1 v hv; omega

theorem cmpVec_iff : ∀ {a b : List LW} (r s : List LW), GoodVec a → GoodVec b →
    (cmpVec (a ++ r) (b ++ s) = true ↔ LexGt (at' a) (at' b)) := by
  intro a
  induction a with
  | nil => intro b r s ha; exact ha.vec.elim
  | cons w a ih =>
    intro b r s ha hb
    cases b with
    | nil => exact hb.vec.elim
    | cons v b =>
      have hwa : at' (w :: a) w.level = w.weight := by rw [at'_cons]; simp
      have hvb : at' (v :: b) v.level = v.weight := by rw [at'_cons]; simp
      have hw0 := ha.nz w (.head _)
      have hv0 := hb.nz v (.head _)
      simp only [List.cons_append, cmpVec]
      split
      · rename_i hl
        split
        · rename_i hlt
          rw [LexGt.at (i := w.level) (fun j hj => by rw [ha.at_lt hj, hb.at_lt (by omega)])]
          · rw [hwa, hb.at_lt hlt]; simp
          · rw [hwa, hb.at_lt hlt]; exact hw0
        · rename_i hlt
          have hlt : v.level < w.level := by omega
          rw [LexGt.at (i := v.level) (fun j hj => by rw [ha.at_lt (by omega), hb.at_lt hj])]
          · rw [hvb, ha.at_lt hlt]; simp
          · rw [hvb, ha.at_lt hlt]; exact hv0.symm
      · rename_i hl
        have hl : w.level = v.level := by simpa using hl
        have hbelow : ∀ j < w.level, at' (w :: a) j = at' (v :: b) j := fun j hj => by
          rw [ha.at_lt hj, hb.at_lt (by omega)]
        split
        · rename_i hw
          rw [LexGt.at hbelow]
          · rw [hwa, hl, hvb]; simp
          · rw [hwa, hl, hvb]; exact hw
        · rename_i hw
          have hw : w.weight = v.weight := by simpa using hw
          -- equal heads: compare the tails
          have hred : LexGt (at' (w :: a)) (at' (v :: b)) ↔ LexGt (at' a) (at' b) := by
            have hz1 : ∀ j ≤ w.level, at' a j = at' b j := fun j hj => by rw [ha.at_tail hj, hb.at_tail (by omega)]
            have he : ∀ j ≤ w.level, at' (w :: a) j = at' (v :: b) j := by
              intro j hj
              rcases Nat.lt_or_eq_of_le hj with h | h
              · exact hbelow j h
              · rw [h, hwa, hl, hvb, hw]
            have hgt : ∀ j, w.level < j → at' (w :: a) j = at' a j ∧ at' (v :: b) j = at' b j := by
              intro j hj; rw [at'_cons, at'_cons, if_neg (by omega), if_neg (by omega)]; exact ⟨rfl, rfl⟩
            constructor
            · rintro ⟨i, h1, h2⟩
              have hi : w.level < i := by
                by_contra hc; have := he i (by omega); omega
              refine ⟨i, fun j hj => ?_, by rw [(hgt i hi).1, (hgt i hi).2] at h2; exact h2⟩
              by_cases hj2 : j ≤ w.level
              · exact hz1 j hj2
              · have := h1 j hj; rw [(hgt j (by omega)).1, (hgt j (by omega)).2] at this; exact this
            · rintro ⟨i, h1, h2⟩
              have hi : w.level < i := by
                by_contra hc; have := hz1 i (by omega); omega
              refine ⟨i, fun j hj => ?_, by rw [(hgt i hi).1, (hgt i hi).2]; exact h2⟩
              by_cases hj2 : j ≤ w.level
              · exact he j hj2
              · rw [(hgt j (by omega)).1, (hgt j (by omega)).2]; exact h1 j hj
          rw [hred]
          cases hwn : w.next with
          | false =>
            have := ha.single hwn; subst this
            simp only [Bool.not_false, if_true]
            cases hvn : v.next with
            | false =>
              have := hb.single hvn; subst this
              simp only [Bool.false_and, Bool.false_eq_true, false_iff]; exact LexGt.irrefl fun _ => rfl
            | true =>
              have hb' := hb.tail hvn
              cases b with
              | nil => exact hb'.vec.elim
              | cons c cs =>
                have hc0 := hb'.nz c (.head _)
                have hcc : at' (c :: cs) c.level = c.weight := by rw [at'_cons]; simp
                rw [LexGt.at (i := c.level) (fun j hj => by rw [hb'.at_lt hj]; rfl)]
                · rw [hcc]; simp
                · rw [hcc]; exact hc0.symm
          | true =>
            have ha' := ha.tail hwn
            simp only [Bool.not_true, Bool.false_eq_true, if_false]
            cases hvn : v.next with
            | false =>
              have := hb.single hvn; subst this
              cases a with
              | nil => exact ha'.vec.elim
              | cons c cs =>
                have hc0 := ha'.nz c (.head _)
                have hcc : at' (c :: cs) c.level = c.weight := by rw [at'_cons]; simp
                rw [LexGt.at (i := c.level) (fun j hj => by rw [ha'.at_lt hj]; rfl)]
                · rw [hcc]; simp
                · rw [hcc]; exact hc0
            | true =>
              simp only [Bool.not_true, Bool.false_eq_true, if_false]
              exact ih r s ha' (hb.tail hvn)

theorem GoodVec.eq_of_at : ∀ {a b : List LW}, GoodVec a → GoodVec b → (∀ L, at' a L = at' b L) → a = b := by
  intro a
  induction a with
  | nil => intro b ha; exact ha.vec.elim
  | cons w a ih =>
    intro b ha hb h
    cases b with
    | nil => exact hb.vec.elim
    | cons v b =>
      have hwa : at' (w :: a) w.level = w.weight := by rw [at'_cons]; simp
      have hvb : at' (v :: b) v.level = v.weight := by rw [at'_cons]; simp
      have hw0 := ha.nz w (.head _)
      have hv0 := hb.nz v (.head _)
      have hl : w.level = v.level := by
        rcases Nat.lt_trichotomy w.level v.level with hl | hl | hl
        · have := h w.level; rw [hwa, hb.at_lt hl] at this; exact absurd this hw0
        · exact hl
        · have := h v.level; rw [hvb, ha.at_lt hl] at this; exact absurd this.symm hv0
      have hw : w.weight = v.weight := by have := h w.level; rw [hwa, hl, hvb] at this; exact this
      have ht : ∀ L, at' a L = at' b L := by
        intro L
        by_cases hL : L ≤ w.level
        · rw [ha.at_tail hL, hb.at_tail (by omega)]
        · have := h L; rwa [at'_cons, at'_cons, if_neg (by omega), if_neg (by omega)] at this
      cases hwn : w.next with
      | false =>
        have := ha.single hwn; subst this
        cases hvn : v.next with
        | false => have := hb.single hvn; subst this; cases w; cases v; simp at *; exact ⟨hl, by rw [hwn, hvn], hw⟩
        | true =>
          have hb' := hb.tail hvn
          cases b with
          | nil => exact hb'.vec.elim
          | cons c cs =>
            have h1 := ht c.level
            rw [at'_cons c cs, if_pos rfl, at'_nil] at h1
            exact absurd h1.symm (hb'.nz c (.head _))
      | true =>
        have ha' := ha.tail hwn
        cases hvn : v.next with
        | false =>
          have := hb.single hvn; subst this
          cases a with
          | nil => exact ha'.vec.elim
          | cons c cs =>
            have h1 := ht c.level
            rw [at'_cons c cs, if_pos rfl, at'_nil] at h1
            exact absurd h1 (ha'.nz c (.head _))
        | true =>
          have := ih ha' (hb.tail hvn) ht
          subst this
          congr 1
          cases w; cases v; simp at *; exact ⟨hl, by rw [hwn, hvn], hw⟩

end Clasp.Mini
