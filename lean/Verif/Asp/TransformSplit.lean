import Verif.Asp.TransformSelect
import Mathlib.Data.List.Perm.Subperm
import Mathlib.Data.List.Nodup

/-! The translation of a sum with new atoms (C26). No code is modelled in this file; it contains proof devices only. -/

namespace Clasp.Asp

section
variable (agg : List (BLit × Int)) (bound : Int) (h base : Nat)

/-- Proof device: the item's condition. -/
def TItem.cond (X M : AtomSet) (j : TItem) : Prop := j.bound ≤ wsum X M (agg.drop j.idx)

instance (X M : AtomSet) (j : TItem) : Decidable (j.cond agg X M) := by unfold TItem.cond; infer_instance

/-- Proof device: the new atoms have the right values. -/
def SVal (its : List TItem) (X M : AtomSet) : Prop :=
  (∀ j ∈ its, j.idx ≠ 0 → X j.head = decide (j.cond agg X M)) ∧ ∀ j ∈ its, j.cond agg X M → Got X j.head

/-- Proof device: what remains of the bound. -/
def left (it : TItem) (add : Bool) (x : BLit × Int) : Int := it.bound - if add then x.2 else 0

/-- Proof device: the rules derive the head of an item. -/
def Cmp (its : List TItem) (out : List Rule) (it : TItem) (add : Bool) : Prop :=
  ∀ x, agg[it.idx]? = some x → ∀ X M, Closed out X M → (add = true → x.1.holds X M = true) → left it add x ≤ wsum X M (agg.drop (it.idx + 1)) →
    (∀ j ∈ its, j.idx = it.idx + 1 → j.bound = left it add x → Got X j.head) → Got X it.head

/-- Proof device: the invariant; `its` are all items pushed so far. -/
structure SI (its : List TItem) (s : Sp) : Prop where
  first : its[0]? = some ⟨0, bound, h⟩
  heads : ∀ k it, its[k + 1]? = some it → it.head = base + k ∧ it.idx ≠ 0
  len : its.length + base = s.next + 1
  rng : ∀ it ∈ its, it.idx + 1 < agg.length ∧ 1 ≤ it.bound ∧ it.bound ≤ bound
  lev : ∀ it ∈ its, it.idx ≤ s.level + 1
  auxlen : s.aux.length = bound.toNat
  aux : ∀ (k a : Nat), s.aux[k]? = some a → (a = 0 ∧ ∀ it ∈ its, ¬ (it.idx = s.level + 1 ∧ it.bound = (k : Int) + 1)) ∨ (a ≠ 0 ∧ ⟨s.level + 1, (k : Int) + 1, a⟩ ∈ its)
  nodup : (its.map fun it => (it.idx, it.bound)).Nodup
  snd : ∀ r ∈ s.out, ∀ X M, SVal agg its X M → r.ok X M
  hb : h < base
  hn : ∀ x ∈ agg, x.1.atom < base
  blw : ∀ r ∈ s.out, r.below s.next
  mk' : ∀ r ∈ s.out, ∃ h b, r = mkRule h b

variable {agg bound h base}

theorem SVal.mono {its new : List TItem} {X M : AtomSet} (hv : SVal agg (its ++ new) X M) : SVal agg its X M :=
  ⟨fun j hj => hv.1 j (List.mem_append_left _ hj), fun j hj => hv.2 j (List.mem_append_left _ hj)⟩

theorem Cmp.mono {its new : List TItem} {out ro : List Rule} {it : TItem} {add : Bool} (hc : Cmp agg its out it add) : Cmp agg (its ++ new) (out ++ ro) it add :=
  fun x hx X M hcl h1 h2 h3 => hc x hx X M (closed_append.1 hcl).1 h1 h2 fun j hj => h3 j (List.mem_append_left _ hj)

theorem drop_eq {i : Nat} {x : BLit × Int} (hx : agg[i]? = some x) : agg.drop i = x :: agg.drop (i + 1) := by
  obtain ⟨hi, rfl⟩ := List.getElem?_eq_some_iff.1 hx
  exact List.drop_eq_getElem_cons hi

theorem SI.base_le {its : List TItem} {s : Sp} (hs : SI agg bound h base its s) : base ≤ s.next := by
  have hne : its ≠ [] := by intro e; have := hs.first; rw [e] at this; cases this
  have := List.length_pos_of_ne_nil hne
  have := hs.len
  omega

theorem SI.head_lt {its : List TItem} {s : Sp} (hs : SI agg bound h base its s) {it : TItem} (hit : it ∈ its) : it.head < s.next := by
  obtain ⟨k, hk⟩ := List.mem_iff_getElem?.1 hit
  have hkl := (List.getElem?_eq_some_iff.1 hk).1
  have := hs.len
  have := hs.base_le
  have := hs.hb
  cases k with
  | zero => rw [hs.first] at hk; cases hk; simp only []; omega
  | succ k => rw [(hs.heads k it hk).1]; omega

/-- Adding one rule. -/
theorem SI.addRule {its : List TItem} {s : Sp} (hs : SI agg bound h base its s) {r : Rule} (hr : ∀ X M, SVal agg its X M → r.ok X M) (hb : r.below s.next)
    (hm : ∃ h b, r = mkRule h b) : SI agg bound h base its { s with out := s.out ++ [r] } := by
  refine ⟨hs.first, hs.heads, hs.len, hs.rng, hs.lev, hs.auxlen, hs.aux, hs.nodup, fun q hq => ?_, hs.hb, hs.hn, fun q hq => ?_, fun q hq => ?_⟩
  · rcases List.mem_append.1 hq with hq | hq
    · exact hs.snd q hq
    · rw [List.mem_singleton.1 hq]; exact hr
  · rcases List.mem_append.1 hq with hq | hq
    · exact hs.blw q hq
    · rw [List.mem_singleton.1 hq]; exact hb
  · rcases List.mem_append.1 hq with hq | hq
    · exact hs.mk' q hq
    · rw [List.mem_singleton.1 hq]; exact hm

theorem getAux_spec {its : List TItem} {s : Sp} (hs : SI agg bound h base its s) (hbase : base ≠ 0) {b : Int} (h1 : 1 ≤ b) (h2 : b ≤ bound)
    (h3 : s.level + 2 < agg.length) : ∃ a s' new, getAux agg.length s (s.level + 1) b = .ok (a, s') ∧ SI agg bound h base (its ++ new) s' ∧
      s'.todo = s.todo ++ new ∧ s'.level = s.level ∧ s'.out = s.out ∧ (∀ j ∈ new, j.idx = s.level + 1) ∧ ⟨s.level + 1, b, a⟩ ∈ its ++ new := by
  have hk : (b - 1).toNat < s.aux.length := by rw [hs.auxlen]; omega
  have hkb : (((b - 1).toNat : Nat) : Int) + 1 = b := by omega
  have hget : s.aux[(b - 1).toNat]? = some s.aux[(b - 1).toNat] := List.getElem?_eq_getElem hk
  generalize s.aux[(b - 1).toNat] = a at hget
  unfold getAux
  rw [if_neg (by omega), hget]
  cases a with
  | zero =>
    have h0 := (hs.aux _ _ hget).resolve_right (fun g => g.1 rfl)
    rw [hkb] at h0
    have hne : its ≠ [] := by intro e; have := hs.first; rw [e] at this; cases this
    have hlen : 0 < its.length := List.length_pos_of_ne_nil hne
    refine ⟨s.next, _, [⟨s.level + 1, b, s.next⟩], rfl, ?_, rfl, rfl, rfl, by simp, by simp⟩
    refine ⟨?_, ?_, ?_, ?_, ?_, ?_, ?_, ?_, ?_, ?_, ?_, ?_, ?_⟩
    · rw [List.getElem?_append_left hlen]; exact hs.first
    · intro k it hit
      by_cases hlt : k + 1 < its.length
      · rw [List.getElem?_append_left hlt] at hit; exact hs.heads k it hit
      · rw [List.getElem?_append_right (by omega)] at hit
        have hz : k + 1 - its.length = 0 := by
          by_contra hc
          obtain ⟨j, hj⟩ := Nat.exists_eq_succ_of_ne_zero hc
          rw [hj] at hit; simp at hit
        rw [hz] at hit
        simp only [List.getElem?_cons_zero, Option.some.injEq] at hit
        subst hit
        have := hs.len
        simp only []; omega
    · have := hs.len; simp only [List.length_append, List.length_cons, List.length_nil]; omega
    · intro it hit
      rcases List.mem_append.1 hit with hit | hit
      · exact hs.rng it hit
      · rw [List.mem_singleton.1 hit]; exact ⟨by simp only []; omega, h1, h2⟩
    · intro it hit
      rcases List.mem_append.1 hit with hit | hit
      · exact hs.lev it hit
      · rw [List.mem_singleton.1 hit]
    · simp only [List.length_set]; exact hs.auxlen
    · intro k a hka
      simp only [List.getElem?_set] at hka
      split at hka
      · next e =>
        try rw [if_pos hk] at hka
        simp only [Option.some.injEq] at hka
        subst hka e
        right
        have := hs.len
        refine ⟨by omega, ?_⟩
        rw [hkb]; simp
      · next e =>
        rcases hs.aux k a hka with ⟨g1, g2⟩ | ⟨g1, g2⟩
        · left
          refine ⟨g1, fun it hit => ?_⟩
          rcases List.mem_append.1 hit with hit | hit
          · exact g2 it hit
          · rw [List.mem_singleton.1 hit]
            simp only []; omega
        · right; exact ⟨g1, List.mem_append_left _ g2⟩
    · rw [List.map_append, List.nodup_append]
      refine ⟨hs.nodup, by simp, ?_⟩
      intro p hp q hq hpq
      subst hpq
      simp only [List.map_cons, List.map_nil, List.mem_singleton] at hq
      subst hq
      obtain ⟨it, hit, he⟩ := List.mem_map.1 hp
      simp only [Prod.mk.injEq] at he
      exact h0.2 it hit he
    · intro r hr X M hv; exact hs.snd r hr X M hv.mono
    · exact hs.hb
    · exact hs.hn
    · intro r hr; exact (hs.blw r hr).mono (Nat.le_succ _)
    · exact hs.mk'
  | succ a =>
    have h0 := (hs.aux _ _ hget).resolve_left (fun g => by cases g.1)
    rw [hkb] at h0
    exact ⟨a + 1, s, [], rfl, by simpa using hs, by simp, rfl, rfl, by simp, by simpa using h0.2⟩

theorem wsum_drop {i : Nat} {x : BLit × Int} (hx : agg[i]? = some x) (X M : AtomSet) :
    wsum X M (agg.drop i) = (if x.1.holds X M then x.2 else 0) + wsum X M (agg.drop (i + 1)) := by
  rw [drop_eq hx]; obtain ⟨l, w⟩ := x; rfl

/-- Proof device: the literals of a rule. -/
theorem lits_drop {i : Nat} {x : BLit × Int} (hx : agg[i]? = some x) (add : Bool) (X M : AtomSet) :
    ((agg.drop (if add then i else i + 1)).map Prod.fst).all (·.holds X M) = true ↔
      (add = true → x.1.holds X M = true) ∧ ((agg.drop (i + 1)).map Prod.fst).all (·.holds X M) = true := by
  cases add with
  | true => rw [if_pos rfl, drop_eq hx]; simp
  | false => simp

theorem splitRule_spec {its : List TItem} {s : Sp} (hs : SI agg bound h base its s) (hbase : base ≠ 0) (h0 : ∀ x ∈ agg, 0 ≤ x.2) {l : BLit × Int}
    (hl : agg.getLast? = some l) (hmin : ∀ x ∈ agg, l.2 ≤ x.2) {it : TItem} (hit : it ∈ its) (hlev : it.idx = s.level) {x : BLit × Int}
    (hx : agg[it.idx]? = some x) (add : Bool) : ∃ s' new ro, splitRule agg s it.head add it.idx (left it add x) = .ok s' ∧ SI agg bound h base (its ++ new) s' ∧
      s'.todo = s.todo ++ new ∧ s'.level = s.level ∧ s'.out = s.out ++ ro ∧ (∀ j ∈ new, j.idx = s.level + 1) ∧ Cmp agg (its ++ new) s'.out it add := by
  obtain ⟨hr1, hr2, hr3⟩ := hs.rng it hit
  have hx0 : 0 ≤ x.2 := h0 x (List.mem_of_getElem? hx)
  have hdrop : ∀ y ∈ agg.drop (it.idx + 1), 0 ≤ y.2 := fun y hy => h0 y (List.mem_of_mem_drop hy)
  have hdmin : ∀ y ∈ agg.drop (it.idx + 1), l.2 ≤ y.2 := fun y hy => hmin y (List.mem_of_mem_drop hy)
  have hhead := hs.head_lt hit
  have hlit : ∀ y ∈ agg, y.1.atom < s.next := fun y hy => Nat.lt_of_lt_of_le (hs.hn y hy) hs.base_le
  -- the body gives the item's condition
  have hfin : ∀ X M, SVal agg its X M → (add = true → x.1.holds X M = true) → left it add x ≤ wsum X M (agg.drop (it.idx + 1)) → Got X it.head := by
    intro X M hv g1 g2
    refine hv.2 it hit ?_
    unfold TItem.cond
    rw [wsum_drop hx]
    unfold left at g2
    cases add with
    | true => rw [if_pos (g1 rfl)]; simp only [if_true] at g2; omega
    | false => simp only [Bool.false_eq_true, if_false] at g2; split <;> omega
  unfold splitRule
  rw [hl, sumR_get agg (it.idx + 1) hr1, hx]
  simp only []
  by_cases hb : left it add x ≤ 0
  · rw [if_pos hb]
    have hadd : add = true := by
      cases add with
      | true => rfl
      | false => unfold left at hb; simp only [Bool.false_eq_true, if_false] at hb; omega
    rw [if_pos hadd]
    refine ⟨_, [], [mkRule it.head [x.1]], rfl, ?_, by simp, rfl, rfl, by simp, ?_⟩
    · rw [List.append_nil]
      refine hs.addRule (fun X M hv => mkRule_got.2 fun hh => hfin X M hv (fun _ => by simpa using hh) ?_)
        (mkRule_below hhead fun l hl => by rw [List.mem_singleton.1 hl]; exact hlit x (List.mem_of_getElem? hx)) ⟨_, _, rfl⟩
      have := wsum_nonneg (X := X) (M := M) hdrop
      omega
    · intro y hy X M hcl g1 _ _
      rw [hx] at hy; cases hy
      have := (closed_append.1 hcl).2
      rw [closed_single, mkRule_got] at this
      exact this (by simpa using g1 hadd)
  · rw [if_neg hb]
    by_cases hm : tot (agg.drop (it.idx + 1)) - l.2 < left it add x
    · rw [if_pos hm]
      by_cases hM : left it add x ≤ tot (agg.drop (it.idx + 1))
      · rw [if_pos hM]
        have key : ∀ X M, _ := fun X M => all_needed (X := X) (M := M) hdrop hdmin hm hM
        refine ⟨_, [], [_], rfl, ?_, by simp, rfl, rfl, by simp, ?_⟩
        · rw [List.append_nil]
          refine hs.addRule (fun X M hv => mkRule_got.2 fun hh => ?_) (mkRule_below hhead fun l hl => ?_) ⟨_, _, rfl⟩
          · rw [lits_drop hx] at hh
            exact hfin X M hv hh.1 ((key X M).1 hh.2)
          · obtain ⟨y, hy, rfl⟩ := List.mem_map.1 hl
            exact hlit y (List.mem_of_mem_drop hy)
        · intro y hy X M hcl g1 g2 _
          rw [hx] at hy; cases hy
          have := (closed_append.1 hcl).2
          rw [closed_single, mkRule_got] at this
          exact this ((lits_drop hx add X M).2 ⟨g1, (key X M).2 g2⟩)
      · rw [if_neg hM]
        refine ⟨_, [], [], rfl, by simpa using hs, by simp, rfl, by simp, by simp, ?_⟩
        intro y hy X M _ _ g2 _
        rw [hx] at hy; cases hy
        have := wsum_le_tot (X := X) (M := M) hdrop
        omega
    · rw [if_neg hm]
      have h2 : s.level + 2 < agg.length := by
        by_contra hc
        have he : it.idx + 2 = agg.length := by omega
        obtain ⟨pre, rfl⟩ := List.getLast?_eq_some_iff.1 hl
        simp only [List.length_append, List.length_cons, List.length_nil] at he
        have : (pre ++ [l]).drop (it.idx + 1) = [l] := by
          rw [show it.idx + 1 = pre.length from by omega, List.drop_left]
        rw [this] at hm
        simp at hm; omega
      have hle : left it add x ≤ bound := by unfold left; split <;> omega
      obtain ⟨a, s', new, e, g1, g2, g3, g4, g5, g6⟩ := getAux_spec hs hbase (b := left it add x) (by omega) hle h2
      rw [← hlev] at e g6
      rw [e]
      simp only []
      have hbody : ∀ X M : AtomSet, (if add = true then [x.1, ⟨a, false⟩] else [⟨a, false⟩] : List BLit).all (·.holds X M) = true ↔
          (add = true → x.1.holds X M = true) ∧ X a = true := by
        intro X M; cases add <;> simp [BLit.holds]
      refine ⟨_, new, [mkRule it.head (if add = true then [x.1, ⟨a, false⟩] else [⟨a, false⟩])], rfl, ?_, g2, g3, by rw [g4], g5, ?_⟩
      · refine g1.addRule (fun X M hv => mkRule_got.2 fun hh => ?_) (mkRule_below (g1.head_lt (List.mem_append_left _ hit)) fun l hl => ?_) ⟨_, _, rfl⟩
        · rw [hbody] at hh
          refine hfin X M hv.mono hh.1 ?_
          have := hv.1 _ g6 (by simp)
          simp only [hh.2] at this
          exact of_decide_eq_true this.symm
        · have ha : a < s'.next := g1.head_lt g6
          have hx' : x.1.atom < s'.next := Nat.lt_of_lt_of_le (g1.hn x (List.mem_of_getElem? hx)) g1.base_le
          cases add with
          | true =>
            simp only [if_true, List.mem_cons, List.not_mem_nil, or_false] at hl
            rcases hl with rfl | rfl
            · exact hx'
            · exact ha
          | false =>
            simp only [Bool.false_eq_true, if_false, List.mem_cons, List.not_mem_nil, or_false] at hl
            rw [hl]; exact ha
      · intro y hy X M hcl q1 q2 q3
        rw [hx] at hy; cases hy
        have := (closed_append.1 hcl).2
        rw [closed_single, mkRule_got] at this
        exact this ((hbody X M).2 ⟨q1, (q3 _ g6 rfl rfl).2⟩)

/-- The number of items is bounded. -/
theorem SI.count {its : List TItem} {s : Sp} (hs : SI agg bound h base its s) : its.length ≤ agg.length * bound.toNat := by
  have hnd : (its.map fun it => it.idx * bound.toNat + (it.bound - 1).toNat).Nodup := by
    have : (its.map fun it => it.idx * bound.toNat + (it.bound - 1).toNat) = (its.map fun it => (it.idx, it.bound)).map fun p => p.1 * bound.toNat + (p.2 - 1).toNat := by
      rw [List.map_map]; rfl
    rw [this]
    refine List.Nodup.map_on ?_ hs.nodup
    intro p hp q hq he
    obtain ⟨i, hi, rfl⟩ := List.mem_map.1 hp
    obtain ⟨j, hj, rfl⟩ := List.mem_map.1 hq
    simp only [] at he ⊢
    obtain ⟨_, i1, i2⟩ := hs.rng i hi
    obtain ⟨_, j1, j2⟩ := hs.rng j hj
    have hi' : (i.bound - 1).toNat < bound.toNat := by omega
    have hj' : (j.bound - 1).toNat < bound.toNat := by omega
    have e1 : i.idx = j.idx := by
      have := congrArg (· / bound.toNat) he
      beta_reduce at this
      rw [Nat.mul_comm i.idx, Nat.mul_comm j.idx, Nat.mul_add_div (by omega), Nat.mul_add_div (by omega), Nat.div_eq_of_lt hi', Nat.div_eq_of_lt hj'] at this
      omega
    rw [e1] at he
    exact Prod.ext e1 (by simp only []; omega)
  have hsub : (its.map fun it => it.idx * bound.toNat + (it.bound - 1).toNat) ⊆ List.range (agg.length * bound.toNat) := by
    intro v hv
    obtain ⟨i, hi, rfl⟩ := List.mem_map.1 hv
    obtain ⟨i0, i1, i2⟩ := hs.rng i hi
    rw [List.mem_range]
    have : (i.idx + 1) * bound.toNat ≤ agg.length * bound.toNat := Nat.mul_le_mul_right _ (by omega)
    rw [Nat.add_mul] at this
    omega
  have := (List.subperm_of_subset hnd hsub).length_le
  simpa using this

/-- The invariant of the loop. -/
structure LI (agg : List (BLit × Int)) (bound : Int) (h base : Nat) (done : List TItem) (s : Sp) : Prop where
  si : SI agg bound h base (done ++ s.todo) s
  sorted : s.todo.Pairwise fun a b => a.idx ≤ b.idx
  ge : ∀ it ∈ s.todo, s.level ≤ it.idx
  le : ∀ it ∈ done, it.idx ≤ s.level
  cmp : ∀ it ∈ done, ∀ add, Cmp agg (done ++ s.todo) s.out it add

theorem splitLoop_spec (hbase : base ≠ 0) (h0 : ∀ x ∈ agg, 0 ≤ x.2) {l : BLit × Int} (hl : agg.getLast? = some l) (hmin : ∀ x ∈ agg, l.2 ≤ x.2) :
    ∀ (fuel : Nat) (done : List TItem) (s : Sp), LI agg bound h base done s → fuel + done.length = agg.length * bound.toNat + 1 →
      ∃ done' s', splitLoop agg bound.toNat fuel s = .ok s' ∧ LI agg bound h base done' s' ∧ s'.todo = [] := by
  intro fuel
  induction fuel with
  | zero =>
    intro done s hs hf
    have := hs.si.count
    rw [List.length_append] at this
    omega
  | succ fuel ih =>
    intro done s hs hf
    unfold splitLoop
    cases ht : s.todo with
    | nil => exact ⟨done, s, rfl, hs, ht⟩
    | cons i r =>
      simp only []
      have hi : i ∈ done ++ s.todo := by rw [ht]; simp
      obtain ⟨hr1, hr2, hr3⟩ := hs.si.rng i hi
      have hge := hs.ge i (by rw [ht]; simp)
      have hlevi := hs.si.lev i hi
      have hsort : ∀ j ∈ r, i.idx ≤ j.idx := by
        have := hs.sorted; rw [ht] at this; exact (List.pairwise_cons.1 this).1
      -- after the new level was started
      generalize hs1 : (if s.level < i.idx then { s with todo := r, level := i.idx, aux := List.replicate bound.toNat 0 } else { s with todo := r } : Sp) = s1
      have hst : s1.todo = r ∧ s1.level = i.idx ∧ s1.out = s.out ∧ s1.next = s.next := by
        subst hs1
        split
        · exact ⟨rfl, rfl, rfl, rfl⟩
        · exact ⟨rfl, by simp only []; omega, rfl, rfl⟩
      obtain ⟨e1, e2, e3, e4⟩ := hst
      have hle1 : ∀ j ∈ done ++ s.todo, j.idx ≤ i.idx + 1 := by
        intro j hj
        have := hs.si.lev j hj
        omega
      have hsi1 : SI agg bound h base (done ++ s.todo) s1 := by
        refine ⟨hs.si.first, hs.si.heads, by rw [e4]; exact hs.si.len, hs.si.rng, by rw [e2]; exact hle1, ?_, ?_, hs.si.nodup, by rw [e3]; exact hs.si.snd, hs.si.hb, hs.si.hn, by rw [e3, e4]; exact hs.si.blw, by rw [e3]; exact hs.si.mk'⟩
        · subst hs1; split
          · simp
          · exact hs.si.auxlen
        · rw [e2]
          subst hs1; split
          · next hlt =>
            intro k a hka
            simp only [List.getElem?_replicate] at hka
            left
            refine ⟨by split at hka <;> simp at hka; exact hka.symm, ?_⟩
            rintro j hj ⟨g, _⟩
            have := hs.si.lev j hj
            omega
          · next hlt =>
            have : i.idx = s.level := by omega
            rw [this]
            exact hs.si.aux
      have hx : agg[i.idx]? = some agg[i.idx] := List.getElem?_eq_getElem (by omega)
      generalize agg[i.idx] = x at hx
      rw [hx]
      simp only []
      obtain ⟨s2, n2, r2, g1, g2, g3, g4, g5, g6, g7⟩ := splitRule_spec hsi1 hbase h0 hl hmin hi e2.symm hx true
      have gl : left i true x = i.bound - x.2 := by simp [left]
      rw [gl] at g1
      rw [g1]
      simp only []
      obtain ⟨s3, n3, r3, q1, q2, q3, q4, q5, q6, q7⟩ := splitRule_spec g2 hbase h0 hl hmin (List.mem_append_left _ hi) (by rw [g4]; exact e2.symm) hx false
      have ql : left i false x = i.bound := by simp [left]
      rw [ql] at q1
      rw [q1]
      simp only []
      have hall : done ++ s.todo ++ n2 ++ n3 = (done ++ [i]) ++ s3.todo := by rw [q3, g3, e1, ht]; simp
      have hnew : ∀ j ∈ n2 ++ n3, j.idx = i.idx + 1 := by
        intro j hj
        rcases List.mem_append.1 hj with hj | hj
        · rw [g6 j hj, e2]
        · rw [q6 j hj, g4, e2]
      have htodo : s3.todo = r ++ (n2 ++ n3) := by rw [q3, g3, e1]; simp
      have hl3 : s3.level = i.idx := by rw [q4, g4, e2]
      refine ih (done ++ [i]) s3 ⟨by rw [← hall]; exact q2, ?_, ?_, ?_, ?_⟩ (by simp only [List.length_append, List.length_cons, List.length_nil]; omega)
      · rw [htodo, List.pairwise_append]
        refine ⟨?_, ?_, ?_⟩
        · have := hs.sorted; rw [ht] at this; exact (List.pairwise_cons.1 this).2
        · exact List.pairwise_iff_getElem.2 fun a b ha hb _ => by rw [hnew _ (List.getElem_mem ha), hnew _ (List.getElem_mem hb)]
        · intro a ha b hb
          rw [hnew b hb]
          exact hle1 a (by rw [ht]; simp [ha])
      · rw [htodo, hl3]
        intro j hj
        rcases List.mem_append.1 hj with hj | hj
        · exact hsort j hj
        · rw [hnew j hj]; omega
      · rw [hl3]
        intro j hj
        rcases List.mem_append.1 hj with hj | hj
        · have := hs.le j hj; omega
        · rw [List.mem_singleton.1 hj]
      · intro j hj add
        rw [← hall]
        rcases List.mem_append.1 hj with hj | hj
        · have := (hs.cmp j hj add).mono (new := n2) (ro := r2)
          rw [← e3, ← g5] at this
          have := this.mono (new := n3) (ro := r3)
          rw [← q5] at this
          exact this
        · rw [List.mem_singleton.1 hj]
          cases add with
          | true =>
            have := g7.mono (new := n3) (ro := r3)
            rw [← q5] at this
            exact this
          | false => exact q7

/-- Proof device: the values of the new atoms. -/
def splitD (agg : List (BLit × Int)) (base : Nat) (its : List TItem) (X M : AtomSet) : AtomSet := fun a => match its[a - base + 1]? with
  | some j => decide (base ≤ a) && decide (j.cond agg X M)
  | none => false

theorem LI.derive {done : List TItem} {s : Sp} (hs : LI agg bound h base done s) (ht : s.todo = []) {X M : AtomSet}
    (hc : Closed s.out X M) : ∀ (k : Nat) (it : TItem), it ∈ done → agg.length - it.idx = k → it.cond agg X M → Got X it.head := by
  intro k
  induction k using Nat.strongRecOn with
  | _ k ih =>
    intro it hit hk hcond
    have hit' : it ∈ done ++ s.todo := by rw [ht]; simpa using hit
    obtain ⟨hr1, _, _⟩ := hs.si.rng it hit'
    have hx : agg[it.idx]? = some agg[it.idx] := List.getElem?_eq_getElem (by omega)
    generalize agg[it.idx] = x at hx
    unfold TItem.cond at hcond
    rw [wsum_drop hx] at hcond
    have step : ∀ add, (add = true → x.1.holds X M = true) → left it add x ≤ wsum X M (agg.drop (it.idx + 1)) → Got X it.head := by
      intro add g1 g2
      refine hs.cmp it hit add x hx X M hc g1 g2 fun j hj hji hjb => ?_
      rw [ht, List.append_nil] at hj
      refine ih (agg.length - j.idx) (by omega) j hj rfl ?_
      unfold TItem.cond
      rw [hji, hjb]; exact g2
    by_cases hl : x.1.holds X M = true
    · rw [if_pos hl] at hcond
      exact step true (fun _ => hl) (by simp only [left, if_true]; omega)
    · rw [if_neg hl] at hcond
      exact step false (fun h => Bool.noConfusion h) (by simp only [left, Bool.false_eq_true, if_false]; omega)

theorem split_spec {n : Nat} {aux : List Nat} (hbase : base ≠ 0) (h0 : ∀ x ∈ agg, 0 ≤ x.2) {l : BLit × Int} (hl : agg.getLast? = some l)
    (hmin : ∀ x ∈ agg, l.2 ≤ x.2) (hb : 0 < bound) (hsum : bound ≤ tot agg - l.2) (hn : ∀ x ∈ agg, x.1.atom < n) (hnb : n ≤ base) (hh : h < base) (haux : ∀ a ∈ aux, a = 0) :
    ∃ s D, transformSplit agg bound h aux base = .ok s ∧ (∀ a ∈ s.aux, a = 0) ∧ (∀ r ∈ s.out, r.below s.next) ∧ (∀ r ∈ s.out, ∃ h b, r = mkRule h b) ∧ Sim n base s.next (fun X M => bound ≤ wsum X M agg) h s.out D := by
  have hlen : 1 < agg.length := by
    obtain ⟨pre, rfl⟩ := List.getLast?_eq_some_iff.1 hl
    cases pre with
    | nil => simp at hsum; omega
    | cons => simp
  generalize hs0 : (⟨aux.take bound.toNat ++ List.replicate (bound.toNat - aux.length) 0, [⟨0, bound, h⟩], 0, base, []⟩ : Sp) = s0
  have hli : LI agg bound h base [] s0 := by
    subst hs0
    refine ⟨⟨rfl, ?_, ?_, ?_, ?_, ?_, ?_, ?_, ?_, hh, fun x hx => Nat.lt_of_lt_of_le (hn x hx) hnb, ?_, ?_⟩, ?_, ?_, ?_, ?_⟩
    · intro k it hit; simp at hit
    · simp; omega
    · intro it hit; simp at hit; subst hit; exact ⟨by simpa using hlen, by simp only []; omega, Int.le_refl _⟩
    · intro it hit; simp at hit; subst hit; simp
    · simp; omega
    · intro k a hka
      left
      have : a ∈ aux.take bound.toNat ++ List.replicate (bound.toNat - aux.length) 0 := List.mem_of_getElem? hka
      refine ⟨?_, ?_⟩
      · rcases List.mem_append.1 this with g | g
        · exact haux a (List.mem_of_mem_take g)
        · exact (List.mem_replicate.1 g).2
      · intro it hit; simp at hit; subst hit; simp
    · simp
    · intro r hr; simp at hr
    · intro r hr; simp at hr
    · intro r hr; simp at hr
    · simp
    · intro it hit; simp at hit; subst hit; simp
    · intro it hit; simp at hit
    · intro it hit; simp at hit
  obtain ⟨done, s, e, hd, ht⟩ := splitLoop_spec hbase h0 hl hmin (agg.length * bound.toNat + 1) [] s0 hli (by simp)
  have hits : done ++ s.todo = done := by rw [ht, List.append_nil]
  have hsi := hd.si
  rw [hits] at hsi
  refine ⟨s, splitD agg base done, by unfold transformSplit; rw [hs0]; exact e, ?_, hsi.blw, hsi.mk', ?_⟩
  · intro a ha
    obtain ⟨k, hk⟩ := List.mem_iff_getElem?.1 ha
    rcases hsi.aux k a hk with g | g
    · exact g.1
    · have := hd.le _ g.2
      simp only [] at this; omega
  · have hne : done ≠ [] := by intro e; have := hsi.first; rw [e] at this; cases this
    have hlen := hsi.len
    have hpos := List.length_pos_of_ne_nil hne
    have hfirst : (⟨0, bound, h⟩ : TItem) ∈ done := List.mem_of_getElem? hsi.first
    have hcongr : ∀ (X Y M N : AtomSet), (∀ a < n, X a = Y a) → (∀ a < n, M a = N a) → ∀ j : TItem, (j.cond agg X M ↔ j.cond agg Y N) := by
      intro X Y M N h1 h2 j
      unfold TItem.cond
      rw [wsum_below (fun x hx => hn x (List.mem_of_mem_drop hx)) h1 h2]
    have hmono : ∀ (X Y M : AtomSet), Sub X Y → ∀ j : TItem, j.cond agg X M → j.cond agg Y M := by
      intro X Y M hs j hj
      unfold TItem.cond at *
      have := wsum_mono (M := M) hs (agg.drop j.idx) fun x hx => h0 x (List.mem_of_mem_drop hx)
      omega
    have hinv : ∀ {X M a}, splitD agg base done X M a = true → ∃ j ∈ done, j.head = a ∧ j.cond agg X M ∧ base ≤ a ∧ a < s.next := by
      intro X M a ha
      unfold splitD at ha
      split at ha
      · next j hj =>
        simp only [Bool.and_eq_true, decide_eq_true_eq] at ha
        have h1 := (hsi.heads _ j hj).1
        have h2 := (List.getElem?_eq_some_iff.1 hj).1
        exact ⟨j, List.mem_of_getElem? hj, by omega, ha.2, ha.1, by omega⟩
      · cases ha
    refine ⟨by omega, ?_, ?_, ?_, ?_, ?_, ?_, ?_⟩
    · intro X M a ha
      obtain ⟨j, _, _, _, g1, g2⟩ := hinv ha
      exact ⟨g1, g2⟩
    · intro X Y M N h1 h2
      funext a
      unfold splitD
      split
      · simp only [hcongr X Y M N h1 h2]
      · rfl
    · intro X Y M N h1 h2
      simpa [TItem.cond] using hcongr X Y M N h1 h2 ⟨0, bound, h⟩
    · intro X Y M hs a ha
      unfold splitD at *
      split at ha
      · next j hj =>
        simp only [Bool.and_eq_true, decide_eq_true_eq] at ha ⊢
        exact ⟨ha.1, hmono X Y M hs j ha.2⟩
      · cases ha
    · intro X Y M hs hS
      simpa [TItem.cond] using hmono X Y M hs ⟨0, bound, h⟩ (by simpa [TItem.cond] using hS)
    · intro X M hc
      refine ⟨fun a ha => ?_, fun hS => ?_⟩
      · obtain ⟨j, hj, rfl, hcond, _, _⟩ := hinv ha
        exact (hd.derive ht hc _ j hj rfl hcond).2
      · exact hd.derive ht hc _ _ hfirst rfl (by simpa [TItem.cond] using hS)
    · intro X M hX hS r hr
      refine hsi.snd r hr X M ⟨fun j hj hj0 => ?_, fun j hj hcond => ?_⟩
      all_goals
        obtain ⟨k, hk⟩ := List.mem_iff_getElem?.1 hj
        have hkl := (List.getElem?_eq_some_iff.1 hk).1
        cases k with
        | zero =>
          rw [hsi.first] at hk
          cases hk
          first
            | exact absurd rfl hj0
            | exact hS (by simpa [TItem.cond] using hcond)
        | succ k =>
          have hh := (hsi.heads k j hk).1
          have hv : X j.head = decide (j.cond agg X M) := by
            rw [hX j.head (by omega) (by omega)]
            unfold splitD
            rw [hh, show base + k - base + 1 = k + 1 from by omega, hk]
            simp
          first
            | exact hv
            | exact ⟨by omega, by rw [hv]; exact decide_eq_true hcond⟩

end

end Clasp.Asp
