import Verif.Asp.TransformSim

/-! Sums: clamped weights, and the enumeration of minimal subsets (C26). No code is modelled in this file; it contains proof devices only. -/

namespace Clasp.Asp

variable {X M : AtomSet} {b : Int}

/-- Proof device: the sum of all weights. -/
def tot (ls : List (BLit × Int)) : Int := (ls.map Prod.snd).sum

@[simp] theorem tot_nil : tot [] = 0 := rfl
@[simp] theorem tot_cons {x : BLit × Int} {r : List (BLit × Int)} : tot (x :: r) = x.2 + tot r := by simp [tot]

theorem tot_perm {l l' : List (BLit × Int)} (h : l.Perm l') : tot l = tot l' := by
  induction h with
  | nil => rfl
  | cons x _ ih => simp only [tot_cons, ih]
  | swap x y l => simp only [tot_cons]; omega
  | trans _ _ h1 h2 => rw [h1, h2]

theorem wsum_perm {l l' : List (BLit × Int)} (h : l.Perm l') : wsum X M l = wsum X M l' := by
  induction h with
  | nil => rfl
  | cons x _ ih => obtain ⟨l, w⟩ := x; simp only [wsum, ih]
  | swap x y l => obtain ⟨l, w⟩ := x; obtain ⟨l', w'⟩ := y; simp only [wsum]; omega
  | trans _ _ h1 h2 => rw [h1, h2]

theorem wsum_le_tot : ∀ {ls : List (BLit × Int)}, (∀ x ∈ ls, 0 ≤ x.2) → wsum X M ls ≤ tot ls
  | [], _ => Int.le_refl _
  | (l, w) :: r, h => by
    have := wsum_le_tot (ls := r) fun x hx => h x (by simp [hx])
    have h0 : 0 ≤ w := h (l, w) (by simp)
    simp only [wsum, tot_cons]
    split <;> omega

theorem wsum_nonneg : ∀ {ls : List (BLit × Int)}, (∀ x ∈ ls, 0 ≤ x.2) → 0 ≤ wsum X M ls
  | [], _ => Int.le_refl _
  | (l, w) :: r, h => by
    have := wsum_nonneg (ls := r) fun x hx => h x (by simp [hx])
    have h0 : 0 ≤ w := h (l, w) (by simp)
    simp only [wsum]
    split <;> omega

theorem sumR_head : ∀ ls : List (BLit × Int), (sumR ls).headD 0 = tot ls
  | [] => rfl
  | x :: r => by simp only [sumR, List.headD_cons, tot_cons]; rw [sumR_head r]; omega

theorem sumR_length : ∀ ls : List (BLit × Int), (sumR ls).length = ls.length
  | [] => rfl
  | x :: r => by simp only [sumR, List.length_cons, sumR_length r]

theorem sumR_get : ∀ (ls : List (BLit × Int)) (i : Nat), i < ls.length → (sumR ls)[i]? = some (tot (ls.drop i))
  | [], _, h => by simp at h
  | x :: r, 0, _ => by
    simp only [sumR, List.getElem?_cons_zero, List.drop_zero, tot_cons]; rw [sumR_head]; congr 1; omega
  | x :: r, i + 1, h => by
    simp only [sumR, List.getElem?_cons_succ, List.drop_succ_cons]
    exact sumR_get r i (by simpa using h)

/-! ### Clamping -/

theorem clamp_ok : ∀ {ls agg : List (BLit × Int)}, clamp b ls = .ok agg → agg = ls.map (fun x => (x.1, min x.2 b)) ∧ (∀ x ∈ agg, 0 ≤ x.2) ∧ tot agg ≤ maxWeight
  | [], agg, h => by
    simp only [clamp, Except.ok.injEq] at h
    subst h; simp [maxWeight]
  | x :: r, agg, h => by
    unfold clamp at h
    split at h
    · cases h
    · next r' hr =>
      obtain ⟨h1, h2, h3⟩ := clamp_ok hr
      split at h
      · next hc =>
        rw [sumR_head] at hc
        simp only [Except.ok.injEq] at h
        subst h
        refine ⟨by rw [h1]; rfl, fun y hy => ?_, by simp only [tot_cons]; omega⟩
        rcases List.mem_cons.1 hy with rfl | hy
        · exact hc.1
        · exact h2 y hy
      · cases h

theorem clamp_total : ∀ {ls : List (BLit × Int)}, (∀ x ∈ ls, 0 ≤ min x.2 b) → tot (ls.map (fun x => (x.1, min x.2 b))) ≤ maxWeight →
    clamp b ls = .ok (ls.map (fun x => (x.1, min x.2 b)))
  | [], _, _ => rfl
  | x :: r, h1, h2 => by
    have h0 := h1 x (by simp)
    simp only [List.map_cons, tot_cons] at h2
    unfold clamp
    rw [clamp_total (fun y hy => h1 y (by simp [hy])) (by omega)]
    simp only []
    rw [if_pos ⟨h0, by rw [sumR_head]; omega⟩]
    rfl

/-- Clamped weights do not change whether the bound is reached. -/
theorem clamp_wsum {ls : List (BLit × Int)} (h : ∀ x ∈ ls, 0 ≤ min x.2 b) : b ≤ wsum X M (ls.map (fun x => (x.1, min x.2 b))) ↔ b ≤ wsum X M ls := by
  have key : ∀ {ls : List (BLit × Int)}, (∀ x ∈ ls, 0 ≤ min x.2 b) → (wsum X M (ls.map (fun x => (x.1, min x.2 b))) ≤ wsum X M ls) ∧
      0 ≤ wsum X M (ls.map (fun x => (x.1, min x.2 b))) ∧ (ls ≠ [] → min b (wsum X M ls) ≤ wsum X M (ls.map (fun x => (x.1, min x.2 b)))) := by
    intro ls
    induction ls with
    | nil => intro _; simp [wsum]
    | cons x r ih =>
      intro h
      obtain ⟨l, w⟩ := x
      have h0 : 0 ≤ min w b := h (l, w) (by simp)
      obtain ⟨h1, h2, h3⟩ := ih fun y hy => h y (by simp [hy])
      simp only [List.map_cons, wsum]
      have h4 : min b (wsum X M r) ≤ wsum X M (r.map (fun x => (x.1, min x.2 b))) := by
        by_cases hr : r = []
        · subst hr; simp only [wsum, List.map_nil]; omega
        · exact h3 hr
      refine ⟨by split <;> omega, by split <;> omega, fun _ => by split <;> omega⟩
  by_cases hl : ls = []
  · subst hl; rfl
  · obtain ⟨h1, _, h3⟩ := key h
    have := h3 hl
    omega

/-- Specification of sorted: the last weight is the smallest. -/
theorem sortW_last {ls : List (BLit × Int)} {l : BLit × Int} (hl : ((sortW ls).map (fun x => (x.1, min x.2 b))).getLast? = some l) :
    ∀ x ∈ (sortW ls).map (fun x => (x.1, min x.2 b)), l.2 ≤ x.2 := by
  have hs : (sortW ls).Pairwise (fun x y => decide (y.2 > x.2) = false) :=
    Clasp.Mini.ssort_sorted (cmp := fun x y : BLit × Int => decide (x.2 > y.2)) (S := fun _ => True)
      (fun a c _ _ h => by simp only [decide_eq_true_eq, decide_eq_false_iff_not] at *; omega)
      (fun a c d _ _ _ h1 h2 => by simp only [decide_eq_false_iff_not] at *; omega) (fun _ _ => trivial)
  have hp : ((sortW ls).map (fun x => (x.1, min x.2 b))).Pairwise fun x y => y.2 ≤ x.2 := by
    rw [List.pairwise_map]
    refine hs.imp fun {x y} h => ?_
    simp only [decide_eq_false_iff_not] at h
    omega
  generalize (sortW ls).map (fun x => (x.1, min x.2 b)) = agg at hl hp
  obtain ⟨pre, rfl⟩ := List.getLast?_eq_some_iff.1 hl
  intro x hx
  rcases List.mem_append.1 hx with hx | hx
  · exact (List.pairwise_append.1 hp).2.2 x hx l (by simp)
  · rw [List.mem_singleton.1 hx]

/-- If no literal can be missed, the sum is a conjunction. -/
theorem all_needed {agg : List (BLit × Int)} {m : Int} (h0 : ∀ x ∈ agg, 0 ≤ x.2) (hm : ∀ x ∈ agg, m ≤ x.2) (h1 : tot agg - m < b) (h2 : b ≤ tot agg) :
    (agg.map Prod.fst).all (·.holds X M) = true ↔ b ≤ wsum X M agg := by
  have key : ∀ {agg : List (BLit × Int)}, (∀ x ∈ agg, 0 ≤ x.2) → (∀ x ∈ agg, m ≤ x.2) →
      ((agg.map Prod.fst).all (·.holds X M) = true → wsum X M agg = tot agg) ∧ (¬ (agg.map Prod.fst).all (·.holds X M) = true → wsum X M agg ≤ tot agg - m) := by
    intro agg
    induction agg with
    | nil => intro _ _; simp [wsum]
    | cons x r ih =>
      intro h0 hm
      obtain ⟨l, w⟩ := x
      have g0 : 0 ≤ w := h0 (l, w) (by simp)
      have gm : m ≤ w := hm (l, w) (by simp)
      obtain ⟨i1, i2⟩ := ih (fun x hx => h0 x (by simp [hx])) fun x hx => hm x (by simp [hx])
      have ht := wsum_le_tot (X := X) (M := M) (ls := r) fun x hx => h0 x (by simp [hx])
      simp only [List.map_cons, List.all_cons, Bool.and_eq_true, wsum, tot_cons]
      by_cases hl : l.holds X M = true
      · simp only [hl, true_and, if_true]
        exact ⟨fun h => by rw [i1 h], fun h => by have := i2 h; omega⟩
      · refine ⟨fun h => absurd h.1 hl, fun _ => ?_⟩
        rw [if_neg hl]; omega
  obtain ⟨k1, k2⟩ := key h0 hm
  constructor
  · intro h; rw [k1 h]; exact h2
  · intro h
    by_contra hc
    have := k2 hc
    omega

/-! ### Rules without new atoms -/

theorem Sim.plain {n m h : Nat} {ls : List (BLit × Int)} {R : List Rule} (hn : ∀ x ∈ ls, x.1.atom < n) (h0 : ∀ x ∈ ls, 0 ≤ x.2)
    (hR : ∀ X M, Closed R X M ↔ (b ≤ wsum X M ls → Got X h)) : Sim n m m (fun X M => b ≤ wsum X M ls) h R (fun _ _ _ => false) := by
  refine ⟨Nat.le_refl _, ?_, ?_, ?_, ?_, ?_, ?_, ?_⟩
  · intro _ _ _ h; cases h
  · intros; rfl
  · intro X Y M N h1 h2; rw [wsum_below hn h1 h2]
  · intro _ _ _ _ _ h; exact h
  · intro X Y M hs h; have := wsum_mono (M := M) hs ls h0; omega
  · intro X M hc; exact ⟨fun _ h => Bool.noConfusion h, (hR X M).1 hc⟩
  · intro X M _ h; exact (hR X M).2 h

/-- Proof device: the minimal subsets, in the order of the code. -/
def gen : List (BLit × Int) → Int → List (List BLit)
  | [], b => if b ≤ 0 then [[]] else []
  | (l, w) :: r, b => if b ≤ 0 then [[]] else (gen r (b - w)).map (l :: ·) ++ gen r b

theorem gen_length : ∀ (ls : List (BLit × Int)) (b : Int), (gen ls b).length ≤ 2 ^ ls.length
  | [], b => by unfold gen; split <;> simp
  | (l, w) :: r, b => by
    unfold gen
    have h1 := gen_length r (b - w)
    have h2 := gen_length r b
    have := Nat.one_le_two_pow (n := r.length + 1)
    split
    · simpa using this
    · simp only [List.length_append, List.length_map, List.length_cons, Nat.pow_succ]; omega

theorem gen_nonpos {ls : List (BLit × Int)} (h : b ≤ 0) : gen ls b = [[]] := by cases ls <;> simp [gen, h]

theorem gen_empty : ∀ {ls : List (BLit × Int)} {b : Int}, (∀ x ∈ ls, 0 ≤ x.2) → 0 < b → tot ls < b → gen ls b = []
  | [], b, _, hb, _ => by unfold gen; rw [if_neg (by omega)]
  | (l, w) :: r, b, h0, hb, ht => by
    have g0 : 0 ≤ w := h0 (l, w) (by simp)
    have gr : ∀ x ∈ r, 0 ≤ x.2 := fun x hx => h0 x (by simp [hx])
    have := wsum_nonneg (X := fun _ => false) (M := fun _ => false) gr
    have := wsum_le_tot (X := fun _ => false) (M := fun _ => false) gr
    rw [tot_cons] at ht
    simp only [] at ht
    unfold gen
    rw [if_neg (by omega), gen_empty gr (by omega) (by omega), gen_empty gr (by omega) (by omega)]
    rfl

/-- The subsets say whether the bound is reached. -/
theorem gen_wsum : ∀ {ls : List (BLit × Int)} {b : Int}, (∀ x ∈ ls, 0 ≤ x.2) → ((∃ B ∈ gen ls b, B.all (·.holds X M) = true) ↔ b ≤ wsum X M ls)
  | [], b, _ => by
    unfold gen wsum
    split <;> simp [*]
  | (l, w) :: r, b, h0 => by
    have g0 : 0 ≤ w := h0 (l, w) (by simp)
    have gr : ∀ x ∈ r, 0 ≤ x.2 := fun x hx => h0 x (by simp [hx])
    by_cases hb : b ≤ 0
    · rw [gen_nonpos hb]
      have := wsum_nonneg (X := X) (M := M) h0
      simp; omega
    · have i1 := gen_wsum (ls := r) (b := b - w) gr
      have i2 := gen_wsum (ls := r) (b := b) gr
      unfold gen wsum
      rw [if_neg hb]
      simp only [List.mem_append, List.mem_map]
      constructor
      · rintro ⟨B, ⟨C, hC, rfl⟩ | hB, h⟩
        · simp only [List.all_cons, Bool.and_eq_true] at h
          have := i1.1 ⟨C, hC, h.2⟩
          rw [if_pos h.1]; omega
        · have := i2.1 ⟨B, hB, h⟩
          split <;> omega
      · intro h
        by_cases hl : l.holds X M = true
        · rw [if_pos hl] at h
          obtain ⟨C, hC, hc⟩ := i1.2 (by omega)
          exact ⟨l :: C, .inl ⟨C, hC, rfl⟩, by simp [hl]; simpa using hc⟩
        · rw [if_neg hl] at h
          obtain ⟨C, hC, hc⟩ := i2.2 (by omega)
          exact ⟨C, .inr hC, hc⟩

/-! ### The machine of the code -/

section
variable {agg : List (BLit × Int)} {bound : Int}

/-- Proof device: what is still to come after the literals were added. -/
def later (agg : List (BLit × Int)) (bound : Int) : List Nat → List BLit → Int → List (List BLit)
  | i :: stk, _ :: lits, cw => match agg[i]? with
    | some x => (gen (agg.drop (i + 1)) (bound - (cw - x.2))).map (lits.reverse ++ ·) ++ later agg bound stk lits (cw - x.2)
    | none => []
  | _, _, _ => []

/-- Proof device: the stack of the code. -/
def StkOk (agg : List (BLit × Int)) (bound : Int) : List Nat → List BLit → Int → Prop
  | [], [], _ => True
  | i :: stk, _ :: lits, cw => ∃ x, agg[i]? = some x ∧ cw - x.2 < bound ∧ StkOk agg bound stk lits (cw - x.2)
  | _, _, _ => False

theorem selDown_spec : ∀ (rest : List (BLit × Int)) (it : Nat) (cw : Int) (lits : List BLit) (stk : List Nat), rest = agg.drop it →
    StkOk agg bound stk lits cw → bound - cw ≤ tot rest → ∃ cw' lits' stk', selDown bound rest it cw lits stk = .ok (cw', lits', stk') ∧
      StkOk agg bound stk' lits' cw' ∧
      (gen rest (bound - cw)).map (lits.reverse ++ ·) ++ later agg bound stk lits cw = lits'.reverse :: later agg bound stk' lits' cw' := by
  intro rest
  induction rest with
  | nil =>
    intro it cw lits stk hr hs ht
    simp only [tot_nil] at ht
    unfold selDown
    rw [if_pos (by omega), gen_nonpos (by omega)]
    exact ⟨cw, lits, stk, rfl, hs, by simp⟩
  | cons x r ih =>
    intro it cw lits stk hr hs ht
    by_cases hb : bound ≤ cw
    · unfold selDown
      rw [if_pos (by omega), gen_nonpos (by omega)]
      exact ⟨cw, lits, stk, rfl, hs, by simp⟩
    · obtain ⟨l, w⟩ := x
      have hit : agg[it]? = some (l, w) := by
        have := congrArg (·[0]?) hr
        simp only [List.getElem?_cons_zero, List.getElem?_drop, Nat.add_zero] at this
        exact this.symm
      have hr' : r = agg.drop (it + 1) := by
        have := congrArg List.tail hr
        simpa [List.tail_drop] using this
      rw [tot_cons] at ht
      obtain ⟨cw', lits', stk', h1, h2, h3⟩ := ih (it + 1) (cw + w) (l :: lits) (it :: stk) hr'
        (by
          refine ⟨(l, w), hit, ?_, ?_⟩
          · simp only []; omega
          · simp only []; rw [show cw + w - w = cw from by omega]; exact hs) (by simp only [] at ht; omega)
      refine ⟨cw', lits', stk', ?_, h2, ?_⟩
      · unfold selDown
        rw [if_neg hb]
        exact h1
      · rw [← h3]
        simp only [later, hit]
        rw [show cw + w - w = cw from by omega, ← hr']
        rw [show gen ((l, w) :: r) (bound - cw) = (gen r (bound - cw - w)).map (l :: ·) ++ gen r (bound - cw) from by
          rw [gen, if_neg (by omega)], show bound - (cw + w) = bound - cw - w from by omega]
        simp [Function.comp_def]

theorem selUp_spec (h0 : ∀ x ∈ agg, 0 ≤ x.2) : ∀ (stk : List Nat) (lits : List BLit) (cw : Int), StkOk agg bound stk lits cw →
    (selUp agg bound stk lits cw = .ok none ∧ later agg bound stk lits cw = []) ∨
    ∃ it cw2 lits2 stk2, selUp agg bound stk lits cw = .ok (some (it, cw2, lits2, stk2)) ∧ StkOk agg bound stk2 lits2 cw2 ∧ bound - cw2 ≤ tot (agg.drop it) ∧
      later agg bound stk lits cw = (gen (agg.drop it) (bound - cw2)).map (lits2.reverse ++ ·) ++ later agg bound stk2 lits2 cw2 := by
  intro stk
  induction stk with
  | nil => intro lits cw _; left; exact ⟨rfl, by unfold later; rfl⟩
  | cons i stk ih =>
    intro lits cw hs
    cases lits with
    | nil => exact hs.elim
    | cons l lits =>
      obtain ⟨x, hx, hlt, hs⟩ := hs
      have hdrop : ∀ y ∈ agg.drop (i + 1), 0 ≤ y.2 := fun y hy => h0 y (List.mem_of_mem_drop hy)
      have hl : later agg bound (i :: stk) (l :: lits) cw = (gen (agg.drop (i + 1)) (bound - (cw - x.2))).map (lits.reverse ++ ·) ++
          later agg bound stk lits (cw - x.2) := by rw [later]; simp only [hx]
      have hu : selUp agg bound (i :: stk) (l :: lits) cw = if i + 1 = agg.length then selUp agg bound stk lits (cw - x.2) else match (sumR agg)[i + 1]? with
          | none => .error .ub
          | some s => if cw - x.2 + s < bound then selUp agg bound stk lits (cw - x.2) else .ok (some (i + 1, cw - x.2, lits, stk)) := by
        rw [selUp]; simp only [hx]; rfl
      rw [hl, hu]
      by_cases hi : i + 1 = agg.length
      · rw [if_pos hi]
        have : gen (agg.drop (i + 1)) (bound - (cw - x.2)) = [] := by
          refine gen_empty hdrop (by omega) ?_
          rw [hi, List.drop_length, tot_nil]; omega
        rw [this]
        simpa using ih lits (cw - x.2) hs
      · rw [if_neg hi]
        have hlen : i < agg.length := (List.getElem?_eq_some_iff.1 hx).1
        rw [sumR_get agg (i + 1) (by omega)]
        simp only []
        by_cases hc : cw - x.2 + tot (agg.drop (i + 1)) < bound
        · rw [if_pos hc, gen_empty hdrop (by omega) (by omega)]
          simpa using ih lits (cw - x.2) hs
        · rw [if_neg hc]
          right
          exact ⟨i + 1, cw - x.2, lits, stk, rfl, hs, by omega, rfl⟩

theorem selLoop_spec (h0 : ∀ x ∈ agg, 0 ≤ x.2) (h : Nat) : ∀ (fuel it : Nat) (cw : Int) (lits : List BLit) (stk : List Nat), StkOk agg bound stk lits cw →
    bound - cw ≤ tot (agg.drop it) → ((gen (agg.drop it) (bound - cw)).map (lits.reverse ++ ·) ++ later agg bound stk lits cw).length ≤ fuel →
    selLoop agg bound h fuel it cw lits stk = .ok (((gen (agg.drop it) (bound - cw)).map (lits.reverse ++ ·) ++ later agg bound stk lits cw).map (mkRule h)) := by
  intro fuel
  induction fuel with
  | zero =>
    intro it cw lits stk hs ht hf
    obtain ⟨_, _, _, _, _, h3⟩ := selDown_spec (agg.drop it) it cw lits stk rfl hs ht
    rw [h3] at hf
    simp at hf
  | succ fuel ih =>
    intro it cw lits stk hs ht hf
    obtain ⟨cw', lits', stk', h1, h2, h3⟩ := selDown_spec (agg.drop it) it cw lits stk rfl hs ht
    rw [h3] at hf ⊢
    unfold selLoop
    simp only [h1]
    rcases selUp_spec h0 stk' lits' cw' h2 with ⟨g1, g2⟩ | ⟨it2, cw2, lits2, stk2, g1, g2, g3, g4⟩
    · simp only [g1, g2, List.map_cons, List.map_nil]
    · simp only [g1]
      rw [g4] at hf ⊢
      rw [ih it2 cw2 lits2 stk2 g2 g3 (by simpa using hf)]
      simp only [List.map_cons]

theorem select_spec (h0 : ∀ x ∈ agg, 0 ≤ x.2) (hb : bound ≤ tot agg) (h : Nat) : transformSelect agg bound h = .ok ((gen agg bound).map (mkRule h)) := by
  unfold transformSelect
  rw [selLoop_spec h0 h (2 ^ agg.length) 0 0 [] [] trivial (by simpa using hb) (by simpa [later] using gen_length agg bound)]
  simp [later]

theorem gen_closed (h0 : ∀ x ∈ agg, 0 ≤ x.2) {h : Nat} : Closed ((gen agg bound).map (mkRule h)) X M ↔ (bound ≤ wsum X M agg → Got X h) := by
  rw [← gen_wsum (X := X) (M := M) h0]
  unfold Closed
  constructor
  · rintro hc ⟨B, hB, hh⟩
    exact mkRule_got.1 (hc _ (List.mem_map.2 ⟨B, hB, rfl⟩)) hh
  · rintro hc r hr
    obtain ⟨B, hB, rfl⟩ := List.mem_map.1 hr
    exact mkRule_got.2 fun hh => hc ⟨B, hB, hh⟩

end

end Clasp.Asp
