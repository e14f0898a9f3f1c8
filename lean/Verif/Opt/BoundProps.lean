import Verif.Opt.Bound
/-!
# C19: branch-and-bound optimization finds the lexicographic optimum
-/

namespace Clasp.BB

variable {n : Nat} {Md : (Nat → Int) → Prop}

/-! ## The lexicographic order -/

theorem lt_irrefl {f : Nat → Int} : ¬ lt n f f := by
  rintro ⟨i, _, _, h⟩; omega

theorem lt_trans {f g h : Nat → Int} (h1 : lt n f g) (h2 : lt n g h) : lt n f h := by
  obtain ⟨i, hi, a1, a2⟩ := h1
  obtain ⟨j, hj, b1, b2⟩ := h2
  rcases Nat.lt_trichotomy i j with hij | hij | hij
  · exact ⟨i, hi, fun k hk => by rw [a1 k hk, b1 k (by omega)], by rw [← b1 i hij]; exact a2⟩
  · subst hij; exact ⟨i, hi, fun k hk => by rw [a1 k hk, b1 k hk], by omega⟩
  · exact ⟨j, hj, fun k hk => by rw [a1 k (by omega), b1 k hk], by rw [a1 j hij]; exact b2⟩

theorem lt_congr_right {f g h : Nat → Int} (h1 : lt n f g) (h2 : ∀ i < n, g i = h i) : lt n f h := by
  obtain ⟨i, hi, a1, a2⟩ := h1
  exact ⟨i, hi, fun k hk => by rw [a1 k hk, h2 k (by omega)], by rw [← h2 i hi]; exact a2⟩

theorem lt_congr_left {f g h : Nat → Int} (h1 : lt n g h) (h2 : ∀ i < n, f i = g i) : lt n f h := by
  obtain ⟨i, hi, a1, a2⟩ := h1
  exact ⟨i, hi, fun k hk => by rw [h2 k (by omega), a1 k hk], by rw [h2 i hi]; exact a2⟩

theorem le_lt_trans {f g h : Nat → Int} (h1 : le n f g) (h2 : lt n g h) : lt n f h :=
  h1.elim (fun h => lt_trans h h2) fun h => lt_congr_left h2 h

theorem lt_le_trans {f g h : Nat → Int} (h1 : lt n f g) (h2 : le n g h) : lt n f h :=
  h2.elim (fun h => lt_trans h1 h) fun h => lt_congr_right h1 h

theorem le_trans {f g h : Nat → Int} (h1 : le n f g) (h2 : le n g h) : le n f h := by
  rcases h1 with h1 | h1
  · exact .inl (lt_le_trans h1 h2)
  · rcases h2 with h2 | h2
    · exact .inl (lt_congr_left h2 h1)
    · exact .inr fun i hi => by rw [h1 i hi, h2 i hi]

theorem tri (f g : Nat → Int) : lt n f g ∨ (∀ i < n, f i = g i) ∨ lt n g f := by
  induction n with
  | zero => exact .inr (.inl fun i hi => by omega)
  | succ n ih =>
    rcases ih with ⟨i, hi, h⟩ | h | ⟨i, hi, h⟩
    · exact .inl ⟨i, by omega, h⟩
    · rcases Int.lt_trichotomy (f n) (g n) with h1 | h1 | h1
      · exact .inl ⟨n, by omega, h, h1⟩
      · refine .inr (.inl fun i hi => ?_)
        rcases Nat.lt_or_ge i n with h2 | h2
        · exact h i h2
        · obtain rfl : i = n := by omega
          exact h1
      · exact .inr (.inr ⟨n, by omega, fun j hj => (h j hj).symm, h1⟩)
    · exact .inr (.inr ⟨i, by omega, h⟩)

theorem le_of_not_lt {f g : Nat → Int} (h : ¬ lt n g f) : le n f g := by
  rcases tri (n := n) f g with h1 | h1 | h1
  · exact .inl h1
  · exact .inr h1
  · exact absurd h1 h

theorem le_of_pointwise {f g : Nat → Int} (h : ∀ i < n, f i ≤ g i) : le n f g := by
  apply le_of_not_lt
  rintro ⟨i, hi, _, h1⟩
  have := h i hi; omega

/-- A vector that agrees up to level `a` and is not above is not larger there. -/
theorem le_at {f g : Nat → Int} {a : Nat} (ha : a < n) (h1 : ∀ j < a, f j = g j) (h2 : le n f g) : f a ≤ g a := by
  rcases h2 with ⟨i, hi, b1, b2⟩ | h2
  · rcases Nat.lt_trichotomy i a with h | h | h
    · have := h1 i h; omega
    · subst h; omega
    · exact Int.le_of_eq (b1 a h)
  · exact Int.le_of_eq (h2 a ha)

/-- Strictly below means not above the predecessor. -/
theorem le_pred {m U b : Nat → Int} (hn : 0 < n) (h : lt n m U) (h1 : ∀ j < n - 1, b j = U j) (h2 : b (n - 1) = U (n - 1) - 1) :
    le n m b := by
  obtain ⟨i, hi, a1, a2⟩ := h
  rcases Nat.lt_or_ge i (n - 1) with h | h
  · exact .inl ⟨i, hi, fun k hk => by rw [a1 k hk, h1 k (by omega)], by rw [h1 i h]; exact a2⟩
  · obtain rfl : i = n - 1 := by omega
    apply le_of_pointwise
    intro j hj
    rcases Nat.lt_or_ge j (n - 1) with h | h
    · rw [h1 j h, a1 j h]; exact Int.le_refl _
    · obtain rfl : j = n - 1 := by omega
      omega

/-! ## Invariants -/

/-- Assumptions on the problem: there is at least one level, every cost is at least the initial lower bound and representable. -/
structure Prob (n : Nat) (Md : (Nat → Int) → Prop) (low0 : Nat → Int) : Prop where
  pos : 0 < n
  low : ∀ m, Md m → ∀ i < n, low0 i ≤ m i
  max : ∀ m, Md m → ∀ i < n, m i < MAXB
  bot : ∀ i < n, - MAXB ≤ low0 i ∧ low0 i ≤ MAXB

variable {low0 : Nat → Int} (hP : Prob n Md low0)

theorem better.le {sh : Shared} {m : Nat → Int} (h : better n Md sh m) : le n m sh.upper := by
  obtain ⟨_, h⟩ := h
  split at h
  · exact h
  · exact .inl h

/-- `v` is a lower bound for level `i`: it is the initial one, or valid for everything still looked for. -/
def LowOK (n : Nat) (Md : (Nat → Int) → Prop) (low0 : Nat → Int) (sh : Shared) (i : Nat) (v : Int) : Prop :=
  v ≤ low0 i ∨ ∀ m, better n Md sh m → (∀ j < i, m j = sh.upper j) ∧ v ≤ m i

/-- Nothing is left to be found. -/
def None' (n : Nat) (Md : (Nat → Int) → Prop) (sh : Shared) : Prop := ∀ m, ¬ better n Md sh m

theorem LowOK.max {sh : Shared} {i : Nat} {v w : Int} (h1 : LowOK n Md low0 sh i v) (h2 : LowOK n Md low0 sh i w) :
    LowOK n Md low0 sh i (max v w) := by
  rcases Int.le_total v w with h | h
  · rw [Int.max_eq_right h]; exact h2
  · rw [Int.max_eq_left h]; exact h1

theorem LowOK.bot {sh : Shared} {i : Nat} (hP : Prob n Md low0) (hi : i < n) : LowOK n Md low0 sh i (-MAXB) := .inl (hP.bot i hi).1

/-- A lower bound above the upper bound: nothing is left. -/
theorem LowOK.none {sh : Shared} {i : Nat} {v : Int} (h : LowOK n Md low0 sh i v) (hi : i < n) (h1 : low0 i ≤ sh.upper i)
    (h2 : sh.upper i < v) : None' n Md sh := by
  intro m hm
  rcases h with h | h
  · omega
  · obtain ⟨a, b⟩ := h m hm
    have := le_at hi a hm.le
    omega

include hP in
theorem LowOK.ge {sh : Shared} {i : Nat} {v : Int} (h : LowOK n Md low0 sh i v) (hi : i < n) {m : Nat → Int} (hm : better n Md sh m) :
    v ≤ m i := by
  rcases h with h | h
  · have := hP.low m hm.1 i hi; omega
  · exact (h m hm).2

/-- Everything still looked for agrees with the upper bound on the first `a` levels. -/
def Agree (n : Nat) (Md : (Nat → Int) → Prop) (sh : Shared) (a : Nat) : Prop := ∀ m, better n Md sh m → ∀ j < a, m j = sh.upper j

/-- Invariant of the shared data. -/
structure ShInv (n : Nat) (Md : (Nat → Int) → Prop) (low0 U0 : Nat → Int) (sh : Shared) (hist : List (Nat → Int)) : Prop where
  low : ∀ i < n, low0 i ≤ sh.upper i
  ok : ∀ i < n, LowOK n Md low0 sh i (sh.lower i)
  gen : sh.gen = hist.length
  upper : sh.upper = hist.head?.getD U0
  md : ∀ c ∈ hist, Md c ∧ le n c U0
  dec : hist.Pairwise (lt n)

/-- The bound of a hierarchical strategy: a tentative value on the current level, no restriction below. -/
structure Act (n : Nat) (sh : Shared) (l : Loc) : Prop where
  gen : sh.gen ≠ 0
  lev : l.lev < n
  pre : ∀ j < l.lev, l.bound j = sh.upper j
  cur : sh.upper l.lev ≤ l.bound l.lev + l.size
  rest : ∀ j < n, l.lev < j → l.bound j = MAXB

/-- Invariant of a solver with a hierarchical strategy. -/
structure HInv (n : Nat) (Md : (Nat → Int) → Prop) (low0 : Nat → Int) (sh : Shared) (l : Loc) : Prop where
  lev : l.lev ≤ n
  agree : Agree n Md sh l.lev
  low : ∀ j ≤ l.lev, j < n → LowOK n Md low0 sh j (l.low j)
  bound : (∀ j < n, MAXB ≤ l.bound j) ∨ Act n sh l

/-- Invariant of a solver with the linear strategy. -/
structure LInv (n : Nat) (Md : (Nat → Int) → Prop) (sh : Shared) (l : Loc) : Prop where
  size : l.size = 1
  lev : l.lev = n - 1 ∨ (l.lev = n ∧ None' n Md sh ∧ sh.gen ≠ 0 ∧ (l.pc = .integ ∨ l.pc = .failed))
  bound : (l.pc ≠ .integ ∨ sh.gen = 0) → ∀ m, better n Md sh m → le n m l.bound

/-- Invariant of a solver. -/
structure LocInv (n : Nat) (Md : (Nat → Int) → Prop) (low0 : Nat → Int) (sh : Shared) (l : Loc) : Prop where
  hier : l.strat ≠ .lin → HInv n Md low0 sh l ∧ (sh.gen = 0 → ∀ i < n, sh.upper i = MAXB)
  lin : l.strat = .lin → LInv n Md sh l
  failed : l.pc = .failed → more n l ∨ None' n Md sh
  strict : l.pc = .run ∨ l.pc = .check → l.gen = sh.gen → sh.gen ≠ 0 → lt n l.bound sh.upper
  zero : sh.gen = 0 → (∀ j < n, l.bound j = MAXB) ∨ ∀ j < n, l.bound j = sh.upper j
  zrun : sh.gen = 0 → l.pc = .run ∨ l.pc = .check → ∀ j < n, l.bound j = sh.upper j
  gen : l.gen ≤ sh.gen

/-! ## `updateBounds` -/

include hP in
theorem Agree.next {sh : Shared} {a : Nat} {L : Int} (h : Agree n Md sh a) (ha : a < n) (h1 : LowOK n Md low0 sh a L)
    (h2 : sh.upper a ≤ L) : Agree n Md sh (a + 1) := by
  intro m hm j hj
  rcases Nat.lt_or_ge j a with hja | hja
  · exact h m hm j hja
  · obtain rfl : j = a := by omega
    have := h1.ge hP ha hm
    have := le_at ha (h m hm) hm.le
    omega

/-- State of the loop before level `i` when a step is applied on level `a`. -/
structure PH (n : Nat) (Md : (Nat → Int) → Prop) (low0 : Nat → Int) (sh : Shared) (i a : Nat) (l : Loc) : Prop where
  strat : l.strat ≠ .lin
  lev : l.lev = a
  le : a ≤ n
  agree : Agree n Md sh a
  low : ∀ j ≤ a, j < n → LowOK n Md low0 sh j (l.low j)
  pre : ∀ j < i, j < a → l.bound j = sh.upper j
  todo : i ≤ a → (∀ j < n, i ≤ j → MAXB ≤ l.bound j) ∨
    (a < n ∧ sh.upper a ≤ l.bound a + l.size ∧ ∀ j < n, a < j → l.bound j = MAXB)
  did : a < i → l.bound a < sh.upper a ∧ sh.upper a ≤ l.bound a + l.size ∧ ∀ j < i, a < j → l.bound j = MAXB

/-- What `updateBounds` gives a hierarchical strategy. -/
structure RH (n : Nat) (Md : (Nat → Int) → Prop) (low0 : Nat → Int) (sh : Shared) (b : Bool) (l : Loc) : Prop where
  strat : l.strat ≠ .lin
  lev : l.lev ≤ n
  agree : Agree n Md sh l.lev
  low : ∀ j ≤ l.lev, j < n → LowOK n Md low0 sh j (l.low j)
  yes : b = true → Act n sh l ∧ lt n l.bound sh.upper
  no : b = false → more n l ∨ None' n Md sh

include hP in
theorem updLoop_hier {sh : Shared} (hg : sh.gen ≠ 0) (hU : ∀ i < n, low0 i ≤ sh.upper i) (hUM : ∀ i < n, sh.upper i < MAXB)
    (hS : ∀ i < n, LowOK n Md low0 sh i (sh.lower i)) :
    ∀ {k i a : Nat} {l l' : Loc} {b : Bool}, i + k = n → PH n Md low0 sh i a l → updLoop n sh k i l a = .ret b l' →
    RH n Md low0 sh b l' ∧ l'.gen = l.gen := by
  intro k
  induction k with
  | zero =>
    intro i a l l' b hk h hu
    simp only [updLoop, Upd.ret.injEq] at hu
    obtain ⟨rfl, rfl⟩ := hu
    have hlev := h.lev
    have hin : i = n := by omega
    refine ⟨⟨h.strat, hlev ▸ h.le, hlev ▸ h.agree, hlev ▸ h.low, ?_, ?_⟩, rfl⟩
    · intro hb
      have hb := of_decide_eq_true hb
      have han : a < n := by have := h.le; rcases hb with hb | hb <;> omega
      obtain ⟨d1, d2, d3⟩ := h.did (by omega)
      refine ⟨⟨hg, by omega, fun j hj => h.pre j (by omega) (by omega), hlev ▸ d2, fun j hj h1 => d3 j (by omega) (by omega)⟩, ?_⟩
      exact ⟨a, han, fun j hj => h.pre j (by omega) hj, d1⟩
    · intro hb
      have hb := of_decide_eq_false hb
      push Not at hb
      right; intro m hm
      have hag := h.agree m hm
      have hm2 := hm.2
      rw [if_neg hg] at hm2
      obtain ⟨j, hj, _, h2⟩ := hm2
      have := hag j (by omega)
      omega
  | succ k ih =>
    intro i a l l' b hk h hu
    have hlev := h.lev
    have hin : i < n := by omega
    unfold updLoop at hu
    generalize hr : updLevel n sh i l a = r at hu
    by_cases hia : i = a
    · -- the level of the step
      subst hia
      have hlow : LowOK n Md low0 sh i (max (l.low i) (sh.lower i)) := (h.low i (Nat.le_refl _) hin).max (hS i hin)
      generalize hL : max (l.low i) (sh.lower i) = L at hlow
      have hlow' : ∀ j ≤ i, j < n → LowOK n Md low0 sh j (Function.update l.low i L j) := by
        intro j hj hjn
        by_cases hji : j = i
        · subst hji; rw [Function.update_self]; exact hlow
        · rw [Function.update_of_ne hji]; exact h.low j hj hjn
      simp only [updLevel, ne_eq, not_true_eq_false, if_false, if_pos h.strat, hL] at hr
      split at hr
      · -- upper below lower
        rename_i hUL
        subst hr
        simp only [Upd.ret.injEq] at hu
        obtain ⟨rfl, rfl⟩ := hu
        have hno := hlow.none hin (hU i hin) hUL
        refine ⟨⟨by simp [stepInit, h.strat], by simp [stepInit, h.strat], fun m hm => absurd hm (hno m), ?_, by simp, fun _ => .inr hno⟩,
          by simp [stepInit, h.strat]⟩
        intro j _ _
        exact .inr fun m hm => absurd hm (hno m)
      · split at hr
        · -- tentative bound too strong
          rename_i hUL hBL
          subst hr
          simp only [Upd.ret.injEq] at hu
          obtain ⟨rfl, rfl⟩ := hu
          refine ⟨⟨h.strat, by dsimp only; omega, by dsimp only; rw [hlev]; exact h.agree, by dsimp only; rw [hlev]; exact hlow', by simp, fun _ => ?_⟩, rfl⟩
          by_cases hm : more n { l with low := Function.update l.low i L }
          · exact .inl hm
          · right
            rcases h.todo (Nat.le_refl _) with ht | ⟨t1, t2, t3⟩
            · have := ht i hin (Nat.le_refl _)
              have := hUM i hin
              omega
            · unfold more at hm
              dsimp only at hm
              have hsz : ¬ 1 < l.size := fun hh => hm ⟨by omega, .inl hh⟩
              have hl : l.lev = n - 1 := by by_contra hh; exact hm ⟨by omega, .inr hh⟩
              intro m hb
              have hag := (h.agree.next hP hin hlow (by omega)) m hb
              have hb2 := hb.2
              rw [if_neg hg] at hb2
              obtain ⟨j, hj, _, h2⟩ := hb2
              have := hag j (by omega)
              omega
        · split at hr
          · -- existing step
            rename_i hUL hBL hBU
            subst hr
            simp only [Upd.ret.injEq] at hu
            obtain ⟨rfl, rfl⟩ := hu
            refine ⟨⟨h.strat, by dsimp only; omega, by dsimp only; rw [hlev]; exact h.agree, by dsimp only; rw [hlev]; exact hlow', fun _ => ?_, by simp⟩, rfl⟩
            rcases h.todo (Nat.le_refl _) with ht | ⟨t1, t2, t3⟩
            · have := ht i hin (Nat.le_refl _)
              have := hUM i hin
              omega
            · refine ⟨⟨hg, by dsimp only; omega, ?_, by dsimp only; rw [hlev]; exact t2, by dsimp only; rw [hlev]; exact t3⟩, ?_⟩
              · dsimp only; rw [hlev]; exact fun j hj => h.pre j hj hj
              · exact ⟨i, hin, fun j hj => h.pre j hj hj, hBU⟩
          · split at hr
            · -- done with this level
              rename_i hUL hBL hBU hEq
              have hag := h.agree.next hP hin hlow (by omega)
              have hrest : ∀ j < n, i + 1 ≤ j → MAXB ≤ l.bound j := by
                rcases h.todo (Nat.le_refl _) with ht | ⟨t1, t2, t3⟩
                · exact fun j hj hij => ht j hj (by omega)
                · exact fun j hj hij => Int.le_of_eq (t3 j hj (by omega)).symm
              subst hr; dsimp only at hu
              have := ih (i := i + 1) (a := i + 1) (l := stepInit n (i + 1) { l with low := Function.update l.low i L, bound := Function.update l.bound i (sh.upper i) })
                (by omega) ?_ hu
              · refine ⟨this.1, this.2.trans ?_⟩
                simp [stepInit, h.strat]
              · have hsi : stepInit n (i + 1) { l with low := Function.update l.low i L, bound := Function.update l.bound i (sh.upper i) } =
                    { l with size := if l.strat = .dec then 0 else 1, lev := i + 1, low := if i + 1 = n then Function.update l.low i L else Function.update (Function.update l.low i L) (i + 1) (-MAXB), bound := Function.update l.bound i (sh.upper i) } := by
                  simp [stepInit, h.strat]
                rw [hsi]
                refine ⟨h.strat, rfl, by omega, hag, ?_, ?_, ?_, by omega⟩
                · intro j hj hjn
                  dsimp only
                  split
                  · exact hlow' j (by omega) hjn
                  · by_cases hji : j = i + 1
                    · subst hji; rw [Function.update_self]; exact LowOK.bot hP hjn
                    · rw [Function.update_of_ne hji]; exact hlow' j (by omega) hjn
                · intro j hj _
                  dsimp only
                  by_cases hji : j = i
                  · subst hji; rw [Function.update_self]
                  · rw [Function.update_of_ne hji]; exact h.pre j (by omega) (by omega)
                · intro _
                  left
                  intro j hj hij
                  dsimp only
                  rw [Function.update_of_ne (by omega)]; exact hrest j hj hij
            · rename_i hUL hBL hBU hEq
              split at hr
              · subst hr; simp at hu
              · rename_i hsz
                generalize nextSize l.strat l.size (sh.upper i - L) = sz at *
                subst hr; dsimp only at hu
                have := ih (i := i + 1) (a := i) (l := { l with low := Function.update l.low i L, size := sz, bound := Function.update l.bound i (sh.upper i - sz) })
                  (by omega) ?_ hu
                · exact ⟨this.1, this.2⟩
                · refine ⟨h.strat, hlev, h.le, h.agree, hlow', ?_, by omega, ?_⟩
                  · intro j hj hji
                    dsimp only
                    rw [Function.update_of_ne (by omega)]; exact h.pre j hji hji
                  · intro _
                    dsimp only
                    rw [Function.update_self]
                    refine ⟨by omega, by omega, fun j hj hij => by omega⟩
    · -- another level
      simp only [updLevel, ne_eq, hia, not_false_eq_true, if_true, h.strat, true_and, false_or] at hr
      -- the value of `low`
      generalize hl1 : (if i > l.lev ∨ sh.lower i > l.low i then { l with low := Function.update l.low i (sh.lower i) } else l : Loc) = l1 at hr
      generalize hL : (if i > l.lev ∨ sh.lower i > l.low i then sh.lower i else l.low i) = L at hr
      have e1 : l1.strat = l.strat ∧ l1.lev = l.lev ∧ l1.bound = l.bound ∧ l1.size = l.size ∧ l1.gen = l.gen := by
        subst hl1; split <;> simp
      obtain ⟨e1, e2, e3, e4, e5⟩ := e1
      have hlow' : ∀ j ≤ a, j < n → LowOK n Md low0 sh j (l1.low j) := by
        intro j hj hjn
        subst hl1
        split
        · dsimp only
          by_cases hji : j = i
          · subst hji; rw [Function.update_self]; exact hS j hjn
          · rw [Function.update_of_ne hji]; exact h.low j hj hjn
        · exact h.low j hj hjn
      split at hr
      · rename_i hgt
        subst hr; dsimp only at hu
        have := ih (i := i + 1) (a := a) (l := { l1 with bound := Function.update l1.bound i MAXB }) (by omega) ?_ hu
        · exact ⟨this.1, by rw [this.2, e5]⟩
        · obtain ⟨d1, d2, d3⟩ := h.did hgt
          refine ⟨by dsimp only; rw [e1]; exact h.strat, by dsimp only; rw [e2]; exact hlev, h.le, h.agree, hlow', ?_, by omega, ?_⟩
          · intro j hj hja
            dsimp only
            rw [Function.update_of_ne (by omega), e3]; exact h.pre j (by omega) hja
          · intro _
            dsimp only
            rw [Function.update_of_ne (by omega), e3, e4]
            refine ⟨d1, d2, fun j hj haj => ?_⟩
            by_cases hji : j = i
            · subst hji; rw [Function.update_self]
            · rw [Function.update_of_ne hji]; exact d3 j (by omega) haj
      · rename_i hgt
        have hia' : i < a := by omega
        have hLok : LowOK n Md low0 sh i L := by
          subst hL; split
          · exact hS i hin
          · exact h.low i (by omega) hin
        split at hr
        · subst hr; dsimp only at hu
          have := ih (i := i + 1) (a := a) (l := { l1 with bound := Function.update l1.bound i (sh.upper i) }) (by omega) ?_ hu
          · exact ⟨this.1, by rw [this.2, e5]⟩
          · refine ⟨by dsimp only; rw [e1]; exact h.strat, by dsimp only; rw [e2]; exact hlev, h.le, h.agree, hlow', ?_, ?_, by omega⟩
            · intro j hj hja
              dsimp only
              by_cases hji : j = i
              · subst hji; rw [Function.update_self]
              · rw [Function.update_of_ne hji, e3]; exact h.pre j (by omega) hja
            · intro _
              dsimp only
              rcases h.todo (by omega) with ht | ⟨t1, t2, t3⟩
              · left; intro j hj hij
                rw [Function.update_of_ne (by omega), e3]; exact ht j hj (by omega)
              · right
                refine ⟨t1, ?_, fun j hj haj => ?_⟩
                · rw [Function.update_of_ne (by omega), e3, e4]; exact t2
                · rw [Function.update_of_ne (by omega), e3]; exact t3 j hj haj
        · rename_i hUL
          subst hr
          simp only [Upd.ret.injEq] at hu
          obtain ⟨rfl, rfl⟩ := hu
          have hno := hLok.none hin (hU i hin) (by omega)
          have hs1 : ¬ l1.strat = .lin := by rw [e1]; exact h.strat
          refine ⟨⟨by simp [stepInit, hs1], by simp [stepInit, hs1], fun m hm => absurd hm (hno m), ?_, by simp, fun _ => .inr hno⟩,
            by simp [stepInit, hs1, e5]⟩
          intro j _ _
          exact .inr fun m hm => absurd hm (hno m)

theorem updLoop_zero {sh : Shared} (hg : sh.gen = 0) (hU : ∀ i < n, low0 i ≤ sh.upper i)
    (hS : ∀ i < n, LowOK n Md low0 sh i (sh.lower i)) :
    ∀ {k i : Nat} {l l' : Loc} {b : Bool}, i + k = n → (∀ j < i, l.bound j = sh.upper j) →
    (∀ j < n, j ≤ l.lev → l.strat ≠ .lin → LowOK n Md low0 sh j (l.low j)) → updLoop n sh k i l n = .ret b l' →
    l'.strat = l.strat ∧ l'.gen = l.gen ∧
    ((b = true ∧ l'.lev = l.lev ∧ l'.size = l.size ∧ (∀ j < n, l'.bound j = sh.upper j) ∧
        ∀ j < n, j ≤ l.lev → l.strat ≠ .lin → LowOK n Md low0 sh j (l'.low j)) ∨
      (b = false ∧ None' n Md sh ∧ (l.strat ≠ .lin → l'.lev = n) ∧ (l.strat = .lin → l'.lev = n - 1 ∧ l'.size = 1))) := by
  intro k
  induction k with
  | zero =>
    intro i l l' b hk hb hl hu
    simp only [updLoop, Upd.ret.injEq] at hu
    obtain ⟨rfl, rfl⟩ := hu
    obtain rfl : i = n := by omega
    exact ⟨rfl, rfl, .inl ⟨by simp [hg], rfl, rfl, hb, hl⟩⟩
  | succ k ih =>
    intro i l l' b hk hb hl hu
    have hin : i < n := by omega
    unfold updLoop at hu
    generalize hr : updLevel n sh i l n = r at hu
    have hia : ¬ i = n := by omega
    have hgt : ¬ i > n := by omega
    simp only [updLevel, ne_eq, hia, not_false_eq_true, if_true, hgt, if_false] at hr
    generalize hl1 : (if ¬ l.strat = .lin ∧ (i > l.lev ∨ sh.lower i > l.low i) then { l with low := Function.update l.low i (sh.lower i) } else l : Loc) = l1 at hr
    generalize hL : (if l.strat = .lin ∨ ¬ l.strat = .lin ∧ (i > l.lev ∨ sh.lower i > l.low i) then sh.lower i else l.low i) = L at hr
    have e1 : l1.strat = l.strat ∧ l1.lev = l.lev ∧ l1.bound = l.bound ∧ l1.size = l.size ∧ l1.gen = l.gen := by
      subst hl1; split <;> simp
    obtain ⟨e1, e2, e3, e4, e5⟩ := e1
    have hlow' : ∀ j < n, j ≤ l.lev → l.strat ≠ .lin → LowOK n Md low0 sh j (l1.low j) := by
      intro j hjn hj hs
      subst hl1
      split
      · dsimp only
        by_cases hji : j = i
        · subst hji; rw [Function.update_self]; exact hS j hjn
        · rw [Function.update_of_ne hji]; exact hl j hjn hj hs
      · exact hl j hjn hj hs
    have hLok : LowOK n Md low0 sh i L := by
      subst hL; split
      · exact hS i hin
      · rename_i h
        push Not at h
        exact hl i hin (by have := (h.2 h.1).1; omega) h.1
    split at hr
    · subst hr; dsimp only at hu
      have := ih (i := i + 1) (l := { l1 with bound := Function.update l1.bound i (sh.upper i) }) (by omega) ?_ ?_ hu
      · dsimp only at this
        rw [e1, e2, e4, e5] at this
        exact this
      · intro j hj
        dsimp only
        by_cases hji : j = i
        · subst hji; rw [Function.update_self]
        · rw [Function.update_of_ne hji, e3]; exact hb j (by omega)
      · dsimp only; rw [e1, e2]; exact hlow'
    · rename_i hUL
      subst hr
      simp only [Upd.ret.injEq] at hu
      obtain ⟨rfl, rfl⟩ := hu
      have hno := hLok.none hin (hU i hin) (by omega)
      refine ⟨?_, ?_, .inr ⟨rfl, hno, ?_, ?_⟩⟩
      · unfold stepInit; split <;> simp [e1]
      · unfold stepInit; split <;> simp [e5]
      · intro h; simp [stepInit, e1, h]
      · intro h; simp [stepInit, e1, h]

theorem updLoop_lin {sh : Shared} (hg : sh.gen ≠ 0) (hU : ∀ i < n, low0 i ≤ sh.upper i)
    (hS : ∀ i < n, LowOK n Md low0 sh i (sh.lower i)) {a : Nat} (ha : a = n - 1 ∨ a = n) :
    ∀ {k i : Nat} {l l' : Loc} {b : Bool}, i + k = n → l.strat = .lin → l.size = 1 → l.lev = a → (∀ j < i, j < a → l.bound j = sh.upper j) →
    (a < i → l.bound a = sh.upper a - 1) → updLoop n sh k i l a = .ret b l' →
    l'.strat = .lin ∧ l'.gen = l.gen ∧ l'.size = 1 ∧
    ((b = true ∧ l'.lev = n - 1 ∧ a = n - 1 ∧ (∀ j < n - 1, l'.bound j = sh.upper j) ∧ (0 < n → l'.bound (n - 1) = sh.upper (n - 1) - 1)) ∨
      (b = false ∧ (None' n Md sh ∨ a = n) ∧ (l'.lev = n - 1 ∨ l'.lev = n))) := by
  intro k
  induction k with
  | zero =>
    intro i l l' b hk hs hz hl hb hc hu
    simp only [updLoop, Upd.ret.injEq] at hu
    obtain ⟨rfl, rfl⟩ := hu
    obtain rfl : i = n := by omega
    refine ⟨hs, rfl, hz, ?_⟩
    by_cases h : a = i
    · right; simp [hl, h, hg]
    · left
      have ha' : a = i - 1 := by omega
      refine ⟨by simp [hl, h], by omega, ha', fun j hj => hb j (by omega) (by omega), fun hn => ?_⟩
      rw [← ha']; exact hc (by omega)
  | succ k ih =>
    intro i l l' b hk hs hz hl hb hc hu
    have hin : i < n := by omega
    unfold updLoop at hu
    generalize hr : updLevel n sh i l a = r at hu
    by_cases hia : i = a
    · subst hia
      simp only [updLevel, ne_eq, not_true_eq_false, if_false, hs, hz] at hr
      rw [if_neg (by omega)] at hr
      subst hr; dsimp only at hu
      have := ih (i := i + 1) (by omega) ?_ ?_ ?_ ?_ ?_ hu
      · exact this
      · rfl
      · rfl
      · exact hl
      · intro j hj hja
        dsimp only; rw [Function.update_of_ne (by omega)]; exact hb j hja hja
      · intro _; dsimp only; rw [Function.update_self]; simp
    · have hgt : ¬ i > a := by omega
      simp only [updLevel, ne_eq, hia, not_false_eq_true, if_true, hgt, if_false, hs, not_true_eq_false, false_and, true_or] at hr
      split at hr
      · subst hr; dsimp only at hu
        have := ih (i := i + 1) (by omega) ?_ ?_ ?_ ?_ ?_ hu
        · exact this
        · rfl
        · exact hz
        · exact hl
        · intro j hj hja
          dsimp only
          by_cases hji : j = i
          · subst hji; rw [Function.update_self]
          · rw [Function.update_of_ne hji]; exact hb j (by omega) hja
        · intro _; omega
      · rename_i hUL
        subst hr
        simp only [Upd.ret.injEq] at hu
        obtain ⟨rfl, rfl⟩ := hu
        have hno := (hS i hin).none hin (hU i hin) (by omega)
        simp [stepInit, hs, hno]

/-! ## Stability -/

/-- The bounds of the other solvers change: the upper bound becomes the cost of a model that was looked for. -/
theorem better_mono {sh : Shared} {c m : Nat → Int} (hc : better n Md sh c) (h : better n Md (commitUpper sh c) m) : better n Md sh m := by
  have h2 := h.2
  rw [if_neg (by simp [commitUpper])] at h2
  have h3 : lt n m sh.upper := lt_le_trans h2 hc.le
  refine ⟨h.1, ?_⟩
  split
  · exact .inl h3
  · exact h3

theorem LowOK.mono {sh : Shared} {c : Nat → Int} (hc : better n Md sh c) {i : Nat} {v : Int} (h : LowOK n Md low0 sh i v) :
    LowOK n Md low0 (commitUpper sh c) i v := by
  rcases h with h | h
  · exact .inl h
  · right; intro m hm
    obtain ⟨a, b⟩ := h m (better_mono hc hm)
    exact ⟨fun j hj => (a j hj).trans ((h c hc).1 j hj).symm, b⟩

theorem Agree.mono {sh : Shared} {c : Nat → Int} (hc : better n Md sh c) {a : Nat} (h : Agree n Md sh a) : Agree n Md (commitUpper sh c) a :=
  fun m hm j hj => (h m (better_mono hc hm) j hj).trans (h c hc j hj).symm

theorem None'.mono {sh : Shared} {c : Nat → Int} (hc : better n Md sh c) (h : None' n Md sh) : None' n Md (commitUpper sh c) :=
  fun _ hm => h _ (better_mono hc hm)

theorem Act.mono {sh : Shared} {c : Nat → Int} (hc : better n Md sh c) {l : Loc} (ha : Agree n Md sh l.lev) (h : Act n sh l) :
    Act n (commitUpper sh c) l :=
  ⟨by simp [commitUpper], h.lev, fun j hj => (h.pre j hj).trans (ha c hc j hj).symm, by
    have := le_at h.lev (ha c hc) hc.le
    have := h.cur
    simp only [commitUpper]; omega, h.rest⟩

theorem LocInv.mono {sh : Shared} {c : Nat → Int} (hc : better n Md sh c) {l : Loc} (h : LocInv n Md low0 sh l) :
    LocInv n Md low0 (commitUpper sh c) l where
  hier hs := by
    have hi := (h.hier hs).1
    exact ⟨⟨hi.lev, hi.agree.mono hc, fun j h1 h2 => (hi.low j h1 h2).mono hc, hi.bound.imp (fun x => x) fun x => x.mono hc hi.agree⟩,
      fun h0 => by simp [commitUpper] at h0⟩
  lin hs := by
    have hi := h.lin hs
    exact ⟨hi.size, hi.lev.imp (fun x => x) fun x => ⟨x.1, x.2.1.mono hc, by simp [commitUpper], x.2.2.2⟩, fun h0 m hm => hi.bound (by
      rcases h0 with h0 | h0
      · exact .inl h0
      · simp [commitUpper] at h0) m (better_mono hc hm)⟩
  failed hp := (h.failed hp).imp (fun x => x) fun x => x.mono hc
  strict hp hg := by have := h.gen; simp only [commitUpper] at hg; omega
  zero h0 := by simp [commitUpper] at h0
  zrun h0 := by simp [commitUpper] at h0
  gen := by have := h.gen; simp only [commitUpper]; omega

/-- Lower bounds of the shared data do not matter for the invariant of a solver. -/
theorem LocInv.lower {sh : Shared} {x : Nat → Int} {l : Loc} (h : LocInv n Md low0 sh l) : LocInv n Md low0 { sh with lower := x } l where
  hier hs := by
    have hi := h.hier hs
    exact ⟨⟨hi.1.lev, hi.1.agree, hi.1.low, hi.1.bound.imp (fun x => x) fun x => ⟨x.gen, x.lev, x.pre, x.cur, x.rest⟩⟩, hi.2⟩
  lin hs := ⟨(h.lin hs).size, (h.lin hs).lev, (h.lin hs).bound⟩
  failed := h.failed
  strict := h.strict
  zero := h.zero
  zrun := h.zrun
  gen := h.gen

/-- Invariant of the whole system. -/
structure Inv (n : Nat) (Md : (Nat → Int) → Prop) (low0 U0 : Nat → Int) (s : Sys) : Prop where
  sh : ShInv n Md low0 U0 s.sh s.hist
  loc : ∀ t, LocInv n Md low0 s.sh (s.loc t)
  done : s.done = true → None' n Md s.sh

/-- Only one solver changes. -/
theorem Inv.upd {U0 : Nat → Int} {s : Sys} {t : Nat} {l : Loc} (h : Inv n Md low0 U0 s) (hl : LocInv n Md low0 s.sh l) :
    Inv n Md low0 U0 { s with loc := Function.update s.loc t l } where
  sh := h.sh
  loc u := by
    dsimp only
    by_cases hu : u = t
    · subst hu; rw [Function.update_self]; exact hl
    · rw [Function.update_of_ne hu]; exact h.loc u
  done := h.done

/-- The upper bound is representable once there is a model. -/
theorem ShInv.umax {U0 : Nat → Int} {sh : Shared} {hist : List (Nat → Int)} (hP : Prob n Md low0) (h : ShInv n Md low0 U0 sh hist)
    (hg : sh.gen ≠ 0) : ∀ i < n, sh.upper i < MAXB := by
  have h1 := h.gen
  have h2 := h.upper
  cases hh : hist with
  | nil => rw [hh] at h1; simp at h1; exact absurd h1 hg
  | cons c cs =>
    rw [hh] at h2; simp at h2
    rw [h2]
    exact hP.max c (h.md c (by rw [hh]; exact .head _)).1

include hP in
/-- Everything is below a relaxed bound. -/
theorem le_max {sh : Shared} {m : Nat → Int} (hm : better n Md sh m) {b : Nat → Int} (hb : ∀ j < n, MAXB ≤ b j) : le n m b :=
  le_of_pointwise fun i hi => by have := hb i hi; have := hP.max m hm.1 i hi; omega

include hP in
/-- An exhausted bound of a hierarchical strategy gives a lower bound. -/
theorem Act.low {sh : Shared} {l : Loc} (h : Act n sh l) (ha : Agree n Md sh l.lev)
    (hu : ∀ m, better n Md sh m → ¬ le n m l.bound) : ∀ m, better n Md sh m → (∀ j < l.lev, m j = sh.upper j) ∧ l.bound l.lev + 1 ≤ m l.lev := by
  intro m hm
  refine ⟨ha m hm, ?_⟩
  by_contra hlt
  apply hu m hm
  apply le_of_pointwise
  intro j hj
  rcases Nat.lt_trichotomy j l.lev with h1 | h1 | h1
  · rw [h.pre j h1, ha m hm j h1]; exact Int.le_refl _
  · subst h1; omega
  · rw [h.rest j hj h1]; have := hP.max m hm.1 j hj; omega

include hP in
/-- If the bound is exhausted on the last level with step size 1, nothing is left. -/
theorem Act.none {sh : Shared} {l : Loc} (h : Act n sh l) (ha : Agree n Md sh l.lev)
    (hu : ∀ m, better n Md sh m → ¬ le n m l.bound) (hm : ¬ more n l) : None' n Md sh := by
  intro m hb
  obtain ⟨_, h2⟩ := h.low hP ha hu m hb
  have h3 := h.cur
  have hlev := h.lev
  unfold more at hm
  have hsz : ¬ 1 < l.size := fun hh => hm ⟨hlev, .inl hh⟩
  have hl : l.lev = n - 1 := by by_contra hh; exact hm ⟨hlev, .inr hh⟩
  have hb2 := hb.2
  rw [if_neg h.gen] at hb2
  obtain ⟨j, hj, _, h5⟩ := hb2
  rcases Nat.lt_or_ge j l.lev with h6 | h6
  · have := ha m hb j h6; omega
  · obtain rfl : j = l.lev := by omega
    omega

/-! ## Preservation -/

/-- Initial bounds covered by the theorems: none at all, or (for the linear strategy only) one that is nowhere below the initial lower
bound. -/
def Start (n : Nat) (low0 U0 : Nat → Int) (st : Nat → Strat) : Prop :=
  (∀ i < n, U0 i = MAXB) ∨ ((∀ t, st t = .lin) ∧ ∀ i < n, low0 i ≤ U0 i)

include hP in
theorem inv_init {U0 : Nat → Int} {st : Nat → Strat} (hS : Start n low0 U0 st) : Inv n Md low0 U0 (Sys.init n U0 low0 st) where
  sh := ⟨fun i hi => by
      rcases hS with h | ⟨_, h⟩
      · show low0 i ≤ U0 i; rw [h i hi]; exact (hP.bot i hi).2
      · exact h i hi, fun i hi => .inl (Int.le_refl _), rfl, rfl, by simp [Sys.init], by simp [Sys.init]⟩
  loc t := by
    show LocInv n Md low0 ⟨U0, low0, 0⟩ (Loc.init n (st t))
    have hpos := hP.pos
    have e : (Loc.init n (st t)).pc = .integ ∧ (Loc.init n (st t)).gen = 0 ∧ (Loc.init n (st t)).bound = fun _ => MAXB := by
      unfold Loc.init stepInit; dsimp only; split <;> split <;> simp_all
    obtain ⟨e1, e2, e3⟩ := e
    refine ⟨?_, ?_, by rw [e1]; simp, by rw [e1]; simp, fun _ => .inl fun j _ => by rw [e3], by rw [e1]; simp, by rw [e2]; exact Nat.le_refl _⟩
    · intro hs
      have hst : ¬ (if st t = .hier ∧ n = 1 then Strat.lin else st t) = .lin := by
        intro h; apply hs; unfold Loc.init stepInit; rw [if_pos h]; exact h
      refine ⟨⟨?_, ?_, ?_, ?_⟩, ?_⟩
      · simp [Loc.init, stepInit, hst]
      · simp [Loc.init, stepInit, hst, Agree]
      · intro j hj hjn
        simp only [Loc.init, stepInit, hst, if_false] at hj ⊢
        have : j = 0 := by omega
        subst this
        rw [if_neg (by omega), Function.update_self]
        exact .inl (hP.bot 0 hpos).1
      · left; intro j _; rw [e3]; exact Int.le_refl _
      · intro _
        rcases hS with h | ⟨h, _⟩
        · exact h
        · exfalso; apply hst; rw [if_neg (by simp [h t])]; exact h t
    · intro hs
      have hst : (if st t = .hier ∧ n = 1 then Strat.lin else st t) = .lin := by
        by_contra h; apply absurd hs; unfold Loc.init stepInit; rw [if_neg h]; exact h
      refine ⟨by unfold Loc.init stepInit; rw [if_pos hst], .inl (by unfold Loc.init stepInit; rw [if_pos hst]), fun _ m hm => ?_⟩
      exact le_max hP hm fun j _ => by rw [e3]; exact Int.le_refl _
  done := by simp [Sys.init]

include hP in
theorem inv_step {U0 : Nat → Int} {s s' : Sys} (h : Inv n Md low0 U0 s) (hstep : Step n Md s s') : Inv n Md low0 U0 s' := by
  have hpos := hP.pos
  cases hstep with
  | begin t hd hp =>
    have hl := h.loc t
    refine h.upd ⟨fun hs => ?_, fun hs => ?_, by simp, by simp, hl.zero, by simp, hl.gen⟩
    · have hi := hl.hier hs
      exact ⟨⟨hi.1.lev, hi.1.agree, hi.1.low, hi.1.bound.imp (fun x => x) fun x => ⟨x.gen, x.lev, x.pre, x.cur, x.rest⟩⟩, hi.2⟩
    · have hi := hl.lin hs
      exact ⟨hi.size, .inl (hi.lev.resolve_right (by simp [hp])), fun _ => hi.bound (.inl (by rw [hp]; simp))⟩
  | fallback t hd hp =>
    have hl := h.loc t
    refine h.upd ⟨fun hs => ?_, fun hs => ?_, by simp [stepInit, hp], by simp [stepInit, hp], by simpa [stepInit] using hl.zero, by simp [stepInit, hp], by simpa [stepInit] using hl.gen⟩
    · simp [stepInit] at hs
    · refine ⟨by simp [stepInit], .inl (by simp [stepInit]), fun h0 m hm => ?_⟩
      have h0 : s.sh.gen = 0 := by
        rcases h0 with h0 | h0
        · simp [stepInit, hp] at h0
        · exact h0
      simp only [stepInit, if_true]
      rcases hl.zero h0 with hz | hz
      · exact le_max hP hm fun j hj => Int.le_of_eq (hz j hj).symm
      · exact le_trans hm.le (.inr fun i hi => (hz i hi).symm)
  | keep t hd hp ha h0 =>
    have hl := h.loc t
    have hz : ∀ j < n, (s.loc t).bound j = s.sh.upper j := by
      rcases hl.zero h0 with hz | hz
      · exact absurd (hz 0 hpos) ha
      · exact hz
    refine h.upd ⟨fun hs => ?_, fun hs => ?_, by simp, fun _ _ hne => absurd h0 hne, hl.zero, fun _ _ => hz, hl.gen⟩
    · have hi := hl.hier hs
      exact ⟨⟨hi.1.lev, hi.1.agree, hi.1.low, hi.1.bound.imp (fun x => x) fun x => ⟨x.gen, x.lev, x.pre, x.cur, x.rest⟩⟩, hi.2⟩
    · have hi := hl.lin hs
      exact ⟨hi.size, .inl (hi.lev.resolve_right (by simp [h0])), fun _ => hi.bound (.inr h0)⟩
  | upd t l hd hp hu =>
    have hl := h.loc t
    unfold updateBounds at hu
    by_cases h0 : s.sh.gen = 0
    · rw [if_neg (by simpa using h0)] at hu
      obtain ⟨z1, z2, z3⟩ := updLoop_zero h0 h.sh.low h.sh.ok (k := n) (i := 0) (l := { s.loc t with gen := s.sh.gen }) (by omega) (by simp) (fun j hj hj' hs => ((hl.hier hs).1.low j hj' hj)) hu
      dsimp only at z1 z2 z3
      rcases z3 with ⟨_, z3, z4, z5, z6⟩ | ⟨z3, _⟩
      · refine h.upd ⟨fun hs => ?_, fun hs => ?_, by simp, fun _ _ hne => absurd h0 hne, fun _ => .inr z5, fun _ _ => z5, by dsimp only; omega⟩
        · dsimp only at hs; rw [z1] at hs
          have hi := hl.hier hs
          refine ⟨⟨by dsimp only; rw [z3]; exact hi.1.lev, by dsimp only; rw [z3]; exact hi.1.agree, fun j hj hjn => z6 j hjn (by dsimp only at hj; omega) hs, .inl fun j hj => ?_⟩, hi.2⟩
          rw [z5 j hj]; exact Int.le_of_eq (hi.2 h0 j hj).symm
        · dsimp only at hs; rw [z1] at hs
          have hi := hl.lin hs
          exact ⟨by dsimp only; rw [z4]; exact hi.size, by dsimp only; rw [z3]; exact .inl (hi.lev.resolve_right (by simp [h0])),
            fun _ m hm => le_trans hm.le (.inr fun i hi => (z5 i hi).symm)⟩
      · simp at z3
    · rw [if_pos h0] at hu
      by_cases hs : (s.loc t).strat = .lin
      · have hi := hl.lin hs
        obtain ⟨r1, r2, r3, r4⟩ := updLoop_lin (Md := Md) (low0 := low0) h0 h.sh.low h.sh.ok (a := (s.loc t).lev) (hi.lev.imp id fun x => x.1) (k := n) (i := 0) (l := { s.loc t with gen := s.sh.gen }) (by omega) (by exact hs) (by exact hi.size) rfl
          (by simp) (by simp) hu
        dsimp only at r2
        rcases r4 with ⟨_, q1, q2, q3, q4⟩ | ⟨q, _⟩
        · refine h.upd ⟨fun hs => absurd r1 hs, fun _ => ⟨r3, .inl q1, fun _ m hm => ?_⟩, by simp, fun _ _ _ => ?_, fun h => absurd h h0, fun h => absurd h h0, by dsimp only; omega⟩
          · have hm2 := hm.2
            rw [if_neg h0] at hm2
            exact le_pred hpos hm2 q3 (q4 hpos)
          · exact ⟨n - 1, by omega, q3, by have := q4 hpos; dsimp only; omega⟩
        · simp at q
      · have hi := hl.hier hs
        have := updLoop_hier hP h0 h.sh.low (h.sh.umax hP h0) h.sh.ok (k := n) (i := 0) (l := { s.loc t with gen := s.sh.gen }) (a := (s.loc t).lev) (by omega) ?_ hu
        · obtain ⟨r, r2⟩ := this
          obtain ⟨y1, y2⟩ := r.yes rfl
          dsimp only at r2
          refine h.upd ⟨fun hs => ⟨⟨r.lev, r.agree, r.low, .inr ⟨y1.gen, y1.lev, y1.pre, y1.cur, y1.rest⟩⟩, fun h => absurd h h0⟩, fun hs => absurd hs r.strat, by simp, fun _ _ _ => y2, fun h => absurd h h0, fun h => absurd h h0, by dsimp only; omega⟩
        · refine ⟨hs, rfl, hi.1.lev, hi.1.agree, hi.1.low, by simp, fun _ => ?_, by simp⟩
          rcases hi.1.bound with hb | hb
          · exact .inl fun j hj _ => hb j hj
          · exact .inr ⟨hb.lev, hb.cur, hb.rest⟩
  | updFail t l hd hp hu =>
    have hl := h.loc t
    unfold updateBounds at hu
    have key : (l.strat ≠ .lin → l.lev ≤ n ∧ Agree n Md s.sh l.lev ∧ (∀ j ≤ l.lev, j < n → LowOK n Md low0 s.sh j (l.low j)) ∧
          (s.sh.gen = 0 → ∀ i < n, s.sh.upper i = MAXB)) ∧
        (l.strat = .lin → l.size = 1 ∧ (l.lev = n - 1 ∨ l.lev = n ∧ s.sh.gen ≠ 0) ∧ None' n Md s.sh) ∧ (more n l ∨ None' n Md s.sh) ∧ l.gen = s.sh.gen := by
      by_cases h0 : s.sh.gen = 0
      · rw [if_neg (by simpa using h0)] at hu
        obtain ⟨z1, z2, z3⟩ := updLoop_zero h0 h.sh.low h.sh.ok (k := n) (i := 0) (l := { s.loc t with gen := s.sh.gen }) (by omega) (by simp) (fun j hj hj' hs => ((hl.hier hs).1.low j hj' hj)) hu
        dsimp only at z1 z2 z3
        rcases z3 with ⟨z3, _⟩ | ⟨_, z3, z4, z5⟩
        · simp at z3
        · refine ⟨fun hs => ?_, fun hs => ?_, .inr z3, by rw [z2]⟩
          · rw [z1] at hs
            exact ⟨Nat.le_of_eq (z4 hs), fun m hm => absurd hm (z3 m), fun j _ _ => .inr fun m hm => absurd hm (z3 m), (hl.hier hs).2⟩
          · rw [z1] at hs
            exact ⟨(z5 hs).2, .inl (z5 hs).1, z3⟩
      · rw [if_pos h0] at hu
        by_cases hs : (s.loc t).strat = .lin
        · have hi := hl.lin hs
          obtain ⟨r1, r2, r3, r4⟩ := updLoop_lin (Md := Md) (low0 := low0) h0 h.sh.low h.sh.ok (a := (s.loc t).lev) (hi.lev.imp id fun x => x.1) (k := n) (i := 0) (l := { s.loc t with gen := s.sh.gen }) (by omega) (by exact hs) (by exact hi.size) rfl
            (by simp) (by simp) hu
          dsimp only at r2
          rcases r4 with ⟨q, _⟩ | ⟨_, q1, q2⟩
          · simp at q
          · have hno : None' n Md s.sh := by
              rcases q1 with q1 | q1
              · exact q1
              · rcases hi.lev with h1 | h1
                · omega
                · exact h1.2.1
            exact ⟨fun hs => absurd r1 hs, fun _ => ⟨r3, q2.imp id fun x => ⟨x, h0⟩, hno⟩, .inr hno, by rw [r2]⟩
        · have hi := hl.hier hs
          have := updLoop_hier hP h0 h.sh.low (h.sh.umax hP h0) h.sh.ok (k := n) (i := 0) (l := { s.loc t with gen := s.sh.gen }) (a := (s.loc t).lev) (by omega) ?_ hu
          · obtain ⟨r, r2⟩ := this
            exact ⟨fun _ => ⟨r.lev, r.agree, r.low, fun h => absurd h h0⟩, fun hs => absurd hs r.strat, r.no rfl, by rw [r2]⟩
          · refine ⟨hs, rfl, hi.1.lev, hi.1.agree, hi.1.low, by simp, fun _ => ?_, by simp⟩
            rcases hi.1.bound with hb | hb
            · exact .inl fun j hj _ => hb j hj
            · exact .inr ⟨hb.lev, hb.cur, hb.rest⟩
    obtain ⟨k1, k2, k3, k4⟩ := key
    refine h.upd ⟨fun hs => ?_, fun hs => ?_, fun _ => k3, by simp, fun _ => .inl fun j _ => rfl, by simp, by simp [relax]; omega⟩
    · obtain ⟨a1, a2, a3, a4⟩ := k1 hs
      exact ⟨⟨a1, a2, a3, .inl fun j _ => Int.le_refl _⟩, a4⟩
    · obtain ⟨a1, a2, a3⟩ := k2 hs
      exact ⟨a1, a2.imp id fun x => ⟨x.1, a3, x.2, .inr rfl⟩, fun _ m hm => le_max hP hm fun j _ => Int.le_refl _⟩
  | ok t hd hp =>
    have hl := h.loc t
    refine h.upd ⟨fun hs => ?_, fun hs => ?_, by simp, fun _ => hl.strict (.inr hp), hl.zero, fun h0 _ => hl.zrun h0 (.inr hp), hl.gen⟩
    · have hi := hl.hier hs
      exact ⟨⟨hi.1.lev, hi.1.agree, hi.1.low, hi.1.bound.imp (fun x => x) fun x => ⟨x.gen, x.lev, x.pre, x.cur, x.rest⟩⟩, hi.2⟩
    · have hi := hl.lin hs
      exact ⟨hi.size, .inl (hi.lev.resolve_right (by simp [hp])), fun _ => hi.bound (.inl (by rw [hp]; simp))⟩
  | imp t hd hp h0 hu =>
    have hl := h.loc t
    apply h.upd
    unfold bump
    split
    · rename_i hs
      have hi := hl.lin hs
      have hno : None' n Md s.sh := fun m hm => hu m hm (hi.bound (.inl (by rw [hp]; simp)) m hm)
      have hlev := hi.lev.resolve_right (by simp [hp])
      refine ⟨fun hs' => absurd hs hs', fun _ => ⟨hi.size, .inr ⟨by dsimp only; omega, hno, h0, .inl rfl⟩, fun hh => ?_⟩, by simp, by simp, fun h => absurd h h0, by simp, hl.gen⟩
      simp [h0] at hh
    · rename_i hs
      have hi := hl.hier hs
      refine ⟨fun _ => ⟨⟨hi.1.lev, hi.1.agree, ?_, ?_⟩, hi.2⟩, fun hs' => absurd hs' hs, by simp, by simp, fun h => absurd h h0, by simp, hl.gen⟩
      · intro j hj hjn
        dsimp only at hj ⊢
        by_cases hjl : j = (s.loc t).lev
        · subst hjl
          rw [Function.update_self]
          right
          rcases hi.1.bound with hb | hb
          · exact fun m hm => absurd (le_max hP hm hb) (hu m hm)
          · exact hb.low hP hi.1.agree hu
        · rw [Function.update_of_ne hjl]; exact hi.1.low j hj hjn
      · rcases hi.1.bound with hb | hb
        · left
          intro j hj
          dsimp only
          by_cases hjl : j = (s.loc t).lev
          · subst hjl; rw [Function.update_self]; have := hb _ hj; omega
          · rw [Function.update_of_ne hjl]; exact hb j hj
        · right
          refine ⟨h0, hb.lev, fun j hj => ?_, ?_, fun j hj hlj => ?_⟩
          · dsimp only at hj ⊢; rw [Function.update_of_ne (by omega)]; exact hb.pre j hj
          · dsimp only; rw [Function.update_self]; have := hb.cur; omega
          · dsimp only at hlj ⊢; rw [Function.update_of_ne (by omega)]; exact hb.rest j hj hlj
  | impFail t hd hp hu =>
    have hl := h.loc t
    apply h.upd
    have hnl : (s.loc t).strat = .lin → None' n Md s.sh :=
      fun hs m hm => hu m hm ((hl.lin hs).bound (.inl (by rw [hp]; simp)) m hm)
    have hnh : (s.loc t).strat ≠ .lin → ¬ more n (s.loc t) → None' n Md s.sh := fun hs hm => by
      rcases (hl.hier hs).1.bound with hb | hb
      · exact fun m hm => hu m hm (le_max hP hm hb)
      · exact hb.none hP (hl.hier hs).1.agree hu hm
    have hz : s.sh.gen = 0 → None' n Md s.sh := fun h0 m hm =>
      hu m hm (le_trans hm.le (.inr fun i hi => ((hl.zrun h0 (.inr hp)) i hi).symm))
    by_cases h0 : s.sh.gen = 0
    · rw [if_pos h0]
      refine ⟨fun hs => ?_, fun hs => ?_, fun _ => .inr (hz h0), by simp, fun _ => .inl fun j _ => rfl, by simp, hl.gen⟩
      · have hi := hl.hier hs
        exact ⟨⟨hi.1.lev, hi.1.agree, hi.1.low, .inl fun j _ => Int.le_refl _⟩, hi.2⟩
      · have hi := hl.lin hs
        exact ⟨hi.size, .inl (hi.lev.resolve_right (by simp [h0])), fun _ m hm => le_max hP hm fun j _ => Int.le_refl _⟩
    · rw [if_neg h0]
      unfold bump
      split
      · rename_i hs
        have hi := hl.lin hs
        have hlev := hi.lev.resolve_right (by simp [hp])
        exact ⟨fun hs' => absurd hs hs', fun _ => ⟨hi.size, .inr ⟨by simp only [relax]; omega, hnl hs, h0, .inr rfl⟩, fun _ m hm => le_max hP hm fun j _ => Int.le_refl _⟩, fun _ => .inr (hnl hs), by simp, fun h => absurd h h0, by simp, hl.gen⟩
      · rename_i hs
        have hi := hl.hier hs
        refine ⟨fun _ => ⟨⟨hi.1.lev, hi.1.agree, ?_, .inl fun j _ => Int.le_refl _⟩, hi.2⟩, fun hs' => absurd hs' hs, fun _ => ?_, by simp, fun h => absurd h h0, by simp, hl.gen⟩
        · intro j hj hjn
          dsimp only [relax] at hj ⊢
          by_cases hjl : j = (s.loc t).lev
          · subst hjl
            rw [Function.update_self]
            right
            rcases hi.1.bound with hb | hb
            · exact fun m hm => absurd (le_max hP hm hb) (hu m hm)
            · exact hb.low hP hi.1.agree hu
          · rw [Function.update_of_ne hjl]; exact hi.1.low j hj hjn
        · by_cases hm : more n (s.loc t)
          · exact .inl hm
          · exact .inr (hnh hs hm)
  | retry t hd hp hm =>
    have hl := h.loc t
    refine h.upd ⟨fun hs => ?_, fun hs => ?_, by simp, by simp, hl.zero, by simp, hl.gen⟩
    · have hi := hl.hier hs
      exact ⟨⟨hi.1.lev, hi.1.agree, hi.1.low, hi.1.bound.imp (fun x => x) fun x => ⟨x.gen, x.lev, x.pre, x.cur, x.rest⟩⟩, hi.2⟩
    · have hi := hl.lin hs
      exact ⟨hi.size, hi.lev.imp id fun x => ⟨x.1, x.2.1, x.2.2.1, .inl rfl⟩, fun _ => hi.bound (.inl (by rw [hp]; simp))⟩
  | stop t hd hp hm => exact ⟨h.sh, h.loc, fun _ => ((h.loc t).failed hp).resolve_left hm⟩
  | model t c hd hp hg hc hle =>
    have hl := h.loc t
    have hbc : better n Md s.sh c := by
      refine ⟨hc, ?_⟩
      split
      · rename_i h0
        exact le_trans hle (.inr (hl.zrun h0 (.inl hp)))
      · rename_i h0
        exact le_lt_trans hle (hl.strict (.inl hp) hg h0)
    refine ⟨⟨fun i hi => hP.low c hc i hi, fun i hi => (h.sh.ok i hi).mono hbc, by simp [commitUpper, h.sh.gen], by simp [commitUpper], ?_, ?_⟩, ?_, ?_⟩
    · intro x hx
      rcases List.mem_cons.1 hx with rfl | hx
      · refine ⟨hc, le_trans hbc.le ?_⟩
        rw [h.sh.upper]
        cases hh : s.hist with
        | nil => exact .inr fun _ _ => rfl
        | cons y ys => exact (h.sh.md y (by rw [hh]; exact .head _)).2
      · exact h.sh.md x hx
    · rw [List.pairwise_cons]
      refine ⟨fun x hx => ?_, h.sh.dec⟩
      have hd := h.sh.dec
      have hu := h.sh.upper
      have hg' := h.sh.gen
      cases hh : s.hist with
      | nil => rw [hh] at hx; simp at hx
      | cons y ys =>
        rw [hh] at hx hd hu hg'
        simp at hu hg'
        have h2 := hbc.2
        rw [if_neg (by omega), hu] at h2
        rcases List.mem_cons.1 hx with rfl | hx
        · exact h2
        · exact lt_trans h2 ((List.pairwise_cons.1 hd).1 x hx)
    · intro u
      dsimp only
      by_cases hut : u = t
      · subst hut
        rw [Function.update_self]
        have hm := hl.mono hbc
        unfold doubled
        split
        · rename_i hinc
          have hs : (s.loc u).strat ≠ .lin := by rw [hinc]; simp
          have hi := hm.hier hs
          refine ⟨fun _ => ⟨⟨hi.1.lev, hi.1.agree, hi.1.low, ?_⟩, hi.2⟩, fun hs' => absurd hs' hs, fun hp' => ?_, hm.strict, hm.zero, hm.zrun, hm.gen⟩
          · rcases (hl.hier hs).1.bound with hb | hb
            · exact .inl hb
            · right
              have hag := (hl.hier hs).1.agree c hbc
              have hle' := le_at hb.lev (fun j hj => (hag j hj).trans (hb.pre j hj).symm) hle
              have hm' := hb.mono hbc (hl.hier hs).1.agree
              refine ⟨hm'.gen, hm'.lev, hm'.pre, ?_, hm'.rest⟩
              simp only [commitUpper]
              omega
          · dsimp only at hp'; rw [hp] at hp'; simp at hp'
        · exact hm
      · rw [Function.update_of_ne hut]; exact (h.loc u).mono hbc
    · intro hd'; dsimp only at hd'; rw [hd] at hd'; simp at hd'
  | unsat t up hd hp hu =>
    have hl := h.loc t
    have hno : ¬ more n (s.loc t) → None' n Md s.sh := fun hm => by
      by_cases hs : (s.loc t).strat = .lin
      · exact fun m hb => hu m hb ((hl.lin hs).bound (.inl (by rw [hp]; simp)) m hb)
      · rcases (hl.hier hs).1.bound with hb | hb
        · exact fun m hm => hu m hm (le_max hP hm hb)
        · exact hb.none hP (hl.hier hs).1.agree hu hm
    unfold commitLower
    split
    · rename_i hc
      obtain ⟨c1, c2, c3, c4⟩ := hc
      have hi := hl.hier c3
      have hlow : LowOK n Md low0 s.sh (s.loc t).lev ((s.loc t).bound (s.loc t).lev + 1) := by
        right
        rcases hi.1.bound with hb | hb
        · exact fun m hm => absurd (le_max hP hm hb) (hu m hm)
        · exact hb.low hP hi.1.agree hu
      have hsv : LowOK n Md low0 s.sh (s.loc t).lev (if up then max (s.sh.lower (s.loc t).lev) ((s.loc t).bound (s.loc t).lev + 1) else (s.loc t).bound (s.loc t).lev + 1) := by
        split
        · exact (h.sh.ok _ c4).max hlow
        · exact hlow
      dsimp only
      generalize (if up then max (s.sh.lower (s.loc t).lev) ((s.loc t).bound (s.loc t).lev + 1) else (s.loc t).bound (s.loc t).lev + 1) = sv at *
      have hnew : LocInv n Md low0 s.sh { relax (s.loc t) with low := Function.update (s.loc t).low (s.loc t).lev sv, size := if (s.loc t).strat = .inc then 1 else (s.loc t).size, pc := .integ } := by
        refine ⟨fun _ => ⟨⟨hi.1.lev, hi.1.agree, ?_, .inl fun j _ => Int.le_refl _⟩, hi.2⟩, fun hs => absurd hs c3, by simp, by simp, fun _ => .inl fun j _ => rfl, by simp, hl.gen⟩
        intro j hj hjn
        dsimp only [relax] at hj ⊢
        by_cases hjl : j = (s.loc t).lev
        · subst hjl; rw [Function.update_self]; exact hsv
        · rw [Function.update_of_ne hjl]; exact hi.1.low j hj hjn
      cases up with
      | true =>
        refine ⟨⟨h.sh.low, fun i hi => ?_, h.sh.gen, h.sh.upper, h.sh.md, h.sh.dec⟩, fun u => ?_, fun hd' => hno (of_decide_eq_true hd')⟩
        · simp only [if_true]
          by_cases hil : i = (s.loc t).lev
          · subst hil; rw [Function.update_self]; exact hsv
          · rw [Function.update_of_ne hil]; exact h.sh.ok i hi
        · simp only [if_true]
          apply LocInv.lower
          by_cases hut : u = t
          · subst hut; rw [Function.update_self]; exact hnew
          · rw [Function.update_of_ne hut]; exact h.loc u
      | false =>
        refine ⟨h.sh, fun u => ?_, fun hd' => hno (of_decide_eq_true hd')⟩
        simp only [Bool.false_eq_true, if_false]
        by_cases hut : u = t
        · subst hut; rw [Function.update_self]; exact hnew
        · rw [Function.update_of_ne hut]; exact h.loc u
    · refine ⟨h.sh, fun u => ?_, fun hd' => hno (of_decide_eq_true hd')⟩
      dsimp only
      by_cases hut : u = t
      · subst hut
        rw [Function.update_self]
        refine ⟨fun hs => ?_, fun hs => ?_, by simp, by simp, fun _ => .inl fun j _ => rfl, by simp, hl.gen⟩
        · have hi := hl.hier hs
          exact ⟨⟨hi.1.lev, hi.1.agree, hi.1.low, .inl fun j _ => Int.le_refl _⟩, hi.2⟩
        · have hi := hl.lin hs
          exact ⟨hi.size, .inl (hi.lev.resolve_right (by simp [hp])), fun _ m hm => le_max hP hm fun j _ => Int.le_refl _⟩
      · rw [Function.update_of_ne hut]; exact h.loc u

include hP in
theorem inv_reach {U0 : Nat → Int} {st : Nat → Strat} (hS : Start n low0 U0 st) {s : Sys} (h : Reach n Md U0 low0 st s) :
    Inv n Md low0 U0 s := by
  induction h with
  | init => exact inv_init hP hS
  | step _ hs ih => exact inv_step hP ih hs

/-! ## Theorems -/

include hP in
/-- C19: every reported model is strictly better than all models reported before, and within the initial bound.  Partial: initial bounds
are restricted by `Start` (see `C19_bound_witness`), executions end where the assertion on the step size fails (see
`C19_step_witness`). -/
theorem C19_improving_partial {U0 : Nat → Int} {st : Nat → Strat} (hS : Start n low0 U0 st) {s : Sys} (h : Reach n Md U0 low0 st s) :
    s.hist.Pairwise (lt n) ∧ ∀ c ∈ s.hist, Md c ∧ le n c U0 :=
  ⟨(inv_reach hP hS h).sh.dec, (inv_reach hP hS h).sh.md⟩

include hP in
/-- C19: when a solver reports that search is exhausted, the last reported cost is the lexicographic minimum over all models, and if no
model was reported there is none within the initial bound.  Partial as above. -/
theorem C19_optimal_partial {U0 : Nat → Int} {st : Nat → Strat} (hS : Start n low0 U0 st) {s : Sys} (h : Reach n Md U0 low0 st s)
    (hd : s.done = true) :
    (∀ c cs, s.hist = c :: cs → Md c ∧ ∀ m, Md m → le n c m) ∧ (s.hist = [] → ∀ m, Md m → ¬ le n m U0) := by
  have hi := inv_reach hP hS h
  have hno := hi.done hd
  have hg := hi.sh.gen
  have hu := hi.sh.upper
  constructor
  · intro c cs hh
    rw [hh] at hg hu
    simp at hg hu
    refine ⟨(hi.sh.md c (by rw [hh]; exact .head _)).1, fun m hm => le_of_not_lt fun hlt => hno m ⟨hm, ?_⟩⟩
    rw [if_neg (by omega), hu]; exact hlt
  · intro hh m hm hle
    rw [hh] at hg hu
    simp at hg hu
    refine hno m ⟨hm, ?_⟩
    rw [if_pos hg, hu]; exact hle

include hP in
/-- C19: a lower bound above the initial one is valid: everything better than the best known model agrees with that model on all more
important levels and is not below the lower bound on its level. -/
theorem C19_lower_partial {U0 : Nat → Int} {st : Nat → Strat} (hS : Start n low0 U0 st) {s : Sys} (h : Reach n Md U0 low0 st s)
    {i : Nat} (hi : i < n) (hl : low0 i < s.sh.lower i) {m : Nat → Int} (hm : Md m) (hb : lt n m s.sh.upper) :
    (∀ j < i, m j = s.sh.upper j) ∧ s.sh.lower i ≤ m i := by
  have := ((inv_reach hP hS h).sh.ok i hi).resolve_left (by omega)
  apply this
  refine ⟨hm, ?_⟩
  split
  · exact .inl hb
  · exact hb

/-- C19: as long as upper and lower bound differ by less than 2^32, the step is not zero and does not skip the lower bound. -/
theorem C19_step {s : Strat} {size : Nat} {d : Int} (hd : 0 < d) (hd' : d < 2 ^ 32) (h1 : s ≠ .dec → size ≠ 0) (h2 : s = .hier ∨ s = .lin → size = 1) :
    nextSize s size d ≠ 0 ∧ (nextSize s size d : Int) ≤ d := by
  have hh : 0 < halfOf d ∧ halfOf d ≤ d := by unfold halfOf; split <;> omega
  have hu : ∀ x : Int, 0 < x → x < 2 ^ 32 → (u32 x : Int) = x := by
    intro x h1 h2; unfold u32; rw [Int.emod_eq_of_lt (by omega) h2]; omega
  have e1 := hu d hd hd'
  have e2 := hu _ hh.1 (by omega)
  cases s with
  | lin => have := h2 (.inr rfl); simp only [nextSize]; omega
  | hier => have := h2 (.inl rfl); simp only [nextSize]; omega
  | inc => have := h1 (by simp); simp only [nextSize]; omega
  | dec => simp only [nextSize]; split <;> omega

end Clasp.BB
