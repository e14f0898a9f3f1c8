import Verif.Core.ReduceLem
import Verif.Core.ReduceLock
import Mathlib.Data.List.Sort

/-!
# C31: reducing the learnt database

Specification: scores are read off the packed word by division and remainder (`act`, `lbd`, `bumped`);
`Protected` says which constraints must stay; `Worse` is the documented order of the three scores
(clasp/solver_strategies.h 420-464: activity, lbd, or the product), independent of the code's arithmetic.
-/

namespace Clasp.Reduce
open Core

/-- Specification: the activity stored in a score (bits 0-19). -/
def act (x : BitVec 32) : Nat := x.toNat % 2 ^ 20
/-- Specification: the lbd stored in a score (bits 20-26; 0 means none, which counts as 127). -/
def lbd (x : BitVec 32) : Nat := if x.toNat / 2 ^ 20 % 2 ^ 7 = 0 then 127 else x.toNat / 2 ^ 20 % 2 ^ 7
/-- Specification: the bumped flag of a score (bit 27). -/
def bumped (x : BitVec 32) : Prop := x.toNat / 2 ^ 27 % 2 = 1

/-- Specification: constraints that a reduction must keep: reasons, glue, frozen. -/
def Protected (c : Cmp) (locked : Con → Bool) (x : Con) : Prop :=
  locked x = true ∨ lbd x.sc ≤ c.glue ∨ (bumped x.sc ∧ lbd x.sc ≤ c.freeze)

/-- Specification: `x` has a strictly lower score than `y`. -/
def Worse : Kind → BitVec 32 → BitVec 32 → Prop
  | .act, x, y => act x < act y ∨ (act x = act y ∧ lbd y < lbd x)
  | .lbd, x, y => lbd y < lbd x ∨ (lbd x = lbd y ∧ act x < act y)
  | .both, x, y => (act x + 1) * (128 - lbd x) < (act y + 1) * (128 - lbd y)

theorem scoreAct_eq (x : BitVec 32) : scoreAct x = act x := Score.activity_toNat x
theorem lbd_eq (x : BitVec 32) : (Score.lbd x).toNat = lbd x := Score.lbd_toNat x
theorem lbd_le (x : BitVec 32) : 1 ≤ lbd x ∧ lbd x ≤ 127 := by unfold lbd; split <;> omega
theorem bumped_eq (x : BitVec 32) : Score.bumped x = true ↔ bumped x := by
  unfold Score.bumped bumped
  rw [testBit_iff _ _ (by decide), decide_eq_true_eq]; rfl

theorem pinned_iff (c : Cmp) (locked : Con → Bool) (x : Con) : pinned c locked x = true ↔ Protected c locked x := by
  unfold pinned Protected Cmp.isGlue Cmp.isFrozen
  simp only [Bool.or_eq_true, Bool.and_eq_true, decide_eq_true_eq, bumped_eq, lbd_eq, or_assoc]

theorem lt_worse (c : Cmp) (x y : BitVec 32) : c.lt x y = true ↔ Worse c.kind x y := by
  rw [lt_iff]
  have h1 := lbd_le x
  have h2 := lbd_le y
  have b1 := scoreBoth_lt x
  have b2 := scoreBoth_lt y
  have e1 : scoreBoth x = (act x + 1) * (128 - lbd x) := by unfold scoreBoth scoreLbd; rw [scoreAct_eq, lbd_eq]
  have e2 : scoreBoth y = (act y + 1) * (128 - lbd y) := by unfold scoreBoth scoreLbd; rw [scoreAct_eq, lbd_eq]
  unfold rank Worse
  cases c.kind with
  | both => dsimp only; rw [← e1, ← e2]; omega
  | act =>
    dsimp only
    rw [scoreAct_eq, scoreAct_eq]
    by_cases h : act x = act y
    · rw [h]
      have : scoreBoth x < scoreBoth y ↔ lbd y < lbd x := by
        rw [e1, e2, h]
        rw [Nat.mul_lt_mul_left (by omega)]; omega
      omega
    · omega
  | lbd =>
    dsimp only
    unfold scoreLbd
    rw [lbd_eq, lbd_eq]
    by_cases h : lbd x = lbd y
    · rw [h]
      have : scoreBoth x < scoreBoth y ↔ act x < act y := by
        rw [e1, e2, h, Nat.mul_lt_mul_right (by omega)]; omega
      omega
    · omega

variable (c : Cmp) (locked : Con → Bool)
  (S1 : Std Con (fun a b => c.lt a.sc b.sc)) (S2 : Std View (fun a b => c.lt a.2 b.2))

/-- Everything about one reduction, for all algorithms. -/
theorem reduce_all (algo : Algo) (n : Nat) (db : List Con) : ∃ kept,
    Ok c locked n db (reduceLearnts c locked S1 S2 algo n db) kept ∧
    (algo ≠ .linear ∨ n ≥ db.length → (reduceLearnts c locked S1 S2 algo n db).gone.length = min n (free c locked db) ∧
      ∀ x ∈ (reduceLearnts c locked S1 S2 algo n db).gone, ∀ y ∈ kept, pinned c locked y = false → c.lt y.sc x.sc = false) ∧
    (n = 0 → (reduceLearnts c locked S1 S2 algo n db).gone = []) ∧
    (algo = .linear ∨ algo = .stable → n < db.length → n ≠ 0 → kept.Sublist db) ∧
    (reduceLearnts c locked S1 S2 algo n db).info.locked = db.countP locked := by
  unfold reduceLearnts
  by_cases h : n ≥ db.length ∨ n = 0 ∨ algo = .sort
  · rw [if_pos h]
    obtain ⟨k, h1, h2, h3, h4, _⟩ := inPlace_ok (c := c) (locked := locked) S1 n db false
    refine ⟨k, h1, fun _ => ⟨h2, h3⟩, ?_, ?_, h4⟩
    · rintro rfl
      exact List.length_eq_zero_iff.1 (by rw [h2]; simp)
    · rintro ha hb h0
      rcases h with h | h | h
      · omega
      · exact absurd h h0
      · rcases ha with rfl | rfl <;> cases h
  · rw [if_neg h]
    push Not at h
    cases algo with
    | sort => exact absurd rfl h.2.2
    | linear =>
      obtain ⟨k, h1, h2, h3, h4, h5⟩ := linearLoop_ok (c := c) (locked := locked)
        (active c (db.map fun x => asScore c.kind x.sc).sum db.length (asScore c.kind (Score.makeScore Score.actMax 1#32))) db n
      refine ⟨k, h1, fun ha => ?_, fun h0 => absurd h0 h.2.1, fun _ _ _ => h2, ?_⟩
      · rcases ha with ha | ha
        · exact absurd rfl ha
        · omega
      · have hp := h1.perm.countP_eq locked
        rw [List.countP_append] at hp
        have h0 : (linearLoop c locked (active c (db.map fun x => asScore c.kind x.sc).sum db.length (asScore c.kind (Score.makeScore Score.actMax 1#32))) n db).gone.countP locked = 0 := by
          rw [List.countP_eq_zero]
          intro x hx hl
          have := h1.unpinned x hx
          simp [pinned, hl] at this
        show (linearLoop c locked _ n db).info.locked = _
        omega
    | stable =>
      obtain ⟨k, h1, h2, h3, h4⟩ := reduceSort_ok (c := c) (locked := locked) S2 n db
      exact ⟨k, h1, fun _ => ⟨h3, h4⟩, fun h0 => absurd h0 h.2.1, fun _ _ _ => h2, rfl⟩
    | heap =>
      obtain ⟨k, h1, h2, h3, h4, _⟩ := inPlace_ok (c := c) (locked := locked) S1 n db true
      refine ⟨k, h1, fun _ => ⟨h2, h3⟩, fun h0 => absurd h0 h.2.1, ?_, h4⟩
      rintro (ha | ha) <;> cases ha

/-- **C31.** For every algorithm, score, limit and database: the constraints removed and the ones kept
are together exactly the old ones; no constraint removed is locked, glue or frozen; at most `n` are
removed; the new database consists of the kept constraints with their activities halved (and the
bumped flag cleared, the lbd unchanged); the size reported is its size, and the number of locked
constraints is reported. -/
theorem C31_reduce (algo : Algo) (n : Nat) (db : List Con) :
    let r := reduceLearnts c locked S1 S2 algo n db
    ∃ kept, (kept ++ r.gone).Perm db ∧ r.gone.length ≤ n ∧
      (∀ x ∈ r.gone, ¬ Protected c locked x) ∧
      r.db.map Con.id = kept.map Con.id ∧
      List.Forall₂ (fun (y x : Con) => act y.sc = act x.sc / 2 ∧ lbd y.sc = lbd x.sc ∧ ¬ bumped y.sc) r.db kept ∧
      r.info.size = r.db.length ∧ r.info.locked = db.countP locked := by
  intro r
  obtain ⟨k, h1, _, _, _, h5⟩ := reduce_all c locked S1 S2 algo n db
  refine ⟨k, h1.perm, h1.le, ?_, ?_, ?_, h1.size, h5⟩
  · intro x hx hp
    have := h1.unpinned x hx
    rw [(pinned_iff c locked x).2 hp] at this; cases this
  · show (reduceLearnts c locked S1 S2 algo n db).db.map _ = _
    rw [h1.out, List.map_map]; rfl
  · show List.Forall₂ _ (reduceLearnts c locked S1 S2 algo n db).db k
    rw [h1.out, List.forall₂_map_left_iff, List.forall₂_same]
    intro x _
    have hf := Score.reduce_fields x.sc
    simp only [fieldsOf, Fields.mk.injEq] at hf
    refine ⟨hf.1, ?_, ?_⟩
    · show lbd (Score.reduce x.sc) = _
      unfold lbd; rw [hf.2.1]
    · show ¬ bumped (Score.reduce x.sc)
      unfold bumped; rw [hf.2.2.1]; decide

/-- **C31.** The sorting algorithms (and every algorithm asked to remove everything) remove exactly
`min n (number of unprotected constraints)` constraints, and none of them has a higher score than an
unprotected constraint that is kept. -/
theorem C31_worst (algo : Algo) (n : Nat) (db : List Con) (h : algo ≠ .linear ∨ db.length ≤ n)
    [DecidablePred (Protected c locked)] :
    let r := reduceLearnts c locked S1 S2 algo n db
    r.gone.length = min n (db.countP fun x => decide (¬ Protected c locked x)) ∧
    ∃ kept, (kept ++ r.gone).Perm db ∧ r.db.map Con.id = kept.map Con.id ∧
      ∀ x ∈ r.gone, ∀ y ∈ kept, ¬ Protected c locked y → ¬ Worse c.kind y.sc x.sc := by
  intro r
  obtain ⟨k, h1, h2, _⟩ := reduce_all c locked S1 S2 algo n db
  obtain ⟨h2, h3⟩ := h2 h
  refine ⟨?_, k, h1.perm, ?_, ?_⟩
  · show (reduceLearnts c locked S1 S2 algo n db).gone.length = _
    rw [h2]
    congr 1
    unfold free
    congr 1
    funext x
    have := pinned_iff c locked x
    by_cases hp : Protected c locked x
    · rw [this.2 hp]; simp [hp]
    · have : pinned c locked x = false := by
        rw [← Bool.not_eq_true]; exact fun h => hp (this.1 h)
      rw [this]; simp [hp]
  · show (reduceLearnts c locked S1 S2 algo n db).db.map _ = _
    rw [h1.out, List.map_map]; rfl
  · intro x hx y hy hp hw
    have hu : pinned c locked y = false := by
      rw [← Bool.not_eq_true, pinned_iff]; exact hp
    have := h3 x hx y hy hu
    rw [(lt_worse c y.sc x.sc).2 hw] at this; cases this

/-- **C31.** The linear and the stable algorithm do not reorder the database. -/
theorem C31_order (algo : Algo) (n : Nat) (db : List Con) (h : algo = .linear ∨ algo = .stable) (hn : n < db.length) (h0 : n ≠ 0) :
    ((reduceLearnts c locked S1 S2 algo n db).db.map Con.id).Sublist (db.map Con.id) := by
  obtain ⟨k, h1, _, _, h4, _⟩ := reduce_all c locked S1 S2 algo n db
  rw [h1.out, List.map_map]
  exact (h4 h hn h0).map Con.id

/-- Specification: the score a strategy uses for "active" constraints. -/
def value : Kind → BitVec 32 → Nat
  | .act, x => act x
  | .lbd, x => 128 - lbd x
  | .both, x => (act x + 1) * (128 - lbd x)

theorem asScore_eq (k : Kind) (x : BitVec 32) : asScore k x = value k x := by
  cases k
  · exact scoreAct_eq x
  · unfold asScore value scoreLbd; rw [lbd_eq]
  · unfold asScore value scoreBoth scoreLbd; rw [lbd_eq, scoreAct_eq]

/-- **C31.** The linear algorithm keeps every constraint whose score is more than one and a half times
the average, provided this threshold does not exceed the largest possible score; otherwise it keeps
those above the middle between average and largest score. -/
theorem C31_active (n : Nat) (db : List Con) (hn : n < db.length) (x : Con)
    (hx : x ∈ (reduceLearnts c locked S1 S2 .linear n db).gone) :
    let sum := (db.map fun y => value c.kind y.sc).sum
    let top := value c.kind (Score.makeScore Score.actMax 1#32)
    (3 * sum ≤ 2 * db.length * top → 2 * db.length * value c.kind x.sc ≤ 3 * sum) ∧
    (2 * db.length * top < 3 * sum → 2 * db.length * value c.kind x.sc ≤ db.length * top + sum) := by
  unfold reduceLearnts at hx
  by_cases h : n ≥ db.length ∨ n = 0 ∨ Algo.linear = .sort
  · rw [if_pos h] at hx
    obtain ⟨k, h1, h2, _⟩ := inPlace_ok (c := c) (locked := locked) S1 n db false
    have h0 : n = 0 := by
      rcases h with h | h | h
      · omega
      · exact h
      · cases h
    subst h0
    have : (reduceSortInPlace c locked S1 0 db false).gone = [] := List.length_eq_zero_iff.1 (by rw [h2]; simp)
    rw [this] at hx; cases hx
  · rw [if_neg h] at hx
    obtain ⟨_, _, _, h3, _, _⟩ := linearLoop_ok (c := c) (locked := locked)
        (active c (db.map fun x => asScore c.kind x.sc).sum db.length (asScore c.kind (Score.makeScore Score.actMax 1#32))) db n
    have := h3 x hx
    unfold active at this
    simp only [asScore_eq] at this
    intro sum top
    constructor
    · intro ha
      rw [if_neg (by show ¬ 3 * sum > 2 * db.length * top; omega)] at this
      exact Nat.not_lt.1 (of_decide_eq_false this)
    · intro ha
      rw [if_pos ha] at this
      exact Nat.not_lt.1 (of_decide_eq_false this)

/-! ### Reasons are locked -/

theorem lit_eq {p q : Lit} (h : p.var = q.var) (h' : q.tv = p.tv) : p = q := by
  obtain ⟨v, s⟩ := p
  obtain ⟨v', s'⟩ := q
  simp [Lit.tv] at h h'
  rw [h, h']

/-- In every reachable state a clause that is the antecedent of a true literal watches this literal. -/
theorem reason_watched {learn : Bool} {l : LSt} (h : l.Reach learn) :
    ∀ (id : Nat) (q : Lit), l.st.isTrue q = true → l.ante q.var = some id → q = (l.cls id).h0 ∨ q = (l.cls id).h1 := by
  induction h with
  | init cls s => intro id q _ h; cases h
  | @step l l' _ hs ih =>
    cases hs with
    | other s ante h =>
      intro id q hq ha
      have hv : s.value q.var ≠ none := by
        intro e
        have hq' : s.isTrue q = true := hq
        unfold St.isTrue at hq'; rw [e] at hq'; simp at hq'
      rcases h q.var hv with ⟨e1, e2⟩ | e
      · refine ih id q ?_ (e2 ▸ ha)
        have hq' : s.isTrue q = true := hq
        unfold St.isTrue at hq' ⊢; rw [← e1]; exact hq'
      · have ha' : ante q.var = some id := ha
        rw [e] at ha'; cases ha'
    | add id c force h hf =>
      intro i q hq ha
      dsimp only at hq ha ⊢
      cases force with
      | false =>
        simp only [Bool.false_eq_true, if_false] at hq ha
        have hv : l.st.value q.var ≠ none := by
          intro e; unfold St.isTrue at hq; rw [e] at hq; simp at hq
        have hi : i ≠ id := fun e => h q.var hv (e ▸ ha)
        rw [Function.update_of_ne hi]
        exact ih i q hq ha
      | true =>
        simp only [if_true] at hq ha
        have hfree := hf rfl
        by_cases hqv : q.var = c.h0.var
        · rw [hqv, Function.update_self, Option.some.injEq] at ha
          subst ha
          rw [Function.update_self]
          left
          have : (l.st.push c.h0 none).value c.h0.var = some c.h0.tv := by
            unfold St.push St.value; dsimp only; rw [Function.update_self]
          unfold St.isTrue at hq; rw [hqv, this] at hq
          exact lit_eq hqv (by simpa using hq)
        · rw [Function.update_of_ne hqv] at ha
          have hval : (l.st.push c.h0 none).value q.var = l.st.value q.var := by
            unfold St.push St.value; dsimp only; rw [Function.update_of_ne hqv]
          have hq' : l.st.isTrue q = true := by
            unfold St.isTrue at hq ⊢; rw [← hval]; exact hq
          have hv : l.st.value q.var ≠ none := by
            intro e; unfold St.isTrue at hq'; rw [e] at hq'; simp at hq'
          have hi : i ≠ id := fun e => h q.var hv (e ▸ ha)
          rw [Function.update_of_ne hi]
          exact ih i q hq' ha
    | prop id p hp hw =>
      intro i q hq ha
      unfold LSt.propagate at hq ha ⊢
      dsimp only at hq ha ⊢
      set cl := l.cls id with hcl
      set w := decide (cl.h1 = p.neg) with hwd
      have hother : (if cl.h1 = p.neg then cl.h0 else cl.h1) = cl.watch (!w) := by
        unfold Cl.watch; rw [hwd]; by_cases h : cl.h1 = p.neg <;> simp [h]
      have hwatch : cl.watch w = p.neg := by
        unfold Cl.watch; rw [hwd]
        by_cases h : cl.h1 = p.neg
        · simp [h]
        · rcases hw with h' | h'
          · simp [h, h']
          · exact absurd h' h
      have hmem : ∀ q : Lit, q = cl.h0 ∨ q = cl.h1 ↔ q = cl.watch w ∨ q = cl.watch (!w) := by
        intro q; unfold Cl.watch; cases w <;> simp [or_comm]
      rw [hother] at ha
      have notp : ∀ q : Lit, l.st.isTrue q = true → q ≠ p.neg := by
        rintro q hq rfl
        unfold St.isTrue at hp hq
        rw [beq_iff_eq] at hp hq
        rw [Lit.neg_var, hp] at hq
        simp [Lit.tv, Lit.neg] at hq
      have stay : ∀ (q : Lit), l.st.isTrue q = true → l.ante q.var = some i →
          q = (Function.update l.cls id cl i).h0 ∨ q = (Function.update l.cls id cl i).h1 := by
        intro q h1 h2
        rw [hcl, Function.update_eq_self]; exact ih i q h1 h2
      rcases Cl.propagate_cases learn l.st cl p w hwd hwatch with ⟨e, ht⟩ | ⟨c', e, hm⟩ | ⟨e, hnt, _⟩
      · rw [e] at hq ha ⊢
        dsimp only at hq ha ⊢
        rw [if_neg (by rintro ⟨h1, h2⟩; unfold St.isTrue at h2; rw [h1] at h2; simp at h2)] at ha
        exact stay q hq ha
      · rw [e] at hq ha ⊢
        dsimp only at hq ha ⊢
        rw [if_neg (by rintro ⟨h1, h2⟩; unfold St.isTrue at h2; rw [h1] at h2; simp at h2)] at ha
        have := ih i q hq ha
        by_cases hi : i = id
        · subst hi
          rw [Function.update_self]
          rw [← hcl, hmem] at this
          have hmem' : q = c'.h0 ∨ q = c'.h1 ↔ q = c'.watch w ∨ q = c'.watch (!w) := by
            unfold Cl.watch; cases w <;> simp [or_comm]
          rw [hmem']
          rcases this with this | this
          · exact absurd (this.trans hwatch) (notp q hq)
          · right; rw [hm.other]; exact this
        · rw [Function.update_of_ne hi]; exact this
      · rw [e] at hq ha ⊢
        dsimp only at hq ha ⊢
        rcases l.st.value_cases (cl.watch !w) with hv | hv | hv
        · rw [St.force_free hv] at hq ha
          dsimp only at hq ha
          have htrue : (l.st.push (cl.watch !w) (some (cl.reason w))).value (cl.watch !w).var = some (cl.watch !w).tv := by
            unfold St.push St.value; dsimp only; rw [Function.update_self]
          rw [if_pos ⟨hv, by unfold St.isTrue; rw [htrue]; simp⟩] at ha
          by_cases hqv : q.var = (cl.watch !w).var
          · rw [hqv, Function.update_self, Option.some.injEq] at ha
            subst ha
            rw [Function.update_self, hmem]
            right
            unfold St.isTrue at hq; rw [hqv, htrue] at hq
            exact lit_eq hqv (by simpa using hq)
          · rw [Function.update_of_ne hqv] at ha
            have hval : (l.st.push (cl.watch !w) (some (cl.reason w))).value q.var = l.st.value q.var := by
              unfold St.push St.value; dsimp only; rw [Function.update_of_ne hqv]
            have hq' : l.st.isTrue q = true := by
              unfold St.isTrue at hq ⊢; rw [← hval]; exact hq
            exact stay q hq' ha
        · rw [hnt] at hv; cases hv
        · rw [St.force_false hv] at hq ha
          dsimp only at hq ha
          rw [if_neg (by
            rintro ⟨h1, _⟩
            unfold St.isFalse at hv; rw [h1] at hv; simp at hv)] at ha
          exact stay q hq ha

/-- **C31** (for clauses; for loop formulas, whose `locked` is src/clause.cpp 1009-1018, see `C31_reason_loop` in Asp/LoopProps.lean).
No clause that is currently the reason of a true literal is removed: in every state the
solver can reach, for every algorithm and limit. -/
theorem C31_reason_clause {learn : Bool} {l : LSt} (h : l.Reach learn) (q : Lit) (hq : l.st.isTrue q = true) (id : Nat)
    (ha : l.ante q.var = some id) (algo : Algo) (n : Nat) (db : List Con) :
    ∀ x ∈ (reduceLearnts c (fun x => l.locked x.id) S1 S2 algo n db).gone, x.id ≠ id := by
  intro x hx e
  obtain ⟨k, h1, _⟩ := reduce_all c (fun x => l.locked x.id) S1 S2 algo n db
  have hu := h1.unpinned x hx
  unfold pinned at hu
  simp only [Bool.or_eq_false_iff] at hu
  have hl := hu.1.1
  rw [e] at hl
  unfold LSt.locked at hl
  simp only [Bool.or_eq_false_iff, Bool.and_eq_false_iff] at hl
  rcases reason_watched h id q hq ha with e | e
  · subst e; simp [hq, ha] at hl
  · subst e; simp [hq, ha] at hl

/-! ### Example -/

/-- Example: library functions realised by sorting; a heap is a list in descending order. -/
def exStd {α : Type} (lt : α → α → Bool) (r : α → Nat) (h : ∀ a b, lt a b = true ↔ r a < r b) : Std α lt where
  sort := List.insertionSort fun a b => r a ≤ r b
  heap l := l.Pairwise fun a b => r b ≤ r a
  make := List.insertionSort fun a b => r b ≤ r a
  pop l := match l with
    | [] => []
    | a :: l => l ++ [a]
  push := List.insertionSort fun a b => r b ≤ r a
  sort_perm l := List.perm_insertionSort _ l
  sort_le l := by
    have : Std.Total fun a b : α => r a ≤ r b := ⟨fun a b => Nat.le_total _ _⟩
    have : IsTrans α fun a b : α => r a ≤ r b := ⟨fun a b c => Nat.le_trans⟩
    exact (List.pairwise_insertionSort (fun a b => r a ≤ r b) l).imp fun {a b} hab => by
      rw [← Bool.not_eq_true, h]; omega
  heap_max a l hp x hx := by
    have := (List.pairwise_cons.1 hp).1 x hx
    rw [← Bool.not_eq_true, h]; omega
  make_perm l := List.perm_insertionSort _ l
  make_heap l := by
    have : Std.Total fun a b : α => r b ≤ r a := ⟨fun a b => Nat.le_total _ _⟩
    have : IsTrans α fun a b : α => r b ≤ r a := ⟨fun a b c h1 h2 => Nat.le_trans h2 h1⟩
    exact List.pairwise_insertionSort (fun a b => r b ≤ r a) l
  pop_perm l := by
    cases l with
    | nil => exact List.Perm.refl _
    | cons a l => exact List.perm_append_comm
  pop_last a l _ := by simp
  pop_heap l hp := by
    cases l with
    | nil => exact hp
    | cons a l => simpa using (List.pairwise_cons.1 hp).2
  push_perm l := List.perm_insertionSort _ l
  push_heap l a _ := by
    have : Std.Total fun a b : α => r b ≤ r a := ⟨fun a b => Nat.le_total _ _⟩
    have : IsTrans α fun a b : α => r b ≤ r a := ⟨fun a b c h1 h2 => Nat.le_trans h2 h1⟩
    exact List.pairwise_insertionSort (fun a b => r b ≤ r a) _

namespace Ex
/-- Example: order by lbd, glue 2, freeze 4. -/
def cmp : Cmp := ⟨.lbd, 2, 4⟩
/-- Example: library functions for constraints. -/
def L1 : Std Con (fun a b => cmp.lt a.sc b.sc) := exStd _ (fun a => rank .lbd a.sc) fun a b => lt_iff (c := cmp) a.sc b.sc
/-- Example: library functions for positions with scores. -/
def L2 : Std View (fun a b => cmp.lt a.2 b.2) := exStd _ (fun a => rank .lbd a.2) fun a b => lt_iff (c := cmp) a.2 b.2
/-- Example: seven learnt constraints; 1 is glue, 2 is locked, 6 is frozen. -/
def db : List Con :=
  [⟨0, Score.makeScore 5 9⟩, ⟨1, Score.makeScore 1 2⟩, ⟨2, Score.makeScore 1 20⟩, ⟨3, Score.makeScore 7 5⟩,
   ⟨4, Score.makeScore 3 30⟩, ⟨5, Score.makeScore 0 30⟩, ⟨6, Score.bumpLbd (Score.makeScore 0 30) 4⟩]
/-- Example: constraint 2 is locked. -/
def lk (x : Con) : Bool := x.id == 2

example : (reduceLearnts cmp lk L1 L2 .stable 2 db).gone.map Con.id = [4, 5] := by decide +kernel
example : (reduceLearnts cmp lk L1 L2 .sort 2 db).gone.map Con.id = [5, 4] := by decide +kernel
example : (reduceLearnts cmp lk L1 L2 .heap 2 db).gone.map Con.id = [4, 5] := by decide +kernel
example : (reduceLearnts cmp lk L1 L2 .linear 2 db).gone.map Con.id = [0, 4] := by decide +kernel
example : (reduceLearnts cmp lk L1 L2 .linear 7 db).gone.map Con.id = [0, 3, 4, 5] := by decide +kernel
example : (reduceLearnts cmp lk L1 L2 .stable 2 db).db.map Con.id = [0, 1, 2, 3, 6] := by decide +kernel
example : (reduceLearnts cmp lk L1 L2 .heap 2 db).db.map Con.id = [2, 1, 3, 0, 6] := by decide +kernel

/-- Example: literals. -/
def x (n : Nat) : Lit := ⟨n, false⟩
/-- Example: one clause ¬x1 ∨ x2 ∨ ¬x3, watching its first two literals. -/
def cl : Cl := ⟨(x 1).neg, x 2, (x 3).neg, [], 0, true⟩
/-- Example: the start; x3 and x1 are then assumed. -/
def l0 : LSt := ⟨fun _ => cl, St.init, fun _ => none⟩
/-- Example: x3 and x1 are true. -/
def l1 : LSt := { l0 with st := (St.init.push (x 3) none).push (x 1) none }

/-- Example: the clause forces x2 and becomes its reason; its watches are ¬x1 and x2. -/
example : ∃ l : LSt, l.Reach false ∧ l.st.isTrue (x 2) = true ∧ l.ante 2 = some 7 ∧ l.locked 7 = true := by
  refine ⟨l1.propagate false 7 (x 1), .step (.step (.init (fun _ => cl) St.init) (.other l0 l1.st (fun _ => none) fun v _ => Or.inr rfl))
    (.prop l1 7 (x 1) (by decide) (by decide)), by decide, by decide, by decide⟩
end Ex

end Clasp.Reduce
