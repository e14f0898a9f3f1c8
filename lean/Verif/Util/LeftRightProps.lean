/-
C06: left_right_sequence behaves as two independent sequences.
-/
import Verif.Util.LeftRight
namespace Clasp.LR
variable {β : Type} (c : Cfg)

/-! ### Specification: a pair of lists of elements (an element is its bytes) -/

abbrev ElemL (c : Cfg) (β : Type) := Fin c.szL → β
abbrev ElemR (c : Cfg) (β : Type) := Fin c.szR → β

inductive Op (c : Cfg) (β : Type)
  | pushLeft (x : ElemL c β) | pushRight (x : ElemR c β) | popLeft | popRight
  | eraseLeft (i : Nat) | eraseLeftUnordered (i : Nat) | eraseRight (i : Nat) | eraseRightUnordered (i : Nat)
  | shrinkLeft (n : Nat) | shrinkRight (n : Nat) | clear (rel : Bool) | tryShrink | copy | move

/-- Two separate sequences. -/
structure Two (c : Cfg) (β : Type) where
  l : List (ElemL c β)
  r : List (ElemR c β)

variable {c}

/-- overwrite element `i` with the last one and drop the last one; no effect for the end iterator -/
def eraseUnord {α : Type} (l : List α) (i : Nat) : List α :=
  match l.getLast? with
  | some x => if i < l.length then (l.set i x).dropLast else l
  | none => l

def Two.exec (s : Two c β) : Op c β → Two c β
  | .pushLeft x => ⟨s.l ++ [x], s.r⟩
  | .pushRight x => ⟨s.l, s.r ++ [x]⟩
  | .popLeft => ⟨s.l.dropLast, s.r⟩
  | .popRight => ⟨s.l, s.r.dropLast⟩
  | .eraseLeft i => ⟨s.l.eraseIdx i, s.r⟩
  | .eraseLeftUnordered i => ⟨eraseUnord s.l i, s.r⟩
  | .eraseRight i => ⟨s.l, s.r.eraseIdx i⟩
  | .eraseRightUnordered i => ⟨s.l, eraseUnord s.r i⟩
  | .shrinkLeft n => ⟨s.l.take n, s.r⟩
  | .shrinkRight n => ⟨s.l, s.r.take n⟩
  | .clear _ => ⟨[], []⟩
  | .tryShrink | .copy | .move => s

/-- Iterators and indices have to be valid (the end iterator is allowed for erase and shrink). -/
def Two.Pre (s : Two c β) : Op c β → Prop
  | .popLeft => s.l ≠ []
  | .popRight => s.r ≠ []
  | .eraseLeft i | .eraseLeftUnordered i | .shrinkLeft i => i ≤ s.l.length
  | .eraseRight i | .eraseRightUnordered i | .shrinkRight i => i ≤ s.r.length
  | _ => True

variable (c)

/-- Concrete execution; `junk` is the (arbitrary) content of memory obtained by the operation. For `copy` and `move`
the result is the target. -/
def Seq.exec (q : Seq β) (junk : Nat → β) : Op c β → Seq β
  | .pushLeft x => q.pushLeft c junk x
  | .pushRight x => q.pushRight c junk x
  | .popLeft => q.popLeft c
  | .popRight => q.popRight c
  | .eraseLeft i => q.eraseLeft c i
  | .eraseLeftUnordered i => q.eraseLeftUnordered c i
  | .eraseRight i => q.eraseRight c i
  | .eraseRightUnordered i => q.eraseRightUnordered c i
  | .shrinkLeft n => q.shrinkLeft c n
  | .shrinkRight n => q.shrinkRight c n
  | .clear rel => q.clear rel
  | .tryShrink => q.tryShrink c junk
  | .copy => LR.copy c q junk
  | .move => (LR.move c q junk).1

/-- What reading the sequence gives: `left_begin()[i]` and `right_begin()[i]`, byte by byte. -/
def Seq.readLeft (q : Seq β) (i : Nat) : ElemL c β := fun j => q.buf (i * c.szL + j)
def Seq.readRight (q : Seq β) (i : Nat) : ElemR c β := fun j => q.buf (q.cap - (i + 1) * c.szR + j)

def Seq.view (q : Seq β) : Two c β :=
  ⟨(List.range (q.leftSize c)).map (q.readLeft c), (List.range (q.rightSize c)).map (q.readRight c)⟩

/-! ### Invariant -/

structure Inv (q : Seq β) (s : Two c β) : Prop where
  hl : q.left = s.l.length * c.szL
  hr : q.right + s.r.length * c.szR = q.cap
  sep : q.left ≤ q.right
  blk : q.cap % c.bs = 0
  rl : ∀ i (h : i < s.l.length) (j : Nat) (hj : j < c.szL), q.buf (i * c.szL + j) = s.l[i] ⟨j, hj⟩
  rr : ∀ i (h : i < s.r.length) (j : Nat) (hj : j < c.szR), q.buf (q.cap - (i + 1) * c.szR + j) = s.r[i] ⟨j, hj⟩

theorem blk_le {i n s : Nat} (h : i < n) : i * s + s ≤ n * s := by
  have := Nat.mul_le_mul_right s (show i + 1 ≤ n from h)
  rw [Nat.succ_mul] at this; exact this

theorem Inv.leftSize {q : Seq β} {s : Two c β} (h : Inv c q s) : q.leftSize c = s.l.length := by
  simp [Seq.leftSize, h.hl, Nat.mul_div_cancel _ c.posL]
theorem Inv.rightSize {q : Seq β} {s : Two c β} (h : Inv c q s) : q.rightSize c = s.r.length := by
  have : q.cap - q.right = s.r.length * c.szR := by have := h.hr; omega
  simp [Seq.rightSize, this, Nat.mul_div_cancel _ c.posR]

theorem Inv.view {q : Seq β} {s : Two c β} (h : Inv c q s) : q.view c = s := by
  have e1 : (q.view c).l = s.l := by
    apply List.ext_getElem
    · simp [Seq.view, h.leftSize]
    · intro i h1 h2
      simp only [Seq.view, List.getElem_map, List.getElem_range]
      funext j
      exact h.rl i h2 j j.isLt
  have e2 : (q.view c).r = s.r := by
    apply List.ext_getElem
    · simp [Seq.view, h.rightSize]
    · intro i h1 h2
      simp only [Seq.view, List.getElem_map, List.getElem_range]
      funext j
      exact h.rr i h2 j j.isLt
  cases s; simp_all [Seq.view]

/-- Copying left part and right part to a new buffer of capacity `cap'` keeps both sequences. -/
theorem Inv.transfer {q : Seq β} {s : Two c β} (h : Inv c q s) (junk : Nat → β) (cap' : Nat) (b : Bool)
    (hcap : q.left + (q.cap - q.right) ≤ cap') (hb : cap' % c.bs = 0) :
    Inv c { buf := (if q.empty then junk else
              memcpy (memcpy junk 0 q.buf 0 (q.leftSize c * c.szL)) (cap' - q.rightSize c * c.szR) q.buf q.right (q.rightSize c * c.szR)),
            cap := cap', left := q.left, right := cap' - q.rightSize c * c.szR, inl := b } s := by
  have h1 := h.hl; have h2 := h.hr; have h3 := h.sep
  rw [h.leftSize, h.rightSize]
  have h4 : q.cap - q.right = s.r.length * c.szR := by omega
  refine ⟨h1, by simp only; omega, by simp only; omega, hb, fun i hi j hj => ?_, fun i hi j hj => ?_⟩
  · have hne : q.empty = false := by
      have := blk_le (s := c.szL) hi
      have := c.posL
      simp [Seq.empty]; omega
    have := blk_le (s := c.szL) hi
    simp only [hne, Bool.false_eq_true, if_false]
    simp only [memcpy]
    rw [if_neg (by omega), if_pos (by omega)]
    exact h.rl i hi j hj
  · have hne : q.empty = false := by
      have := blk_le (s := c.szR) hi
      have := c.posR
      simp [Seq.empty]; omega
    have hbl := blk_le (s := c.szR) hi
    have e : (i + 1) * c.szR = i * c.szR + c.szR := Nat.succ_mul _ _
    simp only [hne, Bool.false_eq_true, if_false]
    simp only [memcpy]
    rw [if_pos (by omega)]
    rw [show cap' - (i + 1) * c.szR + j - (cap' - s.r.length * c.szR) + q.right = q.cap - (i + 1) * c.szR + j by omega]
    exact h.rr i hi j hj

theorem newCap_ok {cap : Nat} (h : cap % c.bs = 0) :
    let nc := if cap / c.bs * 3 / 2 * c.bs < 4 * c.bs then 4 * c.bs else cap / c.bs * 3 / 2 * c.bs
    nc % c.bs = 0 ∧ cap + c.bs ≤ nc := by
  have hc : cap = cap / c.bs * c.bs := by
    have := Nat.div_add_mod cap c.bs; rw [h, Nat.mul_comm] at this; omega
  have hbs : 0 < c.bs := by have := c.posL; have := c.hL; omega
  simp only
  generalize hk : cap / c.bs = k at *
  split
  · rename_i hlt
    refine ⟨by simp, ?_⟩
    have h4 : k * 3 / 2 < 4 := Nat.lt_of_mul_lt_mul_right hlt
    have := Nat.mul_le_mul_right c.bs (show k + 1 ≤ 4 by omega)
    rw [Nat.succ_mul] at this; omega
  · rename_i hge
    refine ⟨by simp, ?_⟩
    have h4 : 4 ≤ k * 3 / 2 := by
      apply Nat.le_of_not_lt; intro hh; apply hge
      exact Nat.mul_lt_mul_of_pos_right hh hbs
    have := Nat.mul_le_mul_right c.bs (show k + 1 ≤ k * 3 / 2 by omega)
    rw [Nat.succ_mul] at this; omega

theorem Inv.realloc {q : Seq β} {s : Two c β} (h : Inv c q s) (junk : Nat → β) :
    Inv c (q.realloc c junk) s ∧ (q.realloc c junk).left + c.bs ≤ (q.realloc c junk).right := by
  obtain ⟨n1, n2⟩ := newCap_ok c h.blk
  have h1 := h.hl; have h2 := h.hr; have h3 := h.sep
  have h4 : q.cap - q.right = q.rightSize c * c.szR := by rw [h.rightSize]; omega
  have := h.transfer c junk (if q.cap / c.bs * 3 / 2 * c.bs < 4 * c.bs then 4 * c.bs else q.cap / c.bs * 3 / 2 * c.bs) false
    (by omega) n1
  refine ⟨by simpa only [Seq.realloc, h4] using this, ?_⟩
  simp only [Seq.realloc]; omega

theorem Inv.room {q : Seq β} {s : Two c β} (h : Inv c q s) (junk : Nat → β) (n : Nat) (hn : n ≤ c.bs) :
    let q' := if q.left + n > q.right then q.realloc c junk else q
    Inv c q' s ∧ q'.left + n ≤ q'.right := by
  simp only
  split
  · obtain ⟨a, b⟩ := h.realloc c junk; exact ⟨a, by omega⟩
  · exact ⟨h, by omega⟩

theorem step_inv (q : Seq β) (s : Two c β) (h : Inv c q s) (junk : Nat → β) (op : Op c β) (hp : s.Pre op) :
    Inv c (q.exec c junk op) (s.exec op) := by
  have pL := c.posL; have pR := c.posR
  cases op with
  | pushLeft x =>
    obtain ⟨h', hroom⟩ := h.room c junk c.szL c.hL
    simp only [Seq.exec, Seq.pushLeft, Two.exec]
    generalize (if q.left + c.szL > q.right then q.realloc c junk else q) = q' at *
    have h1 := h'.hl; have h2 := h'.hr
    have e : (s.l.length + 1) * c.szL = s.l.length * c.szL + c.szL := Nat.succ_mul _ _
    refine ⟨by simp; omega, by simpa using h2, by simpa using hroom, h'.blk, fun i hi j hj => ?_, fun i hi j hj => ?_⟩
    · simp only [store]
      by_cases hil : i < s.l.length
      · have := blk_le (s := c.szL) hil
        rw [dif_neg (by omega), h'.rl i hil j hj]; simp [hil]
      · have hi' : i = s.l.length := by simp at hi; omega
        subst hi'
        rw [dif_pos (by omega)]
        simp [h1]
    · have hi : i < s.r.length := hi
      have hbl := blk_le (s := c.szR) hi
      have e2 : (i + 1) * c.szR = i * c.szR + c.szR := Nat.succ_mul _ _
      simp only [store]
      rw [dif_neg (by omega)]
      exact h'.rr i hi j hj
  | pushRight x =>
    obtain ⟨h', hroom⟩ := h.room c junk c.szR c.hR
    simp only [Seq.exec, Seq.pushRight, Two.exec]
    generalize (if q.left + c.szR > q.right then q.realloc c junk else q) = q' at *
    have h1 := h'.hl; have h2 := h'.hr
    have e : (s.r.length + 1) * c.szR = s.r.length * c.szR + c.szR := Nat.succ_mul _ _
    refine ⟨by simpa using h1, by simp; omega, by simp; omega, h'.blk, fun i hi j hj => ?_, fun i hi j hj => ?_⟩
    · have hi : i < s.l.length := hi
      have := blk_le (s := c.szL) hi
      simp only [store]
      rw [dif_neg (by omega)]
      exact h'.rl i hi j hj
    · simp only [store]
      by_cases hil : i < s.r.length
      · have hbl := blk_le (s := c.szR) hil
        have e2 : (i + 1) * c.szR = i * c.szR + c.szR := Nat.succ_mul _ _
        rw [dif_neg (by omega), h'.rr i hil j hj]; simp [hil]
      · have hi' : i = s.r.length := by simp at hi; omega
        subst hi'
        rw [dif_pos (by omega)]
        simp only [List.getElem_append_right (Nat.le_refl _), List.getElem_singleton]
        congr 2; omega
  | popLeft =>
    have hl : 0 < s.l.length := List.length_pos_iff.mpr hp
    have h1 := h.hl; have h2 := h.hr; have h3 := h.sep
    have e : (s.l.length - 1) * c.szL = s.l.length * c.szL - c.szL := Nat.sub_one_mul _ _
    refine ⟨by simp [Seq.exec, Seq.popLeft, Two.exec]; omega, h2, by simp [Seq.exec, Seq.popLeft]; omega, h.blk,
      fun i hi j hj => ?_, h.rr⟩
    simp only [Two.exec, List.length_dropLast] at hi
    rw [show (s.exec (Op.popLeft (c := c))).l[i] = s.l[i] by simp [Two.exec]]
    exact h.rl i (by omega) j hj
  | popRight =>
    have hl : 0 < s.r.length := List.length_pos_iff.mpr hp
    have h1 := h.hl; have h2 := h.hr; have h3 := h.sep
    have e : (s.r.length - 1) * c.szR = s.r.length * c.szR - c.szR := Nat.sub_one_mul _ _
    have := blk_le (s := c.szR) (show s.r.length - 1 < s.r.length by omega)
    refine ⟨h1, by simp [Seq.exec, Seq.popRight, Two.exec]; omega, by simp [Seq.exec, Seq.popRight]; omega, h.blk, h.rl,
      fun i hi j hj => ?_⟩
    simp only [Two.exec, List.length_dropLast] at hi
    rw [show (s.exec (Op.popRight (c := c))).r[i] = s.r[i] by simp [Two.exec]]
    exact h.rr i (by omega) j hj
  | eraseLeft k =>
    have h1 := h.hl; have h2 := h.hr; have h3 := h.sep
    simp only [Two.Pre] at hp
    simp only [Seq.exec, Seq.eraseLeft, Two.exec]
    by_cases hk : k = s.l.length
    · subst hk
      rw [if_neg (by omega), List.eraseIdx_of_length_le (Nat.le_refl _)]
      exact h
    · have hk' : k < s.l.length := by omega
      have hbk := blk_le (s := c.szL) hk'
      have e : (s.l.length - 1) * c.szL = s.l.length * c.szL - c.szL := Nat.sub_one_mul _ _
      have ek : (k + 1) * c.szL = k * c.szL + c.szL := Nat.succ_mul _ _
      rw [if_pos (by omega)]
      refine ⟨?_, h2, by simp only; omega, h.blk, fun i hi j hj => ?_, fun i hi j hj => ?_⟩
      · simp only [List.length_eraseIdx_of_lt hk']; omega
      · simp only [List.length_eraseIdx_of_lt hk'] at hi
        simp only [memcpy]
        by_cases hik : i < k
        · have := blk_le (s := c.szL) hik
          rw [if_neg (by omega), h.rl i (by omega) j hj]
          rw [List.getElem_eraseIdx_of_lt _ hik]
        · have b1 := Nat.mul_le_mul_right c.szL (show k ≤ i by omega)
          have b2 := blk_le (s := c.szL) (show i + 1 < s.l.length by omega)
          have ei : (i + 1) * c.szL = i * c.szL + c.szL := Nat.succ_mul _ _
          rw [if_pos (by omega)]
          rw [show i * c.szL + j - k * c.szL + (k + 1) * c.szL = (i + 1) * c.szL + j by omega, h.rl (i+1) (by omega) j hj]
          rw [List.getElem_eraseIdx_of_ge _ (by omega)]
      · have hi : i < s.r.length := hi
        have hbl := blk_le (s := c.szR) hi
        have e2 : (i + 1) * c.szR = i * c.szR + c.szR := Nat.succ_mul _ _
        simp only [memcpy]
        rw [if_neg (by omega)]
        exact h.rr i hi j hj
  | eraseLeftUnordered k =>
    have h1 := h.hl; have h2 := h.hr; have h3 := h.sep
    simp only [Two.Pre] at hp
    simp only [Seq.exec, Seq.eraseLeftUnordered, Two.exec, eraseUnord]
    by_cases hk : k = s.l.length
    · subst hk
      rw [if_neg (by omega)]
      cases hgl : s.l.getLast? <;> simp <;> exact h
    · have hk' : k < s.l.length := by omega
      have hbk := blk_le (s := c.szL) hk'
      have e : (s.l.length - 1) * c.szL = s.l.length * c.szL - c.szL := Nat.sub_one_mul _ _
      have hgl : s.l.getLast? = some (s.l[s.l.length - 1]'(by omega)) := by
        rw [List.getLast?_eq_getElem?, List.getElem?_eq_getElem]
      rw [if_pos (by omega), hgl]
      simp only [hk', if_true]
      refine ⟨by simp; omega, h2, by simp only; omega, h.blk, fun i hi j hj => ?_, fun i hi j hj => ?_⟩
      · simp at hi
        simp only [memcpy, List.getElem_dropLast, List.getElem_set]
        by_cases hik : k = i
        · subst hik
          rw [if_pos (by omega), if_pos rfl]
          rw [show k * c.szL + j - k * c.szL + (q.left - c.szL) = (s.l.length - 1) * c.szL + j by omega]
          exact h.rl _ (by omega) j hj
        · rw [if_neg hik, if_neg]
          · exact h.rl i (by omega) j hj
          · rcases Nat.lt_or_gt_of_ne hik with hh | hh
            · have := blk_le (s := c.szL) hh; omega
            · have := blk_le (s := c.szL) hh; omega
      · have hi : i < s.r.length := hi
        have hbl := blk_le (s := c.szR) hi
        have e2 : (i + 1) * c.szR = i * c.szR + c.szR := Nat.succ_mul _ _
        simp only [memcpy]
        rw [if_neg (by omega)]
        exact h.rr i hi j hj
  | eraseRight k =>
    have h1 := h.hl; have h2 := h.hr; have h3 := h.sep
    simp only [Two.Pre] at hp
    simp only [Seq.exec, Seq.eraseRight, Two.exec]
    by_cases hk : k = s.r.length
    · subst hk
      rw [if_neg (by omega), List.eraseIdx_of_length_le (Nat.le_refl _)]
      exact h
    · have hk' : k < s.r.length := by omega
      have hbk := blk_le (s := c.szR) hk'
      have e : (s.r.length - 1) * c.szR = s.r.length * c.szR - c.szR := Nat.sub_one_mul _ _
      have ek : (k + 1) * c.szR = k * c.szR + c.szR := Nat.succ_mul _ _
      rw [if_pos (by omega)]
      refine ⟨h1, ?_, by simp only; omega, h.blk, fun i hi j hj => ?_, fun i hi j hj => ?_⟩
      · simp only [List.length_eraseIdx_of_lt hk']; omega
      · have hi : i < s.l.length := hi
        have := blk_le (s := c.szL) hi
        simp only [memcpy]
        rw [if_neg (by omega)]
        exact h.rl i hi j hj
      · simp only [List.length_eraseIdx_of_lt hk'] at hi
        have ei : (i + 1) * c.szR = i * c.szR + c.szR := Nat.succ_mul _ _
        simp only [memcpy]
        by_cases hik : i < k
        · have := blk_le (s := c.szR) hik
          rw [if_neg (by omega), h.rr i (by omega) j hj]
          rw [List.getElem_eraseIdx_of_lt _ hik]
        · have b1 := Nat.mul_le_mul_right c.szR (show k ≤ i by omega)
          have b2 := blk_le (s := c.szR) (show i + 1 < s.r.length by omega)
          have ei2 : (i + 1 + 1) * c.szR = (i + 1) * c.szR + c.szR := Nat.succ_mul _ _
          rw [if_pos (by omega)]
          rw [show q.cap - (i + 1) * c.szR + j - (q.right + c.szR) + q.right = q.cap - (i + 1 + 1) * c.szR + j by omega,
            h.rr (i+1) (by omega) j hj]
          rw [List.getElem_eraseIdx_of_ge _ (by omega)]
  | eraseRightUnordered k =>
    have h1 := h.hl; have h2 := h.hr; have h3 := h.sep
    simp only [Two.Pre] at hp
    simp only [Seq.exec, Seq.eraseRightUnordered, Two.exec, eraseUnord]
    by_cases hk : k = s.r.length
    · subst hk
      rw [if_neg (by omega)]
      cases hgl : s.r.getLast? <;> simp <;> exact h
    · have hk' : k < s.r.length := by omega
      have hbk := blk_le (s := c.szR) hk'
      have e : (s.r.length - 1) * c.szR = s.r.length * c.szR - c.szR := Nat.sub_one_mul _ _
      have ek : (k + 1) * c.szR = k * c.szR + c.szR := Nat.succ_mul _ _
      have hgl : s.r.getLast? = some (s.r[s.r.length - 1]'(by omega)) := by
        rw [List.getLast?_eq_getElem?, List.getElem?_eq_getElem]
      rw [if_pos (by omega), hgl]
      simp only [hk', if_true]
      refine ⟨h1, by simp; omega, by simp only; omega, h.blk, fun i hi j hj => ?_, fun i hi j hj => ?_⟩
      · have hi : i < s.l.length := hi
        have := blk_le (s := c.szL) hi
        simp only [memcpy]
        rw [if_neg (by omega)]
        exact h.rl i hi j hj
      · simp at hi
        have ei : (i + 1) * c.szR = i * c.szR + c.szR := Nat.succ_mul _ _
        have bi := blk_le (s := c.szR) (show i < s.r.length by omega)
        simp only [memcpy, List.getElem_dropLast, List.getElem_set]
        by_cases hik : k = i
        · subst hik
          rw [if_pos (by omega), if_pos rfl]
          have := h.rr (s.r.length - 1) (by omega) j hj
          rw [show s.r.length - 1 + 1 = s.r.length by omega] at this
          rw [show q.cap - (k + 1) * c.szR + j - (q.cap - (k + 1) * c.szR) + q.right = q.cap - s.r.length * c.szR + j by omega]
          exact this
        · rw [if_neg hik, if_neg]
          · exact h.rr i (by omega) j hj
          · rcases Nat.lt_or_gt_of_ne hik with hh | hh
            · have := blk_le (s := c.szR) hh; omega
            · have := blk_le (s := c.szR) hh; omega
  | shrinkLeft n =>
    simp only [Two.Pre] at hp
    have h1 := h.hl; have h2 := h.hr; have h3 := h.sep
    have := Nat.mul_le_mul_right c.szL hp
    refine ⟨?_, h2, by simp [Seq.exec, Seq.shrinkLeft]; omega, h.blk, fun i hi j hj => ?_, h.rr⟩
    · simp [Seq.exec, Seq.shrinkLeft, Two.exec, Nat.min_eq_left hp]
    · simp only [Two.exec, List.length_take] at hi
      rw [show (s.exec (Op.shrinkLeft (c := c) n)).l[i] = s.l[i] by simp [Two.exec]]
      exact h.rl i (by omega) j hj
  | shrinkRight n =>
    simp only [Two.Pre] at hp
    have h1 := h.hl; have h2 := h.hr; have h3 := h.sep
    have := Nat.mul_le_mul_right c.szR hp
    refine ⟨h1, ?_, by simp [Seq.exec, Seq.shrinkRight]; omega, h.blk, h.rl, fun i hi j hj => ?_⟩
    · simp [Seq.exec, Seq.shrinkRight, Two.exec, Nat.min_eq_left hp]; omega
    · simp only [Two.exec, List.length_take] at hi
      rw [show (s.exec (Op.shrinkRight (c := c) n)).r[i] = s.r[i] by simp [Two.exec]]
      exact h.rr i (by omega) j hj
  | clear rel =>
    refine ⟨?_, ?_, ?_, ?_, ?_, ?_⟩ <;> cases rel <;> simp [Seq.exec, Seq.clear, Two.exec, h.blk]
  | tryShrink =>
    simp only [Seq.exec, Seq.tryShrink, Two.exec]
    split
    · rename_i hc
      exact h.transfer c junk c.ic true (by have := hc.1; simpa [Seq.rawSize] using this) c.hic
    · exact h
  | copy =>
    simp only [Seq.exec, LR.copy, Two.exec]
    have hbs : 0 < c.bs := by have := c.hL; omega
    refine h.transfer c junk _ _ ?_ ?_
    · split
      · assumption
      · have := Nat.div_add_mod (q.rawSize + (c.bs - 1)) c.bs
        have hm := Nat.mod_lt (q.rawSize + (c.bs - 1)) hbs
        rw [Nat.mul_comm] at this
        change q.rawSize ≤ _
        omega
    · split
      · exact c.hic
      · simp
  | move =>
    simp only [Seq.exec, LR.move, Two.exec]
    split
    · rename_i hs
      have := h.transfer c junk c.ic true (by simpa [Seq.rawSize] using hs) c.hic
      simpa [LR.copy, hs] using this
    · exact h

/-- Reachable states: any history of operations with valid iterators, with arbitrary memory contents on the way. -/
inductive Reach (β : Type) : Seq β → Two c β → Prop
  | init (junk : Nat → β) : Reach β (init c junk) ⟨[], []⟩
  | step {q s} (junk : Nat → β) (op : Op c β) : Reach β q s → s.Pre op → Reach β (q.exec c junk op) (s.exec op)

theorem Reach.inv {q : Seq β} {s : Two c β} (h : Reach c β q s) : Inv c q s := by
  induction h with
  | init junk =>
    exact ⟨by simp [LR.init], by simp [LR.init], by simp [LR.init], c.hic, fun i h => absurd h (by simp), fun i h => absurd h (by simp)⟩
  | step junk op _ hp ih => exact step_inv c _ _ ih junk op hp

/-- C06: after every history, reading the object gives exactly the two sequences maintained separately; sizes and
emptiness agree; the bytes of the left part `[0, left)` and of the right part `[right, cap)` lie inside the buffer
and do not overlap. -/
theorem C06_two_sequences (q : Seq β) (s : Two c β) (h : Reach c β q s) :
    q.view c = s ∧ q.leftSize c = s.l.length ∧ q.rightSize c = s.r.length ∧
    (q.empty = true ↔ s.l = [] ∧ s.r = []) ∧
    s.l.length * c.szL ≤ q.right ∧ q.right + s.r.length * c.szR = q.cap := by
  have i := h.inv
  have h1 := i.hl; have h2 := i.hr; have h3 := i.sep
  refine ⟨i.view, i.leftSize, i.rightSize, ?_, by omega, h2⟩
  have pL := c.posL; have pR := c.posR
  simp only [Seq.empty, Bool.and_eq_true, beq_iff_eq, h1]
  constructor
  · rintro ⟨a, b⟩
    have a' := Nat.mul_eq_zero.mp a
    have b' : s.r.length * c.szR = 0 := by omega
    have b'' := Nat.mul_eq_zero.mp b'
    exact ⟨List.length_eq_zero_iff.mp (by omega), List.length_eq_zero_iff.mp (by omega)⟩
  · rintro ⟨a, b⟩
    have b' : s.r.length = 0 := by rw [b]; rfl
    rw [b', Nat.zero_mul] at h2
    exact ⟨by rw [a]; simp, by omega⟩

/-- The source of a `move` is empty afterwards. -/
theorem C06_move_source (q : Seq β) (junk : Nat → β) : ((LR.move c q junk).2).empty = true := by
  unfold LR.move
  split <;> simp [Seq.clear, Seq.empty, init]

/-- 4-byte elements on the left, 8-byte elements on the right, as in the implication lists. -/
def cfg48 : Cfg := ⟨4, 8, 8, 16, by omega, by omega, by omega, by omega, by omega⟩

/-- A concrete history that reallocates: three pushes on each side, then an erase on the left. -/
example : ∃ q s, Reach cfg48 Nat q s ∧ s.l.length = 2 ∧ s.r.length = 3 ∧ q.inl = false := by
  let x : Nat → ElemL cfg48 Nat := fun k _ => k
  let y : Nat → ElemR cfg48 Nat := fun k _ => k
  have j : Nat → Nat := fun _ => 0
  refine ⟨_, _, .step j (.eraseLeft 1) (.step j (.pushRight (y 6)) (.step j (.pushLeft (x 5)) (.step j (.pushRight (y 4))
    (.step j (.pushLeft (x 3)) (.step j (.pushRight (y 2)) (.step j (.pushLeft (x 1)) (.init j) trivial) trivial) trivial)
    trivial) trivial) trivial) ?_, ?_, ?_, ?_⟩
  · simp [Two.Pre, Two.exec]
  · simp [Two.exec]
  · simp [Two.exec]
  · simp [Seq.exec, Seq.pushLeft, Seq.pushRight, Seq.eraseLeft, Seq.realloc, init, cfg48]

end Clasp.LR
