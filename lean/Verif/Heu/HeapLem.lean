import Verif.Heu.Heap
import Mathlib.Tactic.SplitIfs
import Mathlib.Data.List.Nodup
/-!
# Correctness of the priority queue
-/

namespace Clasp.Heu

variable {α : Type} [LinearOrder α]

/-- Proof device: the index is the inverse of the heap. -/
structure Pq.Ok (q : Pq) : Prop where
  nd : q.heap.Nodup
  ix : ∀ k i : Nat, q.idx[k]? = some (some i) ↔ q.heap[i]? = some k

/-- Specification: no element has a higher score than its parent. -/
def Ordered (sc : Nat → α) (S : List Nat) : Prop := ∀ i a b, 0 < i → S[i]? = some a → S[(i - 1) / 2]? = some b → sc a ≤ sc b

/-- Proof device: `Ordered` except that the element at `n` may be too high. -/
structure UpOk (sc : Nat → α) (S : List Nat) (n : Nat) : Prop where
  o : ∀ i a b, 0 < i → i ≠ n → S[i]? = some a → S[(i - 1) / 2]? = some b → sc a ≤ sc b
  c : ∀ i a b, 0 < i → 0 < n → (i - 1) / 2 = n → S[i]? = some a → S[(n - 1) / 2]? = some b → sc a ≤ sc b

/-- Proof device: `Ordered` except that the element at `n` may be too low. -/
structure DownOk (sc : Nat → α) (S : List Nat) (n : Nat) : Prop where
  o : ∀ i a b, 0 < i → (i - 1) / 2 ≠ n → S[i]? = some a → S[(i - 1) / 2]? = some b → sc a ≤ sc b
  c : ∀ i a b, 0 < i → 0 < n → (i - 1) / 2 = n → S[i]? = some a → S[(n - 1) / 2]? = some b → sc a ≤ sc b

/-- Proof device: the state of a loop with a hole at `n`; `x` is to be put there, `H` is the original heap. -/
structure Hole (H : List Nat) (q : Pq) (n x : Nat) : Prop where
  lt : n < q.heap.length
  perm : (q.heap.set n x).Perm H
  ix : ∀ k i : Nat, k ≠ x → (q.idx[k]? = some (some i) ↔ (q.heap.set n x)[i]? = some k)
  bx : x < q.idx.length

theorem set_get? {l : List Nat} {n i x : Nat} (h : n < l.length) : (l.set n x)[i]? = if i = n then some x else l[i]? := by
  by_cases hi : i = n
  · subst hi; simp [h]
  · rw [List.getElem?_set_ne (Ne.symm hi), if_neg hi]

theorem nodup_get? {l : List Nat} (h : l.Nodup) {i j k : Nat} (hi : l[i]? = some k) (hj : l[j]? = some k) : i = j := by
  obtain ⟨h1, h2⟩ := List.getElem?_eq_some_iff.1 hi
  obtain ⟨h3, h4⟩ := List.getElem?_eq_some_iff.1 hj
  exact (List.Nodup.getElem_inj_iff h).1 (by rw [h2, h4])

theorem Hole.fin {H : List Nat} {q : Pq} {n x : Nat} (h : Hole H q n x) (hn : H.Nodup) : ∃ q', q.put n x = some q' ∧ q'.Ok ∧ q'.heap = q.heap.set n x := by
  refine ⟨_, by rw [Pq.put, if_pos ⟨h.lt, h.bx⟩], ⟨h.perm.nodup_iff.2 hn, fun k i => ?_⟩, rfl⟩
  have hnd := h.perm.nodup_iff.2 hn
  have hx : (q.heap.set n x)[n]? = some x := by simp [h.lt]
  by_cases hk : k = x
  · subst hk
    simp only [List.getElem?_set_self h.bx]
    constructor
    · intro he; cases he; exact hx
    · intro he; rw [nodup_get? hnd he hx]
  · show (q.idx.set x (some n))[k]? = _ ↔ _
    rw [List.getElem?_set_ne (Ne.symm hk)]
    exact h.ix k i hk

theorem swap_perm {l : List Nat} {n m x y : Nat} (hn : n < l.length) (hm : m < l.length) (hnm : m ≠ n) (hy : l[m]? = some y) : ((l.set n y).set m x).Perm (l.set n x) := by
  have h1 : ∀ (l : List Nat) (n x : Nat) (h : n < l.length), (l.set n x).Perm (x :: l.eraseIdx n) := by
    intro l n x h
    rw [List.set_eq_take_cons_drop _ h, List.eraseIdx_eq_take_drop_succ]
    exact List.perm_middle
  have hy' : l[m] = y := by
    obtain ⟨_, h⟩ := List.getElem?_eq_some_iff.1 hy; exact h
  have e : (l.set n y).set m x = (l.set m x).set n y := (List.set_comm _ _ hnm).symm
  -- both sides are permutations of `x :: y :: rest`
  have h2 : (l.set n x).Perm (x :: l.eraseIdx n) := h1 l n x hn
  have h3 : ((l.set n y).set m x).Perm (x :: (l.set n y).eraseIdx m) := h1 _ m x (by simpa using hm)
  refine h3.trans (List.Perm.trans (List.Perm.cons _ ?_) h2.symm)
  -- `(l.set n y)` without position `m` and `l` without position `n` have the same elements
  have h4 : (l.set n y).Perm (y :: l.eraseIdx n) := h1 l n y hn
  have h5 : (l.set n y).Perm (y :: (l.set n y).eraseIdx m) := by
    have : (l.set n y).set m y = l.set n y := by
      rw [← List.set_getElem_self (as := l.set n y) (i := m) (by simpa using hm)]
      congr 1
      · rw [List.set_getElem_self]
      · rw [List.getElem_set_ne (Ne.symm hnm)]; exact hy'.symm
    have h6 := h1 (l.set n y) m y (by simpa using hm)
    rwa [this] at h6
  exact (List.perm_cons y).1 (h5.symm.trans h4)

theorem Hole.move {H : List Nat} {q : Pq} {n x m y : Nat} (h : Hole H q n x) (hn : H.Nodup) (hm : q.heap[m]? = some y) (hmn : m ≠ n) :
    ∃ q', q.put n y = some q' ∧ Hole H q' m x ∧ q'.heap.length = q.heap.length ∧ q'.heap = q.heap.set n y := by
  have hml : m < q.heap.length := (List.getElem?_eq_some_iff.1 hm).1
  have hnd := h.perm.nodup_iff.2 hn
  have hSm : (q.heap.set n x)[m]? = some y := by rw [set_get? h.lt, if_neg hmn]; exact hm
  have hSn : (q.heap.set n x)[n]? = some x := by simp [h.lt]
  have hyx : y ≠ x := fun e => hmn (nodup_get? hnd (e ▸ hSm) hSn)
  have hby : y < q.idx.length := (List.getElem?_eq_some_iff.1 ((h.ix y m hyx).2 hSm)).1
  refine ⟨_, by rw [Pq.put, if_pos ⟨h.lt, hby⟩], ⟨by simpa using hml, (swap_perm h.lt hml hmn hm).trans h.perm, fun k i hk => ?_, by simpa using h.bx⟩, by simp, rfl⟩
  simp only
  rw [set_get? (by simpa using hml), set_get? h.lt]
  by_cases hky : k = y
  · subst hky
    rw [List.getElem?_set_self hby]
    constructor
    · intro he; cases he; rw [if_neg (Ne.symm hmn)]; simp
    · intro he
      split_ifs at he with h1 h2
      · cases he; exact absurd rfl hk
      · rw [h2]
      · have : (q.heap.set n x)[i]? = some k := by rw [set_get? h.lt, if_neg h2]; exact he
        exact absurd (nodup_get? hnd this hSm) h1
  · rw [List.getElem?_set_ne (Ne.symm hky), h.ix k i hk, set_get? h.lt]
    constructor
    · intro he
      split_ifs at he with h1
      · cases he; exact absurd rfl hk
      · rw [if_neg, if_neg h1]
        · exact he
        · intro h2; rw [h2, hm] at he; cases he; exact hky rfl
    · intro he
      split_ifs at he with h1 h2
      · cases he; exact absurd rfl hk
      · cases he; exact absurd rfl hky
      · rw [if_neg h2]; exact he

theorem Hole.begin {q : Pq} (h : q.Ok) {n x : Nat} (hx : q.heap[n]? = some x) : Hole q.heap q n x ∧ q.heap.set n x = q.heap := by
  obtain ⟨hn, he⟩ := List.getElem?_eq_some_iff.1 hx
  have e : q.heap.set n x = q.heap := by rw [← he]; exact List.set_getElem_self hn
  refine ⟨⟨hn, by rw [e], fun k i _ => by rw [e]; exact h.ix k i, ?_⟩, e⟩
  exact (List.getElem?_eq_some_iff.1 ((h.ix x n).2 hx)).1

/-! ## Moving up -/

theorem UpOk.move {sc : Nat → α} {h : List Nat} {n x y : Nat} (hn : n < h.length) (hu : UpOk sc (h.set n x) n) (h0 : n ≠ 0) (hp : h[(n - 1) / 2]? = some y) (hlt : sc y < sc x) :
    UpOk sc ((h.set n y).set ((n - 1) / 2) x) ((n - 1) / 2) := by
  have hpn : (n - 1) / 2 ≠ n := by omega
  have hpl : (n - 1) / 2 < h.length := by omega
  obtain ⟨ho, hc⟩ := hu
  simp only [set_get? hn] at ho hc
  have hg : ∀ i, ((h.set n y).set ((n - 1) / 2) x)[i]? = if i = (n - 1) / 2 then some x else if i = n then some y else h[i]? := by
    intro i; rw [set_get? (by simpa using hpl), set_get? hn]
  constructor
  · intro i a b hi hip ha hb
    rw [hg] at ha hb
    rw [if_neg hip] at ha
    by_cases hin : i = n
    · subst hin
      rw [if_pos rfl] at ha hb
      cases ha; cases hb
      exact le_of_lt hlt
    · rw [if_neg hin] at ha
      by_cases h1 : (i - 1) / 2 = (n - 1) / 2
      · rw [if_pos h1] at hb; cases hb
        have := ho i a y hi hin (by rw [if_neg hin]; exact ha) (by rw [h1, if_neg hpn]; exact hp)
        exact le_trans this (le_of_lt hlt)
      · rw [if_neg h1] at hb
        by_cases h2 : (i - 1) / 2 = n
        · rw [if_pos h2] at hb; cases hb
          exact hc i a y hi (by omega) h2 (by rw [if_neg hin]; exact ha) (by rw [if_neg hpn]; exact hp)
        · rw [if_neg h2] at hb
          exact ho i a b hi hin (by rw [if_neg hin]; exact ha) (by rw [if_neg h2]; exact hb)
  · intro i a b hi hp0 hip ha hb
    rw [hg] at ha hb
    rw [if_neg (by omega), if_neg (by omega)] at hb
    rw [if_neg (by omega)] at ha
    have hyb : sc y ≤ sc b := ho ((n - 1) / 2) y b hp0 hpn (by rw [if_neg hpn]; exact hp) (by rw [if_neg (by omega)]; exact hb)
    by_cases hin : i = n
    · rw [if_pos hin] at ha; cases ha
      exact hyb
    · rw [if_neg hin] at ha
      exact le_trans (ho i a y hi hin (by rw [if_neg hin]; exact ha) (by rw [hip, if_neg hpn]; exact hp)) hyb

theorem upLoop_ok (sc : Nat → α) {H : List Nat} (hH : H.Nodup) (x : Nat) : ∀ (f : Nat) (q : Pq) (n : Nat), n < f → Hole H q n x →
    ∃ q' m, upLoop sc x f q n = some (q', m) ∧ Hole H q' m x ∧ (UpOk sc (q.heap.set n x) n → Ordered sc (q'.heap.set m x))
  | 0, _, _, h, _ => absurd h (Nat.not_lt_zero _)
  | f + 1, q, n, hf, h => by
    unfold upLoop
    by_cases h0 : n = 0
    · rw [if_pos h0]
      refine ⟨q, n, rfl, h, fun hu i a b hi ha hb => hu.o i a b hi (by omega) ha hb⟩
    · rw [if_neg h0]
      have hlt := h.lt
      have hpl : (n - 1) / 2 < q.heap.length := by omega
      obtain ⟨y, hy⟩ : ∃ y, q.heap[(n - 1) / 2]? = some y := ⟨_, List.getElem?_eq_getElem hpl⟩
      rw [hy]
      simp only
      by_cases hc : sc y < sc x
      · rw [if_pos hc]
        obtain ⟨q', h1, h2, h3, h4⟩ := h.move hH hy (by omega)
        rw [h1]
        simp only
        obtain ⟨q2, m, h5, h6, h7⟩ := upLoop_ok sc hH x f q' ((n - 1) / 2) (by omega) h2
        refine ⟨q2, m, h5, h6, fun hu => h7 ?_⟩
        rw [h4]
        exact hu.move h.lt h0 hy hc
      · rw [if_neg hc]
        refine ⟨q, n, rfl, h, fun hu i a b hi ha hb => ?_⟩
        by_cases hin : i = n
        · subst hin
          rw [set_get? h.lt, if_pos rfl] at ha; cases ha
          rw [set_get? h.lt, if_neg (by omega), hy] at hb; cases hb
          exact not_lt.1 hc
        · exact hu.o i a b hi hin ha hb

theorem Pq.siftup_ok (sc : Nat → α) {q : Pq} (h : q.Ok) {n : Nat} (hn : n < q.heap.length) :
    ∃ q', q.siftup sc n = some q' ∧ q'.Ok ∧ q'.heap.Perm q.heap ∧ (UpOk sc q.heap n → Ordered sc q'.heap) := by
  obtain ⟨x, hx⟩ : ∃ y, q.heap[n]? = some y := ⟨_, List.getElem?_eq_getElem hn⟩
  obtain ⟨hh, he⟩ := Hole.begin h hx
  obtain ⟨q', m, h1, h2, h3⟩ := upLoop_ok sc h.nd x (n + 1) q n (Nat.lt_succ_self _) hh
  obtain ⟨q2, h4, h5, h6⟩ := h2.fin h.nd
  refine ⟨q2, ?_, h5, by rw [h6]; exact h2.perm, fun hu => by rw [h6]; exact h3 (by rw [he]; exact hu)⟩
  unfold Pq.siftup
  rw [hx]; simp only [h1, h4]

/-! ## Moving down -/

theorem DownOk.move {sc : Nat → α} {h : List Nat} {n x y c : Nat} (hn : n < h.length) (hu : DownOk sc (h.set n x) n) (hc : c = 2 * n + 1 ∨ c = 2 * n + 2) (hp : h[c]? = some y)
    (hlt : sc x < sc y) (hmax : ∀ i a, (i = 2 * n + 1 ∨ i = 2 * n + 2) → h[i]? = some a → sc a ≤ sc y) : DownOk sc ((h.set n y).set c x) c := by
  have hcn : c ≠ n := by omega
  have hcl : c < h.length := (List.getElem?_eq_some_iff.1 hp).1
  obtain ⟨ho, hc'⟩ := hu
  simp only [set_get? hn] at ho hc'
  have hg : ∀ i, ((h.set n y).set c x)[i]? = if i = c then some x else if i = n then some y else h[i]? := by
    intro i; rw [set_get? (by simpa using hcl), set_get? hn]
  constructor
  · intro i a b hi hip ha hb
    rw [hg] at ha hb
    rw [if_neg hip] at hb
    by_cases h1 : (i - 1) / 2 = n
    · rw [if_pos h1] at hb; cases hb
      by_cases h2 : i = c
      · rw [if_pos h2] at ha; cases ha; exact le_of_lt hlt
      · rw [if_neg h2, if_neg (by omega)] at ha
        exact hmax i a (by omega) ha
    · rw [if_neg h1] at hb
      have h2 : i ≠ c := by omega
      rw [if_neg h2] at ha
      by_cases h3 : i = n
      · rw [if_pos h3] at ha; cases ha
        subst h3
        exact hc' c y b (by omega) hi (by omega) (by rw [if_neg hcn]; exact hp) (by rw [if_neg (by omega)]; exact hb)
      · rw [if_neg h3] at ha
        exact ho i a b hi h1 (by rw [if_neg h3]; exact ha) (by rw [if_neg h1]; exact hb)
  · intro i a b hi hc0 hip ha hb
    have hpc : (c - 1) / 2 = n := by omega
    rw [hg] at ha hb
    rw [hpc, if_neg (Ne.symm hcn), if_pos rfl] at hb; cases hb
    rw [if_neg (by omega), if_neg (by omega)] at ha
    exact ho i a y hi (by omega) (by rw [if_neg (by omega)]; exact ha) (by rw [hip, if_neg hcn]; exact hp)

theorem Pq.child_ok (sc : Nat → α) (q : Pq) {n : Nat} (h : 2 * n + 1 < q.heap.length) :
    ∃ c y, q.child sc n = some c ∧ (c = 2 * n + 1 ∨ c = 2 * n + 2) ∧ q.heap[c]? = some y ∧ ∀ i a, (i = 2 * n + 1 ∨ i = 2 * n + 2) → q.heap[i]? = some a → sc a ≤ sc y := by
  obtain ⟨l, hl⟩ : ∃ y, q.heap[2 * n + 1]? = some y := ⟨_, List.getElem?_eq_getElem h⟩
  unfold Pq.child
  rw [hl]
  cases hr : q.heap[2 * n + 2]? with
  | none =>
    refine ⟨_, l, rfl, Or.inl rfl, hl, fun i a hi ha => ?_⟩
    rcases hi with rfl | rfl
    · rw [hl] at ha; cases ha; exact le_refl _
    · rw [hr] at ha; exact nomatch ha
  | some r =>
    simp only
    split_ifs with hc
    · refine ⟨_, r, rfl, Or.inr rfl, hr, fun i a hi ha => ?_⟩
      rcases hi with rfl | rfl
      · rw [hl] at ha; cases ha; exact le_of_lt hc
      · rw [hr] at ha; cases ha; exact le_refl _
    · refine ⟨_, l, rfl, Or.inl rfl, hl, fun i a hi ha => ?_⟩
      rcases hi with rfl | rfl
      · rw [hl] at ha; cases ha; exact le_refl _
      · rw [hr] at ha; cases ha; exact not_lt.1 hc

theorem downLoop_ok (sc : Nat → α) {H : List Nat} (hH : H.Nodup) (x : Nat) : ∀ (f : Nat) (q : Pq) (n : Nat), q.heap.length < f + n → Hole H q n x →
    ∃ q' m, downLoop sc x f q n = some (q', m) ∧ Hole H q' m x ∧ (DownOk sc (q.heap.set n x) n → Ordered sc (q'.heap.set m x))
  | 0, q, n, hf, h => absurd h.lt (by omega)
  | f + 1, q, n, hf, h => by
    unfold downLoop
    by_cases h0 : 2 * n + 1 < q.heap.length
    · rw [if_pos h0]
      obtain ⟨c, y, h1, h2, h3, h4⟩ := q.child_ok sc h0
      rw [h1]
      simp only [h3]
      by_cases hc : sc x < sc y
      · rw [if_pos hc]
        obtain ⟨q', h5, h6, h7, h8⟩ := h.move hH h3 (by omega)
        rw [h5]
        simp only
        obtain ⟨q2, m, h9, h10, h11⟩ := downLoop_ok sc hH x f q' c (by omega) h6
        refine ⟨q2, m, h9, h10, fun hu => h11 ?_⟩
        rw [h8]
        exact hu.move h.lt h2 h3 hc h4
      · rw [if_neg hc]
        refine ⟨q, n, rfl, h, fun hu i a b hi ha hb => ?_⟩
        by_cases hin : (i - 1) / 2 = n
        · rw [hin, set_get? h.lt, if_pos rfl] at hb; cases hb
          rw [set_get? h.lt, if_neg (by omega)] at ha
          exact le_trans (h4 i a (by omega) ha) (not_lt.1 hc)
        · exact hu.o i a b hi hin ha hb
    · rw [if_neg h0]
      refine ⟨q, n, rfl, h, fun hu i a b hi ha hb => ?_⟩
      by_cases hin : (i - 1) / 2 = n
      · have : i < q.heap.length := by
          have := (List.getElem?_eq_some_iff.1 ha).1
          simpa using this
        omega
      · exact hu.o i a b hi hin ha hb

theorem Pq.siftdown_ok (sc : Nat → α) {q : Pq} (h : q.Ok) {n : Nat} (hn : n < q.heap.length) :
    ∃ q', q.siftdown sc n = some q' ∧ q'.Ok ∧ q'.heap.Perm q.heap ∧ (DownOk sc q.heap n → Ordered sc q'.heap) := by
  obtain ⟨x, hx⟩ : ∃ y, q.heap[n]? = some y := ⟨_, List.getElem?_eq_getElem hn⟩
  obtain ⟨hh, he⟩ := Hole.begin h hx
  obtain ⟨q', m, h1, h2, h3⟩ := downLoop_ok sc h.nd x (q.heap.length + 1) q n (by omega) hh
  obtain ⟨q2, h4, h5, h6⟩ := h2.fin h.nd
  refine ⟨q2, ?_, h5, by rw [h6]; exact h2.perm, fun hu => by rw [h6]; exact h3 (by rw [he]; exact hu)⟩
  unfold Pq.siftdown
  rw [hx]; simp only [h1, h4]

/-! ## A changed element -/

/-- Proof device: `Ordered` except for the element at `n`. -/
structure AtOk (sc : Nat → α) (S : List Nat) (n : Nat) : Prop where
  o : ∀ i a b, 0 < i → i ≠ n → (i - 1) / 2 ≠ n → S[i]? = some a → S[(i - 1) / 2]? = some b → sc a ≤ sc b
  c : ∀ i a b, 0 < i → 0 < n → (i - 1) / 2 = n → S[i]? = some a → S[(n - 1) / 2]? = some b → sc a ≤ sc b

theorem Ordered.at' {sc : Nat → α} {S : List Nat} (h : Ordered sc S) (n : Nat) : AtOk sc S n := by
  refine ⟨fun i a b hi _ _ ha hb => h i a b hi ha hb, fun i a b hi hn hin ha hb => ?_⟩
  obtain ⟨hl, _⟩ := List.getElem?_eq_some_iff.1 ha
  obtain ⟨x, hx⟩ : ∃ y, S[n]? = some y := ⟨_, List.getElem?_eq_getElem (by omega)⟩
  exact le_trans (h i a x hi ha (by rw [hin]; exact hx)) (h n x b hn hx hb)

theorem Ordered.down {sc : Nat → α} {S : List Nat} (h : Ordered sc S) (n : Nat) : DownOk sc S n :=
  ⟨fun i a b hi _ ha hb => h i a b hi ha hb, (h.at' n).c⟩

theorem AtOk.up {sc : Nat → α} {S : List Nat} {n x : Nat} (h : AtOk sc S n) (hx : S[n]? = some x) (hc : ∀ i a, 0 < i → (i - 1) / 2 = n → S[i]? = some a → sc a ≤ sc x) : UpOk sc S n := by
  refine ⟨fun i a b hi hin ha hb => ?_, h.c⟩
  by_cases h1 : (i - 1) / 2 = n
  · rw [h1, hx] at hb; cases hb
    exact hc i a hi h1 ha
  · exact h.o i a b hi hin h1 ha hb

theorem AtOk.down {sc : Nat → α} {S : List Nat} {n x : Nat} (h : AtOk sc S n) (hx : S[n]? = some x) (hc : ∀ b, 0 < n → S[(n - 1) / 2]? = some b → sc x ≤ sc b) : DownOk sc S n := by
  refine ⟨fun i a b hi hin ha hb => ?_, h.c⟩
  by_cases h1 : i = n
  · subst h1; rw [hx] at ha; cases ha
    exact hc b hi hb
  · exact h.o i a b hi h1 hin ha hb

theorem Pq.siftup_stay (sc : Nat → α) {q : Pq} (h : q.Ok) {n x : Nat} (hx : q.heap[n]? = some x) (hc : ∀ b, 0 < n → q.heap[(n - 1) / 2]? = some b → sc x ≤ sc b) :
    ∃ q', q.siftup sc n = some q' ∧ q'.Ok ∧ q'.heap = q.heap := by
  obtain ⟨hh, he⟩ := Hole.begin h hx
  obtain ⟨q2, h4, h5, h6⟩ := hh.fin h.nd
  refine ⟨q2, ?_, h5, by rw [h6, he]⟩
  have hl : upLoop sc x (n + 1) q n = some (q, n) := by
    unfold upLoop
    by_cases h0 : n = 0
    · rw [if_pos h0]
    · rw [if_neg h0]
      have hlt := hh.lt
      obtain ⟨y, hy⟩ : ∃ y, q.heap[(n - 1) / 2]? = some y := ⟨_, List.getElem?_eq_getElem (by omega)⟩
      rw [hy]
      simp only
      rw [if_neg (not_lt.2 (hc y (by omega) hy))]
  unfold Pq.siftup
  rw [hx]; simp only [hl, h4]

theorem Pq.siftup_at (sc : Nat → α) {q : Pq} (h : q.Ok) {n x : Nat} (hx : q.heap[n]? = some x) :
    ∃ q', q.siftup sc n = some q' ∧ q'.Ok ∧ q'.heap.Perm q.heap ∧ (AtOk sc q.heap n → Ordered sc q'.heap ∨ (q'.heap = q.heap ∧ DownOk sc q.heap n)) := by
  by_cases hc : ∀ b, 0 < n → q.heap[(n - 1) / 2]? = some b → sc x ≤ sc b
  · obtain ⟨q', h1, h2, h3⟩ := Pq.siftup_stay sc h hx hc
    exact ⟨q', h1, h2, by rw [h3], fun ha => Or.inr ⟨h3, ha.down hx hc⟩⟩
  · obtain ⟨q', h1, h2, h3, h4⟩ := Pq.siftup_ok sc h (List.getElem?_eq_some_iff.1 hx).1
    refine ⟨q', h1, h2, h3, fun ha => Or.inl (h4 (ha.up hx fun i a hi hin hia => ?_))⟩
    push Not at hc
    obtain ⟨b, hn, hb, hlt⟩ := hc
    exact le_trans (ha.c i a b hi hn hin hia hb) (le_of_lt hlt)

/-! ## The operations -/

theorem Pq.has_iff {q : Pq} (h : q.Ok) (k : Nat) : q.has k = true ↔ k ∈ q.heap := by
  rw [List.mem_iff_getElem?]
  unfold Pq.has
  constructor
  · intro hh
    cases hq : q.idx[k]? with
    | none => rw [hq] at hh; exact nomatch hh
    | some o =>
      cases o with
      | none => rw [hq] at hh; exact nomatch hh
      | some i => exact ⟨i, (h.ix k i).1 hq⟩
  · rintro ⟨i, hi⟩
    rw [(h.ix k i).2 hi]; rfl

theorem Pq.ok_clear : Pq.clear.Ok := ⟨List.nodup_nil, fun k i => by simp [Pq.clear]⟩

theorem Ordered.nil (sc : Nat → α) : Ordered sc [] := fun i a b _ h => by simp at h

theorem Pq.push_ok (sc : Nat → α) {q : Pq} (h : q.Ok) {k : Nat} (hk : k ∉ q.heap) :
    ∃ q', q.push sc k = some q' ∧ q'.Ok ∧ q'.heap.Perm (k :: q.heap) ∧ (Ordered sc q.heap → Ordered sc q'.heap) := by
  unfold Pq.push
  rw [if_neg (fun hc => hk ((q.has_iff h k).1 hc))]
  simp only
  obtain ⟨ix, hix⟩ : ∃ ix, ix = (if q.idx.length ≤ k then q.idx ++ List.replicate (k + 1 - q.idx.length) none else q.idx) := ⟨_, rfl⟩
  rw [← hix]
  have hl : k < ix.length := by rw [hix]; split_ifs with hc <;> (try simp) <;> omega
  have hg : ∀ j i : Nat, ix[j]? = some (some i) ↔ q.idx[j]? = some (some i) := by
    intro j i
    rw [hix]
    split_ifs with hc
    · by_cases hj : j < q.idx.length
      · rw [List.getElem?_append_left hj]
      · rw [List.getElem?_append_right (by omega), List.getElem?_eq_none (l := q.idx) (by omega), List.getElem?_replicate]
        split_ifs <;> simp
    · rfl
  have hok : (Pq.mk (q.heap ++ [k]) (ix.set k (some q.heap.length))).Ok := by
    refine ⟨by simp [List.nodup_append, h.nd]; exact fun a ha e => hk (e ▸ ha), fun j i => ?_⟩
    simp only
    by_cases hj : j = k
    · subst hj
      rw [List.getElem?_set_self hl]
      constructor
      · intro e; cases e; simp
      · intro e
        by_cases hi : i < q.heap.length
        · rw [List.getElem?_append_left hi] at e
          exact absurd (List.mem_of_getElem? e) hk
        · rw [List.getElem?_append_right (by omega)] at e
          have := (List.getElem?_eq_some_iff.1 e).1
          simp at this
          rw [show i = q.heap.length by omega]
    · rw [List.getElem?_set_ne (Ne.symm hj), hg, h.ix]
      by_cases hi : i < q.heap.length
      · rw [List.getElem?_append_left hi]
      · rw [List.getElem?_append_right (by omega), List.getElem?_eq_none (l := q.heap) (by omega)]
        constructor
        · exact (fun hx => nomatch hx)
        · intro e
          have := List.mem_of_getElem? e
          simp at this
          exact absurd this hj
  obtain ⟨q', h1, h2, h3, h4⟩ := Pq.siftup_ok sc hok (n := q.heap.length) (by simp)
  refine ⟨q', h1, h2, h3.trans (List.perm_append_comm (l₁ := q.heap) (l₂ := [k])), fun ho => h4 ⟨fun i a b hi hin ha hb => ?_, fun i a b hi hn hin ha hb => ?_⟩⟩
  · have hil := (List.getElem?_eq_some_iff.1 ha).1
    simp at hil
    simp only at ha hb
    rw [List.getElem?_append_left (by omega)] at ha hb
    exact ho i a b hi ha hb
  · have hil := (List.getElem?_eq_some_iff.1 ha).1
    simp at hil
    omega

theorem dropLast_get? {l : List Nat} {i : Nat} : l.dropLast[i]? = if i + 1 < l.length then l[i]? else none := by
  rw [List.dropLast_eq_take, List.getElem?_take]
  by_cases h : i < l.length - 1
  · rw [if_pos h, if_pos (by omega)]
  · rw [if_neg h, if_neg (by omega)]

/-- Proof device: the queue after the last element took the place of the one at `i`. -/
def Pq.cut (q : Pq) (i k l : Nat) : Pq := ⟨(q.heap.set i l).dropLast, (q.idx.set l (some i)).set k none⟩

theorem Pq.cut_ok {q : Pq} (h : q.Ok) {i k l : Nat} (hk : q.heap[i]? = some k) (hl : q.heap.getLast? = some l) :
    (q.cut i k l).Ok ∧ (k :: (q.cut i k l).heap).Perm q.heap ∧ (q.cut i k l).heap.length + 1 = q.heap.length ∧
      (∀ j, (q.cut i k l).heap[j]? = if j + 1 < q.heap.length then (if j = i then some l else q.heap[j]?) else none) ∧ q.heap[q.heap.length - 1]? = some l := by
  have hi : i < q.heap.length := (List.getElem?_eq_some_iff.1 hk).1
  have hg : ∀ j, (q.cut i k l).heap[j]? = if j + 1 < q.heap.length then (if j = i then some l else q.heap[j]?) else none := by
    intro j
    unfold Pq.cut
    simp only
    rw [dropLast_get?, List.length_set, set_get? hi]
  have hl' : q.heap[q.heap.length - 1]? = some l := by rw [← List.getLast?_eq_getElem?]; exact hl
  have hlen : (q.cut i k l).heap.length + 1 = q.heap.length := by unfold Pq.cut; simp; omega
  have hp : (k :: (q.cut i k l).heap).Perm q.heap := by
    have he : (q.heap.set i l) = (q.heap.set i l).dropLast ++ [l] := by
      have hne : q.heap.set i l ≠ [] := by intro e; have := congrArg List.length e; simp at this; rw [this] at hi; simp at hi
      have hlast : (q.heap.set i l).getLast hne = l := by
        rw [List.getLast_eq_getElem]
        by_cases hc : i = q.heap.length - 1
        · simp [hc]
        · simp only [List.length_set]
          rw [List.getElem_set_ne hc]
          exact (List.getElem?_eq_some_iff.1 hl').2
      conv_lhs => rw [← List.dropLast_append_getLast hne, hlast]
    have h1 : (q.heap.set i l).Perm (l :: (q.cut i k l).heap) := by
      rw [he]
      exact List.perm_append_comm
    have h2 : ∀ (l : List Nat) (n x : Nat) (h : n < l.length), (l.set n x).Perm (x :: l.eraseIdx n) := by
      intro l n x h
      rw [List.set_eq_take_cons_drop _ h, List.eraseIdx_eq_take_drop_succ]
      exact List.perm_middle
    have h3 := (List.perm_cons l).1 (h1.symm.trans (h2 q.heap i l hi))
    have h4 := h2 q.heap i k hi
    rw [(Hole.begin h hk).2] at h4
    exact (List.Perm.cons k h3).trans h4.symm
  refine ⟨⟨?_, fun j p => ?_⟩, hp, hlen, hg, hl'⟩
  · have := hp.nodup_iff.2 h.nd
    exact (List.nodup_cons.1 this).2
  · have hkl : k < q.idx.length := (List.getElem?_eq_some_iff.1 ((h.ix k i).2 hk)).1
    have hll : l < q.idx.length := (List.getElem?_eq_some_iff.1 ((h.ix l _).2 hl')).1
    rw [hg]
    show ((q.idx.set l (some i)).set k none)[j]? = _ ↔ _
    by_cases hjk : j = k
    · subst hjk
      rw [List.getElem?_set_self (by simpa using hkl)]
      constructor
      · exact (fun hx => nomatch hx)
      · intro e
        split_ifs at e with h1 h2
        · cases e
          have := nodup_get? h.nd hk hl'
          omega
        · exact absurd (nodup_get? h.nd e hk) h2
    · rw [List.getElem?_set_ne (Ne.symm hjk)]
      by_cases hjl : j = l
      · subst hjl
        rw [List.getElem?_set_self hll]
        have hne : i ≠ q.heap.length - 1 := by
          intro e; rw [e, hl'] at hk; cases hk; exact hjk rfl
        constructor
        · intro e; cases e
          rw [if_pos (by omega), if_pos rfl]
        · intro e
          split_ifs at e with h1 h2
          · rw [h2]
          · have := nodup_get? h.nd e hl'
            omega
      · rw [List.getElem?_set_ne (Ne.symm hjl), h.ix]
        constructor
        · intro e
          have hne : p ≠ i := by intro e2; rw [e2, hk] at e; cases e; exact hjk rfl
          have hlt := (List.getElem?_eq_some_iff.1 e).1
          have hne2 : p ≠ q.heap.length - 1 := by intro e2; rw [e2, hl'] at e; cases e; exact hjl rfl
          rw [if_pos (by omega), if_neg hne]; exact e
        · intro e
          split_ifs at e with h1 h2
          · cases e; exact absurd rfl hjl
          · exact e

theorem Pq.cut_at (sc : Nat → α) {q : Pq} (h : q.Ok) {i k l : Nat} (hk : q.heap[i]? = some k) (hl : q.heap.getLast? = some l) (ho : Ordered sc q.heap) : AtOk sc (q.cut i k l).heap i := by
  obtain ⟨_, _, _, hg, _⟩ := q.cut_ok h hk hl
  constructor
  · intro j a b hj hji hpi ha hb
    rw [hg] at ha hb
    rw [if_neg hji] at ha
    rw [if_neg hpi] at hb
    split_ifs at ha hb
    exact ho j a b hj ha hb
  · intro j a b hj hn hji ha hb
    rw [hg] at ha hb
    rw [if_neg (show ¬ j = i by omega)] at ha
    rw [if_neg (show ¬ (i - 1) / 2 = i by omega)] at hb
    split_ifs at ha hb
    exact (ho.at' i).c j a b hj hn hji ha hb

theorem Pq.pop_ok (sc : Nat → α) {q : Pq} (h : q.Ok) {x : Nat} (hx : q.top = some x) :
    ∃ q', q.pop sc = some q' ∧ q'.Ok ∧ (x :: q'.heap).Perm q.heap ∧ (Ordered sc q.heap → Ordered sc q'.heap) := by
  unfold Pq.top at hx
  have hlen : 0 < q.heap.length := (List.getElem?_eq_some_iff.1 hx).1
  obtain ⟨l, hl⟩ : ∃ l, q.heap.getLast? = some l := by
    rw [List.getLast?_eq_getElem?]
    exact ⟨_, List.getElem?_eq_getElem (by omega)⟩
  obtain ⟨h1, h2, h3, h4, h5⟩ := q.cut_ok h hx hl
  unfold Pq.pop
  rw [hx, hl]
  simp only
  show ∃ q', (if 1 < (q.cut 0 x l).heap.length then (q.cut 0 x l).siftdown sc 0 else some (q.cut 0 x l)) = some q' ∧ _
  split_ifs with hc
  · obtain ⟨q', h6, h7, h8, h9⟩ := Pq.siftdown_ok sc h1 (n := 0) (by omega)
    refine ⟨q', h6, h7, (List.Perm.cons x h8).trans h2, fun ho => h9 ?_⟩
    have ha := Pq.cut_at sc h hx hl ho
    obtain ⟨y, hy⟩ : ∃ y, (q.cut 0 x l).heap[0]? = some y := ⟨_, List.getElem?_eq_getElem (by omega)⟩
    exact ha.down hy (fun b h0 => absurd h0 (Nat.lt_irrefl 0))
  · refine ⟨_, rfl, h1, h2, fun ho i a b hi ha hb => ?_⟩
    have := (List.getElem?_eq_some_iff.1 ha).1
    omega

theorem Pq.remove_ok (sc : Nat → α) {q : Pq} (h : q.Ok) (k : Nat) :
    ∃ q', q.remove sc k = some q' ∧ q'.Ok ∧ (∀ x, x ∈ q'.heap ↔ x ∈ q.heap ∧ x ≠ k) ∧ (Ordered sc q.heap → Ordered sc q'.heap) := by
  unfold Pq.remove
  by_cases hk : q.has k = true
  · rw [if_pos hk]
    obtain ⟨i, hi⟩ := List.mem_iff_getElem?.1 ((q.has_iff h k).1 hk)
    have hlen : 0 < q.heap.length := by have := (List.getElem?_eq_some_iff.1 hi).1; omega
    obtain ⟨l, hl⟩ : ∃ l, q.heap.getLast? = some l := by
      rw [List.getLast?_eq_getElem?]
      exact ⟨_, List.getElem?_eq_getElem (by omega)⟩
    obtain ⟨h1, h2, h3, h4, h5⟩ := q.cut_ok h hi hl
    have hmem : ∀ hp : List Nat, hp.Perm (q.cut i k l).heap → ∀ x, x ∈ hp ↔ x ∈ q.heap ∧ x ≠ k := by
      intro hp hpp x
      rw [hpp.mem_iff, ← h2.mem_iff, List.mem_cons]
      have hn : k ∉ (q.cut i k l).heap := (List.nodup_cons.1 (h2.nodup_iff.2 h.nd)).1
      constructor
      · exact fun hx => ⟨Or.inr hx, fun e => hn (e ▸ hx)⟩
      · rintro ⟨rfl | hx, hne⟩
        · exact absurd rfl hne
        · exact hx
    rw [(h.ix k i).2 hi, hl]
    simp only
    show ∃ q', (if 1 < (q.cut i k l).heap.length ∧ i ≠ (q.cut i k l).heap.length then (match (q.cut i k l).siftup sc i with | none => none | some q2 => q2.siftdown sc i) else some (q.cut i k l)) = some q' ∧ _
    have hil := (List.getElem?_eq_some_iff.1 hi).1
    split_ifs with hc
    · obtain ⟨y, hy⟩ : ∃ y, (q.cut i k l).heap[i]? = some y := ⟨_, List.getElem?_eq_getElem (by omega)⟩
      obtain ⟨q1, h6, h7, h8, h9⟩ := Pq.siftup_at sc h1 hy
      have hl1 := h8.length_eq
      obtain ⟨q2, h10, h11, h12, h13⟩ := Pq.siftdown_ok sc h7 (n := i) (by omega)
      refine ⟨q2, by rw [h6]; exact h10, h11, hmem _ (h12.trans h8), fun ho => h13 ?_⟩
      rcases h9 (Pq.cut_at sc h hi hl ho) with h14 | ⟨h14, h15⟩
      · exact h14.down i
      · rw [h14]; exact h15
    · refine ⟨_, rfl, h1, hmem _ (List.Perm.refl _), fun ho j a b hj ha hb => ?_⟩
      have hja := (List.getElem?_eq_some_iff.1 ha).1
      have ha' := Pq.cut_at sc h hi hl ho
      exact ha'.o j a b hj (by omega) (by omega) ha hb
  · rw [if_neg hk]
    refine ⟨q, rfl, h, fun x => ⟨fun hx => ⟨hx, fun e => hk ((q.has_iff h k).2 (e ▸ hx))⟩, fun hx => hx.1⟩, fun ho => ho⟩

theorem Pq.top_max {sc : Nat → α} {q : Pq} (ho : Ordered sc q.heap) {t : Nat} (ht : q.top = some t) : ∀ k ∈ q.heap, sc k ≤ sc t := by
  have : ∀ (n i a : Nat), i ≤ n → q.heap[i]? = some a → sc a ≤ sc t := by
    intro n
    induction n with
    | zero => intro i a hi ha; rw [show i = 0 by omega] at ha; rw [Pq.top, ha] at ht; cases ht; exact le_refl _
    | succ n ih =>
      intro i a hi ha
      by_cases h0 : i = 0
      · rw [h0] at ha; rw [Pq.top, ha] at ht; cases ht; exact le_refl _
      · have := (List.getElem?_eq_some_iff.1 ha).1
        obtain ⟨b, hb⟩ : ∃ y, q.heap[(i - 1) / 2]? = some y := ⟨_, List.getElem?_eq_getElem (by omega)⟩
        exact le_trans (ho i a b (by omega) ha hb) (ih _ b (by omega) hb)
  intro k hk
  obtain ⟨i, hi⟩ := List.mem_iff_getElem?.1 hk
  exact this i i k (Nat.le_refl _) hi

/-! ## Changed scores -/

/-- Specification: the order of `sc` is preserved by `sc'` except for `k`. -/
def SameOrder (sc sc' : Nat → α) (k : Nat) : Prop := ∀ a b, a ≠ k → b ≠ k → sc a ≤ sc b → sc' a ≤ sc' b

theorem Ordered.atOk {sc sc' : Nat → α} {q : Pq} (h : q.Ok) {i k : Nat} (hk : q.heap[i]? = some k) (ho : Ordered sc q.heap) (hs : SameOrder sc sc' k) : AtOk sc' q.heap i := by
  have hne : ∀ j a, q.heap[j]? = some a → j ≠ i → a ≠ k := fun j a hj hji e => hji (nodup_get? h.nd (e ▸ hj) hk)
  refine ⟨fun j a b hj hji hpi ha hb => hs a b (hne j a ha hji) (hne _ b hb hpi) (ho j a b hj ha hb), fun j a b hj hn hji ha hb => ?_⟩
  exact hs a b (hne j a ha (by omega)) (hne _ b hb (by omega)) ((ho.at' i).c j a b hj hn hji ha hb)

theorem Pq.increase_ok {sc sc' : Nat → α} {q : Pq} (h : q.Ok) {k : Nat} (hk : k ∈ q.heap) (hs : SameOrder sc sc' k) (hup : ∀ a, sc a ≤ sc k → sc' a ≤ sc' k) :
    ∃ q', q.increase sc' k = some q' ∧ q'.Ok ∧ q'.heap.Perm q.heap ∧ (Ordered sc q.heap → Ordered sc' q'.heap) := by
  obtain ⟨i, hi⟩ := List.mem_iff_getElem?.1 hk
  obtain ⟨q', h1, h2, h3, h4⟩ := Pq.siftup_ok sc' h (List.getElem?_eq_some_iff.1 hi).1
  refine ⟨q', by unfold Pq.increase; rw [(h.ix k i).2 hi]; exact h1, h2, h3, fun ho => h4 ((ho.atOk h hi hs).up hi fun j a hj hji ha => hup a (ho j a k hj ha (by rw [hji]; exact hi)))⟩

theorem Pq.decrease_ok {sc sc' : Nat → α} {q : Pq} (h : q.Ok) {k : Nat} (hk : k ∈ q.heap) (hs : SameOrder sc sc' k) (hdn : ∀ a, sc k ≤ sc a → sc' k ≤ sc' a) :
    ∃ q', q.decrease sc' k = some q' ∧ q'.Ok ∧ q'.heap.Perm q.heap ∧ (Ordered sc q.heap → Ordered sc' q'.heap) := by
  obtain ⟨i, hi⟩ := List.mem_iff_getElem?.1 hk
  obtain ⟨q', h1, h2, h3, h4⟩ := Pq.siftdown_ok sc' h (List.getElem?_eq_some_iff.1 hi).1
  refine ⟨q', by unfold Pq.decrease; rw [(h.ix k i).2 hi]; exact h1, h2, h3, fun ho => h4 ((ho.atOk h hi hs).down hi fun b hn hb => hdn b (ho i k b hn hi hb))⟩

theorem Pq.update_ok {sc sc' : Nat → α} {q : Pq} (h : q.Ok) (k : Nat) (hs : SameOrder sc sc' k) :
    ∃ q', q.update sc' k = some q' ∧ q'.Ok ∧ (∀ x, x ∈ q'.heap ↔ x ∈ q.heap ∨ x = k) ∧ (Ordered sc q.heap → Ordered sc' q'.heap) := by
  unfold Pq.update
  by_cases hk : q.has k = true
  · rw [if_pos hk]
    have hkm := (q.has_iff h k).1 hk
    obtain ⟨i, hi⟩ := List.mem_iff_getElem?.1 hkm
    obtain ⟨q1, h6, h7, h8, h9⟩ := Pq.siftup_at sc' h hi
    have hinc : q.increase sc' k = some q1 := by unfold Pq.increase; rw [(h.ix k i).2 hi]; exact h6
    rw [hinc]
    simp only
    obtain ⟨j, hj⟩ := List.mem_iff_getElem?.1 (h8.mem_iff.2 hkm)
    obtain ⟨q2, h10, h11, h12, h13⟩ := Pq.siftdown_ok sc' h7 (List.getElem?_eq_some_iff.1 hj).1
    refine ⟨q2, by unfold Pq.decrease; rw [(h7.ix k j).2 hj]; exact h10, h11, fun x => ?_, fun ho => h13 ?_⟩
    · rw [(h12.trans h8).mem_iff]
      exact ⟨Or.inl, fun hx => hx.elim id (fun e => e ▸ hkm)⟩
    · rcases h9 (ho.atOk h hi hs) with h14 | ⟨h14, h15⟩
      · exact h14.down j
      · rw [h14]
        rw [h14] at hj
        rw [nodup_get? h.nd hj hi]
        exact h15
  · rw [if_neg hk]
    have hkm : k ∉ q.heap := fun hc => hk ((q.has_iff h k).2 hc)
    obtain ⟨q', h1, h2, h3, h4⟩ := Pq.push_ok sc' h hkm
    refine ⟨q', h1, h2, fun x => by rw [h3.mem_iff, List.mem_cons]; exact or_comm, fun ho => h4 fun i a b hi ha hb => ?_⟩
    exact hs a b (fun e => hkm (e ▸ List.mem_of_getElem? ha)) (fun e => hkm (e ▸ List.mem_of_getElem? hb)) (ho i a b hi ha hb)

end Clasp.Heu
