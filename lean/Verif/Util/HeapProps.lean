/-
C05: the indexed priority queue is a priority queue.
-/
import Verif.Util.Heap
namespace Clasp.Heap

/-! ### Specification -/

/-- What a comparison has to satisfy: asymmetric, transitive, and "not before" is transitive (strict weak order). -/
structure Order (lt : Nat → Nat → Bool) : Prop where
  asymm : ∀ a b, lt a b = true → lt b a = false
  trans : ∀ a b c, lt a b = true → lt b c = true → lt a c = true
  negTrans : ∀ a b c, lt b a = false → lt c b = false → lt c a = false

/-- Abstract state: the set of queued keys and the current comparison. -/
structure Abs where
  keys : Nat → Prop
  lt   : Nat → Nat → Bool

/-- `lt'` differs from `lt` at most on pairs involving `k`. -/
def OnlyKey (k : Nat) (lt lt' : Nat → Nat → Bool) : Prop :=
  ∀ a b, a ≠ k → b ≠ k → lt' a b = lt a b

/-- The operations; `update`, `increase`, `decrease` come with the comparison in force after the priority of their
key changed, `rescale` is a change of all priorities that may merge but never reverses or creates an order
(scaling down of activities). -/
inductive Op
  | push (k : Nat) | pop | remove (k : Nat)
  | update (k : Nat) (lt' : Nat → Nat → Bool)
  | increase (k : Nat) (lt' : Nat → Nat → Bool)
  | decrease (k : Nat) (lt' : Nat → Nat → Bool)
  | rescale (lt' : Nat → Nat → Bool)
  | clear

/-- Abstract transitions, with the preconditions under which an operation may be called. -/
inductive Abs.Step : Abs → Op → Abs → Prop
  | push (s k) : ¬ s.keys k → Step s (.push k) ⟨fun j => s.keys j ∨ j = k, s.lt⟩
  | pop (s m) : s.keys m → (∀ j, s.keys j → s.lt j m = false) → Step s .pop ⟨fun j => s.keys j ∧ j ≠ m, s.lt⟩
  | remove (s k) : Step s (.remove k) ⟨fun j => s.keys j ∧ j ≠ k, s.lt⟩
  | update (s k lt') : Order lt' → OnlyKey k s.lt lt' → Step s (.update k lt') ⟨fun j => s.keys j ∨ j = k, lt'⟩
  | increase (s k lt') : Order lt' → OnlyKey k s.lt lt' → (∀ j, lt' j k = true → s.lt j k = true) → s.keys k →
      Step s (.increase k lt') ⟨s.keys, lt'⟩
  | decrease (s k lt') : Order lt' → OnlyKey k s.lt lt' → (∀ j, lt' k j = true → s.lt k j = true) → s.keys k →
      Step s (.decrease k lt') ⟨s.keys, lt'⟩
  | rescale (s lt') : Order lt' → (∀ a b, lt' a b = true → s.lt a b = true) → Step s (.rescale lt') ⟨s.keys, lt'⟩
  | clear (s) : Step s .clear ⟨fun _ => False, s.lt⟩

/-- May `op` be called in abstract state `s`? -/
def Abs.Pre (s : Abs) : Op → Prop
  | .push k => ¬ s.keys k
  | .pop => ∃ k, s.keys k
  | .remove _ => True
  | .update k lt' => Order lt' ∧ OnlyKey k s.lt lt'
  | .increase k lt' => Order lt' ∧ OnlyKey k s.lt lt' ∧ (∀ j, lt' j k = true → s.lt j k = true) ∧ s.keys k
  | .decrease k lt' => Order lt' ∧ OnlyKey k s.lt lt' ∧ (∀ j, lt' k j = true → s.lt k j = true) ∧ s.keys k
  | .rescale lt' => Order lt' ∧ (∀ a b, lt' a b = true → s.lt a b = true)
  | .clear => True

/-- Concrete state: queue plus the comparison it currently uses. -/
structure Conc where
  q  : Q
  lt : Nat → Nat → Bool

/-- Concrete execution of an operation. -/
def Conc.exec (c : Conc) : Op → Conc
  | .push k => ⟨Heap.push c.lt c.q k, c.lt⟩
  | .pop => ⟨Heap.pop c.lt c.q, c.lt⟩
  | .remove k => ⟨Heap.remove c.lt c.q k, c.lt⟩
  | .update k lt' => ⟨Heap.update lt' c.q k, lt'⟩
  | .increase k lt' => ⟨Heap.increase lt' c.q k, lt'⟩
  | .decrease k lt' => ⟨Heap.decrease lt' c.q k, lt'⟩
  | .rescale lt' => ⟨c.q, lt'⟩
  | .clear => ⟨Heap.clear c.q, c.lt⟩

/-- The abstract state a concrete one stands for, through the public membership query. -/
def Conc.abs (c : Conc) : Abs := ⟨fun k => c.q.isInQueue k = true, c.lt⟩

/-! ### Invariants and lemmas -/

/-- heap and index arrays are inverse to each other -/
structure WF (q : Q) : Prop where
  fwd : ∀ i, i < q.size → q.idx (q.heap i) = some i
  bwd : ∀ k i, q.idx k = some i → i < q.size ∧ q.heap i = k

def IsHeap (lt : Nat → Nat → Bool) (q : Q) : Prop :=
  ∀ i, 0 < i → i < q.size → lt (q.heap i) (q.heap (parent i)) = false

/-- array state inside the sift loops: position `n` is a hole, `x` is the key to be placed -/
structure HoleWF (q : Q) (n x : Nat) : Prop where
  lt : n < q.size
  fwd : ∀ i, i < q.size → i ≠ n → q.idx (q.heap i) = some i ∧ q.heap i ≠ x
  bwd : ∀ k i, k ≠ x → q.idx k = some i → i < q.size ∧ i ≠ n ∧ q.heap i = k

theorem upd_self {α} (f : Nat → α) (i : Nat) (v : α) : upd f i v i = v := by simp [upd]
theorem upd_ne {α} (f : Nat → α) (i : Nat) (v : α) {j : Nat} (h : j ≠ i) : upd f i v j = f j := by simp [upd, h]

theorem WF.hole {q : Q} (h : WF q) {n : Nat} (hn : n < q.size) : HoleWF q n (q.heap n) where
  lt := hn
  fwd := fun i hi hin => ⟨h.fwd i hi, fun he => by
    have a := h.fwd i hi; have b := h.fwd n hn; rw [he, b] at a; simp at a; omega⟩
  bwd := fun k i hk hik => by
    obtain ⟨h1, h2⟩ := h.bwd k i hik
    exact ⟨h1, fun hin => hk (by rw [← h2, hin]), h2⟩

theorem HoleWF.fill {q : Q} {n x : Nat} (h : HoleWF q n x) :
    WF { q with heap := upd q.heap n x, idx := upd q.idx x (some n) } where
  fwd := fun i hi => by
    simp only at *
    by_cases hin : i = n
    · subst hin; simp [upd_self]
    · obtain ⟨a, b⟩ := h.fwd i hi hin
      rw [upd_ne _ _ _ hin, upd_ne _ _ _ b, a]
  bwd := fun k i hk => by
    simp only at *
    by_cases hkx : k = x
    · subst hkx; rw [upd_self] at hk; simp at hk; subst hk
      exact ⟨h.lt, upd_self _ _ _⟩
    · rw [upd_ne _ _ _ hkx] at hk
      obtain ⟨a, b, c⟩ := h.bwd k i hkx hk
      exact ⟨a, by rw [upd_ne _ _ _ b, c]⟩

theorem HoleWF.move {q : Q} {n x p : Nat} (h : HoleWF q n x) (hp : p < q.size) (hpn : p ≠ n) :
    HoleWF { q with heap := upd q.heap n (q.heap p), idx := upd q.idx (q.heap p) (some n) } p x where
  lt := hp
  fwd := fun i hi hip => by
    simp only at *
    obtain ⟨pa, pb⟩ := h.fwd p hp hpn
    by_cases hin : i = n
    · subst hin; simp [upd_self, pb]
    · obtain ⟨a, b⟩ := h.fwd i hi hin
      rw [upd_ne _ _ _ hin]
      have : q.heap i ≠ q.heap p := fun he => by rw [he, pa] at a; simp at a; omega
      rw [upd_ne _ _ _ this]; exact ⟨a, b⟩
  bwd := fun k i hkx hk => by
    simp only at *
    by_cases hkp : k = q.heap p
    · subst hkp; rw [upd_self] at hk; simp at hk; subst hk
      exact ⟨h.lt, fun he => hpn he.symm, by rw [upd_self]⟩
    · rw [upd_ne _ _ _ hkp] at hk
      obtain ⟨a, b, c⟩ := h.bwd k i hkx hk
      refine ⟨a, fun hip => hkp (by rw [← c, hip]), by rw [upd_ne _ _ _ b, c]⟩

/-! Membership and size under the sift loops. -/

theorem siftupLoop_wf (lt : Nat → Nat → Bool) (x : Nat) (q : Q) (n : Nat) (h : HoleWF q n x) :
    WF (siftupLoop lt x q n) ∧ (siftupLoop lt x q n).size = q.size ∧
    ∀ k, ((siftupLoop lt x q n).idx k).isSome = ((q.idx k).isSome || decide (k = x)) := by
  fun_induction siftupLoop lt x q n with
  | case1 q n hc ih =>
    have hn := h.lt
    have hp : parent n < q.size := by unfold parent; omega
    have hpn : parent n ≠ n := by unfold parent; omega
    obtain ⟨a, b, c⟩ := ih (h.move hp hpn)
    refine ⟨a, b, fun k => ?_⟩
    rw [c k]
    simp only
    by_cases hk : k = q.heap (parent n)
    · subst hk; simp [upd_self, (h.fwd _ hp hpn).1]
    · rw [upd_ne _ _ _ hk]
  | case2 q n hc =>
    refine ⟨h.fill, rfl, fun k => ?_⟩
    simp only
    by_cases hk : k = x
    · subst hk; simp [upd_self]
    · rw [upd_ne _ _ _ hk]; simp [hk]

theorem smallerChild_bounds {lt : Nat → Nat → Bool} {q : Q} {n : Nat} (h : left n < q.size) :
    smallerChild lt q n < q.size ∧ n < smallerChild lt q n ∧ parent (smallerChild lt q n) = n := by
  unfold smallerChild left right parent at *; split <;> omega

theorem siftdownLoop_wf (lt : Nat → Nat → Bool) (x : Nat) (q : Q) (n : Nat) (h : HoleWF q n x) :
    WF (siftdownLoop lt x q n) ∧ (siftdownLoop lt x q n).size = q.size ∧
    ∀ k, ((siftdownLoop lt x q n).idx k).isSome = ((q.idx k).isSome || decide (k = x)) := by
  fun_induction siftdownLoop lt x q n with
  | case1 q n hc ih =>
    obtain ⟨hp, hlt, _⟩ := smallerChild_bounds (lt := lt) hc.1
    have hpn : smallerChild lt q n ≠ n := by omega
    obtain ⟨a, b, c⟩ := ih (h.move hp hpn)
    refine ⟨a, b, fun k => ?_⟩
    rw [c k]
    simp only
    by_cases hk : k = q.heap (smallerChild lt q n)
    · subst hk; simp [upd_self, (h.fwd _ hp hpn).1]
    · rw [upd_ne _ _ _ hk]
  | case2 q n hc =>
    refine ⟨h.fill, rfl, fun k => ?_⟩
    simp only
    by_cases hk : k = x
    · subst hk; simp [upd_self]
    · rw [upd_ne _ _ _ hk]; simp [hk]

/-! Order: `h` is the array with the hole filled by the moved key. -/

/-- all pairs in order except that `n` may be before its parent -/
def UpOk (lt : Nat → Nat → Bool) (sz : Nat) (h : Nat → Nat) (n : Nat) : Prop :=
  (∀ i, 0 < i → i < sz → i ≠ n → lt (h i) (h (parent i)) = false) ∧
  (∀ c, 0 < c → c < sz → parent c = n → 0 < n → lt (h c) (h (parent n)) = false)

/-- all pairs in order except that children of `n` may be before it -/
def DownOk (lt : Nat → Nat → Bool) (sz : Nat) (h : Nat → Nat) (n : Nat) : Prop :=
  (∀ i, 0 < i → i < sz → parent i ≠ n → lt (h i) (h (parent i)) = false) ∧
  (∀ c, 0 < c → c < sz → parent c = n → 0 < n → lt (h c) (h (parent n)) = false)

/-- all pairs in order except those involving position `n` -/
def WeakOk (lt : Nat → Nat → Bool) (sz : Nat) (h : Nat → Nat) (n : Nat) : Prop :=
  (∀ i, 0 < i → i < sz → i ≠ n → parent i ≠ n → lt (h i) (h (parent i)) = false) ∧
  (∀ c, 0 < c → c < sz → parent c = n → 0 < n → lt (h c) (h (parent n)) = false)

theorem upd_upd_hole (h : Nat → Nat) (n p x : Nat) (_hpn : p ≠ n) :
    upd (upd h n (h p)) p x = fun j => if j = p then x else if j = n then h p else h j := by
  funext j; simp [upd]

theorem weak_step {lt : Nat → Nat → Bool} (o : Order lt) {sz : Nat} {h : Nat → Nat} {n x : Nat} (hn0 : n ≠ 0)
    (hn : n < sz) (hx : lt x (h (parent n)) = true) (w : WeakOk lt sz (upd h n x) n) :
    UpOk lt sz (upd (upd h n (h (parent n))) (parent n) x) (parent n) := by
  have hpn : parent n ≠ n := by unfold parent; omega
  have hlt : parent n < n := by unfold parent; omega
  have key : ∀ i, i ≠ n → upd h n x i = h i := fun i hi => upd_ne _ _ _ hi
  have w1 : ∀ i, 0 < i → i < sz → i ≠ n → parent i ≠ n → lt (h i) (h (parent i)) = false := by
    intro i a b c d
    have := w.1 i a b c d
    rwa [key i c, key _ d] at this
  have w2 : ∀ c, 0 < c → c < sz → parent c = n → lt (h c) (h (parent n)) = false := by
    intro c a b d
    have := w.2 c a b d (by omega)
    have hcn : c ≠ n := by unfold parent at d; omega
    rwa [key c hcn, key _ hpn] at this
  rw [upd_upd_hole _ _ _ _ hpn]
  constructor
  · intro i h0 hi hip
    simp only [hip, if_false]
    by_cases hin : i = n
    · subst hin; simp; exact o.asymm _ _ hx
    · simp only [hin, if_false]
      by_cases hpip : parent i = parent n
      · simp only [hpip, if_true]
        have := w1 i h0 hi hin (by omega)
        rw [hpip] at this
        cases hh : lt (h i) x
        · rfl
        · rw [o.trans _ _ _ hh hx] at this; simp at this
      · simp only [hpip, if_false]
        by_cases hpn' : parent i = n
        · simp only [hpn', if_true]; exact w2 i h0 hi hpn'
        · simp only [hpn', if_false]; exact w1 i h0 hi hin hpn'
  · intro c h0 hc hcp h0p
    have hcp' : c ≠ parent n := by
      intro he; rw [he] at hcp; unfold parent at hcp h0p; omega
    have hppn : parent (parent n) ≠ n := by unfold parent at *; omega
    have hppp : parent (parent n) ≠ parent n := by unfold parent at *; omega
    simp only [hcp', if_false, hppn, hppp]
    have pp := w1 (parent n) h0p (by omega) hpn (by omega)
    by_cases hcn : c = n
    · simp [hcn]; exact pp
    · simp only [hcn, if_false]
      have := w1 c h0 hc hcn (by omega)
      rw [hcp] at this
      exact o.negTrans _ _ _ pp this

theorem UpOk.weak {lt : Nat → Nat → Bool} {sz : Nat} {h : Nat → Nat} {n : Nat} (u : UpOk lt sz h n) : WeakOk lt sz h n :=
  ⟨fun i a b c _ => u.1 i a b c, u.2⟩
theorem DownOk.weak {lt : Nat → Nat → Bool} {sz : Nat} {h : Nat → Nat} {n : Nat} (u : DownOk lt sz h n) : WeakOk lt sz h n :=
  ⟨fun i a b _ d => u.1 i a b d, u.2⟩

theorem siftupLoop_heap {lt : Nat → Nat → Bool} (o : Order lt) (x : Nat) (q : Q) (n : Nat) (hn : n < q.size)
    (u : UpOk lt q.size (upd q.heap n x) n) : IsHeap lt (siftupLoop lt x q n) := by
  fun_induction siftupLoop lt x q n with
  | case1 q n hc ih =>
    exact ih (by simp only [parent]; omega) (weak_step o hc.1 hn hc.2 u.weak)
  | case2 q n hc =>
    intro i h0 hi
    simp only at *
    by_cases hin : i = n
    · subst hin
      have hp : parent i ≠ i := by unfold parent; omega
      rw [upd_self, upd_ne _ _ _ hp]
      cases hh : lt x (q.heap (parent i))
      · rfl
      · exact absurd ⟨by omega, hh⟩ hc
    · exact u.1 i h0 hi hin

/-- with only position `n` suspicious, `siftup` leaves a heap or an array needing only a `siftdown` at the place
where the key now is, which then is still `n` -/
theorem siftupLoop_weak {lt : Nat → Nat → Bool} (o : Order lt) (x : Nat) (q : Q) (n : Nat) (hn : n < q.size)
    (w : WeakOk lt q.size (upd q.heap n x) n) :
    IsHeap lt (siftupLoop lt x q n) ∨
    (DownOk lt q.size (siftupLoop lt x q n).heap n ∧ (siftupLoop lt x q n).heap n = x ∧
      (siftupLoop lt x q n).idx x = some n) := by
  by_cases hc : n ≠ 0 ∧ lt x (q.heap (parent n)) = true
  · left
    rw [siftupLoop, dif_pos hc]
    exact siftupLoop_heap o x _ _ (by simp only [parent]; omega) (weak_step o hc.1 hn hc.2 w)
  · right
    rw [siftupLoop, dif_neg hc]
    refine ⟨⟨fun i h0 hi hp => ?_, w.2⟩, by simp [upd_self], by simp [upd_self]⟩
    simp only at *
    by_cases hin : i = n
    · subst hin
      rw [upd_self, upd_ne _ _ _ hp]
      cases hh : lt x (q.heap (parent i))
      · rfl
      · exact absurd ⟨by omega, hh⟩ hc
    · exact w.1 i h0 hi hin hp

theorem siftdownLoop_heap {lt : Nat → Nat → Bool} (o : Order lt) (x : Nat) (q : Q) (n : Nat) (hn : n < q.size)
    (u : DownOk lt q.size (upd q.heap n x) n) : IsHeap lt (siftdownLoop lt x q n) := by
  fun_induction siftdownLoop lt x q n with
  | case1 q n hc ih =>
    obtain ⟨hp, hlt, hpar⟩ := smallerChild_bounds (lt := lt) hc.1
    refine ih hp ?_
    have hsm : ∀ i, 0 < i → i < q.size → parent i = n → lt (q.heap i) (q.heap (smallerChild lt q n)) = false := by
      intro i h0 hi hpi
      have irr : ∀ a, lt a a = false := fun a => by
        cases hh : lt a a
        · rfl
        · have := o.asymm _ _ hh; rw [hh] at this; simp at this
      have hi' : i = left n ∨ i = right n := by unfold parent left right at *; omega
      unfold smallerChild
      split
      · rename_i hs
        rcases hi' with rfl | rfl
        · exact o.asymm _ _ hs.2
        · exact irr _
      · rename_i hs
        rcases hi' with rfl | rfl
        · exact irr _
        · cases hh : lt (q.heap (right n)) (q.heap (left n))
          · rfl
          · exact absurd ⟨hi, hh⟩ hs
    generalize smallerChild lt q n = c at *
    simp only at *
    rw [upd_upd_hole _ _ _ _ (by omega)]
    have key : ∀ i, i ≠ n → upd q.heap n x i = q.heap i := fun i hi => upd_ne _ _ _ hi
    have w1 : ∀ i, 0 < i → i < q.size → i ≠ n → parent i ≠ n → lt (q.heap i) (q.heap (parent i)) = false := by
      intro i a b e d
      have := u.1 i a b d
      rwa [key i e, key _ d] at this
    constructor
    · intro i h0 hi hpi
      simp only [hpi, if_false]
      by_cases hic : i = c
      · subst hic
        simp [hpar]
        exact o.asymm _ _ hc.2
      · simp only [hic, if_false]
        by_cases hin : i = n
        · subst hin
          have hpn : parent i ≠ i := by unfold parent; omega
          simp only [if_true, hpn, if_false]
          have := u.2 c (by omega) hp hpar h0
          rwa [key c (by omega), key _ hpn] at this
        · simp only [hin, if_false]
          by_cases hpn : parent i = n
          · simp only [hpn, if_true]; exact hsm i h0 hi hpn
          · simp only [hpn, if_false]; exact w1 i h0 hi hin hpn
    · intro g h0 hg hgp h0c
      have hgc : g ≠ c := by unfold parent at hgp; omega
      have hgn : g ≠ n := by unfold parent at hgp; omega
      have hpc : parent c ≠ c := by unfold parent; omega
      simp only [hgc, hgn, if_false, hpar, if_true]
      rw [if_neg (by omega)]
      have := w1 g h0 hg hgn (by omega)
      rwa [hgp] at this
  | case2 q n hc =>
    intro i h0 hi
    simp only at *
    by_cases hpn : parent i = n
    · have hin : i ≠ n := by unfold parent at hpn; omega
      rw [hpn, upd_self, upd_ne _ _ _ hin]
      have hl : left n < q.size := by unfold left; unfold parent at hpn; omega
      cases hh : lt (q.heap i) x
      · rfl
      · exfalso
        have hi' : i = left n ∨ i = right n := by unfold parent left right at *; omega
        apply hc
        refine ⟨hl, ?_⟩
        unfold smallerChild
        split
        · rename_i hs
          rcases hi' with rfl | rfl
          · exact o.trans _ _ _ hs.2 hh
          · exact hh
        · rename_i hs
          rcases hi' with rfl | rfl
          · exact hh
          · cases h1 : lt (q.heap (left n)) x
            · have h2 : lt (q.heap (right n)) (q.heap (left n)) = false := by
                cases h3 : lt (q.heap (right n)) (q.heap (left n))
                · rfl
                · exact absurd ⟨hi, h3⟩ hs
              rw [o.negTrans _ _ _ h1 h2] at hh; simp at hh
            · rfl
    · exact u.1 i h0 hi hpn

theorem upd_same (h : Nat → Nat) (n : Nat) : upd h n (h n) = h := by
  funext j; simp only [upd]; split <;> simp_all

theorem IsHeap.downOk {lt : Nat → Nat → Bool} (o : Order lt) {q : Q} (h : IsHeap lt q) (n : Nat) :
    DownOk lt q.size q.heap n :=
  ⟨fun i a b _ => h i a b, fun c h0 hc hp hn => by
    have hcn : parent c < c := by unfold parent; omega
    have a := h c h0 hc
    have b := h n hn (by omega)
    rw [hp] at a
    exact o.negTrans _ _ _ b a⟩

/-- `siftup` then `siftdown` at the same position repairs a heap with one suspicious position. -/
theorem updown {lt : Nat → Nat → Bool} (o : Order lt) {q : Q} (hw : WF q) {n : Nat} (hn : n < q.size)
    (w : WeakOk lt q.size q.heap n) :
    let q1 := siftup lt q n
    (WF q1 ∧ q1.size = q.size ∧ ∀ k, (q1.idx k).isSome = (q.idx k).isSome) ∧
    (∀ j, (j = n ∨ q1.idx (q.heap n) = some j) → j < q.size →
      WF (siftdown lt q1 j) ∧ IsHeap lt (siftdown lt q1 j) ∧
      ∀ k, ((siftdown lt q1 j).idx k).isSome = (q.idx k).isSome) := by
  have e : ∀ k, ((q.idx k).isSome || decide (k = q.heap n)) = (q.idx k).isSome := by
    intro k
    by_cases hk : k = q.heap n
    · subst hk; simp [hw.fwd n hn]
    · simp [hk]
  obtain ⟨a, b, c⟩ := siftupLoop_wf lt (q.heap n) q n (hw.hole hn)
  have wk := siftupLoop_weak o (q.heap n) q n hn (by rw [upd_same]; exact w)
  simp only [siftup]
  refine ⟨⟨a, b, fun k => by rw [c, e]⟩, fun j hj hjs => ?_⟩
  have hj1 : j < (siftupLoop lt (q.heap n) q n).size := by omega
  obtain ⟨a', b', c'⟩ := siftdownLoop_wf lt ((siftupLoop lt (q.heap n) q n).heap j) _ j (a.hole hj1)
  refine ⟨a', ?_, fun k => ?_⟩
  · apply siftdownLoop_heap o _ _ _ hj1
    rw [upd_same]
    rcases wk with wk | ⟨wk, _, hix⟩
    · exact wk.downOk o j
    · have : j = n := by
        rcases hj with hj | hj
        · exact hj
        · rw [hix] at hj; simp at hj; exact hj.symm
      rw [this, b]; exact wk
  · rw [siftdown, c', c, e]
    by_cases hk : k = (siftupLoop lt (q.heap n) q n).heap j
    · subst hk
      have := a.fwd j hj1
      have h2 := c ((siftupLoop lt (q.heap n) q n).heap j)
      rw [this, e] at h2
      simp [← h2]
    · simp [hk]

theorem WF.isIn {q : Q} (h : WF q) (k : Nat) : q.isInQueue k = true ↔ ∃ i, i < q.size ∧ q.heap i = k := by
  unfold Q.isInQueue
  constructor
  · intro hk
    obtain ⟨i, hi⟩ := Option.isSome_iff_exists.mp hk
    exact ⟨i, h.bwd k i hi⟩
  · rintro ⟨i, hi, rfl⟩
    simp [h.fwd i hi]

theorem top_min {lt : Nat → Nat → Bool} (o : Order lt) {q : Q} (h : IsHeap lt q) :
    ∀ i, i < q.size → lt (q.heap i) (q.heap 0) = false := by
  intro i
  induction i using Nat.strongRecOn with
  | ind i ih =>
    intro hi
    by_cases h0 : i = 0
    · subst h0
      cases hh : lt (q.heap 0) (q.heap 0)
      · rfl
      · have := o.asymm _ _ hh; rw [hh] at this; simp at this
    · have hp : parent i < i := by unfold parent; omega
      exact o.negTrans _ _ _ (ih _ hp (by omega)) (h i (by omega) hi)

structure Inv (c : Conc) : Prop where
  ord : Order c.lt
  wf : WF c.q
  heap : IsHeap c.lt c.q

theorem push_ok {lt : Nat → Nat → Bool} (o : Order lt) {q : Q} (hw : WF q) (hh : IsHeap lt q) {k : Nat}
    (hk : q.idx k = none) :
    WF (push lt q k) ∧ IsHeap lt (push lt q k) ∧ ∀ j, ((push lt q k).idx j).isSome = ((q.idx j).isSome || decide (j = k)) := by
  have hole : HoleWF { size := q.size + 1, heap := upd q.heap q.size k, idx := upd q.idx k (some q.size) } q.size k :=
    { lt := by simp
      fwd := fun i hi hin => by
        simp only at *
        have hi' : i < q.size := by omega
        have : q.heap i ≠ k := fun he => by have := hw.fwd i hi'; rw [he, hk] at this; simp at this
        rw [upd_ne _ _ _ hin, upd_ne _ _ _ this]
        exact ⟨hw.fwd i hi', this⟩
      bwd := fun j i hj hi => by
        simp only at *
        rw [upd_ne _ _ _ hj] at hi
        obtain ⟨a, b⟩ := hw.bwd j i hi
        exact ⟨by omega, by omega, by rw [upd_ne _ _ _ (by omega)]; exact b⟩ }
  have he : upd q.heap q.size k q.size = k := upd_self _ _ _
  have hs : push lt q k = siftupLoop lt k { size := q.size + 1, heap := upd q.heap q.size k, idx := upd q.idx k (some q.size) } q.size := by
    simp [push, siftup, he]
  rw [hs]
  obtain ⟨a, b, c⟩ := siftupLoop_wf lt k _ _ hole
  refine ⟨a, ?_, fun j => ?_⟩
  · apply siftupLoop_heap o k _ _ (by simp)
    simp only
    constructor
    · intro i h0 hi hin
      have hp : parent i < i := by unfold parent; omega
      have e1 : ∀ j, j ≠ q.size → upd (upd q.heap q.size k) q.size k j = q.heap j := fun j hj => by
        rw [upd_ne _ _ _ hj, upd_ne _ _ _ hj]
      rw [e1 i hin, e1 _ (by omega)]
      exact hh i h0 (by omega)
    · intro d h0 hd hp _
      unfold parent at hp; omega
  · rw [c]
    simp only
    by_cases hj : j = k
    · subst hj; simp
    · rw [upd_ne _ _ _ hj]

theorem pop_ok {lt : Nat → Nat → Bool} (o : Order lt) {q : Q} (hw : WF q) (hh : IsHeap lt q) (hs : 0 < q.size) :
    WF (pop lt q) ∧ IsHeap lt (pop lt q) ∧
    ∀ j, ((pop lt q).idx j).isSome = ((q.idx j).isSome && !decide (j = q.heap 0)) := by
  -- the intermediate queue
  let q1 : Q := { size := q.size - 1, heap := upd q.heap 0 (q.heap (q.size - 1)),
                  idx := upd (upd q.idx (q.heap (q.size - 1)) (some 0)) (q.heap 0) none }
  have hpop : pop lt q = if q1.size > 1 then siftdown lt q1 0 else q1 := by
    simp only [pop, q1, upd_self]
  have inj : ∀ i j, i < q.size → j < q.size → q.heap i = q.heap j → i = j := by
    intro i j hi hj he
    have a := hw.fwd i hi; have b := hw.fwd j hj; rw [he, b] at a; simpa using a.symm
  have hw1 : WF q1 := by
    constructor
    · intro i hi
      simp only [q1] at *
      by_cases h0 : i = 0
      · subst h0
        rw [upd_self, upd_ne, upd_self]
        intro he; have := inj _ _ (by omega) hs he; omega
      · rw [upd_ne _ _ _ h0, upd_ne, upd_ne]
        · exact hw.fwd i (by omega)
        · intro he; have := inj _ _ (by omega) (by omega) he; omega
        · intro he; have := inj _ _ (by omega) (by omega) he; omega
    · intro k i hk
      simp only [q1] at *
      by_cases h1 : k = q.heap 0
      · rw [h1, upd_self] at hk; simp at hk
      · rw [upd_ne _ _ _ h1] at hk
        by_cases h2 : k = q.heap (q.size - 1)
        · rw [h2, upd_self] at hk; simp at hk; subst hk
          refine ⟨?_, by rw [upd_self, h2]⟩
          have : q.size ≠ 1 := fun h => h1 (by rw [h2, h])
          omega
        · rw [upd_ne _ _ _ h2] at hk
          obtain ⟨a, b⟩ := hw.bwd k i hk
          have : i ≠ 0 := fun h => h1 (by rw [← b, h])
          have : i ≠ q.size - 1 := fun h => h2 (by rw [← b, h])
          exact ⟨by omega, by rw [upd_ne _ _ _ (by omega)]; exact b⟩
  have hm1 : ∀ j, (q1.idx j).isSome = ((q.idx j).isSome && !decide (j = q.heap 0)) := by
    intro j
    simp only [q1]
    by_cases h1 : j = q.heap 0
    · rw [h1, upd_self]; simp
    · rw [upd_ne _ _ _ h1]
      by_cases h2 : j = q.heap (q.size - 1)
      · have := hw.fwd (q.size - 1) (by omega)
        rw [h2, upd_self, this]; simp; rw [← h2]; simpa using h1
      · rw [upd_ne _ _ _ h2]; simp [h1]
  rw [hpop]
  split
  · rename_i hgt
    obtain ⟨a, b, c⟩ := siftdownLoop_wf lt (q1.heap 0) q1 0 (hw1.hole (by omega))
    refine ⟨a, ?_, fun j => ?_⟩
    · apply siftdownLoop_heap o _ _ _ (by omega)
      rw [upd_same]
      refine ⟨fun i h0 hi hp => ?_, fun c _ _ _ h => absurd h (by omega)⟩
      simp only [q1] at *
      rw [upd_ne _ _ _ (by omega), upd_ne _ _ _ hp]
      exact hh i h0 (by omega)
    · rw [siftdown, c, hm1]
      by_cases hj : j = q1.heap 0
      · have h2 := hm1 j
        rw [hj, hw1.fwd 0 (by omega)] at h2
        subst hj
        simp at h2 ⊢; exact h2
      · simp [hj]
  · refine ⟨hw1, fun i h0 hi => by omega, hm1⟩

theorem weak_of_only {lt lt' : Nat → Nat → Bool} (o : Order lt) {q : Q} (hw : WF q) (hh : IsHeap lt q) {k n : Nat}
    (hn : n < q.size) (hk : q.heap n = k) (ho : OnlyKey k lt lt') : WeakOk lt' q.size q.heap n := by
  have ne : ∀ i, i < q.size → i ≠ n → q.heap i ≠ k := fun i hi hin he => by
    have a := hw.fwd i hi; have b := hw.fwd n hn; rw [hk] at b; rw [he, b] at a; simp at a; omega
  constructor
  · intro i h0 hi hin hpn
    have hp : parent i < i := by unfold parent; omega
    rw [ho _ _ (ne i hi hin) (ne _ (by omega) hpn)]
    exact hh i h0 hi
  · intro c h0 hc hp hn0
    have hpn : parent n < n := by unfold parent; omega
    have hcn : parent c < c := by unfold parent; omega
    rw [ho _ _ (ne c hc (by omega)) (ne _ (by omega) (by omega))]
    have a := hh c h0 hc
    have b := hh n hn0 hn
    rw [hp] at a
    exact o.negTrans _ _ _ b a

theorem remove_ok {lt : Nat → Nat → Bool} (o : Order lt) {q : Q} (hw : WF q) (hh : IsHeap lt q) (k : Nat) :
    WF (remove lt q k) ∧ IsHeap lt (remove lt q k) ∧
    ∀ j, ((remove lt q k).idx j).isSome = ((q.idx j).isSome && !decide (j = k)) := by
  unfold remove
  cases hk : q.idx k with
  | none =>
    refine ⟨hw, hh, fun j => ?_⟩
    by_cases hj : j = k
    · subst hj; simp [hk]
    · simp [hj]
  | some n =>
    obtain ⟨hn, hnk⟩ := hw.bwd k n hk
    simp only
    have inj : ∀ i j, i < q.size → j < q.size → q.heap i = q.heap j → i = j := by
      intro i j hi hj he
      have a := hw.fwd i hi; have b := hw.fwd j hj; rw [he, b] at a; simpa using a.symm
    obtain ⟨q1, hq1⟩ : ∃ q1 : Q, Q.mk (q.size - 1) (upd q.heap n (q.heap (q.size - 1)))
        (upd (upd q.idx (q.heap (q.size - 1)) (some n)) k none) = q1 := ⟨_, rfl⟩
    have e1 : q1.size = q.size - 1 := by rw [← hq1]
    have e2 : q1.heap = upd q.heap n (q.heap (q.size - 1)) := by rw [← hq1]
    have e3 : q1.idx = upd (upd q.idx (q.heap (q.size - 1)) (some n)) k none := by rw [← hq1]
    have hw1 : WF q1 := by
      constructor
      · intro i hi
        rw [e1] at hi; rw [e2, e3]
        by_cases h0 : i = n
        · subst h0
          rw [upd_self, upd_ne, upd_self]
          intro he; have := inj _ _ (by omega) hn (he.trans hnk.symm); omega
        · rw [upd_ne _ _ _ h0, upd_ne, upd_ne]
          · exact hw.fwd i (by omega)
          · intro he; have := inj _ _ (by omega) (by omega) he; omega
          · intro he; have := inj _ _ (by omega) hn (he.trans hnk.symm); omega
      · intro j i hj
        rw [e3] at hj; rw [e1, e2]
        by_cases h1 : j = k
        · rw [h1, upd_self] at hj; simp at hj
        · rw [upd_ne _ _ _ h1] at hj
          by_cases h2 : j = q.heap (q.size - 1)
          · rw [h2, upd_self] at hj; simp at hj; subst hj
            refine ⟨?_, by rw [upd_self, h2]⟩
            have : n ≠ q.size - 1 := fun h => h1 (by rw [h2, ← h, hnk])
            omega
          · rw [upd_ne _ _ _ h2] at hj
            obtain ⟨a, b⟩ := hw.bwd j i hj
            have : i ≠ n := fun h => h1 (by rw [← b, h, hnk])
            have : i ≠ q.size - 1 := fun h => h2 (by rw [← b, h])
            exact ⟨by omega, by rw [upd_ne _ _ _ (by omega)]; exact b⟩
    have hm1 : ∀ j, (q1.idx j).isSome = ((q.idx j).isSome && !decide (j = k)) := by
      intro j
      rw [e3]
      by_cases h1 : j = k
      · rw [h1, upd_self]; simp
      · rw [upd_ne _ _ _ h1]
        by_cases h2 : j = q.heap (q.size - 1)
        · have := hw.fwd (q.size - 1) (by omega)
          rw [h2, upd_self, this]; simp; rw [← h2]; exact h1
        · rw [upd_ne _ _ _ h2]; simp [h1]
    by_cases hc : q.size - 1 > 1 ∧ n ≠ q.size - 1
    · simp only [if_pos hc, hq1]
      have wk : WeakOk lt q1.size q1.heap n := by
        rw [e1, e2]
        constructor
        · intro i h0 hi hin hpn
          rw [upd_ne _ _ _ hin, upd_ne _ _ _ hpn]
          exact hh i h0 (by omega)
        · intro c h0 hcs hp hn0
          have hcn : parent c < c := by unfold parent; omega
          have hpn : parent n < n := by unfold parent; omega
          rw [upd_ne _ _ _ (by omega), upd_ne _ _ _ (by omega)]
          have a := hh c h0 (by omega)
          have b := hh n hn0 (by omega)
          rw [hp] at a
          exact o.negTrans _ _ _ b a
      obtain ⟨_, ud⟩ := updown o hw1 (n := n) (by omega) wk
      obtain ⟨a, b, c⟩ := ud n (Or.inl rfl) (by omega)
      exact ⟨a, b, fun j => by rw [c, hm1]⟩
    · simp only [if_neg hc, hq1]
      refine ⟨hw1, fun i h0 hi => ?_, hm1⟩
      have hnl : n = q1.size := by omega
      have hp : parent i < i := by unfold parent; omega
      rw [e2, upd_ne _ _ _ (by omega), upd_ne _ _ _ (by omega)]
      exact hh i h0 (by omega)

/-! ### Property theorems -/

/-- One operation, called within its precondition, keeps the invariant and is a step of the abstract queue. -/
theorem C05_step (c : Conc) (hc : Inv c) (op : Op) (hp : c.abs.Pre op) :
    Inv (c.exec op) ∧ c.abs.Step op (c.exec op).abs := by
  obtain ⟨o, hw, hh⟩ := hc
  cases op with
  | push k =>
    have hk : c.q.idx k = none := by simpa [Conc.abs, Abs.Pre, Q.isInQueue] using hp
    obtain ⟨a, b, e⟩ := push_ok o hw hh hk
    refine ⟨⟨o, a, b⟩, ?_⟩
    have : (c.exec (.push k)).abs = ⟨fun j => c.abs.keys j ∨ j = k, c.abs.lt⟩ := by
      simp only [Conc.abs, Conc.exec, Q.isInQueue, e, Bool.or_eq_true, decide_eq_true_eq]
    rw [this]; exact .push _ _ hp
  | pop =>
    obtain ⟨k, hk⟩ := hp
    obtain ⟨i, hi, hik⟩ := (hw.isIn k).mp hk
    have hs : 0 < c.q.size := by omega
    obtain ⟨a, b, e⟩ := pop_ok o hw hh hs
    refine ⟨⟨o, a, b⟩, ?_⟩
    have : (c.exec .pop).abs = ⟨fun j => c.abs.keys j ∧ j ≠ c.q.heap 0, c.abs.lt⟩ := by
      simp [Conc.abs, Conc.exec, Q.isInQueue, e]
    rw [this]
    refine .pop _ _ ((hw.isIn _).mpr ⟨0, hs, rfl⟩) (fun j hj => ?_)
    obtain ⟨i, hi, rfl⟩ := (hw.isIn j).mp hj
    exact top_min o hh i hi
  | remove k =>
    obtain ⟨a, b, e⟩ := remove_ok o hw hh k
    refine ⟨⟨o, a, b⟩, ?_⟩
    have : (c.exec (.remove k)).abs = ⟨fun j => c.abs.keys j ∧ j ≠ k, c.abs.lt⟩ := by
      simp [Conc.abs, Conc.exec, Q.isInQueue, e]
    rw [this]; exact .remove _ _
  | update k lt' =>
    obtain ⟨o', ok⟩ := hp
    have key : WF (update lt' c.q k) ∧ IsHeap lt' (update lt' c.q k) ∧
        ∀ j, ((update lt' c.q k).idx j).isSome = ((c.q.idx j).isSome || decide (j = k)) := by
      unfold update
      cases hk : c.q.idx k with
      | none =>
        have hh' : IsHeap lt' c.q := by
          intro i h0 hi
          have hp : parent i < i := by unfold parent; omega
          have ne : ∀ i, i < c.q.size → c.q.heap i ≠ k := fun i hi he => by
            have := hw.fwd i hi; rw [he, hk] at this; simp at this
          rw [ok _ _ (ne i hi) (ne _ (by omega))]
          exact hh i h0 hi
        exact push_ok o' hw hh' hk
      | some n =>
        obtain ⟨hn, hnk⟩ := hw.bwd k n hk
        obtain ⟨⟨a, b, e⟩, ud⟩ := updown o' hw hn (weak_of_only o hw hh hn hnk ok)
        simp only
        have h1 := e k
        rw [hk] at h1
        obtain ⟨j, hj⟩ := Option.isSome_iff_exists.mp (h1.trans (by rfl))
        rw [hj]
        have hjs := (a.bwd k j hj).1
        obtain ⟨a', b', e'⟩ := ud j (Or.inr (by rw [hnk]; exact hj)) (by omega)
        refine ⟨a', b', fun i => ?_⟩
        rw [e']
        by_cases hik : i = k
        · subst hik; simp [hk]
        · simp [hik]
    obtain ⟨a, b, e⟩ := key
    refine ⟨⟨o', a, b⟩, ?_⟩
    have : (c.exec (.update k lt')).abs = ⟨fun j => c.abs.keys j ∨ j = k, lt'⟩ := by
      simp [Conc.abs, Conc.exec, Q.isInQueue, e]
    rw [this]; exact .update _ _ _ o' ok
  | increase k lt' =>
    obtain ⟨o', ok, inc, hk⟩ := hp
    obtain ⟨n, hn'⟩ := Option.isSome_iff_exists.mp (show (c.q.idx k).isSome = true from hk)
    obtain ⟨hn, hnk⟩ := hw.bwd k n hn'
    have wk := weak_of_only o hw hh hn hnk ok
    have up : UpOk lt' c.q.size c.q.heap n := by
      refine ⟨fun i h0 hi hin => ?_, wk.2⟩
      by_cases hp : parent i = n
      · cases hl : lt' (c.q.heap i) (c.q.heap (parent i))
        · rfl
        · have := inc (c.q.heap i) (by rw [hp, hnk] at hl; exact hl)
          have h2 : c.abs.lt _ _ = false := hh i h0 hi
          rw [hp, hnk, this] at h2; simp at h2
      · exact wk.1 i h0 hi hin hp
    obtain ⟨a, b, e⟩ := siftupLoop_wf lt' (c.q.heap n) c.q n (hw.hole hn)
    have hp := siftupLoop_heap o' (c.q.heap n) c.q n hn (by rw [upd_same]; exact up)
    have hx : c.exec (.increase k lt') = ⟨siftupLoop lt' (c.q.heap n) c.q n, lt'⟩ := by
      simp [Conc.exec, increase, hn', siftup]
    rw [hx]
    refine ⟨⟨o', a, hp⟩, ?_⟩
    have : (Conc.mk (siftupLoop lt' (c.q.heap n) c.q n) lt').abs = ⟨c.abs.keys, lt'⟩ := by
      simp only [Conc.abs, Q.isInQueue, e, Abs.mk.injEq, and_true]
      funext j
      rw [hnk]
      by_cases hj : j = k
      · subst hj; simp [hn']
      · simp [hj]
    rw [this]; exact .increase _ _ _ o' ok inc hk
  | decrease k lt' =>
    obtain ⟨o', ok, dec, hk⟩ := hp
    obtain ⟨n, hn'⟩ := Option.isSome_iff_exists.mp (show (c.q.idx k).isSome = true from hk)
    obtain ⟨hn, hnk⟩ := hw.bwd k n hn'
    have wk := weak_of_only o hw hh hn hnk ok
    have dn : DownOk lt' c.q.size c.q.heap n := by
      refine ⟨fun i h0 hi hp => ?_, wk.2⟩
      by_cases hin : i = n
      · cases hl : lt' (c.q.heap i) (c.q.heap (parent i))
        · rfl
        · have := dec (c.q.heap (parent i)) (by rw [hin, hnk] at hl; rw [hin]; exact hl)
          have h2 : c.abs.lt _ _ = false := hh i h0 hi
          rw [hin, hnk] at h2; rw [hin] at this; rw [this] at h2; simp at h2
      · exact wk.1 i h0 hi hin hp
    obtain ⟨a, b, e⟩ := siftdownLoop_wf lt' (c.q.heap n) c.q n (hw.hole hn)
    have hp := siftdownLoop_heap o' (c.q.heap n) c.q n hn (by rw [upd_same]; exact dn)
    have hx : c.exec (.decrease k lt') = ⟨siftdownLoop lt' (c.q.heap n) c.q n, lt'⟩ := by
      simp [Conc.exec, decrease, hn', siftdown]
    rw [hx]
    refine ⟨⟨o', a, hp⟩, ?_⟩
    have : (Conc.mk (siftdownLoop lt' (c.q.heap n) c.q n) lt').abs = ⟨c.abs.keys, lt'⟩ := by
      simp only [Conc.abs, Q.isInQueue, e, Abs.mk.injEq, and_true]
      funext j
      rw [hnk]
      by_cases hj : j = k
      · subst hj; simp [hn']
      · simp [hj]
    rw [this]; exact .decrease _ _ _ o' ok dec hk
  | rescale lt' =>
    obtain ⟨o', hs⟩ := hp
    refine ⟨⟨o', hw, fun i h0 hi => ?_⟩, .rescale _ _ o' hs⟩
    cases hl : lt' (c.q.heap i) (c.q.heap (parent i))
    · exact hl
    · have := hs _ _ hl
      rw [show c.abs.lt = c.lt from rfl, hh i h0 hi] at this; simp at this
  | clear =>
    refine ⟨⟨o, ⟨fun i hi => ?_, fun k i hk => ?_⟩, fun i _ hi => ?_⟩, ?_⟩
    · simp [Conc.exec, clear, init] at hi
    · simp [Conc.exec, clear, init] at hk
    · simp [Conc.exec, clear, init] at hi
    · have : (c.exec .clear).abs = ⟨fun _ => False, c.abs.lt⟩ := by
        simp [Conc.abs, Conc.exec, clear, init, Q.isInQueue]
      rw [this]; exact .clear _

/-- The states reachable from an empty queue by calling operations within their preconditions. -/
inductive Reachable (lt0 : Nat → Nat → Bool) : Conc → List Op → Prop
  | init : Reachable lt0 ⟨init, lt0⟩ []
  | step {c ops} (op : Op) : Reachable lt0 c ops → c.abs.Pre op → Reachable lt0 (c.exec op) (op :: ops)

/-- The abstract runs. -/
inductive AbsRun (lt0 : Nat → Nat → Bool) : Abs → List Op → Prop
  | init : AbsRun lt0 ⟨fun _ => False, lt0⟩ []
  | step {s ops s'} (op : Op) : AbsRun lt0 s ops → s.Step op s' → AbsRun lt0 s' (op :: ops)

/-- C05: after every sequence of operations the concrete queue is in an abstract state the abstract priority queue
can reach by the same operations (so membership queries answer according to the operations and each `pop` removed a
minimal key); if the queue is not empty, `top` is queued and minimal; `empty` holds iff no key is queued. -/
theorem C05_priority_queue (lt0 : Nat → Nat → Bool) (h0 : Order lt0) (c : Conc) (ops : List Op)
    (hr : Reachable lt0 c ops) :
    AbsRun lt0 c.abs ops ∧
    (c.q.empty = false → c.q.isInQueue c.q.top = true ∧ ∀ k, c.q.isInQueue k = true → c.lt k c.q.top = false) ∧
    (c.q.empty = true ↔ ∀ k, c.q.isInQueue k = false) := by
  have hI : Inv c ∧ AbsRun lt0 c.abs ops := by
    induction hr with
    | init =>
      refine ⟨⟨h0, ⟨fun i hi => by simp [init] at hi, fun k i hk => by simp [init] at hk⟩,
        fun i _ hi => by simp [init] at hi⟩, ?_⟩
      have : (Conc.mk init lt0).abs = ⟨fun _ => False, lt0⟩ := by simp [Conc.abs, init, Q.isInQueue]
      rw [this]; exact .init
    | step op _ hp ih =>
      obtain ⟨a, b⟩ := C05_step _ ih.1 op hp
      exact ⟨a, .step op ih.2 b⟩
  obtain ⟨⟨o, hw, hh⟩, hrun⟩ := hI
  refine ⟨hrun, fun he => ?_, ?_⟩
  · have hs : 0 < c.q.size := by
      have h' : ¬ c.q.size = 0 := by simpa [Q.empty] using he
      omega
    refine ⟨(hw.isIn _).mpr ⟨0, hs, rfl⟩, fun k hk => ?_⟩
    obtain ⟨i, hi, rfl⟩ := (hw.isIn k).mp hk
    exact top_min o hh i hi
  · constructor
    · intro he k
      have hs : c.q.size = 0 := by simpa [Q.empty] using he
      cases hk : c.q.isInQueue k
      · rfl
      · obtain ⟨i, hi, _⟩ := (hw.isIn k).mp hk; omega
    · intro hall
      cases he : c.q.empty
      · have hs : ¬ c.q.size = 0 := by simpa [Q.empty] using he
        have := hall (c.q.heap 0)
        rw [(hw.isIn _).mpr ⟨0, by omega, rfl⟩] at this; simp at this
      · rfl

/-- the comparison "larger number first" -/
def gtOrder : Nat → Nat → Bool := fun a b => decide (b < a)
theorem gtOrder_ok : Order gtOrder := ⟨by simp [gtOrder]; omega, by simp [gtOrder]; omega, by simp [gtOrder]; omega⟩

/-- A concrete run: push 3, 7, 5 then pop; the top moves from 7 to 5 and 3 stays queued. -/
example : ∃ c, Reachable gtOrder c [.pop, .push 5, .push 7, .push 3] ∧ c.q.top = 5 ∧ c.q.isInQueue 3 = true ∧
    c.q.isInQueue 7 = false := by
  refine ⟨((((Conc.mk init gtOrder).exec (.push 3)).exec (.push 7)).exec (.push 5)).exec .pop, ?_, ?_, ?_, ?_⟩
  · refine .step _ (.step _ (.step _ (.step _ .init ?_) ?_) ?_) ?_
    · simp [Abs.Pre, Conc.abs, init, Q.isInQueue]
    · simp [Abs.Pre, Conc.abs, Conc.exec, init, Q.isInQueue, push, siftup, siftupLoop, upd]
    · simp [Abs.Pre, Conc.abs, Conc.exec, init, Q.isInQueue, push, siftup, siftupLoop, upd, gtOrder, parent]
    · refine ⟨3, ?_⟩
      simp [Conc.abs, Conc.exec, init, Q.isInQueue, push, siftup, siftupLoop, upd, gtOrder, parent]
  all_goals
    simp [Q.top, Conc.exec, init, Q.isInQueue, push, pop, siftup, siftupLoop, siftdown, siftdownLoop, smallerChild,
      left, right, upd, gtOrder, parent]

end Clasp.Heap
