/-
Model of `bk_lib::indexed_priority_queue` (clasp/util/indexed_priority_queue.h).

Simplification: the two `pod_vector`s are functions; `heap i` is meaningful for `i < size` only, and
`idx k = none` stands both for `k >= indices_.size()` and for `indices_[k] == noKey` (the only two ways the code
tests them, line 142). The comparison object is a parameter `lt` of every operation because the priorities it
looks up change between calls.
-/
namespace Clasp.Heap

/-- Point update of a function (an array store). -/
def upd {α : Type} (f : Nat → α) (i : Nat) (v : α) : Nat → α := fun j => if j = i then v else f j

/-- indexed_priority_queue.h:164-165 `indices_`, `heap_`. -/
structure Q where
  size : Nat
  heap : Nat → Nat
  idx  : Nat → Option Nat

/-- Constructor, indexed_priority_queue.h:205-210. -/
def init : Q := { size := 0, heap := fun _ => 0, idx := fun _ => none }

/-- indexed_priority_queue.h:42 `heap_parent` -/
def parent (i : Nat) : Nat := (i - 1) / 2
/-- indexed_priority_queue.h:40 `heap_left` -/
def left (i : Nat) : Nat := 2 * i + 1
/-- indexed_priority_queue.h:41 `heap_right` -/
def right (i : Nat) : Nat := (i + 1) * 2

/-- indexed_priority_queue.h:140-143 `is_in_queue` -/
def Q.isInQueue (q : Q) (k : Nat) : Bool := (q.idx k).isSome
/-- indexed_priority_queue.h:115-118 `top` (precondition: not empty) -/
def Q.top (q : Q) : Nat := q.heap 0
/-- indexed_priority_queue.h:71-73 `empty` -/
def Q.empty (q : Q) : Bool := q.size == 0

/-- indexed_priority_queue.h:171-178: the loop of `siftup`, `x` is the key being moved, `n` the hole. -/
def siftupLoop (lt : Nat → Nat → Bool) (x : Nat) (q : Q) (n : Nat) : Q :=
  if _h : n ≠ 0 ∧ lt x (q.heap (parent n)) = true then
    siftupLoop lt x { q with heap := upd q.heap n (q.heap (parent n)),
                             idx := upd q.idx (q.heap (parent n)) (some n) } (parent n)
  else { q with heap := upd q.heap n x, idx := upd q.idx x (some n) }
termination_by n
decreasing_by unfold parent; omega

/-- indexed_priority_queue.h:167-179 `siftup` -/
def siftup (lt : Nat → Nat → Bool) (q : Q) (n : Nat) : Q := siftupLoop lt (q.heap n) q n

/-- indexed_priority_queue.h:197-202 `smaller_child` -/
def smallerChild (lt : Nat → Nat → Bool) (q : Q) (n : Nat) : Nat :=
  if right n < q.size ∧ lt (q.heap (right n)) (q.heap (left n)) = true then right n else left n

/-- indexed_priority_queue.h:184-194: the loop of `siftdown`. -/
def siftdownLoop (lt : Nat → Nat → Bool) (x : Nat) (q : Q) (n : Nat) : Q :=
  if _h : left n < q.size ∧ lt (q.heap (smallerChild lt q n)) x = true then
    siftdownLoop lt x { q with heap := upd q.heap n (q.heap (smallerChild lt q n)),
                               idx := upd q.idx (q.heap (smallerChild lt q n)) (some n) } (smallerChild lt q n)
  else { q with heap := upd q.heap n x, idx := upd q.idx x (some n) }
termination_by q.size - n
decreasing_by
  have : smallerChild lt q n > n ∧ smallerChild lt q n < q.size := by
    unfold smallerChild left right at *; split <;> omega
  omega

/-- indexed_priority_queue.h:181-195 `siftdown` -/
def siftdown (lt : Nat → Nat → Bool) (q : Q) (n : Nat) : Q := siftdownLoop lt (q.heap n) q n

/-- indexed_priority_queue.h:78-87 `push` (precondition: not in queue) -/
def push (lt : Nat → Nat → Bool) (q : Q) (k : Nat) : Q :=
  let q := { size := q.size + 1, heap := upd q.heap q.size k, idx := upd q.idx k (some q.size) }
  siftup lt q (q.size - 1)

/-- indexed_priority_queue.h:89-97 `pop` (precondition: not empty) -/
def pop (lt : Nat → Nat → Bool) (q : Q) : Q :=
  let x := q.heap 0
  let heap := upd q.heap 0 (q.heap (q.size - 1))
  let idx := upd (upd q.idx (heap 0) (some 0)) x none
  let q := { size := q.size - 1, heap := heap, idx := idx }
  if q.size > 1 then siftdown lt q 0 else q

/-- indexed_priority_queue.h:120-128 `update` -/
def update (lt : Nat → Nat → Bool) (q : Q) (k : Nat) : Q :=
  match q.idx k with
  | none => push lt q k
  | some i =>
    let q := siftup lt q i
    match q.idx k with
    | some j => siftdown lt q j
    | none => q -- not reachable: siftup stores an index for k

/-- indexed_priority_queue.h:130-133 `increase` (precondition: in queue) -/
def increase (lt : Nat → Nat → Bool) (q : Q) (k : Nat) : Q :=
  match q.idx k with | some i => siftup lt q i | none => q
/-- indexed_priority_queue.h:135-138 `decrease` (precondition: in queue) -/
def decrease (lt : Nat → Nat → Bool) (q : Q) (k : Nat) : Q :=
  match q.idx k with | some i => siftdown lt q i | none => q

/-- indexed_priority_queue.h:145-157 `remove` -/
def remove (lt : Nat → Nat → Bool) (q : Q) (k : Nat) : Q :=
  match q.idx k with
  | none => q
  | some i =>
    let last := q.heap (q.size - 1)
    let q := { size := q.size - 1, heap := upd q.heap i last, idx := upd (upd q.idx last (some i)) k none }
    if q.size > 1 ∧ i ≠ q.size then siftdown lt (siftup lt q i) i else q

/-- indexed_priority_queue.h:99-102 `clear` -/
def clear (_q : Q) : Q := init

end Clasp.Heap
