import Mathlib.Order.Defs.LinearOrder
/-!
# The priority queue of the VSIDS heuristic

Models `bk_lib::indexed_priority_queue` (clasp/util/indexed_priority_queue.h:36-207).  `none` is an access outside of an array or to an empty queue.  The comparison is
`score(k1) > score(k2)` (clasp/heuristics.h:287-293) for a score with a linear order.
-/

namespace Clasp.Heu

/-- clasp/util/indexed_priority_queue.h:164-165: the heap and the position of each key in it (`noKey` is `none`). -/
structure Pq where
  heap : List Nat
  idx : List (Option Nat)
  deriving DecidableEq, Repr

variable {α : Type} [LinearOrder α]

/-- clasp/util/indexed_priority_queue.h:140-143 `is_in_queue`. -/
def Pq.has (q : Pq) (k : Nat) : Bool := (q.idx[k]?.getD none).isSome

/-- clasp/util/indexed_priority_queue.h:172-173, 177-178, 189-190, 193-194: `heap_[n] = y; indices_[y] = n`. -/
def Pq.put (q : Pq) (n y : Nat) : Option Pq :=
  if n < q.heap.length ∧ y < q.idx.length then some ⟨q.heap.set n y, q.idx.set y (some n)⟩ else none

/-- clasp/util/indexed_priority_queue.h:171-176: the loop of `siftup`; the first argument bounds the number of iterations. -/
def upLoop (sc : Nat → α) (x : Nat) : Nat → Pq → Nat → Option (Pq × Nat)
  | 0, _, _ => none
  | f + 1, q, n =>
    if n = 0 then some (q, n) else
      match q.heap[(n - 1) / 2]? with
      | none => none
      | some y =>
        if sc y < sc x then
          match q.put n y with
          | none => none
          | some q' => upLoop sc x f q' ((n - 1) / 2)
        else some (q, n)

/-- clasp/util/indexed_priority_queue.h:167-179 `siftup`. -/
def Pq.siftup (sc : Nat → α) (q : Pq) (n : Nat) : Option Pq :=
  match q.heap[n]? with
  | none => none
  | some x =>
    match upLoop sc x (n + 1) q n with
    | none => none
    | some (q', m) => q'.put m x

/-- clasp/util/indexed_priority_queue.h:197-202 `smaller_child`. -/
def Pq.child (sc : Nat → α) (q : Pq) (n : Nat) : Option Nat :=
  match q.heap[2 * n + 1]?, q.heap[2 * n + 2]? with
  | some l, some r => some (if sc l < sc r then 2 * n + 2 else 2 * n + 1)
  | some _, none => some (2 * n + 1)
  | none, _ => none

/-- clasp/util/indexed_priority_queue.h:184-192: the loop of `siftdown`; the first argument bounds the number of iterations. -/
def downLoop (sc : Nat → α) (x : Nat) : Nat → Pq → Nat → Option (Pq × Nat)
  | 0, _, _ => none
  | f + 1, q, n =>
    if 2 * n + 1 < q.heap.length then
      match q.child sc n with
      | none => none
      | some c =>
        match q.heap[c]? with
        | none => none
        | some y =>
          if sc x < sc y then
            match q.put n y with
            | none => none
            | some q' => downLoop sc x f q' c
          else some (q, n)
    else some (q, n)

/-- clasp/util/indexed_priority_queue.h:181-195 `siftdown`. -/
def Pq.siftdown (sc : Nat → α) (q : Pq) (n : Nat) : Option Pq :=
  match q.heap[n]? with
  | none => none
  | some x =>
    match downLoop sc x (q.heap.length + 1) q n with
    | none => none
    | some (q', m) => q'.put m x

/-- clasp/util/indexed_priority_queue.h:78-87 `push`; the key must not be in the queue. -/
def Pq.push (sc : Nat → α) (q : Pq) (k : Nat) : Option Pq :=
  if q.has k then none else
    let ix := if q.idx.length ≤ k then q.idx ++ List.replicate (k + 1 - q.idx.length) none else q.idx
    (Pq.mk (q.heap ++ [k]) (ix.set k (some q.heap.length))).siftup sc q.heap.length

/-- clasp/util/indexed_priority_queue.h:89-97 `pop`. -/
def Pq.pop (sc : Nat → α) (q : Pq) : Option Pq :=
  match q.heap[0]?, q.heap.getLast? with
  | some x, some l =>
    let h := (q.heap.set 0 l).dropLast
    let q' : Pq := ⟨h, (q.idx.set l (some 0)).set x none⟩
    if 1 < h.length then q'.siftdown sc 0 else some q'
  | _, _ => none

/-- clasp/util/indexed_priority_queue.h:99-102 `clear`. -/
def Pq.clear : Pq := ⟨[], []⟩

/-- clasp/util/indexed_priority_queue.h:115-118 `top`. -/
def Pq.top (q : Pq) : Option Nat := q.heap[0]?

/-- clasp/util/indexed_priority_queue.h:130-133 `increase`. -/
def Pq.increase (sc : Nat → α) (q : Pq) (k : Nat) : Option Pq :=
  match q.idx[k]? with
  | some (some i) => q.siftup sc i
  | _ => none

/-- clasp/util/indexed_priority_queue.h:135-138 `decrease`. -/
def Pq.decrease (sc : Nat → α) (q : Pq) (k : Nat) : Option Pq :=
  match q.idx[k]? with
  | some (some i) => q.siftdown sc i
  | _ => none

/-- clasp/util/indexed_priority_queue.h:120-128 `update`. -/
def Pq.update (sc : Nat → α) (q : Pq) (k : Nat) : Option Pq :=
  if q.has k then
    match q.increase sc k with
    | none => none
    | some q' => q'.decrease sc k
  else q.push sc k

/-- clasp/util/indexed_priority_queue.h:145-158 `remove`. -/
def Pq.remove (sc : Nat → α) (q : Pq) (k : Nat) : Option Pq :=
  if q.has k then
    match q.idx[k]?, q.heap.getLast? with
    | some (some i), some l =>
      let h := (q.heap.set i l).dropLast
      let q' : Pq := ⟨h, (q.idx.set l (some i)).set k none⟩
      if 1 < h.length ∧ i ≠ h.length then
        match q'.siftup sc i with
        | none => none
        | some q2 => q2.siftdown sc i
      else some q'
    | _, _ => none
  else some q

end Clasp.Heu
