/-
C06. Model of `bk_lib::left_right_sequence` (clasp/util/left_right_sequence.h), at the level of bytes.

A buffer is a function from addresses to bytes (`β`); only addresses `< cap` belong to it. Elements of the left
sequence occupy `szL` bytes, elements of the right one `szR` bytes; `bs` is `block_size` (line 154), `ic` is
`inline_raw_cap` (lines 201, 210, 233), the size of the buffer inside the object.
Simplifications: allocation succeeds and sizes stay below 2^31 (`cap_` is a 31-bit field, line 170); the pointer
`buf_` and the ownership bit `free_` are represented by `inl` (does `buf_` point to the inline buffer?).
-/
namespace Clasp.LR

/-- Element sizes, block size, inline capacity; left_right_sequence.h:57-64, 154, 201-216, 220-239. -/
structure Cfg where
  szL : Nat
  szR : Nat
  bs  : Nat
  ic  : Nat
  posL : 0 < szL
  posR : 0 < szR
  hL : szL ≤ bs       -- block_size is sizeof(max_type) rounded up to a multiple of the alignment
  hR : szR ≤ bs
  hic : ic % bs = 0   -- inline_raw_cap is a multiple of block_size (line 233)

/-- left_right_sequence.h:169-173 -/
structure Seq (β : Type) where
  buf   : Nat → β
  cap   : Nat
  left  : Nat
  right : Nat
  inl   : Bool

variable {β : Type} (c : Cfg)

/-- left_right_sequence.h:271-277 constructor; the inline buffer has arbitrary content -/
def init (junk : Nat → β) : Seq β := { buf := junk, cap := c.ic, left := 0, right := c.ic, inl := true }

/-- `std::memcpy(dst, src, n)` / `memmove` between a source buffer and a destination buffer -/
def memcpy (dst : Nat → β) (d : Nat) (src : Nat → β) (s n : Nat) : Nat → β :=
  fun a => if d ≤ a ∧ a < d + n then src (a - d + s) else dst a

/-- store of one element of `n` bytes -/
def store (dst : Nat → β) (d n : Nat) (x : Fin n → β) : Nat → β :=
  fun a => if h : d ≤ a ∧ a < d + n then x ⟨a - d, by omega⟩ else dst a

/-- left_right_sequence.h:69 -/
def Seq.leftSize (q : Seq β) : Nat := q.left / c.szL
/-- left_right_sequence.h:70 -/
def Seq.rightSize (q : Seq β) : Nat := (q.cap - q.right) / c.szR
/-- left_right_sequence.h:68 -/
def Seq.empty (q : Seq β) : Bool := q.left == 0 && q.right == q.cap
/-- left_right_sequence.h:166 -/
def Seq.rawSize (q : Seq β) : Nat := q.left + (q.cap - q.right)

/-- left_right_sequence.h:176-195 `realloc`; `junk` is the content of the freshly allocated memory -/
def Seq.realloc (q : Seq β) (junk : Nat → β) : Seq β :=
  let newCap0 := (q.cap / c.bs * 3 / 2) * c.bs
  let minCap := 4 * c.bs
  let newCap := if newCap0 < minCap then minCap else newCap0
  let r := q.cap - q.right
  let temp := if q.empty then junk else
    memcpy (memcpy junk 0 q.buf 0 (q.leftSize c * c.szL)) (newCap - r) q.buf q.right (q.rightSize c * c.szR)
  { buf := temp, cap := newCap, left := q.left, right := newCap - r, inl := false }

/-- left_right_sequence.h:95-101 `push_left` -/
def Seq.pushLeft (q : Seq β) (junk : Nat → β) (x : Fin c.szL → β) : Seq β :=
  let q := if q.left + c.szL > q.right then q.realloc c junk else q
  { q with buf := store q.buf q.left c.szL x, left := q.left + c.szL }

/-- left_right_sequence.h:103-109 `push_right` -/
def Seq.pushRight (q : Seq β) (junk : Nat → β) (x : Fin c.szR → β) : Seq β :=
  let q := if q.left + c.szR > q.right then q.realloc c junk else q
  { q with right := q.right - c.szR, buf := store q.buf (q.right - c.szR) c.szR x }

/-- left_right_sequence.h:110-113 -/
def Seq.popLeft (q : Seq β) : Seq β := { q with left := q.left - c.szL }
/-- left_right_sequence.h:114-117 -/
def Seq.popRight (q : Seq β) : Seq β := { q with right := q.right + c.szR }

/-- left_right_sequence.h:119-125 `erase_left`; the iterator is given by its index `i` -/
def Seq.eraseLeft (q : Seq β) (i : Nat) : Seq β :=
  if i * c.szL ≠ q.left then
    { q with buf := memcpy q.buf (i * c.szL) q.buf ((i + 1) * c.szL) (q.left - (i + 1) * c.szL),
             left := q.left - c.szL }
  else q

/-- left_right_sequence.h:126-131 `erase_left_unordered` -/
def Seq.eraseLeftUnordered (q : Seq β) (i : Nat) : Seq β :=
  if i * c.szL ≠ q.left then
    let l := q.left - c.szL
    { q with left := l, buf := memcpy q.buf (i * c.szL) q.buf l c.szL }
  else q

/-- left_right_sequence.h:132-140 `erase_right`; right element `i` starts at `cap - (i+1)*szR` -/
def Seq.eraseRight (q : Seq β) (i : Nat) : Seq β :=
  if q.cap - i * c.szR ≠ q.right then
    let r := q.cap - (i + 1) * c.szR
    { q with buf := memcpy q.buf (q.right + c.szR) q.buf q.right (r - q.right), right := q.right + c.szR }
  else q

/-- left_right_sequence.h:141-146 `erase_right_unordered` -/
def Seq.eraseRightUnordered (q : Seq β) (i : Nat) : Seq β :=
  if q.cap - i * c.szR ≠ q.right then
    { q with buf := memcpy q.buf (q.cap - (i + 1) * c.szR) q.buf q.right c.szR, right := q.right + c.szR }
  else q

/-- left_right_sequence.h:147-149 `shrink_left` to the iterator with index `n` -/
def Seq.shrinkLeft (q : Seq β) (n : Nat) : Seq β := { q with left := n * c.szL }
/-- left_right_sequence.h:150-153 `shrink_right` to the iterator with index `n` -/
def Seq.shrinkRight (q : Seq β) (n : Nat) : Seq β := { q with right := q.cap - n * c.szR }

/-- left_right_sequence.h:85-94 `clear` -/
def Seq.clear (q : Seq β) (releaseMem : Bool) : Seq β :=
  let q := if releaseMem then { q with cap := 0, inl := false } else q
  { q with left := 0, right := q.cap }

/-- left_right_sequence.h:282-297 `try_shrink`; `junk` is the content of the inline buffer -/
def Seq.tryShrink (q : Seq β) (junk : Nat → β) : Seq β :=
  if q.rawSize ≤ c.ic ∧ q.inl = false then
    let r := c.ic - q.rightSize c * c.szR
    let e := if q.empty then junk else
      memcpy (memcpy junk 0 q.buf 0 (q.leftSize c * c.szL)) r q.buf q.right (q.rightSize c * c.szR)
    { buf := e, cap := c.ic, left := q.left, right := r, inl := true }
  else q

/-- left_right_sequence.h:321-341 `copy` (used by copy constructor, assignment, and `move` for small sequences) -/
def copy (o : Seq β) (junk : Nat → β) : Seq β :=
  let os := o.rawSize
  let cap := if os ≤ c.ic then c.ic else (os + (c.bs - 1)) / c.bs * c.bs
  let right := cap - o.rightSize c * c.szR
  let buf := if o.empty then junk else
    memcpy (memcpy junk 0 o.buf 0 (o.leftSize c * c.szL)) right o.buf o.right (o.rightSize c * c.szR)
  { buf := buf, cap := cap, left := o.left, right := right, inl := decide (os ≤ c.ic) }

/-- left_right_sequence.h:298-316 `move`: the new value of the target and of `other` -/
def move (o : Seq β) (junk : Nat → β) : Seq β × Seq β :=
  if o.rawSize ≤ c.ic then (copy c o junk, o.clear true) else (o, init c junk)

end Clasp.LR
