/-
C07. Restart schedules: `lubyR` and `ScheduleStrategy` (src/solver_strategies.cpp 85-140,
clasp/solver_strategies.h 68-95) and `log2` (clasp/util/misc_types.h 70-78).

32-bit counters are natural numbers with explicit reduction modulo 2^32.
Simplification: the floating point square root and products in `advanceTo` are taken to be exact
(true as long as the radicand stays below 2^52); the growth parameter of the geometric and arithmetic schedules is not
modelled, only the index/length state machine they share.
-/
import Mathlib.Data.Nat.Sqrt
namespace Clasp.Sched

/-- range of uint32 -/
def W : Nat := 2^32

/-- misc_types.h:70-78 `log2` -/
def log2 (x : Nat) : Nat :=
  let (x, ln) := if x &&& 0xFFFF0000 ≠ 0 then (x >>> 16, 16) else (x, 0)
  let (x, ln) := if x &&& 0xFF00 ≠ 0 then (x >>> 8, ln ||| 8) else (x, ln)
  let (x, ln) := if x &&& 0xF0 ≠ 0 then (x >>> 4, ln ||| 4) else (x, ln)
  let (x, ln) := if x &&& 0xC ≠ 0 then (x >>> 2, ln ||| 2) else (x, ln)
  if x &&& 0x2 ≠ 0 then ln ||| 1 else ln

/-- solver_strategies.cpp:91-93 the loop of `lubyR` on uint32; `fuel` bounds the number of iterations
(the loop runs at most 32 times, see `lubyLoop_spec`). -/
def lubyLoop : Nat → Nat → Nat
  | 0, i => i
  | fuel + 1, i => if i &&& ((i + 1) % W) ≠ 0 then lubyLoop fuel (i - (1 <<< log2 i - 1)) else i

/-- solver_strategies.cpp:89-95 `lubyR` -/
def lubyR (idx : Nat) : Nat := ((lubyLoop 32 ((idx + 1) % W) + 1) % W) >>> 1

/-- solver_strategies.h:71 -/
inductive Ty | geometric | arithmetic | luby
deriving DecidableEq

/-- solver_strategies.h:90-94, without `grow` -/
structure S where
  base : Nat
  ty   : Ty
  idx  : Nat
  len  : Nat
deriving DecidableEq

/-- solver_strategies.cpp:107-113 `current()` for the Luby schedule: lubyR(idx) * base, 64-bit product, no overflow
(base < 2^30). -/
def S.currentLuby (s : S) : Nat := lubyR s.idx * s.base

/-- solver_strategies.cpp:114-120 `next()`: new state -/
def S.next (s : S) : S :=
  let i := (s.idx + 1) % W
  if i ≠ s.len then { s with idx := i }
  else { s with len := (((s.len + (if i ≠ 0 then 1 else 0)) % W) <<< (if s.ty = .luby then 1 else 0)) % W, idx := 0 }

/-- solver_strategies.cpp:133-137 the Luby loop of `advanceTo`; `fuel` bounds the iterations -/
def advLoop : Nat → Nat → Nat → Nat × Nat
  | 0, n, len => (n, len)
  | fuel + 1, n, len => if n ≥ len then advLoop fuel (n - len) (((len + 1) % W) * 2 % W) else (n, len)

/-- solver_strategies.cpp:121-138 `advanceTo` -/
def S.advanceTo (s : S) (n : Nat) : S :=
  if s.len = 0 ∨ n < s.len then { s with idx := n }
  else if s.ty ≠ .luby then
    let x := (Nat.sqrt (s.len * (4 * s.len - 4) + 8 * (n + 1)) - 2 * s.len + 1) / 2
    { s with idx := n - (x * s.len + (x - 1) * x / 2), len := s.len + x }
  else
    let (i, l) := advLoop (n + 1) n s.len
    { s with idx := i, len := l }

end Clasp.Sched
