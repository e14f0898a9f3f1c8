import Mathlib.Algebra.Order.Field.Rat
import Mathlib.Algebra.Order.Field.Basic
import Mathlib.Tactic.FieldSimp
import Mathlib.Tactic.Linarith
import Mathlib.Tactic.Ring
import Mathlib.Tactic.NormNum

/-!
# Moving averages, dynamic restarts and blocking of restarts

Model of `MovingAvg` (clasp/util/misc_types.h:140-226), `DynamicLimit` and `BlockLimit` (clasp/solver_strategies.h:328-411, src/solver_strategies.cpp:173-253).  Floating point
numbers are rationals, counters are unbounded.
-/

namespace Clasp.Dyn

/-- clasp/util/misc_types.h:142 `MovingAvg::Type`: simple, or exponential with `2 / (w + 1)` or (`log`) `1 / 2 ^ log2 w`, and with smoothing or not at the beginning. -/
inductive Ty
  | sma
  | ema (log smooth : Bool)
deriving DecidableEq

/-- clasp/util/misc_types.h:213-225: the fields; `buf` and `num` are the two other meanings of the union `extra_`. -/
structure Avg where
  avg : ℚ
  buf : Nat → Nat
  num : Nat
  pos : Nat
  win : Nat
  full : Bool
  ty : Ty

/-- The constructor (clasp/util/misc_types.h:144-157). -/
def Avg.new (w : Nat) (t : Ty) : Avg where
  avg := 0
  buf := fun _ => 0
  num := 0
  pos := 0
  win := w
  full := w == 0
  ty := t

/-- clasp/util/misc_types.h:149: the smoothing factor. -/
def alpha (log : Bool) (w : Nat) : ℚ := if log then 1 / (2 ^ Nat.log2 w : Nat) else 2 / (w + 1)

/-- clasp/util/misc_types.h:168-170. -/
def ema (c s a : ℚ) : ℚ := c + a * (s - c)

/-- clasp/util/misc_types.h:173-175. -/
def cma (c s : ℚ) (n : Nat) : ℚ := (s + c * n) / (n + 1 : Nat)

/-- clasp/util/misc_types.h:178-184 (the value; the buffer is changed in `push`). -/
def sma (c : ℚ) (s old cap pos : Nat) (full : Bool) : ℚ := if full then c + ((s : ℚ) - old) / cap else cma c s pos

/-- clasp/util/misc_types.h:186-188. -/
def smoothAlpha (a : ℚ) (pos : Nat) : ℚ := if pos < 32 then max a (1 / (2 ^ pos : Nat)) else a

/-- clasp/util/misc_types.h:190-197 `push`. -/
def Avg.push (a : Avg) (v : Nat) : Avg where
  avg :=
    if a.win = 0 then cma a.avg v a.num
    else
      match a.ty with
      | .sma => sma a.avg v (a.buf a.pos) a.win a.pos a.full
      | .ema log smooth =>
        if a.full then ema a.avg v (alpha log a.win)
        else if smooth then ema a.avg v (smoothAlpha (alpha log a.win) a.pos)
        else cma a.avg v a.pos
  buf := fun i => if a.win ≠ 0 ∧ a.ty = .sma ∧ i = a.pos then v else a.buf i
  num := if a.win = 0 then a.num + 1 else a.num
  pos := if a.pos + 1 = a.win then 0 else a.pos + 1
  win := a.win
  full := if a.pos + 1 = a.win then true else a.full
  ty := a.ty

/-- clasp/util/misc_types.h:199-203 `clear`. -/
def Avg.clear (a : Avg) : Avg :=
  { a with
    avg := 0
    pos := 0
    num := if a.win = 0 then 0 else a.num
    full := if a.win = 0 then a.full else false }

/-- clasp/solver_strategies.h:334-393 `DynamicLimit`: `lbd`, `cfl` are `global_`, `fast` is `avg_`, `num` is `num_`, `keepR`, `keepB` the two bits of `keep_`; the others are the fields of
`adjust`, with `lvl` for `type == level_limit` and `none` for the limit `UINT32_MAX`. -/
structure Lim where
  lbd : Avg
  cfl : Avg
  fast : Avg
  num : Nat
  keepR : Bool
  keepB : Bool
  limit : Option Nat
  restarts : Nat
  samples : Nat
  rk : ℚ
  lvl : Bool

/-- The constructor (src/solver_strategies.cpp:175-191); `w` is not 0.  `sw` is the size of the slow average, 200 times `w` if it is 0 and the average not simple. -/
def Lim.new (k : ℚ) (w : Nat) (ft : Ty) (keepR keepB : Bool) (st : Ty) (sw : Nat) (lim : Option Nat) : Lim where
  lbd := Avg.new (if sw ≠ 0 ∨ st = .sma then sw else 200 * w) st
  cfl := Avg.new (if sw ≠ 0 ∨ st = .sma then sw else 200 * w) st
  fast := Avg.new w ft
  num := 0
  keepR := keepR
  keepB := keepB
  limit := lim
  restarts := 0
  samples := 0
  rk := k
  lvl := false

/-- src/solver_strategies.cpp:193-202 `resetAdjust`. -/
def Lim.resetAdjust (d : Lim) (k : ℚ) (lvl : Bool) (lim : Option Nat) (avg : Bool) : Lim :=
  { d with
    limit := lim
    restarts := 0
    samples := 0
    rk := k
    lvl := lvl
    num := if avg then 0 else d.num
    fast := if avg then d.fast.clear else d.fast }

/-- src/solver_strategies.cpp:207-211 `resetRun`; `keep` is `(keep_ & k) != 0`. -/
def Lim.resetRun (d : Lim) (keep : Bool) : Lim :=
  { d with
    num := 0
    fast := if keep then d.fast else d.fast.clear }

/-- src/solver_strategies.cpp:203-205 `block`. -/
def Lim.block (d : Lim) : Lim := d.resetRun d.keepB

/-- src/solver_strategies.cpp:212-215 `reset`. -/
def Lim.reset (d : Lim) : Lim :=
  { d with
    lbd := d.lbd.clear
    cfl := d.cfl.clear }.resetRun false

/-- src/solver_strategies.cpp:216-225 `update`. -/
def Lim.update (d : Lim) (dl lbd : Nat) : Lim :=
  { d with
    samples := d.samples + 1
    cfl := d.cfl.push dl
    lbd := d.lbd.push lbd
    num := d.num + 1
    fast := d.fast.push (if d.lvl then dl else lbd) }

/-- src/solver_strategies.cpp:233-242: the new ratio and the new limit; `rLen` is `avgRestart()`.  The subtraction of 10000 does not go below 0, the one of the code wraps around; clasp uses
limits of at least 16000 (see `C53_ratio`). -/
def adjusted (rk k rLen : ℚ) (num lim : Nat) : ℚ × Nat :=
  if 16000 ≤ rLen then (rk + 1 / 10, 16000)
  else if lim ≤ num then (rk + 1 / 20, max 16000 (lim - 10000))
  else if 4000 ≤ rLen then (rk + 1 / 20, lim)
  else if 1000 ≤ rLen then (rk, lim + 10000)
  else if k < rk then (rk - 1 / 20, lim)
  else (rk, lim)

/-- src/solver_strategies.cpp:226-245 `restart`. -/
def Lim.restart (d : Lim) (maxLbd : Nat) (k : ℚ) : Lim :=
  let d := { d with restarts := d.restarts + 1 }
  let d :=
    match d.limit with
    | none => d
    | some lim =>
      if lim ≤ d.samples then
        let nt := decide (maxLbd ≠ 0 ∧ (maxLbd : ℚ) < d.lbd.avg)
        let r := if nt = d.lvl then adjusted d.rk k ((d.samples : ℚ) / d.restarts) d.num lim else (d.rk, lim)
        d.resetAdjust r.1 nt (some r.2) false
      else d
  d.resetRun d.keepR

/-- clasp/solver_strategies.h:361, 370-371 `reached`. -/
def Lim.reached (d : Lim) : Bool := decide (d.fast.win ≤ d.num ∧ (if d.lvl then d.cfl else d.lbd).avg < d.fast.avg * d.rk)

/-- The calls of the interface; `again` is the one at the start of a search whose restart sequence begins anew (src/solve_algorithms.cpp:160). -/
inductive Ev
  | update (dl lbd : Nat)
  | restart (maxLbd : Nat) (k : ℚ)
  | block
  | reset
  | again (k : ℚ) (lim : Option Nat)

/-- One call. -/
def Lim.step (d : Lim) : Ev → Lim
  | .update dl lbd => d.update dl lbd
  | .restart m k => d.restart m k
  | .block => d.block
  | .reset => d.reset
  | .again k lim => d.resetAdjust k false lim true

/-- clasp/solver_strategies.h:398-411 `BlockLimit`.  Not in the code: `at_`, the numbers of the conflicts at which restarts were blocked. -/
structure Block where
  avg : Avg
  next : Nat
  n : Nat
  inc : Nat
  r : ℚ
  at_ : List Nat

/-- The constructor and its use (src/solver_strategies.cpp:246-253, src/solve_algorithms.cpp:119-124). -/
def Block.new (w : Nat) (r : ℚ) (t : Ty) (base first : Nat) : Block where
  avg := Avg.new w t
  next := max w first
  n := 0
  inc := max base 50
  r := r
  at_ := []

/-- src/solver.cpp:1857-1862 with clasp/solver_strategies.h:400-405: one conflict with `ts` assigned variables. -/
def Block.conflict (b : Block) (ts : Nat) : Block :=
  let b := { b with
    avg := b.avg.push ts
    n := b.n + 1 }
  if b.next ≤ b.n ∧ b.avg.avg * b.r < (ts : ℚ) then
    { b with
      next := b.n + b.inc
      at_ := b.at_ ++ [b.n] }
  else b

end Clasp.Dyn
