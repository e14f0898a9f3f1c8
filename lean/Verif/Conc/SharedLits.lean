/-
C33. Reference-counted clause literals `SharedLiterals` (clasp/clause.h 38-82, src/clause.cpp 60-105), shared by
threads that interleave arbitrarily, and the reference accounting of `Solver::distribute` (src/solver.cpp 364-374) with
`LocalDistribution::publish` / `GlobalDistribution::publish` (src/parallel_solve.cpp 1019-1022, 1100-1115).

Every atomic operation on the reference counter and every access to the literal array is one step. References are handed
from thread to thread through queues (C08); `hold t` counts the references thread `t` is responsible for (in a clause,
in a local variable, or in its receive queue). The counter is unbounded here (`int32` in the code: fewer than 2^31 references).
-/
import Mathlib.Algebra.BigOperators.Group.Finset.Basic
import Mathlib.Data.Fintype.Basic
import Mathlib.Logic.Function.Basic
import Verif.Basic.Literal
namespace Clasp.SL

/-- Truth value of a literal for the thread that simplifies: free, true or false (clause.cpp:79-87). -/
inductive Val | free | tru | fls
deriving DecidableEq

/-- What a thread is doing with the object: nothing; in `release` after its decrement reached zero (clause.cpp:97-98);
or in the loop of `simplify` (clause.cpp:73-92) with the local variables `removeFalse`, read position `r`,
write position `c`, `newSize`. -/
inductive PC
  | idle
  | dtor
  | simp (rf : Bool) (r c n : Nat)
deriving DecidableEq

/-- the shared literals, the threads and ghost state (clause.h:76; see the fields) -/
structure St (T L : Type) where
  /-- clause.h:76 `refCount_` -/
  rc : Int
  /-- clause.h:77-79 `lits_` up to `size()` -/
  lits : List L
  /-- memory not yet freed -/
  alive : Bool
  /-- number of deallocations so far -/
  freed : Nat
  /-- somebody accessed the object after it was freed -/
  bad : Bool
  /-- control state of each thread -/
  pc : T → PC
  /-- history: references each thread is responsible for -/
  hold : T → Nat
  /-- history: result of each thread's last `simplify` -/
  out : T → Option Nat

variable {T L : Type} [DecidableEq T]

/-- clause.cpp:65-71 constructor: the creator is responsible for all `refs` initial references. -/
def init (t : T) (lits : List L) (refs : Nat) : St T L where
  rc := max 1 refs
  lits := lits
  alive := true
  freed := 0
  bad := false
  pc := fun _ => .idle
  hold := Function.update (fun _ => 0) t (max 1 refs)
  out := fun _ => none

/-- Any access to the object's memory. -/
def St.touch (s : St T L) : St T L := { s with bad := s.bad || !s.alive }

/-- clause.cpp:101-104 `share`. -/
def St.share (s : St T L) (t : T) : St T L :=
  { s.touch with rc := s.rc + 1, hold := Function.update s.hold t (s.hold t + 1) }

/-- clause.cpp:95-96 `release(n)`: the atomic decrement and test. -/
def St.release (s : St T L) (t : T) (n : Nat) : St T L :=
  { s.touch with rc := s.rc - n, hold := Function.update s.hold t (s.hold t - n),
                 pc := if s.rc - n = 0 then Function.update s.pc t .dtor else s.pc }

/-- clause.cpp:97-98: destructor and `Detail::free`. -/
def St.free (s : St T L) (t : T) : St T L :=
  { s.touch with alive := false, freed := s.freed + 1, pc := Function.update s.pc t .idle }

/-- clause.cpp:73-77 `simplify`: reads `unique()` (clause.h:69). -/
def St.simpStart (s : St T L) (t : T) : St T L :=
  { s.touch with pc := Function.update s.pc t (.simp (s.rc ≤ 1) 0 0 0) }

/-- clause.cpp:88-91 and return. -/
def St.simpEnd (s : St T L) (t : T) (rf : Bool) (n : Nat) : St T L :=
  { s.touch with lits := if rf && n != s.lits.length then s.lits.take n else s.lits,
                 pc := Function.update s.pc t .idle,
                 out := Function.update s.out t (some n) }

/-- clause.cpp:79-87: one round of the loop for the literal at `r`. -/
def St.simpStep (v : L → Val) (s : St T L) (t : T) (rf : Bool) (r c n : Nat) : St T L :=
  match s.lits[r]? with
  | none => s.simpEnd t rf n
  | some x =>
    match v x with
    | .free =>
      { s.touch with lits := if c = r then s.lits else s.lits.set c x,
                     pc := Function.update s.pc t (.simp rf (r + 1) (c + 1) (n + 1)) }
    | .tru => s.simpEnd t rf 0
    | .fls => { s.touch with pc := Function.update s.pc t (.simp rf (r + 1) (if rf then c else c + 1) n) }

/-- One step of some thread. `v t` is the assignment of the thread. Preconditions are those of the C++ interface:
a thread only uses an object it holds a reference to, and releases or hands on only references it holds. -/
inductive Step (v : T → L → Val) : St T L → St T L → Prop
  | share {s t} : s.pc t = .idle → 0 < s.hold t → Step v s (s.share t)
  | release {s t n} : s.pc t = .idle → 0 < n → n ≤ s.hold t → Step v s (s.release t n)
  | free {s t} : s.pc t = .dtor → Step v s (s.free t)
  | give {s t u n} : s.pc t = .idle → t ≠ u → n ≤ s.hold t →
      Step v s { s with hold := Function.update (Function.update s.hold t (s.hold t - n)) u (s.hold u + n) }
  | read {s t} : s.pc t = .idle → 0 < s.hold t → Step v s s.touch
  | simpStart {s t} : s.pc t = .idle → 0 < s.hold t → Step v s (s.simpStart t)
  | simpStep {s t rf r c n} : s.pc t = .simp rf r c n → Step v s (s.simpStep (v t) t rf r c n)

/-- Reachable from the creation of the object by thread `t₀`. -/
inductive Reach (v : T → L → Val) (t₀ : T) (ls : List L) (refs : Nat) : St T L → Prop
  | init : Reach v t₀ ls refs (init t₀ ls refs)
  | step {s s'} : Reach v t₀ ls refs s → Step v s s' → Reach v t₀ ls refs s'

/-- solver.cpp:365-368: number of initial references of a distributed clause; `conc` threads. -/
def initialRefs (conc : Nat) (short physical : Bool) : Nat := conc - (if short || !physical then 1 else 0)

/-- parallel_solve.cpp:1105-1114 `LocalDistribution::publish` as steps of the sender on the object: hand one reference to
the queue of every interested thread, count the others in `decRef` (`wants i` = `size ≤ 1` or sender in `peers` of `i`). -/
def publishLoop (sender : T) (wants : T → Bool) : List T → St T L → Nat → St T L × Nat
  | [], s, d => (s, d)
  | i :: is, s, d =>
    if i = sender then publishLoop sender wants is s d
    else if !wants i then publishLoop sender wants is s (d + 1)
    else publishLoop sender wants is
      { s with hold := Function.update (Function.update s.hold sender (s.hold sender - 1)) i (s.hold i + 1) } d

/-- parallel_solve.cpp:1100-1115 with solver.cpp:372: afterwards the sender keeps its pointer iff
`initialRefs == concurrency`. `GlobalDistribution::publish` (1019-1022) is the case in which every thread is interested:
uninterested receivers release their reference when they see the clause (1023-1036). -/
def publish (sender : T) (wants : T → Bool) (threads : List T) (s : St T L) : St T L :=
  let r := publishLoop sender wants threads s 0
  if r.2 = 0 then r.1 else r.1.release sender r.2

end Clasp.SL
