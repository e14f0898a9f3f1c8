/-
Splitting the search space between solvers.

Code: src/solver.cpp 555-591 (`copyGuidingPath`, `splittable`, `split`), 476-487 (`pushRoot`), src/parallel_solve.cpp 838-846
(`handleSplitMessage`), 425-460 (`solveParallel`), 500-532 (`requestWork`), 540-640 (`pushWork`).

Simplifications: the tag literal is not modelled (no conditional knowledge); the queue of guiding paths is a list from which any path can
be taken; all solvers have the same constraints; models are enumerated by backtracking (or there is no enumeration); threads do not fail.
-/
import Verif.Core.UnsatCoreProps
import Verif.Core.SplitInv
namespace Clasp.Core
open St

namespace St

/-- solver.cpp:568-582 `splittable`; `frozen` are the levels frozen by a running lookahead (solver.cpp:945-953), `aux` the solver-local
variables (solver.h:559) -/
def splittable (s : St) (frozen aux : Nat → Bool) : Bool :=
  if s.dl == s.root || frozen (s.root + 1) then false
  else if (List.range (s.root + 1)).any (fun i => aux (s.decision (i + 1)).var) then false
  else !(s.imp.any fun y => y.ante.isNone && decide (y.lev < s.root + 2) && aux y.lit.var)

/-- solver.cpp:556-562: the first root level with a solver-local decision -/
def auxLevel (s : St) (aux : Nat → Bool) : Nat :=
  match (List.range s.root).find? (fun i => aux (s.decision (i + 1)).var) with
  | some i => i + 1
  | none => s.root + 1

/-- solver.cpp:555-567 `copyGuidingPath` -/
def guidingPath (s : St) (aux : Nat → Bool) : List Lit :=
  (((List.range s.root).map fun i => s.decision (i + 1)).filter fun q => !aux q.var) ++
  (s.imp.filter fun y => decide (y.lev ≤ s.root) && (y.ante.isNone || decide (y.lev < s.auxLevel aux)) && !aux y.lit.var).map Implied.lit

/-- solver.cpp:583-591 `split`: the new state of the solver and the path given away -/
def split (s : St) (frozen aux : Nat → Bool) : Option (St × List Lit) :=
  if s.splittable frozen aux = true then
    let gp := s.guidingPath aux
    let s := s.pushRootLevel 1
    some (s, gp ++ [(s.decision s.root).neg])
  else none

end St

namespace Sys

/-- parallel_solve.cpp:838-846: the solver that splits -/
def giver (x : Sys) (s' : St) : Sys := { x.setSt s' with asm := x.st.decision (x.st.root + 1) :: x.asm }

/-- The calls made on a solver of a parallel search. -/
inductive WStep (learn : Bool) (n : Nat) (E : Asg → Prop) (P : Nat → Bool) : Sys → Sys → Prop
  /-- the calls of one solver alone -/
  | step {x y : Sys} (hs : Step learn n E P x y) (hr : y.recs = []) : WStep learn n E P x y
  /-- solver.cpp:489-497: a literal of the path that is free -/
  | assume {x : Sys} (p : Lit) (hc : x.st.conflict = []) (hd : x.st.dl = x.st.root) (hf : x.st.front = x.st.trail.length)
      (hp : x.st.value p.var = none) (hv : p.var ≤ n) : WStep learn n E P x { x.setSt ((x.st.decide' p).pushRootLevel 1) with asm := p :: x.asm }
  /-- solver.cpp:493: a literal of the path that holds -/
  | assumeTrue {x : Sys} (p : Lit) (hc : x.st.conflict = []) (hd : x.st.dl = x.st.root) (hp : x.st.isTrue p = true) :
      WStep learn n E P x { x with asm := p :: x.asm }
  /-- parallel_solve.cpp:838-846 -/
  | split {x : Sys} (frozen aux : Nat → Bool) (s' : St) (out : List Lit) (hc : x.st.conflict = []) (hs : x.st.split frozen aux = some (s', out)) :
      WStep learn n E P x (x.giver s')
  /-- parallel_solve.cpp:440-460, 505: the solver leaves its path; this is not done on level 0 -/
  | renew {x : Sys} (s : St) (f : List Asg) (hl : Leave learn n E x s) (h0 : 0 < x.st.root) (hc : (s.popRootLevel learn x.st.root).2 = true)
      (hf : f.Sublist x.found) (hf' : ∀ M ∈ x.found, M ∈ f ↔ ¬ x.zeroSat M) : WStep learn n E P x (x.renew learn s f)

/-- The states of a solver of a parallel search. -/
inductive Sol (learn : Bool) (n : Nat) (E : Asg → Prop) (P : Nat → Bool) : Sys → Prop
  | init : Sol learn n E P Sys.init
  | step {x y : Sys} : Sol learn n E P x → WStep learn n E P x y → Sol learn n E P y

/-- A number of solvers (parallel_solve.cpp:195-330 `SharedData`): the paths nobody works on yet, the solvers that work on a path, those
that do not, and the models reported so far. -/
structure Par where
  work : List (List Lit)
  act : List Sys
  idle : List Sys
  rep : List Asg

/-- What can happen during parallel search with splitting. -/
inductive PStep (learn : Bool) (n : Nat) (E : Asg → Prop) (P : Nat → Bool) (O : List (List Lit)) : Par → Par → Prop
  /-- parallel_solve.cpp:432: a further solver -/
  | attach {w : List (List Lit)} {a i : List Sys} {r : List Asg} (x : Sys) (hx : Sol learn n E P x) (ho : x.orig = O) (hf : x.found = []) :
      PStep learn n E P O ⟨w, a, i, r⟩ ⟨w, a, x :: i, r⟩
  /-- a step of a solver that does not work on a path: it leaves its last path, propagates, or assumes literals -/
  | prepare {w : List (List Lit)} {a i1 i2 : List Sys} {r : List Asg} {x y : Sys} (hs : WStep learn n E P x y) (ho : y.orig = x.orig)
      (hf : ∀ M ∈ y.found, M ∈ x.found) : PStep learn n E P O ⟨w, a, i1 ++ x :: i2, r⟩ ⟨w, a, i1 ++ y :: i2, r⟩
  /-- solver.cpp:476-487: a solver has assumed the literals of a path (and literals that hold in all models, like the step literal) -/
  | take {w1 w2 : List (List Lit)} {p : List Lit} {a i1 i2 : List Sys} {r : List Asg} {x : Sys} (hp : ∀ q ∈ p, q ∈ x.asm)
      (ha : ∀ q ∈ x.asm, q ∈ p ∨ ∀ M, problem E O M → M.sat q) : PStep learn n E P O ⟨w1 ++ p :: w2, a, i1 ++ x :: i2, r⟩ ⟨w1 ++ w2, x :: a, i1 ++ i2, r⟩
  /-- solver.cpp:482: a path is refused: after some of its literals a conflict arises on the root level, or the next literal is false -/
  | refuse {w1 w2 : List (List Lit)} {p : List Lit} {a i1 i2 : List Sys} {r : List Asg} {x : Sys}
      (ha : ∀ q ∈ x.asm, q ∈ p ∨ ∀ M, problem E O M → M.sat q) (hu : Unsat learn n E x ∨ (x.st.dl = x.st.root ∧ ∃ q ∈ p, x.st.isFalse q = true)) :
      PStep learn n E P O ⟨w1 ++ p :: w2, a, i1 ++ x :: i2, r⟩ ⟨w1 ++ w2, a, i1 ++ x :: i2, r⟩
  /-- a step of one solver that keeps constraints and assumptions; `m` is the model reported, if any -/
  | run {w : List (List Lit)} {a1 a2 i : List Sys} {r : List Asg} {x y : Sys} (m : List Asg) (hs : Step learn n E P x y) (ho : y.orig = x.orig) (hr : y.recs = [])
      (ha : y.asm = x.asm) (hm : y.found = m ++ x.found) : PStep learn n E P O ⟨w, a1 ++ x :: a2, i, r⟩ ⟨w, a1 ++ y :: a2, i, m ++ r⟩
  /-- parallel_solve.cpp:838-846 -/
  | split {w : List (List Lit)} {a1 a2 i : List Sys} {r : List Asg} {x : Sys} (frozen aux : Nat → Bool) (s' : St) (out : List Lit) (hc : x.st.conflict = [])
      (hs : x.st.split frozen aux = some (s', out)) : PStep learn n E P O ⟨w, a1 ++ x :: a2, i, r⟩ ⟨w ++ [out], a1 ++ x.giver s' :: a2, i, r⟩
  /-- parallel_solve.cpp:822-826: the path of a solver is exhausted -/
  | close {w : List (List Lit)} {a1 a2 i : List Sys} {r : List Asg} {x : Sys} (hu : Unsat learn n E x) :
      PStep learn n E P O ⟨w, a1 ++ x :: a2, i, r⟩ ⟨w, a1 ++ a2, x :: i, r⟩
  /-- parallel_solve.cpp:822-826, model_enumerators.cpp:163-200: the path of a solver is exhausted after the current model -/
  | last {w : List (List Lit)} {a1 a2 i : List Sys} {r : List Asg} {x : Sys} (ht : x.st.Total n) (hE : E x.st.model) (hl : Last learn x) :
      PStep learn n E P O ⟨w, a1 ++ x :: a2, i, r⟩ ⟨w, a1 ++ a2, x :: i, x.st.model :: r⟩

/-- The states of a parallel search that starts with one guiding path. -/
inductive PReach (learn : Bool) (n : Nat) (E : Asg → Prop) (P : Nat → Bool) (O : List (List Lit)) (path : List Lit) : Par → Prop
  | init : PReach learn n E P O path ⟨[path], [], [], []⟩
  | step {p q : Par} : PReach learn n E P O path p → PStep learn n E P O p q → PReach learn n E P O path q

end Sys
end Clasp.Core
