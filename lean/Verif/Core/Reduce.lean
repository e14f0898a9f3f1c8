import Verif.Basic.Packed

/-!
# Reduction of the learnt database (C31)

Model of `Solver::reduceLearnts`, `reduceLinear`, `reduceSort`, `reduceSortInPlace`
(src/solver.cpp 1648-1803) with `Solver::CmpScore` (clasp/solver.h 824-839) and
`ReduceStrategy::compare`, `asScore` (clasp/solver_strategies.h 439-452).

Simplifications:
* a constraint is an identity with its packed score (see C02); what `locked` answers is a parameter
  here, `Core/ReduceLock.lean` models it for clauses;
* `std::stable_sort`, `make_heap`, `pop_heap`, `push_heap` are parameters with the guarantees of the
  C++ standard (`Std`);
* the `double` arithmetic of `reduceLinear` is exact;
* the number `remM` of constraints to remove (`oldS * max(0, remFrac)` truncated, line 1650) is a
  parameter.
-/

namespace Clasp.Reduce

/-- A learnt constraint: its identity and its packed score (clasp/constraint.h 527-546). -/
structure Con where
  id : Nat
  sc : BitVec 32
  deriving DecidableEq, Repr

/-- `ReduceStrategy::Score` (clasp/solver_strategies.h 427-431). -/
inductive Kind
  | act | lbd | both
  deriving DecidableEq, Repr

/-- `scoreAct` (clasp/solver_strategies.h 439). -/
def scoreAct (x : BitVec 32) : Nat := (Score.activity x).toNat
/-- `scoreLbd` (clasp/solver_strategies.h 440): `LBD_MAX + 1 - lbd`. -/
def scoreLbd (x : BitVec 32) : Nat := 128 - (Score.lbd x).toNat
/-- `scoreBoth` (clasp/solver_strategies.h 441). -/
def scoreBoth (x : BitVec 32) : Nat := (scoreAct x + 1) * scoreLbd x

/-- `ReduceStrategy::compare` (clasp/solver_strategies.h 442-447). -/
def compare (k : Kind) (l r : BitVec 32) : Int :=
  let fs : Int := match k with
    | .act => (scoreAct l : Int) - scoreAct r
    | .lbd => (scoreLbd l : Int) - scoreLbd r
    | .both => 0
  if fs ≠ 0 then fs else (scoreBoth l : Int) - scoreBoth r

/-- `ReduceStrategy::asScore` (clasp/solver_strategies.h 448-452). -/
def asScore (k : Kind) (x : BitVec 32) : Nat :=
  match k with
  | .act => scoreAct x
  | .lbd => scoreLbd x
  | .both => scoreBoth x

/-- `Solver::CmpScore` (clasp/solver.h 824-839): score, glue and freeze. -/
structure Cmp where
  kind : Kind
  glue : Nat
  freeze : Nat
  deriving DecidableEq, Repr

/-- `CmpScore::operator()` (clasp/solver.h 830-831). -/
def Cmp.lt (c : Cmp) (l r : BitVec 32) : Bool := decide (compare c.kind l r < 0)
/-- `CmpScore::isFrozen` (clasp/solver.h 832). -/
def Cmp.isFrozen (c : Cmp) (a : BitVec 32) : Bool := Score.bumped a && decide ((Score.lbd a).toNat ≤ c.freeze)
/-- `CmpScore::isGlue` (clasp/solver.h 833). -/
def Cmp.isGlue (c : Cmp) (a : BitVec 32) : Bool := decide ((Score.lbd a).toNat ≤ c.glue)

/-- `Constraint::decreaseActivity` (clasp/clause.h 479, clasp/constraint.h 544). -/
def Con.decrease (c : Con) : Con := { c with sc := Score.reduce c.sc }

/-- `Solver::DBInfo` (clasp/solver.h 474). -/
structure Info where
  size : Nat
  locked : Nat
  pinned : Nat
  deriving DecidableEq, Repr

/-- The result of a reduction: the new database, the constraints destroyed (in order), the counters
(src/solver.cpp 1648-1803). -/
structure Res where
  db : List Con
  gone : List Con
  info : Info
  deriving DecidableEq, Repr

/-- What the C++ standard says about `stable_sort`, `make_heap`, `pop_heap`, `push_heap` on the
elements `α` with strict weak order `lt`; `heap` is the heap property. Specification (library). -/
structure Std (α : Type) (lt : α → α → Bool) where
  sort : List α → List α
  heap : List α → Prop
  make : List α → List α
  pop : List α → List α
  push : List α → List α
  sort_perm : ∀ l, (sort l).Perm l
  sort_le : ∀ l, (sort l).Pairwise fun a b => lt b a = false
  heap_max : ∀ a l, heap (a :: l) → ∀ x ∈ l, lt a x = false
  make_perm : ∀ l, (make l).Perm l
  make_heap : ∀ l, heap (make l)
  pop_perm : ∀ l, (pop l).Perm l
  pop_last : ∀ a l, heap (a :: l) → (pop (a :: l)).getLast? = some a
  pop_heap : ∀ l, heap l → heap (pop l).dropLast
  push_perm : ∀ l, (push l).Perm l
  push_heap : ∀ l a, heap l → heap (push (l ++ [a]))

variable (c : Cmp) (locked : Con → Bool)

/-- The test in lines 1715, 1762, 1778 of src/solver.cpp: this constraint must stay. -/
def pinned (x : Con) : Bool := locked x || c.isGlue x.sc || c.isFrozen x.sc

/-- `double scoreThresh` of `reduceLinear` (src/solver.cpp 1668-1678), as the test
`sc.score(a) > scoreThresh` on exact fractions: with `S` the sum of all scores, `n` the number of
constraints and `m` the largest score, the threshold is `1.5*S/n`, or `(m + S/n)/2` if this exceeds `m`. -/
def active (S n m : Nat) (a : BitVec 32) : Bool :=
  if 3 * S > 2 * n * m then decide (2 * n * asScore c.kind a > n * m + S)
  else decide (2 * n * asScore c.kind a > 3 * S)

/-- The loop of `reduceLinear` (src/solver.cpp 1682-1698); `isGlue` includes the activity test. -/
def linearLoop (act : BitVec 32 → Bool) : Nat → List Con → Res
  | _, [] => ⟨[], [], ⟨0, 0, 0⟩⟩
  | maxR, x :: xs =>
    let isLocked := locked x
    let isGlue := act x.sc || c.isGlue x.sc
    if maxR = 0 || isLocked || isGlue || c.isFrozen x.sc then
      let r := linearLoop act maxR xs
      ⟨x.decrease :: r.db, r.gone,
        ⟨r.info.size + 1, r.info.locked + isLocked.toNat, r.info.pinned + isGlue.toNat⟩⟩
    else
      let r := linearLoop act (maxR - 1) xs
      { r with gone := x :: r.gone }

/-- `Solver::reduceLinear` (src/solver.cpp 1666-1700). -/
def reduceLinear (maxR : Nat) (db : List Con) : Res :=
  let S := (db.map fun x => asScore c.kind x.sc).sum
  let m := asScore c.kind (Score.makeScore Score.actMax 1#32)
  linearLoop c locked (active c S db.length m) maxR db

/-- Entries of the heap used by `reduceSort`: position and score (`CmpScore::ViewPair`,
clasp/solver.h 825). -/
abbrev View := Nat × BitVec 32

/-- The first loop of `reduceSort` (src/solver.cpp 1710-1727): `i` is the position of the head of
the list; returns the heap. -/
def sortLoop (S : Std View (fun a b => c.lt a.2 b.2)) : Nat → Nat → List View → List Con → List View
  | _, _, heap, [] => heap
  | i, maxR, heap, x :: xs =>
    let vp := (i, x.sc)
    if !locked x && !c.isGlue x.sc && !c.isFrozen x.sc then
      if maxR ≠ 0 then
        let heap := heap ++ [vp]
        sortLoop S (i + 1) (maxR - 1) (if maxR - 1 = 0 then S.make heap else heap) xs
      else match heap with
        | [] => sortLoop S (i + 1) maxR heap xs  -- heap[0] is not there: excluded, see `C31_sort_heap`
        | top :: _ =>
          if c.lt vp.2 top.2 then sortLoop S (i + 1) maxR (S.push ((S.pop heap).dropLast ++ [vp])) xs
          else sortLoop S (i + 1) maxR heap xs
    else sortLoop S (i + 1) maxR heap xs

/-- The last loop of `reduceSort` (src/solver.cpp 1734-1739): keep the entries not set to 0. -/
def compact (dead : List Nat) : Nat → List Con → List Con
  | _, [] => []
  | i, x :: xs => if i ∈ dead then compact dead (i + 1) xs else x.decrease :: compact dead (i + 1) xs

/-- `Solver::reduceSort` (src/solver.cpp 1704-1742). -/
def reduceSort (S : Std View (fun a b => c.lt a.2 b.2)) (maxR : Nat) (db : List Con) : Res :=
  let heap := sortLoop c locked S 0 (min maxR db.length) [] db
  let kept := compact (heap.map Prod.fst) 0 db
  ⟨kept, heap.filterMap fun v => db[v.1]?,
    ⟨kept.length, db.countP locked, db.countP fun x => c.isGlue x.sc⟩⟩

/-- The loop of `reduceSortInPlace` over the sorted database (src/solver.cpp 1755-1769). -/
def inPlaceLoop : Nat → List Con → Res
  | _, [] => ⟨[], [], ⟨0, 0, 0⟩⟩
  | maxR, x :: xs =>
    let isGlue := c.isGlue x.sc
    let isLocked := locked x
    if maxR = 0 || isLocked || isGlue || c.isFrozen x.sc then
      let r := inPlaceLoop maxR xs
      ⟨x.decrease :: r.db, r.gone,
        ⟨r.info.size + 1, r.info.locked + isLocked.toNat, r.info.pinned + isGlue.toNat⟩⟩
    else
      let r := inPlaceLoop (maxR - 1) xs
      { r with gone := x :: r.gone
               info := ⟨r.info.size, r.info.locked + isLocked.toNat, r.info.pinned + isGlue.toNat⟩ }

/-- The loop of `reduceSortInPlace` with a partial sort (src/solver.cpp 1773-1790). The array is
`heap ++ mid ++ xs`: the heap in front (`hBeg`, `hEnd`), the elements passed over, the rest. The swap
in lines 1781-1782 moves the first element of `mid` behind it; lines 1786-1789 put the old maximum at
the current position. -/
def heapLoop (S : Std Con (fun a b => c.lt a.sc b.sc)) : Nat → List Con → List Con → List Con → List Con × List Con
  | _, heap, mid, [] => (heap, mid)
  | maxR, heap, mid, x :: xs =>
    if locked x || c.isGlue x.sc || c.isFrozen x.sc then heapLoop S maxR heap (mid ++ [x]) xs
    else if maxR ≠ 0 then
      let heap := heap ++ [x]
      let mid := match mid with
        | [] => []
        | m :: ms => ms ++ [m]
      heapLoop S (maxR - 1) (if maxR - 1 = 0 then S.make heap else heap) mid xs
    else match heap with
      | [] => heapLoop S maxR heap (mid ++ [x]) xs  -- learnts_[0] is not in the heap: excluded
      | top :: _ =>
        if c.lt x.sc top.sc then
          let p := S.pop heap
          heapLoop S maxR (S.push (p.dropLast ++ [x])) (mid ++ p.getLast?.toList) xs
        else heapLoop S maxR heap (mid ++ [x]) xs

/-- `Solver::reduceSortInPlace` (src/solver.cpp 1746-1803). -/
def reduceSortInPlace (S : Std Con (fun a b => c.lt a.sc b.sc)) (maxR : Nat) (db : List Con) (partial' : Bool) : Res :=
  let maxR := min maxR db.length
  if !partial' then
    inPlaceLoop c locked maxR (if maxR ≠ 0 ∧ maxR ≠ db.length then S.sort db else db)
  else
    let r := heapLoop c locked S maxR [] [] db
    ⟨r.2.map Con.decrease, r.1, ⟨r.2.length, db.countP locked, db.countP fun x => c.isGlue x.sc⟩⟩

/-- `ReduceStrategy::Algorithm` (clasp/solver_strategies.h 420-425). -/
inductive Algo
  | linear | stable | sort | heap
  deriving DecidableEq, Repr

/-- `Solver::reduceLearnts` (src/solver.cpp 1648-1662). -/
def reduceLearnts (S1 : Std Con (fun a b => c.lt a.sc b.sc)) (S2 : Std View (fun a b => c.lt a.2 b.2))
    (algo : Algo) (remM : Nat) (db : List Con) : Res :=
  if remM ≥ db.length ∨ remM = 0 ∨ algo = .sort then reduceSortInPlace c locked S1 remM db false
  else match algo with
    | .stable => reduceSort c locked S2 remM db
    | .heap => reduceSortInPlace c locked S1 remM db true
    | _ => reduceLinear c locked remM db

end Clasp.Reduce
