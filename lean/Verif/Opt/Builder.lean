/-
C20. Construction of the shared minimize data: `MinimizeBuilder` (src/minimize_constraint.cpp 559-746) and
`SharedMinimizeData::resetBounds`, `weight` (src/minimize_constraint.cpp 49-66, clasp/minimize_constraint.h 166-171).

Simplifications: 64-bit sums are unbounded integers (the 32-bit check of the code is modelled); freezing of variables and the
propagation before `build` are not modelled, `top` is the assignment at that point.
-/
import Verif.Weight.RepLem
namespace Clasp.Mini
open Core
open Clasp.Weight (R Fail Top MAXW)

/-- minimize_constraint.h:243-248 `MLit`. -/
structure MLit where
  lit : Lit
  prio : Int
  weight : Int
deriving DecidableEq

/-- minimize_constraint.h:71-76 `LevelWeight`. -/
structure LW where
  level : Nat
  next : Bool
  weight : Int
deriving DecidableEq

/-- Stable sort by a strict comparison (`std::stable_sort`, used at minimize_constraint.cpp:636, 669, 697); the C++ library is
trusted to return the unique stable order, computed here by insertion. -/
def insertBy {α : Type} (cmp : α → α → Bool) (a : α) : List α → List α
  | [] => [a]
  | b :: l => if cmp b a then b :: insertBy cmp a l else a :: b :: l
/-- See `insertBy`. -/
def ssort {α : Type} (cmp : α → α → Bool) (l : List α) : List α := l.foldr (insertBy cmp) []

/-- literal.h:75 order of literals: by id (variable, then sign). -/
def litLt (p q : Lit) : Bool := p.var < q.var || (p.var == q.var && !p.sign && q.sign)

/-- minimize_constraint.cpp:606-610 `CmpPrio`. -/
def cmpPrio (a b : MLit) : Bool :=
  if a.prio ≠ b.prio then a.prio > b.prio
  else if a.lit.var ≠ b.lit.var then litLt a.lit b.lit
  else a.weight > b.weight

/-- minimize_constraint.cpp:612-616 `CmpLit`. -/
def cmpLit (a b : MLit) : Bool :=
  if a.lit.var ≠ b.lit.var then litLt a.lit b.lit
  else if a.prio ≠ b.prio then a.prio < b.prio
  else a.weight > b.weight

/-- minimize_constraint.cpp:646-649: the inner loop over the elements with the same variable and priority; returns `w`, `R` and the
remaining elements. -/
def absorb (x : Lit) (P : Int) : Int → Int → List MLit → Int × Int × List MLit
  | w, R, [] => (w, R, [])
  | w, R, k :: ks =>
    if k.lit.var = x.var ∧ k.prio = P then
      if k.lit = x then absorb x P (w + k.weight) R ks else absorb x P (w - k.weight) (R + k.weight) ks
    else (w, R, k :: ks)

/-- minimize_constraint.cpp:643-660: one level; returns the literals kept, `R`, and the remaining elements. The first argument bounds
the number of rounds (the number of elements suffices, C20_defined). -/
def levelLoop (top : Top) (P : Int) (L : Nat) : Nat → Int → List MLit → R (List MLit × Int × List MLit)
  | 0, _, _ => .error .bad
  | _ + 1, R, [] => .ok ([], R, [])
  | n + 1, R, e :: es =>
    if e.prio = P then
      let a := absorb e.lit P e.weight R es
      let w := a.1
      let R := if w < 0 then a.2.1 + w else a.2.1
      let x := if w < 0 then e.lit.neg else e.lit
      let w := if w < 0 then -w else w
      if w ≠ 0 ∧ top x.var = none then
        if w ≤ MAXW then do
          let r ← levelLoop top P L n R a.2.2
          .ok (⟨x, L, w⟩ :: r.1, r.2.1, r.2.2)
        else .error .range
      else levelLoop top P L n (if top x.var = some x.tv then R + w else R) a.2.2
    else .ok ([], R, e :: es)

/-- minimize_constraint.cpp:640-663: all levels, starting with level `L`; returns literals, adjustments, priorities. -/
def levels (top : Top) : Nat → Nat → List MLit → R (List MLit × List Int × List Int)
  | 0, _, _ => .error .bad
  | _ + 1, _, [] => .ok ([], [], [])
  | n + 1, L, e :: es => do
    let (out, R, rest) ← levelLoop top e.prio L ((e :: es).length + 1) 0 (e :: es)
    let (o, a, p) ← levels top n (L + 1) rest
    .ok (out ++ o, R :: a, e.prio :: p)

/-- minimize_constraint.cpp:634-665 `prepareLevels`. -/
def prepareLevels (top : Top) (lits : List MLit) : R (List MLit × List Int × List Int) :=
  levels top (lits.length + 1) 0 (ssort cmpPrio lits)

/-- minimize_constraint.cpp:680-681: set `next` of the last weight and append. -/
def pushNext : List LW → LW → List LW
  | [], x => [x]
  | [w], x => [{ w with next := true }, x]
  | w :: ws, x => w :: pushNext ws x

/-- minimize_constraint.cpp:678-686: the remaining occurrences of the variable of `it`; returns weights, adjustments and the
remaining elements. -/
def mergeInner (it : MLit) : List LW → List Int → List MLit → List LW × List Int × List MLit
  | ws, adj, [] => (ws, adj, [])
  | ws, adj, k :: ks =>
    if k.lit.var = it.lit.var then
      if k.lit.sign ≠ it.lit.sign then
        mergeInner it (pushNext ws ⟨k.prio.toNat, false, -k.weight⟩) (adj.modify k.prio.toNat (· + k.weight)) ks
      else mergeInner it (pushNext ws ⟨k.prio.toNat, false, k.weight⟩) adj ks
    else (ws, adj, k :: ks)

/-- minimize_constraint.cpp:667-691 `mergeLevels` after the sort; literals are returned with the position of their weights. -/
def mergeLoop : Nat → List LW → List Int → List MLit → R (List (Lit × Nat) × List LW × List Int)
  | 0, _, _, _ => .error .bad
  | _ + 1, ws, adj, [] => .ok ([], ws, adj)
  | n + 1, ws, adj, it :: es => do
    let m := mergeInner it (ws ++ [⟨it.prio.toNat, false, it.weight⟩]) adj es
    let r ← mergeLoop n m.1 m.2.1 m.2.2
    .ok ((it.lit, ws.length) :: r.1, r.2.1, r.2.2)

/-- minimize_constraint.cpp:667-691 `mergeLevels`. -/
def mergeLevels (adj : List Int) (lits : List MLit) : R (List (Lit × Nat) × List LW × List Int) :=
  mergeLoop (lits.length + 1) [] adj (ssort cmpLit lits)

/-- The sparse vector that starts at the front: up to the first element without `next` (loops `do … while (w++->next)`,
minimize_constraint.h:152, 166-171). -/
def vec : List LW → List LW
  | [] => []
  | w :: ws => if w.next then w :: vec ws else [w]

/-- minimize_constraint.cpp:618-631 `CmpWeight` for a multi-level constraint, on the weights starting at the two positions. -/
def cmpVec : List LW → List LW → Bool
  | a :: as, b :: bs =>
    if a.level ≠ b.level then (if a.level < b.level then a.weight > 0 else 0 > b.weight)
    else if a.weight ≠ b.weight then a.weight > b.weight
    else if !a.next then b.next && (match bs with | c :: _ => c.weight < 0 | [] => false)
    else if !b.next then (match as with | c :: _ => c.weight > 0 | [] => false)
    else cmpVec as bs
  | _, _ => false

/-- minimize_constraint.cpp:701-716: copy the weight vectors, one for each run of literals with the same vector; `last` is the weight
position of the first literal of the run. -/
def copyLoop (ws : List LW) : Option (Nat × Nat) → List (Lit × Nat) → List LW → List (Lit × Nat) × List LW
  | _, [], out => ([], out)
  | last, (x, i) :: xs, out =>
    match last with
    | none =>
      let r := copyLoop ws (some (i, out.length)) xs (out ++ vec (ws.drop i))
      ((x, out.length) :: r.1, r.2)
    | some (l, wIdx) =>
      if cmpVec (ws.drop l) (ws.drop i) then
        let r := copyLoop ws (some (i, out.length)) xs (out ++ vec (ws.drop i))
        ((x, out.length) :: r.1, r.2)
      else
        let r := copyLoop ws (some (l, wIdx)) xs out
        ((x, wIdx) :: r.1, r.2)

/-- minimize_constraint.h:60-200 `SharedMinimizeData`: literals with weight or weight position, weights, adjustments, priorities,
lower bounds. -/
structure Data where
  lits : List (Lit × Int)
  weights : List LW
  adjust : List Int
  prios : List Int
deriving DecidableEq

/-- minimize_constraint.h:166-171 `weight(lit, level)`. -/
def weightAt (d : Data) (x : Lit × Int) (lev : Nat) : Int :=
  if d.adjust.length = 1 then (if lev = 0 then x.2 else 0)
  else match (vec (d.weights.drop x.2.toNat)).find? (fun w => w.level == lev) with
    | some w => w.weight
    | none => 0

/-- minimize_constraint.cpp:723-746 `build` with `createShared` (693-721). -/
def build (top : Top) (lits : List MLit) : R Data := do
  let (ls, adj, prios) ← prepareLevels top lits
  if prios.length > 1 then
    let (xs, ws, adj) ← mergeLevels adj ls
    let c := copyLoop ws none (ssort (fun a b => cmpVec (ws.drop a.2) (ws.drop b.2)) xs) []
    .ok ⟨c.1.map (fun x => (x.1, (x.2 : Int))), c.2 ++ [⟨adj.length - 1, false, 0⟩], adj, prios⟩
  else
    let xs := (ssort (fun a b => decide (a.weight > b.weight)) ls).map fun e => (e.lit, e.weight)
    if prios = [] then .ok ⟨xs, [], [0], [0]⟩ else .ok ⟨xs, [], adj, prios⟩

/-- minimize_constraint.cpp:58-64: the weights of the vector at `wPos` after the first; for each negative one count the literals
that start at position `wPos`. -/
def lowerVec (wPos : Int) (lits : List (Lit × Int)) (low : List Int) : List LW → List Int
  | [] => low
  | w :: ws =>
    if w.weight < 0 then
      let run := (lits.dropWhile (fun x => x.2 ≠ wPos)).takeWhile (fun x => x.2 = wPos)
      lowerVec wPos lits (low.modify w.level (· + run.length * w.weight)) ws
    else lowerVec wPos lits low ws

/-- minimize_constraint.cpp:56-65: all vectors, starting at position `wPos`. The code keeps its literal pointer between vectors; the
search for the first literal of a vector is the same because positions only increase. -/
def lowerLoop (lits : List (Lit × Int)) : Nat → Int → List Int → List LW → List Int
  | 0, _, low, _ => low
  | _ + 1, _, low, [] => low
  | n + 1, wPos, low, w :: ws =>
    let v := vec (w :: ws)
    lowerLoop lits n (wPos + v.length) (lowerVec wPos lits low v.tail) ((w :: ws).drop v.length)

/-- minimize_constraint.cpp:49-66 `resetBounds`: the initial lower bounds. -/
def lowerBounds (d : Data) : List Int :=
  lowerLoop d.lits (d.weights.length + 1) 0 (List.replicate d.adjust.length 0) d.weights

/-- minimize_constraint.cpp:582-604 `add(const SharedData&)`: literals and adjustments as statements (the splitting of an adjustment
outside the 32-bit range into several weights is not modelled). -/
def fromData (d : Data) : List MLit :=
  (if d.adjust.length = 1 then d.lits.map fun x => ⟨x.1, d.prios.headD 0, x.2⟩
   else d.lits.flatMap fun x => (vec (d.weights.drop x.2.toNat)).map fun w =>
     ⟨x.1, (d.prios[w.level]?).getD (-(w.level : Int)), w.weight⟩) ++
  (d.adjust.zipIdx.filter (fun a => a.1 ≠ 0)).map fun a => ⟨⟨0, false⟩, (d.prios[a.2]?).getD (-(a.2 : Int)), a.1⟩

end Clasp.Mini
