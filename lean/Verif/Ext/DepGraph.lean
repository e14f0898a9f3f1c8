import Verif.Core.Sem
/-!
# The graph of the acyclicity constraint

Models `ExtDepGraph` (clasp/dependency_graph.h:337-400, src/dependency_graph.cpp:785-837): edges with condition literals are added step by step; `finalize` stores them so that the
edges leaving and entering a node can be iterated.

Simplifications: node ids are unbounded numbers (the code needs ids below 2^31, because `Inv::rep` stores `tail << 1`); the sentinel arc at the end of `fwdArcs_` is the flag `frozen`;
`UINT32_MAX` as offset is `none`; `std::sort` is a stable sort (the theorems use only that the result is a sorted permutation).
-/

namespace Clasp.DepGraph
open Clasp.Core (Lit)

/-- clasp/dependency_graph.h:339-345 `Arc`. -/
structure Arc where
  lit : Lit
  tail : Nat
  head : Nat
  deriving DecidableEq, Repr

/-- clasp/dependency_graph.h:346-350 `Inv`: `rep` is the tail and in the lowest bit whether the next element enters the same node. -/
structure Inv where
  lit : Lit
  tail : Nat
  more : Bool
  deriving DecidableEq, Repr

/-- clasp/dependency_graph.h:395-400: the data of a graph; `fo` and `io` are the offsets in `nodes_`.  `frz` are the variables frozen by `finalize`. -/
structure Gr where
  fwd : List Arc
  frozen : Bool
  inv : List Inv
  fo : List (Option Nat)
  io : List (Option Nat)
  maxNode : Nat
  com : Nat
  gen : Nat
  frz : List Nat
  deriving DecidableEq, Repr

/-- src/dependency_graph.cpp:784: the empty graph. -/
def Gr.start : Gr := { fwd := [], frozen := false, inv := [], fo := [], io := [], maxNode := 0, com := 0, gen := 0, frz := [] }

/-- src/dependency_graph.cpp:786-795 `addEdge`; `none` if the requirement is violated. -/
def addEdge (g : Gr) (a : Arc) : Option Gr :=
  if g.frozen then none else
    let g1 := { g with fwd := g.fwd ++ [a], maxNode := max (max a.tail a.head + 1) g.maxNode }
    if g.com ≠ 0 ∧ min a.tail a.head < g.fo.length then some { g1 with inv := [], com := 0, gen := g.gen + 1 }
    else some g1

/-- src/dependency_graph.cpp:799-803 `update`. -/
def update (g : Gr) : Gr := { g with frozen := false }

/-- clasp/dependency_graph.h:351-359 `CmpArc<0>`: by tail, then by head. -/
def le0 (a b : Arc) : Bool := a.tail < b.tail || (a.tail == b.tail && a.head ≤ b.head)

/-- clasp/dependency_graph.h:351-359 `CmpArc<1>`: by head, then by tail. -/
def le1 (a b : Arc) : Bool := a.head < b.head || (a.head == b.head && a.tail ≤ b.tail)

/-- src/dependency_graph.cpp:809, 827: `std::sort`, here by insertion: one element is inserted into a sorted list. -/
def insertBy (le : Arc → Arc → Bool) (a : Arc) : List Arc → List Arc
  | [] => [a]
  | b :: l => if le a b then a :: b :: l else b :: insertBy le a l

/-- src/dependency_graph.cpp:809, 827: `std::sort`. -/
def sortBy (le : Arc → Arc → Bool) : List Arc → List Arc
  | [] => []
  | a :: l => insertBy le a (sortBy le l)

/-- src/dependency_graph.cpp:813-825 (`key` is the head, the offset `invOff`) and 828-833 (`key` is the tail, the offset `fwdOff`): the offset of a node is set at the first arc of each
group; `none` if the requirement is violated or the node does not exist.  `prev` is the node of the current group, `k` the position of the next arc. -/
def setOffs (key : Arc → Nat) (com : Nat) : List Arc → Option Nat → Nat → List (Option Nat) → Option (List (Option Nat))
  | [], _, _, off => some off
  | a :: as, prev, k, off =>
    if prev = some (key a) then setOffs key com as (some (key a)) (k + 1) off
    else
      match off[key a]? with
      | none => none
      | some o => if com ≠ 0 ∧ o.isSome then none else setOffs key com as (some (key a)) (k + 1) (off.set (key a) (some k))

/-- src/dependency_graph.cpp:818-824: the elements added to `invArcs_`; the lowest bit is cleared in the last arc of each group. -/
def invMake : List Arc → List Inv
  | [] => []
  | [a] => [⟨a.lit, a.tail, false⟩]
  | a :: b :: as => ⟨a.lit, a.tail, b.head == a.head⟩ :: invMake (b :: as)

/-- src/dependency_graph.cpp:812: `nodes_.resize(maxNode_, sent)`. -/
def resize (l : List (Option Nat)) (n : Nat) : List (Option Nat) := l.take n ++ List.replicate (n - l.length) none

/-- src/dependency_graph.cpp:804-837 `finalize`; `none` if a requirement is violated. -/
def finalize (g : Gr) : Option Gr :=
  if g.frozen then some g else
    let byHead := sortBy le1 (g.fwd.drop g.com)
    let byTail := sortBy le0 byHead
    match setOffs Arc.head g.com byHead none g.inv.length (resize g.io g.maxNode), setOffs Arc.tail g.com byTail none g.com (resize g.fo g.maxNode) with
    | some io, some fo =>
      some { g with fwd := g.fwd.take g.com ++ byTail, frozen := true, inv := g.inv ++ invMake byHead, fo := fo, io := io, com := g.fwd.length,
                    frz := g.frz ++ byHead.map fun a => a.lit.var }
    | _, _ => none

/-- clasp/dependency_graph.h:374 `fwdNext`: the arcs from a position on; the arc after the last one is the sentinel. -/
def fwdFrom : List Arc → List Arc
  | [] => []
  | [a] => [a]
  | a :: b :: as => if a.tail = b.tail then a :: fwdFrom (b :: as) else [a]

/-- clasp/dependency_graph.h:370-374: iteration with `fwdBegin` and `fwdNext`. -/
def fwdOf (g : Gr) (n : Nat) : List Arc :=
  match g.fo[n]? with
  | some (some k) => fwdFrom (g.fwd.drop k)
  | _ => []

/-- clasp/dependency_graph.h:379 `invNext`. -/
def invFrom : List Inv → List Inv
  | [] => []
  | a :: as => if a.more then a :: invFrom as else [a]

/-- clasp/dependency_graph.h:375-379: iteration with `invBegin` and `invNext`. -/
def invOf (g : Gr) (n : Nat) : List Inv :=
  match g.io[n]? with
  | some (some k) => invFrom (g.inv.drop k)
  | _ => []

/-- The calls of a user of the graph: src/logic_program.cpp:1740-1758, src/parser.cpp:240-252. -/
inductive Op
  | edge (a : Arc)
  | fin
  | upd
  deriving DecidableEq, Repr

/-- One call. -/
def step (g : Gr) : Op → Option Gr
  | .edge a => addEdge g a
  | .fin => finalize g
  | .upd => some (update g)

/-- A sequence of calls. -/
def run (g : Gr) : List Op → Option Gr
  | [] => some g
  | o :: os => match step g o with
    | none => none
    | some g1 => run g1 os

end Clasp.DepGraph
