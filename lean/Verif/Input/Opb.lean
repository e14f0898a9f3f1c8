/-
C34. `OpbReader` (src/parser.cpp 403-512, clasp/parser.h 163-186).

Same assumptions about the stream as in Verif/Input/Dimacs.lean. The reader calls the builder while reading (products get their variables
when they are met, and the number of variables allowed depends on it), so the state of the builder is threaded through. Loops carry fuel:
the length of the text suffices (C34_opb_accept). Not modelled: the extensions read by `parseExt` (options `parse_ext`, off by default).
-/
import Verif.Input.Dimacs
import Verif.Input.Pb
namespace Clasp.Input
open Core Weight

/-- How reading ends otherwise: `require` failed (parser.cpp `ParseError`), or the builder failed -/
inductive OErr where
  | syntax
  | builder (f : Fail)

/-- Calls of the builder (program_builder.h:182-204) made by the reader -/
def lift {α : Type} : R α → Except OErr α
  | .ok x => .ok x
  | .error f => .error (.builder f)

/-- libpotassco `matchInt(min, max, ...)` -/
def matchInt (lo hi : Int) (s : Text) : Except OErr (Int × Text) :=
  match matchI s with
  | (none, _) => .error .syntax
  | (some i, s) => if lo ≤ i ∧ i ≤ hi then .ok (i, s) else .error .syntax

/-- libpotassco `require(match(word))` -/
def need (w s : Text) : Except OErr Text :=
  match tok true w s with
  | (true, s) => .ok s
  | (false, _) => .error .syntax

/-- parser.cpp:499-511 `parseTerm`; `n` is `numVars()` -/
def opbTerm (n : Nat) : Nat → Text → List Lit → Except OErr (List Lit × Text)
  | 0, _, _ => .error .syntax
  | f + 1, s, acc => do
    let t := tok true ['~'] (tok true ['*'] s).2
    let s ← need ['x'] t.2
    let v ← matchInt 1 (2 ^ 31 - 1) s
    if v.1 ≤ n then
      let s := skipWs v.2
      let acc := acc ++ [⟨v.1.toNat, t.1⟩]
      if s.head? = some '*' ∨ s.head? = some '~' ∨ s.head? = some 'x' then opbTerm n f s acc else .ok (acc, s)
    else .error .syntax

/-- parser.cpp:488-492: one weighted term -/
def opbWTerm (p : Pb) (s : Text) : Except OErr (Pb × WL × Text) := do
  let c ← matchInt (-MAXW) MAXW s
  let t ← opbTerm (p.aux - 1) (c.2.length + 1) c.2 []
  let x ← lift (p.term t.1)
  .ok (x.1, ⟨x.2, c.1⟩, skipWs t.2)

/-- parser.cpp:485-495 `parseSum` -/
def opbSum : Nat → Pb → Text → List WL → Except OErr (Pb × List WL × Text)
  | 0, _, _, _ => .error .syntax
  | f + 1, p, s, acc =>
    match tok true [';'] s with
    | (true, s) => .ok (p, acc, s)
    | (false, s) => do
      let t ← opbWTerm p s
      if t.2.2.head? = some '>' ∨ t.2.2.head? = some '=' then .ok (t.1, acc ++ [t.2.1], t.2.2)
      else opbSum f t.1 t.2.2 (acc ++ [t.2.1])

/-- What `doAttach` remembers (parser.h:178-179) and gives to `prepareProblem` -/
structure OHdr where
  nv : Nat
  np : Nat
  ns : Nat
  lo : Nat
  hi : Nat

/-- parser.cpp:470-474: the costs in front of a soft constraint, 0 if there are none -/
def opbCost (h : OHdr) (s : Text) : Except OErr (Int × Text) :=
  match tok true ['['] s with
  | (false, s) => .ok (0, s)
  | (true, s) => do
    let c ← matchInt h.lo h.hi s
    let s ← need [']'] c.2
    .ok (c.1, s)

/-- parser.cpp:476-477: the relation; the bool is `eq` -/
def opbRel (s : Text) : Except OErr (Bool × Text) :=
  match tok true ['='] s with
  | (true, s) => .ok (true, s)
  | (false, s) =>
    match tok false ['>', '='] s with
    | (true, s) => .ok (false, s)
    | (false, _) => .error .syntax

/-- parser.cpp:469-481 `parseConstraint` -/
def opbCon (h : OHdr) (p : Pb) (s : Text) : Except OErr (Pb × Text) := do
  let c ← opbCost h s
  let t ← opbSum (c.2.length + 1) p c.2 []
  let r ← opbRel t.2.2
  let b ← matchInt (-MAXW - 1) MAXW r.2
  let s ← need [';'] b.2
  let p ← lift (t.1.addConstraint t.2.1 b.1 r.1 c.1)
  .ok (p, s)

/-- parser.cpp:453-464 `parseOptObjective` -/
def opbObj (p : Pb) (s : Text) : Except OErr (Pb × Text) :=
  match tok true ['m', 'i', 'n', ':'] s with
  | (true, s) => do
    let t ← opbSum (s.length + 1) p s []
    .ok (t.1.addObjective t.2.1, t.2.2)
  | (false, s) =>
    match tok true ['s', 'o', 'f', 't', ':'] s with
    | (false, s) => .ok (p, s)
    | (true, s) =>
      match matchI s with
      | (none, _) => .error .syntax
      | (some b, s) => if b > 0 then do let s ← need [';'] s; .ok (p.setSoftBound b, s) else .error .syntax

/-- parser.cpp:446-447: stop at the end of the text, otherwise read a constraint and go on with `next` -/
def opbMore (h : OHdr) (next : Pb → Text → Except OErr Pb) (p : Pb) : Text → Except OErr Pb
  | [] => .ok p
  | c :: s => do
    let x ← opbCon h p (c :: s)
    next x.1 x.2

/-- parser.cpp:444-448: the loop of `doParse` -/
def opbItems (h : OHdr) : Nat → Pb → Text → Except OErr Pb
  | 0, _, _ => .error .syntax
  | f + 1, p, s => opbMore h (opbItems h f) p (skipLines '*' s.length s)

/-- libpotassco `matchPos(max, ...)`, `require(match(word))` -/
def needPos (w : Text) (max : Nat) (s : Text) : Except OErr (Nat × Text) := do
  let s ← need w s
  match matchPos max s with
  | .ok r => .ok r
  | .error _ => .error .syntax

/-- parser.cpp:418-423: the number of products, if any -/
def opbProds (s : Text) : Except OErr (Nat × Text) :=
  match tok true ['#', 'p', 'r', 'o', 'd', 'u', 'c', 't', '='] s with
  | (false, s) => .ok (0, s)
  | (true, s) => do
    let n ← needPos [] (2 ^ 32 - 1) s
    let z ← needPos ['s', 'i', 'z', 'e', 'p', 'r', 'o', 'd', 'u', 'c', 't', '='] (2 ^ 32 - 1) n.2
    .ok (n.1, z.2)

/-- parser.cpp:424-433: the number of soft constraints, if any, and the range of costs -/
def opbSoft (nv np : Nat) (s : Text) : Except OErr (OHdr × Text) :=
  match tok true ['#', 's', 'o', 'f', 't', '='] s with
  | (false, s) => .ok (⟨nv, np, 0, 0, 0⟩, s)
  | (true, s) => do
    let n ← needPos [] (2 ^ 32 - 1) s
    let a ← needPos ['m', 'i', 'n', 'c', 'o', 's', 't', '='] MAXW.toNat n.2
    let b ← needPos ['m', 'a', 'x', 'c', 'o', 's', 't', '='] MAXW.toNat a.2
    let s ← need ['s', 'u', 'm', 'c', 'o', 's', 't', '='] b.2
    match matchI s with
    | (none, _) => .error .syntax
    | (some c, s) => if c > 0 then .ok (⟨nv, np, n.1, a.1, b.1⟩, s) else .error .syntax

/-- parser.cpp:409-436 `doAttach` -/
def opbAttach (s : Text) : Except OErr (OHdr × Text) :=
  if s.head? = some '*' then do
    let v ← needPos ['*', ' ', '#', 'v', 'a', 'r', 'i', 'a', 'b', 'l', 'e', '='] VARMAX s
    let c ← needPos ['#', 'c', 'o', 'n', 's', 't', 'r', 'a', 'i', 'n', 't', '='] (2 ^ 32 - 1) v.2
    let p ← opbProds c.2
    opbSoft v.1 p.1 p.2
  else .error .syntax

/-- Reading a problem: `doAttach` and `doParse` -/
def opb (s : Text) : Except OErr Pb := do
  let h ← opbAttach s
  let o ← opbObj (Pb.prepare h.1.nv h.1.np h.1.ns) (skipLines '*' h.2.length h.2)
  opbItems h.1 (o.2.length + 1) o.1 o.2

end Clasp.Input
