/-
C34. `DimacsReader` (src/parser.cpp 171-174, 291-395).

The text is a list of characters. The stream primitives belong to libpotassco, whose sources are not part of the repository; they are
modelled after their documentation and use: white space are the characters 9..32; `match(int)` skips white space, reads an optional sign
and at least one digit, and leaves its argument unchanged on failure; `match(word)` skips white space (unless told otherwise) and tests
for a prefix; line breaks are already normalised to a single '\n'. Numbers are unbounded (the stream uses 64 bits); where the reader
narrows to 32 bits the model checks. Loops carry fuel: the length of the text suffices (C34_dimacs). Not modelled: the clasp specific
extensions read by `parseExt` (options `parse_ext`, off by default).
-/
import Verif.Input.Sat
namespace Clasp.Input
open Core Weight

/-- the input stream: the characters not yet read (libpotassco `BufferedStream`) -/
abbrev Text := List Char

/-- How reading ends otherwise: `require` failed (parser.cpp `ParseError`), or 32 bit arithmetic overflows (parser.cpp:363-366) -/
inductive PErr where
  | syntax
  | overflow
deriving DecidableEq, Repr

/-- libpotassco `BufferedStream::skipWs`: the characters skipped -/
def isWs (c : Char) : Bool := decide (9 ≤ c.toNat) && decide (c.toNat < 33)

/-- libpotassco `BufferedStream::skipWs` -/
def skipWs (s : Text) : Text := s.dropWhile isWs

/-- libpotassco `BufferedStream::match(int64&)`: the digits -/
def digs : Text → Nat → Nat × Text
  | [], a => (a, [])
  | c :: s, a => if c.isDigit then digs s (10 * a + (c.toNat - 48)) else (a, c :: s)

/-- libpotassco `BufferedStream::match(int64&)`: the optional sign -/
def sign : Text → Bool × Text
  | [] => (false, [])
  | c :: s => if c = '-' then (true, s) else if c = '+' then (false, s) else (false, c :: s)

/-- libpotassco `BufferedStream::match(int64&)` without white space and sign -/
def matchN : Text → Option Nat × Text
  | [] => (none, [])
  | c :: s => if c.isDigit then (some (digs (c :: s) 0).1, (digs (c :: s) 0).2) else (none, c :: s)

/-- libpotassco `BufferedStream::match(int64&)` -/
def matchI (s : Text) : Option Int × Text :=
  let t := sign (skipWs s)
  ((matchN t.2).1.map fun (n : Nat) => if t.1 then -(n : Int) else (n : Int), (matchN t.2).2)

/-- libpotassco `match(word, skipWs)` -/
def tok (ws : Bool) (w s : Text) : Bool × Text :=
  let s := if ws then skipWs s else s
  if w.isPrefixOf s then (true, s.drop w.length) else (false, s)

/-- libpotassco `ProgramReader::skipLine` -/
def skipLine : Text → Text
  | [] => []
  | c :: s => if c = '\n' then s else skipLine s

/-- parser.cpp:171-174 `SatReader::skipLines`, with fuel; the stream is left at the first other character -/
def skipLines (c : Char) : Nat → Text → Text
  | 0, s => skipWs s
  | f + 1, s => if (skipWs s).head? = some c then skipLines c f (skipLine (skipWs s)) else skipWs s

/-- literal.h `toLit` -/
def toLit (i : Int) : Lit := ⟨i.natAbs, decide (i < 0)⟩

/-- parser.cpp:332-335: the literals of a clause; the bool says whether the loop ended with 0 -/
def litLoop (maxV : Int) : Nat → Text → List Int → Except PErr (List Int × Bool × Text)
  | 0, _, _ => .error .syntax
  | f + 1, s, acc =>
    match matchI s with
    | (none, s) => .ok (acc, false, s)
    | (some l, s) =>
      if l = 0 then .ok (acc, true, s)
      else if -maxV ≤ l ∧ l ≤ maxV then litLoop maxV f s (acc ++ [l])
      else .error .syntax

/-- parser.cpp:355-370: the call made by `parseConstraintRhs` for operator `c` and bound `b` -/
def rhsCall (c : Char) (ts : List WL) (b : Int) : Except PErr Call :=
  if -MAXW - 1 ≤ b ∧ b ≤ MAXW then
    if c = '<' then
      if b = -MAXW - 1 ∨ ts.any (fun t => t.w == -MAXW - 1) then .error .overflow
      else .ok (.con (ts.map fun t => ⟨t.lit, -t.w⟩) (-b))
    else .ok (.con ts b)
  else .error .syntax

/-- parser.cpp:355-370 `parseConstraintRhs` -/
def rhs (ts : List WL) : Text → Except PErr (Call × Text)
  | [] => .error .syntax
  | c :: s =>
    if c = '<' ∨ c = '>' then
      match tok true ['=', ' '] s with
      | (false, _) => .error .syntax
      | (true, s) =>
        match matchI s with
        | (none, _) => .error .syntax
        | (some b, s) => do let r ← rhsCall c ts b; .ok (r, s)
    else .error .syntax

/-- parser.cpp:374-380: the terms of a pseudo-boolean constraint -/
def pbLoop (maxV : Int) : Nat → Text → List WL → Except PErr (List WL × Text)
  | 0, _, _ => .error .syntax
  | f + 1, s, acc =>
    match matchI s with
    | (none, s) => .ok (acc, s)
    | (some w, s) =>
      if -MAXW - 1 ≤ w ∧ w ≤ MAXW then
        match matchI (tok true ['*'] s).2 with
        | (none, _) => .error .syntax
        | (some l, s) =>
          if -maxV ≤ l ∧ l ≤ maxV ∧ l ≠ 0 then pbLoop maxV f s (acc ++ [⟨toLit l, w⟩]) else .error .syntax
      else .error .syntax

/-- parser.cpp:383-395 `parseAtLeastK` after `k ` -/
def atLeastK (maxV : Int) (f : Nat) (s : Text) : Except PErr (Call × Text) :=
  match matchI s with
  | (none, _) => .error .syntax
  | (some k, s) =>
    if 0 ≤ k ∧ k ≤ MAXW then
      match litLoop maxV f s [] with
      | .error e => .error e
      | .ok (_, false, _) => .error .syntax
      | .ok (ls, true, s) => .ok (.con (ls.map fun l => ⟨toLit l, 1⟩) k, s)
    else .error .syntax

/-- What `doAttach` finds out (parser.h:158-160) and gives to `prepareProblem` -/
structure Hdr where
  nv : Nat
  hw : Int
  wcnf : Bool
  plus : Bool
deriving DecidableEq, Repr

/-- parser.cpp:330: the weight of a clause; `d` is the weight without `wcnf` -/
def weight (wcnf : Bool) (d : Int) (s : Text) : Except PErr (Int × Text) :=
  if wcnf then
    match matchI s with
    | (none, _) => .error .syntax
    | (some cw, s) => if cw > 0 then .ok (cw, s) else .error .syntax
  else .ok (d, s)

/-- parser.cpp:331-348: one clause or constraint after its weight -/
def item1 (h : Hdr) (cw : Int) (s : Text) : Except PErr (Call × Text) :=
  if h.plus = true ∧ (if h.wcnf then skipWs s else s).head? = some 'w' then do
    let (ts, s) ← pbLoop h.nv (s.length + 1) (tok true ['w'] s).2 []
    rhs ts s
  else
    match litLoop h.nv (s.length + 1) s [] with
    | .error e => .error e
    | .ok (ls, true, s) => .ok (.clause (ls.map toLit) cw, s)
    | .ok (ls, false, s) =>
      if h.plus then rhs (ls.map fun l => ⟨toLit l, 1⟩) s
      else if ls = [] ∧ h.wcnf = false then
        match tok true ['k', ' '] s with
        | (false, _) => .error .syntax
        | (true, s) => atLeastK h.nv (s.length + 1) s
      else .error .syntax

/-- parser.cpp:329-351: one iteration of the loop in `doParse` after `skipLines` and `peek` -/
def item (h : Hdr) (maxsat : Bool) (s : Text) : Except PErr (Call × Text) := do
  let (cw, s) ← weight h.wcnf (if maxsat then 1 else 0) s
  item1 h cw s

/-- parser.cpp:328-353: stop at the end of the text, otherwise read an item and go on with `next` -/
def more (h : Hdr) (maxsat : Bool) (next : Text → Except PErr (List Call)) : Text → Except PErr (List Call)
  | [] => .ok []
  | c :: s => do
    let x ← item h maxsat (c :: s)
    let xs ← next x.2
    .ok (x.1 :: xs)

/-- parser.cpp:324-353 `doParse`; the calls made on the builder -/
def items (h : Hdr) (maxsat : Bool) : Nat → Text → Except PErr (List Call)
  | 0, _ => .error .syntax
  | f + 1, s => more h maxsat (items h maxsat f) (skipLines 'c' s.length s)

/-- literal.h:48, parser.h:86 `VAR_MAX`: the largest variable allowed in a problem line -/
def VARMAX : Nat := 2 ^ 30 - 1

/-- libpotassco `matchPos(max, ...)` -/
def matchPos (max : Nat) (s : Text) : Except PErr (Nat × Text) :=
  match matchI s with
  | (none, _) => .error .syntax
  | (some i, s) => if 0 ≤ i ∧ i ≤ max then .ok (i.toNat, s) else .error .syntax

/-- parser.cpp:307-309: skip blanks -/
def blanks (s : Text) : Text := s.dropWhile (· == ' ')

/-- parser.cpp:308: the weight of hard clauses -/
def topWeight (wcnf : Bool) (s : Text) : Int × Text :=
  if wcnf = true ∧ s.head? ≠ some '\n' then
    match matchI s with
    | (none, s) => (0, s)
    | (some cw, s) => (cw, s)
  else (0, s)

/-- parser.cpp:310: the end of the problem line -/
def lineEnd (h : Hdr) : Text → Except PErr (Hdr × Text)
  | [] => .error .syntax
  | c :: s => if c = '\n' then .ok (h, s) else .error .syntax

/-- parser.cpp:305-311: the numbers of the problem line -/
def sizes (wcnf plus : Bool) (s : Text) : Except PErr (Hdr × Text) := do
  let v ← matchPos VARMAX s
  let c ← matchPos (2 ^ 32 - 1) v.2
  let t := topWeight wcnf (blanks c.2)
  lineEnd ⟨v.1, t.1, wcnf, plus⟩ (blanks t.2)

/-- parser.cpp:301-304: after the name of the format -/
def fmtEnd (knf wcnf : Bool) (s : Text) : Except PErr (Hdr × Text) :=
  let (plus, s) := if knf then (false, s) else tok false ['+'] s
  match s with
  | ' ' :: s => sizes wcnf plus s
  | _ => .error .syntax

/-- parser.cpp:298-302: the name of the format -/
def fmt (s : Text) : Except PErr (Hdr × Text) :=
  match tok true ['k', 'n', 'f'] s with
  | (true, s) => fmtEnd true false s
  | (false, s) =>
    let (wcnf, s) := tok true ['w'] s
    match tok false ['c', 'n', 'f'] s with
    | (true, s) => fmtEnd false wcnf s
    | (false, _) => .error .syntax

/-- parser.cpp:294-317 `doAttach` -/
def attach (s : Text) : Except PErr (Hdr × Text) :=
  if s.head? = some 'c' ∨ s.head? = some 'p' then
    match tok true ['p', ' '] (skipLines 'c' s.length s) with
    | (true, s) => fmt s
    | (false, _) => .error .syntax
  else .error .syntax

/-- Reading a problem: `doAttach` and `doParse` -/
def dimacs (maxsat : Bool) (s : Text) : Except PErr (Hdr × List Call) := do
  let (h, s) ← attach s
  let cs ← items h maxsat (s.length + 1) s
  .ok (h, cs)

end Clasp.Input
