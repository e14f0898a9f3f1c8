/-
SAT preprocessing: subsumption, self-subsuming resolution, variable elimination by clause distribution and blocked clause
elimination (src/satelite.cpp, clasp/satelite.h), loading of the clauses and extension of models
(src/shared_context.cpp 360-543, clasp/shared_context.h 117-219).

What is modelled: the table of clauses with the order of their literals, the occurrence lists with their stale entries and the
reuse of clause ids, the watch lists, the literal marks, the stack of removed clauses, the top-level assignment.

Simplifications:
* the order in which clauses are tested and variables are tried (subsumption queue, elimination heap, queue for blocked clauses,
  counters `pos`, `neg`, `dirty`, time-outs, limits) is left open: theorems are about every sequence of operations;
* the number of relevant occurrences `numOcc` is the number of live entries of the occurrence list;
* the other constraints of the problem and the propagation of top-level literals through them are the parameter `Cx.ext`;
* the flag `marked_` of a clause is kept local to `bceVe`: no clause is marked outside of it (asserted in satelite.cpp:366);
* statistics and progress events are left out;
* reading `c[1]` of a clause with one literal, and removing a literal from a clause that does not contain it, are the outcome
  `undef`. Dereferencing a removed clause in `subsumed` cannot happen (`C23_lists`); the model skips it.
-/
import Verif.Core.Sem
import Mathlib.Logic.Function.Basic
namespace Clasp.Elite
open Clasp.Core Function

/-- Result of an operation: a new state, `return false` (problem found unsatisfiable), undefined behaviour, or the recursion
limit of the model reached. -/
inductive Res (α : Type) where
  | ok (a : α)
  | unsat
  | undef
  | fuel

/-- sequencing of operations that may `return false` -/
def Res.bind {α β : Type} : Res α → (α → Res β) → Res β
  | .ok a, f => f a
  | .unsat, _ => .unsat
  | .undef, _ => .undef
  | .fuel, _ => .fuel

instance : Monad Res where
  pure := .ok
  bind := Res.bind

/-- shared_context.h:120-148: the literals of a clause in their order -/
abbrev Cl := List Lit

/-- A clause on the stack of removed clauses: its literals and the flag `marked_` (shared_context.h:134, 146; 205-209). -/
structure ECl where
  lits : Cl
  marked : Bool
deriving DecidableEq, Repr

/-- `OccurList::litMark` of every variable (satelite.h:84): `none` = 00, `some false` = 01, `some true` = 10 -/
abbrev Marks := Nat → Option Bool

/-- Data members of SatElite and its base (satelite.h:74-119, 163-173; shared_context.h:210-218) and the top-level assignment
of the master solver. -/
structure St where
  /-- `clauses_` -/
  cls : Nat → Option Cl
  /-- left part of `occurs_[v].refs`: id of a clause and sign of its literal of `v` -/
  occ : Nat → List (Nat × Bool)
  /-- right part of `occurs_[v].refs`: ids of the clauses whose first literal is over `v` -/
  wat : Nat → List Nat
  /-- `occurs_[v].litMark` -/
  mark : Marks
  /-- `elimTop_`, top first -/
  elim : List ECl
  /-- variables eliminated from the assignment (shared_context.cpp:948-960) -/
  elimd : Nat → Bool
  /-- `master()->trail()`, oldest literal first -/
  trail : List Lit
  /-- `facts_` -/
  facts : Nat

/-- The rest of the problem: `ext` is the propagation of the top-level assignment through the other constraints
(`Solver::propagate`), `none` on conflict, otherwise the literals added to the trail; `frozen` is `VarInfo::frozen`. -/
structure Cx where
  ext : List Lit → Option (List Lit)
  frozen : Nat → Bool

/-- solver.h `isTrue`, `isFalse` on level 0 -/
def isTrue (tr : List Lit) (l : Lit) : Bool := decide (l ∈ tr)
/-- see `isTrue` -/
def isFalse (tr : List Lit) (l : Lit) : Bool := decide (l.neg ∈ tr)

/-- satelite.h:106 `marked` -/
def marked (mk : Marks) (l : Lit) : Bool := decide (mk l.var = some l.sign)

/-- satelite.cpp:376-380 `markAll`; satelite.h:107 `mark` -/
def markAll (mk : Marks) : List Lit → Marks
  | [] => mk
  | l :: c => markAll (update mk l.var (some l.sign)) c

/-- satelite.cpp:381-385 `unmarkAll`; satelite.h:108 `unmark` -/
def unmarkAll (mk : Marks) : List Lit → Marks
  | [] => mk
  | l :: c => unmarkAll (update mk l.var none) c

/-- `std::swap(c[0], c[x])` (satelite.cpp:125, 300-301) -/
def swap0 : Cl → Nat → Cl
  | [], _ => []
  | c, 0 => c
  | a :: t, x + 1 => match t.drop x with
    | [] => a :: t
    | b :: post => b :: (t.take x ++ a :: post)

/-- shared_context.h:123 `abstractLit`, accumulated over a clause (satelite.cpp:81-86; shared_context.cpp:524-531) -/
def abstr : Cl → BitVec 64
  | [] => 0
  | l :: c => (1#64 <<< ((l.var + 63) % 64)) ||| abstr c

/-- `occurs_[v].add` for every literal and `unmark` (satelite.cpp:82-85) -/
def attachOcc (id : Nat) : Cl → (Nat → List (Nat × Bool)) → (Nat → List (Nat × Bool))
  | [], occ => occ
  | l :: c, occ => attachOcc id c (update occ l.var (occ l.var ++ [(id, l.sign)]))

/-- satelite.cpp:79-97 `attach` -/
def attach (id : Nat) (s : St) : St :=
  match s.cls id with
  | some (x :: t) => { s with
      occ := attachOcc id (x :: t) s.occ
      mark := unmarkAll s.mark (x :: t)
      wat := update s.wat x.var (s.wat x.var ++ [id]) }
  | _ => s

/-- `occurs_[v].removeWatch` (satelite.h:91) -/
def removeWatch (s : St) (v id : Nat) : St := { s with wat := update s.wat v ((s.wat v).erase id) }

/-- satelite.cpp:99-108 `detach`: the entries in the occurrence lists stay (`updateClauseList` is false) -/
def detach (id : Nat) (s : St) : St :=
  match s.cls id with
  | some (x :: _) => { removeWatch s x.var id with cls := update s.cls id none }
  | _ => s

/-- `ctx_->addUnary(l) && ctx_->master()->propagate()` (satelite.cpp:349, 541; shared_context.cpp:424) -/
def addUnit (cx : Cx) (l : Lit) (s : St) : Res St :=
  if l ∈ s.trail then .ok s
  else if l.neg ∈ s.trail then .unsat
  else match cx.ext (s.trail ++ [l]) with
    | none => .unsat
    | some ls => .ok { s with trail := s.trail ++ [l] ++ ls }

/-- satelite.cpp:345-352: a clause with one literal left is removed and the literal becomes a fact -/
def afterStrengthen (cx : Cx) (id : Nat) (s : St) : Cl → Res St
  | [u] => addUnit cx u (detach id s)
  | _ => .ok s

/-- satelite.cpp:336-353 `strengthenClause`; shared_context.cpp:524-531 `Clause::strengthen` -/
def strengthenClause (cx : Cx) (id : Nat) (l : Lit) (s : St) : Res St :=
  match s.cls id with
  | some (a :: b :: t) =>
    if l ∈ a :: b :: t then
      let s1 := if a = l then
        { s with wat := let w := update s.wat a.var ((s.wat a.var).erase id); update w b.var (w b.var ++ [id]) } else s
      let c := (a :: b :: t).erase l
      afterStrengthen cx id { s1 with cls := update s1.cls id (some c) } c
    else .undef
  | _ => .undef

/-- satelite.cpp:165-169, the clauses containing the variable of the fact `l` -/
def factLoop (cx : Cx) (l : Lit) : List (Nat × Bool) → St → Res St
  | [], s => .ok s
  | (id, sg) :: xs, s =>
    match s.cls id with
    | none => factLoop cx l xs s
    | some _ =>
      if sg = l.sign then factLoop cx l xs (detach id s)
      else (strengthenClause cx id l.neg s).bind (factLoop cx l xs)

/-- `ov.clear(); ov.mark(!l.sign())` (satelite.cpp:170-171) and `facts_++` of line 162, which the loop in between does not read -/
def closeFact (l : Lit) (s : St) : St :=
  { s with occ := update s.occ l.var [], wat := update s.wat l.var [], mark := update s.mark l.var (some (!l.sign)),
           facts := s.facts + 1 }

/-- satelite.cpp:158-175 `propagateFacts`; the first argument bounds the number of rounds -/
def propFacts (cx : Cx) : Nat → St → Res St
  | 0, s => if s.facts = s.trail.length then .ok s else .fuel
  | n + 1, s =>
    match s.trail[s.facts]? with
    | none => .ok s
    | some l =>
      (factLoop cx l (s.occ l.var) s).bind fun s1 => propFacts cx n (closeFact l s1)

/-- Result of `subsumes`: `lit_false()`, `lit_true()` or a literal (satelite.cpp:233-236) -/
inductive Sub where
  | no
  | all
  | lit (l : Lit)
deriving DecidableEq, Repr

/-- `return res` (satelite.cpp:266), `none` stands for `lit_true()` -/
def Sub.of : Option Lit → Sub
  | none => .all
  | some l => .lit l

/-- satelite.cpp:241-253, the test without marks -/
def subShort (other : Cl) : Cl → Option Lit → Sub
  | [], res => .of res
  | l :: c, res =>
    match other.find? (fun q => q.var = l.var) with
    | none => .no
    | some q =>
      if q.sign = l.sign then subShort other c res
      else match res with
        | none => subShort other c (some l)
        | some r => if r = l then subShort other c (some l) else .no

/-- satelite.cpp:256-264, the test with all literals of the other clause marked -/
def subLong (mk : Marks) : Cl → Option Lit → Sub
  | [], res => .of res
  | l :: c, res =>
    match mk l.var with
    | none => .no
    | some sg =>
      if sg = l.sign then subLong mk c res
      else match res with
        | none => subLong mk c (some l)
        | some r => if r = l then subLong mk c (some l) else .no

/-- satelite.cpp:237-267 `subsumes`, with the marks it leaves -/
def subsumes (mk : Marks) (c other : Cl) (res : Option Lit) : Sub × Marks :=
  if other.length < c.length ∨ abstr c &&& ~~~ abstr other ≠ 0 then (.no, mk)
  else if c.length < 10 ∨ other.length < 10 then (subShort other c res, mk)
  else (subLong (markAll mk other) c res, unmarkAll (markAll mk other) other)

/-- `occurs_[q.var()].remove(otherId, q.sign(), q.var() != best.var())` (satelite.cpp:214; satelite.h:97-104) -/
def dropOcc (best q : Lit) (o : Nat) (s : St) : St :=
  if q.var = best.var then s else { s with occ := update s.occ q.var ((s.occ q.var).erase (o, q.sign)) }

/-- satelite.cpp:195-222: test the clause `c` with id `id` against all clauses containing the variable of `best`;
`acc` are the entries that stay in the list -/
def subLoop (cx : Cx) (id : Nat) (c : Cl) (best : Lit) : List (Nat × Bool) → List (Nat × Bool) → St → Res St
  | [], acc, s => .ok { s with occ := update s.occ best.var acc }
  | (o, sg) :: xs, acc, s =>
    match s.cls o with
    | none => subLoop cx id c best xs acc s
    | some oc =>
      if o = id then subLoop cx id c best xs (acc ++ [(o, sg)]) s
      else
        let r := subsumes s.mark c oc (if best.sign = sg then none else some best)
        let s1 := { s with mark := r.2 }
        match r.1 with
        | .no => subLoop cx id c best xs (acc ++ [(o, sg)]) s1
        | .all => subLoop cx id c best xs acc (detach o s1)
        | .lit p =>
          (strengthenClause cx o p.neg (dropOcc best p.neg o s1)).bind fun s2 =>
            if p.var = best.var ∨ s2.cls o = none then subLoop cx id c best xs acc s2
            else subLoop cx id c best xs (acc ++ [(o, sg)]) s2

/-- satelite.cpp:178-229, one round of `backwardSubsume` for the clause `id` with `best` one of its literals -/
def subsumeWith (cx : Cx) (fuel : Nat) (id : Nat) (best : Lit) (s : St) : Res St :=
  match s.cls id with
  | none => .ok s
  | some c => if best ∈ c then (subLoop cx id c best (s.occ best.var) [] s).bind (propFacts cx fuel) else .ok s

/-- satelite.cpp:269-273 `findUnmarkedLit` -/
def findUnmarked (mk : Marks) (c : Cl) (x : Nat) : Nat := x + ((c.drop x).takeWhile (marked mk)).length

/-- How the inner loop of `subsumed` ends: `cl` is subsumed (line 298), the literal is removed (line 312), it stays (317). -/
inductive WOut where
  | subsumed
  | removed
  | stays
deriving DecidableEq, Repr

/-- `++str`, `--str` on uint32 (satelite.cpp:289, 305, 326) -/
def incr (n : Nat) : Nat := (n + 1) % 2 ^ 32
/-- see `incr` -/
def decr (n : Nat) : Nat := (n + (2 ^ 32 - 1)) % 2 ^ 32

/-- satelite.cpp:300-306: the first literal `l` of clause `w` is replaced by the unmarked literal at position `x` -/
def moveWatch (w : Nat) (c : Cl) (x : Nat) (s : St) (str : Nat) : St × Nat :=
  match swap0 c x with
  | [] => (s, str)
  | y :: t =>
    let s1 := { s with cls := update s.cls w (some (y :: t)), wat := update s.wat y.var (s.wat y.var ++ [w]) }
    if s.mark y.var ≠ none ∧ findUnmarked s.mark (y :: t) (x + 1) = (y :: t).length then
      ({ s1 with mark := update s1.mark y.var none }, incr str)
    else (s1, str)

/-- satelite.cpp:290-316: the clauses watching `l` or its complement; `acc` are the watches that stay -/
def watchLoop (l : Lit) : List Nat → List Nat → St → Nat → WOut × St × Nat
  | [], acc, s, str => (.stays, { s with wat := update s.wat l.var acc }, str)
  | w :: ws, acc, s, str =>
    match s.cls w with
    | some (a :: t) =>
      let c := a :: t
      if a = l then
        if findUnmarked s.mark c 1 = c.length then
          (.subsumed, { s with wat := update s.wat l.var (acc ++ w :: ws) }, str)
        else
          let r := moveWatch w c (findUnmarked s.mark c 1) s str
          watchLoop l ws acc r.1 r.2
      else if findUnmarked s.mark c 1 = c.length then
        (.removed, { s with mark := update s.mark l.var none, wat := update s.wat l.var (acc ++ w :: ws) }, str)
      else watchLoop l ws (acc ++ [w]) s str
    | _ => watchLoop l ws (acc ++ [w]) s str

/-- satelite.cpp:287-320: `none` if the clause is subsumed, otherwise the literals that stay -/
def litLoop : List Lit → List Lit → St → Nat → Option (List Lit) × St × Nat
  | [], kept, s, str => (some kept, s, str)
  | l :: ls, kept, s, str =>
    match s.mark l.var with
    | none => litLoop ls kept s (decr str)
    | some _ =>
      match watchLoop l (s.wat l.var) [] s str with
      | (.subsumed, s1, str1) => (none, s1, str1)
      | (.removed, s1, str1) => litLoop ls kept s1 str1
      | (.stays, s1, str1) => litLoop ls (kept ++ [l]) s1 str1

/-- satelite.cpp:321-330: remove literals that lost their mark; the first number bounds the number of rounds by the length of
the list -/
def clean (mk : Marks) : Nat → List Lit → Nat → List Lit
  | 0, ls, _ => ls
  | _ + 1, [], _ => []
  | n + 1, l :: ls, str =>
    match mk l.var with
    | some _ => l :: clean mk n ls str
    | none =>
      match ls.getLast? with
      | none => []
      | some z => if decr str = 0 then z :: ls.dropLast else clean mk n (z :: ls.dropLast) (decr str)

/-- satelite.cpp:282-332 `subsumed`: `none` = true is returned, otherwise the strengthened clause -/
def subsumed (cl : List Lit) (s : St) : Option (List Lit) × St :=
  match litLoop cl [] s 0 with
  | (none, s1, _) => (none, s1)
  | (some kept, s1, str) => (some (if str > 0 then clean s1.mark kept.length kept str else kept), s1)

/-- satelite.cpp:520-535: collect literals of one of the resolved clauses; the Boolean tells whether a true literal was found.
For the first clause no literal is marked yet, so both loops are the same. -/
def resLits (tr : List Lit) : List Lit → Marks → List Lit → Bool × Marks × List Lit
  | [], mk, acc => (false, mk, acc)
  | l :: ls, mk, acc =>
    if isFalse tr l ∨ marked mk l then resLits tr ls mk acc
    else if isTrue tr l then (true, mk, acc)
    else resLits tr ls (update mk l.var (some l.sign)) (acc ++ [l])

/-- satelite.cpp:536-551: what is done with a resolvent that is not trivial -/
def storeResolvent (cx : Cx) (fuel id : Nat) (r : Option (List Lit) × St) (all : List Lit) : Res St :=
  match r.1 with
  | none => .ok { r.2 with mark := unmarkAll r.2.mark all }
  | some [] => .unsat
  | some [u] => (addUnit cx u { r.2 with mark := update r.2.mark u.var none }).bind (propFacts cx fuel)
  | some c => .ok (attach id { r.2 with cls := update r.2.cls id (some c) })

/-- satelite.cpp:514-553 `addResolvent`; `lhs[0]` and `rhs[0]` are the literals resolved on. In the code the literals unmarked
when the resolvent is subsumed (line 550) are those still stored in `resolvent_`, which include all that are marked. -/
def addResolvent (cx : Cx) (fuel id : Nat) (lhs rhs : Cl) (s : St) : Res St :=
  match resLits s.trail lhs.tail s.mark [] with
  | (true, mk, r) => .ok { s with mark := unmarkAll mk r }
  | (false, mk, r) =>
    match resLits s.trail rhs.tail mk r with
    | (true, mk, r) => .ok { s with mark := unmarkAll mk r }
    | (false, mk, r) => storeResolvent cx fuel id (subsumed r { s with mark := mk }) r

/-- satelite.cpp:502-510 `trivialResolvent` -/
def trivialResolvent (mk : Marks) (c2 : Cl) (v : Nat) : Bool :=
  c2.any fun x => marked mk x.neg && decide (x.var ≠ v)

/-- Local variables of `bceVe` (satelite.cpp:395-405): `cnt`, `markMax`, `resCands_` (ids instead of pointers), the flags
`marked_` of the clauses in `occT_[neg]`, the first `blocked` elements of `occT_[pos]`, `stop`. -/
structure Acc where
  cnt : Nat
  markMax : Nat
  cands : List (Nat × Nat)
  negM : Nat → Bool
  blocked : List Nat
  stop : Bool

/-- satelite.cpp:410-424: all clauses with the complement; the Boolean is the flag `marked_` of the clause `i` -/
def testRow (s : St) (mk : Marks) (v bce maxCnt i : Nat) : List Nat → Bool → Acc → Bool × Acc
  | [], lm, a => (lm, a)
  | j :: js, lm, a =>
    if trivialResolvent mk ((s.cls j).getD []) v then testRow s mk v bce maxCnt i js lm a
    else
      let a1 := { a with markMax := a.markMax - (if a.negM j then 1 else 0), negM := update a.negM j false, cnt := a.cnt + 1 }
      if a1.cnt ≤ maxCnt then testRow s mk v bce maxCnt i js false { a1 with cands := a1.cands ++ [(i, j)] }
      else if a1.markMax = 0 then (false, { a1 with stop := decide (bce = 0) })
      else testRow s mk v bce maxCnt i js false a1

/-- satelite.cpp:406-429: all clauses with the positive literal. `unmarkAll` in line 425 restores the marks, because no literal of
a clause is marked outside of `addResolvent` (`Wf.mk`, `Wf.proc`); so the state does not change. -/
def testRows (s : St) (v bce maxCnt : Nat) (neg : List Nat) : List Nat → Acc → Acc
  | [], a => a
  | i :: is, a =>
    if a.stop then a
    else
      let r := testRow s (markAll s.mark ((s.cls i).getD [])) v bce maxCnt i neg (decide (bce ≠ 0)) a
      testRows s v bce maxCnt neg is (if r.1 then { r.2 with blocked := r.2.blocked ++ [i] } else r.2)

/-- index of the literal over `v` (satelite.cpp:113-124) -/
def posOf (v : Nat) (c : Cl) : Nat := c.findIdx (fun l => l.var = v)

/-- the clause after `std::swap(c[0], c[pos])` (satelite.cpp:125) -/
def front (v : Nat) (c : Cl) : Cl := swap0 c (posOf v c)

/-- satelite.cpp:114-119 with `freeId`: the entries of the clause leave all lists but that of `v` -/
def eraseOcc (id v : Nat) : Cl → (Nat → List (Nat × Bool)) → (Nat → List (Nat × Bool))
  | [], occ => occ
  | l :: c, occ => eraseOcc id v c (if l.var = v then occ else update occ l.var ((occ l.var).erase (id, l.sign)))

/-- satelite.cpp:110-128 `bceVeRemove` -/
def bceVeRemove (id : Nat) (freeId : Bool) (v : Nat) (blocked : Bool) (s : St) : St :=
  match s.cls id with
  | some (x :: t) => { removeWatch s x.var id with
      occ := if freeId then eraseOcc id v (x :: t) s.occ else s.occ
      elim := ⟨front v (x :: t), blocked⟩ :: s.elim
      cls := update s.cls id none }
  | _ => s

/-- satelite.cpp:435-441: remove the clauses containing `v`, the first `cnt` ids are reused -/
def removeAll (v : Nat) : List (Nat × Bool) → Nat → St → St
  | [], _, s => s
  | (id, _) :: xs, cnt, s => removeAll v xs (cnt - 1) (bceVeRemove id (decide (0 < cnt)) v false s)

/-- satelite.cpp:442-449: add the resolvents -/
def addAll (cx : Cx) (fuel : Nat) : List (Nat × Cl × Cl) → St → Res St
  | [], s => .ok s
  | (id, l, r) :: xs, s => (addResolvent cx fuel id l r s).bind (addAll cx fuel xs)

/-- `removeAll` for blocked clauses (satelite.cpp:455-463) -/
def removeBlocked (v : Nat) : List Nat → St → St
  | [], s => s
  | id :: ids, s => removeBlocked v ids (bceVeRemove id false v true s)

/-- live entries of the occurrence list of `v` (satelite.cpp:357-374 `splitOcc`) -/
def live (s : St) (v : Nat) : List (Nat × Bool) := (s.occ v).filter fun e => (s.cls e.1).isSome

/-- the clause of an id, brought into the order it has after `bceVeRemove` (`resCands_` are pointers to the clauses) -/
def candOf (s : St) (v id : Nat) : Cl := front v ((s.cls id).getD [])

/-- `occurs_[v].clear()` (satelite.cpp:452) -/
def clearVar (v : Nat) (s : St) : St :=
  { s with occ := update s.occ v [], wat := update s.wat v [], mark := update s.mark v none }

/-- satelite.cpp:430-453: eliminate `v`. The lists of `v` are cleared before the resolvents are added; in the code afterwards,
but in between they are only used to read off the ids in `occs`. -/
def eliminateVar (cx : Cx) (fuel v : Nat) (occs : List (Nat × Bool)) (a : Acc) (s : St) : Res St :=
  let s1 := removeAll v occs a.cnt { s with elimd := update s.elimd v true }
  let jobs := (occs.zip a.cands).map fun e => (e.1.1, candOf s v e.2.1, candOf s v e.2.2)
  addAll cx fuel jobs (clearVar v s1)

/-- satelite.cpp:391-466 `bceVe` without the final call of `backwardSubsume`. `bce` is `opts_->bce()`. The bound is `numOcc` in
`eliminateVars` (line 489) and 0 in `bce` (line 478), so never greater than the number of clauses. -/
def bceVe (cx : Cx) (fuel bce v bound : Nat) (s : St) : Res St :=
  if s.elimd v ∨ cx.frozen v ∨ (⟨v, false⟩ : Lit) ∈ s.trail ∨ (⟨v, true⟩ : Lit) ∈ s.trail then .ok s
  else
    let occs := live s v
    let maxCnt := min bound occs.length
    let s1 := { s with occ := update s.occ v occs }
    let pos := (occs.filter fun e => !e.2).map Prod.fst
    let neg := (occs.filter fun e => e.2).map Prod.fst
    let a := testRows s1 v bce maxCnt neg pos ⟨0, if bce > 1 then neg.length else 0, [], fun j => decide (bce > 1 ∧ j ∈ neg), [], false⟩
    if a.cnt ≤ maxCnt then eliminateVar cx fuel v occs a s1
    else .ok (removeBlocked v (a.blocked ++ (neg.filter a.negM).take a.markMax) s1)

/-- shared_context.cpp:532-543 `Clause::simplify`, up to what is read afterwards: of a satisfied clause the first literal; of a
clause without literals the first literal it had -/
def simplifyCl (tr : List Lit) (c : Cl) : Cl :=
  match c.find? (isTrue tr) with
  | some t => [t]
  | none => match c.filter (fun l => !isFalse tr l) with
    | [] => c
    | r => r

/-- shared_context.cpp:464-476: load the clauses; they get the ids `n`, `n+1`, ... -/
def loadLoop (cx : Cx) : List Cl → Nat → St → Res (Nat × St)
  | [], n, s => .ok (n, s)
  | c :: cs, n, s =>
    match simplifyCl s.trail c with
    | [] => .undef
    | x :: t =>
      if x ∈ s.trail ∨ x.neg ∈ s.trail then (addUnit cx x s).bind (loadLoop cx cs n)
      else loadLoop cx cs (n + 1) { s with cls := update s.cls n (some (x :: t)) }

/-- shared_context.cpp:423-426 -/
def addUnits (cx : Cx) : List Lit → St → Res St
  | [], s => .ok s
  | l :: ls, s => (addUnit cx l s).bind (addUnits cx ls)

/-- satelite.cpp:139-142: attach all clauses -/
def attachAll : Nat → St → St
  | 0, s => s
  | n + 1, s => attach n (attachAll n s)

/-- shared_context.cpp:360, satelite.cpp:33-38: nothing added yet; the literals true before preprocessing are given -/
def init (tr : List Lit) : St := ⟨fun _ => none, fun _ => [], fun _ => [], fun _ => none, [], fun _ => false, tr, 0⟩

/-- shared_context.cpp:407-476, satelite.cpp:130-142: everything before the main loop -/
def load (cx : Cx) (tr units : List Lit) (cs : List Cl) : Res St :=
  (addUnits cx units (init tr)).bind fun s => (loadLoop cx cs 0 s).bind fun r => .ok (attachAll r.1 r.2)

/-- The operations of the main loops (satelite.cpp:138-152, 158-229, 391-499) -/
inductive Op where
  /-- `propagateFacts` -/
  | prop (fuel : Nat)
  /-- one round of `backwardSubsume` -/
  | sub (fuel id : Nat) (best : Lit)
  /-- `bceVe` -/
  | bceVe (fuel bce v bound : Nat)

/-- one operation -/
def run1 (cx : Cx) : Op → St → Res St
  | .prop f, s => propFacts cx f s
  | .sub f id best, s => subsumeWith cx f id best s
  | .bceVe f b v n, s => bceVe cx f b v n s

/-- a sequence of operations, stopped when one returns false -/
def run (cx : Cx) : List Op → St → Res St
  | [], s => .ok s
  | o :: os, s => (run1 cx o s).bind (run cx os)

/-- An element of `ValueVec`: bits 0-1 (value) and bit 2 (`value_eliminated`, satelite.cpp:558) -/
structure VRep where
  val : Option Bool
  el : Bool
deriving DecidableEq, Repr

/-- State of the loops in `doExtendModel`: the model, the variable `last` of the current group, `check`, the remembered literals
not yet used (`unconstr[uv..us)`), the new unconstrained variables. -/
structure Ext where
  m : Nat → VRep
  last : Option Nat
  check : Bool
  old : List Lit
  new : List Nat

/-- satelite.cpp:599-603: end of a group -/
def closeGroup (e : Ext) : Ext :=
  match e.last with
  | none => e
  | some v => if e.m v = ⟨none, true⟩ then { e with m := update e.m v ⟨some true, true⟩, new := e.new ++ [v] } else e

/-- satelite.cpp:565-578: begin of a group with clause `r`, whose first literal is `x` -/
def openGroup (r : ECl) (x : Lit) (e : Ext) : Ext :=
  let m := if r.marked then e.m else update e.m x.var ⟨none, true⟩
  match e.old with
  | [] => { e with m := m, last := some x.var, check := true }
  | u :: us =>
    if u.var = x.var then { e with m := update m x.var ⟨some u.tv, false⟩, last := some x.var, check := false, old := us }
    else { e with m := m, last := some x.var, check := true }

/-- satelite.cpp:580-596: one clause of a group -/
def exClause (x : Lit) (t : Cl) (e : Ext) : Ext :=
  if e.m x.var ≠ ⟨some x.tv, false⟩ ∧ e.check = true then
    if t.all (fun y => (e.m y.var).val = some (!y.tv)) then
      { e with m := update e.m x.var ⟨some x.tv, false⟩, check := false }
    else e
  else e

/-- satelite.cpp:564-604, the two nested loops: a new group begins when the variable of the first literal changes -/
def exLoop : List ECl → Ext → Ext
  | [], e => closeGroup e
  | r :: rs, e =>
    match r.lits with
    | [] => exLoop rs e
    | x :: t => exLoop rs (exClause x t (if e.last = some x.var then e else openGroup r x (closeGroup e)))

/-- satelite.cpp:605-616: drop variables that got their value from a blocked clause -/
def exFinish : List Nat → (Nat → VRep) → List Lit → (Nat → VRep) × List Lit
  | [], m, unc => (m, unc)
  | v :: vs, m, unc =>
    if (m v).el then exFinish vs (update m v ⟨some true, false⟩) (unc ++ [⟨v, false⟩]) else exFinish vs m unc

/-- satelite.cpp:556-617 `doExtendModel` -/
def doExtendModel (elim : List ECl) (m : Nat → VRep) (unc : List Lit) : (Nat → VRep) × List Lit :=
  match elim with
  | [] => (m, unc)
  | _ => let e := exLoop elim ⟨m, none, true, unc, []⟩; exFinish e.new e.m unc

/-- shared_context.cpp:507: flip the last literal -/
def flipLast (l : List Lit) : List Lit :=
  match l.getLast? with
  | none => []
  | some z => l.dropLast ++ [z.neg]

/-- shared_context.cpp:511-514: remove literals already flipped from the end -/
def popFlipped (l : List Lit) : List Lit := (l.reverse.dropWhile (fun x => x.sign)).reverse

/-- shared_context.cpp:505-515 `extendModel` -/
def extendModel (elim : List ECl) (m : Nat → VRep) (unc : List Lit) : (Nat → VRep) × List Lit :=
  let r := doExtendModel elim m (flipLast unc)
  (r.1, popFlipped r.2)

end Clasp.Elite
