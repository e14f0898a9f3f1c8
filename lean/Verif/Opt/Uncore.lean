import Verif.Core.Sem
/-!
# Core-guided optimization

Models `UncoreMinimize` (clasp/minimize_constraint.h:429-579, src/minimize_constraint.cpp:751-1604): optimization by unsatisfiable cores
with the algorithms `oll`, `one`, `k` and `pmr`, with succinct constraints, disjoint preprocessing, stratification, core trimming and
several priority levels.

The solver is abstract.  It is described by the constraints that were added to the problem (`Con`, given by their meaning) and by an
oracle (`Slv`) that answers which literals are true on the top level or on the initial root level and whether a conflict was noticed.
Propagation, conflict analysis (`resolveToCore`) and model search are premises of `Step`: a core is any set of active assumptions that
cannot all hold, a model is any assignment that satisfies the problem, the added constraints and the pushed assumptions.

Simplifications: sums are unbounded integers; `maxBound()` is `none` and no sum reaches it; one solver (the shared bounds change only by
its own models); assumptions that are not from the constraint (guiding path, tag) are part of the problem, hence `fix_` and the root
decisions in clauses and reasons are left out; the slots of `open_` are kept with the literal data; the strategy that selects the
subset to try next when trimming a core is an oracle; the mode is `optimize` (`shared_->optimize()` is true); `relax` is left out.
-/

namespace Clasp.Uncore
open Clasp.Core (Lit Asg)

/-- A constraint in the solver: clauses (ClauseCreator::create), cardinality constraints that have to hold (`W = lit_true`), and
cardinality constraints `W ↔ lits ≥ B` or, with `create_only_bfb`, `lits ≥ B → W` (weight_constraint.cpp:198-215, weight_constraint.h:147-150).
The weight constraints themselves are modelled in `Verif.Weight`. -/
inductive Con
  | clause (c : List Lit)
  | card (ls : List Lit) (B : Int)
  | iff (W : Lit) (ls : List Lit) (B : Int)
  | imp (W : Lit) (ls : List Lit) (B : Int)
  deriving DecidableEq, Repr

/-- Specification: number of true literals. -/
def cnt (M : Asg) : List Lit → Int
  | [] => 0
  | p :: ps => (if M.sat p then 1 else 0) + cnt M ps

/-- Specification: meaning of a constraint. -/
def Con.sat (M : Asg) : Con → Prop
  | .clause c => ∃ p ∈ c, M.sat p
  | .card ls B => B ≤ cnt M ls
  | .iff W ls B => M.sat W ↔ B ≤ cnt M ls
  | .imp W ls B => B ≤ cnt M ls → M.sat W

/-- What the solver knows after constraints were added: literals that are true on level 0 (`topValue`), literals that are true on the
initial root level (`eRoot_`), whether there is a conflict, and whether relaxing a core left the root level untouched
(minimize_constraint.cpp:999: `s.decisionLevel() == dl`). -/
structure Slv where
  top : List Con → Lit → Bool
  root : List Con → Lit → Bool
  bad : List Con → Bool
  keep : List Con → Bool

/-- clasp/solver_strategies.h:214-219 `OptParams::UscAlgo`. -/
inductive Algo
  | oll | one | k (lim : Nat) | pmr
  deriving DecidableEq, Repr

/-- clasp/solver_strategies.h:220-250 `OptParams`: the options of core-guided optimization.  `groups` stands for the floating-point formula
of minimize_constraint.cpp:1265 for the number of groups. -/
structure Opts where
  algo : Algo
  succinct : Bool
  disjoint : Bool
  stratify : Bool
  trim : Bool
  groups : Nat → Nat

/-- minimize_constraint.h:464-472 `Core`: the literals, bound and weight of a constraint that can be relaxed further; its tag literal is
the negation of the assumption it belongs to. -/
structure Core where
  lits : List Lit
  bound : Int
  weight : Int
  deriving DecidableEq, Repr

/-- minimize_constraint.h:452-458 `LitData` of an assumption.  The literal itself is kept here too (in the code it is in the pairs of `assume_`
and `todo_` only); the flag for core trimming is left out. -/
structure Dat where
  lit : Lit
  weight : Int
  assume : Bool
  core : Option Core
  deriving DecidableEq, Repr

/-- The minimize statements (`SharedMinimizeData::lits` with the weights of all levels, minimize_constraint.h:63-88) and `maxLevel()`. -/
structure Prob where
  lits : List (Lit × (Nat → Int))
  max : Nat

/-- minimize_constraint.h:553-578: the state of `UncoreMinimize`, the number of solver variables, and the constraints that were added.
`up` is `shared_->upper()` (`none` for `maxBound()`), `found` stands for `shared_->checkNext()`.  An element of `todo` is a core (pairs of the
negated assumption and its index), `shrink` is `todo_.shrink()`.  `ready` is true if all active assumptions were pushed without conflict
(`path_ == 0` after `pushPath`), `fin` is true if the tag literal was made false, i.e. the search is over. -/
structure St where
  n : Nat
  cons : List Con
  dat : List Dat
  asm : List (Lit × Nat)
  todo : List (List (Lit × Nat))
  shrink : Bool
  lower : Int
  up : Option (Nat → Int)
  found : Bool
  level : Nat
  next : Bool
  disj : Bool
  init : Bool
  actW : Int
  nextW : Int
  ready : Bool
  fin : Bool

/-- minimize_constraint.cpp:760-775 `init` (with the bound `b` of `shared_`) for a solver with `n` variables. -/
def St.start (n : Nat) (b : Option (Nat → Int)) : St :=
  { n, cons := [], dat := [], asm := [], todo := [], shrink := false, lower := 0, up := b, found := false, level := 0, next := false,
    disj := false, init := true, actW := 1, nextW := 0, ready := false, fin := false }

/-- minimize_constraint.h:517 `getData`: the data of an assumption (a default for an invalid index). -/
def St.get (σ : St) (i : Nat) : Dat := σ.dat.getD i ⟨⟨0, false⟩, 0, false, none⟩

/-- minimize_constraint.cpp:928-931 `newLit`: a new auxiliary variable, positive literal. -/
def newLit (σ : St) : Lit × St := (⟨σ.n, false⟩, { σ with n := σ.n + 1 })

/-- minimize_constraint.cpp:932-940 `newAssumption`. -/
def newAssumption (σ : St) (p : Lit) (w : Int) : St :=
  { σ with nextW := if σ.nextW ≠ 0 ∧ w > σ.nextW then w else σ.nextW,
           dat := σ.dat ++ [⟨p, w, true, none⟩], asm := σ.asm ++ [(p, σ.dat.length)] }

/-- minimize_constraint.cpp:1303, 1342, 1367, 1394, 1419: a constraint is added to the solver; the result tells whether there is no conflict. -/
def addCon (o : Slv) (σ : St) (c : Con) : St × Bool := ({ σ with cons := c :: σ.cons }, !o.bad (c :: σ.cons))

/-- minimize_constraint.cpp:1411-1420 `fixLit`: the literal becomes true on the initial root level. -/
def fixLit (o : Slv) (σ : St) (p : Lit) : St × Bool := addCon o σ (.clause [p])

/-- minimize_constraint.h:473-483 `WCTemp`. -/
structure WC where
  bound : Int
  lits : List Lit
  deriving DecidableEq, Repr

/-- minimize_constraint.cpp:1515-1518 `WCTemp::add`; `t` is the top-level assignment. -/
def WC.add (t : Lit → Bool) (c : WC) (p : Lit) : WC :=
  if t p then { c with bound := c.bound - 1 } else if t p.neg then c else { c with lits := c.lits ++ [p] }

/-- minimize_constraint.cpp:1226-1233, 1254, 1276-1279: adding several literals. -/
def WC.addAll (t : Lit → Bool) (c : WC) (ps : List Lit) : WC := ps.foldl (WC.add t) c

/-- minimize_constraint.h:478 `WCTemp::unsat`. -/
def WC.unsat (c : WC) : Bool := 0 < c.bound ∧ (c.lits.length : Int) < c.bound

/-- minimize_constraint.h:517: assignment through the reference `getData` returns. -/
def St.put (σ : St) (i : Nat) (d : Dat) : St := { σ with dat := σ.dat.set i d }

/-- minimize_constraint.cpp:1456-1468 `closeCore`.  A constraint that is destroyed because it is satisfied on the top level stays in the model. -/
def closeCore (o : Slv) (σ : St) (i : Nat) (sat : Bool) : St × Bool :=
  match (σ.get i).core with
  | none => (σ, !o.bad σ.cons)
  | some _ =>
    let σ1 := σ.put i { σ.get i with core := none }
    if sat then fixLit o σ1 (σ.get i).lit.neg else (σ1, !o.bad σ1.cons)

/-- minimize_constraint.cpp:1351-1357: the bound and the correction of the lower bound. -/
def ollBound (σ : St) (c : WC) (w : Int) : St × Int :=
  if c.bound ≤ 0 then ({ σ with lower := σ.lower + (1 - c.bound) * w }, 1) else (σ, c.bound)

/-- minimize_constraint.cpp:1363-1371, 1441-1455: a new assumption for the constraint `lits ≥ B` and the constraint itself. -/
def ollNew (o : Slv) (succ : Bool) (σ : St) (ls : List Lit) (B w : Int) : St × Bool :=
  let r := newLit σ
  let σ1 := newAssumption r.2 r.1 w
  let x := addCon o σ1 (if succ then .imp r.1.neg ls B else .iff r.1.neg ls B)
  (x.1.put σ.dat.length
    { σ1.get σ.dat.length with core := if x.2 ∧ B ≠ ls.length then some ⟨ls, B, w⟩ else none }, x.2)

/-- minimize_constraint.cpp:1349-1372 `addOllCon`. -/
def addOllCon (o : Slv) (succ : Bool) (σ : St) (c : WC) (w : Int) : St × Bool :=
  let b := ollBound σ c w
  if b.2 > c.lits.length then (b.1, true) else ollNew o succ b.1 c.lits b.2 w

/-- minimize_constraint.cpp:1252-1260 `addOll`. -/
def addOll (o : Slv) (succ : Bool) (σ : St) (ls : List Lit) (w : Int) : St × Bool :=
  let c := WC.addAll (o.top σ.cons) ⟨2, []⟩ ls
  if ¬ c.unsat then addOllCon o succ σ c w
  else if c.bound < 2 then (σ, true) else fixLit o σ ((c.lits ++ ls).headD ⟨0, false⟩)

/-- minimize_constraint.cpp:1374-1388 `addImplication`, as a clause or a watch with the same meaning. -/
def addImplication (o : Slv) (σ : St) (a b : Lit) : St := (addCon o σ (.clause [a.neg, b])).1

/-- minimize_constraint.cpp:1287-1290: the previous output, if there is one, implies the next. -/
def kLink (o : Slv) (σ : St) (b : Option Lit) (r : Lit) : St :=
  match b with
  | none => σ
  | some a => addImplication o σ a r

/-- minimize_constraint.cpp:1285-1293: the new assumptions of one group and the chain of implications. -/
def kOuts (o : Slv) (w : Int) : Nat → St → WC → Option Lit → St × WC
  | 0, σ, c, _ => (σ, c)
  | n + 1, σ, c, b =>
    let r := newLit σ
    let σ1 := newAssumption r.2 r.1 w
    let c1 := WC.add (o.top σ1.cons) c r.1.neg
    kOuts o w n (kLink o σ1 b r.1) c1 (some r.1)

/-- minimize_constraint.cpp:1270-1296: one group of literals `xs`; the result is the state, the literal connecting to the next group, and
whether there is no conflict. -/
def kGroup (o : Slv) (w : Int) (σ : St) (cp : Lit) (xs : List Lit) (connect : Bool) : St × Lit × Bool :=
  let c := WC.addAll (o.top σ.cons) ⟨xs.length + (if connect then 1 else 0), []⟩ (cp :: xs.map Lit.neg)
  let r := newLit σ
  let x := if connect then kOuts o w xs.length r.2 (WC.add (o.top r.2.cons) c r.1.neg) (some r.1)
           else kOuts o w xs.length σ c none
  let y := addCon o x.1 (.card x.2.lits x.2.bound)
  (y.1, if connect then r.1 else cp, y.2)

/-- minimize_constraint.cpp:1267-1297: the loop over the groups of size `k`; `fuel` is at least the number of literals left. -/
def kLoop (o : Slv) (w : Int) (k : Nat) : Nat → St → Lit → List Lit → St × Bool
  | 0, σ, _, _ => (σ, true)
  | fuel + 1, σ, cp, xs =>
    let connect : Bool := k < xs.length
    let y := kGroup o w σ cp (if connect then xs.take k else xs) connect
    if ¬ y.2.2 then (y.1, false) else if connect then kLoop o w k fuel y.1 y.2.1 (xs.drop k) else (y.1, true)

/-- minimize_constraint.cpp:1263-1266: the size of a group. -/
def kSize (g : Nat → Nat) (k size : Nat) : Nat :=
  let x := if k ≠ 0 then (size + (k - 1)) / k else if size ≤ 8 then 1 else g size
  (size + (x - 1)) / x

/-- minimize_constraint.cpp:1261-1308 `addK`. -/
def addK (o : Slv) (p : Opts) (σ : St) (k : Nat) (ls : List Lit) (w : Int) : St × Bool :=
  match ls with
  | [] => (σ, true)
  | l :: xs =>
    let y := kLoop o w (kSize p.groups k ls.length) xs.length σ l.neg xs
    if ¬ y.2 then y
    else if ¬ p.succinct ∧ ¬ o.bad y.1.cons then addCon o y.1 (.clause ls)
    else (y.1, !o.bad y.1.cons)

/-- minimize_constraint.cpp:1341-1346: the clauses of `addPmrCon` that are added one after another. -/
def addClauses (o : Slv) : List (List Lit) → St → St × Bool
  | [], σ => (σ, true)
  | c :: cs, σ => let x := addCon o σ (.clause c); if ¬ x.2 then x else addClauses o cs x.1

/-- minimize_constraint.cpp:1327-1348 `addPmrCon`: `head ↔ body1 ∨ body2` (or, with `conj`, `head ↔ body1 ∧ body2`), with `succinct` only the direction
from the body to the head. -/
def addPmrCon (o : Slv) (succ : Bool) (conj : Bool) (σ : St) (h b1 b2 : Lit) : St × Bool :=
  let f (p : Lit) : Lit := if conj then p.neg else p
  let cs := [[f h.neg, f b1, f b2], [f h, f b1.neg], [f h, f b2.neg]]
  addClauses o (if ¬ succ then cs else if conj then cs.take 1 else cs.drop 1) σ

/-- minimize_constraint.cpp:1313-1325 `addPmr`: the loop; the literals are processed from the last one. -/
def pmrLoop (o : Slv) (succ : Bool) (w : Int) : List Lit → Lit → St → St × Bool
  | [], _, σ => (σ, true)
  | [an], bp, σ =>
    let c := newLit σ
    addPmrCon o succ true (newAssumption c.2 c.1.neg w) c.1 an bp
  | an :: rest, bp, σ =>
    let b := newLit σ
    let c := newLit b.2
    let x := addPmrCon o succ false (newAssumption c.2 c.1.neg w) b.1 an bp
    if ¬ x.2 then x
    else
      let y := addPmrCon o succ true x.1 c.1 an bp
      if ¬ y.2 then y else pmrLoop o succ w rest b.1 y.1

/-- minimize_constraint.cpp:1309-1326 `addPmr`. -/
def addPmr (o : Slv) (succ : Bool) (σ : St) (ls : List Lit) (w : Int) : St × Bool :=
  match ls.reverse with
  | [] => (σ, true)
  | bp :: rest => pmrLoop o succ w rest bp σ

/-- minimize_constraint.cpp:1223-1238: an assumption of a core whose weight is used up: if it stands for a relaxable constraint, the
constraint is relaxed. -/
def relaxCore (o : Slv) (succ : Bool) (σ : St) (i : Nat) : St × Bool :=
  match (σ.get i).core with
  | none => (σ, true)
  | some core =>
    let c := WC.addAll (o.top σ.cons) ⟨core.bound + 1, []⟩ core.lits
    let x := closeCore o σ i (c.bound ≤ 1)
    if ¬ x.2 then x else addOllCon o succ x.1 c core.weight

/-- minimize_constraint.cpp:1214-1222: the weight of one assumption of a core is reduced. -/
def payLit (σ : St) (w : Int) (e : Lit × Nat) : St :=
  let x := σ.get e.2
  if x.weight - w ≤ 0 then σ.put e.2 { x with weight := 0, assume := false }
  else if σ.disj ∧ ¬ x.assume then
    { σ.put e.2 { x with weight := x.weight - w, assume := true } with asm := σ.asm ++ [(e.1.neg, e.2)] }
  else σ.put e.2 { x with weight := x.weight - w }

/-- minimize_constraint.cpp:1213-1239: the loop over the literals of a core. -/
def payCore (o : Slv) (succ : Bool) (w : Int) : List (Lit × Nat) → St → St × Bool
  | [], σ => (σ, true)
  | e :: es, σ =>
    let σ1 := payLit σ w e
    let x := if (σ1.get e.2).weight = 0 then relaxCore o succ σ1 e.2 else (σ1, true)
    if ¬ x.2 then x else payCore o succ w es x.1

/-- minimize_constraint.cpp:1240-1250: the core itself is replaced by new constraints. -/
def newCore (o : Slv) (p : Opts) (σ : St) (ls : List Lit) (w : Int) : St × Bool :=
  match ls with
  | [l] => fixLit o σ l
  | _ =>
    match p.algo with
    | .oll => addOll o p.succinct σ ls w
    | .one => addK o p σ ls.length ls w
    | .k lim => addK o p σ lim ls w
    | .pmr => addPmr o p.succinct σ ls w

/-- minimize_constraint.cpp:1208-1251 `addCore`. -/
def addCore (o : Slv) (p : Opts) (σ : St) (core : List (Lit × Nat)) (w : Int) (upd : Bool) : St × Bool :=
  let x := payCore o p.succinct w core (if upd then { σ with lower := σ.lower + w } else σ)
  if ¬ x.2 then x else newCore o p x.1 (core.map Prod.fst) w

/-- minimize_constraint.cpp:1107, 1138-1139, 1532-1535: the smallest weight of the assumptions of a core. -/
def minW (f : Nat → Int) : List (Lit × Nat) → Int
  | [] => 0
  | [e] => f e.2
  | e :: es => min (f e.2) (minW f es)

/-- minimize_constraint.h:517: `getData(id).weight`. -/
def St.wt (σ : St) (i : Nat) : Int := (σ.get i).weight

/-- minimize_constraint.cpp:1429-1439 `releaseLits`. -/
def releaseLits (σ : St) : St := { σ with dat := [], asm := [], todo := [], shrink := false }

/-- minimize_constraint.cpp:1423-1425: the literals that `fixLevel` fixes. -/
def fixAll (o : Slv) : List (Lit × Nat) → St → St
  | [], σ => σ
  | e :: es, σ => fixAll o es (if (σ.get e.2).assume then (fixLit o σ e.1).1 else σ)

/-- minimize_constraint.cpp:1422-1428 `fixLevel`. -/
def fixLevel (o : Slv) (σ : St) : St × Bool :=
  let σ1 := releaseLits (fixAll o σ.asm σ)
  (σ1, !o.bad σ1.cons)

/-- minimize_constraint.cpp:882-896: one literal of the minimize statement of level `k`. -/
def initLit (o : Slv) (k : Nat) (σ : St) (e : Lit × (Nat → Int)) : St :=
  let w0 := e.2 k
  if w0 = 0 then σ
  else
    let x := if w0 < 0 then e.1.neg else e.1
    let w := if w0 < 0 then -w0 else w0
    let σ1 := if w0 < 0 then { σ with lower := σ.lower + w0 } else σ
    if o.root σ.cons x then { σ1 with lower := σ1.lower + w }
    else if o.root σ.cons x.neg then σ1
    else newAssumption σ1 x.neg w

/-- minimize_constraint.cpp:878-897: the assumptions and the lower bound of level `k`. -/
def initLits (o : Slv) (pr : Prob) (k : Nat) (σ : St) : St :=
  pr.lits.foldl (initLit o k) { σ with level := k, lower := 0 }

/-- minimize_constraint.cpp:904-909: fixing the assumptions of a level whose lower bound is tight. -/
def fixTight (o : Slv) (σ : St) : St :=
  { σ.asm.foldr (fun e τ => (fixLit o τ e.1).1) σ with dat := [], asm := [] }

/-- minimize_constraint.cpp:899-901, 1135: comparison of the lower with the upper bound of the level. -/
def cmpUp (σ : St) : Ordering :=
  match σ.up with
  | none => .lt
  | some u => compare σ.lower (u σ.level)

/-- minimize_constraint.cpp:876-913: the loop of `initLevel`; `fuel` is the number of levels left.  The second component is the variable
`next`, `tight` is the variable `n`. -/
def levLoop (o : Slv) (pr : Prob) : Nat → Nat → Bool → Bool → St → St × Bool
  | 0, _, _, nxt, σ => (σ, nxt)
  | fuel + 1, k, tight, nxt, σ =>
    if ¬ σ.asm.isEmpty then (σ, nxt)
    else
      let σ1 := initLits o pr k σ
      if ¬ tight then levLoop o pr fuel (k + 1) tight nxt σ1
      else
        match cmpUp σ1 with
        | .gt => (σ1, true)
        | .lt => levLoop o pr fuel (k + 1) false false σ1
        | .eq =>
          let t : Bool := σ1.found ∨ k ≠ pr.max
          levLoop o pr fuel (k + 1) t t (fixTight o σ1)

/-- minimize_constraint.cpp:875, 891, 910: the largest weight of an assumption of the level, at least 1. -/
def maxWt (σ : St) : Int := σ.dat.foldl (fun m d => max m d.weight) 1

/-- minimize_constraint.cpp:854-926 `initLevel`. -/
def initLevel (o : Slv) (p : Opts) (pr : Prob) (σ : St) : St × Bool :=
  let x := fixLevel o { σ with next := false, disj := false, actW := 1, nextW := 0, ready := false }
  if ¬ x.2 then x
  else
    let k := if σ.init then σ.level else σ.level + 1
    let y := levLoop o pr (pr.max + 1 - k) k true (!σ.init) x.1
    let σ1 := { y.1 with init := false, disj := p.disjoint, actW := if p.stratify then maxWt y.1 else 1 }
    if y.2 ∧ ¬ o.bad σ1.cons then ({ σ1 with disj := false, fin := true }, false) else (σ1, !o.bad σ1.cons)

/-- The variables of the loop in `pushPath` (minimize_constraint.cpp:958-969): the assumptions kept so far, the position, and
`push`, `maxW`, `fixW`, `ok`. -/
structure PS where
  st : St
  kept : List (Lit × Nat)
  pos : Nat
  push : Bool
  maxW : Int
  fixW : Option Int
  ok : Bool

/-- minimize_constraint.cpp:979, 1007: is the weight greater than the gap between upper and lower bound? -/
def exceeds (w : Int) : Option Int → Bool
  | none => false
  | some f => decide (w > f)

/-- minimize_constraint.cpp:971-1001: one assumption in the loop of `pushPath`. -/
def pathLit (o : Slv) (p : Opts) (t : PS) (e : Lit × Nat) : PS :=
  let t := { t with pos := t.pos + 1 }
  let x := t.st.get e.2
  if ¬ x.assume then t
  else if x.weight < t.st.actW then
    { t with kept := t.kept ++ [e], st := { t.st with nextW := max t.st.nextW x.weight } }
  else if exceeds x.weight t.fixW then
    let y := fixLit o t.st e.1
    { t with st := y.1.put e.2 { x with assume := false, weight := 0, core := none }, push := false, ok := y.2 }
  else if ¬ o.root t.st.cons e.1.neg then { t with kept := t.kept ++ [e], maxW := max t.maxW x.weight }
  else
    let y := addCore o p t.st [(e.1.neg, e.2)] x.weight true
    { t with st := y.1, ok := y.2, fixW := t.fixW.map (· - x.weight), push := t.push && o.keep y.1.cons }

/-- minimize_constraint.cpp:970-1002: the loop of `pushPath`.  It stops when a push fails, i.e. after an arbitrary number of assumptions
(`fuel`), or after a conflict. -/
def pathLoop (o : Slv) (p : Opts) : Nat → PS → PS
  | 0, t => t
  | fuel + 1, t =>
    match t.st.asm[t.pos]? with
    | none => t
    | some e => if ¬ t.ok then t else pathLoop o p fuel (pathLit o p t e)

/-- minimize_constraint.cpp:965-1009: one round of `pushPath` (without trimming).  All active assumptions are on the root path if the loop went
through all of them and no further round is needed. -/
def pathRound (o : Slv) (p : Opts) (fuel : Nat) (σ : St) : St × Bool :=
  let t := pathLoop o p fuel
    { st := { σ with nextW := 0, ready := false }, kept := [], pos := 0, push := true, maxW := 0,
      fixW := σ.up.map (fun u => u σ.level - σ.lower), ok := true }
  let again : Bool := ¬ t.push ∨ exceeds t.maxW t.fixW
  let full : Bool := t.pos = t.st.asm.length ∧ t.ok
  ({ t.st with asm := t.kept ++ t.st.asm.drop t.pos, ready := full ∧ ¬ again }, t.ok)

/-- minimize_constraint.h:548-551 `validLowerBound`. -/
def validLower (pr : Prob) (σ : St) : Bool :=
  match cmpUp σ with
  | .lt => true
  | .eq => σ.level = pr.max ∧ ¬ σ.found
  | .gt => false

/-- minimize_constraint.cpp:1506-1511 `resetTrim`. -/
def resetTrim (o : Slv) (p : Opts) (σ : St) : St × Bool :=
  match σ.todo with
  | [] => (σ, true)
  | core :: _ =>
    let y := addCore o p σ core (minW σ.wt core) false
    ({ y.1 with todo := [], shrink := false }, y.2)

/-- minimize_constraint.cpp:1098-1101, 1497-1498: the core that is being trimmed is dropped when another one was found. -/
def dropTrim (σ : St) : St :=
  if σ.shrink then { σ with lower := σ.lower - (σ.todo.map (minW σ.wt)).sum, todo := [] } else σ

/-- minimize_constraint.cpp:1110-1112: the assumptions of a core are no longer pushed. -/
def unassume : List (Lit × Nat) → St → St
  | [], σ => σ
  | e :: es, σ => unassume es (σ.put e.2 { σ.get e.2 with assume := false })

/-- minimize_constraint.cpp:1096-1124: `handleUnsat` for a core found by conflict analysis.  `shr` is the result of `todo_.shrinkNext`. -/
def onCore (o : Slv) (p : Opts) (pr : Prob) (σ : St) (core : List (Lit × Nat)) (shr : Bool) : St × Bool :=
  let σ0 := dropTrim { σ with ready := false }
  let σ1 := { σ0 with lower := σ0.lower + minW σ0.wt core, todo := σ0.todo ++ [core] }
  let x := if σ1.disj then (unassume core σ1, true)
           else if p.trim ∧ validLower pr σ1 ∧ shr then ({ σ1 with shrink := true }, true)
           else resetTrim o p σ1
  ({ x.1 with next := !validLower pr x.1 }, x.2)

/-- minimize_constraint.cpp:1137-1141: the cores found by disjoint preprocessing are added. -/
def addTodo (o : Slv) (p : Opts) : List (List (Lit × Nat)) → St → St × Bool
  | [], σ => (σ, true)
  | core :: cs, σ =>
    let y := addCore o p σ core (minW σ.wt core) false
    if ¬ y.2 then y else addTodo o p cs y.1

/-- minimize_constraint.cpp:1136-1146: pending cores are added to the solver. -/
def flushTodo (o : Slv) (p : Opts) (σ : St) (shr : Bool) : St × Bool :=
  if σ.disj then let y := addTodo o p σ.todo σ; ({ y.1 with todo := [] }, y.2)
  else if σ.shrink ∧ (¬ shr ∨ cmpUp σ ≠ .lt) then resetTrim o p σ
  else (σ, true)

/-- minimize_constraint.cpp:1133-1162 `addNext` (with `allowInit`). -/
def addNext (o : Slv) (p : Opts) (pr : Prob) (σ : St) (shr : Bool) : St × Bool :=
  let y := flushTodo o p { σ with ready := false } shr
  let σ1 := { y.1 with next := false, disj := false }
  match cmpUp σ with
  | .lt =>
    if ¬ σ1.shrink ∧ σ1.nextW ≠ 0 then ({ σ1 with actW := σ1.nextW, disj := p.disjoint }, y.2) else (σ1, y.2)
  | .gt => let z := fixLevel o σ1; if ¬ z.2 then z else ({ z.1 with fin := true }, false)
  | .eq => let z := fixLevel o σ1; if σ.level ≠ pr.max ∨ σ.found then initLevel o p pr z.1 else z

/-- minimize_constraint.cpp:1049-1055 `computeSum`: the costs of a model. -/
def sums (pr : Prob) (M : Asg) (k : Nat) : Int := (pr.lits.map fun e => if M.sat e.1 then e.2 k else 0).sum

/-- minimize_constraint.cpp:1064-1069: the comparison with the upper bound from level `k` on. -/
def cmpFrom (s u : Nat → Int) : Nat → Nat → Ordering
  | 0, _ => .eq
  | fuel + 1, k => if s k = u k then cmpFrom s u fuel (k + 1) else compare (s k) (u k)

/-- minimize_constraint.cpp:1058-1077 `valid`. -/
def valid (pr : Prob) (σ : St) (s : Nat → Int) : Bool :=
  match σ.up with
  | none => true
  | some u => match cmpFrom s u (pr.max + 1 - σ.level) σ.level with
    | .lt => true
    | .eq => !σ.found
    | .gt => false

/-- minimize_constraint.cpp:1079-1088 `handleModel` (a model that is not valid sets `next_` in `valid`). -/
def onModel (pr : Prob) (σ : St) (M : Asg) : St :=
  if valid pr σ (sums pr M) then { σ with up := some (sums pr M), found := true, next := true } else { σ with next := true }

/-- Specification: the meaning of the added constraints. -/
def Sat (C : List Con) (M : Asg) : Prop := ∀ c ∈ C, c.sat M

/-- Specification: assumption on the solver (propagation and conflicts are sound, see C01-C05): what it considers true follows from the problem
`F` and the added constraints, and it reports a conflict only if there is none of their models left. -/
structure Slv.Sound (F : Asg → Prop) (o : Slv) : Prop where
  top : ∀ C p, o.top C p = true → ∀ M, F M → Sat C M → M.sat p
  root : ∀ C p, o.root C p = true → ∀ M, F M → Sat C M → M.sat p
  bad : ∀ C, o.bad C = true → ∀ M, F M → ¬ Sat C M

/-- minimize_constraint.cpp:1166-1205 `analyze`: a core is a set of assumptions (given by the negated literals) that are active and that cannot
hold together. -/
structure IsCore (F : Asg → Prop) (σ : St) (core : List (Lit × Nat)) : Prop where
  ne : core ≠ []
  nodup : (core.map Prod.snd).Nodup
  act : ∀ e ∈ core, e.2 < σ.dat.length ∧ (σ.get e.2).lit = e.1.neg ∧ (σ.get e.2).assume = true
  holds : ∀ M, F M → Sat σ.cons M → ∃ e ∈ core, M.sat e.1

/-- minimize_constraint.cpp:1124-1131: the state after an operation that may end with a conflict on the root level; in that case the search is over
(`handleUnsat` finds no core). -/
def close (x : St × Bool) : St := { x.1 with fin := x.1.fin || !x.2 }

/-- One operation of the constraint: initialization of the first level, a round of `pushPath`, a core, a model, `addNext` (after a model, a bound
that is not valid or an unsuccessful attempt to trim a core), giving up the trimming of a core (minimize_constraint.cpp:1495-1503), or a
conflict that does not depend on the assumptions.  The code alternates between them in `integrate` (822-851) and
`handleUnsat` (1091-1131); here they may come in any order that respects the flags. -/
inductive Step (F : Asg → Prop) (p : Opts) (pr : Prob) : St → St → Prop
  | init {σ} (o : Slv) : o.Sound F → σ.fin = false → σ.init = true → Step F p pr σ (close (initLevel o p pr σ))
  | path {σ} (o : Slv) (fuel : Nat) : o.Sound F → σ.fin = false → σ.init = false → σ.next = false → σ.shrink = false →
      Step F p pr σ (close (pathRound o p fuel σ))
  | core {σ} (o : Slv) (core : List (Lit × Nat)) (shr : Bool) : o.Sound F → σ.fin = false → σ.init = false → σ.next = false →
      IsCore F σ core → Step F p pr σ (close (onCore o p pr σ core shr))
  | model {σ} (M : Asg) : σ.fin = false → σ.init = false → F M → Sat σ.cons M →
      (σ.ready = true → ∀ e ∈ σ.asm, (σ.get e.2).assume = true → σ.actW ≤ (σ.get e.2).weight → M.sat e.1) →
      Step F p pr σ (onModel pr σ M)
  | next {σ} (o : Slv) (shr : Bool) : o.Sound F → σ.fin = false → σ.init = false → Step F p pr σ (close (addNext o p pr σ shr))
  | trimStop {σ} : σ.fin = false → σ.shrink = true → Step F p pr σ { dropTrim σ with shrink := false, ready := false }
  | unsat {σ} : σ.fin = false → (∀ M, F M → ¬ Sat σ.cons M) → Step F p pr σ { σ with fin := true }

/-- Specification: the states that can be reached from `a` by `Step`. -/
inductive Reach (F : Asg → Prop) (p : Opts) (pr : Prob) (a : St) : St → Prop
  | start : Reach F p pr a a
  | step {σ τ} : Reach F p pr a σ → Step F p pr σ τ → Reach F p pr a τ

end Clasp.Uncore
