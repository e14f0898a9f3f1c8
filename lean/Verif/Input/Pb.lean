/-
C34. `PBBuilder` (src/program_builder.cpp 224-351, clasp/program_builder.h 167-236).

`products_` maps the literals of a product to its literal; the hash value stored in front of the key is a function of the literals and
left out. The output, projection and assumptions are not modelled (`addProject`, `addAssumption`, `markOutputVariables`). Checks for
variables that do not exist (`getAuxVar`) end with `Fail.bad`; 32 bit arithmetic is checked.
-/
import Verif.Input.Db
import Verif.Opt.Builder
namespace Clasp.Input
open Core Weight

/-- State of `PBBuilder` (program_builder.h:230-235) and the part of the context it changes; `weak` is `soft_`, `none` its maximal value. -/
structure Pb where
  db : Db
  prods : List (List Lit × Lit)
  aux : Nat
  endv : Nat
  weak : Option Int

/-- program_builder.cpp:230-237 `prepareProblem` on a fresh context: variables `1..numVars` are those of the problem, the following
ones are auxiliary (shared_context.cpp:560-570: the sentinel is assigned) -/
def Pb.prepare (numVars numProd numSoft : Nat) : Pb :=
  ⟨⟨fun v => if v = 0 then some true else none, true, [], [], []⟩, [], numVars + 1, numVars + 1 + (numProd + numSoft), none⟩

/-- program_builder.cpp:238-241 `getAuxVar` -/
def Pb.auxVar (s : Pb) : R (Pb × Nat) :=
  if s.aux < s.endv then .ok ({ s with aux := s.aux + 1 }, s.aux) else .error .bad

/-- literal.h:149 `operator<` on literals -/
def ltLit (a b : Lit) : Bool := decide (a.var < b.var) || (decide (a.var = b.var) && !a.sign && b.sign)

/-- How the loop of `productSubsumed` ends (program_builder.cpp:305-320) -/
inductive PLoop where
  | false
  | redo (lits : List Lit)
  | done (lits : List Lit)

/-- program_builder.cpp:305-320: the loop of `productSubsumed`; `arr` is the vector as given, whose prefix is overwritten by `out` -/
def prodLoop (top : Top) (arr : List Lit) : List Lit → Lit → List Lit → PLoop
  | [], _, out => .done out
  | x :: xs, last, out =>
    if top x.var = some (!x.tv) ∨ x.neg = last then .false
    else if last.var > x.var then .redo (out ++ arr.drop out.length)
    else if top x.var ≠ some x.tv ∧ last ≠ x then prodLoop top arr xs x (out ++ [x])
    else prodLoop top arr xs last out

/-- program_builder.cpp:322-323: what `productSubsumed` leaves in `lits` -/
def prodEnd (lits : List Lit) : List Lit := if lits = [] then [litTrue] else lits

/-- program_builder.cpp:299-325 `productSubsumed`: the literals left; it returns true iff there are fewer than two. The recursive call
is made at most once since it gets a sorted vector (`C34_pb_sort`). -/
def productSubsumed (top : Top) (lits : List Lit) : R (List Lit) :=
  match prodLoop top lits lits litTrue [] with
  | .false => .ok [litTrue.neg]
  | .done out => .ok (prodEnd out)
  | .redo lits =>
    let arr := Clasp.Mini.ssort ltLit lits
    match prodLoop top arr arr litTrue [] with
    | .false => .ok [litTrue.neg]
    | .done out => .ok (prodEnd out)
    | .redo _ => .error .bad

/-- program_builder.cpp:326-337 `addProductConstraints`: the binary clauses -/
def prodBins (eq : Lit) : List Lit → Db → Db
  | [], d => d
  | x :: xs, d => if d.ok then prodBins eq xs (d.clause [eq.neg, x]) else d

/-- program_builder.cpp:326-337 `addProductConstraints` -/
def prodCons (eq : Lit) (lits : List Lit) (d : Db) : Db :=
  let d := prodBins eq lits d
  if d.ok then d.clause (lits.map Lit.neg ++ [eq]) else d

/-- program_builder.cpp:291-297: look up a product or introduce a new variable for it -/
def Pb.product (s : Pb) (key : List Lit) : R (Pb × Lit) :=
  match s.prods.find? fun p => p.1 == key with
  | some p => .ok (s, p.2)
  | none => do
    let v ← s.auxVar
    .ok ({ v.1 with db := prodCons ⟨v.2, false⟩ key v.1.db, prods := v.1.prods ++ [(key, ⟨v.2, false⟩)] }, ⟨v.2, false⟩)

/-- program_builder.cpp:285-298 `addProduct` -/
def Pb.addProduct (s : Pb) (lits : List Lit) : R (Pb × Lit) :=
  if s.db.ok = false then .ok (s, litTrue.neg)
  else do
    let ls ← productSubsumed s.db.top lits
    match ls with
    | [] => .error .bad
    | [x] => .ok (s, x)
    | ls => s.product ls

/-- program_builder.cpp:250-254: the cost literal of a soft constraint over one literal -/
def softLit (x : WL) (bound : Int) : R Lit := do
  let w ← if x.w < 0 then chk (-x.w) else .ok x.w
  let b ← if x.w < 0 then chk (bound + w) else .ok bound
  .ok (if w < b then litTrue.neg else if x.w < 0 then x.lit.neg else x.lit).neg

/-- program_builder.cpp:258: the constraint itself -/
def Pb.create (s : Pb) (eq : Bool) (W : Lit) (lits : List WL) (bound : Int) : R Pb := do
  let m ← createCon eq false false s.db.top W lits bound
  .ok { s with db := s.db.made m }

/-- shared_context.cpp `addMinimize` as called by `addMinLit` (program_builder.cpp:84-86) -/
def Pb.addMin (s : Pb) (x : WL) : Pb := { s with db := { s.db with mini := s.db.mini ++ [x] } }

/-- program_builder.cpp:242-259 `addConstraint` -/
def Pb.addConstraint (s : Pb) (lits : List WL) (bound : Int) (eq : Bool) (cw : Int) : R Pb :=
  if s.db.ok = false then .ok s
  else if cw > 0 then
    match lits with
    | [x] => do let l ← softLit x bound; .ok (s.addMin ⟨l, cw⟩)
    | lits => do
      let v ← s.auxVar
      (v.1.addMin ⟨⟨v.2, true⟩, cw⟩).create eq ⟨v.2, false⟩ lits bound
  else s.create eq litTrue lits bound

/-- program_builder.cpp:260-265 `addObjective` -/
def Pb.addObjective (s : Pb) (min : List WL) : Pb := { s with db := { s.db with mini := s.db.mini ++ min } }

/-- program_builder.cpp:273-276 `setSoftBound` -/
def Pb.setSoftBound (s : Pb) (b : Int) : Pb := if b > 0 then { s with weak := some (b - 1) } else s

/-- The literal for a term: `addProduct` is called unless the term is a single literal (parser.cpp:482, see also `addProduct`) -/
def Pb.term (s : Pb) : List Lit → R (Pb × Lit)
  | [x] => .ok (s, x)
  | t => s.addProduct t

/-- The weighted literals for a sum of weighted terms (parser.cpp:476-487) -/
def Pb.sum : List (Int × List Lit) → Pb → R (Pb × List WL)
  | [], s => .ok (s, [])
  | t :: ts, s => do
    let x ← s.term t.2
    let r ← Pb.sum ts x.1
    .ok (r.1, ⟨x.2, t.1⟩ :: r.2)

/-- The calls between `prepareProblem` and `endProgram`: constraints and objectives over products, each preceded by the calls of
`addProduct` for its terms; `setSoftBound`. -/
inductive PCall where
  | con (ts : List (Int × List Lit)) (bound : Int) (eq : Bool) (cw : Int)
  | obj (ts : List (Int × List Lit))
  | bound (b : Int)

/-- one call -/
def Pb.call (s : Pb) : PCall → R Pb
  | .con ts b eq cw => do let r ← Pb.sum ts s; r.1.addConstraint r.2 b eq cw
  | .obj ts => do let r ← Pb.sum ts s; .ok (r.1.addObjective r.2)
  | .bound b => .ok (s.setSoftBound b)

/-- all calls -/
def Pb.calls : List PCall → Pb → R Pb
  | [], s => .ok s
  | c :: cs, s => do let s ← s.call c; Pb.calls cs s

/-- program_builder.cpp:345-351 `doEndProgram`: variables not used are false; `k` of them are left -/
def endAux : Nat → Nat → Db → Db
  | 0, _, d => d
  | k + 1, v, d => if (d.clause [⟨v, true⟩]).ok then endAux k (v + 1) (d.clause [⟨v, true⟩]) else d.clause [⟨v, true⟩]

/-- program_builder.cpp:345-351 `doEndProgram`, called only without conflict (program_builder.cpp:54-63 `endProgram`) -/
def Pb.doEnd (s : Pb) : Db := if s.db.ok then endAux (s.endv - s.aux) s.aux s.db else s.db

end Clasp.Input
