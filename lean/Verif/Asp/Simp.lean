import Verif.Asp.Transform

/-!
# Simplification of rules when they are added

Model of `LogicProgram::simplifyRule`, `simplifyNormal`, `simplifySum`, `pushHead` and of the way a rule enters the program: `addRule`, `addFact`, `addIntegrity`,
`assignValue` (src/logic_program.cpp 785-827, 930-1050, 1790-1960).

Simplifications:
* atoms are never equivalent to other atoms while rules are added (`getRootAtom(a) = a`), which holds for the first step of a program;
* no atoms are frozen or from a former step;
* `opts_.noSCC` (supported models) is off;
* `findBody`, hashes and the statistics are left out; a body is looked up among the rules that were added;
* the class `RuleBuilder` belongs to the library libpotassco, whose source is not part of the repository: `weaken` is modelled from its documentation
  (turn a sum into a normal body, or into a count whose bound is rounded up);
* weights are integers; where the code computes with `weight_t` (32 bit) without a check, a result out of range is the failure `ub`, which is proved not to occur.
-/

namespace Clasp.Asp.Simp

/-- The value of an atom in the program (`value_free`, `value_true`, `value_false`, `value_weak_true`; clasp/logic_program_types.h 49, clasp/literal.h). -/
inductive Val
  | free | tru | fals | weak
  deriving DecidableEq, Repr

/-- `LogicProgram::litVal` (src/logic_program.cpp 1790-1797) for a relevant atom. -/
def litVal (v : Val) (pos : Bool) : Option Bool := match v with
  | .free => none
  | .fals => some (!pos)
  | .tru => some pos
  | .weak => if pos then none else some false

/-- The flags of `AtomState` (clasp/logic_program_types.h 219-271) that describe the active rule: `pos_flag` and `neg_flag` (`body`), `head_flag` (`head`). -/
structure Marks where
  body : BLit → Bool
  head : Nat → Bool

/-- No flag of the active rule is set. -/
def Marks.none : Marks := ⟨fun _ => false, fun _ => false⟩

/-- `AtomState::addToBody` (clasp/logic_program_types.h 246). -/
def Marks.addToBody (m : Marks) (p : BLit) : Marks := { m with body := fun q => if q = p then true else m.body q }

/-- `AtomState::addToHead` (clasp/logic_program_types.h 243). -/
def Marks.addToHead (m : Marks) (a : Nat) : Marks := { m with head := fun b => if b = a then true else m.head b }

/-- `AtomState::clearRule` (clasp/logic_program_types.h 250). -/
def Marks.clearRule (m : Marks) (a : Nat) : Marks := ⟨fun q => if q.atom = a then false else m.body q, fun b => if b = a then false else m.head b⟩

/-- A loop that clears the flags of some atoms (src/logic_program.cpp 1828-1830, 1900, 1908-1910, 1917-1919, 1950-1952). -/
def Marks.clearAll (m : Marks) : List Nat → Marks
  | [] => m
  | a :: as => (m.clearRule a).clearAll as

/-- What is known about atoms: values, the sticky flags `fact_flag` and `false_flag` (clasp/logic_program_types.h 226-227), and `ignoreScc` of atoms. -/
structure Known where
  val : Nat → Val
  fact : Nat → Bool
  fals : Nat → Bool
  ign : Nat → Bool

/-- The complement of a literal (`operator~`, clasp/literal.h 137). -/
def _root_.Clasp.Asp.BLit.compl (p : BLit) : BLit := ⟨p.atom, !p.neg⟩

/-- The loop over the body of a normal rule (src/logic_program.cpp 1808-1823). -/
def normLoop (k : Known) : List BLit → Marks → List BLit → Bool × Marks × List BLit
  | [], m, out => (true, m, out)
  | p :: ls, m, out =>
    if litVal (k.val p.atom) (!p.neg) = some false ∨ m.body p.compl = true then (false, m, out)
    else if litVal (k.val p.atom) (!p.neg) ≠ some true ∧ m.body p = false then normLoop k ls (m.addToBody p) (out ++ [p])
    else normLoop k ls m out

/-- `wp` and `wn` in `pushHead` (src/logic_program.cpp 1940-1942): the weight of a literal if it is in the body. -/
def wIn (m : Marks) (wt : BLit → Int) (p : BLit) : Int := if m.body p then wt p else 0

/-- The loop over the head atoms (src/logic_program.cpp 1931-1949): `wt` is the weight of a literal of the body; `hs` are the atoms that were added. -/
def headLoop (k : Known) (wt : BLit → Int) (slack : Int) : List Nat → Marks → List Nat → Bool → List Nat × Bool × Marks
  | [], m, hs, sat => (hs, sat, m)
  | a :: as, m, hs, sat =>
    if m.body ⟨a, false⟩ = false ∧ m.body ⟨a, true⟩ = false ∧ m.head a = false ∧ k.fact a = false ∧ k.fals a = false then
      headLoop k wt slack as (m.addToHead a) (hs ++ [a]) sat
    else if k.fals a = false ∧ m.head a = false then
      if k.fact a = true ∨ wIn m wt ⟨a, false⟩ > slack then headLoop k wt slack as m hs true
      else if wIn m wt ⟨a, true⟩ ≤ slack then headLoop k wt slack as (m.addToHead a) (hs ++ [a]) sat
      else headLoop k wt slack as m hs sat
    else headLoop k wt slack as m hs sat

/-- Part of `pushHead` (src/logic_program.cpp 1930, 1953): a head of the given type. -/
def _root_.Clasp.Asp.Head.like : Head → List Nat → Head
  | .disj _, as => .disj as
  | .choice _, as => .choice as

/-- Part of `pushHead` (src/logic_program.cpp 1953): is it a choice? -/
def _root_.Clasp.Asp.Head.isChoice : Head → Bool
  | .disj _ => false
  | .choice _ => true

/-- `LogicProgram::pushHead` (src/logic_program.cpp 1926-1954): is the rule kept, and its head. -/
def pushHead (k : Known) (m : Marks) (h : Head) (wt : BLit → Int) (slack : Int) : Bool × Head × Marks :=
  let (hs, sat, m) := headLoop k wt slack h.atoms m [] false
  (!sat || (h.isChoice && !hs.isEmpty), h.like hs, m.clearAll hs)

/-- `LogicProgram::simplifyNormal` (src/logic_program.cpp 1804-1832): the rule, if it is not superfluous. -/
def simplifyNormal (k : Known) (m : Marks) (h : Head) (body : List BLit) : Option Rule × Marks :=
  let (ok, m, out) := normLoop k body m []
  if ok then
    let (keep, h', m) := pushHead k m h (fun _ => 1) 0
    (if keep then some ⟨h', .conj out⟩ else none, m.clearAll (out.map BLit.atom))
  else (none, m.clearAll (out.map BLit.atom))

/-- The ways `simplifySum` can fail: a negative weight (`EDOM`), a sum that is too large (`EOVERFLOW`), or an assertion. -/
inductive SFail
  | domain | overflow | ub
  deriving DecidableEq, Repr

/-- `CLASP_WEIGHT_T_MAX` (clasp/literal.h 198). -/
def wMax : Int := 2147483647

/-- A number of type `weight_t` (clasp/literal.h 195): a signed overflow is undefined behaviour. -/
def chk (x : Int) : Except SFail Int := if -wMax - 1 ≤ x ∧ x ≤ wMax then .ok x else .error .ub

/-- `std::find_if` with `IsLit` (src/logic_program.cpp 1834-1839): the weight of a literal. -/
def findW (p : BLit) : List (BLit × Int) → Option Int
  | [] => none
  | x :: r => if x.1 = p then some x.2 else findW p r

/-- `pos->weight += w` (src/logic_program.cpp 1876-1878) for the first element with literal `p`. -/
def addW (p : BLit) (w : Int) : List (BLit × Int) → List (BLit × Int)
  | [] => []
  | x :: r => if x.1 = p then (x.1, x.2 + w) :: r else x :: addW p w r

/-- The local variables of `simplifySum` (src/logic_program.cpp 1853-1855). -/
structure SumSt where
  m : Marks
  out : List (BLit × Int)
  bound : Int
  maxW : Int
  minW : Int
  sumW : Int
  dirty : Nat

/-- One round of the first loop for a literal that is not assigned (src/logic_program.cpp 1867-1884). -/
def sumFree (p : BLit) (w : Int) (s : SumSt) : Except SFail SumSt :=
  if wMax - s.sumW < w then .error .overflow
  else if s.m.body p = false then
    .ok { s with m := s.m.addToBody p, out := s.out ++ [(p, w)], sumW := s.sumW + w, maxW := max s.maxW w, minW := min s.minW w,
                 dirty := s.dirty + (if s.m.body p.compl then 1 else 0) }
  else match findW p s.out with
    | none => .error .ub
    | some w' => .ok { s with out := addW p w s.out, sumW := s.sumW + w, maxW := max s.maxW (w' + w), minW := min s.minW (w' + w),
                              dirty := s.dirty + 1 + (if s.m.body p.compl then 1 else 0) }

/-- The first loop of `simplifySum` (src/logic_program.cpp 1856-1886). -/
def sumLoop (k : Known) : List (BLit × Int) → SumSt → Except SFail SumSt
  | [], s => .ok s
  | (p, w) :: ls, s =>
    if s.bound ≤ 0 then .ok s
    else if w < 0 then .error .domain
    else if w = 0 then sumLoop k ls s
    else match litVal (k.val p.atom) (!p.neg) with
      | some true => match chk (s.bound - w) with
        | .error e => .error e
        | .ok b => sumLoop k ls { s with bound := b }
      | some false => sumLoop k ls s
      | none => match sumFree p w s with
        | .error e => .error e
        | .ok s => sumLoop k ls s

/-- The local variables of the second loop (src/logic_program.cpp 1887-1899). -/
structure ClampSt where
  maxW : Int
  minW : Int
  sumW : Int
  sumR : Int

/-- What is subtracted from `sumR` (src/logic_program.cpp 1895-1898): the literal is negative and the sum also contains the positive one. `all` is the current content of
the array. -/
def both (m : Marks) (p : BLit) (w : Int) (all : List (BLit × Int)) : Except SFail Int :=
  if p.neg = true ∧ m.body p.compl = true then match findW p.compl all with
    | none => .error .ub
    | some w' => .ok (min w w')
  else .ok 0

/-- The second loop of `simplifySum` (src/logic_program.cpp 1890-1899): `pre` are the elements already done. -/
def clampLoop (m : Marks) (bound : Int) : List (BLit × Int) → List (BLit × Int) → ClampSt → Except SFail (List (BLit × Int) × ClampSt)
  | pre, [], c => .ok (pre, c)
  | pre, (p, w0) :: ls, c =>
    let w := min w0 bound
    match both m p w (pre ++ (p, w) :: ls) with
    | .error e => .error e
    | .ok d => match chk (c.sumR + w) with
      | .error e => .error e
      | .ok sumR => clampLoop m bound (pre ++ [(p, w)]) ls
        ⟨if w0 > bound then bound else c.maxW, min c.minW w, if w0 > bound then c.sumW - (w0 - bound) else c.sumW, sumR - d⟩

/-- `weaken(Body_t::Count, resetWeights)` of the library, as documented: the weights become 1 and the bound is divided by the smallest weight and rounded up. -/
def weakenCount (reset : Bool) (minW : Int) (out : List (BLit × Int)) (bound : Int) : Except SFail (List (BLit × Int) × Int) :=
  if reset then match chk (bound + (minW - 1)) with
    | .error e => .error e
    | .ok b => .ok (out.map fun x => (x.1, 1), b / minW)
  else .ok (out, bound)

/-- `LogicProgram::simplifySum` (src/logic_program.cpp 1851-1921). -/
def simplifySum (k : Known) (m : Marks) (h : Head) (ls : List (BLit × Int)) (bound : Int) : Except SFail (Option Rule × Marks) :=
  match sumLoop k ls ⟨m, [], bound, 1, wMax, 0, 0⟩ with
  | .error e => .error e
  | .ok s =>
    match (if s.bound > 0 ∧ (s.dirty ≠ 0 ∨ s.maxW > s.bound) then clampLoop s.m s.bound [] s.out ⟨s.maxW, wMax, s.sumW, 0⟩
        else .ok (s.out, ⟨s.maxW, s.minW, s.sumW, s.sumW⟩) : Except SFail _) with
    | .error e => .error e
    | .ok (out, c) =>
      let as := out.map fun x => x.1.atom
      if s.bound ≤ 0 then .ok (simplifyNormal k (s.m.clearAll as) h [])
      else if c.sumR < s.bound then .ok (none, s.m.clearAll as)
      else if c.sumW - c.minW < s.bound then
        let (keep, h', m) := pushHead k s.m h (fun _ => 1) 0
        .ok (if keep then some ⟨h', .conj (out.map Prod.fst)⟩ else none, m.clearAll as)
      else if c.minW = c.maxW then
        match weakenCount (decide (c.maxW ≠ 1)) c.minW out s.bound with
        | .error e => .error e
        | .ok (out', bound') =>
          let (keep, h', m) := pushHead k s.m h (fun _ => 1) (c.sumW - bound')
          .ok (if keep then some ⟨h', .sum out' bound'⟩ else none, m.clearAll as)
      else
        let (keep, h', m) := pushHead k s.m h (fun p => (findW p out).getD 0) (c.sumW - s.bound)
        .ok (if keep then some ⟨h', .sum out s.bound⟩ else none, m.clearAll as)

/-- `LogicProgram::simplifyRule` (src/logic_program.cpp 1956-1960). -/
def simplifyRule (k : Known) (m : Marks) (r : Rule) : Except SFail (Option Rule × Marks) := match r.body with
  | .conj ls => .ok (simplifyNormal k m r.head ls)
  | .sum ls b => simplifySum k m r.head ls b

/-! ### The program -/

/-- The program under construction. `rules` are the rules in the program; facts and one-literal integrity constraints are only represented by values, `conflict` is set
by `setConflict` (clasp/logic_program.h 511). Proof device: `vals` lists the facts and constraints that are represented by values. -/
structure Prg where
  k : Known
  m : Marks
  rules : List Rule
  vals : List Rule
  conflict : Bool

/-- An empty program (`LogicProgram::doStartProgram`, src/logic_program.cpp). -/
def Prg.init : Prg := ⟨⟨fun _ => .free, fun _ => false, fun _ => false, fun _ => false⟩, Marks.none, [], [], false⟩

/-- `PrgNode::assignValueImpl` (clasp/logic_program_types.h 119-126, called from 307): the new value, or `none` for a conflict. -/
def assignVal (ign : Bool) (old v : Val) : Option Val :=
  let v := if v = .weak ∧ ign = true then .tru else v
  if old = .free ∨ v = old ∨ (old = .weak ∧ v = .tru) then some v
  else if v = .weak ∧ old = .tru then some old else none

/-- `LogicProgram::assignValue` (src/logic_program.cpp 1040-1053), without the propagation queue; `body0` says that the reason is a normal edge from a body with bound 0. -/
def Prg.assign (s : Prg) (a : Nat) (v : Val) (body0 : Bool) : Prg := match assignVal (s.k.ign a) (s.k.val a) v with
  | none => { s with conflict := true }
  | some v' => { s with k := { s.k with
      val := fun b => if b = a then v' else s.k.val b
      fals := fun b => if b = a ∧ v = .fals then true else s.k.fals b
      fact := fun b => if b = a ∧ v = .tru ∧ body0 = true then true else s.k.fact b } }

/-- `addFact` for one head atom (src/logic_program.cpp 1001-1026): nothing is done for an atom that is already a fact. The two ways to store the fact (shared node for the
true atom, or head of the true body) are not distinguished. -/
def Prg.addFact (s : Prg) (a : Nat) : Prg :=
  if s.k.fact a then s
  else
    let s : Prg := { s with vals := s.vals ++ [⟨.disj [a], .conj []⟩], k := { s.k with ign := fun b => if b = a then true else s.k.ign b, fact := fun b => if b = a then true else s.k.fact b } }
    s.assign a .tru true

/-- Is there a rule with the given body (`findBody`, src/logic_program.cpp 2064)? -/
def Prg.hasBody (s : Prg) (b : Body) : Bool := s.rules.any fun r => decide (r.body = b)

/-- `LogicProgram::addIntegrity` (src/logic_program.cpp 1027-1039). A constraint with another body than a new single literal is kept as a rule;
the empty body is true (src/logic_program_types.cpp 720-723) and cannot be assigned false. -/
def Prg.addIntegrity (s : Prg) (b : Body) : Prg := match b with
  | .conj [] => { s with conflict := true }
  | .conj [l] => if s.hasBody b then { s with rules := s.rules ++ [⟨.disj [], b⟩] } 
    else ({ s with vals := s.vals ++ [⟨.disj [], b⟩] } : Prg).assign l.atom (if l.neg then .weak else .fals) false
  | _ => { s with rules := s.rules ++ [⟨.disj [], b⟩] }

/-- `LogicProgram::addRule(const Rule&, const SRule&)` (src/logic_program.cpp 970-1000) for a simplified rule. -/
def Prg.addNative (s : Prg) (r : Rule) : Prg := match r with
  | ⟨.disj [], b⟩ => s.addIntegrity b
  | ⟨.disj [a], .conj []⟩ => s.addFact a
  | ⟨.disj [a], b⟩ => { s with rules := s.rules ++ [⟨.disj [a], b⟩] }
  | ⟨.choice as, .conj []⟩ => { s with rules := s.rules ++ [⟨.choice as, .conj []⟩], k := { s.k with ign := fun b => if b ∈ as then true else s.k.ign b } }
  | r => { s with rules := s.rules ++ [r] }

/-- `LogicProgram::addRule` (src/logic_program.cpp 785-827) in a mode in which all rules are handled natively. -/
def Prg.add (s : Prg) (r : Rule) : Except SFail Prg := match simplifyRule s.k s.m r with
  | .error e => .error e
  | .ok (none, m) => .ok { s with m := m }
  | .ok (some r', m) => .ok ({ s with m := m }.addNative r')

/-- The rules of a program, added one after the other (src/logic_program.cpp 785-827). -/
def Prg.addAll (s : Prg) : List Rule → Except SFail Prg
  | [] => .ok s
  | r :: rs => match s.add r with
    | .error e => .error e
    | .ok s => s.addAll rs

end Clasp.Asp.Simp
