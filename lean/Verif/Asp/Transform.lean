import Verif.Asp.Sem
import Verif.Opt.BuilderLem
import Mathlib.Data.Nat.Choose.Basic

/-!
# Translation of extended rules (C26)

Model of `RuleTransform` (src/logic_program_types.cpp 38-292, clasp/logic_program_types.h 195-215) and of the decision which rules are translated
(src/logic_program.cpp 785-827, 1058-1119).

Simplifications: the rules are collected in a list instead of being passed to the program (what the program does with them is C27); new atoms are numbered
consecutively; 64-bit sums are unbounded integers (the 32-bit check of the code is modelled). Accesses out of bounds and failed assertions are the outcome `ub`.
-/

namespace Clasp.Asp
open Clasp.Mini (ssort)

/-- What can go wrong: the exception of `POTASSCO_REQUIRE` (src/logic_program_types.cpp 183), or an access out of bounds or failed assertion. -/
inductive TFail
  | invalid
  | ub
  deriving DecidableEq, Repr

/-- `RuleTransform::Strategy` (clasp/logic_program_types.h 204). -/
inductive Strategy
  | dflt
  | noAux
  | allowAux
  deriving DecidableEq, Repr

/-- `CLASP_WEIGHT_T_MAX` (clasp/literal.h 198). -/
def maxWeight : Int := 2147483647

/-- The head of a rule for one atom, or none if the atom is 0 (src/logic_program_types.cpp 75-77). -/
def headOf (h : Nat) : Head := .disj (if h = 0 then [] else [h])

/-- `addRule(Atom_t, LitSpan)` (src/logic_program_types.cpp 75-77). -/
def mkRule (h : Nat) (b : List BLit) : Rule := ⟨headOf h, .conj b⟩

/-- `transformChoice` (src/logic_program_types.cpp 140-154): two rules for each head atom; `next` is the next new atom. -/
def transformChoice (lits : List BLit) : List Nat → Nat → List Rule × Nat
  | [], next => ([], next)
  | a :: as, next =>
    let (rs, n) := transformChoice lits as (next + 1)
    (mkRule a (lits ++ [⟨next, true⟩]) :: mkRule next [⟨a, true⟩] :: rs, n)

/-- `transformDisjunction` (src/logic_program_types.cpp 158-170): `pre` are the head atoms already done, in the order of the array. -/
def transformDisjunction (lits : List BLit) (pre : List Nat) : List Nat → List Rule
  | [] => []
  | a :: as => mkRule a (lits ++ pre.map (⟨·, true⟩) ++ as.map (⟨·, true⟩)) :: transformDisjunction lits (pre ++ [a]) as

/-! ### Sums -/

/-- `CmpW` and the sorting by decreasing weight (src/logic_program_types.cpp 51-56, 175-177; a sorted array is left alone by a stable sort). -/
def sortW (ls : List (BLit × Int)) : List (BLit × Int) := ssort (fun x y => decide (x.2 > y.2)) ls

/-- The partial sums `sumR_` (src/logic_program_types.cpp 178-184). -/
def sumR : List (BLit × Int) → List Int
  | [] => []
  | x :: r => ((sumR r).headD 0 + x.2) :: sumR r

/-- The loop that clamps and checks the weights (src/logic_program_types.cpp 180-184): it runs from the last literal to the first. -/
def clamp (bound : Int) : List (BLit × Int) → Except TFail (List (BLit × Int))
  | [] => .ok []
  | x :: r => match clamp bound r with
    | .error e => .error e
    | .ok r' => if 0 ≤ min x.2 bound ∧ (sumR r').headD 0 + min x.2 bound ≤ maxWeight then .ok ((x.1, min x.2 bound) :: r') else .error .invalid

/-! #### Enumerating minimal subsets -/

/-- The inner loop of `transformSelect` (src/logic_program_types.cpp 217-221): literals are added until the bound is reached. `rest` is `agg_` from position
`it` on, `lits` and `stk` are `lits_` and `aux_` with the top in front. -/
def selDown (bound : Int) : List (BLit × Int) → Nat → Int → List BLit → List Nat → Except TFail (Int × List BLit × List Nat)
  | rest, it, cw, lits, stk =>
    if bound ≤ cw then .ok (cw, lits, stk) else match rest with
      | [] => .error .ub
      | (l, w) :: r => selDown bound r (it + 1) (cw + w) (l :: lits) (it :: stk)

/-- The second loop of `transformSelect` (src/logic_program_types.cpp 223-229): the last literals are taken back until one can be replaced by a later one.
The result is `none` if the stack is empty (`return nRule`). -/
def selUp (agg : List (BLit × Int)) (bound : Int) : List Nat → List BLit → Int → Except TFail (Option (Nat × Int × List BLit × List Nat))
  | i :: stk, _ :: lits, cw => match agg[i]? with
    | none => .error .ub
    | some x =>
      let cw' := cw - x.2
      if i + 1 = agg.length then selUp agg bound stk lits cw' else match (sumR agg)[i + 1]? with
        | none => .error .ub
        | some s => if cw' + s < bound then selUp agg bound stk lits cw' else .ok (some (i + 1, cw', lits, stk))
  | [], _, _ => .ok none
  | _ :: _, [], _ => .error .ub

/-- The outer loop of `transformSelect` (src/logic_program_types.cpp 216-230), at most `fuel` rounds. -/
def selLoop (agg : List (BLit × Int)) (bound : Int) (h : Nat) : Nat → Nat → Int → List BLit → List Nat → Except TFail (List Rule)
  | 0, _, _, _, _ => .error .ub
  | fuel + 1, it, cw, lits, stk => match selDown bound (agg.drop it) it cw lits stk with
    | .error e => .error e
    | .ok (cw', lits', stk') => match selUp agg bound stk' lits' cw' with
      | .error e => .error e
      | .ok none => .ok [mkRule h lits'.reverse]
      | .ok (some (it2, cw2, lits2, stk2)) => match selLoop agg bound h fuel it2 cw2 lits2 stk2 with
        | .error e => .error e
        | .ok rs => .ok (mkRule h lits'.reverse :: rs)

/-- `transformSelect` (src/logic_program_types.cpp 210-231). -/
def transformSelect (agg : List (BLit × Int)) (bound : Int) (h : Nat) : Except TFail (List Rule) :=
  selLoop agg bound h (2 ^ agg.length) 0 0 [] []

/-! #### Auxiliary atoms -/

/-- `TodoItem` (src/logic_program_types.cpp 45-50). -/
structure TItem where
  idx : Nat
  bound : Int
  head : Nat
  deriving DecidableEq, Repr

/-- The state of `transformSplit` (src/logic_program_types.cpp 60-67, 243-246); `out` are the rules added so far, `next` the next new atom. -/
structure Sp where
  aux : List Nat
  todo : List TItem
  level : Nat
  next : Nat
  out : List Rule

/-- `getAuxVar` (src/logic_program_types.cpp 84-91). -/
def getAux (n : Nat) (s : Sp) (idx : Nat) (bound : Int) : Except TFail (Nat × Sp) :=
  if bound ≤ 0 ∨ n ≤ idx then .error .ub else match s.aux[(bound - 1).toNat]? with
    | none => .error .ub
    | some 0 => .ok (s.next, { s with aux := s.aux.set (bound - 1).toNat s.next, todo := s.todo ++ [⟨idx, bound, s.next⟩], next := s.next + 1 })
    | some (a + 1) => .ok (a + 1, s)

/-- `addRule(Atom_t, bool, uint32, weight_t)` (src/logic_program_types.cpp 269-291). -/
def splitRule (agg : List (BLit × Int)) (s : Sp) (head : Nat) (add : Bool) (i : Nat) (bound : Int) : Except TFail Sp :=
  match agg.getLast?, (sumR agg)[i + 1]?, agg[i]? with
  | some l, some maxW, some x =>
    if bound ≤ 0 then
      if add then .ok { s with out := s.out ++ [mkRule head [x.1]] } else .error .ub
    else if maxW - l.2 < bound then
      if bound ≤ maxW then .ok { s with out := s.out ++ [mkRule head ((agg.drop (if add then i else i + 1)).map Prod.fst)] } else .ok s
    else match getAux agg.length s (i + 1) bound with
      | .error e => .error e
      | .ok (a, s') => .ok { s' with out := s'.out ++ [mkRule head (if add then [x.1, ⟨a, false⟩] else [⟨a, false⟩])] }
  | _, _, _ => .error .ub

/-- The loop of `transformSplit` (src/logic_program_types.cpp 249-263), at most `fuel` rounds. -/
def splitLoop (agg : List (BLit × Int)) (bound : Nat) : Nat → Sp → Except TFail Sp
  | fuel, s => match s.todo with
    | [] => .ok s
    | i :: r => match fuel with
      | 0 => .error .ub
      | fuel + 1 =>
        let s1 : Sp := if s.level < i.idx then { s with todo := r, level := i.idx, aux := List.replicate bound 0 } else { s with todo := r }
        match agg[i.idx]? with
        | none => .error .ub
        | some x => match splitRule agg s1 i.head true i.idx (i.bound - x.2) with
          | .error e => .error e
          | .ok s2 => match splitRule agg s2 i.head false i.idx i.bound with
            | .error e => .error e
            | .ok s3 => splitLoop agg bound fuel s3

/-- `transformSplit` (src/logic_program_types.cpp 243-266). The array `aux_` is only resized, so it starts with what the last transformation left. -/
def transformSplit (agg : List (BLit × Int)) (bound : Int) (h : Nat) (aux : List Nat) (next : Nat) : Except TFail Sp :=
  splitLoop agg bound.toNat (agg.length * bound.toNat + 1)
    ⟨aux.take bound.toNat ++ List.replicate (bound.toNat - aux.length) 0, [⟨0, bound, h⟩], 0, next, []⟩

/-- The result of a transformation: the rules, the next new atom, and what is left in `aux_` (src/logic_program_types.cpp 66). -/
structure TRes where
  rules : List Rule
  next : Nat
  aux : List Nat

/-- `RuleTransform::Impl::transform` (src/logic_program_types.cpp 172-200). -/
def transformSum (s : Strategy) (h : Nat) (bound : Int) (ls : List (BLit × Int)) (aux : List Nat) (next : Nat) : Except TFail TRes :=
  match clamp bound (sortW ls) with
  | .error e => .error e
  | .ok agg =>
    let sum := (sumR agg).headD 0
    if sum < bound then .ok ⟨[], next, aux⟩
    else if bound ≤ 0 then .ok ⟨[mkRule h []], next, aux⟩
    else match agg.getLast? with
      | none => .error .ub
      | some l =>
        if sum - l.2 < bound then .ok ⟨[mkRule h (agg.map Prod.fst)], next, aux⟩
        else if s = .noAux ∨ (sum < 6 ∧ s = .dflt) then
          match transformSelect agg bound h with
          | .error e => .error e
          | .ok rs => .ok ⟨rs, next, []⟩
        else match transformSplit agg bound h aux next with
          | .error e => .error e
          | .ok sp => .ok ⟨sp.out, sp.next, sp.aux⟩

/-- `RuleTransform::transform` (src/logic_program_types.cpp 106-133). -/
def transform (s : Strategy) (r : Rule) (aux : List Nat) (next : Nat) : Except TFail TRes :=
  match r.body with
  | .sum ls bound => match r.head with
    | .disj [] => transformSum s 0 bound ls aux next
    | .disj [h] => transformSum s h bound ls aux next
    | hd => match transformSum s next bound ls aux (next + 1) with
      | .error e => .error e
      | .ok t => .ok { t with rules := ⟨hd, .conj [⟨next, false⟩]⟩ :: t.rules }
  | .conj cond => match r.head with
    | .disj [] => .ok ⟨[r], next, aux⟩
    | .disj [_] => .ok ⟨[r], next, aux⟩
    | .choice [] => .ok ⟨[r], next, aux⟩
    | hd =>
      let nAux : Bool := decide (1 < cond.length) && decide (1 < hd.atoms.length) && decide (s ≠ .noAux)
      let lits := if nAux then [⟨next, false⟩] else cond
      let pre := if nAux then [mkRule next cond] else []
      let next' := if nAux then next + 1 else next
      match hd with
      | .choice as => .ok ⟨pre ++ (transformChoice lits as next').1, (transformChoice lits as next').2, aux⟩
      | .disj as => .ok ⟨pre ++ transformDisjunction lits [] as, next', aux⟩

/-! ### Which rules are translated -/

/-- `ExtendedRuleMode` (clasp/logic_program.h 137-147). -/
inductive Mode
  | native
  | transform
  | choice
  | card
  | weight
  | scc
  | nhcf
  | integ
  | dynamic
  deriving DecidableEq, Repr

/-- `Rule::normal` (libpotassco; used in src/logic_program.cpp 1058-1080). -/
def Rule.isNormal (r : Rule) : Bool := match r.body with
  | .conj _ => true
  | .sum _ _ => false

/-- `r.bt == Body_t::Count` (src/logic_program.cpp 1076). The type of a body is not kept in the model: a sum whose weights are all 1 is a count, as
`simplifySum` makes it (src/logic_program.cpp 1909-1912). -/
def Rule.isCount (r : Rule) : Bool := match r.body with
  | .conj _ => false
  | .sum ls _ => ls.all fun x => decide (x.2 = 1)

/-- `transformNoAux` (src/logic_program.cpp 1085-1087); the bound is converted to an unsigned number. -/
def transformNoAux (r : Rule) : Bool := match r.head, r.body with
  | .disj _, .sum ls b => decide (b = 1) || (decide (ls.length ≤ 6) && decide (Nat.choose ls.length (b % 4294967296).toNat ≤ 15))
  | _, _ => false

/-- `handleNatively` (src/logic_program.cpp 1058-1083). -/
def handleNatively (m : Mode) (r : Rule) : Bool :=
  let disj : Bool := match r.head with
    | .disj _ => true
    | .choice _ => false
  if m = .native ∨ (r.isNormal = true ∧ disj = true) then true else match m with
    | .native | .integ | .scc | .nhcf => true
    | .transform => false
    | .dynamic => r.isNormal || !transformNoAux r
    | .choice => disj
    | .card => !r.isCount
    | .weight => r.isNormal

/-- `ht == Disjunctive && len(head) < 2` (src/logic_program.cpp 1096). -/
def Rule.shortDisj (r : Rule) : Bool := match r.head with
  | .disj as => decide (as.length < 2)
  | .choice _ => false

/-- One round of `transformExtended` (src/logic_program.cpp 1092-1116). -/
def extendRule (m : Mode) (r : Rule) (aux : List Nat) (next : Nat) : Except TFail TRes :=
  if r.isNormal = true ∨ r.shortDisj = true then transform .dflt r aux next else
    let r1 : Rule := ⟨.disj [next], r.body⟩
    let r2 : Rule := ⟨r.head, .conj [⟨next, false⟩]⟩
    match (if handleNatively m r1 then .ok ⟨[r1], next + 1, aux⟩ else transform (if transformNoAux r1 then .noAux else .dflt) r1 aux (next + 1)) with
    | .error e => .error e
    | .ok t1 => match (if handleNatively m r2 then .ok ⟨[r2], t1.next, t1.aux⟩ else transform .dflt r2 t1.aux t1.next) with
      | .error e => .error e
      | .ok t2 => .ok { t2 with rules := t1.rules ++ t2.rules }

/-- `transformExtended` (src/logic_program.cpp 1089-1119): one translator object is used for all rules. -/
def extendAll (m : Mode) : List Rule → List Nat → Nat → Except TFail TRes
  | [], aux, next => .ok ⟨[], next, aux⟩
  | r :: rs, aux, next => match extendRule m r aux next with
    | .error e => .error e
    | .ok t => match extendAll m rs t.aux t.next with
      | .error e => .error e
      | .ok t' => .ok { t' with rules := t.rules ++ t'.rules }

/-- What `addRule` does with a (simplified) rule (src/logic_program.cpp 791-813): rules that are part of the program, and rules to be translated later. -/
def dispatch (m : Mode) (r : Rule) (next : Nat) : Except TFail (List Rule × List Rule) :=
  if handleNatively m r then .ok ([r], [])
  else if r.head.atoms.length ≤ 1 ∧ transformNoAux r = true then match transform .noAux r [] next with
    | .error e => .error e
    | .ok t => .ok (t.rules, [])
  else .ok ([], [r])

/-- The rules of a program, dispatched one after the other (src/logic_program.cpp 785-827). -/
def dispatchAll (m : Mode) (next : Nat) : List Rule → Except TFail (List Rule × List Rule)
  | [] => .ok ([], [])
  | r :: rs => match dispatch m r next with
    | .error e => .error e
    | .ok (a, b) => match dispatchAll m next rs with
      | .error e => .error e
      | .ok (a', b') => .ok (a ++ a', b ++ b')

/-- From the added rules to the rules that are solved (src/logic_program.cpp 785-827, 1243): `next` is the number of atoms when the program is ended. -/
def translate (m : Mode) (rs : List Rule) (next : Nat) : Except TFail (List Rule) :=
  match dispatchAll m next rs with
  | .error e => .error e
  | .ok (a, b) => match extendAll m b [] next with
    | .error e => .error e
    | .ok t => .ok (a ++ t.rules)

end Clasp.Asp
