/-
C34. The OPB and WBO formats (linear and with products) as a grammar, and what a text of the grammar means. Nothing here refers to the
reader except for the type of texts and the set of white space characters.
-/
import Verif.Input.DimacsSpec
namespace Clasp.Input
open Core Weight

/-- Specification: literals `x1` and `~x1` of a problem with `n` variables. -/
inductive OLit (n : Nat) : Int → Text → Prop
  | pos {v : Nat} {a : Text} : 1 ≤ v → v ≤ n → Digs v a → OLit n v ('x' :: a)
  | neg {v : Nat} {a : Text} : 1 ≤ v → v ≤ n → Digs v a → OLit n (-(v : Int)) ('~' :: 'x' :: a)

/-- Specification: products of literals, written one after the other or with `*`. -/
inductive OTerm (n : Nat) : List Int → Text → Prop
  | one {l a} : OLit n l a → OTerm n [l] a
  | cons {l ls a w s} : OLit n l a → Ws w → OTerm n ls s → OTerm n (l :: ls) (a ++ w ++ s)
  | star {l ls a w u s} : OLit n l a → Ws w → Ws u → OTerm n ls s → OTerm n (l :: ls) (a ++ w ++ ['*'] ++ u ++ s)

/-- Specification: sums of weighted products. -/
inductive OSum (n : Nat) : List (Int × List Int) → Text → Prop
  | one {c t a u b} : -MAXW ≤ c → c ≤ MAXW → Num c a → Ws u → OTerm n t b → OSum n [(c, t)] (a ++ u ++ b)
  | cons {c t ts a u b w s} : -MAXW ≤ c → c ≤ MAXW → Num c a → Ws u → OTerm n t b → Ws1 w → OSum n ts s →
      OSum n ((c, t) :: ts) (a ++ u ++ b ++ w ++ s)

/-- Specification: a constraint `sum = b` (`eq`) or `sum >= b`; costs if it is soft. -/
structure OCon where
  cost : Option Int
  ts : List (Int × List Int)
  eq : Bool
  b : Int

/-- Specification: texts of constraints without costs. -/
inductive ConTxt (n : Nat) : OCon → Text → Prop
  | eq {ts b s w v a z} : OSum n ts s → Ws w → Ws v → -MAXW - 1 ≤ b → b ≤ MAXW → Num b a → Ws z →
      ConTxt n ⟨none, ts, true, b⟩ (s ++ w ++ ['='] ++ v ++ a ++ z ++ [';'])
  | ge {ts b s w v a z} : OSum n ts s → Ws w → Ws v → -MAXW - 1 ≤ b → b ≤ MAXW → Num b a → Ws z →
      ConTxt n ⟨none, ts, false, b⟩ (s ++ w ++ ['>', '='] ++ v ++ a ++ z ++ [';'])

/-- Specification: texts of constraints; costs are in the range given in the problem line. -/
inductive SConTxt (n lo hi : Nat) : OCon → Text → Prop
  | hard {x s} : ConTxt n x s → SConTxt n lo hi x s
  | soft {x c u a v w s} : 0 < c → (lo : Int) ≤ c → c ≤ hi → Ws u → Num c a → Ws v → Ws w → ConTxt n x s →
      SConTxt n lo hi { x with cost := some c } (['['] ++ u ++ a ++ v ++ [']'] ++ w ++ s)

/-- Specification: the objective function, or the bound for the costs of soft constraints. -/
inductive OObj where
  | none
  | min (ts : List (Int × List Int))
  | soft (k : Int)

/-- Specification: texts of objectives. -/
inductive ObjTxt (n : Nat) : OObj → Text → Prop
  | empty {w} : Ws w → ObjTxt n (.min []) (['m', 'i', 'n', ':'] ++ w ++ [';'])
  | min {ts w s v} : Ws w → OSum n ts s → Ws v → ObjTxt n (.min ts) (['m', 'i', 'n', ':'] ++ w ++ s ++ v ++ [';'])
  | soft {k w a v} : 0 < k → Ws w → Num k a → Ws v → ObjTxt n (.soft k) (['s', 'o', 'f', 't', ':'] ++ w ++ a ++ v ++ [';'])

/-- Specification: white space and comments. -/
inductive Gap : Text → Prop
  | ws {w} : Ws w → Gap w
  | comment {w t s} : Ws w → Line t → Gap s → Gap (w ++ '*' :: t ++ '\n' :: s)

/-- Specification: the constraints with comments. -/
inductive Cons (n lo hi : Nat) : List OCon → Text → Prop
  | nil {g} : Gap g → Cons n lo hi [] g
  | item {x xs g t s} : Gap g → SConTxt n lo hi x t → Cons n lo hi xs s → Cons n lo hi (x :: xs) (g ++ t ++ s)

/-- Specification: what follows the problem line. -/
inductive OBody (n lo hi : Nat) : OObj → List OCon → Text → Prop
  | none {xs s} : Cons n lo hi xs s → OBody n lo hi .none xs s
  | obj {o xs g t s} : Gap g → ObjTxt n o t → Cons n lo hi xs s → OBody n lo hi o xs (g ++ t ++ s)

/-- Specification: `#product= p sizeproduct= z`, optional. -/
inductive ProdTxt : Nat → Text → Prop
  | none : ProdTxt 0 []
  | some {p z : Nat} {t u a v w b} : p < 2 ^ 32 → z < 2 ^ 32 → Ws t → Ws u → Num p a → Ws v → Ws w → Num z b →
      ProdTxt p (t ++ ['#', 'p', 'r', 'o', 'd', 'u', 'c', 't', '='] ++ u ++ a ++ v ++ ['s', 'i', 'z', 'e', 'p', 'r', 'o', 'd', 'u', 'c', 't', '='] ++ w ++ b)

/-- Specification: `#soft= q mincost= lo maxcost= hi sumcost= z`, optional. -/
inductive SoftTxt : Nat → Nat → Nat → Text → Prop
  | none : SoftTxt 0 0 0 []
  | some {q lo hi : Nat} {z : Int} {t u a v w b v' w' c v'' w'' d} : q < 2 ^ 32 → (lo : Int) ≤ MAXW → (hi : Int) ≤ MAXW → 0 < z →
      Ws t → Ws u → Num q a → Ws v → Ws w → Num lo b → Ws v' → Ws w' → Num hi c → Ws v'' → Ws w'' → Num z d →
      SoftTxt q lo hi (t ++ ['#', 's', 'o', 'f', 't', '='] ++ u ++ a ++ v ++ ['m', 'i', 'n', 'c', 'o', 's', 't', '='] ++ w ++ b ++
        v' ++ ['m', 'a', 'x', 'c', 'o', 's', 't', '='] ++ w' ++ c ++ v'' ++ ['s', 'u', 'm', 'c', 'o', 's', 't', '='] ++ w'' ++ d)

/-- Specification: the problem line. -/
inductive OHead (n p q lo hi : Nat) : Text → Prop
  | mk {m : Nat} {u a v w b x y z} : n < 2 ^ 30 → m < 2 ^ 32 → Ws u → Num n a → Ws v → Ws w → Num m b → ProdTxt p x → SoftTxt q lo hi y → Ws z →
      OHead n p q lo hi (['*', ' ', '#', 'v', 'a', 'r', 'i', 'a', 'b', 'l', 'e', '='] ++ u ++ a ++ v ++
        ['#', 'c', 'o', 'n', 's', 't', 'r', 'a', 'i', 'n', 't', '='] ++ w ++ b ++ x ++ y ++ z ++ ['\n'])

/-- Specification: a document with `n` variables, at most `p` products and `q` soft constraints. -/
def ODoc (n p q : Nat) (o : OObj) (xs : List OCon) (s : Text) : Prop :=
  ∃ lo hi a b, s = a ++ b ∧ OHead n p q lo hi a ∧ OBody n lo hi o xs b

/-! ### Meaning -/

open Classical in
/-- Specification: value of a sum of weighted products. -/
noncomputable def osum (M : Asg) (ts : List (Int × List Int)) : Int := (ts.map fun t => if ∀ l ∈ t.2, LitTrue M l then t.1 else 0).sum

/-- Specification: `M` satisfies the constraint. -/
def OCon.sat (M : Asg) (x : OCon) : Prop := if x.eq then osum M x.ts = x.b else osum M x.ts ≥ x.b

/-- Specification: constraints without costs are hard. -/
def OHard (xs : List OCon) (M : Asg) : Prop := ∀ x ∈ xs, x.cost = none → x.sat M

/-- Specification: value of the objective function. -/
noncomputable def OObj.cost (M : Asg) : OObj → Int
  | .min ts => osum M ts
  | _ => 0

open Classical in
/-- Specification: costs of a constraint. -/
noncomputable def OCon.costs (M : Asg) (x : OCon) : Int := if x.sat M then 0 else x.cost.getD 0

/-- Specification: costs of `M`: the objective and the costs of all violated soft constraints. -/
noncomputable def ocosts (o : OObj) (xs : List OCon) (M : Asg) : Int := o.cost M + (xs.map (OCon.costs M)).sum

end Clasp.Input
