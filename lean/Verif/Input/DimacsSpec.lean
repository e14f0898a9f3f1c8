/-
C34. The DIMACS formats (cnf, wcnf, knf, cnf+, wcnf+) as a grammar, and what a text of the grammar means. Nothing here refers to the reader
except for the type of texts and the set of white space characters.
-/
import Verif.Input.Dimacs
import Verif.Input.SatLem
namespace Clasp.Input
open Core Weight

/-- Specification: numerals. -/
inductive Digs : Nat → Text → Prop
  | one (d : Nat) (h : d < 10) : Digs d [Char.ofNat (48 + d)]
  | snoc {n s} (d : Nat) (h : d < 10) : Digs n s → Digs (10 * n + d) (s ++ [Char.ofNat (48 + d)])

/-- Specification: signed numerals. -/
inductive Num : Int → Text → Prop
  | plain {n s} : Digs n s → Num n s
  | plus {n s} : Digs n s → Num n ('+' :: s)
  | minus {n s} : Digs n s → Num (-(n : Int)) ('-' :: s)

/-- Specification: any white space. -/
def Ws (s : Text) : Prop := ∀ c ∈ s, isWs c = true

/-- Specification: at least one white space character. -/
def Ws1 (s : Text) : Prop := s ≠ [] ∧ Ws s

/-- Specification: a text before which a number or word may end: empty or starting with white space. -/
def Sep (s : Text) : Prop := ∀ c, s.head? = some c → isWs c = true

/-- Specification: a literal of a problem with `n` variables. -/
def LitOk (n : Nat) (l : Int) : Prop := l ≠ 0 ∧ -(n : Int) ≤ l ∧ l ≤ n

/-- Specification: literals, each followed by white space. -/
inductive Lits (n : Nat) : List Int → Text → Prop
  | nil : Lits n [] []
  | cons {l ls a w s} : LitOk n l → Num l a → Ws1 w → Lits n ls s → Lits n (l :: ls) (a ++ w ++ s)

/-- Specification: terms `weight * literal` or `weight literal`, each followed by white space. -/
inductive Terms (n : Nat) : List (Int × Int) → Text → Prop
  | nil : Terms n [] []
  | star {c l ts a u v b w s} : -MAXW ≤ c → c ≤ MAXW → LitOk n l → Num c a → Ws u → Ws v → Num l b → Ws1 w → Terms n ts s →
      Terms n ((c, l) :: ts) (a ++ u ++ ['*'] ++ v ++ b ++ w ++ s)
  | blank {c l ts a u b w s} : -MAXW ≤ c → c ≤ MAXW → LitOk n l → Num c a → Ws1 u → Num l b → Ws1 w → Terms n ts s →
      Terms n ((c, l) :: ts) (a ++ u ++ b ++ w ++ s)

/-- Specification: relation and bound. -/
inductive Rel : Bool → Int → Text → Prop
  | ge {b a w} : -MAXW ≤ b → b ≤ MAXW → Ws w → Num b a → Rel true b (['>', '=', ' '] ++ w ++ a)
  | le {b a w} : -MAXW ≤ b → b ≤ MAXW → Ws w → Num b a → Rel false b (['<', '=', ' '] ++ w ++ a)

/-- Specification: a clause, or a linear constraint `sum >= bound` (`ge`) or `sum <= bound` over terms (weight, literal). -/
inductive Item where
  | clause (ls : List Int)
  | lin (ts : List (Int × Int)) (ge : Bool) (b : Int)

/-- Specification: the format. -/
inductive Fmt where
  | cnf | wcnf | cnfp | wcnfp | knf
deriving DecidableEq

/-- Specification: formats with weights -/
def Fmt.w : Fmt → Bool
  | .wcnf | .wcnfp => true
  | _ => false

/-- Specification: formats with linear constraints -/
def Fmt.p : Fmt → Bool
  | .cnfp | .wcnfp => true
  | _ => false

/-- Specification: name of the format -/
def Fmt.name : Fmt → Text
  | .cnf => ['c', 'n', 'f']
  | .wcnf => ['w', 'c', 'n', 'f']
  | .cnfp => ['c', 'n', 'f', '+']
  | .wcnfp => ['w', 'c', 'n', 'f', '+']
  | .knf => ['k', 'n', 'f']

/-- Specification: texts of clauses and constraints in a format with the given number of variables. -/
inductive ItemTxt (f : Fmt) (n : Nat) : Item → Text → Prop
  | clause {ls s a} : Lits n ls s → Num 0 a → ItemTxt f n (.clause ls) (s ++ a)
  | card {ls s a ge b} : f.p = true → Lits n ls s → Rel ge b a → ItemTxt f n (.lin (ls.map fun l => (1, l)) ge b) (s ++ a)
  | pb {ts w s a ge b} : f.p = true → Ws w → Terms n ts s → Rel ge b a → ItemTxt f n (.lin ts ge b) (['w'] ++ w ++ s ++ a)
  | atLeast {ls k a w s z v} : f.p = false → f.w = false → 0 ≤ k → k ≤ MAXW → Ws v → Num k a → Ws1 w → Lits n ls s → Num 0 z →
      ItemTxt f n (.lin (ls.map fun l => (1, l)) true k) (['k', ' '] ++ v ++ a ++ w ++ s ++ z)

/-- Specification: an item with its weight; formats without weights give the weight `d`. -/
inductive WItem (f : Fmt) (n : Nat) (d : Int) : Int × Item → Text → Prop
  | plain {x s} : f.w = false → ItemTxt f n x s → WItem f n d (d, x) s
  | weighted {cw x a w s} : f.w = true → 0 < cw → Num cw a → Ws1 w → ItemTxt f n x s → WItem f n d (cw, x) (a ++ w ++ s)

/-- Specification: a comment without its leading `c`. -/
def Line (s : Text) : Prop := '\n' ∉ s

/-- Specification: the part of a text after the problem line. Comments may stand before every item. -/
inductive Body (f : Fmt) (n : Nat) (d : Int) : List (Int × Item) → Text → Prop
  | nil {w} : Ws w → Body f n d [] w
  | last {w t} : Ws w → Line t → Body f n d [] (w ++ 'c' :: t)
  | comment {xs w t s} : Ws w → Line t → Body f n d xs s → Body f n d xs (w ++ 'c' :: t ++ '\n' :: s)
  | item {x xs w t s} : Ws w → WItem f n d x t → Sep s → Body f n d xs s → Body f n d (x :: xs) (w ++ t ++ s)

/-- Specification: comments before the problem line. -/
inductive Comments : Text → Prop
  | nil : Comments []
  | cons {t s} : Line t → Comments s → Comments ('c' :: t ++ '\n' :: s)

/-- Specification: blanks. -/
def Blanks (s : Text) : Prop := ∀ c ∈ s, c = ' '

/-- Specification: the optional weight of hard clauses at the end of the problem line; 0 if there is none. -/
inductive TopW (f : Fmt) : Int → Text → Prop
  | none {w} : Blanks w → TopW f 0 w
  | some {t w a v} : f.w = true → 0 < t → Blanks w → w ≠ [] → Num t a → Blanks v → TopW f t (w ++ a ++ v)

/-- Specification: comments and problem line. -/
inductive Head (f : Fmt) (n : Nat) (top : Int) : Text → Prop
  | mk {cs u w a b x : Text} {m : Nat} : Comments cs → n < 2 ^ 30 → m < 2 ^ 32 → Ws u → Num n a → Ws1 w → Num m b → TopW f top x →
      Head f n top (cs ++ (['p', ' '] ++ f.name ++ ' ' :: u ++ a ++ w ++ b ++ x ++ ['\n']))

/-- Specification: a document in format `f` with `n` variables, top weight `top` and the given items (each with its weight). -/
def Doc (f : Fmt) (n : Nat) (top d : Int) (xs : List (Int × Item)) (s : Text) : Prop :=
  ∃ a b, s = a ++ b ∧ Head f n top a ∧ Body f n d xs b

/-! ### Meaning -/

/-- Specification: `l` is true in `M`. -/
def LitTrue (M : Asg) (l : Int) : Prop := if l < 0 then M l.natAbs = false else M l.natAbs = true

open Classical in
/-- Specification: value of a sum. -/
noncomputable def sumOf (M : Asg) (ts : List (Int × Int)) : Int := (ts.map fun t => if LitTrue M t.2 then t.1 else 0).sum

/-- Specification: what an item says about `M`. -/
def Item.sat (M : Asg) : Item → Prop
  | .clause ls => ∃ l ∈ ls, LitTrue M l
  | .lin ts true b => sumOf M ts ≥ b
  | .lin ts false b => sumOf M ts ≤ b

/-- Specification: linear constraints and clauses with weight `top` are hard. -/
def HardSat (top : Int) (xs : List (Int × Item)) (M : Asg) : Prop :=
  ∀ x ∈ xs, (match x.2 with | .clause _ => x.1 = top | .lin _ _ _ => True) → x.2.sat M

open Classical in
/-- Specification: what a violated soft clause costs. -/
noncomputable def itemCost (top : Int) (M : Asg) : Int × Item → Int
  | (cw, .clause ls) => if cw = top ∨ Item.sat M (.clause ls) then 0 else cw
  | _ => 0

/-- Specification: costs of `M`. -/
noncomputable def softCost (top : Int) (xs : List (Int × Item)) (M : Asg) : Int := (xs.map (itemCost top M)).sum

end Clasp.Input
