/-
Brave and cautious consequences: src/cb_enumerator.cpp 243-317, 335-349 (`CBConsequences::addCurrent`, `CBFinder::doUpdate`),
src/enumerator.cpp 104-123, 146-151, clasp/enumerator.h 40-57 (`Model`).

Simplifications: one solver, no optimization. `pushLocked` (cb_enumerator.cpp:328-334) removes constraints of earlier models; here
they stay (`C18_stronger` shows that the newest one implies them).
-/
import Verif.Core.SearchProps
namespace Clasp.Core
open St

namespace Cons

/-- literal.h:286 `trueValue(p)` -/
def trueBit (p : Lit) : Nat := if p.sign then 2 else 1
/-- enumerator.h:43-44 `Model::estMask(p)` -/
def estBit (p : Lit) : Nat := if p.sign then 8 else 4
/-- enumerator.h:49-51 `Model::isTrue(p)`, the byte of the variable given -/
def isTrue (b : Nat) (p : Lit) : Bool := decide (b &&& 3 &&& trueBit p ≠ 0)
/-- enumerator.h:55 `Model::isEst(p)` -/
def isEst (b : Nat) (p : Lit) : Bool := decide (b &&& estBit p ≠ 0)
/-- enumerator.h:53 `Model::isDef(p)`; `fin` is the member `def` -/
def isDef (brave fin : Bool) (b : Nat) (p : Lit) : Bool := isTrue b p && (fin || brave || !isEst b p)

/-- cb_enumerator.cpp:295-313, one round of the loop; a candidate is a literal with its flag. Result: the candidate, whether the
constraint gets a literal, the output byte. -/
def round (brave : Bool) (s : St) (root : Nat) (c : Lit × Bool) : (Lit × Bool) × Option Lit × Nat :=
  let p := c.1
  let dl := s.level p.var
  let ost := if dl > root then estBit p else 0
  let (f, con, ost) :=
    if brave then
      if c.2 || s.isTrue p then (true, none, 0) else if dl ≠ 0 then (c.2, some p, ost) else (c.2, none, ost)
    else
      if !c.2 || s.isFalse p then (false, none, 0) else if dl ≠ 0 then (c.2, some p.neg, ost) else (c.2, none, ost)
  ((p, f), con, ost ||| if f then trueBit p else 0)

/-- cb_enumerator.cpp:291-317 `addCurrent`: the candidates -/
def update (brave : Bool) (s : St) (root : Nat) (cons : List (Lit × Bool)) : List (Lit × Bool) := cons.map fun c => (round brave s root c).1
/-- cb_enumerator.cpp:292-308: the constraint -/
def constraint (brave : Bool) (s : St) (root : Nat) (step : Lit) (cons : List (Lit × Bool)) : List Lit :=
  step.neg :: cons.filterMap fun c => (round brave s root c).2.1
/-- cb_enumerator.cpp:294, 312: the output -/
def output (brave : Bool) (s : St) (root : Nat) (cons : List (Lit × Bool)) : Nat → Nat :=
  cons.foldl (fun m c => Function.update m c.1.var (m c.1.var ||| (round brave s root c).2.2)) fun _ => 0

/-- A solver computing consequences: the candidates and `CBFinder::current`. `orig` (the clauses of the
problem) and `models` (the number of reported models) are history. -/
structure Sys where
  sys : Core.Sys
  cand : List (Lit × Bool)
  current : Option (List Lit)
  orig : List (List Lit)
  models : Nat

/-- The run: `root` is the root level at the start, `step` the step literal (an assumption, or the constant). -/
inductive Step (learn : Bool) (n : Nat) (E : Asg → Prop) (brave : Bool) (root : Nat) (step : Lit) : Sys → Sys → Prop
  /-- any call that changes neither constraints nor assumptions -/
  | solver {x : Sys} (y : Core.Sys) (h : Core.Sys.Step learn n E (fun _ => true) x.sys y) (h1 : y.orig = x.sys.orig) (h2 : y.asm = x.sys.asm)
      (h3 : y.found = []) (h4 : y.recs = []) (h5 : y.st.root = x.sys.st.root) : Step learn n E brave root step x { x with sys := y }
  /-- cb_enumerator.cpp:74, 291-317, enumerator.cpp:146-151: a model -/
  | model {x : Sys} (ht : x.sys.st.Total n) (hE : E x.sys.st.model) (hc : x.current = none) :
      Step learn n E brave root step x
        { x with cand := update brave x.sys.st root x.cand, current := some (constraint brave x.sys.st root step x.cand),
                 models := x.models + 1 }
  /-- cb_enumerator.cpp:335-349, enumerator.cpp:116-121: the constraint is added (as an explicit clause) -/
  | integrate {x : Sys} (C : List Lit) (id : Nat) (lr : Bool) (hc : x.current = some C) (hid : id ∉ x.sys.db.ids) (hcf : x.sys.st.conflict = []) :
      Step learn n E brave root step x
        { x with
          current := none
          sys := { x.sys with
            db := (x.sys.db.createPrepared learn (Prep.prepareVec x.sys.st C false) id false lr false {}).1
            orig := C :: x.sys.orig
            prob := id :: x.sys.prob } }

/-- cb_enumerator.cpp:243-290: the start; `cand` are the candidates, flagged initially for cautious consequences -/
structure Start (learn : Bool) (n : Nat) (E : Asg → Prop) (brave : Bool) (root : Nat) (step : Lit) (x : Sys) : Prop where
  reach : Core.Sys.Reach learn n E (fun _ => true) x.sys
  found : x.sys.found = []
  recs : x.sys.recs = []
  orig : x.orig = x.sys.orig
  current : x.current = none
  models : x.models = 0
  flags : ∀ c ∈ x.cand, c.2 = !brave
  /-- `addLit` ignores literals added before -/
  nodup : (x.cand.map Prod.fst).Nodup
  vars : ∀ c ∈ x.cand, c.1.var ≤ n
  len : x.cand.length + 1 < umax
  root : root ≤ x.sys.st.root
  step : step = litTrue ∨ (step ∈ x.sys.asm ∧ step.var ≤ n ∧ ∀ c ∈ x.cand, c.1.var ≠ step.var)

/-- the states of a run -/
inductive Reach (learn : Bool) (n : Nat) (E : Asg → Prop) (brave : Bool) (root : Nat) (step : Lit) (x0 : Sys) : Sys → Prop
  | init : Reach learn n E brave root step x0 x0
  | step {x y : Sys} : Reach learn n E brave root step x0 x → Step learn n E brave root step x y → Reach learn n E brave root step x0 y

end Cons
end Clasp.Core
