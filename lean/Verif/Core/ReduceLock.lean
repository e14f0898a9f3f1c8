import Verif.Core.WatchLoop

/-!
# Which clauses are locked (C31)

Model of `ClauseHead::locked` (src/solver_types.cpp 177-180) together with the ways in which the reason
of a literal comes about: a clause becomes the reason of a literal only by forcing it, either when it
is added (src/clause.cpp 116-140, 265-275: the first literal of the head) or in `ClauseHead::propagate`
(src/solver.cpp 857-876, `Cl.propagate`: the other watched literal).

Simplification: the antecedent of a variable is the identity of a clause or none of the clauses;
strengthening and simplification of clauses (which happen on level 0 or with their own checks of
`locked`) are not modelled. For loop formulas (src/clause.cpp 1009-1018) see Asp/Loop.lean.
-/

namespace Clasp.Reduce
open Core

/-- Clauses by identity, the assignment, and for each variable the clause recorded as its antecedent,
if it is one (`Solver::reason`, clasp/solver.h 590; antecedents clasp/solver_types.h 423-479). -/
structure LSt where
  cls : Nat → Cl
  st : St
  ante : Nat → Option Nat

/-- `ClauseHead::locked` (src/solver_types.cpp 177-180). -/
def LSt.locked (l : LSt) (id : Nat) : Bool :=
  (l.st.isTrue (l.cls id).h0 && l.ante (l.cls id).h0.var == some id) ||
  (l.st.isTrue (l.cls id).h1 && l.ante (l.cls id).h1.var == some id)

/-- `ClauseHead::propagate` on clause `id` for the literal `p` that became true (src/solver.cpp
857-876): if it assigns the other watch, the clause becomes its antecedent (`force(head_[1-wLit], this)`). -/
def LSt.propagate (learn : Bool) (l : LSt) (id : Nat) (p : Lit) : LSt :=
  let c := l.cls id
  let r := c.propagate learn l.st p
  let other := if c.h1 = p.neg then c.h0 else c.h1
  { cls := Function.update l.cls id r.cl, st := r.st
    ante := if l.st.value other.var = none ∧ r.st.isTrue other = true
      then Function.update l.ante other.var (some id) else l.ante }

/-- Steps of the solver as far as antecedents are concerned. -/
inductive LSt.Step (learn : Bool) : LSt → LSt → Prop
  /-- anything else: decisions, propagation by other constraints, backtracking. An assigned variable
  keeps value and antecedent, or is unassigned; newly assigned variables have other antecedents
  (src/solver.cpp 1180-1230, clasp/solver_types.h 560-600). -/
  | other (l : LSt) (s : St) (ante : Nat → Option Nat)
      (h : ∀ v, s.value v ≠ none → (s.value v = l.st.value v ∧ ante v = l.ante v) ∨ ante v = none) :
      Step learn l { l with st := s, ante := ante }
  /-- a new clause is added under an unused identity; it may force its first watched literal
  (src/clause.cpp 116-140). -/
  | add (l : LSt) (id : Nat) (c : Cl) (force : Bool)
      (h : ∀ v, l.st.value v ≠ none → l.ante v ≠ some id) (hf : force = true → l.st.value c.h0.var = none) :
      Step learn l
        { cls := Function.update l.cls id c
          st := if force then l.st.push c.h0 none else l.st
          ante := if force then Function.update l.ante c.h0.var (some id) else l.ante }
  /-- the watch list of `p`, a true literal, is visited. -/
  | prop (l : LSt) (id : Nat) (p : Lit) (hp : l.st.isTrue p = true)
      (hw : (l.cls id).h0 = p.neg ∨ (l.cls id).h1 = p.neg) :
      Step learn l (l.propagate learn id p)

/-- States reachable from a start without antecedents. -/
inductive LSt.Reach (learn : Bool) : LSt → Prop
  | init (cls : Nat → Cl) (s : St) : Reach learn ⟨cls, s, fun _ => none⟩
  | step {l l' : LSt} : Reach learn l → Step learn l l' → Reach learn l'

end Clasp.Reduce
