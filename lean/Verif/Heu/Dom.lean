import Mathlib.Data.List.Nodup
import Mathlib.Tactic.SplitIfs
/-!
# Model of the modifications of the domain heuristic

`DomainTable` (src/shared_context.cpp, clasp/shared_context.h) collects modifications of the heuristic given by the user: level, factor and sign of a variable, each with a priority and
possibly with a condition. `DomainHeuristic` (src/heuristics.cpp, clasp/heuristics.h) applies them while conditions become true and takes them back on backtracking.
Not modelled: modifications of type `Init` (initial activities) and the default modifications (`defMod_`).
-/

namespace Clasp.Dom

/-- A literal: variable and value (clasp/literal.h:76 `Literal`). -/
abbrev DLit := Nat × Bool

/-- clasp/heuristics.h:372: what a modification changes (`DomAction::mod`; `Init` is left out). -/
inductive Mod where
  | level | sign | factor
  deriving DecidableEq, Repr

/-- clasp/shared_context.h:548-560 `DomModType` of an entry (`Init` is left out; `comp` is true for the last two). -/
inductive DomKind where
  | level | sign | factor | tru | fls
  deriving DecidableEq, Repr

/-- clasp/shared_context.h:546-563 `DomainTable::ValueType`; without a condition `cond` is `none` (in the code `lit_true`, which has id 0). -/
structure DomEntry where
  v : Nat
  k : DomKind
  bias : Int
  prio : Nat
  cond : Option DLit
  deriving DecidableEq, Repr

/-- clasp/heuristics.h:369-377 `DomAction`; `undo` is `none` for `UNDO_NIL`. -/
structure DAct where
  v : Nat
  m : Mod
  undo : Option Nat
  next : Bool
  bias : Int
  prio : Nat
  deriving DecidableEq, Repr

/-- clasp/heuristics.h:343-417 `DomainHeuristic` and the part of the solver it sees. `cur` is the priority (`prios_`, indexed with `domP`, which is different for different variables) and the value
(`score_[v].level`, `score_[v].factor`, or the user preference of the variable) in effect; `frames` are the frames, the last one first; `ws` the watches added by the heuristic with their
data, `uw` the levels with an undo watch. The solver: `tr` the trail with the level of each literal, `dl` the decision level, `qf` the number of literals taken from the propagation queue,
`pend` the data of those watches of the last of them that were not called yet. Not in the code: `given` are the entries seen so far. -/
structure Dm where
  cur : Nat → Mod → Nat × Int
  acts : List DAct
  frames : List (Nat × Option Nat)
  ws : List (DLit × Nat)
  uw : List Nat
  tr : List (DLit × Nat)
  dl : Nat
  qf : Nat
  pend : List Nat
  given : List DomEntry

/-- Changing one entry of a table (for example `score_[a.var].level = x`, src/heuristics.cpp:947). -/
def put2 {α : Type} (f : Nat → Mod → α) (v : Nat) (m : Mod) (x : α) : Nat → Mod → α := fun w k => if w = v ∧ k = m then x else f w k

/-- clasp/solver.h:561 `value(v) == value_free`. -/
def Dm.free (s : Dm) (v : Nat) : Bool := s.tr.all fun x => x.1.1 != v

/-- clasp/solver.h:563 `topValue` and clasp/solver.h:567 `isTrue`: the literal is true on level 0. -/
def Dm.top (s : Dm) (l : DLit) : Bool := s.tr.contains (l, 0)

/-- src/heuristics.cpp:938-956 `applyAction`: the values of the action and those in effect are exchanged. -/
def Dm.apply (s : Dm) (n : Nat) : Option Dm :=
  match s.acts[n]? with
  | none => none
  | some a => some { s with cur := put2 s.cur a.v a.m (a.prio, a.bias), acts := s.acts.set n { a with prio := (s.cur a.v a.m).1, bias := (s.cur a.v a.m).2 } }

/-- src/heuristics.cpp:957-960 `pushUndo`, first part. -/
def Dm.link (s : Dm) (n : Nat) (h : Option Nat) : Option Dm :=
  match s.acts[n]? with
  | none => none
  | some a => some { s with acts := s.acts.set n { a with undo := h } }

/-- src/heuristics.cpp:924-933: one round of the loop in `propagate`. -/
def Dm.one (s : Dm) (n : Nat) : Option Dm :=
  match s.acts[n]? with
  | none => none
  | some a =>
    if s.free a.v && decide ((s.cur a.v a.m).1 ≤ a.prio) then
      match s.apply n with
      | none => none
      | some s1 =>
        match s1.frames with
        | [] => none
        | (d, h) :: fr =>
          if d ≠ s1.dl then ({ s1 with frames := (s1.dl, some n) :: (d, h) :: fr, uw := s1.dl :: s1.uw } : Dm).link n none
          else ({ s1 with frames := (d, some n) :: fr } : Dm).link n h
    else some s

/-- src/heuristics.cpp:920-936 `propagate`; `f` bounds the number of rounds. -/
def Dm.prop (s : Dm) : Nat → Nat → Option Dm
  | 0, _ => none
  | f + 1, n =>
    match s.one n with
    | none => none
    | some s1 =>
      match s1.acts[n]? with
      | none => none
      | some a => if a.next then s1.prop f (n + 1) else some s1

/-- src/heuristics.cpp:964-968: the actions of a frame are taken back; `f` bounds the number of rounds. -/
def Dm.undoList (s : Dm) : Nat → Option Nat → Option Dm
  | _, none => some s
  | 0, some _ => none
  | f + 1, some n =>
    match s.acts[n]? with
    | none => none
    | some a =>
      match s.apply n with
      | none => none
      | some s1 => s1.undoList f a.undo

/-- src/heuristics.cpp:962-971 `undoLevel`: the frames of level `s.dl` and above are removed; reading the last of no frames is `none`. -/
def Dm.undoFrames (s : Dm) : List (Nat × Option Nat) → Option Dm
  | [] => none
  | (d, h) :: fr =>
    if s.dl ≤ d then
      match s.undoList (s.acts.length + 1) h with
      | none => none
      | some s1 => ({ s1 with frames := fr } : Dm).undoFrames fr
    else some s

/-- src/heuristics.cpp:867-868: the value of a sign modification (clasp/literal.h:213-215: true is 1, false is 2). -/
def signVal (b : Int) : Int := if 0 < b then 1 else if b < 0 then 2 else 0

/-- src/heuristics.cpp:857-883 `addDomAction` for a simple modification; the second part of the state is `lastW` (`none` for `lit_true`). -/
def Dm.addAct (s : Dm) (lastW : Option DLit) (v : Nat) (m : Mod) (b : Int) (p : Nat) (cond : Option DLit) : Option (Dm × Option DLit) :=
  if p < (s.cur v m).1 then some (s, lastW)
  else
    match cond with
    | none => some ({ s with cur := put2 s.cur v m (p, b) }, lastW)
    | some c =>
      if s.top c then some ({ s with cur := put2 s.cur v m (p, b) }, lastW)
      else
        let a : DAct := ⟨v, m, none, false, b, p⟩
        if lastW ≠ some c then some ({ s with ws := s.ws ++ [(c, s.acts.length)], acts := s.acts ++ [a] }, some c)
        else
          match s.acts.getLast? with
          | none => none
          | some x => some ({ s with acts := s.acts.dropLast ++ [{ x with next := true }, a] }, lastW)

/-- src/heuristics.cpp:848-856 `addDomAction`: entries of type true and false are split into level and sign. -/
def Dm.addEntry (s : Dm) (lastW : Option DLit) (e : DomEntry) : Option (Dm × Option DLit) :=
  match e.k with
  | .level => s.addAct lastW e.v .level e.bias e.prio e.cond
  | .factor => s.addAct lastW e.v .factor e.bias e.prio e.cond
  | .sign => s.addAct lastW e.v .sign (signVal e.bias) e.prio e.cond
  | .tru =>
    match s.addAct lastW e.v .level e.bias e.prio e.cond with
    | none => none
    | some (s1, w) => s1.addAct w e.v .sign (signVal 1) e.prio e.cond
  | .fls =>
    match s.addAct lastW e.v .level e.bias e.prio e.cond with
    | none => none
    | some (s1, w) => s1.addAct w e.v .sign (signVal (-1)) e.prio e.cond

/-- src/heuristics.cpp:811-813: entries for fixed variables or with a false condition are skipped. -/
def Dm.skips (s : Dm) (e : DomEntry) : Bool :=
  s.top (e.v, true) || s.top (e.v, false) || (match e.cond with
    | none => false
    | some c => s.top (c.1, !c.2))

/-- src/heuristics.cpp:810-821: the new entries of the table. -/
def Dm.addAll (s : Dm) (lastW : Option DLit) : List DomEntry → Option (Dm × Option DLit)
  | [] => some (s, lastW)
  | e :: es =>
    let s0 := { s with given := s.given ++ [e] }
    if s0.skips e then s0.addAll lastW es
    else
      match s0.addEntry lastW e with
      | none => none
      | some (s1, w) => s1.addAll w es

/-- src/heuristics.cpp:806-834: the part of `initScores` on new entries (line 828: the last action ends its group). -/
def Dm.init (s : Dm) (es : List DomEntry) : Option Dm :=
  match s.addAll none es with
  | none => none
  | some (s1, _) => some { s1 with acts := s1.acts.modify (s1.acts.length - 1) fun a => { a with next := false } }

/-- What happens: entries are added (on level 0, src/heuristics.cpp:790), the solver makes decisions and assigns literals, the next literal is taken from the propagation queue
(src/solver.cpp:900-929), one of its watches is called, a level is removed (src/solver.cpp:1105-1116). Other constraints may assign literals at any time. -/
inductive DmEv where
  | init (es : List DomEntry)
  | choose (p : DLit)
  | assign (p : DLit)
  | next
  | call
  | undo

/-- What the solver guarantees: entries are added on level 0; decisions are only made if propagation is complete (src/solver.cpp:813-830, 1625-1639); assigned literals were free. -/
def DmEv.can (s : Dm) : DmEv → Prop
  | .init _ => s.dl = 0
  | .choose p => s.free p.1 = true ∧ s.qf = s.tr.length ∧ s.pend = []
  | .assign p => s.free p.1 = true
  | .next => s.qf < s.tr.length ∧ s.pend = []
  | .call => s.pend ≠ []
  | .undo => 0 < s.dl

/-- The effect of an event (the code is cited at `DmEv`). When a level is removed its literals leave the trail, the queue is empty, and `undoLevel` is called if there is an undo watch. -/
def DmEv.exec (s : Dm) : DmEv → Option Dm
  | .init es => s.init es
  | .choose p => some { s with dl := s.dl + 1, tr := s.tr ++ [(p, s.dl + 1)] }
  | .assign p => some { s with tr := s.tr ++ [(p, s.dl)] }
  | .next =>
    match s.tr[s.qf]? with
    | none => none
    | some x => some { s with qf := s.qf + 1, pend := (s.ws.filter fun w => w.1 = x.1).map (·.2) }
  | .call =>
    match s.pend with
    | [] => none
    | n :: r => ({ s with pend := r } : Dm).prop (s.acts.length + 1) n
  | .undo =>
    let tr := s.tr.filter fun x => decide (x.2 < s.dl)
    let s1 := { s with tr := tr, qf := tr.length, pend := [] }
    match (if s.uw.contains s.dl then s1.undoFrames s1.frames else some s1) with
    | none => none
    | some s2 => some { s2 with dl := s.dl - 1, uw := s2.uw.filter (· != s.dl) }

/-- src/heuristics.cpp:751-754: a new heuristic; `ini` are the values without modifications (clasp/heuristics.h:323: level 0, factor 1; the preferences are those of the solver). -/
def Dm.start (ini : Nat → Mod → Int) : Dm := ⟨fun v m => (0, ini v m), [], [(0, none)], [], [], [], 0, 0, [], []⟩

/-- Executions. -/
inductive DmReach (ini : Nat → Mod → Int) : Dm → Prop where
  | start : DmReach ini (Dm.start ini)
  | step {s s' : Dm} {e : DmEv} : DmReach ini s → e.can s → e.exec s = some s' → DmReach ini s'

/-! ## Specification -/

/-- Specification: a wish of the user: variable `v` should get value `val` for `m` with priority `prio` while `cond` holds. -/
structure Wish where
  v : Nat
  m : Mod
  val : Int
  prio : Nat
  cond : Option DLit
  deriving DecidableEq, Repr

/-- Specification: the wishes expressed by an entry: a sign is 1 (true), 2 (false) or 0 (no preference); `tru` and `fls` ask for a level and a sign. -/
def DomEntry.wishes (e : DomEntry) : List Wish :=
  match e.k with
  | .level => [⟨e.v, .level, e.bias, e.prio, e.cond⟩]
  | .factor => [⟨e.v, .factor, e.bias, e.prio, e.cond⟩]
  | .sign => [⟨e.v, .sign, if 0 < e.bias then 1 else if e.bias < 0 then 2 else 0, e.prio, e.cond⟩]
  | .tru => [⟨e.v, .level, e.bias, e.prio, e.cond⟩, ⟨e.v, .sign, 1, e.prio, e.cond⟩]
  | .fls => [⟨e.v, .level, e.bias, e.prio, e.cond⟩, ⟨e.v, .sign, 2, e.prio, e.cond⟩]

/-- Specification: the condition of a wish holds in a trail. -/
def Wish.active (d : Wish) (tr : List (DLit × Nat)) : Prop := ∀ c, d.cond = some c → ∃ L, (c, L) ∈ tr

end Clasp.Dom
