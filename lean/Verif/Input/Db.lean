/-
C34. The problem a builder hands to the solver: level 0 assignment, clauses, weight constraints and the objective.

Clauses are created by `ClauseCreator::create` (C12); here only what is kept of a clause at decision level 0 matters: the empty clause
is a conflict, a unit clause is assigned, other clauses are stored. Weight constraints are created by the functions of
Verif/Weight/Rep.lean (C21). Propagation of the master solver is a parameter: any function that only derives literals true in all
models.
-/
import Verif.Weight.EqProps
namespace Clasp.Input
open Core Weight

/-- What the builders change in `SharedContext`: the level 0 assignment and state of the master solver, the constraints and the
literals of the objective (shared_context.h `master`, `ok`, `addMinimize`). -/
structure Db where
  top : Top
  ok : Bool
  cls : List (List Lit)
  cons : List Made
  mini : List WL

/-- Specification: the models of the problem. -/
def Db.Models (d : Db) (M : Asg) : Prop :=
  d.ok = true ∧ ext M d.top ∧ (∀ c ∈ d.cls, M.satC c) ∧ ∀ m ∈ d.cons, m.models M

/-- Assumption about propagation at level 0 (solver.cpp `propagate`, C13): it derives consequences, keeps what is assigned, and fails
only if there is no model. -/
structure Prop1.Law (pr : Db → Option Top) : Prop where
  sound : ∀ d M, d.Models M → ∃ t, pr d = some t ∧ ext M t
  mono : ∀ d t v b, pr d = some t → d.top v = some b → t v = some b

/-- solver.cpp `propagate` at level 0 -/
def Db.prop (pr : Db → Option Top) (d : Db) : Db :=
  match pr d with
  | none => { d with ok := false }
  | some t => { d with top := t }

/-- clause.cpp:290-321 `ClauseCreator::create` at decision level 0 for a clause without repeated variables (see Verif/Core/Create.lean) -/
def Db.clause (d : Db) : List Lit → Db
  | [] => { d with ok := false }
  | [x] =>
    match force d.top x with
    | none => { d with ok := false }
    | some t => { d with top := t }
  | c => { d with cls := d.cls ++ [c] }

/-- What one call of `doCreate` or `create` leaves behind (weight_constraint.cpp:172-222) -/
def Db.made (d : Db) : Option (List Made) → Db
  | none => { d with ok := false }
  | some ms => { d with top := (ms.getLast?.map Made.top).getD d.top, cons := d.cons ++ ms }

theorem prop_models {pr : Db → Option Top} (hp : Prop1.Law pr) (d : Db) (M : Asg) : (d.prop pr).Models M ↔ d.Models M := by
  unfold Db.prop
  cases h : pr d with
  | none =>
    refine ⟨fun hm => (nomatch hm.1), fun hm => ?_⟩
    obtain ⟨t, ht, _⟩ := hp.sound d M hm
    rw [h] at ht; cases ht
  | some t =>
    refine ⟨fun hm => ⟨hm.1, fun v b hv => hm.2.1 v b (hp.mono d t v b h hv), hm.2.2⟩, fun hm => ⟨hm.1, ?_, hm.2.2⟩⟩
    obtain ⟨t', ht, he⟩ := hp.sound d M hm
    rw [h] at ht; cases ht; exact he

theorem clause_models (d : Db) (c : List Lit) (M : Asg) : (d.clause c).Models M ↔ d.Models M ∧ M.satC c := by
  match c with
  | [] => exact ⟨fun h => (nomatch h.1), fun ⟨_, p, hp, _⟩ => (nomatch hp)⟩
  | [x] =>
    have hx : M.satC [x] ↔ M.sat x := by simp [Asg.satC]
    rw [hx]
    show Db.Models (match force d.top x with | none => { d with ok := false } | some t => { d with top := t }) M ↔ _
    cases h : force d.top x with
    | none =>
      refine ⟨fun hm => (nomatch hm.1), fun ⟨hm, hs⟩ => ?_⟩
      unfold force at h
      split at h
      · cases h
      · next b hb =>
        split at h
        · cases h
        · next hne => exact absurd ((hm.2.1 _ _ hb).symm.trans hs) hne
    | some t =>
      have := (force_some h).2.2 M
      exact ⟨fun hm => ⟨⟨hm.1, (this.1 hm.2.1).1, hm.2.2⟩, (this.1 hm.2.1).2⟩, fun ⟨hm, hs⟩ => ⟨hm.1, this.2 ⟨hm.2.1, hs⟩, hm.2.2⟩⟩
  | x :: y :: c =>
    show Db.Models { d with cls := d.cls ++ [x :: y :: c] } M ↔ _
    unfold Db.Models
    simp only [List.mem_append, List.mem_singleton, or_imp, forall_and, forall_eq]
    tauto

theorem made_none (d : Db) (M : Asg) : ¬ (d.made none).Models M := fun h => nomatch h.1

theorem made_some {d : Db} {ms : List Made} (M : Asg) : (d.made (some ms)).Models M ↔
    d.ok = true ∧ (∀ c ∈ d.cls, M.satC c) ∧ (∀ m ∈ d.cons, m.models M) ∧ (∀ m ∈ ms, m.models M) ∧ (ms = [] → ext M d.top) := by
  unfold Db.made Db.Models
  simp only [List.mem_append, or_imp, forall_and]
  cases hl : ms.getLast? with
  | none =>
    have : ms = [] := List.getLast?_eq_none_iff.mp hl
    subst this
    simp only [Option.map_none, Option.getD_none]
    tauto
  | some m =>
    have hm := List.mem_of_getLast? hl
    have hne : ms ≠ [] := List.ne_nil_of_mem hm
    simp only [Option.map_some, Option.getD_some]
    refine ⟨fun h => ⟨h.1, h.2.2.1, h.2.2.2.1, h.2.2.2.2, fun e => absurd e hne⟩, fun h => ⟨h.1, (h.2.2.2.1 m hm).1, h.2.1, h.2.2.1, h.2.2.2.1⟩⟩

theorem top_true {M : Asg} {d : Db} {l : Lit} (h : d.Models M) (ht : d.top l.var = some l.tv) : M.sat l := h.2.1 _ _ ht

/-- a constraint added without the flag for equality -/
theorem geq_models {d : Db} {ex ad : Bool} {W : Lit} {lits : List WL} {bound : Int} {res : Option (List Made)}
    (h : createCon false ex ad d.top W lits bound = .ok res) (M : Asg) : (d.made res).Models M ↔ d.Models M ∧ iffHolds M W lits bound := by
  obtain ⟨h1, h2⟩ := C21_makeCon_partial h
  cases res with
  | none => exact ⟨fun hm => absurd hm (made_none d M), fun ⟨hm, hi⟩ => absurd hi (h1 rfl M hm.2.1)⟩
  | some ms =>
    have key := h2 ms rfl M
    have hne : ms ≠ [] := by
      intro e; subst e
      unfold createCon at h
      obtain ⟨b, _, h⟩ := bind_ok.1 h
      obtain ⟨r, _, h⟩ := bind_ok.1 h
      simp only [Bool.false_eq_true, if_false] at h
      obtain ⟨p, _, h⟩ := bind_ok.1 h
      cases p with
      | none => cases h
      | some q => cases h
    rw [made_some]
    refine ⟨fun ⟨a, b, c, e, _⟩ => ?_, fun ⟨⟨a, b, c, e⟩, hi⟩ => ⟨a, c, e, (key.1 ⟨b, hi⟩).2, fun e => absurd e hne⟩⟩
    have hx : ext M d.top := by
      unfold createCon at h
      obtain ⟨b', hb', h⟩ := bind_ok.1 h
      obtain ⟨r, hr, h⟩ := bind_ok.1 h
      simp only [Bool.false_eq_true, if_false] at h
      obtain ⟨p, hp, h⟩ := bind_ok.1 h
      cases p with
      | none => cases h
      | some q =>
        obtain ⟨m0, r0⟩ := q
        cases h
        exact ((C21_doCreate (C21_create hr).2 hp).2 m0 r0 rfl M).2 (e m0 (by simp)) |>.1
    obtain ⟨_, hi⟩ := key.2 ⟨hx, e⟩
    exact ⟨⟨a, hx, b, c⟩, hi⟩

end Clasp.Input
