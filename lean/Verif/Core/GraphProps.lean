/-
C11: short clauses propagate exactly their unit consequences. No code is modelled in this file except `reverseArc`.
-/
import Verif.Core.GraphLem
namespace Clasp.Core
namespace Graph
open St

/-! ### The clauses of a graph -/

/-- The call `add(type, learnt, lits)` on a graph that is shared or not. -/
structure AddCall where
  shared : Bool
  learnt : Bool
  lits : List Lit

/-- shared_context.cpp:229-261: one call (clauses of other sizes do not reach the graph) -/
def add (G : Graph) (c : AddCall) : Graph × Bool :=
  match c.lits with
  | [a, b] => add2 c.shared c.learnt G a b
  | [a, b, r] => add3 c.shared c.learnt G a b r
  | _ => (G, false)

/-- A sequence of calls: the graph and the clauses for which `add` returned true, newest first. -/
def addAll : List AddCall → Graph × List (List Lit)
  | [] => (empty, [])
  | c :: r =>
    let x := (addAll r).1.add c
    (x.1, if x.2 then c.lits :: (addAll r).2 else (addAll r).2)

/-- The graph holds exactly the clauses of `cs`, each findable from each of its literals. -/
structure Holds (G : Graph) (cs : List (List Lit)) : Prop where
  two : ∀ a b, G.has2 a b ↔ ∃ c ∈ cs, c.Perm [a, b]
  three : ∀ a b r, G.has3 a b r ↔ ∃ c ∈ cs, c.Perm [a, b, r]

theorem perm2 (p q a b : Lit) : [p, q].Perm [a, b] ↔ (a = p ∧ b = q) ∨ (a = q ∧ b = p) := by
  constructor
  · intro h
    have h1 := h.mem_iff (a := p)
    have h2 := h.mem_iff (a := q)
    have h3 := h.mem_iff (a := a)
    have h4 := h.mem_iff (a := b)
    simp at h1 h2 h3 h4
    grind
  · rintro (⟨rfl, rfl⟩ | ⟨rfl, rfl⟩)
    · exact List.Perm.refl _
    · exact List.Perm.swap _ _ _

theorem perm3 (p q r a b c : Lit) : [p, q, r].Perm [a, b, c] ↔ same3 p q r a b c := by
  constructor
  · intro h
    have h0 : [p, q, r].isPerm [a, b, c] = true := List.isPerm_iff.2 h
    simp only [List.isPerm, List.contains_cons, List.erase_cons, List.contains_nil, List.erase_nil, Bool.or_false, Bool.and_eq_true,
      Bool.or_eq_true, beq_iff_eq] at h0
    unfold same3
    grind
  · unfold same3
    rintro (⟨rfl, ⟨rfl, rfl⟩ | ⟨rfl, rfl⟩⟩ | ⟨rfl, ⟨rfl, rfl⟩ | ⟨rfl, rfl⟩⟩ | ⟨rfl, ⟨rfl, rfl⟩ | ⟨rfl, rfl⟩⟩) <;>
    · rw [← List.isPerm_iff]
      simp only [List.isPerm, List.contains_cons, List.erase_cons, List.contains_nil, List.erase_nil, Bool.or_false, Bool.and_eq_true,
        Bool.or_eq_true, beq_iff_eq]
      grind

/-- C11. The graph holds exactly the clauses that were added: the clause lists of all literals of a clause agree. -/
theorem C11_clauses (l : List AddCall) : Holds (addAll l).1 (addAll l).2 := by
  induction l with
  | nil => exact ⟨fun a b => by simp [addAll, has2, empty, items], fun a b r => by simp [addAll, has3, empty, items]⟩
  | cons c r ih =>
    unfold addAll
    dsimp only
    generalize (addAll r).1 = G at *
    generalize (addAll r).2 = cs at *
    obtain ⟨sh, lr, lits⟩ := c
    unfold add
    dsimp only
    split
    · rename_i p q
      constructor
      · intro a b
        rw [add2_has2, ih.two, ← perm2]
        split <;> simp_all
        exact or_comm
      · intro a b e
        rw [add2_has3, ih.three]
        split
        · have : ¬ [p, q].Perm [a, b, e] := fun h => by have := h.length_eq; simp at this
          simp [this]
        · rfl
    · rename_i p q t
      constructor
      · intro a b
        rw [add3_has2, ih.two]
        split
        · have : ¬ [p, q, t].Perm [a, b] := fun h => by have := h.length_eq; simp at this
          simp [this]
        · rfl
      · intro a b e
        rw [add3_has3, ih.three, ← perm3]
        split <;> simp_all
        exact or_comm
    · simpa using ih

/-- C11. A call is refused only on a shared graph, for a problem clause or a clause subsumed by one in the graph. -/
theorem C11_refused (l : List AddCall) (c : AddCall) (hs : c.lits.length = 2 ∨ c.lits.length = 3)
    (hf : ((addAll l).1.add c).2 = false) :
    c.shared = true ∧ (c.learnt = false ∨ ∃ d ∈ (addAll l).2, ∀ p ∈ d, p ∈ c.lits) := by
  have ih := C11_clauses l
  generalize (addAll l).1 = G at *
  generalize (addAll l).2 = cs at *
  obtain ⟨sh, lr, lits⟩ := c
  have key : ∀ (q : Lit) (r : Lit × Option Lit), hasLearnt (G q.neg).learnt r.1 r.2 = true → (∃ a, G.has2 q a ∧ (a = r.1 ∨ some a = r.2)) ∨
      (∃ a b, G.has3 q a b ∧ (a = r.1 ∨ some a = r.2) ∧ (b = r.1 ∨ some b = r.2)) := by
    intro q r h
    unfold hasLearnt at h
    rw [List.any_eq_true] at h
    obtain ⟨x, hx, h⟩ := h
    have hi : x ∈ G.items q.neg := by unfold items; simp [hx]
    obtain ⟨a, o⟩ := x
    cases o with
    | none => left; exact ⟨a, hi, by simpa using h⟩
    | some b =>
      right
      refine ⟨a, b, Or.inl hi, ?_⟩
      simp only [Bool.and_eq_true, Bool.or_eq_true, beq_iff_eq] at h
      exact ⟨h.1, h.2.2⟩
  dsimp only at hs
  match lits, hs with
  | [a, b], _ =>
    simp only [add, add2] at hf
    cases sh with
    | false => simp at hf
    | true =>
      refine ⟨rfl, ?_⟩
      by_cases hl : hasLearnt (G a.neg).learnt b none = true
      · right
        rcases key a (b, none) hl with ⟨x, hx, h⟩ | ⟨x, y, hx, h1, h2⟩
        · obtain ⟨d, hd, hp⟩ := (ih.two _ _).1 hx
          refine ⟨d, hd, fun p hp' => ?_⟩
          have := hp.mem_iff.1 hp'
          simp at h this ⊢; subst h; exact this
        · obtain ⟨d, hd, hp⟩ := (ih.three _ _ _).1 hx
          refine ⟨d, hd, fun p hp' => ?_⟩
          have := hp.mem_iff.1 hp'
          simp at h1 h2 this ⊢; subst h1 h2; tauto
      · left; cases lr <;> simp_all
  | [a, b, c], _ =>
    simp only [add, add3] at hf
    cases sh with
    | false => simp at hf
    | true =>
      refine ⟨rfl, ?_⟩
      by_cases hl : hasLearnt (G a.neg).learnt b (some c) = true
      · right
        rcases key a (b, some c) hl with ⟨x, hx, h⟩ | ⟨x, y, hx, h1, h2⟩
        · obtain ⟨d, hd, hp⟩ := (ih.two _ _).1 hx
          refine ⟨d, hd, fun p hp' => ?_⟩
          have := hp.mem_iff.1 hp'
          simp at h this ⊢; rcases h with rfl | rfl <;> tauto
        · obtain ⟨d, hd, hp⟩ := (ih.three _ _ _).1 hx
          refine ⟨d, hd, fun p hp' => ?_⟩
          have := hp.mem_iff.1 hp'
          simp at h1 h2 this ⊢; rcases h1 with rfl | rfl <;> rcases h2 with rfl | rfl <;> tauto
      · left; cases lr <;> simp_all

/-! ### Propagation -/

/-- One implication is handled: what was assigned and why. -/
structure Step1 (s t : St) (ok : Bool) (p : Lit) (i : Lit × Option Lit) : Prop where
  keep : ∀ v, s.value v ≠ none → t.value v = s.value v ∧ t.reason v = s.reason v
  new : ∀ q, s.value q.var = none → t.isTrue q = true →
    (i = (q, none) ∧ t.reason q.var = some [p]) ∨
    (∃ y, (i = (q, some y) ∨ i = (y, some q)) ∧ s.isFalse y = true ∧ t.reason q.var = some [p, y.neg])
  done : ok = true → match i.2 with
    | none => t.isTrue i.1 = true
    | some y => (s.isFalse i.1 = true → t.isTrue y = true) ∧ (s.isFalse y = true → t.isTrue i.1 = true)
  fail : ok = false → t.value = s.value ∧ s.isFalse i.1 = true ∧ ∀ y, i.2 = some y → s.isFalse y = true

theorem force_step (learn : Bool) (s : St) (q : Lit) (r : List Lit) :
    (∀ v, s.value v ≠ none → (s.force learn q (some r)).1.value v = s.value v ∧ (s.force learn q (some r)).1.reason v = s.reason v) ∧
    (∀ x, s.value x.var = none → (s.force learn q (some r)).1.isTrue x = true → x = q ∧ (s.force learn q (some r)).1.reason q.var = some r) ∧
    ((s.force learn q (some r)).2 = true → (s.force learn q (some r)).1.isTrue q = true) ∧
    ((s.force learn q (some r)).2 = false → (s.force learn q (some r)).1.value = s.value ∧ s.isFalse q = true) := by
  rcases s.value_cases q with hv | hv | hv
  · rw [force_free hv]
    have hval : ∀ v, (s.push q (some r)).value v = if v = q.var then some q.tv else s.value v := by
      intro v; unfold value push; dsimp only
      by_cases h : v = q.var
      · rw [h, Function.update_self, if_pos rfl]
      · rw [Function.update_of_ne h, if_neg h]
    refine ⟨fun v hn => ?_, fun x hx ht => ?_, fun _ => ?_, fun h => by simp at h⟩
    · have : v ≠ q.var := by rintro rfl; exact hn hv
      refine ⟨by rw [hval, if_neg this], ?_⟩
      show Function.update s.reason q.var _ v = _
      rw [Function.update_of_ne this]
    · unfold St.isTrue at ht
      rw [hval] at ht
      split at ht
      · rename_i he
        refine ⟨?_, by show Function.update s.reason q.var _ q.var = _; rw [Function.update_self]⟩
        cases x with | mk a b => cases q with | mk c d => simp_all [Lit.tv]
      · rw [hx] at ht; simp at ht
    · unfold St.isTrue; rw [hval, if_pos rfl]; simp
  · rw [force_true hv]
    refine ⟨fun v _ => ⟨rfl, rfl⟩, fun x hx ht => ?_, fun _ => hv, fun h => by simp at h⟩
    unfold St.isTrue at ht; rw [hx] at ht; simp at ht
  · rw [force_false hv]
    have hval : (s.setConflict learn q (some r)).value = s.value := by unfold setConflict; split <;> rfl
    have hre : (s.setConflict learn q (some r)).reason = s.reason := by unfold setConflict; split <;> rfl
    refine ⟨fun v _ => ⟨by rw [hval], by rw [hre]⟩, fun x hx ht => ?_, fun h => by simp at h, fun _ => ⟨hval, hv⟩⟩
    unfold St.isTrue at ht; rw [hval, hx] at ht; simp at ht

theorem visit_step (learn : Bool) (s : St) (p : Lit) (i : Lit × Option Lit) :
    Step1 s (visit learn s p i).1 (visit learn s p i).2 p i := by
  have nofr : ∀ {q : Lit}, s.value q.var = none → s.isTrue q = true → False := fun h1 h2 => by unfold St.isTrue at h2; rw [h1] at h2; simp at h2
  have tf : ∀ {q : Lit}, s.isTrue q = true → s.isFalse q = true → False := fun {q} h1 h2 => by
    unfold St.isTrue St.isFalse at *; cases h : s.value q.var with
    | none => rw [h] at h1; simp at h1
    | some b => rw [h] at h1 h2; cases b <;> cases q.tv <;> simp_all
  have ff : ∀ {q : Lit}, s.value q.var = none → s.isFalse q = true → False := fun h1 h2 => by unfold St.isFalse at h2; rw [h1] at h2; simp at h2
  obtain ⟨x, o⟩ := i
  cases o with
  | none =>
    show Step1 s (unary learn s p x).1 (unary learn s p x).2 p (x, none)
    unfold unary
    split
    · rename_i hx
      exact ⟨fun v _ => ⟨rfl, rfl⟩, fun q h1 h2 => (nofr h1 h2).elim, fun _ => hx, fun h => by simp at h⟩
    · obtain ⟨f1, f2, f3, f4⟩ := force_step learn s x [p]
      refine ⟨f1, fun q h1 h2 => ?_, f3, fun h => ⟨(f4 h).1, (f4 h).2, by simp⟩⟩
      obtain ⟨rfl, h⟩ := f2 q h1 h2
      exact Or.inl ⟨rfl, h⟩
  | some y =>
    show Step1 s (binary learn s p x y).1 (binary learn s p x y).2 p (x, some y)
    unfold binary
    split
    · rename_i h
      obtain ⟨hx, hy, hxy⟩ := h
      split
      · rename_i hxv
        have hxf : s.isFalse x = true := by
          rcases s.value_cases x with h | h | h
          · exact absurd h hxv
          · exact absurd h hx
          · exact h
        obtain ⟨f1, f2, f3, f4⟩ := force_step learn s y [p, x.neg]
        refine ⟨f1, fun q h1 h2 => ?_, fun h => ⟨fun _ => f3 h, fun hyf => ?_⟩, fun h => ⟨(f4 h).1, hxf, fun z hz => by cases hz; exact (f4 h).2⟩⟩
        · obtain ⟨rfl, h⟩ := f2 q h1 h2
          exact Or.inr ⟨x, Or.inr rfl, hxf, h⟩
        · rw [force_false hyf] at h; simp at h
      · rename_i hxv
        have hxv : s.value x.var = none := by simpa using hxv
        have hyf : s.isFalse y = true := by
          rcases s.value_cases y with h | h | h
          · exact absurd ⟨hxv, h⟩ hxy
          · exact absurd h hy
          · exact h
        obtain ⟨f1, f2, f3, f4⟩ := force_step learn s x [p, y.neg]
        refine ⟨f1, fun q h1 h2 => ?_, fun h => ⟨fun hxf => (ff hxv hxf).elim, fun _ => f3 h⟩, fun h => ⟨(f4 h).1, (f4 h).2, fun z hz => by cases hz; exact hyf⟩⟩
        obtain ⟨rfl, h⟩ := f2 q h1 h2
        exact Or.inr ⟨y, Or.inl rfl, hyf, h⟩
    · rename_i h
      refine ⟨fun v _ => ⟨rfl, rfl⟩, fun q h1 h2 => (nofr h1 h2).elim, fun _ => ⟨fun hx => ?_, fun hy => ?_⟩, fun h => by simp at h⟩
      · by_contra hy
        exact h ⟨fun h => tf h hx, hy, fun h => ff h.1 hx⟩
      · by_contra hx
        exact h ⟨hx, fun h => tf h hy, fun h => ff h.2 hy⟩

theorem keep_true {s t : St} (h : ∀ v, s.value v ≠ none → t.value v = s.value v) {q : Lit} (hq : s.isTrue q = true) : t.isTrue q = true := by
  unfold St.isTrue at *
  rw [h]; exact hq
  intro e; rw [e] at hq; simp at hq

theorem keep_false {s t : St} (h : ∀ v, s.value v ≠ none → t.value v = s.value v) {q : Lit} (hq : s.isFalse q = true) : t.isFalse q = true := by
  unfold St.isFalse at *
  rw [h]; exact hq
  intro e; rw [e] at hq; simp at hq

/-- The result of visiting a list of implications. -/
structure StepAll (s t : St) (ok : Bool) (p : Lit) (l : List (Lit × Option Lit)) : Prop where
  keep : ∀ v, s.value v ≠ none → t.value v = s.value v ∧ t.reason v = s.reason v
  new : ∀ q, s.value q.var = none → t.isTrue q = true →
    ((q, none) ∈ l ∧ t.reason q.var = some [p]) ∨
    (∃ y, ((q, some y) ∈ l ∨ (y, some q) ∈ l) ∧ t.isFalse y = true ∧ t.reason q.var = some [p, y.neg])
  done : ok = true → ∀ i ∈ l, match i.2 with
    | none => t.isTrue i.1 = true
    | some y => (s.isFalse i.1 = true → t.isTrue y = true) ∧ (s.isFalse y = true → t.isTrue i.1 = true)
  fail : ok = false → ∃ i ∈ l, t.isFalse i.1 = true ∧ ∀ y, i.2 = some y → t.isFalse y = true

theorem propItems_step (learn : Bool) (p : Lit) : ∀ (l : List (Lit × Option Lit)) (s : St),
    StepAll s (propItems learn s p l).1 (propItems learn s p l).2 p l := by
  intro l
  induction l with
  | nil =>
    intro s
    refine ⟨fun _ _ => ⟨rfl, rfl⟩, fun q h1 h2 => ?_, fun _ i hi => by simp at hi, fun h => by simp [propItems] at h⟩
    have h2 : s.isTrue q = true := h2
    unfold St.isTrue at h2; rw [h1] at h2; simp at h2
  | cons i r ih =>
    intro s
    have h1 := visit_step learn s p i
    unfold propItems
    generalize visit learn s p i = g at *
    obtain ⟨t, ok⟩ := g
    dsimp only at h1
    cases ok with
    | false =>
      dsimp only
      have hf := h1.fail rfl
      have hv : ∀ v, s.value v ≠ none → t.value v = s.value v := fun v _ => by rw [hf.1]
      refine ⟨h1.keep, fun q a b => ?_, fun h => by simp at h, fun _ => ⟨i, by simp, keep_false hv hf.2.1, fun y hy => keep_false hv (hf.2.2 y hy)⟩⟩
      unfold St.isTrue at b; rw [hf.1, a] at b; simp at b
    | true =>
      dsimp only
      have h2 := ih t
      have hd := h1.done rfl
      generalize propItems learn t p r = g at *
      obtain ⟨u, ok'⟩ := g
      dsimp only at h2 ⊢
      have k1 : ∀ v, s.value v ≠ none → t.value v = s.value v := fun v h => (h1.keep v h).1
      have k2 : ∀ v, t.value v ≠ none → u.value v = t.value v := fun v h => (h2.keep v h).1
      refine ⟨fun v hv => ?_, fun q a b => ?_, fun h j hj => ?_, fun h => ?_⟩
      · obtain ⟨a1, a2⟩ := h1.keep v hv
        obtain ⟨b1, b2⟩ := h2.keep v (by rw [a1]; exact hv)
        exact ⟨b1.trans a1, b2.trans a2⟩
      · by_cases hq : t.value q.var = none
        · rcases h2.new q hq b with ⟨c1, c2⟩ | ⟨y, c1, c2, c3⟩
          · exact Or.inl ⟨by simp [c1], c2⟩
          · exact Or.inr ⟨y, by rcases c1 with c1 | c1 <;> simp [c1], c2, c3⟩
        · obtain ⟨b1, b2⟩ := h2.keep q.var hq
          have bt : t.isTrue q = true := by unfold St.isTrue at b ⊢; rw [← b1]; exact b
          rcases h1.new q a bt with ⟨c1, c2⟩ | ⟨y, c1, c2, c3⟩
          · exact Or.inl ⟨by simp [c1], by rw [b2]; exact c2⟩
          · exact Or.inr ⟨y, by rcases c1 with c1 | c1 <;> simp [c1], keep_false k2 (keep_false k1 c2), by rw [b2]; exact c3⟩
      · rcases List.mem_cons.1 hj with rfl | hj
        · obtain ⟨x, o⟩ := j
          cases o with
          | none => exact keep_true k2 hd
          | some y => exact ⟨fun h => keep_true k2 (hd.1 h), fun h => keep_true k2 (hd.2 h)⟩
        · have := h2.done h j hj
          obtain ⟨x, o⟩ := j
          cases o with
          | none => exact this
          | some y => exact ⟨fun h => this.1 (keep_false k1 h), fun h => this.2 (keep_false k1 h)⟩
      · obtain ⟨j, hj, hr⟩ := h2.fail h
        exact ⟨j, List.mem_cons_of_mem _ hj, hr⟩

/-- C11. Propagating the true literal `p` over the graph that holds the clauses `cs`:
* nothing is unassigned and no reason is changed;
* a newly assigned literal `q` is the only non-false literal of a clause of `cs` that contains `~p`, and the negation of the
  clause's other literals is the reason of `q`;
* if the propagation succeeds, every binary clause with `~p` is satisfied by its other literal, and every ternary clause with
  `~p` and another literal that was false is satisfied by its third literal;
* if it fails, all literals of some clause of `cs` that contains `~p` are false. -/
theorem C11_propagate {G : Graph} {cs : List (List Lit)} (hG : Holds G cs) (learn : Bool) (s : St) (p : Lit) :
    (∀ v, s.value v ≠ none → (G.propagate learn s p).1.value v = s.value v ∧ (G.propagate learn s p).1.reason v = s.reason v) ∧
    (∀ q, s.value q.var = none → (G.propagate learn s p).1.isTrue q = true → ∃ r, (∀ x ∈ r, (G.propagate learn s p).1.isFalse x = true) ∧
      (∃ c ∈ cs, c.Perm (q :: p.neg :: r)) ∧ (G.propagate learn s p).1.reason q.var = some ((p.neg :: r).map Lit.neg)) ∧
    ((G.propagate learn s p).2 = true → (∀ c ∈ cs, ∀ q, c.Perm [p.neg, q] → (G.propagate learn s p).1.isTrue q = true) ∧
      ∀ c ∈ cs, ∀ q x, c.Perm [p.neg, x, q] → s.isFalse x = true → (G.propagate learn s p).1.isTrue q = true) ∧
    ((G.propagate learn s p).2 = false → ∃ c ∈ cs, p.neg ∈ c ∧ ∀ x ∈ c, x = p.neg ∨ (G.propagate learn s p).1.isFalse x = true) := by
  have h := propItems_step learn p (G.items p) s
  unfold Graph.propagate
  generalize propItems learn s p (G.items p) = g at *
  obtain ⟨t, ok⟩ := g
  dsimp only at *
  have i2 : ∀ q, (q, none) ∈ G.items p ↔ ∃ c ∈ cs, c.Perm [p.neg, q] := by
    intro q; have := hG.two p.neg q; unfold has2 at this; rwa [Lit.neg_neg] at this
  have i3 : ∀ x q, ((q, some x) ∈ G.items p ∨ (x, some q) ∈ G.items p) ↔ ∃ c ∈ cs, c.Perm [p.neg, q, x] := by
    intro x q; have := hG.three p.neg q x; unfold has3 at this; rwa [Lit.neg_neg] at this
  refine ⟨h.keep, fun q a b => ?_, fun hok => ⟨fun c hc q hp => h.done hok _ ((i2 q).2 ⟨c, hc, hp⟩), fun c hc q x hp hx => ?_⟩, fun hok => ?_⟩
  · rcases h.new q a b with ⟨c1, c2⟩ | ⟨y, c1, c2, c3⟩
    · obtain ⟨c, hc, hp⟩ := (i2 q).1 c1
      exact ⟨[], by simp, ⟨c, hc, hp.trans (List.Perm.swap _ _ _)⟩, by simp [c2, Lit.neg_neg]⟩
    · obtain ⟨c, hc, hp⟩ := (i3 y q).1 c1
      exact ⟨[y], by simpa using c2, ⟨c, hc, hp.trans (List.Perm.swap _ _ _)⟩, by simp [c3, Lit.neg_neg]⟩
  · rcases (i3 q x).2 ⟨c, hc, hp⟩ with hm | hm
    · exact (h.done hok _ hm).1 hx
    · exact (h.done hok _ hm).2 hx
  · obtain ⟨⟨x, o⟩, hi, f1, f2⟩ := h.fail hok
    cases o with
    | none =>
      obtain ⟨c, hc, hp⟩ := (i2 x).1 hi
      refine ⟨c, hc, hp.mem_iff.2 (by simp), fun z hz => ?_⟩
      have := hp.mem_iff.1 hz
      simp at this
      rcases this with rfl | rfl
      · exact Or.inl rfl
      · exact Or.inr f1
    | some y =>
      obtain ⟨c, hc, hp⟩ := (i3 y x).1 (Or.inl hi)
      refine ⟨c, hc, hp.mem_iff.2 (by simp), fun z hz => ?_⟩
      have := hp.mem_iff.1 hz
      simp at this
      rcases this with rfl | rfl | rfl
      · exact Or.inl rfl
      · exact Or.inr f1
      · exact Or.inr (f2 _ rfl)

/-! ### Inverse arcs -/

/-- solver.h:587, solver_types.h:606 `seen(p)` -/
def seenLit (s : St) (p : Lit) : Bool := if p.sign then (s.cell p.var).seen.2 else (s.cell p.var).seen.1

/-- solver.h:902-904 `isRevLit(s, p, maxL)` -/
def isRevLit (s : St) (p : Lit) (maxL : Nat) : Bool := s.isFalse p && (seenLit s p || decide (s.level p.var < maxL))

/-- shared_context.cpp:331-346, 350 `reverseArc`: the first clause found whose other literals are false and either marked or on a
level below `maxL` -/
def reverseArc (G : Graph) (s : St) (p : Lit) (maxL : Nat) : Ante :=
  (G.items p).findSome? fun
    | (x, none) => if !isRevLit s x maxL then none else some [x.neg]
    | (x, some y) => if !isRevLit s x maxL || !isRevLit s y maxL then none else some [x.neg, y.neg]

/-- C11. An inverse arc of `p` is a clause of the graph containing `~p` whose other literals are false, and marked or below the
level; there is none only if no clause is of this kind. -/
theorem C11_reverseArc {G : Graph} {cs : List (List Lit)} (hG : Holds G cs) (s : St) (p : Lit) (maxL : Nat) :
    (∀ r, G.reverseArc s p maxL = some r → (∀ x ∈ r, s.isTrue x = true ∧ (seenLit s x.neg = true ∨ s.level x.var < maxL)) ∧
      ∃ c ∈ cs, c.Perm (p.neg :: r.map Lit.neg)) ∧
    (G.reverseArc s p maxL = none → ∀ c ∈ cs, ∀ r, (r.length = 1 ∨ r.length = 2) → c.Perm (p.neg :: r) →
      ∃ x ∈ r, ¬ (s.isFalse x = true ∧ (seenLit s x = true ∨ s.level x.var < maxL))) := by
  have i2 : ∀ q, (q, none) ∈ G.items p ↔ ∃ c ∈ cs, c.Perm [p.neg, q] := by
    intro q; have := hG.two p.neg q; unfold has2 at this; rwa [Lit.neg_neg] at this
  have i3 : ∀ x q, ((q, some x) ∈ G.items p ∨ (x, some q) ∈ G.items p) ↔ ∃ c ∈ cs, c.Perm [p.neg, q, x] := by
    intro x q; have := hG.three p.neg q x; unfold has3 at this; rwa [Lit.neg_neg] at this
  have hrev : ∀ x, isRevLit s x maxL = true ↔ s.isFalse x = true ∧ (seenLit s x = true ∨ s.level x.var < maxL) := by
    intro x; unfold isRevLit; simp
  constructor
  · intro r hr
    unfold reverseArc at hr
    obtain ⟨⟨x, o⟩, hi, h⟩ := List.exists_of_findSome?_eq_some hr
    cases o with
    | none =>
      dsimp only at h
      split at h
      · simp at h
      · rename_i hx
        cases h
        have hx := (hrev x).1 (by simpa using hx)
        obtain ⟨c, hc, hp⟩ := (i2 x).1 hi
        refine ⟨fun z hz => ?_, c, hc, by simpa [Lit.neg_neg] using hp⟩
        rw [List.mem_singleton.1 hz, Lit.neg_neg, Lit.neg_var, ← St.isFalse_eq]; exact hx
    | some y =>
      dsimp only at h
      split at h
      · simp at h
      · rename_i hxy
        cases h
        simp only [Bool.or_eq_true, Bool.not_eq_true', not_or, Bool.not_eq_false] at hxy
        obtain ⟨c, hc, hp⟩ := (i3 y x).1 (Or.inl hi)
        refine ⟨fun z hz => ?_, c, hc, by simpa [Lit.neg_neg] using hp⟩
        simp only [List.mem_cons, List.not_mem_nil, or_false] at hz
        rcases hz with rfl | rfl
        · rw [Lit.neg_neg, Lit.neg_var, ← St.isFalse_eq]; exact (hrev x).1 hxy.1
        · rw [Lit.neg_neg, Lit.neg_var, ← St.isFalse_eq]; exact (hrev y).1 hxy.2
  · intro hn c hc r hl hp
    unfold reverseArc at hn
    rw [List.findSome?_eq_none_iff] at hn
    by_contra hcon
    push Not at hcon
    have hall : ∀ x ∈ r, isRevLit s x maxL = true := fun x hx => (hrev x).2 ⟨(hcon x hx).1, (hcon x hx).2⟩
    match r, hl with
    | [x], _ =>
      have := hn _ ((i2 x).2 ⟨c, hc, hp⟩)
      simp [hall x (by simp)] at this
    | [x, y], _ =>
      rcases (i3 y x).2 ⟨c, hc, hp⟩ with hm | hm
      · have := hn _ hm; simp [hall x (by simp), hall y (by simp)] at this
      · have := hn _ hm; simp [hall x (by simp), hall y (by simp)] at this

/-! ### A case meeting the hypotheses -/

/-- clauses `{~1, 2}`, `{~1, ~3, 4}` and a learnt clause `{~1, ~4, ~2}` on a graph that is shared by then -/
def demoG : List AddCall := [⟨true, true, [⟨1, true⟩, ⟨4, true⟩, ⟨2, true⟩]⟩, ⟨false, false, [⟨1, true⟩, ⟨3, true⟩, ⟨4, false⟩]⟩,
  ⟨false, false, [⟨1, true⟩, ⟨2, false⟩]⟩]

example : (addAll demoG).2.length = 3 := by decide
/-- the learnt clause is refused the second time, and a problem clause is refused on a shared graph -/
example : ((addAll demoG).1.add ⟨true, true, [⟨2, true⟩, ⟨1, true⟩, ⟨4, true⟩]⟩).2 = false ∧
  ((addAll demoG).1.add ⟨true, false, [⟨7, true⟩, ⟨1, true⟩, ⟨4, true⟩]⟩).2 = false := by decide
/-- with 3 true, propagating 1 assigns 2 and 4, and then the learnt clause is violated -/
example : ((addAll demoG).1.propagate true (St.init.force true ⟨3, false⟩ none).1 ⟨1, false⟩).2 = false := by decide
example : ((addAll demoG).1.propagate true St.init ⟨1, false⟩).2 = true ∧
  ((addAll demoG).1.propagate true St.init ⟨1, false⟩).1.trail = [⟨4, true⟩, ⟨2, false⟩] := by decide
example : (addAll demoG).1.reverseArc (St.init.force true ⟨2, true⟩ none).1 ⟨1, false⟩ 3 = some [⟨2, true⟩] := by decide

end Graph
end Clasp.Core
