/-
C36: what a loop formula guarantees; C31 for loop formulas. No code is modelled in this file.

Specification: the formula created from literals `bodies` and `atoms` stands for the clauses `a :: bodies` for all `a ∈ atoms`. Assignments are total
functions (Core/Sem.lean); nothing below refers to positions, flags or watches, except that no watch may be left after the formula is gone.
-/
import Verif.Asp.LoopReach
import Verif.Core.ReduceProps
namespace Clasp.Loop
open Core

/-- Specification: the clauses of a loop formula. -/
def formula (bodies atoms : List Lit) : List (List Lit) := atoms.map fun a => a :: bodies

/-- Specification: `M` agrees with what is assigned on level 0. -/
def Facts (tr : List Entry) (M : Asg) : Prop := ∀ e ∈ tr, e.lev = 0 → M.sat e.lit

theorem Rel.sound {tr : List Entry} {old new : List (List Lit)} (h : Rel tr old new) {M : Asg} (hf : Facts tr M) (hM : ∀ C ∈ old, M.satC C) :
    ∀ D ∈ new, M.satC D := by
  intro D hD
  obtain ⟨C, c1, c2⟩ := h.2 D hD
  obtain ⟨l, l1, l2⟩ := hM C c1
  rcases c2 l l1 with k | ⟨e, e1, e2, e3⟩
  · exact ⟨l, k, l2⟩
  · have := hf e e1 (by omega)
    rw [e2, Asg.sat_neg] at this
    exact absurd l2 this

theorem Rel.compl {tr : List Entry} {old new : List (List Lit)} (h : Rel tr old new) {M : Asg} (hf : Facts tr M) (hM : ∀ D ∈ new, M.satC D) :
    ∀ C ∈ old, M.satC C := by
  intro C hC
  rcases h.1 C hC with ⟨l, l1, e, e1, e2, e3⟩ | ⟨D, d1, d2⟩
  · refine ⟨l, l1, ?_⟩
    rw [← e2]; exact hf e e1 (by omega)
  · obtain ⟨l, l1, l2⟩ := hM D d1
    exact ⟨l, d2 l l1, l2⟩

theorem reason_eq {c : Con} (h : Lay c) (hf : 1 + 1 < c.fin) (p : Lit) : reason c p =
    ((((List.range' (if c.other = c.xPos then 2 else 1) (c.fin - if c.other = c.xPos then 2 else 1)).map c.lit).filter fun q => decide (q ≠ p)).map Lit.neg) := by
  unfold reason
  dsimp only
  congr 2
  have h1 := active_eq h (s := if c.other = c.xPos then 2 else 1) (by split <;> omega) (by split <;> omega)
  unfold Con.active at h1
  have h2 := congrArg (List.map fun q : Nat × Lit × Bool => q.2.1) h1
  rw [List.map_map] at h2
  refine Eq.trans ?_ h2
  rw [List.takeWhile_map, List.takeWhile_map, List.map_map]
  rfl

theorem mem_reason {c : Con} (h : Lay c) (hf : 1 + 1 < c.fin) {p q : Lit} : q ∈ reason c p ↔
    ∃ i, (if c.other = c.xPos then 2 else 1) ≤ i ∧ i < c.fin ∧ c.lit i ≠ p ∧ q = (c.lit i).neg := by
  rw [reason_eq h hf]
  simp only [List.mem_map, List.mem_filter, List.mem_range'_1, decide_eq_true_eq]
  constructor
  · rintro ⟨l, ⟨⟨i, ⟨i1, i2⟩, rfl⟩, hp⟩, rfl⟩
    exact ⟨i, i1, by omega, hp, rfl⟩
  · rintro ⟨i, i1, i2, i3, rfl⟩
    exact ⟨c.lit i, ⟨⟨i, ⟨i1, by omega⟩, rfl⟩, i3⟩, rfl⟩

theorem reason_why {c : Con} (h : Lay c) (hf : 1 + 1 < c.fin) {tr post : List Entry} {p : Lit} {l : Nat} {ex : Prop} (hw : Why c tr post p l ex) :
    (∀ q ∈ reason c p, ∃ f ∈ post, f.lit = q) ∧ ∃ D ∈ c.clauses, ∀ x ∈ D, x = p ∨ x.neg ∈ reason c p := by
  rcases hw with ⟨h1, h2, h3⟩ | ⟨h1, h2, h3, _, h4⟩
  · have hq : ∀ q, q ∈ reason c p ↔ ∃ i, 1 ≤ i ∧ i < c.fin ∧ c.lit i ≠ p ∧ q = (c.lit i).neg := by
      intro q
      rw [mem_reason h hf, if_neg h1]
    refine ⟨fun q hq' => ?_, ?_⟩
    · obtain ⟨i, i1, i2, i3, rfl⟩ := (hq q).1 hq'
      exact h3 i i1 i2 (by rintro rfl; exact i3 h2.symm)
    · have hall : ∀ i, 1 ≤ i → i < c.fin → c.lit i = p ∨ (c.lit i).neg ∈ reason c p := by
        intro i i1 i2
        by_cases hp : c.lit i = p
        · exact Or.inl hp
        · exact Or.inr ((hq _).2 ⟨i, i1, i2, hp, rfl⟩)
      have hb : ∀ x ∈ c.bodies, x = p ∨ x.neg ∈ reason c p := by
        intro x hx
        obtain ⟨i, i1, i2, rfl⟩ := mem_bodies.1 hx
        exact hall i (by omega) i2
      unfold Con.clauses
      rcases h.x with k | k
      · rw [if_pos k]
        exact ⟨_, List.mem_singleton.2 rfl, hb⟩
      · rw [if_neg (by omega)]
        refine ⟨_, List.mem_map.2 ⟨c.lit 1, h.slot k, rfl⟩, fun x hx => ?_⟩
        rcases List.mem_cons.1 hx with rfl | hx
        · exact hall 1 (by omega) (by omega)
        · exact hb x hx
  · have hq : ∀ q, q ∈ reason c p ↔ ∃ i, 2 ≤ i ∧ i < c.fin ∧ c.lit i ≠ p ∧ q = (c.lit i).neg := by
      intro q
      rw [mem_reason h hf, if_pos h1]
    refine ⟨fun q hq' => ?_, ?_⟩
    · obtain ⟨i, i1, i2, i3, rfl⟩ := (hq q).1 hq'
      exact h4 _ (mem_bodies.2 ⟨i, by omega, i2, rfl⟩)
    · unfold Con.clauses
      rw [if_neg (by omega)]
      refine ⟨_, List.mem_map.2 ⟨p, h3, rfl⟩, fun x hx => ?_⟩
      rcases List.mem_cons.1 hx with rfl | hx
      · exact Or.inl rfl
      · by_cases hp : x = p
        · exact Or.inl hp
        · obtain ⟨i, i1, i2, rfl⟩ := mem_bodies.1 hx
          exact Or.inr ((hq _).2 ⟨i, by omega, i2, hp, rfl⟩)

section
variable {bodies atoms : List Lit} {w : Wd}

theorem implied (h : Reach bodies atoms w) {p : Lit} (hD : ∃ D ∈ w.con.clauses, ∀ x ∈ D, x = p ∨ x.neg ∈ reason w.con p) {M : Asg} (hf : Facts w.tr M)
    (hM : ∀ C ∈ formula bodies atoms, M.satC C) (hr : M.all (reason w.con p)) : M.sat p := by
  obtain ⟨D, d1, d2⟩ := hD
  obtain ⟨x, x1, x2⟩ := (h.inv.2).sound hf hM D d1
  rcases d2 x x1 with rfl | k
  · exact x2
  · have := hr _ k
    rw [Asg.sat_neg] at this
    exact absurd x2 this

/-- **C36.** Delivering a notification never reads beyond the literals of the formula: the search for a literal to watch ends at a sentinel. -/
theorem C36_defined (h : Reach bodies atoms w) (hc : w.conf = none) (p : Lit) (hp : p ∈ w.pend) : notify w p ≠ none := by
  obtain ⟨v, v1, _⟩ := h.inv.1.notify hc hp
  rw [v1]; simp

/-- **C36.** In every reachable state and for every literal on the trail whose antecedent is the formula, `reason` returns literals that became true
earlier, and which together imply the literal in every assignment that satisfies the clauses of the formula and the facts (literals assigned on
level 0, which simplification removes from the formula). -/
theorem C36_reason (h : Reach bodies atoms w) (pre : List Entry) (e : Entry) (post : List Entry) (ht : w.tr = pre ++ e :: post) (hr : e.rs = true) :
    (∀ q ∈ reason w.con e.lit, ∃ f ∈ post, f.lit = q) ∧
    ∀ M : Asg, Facts w.tr M → (∀ C ∈ formula bodies atoms, M.satC C) → M.all (reason w.con e.lit) → M.sat e.lit := by
  have hi := h.inv.1
  obtain ⟨k1, k2⟩ := reason_why hi.lay hi.fin1 (hi.r pre e post ht hr)
  exact ⟨k1, fun M hf hM hall => implied h k2 hf hM hall⟩

/-- **C36.** If the formula reports a conflict, the literal it could not make true is false, `reason` returns true literals, and they imply it:
the conflict is justified. -/
theorem C36_conflict (h : Reach bodies atoms w) (p : Lit) (hc : w.conf = some p) :
    isFalse w.tr p = true ∧ (∀ q ∈ reason w.con p, isTrue w.tr q = true) ∧
    ∀ M : Asg, Facts w.tr M → (∀ C ∈ formula bodies atoms, M.satC C) → M.all (reason w.con p) → M.sat p := by
  have hi := h.inv.1
  obtain ⟨⟨f, f1, f2⟩, hw⟩ := hi.c p hc
  obtain ⟨k1, k2⟩ := reason_why hi.lay hi.fin1 hw
  refine ⟨isTrue_iff.2 (Or.inr ⟨f, f1, f2⟩), fun q hq => ?_, fun M hf hM hall => implied h k2 hf hM hall⟩
  obtain ⟨g, g1, g2⟩ := k1 q hq
  exact isTrue_iff.2 (Or.inr ⟨g, g1, g2⟩)

/-- **C36.** Propagation is complete: when no notification is pending and there is no conflict, every clause of the formula has a true literal or two
different literals that are not false. In particular no clause is violated and none is unit without its literal being true. -/
theorem C36_complete (h : Reach bodies atoms w) (hc : w.conf = none) (hp : w.pend = []) (C : List Lit) (hC : C ∈ formula bodies atoms) :
    (∃ l ∈ C, isTrue w.tr l = true) ∨ ∃ l ∈ C, ∃ m ∈ C, l ≠ m ∧ isFalse w.tr l = false ∧ isFalse w.tr m = false := by
  obtain ⟨hi, hrel⟩ := h.inv
  have hat : ∀ {x l}, At w.tr x l → isTrue w.tr x = true := fun ⟨f, f1, f2, _⟩ => isTrue_iff.2 (Or.inr ⟨f, f1, f2⟩)
  rcases hrel.1 C hC with ⟨l, l1, l2⟩ | ⟨D, d1, d2⟩
  · exact Or.inl ⟨l, l1, hat l2⟩
  have hD : (∃ l ∈ D, isTrue w.tr l = true) ∨ ∃ l ∈ D, ∃ m ∈ D, l ≠ m ∧ isFalse w.tr l = false ∧ isFalse w.tr m = false := by
    have hbD : ∀ b ∈ w.con.bodies, b ∈ D := by
      intro b hb
      unfold Con.clauses at d1
      split at d1
      · rw [List.mem_singleton] at d1; subst d1; exact hb
      · obtain ⟨a, a1, rfl⟩ := List.mem_map.1 d1
        exact List.mem_cons_of_mem _ hb
    have hsat : Sat w.con w.tr w.dl → ∃ l ∈ D, isTrue w.tr l = true := fun ⟨b, b1, b2⟩ => ⟨b, hbD b b1, hat b2⟩
    have hsatA : SatA w.con w.tr w.dl → ∃ l ∈ D, isTrue w.tr l = true := by
      rintro ⟨a1, a2⟩
      unfold Con.clauses at d1
      rw [if_neg (by omega)] at d1
      obtain ⟨a, k, rfl⟩ := List.mem_map.1 d1
      exact ⟨a, List.mem_cons_self .., hat (a2 a k)⟩
    by_cases hs : ∃ l ∈ D, isTrue w.tr l = true
    · exact Or.inl hs
    right
    have hflag : ∀ i, 1 ≤ i → i < w.con.fin → w.con.flag i = true → isFalse w.tr (w.con.lit i) = false := by
      intro i i1 i2 i3
      cases hf : isFalse w.tr (w.con.lit i) with
      | false => rfl
      | true =>
        exfalso
        rcases hi.p i i1 i2 i3 w.dl ((isFalse_at hi.trl (hi.lay.avar i1 i2)).1 hf) with k | k | k | k
        · rw [hp] at k; cases k
        · exact hs (hsat k)
        · exact hs (hsatA k)
        · rw [hc] at k; simp at k
    obtain ⟨f, g, f1, f2, f3, f4, f5, f6⟩ := hi.flags
    have hff := hflag f f2 f3 ((f6 f).2 (Or.inl rfl))
    have hgf := hflag g f4 f5 ((f6 g).2 (Or.inr rfl))
    have hne : w.con.lit f ≠ w.con.lit g := fun k => f1 (hi.lay.inj f2 f3 f4 f5 (by rw [k]))
    by_cases hb : 1 + w.con.xPos ≤ f ∧ 1 + w.con.xPos ≤ g
    · exact ⟨_, hbD _ (mem_bodies.2 ⟨f, hb.1, f3, rfl⟩), _, hbD _ (mem_bodies.2 ⟨g, hb.2, f5, rfl⟩), hne, hff, hgf⟩
    · -- one of the watched positions is the slot
      have hx1 : w.con.xPos = 1 := by rcases hi.lay.x with k | k <;> omega
      obtain ⟨a, a1, rfl⟩ : ∃ a ∈ w.con.xs, D = a :: w.con.bodies := by
        unfold Con.clauses at d1
        rw [if_neg (by omega)] at d1
        obtain ⟨a, a1, a2⟩ := List.mem_map.1 d1
        exact ⟨a, a1, a2.symm⟩
      have h1f : isFalse w.tr (w.con.lit 1) = false := by
        have : f = 1 ∨ g = 1 := by omega
        rcases this with rfl | rfl
        · exact hff
        · exact hgf
      have haf : isFalse w.tr a = false := by
        cases hf : isFalse w.tr a with
        | false => rfl
        | true =>
          exfalso
          rcases hi.q hx1 a a1 w.dl ((isFalse_at hi.trl (hi.lay.xvar a a1)).1 hf) with k | k | k | k
          · rw [hp] at k; cases k
          · exact hs (hsat k)
          · have hfin := hi.fin1
            have := (isFalse_at hi.trl (hi.lay.avar (i := 1) (by omega) (by omega))).2 k
            rw [h1f] at this; cases this
          · rw [hc] at k; simp at k
      obtain ⟨g', g1, g2, g3⟩ : ∃ g', 2 ≤ g' ∧ g' < w.con.fin ∧ isFalse w.tr (w.con.lit g') = false := by
        by_cases hf1 : f = 1
        · exact ⟨g, by omega, f5, hgf⟩
        · exact ⟨f, by omega, f3, hff⟩
      have hgb : w.con.lit g' ∈ w.con.bodies := mem_bodies.2 ⟨g', by omega, g2, rfl⟩
      refine ⟨a, List.mem_cons_self .., _, List.mem_cons_of_mem _ hgb, fun k => hi.lay.ab a a1 _ hgb (by rw [k]), haf, g3⟩
  rcases hD with ⟨l, l1, l2⟩ | ⟨l, l1, m, m1, k⟩
  · exact Or.inl ⟨l, d2 l l1, l2⟩
  · exact Or.inr ⟨l, d2 l l1, m, d2 m m1, k⟩

/-- **C36.** While the formula is the antecedent of a literal, `locked` says so. -/
theorem C36_locked (h : Reach bodies atoms w) (hc : w.conf = none) (e : Entry) (he : e ∈ w.tr) (hr : e.rs = true) : locked w.tr w.con = true := by
  have hi := h.inv.1
  obtain ⟨pre, post, hs⟩ := exists_split he
  have hti : isTrue w.tr e.lit = true := isTrue_iff.2 (Or.inr ⟨e, he, rfl⟩)
  have hri : reasonIs w.tr e.lit = true := by
    unfold reasonIs
    rw [List.any_eq_true]
    exact ⟨e, he, by simp [hr]⟩
  unfold locked
  rcases hi.r pre e post hs hr with ⟨h1, h2, _⟩ | ⟨h1, h2, h3, h4, _⟩
  · rw [if_pos (Or.inl h1), ← h2, hti, hri]; rfl
  · have hall : ∀ a ∈ w.con.xs, At w.tr a e.lev := by
      rcases h4 with k | k
      · exact k
      · rw [hc] at k; simp at k
    have hsl : isTrue w.tr (w.con.lit w.con.other) = true := by
      obtain ⟨f, f1, f2, _⟩ := hall _ (hi.lay.slot h2)
      rw [h1, h2]
      exact isTrue_iff.2 (Or.inr ⟨f, f1, f2⟩)
    rw [if_neg (by rintro (k | k); exact k h1; rw [hsl] at k; cases k), List.any_eq_true]
    exact ⟨e.lit, h3, by rw [hti, hri]; rfl⟩

/-- **C36.** Simplification (on level 0 after propagation) does not change the models: if the formula is removed, the clauses added in its place have,
together with the facts, the same models as the formula, and no watch is left that would refer to the removed object. (If it is kept, the other
theorems go on to hold, as simplification is one of the steps.) -/
theorem C36_simplify (h : Reach bodies atoms w) (hc : w.conf = none) (hd : w.dl = 0) (hp : w.pend = []) (imp : Bool) (wat : List Watch) (cls : List (List Lit))
    (hs : simplify w.tr w.con imp = .gone wat cls) :
    wat = [] ∧ ∀ M : Asg, Facts w.tr M → ((∀ C ∈ formula bodies atoms, M.satC C) ↔ ∀ C ∈ cls, M.satC C) := by
  obtain ⟨hi, hrel⟩ := h.inv
  obtain ⟨k1, k2⟩ := (hi.simplify hc hd hp imp).2 wat cls hs
  have hr := hrel.trans k2
  exact ⟨k1, fun M hf => ⟨fun hM => hr.sound hf hM, fun hM => hr.compl hf hM⟩⟩

/-- **C36.** At any time `detach` (called when the formula is destroyed) removes all watches. -/
theorem C36_detach (h : Reach bodies atoms w) : detach w.con = [] := Wat.detach h.inv.1.lay h.inv.1.wat h.inv.1.fin1

end

end Clasp.Loop

namespace Clasp.Reduce
open Core

/-- **C31** (for loop formulas; for clauses see `C31_reason_clause` in Core/ReduceProps.lean). No loop formula that is currently the reason of a
literal is removed from the learnt database: in every reachable state without conflict (the database is only reduced then), for every algorithm and
limit, whatever the other constraints are. -/
theorem C31_reason_loop (c : Cmp) (S1 : Std Con (fun a b => c.lt a.sc b.sc)) (S2 : Std View (fun a b => c.lt a.2 b.2)) (lk : Con → Bool)
    {bodies atoms : List Lit} {w : Loop.Wd} (h : Loop.Reach bodies atoms w) (hc : w.conf = none) (e : Loop.Entry) (he : e ∈ w.tr) (hr : e.rs = true)
    (id : Nat) (hl : ∀ x, x.id = id → lk x = Loop.locked w.tr w.con) (algo : Algo) (n : Nat) (db : List Con) :
    ∀ x ∈ (reduceLearnts c lk S1 S2 algo n db).gone, x.id ≠ id := by
  intro x hx hi
  obtain ⟨k, h1, _⟩ := reduce_all c lk S1 S2 algo n db
  have hu := h1.unpinned x hx
  unfold pinned at hu
  simp only [Bool.or_eq_false_iff] at hu
  have := hu.1.1
  rw [hl x hi, Loop.C36_locked h hc e he hr] at this
  cases this

end Clasp.Reduce

namespace Clasp.Loop.Ex
open Core

/-- Example: literals. -/
def x (n : Nat) : Lit := ⟨n, false⟩
/-- Example: the two literals of the bodies. -/
def bs : List Lit := [x 3, x 4]
/-- Example: the literals of the two atoms. -/
def as : List Lit := [x 1, x 2]

/-- Example: on level 1 both bodies are false and the formula is created with the atoms. -/
def w0 : Wd := ⟨[⟨x 2, 1, true⟩, ⟨x 1, 1, true⟩, ⟨(x 3).neg, 1, false⟩, ⟨(x 4).neg, 1, false⟩], 1, [], Con.new bs as, none⟩

theorem start : Start bs as w0 where
  con := rfl
  conf := rfl
  dist := by unfold Distinct; decide
  ne := by decide
  vars := by decide
  lev := by decide
  ord := by decide
  pend := by simp [w0]
  top := by decide
  tru := by decide
  rs := by decide
  before := by
    intro pre e post h he b hb
    have : post.length ≤ 3 := by have := congrArg List.length h; simp [w0] at this; omega
    match pre, h with
    | [], h => cases h; revert b; decide
    | [_], h => cases h; revert b; decide
    | [_, _], h => cases h; cases he
    | [_, _, _], h => cases h; cases he
    | _ :: _ :: _ :: _ :: _, h => have := congrArg List.length h; simp [w0] at this

/-- Example: backtrack, assume `¬x3`, deliver the notification (the watch moves to `x4`), assume `¬x2` and `¬x1`. -/
def w1 : Wd := undo w0
/-- Example: see `w1`. -/
def w2 : Wd := push { w1 with dl := w1.dl + 1 } (x 3).neg false
/-- Example: see `w1`. -/
def w3 : Wd := (notify w2 (x 3).neg).getD w2
/-- Example: see `w1`. -/
def w4 : Wd := push { w3 with dl := w3.dl + 1 } (x 2).neg false
/-- Example: the formula forces `x4`. -/
def w5 : Wd := (notify w4 (x 2).neg).getD w4

theorem getD_some {α : Type} {o : Option α} {d : α} (h : o.isSome = true) : o = some (o.getD d) := by
  cases o with
  | none => cases h
  | some a => rfl

theorem run : Reach bs as w5 :=
  .step (.step (.step (.step (.step (.init start) (.undo w0 (by decide))) (.decide w1 (x 3).neg rfl rfl (by decide)))
    (.notify w2 w3 (x 3).neg rfl (by decide) (getD_some (by decide)))) (.decide w3 (x 2).neg rfl rfl (by decide)))
    (.notify w4 w5 (x 2).neg rfl (by decide) (getD_some (by decide)))

/-- Example: the hypotheses of `C36_reason`, `C36_locked` and `C31_reason_loop` are met after `run`: `x4` was forced, and `reason` says why. -/
example : w5.conf = none ∧ w5.tr = [⟨x 4, 2, true⟩, ⟨(x 2).neg, 2, false⟩, ⟨(x 3).neg, 1, false⟩] ∧ reason w5.con (x 4) = [(x 2).neg, (x 3).neg] := by decide

/-- Example: in the state at creation the atoms are the forced literals. -/
example : reason w0.con (x 2) = [(x 3).neg, (x 4).neg] ∧ locked w0.tr w0.con = true := by decide

/-- Example: a conflict: after `w3` the literals `¬x4`, `¬x1` are assigned before the formula is notified. -/
def v1 : Wd := push { w3 with dl := w3.dl + 1 } (x 1).neg false
/-- Example: see `v1`. -/
def v2 : Wd := push v1 (x 4).neg false
/-- Example: see `v1`. -/
def v3 : Wd := (notify v2 (x 1).neg).getD v2
theorem runv : Reach bs as v3 :=
  .step (.step (.step (.step (.step (.step (.init start) (.undo w0 (by decide))) (.decide w1 (x 3).neg rfl rfl (by decide)))
    (.notify w2 w3 (x 3).neg rfl (by decide) (getD_some (by decide)))) (.decide w3 (x 1).neg rfl rfl (by decide)))
    (.assign v1 (x 4).neg rfl (by decide))) (.notify v2 v3 (x 1).neg rfl (by decide) (getD_some (by decide)))
example : v3.conf.isSome = true := by decide

/-- Example: on level 0 the second atom becomes true; simplification replaces the formula by the clause of the first. -/
def u1 : Wd := push w1 (x 2) false
/-- Example: see `u1`. -/
def u2 : Wd := (notify u1 (x 2)).getD u1
theorem runu : Reach bs as u2 :=
  .step (.step (.step (.init start) (.undo w0 (by decide))) (.assign w1 (x 2) rfl (by decide))) (.notify u1 u2 (x 2) rfl (by decide) (getD_some (by decide)))
/-- Example: what is the result? -/
def out : Simp → List Watch × List (List Lit)
  | .gone wat cls => (wat, cls)
  | .keep c => (c.wat, c.clauses)
example : u2.conf = none ∧ u2.dl = 0 ∧ u2.pend = [] ∧ out (simplify u2.tr u2.con true) = ([], [[x 1, x 3, x 4]]) := by decide

end Clasp.Loop.Ex
