import Verif.Opt.BoundProps
/-!
# Executions of the bound management

Concrete runs: runs that meet the hypotheses of the theorems in `BoundProps` and find the optimum, and runs showing that the code gives
wrong or no answers for the initial bounds and costs excluded there.
-/

namespace Clasp.BB

/-- Specification: a cost vector with two levels. -/
def vec2 (a b : Int) : Nat → Int := fun i => if i = 0 then a else if i = 1 then b else 0

theorem lt2 {f g : Nat → Int} : lt 2 f g ↔ f 0 < g 0 ∨ (f 0 = g 0 ∧ f 1 < g 1) := by
  constructor
  · rintro ⟨i, hi, h1, h2⟩
    match i, hi with
    | 0, _ => exact .inl h2
    | 1, _ => exact .inr ⟨h1 0 (by omega), h2⟩
  · rintro (h | ⟨h1, h2⟩)
    · exact ⟨0, by omega, fun j hj => by omega, h⟩
    · exact ⟨1, by omega, fun j hj => by obtain rfl : j = 0 := by omega
                                         exact h1, h2⟩

theorem le2 {f g : Nat → Int} : le 2 f g ↔ f 0 < g 0 ∨ (f 0 = g 0 ∧ f 1 ≤ g 1) := by
  unfold le; rw [lt2]
  constructor
  · rintro (h | h)
    · omega
    · have := h 0 (by omega); have := h 1 (by omega); omega
  · intro h
    by_cases h' : f 0 = g 0 ∧ f 1 = g 1
    · right; intro i hi
      match i, hi with
      | 0, _ => exact h'.1
      | 1, _ => exact h'.2
    · left; omega

theorem le1 {f g : Nat → Int} : le 1 f g ↔ f 0 ≤ g 0 := by
  constructor
  · rintro (⟨i, hi, _, h⟩ | h)
    · obtain rfl : i = 0 := by omega
      omega
    · exact Int.le_of_eq (h 0 (by omega))
  · intro h
    by_cases h' : f 0 = g 0
    · right; intro i hi
      obtain rfl : i = 0 := by omega
      exact h'
    · left; exact ⟨0, by omega, fun j hj => by omega, by omega⟩

/-! ## A run that finds the optimum -/

/-- Specification: models with costs (2,5), (1,7) and (1,3). -/
def md (m : Nat → Int) : Prop := m = vec2 2 5 ∨ m = vec2 1 7 ∨ m = vec2 1 3

/-- `Prob` and `Start` hold for three models with two levels, a hierarchical and a linear solver. -/
theorem md_prob : Prob 2 md (fun _ => 0) where
  pos := by omega
  low := by
    rintro m (rfl | rfl | rfl) i hi <;> match i, hi with
      | 0, _ => decide
      | 1, _ => decide
  max := by
    rintro m (rfl | rfl | rfl) i hi <;> match i, hi with
      | 0, _ => decide
      | 1, _ => decide
  bot := by intro i hi; decide

/-- Solver 0 is hierarchical, solver 1 linear.  The linear one finds (2,5), the hierarchical one (1,7), proves 1 to be optimal on level 0,
finds (1,3) and proves it to be optimal. -/
example : ∃ s, Reach 2 md (fun _ => MAXB) (fun _ => 0) (fun t => if t = 0 then .hier else .lin) s ∧ s.done = true ∧
    s.hist = [vec2 1 3, vec2 1 7, vec2 2 5] ∧ s.sh.lower 0 = 1 := by
  have h0 := Reach.init (n := 2) (Md := md) (U0 := fun _ => MAXB) (low0 := fun _ => 0) (st := fun t => if t = 0 then .hier else .lin)
  have h1 := h0.step (.upd _ 1 _ rfl rfl rfl)
  have h2 := h1.step (.ok _ 1 rfl rfl)
  have h3 := h2.step (.model _ 1 (vec2 2 5) rfl rfl rfl (.inl rfl) (le2.2 (by decide)))
  have h4 := h3.step (.upd _ 0 _ rfl rfl rfl)
  have h5 := h4.step (.ok _ 0 rfl rfl)
  have h6 := h5.step (.model _ 0 (vec2 1 7) rfl rfl rfl (.inr (.inl rfl)) (le2.2 (by decide)))
  have h7 := h6.step (.begin _ 0 rfl rfl)
  have h8 := h7.step (.upd _ 0 _ rfl rfl rfl)
  have h9 := h8.step (.ok _ 0 rfl rfl)
  have h10 := h9.step (.unsat _ 0 true rfl rfl (by rintro m ⟨rfl | rfl | rfl, _⟩ <;> rw [le2] <;> decide))
  have h11 := h10.step (.upd _ 0 _ rfl rfl rfl)
  have h12 := h11.step (.ok _ 0 rfl rfl)
  have h13 := h12.step (.model _ 0 (vec2 1 3) rfl rfl rfl (.inr (.inr rfl)) (le2.2 (by decide)))
  have h14 := h13.step (.begin _ 0 rfl rfl)
  have h15 := h14.step (.upd _ 0 _ rfl rfl rfl)
  have h16 := h15.step (.ok _ 0 rfl rfl)
  have h17 := h16.step (.unsat _ 0 true rfl rfl (by rintro m ⟨rfl | rfl | rfl, _⟩ <;> rw [le2] <;> decide))
  exact ⟨_, h17, rfl, rfl, rfl⟩

/-- The linear strategy with an initial bound. -/
example : ∃ s, Reach 2 md (vec2 1 8) (fun _ => 0) (fun _ => .lin) s ∧ s.done = false ∧ s.hist = [vec2 1 7] ∧ Start 2 (fun _ => 0) (vec2 1 8) fun _ => .lin := by
  have h0 := Reach.init (n := 2) (Md := md) (U0 := vec2 1 8) (low0 := fun _ => 0) (st := fun _ => .lin)
  have h1 := h0.step (.upd _ 1 _ rfl rfl rfl)
  have h2 := h1.step (.ok _ 1 rfl rfl)
  have h3 := h2.step (.model _ 1 (vec2 1 7) rfl rfl rfl (.inr (.inl rfl)) (le2.2 (by decide)))
  refine ⟨_, h3, rfl, rfl, .inr ⟨fun _ => rfl, fun i hi => ?_⟩⟩
  match i, hi with
  | 0, _ => decide
  | 1, _ => decide

example : nextSize .inc 8 100 = 8 ∧ nextSize .dec 3 100 = 50 ∧ nextSize .inc 64 100 = 50 := by decide

/-! ## Executions with wrong answers -/

/-- C19: with an initial bound, the hierarchical strategy reports a wrong optimum: the bound (5,3) is given, (0,9) is the first model,
and search ends with (0,9) although there is a model with cost (0,4). -/
theorem C19_bound_witness :
    ∃ (Md : (Nat → Int) → Prop) (U0 m : Nat → Int) (s : Sys), Prob 2 Md (fun _ => 0) ∧ (∀ i < 2, 0 ≤ U0 i) ∧
      Reach 2 Md U0 (fun _ => 0) (fun _ => .hier) s ∧ s.done = true ∧ s.hist = [vec2 0 9] ∧ Md m ∧ lt 2 m (vec2 0 9) := by
  have h0 := Reach.init (n := 2) (Md := fun m => m = vec2 0 9 ∨ m = vec2 0 4) (U0 := vec2 5 3) (low0 := fun _ => 0) (st := fun _ => .hier)
  have h1 := h0.step (.upd _ 0 _ rfl rfl rfl)
  have h2 := h1.step (.ok _ 0 rfl rfl)
  have h3 := h2.step (.model _ 0 (vec2 0 9) rfl rfl rfl (.inl rfl) (le2.2 (by decide)))
  have h4 := h3.step (.begin _ 0 rfl rfl)
  have h5 := h4.step (.upd _ 0 _ rfl rfl rfl)
  have h6 := h5.step (.ok _ 0 rfl rfl)
  have h7 := h6.step (.unsat _ 0 true rfl rfl (by rintro m ⟨rfl | rfl, _⟩ <;> rw [le2] <;> decide))
  refine ⟨_, _, vec2 0 4, _, ⟨by omega, ?_, ?_, by intro i hi; decide⟩, ?_, h7, rfl, rfl, .inr rfl, lt2.2 (by decide)⟩
  · rintro m (rfl | rfl) i hi <;> match i, hi with
      | 0, _ => decide
      | 1, _ => decide
  · rintro m (rfl | rfl) i hi <;> match i, hi with
      | 0, _ => decide
      | 1, _ => decide
  · intro i hi
    match i, hi with
    | 0, _ => decide
    | 1, _ => decide

/-- C19: an initial bound below the lower bound on a less important level: the linear strategy reports that there is no model within the
bound (5,-1) although (4,0) is one. -/
theorem C19_negative_witness :
    ∃ (Md : (Nat → Int) → Prop) (U0 m : Nat → Int) (s : Sys), Prob 2 Md (fun _ => 0) ∧
      Reach 2 Md U0 (fun _ => 0) (fun _ => .lin) s ∧ s.done = true ∧ s.hist = [] ∧ Md m ∧ le 2 m U0 := by
  have h0 := Reach.init (n := 2) (Md := fun m => m = vec2 4 0) (U0 := vec2 5 (-1)) (low0 := fun _ => 0) (st := fun _ => .lin)
  have h1 := h0.step (.updFail _ 0 _ rfl rfl rfl)
  have h2 := h1.step (.stop _ 0 rfl rfl (by decide))
  refine ⟨_, _, vec2 4 0, _, ⟨by omega, ?_, ?_, by intro i hi; decide⟩, h2, rfl, rfl, rfl, le2.2 (by decide)⟩
  · rintro m rfl i hi
    match i, hi with
      | 0, _ => decide
      | 1, _ => decide
  · rintro m rfl i hi
    match i, hi with
      | 0, _ => decide
      | 1, _ => decide

/-- Specification: the state that is repeated: solver 0 searches with the initial bound. -/
def cyc : Sys :=
  ⟨⟨vec2 3 3, fun _ => 0, 0⟩,
   fun t => if t = 0 then ⟨.hier, 0, 1, fun _ => 0, fun i => if i < 2 then 3 else MAXB, 0, .run⟩ else Loc.init 2 .hier, [], false⟩

theorem cyc_eq {sh : Shared} {f : Nat → Loc} {l : Loc} (h1 : sh = cyc.sh) (h2 : ∀ t, t ≠ 0 → f t = Loc.init 2 .hier)
    (h3 : (l.strat, l.lev, l.size, l.gen, l.pc) = (.hier, 0, 1, 0, .run)) (h4 : ∀ i, l.low i = 0) (h5 : ∀ i, l.bound i = if i < 2 then 3 else MAXB) :
    (⟨sh, Function.update f 0 l, [], false⟩ : Sys) = cyc := by
  obtain ⟨a, b, c, low, bound, g, pc⟩ := l
  obtain rfl : low = fun _ => 0 := funext h4
  obtain rfl : bound = fun i => if i < 2 then 3 else MAXB := funext h5
  simp only [Prod.mk.injEq] at h3
  obtain ⟨rfl, rfl, rfl, rfl, rfl⟩ := h3
  subst h1
  unfold cyc
  congr 1
  funext t
  by_cases ht : t = 0
  · subst ht; simp
  · simp [ht, h2 t ht]

/-- C19: an initial bound below the optimum and the hierarchical strategy: the solver proves that there is no model within the bound and
starts again in the state it was in before. -/
theorem C19_cycle_witness :
    ∃ (Md : (Nat → Int) → Prop) (U0 : Nat → Int) (s s1 s2 : Sys), (∀ m, Md m → ¬ le 2 m U0) ∧ Reach 2 Md U0 (fun _ => 0) (fun _ => .hier) s ∧
      (s.loc 0).pc = .run ∧ (Step 2 Md s s1 ∧ s1.done = false) ∧ Step 2 Md s1 s2 ∧ Step 2 Md s2 s := by
  have hno : ∀ m, m = vec2 5 0 → ¬ le 2 m (vec2 3 3) := by rintro m rfl; rw [le2]; decide
  have h0 := Reach.init (n := 2) (Md := fun m => m = vec2 5 0) (U0 := vec2 3 3) (low0 := fun _ => 0) (st := fun _ => .hier)
  have h1 := h0.step (.upd _ 0 _ rfl rfl rfl)
  have h2 := h1.step (.ok _ 0 rfl rfl)
  have hc : Reach 2 (fun m => m = vec2 5 0) (vec2 3 3) (fun _ => 0) (fun _ => .hier) cyc := by
    have e : ∀ (a b : Sys), a = b → Reach 2 (fun m => m = vec2 5 0) (vec2 3 3) (fun _ => 0) (fun _ => .hier) a →
      Reach 2 (fun m => m = vec2 5 0) (vec2 3 3) (fun _ => 0) (fun _ => .hier) b := by rintro a b rfl h; exact h
    refine e _ _ ?_ h2
    apply cyc_eq rfl
    · intro t ht; simp only [Function.update, ht, dite_false, Sys.init]
    · rfl
    · intro i; match i with
      | 0 => rfl
      | 1 => rfl
      | _ + 2 => rfl
    · intro i; match i with
      | 0 => rfl
      | 1 => rfl
      | _ + 2 => rfl
  refine ⟨_, _, cyc, _, _, hno, hc, rfl, ⟨.unsat _ 0 true rfl rfl (by rintro m ⟨rfl, _⟩; rw [le2]; decide), rfl⟩, .upd _ 0 _ rfl rfl rfl, ?_⟩
  have e : ∀ (a b : Sys), a = b → ∀ c, Step 2 (fun m => m = vec2 5 0) c a → Step 2 (fun m => m = vec2 5 0) c b := by rintro a b rfl c h; exact h
  refine e _ _ ?_ _ (.ok _ 0 rfl rfl)
  apply cyc_eq rfl
  · intro t ht; simp only [Function.update, ht, dite_false, cyc, if_false]
  · rfl
  · intro i; match i with
    | 0 => rfl
    | 1 => rfl
    | _ + 2 => rfl
  · intro i; match i with
    | 0 => rfl
    | 1 => rfl
    | _ + 2 => rfl

/-- C19: with costs that differ by 2^33, the increasing strategy computes the step size 0: the assertion fails (and without assertions
the next model need not be better). -/
theorem C19_step_witness :
    ∃ (Md : (Nat → Int) → Prop) (s : Sys), Prob 1 Md (fun _ => 0) ∧ Reach 1 Md (fun _ => MAXB) (fun _ => 0) (fun _ => .inc) s ∧
      updateBounds 1 s.sh (s.loc 0) = .abort := by
  have h0 := Reach.init (n := 1) (Md := fun m => m = fun _ => 2 ^ 33) (U0 := fun _ => MAXB) (low0 := fun _ => 0) (st := fun _ => .inc)
  have h1 := h0.step (.upd _ 0 _ rfl rfl rfl)
  have h2 := h1.step (.ok _ 0 rfl rfl)
  have h3 := h2.step (.model _ 0 (fun _ => 2 ^ 33) rfl rfl rfl rfl (le1.2 (by decide)))
  have h4 := h3.step (.begin _ 0 rfl rfl)
  exact ⟨_, _, ⟨by omega, by rintro m rfl i hi; show (0 : Int) ≤ 2 ^ 33; decide, by rintro m rfl i hi; show (2 ^ 33 : Int) < MAXB; decide, by intro i hi; decide⟩, h4, rfl⟩

end Clasp.BB
