import Verif.Heu.VsidsLem
import Mathlib.Order.Nat
/-!
# Properties of the activity-based heuristic (C43)
-/

namespace Clasp.Heu

variable {ν : Type} [LinearOrder ν]

/-- Specification: `v` is a variable of the solver that has no value and was not eliminated. -/
def FreeVar (s : Vs ν) (v : Nat) : Prop := 1 ≤ v ∧ v ≤ s.n ∧ v ∉ s.tr ∧ s.elim v = false

omit [LinearOrder ν] in
theorem freeVar_iff {s : Vs ν} {v : Nat} : FreeVar s v ↔ s.isFree v = some true := by
  rw [isFree_iff]
  unfold FreeVar
  constructor
  · rintro ⟨h1, h2, h3, h4⟩; exact ⟨h2, by omega, h3, h4⟩
  · rintro ⟨h1, h2, h3, h4⟩; exact ⟨by omega, h1, h3, h4⟩

/-- **C43** No call of the heuristic, in any order the solver may choose, accesses the queue or the assignment outside of its bounds or violates a precondition of
the queue. -/
theorem C43_defined {d : ν} {s : Vs ν} (h : VsReach d s) {e : VsEv ν} (hc : e.can s) : ∃ s', e.exec s = some s' :=
  let ⟨s', h1, _⟩ := exec_inv h.inv hc
  ⟨s', h1⟩

/-- **C43** If a variable is free when a decision is needed, the heuristic returns a free variable, and no free variable has a higher level, or the same level
and a higher activity. -/
theorem C43_select {d : ν} {s : Vs ν} (h : VsReach d s) (hr : s.ready = true) (hf : ∃ v, FreeVar s v) :
    ∃ t s', s.select = some (t, s') ∧ FreeVar s t ∧ ∀ v, FreeVar s v → ¬ (s.lev t < s.lev v ∨ (s.lev t = s.lev v ∧ s.val t < s.val v)) := by
  obtain ⟨v, hv⟩ := hf
  obtain ⟨t, s', h1, h2, h3, _⟩ := select_ok h.inv hr ⟨v, freeVar_iff.1 hv⟩
  refine ⟨t, s', h1, freeVar_iff.2 h2, fun w hw hc => ?_⟩
  have h4 := key_lt.1 (h3 w (freeVar_iff.1 hw))
  rcases hc with hc | ⟨hc1, hc2⟩
  · rcases h4 with h5 | ⟨h5, _⟩
    · omega
    · omega
  · rcases h4 with h5 | ⟨_, h5⟩
    · omega
    · exact absurd hc2 (not_lt.2 h5)

/-! ## Random decisions -/

/-- src/solver.cpp:1632-1638 `decideNextBranch`: from a random start the next free variable is searched; `value(0)` is never free. The loop in the code has no
bound; `f` bounds the number of steps. -/
def Vs.random (s : Vs ν) : Nat → Nat → Option Nat
  | 0, _ => none
  | f + 1, v =>
    match s.isFree v with
    | none => none
    | some true => some v
    | some false => s.random f (if v + 1 = s.n + 1 then 1 else v + 1)

omit [LinearOrder ν] in
theorem random_up (s : Vs ν) {x : Nat} (hx : FreeVar s x) : ∀ (f v : Nat), v ≤ x → x < f + v → ∃ t, s.random f v = some t ∧ FreeVar s t
  | 0, v, h1, h2 => by omega
  | f + 1, v, h1, h2 => by
    unfold Vs.random
    cases hfr : s.isFree v with
    | none => unfold Vs.isFree at hfr; have := hx.2.1; rw [if_neg (by omega)] at hfr; exact nomatch hfr
    | some b =>
      cases b with
      | true => exact ⟨v, rfl, freeVar_iff.2 hfr⟩
      | false =>
        have hne : v ≠ x := by intro e; rw [e, freeVar_iff.1 hx] at hfr; exact nomatch hfr
        have := hx.2.1
        simp only
        rw [if_neg (by omega)]
        exact random_up s hx f (v + 1) (by omega) (by omega)

omit [LinearOrder ν] in
theorem random_wrap (s : Vs ν) {x : Nat} (hx : FreeVar s x) (f0 : Nat) (hf0 : x < f0 + 1) : ∀ (k v : Nat), v ≤ s.n → s.n < k + v → ∃ t, s.random (k + f0) v = some t ∧ FreeVar s t
  | 0, v, h1, h2 => by omega
  | k + 1, v, h1, h2 => by
    rw [show k + 1 + f0 = (k + f0) + 1 by omega]
    unfold Vs.random
    cases hfr : s.isFree v with
    | none => unfold Vs.isFree at hfr; rw [if_neg (by omega)] at hfr; exact nomatch hfr
    | some b =>
      cases b with
      | true => exact ⟨v, rfl, freeVar_iff.2 hfr⟩
      | false =>
        simp only
        split_ifs with hc
        · exact random_up s hx (k + f0) 1 hx.1 (by omega)
        · exact random_wrap s hx f0 hf0 k (v + 1) (by omega) (by omega)

omit [LinearOrder ν] in
/-- **C43** Also a random decision finds a free variable if there is one, whatever variable the search starts with. -/
theorem C43_random (s : Vs ν) (hf : ∃ v, FreeVar s v) {start : Nat} (hs : start < s.n + 1) : ∃ f t, s.random f start = some t ∧ FreeVar s t := by
  obtain ⟨x, hx⟩ := hf
  obtain ⟨t, h1, h2⟩ := random_wrap s hx (x + 1) (by omega) (s.n + 1) start (by omega) (by omega)
  exact ⟨_, t, h1, h2⟩

/-! ## Examples -/

namespace VsEx

/-- Example: what the solver guarantees, checked by evaluation (without the order kept by `normalize`). -/
def chk (s : Vs Nat) : VsEv Nat → Bool
  | .setup n tr _ _ _ => tr.all (· ≤ n)
  | .assign v => s.isFree v == some true
  | .pop => match s.told with
    | some st => st < s.tr.length
    | none => false
  | .popAux k => k ≤ s.n
  | .select => s.ready && (List.range (s.n + 1)).any fun v => s.isFree v == some true
  | _ => true

/-- Example: a sequence of calls. -/
def run : Vs Nat → List (VsEv Nat) → Option (Vs Nat)
  | s, [] => some s
  | s, e :: es => if chk s e then
      match e.exec s with
      | none => none
      | some s' => run s' es
    else none

theorem chk_can {s : Vs Nat} {e : VsEv Nat} (h : chk s e = true) (hm : ∀ v x g, e = .bump v x g → ∀ a b, a ≤ b → g a ≤ g b) : e.can s := by
  cases e with
  | setup n tr elim lev val => intro v hv; simpa using List.all_eq_true.1 h v hv
  | assign v => show _ = _; simpa [chk] using h
  | bump v x g => exact hm v x g rfl
  | pop =>
    unfold chk at h
    simp only at h
    split at h
    · rename_i st hst; exact ⟨st, hst, by simpa using h⟩
    · exact nomatch h
  | popAux k => show _ ≤ _; simpa [chk] using h
  | select =>
    simp only [chk, Bool.and_eq_true, List.any_eq_true, beq_iff_eq] at h
    obtain ⟨h1, v, _, h2⟩ := h
    exact ⟨h1, v, h2⟩
  | endInit | level | tell | simplify | pushAux => trivial

theorem run_reach : ∀ (es : List (VsEv Nat)) (s t : Vs Nat), VsReach 0 s → run s es = some t → (∀ v x g, VsEv.bump v x g ∈ es → ∀ a b, a ≤ b → g a ≤ g b) → VsReach 0 t
  | [], s, t, h, hr, _ => by cases hr; exact h
  | e :: es, s, t, h, hr, hm => by
    unfold run at hr
    split_ifs at hr with hc
    split at hr
    · exact nomatch hr
    · rename_i s' hs'
      exact run_reach es s' t (h.step (chk_can hc (fun v x g he => hm v x g (he ▸ List.mem_cons_self))) hs') hr (fun v x g hm' => hm v x g (List.mem_cons_of_mem _ hm'))

/-- Example: a decision with three free variables after activities changed, variable 2 was assigned and unassigned, and variable 4 was fixed. -/
def evs : List (VsEv Nat) :=
  [.setup 4 [] (fun _ => false) (fun _ => 0) (fun _ => 0), .endInit, .assign 4, .simplify 0, .bump 2 5 id, .select, .assign 2, .select, .assign 1, .bump 3 7 id, .bump 2 9 (· / 2),
    .tell 1, .pop, .pop, .level 1 0]

theorem mono : ∀ v x g, VsEv.bump v x g ∈ evs → ∀ a b : Nat, a ≤ b → g a ≤ g b := by
  intro v x g h a b hab
  simp only [evs, List.mem_cons, VsEv.bump.injEq, reduceCtorEq, false_or, List.not_mem_nil, or_false] at h
  rcases h with ⟨_, _, rfl⟩ | ⟨_, _, rfl⟩ | ⟨_, _, rfl⟩
  · exact hab
  · exact hab
  · exact Nat.div_le_div_right hab

/-- Example: variable 2 has the highest activity in the end and is chosen; variables 1 and 3 are free, too. -/
example : ∃ s, VsReach 0 s ∧ s.ready = true ∧ FreeVar s 1 ∧ FreeVar s 2 ∧ FreeVar s 3 ∧ ¬ FreeVar s 4 ∧ s.select.map (·.1) = some 2 := by
  have h3 : (run (Vs.init 0) evs).map (fun s => s.ready && s.isFree 1 == some true && s.isFree 2 == some true && s.isFree 3 == some true && s.isFree 4 == some false && s.select.map (·.1) == some 2) =
      some true := by decide +kernel
  cases h1 : run (Vs.init 0) evs with
  | none => rw [h1] at h3; exact nomatch h3
  | some s =>
  have h2 := run_reach evs _ s .init h1 mono
  rw [h1] at h3
  simp only [Option.map_some, Option.some.injEq, Bool.and_eq_true, beq_iff_eq] at h3
  obtain ⟨⟨⟨⟨⟨h4, h5⟩, h6⟩, h7⟩, h8⟩, h9⟩ := h3
  refine ⟨s, h2, h4, freeVar_iff.2 h5, freeVar_iff.2 h6, freeVar_iff.2 h7, fun hc => ?_, h9⟩
  rw [freeVar_iff.1 hc] at h8
  exact nomatch h8

/-- Example: with level 1 variable 1 comes before variables with a higher activity. -/
example : (run (Vs.init 0) (evs ++ [.level 1 1])).map (fun s => s.select.map (·.1)) = some (some 1) := by decide +kernel

/-- Example: a search from 3 ends with variable 1 if 3 and 4 are assigned. -/
example : ({ Vs.init (0 : Nat) with n := 4, tr := [4, 3] } : Vs Nat).random 5 3 = some 1 := by decide +kernel

end VsEx

end Clasp.Heu
