import Verif.Facade.ResultLem

/-!
# C32: results and exit codes agree with what happened

* `C32_flags`, `C32_finish`: how the outcome of a step determines the flags of its result;
* `C32_exit`: how the process exit code encodes them;
* `C32_exhausted_partial`, `C32_iterate_partial`: a result that claims exhaustion is right - unless
  an interrupt arrived in one of two windows (`Race`);
* `C32_unsat`, `C32_sat`: the unsatisfiable and satisfiable answers of a run that was not
  interrupted are right;
* `C32_attach_race`, `C32_restart_race`: in the two windows the claim of the property ("interruption
  never yields a claim of exhaustion") fails.
-/

namespace Clasp.Facade

/-- The flags of the result say exactly: models were found; the search is complete; the run was
signalled. -/
theorem C32_flags (signal : Nat) (complete : Bool) (n : Nat) :
    ((stopStep signal complete n).sat = true ↔ n ≠ 0) ∧
    ((stopStep signal complete n).unsat = true ↔ complete = true ∧ n = 0) ∧
    ((stopStep signal complete n).unknown = true ↔ complete = false ∧ n = 0) ∧
    ((stopStep signal complete n).exhausted = true ↔ complete = true) ∧
    ((stopStep signal complete n).interrupted = true ↔ signal ≠ 0) := by
  unfold stopStep Result.sat Result.unsat Result.unknown Result.exhausted Result.interrupted
  by_cases h1 : signal = 0 <;> by_cases h2 : n = 0 <;> cases complete <;> simp [h1, h2]

/-- A step claims exhaustion only if the search returned "no more models" or was skipped because
of a top-level conflict; a failed step is reported as interrupted and never as exhausted. -/
theorem C32_finish (signal : Nat) (o : Outcome) (n : Nat) :
    ((finish signal o n).1.exhausted = true ↔ o = .returned false ∨ o = .skipped false) ∧
    ((finish signal o n).1.interrupted = true ↔ signal ≠ 0 ∨ o = .thrown) ∧
    ((finish signal o n).1.sat = true ↔ n ≠ 0) ∧
    ((finish signal o n).1.unsat = true ↔ (o = .returned false ∨ o = .skipped false) ∧ n = 0) := by
  cases o with
  | skipped b =>
    have := C32_flags signal (!b) n
    simp only [finish, detachAlgo, Bool.false_and, Bool.false_eq_true, if_false]
    refine ⟨this.2.2.2.1.trans ?_, this.2.2.2.2.trans ?_, this.1, this.2.1.trans ?_⟩ <;>
      cases b <;> simp
  | returned b =>
    have := C32_flags signal (!b) n
    simp only [finish, detachAlgo, Bool.false_and, Bool.false_eq_true, if_false]
    refine ⟨this.2.2.2.1.trans ?_, this.2.2.2.2.trans ?_, this.1, this.2.1.trans ?_⟩ <;>
      cases b <;> simp
  | thrown =>
    have := C32_flags (if signal = 0 then sigError else signal) false n
    simp only [finish, detachAlgo, Bool.true_and, Bool.not_true, decide_eq_true_eq]
    refine ⟨this.2.2.2.1.trans ?_, this.2.2.2.2.trans ?_, this.1, this.2.1.trans ?_⟩
    · simp
    · by_cases h : signal = 0 <;> simp [h, sigError]
    · simp

/-- The exit code of the process encodes the result: bit 1 a model was found, bit 2 the search
space was exhausted, bit 0 the run was interrupted (by a signal or an exception), bits 5 and 6
out of memory and error; so different situations have different codes. -/
theorem C32_exit (a : AppEnd) (r : Result) :
    ((appCode a r).testBit 1 = r.sat) ∧
    ((appCode a r).testBit 2 = r.exhausted) ∧
    ((appCode a r).testBit 0 = (r.interrupted || decide (a ≠ .ok))) ∧
    ((appCode a r).testBit 5 = decide (a = .memory)) ∧
    ((appCode a r).testBit 6 = decide (a = .error)) := by
  unfold appCode exitCode
  cases a <;> cases r.sat <;> cases r.exhausted <;> cases r.interrupted <;> decide

/-- The documented codes of the runs that end normally. -/
theorem C32_codes (r : Result) (hi : r.interrupted = false) :
    appCode .ok r =
      match r.sat, r.exhausted with
      | true, false => 10
      | true, true => 30
      | false, true => 20
      | false, false => 0 := by
  unfold appCode exitCode
  rw [hi]
  cases r.sat <;> cases r.exhausted <;> decide

/-- **C32** (search): if the step claims exhaustion then every solution is settled by the models
found - or the problem has a top-level conflict, or an interrupt arrived in one of the two windows
of `Race`. Missing for the full property: the windows, see `C32_attach_race`. -/
theorem C32_exhausted_partial {M : Type} {P : Problem M} {ok more : Bool} {es : List (Ev M)}
    {w₀ w : World M} (h0 : w₀.Init P) (hs : World.Steps P w₀ es w)
    (hr : (Pc.attach0 ok).run es = some (.ret more)) (signal : Nat)
    (hex : (finish signal (.returned more) (numEnum es)).1.exhausted = true) :
    w.Settled P ∨ ok = false ∨ (Race es ∧ w.term = true) := by
  have hm := (C32_finish _ _ _).1.1 hex
  simp only [Outcome.returned.injEq, reduceCtorEq, or_false] at hm
  subst hm
  rcases (Pc.inv_run h0 hs _ hr).2 with a | a | a
  · exact .inr (.inl a.1)
  · exact .inr (.inr a)
  · exact .inl a.1

/-- **C32** (iterative search): the same for models generated one by one and a search that may be
left at any time; only the restart after the tentative phase is a window. -/
theorem C32_iterate_partial {M : Type} {P : Problem M} {ok : Bool} {p : Nc} {es : List (Ev M)}
    {w₀ w : World M} (h0 : w₀.Init P) (hs : World.Steps P w₀ es w)
    (hr : (Nc.attach0 ok).run es = some p) (signal : Nat)
    (hex : (finish signal (.returned p.more) (numEnum es)).1.exhausted = true) :
    w.Settled P ∨ ok = false ∨
      ((∃ pre, es = pre ++ [.commitComplete false, .start false]) ∧ w.term = true) := by
  have hm := (C32_finish _ _ _).1.1 hex
  simp only [Outcome.returned.injEq, reduceCtorEq, or_false] at hm
  have hp : p = .closed .ff := by
    cases p with
    | closed l => cases l <;> simp_all [Nc.more]
    | _ => simp [Nc.more] at hm
  subst hp
  rcases (Nc.inv_run h0 hs _ hr).2 with a | a | a
  · exact .inr (.inl a.1)
  · exact .inr (.inr a)
  · exact .inl a.1

/-- **C32** (unsatisfiable): if a run that is not reported as interrupted answers "unsatisfiable",
the problem has no solution. `signal` is the signal recorded by the step; it is set before the
interrupt counter is incremented (clasp_facade.cpp 217), which is `hsig`; `hok` says that the
context is only broken if there is no solution. -/
theorem C32_unsat {M : Type} {P : Problem M} {ok more : Bool} {es : List (Ev M)}
    {w₀ w : World M} (h0 : w₀.Init P) (hs : World.Steps P w₀ es w)
    (hr : (Pc.attach0 ok).run es = some (.ret more)) (signal : Nat)
    (hsig : w.term = true → signal ≠ 0) (hok : ok = false → ∀ x, ¬ P.sol x)
    (hu : (finish signal (.returned more) (numEnum es)).1.unsat = true)
    (hi : (finish signal (.returned more) (numEnum es)).1.interrupted = false) :
    ∀ x, ¬ P.sol x := by
  have hf := C32_finish signal (.returned more) (numEnum es)
  have hm := hf.2.2.2.1 hu
  simp only [Outcome.returned.injEq, reduceCtorEq, or_false] at hm
  obtain ⟨rfl, hn⟩ := hm
  have hs0 : signal = 0 := by
    cases h : decide (signal = 0) with
    | true => exact of_decide_eq_true h
    | false =>
      have := hf.2.1.2 (.inl (of_decide_eq_false h))
      rw [hi] at this; cases this
  have hrep : w.rep = [] := by
    have := rep_length hs
    rw [h0.rep, hn] at this
    exact List.eq_nil_of_length_eq_zero (by simpa using this)
  obtain ⟨hc, hinv⟩ := Pc.inv_run h0 hs _ hr
  rcases hinv with a | a | a
  · exact hok a.1
  · exact absurd hs0 (hsig a.2)
  · intro x hx
    have hcoms : w.coms = [] := by
      cases hcm : w.coms with
      | nil => rfl
      | cons y t => exact absurd hrep (a.2 (by simp [hcm]))
    have hprev : w.prev = [] := by
      cases hcm : w.prev with
      | nil => rfl
      | cons y t => exact absurd hrep (hc.prev (by simp [hcm]))
    rcases a.1 x hx with b | b
    · rw [hcoms] at b; exact (P.g w).nil x b
    · rw [hprev] at b; exact P.worse_nil x b

/-- **C32** (exhausted, not interrupted): if a run that is not reported as interrupted claims
exhaustion, every solution is settled: in a plain enumeration all models (up to projection) have
been found, in an optimisation a model at least as good as any solution. -/
theorem C32_complete {M : Type} {P : Problem M} {ok more : Bool} {es : List (Ev M)}
    {w₀ w : World M} (h0 : w₀.Init P) (hs : World.Steps P w₀ es w)
    (hr : (Pc.attach0 ok).run es = some (.ret more)) (signal : Nat)
    (hsig : w.term = true → signal ≠ 0) (hok : ok = false → ∀ x, ¬ P.sol x)
    (hu : (finish signal (.returned more) (numEnum es)).1.exhausted = true)
    (hi : (finish signal (.returned more) (numEnum es)).1.interrupted = false) :
    w.Settled P := by
  rcases C32_exhausted_partial h0 hs hr signal hu with a | a | a
  · exact a
  · exact fun x hx => absurd hx (hok a x)
  · have := (C32_finish signal (.returned more) (numEnum es)).2.1.2 (.inl (hsig a.2))
    rw [hi] at this; cases this

/-- **C32** (satisfiable): "satisfiable" is answered - interrupted or not - only if a solution was
handed to the model handler, for both interfaces. -/
theorem C32_sat {M : Type} {P : Problem M} {ok : Bool} {p : Pc} {es : List (Ev M)}
    {w₀ w : World M} (h0 : w₀.Init P) (hs : World.Steps P w₀ es w)
    (hr : (Pc.attach0 ok).run es = some p) (signal : Nat) (o : Outcome)
    (hsat : (finish signal o (numEnum es)).1.sat = true) :
    ∃ m ∈ w.rep, P.sol m := by
  have hn := (C32_finish signal o (numEnum es)).2.2.1.1 hsat
  have := rep_length hs
  rw [h0.rep] at this
  cases hw : w.rep with
  | nil => rw [hw] at this; simp at this; omega
  | cons m l =>
    exact ⟨m, by simp, (Pc.inv_run h0 hs _ hr).1.rep m (by simp [hw])⟩

/-- See `C32_sat`, for the iterative interface. -/
theorem C32_sat_iterate {M : Type} {P : Problem M} {ok : Bool} {p : Nc} {es : List (Ev M)}
    {w₀ w : World M} (h0 : w₀.Init P) (hs : World.Steps P w₀ es w)
    (hr : (Nc.attach0 ok).run es = some p) (signal : Nat) (o : Outcome)
    (hsat : (finish signal o (numEnum es)).1.sat = true) :
    ∃ m ∈ w.rep, P.sol m := by
  have hn := (C32_finish signal o (numEnum es)).2.2.1.1 hsat
  have := rep_length hs
  rw [h0.rep] at this
  cases hw : w.rep with
  | nil => rw [hw] at this; simp at this; omega
  | cons m l =>
    exact ⟨m, by simp, (Nc.inv_run h0 hs _ hr).1.rep m (by simp [hw])⟩

namespace Ex

/-- Example: a problem with the solutions 3 and 5, optimum 3; first phase optimisation, second
enumeration of all optimal solutions. -/
def prob : Problem Nat where
  sol x := x = 3 ∨ x = 5 ∨ x = 103
  goal := Goal.enum id
  tgoal := Goal.opt (fun n => n % 100) Nat.le_refl
  worse l x := ∃ m ∈ l, m % 100 < x % 100
  worse_nil := by simp

/-- Example: the start of the search. -/
def w0 (t : Bool) : World Nat :=
  { rem := prob.sol, coms := [], prev := [], tentative := t, cur := none, rep := [], term := false,
    post := false, stop := false }

theorem w0_init (t : Bool) : (w0 t).Init prob := ⟨fun _ => Iff.rfl, rfl, rfl, rfl, rfl, rfl, rfl⟩

/-- Example: calls of a complete run: 5, then 3 is found, optimality is proved, the final phase
finds 3 and 103. -/
def full : List (Ev Nat) :=
  [.intr false, .intr false, .attach true, .start true, .install,
   .solve .tt (some 5), .commitModel true, .onModel true, .limit false, .intr false, .sym none, .update,
   .solve .tt (some 3), .commitModel true, .onModel true, .limit false, .intr false, .sym none, .update,
   .solve .ff none, .intr false, .commitUnsat false, .commitComplete false, .start true,
   .solve .tt (some 3), .commitModel true, .onModel true, .limit false, .intr false, .sym none, .update,
   .solve .tt (some 103), .commitModel true, .onModel true, .limit false, .intr false, .sym none, .update,
   .solve .ff none, .intr false, .commitUnsat false, .commitComplete true]

example : (Pc.attach0 true).run full = some (.ret false) := by decide
example : numEnum full = 4 := by decide
example : appCode .ok (finish 0 (.returned false) (numEnum full)).1 = 30 := by decide

theorem full_ok : ∃ w, World.Steps prob (w0 true) full w ∧ w.term = false := by
  have h := World.Steps.nil (P := prob) (w₀ := w0 true)
  have h := h.snoc (.intr _ false)
  have h := h.snoc (.intr _ false)
  have h := h.snoc (.attach _ false true (by simp))
  have h := h.snoc (.start _ false true false prob.sol (by simp) (by simp) (fun _ => Iff.rfl))
  have h := h.snoc (.install _ false)
  have h := h.snoc (.model _ false 5 (.inr (.inl rfl)))
  have h := h.snoc (.commit _ false 5 rfl)
  have h := h.snoc (.onModel _ false true 5 rfl)
  have h := h.snoc (.limit _ false false)
  have h := h.snoc (.intr _ false)
  have h := h.snoc (.symNone _ false)
  have h := h.snoc (.update _ false (fun x => x = 3 ∨ x = 103)
    (by
      rintro x (rfl | rfl | rfl)
      · exact .inr (.inl rfl)
      · exact .inl ⟨5, .head _, Nat.le_refl _⟩
      · exact .inr (.inr rfl))
    (fun x hx => hx.elim .inl (fun h => .inr (.inr h))))
  have h := h.snoc (.model _ false 3 (.inl rfl))
  have h := h.snoc (.commit _ false 3 rfl)
  have h := h.snoc (.onModel _ false true 3 rfl)
  have h := h.snoc (.limit _ false false)
  have h := h.snoc (.intr _ false)
  have h := h.snoc (.symNone _ false)
  have h := h.snoc (.update _ false (fun _ => False)
    (by
      rintro x (rfl | rfl)
      · exact .inl ⟨3, .head _, Nat.le_refl _⟩
      · exact .inl ⟨3, .head _, by decide⟩)
    (by simp))
  have h := h.snoc (.conflict _ false false (by simp))
  have h := h.snoc (.intr _ false)
  have h := h.snoc (.unsatEnd _ false (fun _ _ a => a))
  have h := h.snoc (.optimal _ false (fun x => x = 3 ∨ x = 103) rfl (by simp [World.intr])
    (by
      intro x
      constructor
      · rintro (rfl | rfl)
        · exact ⟨.inl rfl, by rintro ⟨m, hm, hlt⟩; simp [World.intr, w0] at hm; omega⟩
        · exact ⟨.inr (.inr rfl), by rintro ⟨m, hm, hlt⟩; simp [World.intr, w0] at hm; omega⟩
      · rintro ⟨rfl | rfl | rfl, hw⟩
        · exact .inl rfl
        · exact absurd ⟨3, .head _, by decide⟩ hw
        · exact .inr rfl))
  have h := h.snoc (.start _ false true false _ (by simp) (by simp) (fun _ => Iff.rfl))
  have h := h.snoc (.model _ false 3 (.inl rfl))
  have h := h.snoc (.commit _ false 3 rfl)
  have h := h.snoc (.onModel _ false true 3 rfl)
  have h := h.snoc (.limit _ false false)
  have h := h.snoc (.intr _ false)
  have h := h.snoc (.symNone _ false)
  have h := h.snoc (.update _ false (fun x => x = 103)
    (by
      rintro x (rfl | rfl)
      · exact .inl ⟨3, .head _, rfl⟩
      · exact .inr rfl)
    (by rintro x rfl; exact .inr rfl))
  have h := h.snoc (.model _ false 103 rfl)
  have h := h.snoc (.commit _ false 103 rfl)
  have h := h.snoc (.onModel _ false true 103 rfl)
  have h := h.snoc (.limit _ false false)
  have h := h.snoc (.intr _ false)
  have h := h.snoc (.symNone _ false)
  have h := h.snoc (.update _ false (fun _ => False)
    (by rintro x rfl; exact .inl ⟨103, .head _, rfl⟩) (by simp))
  have h := h.snoc (.conflict _ false false (by simp))
  have h := h.snoc (.intr _ false)
  have h := h.snoc (.unsatEnd _ false (fun _ _ a => a))
  have h := h.snoc (.complete _ false (.inl rfl))
  exact ⟨_, h, rfl⟩

/-- The hypotheses of `C32_exhausted_partial`, `C32_complete` and `C32_sat` are met by this run. -/
example : ∃ w, World.Steps prob (w0 true) full w ∧ w.Settled prob ∧ ∃ m ∈ w.rep, prob.sol m := by
  obtain ⟨w, h, ht⟩ := full_ok
  refine ⟨w, h, ?_, ?_⟩
  · exact C32_complete (ok := true) (more := false) (w0_init true) h (by decide) 0 (by simp [ht])
      (by simp) (by decide) (by decide)
  · exact C32_sat (ok := true) (w0_init true) h (p := .ret false) (by decide) 0 (.returned false)
      (by decide)

/-- Example: the same calls made by the iterative interface. -/
def iter : List (Ev Nat) :=
  [.intr false, .start true, .intr false, .install,
   .solve .tt (some 5), .commitModel true, .onModel true, .limit false, .intr false,
   .sym none, .intr false, .install, .update,
   .solve .tt (some 3), .commitModel true, .onModel true, .limit false, .intr false,
   .sym none, .intr false, .install, .update,
   .solve .ff none, .intr false, .commitUnsat false, .commitComplete true]

/-- Example: a problem with the same solutions where only an optimal one is wanted. -/
def probO : Problem Nat := { prob with goal := prob.tgoal }

example : (Nc.attach0 true).run iter = some (.closed .ff) := by decide

/-- The hypotheses of `C32_iterate_partial` are met by a run. -/
example : ∃ w, World.Steps probO (w0 false) iter w ∧ w.Settled probO := by
  have h := World.Steps.nil (P := probO) (w₀ := w0 false)
  have h := h.snoc (.intr _ false)
  have h := h.snoc (.start _ false true false prob.sol (by simp) (by simp) (fun _ => Iff.rfl))
  have h := h.snoc (.intr _ false)
  have h := h.snoc (.install _ false)
  have h := h.snoc (.model _ false 5 (.inr (.inl rfl)))
  have h := h.snoc (.commit _ false 5 rfl)
  have h := h.snoc (.onModel _ false true 5 rfl)
  have h := h.snoc (.limit _ false false)
  have h := h.snoc (.intr _ false)
  have h := h.snoc (.symNone _ false)
  have h := h.snoc (.intr _ false)
  have h := h.snoc (.install _ false)
  have h := h.snoc (.update _ false (fun x => x = 3 ∨ x = 103)
    (by
      rintro x (rfl | rfl | rfl)
      · exact .inr (.inl rfl)
      · exact .inl ⟨5, .head _, Nat.le_refl _⟩
      · exact .inr (.inr rfl))
    (fun x hx => hx.elim .inl (fun h => .inr (.inr h))))
  have h := h.snoc (.model _ false 3 (.inl rfl))
  have h := h.snoc (.commit _ false 3 rfl)
  have h := h.snoc (.onModel _ false true 3 rfl)
  have h := h.snoc (.limit _ false false)
  have h := h.snoc (.intr _ false)
  have h := h.snoc (.symNone _ false)
  have h := h.snoc (.intr _ false)
  have h := h.snoc (.install _ false)
  have h := h.snoc (.update _ false (fun _ => False)
    (by
      rintro x (rfl | rfl)
      · exact .inl ⟨3, .head _, Nat.le_refl _⟩
      · exact .inl ⟨3, .head _, by decide⟩)
    (by simp))
  have h := h.snoc (.conflict _ false false (by simp))
  have h := h.snoc (.intr _ false)
  have h := h.snoc (.unsatEnd _ false (fun _ _ a => a))
  have h := h.snoc (.complete _ false (.inl rfl))
  have h0 : (w0 false).Init probO := ⟨fun _ => Iff.rfl, rfl, rfl, rfl, rfl, rfl, rfl⟩
  refine ⟨_, h, ?_⟩
  rcases C32_iterate_partial (ok := true) (p := .closed .ff) h0 h (by decide) 0 (by decide)
    with a | a | a
  · exact a
  · cases a
  · exact absurd a.2 (by decide)

/-- Example: a problem without solutions; the run ends with "unsatisfiable". -/
def probU : Problem Nat :=
  { sol := fun _ => False, goal := Goal.enum id, tgoal := Goal.enum id, worse := fun _ _ => False,
    worse_nil := by simp }

/-- The hypotheses of `C32_unsat` are met by a run that fails in the search. -/
example : ∀ x, ¬ probU.sol x := by
  have h := World.Steps.nil (P := probU)
    (w₀ := { w0 false with rem := probU.sol })
  have h := h.snoc (.intr _ false)
  have h := h.snoc (.intr _ false)
  have h := h.snoc (.attach _ false true (by simp))
  have h := h.snoc (.start _ false true false probU.sol (by simp) (by simp) (fun _ => Iff.rfl))
  have h := h.snoc (.install _ false)
  have h := h.snoc (.conflict _ false false (by simp))
  have h := h.snoc (.intr _ false)
  have h := h.snoc (.unsatEnd _ false (fun _ _ a => a))
  have h := h.snoc (.complete _ false (.inl rfl))
  have h0 : ({ w0 false with rem := probU.sol } : World Nat).Init probU :=
    ⟨fun _ => Iff.rfl, rfl, rfl, rfl, rfl, rfl, rfl⟩
  exact C32_unsat (ok := true) (more := false) h0 h (by decide) 0 (by decide) (by simp)
    (by decide) (by decide)

end Ex

/-- **Defect**: an interrupt that arrives between the test in `attach` and the one in `doSolve`
(for instance sent by an event handler while the warnings of `Scoped::solve` are reported) makes
a run on a satisfiable problem end with the result "unsatisfiable, exhausted, interrupted" and
exit code 21. -/
theorem C32_attach_race : ∃ (w : World Nat) (es : List (Ev Nat)),
    World.Steps Ex.prob (Ex.w0 false) es w ∧
    (Pc.attach0 true).run es = some (.ret false) ∧ Ex.prob.sol 3 ∧
    (finish 2 (.returned false) (numEnum es)).1.unsat = true ∧
    (finish 2 (.returned false) (numEnum es)).1.exhausted = true ∧
    appCode .ok (finish 2 (.returned false) (numEnum es)).1 = 21 := by
  have h := World.Steps.nil (P := Ex.prob) (w₀ := Ex.w0 false)
  have h := h.snoc (.intr _ false)
  have h := h.snoc (.intr _ true)
  have h := h.snoc (.install _ false)
  exact ⟨_, _, h, by decide, .inl rfl, by decide, by decide, by decide⟩

/-- **Defect**: an interrupt that arrives after optimality was proved but before the final phase
was started makes the run claim exhaustion although the optimal model 103 was never found. -/
theorem C32_restart_race : ∃ (w : World Nat) (es : List (Ev Nat)),
    World.Steps Ex.prob (Ex.w0 true) es w ∧
    (Pc.attach0 true).run es = some (.ret false) ∧ ¬ w.Settled Ex.prob ∧ 103 ∉ w.rep ∧
    appCode .ok (finish 2 (.returned false) (numEnum es)).1 = 31 := by
  have h := World.Steps.nil (P := Ex.prob) (w₀ := Ex.w0 true)
  have h := h.snoc (.intr _ false)
  have h := h.snoc (.intr _ false)
  have h := h.snoc (.attach _ false true (by simp))
  have h := h.snoc (.start _ false true false Ex.prob.sol (by simp) (by simp) (fun _ => Iff.rfl))
  have h := h.snoc (.install _ false)
  have h := h.snoc (.model _ false 3 (.inl rfl))
  have h := h.snoc (.commit _ false 3 rfl)
  have h := h.snoc (.onModel _ false true 3 rfl)
  have h := h.snoc (.limit _ false false)
  have h := h.snoc (.intr _ false)
  have h := h.snoc (.symNone _ false)
  have h := h.snoc (.update _ false (fun _ => False)
    (by
      rintro x (rfl | rfl | rfl)
      · exact .inl ⟨3, .head _, Nat.le_refl _⟩
      · exact .inl ⟨3, .head _, by decide⟩
      · exact .inl ⟨3, .head _, by decide⟩)
    (by simp))
  have h := h.snoc (.conflict _ false false (by simp))
  have h := h.snoc (.intr _ false)
  have h := h.snoc (.unsatEnd _ false (fun _ _ a => a))
  have h := h.snoc (.optimal _ false (fun x => x = 3 ∨ x = 103) rfl (by simp [World.intr])
    (by
      intro x
      constructor
      · rintro (rfl | rfl)
        · exact ⟨.inl rfl, by rintro ⟨m, hm, hlt⟩; simp [World.intr, Ex.w0] at hm; omega⟩
        · exact ⟨.inr (.inr rfl), by rintro ⟨m, hm, hlt⟩; simp [World.intr, Ex.w0] at hm; omega⟩
      · rintro ⟨rfl | rfl | rfl, hw⟩
        · exact .inl rfl
        · exact absurd ⟨3, .head _, by decide⟩ hw
        · exact .inr rfl))
  have h := h.snoc (.start _ true false true _ (fun _ => ⟨by simp [World.intr], rfl⟩)
    (fun _ => .inl rfl) (fun _ => Iff.rfl))
  refine ⟨_, _, h, by decide, ?_, by decide, by decide⟩
  intro hset
  rcases hset 103 (.inr (.inr rfl)) with a | a
  · exact (Ex.prob.g _).nil _ a
  · obtain ⟨m, hm, hlt⟩ := a
    simp [World.intr, Ex.w0] at hm
    omega

end Clasp.Facade
