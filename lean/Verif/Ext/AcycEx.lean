import Verif.Ext.AcycProps
/-!
# C42: examples, and runs in which the checker misses a cycle or adds a wrong clause

`exec` executes events; the runs below are sequences of events.
-/

namespace Clasp.Acyc
open Clasp.Core (Lit Asg)
open Clasp.DepGraph (Arc Inv Gr fwdOf invOf GInv edges)

/-- Proof device: the events of `Step`. -/
inductive Ev
  | grow (os : List DepGraph.Op)
  | init
  | asg (p : Lit)
  | deq
  | stop
  | resume (l : Nat)
  | decide (p : Lit)
  | check
  | bwd
  | wake

/-- Proof device: is propagation possible? -/
def idle (σ : St) : Bool := match σ.phase with | none => true | some b => b.busy

/-- Proof device: `Step` as a function. -/
def exec (σ : St) : Ev → Option St
  | .grow os => if σ.dl = 0 ∧ σ.confl = none ∧ σ.phase = none then match DepGraph.run σ.g os with | some g' => if g'.frozen then some { σ with g := g', ready := false } else none | none => none else none
  | .init => if σ.dl = 0 ∧ σ.confl = none ∧ σ.phase = none ∧ σ.g.frozen = true then some (init σ) else none
  | .asg p => if σ.confl = none ∧ idle σ = true ∧ isFree σ p = true then some (assign σ p false) else none
  | .deq => match σ.queue with
    | [] => none
    | p :: q => if σ.confl = none ∧ idle σ = true then some { σ with queue := q, todo := σ.todo ++ notify σ p } else none
  | .stop => if σ.confl = none ∧ idle σ = true then some { setConfl σ .other with stopq := some σ.queue, drop := !σ.todo.isEmpty || σ.phase.isSome } else none
  | .resume l => match σ.stopq with
    | none => none
    | some q => if l ≤ σ.dl then some { undoTo σ l with queue := if l = σ.dl then q else [], stopq := none, confl := none, lost := σ.lost || (decide (l = σ.dl) && σ.drop) } else none
  | .decide p => if σ.confl = none ∧ σ.phase = none ∧ σ.ready = true ∧ σ.queue = [] ∧ σ.todo = [] ∧ isFree σ p = true then some (assign { σ with dl := σ.dl + 1 } p false) else none
  | .check => match σ.todo with
    | [] => none
    | x :: t => if σ.confl = none ∧ σ.phase = none ∧ σ.ready = true ∧ σ.queue = [] then check { σ with todo := t } x else none
  | .bwd => match σ.phase with
    | none => none
    | some b => if b.busy = false then bwdStep σ b else none
  | .wake => match σ.phase with
    | none => none
    | some b => if b.busy = true ∧ σ.queue = [] then some { σ with phase := some { b with busy := false } } else none

theorem idle_iff {σ : St} (h : idle σ = true) : ∀ b, σ.phase = some b → b.busy = true := by
  intro b hb
  simpa [idle, hb] using h

theorem exec_step {σ τ : St} {e : Ev} (h : exec σ e = some τ) : Step σ τ := by
  cases e with
  | grow os =>
    simp only [exec] at h
    split_ifs at h with h1
    split at h
    · rename_i g' h2
      split_ifs at h with h3
      cases h
      exact .grow os g' h1.1 h1.2.1 h1.2.2 h2 h3
    · exact nomatch h
  | init =>
    simp only [exec] at h
    split_ifs at h with h1
    cases h
    exact .init h1.1 h1.2.1 h1.2.2.1 h1.2.2.2
  | asg p =>
    simp only [exec] at h
    split_ifs at h with h1
    cases h
    exact .asg p h1.1 (idle_iff h1.2.1) h1.2.2
  | deq =>
    simp only [exec] at h
    split at h
    · exact nomatch h
    · rename_i p q hq
      split_ifs at h with h1
      cases h
      exact .deq p q h1.1 (idle_iff h1.2) hq
  | stop =>
    simp only [exec] at h
    split_ifs at h with h1
    cases h
    exact .stop h1.1 (idle_iff h1.2)
  | resume l =>
    simp only [exec] at h
    split at h
    · exact nomatch h
    · rename_i q hq
      split_ifs at h with h1 h2
      · cases h
        have := Step.resume q l hq h1
        rwa [if_pos h2] at this
      · cases h
        have := Step.resume q l hq h1
        rwa [if_neg h2] at this
  | decide p =>
    simp only [exec] at h
    split_ifs at h with h1
    cases h
    exact .decide p h1.1 h1.2.1 h1.2.2.1 h1.2.2.2.1 h1.2.2.2.2.1 h1.2.2.2.2.2
  | check =>
    simp only [exec] at h
    split at h
    · exact nomatch h
    · rename_i x t ht
      split_ifs at h with h1
      exact .check x t h1.1 h1.2.1 h1.2.2.1 h1.2.2.2 ht h
  | bwd =>
    simp only [exec] at h
    split at h
    · exact nomatch h
    · rename_i b hb
      split_ifs at h with h1
      exact .bwd b hb h1 h
  | wake =>
    simp only [exec] at h
    split at h
    · exact nomatch h
    · rename_i b hb
      split_ifs at h with h1
      cases h
      exact .wake b hb h1.1 h1.2

/-- Proof device: several events. -/
def execs (σ : St) : List Ev → Option St
  | [] => some σ
  | e :: es => match exec σ e with
    | none => none
    | some τ => execs τ es

theorem execs_reach {m : Mode} : ∀ {es : List Ev} {σ τ : St}, Reach m σ → execs σ es = some τ → Reach m τ
  | [], _, _, h, he => by cases he; exact h
  | e :: es, σ, τ, h, he => by
    unfold execs at he
    split at he
    · exact nomatch he
    · rename_i ρ h1
      exact execs_reach (h.step (exec_step h1)) he

/-- Proof device: the state after a run that satisfies a decidable property. -/
theorem run_ex {m : Mode} {es : List Ev} {P : St → Prop} [DecidablePred P] (h : ((execs (St.start m) es).any fun τ => decide (P τ)) = true) : ∃ τ, Reach m τ ∧ P τ := by
  cases he : execs (St.start m) es with
  | none => rw [he] at h; exact nomatch h
  | some τ =>
    rw [he] at h
    exact ⟨τ, execs_reach .start he, by simpa using h⟩

/-- Example: literals. -/
def pos (v : Nat) : Lit := ⟨v, false⟩

/-- Example: a triangle. -/
def tri : List DepGraph.Op := [.edge ⟨pos 1, 0, 1⟩, .edge ⟨pos 2, 1, 2⟩, .edge ⟨pos 3, 2, 0⟩, .fin]

instance (σ : St) : Decidable (Fixpoint σ) := by unfold Fixpoint; infer_instance

/-- Example: two edges of a triangle are decided in mode `prop_full`; the third one becomes false by a clause, and the search goes on to its end. -/
example : ∃ τ, Reach .full τ ∧ τ.stale = false ∧ τ.lost = false ∧ DepGraph.run Gr.start tri = some τ.g ∧ Fixpoint τ ∧ τ.dl = 2 ∧
    τ.trail.map Ent.lit = [(pos 3).neg, pos 2, pos 1] ∧ τ.learnt = [[(pos 3).neg, (pos 2).neg, (pos 1).neg]] :=
  run_ex (es := [.grow tri, .init, .decide (pos 1), .deq, .check, .bwd, .bwd, .bwd, .decide (pos 2), .deq, .check, .bwd, .bwd, .bwd, .bwd, .deq, .wake, .bwd]) (by decide +kernel)

/-- Example: the same with a stored reason. -/
example : ∃ τ, Reach .fullImp τ ∧ τ.stale = false ∧ DepGraph.run Gr.start tri = some τ.g ∧ Fixpoint τ ∧
    τ.trail = [⟨(pos 3).neg, 2, true⟩, ⟨pos 2, 2, false⟩, ⟨pos 1, 1, false⟩] ∧ reasonOf τ (pos 3).neg = [pos 2, pos 1] :=
  run_ex (es := [.grow tri, .init, .decide (pos 1), .deq, .check, .bwd, .bwd, .bwd, .decide (pos 2), .deq, .check, .bwd, .bwd, .bwd, .bwd, .deq, .wake, .bwd]) (by decide +kernel)

/-- Example: without backward search the third edge can become true, which is a conflict. -/
example : ∃ τ, Reach .fwd τ ∧ τ.stale = false ∧ DepGraph.run Gr.start tri = some τ.g ∧ τ.confl = some (.own [pos 3, pos 2, pos 1]) :=
  run_ex (es := [.grow tri, .init, .decide (pos 1), .deq, .check, .decide (pos 2), .deq, .check, .decide (pos 3), .deq, .check]) (by decide +kernel)

/-- Example: a backward search that waits for propagation, and an edge that is to be looked at. -/
example : (∃ τ, Reach .full τ ∧ τ.stale = false ∧ (τ.phase.map Bwd.busy) = some true) ∧ (∃ τ, Reach .full τ ∧ τ.stale = false ∧ τ.confl = none ∧ τ.phase = none ∧ τ.ready = true ∧
    τ.queue = [] ∧ τ.todo = [⟨pos 1, 0, 1⟩]) :=
  ⟨run_ex (es := [.grow tri, .init, .decide (pos 1), .deq, .check, .bwd, .bwd, .bwd, .decide (pos 2), .deq, .check, .bwd, .bwd, .bwd, .bwd]) (by decide +kernel),
    run_ex (es := [.grow tri, .init, .decide (pos 1), .deq]) (by decide +kernel)⟩

/-- Example: an edge from a node to itself is made false by `init`. -/
example : ∃ τ, Reach .full τ ∧ DepGraph.run Gr.start [.edge ⟨pos 1, 0, 0⟩, .edge ⟨pos 2, 0, 1⟩, .fin] = some τ.g ∧ (init τ).trail = [⟨(pos 1).neg, 0, false⟩] ∧ τ.trail = [] ∧ τ.confl = none :=
  run_ex (es := [.grow [.edge ⟨pos 1, 0, 0⟩, .edge ⟨pos 2, 0, 1⟩, .fin]]) (by decide +kernel)

/-- Example: a second step that keeps the positions of the edges (the new edges connect new nodes), and a third one that does not; the checker still finds what follows. -/
example : ∃ τ, Reach .full τ ∧ τ.stale = false ∧ τ.lost = false ∧ τ.gid = (1, 5) ∧ Fixpoint τ ∧ τ.trail.map Ent.lit = [(pos 5).neg, pos 4] :=
  run_ex (es := [.grow [.edge ⟨pos 1, 0, 1⟩, .fin], .init, .grow [.upd, .edge ⟨pos 2, 2, 3⟩, .edge ⟨pos 3, 3, 4⟩, .fin], .init, .grow [.upd, .edge ⟨pos 4, 3, 0⟩, .edge ⟨pos 5, 0, 3⟩, .fin], .init,
    .decide (pos 4), .deq, .check, .bwd, .bwd, .deq, .wake, .bwd, .bwd]) (by decide +kernel)

/-! ## Where the claim fails -/

theorem cyclic_of {es : List Arc} {σ : St} {a b : Arc} (h : (a ∈ es ∧ b ∈ es ∧ a.head = b.tail ∧ b.head = a.tail) ∧ (isTrue σ a.lit = true ∧ isTrue σ b.lit = true)) :
    Cyclic fun a => a ∈ es ∧ True' σ a.lit := by
  obtain ⟨⟨h1, h2, h3, h4⟩, h5, h6⟩ := h
  have ht : ∀ p, isTrue σ p = true → True' σ p := fun p hp => by
    obtain ⟨k, e, h7, h8, _⟩ := isTrue_iff.1 hp
    exact ⟨e, h7, h8⟩
  refine ⟨[a, b], a.tail, by simp, ⟨rfl, h3.symm, h4⟩, fun x hx => ?_⟩
  simp only [List.mem_cons, List.not_mem_nil, or_false] at hx
  rcases hx with rfl | rfl
  · exact ⟨h1, ht _ h5⟩
  · exact ⟨h2, ht _ h6⟩

/-- C42: the claim fails if a later step adds edges between nodes of earlier steps and several edges have the same condition: `attach` then updates only the first watch of the condition, so
that edges lose their watch.  Propagation is complete, nothing was discarded, and the true edges contain a cycle. -/
theorem C42_rebuild_incomplete : ∃ os σ, Reach .full σ ∧ σ.lost = false ∧ DepGraph.run Gr.start os = some σ.g ∧ Fixpoint σ ∧ Cyclic fun a => a ∈ edges os ∧ True' σ a.lit := by
  obtain ⟨σ, h1, h2, h3, h4, h5⟩ := run_ex (m := .full)
    (es := [.grow [.edge ⟨pos 1, 0, 1⟩, .edge ⟨pos 1, 1, 0⟩, .edge ⟨pos 1, 4, 5⟩, .fin], .init, .grow [.upd, .edge ⟨pos 2, 0, 2⟩, .edge ⟨pos 3, 0, 3⟩, .fin], .init, .decide (pos 1), .deq,
      .check, .bwd, .bwd, .check, .bwd, .bwd, .bwd, .bwd, .bwd, .check, .bwd, .bwd, .bwd, .bwd, .bwd])
    (P := fun σ => σ.lost = false ∧ DepGraph.run Gr.start [.edge ⟨pos 1, 0, 1⟩, .edge ⟨pos 1, 1, 0⟩, .edge ⟨pos 1, 4, 5⟩, .fin, .upd, .edge ⟨pos 2, 0, 2⟩, .edge ⟨pos 3, 0, 3⟩, .fin] = some σ.g ∧
      Fixpoint σ ∧ isTrue σ (pos 1) = true) (by decide +kernel)
  exact ⟨_, σ, h1, h2, h3, h4, cyclic_of (a := ⟨pos 1, 0, 1⟩) (b := ⟨pos 1, 1, 0⟩) ⟨by decide, h5, h5⟩⟩

/-- C42: in the same situation a watch can refer to an edge with another condition; the checker then adds a clause that does not hold in all admissible assignments. -/
theorem C42_rebuild_unsound : ∃ os σ c M, Reach .full σ ∧ DepGraph.run Gr.start os = some σ.g ∧ c ∈ σ.learnt ∧ Adm (edges os) σ M ∧ ¬ M.satC c := by
  obtain ⟨σ, h1, h2, h3, h4⟩ := run_ex (m := .full)
    (es := [.grow [.edge ⟨pos 1, 0, 1⟩, .edge ⟨pos 1, 1, 2⟩, .fin], .init, .grow [.upd, .edge ⟨pos 2, 0, 3⟩, .edge ⟨pos 3, 3, 0⟩, .fin], .init, .decide (pos 1), .deq,
      .check, .bwd, .bwd, .bwd, .bwd, .bwd, .check, .bwd, .bwd])
    (P := fun σ => DepGraph.run Gr.start [.edge ⟨pos 1, 0, 1⟩, .edge ⟨pos 1, 1, 2⟩, .fin, .upd, .edge ⟨pos 2, 0, 3⟩, .edge ⟨pos 3, 3, 0⟩, .fin] = some σ.g ∧
      σ.learnt = [[(pos 3).neg]] ∧ σ.trail.all (fun e => e.lev != 0) = true) (by decide +kernel)
  refine ⟨_, σ, [(pos 3).neg], fun v => v == 3, h1, h2, by rw [h3]; simp, ⟨fun p hp => ?_, ?_⟩, ?_⟩
  · obtain ⟨e, h5, _, h6⟩ := hp
    have := List.all_eq_true.1 h4 e h5
    simp [h6] at this
  · rintro ⟨L, u, hn, hp, hL⟩
    have hone : ∀ a ∈ L, a.tail = 3 ∧ a.head = 0 := by
      intro a ha
      have := hL a ha
      simp only [edges, List.mem_cons, List.not_mem_nil, or_false] at this
      obtain ⟨rfl | rfl | rfl | rfl, h6⟩ := this <;> first | exact ⟨rfl, rfl⟩ | exact absurd h6 (by decide)
    match L, hn, hp, hone with
    | [a], _, ⟨h5, h6⟩, h7 =>
      have := h7 a (by simp)
      simp only [IsPath] at h6
      omega
    | a :: b :: _, _, ⟨_, h6, _⟩, h7 =>
      have := h7 a (by simp)
      have := h7 b (by simp)
      omega
  · rintro ⟨p, hp, hs⟩
    simp at hp; subst hp
    exact absurd hs (by decide)

/-- C42: the claim fails if propagation on level 0 reaches an edge between two solving steps: `init` discards it. -/
theorem C42_init_incomplete : ∃ os σ, Reach .full σ ∧ σ.stale = false ∧ DepGraph.run Gr.start os = some σ.g ∧ Fixpoint σ ∧ Cyclic fun a => a ∈ edges os ∧ True' σ a.lit := by
  obtain ⟨σ, h1, h2, h3, h4, h5⟩ := run_ex (m := .full) (es := [.grow [.edge ⟨pos 1, 0, 1⟩, .edge ⟨pos 1, 1, 0⟩, .fin], .init, .grow [], .asg (pos 1), .deq, .init])
    (P := fun σ => σ.stale = false ∧ DepGraph.run Gr.start [.edge ⟨pos 1, 0, 1⟩, .edge ⟨pos 1, 1, 0⟩, .fin] = some σ.g ∧ Fixpoint σ ∧ isTrue σ (pos 1) = true) (by decide +kernel)
  exact ⟨_, σ, h1, h2, h3, h4, cyclic_of (a := ⟨pos 1, 0, 1⟩) (b := ⟨pos 1, 1, 0⟩) ⟨by decide, h5, h5⟩⟩

/-- C42: the claim fails if the search is interrupted while the checker has work and continues on the same level: the work is discarded. -/
theorem C42_stop_incomplete : ∃ os σ, Reach .full σ ∧ σ.stale = false ∧ DepGraph.run Gr.start os = some σ.g ∧ Fixpoint σ ∧ Cyclic fun a => a ∈ edges os ∧ True' σ a.lit := by
  obtain ⟨σ, h1, h2, h3, h4, h5⟩ := run_ex (m := .full) (es := [.grow [.edge ⟨pos 1, 0, 1⟩, .edge ⟨pos 1, 1, 0⟩, .fin], .init, .asg (pos 1), .deq, .stop, .resume 0])
    (P := fun σ => σ.stale = false ∧ DepGraph.run Gr.start [.edge ⟨pos 1, 0, 1⟩, .edge ⟨pos 1, 1, 0⟩, .fin] = some σ.g ∧ Fixpoint σ ∧ isTrue σ (pos 1) = true) (by decide +kernel)
  exact ⟨_, σ, h1, h2, h3, h4, cyclic_of (a := ⟨pos 1, 0, 1⟩) (b := ⟨pos 1, 1, 0⟩) ⟨by decide, h5, h5⟩⟩

end Clasp.Acyc
