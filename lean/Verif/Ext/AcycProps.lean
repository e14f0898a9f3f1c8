import Verif.Ext.AcycInit
import Verif.Core.Sem
/-!
# C42: the acyclicity checker admits exactly the assignments without cycles

Specification: `edges os` are the edges given to the graph (see C41), `Cyclic E` says that the edges in `E` contain a cycle, `Adm` are the total assignments that are consistent with
level 0 and whose true edges contain no cycle.
-/

namespace Clasp.Acyc
open Clasp.Core (Lit Asg)
open Clasp.DepGraph (Arc Inv Gr fwdOf invOf GInv edges)

/-- Specification: the edges in `E` contain a cycle. -/
def Cyclic (E : Arc → Prop) : Prop := ∃ L u, L ≠ [] ∧ IsPath u u L ∧ ∀ a ∈ L, E a

/-- Specification: `M` makes everything true that is true on level 0 in `σ`, and its true edges contain no cycle. -/
def Adm (es : List Arc) (σ : St) (M : Asg) : Prop := (∀ p, Tr σ p 0 → M.sat p) ∧ ¬ Cyclic fun a => a ∈ es ∧ M.sat a.lit

/-- Specification: the literal is true in `σ`. -/
def True' (σ : St) (p : Lit) : Prop := ∃ e ∈ σ.trail, e.lit = p

/-- Specification: propagation is complete: there is no conflict, nothing waits for propagation, the checker is active and has nothing to do. -/
def Fixpoint (σ : St) : Prop := σ.confl = none ∧ σ.queue = [] ∧ σ.ready = true ∧ σ.todo = [] ∧ σ.phase = none

/-! ## The invariant holds in all states -/

theorem Step.stale {σ τ : St} (h : Step σ τ) (ht : τ.stale = false) : σ.stale = false := by
  cases h with
  | init hd hc hp hf =>
    rw [init_stale] at ht
    simp only [initSt, Bool.or_eq_false_iff] at ht
    exact ht.1
  | check x t hc hp hr hq htd hs =>
    have hfw : ∀ (s : St) (ls : List Lit), (closeFwd s x ls).stale = s.stale := by
      intro s ls; unfold closeFwd; split_ifs <;> rfl
    have hd : ∀ (s s' : St), dfsForward s x = some s' → s'.stale = s.stale := by
      intro s s' h
      unfold dfsForward at h
      simp only at h
      split at h
      · exact nomatch h
      · cases h; rfl
      · split at h
        · exact nomatch h
        · cases h; rw [hfw]
    unfold Acyc.check at hs
    split at hs
    · exact nomatch hs
    · rename_i ρ h1
      have := hd _ _ h1
      split_ifs at hs <;> cases hs
      · rw [this] at ht; exact ht
      · have h2 : (startBwd ρ x).stale = ρ.stale := rfl
        rw [h2, this] at ht; exact ht
  | bwd b hp hb hs =>
    have hcl : ∀ (s : St) (b : Bwd) (p : Lit) (r : List Lit), (closeBwd s b p r).stale = s.stale := by
      intro s b p r; unfold closeBwd; split_ifs <;> rfl
    unfold bwdStep at hs
    split at hs
    · unfold bwdArc at hs
      split_ifs at hs
      · cases hs; exact ht
      · split at hs
        · exact nomatch hs
        · cases hs; rw [hcl] at ht; exact ht
      · cases hs; exact ht
      · cases hs; exact ht
    · split at hs <;> cases hs <;> exact ht
  | _ => exact ht

theorem Reach.inv {m : Mode} {σ : St} (h : Reach m σ) : σ.stale = false → AInv σ := by
  induction h with
  | start => exact fun _ => AInv.start m
  | step h1 h2 ih =>
    intro ht
    have hi := ih (h2.stale ht)
    cases h2 with
    | grow os g' hd hc hp hr hf => exact hi.grow hd hc hp hr hf
    | init hd hc hp hf => exact hi.init hd hc hp hf (fun h => by rw [← init_stale]; exact h) ht
    | asg p hc hp hf => exact hi.asg hc hf
    | deq p q hc hp hq => exact hi.deq hc hq
    | clean hd hc hp hq => exact hi.clean hd hc hq
    | confl hc hp => exact hi.conflOther hc
    | jump l r hl hs hp hr => exact hi.jump hl hs hp hr
    | stop hc hp => exact hi.stop hc
    | resume q l hq hl => exact hi.resume hq hl
    | decide p hc hp hr hq htd hf => exact hi.decide hc hp hr hq htd hf
    | check x t hc hp hr hq htd hs => exact hi.check hc hp hr hq htd hs
    | bwd b hp hb hs =>
      obtain ⟨τ', h3, h4⟩ := hi.bwd hp
      rw [h3] at hs; cases hs; exact h4
    | wake b hp hb hq => exact hi.wake hp

theorem mem_edges {g : Gr} {os : List DepGraph.Op} (h : DepGraph.run Gr.start os = some g) (a : Arc) : a ∈ edges os ↔ a ∈ g.fwd := by
  have := DepGraph.run_inv os _ _ GInv.start g h
  simpa using (this.perm.mem_iff (a := a)).symm

theorem run_append : ∀ (os os' : List DepGraph.Op) (g g1 g2 : Gr), DepGraph.run g os = some g1 → DepGraph.run g1 os' = some g2 → DepGraph.run g (os ++ os') = some g2
  | [], _, _, _, _, h1, h2 => by cases h1; exact h2
  | o :: os, os', g, g1, g2, h1, h2 => by
    simp only [List.cons_append, DepGraph.run] at h1 ⊢
    cases hs : DepGraph.step g o with
    | none => rw [hs] at h1; exact nomatch h1
    | some g' => rw [hs] at h1; exact run_append os os' g' g1 g2 h1 h2

theorem Step.graph {σ τ : St} (h : Step σ τ) : (∃ os, DepGraph.run σ.g os = some τ.g) := by
  have hid : ∃ os, DepGraph.run σ.g os = some σ.g := ⟨[], rfl⟩
  cases h with
  | grow os g' hd hc hp hr hf => exact ⟨os, hr⟩
  | init hd hc hp hf =>
    have h1 : ∀ (ρ : St) (u i : Nat) (a : Arc), (attachArc ρ u i a).1.g = ρ.g := by
      intro ρ u i a; unfold attachArc; split_ifs <;> rfl
    have h2 : ∀ (rem : List Arc) (ρ : St) (u i : Nat), (attachLoop ρ u i rem).g = ρ.g := by
      intro rem
      induction rem with
      | nil => intros; rfl
      | cons a as ih =>
        intro ρ u i
        unfold attachLoop
        split_ifs
        · rfl
        · rw [ih, h1]
    have h3 : (Acyc.init σ).g = σ.g := h2 _ _ _ _
    rw [h3]; exact hid
  | check x t hc hp hr hq htd hs =>
    have hfw : ∀ (s : St) (ls : List Lit), (closeFwd s x ls).g = s.g := by
      intro s ls; unfold closeFwd; split_ifs <;> rfl
    have hd : ∀ (s s' : St), dfsForward s x = some s' → s'.g = s.g := by
      intro s s' h
      unfold dfsForward at h
      simp only at h
      split at h
      · exact nomatch h
      · cases h; rfl
      · split at h
        · exact nomatch h
        · cases h; rw [hfw]
    unfold Acyc.check at hs
    split at hs
    · exact nomatch hs
    · rename_i ρ h1
      have := hd _ _ h1
      split_ifs at hs <;> cases hs
      · rw [this]; exact hid
      · have h2 : (startBwd ρ x).g = ρ.g := rfl
        rw [h2, this]; exact hid
  | bwd b hp hb hs =>
    have hcl : ∀ (s : St) (b : Bwd) (p : Lit) (r : List Lit), (closeBwd s b p r).g = s.g := by
      intro s b p r; unfold closeBwd; split_ifs <;> rfl
    unfold bwdStep at hs
    split at hs
    · unfold bwdArc at hs
      split_ifs at hs
      · cases hs; exact hid
      · split at hs
        · exact nomatch hs
        · cases hs; rw [hcl]; exact hid
      · cases hs; exact hid
      · cases hs; exact hid
    · split at hs <;> cases hs <;> exact hid
  | _ => exact hid

/-- C42: the graph of every state was created by some calls, so that the following theorems apply. -/
theorem C42_graph {m : Mode} {σ : St} (h : Reach m σ) : ∃ os, DepGraph.run Gr.start os = some σ.g := by
  induction h with
  | start => exact ⟨[], rfl⟩
  | step _ h2 ih =>
    obtain ⟨os, h3⟩ := ih
    obtain ⟨os', h4⟩ := h2.graph
    exact ⟨os ++ os', run_append _ _ _ _ _ h3 h4⟩

theorem Just.adm {σ : St} {p : Lit} {r : List Lit} {os : List DepGraph.Op} (h : Just σ p r) (ho : DepGraph.run Gr.start os = some σ.g) {M : Asg} (hM : Adm (edges os) σ M)
    (hr : ∀ q ∈ r, M.sat q) : M.sat p := by
  by_contra hp
  obtain ⟨L, u, h1, h2, h3⟩ := h
  refine hM.2 ⟨L, u, h1, h2, fun a ha => ⟨(mem_edges ho a).2 (h3 a ha).1, ?_⟩⟩
  rcases (h3 a ha).2 with h4 | h4 | h4
  · rw [h4, Asg.sat_neg]; exact hp
  · exact hr _ h4
  · exact hM.1 _ h4

/-! ## The properties -/

/-- C42: if the checker is called, its searches end and access only existing nodes and stored parents. -/
theorem C42_defined {m : Mode} {σ : St} (h : Reach m σ) (hst : σ.stale = false) :
    (∀ x t, σ.confl = none → σ.phase = none → σ.ready = true → σ.queue = [] → σ.todo = x :: t → ∃ τ, check { σ with todo := t } x = some τ) ∧
    (∀ b, σ.phase = some b → ∃ τ, bwdStep σ b = some τ) := by
  have hi := h.inv hst
  refine ⟨fun x t hc hp hr hq ht => ?_, fun b hb => ?_⟩
  · have hx := hi.snd.todo hr x (by rw [ht]; simp)
    unfold Acyc.check
    rcases dfsForward_ok (hi.base.fpre hr t) hx.1 hx.2.2 with ⟨tags, par, cnt, h1, h2⟩ | ⟨tags, par, cnt, ls, h1, h2, h3, h4, h5, h6⟩
    · rw [h1]
      simp only
      split_ifs <;> exact ⟨_, rfl⟩
    · rw [h1]
      simp only
      split_ifs <;> exact ⟨_, rfl⟩
  · obtain ⟨τ, h1, _⟩ := hi.bwd hb
    exact ⟨τ, h1⟩

/-- C42: a conflict reported by the checker is a set of true literals that no admissible assignment contains. -/
theorem C42_conflict {m : Mode} {σ : St} {os : List DepGraph.Op} (h : Reach m σ) (hst : σ.stale = false) (ho : DepGraph.run Gr.start os = some σ.g) {n : List Lit}
    (hn : σ.confl = some (.own n)) : (∀ p ∈ n, True' σ p) ∧ ∀ M, Adm (edges os) σ M → ¬ M.all n := by
  obtain ⟨h1, p, r, rfl, h2⟩ := (h.inv hst).snd.confl n hn
  refine ⟨fun p hp => ?_, fun M hM ha => ?_⟩
  · obtain ⟨k, e, h3, h4, _⟩ := isTrue_iff.1 (h1 p hp)
    exact ⟨e, h3, h4⟩
  · have := h2.adm ho hM (fun q hq => ha q (List.mem_cons_of_mem _ hq))
    rw [Asg.sat_neg] at this
    exact this (ha p (by simp))

/-- C42: every clause added by the checker holds in every admissible assignment. -/
theorem C42_clause {m : Mode} {σ : St} {os : List DepGraph.Op} (h : Reach m σ) (hst : σ.stale = false) (ho : DepGraph.run Gr.start os = some σ.g) {c : List Lit}
    (hc : c ∈ σ.learnt) (M : Asg) (hM : Adm (edges os) σ M) : M.satC c := by
  obtain ⟨p, r, rfl, h2⟩ := (h.inv hst).snd.learnt c hc
  by_cases hr : ∀ q ∈ r, M.sat q
  · exact ⟨p, by simp, h2.adm ho hM hr⟩
  · have : ∃ q ∈ r, ¬ M.sat q := by
      by_contra hx
      exact hr fun q hq => by
        by_contra hs
        exact hx ⟨q, hq, hs⟩
    obtain ⟨q, h3, h4⟩ := this
    exact ⟨q.neg, by simp only [List.mem_cons, List.mem_map]; exact Or.inr ⟨q, h3, rfl⟩, (Asg.sat_neg M q).2 h4⟩

/-- C42: a reason returned by the checker consists of literals assigned before the literal, and every admissible assignment that contains the reason contains the literal. -/
theorem C42_reason {m : Mode} {σ : St} {os : List DepGraph.Op} (h : Reach m σ) (hst : σ.stale = false) (ho : DepGraph.run Gr.start os = some σ.g) {T1 T2 : List Ent} {e : Ent}
    (ht : σ.trail = T1 ++ e :: T2) (hown : e.own = true) :
    (∀ q ∈ reasonOf σ e.lit, ∃ e' ∈ T2, e'.lit = q) ∧ ∀ M, Adm (edges os) σ M → M.all (reasonOf σ e.lit) → M.sat e.lit := by
  obtain ⟨r, h1, h2, h3, h4⟩ := (h.inv hst).own.ok T1 e T2 ht hown
  have hr : reasonOf σ e.lit = r := by
    unfold reasonOf
    rw [h1]
    split
    · rename_i q r' hq
      split_ifs with hqe
      · rw [hqe] at hq; exact h2 r' hq
      · rfl
    · rfl
  rw [hr]
  exact ⟨h3, fun M hM ha => h4.adm ho hM ha⟩

/-- C42: literals assigned by `init` are conditions of edges from a node to itself, which are false in every assignment without cycles; a conflict in `init` is due to such an edge. -/
theorem C42_init {σ : St} {os : List DepGraph.Op} (hc : σ.confl = none) (ho : DepGraph.run Gr.start os = some σ.g) :
    (∀ e ∈ (init σ).trail, e ∈ σ.trail ∨ ∀ M, Adm (edges os) σ M → M.sat e.lit) ∧ ((init σ).confl ≠ none → ∃ p, True' (init σ) p ∧ ∀ M, Adm (edges os) σ M → ¬ M.sat p) := by
  have hloop : ∀ a ∈ σ.g.fwd, a.head = a.tail → ∀ M, Adm (edges os) σ M → ¬ M.sat a.lit := by
    intro a ha hl M hM hs
    exact hM.2 ⟨[a], a.tail, by simp, ⟨rfl, hl⟩, fun b hb => by simp at hb; subst hb; exact ⟨(mem_edges ho _).2 ha, hs⟩⟩
  have key : ∀ (rem : List Arc) (ρ : St) (u i : Nat), (∀ a ∈ rem, a ∈ σ.g.fwd) →
      ((∀ e ∈ ρ.trail, e ∈ σ.trail ∨ ∀ M, Adm (edges os) σ M → M.sat e.lit) ∧ (ρ.confl ≠ none → ∃ p, True' ρ p ∧ ∀ M, Adm (edges os) σ M → ¬ M.sat p)) →
      ((∀ e ∈ (attachLoop ρ u i rem).trail, e ∈ σ.trail ∨ ∀ M, Adm (edges os) σ M → M.sat e.lit) ∧
        ((attachLoop ρ u i rem).confl ≠ none → ∃ p, True' (attachLoop ρ u i rem) p ∧ ∀ M, Adm (edges os) σ M → ¬ M.sat p)) := by
    intro rem
    induction rem with
    | nil => intro ρ u i _ h; exact h
    | cons a as ih =>
      intro ρ u i hm hh
      unfold attachLoop
      split_ifs with hcf
      · exact hh
      · refine ih _ _ _ (fun x hx => hm x (List.mem_cons_of_mem _ hx)) ?_
        have hcn : ρ.confl = none := by simpa using hcf
        have haf := hm a (by simp)
        unfold attachArc
        split_ifs with h1 h2 h3 h4 h5 h6
        · exact hh
        · exact hh
        · exact hh
        · exact hh
        · exact hh
        · refine ⟨fun e he => ?_, fun hx => absurd hcn hx⟩
          rcases List.mem_cons.1 he with rfl | he
          · refine Or.inr fun M hM => ?_
            simp only [Asg.sat_neg]
            exact hloop a haf (by simpa using h1) M hM
          · exact hh.1 e he
        · refine ⟨hh.1, fun _ => ⟨a.lit, ?_, hloop a haf (by simpa using h1)⟩⟩
          rcases cases3 ρ a.lit with h7 | h7 | h7
          · exact absurd h7 h6
          · obtain ⟨k, e, h8, h9, _⟩ := isTrue_iff.1 h7
            exact ⟨e, h8, h9⟩
          · exact absurd h7 h5
  have := key ((σ.g.fwd.take σ.g.com).drop (firstArc σ)) (initSt σ) (oldWatches σ) (firstArc σ) (fun a ha => List.mem_of_mem_take (List.mem_of_mem_drop ha))
    ⟨fun e he => Or.inl he, fun hx => absurd hc hx⟩
  exact this

/-- C42 (partial: without discarded work and wrong watches): whenever propagation is complete, the true edges contain no cycle. -/
theorem C42_complete_partial {m : Mode} {σ : St} {os : List DepGraph.Op} (h : Reach m σ) (hst : σ.stale = false) (hlo : σ.lost = false) (ho : DepGraph.run Gr.start os = some σ.g)
    (hf : Fixpoint σ) : ¬ Cyclic fun a => a ∈ edges os ∧ True' σ a.lit := by
  obtain ⟨hc, hq, hr, ht, hp⟩ := hf
  have hi := h.inv hst
  have hcm : Cmp σ := by
    rcases hi.cmp hlo with h1 | h1
    · exact absurd hc h1.1
    · exact h1
  rintro ⟨L, u, h1, h2, h3⟩
  obtain ⟨e, h4, h5, h6⟩ := hcm.inv1 L h1 u h2 (fun e he => ⟨by rw [(hi.base.rdy hr).1]; exact (mem_edges ho e).1 (h3 e he).1, by
    obtain ⟨x, h7, h8⟩ := (h3 e he).2
    exact isTrue_iff.2 ⟨x.lev, x, h7, h8, rfl⟩⟩)
  rw [hi.base.stopq hc] at h6
  simp only [PendT, hr, if_true, hc, ht, hq, hp] at h6
  simp at h6

/-- C42 (partial: without discarded work and wrong watches): in the modes with backward search, whenever propagation is complete, an edge that would close a cycle is false, and this was
inferred on the level on which the other edges of the cycle became true. -/
theorem C42_implied_partial {m : Mode} {σ : St} {os : List DepGraph.Op} (h : Reach m σ) (hst : σ.stale = false) (hlo : σ.lost = false) (ho : DepGraph.run Gr.start os = some σ.g)
    (hf : Fixpoint σ) (hm : σ.mode ≠ .fwd) {a : Arc} (ha : a ∈ edges os) {L : List Arc} (hL : L ≠ []) (hpath : IsPath a.head a.tail L) {k : Nat}
    (htr : ∀ e ∈ L, e ∈ edges os ∧ ∃ x ∈ σ.trail, x.lit = e.lit ∧ x.lev ≤ k) : ∃ x ∈ σ.trail, x.lit = a.lit.neg ∧ x.lev ≤ k := by
  obtain ⟨hc, hq, hr, ht, hp⟩ := hf
  have hi := h.inv hst
  have hcm : Cmp σ := by
    rcases hi.cmp hlo with h1 | h1
    · exact absurd hc h1.1
    · exact h1
  have hatt : ∀ e, e ∈ edges os → e ∈ σ.att := fun e he => by rw [(hi.base.rdy hr).1]; exact (mem_edges ho e).1 he
  rcases hcm.inv2 hm a (hatt a ha) L hL hpath k (fun e he => ⟨hatt e (htr e he).1, by
    obtain ⟨x, h7, h8, h9⟩ := (htr e he).2
    exact ⟨x.lev, h9, x, h7, h8, rfl⟩⟩) with ⟨e, h4, h5, h6⟩ | ⟨j, h4, x, h5, h6, h7⟩
  · rw [hi.base.stopq hc] at h6
    simp only [PendT, hr, if_true, hc, ht, hq, hp] at h6
    simp at h6
  · exact ⟨x, h5, h6, by omega⟩

theorem Step.mode {m : Mode} {σ τ : St} (h : Step σ τ) (hm : σ.mode = m) : τ.mode = m := by
  cases h with
  | init hd hc hp hf =>
    have h1 : ∀ (ρ : St) (u i : Nat) (a : Arc), (attachArc ρ u i a).1.mode = ρ.mode := by
      intro ρ u i a; unfold attachArc; split_ifs <;> rfl
    have h2 : ∀ (rem : List Arc) (ρ : St) (u i : Nat), (attachLoop ρ u i rem).mode = ρ.mode := by
      intro rem
      induction rem with
      | nil => intros; rfl
      | cons a as ih =>
        intro ρ u i
        unfold attachLoop
        split_ifs
        · rfl
        · rw [ih, h1]
    have h3 : (Acyc.init σ).mode = σ.mode := h2 _ _ _ _
    rw [h3]; exact hm
  | check x t hc hp hr hq htd hs =>
    have hfw : ∀ (s : St) (ls : List Lit), (closeFwd s x ls).mode = s.mode := by
      intro s ls; unfold closeFwd; split_ifs <;> rfl
    have hd : ∀ (s s' : St), dfsForward s x = some s' → s'.mode = s.mode := by
      intro s s' h
      unfold dfsForward at h
      simp only at h
      split at h
      · exact nomatch h
      · cases h; rfl
      · split at h
        · exact nomatch h
        · cases h; rw [hfw]
    unfold Acyc.check at hs
    split at hs
    · exact nomatch hs
    · rename_i ρ h1
      have := hd _ _ h1
      split_ifs at hs <;> cases hs
      · rw [this]; exact hm
      · have h2 : (startBwd ρ x).mode = ρ.mode := rfl
        rw [h2, this]; exact hm
  | bwd b hp hb hs =>
    have hcl : ∀ (s : St) (b : Bwd) (p : Lit) (r : List Lit), (closeBwd s b p r).mode = s.mode := by
      intro s b p r; unfold closeBwd; split_ifs <;> rfl
    unfold bwdStep at hs
    split at hs
    · unfold bwdArc at hs
      split_ifs at hs
      · cases hs; exact hm
      · split at hs
        · exact nomatch hs
        · cases hs; rw [hcl]; exact hm
      · cases hs; exact hm
      · cases hs; exact hm
    · split at hs <;> cases hs <;> exact hm
  | _ => exact hm

/-- C42: the strategy is the one that was chosen. -/
theorem C42_mode {m : Mode} {σ : St} (h : Reach m σ) : σ.mode = m := by
  induction h with
  | start => rfl
  | step _ h2 ih => exact h2.mode ih

/-- Proof device: a measure of what is left of a backward search: nodes not visited, nodes to expand, arcs of the current node, whether propagation is active. -/
def left (σ : St) : Nat × Nat × Nat × Nat :=
  match σ.phase with
  | none => (0, 0, 0, 0)
  | some b => (σ.tags.countP (· != b.tag), b.stack.length, b.rest.length, if b.busy then 1 else 0)

/-- Specification: the lexicographic order, which is well-founded. -/
def Less : Nat × Nat × Nat × Nat → Nat × Nat × Nat × Nat → Prop := Prod.Lex (· < ·) (Prod.Lex (· < ·) (Prod.Lex (· < ·) (· < ·)))

theorem less_wf : WellFounded Less :=
  (Prod.lex (Nat.lt_wfRel) (Prod.lex Nat.lt_wfRel (Prod.lex Nat.lt_wfRel Nat.lt_wfRel))).wf

/-- C42: a backward search ends: there is a measure with a well-founded order that every step of the search decreases and that propagation between the steps does not change. -/
theorem C42_search_ends {m : Mode} : ∃ μ : St → Nat × Nat × Nat × Nat, WellFounded Less ∧ ∀ σ τ b, Reach m σ → σ.stale = false → σ.phase = some b → Step σ τ →
    τ.phase = none ∨ Less (μ τ) (μ σ) ∨ (b.busy = true ∧ μ τ = μ σ) := by
  refine ⟨left, less_wf, fun σ τ b h hst hp hs => ?_⟩
  have hi := h.inv hst
  have hS := hi.snd.srch b hp
  cases hs with
  | grow os g' hd hc hp' => rw [hp] at hp'; exact nomatch hp'
  | init hd hc hp' => rw [hp] at hp'; exact nomatch hp'
  | asg p hc hb => exact Or.inr (Or.inr ⟨hb b hp, by simp [left, Acyc.assign, hp]⟩)
  | deq p q hc hb => exact Or.inr (Or.inr ⟨hb b hp, by simp [left, hp]⟩)
  | clean hd hc hp' => rw [hp] at hp'; exact nomatch hp'
  | confl hc hb => exact Or.inl rfl
  | jump l r hl hs hp' => rw [hp] at hp'; exact nomatch hp'
  | stop hc hb => exact Or.inl rfl
  | resume q l hq =>
    have := (hi.base.clr (hi.base.stopC (by rw [hq]; simp))).2.2
    rw [hp] at this; exact nomatch this
  | decide p hc hp' => rw [hp] at hp'; exact nomatch hp'
  | check x t hc hp' => rw [hp] at hp'; exact nomatch hp'
  | wake b' hp' hb =>
    rw [hp] at hp'; cases hp'
    refine Or.inr (Or.inl ?_)
    simp only [left, hp, hb, if_true]
    exact Prod.Lex.right _ (Prod.Lex.right _ (Prod.Lex.right _ (by simp)))
  | bwd b' hp' hb hs =>
    rw [hp] at hp'; cases hp'
    unfold bwdStep at hs
    split at hs
    · rename_i a as hr
      have hsm : ∀ (x : Nat), Less (σ.tags.countP (· != b.tag), b.stack.length, as.length, x) (left σ) := by
        intro x
        simp only [left, hp, hr]
        exact Prod.Lex.right _ (Prod.Lex.right _ (Prod.Lex.left _ _ (by simp)))
      have har := hS.rest a (by rw [hr]; simp)
      have hrd := phase_ready hi.base hp
      have hbd := (hi.base.bnd hrd har).1
      unfold bwdArc at hs
      split_ifs at hs with h1 h2 h3
      · cases hs
        exact Or.inr (Or.inl (by simpa [left] using hsm _))
      · split at hs
        · exact nomatch hs
        · cases hs
          unfold Acyc.closeBwd
          split_ifs
          · exact Or.inl rfl
          · exact Or.inr (Or.inl (by simpa [left, Acyc.assign] using hsm 1))
          · exact Or.inr (Or.inl (by simpa [left, Acyc.assign] using hsm 1))
      · cases hs
        refine Or.inr (Or.inl ?_)
        rw [not_or] at h1
        simp only [left, hp]
        refine Prod.Lex.left _ _ ?_
        rw [List.countP_set hbd]
        have hne : σ.tags[a.tail] ≠ b.tag := fun h => h1.2 (by rw [← h]; simp [hbd])
        have hpos : 0 < σ.tags.countP (· != b.tag) := List.countP_pos_iff.2 ⟨σ.tags[a.tail], List.getElem_mem _, by simpa using hne⟩
        simp [hne]
        omega
      · cases hs
        exact Or.inr (Or.inl (by simpa [left] using hsm _))
    · split at hs
      · cases hs; exact Or.inl rfl
      · rename_i n st hst
        cases hs
        refine Or.inr (Or.inl ?_)
        simp only [left, hp, hst]
        exact Prod.Lex.right _ (Prod.Lex.left _ _ (by simp))

end Clasp.Acyc
