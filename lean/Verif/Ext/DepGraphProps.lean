import Verif.Ext.DepGraphLem
/-!
# C41: the graph of the acyclicity constraint stores exactly the given edges

Specification: `edges` are the edges given in a sequence of calls, `legal` says that `update` is called before edges are added to a finalized graph.
-/

namespace Clasp.DepGraph
open Clasp.Core (Lit)

/-- Specification: the edges given in a sequence of calls. -/
def edges : List Op → List Arc
  | [] => []
  | .edge a :: os => a :: edges os
  | _ :: os => edges os

/-- Specification: no edge is added between `finalize` and `update`; `fr` says whether the graph is finalized. -/
def legal : Bool → List Op → Bool
  | _, [] => true
  | fr, .edge _ :: os => !fr && legal fr os
  | _, .fin :: os => legal true os
  | _, .upd :: os => legal false os

theorem run_inv : ∀ (os : List Op) (g : Gr) (hist : List Arc), GInv g hist → ∀ g', run g os = some g' → GInv g' (hist ++ edges os)
  | [], g, hist, h, g', hr => by cases hr; simpa [edges] using h
  | o :: os, g, hist, h, g', hr => by
    unfold run at hr
    cases hs : step g o with
    | none => rw [hs] at hr; exact nomatch hr
    | some g1 =>
      rw [hs] at hr
      cases o with
      | edge a =>
        have := run_inv os g1 _ (h.addEdge hs) g' hr
        rw [List.append_assoc] at this
        exact this
      | fin =>
        obtain ⟨g2, h1, h2, _⟩ := h.finalize
        rw [step, h1] at hs; cases hs
        exact run_inv os _ _ h2 g' hr
      | upd => cases hs; exact run_inv os _ _ h.update g' hr

theorem run_defined : ∀ (os : List Op) (g : Gr) (hist : List Arc), GInv g hist → legal g.frozen os = true → ∃ g', run g os = some g'
  | [], g, _, _, _ => ⟨g, rfl⟩
  | .edge a :: os, g, hist, h, hl => by
    simp [legal] at hl
    simp only [run, step]
    cases hs : addEdge g a with
    | none => unfold addEdge at hs; simp only [hl.1, Bool.false_eq_true, if_false] at hs; split_ifs at hs
    | some g1 =>
      refine run_defined os g1 _ (h.addEdge hs) ?_
      have : g1.frozen = false := by
        unfold addEdge at hs; simp only [hl.1, Bool.false_eq_true, if_false] at hs; split_ifs at hs <;> cases hs <;> rfl
      rw [this, ← hl.1]; exact hl.2
  | .fin :: os, g, hist, h, hl => by
    obtain ⟨g2, h1, h2, h3⟩ := h.finalize
    unfold run step
    rw [h1]
    exact run_defined os g2 _ h2 (by rw [h3]; exact hl)
  | .upd :: os, g, hist, h, hl => run_defined os (update g) _ h.update hl

/-- C41: however the edges of later steps relate to those of earlier steps, no requirement of the graph is violated as long as `update` is called before edges are added. -/
theorem C41_defined (os : List Op) (h : legal false os = true) : ∃ g, run Gr.start os = some g :=
  run_defined os _ _ GInv.start h

/-- C41: after `finalize`, iteration over the edges leaving a node and over the edges entering a node lists exactly the given edges, and every condition is protected from being
eliminated by preprocessing. -/
theorem C41_graph (os : List Op) (g : Gr) (h : run Gr.start (os ++ [.fin]) = some g) (n : Nat) :
    (fwdOf g n).Perm ((edges os).filter (fun a => a.tail == n)) ∧
    ((invOf g n).map (fun v => (⟨v.lit, v.tail, n⟩ : Arc))).Perm ((edges os).filter (fun a => a.head == n)) ∧
    (∀ a ∈ edges os, a.lit.var ∈ g.frz) := by
  have run_append : ∀ (os : List Op) (g0 : Gr), run g0 (os ++ [.fin]) = some g → ∃ g1, run g0 os = some g1 ∧ finalize g1 = some g := by
    intro os
    induction os with
    | nil =>
      intro g0 hr
      refine ⟨g0, rfl, ?_⟩
      simp only [List.nil_append, run, step] at hr
      cases hf : finalize g0 with
      | none => rw [hf] at hr; exact nomatch hr
      | some g2 => rw [hf] at hr; exact hr
    | cons o os ih =>
      intro g0 hr
      simp only [List.cons_append, run] at hr ⊢
      cases hs : step g0 o with
      | none => rw [hs] at hr; exact nomatch hr
      | some g2 => rw [hs] at hr; exact ih g2 hr
  obtain ⟨g1, h1, h2⟩ := run_append os _ h
  have hi := run_inv os _ _ GInv.start g1 h1
  simp only [List.nil_append] at hi
  obtain ⟨g2, h3, h4, h5⟩ := hi.finalize
  rw [h2] at h3; cases h3
  refine ⟨h4.fwdOf h5 n, ?_, ?_⟩
  · have := (h4.invOf h5 n).map (fun x => (⟨x.1, x.2, n⟩ : Arc))
    rw [List.map_map, List.map_map] at this
    refine this.trans ?_
    rw [List.map_congr_left (g := id) (fun a ha => by simp at ha; simp [ends, ← ha.2])]
    simp
  · intro a ha
    refine h4.frz a ?_
    rw [(h4.full h5).1, List.take_length]
    exact h4.perm.mem_iff.2 ha

/-- Specification: the positions of the edges known before are kept. -/
def Keeps (g g' : Gr) : Prop := g.fwd.take g.com <+: g'.fwd.take g'.com ∧ g'.gen = g.gen ∨ g.gen < g'.gen

theorem Keeps.trans {a b c : Gr} (h1 : Keeps a b) (h2 : Keeps b c) : Keeps a c := by
  rcases h1 with ⟨p1, e1⟩ | h1 <;> rcases h2 with ⟨p2, e2⟩ | h2
  · exact Or.inl ⟨p1.trans p2, e2.trans e1⟩
  · exact Or.inr (by omega)
  · exact Or.inr (by omega)
  · exact Or.inr (by omega)

theorem step_keeps {g g' : Gr} {hist : List Arc} (h : GInv g hist) {o : Op} (hs : step g o = some g') : Keeps g g' := by
  cases o with
  | edge a =>
    simp only [step, addEdge] at hs
    split_ifs at hs with hf hc
    · cases hs; exact Or.inr (Nat.lt_succ_self _)
    · cases hs
      refine Or.inl ⟨?_, rfl⟩
      simp only
      rw [List.take_append_of_le_length h.comLe]
      exact List.prefix_refl _
  | fin =>
    unfold step finalize at hs
    split_ifs at hs with hf
    · cases hs; exact Or.inl ⟨List.prefix_refl _, rfl⟩
    · simp only at hs
      split at hs
      · cases hs
        refine Or.inl ⟨?_, rfl⟩
        simp only
        rw [List.take_of_length_le (l := g.fwd.take g.com ++ _)]
        · exact List.prefix_append _ _
        · rw [List.length_append, (DepGraph.sortBy_perm _ _).length_eq, (DepGraph.sortBy_perm _ _).length_eq, ← List.length_append, List.take_append_drop]
          exact Nat.le_refl _
      · exact nomatch hs
  | upd => cases hs; exact Or.inl ⟨List.prefix_refl _, rfl⟩

theorem run_keeps : ∀ (os : List Op) (g : Gr) (hist : List Arc), GInv g hist → ∀ g', run g os = some g' → Keeps g g'
  | [], g, _, _, g', hr => by cases hr; exact Or.inl ⟨List.prefix_refl _, rfl⟩
  | o :: os, g, hist, h, g', hr => by
    unfold run at hr
    cases hs : step g o with
    | none => rw [hs] at hr; exact nomatch hr
    | some g1 =>
      rw [hs] at hr
      have h1 : GInv g1 (hist ++ edges [o]) := run_inv [o] g hist h g1 (by simp [run, hs])
      exact (step_keeps h hs).trans (run_keeps os g1 _ h1 g' hr)

/-- C41: the identifiers of the committed edges, which the watches of the solvers refer to, stay valid as long as the generation count does not change. -/
theorem C41_ids (os os' : List Op) (g g' : Gr) (h : run Gr.start os = some g) (h' : run g os' = some g') (hg : g'.gen = g.gen) (i : Nat) (hi : i < g.com) :
    g'.fwd[i]? = g.fwd[i]? := by
  rcases run_keeps os' g _ (run_inv os _ _ GInv.start g h) g' h' with ⟨h1, _⟩ | h1
  · obtain ⟨t, ht⟩ := h1
    have hl := (run_inv os _ _ GInv.start g h).comLe
    have e1 : (g.fwd.take g.com)[i]? = g.fwd[i]? := List.getElem?_take_of_lt hi
    have hlt : i < (g'.fwd.take g'.com).length := by rw [← ht, List.length_append, List.length_take]; omega
    have e2 : (g'.fwd.take g'.com)[i]? = g'.fwd[i]? := List.getElem?_take_of_lt (by rw [List.length_take] at hlt; omega)
    rw [← e1, ← e2, ← ht, List.getElem?_append_left (by rw [List.length_take]; omega)]
  · omega

/-! ## Examples -/

/-- Example: two steps; the second one adds edges between new nodes and one between old nodes. -/
def exOps : List Op :=
  [.edge ⟨⟨1, false⟩, 2, 0⟩, .edge ⟨⟨2, false⟩, 0, 1⟩, .edge ⟨⟨3, true⟩, 0, 2⟩, .fin, .upd, .edge ⟨⟨4, false⟩, 3, 4⟩, .edge ⟨⟨5, false⟩, 1, 2⟩, .edge ⟨⟨1, false⟩, 4, 3⟩]

/-- Example: the graph after these steps. -/
def exG : Gr := (run Gr.start (exOps ++ [.fin])).getD Gr.start

example : legal false (exOps ++ [.fin]) = true := by decide
example : run Gr.start (exOps ++ [.fin]) = some exG := by
  obtain ⟨g, hg⟩ := C41_defined (exOps ++ [.fin]) (by decide)
  unfold exG; rw [hg]; rfl
example : ((edges exOps).filter (fun a => a.head == 2)).length = 2 ∧ ((edges exOps).filter (fun a => a.tail == 0)).length = 2 := by decide
/-- Example: an extension that keeps the edge identifiers. -/
example : ∃ g g', run Gr.start [.edge ⟨⟨1, false⟩, 1, 0⟩, .fin] = some g ∧ run g [.upd, .edge ⟨⟨2, false⟩, 2, 3⟩] = some g' ∧ g'.gen = g.gen ∧ g.com = 1 := by
  refine ⟨(run Gr.start [.edge ⟨⟨1, false⟩, 1, 0⟩, .fin]).getD Gr.start, (run Gr.start [.edge ⟨⟨1, false⟩, 1, 0⟩, .fin, .upd, .edge ⟨⟨2, false⟩, 2, 3⟩]).getD Gr.start, ?_⟩
  decide +kernel

end Clasp.DepGraph
