import Verif.Ext.ClingoReach
/-!
# C39: theory propagators see a faithful picture of the search
-/

namespace Clasp.Clingo
open Clasp.Core (Lit)

/-- C39: no requirement of the adaptor is ever violated: in each reachable state every function succeeds. -/
theorem C39_defined {σ : St} (r : Reach σ) (p : Lit) :
    (dequeue σ).isSome ∧ (0 < σ.dl → (popLevel σ).isSome) ∧ (σ.probe = 0 → σ.prop ≠ σ.ptrail.length → (callProp σ).isSome) ∧ (callCheck σ).isSome ∧
      (ctrlBegin σ).isSome ∧ (addWatch σ p false).isSome ∧ (σ.dl = 0 → (addWatch σ p true).isSome) ∧ σ.prop ≤ σ.ptrail.length := by
  have h := r.inv
  refine ⟨?_, ?_, ?_, ?_, ?_, ?_, ?_, h.pr⟩
  · obtain ⟨τ, h1, _⟩ := dequeue_ok h; rw [h1]; rfl
  · intro h0; obtain ⟨τ, h1, _⟩ := pop_ok h h0; rw [h1]; rfl
  · intro h0 hn; obtain ⟨τ, h1, _⟩ := callProp_ok h h0 hn; rw [h1]; rfl
  · obtain ⟨τ, h1, _⟩ := callCheck_ok h; rw [h1]; rfl
  · obtain ⟨τ, h1, _⟩ := ctrlBegin_ok h; rw [h1]; rfl
  · obtain ⟨τ, h1, _⟩ := addWatch_ok h p false (fun hx => nomatch hx); rw [h1]; rfl
  · intro h0; obtain ⟨τ, h1, _⟩ := addWatch_ok h p true (fun _ => h0); rw [h1]; rfl

/-- C39: calls of `propagate` and `undo` match up.  `undo` of a level passes exactly the literals that were reported on this level and not yet undone; the literals the
propagator knows are true on the levels on which they were reported, were watched, and none is reported twice. -/
theorem C39_balanced {σ : St} (r : Reach σ) :
    ∃ v, View σ.log v ∧ (∀ x ∈ v, (x.2, x.1) ∈ σ.trail ∧ x.2 ∈ σ.wat) ∧ (v.map Prod.snd).Nodup := by
  have h := r.inv
  obtain ⟨v, h1, h2, h3⟩ := h.view
  refine ⟨v, h1, fun x hx => ⟨h3 x hx, ?_⟩, ?_⟩
  · exact h.wt.2 _ (List.mem_of_mem_take (by rw [← h2]; exact List.mem_map.mpr ⟨x, hx, rfl⟩))
  · rw [h2]; exact h.pnd.sublist (List.take_sublist _ _)

/-- C39: when propagation has come to an end (`check` is called, a decision is made, a model is accepted) the propagator knows each watched literal that is true, except for those
whose watch it added itself when they had already been propagated. -/
theorem C39_complete {σ : St} (r : Reach σ) (hc : σ.confl = false) (hq : σ.front = σ.trail.length) (hp : σ.prop = σ.ptrail.length) {v} (hv : View σ.log v)
    {p : Lit} {l : Nat} (ht : (p, l) ∈ σ.trail) (hw : p ∈ σ.watch) (hl : p ∉ σ.late) : (l, p) ∈ v := by
  have h := r.inv
  obtain ⟨w, h1, h2, h3⟩ := h.view
  obtain rfl := hv.unique h1
  rcases h.comp p l ht hw hl with hx | hx | hx
  · have : p ∈ v.map Prod.snd := by rw [h2, hp, List.take_length]; exact hx
    obtain ⟨x, hx1, rfl⟩ := List.mem_map.mp this
    have := lev_unique h.nd ht (h3 x hx1)
    rw [this]; exact hx1
  · rw [hq, List.drop_length] at hx; cases hx
  · rw [hc] at hx; exact absurd hx.1 (by simp)

/-- C39: literals are reported on the level on which they became true. -/
theorem C39_level {σ τ : St} (r : Reach σ) (hp : σ.probe = 0) (h : callProp σ = some τ) :
    ∃ ch, ch ≠ [] ∧ τ.log = .propagate σ.dl ch :: σ.log ∧ ∀ p ∈ ch, (p, σ.dl) ∈ σ.trail := by
  have hn := new_level r.inv hp
  simp only [callProp] at h
  cases hd : σ.ptrail.drop σ.prop with
  | nil => rw [hd] at h; cases h
  | cons p ps =>
    rw [hd] at h hn
    simp only at h
    split_ifs at h
    cases h
    exact ⟨_, by simp, rfl, hn⟩

/-- C39: a model is accepted only after `check` has been called on exactly this assignment; with checks on fixpoints the same holds for each decision. -/
theorem C39_check {σ : St} (r : Reach σ) (hs : settled σ = true) (hm : σ.fix = true ∨ σ.model = true) : lastCheck σ.log = some σ.trail := by
  have h := r.inv
  have hn := h.fixm hm
  have hb := (of_decide_eq_true hs).2
  simp only [behind] at hb
  cases hp : σ.pfront with
  | none => exact absurd hp hn
  | some f =>
    rw [hp] at hb
    simp at hb
    obtain ⟨l, h1, h2, _⟩ := h.chk f hp (by omega)
    rw [h1, List.take_of_length_le (by omega)]

/-- C39: when a level is removed, `undo` is called with the literals reported on this level if there are any; otherwise it is not called (with an empty list in mode
Always at most). -/
theorem C39_undo {σ τ : St} (r : Reach σ) (h0 : 0 < σ.dl) (h : popLevel σ = some τ) {v} (hv : View σ.log v) :
    (v.filter (·.1 = σ.dl) ≠ [] → τ.log = .undo σ.dl ((v.filter (·.1 = σ.dl)).map Prod.snd) :: σ.log) ∧
    (v.filter (·.1 = σ.dl) = [] → τ.log = σ.log ∨ (σ.always = true ∧ τ.log = .undo σ.dl [] :: σ.log)) := by
  obtain ⟨τ', h1, _, h2⟩ := pop_ok r.inv h0
  rw [h] at h1; cases h1
  exact ⟨(h2 v hv).some_ch, (h2 v hv).no_ch⟩

/-- C39, partial: in mode Always `undo` is called for a level on which `check` was called if all changes have been reported.  The claim without this hypothesis is false, see
`C39_undo_always_fails`. -/
theorem C39_undo_always_partial {σ τ : St} (r : Reach σ) (h0 : 0 < σ.dl) (h : popLevel σ = some τ) (ha : σ.always = true) (hs : σ.dl ∈ σ.seen) (hp : σ.prop = σ.ptrail.length) :
    ∃ ch, τ.log = .undo σ.dl ch :: σ.log := by
  obtain ⟨v, hv, _⟩ := r.inv.view
  obtain ⟨τ', h1, _, h2⟩ := pop_ok r.inv h0
  rw [h] at h1; cases h1
  exact (h2 v hv).always ha hs hp

/-- C39: if `Control::propagate` returns true, the level on which it was called was not removed in the meantime. -/
theorem C39_control {σ : St} (r : Reach σ) (h : ctrlOk σ = true) : σ.hit = false ∧ σ.nl ≤ σ.dl := by
  have h1 : σ.nest = some σ.epoch := by simpa [ctrlOk] using h
  obtain ⟨_, a2, a3⟩ := r.inv.nst _ h1
  have hh : σ.hit = false := by
    cases hx : σ.hit with
    | false => rfl
    | true => exact absurd (a2 hx) (Nat.lt_irrefl _)
  exact ⟨hh, (a3 hh).2.1⟩

end Clasp.Clingo
