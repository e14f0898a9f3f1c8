import Verif.Ext.ClingoPop
/-!
# The adaptor for theory propagators: every event keeps the invariant
-/

namespace Clasp.Clingo
open Clasp.Core (Lit)

theorem View.unique {L v w} (h : View L v) (h' : View L w) : v = w := by
  induction h generalizing w with
  | nil => cases h'; rfl
  | propagate l ch h ih => cases h' with | propagate _ _ h' => rw [ih h']
  | undo l ch h hl ih => cases h' with | undo _ _ h' _ => exact List.append_cancel_right (ih h')
  | check l tr h ih => cases h' with | check _ _ h' => exact ih h'

/-- Proof device: what removing a level tells the user. -/
structure PopLog (σ τ : St) (v : List (Nat × Lit)) : Prop where
  some_ch : (v.filter (·.1 = σ.dl)) ≠ [] → τ.log = .undo σ.dl ((v.filter (·.1 = σ.dl)).map Prod.snd) :: σ.log
  no_ch : (v.filter (·.1 = σ.dl)) = [] → τ.log = σ.log ∨ (σ.always = true ∧ τ.log = .undo σ.dl [] :: σ.log)
  always : σ.always = true → σ.dl ∈ σ.seen → σ.prop = σ.ptrail.length → ∃ ch, τ.log = .undo σ.dl ch :: σ.log

theorem popLevel_none {σ : St} (h : σ.dl ∉ σ.uw) (hl : σ.lev = σ.uw.headD 0) :
    popLevel σ = some (popped σ σ.uw σ.undo σ.ptrail σ.prop σ.pfront σ.epoch σ.propL σ.log) := by
  have h1 : σ.uw.filter (· == σ.dl) = [] := by
    rw [List.filter_eq_nil_iff]
    intro x hx
    simp
    rintro rfl
    exact h hx
  have h2 : σ.uw.filter (· != σ.dl) = σ.uw := by
    rw [List.filter_eq_self]
    intro x hx
    simp
    rintro rfl
    exact h hx
  simp only [popLevel, h1, List.foldlM_nil, h2, popped, cut, ← hl]
  rfl

theorem popLevel_some {σ : St} {us : List Nat} (h : σ.uw = σ.dl :: us) (hus : ∀ x ∈ us, x < σ.dl) :
    popLevel σ = (undoLevel { σ with trail := cut σ, front := (cut σ).length, confl := false, seen := σ.seen.filter (· < σ.dl), hit := σ.hit || σ.dl ≤ σ.nl, late := σ.late.filter fun p => (cut σ).any fun e => e.1 == p }).map
      fun τ => { τ with uw := us, dl := σ.dl - 1, probe := σ.probe - 1 } := by
  have h1 : us.filter (· == σ.dl) = [] := by
    rw [List.filter_eq_nil_iff]
    intro x hx
    have := hus x hx
    simp; omega
  have h2 : us.filter (· != σ.dl) = us := by
    rw [List.filter_eq_self]
    intro x hx
    have := hus x hx
    simp; omega
  have e1 : σ.uw.filter (· == σ.dl) = [σ.dl] := by rw [h]; simp [h1]
  have e2 : σ.uw.filter (· != σ.dl) = us := by rw [h]; simp; simpa using h2
  simp only [popLevel, e1, e2, List.foldlM_cons, List.foldlM_nil]
  generalize undoLevel _ = o
  cases o <;> rfl

/-- The part of the user's view on lower levels, and on the current one. -/
theorem view_split {σ : St} (h : Inv σ) {P Q : List Lit} (hP : σ.ptrail = P ++ Q) (hPm : ∀ p ∈ P, ∃ l, (p, l) ∈ σ.trail ∧ l < σ.dl) (hQ : ∀ q ∈ Q, (q, σ.dl) ∈ σ.trail)
    {v : List (Nat × Lit)} (hv : v.map Prod.snd = σ.ptrail.take σ.prop) (hm : ∀ x ∈ v, (x.2, x.1) ∈ σ.trail) :
    ∃ w, v = w ++ (Q.take (σ.prop - P.length)).map (fun p => (σ.dl, p)) ∧ w.map Prod.snd = P.take σ.prop ∧ (∀ x ∈ w, (x.2, x.1) ∈ σ.trail ∧ x.1 < σ.dl) ∧
      v.filter (·.1 = σ.dl) = (Q.take (σ.prop - P.length)).map fun p => (σ.dl, p) := by
  rw [hP, List.take_append] at hv
  obtain ⟨w, u, rfl, hw, hu⟩ := List.map_eq_append_iff.mp hv
  have hu' : u = (Q.take (σ.prop - P.length)).map fun p => (σ.dl, p) := by
    rw [← hu, List.map_map]
    conv_lhs => rw [← List.map_id u]
    apply List.map_congr_left
    intro x hx
    have h1 : x.2 ∈ Q := List.mem_of_mem_take (by rw [← hu]; exact List.mem_map.mpr ⟨x, hx, rfl⟩)
    have h2 := lev_unique h.nd (hm x (List.mem_append_right _ hx)) (hQ _ h1)
    simp [← h2]
  have hw' : ∀ x ∈ w, (x.2, x.1) ∈ σ.trail ∧ x.1 < σ.dl := by
    intro x hx
    have h0 := hm x (List.mem_append_left _ hx)
    have h1 : x.2 ∈ P := List.mem_of_mem_take (by rw [← hw]; exact List.mem_map.mpr ⟨x, hx, rfl⟩)
    obtain ⟨l, h2, h3⟩ := hPm _ h1
    have := lev_unique h.nd h0 h2
    exact ⟨h0, by omega⟩
  refine ⟨w, by rw [hu'], hw, hw', ?_⟩
  rw [List.filter_append]
  have : w.filter (fun x => decide (x.1 = σ.dl)) = [] := by
    rw [List.filter_eq_nil_iff]
    intro x hx
    have := (hw' x hx).2
    simp; omega
  rw [this, List.nil_append, List.filter_eq_self.mpr]
  · exact hu'
  · intro x hx
    rw [hu'] at hx
    obtain ⟨p, _, rfl⟩ := List.mem_map.mp hx
    simp

theorem pop_ok {σ : St} (h : Inv σ) (h0 : 0 < σ.dl) : ∃ τ, popLevel σ = some τ ∧ Inv τ ∧ ∀ v, View σ.log v → PopLog σ τ v := by
  obtain ⟨v, hv1, hv2, hv3⟩ := h.view
  suffices hx : ∃ τ, popLevel σ = some τ ∧ Inv τ ∧ PopLog σ τ v by
    obtain ⟨τ, a, b, c⟩ := hx
    exact ⟨τ, a, b, fun w hw => hv1.unique hw ▸ c⟩
  by_cases hd : σ.dl ≠ σ.lev
  · have hlt := h.pre.uw_lt hd
    have hn : σ.dl ∉ σ.uw := fun hx => absurd (hlt _ hx) (Nat.lt_irrefl _)
    have hPm : ∀ p ∈ σ.ptrail, ∃ l, (p, l) ∈ σ.trail ∧ l < σ.dl := by
      intro p hp
      obtain ⟨l, h1, h2⟩ := h.fr.mem p hp
      exact ⟨l, h1, by rcases h2 with h2 | h2; omega; exact hlt l h2⟩
    obtain ⟨w, e1, e2, e3, e4⟩ := view_split h (P := σ.ptrail) (Q := []) (by simp) hPm (by simp) hv2 hv3
    have hvw : v = w := by simpa using e1
    refine ⟨_, popLevel_none hn h.lev, popped_inv h h0 (Q := []) h.fr hlt (fun x hx => Or.inr hx) (by simp) (by simp) (by have := h.pr; omega) ⟨v, hv1, hv2, ?_⟩
      (Or.inr ⟨rfl, hn, rfl⟩) (fun hx => hx) (Nat.le_refl _) (fun _ _ => rfl) (fun hx => absurd hx hn), ?_, ?_, ?_⟩
    · rw [hvw]; exact e3
    · intro hx; exact absurd e4 (by simpa using hx)
    · exact fun _ => Or.inl rfl
    · intro _ hs
      rcases h.seen _ hs with hx | hx
      · omega
      · exact absurd hx hn
  · have hd' : σ.dl = σ.lev := by simpa using hd
    obtain ⟨us, hus⟩ := h.pre.cur h0 hd'
    have hlt := h.fr.lt _ _ hus
    have hfr := h.fr
    rw [popLevel_some hus hlt]
    rw [hus] at hfr
    have hge : ∀ x ∈ σ.uw, x = σ.dl ∨ x ∈ us := by rw [hus]; simp
    have ndc : ((cut σ).map (·.1.var)).Nodup := h.nd.sublist ((List.filter_sublist).map _)
    have hfc : ∀ {ms P}, Fr σ.trail us ms P → Fr (cut σ) us ms P := fun hf => hf.mono fun e he hx => List.mem_filter.mpr ⟨he, by rcases hx with hx | hx; simp [hx, h0]; simpa using hlt _ hx⟩
    have hPmF : ∀ {ms P}, Fr σ.trail us ms P → ∀ p ∈ P, ∃ l, (p, l) ∈ σ.trail ∧ l < σ.dl := by
      intro ms P hf p hp
      obtain ⟨l, h1, h2⟩ := hf.mem p hp
      exact ⟨l, h1, by rcases h2 with h2 | h2; omega; exact hlt l h2⟩
    obtain ⟨M, hms⟩ : ∃ M, σ.undo = M := ⟨_, rfl⟩
    obtain ⟨P', hPP⟩ : ∃ P', σ.ptrail = P' := ⟨_, rfl⟩
    rw [hms, hPP] at hfr
    have hneg : ∀ f, (σ.pfront.map fun _ => (-1 : Int)) = some f → f < 0 := by
      intro f hf
      cases hp : σ.pfront with
      | none => rw [hp] at hf; cases hf
      | some a => rw [hp] at hf; simp at hf; omega
    cases hfr with
    | @pos _ ms P _ _ Q hf e hq hm hl hl0 =>
      rw [e] at hPP
      have hPm := hPmF hf
      obtain ⟨w, e1, e2, e3, e4⟩ := view_split h hPP hPm hm hv2 hv3
      by_cases hpn : σ.prop > P.length
      · refine ⟨popped σ us ms P P.length (σ.pfront.map fun _ => -1) (σ.epoch + 1) σ.propL (.undo σ.dl (Q.take (σ.prop - P.length)) :: σ.log), ?_, ?_, ?_, ?_, ?_⟩
        · simp only [undoLevel]
          rw [if_neg hd]
          simp only [hms, undoEmpty, Mark.isChk, Bool.false_eq_true, false_and, if_false, undoChanges, undoTrail]
          rw [if_pos hpn]
          rw [undoLev_ok (us := us) ndc (by show Fr (cut σ) us ms (σ.ptrail.take P.length); rw [hPP, List.take_left]; exact hfc hf)]
          simp [popped, hPP]
        · refine popped_inv h h0 hf hlt hge hPP hm (by omega) ⟨w, .undo _ _ (e1 ▸ hv1) (fun x hx => (e3 x hx).2), ?_, e3⟩ (Or.inl hneg) ?_ (by omega) (fun _ _ => rfl) (fun _ _ => by omega)
          · rw [e2, List.take_of_length_le (by omega), List.take_length]
          · intro hx; simpa using hx
        · intro _
          rw [e4]
          simp [popped, Function.comp_def]
        · intro hx
          rw [e4] at hx
          simp at hx
          rcases hx with hx | hx
          · omega
          · exact absurd hx hq
        · intro _ _ _
          exact ⟨_, rfl⟩
      · have hnil : Q.take (σ.prop - P.length) = [] := by
          have : σ.prop - P.length = 0 := by omega
          rw [this, List.take_zero]
        rw [hnil] at e1 e4
        refine ⟨popped σ us ms P σ.prop (σ.pfront.map fun _ => -1) (if some σ.lev = σ.propL then σ.epoch + 1 else σ.epoch) (if some σ.lev = σ.propL then none else σ.propL) σ.log, ?_, ?_, ?_, ?_, ?_⟩
        · simp only [undoLevel]
          rw [if_neg hd]
          simp only [hms, undoEmpty, Mark.isChk, Bool.false_eq_true, false_and, if_false, undoChanges, undoTrail]
          rw [if_neg hpn]
          split_ifs with hc
          · rw [undoLev_ok (us := us) ndc (by show Fr (cut σ) us ms (σ.ptrail.take P.length); rw [hPP, List.take_left]; exact hfc hf)]
            simp [popped, hPP]
          · rw [undoLev_ok (us := us) ndc (by show Fr (cut σ) us ms (σ.ptrail.take P.length); rw [hPP, List.take_left]; exact hfc hf)]
            simp [popped, hPP]
        · refine popped_inv h h0 hf hlt hge hPP hm (by omega) ⟨w, ?_, e2, e3⟩ (Or.inl hneg) ?_ (by split_ifs <;> omega) ?_ ?_
          · simp at e1; rw [← e1]; exact hv1
          · intro hx; simpa using hx
          · intro hx hy
            rw [if_neg]
            rw [hx, ← hd']; simp; omega
          · intro _ hx
            rw [if_pos (by rw [hx, hd'])]
            omega
        · intro hx; exact absurd e4 (by simpa using hx)
        · exact fun _ => Or.inl rfl
        · intro _ _ hx
          exfalso
          rw [hPP] at hx
          simp at hx
          cases Q with
          | nil => exact hq rfl
          | cons a Q => simp at hx; omega
    | @chk _ ms _ _ w' hf hv hl hl0 =>
      have hPm := hPmF hf
      obtain ⟨w, e1, e2, e3, e4⟩ := view_split h (P := P') (Q := []) (by simp [hPP]) hPm (by simp) hv2 hv3
      have hvw : v = w := by simpa using e1
      subst hvw
      refine ⟨popped σ us ms P' σ.prop (σ.pfront.map fun _ => -1) ((if some σ.lev = σ.propL then 1 else 0) + if σ.always then σ.epoch + 1 else σ.epoch)
        (if some σ.lev = σ.propL then none else σ.propL) (if σ.always then .undo σ.dl [] :: σ.log else σ.log), ?_, ?_, ?_, ?_, ?_⟩
      · simp only [undoLevel]
        rw [if_neg hd]
        simp only [hms, undoEmpty, Mark.isChk, true_and, undoChanges, undoTrail]
        have hfcP : Fr (cut σ) us ms σ.ptrail := hPP ▸ hfc hf
        by_cases ha : σ.always = true <;> by_cases hc : some σ.lev = σ.propL <;> simp only [ha, hc, if_true, if_false, Bool.false_eq_true]
        all_goals
          rw [undoLev_ok (us := us) ndc hfcP]
          simp [popped, hPP, ha, Nat.add_comm]
      · have hpr := h.pr
        refine popped_inv h h0 (Q := []) hf hlt hge (by simp [hPP]) (by simp) (by rw [← hPP]; omega) ⟨v, ?_, e2, e3⟩ (Or.inl hneg) ?_ (by split_ifs <;> omega) ?_ ?_
        · split_ifs with ha
          · exact .undo _ [] (by simpa using hv1) fun x hx => (e3 x hx).2
          · exact hv1
        · intro hx; simpa using hx
        · intro hx hy
          rw [if_neg]
          rw [hx, ← hd']; simp; omega
        · intro _ hx
          rw [if_pos (by rw [hx, hd'])]
          split_ifs <;> omega
      · intro hx; exact absurd e4 (by simpa using hx)
      · intro _
        by_cases ha : σ.always = true
        · exact Or.inr ⟨ha, by simp [popped, ha]⟩
        · exact Or.inl (by simp [popped, ha])
      · intro ha _ _
        exact ⟨[], by simp [popped, ha]⟩

end Clasp.Clingo
