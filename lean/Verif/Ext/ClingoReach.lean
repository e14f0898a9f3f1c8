import Verif.Ext.ClingoStep
/-!
# The adaptor for theory propagators: the reachable states satisfy the invariant
-/

namespace Clasp.Clingo
open Clasp.Core (Lit)

theorem free_iff {σ : St} {p : Lit} (h : σ.isFree p = true) : ∀ e ∈ σ.trail, e.1.var ≠ p.var := by
  intro e he
  have := List.all_eq_true.mp h e he
  simpa using this

theorem Inv.grow {σ : St} (h : Inv σ) {p : Lit} {d pb : Nat} (hp : σ.isFree p = true) (hd : d = σ.dl ∨ (d = σ.dl + 1 ∧ σ.front = σ.trail.length))
    (hpb : d - pb ≤ σ.dl - σ.probe ∨ σ.prop = σ.ptrail.length) (hc : σ.confl = false) :
    Inv { σ with dl := d, trail := σ.trail ++ [(p, d)], probe := pb } := by
  have hdl : σ.dl ≤ d := by omega
  constructor <;> simp only
  · rw [List.map_append, List.nodup_append]
    refine ⟨h.nd, by simp, ?_⟩
    intro a ha b hb
    obtain ⟨e, he, rfl⟩ := List.mem_map.mp ha
    simp at hb
    subst hb
    exact free_iff hp e he
  · intro e he
    rcases List.mem_append.mp he with he | he
    · have := h.lv e he; omega
    · simp at he; subst he; exact Nat.le_refl _
  · have := h.fl
    simp; omega
  · intro e he
    rw [List.drop_append_of_le_length h.fl] at he
    rcases List.mem_append.mp he with he | he
    · rcases hd with hd | ⟨_, hd⟩
      · rw [hd]; exact h.q e he
      · rw [hd, List.drop_length] at he; cases he
    · simp at he; subst he; rfl
  · intro l hl hl'
    by_cases hx : l ≤ σ.dl
    · obtain ⟨e, he, hel⟩ := h.ne l hl hx
      exact ⟨e, List.mem_append_left _ he, hel⟩
    · exact ⟨(p, d), by simp, by simp; omega⟩
  · exact h.fr.mono fun e he _ => List.mem_append_left _ he
  · exact h.lev
  · intro l hl
    have := h.uwb l hl
    omega
  · exact h.pr
  · intro q hq
    rcases hpb with hpb | hpb
    · obtain ⟨l, h1, h2⟩ := h.base q hq
      exact ⟨l, List.mem_append_left _ h1, by omega⟩
    · rw [hpb, List.drop_length] at hq; cases hq
  · intro q hq
    rw [List.take_append_of_le_length h.fl]
    exact h.done q hq
  · exact h.pnd
  · intro q l hq hw hla
    rw [List.drop_append_of_le_length h.fl]
    rcases List.mem_append.mp hq with hq | hq
    · rcases h.comp q l hq hw hla with hx | hx | hx
      · exact Or.inl hx
      · exact Or.inr (Or.inl (by simp at hx ⊢; grind))
      · rw [hc] at hx; exact absurd hx.1 (by simp)
    · simp at hq
      right; left
      simp [hq.1]
  · obtain ⟨v, h1, h2, h3⟩ := h.view
    exact ⟨v, h1, h2, fun x hx => List.mem_append_left _ (h3 x hx)⟩
  · intro f hf hf0
    obtain ⟨l, a1, a2, a3, a4⟩ := h.chk f hf hf0
    rw [List.take_append_of_le_length a2]
    exact ⟨l, a1, by simp; omega, a3, a4⟩
  · exact h.fixm
  · intro e he
    obtain ⟨a1, a2, a3⟩ := h.nst e he
    exact ⟨a1, a2, fun hx => ⟨(a3 hx).1, by have := (a3 hx).2.1; omega, (a3 hx).2.2⟩⟩
  · exact h.seen
  · exact h.wt

theorem Inv.conflict {σ : St} (h : Inv σ) : Inv { σ with confl := true, front := σ.trail.length } := by
  refine { h with fl := Nat.le_refl _, q := ?_, done := ?_, comp := ?_ } <;> simp only
  · intro e he
    rw [List.drop_length] at he; cases he
  · intro p hp
    rw [List.take_length]
    obtain ⟨e, he, hx⟩ := List.mem_map.mp (h.done p hp)
    exact List.mem_map.mpr ⟨e, List.mem_of_mem_take he, hx⟩
  · intro p l hp hw hl
    rcases h.comp p l hp hw hl with hx | hx | hx
    · exact Or.inl hx
    · obtain ⟨e, he, rfl⟩ := List.mem_map.mp hx
      have h1 := h.q e he
      have h2 := lev_unique h.nd hp (List.mem_of_mem_drop he)
      exact Or.inr (Or.inr ⟨trivial, by omega⟩)
    · exact Or.inr (Or.inr ⟨trivial, hx.2⟩)

theorem Reg.mem {σ : St} {us ms P} (r : Reg σ us ms P) : σ.dl = 0 ∨ σ.dl ∈ us := by
  have := r.lev
  cases us with
  | nil => left; simpa using this
  | cons a us => right; simp at this; simp [this]

/-- A watched literal that is true on the current level is added to the adaptor's trail. -/
theorem Inv.notified {σ : St} (h : Inv σ) {p : Lit} {us ms} (hp : (p, σ.dl) ∈ σ.trail) {fr : Nat} {w la wa : List Lit} (hwa : (∀ q ∈ w, q ∈ wa) ∧ (∀ q ∈ σ.wat, q ∈ wa) ∧ p ∈ wa) (hfl : fr ≤ σ.trail.length)
    (hfr : σ.front ≤ fr) (hdone : p ∈ (σ.trail.take fr).map Prod.fst) (hnp : p ∉ σ.ptrail) (r : Reg σ us ms (σ.ptrail ++ [p]))
    (hcomp : ∀ q l, (q, l) ∈ σ.trail → q ∈ w → q ∉ la → q = p ∨ q ∈ σ.ptrail ∨ q ∈ (σ.trail.drop fr).map Prod.fst ∨ (σ.confl = true ∧ l = σ.dl)) :
    Inv { σ with front := fr, watch := w, wat := wa, late := la, uw := us, lev := σ.dl, undo := ms, ptrail := σ.ptrail ++ [p] } := by
  have hpr := h.pr
  refine { h with fl := hfl, q := ?_, fr := r.fr, lev := r.lev, uwb := ?_, pr := ?_, base := ?_, done := ?_, pnd := ?_, comp := ?_, view := ?_, chk := ?_, nst := ?_, seen := ?_, wt := ?_ } <;> simp only
  · intro e he
    refine h.q e ?_
    have : fr = σ.front + (fr - σ.front) := by omega
    rw [this, ← List.drop_drop] at he
    exact List.mem_of_mem_drop he
  · intro l hl
    rcases r.le l hl with hx | hx
    · exact h.uwb l hx
    · omega
  · simp; omega
  · intro q hq
    rw [List.drop_append_of_le_length h.pr] at hq
    rcases List.mem_append.mp hq with hq | hq
    · exact h.base q hq
    · simp at hq; subst hq
      exact ⟨σ.dl, hp, by omega⟩
  · intro q hq
    rcases List.mem_append.mp hq with hq | hq
    · obtain ⟨e, he, hx⟩ := List.mem_map.mp (h.done q hq)
      refine List.mem_map.mpr ⟨e, ?_, hx⟩
      have : σ.trail.take σ.front = (σ.trail.take fr).take σ.front := by rw [List.take_take, Nat.min_eq_left hfr]
      rw [this] at he
      exact List.mem_of_mem_take he
    · simp at hq; subst hq; exact hdone
  · rw [List.nodup_append]
    refine ⟨h.pnd, by simp, ?_⟩
    intro a ha b hb
    simp at hb; subst hb
    rintro rfl
    exact hnp ha
  · intro q l hq hw hl
    rcases hcomp q l hq hw hl with rfl | hx | hx
    · exact Or.inl (by simp)
    · exact Or.inl (List.mem_append_left _ hx)
    · exact Or.inr hx
  · obtain ⟨v, h1, h2, h3⟩ := h.view
    exact ⟨v, h1, by rw [h2, List.take_append_of_le_length h.pr], h3⟩
  · intro f hf hf0
    obtain ⟨l, a1, a2, a3, a4⟩ := h.chk f hf hf0
    exact ⟨l, a1, a2, a3, a4.imp_right (r.ge l)⟩
  · intro e he
    obtain ⟨a1, a2, a3⟩ := h.nst e he
    exact ⟨a1, a2, fun hx => ⟨(a3 hx).1, (a3 hx).2.1, (a3 hx).2.2.imp_right (r.ge _)⟩⟩
  · intro l hl
    exact (h.seen l hl).imp_right (r.ge l)
  · refine ⟨hwa.1, ?_⟩
    intro q hq
    rcases List.mem_append.mp hq with hq | hq
    · exact hwa.2.1 q (h.wt.2 q hq)
    · simp at hq; subst hq; exact hwa.2.2

theorem dequeue_ok {σ : St} (h : Inv σ) : ∃ τ, dequeue σ = some τ ∧ Inv τ := by
  cases hg : σ.trail[σ.front]? with
  | none => exact ⟨σ, by simp only [dequeue, hg], h⟩
  | some e =>
    obtain ⟨hlt, hge⟩ := List.getElem?_eq_some_iff.mp hg
    have hdrop : σ.trail.drop σ.front = e :: σ.trail.drop (σ.front + 1) := by rw [List.drop_eq_getElem_cons hlt, hge]
    have htake : σ.trail.take (σ.front + 1) = σ.trail.take σ.front ++ [e] := by rw [List.take_add_one, hg]; rfl
    have hel : e.2 = σ.dl := h.q e (by rw [hdrop]; simp)
    have hem : e ∈ σ.trail := by rw [← hge]; exact List.getElem_mem _
    have hnp : e.1 ∉ σ.ptrail := by
      intro hx
      obtain ⟨x, hx1, hx2⟩ := List.mem_map.mp (h.done _ hx)
      have nd := h.nd
      rw [← List.take_append_drop σ.front σ.trail, List.map_append, List.nodup_append] at nd
      exact nd.2.2 x.1.var (List.mem_map.mpr ⟨x, hx1, rfl⟩) e.1.var (by rw [hdrop]; simp) (by rw [hx2])
    have hpe : (e.1, σ.dl) ∈ σ.trail := by rw [← hel]; exact hem
    simp only [dequeue, hg]
    by_cases hw : e.1 ∈ σ.watch
    · rw [if_pos hw]
      have hpre : Pre { σ with front := σ.front + 1 } := ⟨h.fr, h.lev, h.uwb⟩
      obtain ⟨us, ms, h1, h2⟩ := notify_ok hpre hpe
      refine ⟨_, h1, ?_⟩
      exact h.notified (us := us) (ms := ms) (fr := σ.front + 1) hpe ⟨h.wt.1, fun _ hx => hx, h.wt.1 _ hw⟩ hlt (Nat.le_succ _) (by rw [htake]; simp) hnp ⟨h2.fr, h2.lev, h2.le, h2.ge⟩ fun q l hq hw hla => by
        rcases h.comp q l hq hw hla with hx | hx | hx
        · exact Or.inr (Or.inl hx)
        · rw [hdrop, List.map_cons, List.mem_cons] at hx
          rcases hx with hx | hx
          · exact Or.inl hx
          · exact Or.inr (Or.inr (Or.inl hx))
        · exact Or.inr (Or.inr (Or.inr hx))
    · rw [if_neg hw]
      refine ⟨_, rfl, { h with fl := hlt, q := ?_, done := ?_, comp := ?_ }⟩ <;> simp only
      · intro x hx
        exact h.q x (by rw [hdrop]; exact List.mem_cons_of_mem _ hx)
      · intro q hq
        rw [htake, List.map_append]
        exact List.mem_append_left _ (h.done q hq)
      · intro q l hq hw' hla
        rcases h.comp q l hq hw' hla with hx | hx | hx
        · exact Or.inl hx
        · rw [hdrop, List.map_cons, List.mem_cons] at hx
          rcases hx with hx | hx
          · exact absurd (hx ▸ hw') hw
          · exact Or.inr (Or.inl hx)
        · exact Or.inr (Or.inr hx)

theorem new_level {σ : St} (h : Inv σ) (hp : σ.probe = 0) : ∀ p ∈ σ.ptrail.drop σ.prop, (p, σ.dl) ∈ σ.trail := by
  intro p hpd
  obtain ⟨l, h1, h2⟩ := h.base p hpd
  have := h.lv _ h1
  simp only at this
  have : l = σ.dl := by omega
  rwa [← this]

theorem callProp_ok {σ : St} (h : Inv σ) (hp : σ.probe = 0) (hne : σ.prop ≠ σ.ptrail.length) : ∃ τ, callProp σ = some τ ∧ Inv τ := by
  have hnl := new_level h hp
  have hpr := h.pr
  cases hd : σ.ptrail.drop σ.prop with
  | nil => rw [List.drop_eq_nil_iff] at hd; omega
  | cons p ps =>
    rw [hd] at hnl
    have hl : σ.levelOf p.var = σ.dl := levelOf_eq h.nd (hnl p (by simp))
    simp only [callProp, hd]
    rw [if_pos hl]
    refine ⟨_, rfl, { h with pr := Nat.le_refl _, base := ?_, view := ?_, chk := h.chk, nst := ?_ }⟩ <;> simp only
    · intro q hq
      rw [List.drop_length] at hq; cases hq
    · obtain ⟨v, h1, h2, h3⟩ := h.view
      refine ⟨_, .propagate σ.dl (p :: ps) h1, ?_, ?_⟩
      · have hid : List.map (Prod.snd ∘ fun p : Lit => (σ.dl, p)) (p :: ps) = p :: ps := by simp [Function.comp_def]
        rw [List.map_append, h2, List.map_map, hid, ← hd, List.take_append_drop, List.take_length]
      · intro x hx
        rcases List.mem_append.mp hx with hx | hx
        · exact h3 x hx
        · obtain ⟨q, hq, rfl⟩ := List.mem_map.mp hx
          exact hnl q hq
    · intro e he
      obtain ⟨a1, a2, a3⟩ := h.nst e he
      exact ⟨by omega, fun hx => by have := a2 hx; omega, a3⟩

theorem callCheck_ok {σ : St} (h : Inv σ) : ∃ τ, callCheck σ = some τ ∧ Inv τ := by
  obtain ⟨us, ms, h1, r⟩ := check_ok h.pre fun h0 => h.ne _ h0 (Nat.le_refl _)
  simp only [callCheck, h1]
  refine ⟨_, rfl, { h with fr := r.fr, lev := r.lev, uwb := ?_, view := ?_, chk := ?_, fixm := ?_, nst := ?_, seen := ?_ }⟩ <;> simp only
  · intro l hl
    rcases r.le l hl with hx | hx
    · exact h.uwb l hx
    · omega
  · obtain ⟨v, h1, h2, h3⟩ := h.view
    exact ⟨v, .check _ _ h1, h2, h3⟩
  · intro f hf hf0
    simp at hf
    subst hf
    refine ⟨σ.dl, by simp [lastCheck], by simp, ?_, r.mem⟩
    intro e he
    exact h.lv e (List.mem_of_mem_take he)
  · intro _; simp
  · intro e he
    obtain ⟨a1, a2, a3⟩ := h.nst e he
    exact ⟨by omega, fun hx => by have := a2 hx; omega, fun hx => ⟨(a3 hx).1, (a3 hx).2.1, (a3 hx).2.2.imp_right (r.ge _)⟩⟩
  · intro l hl
    rcases List.mem_cons.mp hl with rfl | hl
    · exact r.mem
    · exact (h.seen l hl).imp_right (r.ge l)

theorem ctrlBegin_ok {σ : St} (h : Inv σ) : ∃ τ, ctrlBegin σ = some τ ∧ Inv τ := by
  obtain ⟨us, ms, h1, r⟩ := check_ok h.pre fun h0 => h.ne _ h0 (Nat.le_refl _)
  simp only [ctrlBegin, h1]
  refine ⟨_, rfl, { h with fr := r.fr, lev := r.lev, uwb := ?_, chk := ?_, nst := ?_, seen := ?_ }⟩ <;> simp only
  · intro l hl
    rcases r.le l hl with hx | hx
    · exact h.uwb l hx
    · omega
  · intro f hf hf0
    obtain ⟨l, a1, a2, a3, a4⟩ := h.chk f hf hf0
    exact ⟨l, a1, a2, a3, a4.imp_right (r.ge l)⟩
  · intro e he
    simp at he
    exact ⟨by omega, by simp, fun _ => ⟨trivial, Nat.le_refl _, r.mem⟩⟩
  · intro l hl
    exact (h.seen l hl).imp_right (r.ge l)

theorem addWatch_ok {σ : St} (h : Inv σ) (p : Lit) (ini : Bool) (hi : ini = true → σ.dl = 0) : ∃ τ, addWatch σ p ini = some τ ∧ Inv τ := by
  simp only [addWatch]
  by_cases hw : p ∈ σ.watch
  · rw [if_pos hw]; exact ⟨σ, rfl, h⟩
  · rw [if_neg hw]
    generalize hdn : (List.any (σ.trail.take σ.front) fun e => e.1 == p) = dn
    generalize hq : (List.any (σ.trail.drop σ.front) fun e => e.1 == p) = inq
    generalize hla : (if dn = true ∧ ¬ ini = true then p :: σ.late else σ.late) = la
    have hsplit : ∀ q l, (q, l) ∈ σ.trail → q ∈ (σ.trail.take σ.front).map Prod.fst ∨ q ∈ (σ.trail.drop σ.front).map Prod.fst := by
      intro q l hx
      rw [← List.take_append_drop σ.front σ.trail] at hx
      rcases List.mem_append.mp hx with hx | hx
      · exact Or.inl (List.mem_map.mpr ⟨_, hx, rfl⟩)
      · exact Or.inr (List.mem_map.mpr ⟨_, hx, rfl⟩)
    have hdn' : dn = true ↔ p ∈ (σ.trail.take σ.front).map Prod.fst := by
      rw [← hdn, List.any_eq_true, List.mem_map]; simp
    have hq' : inq = true ↔ p ∈ (σ.trail.drop σ.front).map Prod.fst := by
      rw [← hq, List.any_eq_true, List.mem_map]; simp
    have hsub : ∀ q, q ∉ la → q ∉ σ.late := by
      intro q hx hy; apply hx; rw [← hla]; split_ifs <;> simp [hy]
    by_cases hc : ini = true ∧ dn = true ∧ ¬ inq = true ∧ p ∉ σ.ptrail
    · rw [if_pos hc]
      obtain ⟨c1, c2, c3, c4⟩ := hc
      have hpd : (p, σ.dl) ∈ σ.trail := by
        obtain ⟨e, he, rfl⟩ := List.mem_map.mp (hdn'.mp c2)
        have hx := List.mem_of_mem_take he
        have := h.lv _ hx
        have h0 := hi c1
        have : e.2 = σ.dl := by omega
        rw [← this]; exact hx
      have hpre : Pre { σ with watch := p :: σ.watch, wat := p :: σ.wat, late := la } := ⟨h.fr, h.lev, h.uwb⟩
      obtain ⟨us, ms, h1, h2⟩ := notify_ok hpre hpd
      refine ⟨_, h1, ?_⟩
      exact h.notified (us := us) (ms := ms) hpd (wa := p :: σ.wat) ⟨by simp; exact fun q hq => Or.inr (h.wt.1 q hq), by simp; grind, by simp⟩ h.fl (Nat.le_refl _) (hdn'.mp c2) c4 ⟨h2.fr, h2.lev, h2.le, h2.ge⟩ fun q l hqt hw hl => by
        rcases List.mem_cons.mp hw with hx | hx
        · exact Or.inl hx
        · exact Or.inr (h.comp q l hqt hx (hsub q hl))
    · rw [if_neg hc]
      refine ⟨_, rfl, { h with comp := ?_, wt := ⟨by simp; exact fun q hq => Or.inr (h.wt.1 q hq), by simp; exact fun q hq => Or.inr (h.wt.2 q hq)⟩ }⟩ <;> simp only
      intro q l hqt hw hl
      rcases List.mem_cons.mp hw with rfl | hx
      · rcases hsplit q l hqt with hx | hx
        · left
          have hd := hdn'.mpr hx
          by_cases hini : ini = true
          · have hniq : ¬ inq = true := by
              intro hy
              have nd := h.nd
              rw [← List.take_append_drop σ.front σ.trail, List.map_append, List.nodup_append] at nd
              obtain ⟨a, ha, ha2⟩ := List.mem_map.mp hx
              obtain ⟨b, hb, hb2⟩ := List.mem_map.mp (hq'.mp hy)
              exact nd.2.2 _ (List.mem_map.mpr ⟨a, ha, rfl⟩) _ (List.mem_map.mpr ⟨b, hb, rfl⟩) (by rw [ha2, hb2])
            by_contra hcon
            exact hc ⟨hini, hd, hniq, hcon⟩
          · exfalso
            apply hl
            rw [← hla, if_pos ⟨hd, hini⟩]
            simp
        · exact Or.inr (Or.inl hx)
      · exact h.comp q l hqt hx (hsub q hl)

theorem Inv.step {σ τ : St} (h : Inv σ) (s : Step σ τ) : Inv τ := by
  cases s with
  | assign p hc hp => exact h.grow (d := σ.dl) (pb := σ.probe) hp (Or.inl rfl) (Or.inl (Nat.le_refl _)) hc
  | dequeue hc hd =>
    obtain ⟨τ', h1, h2⟩ := dequeue_ok h
    rw [hd] at h1; cases h1; exact h2
  | conflict => exact h.conflict
  | decide p hc hp hq _ _ h0 hs =>
    have hs' : σ.prop = σ.ptrail.length := by simp [settled] at hs; exact hs.1
    exact h.grow (d := σ.dl + 1) (pb := σ.probe) hp (Or.inr ⟨rfl, hq⟩) (Or.inr hs') hc
  | test p hc hp hq => exact h.grow (d := σ.dl + 1) (pb := σ.probe + 1) hp (Or.inr ⟨rfl, hq⟩) (Or.inl (by omega)) hc
  | pop h0 hp =>
    obtain ⟨τ', h1, h2, _⟩ := pop_ok h h0
    rw [hp] at h1; cases h1; exact h2
  | propagate _ _ hp _ hn hc =>
    obtain ⟨τ', h1, h2⟩ := callProp_ok h hp hn
    rw [hc] at h1; cases h1; exact h2
  | check _ _ hp _ hn _ hc =>
    obtain ⟨τ', h1, h2⟩ := callCheck_ok h
    rw [hc] at h1; cases h1; exact h2
  | ret _ => exact { h with }
  | ctrlBegin _ _ _ hc =>
    obtain ⟨τ', h1, h2⟩ := ctrlBegin_ok h
    rw [hc] at h1; cases h1; exact h2
  | ctrlEnd _ => exact { h with nst := fun e he => nomatch he }
  | addWatch p _ ha =>
    obtain ⟨τ', h1, h2⟩ := addWatch_ok h p false (fun hx => nomatch hx)
    rw [ha] at h1; cases h1; exact h2
  | initWatch p _ _ _ h0 ha =>
    obtain ⟨τ', h1, h2⟩ := addWatch_ok h p true (fun _ => h0)
    rw [ha] at h1; cases h1; exact h2
  | removeWatch p _ => exact { h with wt := ⟨fun q hq => h.wt.1 q (List.mem_filter.mp hq).1, h.wt.2⟩, comp := fun q l hq hw hl => h.comp q l hq (List.mem_filter.mp hw).1 hl }
  | init t f a _ hm _ =>
    refine { h with chk := ?_, fixm := ?_ }
    · intro g hg hg0
      simp only [init] at hg
      split_ifs at hg
      · simp at hg; omega
    · intro hx
      simp only [init] at hx ⊢
      rcases hx with hx | hx
      · simp [hx]
      · rw [hm] at hx; cases hx
  | modelBegin _ _ _ _ _ _ =>
    refine { h with chk := ?_, fixm := ?_ }
    · intro g hg hg0
      simp [modelBegin] at hg; omega
    · intro _; simp [modelBegin]
  | modelEnd _ _ =>
    refine { h with chk := ?_, fixm := ?_ }
    · intro g hg hg0
      simp only [modelEnd] at hg
      split_ifs at hg
      · exact h.chk g hg hg0
    · intro hx
      simp [modelEnd] at hx ⊢
      exact ⟨hx, h.fixm (Or.inl hx)⟩

theorem Reach.inv {σ : St} (r : Reach σ) : Inv σ := by
  induction r with
  | start => exact Inv.start
  | step _ s ih => exact ih.step s

end Clasp.Clingo
