/- Lemmas for C13: the first-UIP loop. -/
import Verif.Core.Analyze
import Verif.Core.TrailWF
import Verif.Core.Sem
namespace Clasp.Core
open St

theorem trail_sorted {s : St} (h : s.WF) : s.trail.Pairwise (fun a b => s.level b.var ≤ s.level a.var) := by
  rw [List.pairwise_iff_getElem]
  intro i j hi hj hij
  have pos : ∀ k (hk : k < s.trail.length), s.level (s.trail[k]).var = posLev s.lv (s.trail.length - 1 - k) := by
    intro k hk
    apply h.lev
    rw [List.getElem?_reverse (by omega)]
    have : s.trail.length - 1 - (s.trail.length - 1 - k) = k := by omega
    rw [this, List.getElem?_eq_getElem hk]
  rw [pos i hi, pos j hj]
  unfold posLev
  apply List.countP_mono_left
  intro x _ hx
  simp only [decide_eq_true_eq] at hx ⊢
  omega

/-- What conflict analysis relies on. -/
structure AnaPre (F : Asg → Prop) (s : St) : Prop where
  wf : s.WF
  dl : 0 < s.dl
  tt : ∀ M, F M → M.sat litTrue
  tcell : s.seen 0 = true ∧ s.level 0 = 0
  tval : s.value 0 = some true
  toff : ∀ q ∈ s.trail, q.var ≠ 0
  asg : ∀ v, s.value v ≠ none → v = 0 ∨ ∃ q ∈ s.trail, q.var = v
  marks : ∀ q ∈ s.trail, s.seen q.var = true ↔ s.level q.var = 0
  zero : ∀ q ∈ s.trail, s.level q.var = 0 → ∀ M, F M → M.sat q
  reason : ∀ t1 p t2, s.trail = t1 ++ p :: t2 → ∀ r, s.reason p.var = some r →
    (∀ q ∈ r, q = litTrue ∨ q ∈ t2) ∧ ∀ M, F M → M.all r → M.sat p
  top : ∀ t1 p t2, s.trail = t1 ++ p :: t2 → s.level p.var = s.dl → s.reason p.var = none → ∀ q ∈ t2, s.level q.var < s.dl
  conf : ∀ q ∈ s.conflict, q = litTrue ∨ q ∈ s.trail
  confF : ∀ M, F M → ¬ M.all s.conflict
  confTop : ∃ q ∈ s.conflict, s.level q.var = s.dl

/-- Invariant of the loop: `pre ++ u` is the trail, everything marked lies in `u`. -/
structure AInv (F : Asg → Prop) (s : St) (a : Ana) (pre u conf : List Lit) : Prop where
  trail : a.st.trail = pre ++ u
  suf : ∃ w, s.trail = w ++ (pre ++ u) ∧ ∀ q ∈ w, a.st.cell q.var = Cell.free
  cells : ∀ q ∈ pre ++ u, (a.st.cell q.var).val = (s.cell q.var).val ∧ (a.st.cell q.var).lev = (s.cell q.var).lev
  off : ∀ v, (∀ q ∈ s.trail, q.var ≠ v) → a.st.cell v = s.cell v
  same : a.st = { s with cell := a.st.cell, trail := a.st.trail }
  preU : ∀ q ∈ pre, a.st.cell q.var = { s.cell q.var with seen := (false, false) }
  flag : ∀ q ∈ u, a.st.seen q.var = false → a.st.cell q.var = { s.cell q.var with seen := (false, false) }
  zc : ∀ q ∈ pre ++ u, s.level q.var = 0 → a.st.cell q.var = s.cell q.var
  confU : ∀ q ∈ conf, q = litTrue ∨ q ∈ u
  ccP : ∀ c ∈ a.cc, c.neg ∈ u ∧ 0 < s.level c.var ∧ s.level c.var < s.dl ∧ a.st.seen c.var = true
  ccN : (a.cc.map Lit.var).Nodup
  mid : ∀ q ∈ u, 0 < s.level q.var → s.level q.var < s.dl → a.st.seen q.var = true → q.neg ∈ a.cc
  count : a.onLevel = u.countP (fun q => decide (s.level q.var = s.dl) && a.st.seen q.var)
  lm : ∀ k, a.lm k = true ↔ ∃ c ∈ a.cc, s.level c.var = k
  sem : ∀ M, F M → M.all conf → (∀ q ∈ u, s.level q.var = s.dl → a.st.seen q.var = true → M.sat q) →
    (∀ c ∈ a.cc, M.sat c.neg) → False

theorem countP_or_one {u : List Lit} (hn : (u.map Lit.var).Nodup) {q : Lit} (hq : q ∈ u) (P Q : Lit → Bool) (hP : P q = false)
    (hQ : ∀ x, Q x = (P x || decide (x.var = q.var))) : u.countP Q = u.countP P + 1 := by
  induction u with
  | nil => simp at hq
  | cons x u ih =>
    simp only [List.map_cons, List.nodup_cons] at hn
    simp only [List.countP_cons]
    rcases List.mem_cons.1 hq with e | hq
    · subst e
      have h1 : u.countP Q = u.countP P := by
        apply List.countP_congr
        intro y hy
        have : y.var ≠ q.var := fun e => hn.1 (e ▸ List.mem_map_of_mem hy)
        simp [hQ, this]
      rw [h1, hQ q, hP]; simp
    · rw [ih hn.2 hq]
      have : x.var ≠ q.var := fun e => hn.1 (e ▸ List.mem_map_of_mem hq)
      rw [hQ x]; simp [this]; omega

theorem nodup_suffix {s : St} (h : s.WF) {w u : List Lit} (e : s.trail = w ++ u) : (u.map Lit.var).Nodup := by
  have := h.nodup
  rw [e, List.map_append, List.nodup_append] at this
  exact this.2.1

theorem same_var_eq {s : St} (h : s.WF) {p q : Lit} (hp : p ∈ s.trail) (hq : q ∈ s.trail) (e : p.var = q.var) : p = q := by
  have h1 := h.val p hp
  have h2 := h.val q hq
  rw [e, h2] at h1
  cases p with | mk v a => cases q with | mk w b =>
  simp only at e; subst e
  cases a <;> cases b <;> simp [Lit.tv] at h1 ⊢

theorem seen_update (c : Nat → Cell) (v w : Nat) (f : Bool) :
    (Function.update c v { c v with seen := (f, f) } w).marked = if w = v then f else (c w).marked := by
  by_cases e : w = v
  · subst e; cases f <;> simp [Cell.marked]
  · simp [e]

theorem markLoop_inv {F : Asg → Prop} {s : St} (hp : AnaPre F s) (conf : List Lit) {a : Ana} {pre u : List Lit}
    (h : AInv F s a pre u conf) : AInv F s (markLoop conf a) pre u [] ∧ a.onLevel ≤ (markLoop conf a).onLevel ∧
      ((∃ q ∈ conf, s.level q.var = s.dl) → 0 < (markLoop conf a).onLevel) := by
  induction conf generalizing a with
  | nil => exact ⟨h, Nat.le_refl _, by simp⟩
  | cons q r ih =>
    obtain ⟨w, hw, hwf⟩ := h.suf
    have hmemT : ∀ x ∈ pre ++ u, x ∈ s.trail := fun x hx => by rw [hw]; simp only [List.mem_append] at hx ⊢; exact Or.inr hx
    have hq := h.confU q (by simp)
    have hdl : a.st.dl = s.dl := by rw [h.same]; rfl
    by_cases hseen : a.st.seen q.var = true
    · have hm : markLoop (q :: r) a = markLoop r a := by simp only [markLoop, hseen, if_true]
      rw [hm]
      have hsem : ∀ M, F M → (∀ q ∈ u, s.level q.var = s.dl → a.st.seen q.var = true → M.sat q) →
          (∀ c ∈ a.cc, M.sat c.neg) → M.sat q := by
        intro M hM hu hc
        rcases hq with e | hqu
        · rw [e]; exact hp.tt M hM
        · have hqt := hmemT q (by simp [hqu])
          rcases Nat.lt_trichotomy (s.level q.var) s.dl with hlt | heq | hgt
          · by_cases h0 : s.level q.var = 0
            · exact hp.zero q hqt h0 M hM
            · have := hc _ (h.mid q hqu (by omega) hlt hseen)
              simpa using this
          · exact hu q hqu heq hseen
          · exact absurd (trail_lev_le hp.wf hqt) (by omega)
      have h' : AInv F s a pre u r := { h with
        confU := fun x hx => h.confU x (by simp [hx])
        sem := fun M hM hr hu hc => h.sem M hM (fun x hx => by
          rcases List.mem_cons.1 hx with e | hx
          · rw [e]; exact hsem M hM hu hc
          · exact hr x hx) hu hc }
      have := ih h'
      refine ⟨this.1, this.2.1, fun ⟨x, hx, hxl⟩ => ?_⟩
      rcases List.mem_cons.1 hx with e | hx
      · subst e
        refine Nat.lt_of_lt_of_le ?_ this.2.1
        rw [h.count, List.countP_pos_iff]
        rcases hq with e | hqu
        · exfalso
          rw [e] at hxl
          have h1 := hp.tcell.2
          have h2 := hp.dl
          simp only [litTrue] at hxl; omega
        · exact ⟨x, hqu, by simp [hxl, hseen]⟩
      · exact this.2.2 ⟨x, hx, hxl⟩
    · have hseen : a.st.seen q.var = false := by simpa using hseen
      have hqu : q ∈ u := by
        rcases hq with e | hq
        · exfalso
          have h0 : a.st.seen 0 = true := by
            unfold St.seen
            rw [h.off 0 hp.toff]; exact hp.tcell.1
          rw [e] at hseen; simp only [litTrue] at hseen; rw [h0] at hseen; exact absurd hseen (by simp)
        · exact hq
      have hqpu : q ∈ pre ++ u := by simp [hqu]
      have hqt := hmemT q hqpu
      have hlev : a.st.level q.var = s.level q.var := (h.cells q hqpu).2
      have hne0 : s.level q.var ≠ 0 := by
        intro h0
        have := h.zc q hqpu h0
        unfold St.seen at hseen
        rw [this] at hseen
        have h2 := (hp.marks q hqt).2 h0
        unfold St.seen at h2
        rw [h2] at hseen; exact absurd hseen (by simp)
      have hle := trail_lev_le hp.wf hqt
      have hnd := nodup_suffix hp.wf hw
      have hqpre : ∀ x ∈ pre, x.var ≠ q.var := by
        intro x hx e
        rw [List.map_append, List.nodup_append] at hnd
        exact hnd.2.2 _ (List.mem_map_of_mem hx) _ (List.mem_map_of_mem hqu) e
      have hqw : ∀ x ∈ w, x.var ≠ q.var := by
        intro x hx e
        have hnd' := hp.wf.nodup
        rw [hw, List.map_append, List.nodup_append] at hnd'
        exact hnd'.2.2 _ (List.mem_map_of_mem hx) _ (List.mem_map_of_mem hqpu) e
      have hndu : (u.map Lit.var).Nodup := by
        rw [List.map_append, List.nodup_append] at hnd; exact hnd.2.1
      -- the new solver state
      let st := a.st.markSeen q.var
      have hst : st = a.st.markSeen q.var := rfl
      have hsn : ∀ v, st.seen v = if v = q.var then true else a.st.seen v := by
        intro v; exact seen_update a.st.cell q.var v true
      have hcell : ∀ v, v ≠ q.var → st.cell v = a.st.cell v := by
        intro v hv; simp [hst, St.markSeen, hv]
      have hcq : st.cell q.var = { a.st.cell q.var with seen := (true, true) } := by simp [hst, St.markSeen]
      have common : ∀ (a' : Ana), a'.st = st → (∀ c ∈ a'.cc, c.neg ∈ u ∧ 0 < s.level c.var ∧ s.level c.var < s.dl ∧ st.seen c.var = true) →
          (a'.cc.map Lit.var).Nodup →
          (∀ q ∈ u, 0 < s.level q.var → s.level q.var < s.dl → st.seen q.var = true → q.neg ∈ a'.cc) →
          a'.onLevel = u.countP (fun q => decide (s.level q.var = s.dl) && st.seen q.var) →
          (∀ k, a'.lm k = true ↔ ∃ c ∈ a'.cc, s.level c.var = k) →
          (∀ M : Asg, (∀ x ∈ u, s.level x.var = s.dl → st.seen x.var = true → M.sat x) → (∀ c ∈ a'.cc, M.sat c.neg) →
            M.sat q ∧ (∀ x ∈ u, s.level x.var = s.dl → a.st.seen x.var = true → M.sat x) ∧ (∀ c ∈ a.cc, M.sat c.neg)) →
          AInv F s a' pre u r := by
        intro a' e1 e2 e3 e4 e5 e6 e7
        refine ⟨by rw [e1]; exact h.trail, ⟨w, hw, fun x hx => ?_⟩, fun x hx => ?_, fun v hv => ?_, ?_, fun x hx => ?_, fun x hx hs => ?_,
          fun x hx h0 => ?_, fun x hx => h.confU x (by simp [hx]), by rw [e1]; exact e2, e3, by rw [e1]; exact e4, by rw [e1]; exact e5, e6, ?_⟩
        · rw [e1, hcell _ (hqw x hx)]; exact hwf x hx
        · rw [e1]
          by_cases e : x.var = q.var
          · rw [e, hcq]; exact h.cells q hqpu
          · rw [hcell _ e]; exact h.cells x hx
        · rw [e1, hcell]
          · exact h.off v hv
          · exact fun e => hv q hqt e.symm
        · rw [e1]
          show st = { s with cell := st.cell, trail := a.st.trail }
          have := h.same
          rw [hst]; unfold St.markSeen
          conv => lhs; rw [this]
        · rw [e1, hcell _ (hqpre x hx)]; exact h.preU x hx
        · rw [e1] at hs ⊢
          rw [hsn] at hs
          by_cases e : x.var = q.var
          · simp [e] at hs
          · rw [hcell _ e]; rw [if_neg e] at hs; exact h.flag x hx hs
        · rw [e1, hcell]
          · exact h.zc x hx h0
          · intro e; rw [e] at h0; exact hne0 h0
        · rw [e1]
          intro M hM hr hu hc
          have h7 := e7 M hu hc
          refine h.sem M hM (fun x hx => ?_) h7.2.1 h7.2.2
          rcases List.mem_cons.1 hx with e | hx
          · rw [e]; exact h7.1
          · exact hr x hx
      have hsu : ∀ x ∈ u, a.st.seen x.var = true → st.seen x.var = true := by
        intro x _ hx; rw [hsn]; split <;> simp_all
      by_cases hD : s.level q.var = s.dl
      · have hm : markLoop (q :: r) a = markLoop r { a with st := st, onLevel := a.onLevel + 1 } := by
          simp only [markLoop, hseen, hlev, hdl, hD, if_true, hst]; rfl
        rw [hm]
        have h' : AInv F s { a with st := st, onLevel := a.onLevel + 1 } pre u r := by
          refine common _ rfl (fun c hc => ?_) h.ccN (fun x hx h1 h2 h3 => ?_) ?_ h.lm (fun M hu hc => ⟨?_, ?_, hc⟩)
          · have := h.ccP c hc
            refine ⟨this.1, this.2.1, this.2.2.1, ?_⟩
            rw [hsn]; split
            · rfl
            · exact this.2.2.2
          · refine h.mid x hx h1 h2 ?_
            rw [hsn] at h3
            split at h3
            · rename_i e; rw [e] at h2; omega
            · exact h3
          · show a.onLevel + 1 = _
            rw [h.count]
            symm
            apply countP_or_one hndu hqu
            · simp [hseen]
            · intro x
              rw [hsn]
              by_cases e : x.var = q.var
              · simp [e, hD]
              · simp [e]
          · exact hu q hqu hD (by rw [hsn]; simp)
          · exact fun x hx h1 h2 => hu x hx h1 (hsu x hx h2)
        have := ih h'
        refine ⟨this.1, ?_, fun _ => ?_⟩
        · have := this.2.1; simp only at this; omega
        · have := this.2.1; simp only at this; omega
      · have hm : markLoop (q :: r) a = markLoop r { a with st := st, cc := a.cc ++ [q.neg], lm := Function.update a.lm (s.level q.var) true } := by
          simp only [markLoop, hseen, hlev, hdl, hD, if_false, hst]; rfl
        rw [hm]
        have hncc : q.var ∉ a.cc.map Lit.var := by
          intro hm
          obtain ⟨c, hc, e⟩ := List.mem_map.1 hm
          have := (h.ccP c hc).2.2.2
          rw [e, hseen] at this; exact absurd this (by simp)
        have h' : AInv F s { a with st := st, cc := a.cc ++ [q.neg], lm := Function.update a.lm (s.level q.var) true } pre u r := by
          refine common _ rfl (fun c hc => ?_) ?_ (fun x hx h1 h2 h3 => ?_) ?_ (fun k => ?_) (fun M hu hc => ⟨?_, ?_, ?_⟩)
          · rcases List.mem_append.1 hc with hc | hc
            · have := h.ccP c hc
              refine ⟨this.1, this.2.1, this.2.2.1, ?_⟩
              rw [hsn]; split
              · rfl
              · exact this.2.2.2
            · simp only [List.mem_singleton] at hc
              subst hc
              refine ⟨by simpa using hqu, by simp; omega, by simp; omega, by rw [hsn]; simp⟩
          · show ((a.cc ++ [q.neg]).map Lit.var).Nodup
            rw [List.map_append, List.nodup_append]
            refine ⟨h.ccN, by simp, fun x hx y hy e => ?_⟩
            simp only [List.map_cons, List.map_nil, List.mem_singleton, Lit.neg_var] at hy
            subst hy e; exact hncc hx
          · show x.neg ∈ a.cc ++ [q.neg]
            rw [hsn] at h3
            split at h3
            · rename_i e
              have : x = q := same_var_eq hp.wf (hmemT x (by simp [hx])) hqt e
              subst this; simp
            · exact List.mem_append_left _ (h.mid x hx h1 h2 h3)
          · show a.onLevel = _
            rw [h.count]
            apply List.countP_congr
            intro x hx
            rw [hsn]
            by_cases e : x.var = q.var
            · simp [e, hD]
            · simp [e]
          · show Function.update a.lm (s.level q.var) true k = true ↔ ∃ c ∈ a.cc ++ [q.neg], s.level c.var = k
            by_cases e : k = s.level q.var
            · subst e
              simp only [Function.update_self, true_iff]
              exact ⟨q.neg, by simp, rfl⟩
            · rw [Function.update_of_ne e, h.lm]
              constructor
              · rintro ⟨c, hc, hk⟩; exact ⟨c, by simp [hc], hk⟩
              · rintro ⟨c, hc, hk⟩
                rcases List.mem_append.1 hc with hc | hc
                · exact ⟨c, hc, hk⟩
                · simp only [List.mem_singleton] at hc; subst hc
                  exact absurd hk.symm e
          · have := hc q.neg (by simp)
            simpa using this
          · exact fun x hx h1 h2 => hu x hx h1 (hsu x hx h2)
          · exact fun c hc' => hc c (by simp [hc'])
        have := ih h'
        refine ⟨this.1, this.2.1, fun ⟨x, hx, hxl⟩ => ?_⟩
        rcases List.mem_cons.1 hx with e | hx
        · subst e; exact absurd hxl hD
        · exact this.2.2 ⟨x, hx, hxl⟩

theorem popUnseen_eq (c : Nat → Cell) (t1 : List Lit) (p : Lit) (t2 : List Lit) (h1 : ∀ q ∈ t1, (c q.var).marked = false)
    (hp : (c p.var).marked = true) (hn : ((t1 ++ p :: t2).map Lit.var).Nodup) :
    popUnseen c (t1 ++ p :: t2) = (fun v => if v ∈ t1.map Lit.var then Cell.free else c v, p :: t2) := by
  induction t1 generalizing c with
  | nil => simp [popUnseen, hp]
  | cons x t ih =>
    have hx := h1 x (by simp)
    simp only [List.cons_append, popUnseen, hx, Bool.false_eq_true, if_false]
    simp only [List.cons_append, List.map_cons, List.nodup_cons] at hn
    rw [ih]
    · simp only [Prod.mk.injEq, and_true]
      funext v
      by_cases hv : v ∈ t.map Lit.var
      · simp [hv]
      · by_cases e : v = x.var
        · subst e; simp
        · simp [e, hv]
    · intro q hq
      have : q.var ≠ x.var := fun e => hn.1 (e ▸ List.mem_map_of_mem (by simp [hq]))
      rw [Function.update_of_ne this]; exact h1 q (by simp [hq])
    · have : p.var ≠ x.var := fun e => hn.1 (e ▸ List.mem_map_of_mem (by simp))
      rw [Function.update_of_ne this]; exact hp
    · exact hn.2

/-- What the loop delivers. -/
structure UipPost (F : Asg → Prop) (s : St) (a : Ana) (p : Lit) (u : List Lit) : Prop where
  inv : AInv (fun M => F M ∧ M.sat p) s a [p] u []
  lev : s.level p.var = s.dl
  noTop : ∀ q ∈ u, s.level q.var = s.dl → a.st.seen q.var = false
  clause : ∀ M, F M → M.satC (p.neg :: a.cc)

theorem anaLoop_spec {F : Asg → Prop} {s : St} (hp : AnaPre F s) (fuel : Nat) {a : Ana} {pre u conf : List Lit}
    (h : AInv F s a pre u conf) (hf : u.length < fuel) (hex : 0 < a.onLevel ∨ ∃ q ∈ conf, s.level q.var = s.dl) :
    ∃ a' p u', anaLoop fuel a conf = some (a', p) ∧ UipPost F s a' p u' := by
  induction fuel generalizing a pre u conf with
  | zero => omega
  | succ fuel ih =>
    obtain ⟨h1, hle, hpos⟩ := markLoop_inv hp conf h
    have hon : 0 < (markLoop conf a).onLevel := by
      rcases hex with h0 | h0
      · omega
      · exact hpos h0
    have hon' : ¬ (markLoop conf a).onLevel = 0 := by omega
    simp only [anaLoop]
    generalize markLoop conf a = b at h1 hon hon'
    rw [if_neg hon']
    obtain ⟨w, hw, hwf⟩ := h1.suf
    have hmemT : ∀ x ∈ pre ++ u, x ∈ s.trail := fun x hx => by rw [hw]; simp only [List.mem_append] at hx ⊢; exact Or.inr hx
    -- the topmost marked literal
    have hc := hon
    rw [h1.count, List.countP_pos_iff] at hc
    obtain ⟨q0, hq0, hq0s⟩ := hc
    simp only [Bool.and_eq_true, decide_eq_true_eq] at hq0s
    obtain ⟨u1, p, u2, hu, hu1, hps⟩ : ∃ u1 p u2, u = u1 ++ p :: u2 ∧ (∀ q ∈ u1, b.st.seen q.var = false) ∧ b.st.seen p.var = true := by
      have : ∀ l : List Lit, (∃ q ∈ l, b.st.seen q.var = true) →
          ∃ u1 p u2, l = u1 ++ p :: u2 ∧ (∀ q ∈ u1, b.st.seen q.var = false) ∧ b.st.seen p.var = true := by
        intro l; induction l with
        | nil => rintro ⟨q, hq, _⟩; simp at hq
        | cons x l ihl =>
          rintro ⟨q, hq, hqs⟩
          by_cases hx : b.st.seen x.var = true
          · exact ⟨[], x, l, rfl, by simp, hx⟩
          · rcases List.mem_cons.1 hq with e | hq
            · subst e; exact absurd hqs hx
            · obtain ⟨u1, p, u2, e, h1, h2⟩ := ihl ⟨q, hq, hqs⟩
              refine ⟨x :: u1, p, u2, by simp [e], fun y hy => ?_, h2⟩
              rcases List.mem_cons.1 hy with e | hy
              · subst e; simpa using hx
              · exact h1 y hy
      exact this u ⟨q0, hq0, hq0s.2⟩
    have hpu : p ∈ u := by rw [hu]; simp
    have hpt := hmemT p (by simp [hpu])
    have hsort := trail_sorted hp.wf
    have hlp : s.level p.var = s.dl := by
      have hle := trail_lev_le hp.wf hpt
      have hq : q0 = p ∨ q0 ∈ u2 := by
        rw [hu] at hq0
        simp only [List.mem_append, List.mem_cons] at hq0
        rcases hq0 with h0 | h0 | h0
        · exact absurd hq0s.2 (by rw [hu1 q0 h0]; simp)
        · exact Or.inl h0
        · exact Or.inr h0
      rcases hq with e | hq
      · rw [← e]; exact hq0s.1
      · rw [hw, hu] at hsort
        have h2 := (List.pairwise_append.1 (List.pairwise_append.1 (List.pairwise_append.1 hsort).2.1).2.1).2.1
        have h3 := (List.pairwise_cons.1 h2).1 q0 hq
        omega
    have hnd := nodup_suffix hp.wf hw
    have htr : b.st.trail = (pre ++ u1) ++ p :: u2 := by rw [h1.trail, hu]; simp
    have hnd2 : (((pre ++ u1) ++ p :: u2).map Lit.var).Nodup := by
      have : (pre ++ u1) ++ p :: u2 = pre ++ u := by rw [hu]; simp
      rw [this]; exact hnd
    have hpop := popUnseen_eq b.st.cell (pre ++ u1) p u2 (by
      intro q hq
      rcases List.mem_append.1 hq with hq | hq
      · rw [h1.preU q hq]; rfl
      · exact hu1 q hq) hps hnd2
    rw [htr, hpop]
    simp only
    set c' : Nat → Cell := fun v => if v ∈ (pre ++ u1).map Lit.var then Cell.free else b.st.cell v with hc'
    set st' : St := ({ b.st with cell := c', trail := p :: u2 } : St).clearSeen p.var with hst'
    have hnpre : ∀ x ∈ p :: u2, x.var ∉ (pre ++ u1).map Lit.var := by
      intro x hx hm
      rw [List.map_append, List.nodup_append] at hnd2
      exact hnd2.2.2 _ hm _ (List.mem_map_of_mem hx) rfl
    have hnp : ∀ x ∈ u2, x.var ≠ p.var := by
      intro x hx e
      rw [List.map_append, List.nodup_append] at hnd2
      have := hnd2.2.1
      simp only [List.map_cons, List.nodup_cons] at this
      exact this.1 (e ▸ List.mem_map_of_mem hx)
    have hcell : ∀ v, v ≠ p.var → st'.cell v = c' v := by
      intro v hv; simp [hst', St.clearSeen, hv]
    have hcp : st'.cell p.var = { b.st.cell p.var with seen := (false, false) } := by
      have : c' p.var = b.st.cell p.var := if_neg (hnpre p (by simp))
      simp [hst', St.clearSeen, this]
    have hc2 : ∀ x ∈ u2, st'.cell x.var = b.st.cell x.var := by
      intro x hx
      rw [hcell _ (hnp x hx)]
      exact if_neg (hnpre x (by simp [hx]))
    have hs2 : ∀ x ∈ u2, st'.seen x.var = b.st.seen x.var := by
      intro x hx; unfold St.seen; rw [hc2 x hx]
    have hin : ∀ c ∈ b.cc, c.neg ∈ u2 := by
      intro c hc
      have := h1.ccP c hc
      have h3 := this.1
      rw [hu] at h3
      simp only [List.mem_append, List.mem_cons] at h3
      rcases h3 with h3 | h3 | h3
      · have := hu1 _ h3
        simp only [Lit.neg_var] at this
        rw [(h1.ccP c hc).2.2.2] at this; exact absurd this (by simp)
      · have e : c.var = p.var := by rw [← h3]; rfl
        rw [e, hlp] at this; omega
      · exact h3
    have hsplit : s.trail = (w ++ (pre ++ u1)) ++ p :: u2 := by rw [hw, hu]; simp
    have hcount : u2.countP (fun q => decide (s.level q.var = s.dl) && st'.seen q.var) = b.onLevel - 1 := by
      have e1 : u2.countP (fun q => decide (s.level q.var = s.dl) && st'.seen q.var) =
          u2.countP (fun q => decide (s.level q.var = s.dl) && b.st.seen q.var) := by
        apply List.countP_congr; intro x hx; rw [hs2 x hx]
      have e2 : u1.countP (fun q => decide (s.level q.var = s.dl) && b.st.seen q.var) = 0 := by
        rw [List.countP_eq_zero]; intro x hx; rw [hu1 x hx]; simp
      rw [e1, h1.count, hu, List.countP_append, List.countP_cons, e2]
      simp [hlp, hps]
    -- invariant for the shorter trail
    have hinv : ∀ (F' : Asg → Prop) (r : List Lit), (∀ M, F' M → F M) → (∀ q ∈ r, q = litTrue ∨ q ∈ u2) →
        (∀ M, F' M → M.all r → M.sat p) → AInv F' s { b with st := st', onLevel := b.onLevel - 1 } [p] u2 r := by
      intro F' r hF' hr1 hr2
      refine ⟨by simp [hst', St.clearSeen], ⟨w ++ (pre ++ u1), by rw [hsplit]; simp, fun x hx => ?_⟩, fun x hx => ?_, fun v hv => ?_, ?_, fun x hx => ?_,
        fun x hx hs => ?_, fun x hx h0 => ?_, hr1, fun c hc => ?_, h1.ccN, fun x hx h3 h4 h5 => ?_, hcount.symm, h1.lm, ?_⟩
      · have hnd' := hp.wf.nodup
        rw [hsplit, List.map_append, List.nodup_append] at hnd'
        have hxp : x.var ≠ p.var := fun e => hnd'.2.2 _ (List.mem_map_of_mem hx) _ (List.mem_map_of_mem List.mem_cons_self) e
        show st'.cell x.var = _
        rw [hcell _ hxp]
        rcases List.mem_append.1 hx with hx | hx
        · simp only [hc']
          split
          · rfl
          · exact hwf x hx
        · exact if_pos (List.mem_map_of_mem hx)
      · rcases List.mem_append.1 hx with hx | hx
        · simp only [List.mem_singleton] at hx; subst hx
          show (st'.cell x.var).val = _ ∧ _
          rw [hcp]; exact h1.cells x (by simp [hpu])
        · show (st'.cell x.var).val = _ ∧ (st'.cell x.var).lev = _
          rw [hc2 x hx]; exact h1.cells x (by rw [hu]; simp [hx])
      · show st'.cell v = _
        have : v ≠ p.var := fun e => hv p hpt e.symm
        rw [hcell v this]
        have hnv : v ∉ (pre ++ u1).map Lit.var := by
          intro hm
          obtain ⟨x, hx, e⟩ := List.mem_map.1 hm
          refine hv x (hmemT x ?_) e
          rw [hu]
          simp only [List.mem_append] at hx ⊢
          rcases hx with hx | hx
          · exact Or.inl hx
          · exact Or.inr (Or.inl hx)
        simp only [hc', if_neg hnv]
        exact h1.off v hv
      · show st' = { s with cell := st'.cell, trail := st'.trail }
        rw [hst']; unfold St.clearSeen
        have := h1.same
        conv => lhs; rw [this]
      · simp only [List.mem_singleton] at hx; subst hx
        show st'.cell x.var = _
        rw [hcp]
        have := h1.cells x (by simp [hpu])
        cases hx1 : b.st.cell x.var with | mk v1 s1 l1 =>
        cases hx2 : s.cell x.var with | mk v2 s2 l2 =>
        rw [hx1, hx2] at this
        simp only at this
        rw [this.1, this.2]
      · show st'.cell x.var = _
        have hs : st'.seen x.var = false := hs
        rw [hc2 x hx]
        exact h1.flag x (by rw [hu]; simp [hx]) (by rw [← hs2 x hx]; exact hs)
      · show st'.cell x.var = _
        rcases List.mem_append.1 hx with hx | hx
        · simp only [List.mem_singleton] at hx; subst hx
          have := hp.dl; omega
        · rw [hc2 x hx]; exact h1.zc x (by rw [hu]; simp [hx]) h0
      · have := h1.ccP c hc
        refine ⟨hin c hc, this.2.1, this.2.2.1, ?_⟩
        show st'.seen c.var = true
        have := hs2 _ (hin c hc)
        simp only [Lit.neg_var] at this
        rw [this]; exact (h1.ccP c hc).2.2.2
      · have h5 : st'.seen x.var = true := h5
        rw [hs2 x hx] at h5
        exact h1.mid x (by rw [hu]; simp [hx]) h3 h4 h5
      · intro M hM hr hu' hc
        have hMp := hr2 M hM hr
        refine h1.sem M (hF' M hM) (fun _ h => by simp at h) (fun x hx h3 h4 => ?_) hc
        rw [hu] at hx
        simp only [List.mem_append, List.mem_cons] at hx
        rcases hx with hx | hx | hx
        · rw [hu1 x hx] at h4; exact absurd h4 (by simp)
        · rw [hx]; exact hMp
        · exact hu' x hx h3 (by show st'.seen x.var = true; rw [hs2 x hx]; exact h4)
    by_cases hz : b.onLevel - 1 = 0
    · rw [if_pos hz]
      have hnt : ∀ x ∈ u2, s.level x.var = s.dl → st'.seen x.var = false := by
        intro x hx hl
        rw [hz, List.countP_eq_zero] at hcount
        have := hcount x hx
        simpa [hl] using this
      have hi := hinv (fun M => F M ∧ M.sat p) [] (fun M h => h.1) (by simp) (fun M h _ => h.2)
      refine ⟨_, p, u2, rfl, hi, hlp, hnt, fun M hM => ?_⟩
      rw [Asg.satC_iff_not_all_neg]
      intro hall
      refine hi.sem M ⟨hM, ?_⟩ (by intro _ h; simp at h) (fun x hx h3 h4 => ?_) (fun c hc => ?_)
      · have := hall p.neg.neg (by simp)
        simpa using this
      · have h4 : st'.seen x.var = true := h4
        rw [hnt x hx h3] at h4; exact absurd h4 (by simp)
      · exact hall c.neg (List.mem_map_of_mem (List.mem_cons_of_mem _ hc))
    · rw [if_neg hz]
      have hrs : st'.reason p.var = s.reason p.var := by
        rw [hst']; unfold St.clearSeen; rw [h1.same]
      simp only [hrs]
      cases hr : s.reason p.var with
      | none =>
        exfalso
        have := hp.top _ p u2 hsplit hlp hr
        have hpos2 : 0 < u2.countP (fun q => decide (s.level q.var = s.dl) && st'.seen q.var) := by omega
        rw [List.countP_pos_iff] at hpos2
        obtain ⟨x, hx, hx2⟩ := hpos2
        simp only [Bool.and_eq_true, decide_eq_true_eq] at hx2
        have := this x hx
        omega
      | some r =>
        have hrr := hp.reason _ p u2 hsplit r hr
        refine ih (hinv F r (fun _ h => h) hrr.1 hrr.2) ?_ (Or.inl (by show 0 < b.onLevel - 1; omega))
        have : u.length = u1.length + (u2.length + 1) := by rw [hu]; simp
        omega

end Clasp.Core
