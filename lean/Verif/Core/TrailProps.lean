/- C09: backtracking restores the assignment exactly. -/
import Verif.Core.TrailWF
import Verif.Basic.Packed
import Verif.Basic.PackedProps
namespace Clasp.Core
namespace St

theorem level_gt_iff {s : St} (h : s.WF) {d : Nat} (hd : d < s.dl) {i : Nat} {p : Lit}
    (hi : s.trail.reverse[i]? = some p) : s.level p.var ≤ d ↔ i < s.levelStart (d + 1) := by
  obtain ⟨l1, l, hl, hlen⟩ := lv_split hd
  unfold level
  rw [h.lev i p hi]
  generalize s.levelStart (d + 1) = q at *
  have hlv := (List.pairwise_cons.1 h.lvs).2
  rw [hl] at hlv
  have hlv := List.pairwise_append.1 hlv
  have hl2 := List.pairwise_cons.1 hlv.2.1
  constructor
  · intro hle
    by_contra hn
    have hall : l.countP (· ≤ i) = l.length := by
      rw [List.countP_eq_length]; intro a ha
      have := hl2.1 a ha
      simp only [decide_eq_true_eq]; omega
    simp only [posLev, hl, List.countP_append, List.countP_cons, hall, hlen] at hle
    have : q ≤ i := by omega
    simp [this] at hle
    omega
  · intro hlt
    have h1 : l1.countP (· ≤ i) = 0 := by
      rw [List.countP_eq_zero]; intro a ha
      have := hlv.2.2 a ha q (by simp)
      simp only [decide_eq_true_eq]; omega
    have : ¬ q ≤ i := by omega
    simp only [posLev, hl, List.countP_append, List.countP_cons, h1]
    have := List.countP_le_length (p := fun x => decide (x ≤ i)) (l := l)
    simp only [hlen] at this
    have hqi : ¬ q ≤ i := by omega
    simp only [hqi, decide_false, Bool.false_eq_true, if_false]
    omega

theorem filter_level {s : St} (h : s.WF) {d : Nat} (hd : d < s.dl) :
    s.trail.take (s.trail.length - s.levelStart (d + 1)) = s.trail.filter (fun p => decide (s.level p.var > d)) ∧
    s.trail.drop (s.trail.length - s.levelStart (d + 1)) = s.trail.filter (fun p => decide (s.level p.var ≤ d)) := by
  generalize hq : s.levelStart (d + 1) = q
  have hqlt : q ≤ s.trail.length := by
    obtain ⟨l1, l, hl, hlen⟩ := lv_split hd
    have := (List.pairwise_cons.1 h.lvs).1 q (by rw [hl, hq]; simp)
    omega
  have hA : ∀ p ∈ s.trail.take (s.trail.length - q), s.level p.var > d := by
    intro p hp
    obtain ⟨j, hj, hjp⟩ := List.mem_take_iff_getElem.1 hp
    have hjlt : j < s.trail.length := by omega
    have hpos : s.trail.reverse[s.trail.length - 1 - j]? = some p := by
      rw [List.getElem?_reverse (by omega)]
      have : s.trail.length - 1 - (s.trail.length - 1 - j) = j := by omega
      rw [this, List.getElem?_eq_getElem hjlt, hjp]
    have := level_gt_iff h hd hpos
    rw [hq] at this
    omega
  have hB : ∀ p ∈ s.trail.drop (s.trail.length - q), s.level p.var ≤ d := by
    intro p hp
    obtain ⟨j, hj, hjp⟩ := List.mem_drop_iff_getElem.1 hp
    have hpos : s.trail.reverse[s.trail.length - 1 - (s.trail.length - q + j)]? = some p := by
      rw [List.getElem?_reverse (by omega)]
      have : s.trail.length - 1 - (s.trail.length - 1 - (s.trail.length - q + j)) = s.trail.length - q + j := by omega
      rw [this, List.getElem?_eq_getElem (by omega), hjp]
    have := level_gt_iff h hd hpos
    rw [hq] at this
    omega
  have h1 : ∀ (a b : List Lit) (f : Lit → Bool), (∀ p ∈ a, f p = true) → (∀ p ∈ b, f p = false) →
      (a ++ b).filter f = a := by
    intro a b f ha hb
    rw [List.filter_append, List.filter_eq_self.2 ha, List.filter_eq_nil_iff.2 (by simpa using hb), List.append_nil]
  have h2 : ∀ (a b : List Lit) (f : Lit → Bool), (∀ p ∈ a, f p = false) → (∀ p ∈ b, f p = true) →
      (a ++ b).filter f = b := by
    intro a b f ha hb
    rw [List.filter_append, List.filter_eq_self.2 hb, List.filter_eq_nil_iff.2 (by simpa using ha), List.nil_append]
  constructor
  · conv => rhs; rw [← List.take_append_drop (s.trail.length - q) s.trail]
    rw [h1]
    · intro p hp; simpa using hA p hp
    · intro p hp; simpa using hB p hp
  · conv => rhs; rw [← List.take_append_drop (s.trail.length - q) s.trail]
    rw [h2]
    · intro p hp; simpa using hA p hp
    · intro p hp; simpa using hB p hp

/-- Well-formedness holds initially and is kept by every operation on the assignment. -/
inductive Op
  | assume (p : Lit)
  | force (p : Lit) (a : Ante)
  | pop                       -- take the next literal from the propagation queue (solver_types.h:507)
  | undo (d : Nat)

/-- one call -/
def apply (learn : Bool) (s : St) : Op → St
  | .assume p => (s.assume p).1
  | .force p a => (s.force learn p a).1
  | .pop => if s.front < s.trail.length then { s with front := s.front + 1 } else s
  | .undo d => s.undoUntilImpl d

/-- a sequence of calls -/
def applyAll (learn : Bool) (s : St) (ops : List Op) : St := ops.foldl (apply learn) s

theorem WF.apply {s : St} (h : s.WF) (learn : Bool) (o : Op) : (s.apply learn o).WF := by
  cases o with
  | assume p => exact h.assume p
  | force p a => exact h.force learn p a
  | pop =>
    simp only [St.apply]
    split
    · exact h.congr rfl rfl rfl (by simpa using by omega) h.rf h.fd
    · exact h
  | undo d => exact h.undoUntilImpl d

theorem applyAll_wf (learn : Bool) : ∀ (l : List Op) (t : St), t.WF → (t.applyAll learn l).WF := by
  intro l; induction l with
  | nil => exact fun t ht => ht
  | cons o l ih => exact fun t ht => ih _ (ht.apply learn o)

theorem decision_mem {s : St} (h : s.WF) {d : Nat} (hd1 : 1 ≤ d) (hd : d ≤ s.dl) :
    s.decision d ∈ s.trail ∧ s.level (s.decision d).var = d := by
  obtain ⟨l1, l, hl, hlen⟩ := lv_split (show d - 1 < s.dl by omega)
  rw [show d - 1 + 1 = d by omega] at hl
  have hq : s.levelStart d < s.trail.length := (List.pairwise_cons.1 h.lvs).1 _ (by rw [hl]; simp)
  have hlt : s.levelStart d < s.trail.reverse.length := by simpa using hq
  have hget : s.trail.reverse[s.levelStart d]? = some (s.decision d) := by
    unfold decision; rw [List.getElem?_eq_getElem hlt]; rfl
  refine ⟨List.mem_reverse.1 (List.mem_of_getElem? hget), ?_⟩
  unfold level
  rw [h.lev _ _ hget]
  have hlv := (List.pairwise_cons.1 h.lvs).2
  rw [hl] at hlv
  have hlv := List.pairwise_append.1 hlv
  have hl2 := List.pairwise_cons.1 hlv.2.1
  generalize s.levelStart d = q at *
  have h1 : l1.countP (· ≤ q) = 0 := by
    rw [List.countP_eq_zero]; intro a ha
    have := hlv.2.2 a ha q (by simp)
    simp only [decide_eq_true_eq]; omega
  have h2 : l.countP (· ≤ q) = l.length := by
    rw [List.countP_eq_length]; intro a ha
    have := hl2.1 a ha
    simp only [decide_eq_true_eq]; omega
  simp only [posLev, hl, List.countP_append, List.countP_cons, h1, h2, hlen]
  simp; omega

/-- **C09 (invariant).** Whatever decisions, forced literals, queue operations and undo operations are performed, in
any order: no variable is on the trail twice, every trail literal is true, its level is the number of levels opened at or
before it, and every level starts with its decision literal. -/
theorem C09_invariant (learn : Bool) (ops : List Op) :
    let s := St.init.applyAll learn ops
    (s.trail.map Lit.var).Nodup ∧ (∀ p ∈ s.trail, s.isTrue p = true ∧ s.level p.var ≤ s.dl) ∧
    (∀ d, 1 ≤ d → d ≤ s.dl → s.decision d ∈ s.trail ∧ s.level (s.decision d).var = d) := by
  intro s
  have h : s.WF := applyAll_wf learn ops _ WF.init
  refine ⟨h.nodup, fun p hp => ⟨?_, trail_lev_le h hp⟩, fun d hd1 hd => ?_⟩
  · unfold isTrue value; rw [h.val p hp]; simp
  · exact decision_mem h hd1 hd

/-- **C09 (undo).** Undoing to level `d` (at or above the backtrack level) keeps exactly the trail literals of levels
`≤ d` in their order, leaves value, level, marks and reason of every other variable as they are, frees the variables
assigned above `d`, keeps the levels up to `d` and their decisions, empties the propagation queue, removes the
conflict, and changes neither root level nor backtrack level. -/
theorem C09_undo {s : St} (h : s.WF) {d : Nat} (hd : d < s.dl) (hf : s.flip ≤ d) :
    let t := s.undoUntilImpl d
    t.trail = s.trail.filter (fun p => decide (s.level p.var ≤ d)) ∧
    (∀ p ∈ s.trail, s.level p.var > d → t.cell p.var = Cell.free) ∧
    (∀ v, (∀ p ∈ s.trail, p.var = v → s.level v ≤ d) → t.cell v = s.cell v) ∧
    t.reason = s.reason ∧
    t.dl = d ∧ (∀ k, 1 ≤ k → k ≤ d → t.levelStart k = s.levelStart k ∧ t.decision k = s.decision k) ∧
    t.front = t.trail.length ∧ t.hasConflict = false ∧ t.root = s.root ∧ t.flip = s.flip := by
  have hfil := filter_level h hd
  obtain ⟨l1, l, hl, hlen⟩ := lv_split hd
  have hqlt : s.levelStart (d + 1) < s.trail.length := (List.pairwise_cons.1 h.lvs).1 _ (by rw [hl]; simp)
  intro t
  have ht : t = _ := undoUntilImpl_eq h hd hf
  have htrail : t.trail = s.trail.drop (s.trail.length - s.levelStart (d + 1)) := by rw [ht]; rfl
  have htlv : t.lv = l := by
    rw [ht]
    show s.lv.drop (s.lv.length - d) = l
    rw [hl, show (l1 ++ s.levelStart (d + 1) :: l).length - d = (l1 ++ [s.levelStart (d + 1)]).length by simp; omega,
      show l1 ++ s.levelStart (d + 1) :: l = (l1 ++ [s.levelStart (d + 1)]) ++ l by simp, List.drop_left]
  have hls : ∀ k, 1 ≤ k → k ≤ d → t.levelStart k = s.levelStart k := by
    intro k h1 h2
    unfold levelStart
    rw [htlv, hl, List.reverse_append, List.reverse_cons, List.append_assoc, List.getElem?_append_left (by simp; omega)]
  refine ⟨by rw [htrail, hfil.2], fun p hp hlv => ?_, fun v hv => ?_, by rw [ht]; rfl, by rw [dl, htlv, hlen], ?_, ?_, ?_, ?_, ?_⟩
  · rw [ht]
    show (if _ then _ else _) = _
    rw [if_pos]
    show p.var ∈ (s.trail.take _).map Lit.var
    rw [hfil.1]
    exact List.mem_map_of_mem (List.mem_filter.2 ⟨hp, by simpa using hlv⟩)
  · rw [ht]
    show (if _ then _ else _) = _
    rw [if_neg]
    show ¬ v ∈ (s.trail.take _).map Lit.var
    rw [hfil.1]
    intro hm
    obtain ⟨p, hp, hpv⟩ := List.mem_map.1 hm
    have := List.mem_filter.1 hp
    have h2 := hv p this.1 hpv
    have h3 := this.2
    simp only [decide_eq_true_eq] at h3
    rw [hpv] at h3; omega
  · intro k h1 h2
    refine ⟨hls k h1 h2, ?_⟩
    unfold decision
    rw [hls k h1 h2]
    have hk : s.levelStart k < s.levelStart (d + 1) := by
      have hlv := (List.pairwise_cons.1 h.lvs).2
      rw [hl] at hlv
      have hl2 := List.pairwise_cons.1 (List.pairwise_append.1 hlv).2.1
      apply hl2.1
      have : s.levelStart k = (l.reverse[k - 1]?).getD 0 := by
        rw [← hls k h1 h2]; unfold levelStart; rw [htlv]
      rw [this, List.getElem?_eq_getElem (by simp; omega)]
      exact List.mem_reverse.1 (List.getElem_mem _)
    have hx : t.trail.length = s.levelStart (d + 1) := by rw [htrail]; simp; omega
    rw [List.getElem?_reverse (by omega), List.getElem?_reverse (by omega), hx, htrail, List.getElem?_drop]
    congr 2; omega
  · rw [ht]
    show s.levelStart (d + 1) = (s.trail.drop _).length
    simp; omega
  · rw [ht]; rfl
  · rw [ht]; rfl
  · rw [ht]; rfl

/-- `t` was reached from `s` by opening levels on top of it. -/
structure Above (s t : St) : Prop where
  wf : t.WF
  trail : ∃ a, t.trail = a ++ s.trail ∧ (∀ v, v ∉ a.map Lit.var → t.cell v = s.cell v) ∧
    (∀ v ∈ a.map Lit.var, s.cell v = Cell.free)
  reason : ∀ v, s.value v ≠ none → t.reason v = s.reason v
  lv : ∃ b, t.lv = b ++ s.trail.length :: s.lv
  root : t.root = s.root
  flip : t.flip = s.flip

theorem reason_upd {s t : St} (h : Above s t) {p : Lit} (hv : t.value p.var = none) {v : Nat} (hv' : s.value v ≠ none) (x : Ante) :
    Function.update t.reason p.var x v = s.reason v := by
  by_cases e : v = p.var
  · subst e
    obtain ⟨a, ha, hc, hfree⟩ := h.trail
    exfalso
    by_cases hva : p.var ∈ a.map Lit.var
    · exact hv' (by unfold value; rw [hfree _ hva]; rfl)
    · exact hv' (by unfold value; rw [← hc _ hva]; exact hv)
  · rw [Function.update_of_ne e]; exact h.reason v hv'

theorem Above.assign {s t : St} (h : Above s t) (p : Lit) (x : Ante) : Above s (t.assign p t.dl x).1 := by
  have hw := h.wf.assign p x
  obtain ⟨a, ha, hc, hfree⟩ := h.trail
  unfold St.assign at hw ⊢
  split
  · rename_i hv
    simp only [hv] at hw
    refine ⟨hw, ⟨p :: a, by simp [ha], fun v hv' => ?_, fun v hv' => ?_⟩, fun v hv' => ?_, h.lv, h.root, h.flip⟩
    rotate_left 2
    · exact reason_upd h hv hv' x
    · simp only [List.map_cons, List.mem_cons, not_or] at hv'
      simp only [Function.update_of_ne hv'.1]
      exact hc v hv'.2
    · by_cases hva : v ∈ a.map Lit.var
      · exact hfree v hva
      · simp only [List.map_cons, List.mem_cons, hva, or_false] at hv'
        subst hv'
        rw [← hc _ hva]
        exact h.wf.free _ hv
  · exact h

theorem Above.congr {s t u : St} (h : Above s t) (hw : u.WF) (h1 : u.cell = t.cell) (h2 : u.reason = t.reason)
    (h3 : u.trail = t.trail) (h4 : u.lv = t.lv) (h5 : u.root = t.root) (h6 : u.flip = t.flip) : Above s u :=
  ⟨hw, by rw [h1, h3]; exact h.trail, by rw [h2]; exact h.reason, by rw [h4]; exact h.lv, by rw [h5]; exact h.root, by rw [h6]; exact h.flip⟩

theorem Above.apply {s t : St} (h : Above s t) (learn : Bool) (o : Op) (ho : ∀ d, o = .undo d → s.dl < d) :
    Above s (t.apply learn o) := by
  have hw := h.wf.apply learn o
  cases o with
  | assume p =>
    simp only [St.apply] at hw ⊢
    unfold St.assume at hw ⊢
    split
    · rename_i hv
      rw [if_pos hv] at hw
      obtain ⟨a, ha, hc, hfree⟩ := h.trail
      obtain ⟨b, hb⟩ := h.lv
      have hv2 : ({ t with lv := t.trail.length :: t.lv } : St).value p.var = none := hv
      unfold St.assign at hw ⊢
      dsimp only at hw ⊢
      simp only [hv2] at hw ⊢
      refine ⟨hw, ⟨p :: a, by simp [ha], fun v hv' => ?_, fun v hv' => ?_⟩, fun v hv' => ?_,
        ⟨t.trail.length :: b, by simp [hb]⟩, h.root, h.flip⟩
      rotate_left 2
      · exact reason_upd h hv hv' none
      · simp only [List.map_cons, List.mem_cons, not_or] at hv'
        simp only [Function.update_of_ne hv'.1]
        exact hc v hv'.2
      · by_cases hva : v ∈ a.map Lit.var
        · exact hfree v hva
        · simp only [List.map_cons, List.mem_cons, hva, or_false] at hv'
          subst hv'
          rw [← hc _ hva]
          exact h.wf.free _ hv
    · exact h
  | force p a =>
    simp only [St.apply] at hw ⊢
    have h2 := h.assign p a
    unfold St.force at hw ⊢
    split
    · rename_i s' he; rw [he] at h2; exact h2
    · rename_i s' he
      rw [he] at h2
      simp only [he] at hw
      exact h2.congr hw rfl rfl rfl rfl rfl rfl
  | pop =>
    simp only [St.apply] at hw ⊢
    split
    · rename_i hlt; rw [if_pos hlt] at hw
      exact h.congr hw rfl rfl rfl rfl rfl rfl
    · exact h
  | undo d =>
    simp only [St.apply] at hw ⊢
    by_cases hd : max d t.flip < t.dl
    · have hm : t.undoUntilImpl d = t.undoUntilImpl (max d t.flip) := by unfold St.undoUntilImpl; simp
      rw [hm] at hw ⊢
      have hsd := ho d rfl
      have hu := undoUntilImpl_eq h.wf hd (by omega)
      generalize hD : max d t.flip = D at *
      have hDs : s.dl < D := by omega
      obtain ⟨l1, l, hl, hlen⟩ := lv_split hd
      obtain ⟨a, ha, hc, hfree⟩ := h.trail
      obtain ⟨b, hb⟩ := h.lv
      generalize t.levelStart (D + 1) = q at *
      -- the kept levels still contain those of `s` and the one above
      have hll : t.lv.drop (t.lv.length - D) = l := by
        rw [hl, show (l1 ++ q :: l).length - D = (l1 ++ [q]).length by simp; omega,
          show l1 ++ q :: l = (l1 ++ [q]) ++ l by simp, List.drop_left]
      have hbl : t.lv.drop (t.lv.length - D) = b.drop (b.length - (D - s.dl - 1)) ++ s.trail.length :: s.lv := by
        rw [hb, List.drop_append_of_le_length (by simp [dl] at *; omega)]
        congr 2
        simp [dl] at *; omega
      have hq : s.trail.length < q := by
        have h1 := (List.pairwise_append.1 (hl ▸ (List.pairwise_cons.1 h.wf.lvs).2)).2.1
        apply (List.pairwise_cons.1 h1).1
        rw [← hll, hbl]; simp
      have hqt : q < t.trail.length := (List.pairwise_cons.1 h.wf.lvs).1 _ (by rw [hl]; simp)
      have htl : t.trail.length = a.length + s.trail.length := by rw [ha]; simp
      have hdrop : t.trail.drop (t.trail.length - q) = a.drop (t.trail.length - q) ++ s.trail := by
        conv => lhs; rw [ha]
        rw [List.drop_append_of_le_length (by rw [List.length_append]; omega)]
        congr 2
        rw [htl, List.length_append]
      have htake : t.trail.take (t.trail.length - q) = a.take (t.trail.length - q) := by
        conv => lhs; rw [ha]
        rw [List.take_append_of_le_length (by rw [List.length_append]; omega)]
        congr 1
        rw [htl, List.length_append]
      have hnd := h.wf.nodup
      rw [ha, List.map_append, List.nodup_append] at hnd
      rw [hu] at hw ⊢
      refine ⟨hw, ⟨a.drop (t.trail.length - q), hdrop, fun v hv => ?_, fun v hv => ?_⟩, h.reason, ⟨_, hbl⟩, h.root, h.flip⟩
      · show (if v ∈ (t.trail.take (t.trail.length - q)).map Lit.var then Cell.free else t.cell v) = s.cell v
        rw [htake]
        by_cases hva : v ∈ a.map Lit.var
        · rw [if_pos, hfree v hva]
          rw [← List.take_append_drop (t.trail.length - q) a, List.map_append, List.mem_append] at hva
          exact hva.resolve_right hv
        · have : v ∉ (a.take (t.trail.length - q)).map Lit.var := fun e => hva (by
            obtain ⟨x, hx, hxv⟩ := List.mem_map.1 e
            exact List.mem_map.2 ⟨x, List.mem_of_mem_take hx, hxv⟩)
          rw [if_neg this]
          exact hc v hva
      · apply hfree
        obtain ⟨x, hx, hxv⟩ := List.mem_map.1 hv
        exact List.mem_map.2 ⟨x, List.mem_of_mem_drop hx, hxv⟩
    · have : t.undoUntilImpl d = t := by
        unfold St.undoUntilImpl; simp only [if_pos (show max d t.flip ≥ t.dl by omega)]
      rw [this]; exact h

/-- **C09 (round trip).** Let `s` be any well-formed state, `p` a free literal assumed in it, and let any sequence of
further decisions, forced literals, queue operations and undo operations to levels above that of `s` follow. Undoing to
the level of `s` gives back its trail, the value, level and marks of every variable, the reason of every assigned
variable, the levels, root and backtrack level. -/
theorem C09_roundtrip {s : St} (h : s.WF) {p : Lit} (hp : s.value p.var = none) (learn : Bool) (ops : List Op)
    (hops : ∀ d, Op.undo d ∈ ops → s.dl < d) :
    let t := ((s.assume p).1.applyAll learn ops).undoUntilImpl s.dl
    t.trail = s.trail ∧ t.cell = s.cell ∧ (∀ v, s.value v ≠ none → t.reason v = s.reason v) ∧ t.lv = s.lv ∧
    t.root = s.root ∧ t.flip = s.flip ∧ t.front = s.trail.length ∧ t.hasConflict = false := by
  have h0 : Above s (s.assume p).1 := by
    have hw := h.assume p
    unfold St.assume at hw ⊢
    rw [if_pos hp] at hw ⊢
    have hv2 : ({ s with lv := s.trail.length :: s.lv } : St).value p.var = none := hp
    unfold St.assign at hw ⊢
    dsimp only at hw ⊢
    simp only [hv2] at hw ⊢
    refine ⟨hw, ⟨[p], rfl, fun v hv => ?_, fun v hv => ?_⟩, fun v hv => ?_, ⟨[], rfl⟩, rfl, rfl⟩
    · simp only [List.map_cons, List.map_nil, List.mem_singleton] at hv
      simp only [Function.update_of_ne hv]
    · simp only [List.map_cons, List.map_nil, List.mem_singleton] at hv
      subst hv; exact h.free _ hp
    · have : v ≠ p.var := fun e => hv (e ▸ hp)
      simp only [Function.update_of_ne this]
  have h1 : Above s ((s.assume p).1.applyAll learn ops) := by
    have : ∀ (l : List Op), (∀ d, Op.undo d ∈ l → s.dl < d) → ∀ t, Above s t → Above s (t.applyAll learn l) := by
      intro l; induction l with
      | nil => exact fun _ t ht => ht
      | cons o l ih =>
        intro hl t ht
        exact ih (fun d hd => hl d (by simp [hd])) _ (ht.apply learn o (fun d hd => hl d (by simp [hd])))
    exact this ops hops _ h0
  generalize (s.assume p).1.applyAll learn ops = t at h1
  obtain ⟨a, ha, hc, hfree⟩ := h1.trail
  obtain ⟨b, hb⟩ := h1.lv
  have hdl : s.dl < t.dl := by simp [dl, hb]; omega
  have hls : t.levelStart (s.dl + 1) = s.trail.length := by
    unfold levelStart
    rw [hb, List.reverse_append, List.reverse_cons, List.append_assoc]
    simp [dl]
  have htl : t.trail.length = a.length + s.trail.length := by rw [ha]; simp
  have hu := undoUntilImpl_eq h1.wf hdl (by rw [h1.flip]; exact h.fd)
  rw [hls] at hu
  intro u
  have hu' : u = _ := hu
  have hk : t.trail.length - s.trail.length = a.length := by omega
  refine ⟨?_, ?_, ?_, ?_, ?_, ?_, ?_, ?_⟩
  · rw [hu']
    show t.trail.drop (t.trail.length - s.trail.length) = _
    rw [hk, ha, List.drop_left]
  · rw [hu']
    show (fun v => if v ∈ (t.trail.take (t.trail.length - s.trail.length)).map Lit.var then Cell.free else t.cell v) = _
    rw [hk, ha, List.take_left]
    funext v
    split
    · rename_i hv; exact (hfree v hv).symm
    · rename_i hv; exact hc v hv
  · rw [hu']; exact h1.reason
  · rw [hu']
    show t.lv.drop (t.lv.length - s.dl) = _
    have : t.lv.length - s.dl = (b ++ [s.trail.length]).length := by rw [hb]; simp [dl]; omega
    rw [this, hb, show b ++ s.trail.length :: s.lv = (b ++ [s.trail.length]) ++ s.lv by simp, List.drop_left]
  · rw [hu']; exact h1.root
  · rw [hu']; exact h1.flip
  · rw [hu']; rfl
  · rw [hu']; rfl

/-- A concrete non-trivial run: level 0 forces x1, level 1 decides x2 and forces ¬x3; then two more levels, an undo in
between, and back to level 1. -/
def demo : St := St.init.applyAll true [.force ⟨1, false⟩ (some []), .pop, .assume ⟨2, false⟩, .force ⟨3, true⟩ (some [⟨2, false⟩]), .pop, .pop]
example : demo.WF ∧ demo.value 4 = none ∧ demo.dl = 1 ∧ demo.trail = [⟨3, true⟩, ⟨2, false⟩, ⟨1, false⟩] := by
  refine ⟨?_, by decide, by decide, by decide⟩
  exact applyAll_wf _ _ _ WF.init
example : (((demo.assume ⟨4, false⟩).1.applyAll true
    [.force ⟨5, false⟩ (some [⟨4, false⟩, ⟨3, true⟩]), .assume ⟨6, true⟩, .undo 2, .assume ⟨7, true⟩]).trail,
    ((demo.assume ⟨4, false⟩).1.applyAll true
    [.force ⟨5, false⟩ (some [⟨4, false⟩, ⟨3, true⟩]), .assume ⟨6, true⟩, .undo 2, .assume ⟨7, true⟩]).dl) =
    ([⟨7, true⟩, ⟨5, false⟩, ⟨4, false⟩, ⟨3, true⟩, ⟨2, false⟩, ⟨1, false⟩], 3) := by decide

/-! ### The packed word -/

/-- the content of `assign_[v]` for a cell: value | seen << 2 | level << 4 (solver_types.h:516-518, 564, 601-604) -/
def pack (c : Cell) : BitVec 32 :=
  (BitVec.ofNat 32 c.lev <<< 4) ||| ((BitVec.ofBool c.seen.2).setWidth 32 <<< 3) ||| ((BitVec.ofBool c.seen.1).setWidth 32 <<< 2) |||
    (match c.val with | none => 0#32 | some true => 1#32 | some false => 2#32)

/-- reading and writing the fields of the word as the code does it -/
def wValue (w : BitVec 32) : BitVec 32 := w &&& 3#32
/-- solver_types.h:520 `level` -/
def wLevel (w : BitVec 32) : BitVec 32 := w >>> 4
/-- solver_types.h:606 `seen` -/
def wSeen (w : BitVec 32) (m : BitVec 32) : Bool := (w &&& (m <<< 2)) != 0#32
/-- solver_types.h:607 `setSeen` -/
def wSetSeen (w m : BitVec 32) : BitVec 32 := w ||| (m <<< 2)
/-- solver_types.h:608 `clearSeen` -/
def wClearSeen (w : BitVec 32) : BitVec 32 := w &&& ~~~ 12#32
/-- solver_types.h:564, 576: the word written by `assign` -/
def wAssign (lev : BitVec 32) (tv : BitVec 32) : BitVec 32 := (lev <<< 4) + tv

theorem bv_eq_of_bits {x y : BitVec 32} (h : ∀ i < 32, x.getLsbD i = y.getLsbD i) : x = y :=
  BitVec.eq_of_getLsbD_eq (fun i hi => h i hi)

theorem lev_bits {n : Nat} (h : n < 2 ^ 28) (i : Nat) (hi : 28 ≤ i) : (BitVec.ofNat 32 n).getLsbD i = false := by
  rw [BitVec.getLsbD_ofNat]
  have : n.testBit i = false := Nat.testBit_lt_two_pow (Nat.lt_of_lt_of_le h (Nat.pow_le_pow_right (by omega) hi))
  simp [this]

/-- the two-bit encoding of values (literal.h:195-199) -/
def vcode : Option Bool → BitVec 32
  | none => 0#32 | some true => 1#32 | some false => 2#32

theorem small_bits {n i : Nat} (k : Nat) (h : n < 2 ^ k) (hi : k ≤ i) : (BitVec.ofNat 32 n).getLsbD i = false := by
  rw [BitVec.getLsbD_ofNat, Nat.testBit_lt_two_pow (Nat.lt_of_lt_of_le h (Nat.pow_le_pow_right (by omega) hi)), Bool.and_false]

theorem pack_bits (b : Option Bool) (s1 s2 : Bool) (lev : Nat) {i : Nat} (hi : i < 32) :
    (pack ⟨b, (s1, s2), lev⟩).getLsbD i =
      if i = 0 then b == some true else if i = 1 then b == some false else if i = 2 then s1 else if i = 3 then s2
      else (BitVec.ofNat 32 lev).getLsbD (i - 4) := by
  unfold pack
  simp only [BitVec.getLsbD_or, BitVec.getLsbD_shiftLeft, hi, decide_true, Bool.true_and]
  rcases i with _ | _ | _ | _ | i
  · rcases b with _ | _ | _ <;> simp
  · rcases b with _ | _ | _ <;> simp
  · rcases b with _ | _ | _ <;> cases s1 <;> simp
  · rcases b with _ | _ | _ <;> cases s1 <;> cases s2 <;> simp
  · have : i + 1 + 1 + 1 + 1 - 4 = i := by omega
    have h2 : ∀ k, (match b with | none => 0#32 | some true => 1#32 | some false => 2#32 : BitVec 32).getLsbD (k + 2) = false := by
      intro k
      rcases b with _ | _ | _
      · exact small_bits 2 (by decide) (by omega)
      · exact small_bits 2 (by decide) (by omega)
      · exact small_bits 2 (by decide) (by omega)
    simp only [this, h2 (i + 2)]
    simp

theorem three_bits (i : Nat) (h : 2 ≤ i) : (3#32).getLsbD i = false := small_bits 2 (by decide) h
theorem vcode_bits (b : Option Bool) (i : Nat) (h : 2 ≤ i) : (vcode b).getLsbD i = false := by
  rcases b with _ | _ | _ <;> exact small_bits 2 (by decide) h

theorem seen_bits (val : Option Bool) (s1 s2 : Bool) (lev : Nat) (m : BitVec 32) (k : Nat) (hm : m <<< 2 = BitVec.ofNat 32 k)
    (hk : k < 16) (r : Bool) (hz : k % 4 = 0)
    (hr : ((Nat.testBit k 2 && s1) || (Nat.testBit k 3 && s2)) = r) : wSeen (pack ⟨val, (s1, s2), lev⟩) m = r := by
  subst hr
  unfold wSeen
  rw [hm]
  have h0 : ∀ i, i < 2 → Nat.testBit k i = false := by
    intro i hi
    have : k.testBit i = (k % 2 ^ 2).testBit i := by rw [Nat.testBit_mod_two_pow]; simp [hi]
    rw [this]; simp [hz]
  have key : (pack ⟨val, (s1, s2), lev⟩ &&& BitVec.ofNat 32 k) =
      ((BitVec.ofBool (Nat.testBit k 2 && s1)).setWidth 32 <<< 2) ||| ((BitVec.ofBool (Nat.testBit k 3 && s2)).setWidth 32 <<< 3) := by
    refine bv_eq_of_bits fun i hi => ?_
    rw [BitVec.getLsbD_and, pack_bits _ _ _ _ hi, BitVec.getLsbD_ofNat 32 k, BitVec.getLsbD_or, BitVec.getLsbD_shiftLeft, BitVec.getLsbD_shiftLeft]
    rcases i with _ | _ | _ | _ | i
    · simp [h0 0]
    · simp [h0 1]
    · simp [Bool.and_comm]
    · simp [Bool.and_comm]
    · have : k.testBit (i + 1 + 1 + 1 + 1) = false := Nat.testBit_lt_two_pow (Nat.lt_of_lt_of_le (show k < 2 ^ 4 from hk) (Nat.pow_le_pow_right (by omega) (by omega)))
      rw [this]; simp
  rw [key]
  generalize (Nat.testBit k 2 && s1) = a
  generalize (Nat.testBit k 3 && s2) = b
  cases a <;> cases b <;> decide

theorem set_bits (val : Option Bool) (s1 s2 : Bool) (lev : Nat) (m : BitVec 32) (k : Nat) (hm : m <<< 2 = BitVec.ofNat 32 k)
    (hk : k < 16) (t1 t2 : Bool) (hz : k % 4 = 0) (h1 : t1 = (s1 || Nat.testBit k 2)) (h2 : t2 = (s2 || Nat.testBit k 3)) :
    wSetSeen (pack ⟨val, (s1, s2), lev⟩) m = pack ⟨val, (t1, t2), lev⟩ := by
  subst h1 h2
  unfold wSetSeen
  rw [hm]
  have h0 : ∀ i, i < 2 → Nat.testBit k i = false := by
    intro i hi
    have : k.testBit i = (k % 2 ^ 2).testBit i := by rw [Nat.testBit_mod_two_pow]; simp [hi]
    rw [this]; simp [hz]
  refine bv_eq_of_bits fun i hi => ?_
  rw [BitVec.getLsbD_or, pack_bits _ _ _ _ hi, pack_bits _ _ _ _ hi, BitVec.getLsbD_ofNat 32 k]
  rcases i with _ | _ | _ | _ | i
  · simp [h0 0]
  · simp [h0 1]
  · simp
  · simp
  · have : k.testBit (i + 1 + 1 + 1 + 1) = false := Nat.testBit_lt_two_pow (Nat.lt_of_lt_of_le (show k < 2 ^ 4 from hk) (Nat.pow_le_pow_right (by omega) (by omega)))
    rw [this]; simp

/-- **C09 (packed word).** The bit operations on the 32-bit word of a variable are the operations on its three fields:
all reads give the stored field, assigning, marking, unmarking and clearing change exactly the intended field, for
every level up to `maxLevel()` (2^28-2). -/
theorem C09_packed (c : Cell) (hc : c.lev < 2 ^ 28) :
    wValue (pack c) = vcode c.val ∧ (wLevel (pack c)).toNat = c.lev ∧
    wSeen (pack c) 1#32 = c.seen.1 ∧ wSeen (pack c) 2#32 = c.seen.2 ∧ wSeen (pack c) 3#32 = (c.seen.1 || c.seen.2) ∧
    wSetSeen (pack c) 1#32 = pack { c with seen := (true, c.seen.2) } ∧
    wSetSeen (pack c) 2#32 = pack { c with seen := (c.seen.1, true) } ∧
    wSetSeen (pack c) 3#32 = pack { c with seen := (true, true) } ∧
    wClearSeen (pack c) = pack { c with seen := (false, false) } ∧
    (∀ b : Bool, wAssign (BitVec.ofNat 32 c.lev) (vcode (some b)) = pack ⟨some b, (false, false), c.lev⟩) ∧
    pack Cell.free = 0#32 := by
  obtain ⟨val, ⟨s1, s2⟩, lev⟩ := c
  simp only at hc
  have hb := lev_bits hc
  refine ⟨?_, ?_, ?_, ?_, ?_, ?_, ?_, ?_, ?_, ?_, by decide⟩
  · refine bv_eq_of_bits fun i hi => ?_
    simp only [wValue, BitVec.getLsbD_and, pack_bits _ _ _ _ hi]
    rcases i with _ | _ | i
    · rcases val with _ | _ | _ <;> simp [vcode]
    · rcases val with _ | _ | _ <;> simp [vcode]
    · rw [three_bits (i + 2) (by omega), vcode_bits _ _ (by omega), Bool.and_false]
  · have : wLevel (pack ⟨val, (s1, s2), lev⟩) = BitVec.ofNat 32 lev := by
      refine bv_eq_of_bits fun i hi => ?_
      simp only [wLevel, BitVec.getLsbD_ushiftRight]
      by_cases h4 : 4 + i < 32
      · rw [pack_bits _ _ _ _ h4]
        simp [show 4 + i ≠ 1 by omega, show 4 + i ≠ 2 by omega, show 4 + i ≠ 3 by omega]
      · rw [BitVec.getLsbD_of_ge _ _ (by omega), hb i (by omega)]
    rw [this]; simp; omega
  · exact seen_bits val s1 s2 lev 1#32 4 rfl (by decide) _ (by decide) (by cases s1 <;> cases s2 <;> rfl)
  · exact seen_bits val s1 s2 lev 2#32 8 rfl (by decide) _ (by decide) (by cases s1 <;> cases s2 <;> rfl)
  · exact seen_bits val s1 s2 lev 3#32 12 rfl (by decide) _ (by decide) (by cases s1 <;> cases s2 <;> rfl)
  · exact set_bits val s1 s2 lev 1#32 4 rfl (by decide) _ _ (by decide) (by cases s1 <;> rfl) (by cases s2 <;> rfl)
  · exact set_bits val s1 s2 lev 2#32 8 rfl (by decide) _ _ (by decide) (by cases s1 <;> rfl) (by cases s2 <;> rfl)
  · exact set_bits val s1 s2 lev 3#32 12 rfl (by decide) _ _ (by decide) (by cases s1 <;> rfl) (by cases s2 <;> rfl)
  · refine bv_eq_of_bits fun i hi => ?_
    simp only [wClearSeen, BitVec.getLsbD_and, BitVec.getLsbD_not, pack_bits _ _ _ _ hi]
    rcases i with _ | _ | _ | _ | i
    · simp
    · simp
    · simp
    · simp
    · rw [small_bits (n := 12) 4 (by decide) (by omega)]; simp [hi]
  · intro b
    have : wAssign (BitVec.ofNat 32 lev) (vcode (some b)) = (BitVec.ofNat 32 lev <<< 4) ||| vcode (some b) := by
      unfold wAssign
      apply BitVec.add_eq_or_of_and_eq_zero
      refine bv_eq_of_bits fun i hi => ?_
      rw [BitVec.getLsbD_and, BitVec.getLsbD_shiftLeft]
      by_cases h2 : i < 2
      · have : i < 4 := by omega
        simp [this]
      · rw [vcode_bits _ _ (by omega)]; simp
    rw [this]
    refine bv_eq_of_bits fun i hi => ?_
    rw [pack_bits _ _ _ _ hi, BitVec.getLsbD_or, BitVec.getLsbD_shiftLeft]
    rcases i with _ | _ | _ | _ | i
    · cases b <;> simp [vcode]
    · cases b <;> simp [vcode]
    · cases b <;> simp [vcode]
    · cases b <;> simp [vcode]
    · rw [vcode_bits _ _ (by omega)]; simp [hi]

example : (Cell.mk (some false) (true, false) 77).lev < 2 ^ 28 ∧ pack ⟨some false, (true, false), 77⟩ = 1238#32 := by decide

end St
end Clasp.Core
