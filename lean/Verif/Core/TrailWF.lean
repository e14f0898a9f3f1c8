/- Lemmas about the trail model: well-formedness and what undoing does. -/
import Verif.Core.Trail
import Mathlib.Tactic.Basic
import Mathlib.Data.List.Nodup
namespace Clasp.Core
namespace St

/-- Level of trail position `i`: the number of levels that start at or before it. -/
def posLev (lv : List Nat) (i : Nat) : Nat := lv.countP (· ≤ i)

/-- invariant of trail, levels and propagation queue -/
structure WF (s : St) : Prop where
  nodup : (s.trail.map Lit.var).Nodup
  val : ∀ p ∈ s.trail, (s.cell p.var).val = some p.tv
  free : ∀ v, (s.cell v).val = none → s.cell v = Cell.free
  lvs : (s.trail.length :: s.lv).Pairwise (· > ·)
  lev : ∀ (i : Nat) (p : Lit), s.trail.reverse[i]? = some p → (s.cell p.var).lev = posLev s.lv i
  front : s.front ≤ s.trail.length
  rf : s.root ≤ s.flip
  fd : s.flip ≤ s.dl

theorem WF.init : WF St.init := by
  constructor
  case free => intro v hv; by_cases e : v = 0 <;> simp_all [St.init]
  all_goals simp [St.init, dl]

theorem posLev_all {l : List Nat} {n i : Nat} (h : (n :: l).Pairwise (· > ·)) (hi : n ≤ i + 1) : posLev l i = l.length := by
  unfold posLev
  rw [List.countP_eq_length]
  intro a ha
  have := (List.pairwise_cons.1 h).1 a ha
  simp only [decide_eq_true_eq]; omega

theorem popUntil_eq (stop : Lit) (a b : List Lit) (h : stop ∉ a) (c : Nat → Cell) :
    popUntil stop c (a ++ stop :: b) =
      (fun v => if v ∈ (a ++ [stop]).map Lit.var then Cell.free else c v, b) := by
  induction a generalizing c with
  | nil =>
    simp [popUntil]
    funext v
    by_cases hv : v = stop.var <;> simp [hv, Function.update]
  | cons x a ih =>
    have hx : x ≠ stop := fun e => h (by simp [e])
    simp only [List.cons_append, popUntil, if_neg hx]
    rw [ih (fun e => h (by simp [e]))]
    simp only [Prod.mk.injEq, and_true]
    funext v
    by_cases hv : v = x.var
    · subst hv; simp [Function.update]
    · simp [hv, Function.update]

theorem undoTrail_eq {s : St} (h : (s.trail.map Lit.var).Nodup) {first : Nat} (hf : first < s.trail.length) :
    s.undoTrail first =
      { s with cell := fun v => if v ∈ (s.trail.take (s.trail.length - first)).map Lit.var then Cell.free else s.cell v,
               trail := s.trail.drop (s.trail.length - first), front := first } := by
  have hr : s.trail.reverse[first]? = s.trail[s.trail.length - 1 - first]? := by
    rw [List.getElem?_reverse hf]
  have hlt : s.trail.length - 1 - first < s.trail.length := by omega
  have hget : s.trail[s.trail.length - 1 - first]? = some s.trail[s.trail.length - 1 - first] :=
    List.getElem?_eq_getElem hlt
  have hsplit : s.trail = s.trail.take (s.trail.length - 1 - first) ++ s.trail[s.trail.length - 1 - first] ::
      s.trail.drop (s.trail.length - 1 - first + 1) := by
    rw [← List.drop_eq_getElem_cons hlt, List.take_append_drop]
  have hn : s.trail[s.trail.length - 1 - first] ∉ s.trail.take (s.trail.length - 1 - first) := by
    have h2 := h.of_map
    rw [hsplit, List.nodup_append] at h2
    intro hm
    exact h2.2.2 _ hm _ List.mem_cons_self rfl
  have hta : s.trail.take (s.trail.length - 1 - first) ++ [s.trail[s.trail.length - 1 - first]] =
      s.trail.take (s.trail.length - first) := by
    rw [List.take_append_getElem]
    congr 1; omega
  have hd : s.trail.length - 1 - first + 1 = s.trail.length - first := by omega
  have hp : popUntil s.trail[s.trail.length - 1 - first] s.cell s.trail =
      (fun v => if v ∈ (s.trail.take (s.trail.length - first)).map Lit.var then Cell.free else s.cell v,
       s.trail.drop (s.trail.length - first)) := by
    conv => lhs; arg 3; rw [hsplit]
    rw [popUntil_eq _ _ _ hn, hta, hd]
  unfold undoTrail
  rw [hr, hget]
  simp only [hp]
  have : (s.trail.drop (s.trail.length - first)).length = first := by simp; omega
  rw [this]

/-- What is left of a state when only the oldest `n` trail literals and the oldest `d` levels are kept. -/
def cut (s : St) (n d : Nat) : St :=
  { s with cell := fun v => if v ∈ (s.trail.take (s.trail.length - n)).map Lit.var then Cell.free else s.cell v,
           trail := s.trail.drop (s.trail.length - n), front := n, lv := s.lv.drop (s.lv.length - d) }

theorem undoLevel_cut {s : St} (h : s.WF) {pos : Nat} {l : List Nat} (hl : s.lv = pos :: l) :
    s.undoLevel = s.cut pos l.length := by
  have hp : pos < s.trail.length := by
    have := h.lvs; rw [hl] at this
    exact (List.pairwise_cons.1 this).1 pos (by simp)
  unfold undoLevel
  rw [hl]
  simp only [undoTrail_eq h.nodup hp, cut, hl]
  simp

theorem getElem?_reverse_drop {α} (l : List α) (n i : Nat) (hn : n ≤ l.length) (x : α)
    (h : (l.drop (l.length - n)).reverse[i]? = some x) : i < n ∧ l.reverse[i]? = some x := by
  have hlen : (l.drop (l.length - n)).length = n := by simp; omega
  have hi : i < n := by
    have := (List.getElem?_eq_some_iff.1 h).1
    simpa [hlen] using this
  refine ⟨hi, ?_⟩
  rw [List.getElem?_reverse (by omega), hlen, List.getElem?_drop] at h
  rw [List.getElem?_reverse (by omega), ← h]
  congr 1; omega

theorem WF.cut {s : St} (h : s.WF) {pos : Nat} {l1 l : List Nat} (hl : s.lv = l1 ++ pos :: l) (hf : s.flip ≤ l.length) :
    (s.cut pos l.length).WF := by
  have hlv := h.lvs
  rw [hl] at hlv
  have hlv' : (pos :: l).Pairwise (· > ·) := by
    have := (List.pairwise_cons.1 hlv).2
    exact (List.pairwise_append.1 this).2.1
  have hp : pos < s.trail.length := (List.pairwise_cons.1 hlv).1 pos (by simp)
  have hdl : s.lv.drop (s.lv.length - l.length) = l := by
    rw [hl]
    have : (l1 ++ pos :: l).length - l.length = (l1 ++ [pos]).length := by simp; omega
    rw [this, show l1 ++ pos :: l = (l1 ++ [pos]) ++ l by simp, List.drop_left]
  have hlen : (s.trail.drop (s.trail.length - pos)).length = pos := by simp; omega
  have hnot : ∀ p ∈ s.trail.drop (s.trail.length - pos), p.var ∉ (s.trail.take (s.trail.length - pos)).map Lit.var := by
    intro p hp hm
    have hnd := h.nodup
    rw [← List.take_append_drop (s.trail.length - pos) s.trail, List.map_append, List.nodup_append] at hnd
    exact hnd.2.2 _ hm _ (List.mem_map_of_mem hp) rfl
  constructor
  · show ((s.trail.drop _).map Lit.var).Nodup
    exact h.nodup.sublist ((List.drop_sublist _ _).map _)
  · intro p hp
    simp only [St.cut] at hp ⊢
    rw [if_neg (hnot p hp)]
    exact h.val p (List.mem_of_mem_drop hp)
  · intro v hv
    simp only [St.cut] at hv ⊢
    split
    · rfl
    · rename_i hm; rw [if_neg hm] at hv; exact h.free v hv
  · show ((s.trail.drop _).length :: s.lv.drop _).Pairwise _
    rw [hlen, hdl]; exact hlv'
  · intro i p hi
    simp only [St.cut] at hi ⊢
    have hmem : p ∈ s.trail.drop (s.trail.length - pos) := by
      have := List.mem_of_getElem? hi
      simpa using this
    rw [if_neg (hnot p hmem)]
    have := getElem?_reverse_drop s.trail pos i (Nat.le_of_lt hp) p hi
    rw [h.lev i p this.2, hdl, hl]
    have h1 : l1.countP (· ≤ i) = 0 := by
      rw [List.countP_eq_zero]
      intro a ha
      have := (List.pairwise_append.1 (List.pairwise_cons.1 hlv).2).2.2 a ha pos (by simp)
      simp only [decide_eq_true_eq]; omega
    simp only [posLev, List.countP_append, h1, List.countP_cons]
    have : ¬ pos ≤ i := by omega
    simp [this]
  · show pos ≤ (s.trail.drop _).length
    omega
  · exact h.rf
  · show s.flip ≤ (s.lv.drop _).length
    rw [hdl]; exact hf

theorem undoN_cut (n : Nat) {s : St} (h : s.WF) (hn : n < s.dl) (hf : s.flip ≤ s.dl - (n + 1)) :
    undoN (n + 1) s = s.cut (s.levelStart (s.dl - n)) (s.dl - (n + 1)) := by
  induction n generalizing s with
  | zero =>
    cases hl : s.lv with
    | nil => simp [dl, hl] at hn
    | cons pos l =>
      simp only [undoN]
      rw [undoLevel_cut h hl]
      simp only [dl, hl, List.length_cons, levelStart]
      congr 1
      simp
  | succ n ih =>
    cases hl : s.lv with
    | nil => simp [dl, hl] at hn
    | cons pos l =>
      simp only [dl, hl, List.length_cons] at hn hf
      have hw : (s.cut pos l.length).WF := h.cut (l1 := []) hl (by omega)
      have hlv' : (s.cut pos l.length).lv = l := by simp [St.cut, hl]
      rw [undoN, undoLevel_cut h hl, ih hw (by rw [dl, hlv']; omega) (by show s.flip ≤ _; rw [dl, hlv']; omega)]
      have e1 : (s.cut pos l.length).levelStart ((s.cut pos l.length).dl - n) = s.levelStart (s.dl - (n + 1)) := by
        simp only [levelStart, dl, hlv', hl, List.length_cons]
        rw [List.reverse_cons, List.getElem?_append_left (by simp; omega)]
        congr 2; omega
      rw [e1]
      have hdl' : (s.cut pos l.length).dl - (n + 1) = s.dl - (n + 1 + 1) := by
        simp only [dl, hlv', hl, List.length_cons]; omega
      rw [hdl']
      -- two successive cuts
      have hp : pos < s.trail.length := by
        have := h.lvs; rw [hl] at this
        exact (List.pairwise_cons.1 this).1 pos (by simp)
      have hq : s.levelStart (s.dl - (n + 1)) < pos := by
        have h3 := h.lvs; rw [hl] at h3
        have h4 := (List.pairwise_cons.1 (List.pairwise_cons.1 h3).2).1
        apply h4
        simp only [levelStart, dl, hl, List.length_cons, List.reverse_cons]
        have hidx : l.length + 1 - (n + 1) - 1 < l.reverse.length := by simp; omega
        rw [List.getElem?_append_left hidx, List.getElem?_eq_getElem hidx]
        simp only [Option.getD_some]
        exact List.mem_reverse.1 (List.getElem_mem hidx)
      generalize s.levelStart (s.dl - (n + 1)) = q at hq
      have ht : (s.trail.drop (s.trail.length - pos)).length = pos := by simp; omega
      have hpos : s.trail.length - pos + (pos - q) = s.trail.length - q := by omega
      simp only [St.cut, ht]
      congr 1
      · funext v
        have : (s.trail.take (s.trail.length - q)) = s.trail.take (s.trail.length - pos) ++
            (s.trail.drop (s.trail.length - pos)).take (pos - q) := by
          rw [← hpos, List.take_add]
        rw [this, List.map_append]
        generalize (s.trail.take (s.trail.length - pos)).map Lit.var = A
        generalize ((s.trail.drop (s.trail.length - pos)).take (pos - q)).map Lit.var = B
        by_cases h1 : v ∈ A <;> by_cases h2 : v ∈ B <;> simp [h1, h2]
      · rw [List.drop_drop, hpos]
      · rw [List.drop_drop]
        congr 1
        simp only [dl, hl, List.length_cons, List.length_drop]
        omega

theorem undoUntilImpl_eq {s : St} (h : s.WF) {d : Nat} (hd : d < s.dl) (hf : s.flip ≤ d) :
    s.undoUntilImpl d = { s with conflict := [], stop := none }.cut (s.levelStart (d + 1)) d := by
  have hm : max d s.flip = d := by omega
  have hnot : ¬ d ≥ s.dl := by omega
  have hw : WF { s with conflict := [], stop := none } := ⟨h.nodup, h.val, h.free, h.lvs, h.lev, h.front, h.rf, h.fd⟩
  unfold undoUntilImpl
  simp only [hm, if_neg hnot]
  have hdl : (s.dl - d) = (s.dl - d - 1) + 1 := by omega
  rw [hdl, undoN_cut _ hw (by show _ < s.dl; omega) (by show s.flip ≤ s.dl - _; omega)]
  show cut _ (s.levelStart (s.dl - (s.dl - d - 1))) (s.dl - (s.dl - d - 1 + 1)) = _
  have e1 : s.dl - (s.dl - d - 1) = d + 1 := by omega
  have e2 : s.dl - (s.dl - d - 1 + 1) = d := by omega
  rw [e1, e2]

/-- Splitting the levels at target `d`. -/
theorem lv_split {s : St} {d : Nat} (hd : d < s.dl) :
    ∃ l1 l, s.lv = l1 ++ s.levelStart (d + 1) :: l ∧ l.length = d := by
  have hlt : s.lv.length - 1 - d < s.lv.length := by unfold dl at hd; omega
  refine ⟨s.lv.take (s.lv.length - 1 - d), s.lv.drop (s.lv.length - 1 - d + 1), ?_, ?_⟩
  · have : s.levelStart (d + 1) = s.lv[s.lv.length - 1 - d] := by
      unfold levelStart
      simp only [Nat.add_sub_cancel]
      rw [List.getElem?_reverse (by unfold dl at hd; omega), List.getElem?_eq_getElem hlt]
      rfl
    rw [this, ← List.drop_eq_getElem_cons hlt, List.take_append_drop]
  · unfold dl at hd; simp; omega

theorem WF.undoUntilImpl {s : St} (h : s.WF) (d : Nat) : (s.undoUntilImpl d).WF := by
  by_cases hd : max d s.flip < s.dl
  · have hm : s.undoUntilImpl d = s.undoUntilImpl (max d s.flip) := by
      unfold St.undoUntilImpl; simp
    rw [hm, undoUntilImpl_eq h hd (by omega)]
    obtain ⟨l1, l, hl, hlen⟩ := lv_split hd
    have hw : WF { s with conflict := [], stop := none } := ⟨h.nodup, h.val, h.free, h.lvs, h.lev, h.front, h.rf, h.fd⟩
    have := hw.cut (pos := s.levelStart (max d s.flip + 1)) (l1 := l1) (l := l) hl (by show s.flip ≤ _; omega)
    rw [hlen] at this
    exact this
  · unfold St.undoUntilImpl
    simp only [if_pos (show max d s.flip ≥ s.dl by omega)]
    exact h

theorem trail_lev_le {s : St} (h : s.WF) {p : Lit} (hp : p ∈ s.trail) : s.level p.var ≤ s.dl := by
  obtain ⟨i, hi⟩ := List.mem_iff_getElem?.1 (List.mem_reverse.2 hp)
  unfold level
  rw [h.lev i p hi]
  exact List.countP_le_length

theorem WF.assign {s : St} (h : s.WF) (p : Lit) (x : Ante) : (s.assign p s.dl x).1.WF := by
  unfold St.assign
  split
  · rename_i hv
    have hfree := h.free p.var hv
    have hnot : p.var ∉ s.trail.map Lit.var := by
      intro hm
      obtain ⟨q, hq, hqv⟩ := List.mem_map.1 hm
      have := h.val q hq
      rw [hqv] at this
      unfold value at hv
      rw [hv] at this
      exact absurd this (by simp)
    constructor
    · exact List.nodup_cons.2 ⟨hnot, h.nodup⟩
    · intro q hq
      rcases List.mem_cons.1 hq with e | hq
      · subst e; simp [Function.update]
      · have : q.var ≠ p.var := fun e => hnot (e ▸ List.mem_map_of_mem hq)
        simp only [Function.update_of_ne this]
        exact h.val q hq
    · intro v hv'
      by_cases e : v = p.var
      · subst e; simp [Function.update] at hv'
      · simp only [Function.update_of_ne e] at hv' ⊢
        exact h.free v hv'
    · show ((p :: s.trail).length :: s.lv).Pairwise _
      have := List.pairwise_cons.1 h.lvs
      refine List.pairwise_cons.2 ⟨fun a ha => ?_, this.2⟩
      have := this.1 a ha
      simp; omega
    · intro i q hi
      simp only [List.reverse_cons] at hi
      by_cases hlt : i < s.trail.length
      · rw [List.getElem?_append_left (by simpa using hlt)] at hi
        have hq : q ∈ s.trail := List.mem_reverse.1 (List.mem_of_getElem? hi)
        have : q.var ≠ p.var := fun e => hnot (e ▸ List.mem_map_of_mem hq)
        simp only [Function.update_of_ne this]
        exact h.lev i q hi
      · rw [List.getElem?_append_right (by simp; omega)] at hi
        have hq : q = p := by
          have := List.mem_of_getElem? hi
          simpa using this
        subst hq
        simp only [Function.update_self, dl]
        rw [posLev_all h.lvs (by omega)]
    · show s.front ≤ (p :: s.trail).length
      have := h.front; simp; omega
    · exact h.rf
    · exact h.fd
  · exact h

theorem WF.congr {s t : St} (h : s.WF) (h1 : t.cell = s.cell) (h2 : t.trail = s.trail) (h3 : t.lv = s.lv)
    (h4 : t.front ≤ t.trail.length) (h5 : t.root ≤ t.flip) (h6 : t.flip ≤ t.dl) : t.WF := by
  constructor
  · rw [h2]; exact h.nodup
  · rw [h1, h2]; exact h.val
  · rw [h1]; exact h.free
  · rw [h2, h3]; exact h.lvs
  · rw [h1, h2, h3]; exact h.lev
  · exact h4
  · exact h5
  · exact h6

theorem WF.force {s : St} (h : s.WF) (learn : Bool) (p : Lit) (a : Ante) : (s.force learn p a).1.WF := by
  have := h.assign p a
  unfold St.force
  split
  · rename_i s' he; rw [he] at this; exact this
  · rename_i s' he; rw [he] at this
    exact this.congr rfl rfl rfl this.front this.rf this.fd

theorem WF.assume {s : St} (h : s.WF) (p : Lit) : (s.assume p).1.WF := by
  unfold St.assume
  split
  · rename_i hv
    have hfree := h.free p.var hv
    have hnot : p.var ∉ s.trail.map Lit.var := by
      intro hm
      obtain ⟨q, hq, hqv⟩ := List.mem_map.1 hm
      have := h.val q hq
      rw [hqv] at this
      unfold value at hv
      rw [hv] at this
      exact absurd this (by simp)
    unfold St.assign
    dsimp only
    split
    · constructor
      · exact List.nodup_cons.2 ⟨hnot, h.nodup⟩
      · intro q hq
        rcases List.mem_cons.1 hq with e | hq
        · subst e; simp [Function.update]
        · have : q.var ≠ p.var := fun e => hnot (e ▸ List.mem_map_of_mem hq)
          simp only [Function.update_of_ne this]
          exact h.val q hq
      · intro v hv'
        by_cases e : v = p.var
        · subst e; simp [Function.update] at hv'
        · simp only [Function.update_of_ne e] at hv' ⊢
          exact h.free v hv'
      · show ((p :: s.trail).length :: s.trail.length :: s.lv).Pairwise _
        refine List.pairwise_cons.2 ⟨fun a ha => ?_, h.lvs⟩
        have := List.pairwise_cons.1 h.lvs
        rcases List.mem_cons.1 ha with e | ha
        · subst e; simp
        · have := this.1 a ha; simp; omega
      · intro i q hi
        simp only [List.reverse_cons] at hi
        by_cases hlt : i < s.trail.length
        · rw [List.getElem?_append_left (by simpa using hlt)] at hi
          have hq : q ∈ s.trail := List.mem_reverse.1 (List.mem_of_getElem? hi)
          have : q.var ≠ p.var := fun e => hnot (e ▸ List.mem_map_of_mem hq)
          simp only [Function.update_of_ne this, posLev, List.countP_cons]
          have hle : ¬ s.trail.length ≤ i := by omega
          rw [h.lev i q hi]
          simp [hle, posLev]
        · rw [List.getElem?_append_right (by simp; omega)] at hi
          have hq : q = p := by
            have := List.mem_of_getElem? hi
            simpa using this
          subst hq
          simp only [Function.update_self, dl, List.length_cons, posLev, List.countP_cons]
          have := posLev_all h.lvs (i := i) (by omega)
          unfold posLev at this
          rw [this]
          simp; omega
      · show s.front ≤ (p :: s.trail).length
        have := h.front; simp; omega
      · exact h.rf
      · show s.flip ≤ (s.trail.length :: s.lv).length
        have := h.fd; unfold dl at this; simp; omega
    · rename_i b hb
      have : s.value p.var = some b := hb
      rw [hv] at this; exact absurd this (by simp)
  · exact h

end St
end Clasp.Core
