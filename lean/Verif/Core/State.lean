/-
Invariants of the solver state used by the propagation and search proofs. No code is modelled in this file.
-/
import Verif.Core.Propagate
import Verif.Core.TrailProps
import Verif.Core.AnalyzeUip
import Mathlib.Order.Basic
import Mathlib.Order.Defs.LinearOrder
import Mathlib.Tactic.Tauto
namespace Clasp.Core
namespace St

/-- `p` is a true literal (the constant or on the trail). -/
def tl (s : St) (p : Lit) : Prop := p = litTrue ∨ p ∈ s.trail

/-- Shape of a reachable state. -/
structure Base (s : St) : Prop where
  wf : s.WF
  c0 : s.cell 0 = ⟨some true, (true, true), 0⟩
  toff : ∀ q ∈ s.trail, q.var ≠ 0
  asg : ∀ v, s.value v ≠ none → v = 0 ∨ ∃ q ∈ s.trail, q.var = v
  /-- literals waiting for propagation belong to the current level -/
  qlev : ∀ t1 p t2, s.trail = t1 ++ p :: t2 → s.front ≤ t2.length → s.level p.var = s.dl

theorem litTrue_var : litTrue.var = 0 := rfl

theorem Base.isTrue_iff {s : St} (h : s.Base) (p : Lit) : s.isTrue p = true ↔ s.tl p := by
  unfold isTrue tl
  constructor
  · intro hp
    have hv : s.value p.var = some p.tv := by simpa using hp
    rcases h.asg p.var (by rw [hv]; simp) with e | ⟨q, hq, e⟩
    · left
      have : s.value 0 = some true := by unfold value; rw [h.c0]
      rw [e, this] at hv
      cases p with | mk v s => simp_all [Lit.tv, litTrue]
    · right
      have := h.wf.val q hq
      unfold value at hv; rw [← e, this] at hv
      have : q = p := by
        cases p with | mk v s => cases q with | mk w t => simp_all [Lit.tv]
      rw [← this]; exact hq
  · rintro (rfl | hp)
    · unfold value; rw [litTrue_var, h.c0]; rfl
    · unfold value; rw [h.wf.val p hp]; simp

theorem isFalse_eq (s : St) (p : Lit) : s.isFalse p = s.isTrue p.neg := by
  unfold isFalse isTrue; rfl

theorem Base.isFalse_iff {s : St} (h : s.Base) (p : Lit) : s.isFalse p = true ↔ s.tl p.neg := by
  rw [isFalse_eq, h.isTrue_iff]

theorem Base.not_both {s : St} (h : s.Base) {p : Lit} (h1 : s.tl p) (h2 : s.tl p.neg) : False := by
  rw [← h.isTrue_iff] at h1 h2
  unfold isTrue at h1 h2
  simp only [Lit.neg_var, beq_iff_eq] at h1 h2
  rw [h1] at h2
  cases p with | mk v s => simp [Lit.tv, Lit.neg] at h2

theorem Base.level_le {s : St} (h : s.Base) {p : Lit} (hp : s.tl p) : s.level p.var ≤ s.dl := by
  rcases hp with rfl | hp
  · unfold level; rw [litTrue_var, h.c0]; simp
  · exact trail_lev_le h.wf hp

theorem value_cases (s : St) (p : Lit) : s.value p.var = none ∨ s.isTrue p = true ∨ s.isFalse p = true := by
  unfold isTrue isFalse
  cases h : s.value p.var with
  | none => simp
  | some b => cases b <;> cases hp : p.tv <;> simp

/-- the state after assigning the free literal `p` on the current level -/
def push (s : St) (p : Lit) (a : Ante) : St :=
  { s with cell := Function.update s.cell p.var ⟨some p.tv, (false, false), s.dl⟩,
           reason := Function.update s.reason p.var a, trail := p :: s.trail }

theorem force_free {s : St} {p : Lit} (h : s.value p.var = none) (learn : Bool) (a : Ante) :
    s.force learn p a = (s.push p a, true) := by
  unfold force assign; simp only [h]; rfl

theorem force_true {s : St} {p : Lit} (h : s.isTrue p = true) (learn : Bool) (a : Ante) :
    s.force learn p a = (s, true) := by
  have hv : s.value p.var = some p.tv := by simpa [isTrue] using h
  unfold force assign; simp only [hv]; simp

theorem force_false {s : St} {p : Lit} (h : s.isFalse p = true) (learn : Bool) (a : Ante) :
    s.force learn p a = (s.setConflict learn p a, false) := by
  have hv : s.value p.var = some (!p.tv) := by simpa [isFalse] using h
  unfold force assign; simp only [hv]
  have : ((!p.tv) == p.tv) = false := by cases p.tv <;> rfl
  simp only [this]

theorem free_of {s : St} {p : Lit} (h1 : ¬ s.isTrue p = true) (h2 : ¬ s.isFalse p = true) : s.value p.var = none := by
  rcases s.value_cases p with h | h | h
  · exact h
  · exact absurd h h1
  · exact absurd h h2

/-! ### Assigning a free literal -/
section Push
variable {s : St} {p : Lit}

theorem push_tl (q : Lit) (a : Ante) : (s.push p a).tl q ↔ s.tl q ∨ q = p := by
  unfold tl push; simp only [List.mem_cons]; tauto

theorem push_level (a : Ante) (v : Nat) : (s.push p a).level v = if v = p.var then s.dl else s.level v := by
  unfold level push; dsimp only
  by_cases h : v = p.var
  · rw [h, Function.update_self, if_pos rfl]
  · rw [Function.update_of_ne h, if_neg h]

theorem free_ne_of_tl (h : s.Base) (hp : s.value p.var = none) {q : Lit} (hq : s.tl q) : q.var ≠ p.var := by
  intro e
  have := (h.isTrue_iff q).2 hq
  unfold isTrue at this; rw [e, hp] at this; simp at this

theorem push_level_tl (h : s.Base) (hp : s.value p.var = none) (a : Ante) {q : Lit} (hq : s.tl q) :
    (s.push p a).level q.var = s.level q.var := by
  rw [push_level, if_neg (free_ne_of_tl h hp hq)]

theorem push_dl (a : Ante) : (s.push p a).dl = s.dl := rfl

theorem push_decision (h : s.WF) (a : Ante) {i : Nat} (h1 : 1 ≤ i) (hi : i ≤ s.dl) : (s.push p a).decision i = s.decision i := by
  unfold decision
  have e : (s.push p a).levelStart i = s.levelStart i := rfl
  rw [e]
  obtain ⟨l1, l, hl, hlen⟩ := lv_split (show i - 1 < s.dl by omega)
  rw [show i - 1 + 1 = i by omega] at hl
  have hlt : s.levelStart i < s.trail.length := (List.pairwise_cons.1 h.lvs).1 _ (by rw [hl]; simp)
  show ((p :: s.trail).reverse[s.levelStart i]?).getD _ = _
  rw [List.reverse_cons, List.getElem?_append_left (by simpa using hlt)]

theorem Base.push (h : s.Base) (hp : s.value p.var = none) (a : Ante) : (s.push p a).Base := by
  have hwf : (s.push p a).WF := by
    have := h.wf.assign p a
    unfold St.assign at this; simp only [hp] at this; exact this
  have hp0 : p.var ≠ 0 := by
    intro e; unfold value at hp; rw [e, h.c0] at hp; simp at hp
  refine ⟨hwf, ?_, ?_, ?_, ?_⟩
  · show Function.update s.cell p.var _ 0 = _
    rw [Function.update_of_ne (Ne.symm hp0)]; exact h.c0
  · intro q hq
    rcases List.mem_cons.1 hq with rfl | hq
    · exact hp0
    · exact h.toff q hq
  · intro v hv
    by_cases e : v = p.var
    · exact Or.inr ⟨p, by simp [St.push], e.symm⟩
    · have : s.value v ≠ none := by
        unfold value St.push at hv; dsimp only at hv; rwa [Function.update_of_ne e] at hv
      rcases h.asg v this with h0 | ⟨q, hq, hqv⟩
      · exact Or.inl h0
      · exact Or.inr ⟨q, by simp [St.push, hq], hqv⟩
  · intro t1 q t2 ht hf
    rw [push_dl]
    have ht : p :: s.trail = t1 ++ q :: t2 := ht
    cases t1 with
    | nil =>
      simp only [List.nil_append, List.cons.injEq] at ht
      rw [push_level, if_pos (by rw [ht.1])]
    | cons x t1 =>
      simp only [List.cons_append, List.cons.injEq] at ht
      rw [push_level_tl h hp a (Or.inr (by rw [ht.2]; simp))]
      exact h.qlev t1 q t2 ht.2 hf

end Push

/-! ### Undoing -/

/-- `t` is `s` reduced to its levels `≤ d`. -/
structure Cut (s t : St) (d : Nat) : Prop where
  trail : t.trail = s.trail.filter (fun q => decide (s.level q.var ≤ d))
  suf : ∃ w, s.trail = w ++ t.trail
  cell : ∀ v, (∀ q ∈ s.trail, q.var = v → s.level v ≤ d) → t.cell v = s.cell v
  free : ∀ q ∈ s.trail, s.level q.var > d → t.cell q.var = Cell.free
  reason : t.reason = s.reason
  dl : t.dl = d
  dec : ∀ i, 1 ≤ i → i ≤ d → t.decision i = s.decision i
  front : t.front = t.trail.length
  conf : t.conflict = []
  stop : t.stop = none

/-- The fields that undoing does not touch. -/
structure Same (s t : St) : Prop where
  root : t.root = s.root
  flip : t.flip = s.flip
  mode : t.mode = s.mode
  imp : t.imp = s.imp
  impLevel : t.impLevel = s.impLevel
  impFront : t.impFront = s.impFront

theorem cut_undo {s : St} (h : s.WF) {d : Nat} (hd : d < s.dl) (hf : s.flip ≤ d) : Cut s (s.undoUntilImpl d) d ∧ Same s (s.undoUntilImpl d) := by
  obtain ⟨h1, h2, h3, h4, h5, h6, h7, h8, h9, h10⟩ := C09_undo h hd hf
  have e := undoUntilImpl_eq h hd hf
  refine ⟨⟨h1, ?_, h3, h2, h4, h5, fun i a b => (h6 i a b).2, h7, ?_, ?_⟩, h9, h10, ?_, ?_, ?_, ?_⟩
  · rw [e]; exact ⟨_, (List.take_append_drop _ _).symm⟩
  all_goals rw [e]; rfl

theorem undo_noop {s : St} {d : Nat} (hd : s.dl ≤ max d s.flip) : s.undoUntilImpl d = s := by
  unfold undoUntilImpl; exact if_pos hd

theorem undo_max {s : St} (d : Nat) : s.undoUntilImpl d = s.undoUntilImpl (max d s.flip) := by
  unfold undoUntilImpl; simp

section CutLemmas
variable {s t : St} {d : Nat}

theorem Cut.mem (c : Cut s t d) {q : Lit} : q ∈ t.trail ↔ q ∈ s.trail ∧ s.level q.var ≤ d := by
  rw [c.trail]; simp

theorem Cut.level_mem (c : Cut s t d) {q : Lit} (hq : q ∈ t.trail) : t.cell q.var = s.cell q.var := by
  have hq' := c.mem.1 hq
  exact c.cell _ (fun q' hq2 e => hq'.2)

theorem Cut.cell0 (c : Cut s t d) (h : s.Base) : t.cell 0 = s.cell 0 :=
  c.cell 0 (fun q hq e => absurd e (h.toff q hq))

theorem Cut.level (c : Cut s t d) (h : s.Base) {q : Lit} (hq : t.tl q) : t.level q.var = s.level q.var := by
  unfold St.level
  rcases hq with rfl | hq
  · rw [litTrue_var, c.cell0 h]
  · rw [c.level_mem hq]

theorem Cut.tl_iff (c : Cut s t d) (h : s.Base) {q : Lit} : t.tl q ↔ s.tl q ∧ s.level q.var ≤ d := by
  unfold tl
  constructor
  · rintro (rfl | hq)
    · exact ⟨Or.inl rfl, by unfold St.level; rw [litTrue_var, h.c0]; simp⟩
    · exact ⟨Or.inr (c.mem.1 hq).1, (c.mem.1 hq).2⟩
  · rintro ⟨rfl | hq, hl⟩
    · exact Or.inl rfl
    · exact Or.inr (c.mem.2 ⟨hq, hl⟩)

theorem Cut.base (c : Cut s t d) (h : s.Base) (hw : t.WF) : t.Base := by
  refine ⟨hw, ?_, ?_, ?_, ?_⟩
  · rw [c.cell0 h]; exact h.c0
  · intro q hq; exact h.toff q (c.mem.1 hq).1
  · intro v hv
    by_cases hs : ∃ q ∈ s.trail, q.var = v ∧ s.level v > d
    · obtain ⟨q, hq, e, hl⟩ := hs
      exfalso; apply hv
      unfold value; rw [← e, c.free q hq (by rw [e]; exact hl)]; rfl
    · have hs : ∀ q ∈ s.trail, q.var = v → s.level v ≤ d := fun q hq e => by
        by_contra hl; exact hs ⟨q, hq, e, by omega⟩
      have he := c.cell v hs
      rcases h.asg v (by unfold value at hv ⊢; rwa [← he]) with h0 | ⟨q, hq, e⟩
      · exact Or.inl h0
      · exact Or.inr ⟨q, c.mem.2 ⟨hq, by rw [e]; exact hs q hq e⟩, e⟩
  · intro t1 p t2 ht hf
    rw [c.front, ht] at hf
    simp at hf; omega

end CutLemmas

/-! ### Semantic soundness -/

/-- `M` satisfies the decisions of the levels `1..d`. -/
def pathSat (s : St) (M : Asg) (d : Nat) : Prop := ∀ i, 1 ≤ i → i ≤ d → M.sat (s.decision i)

/-- Everything on the trail is justified with respect to the models `F`. -/
structure Sound (F : Th) (s : St) : Prop where
  tt : ∀ M, F M → M.sat litTrue
  reason : ∀ t1 p t2, s.trail = t1 ++ p :: t2 → ∀ r, s.reason p.var = some r →
    (∀ q ∈ r, q = litTrue ∨ q ∈ t2) ∧ ∀ M, F M → M.all r → M.sat p
  impl : ∀ q ∈ s.trail, ∀ M, F.G M → s.pathSat M (s.level q.var) → M.sat q
  null : ∀ q ∈ s.trail, s.reason q.var = none → s.flip < s.level q.var → q = s.decision (s.level q.var)

theorem Sound.mono {F G : Th} {s : St} (h : Sound F s) (hg : G.Le F) : Sound G s :=
  ⟨fun M m => h.tt M (hg.f M m), fun t1 p t2 e r hr => ⟨(h.reason t1 p t2 e r hr).1, fun M m => (h.reason t1 p t2 e r hr).2 M (hg.f M m)⟩,
   fun q hq M m => h.impl q hq M (hg.g M m), h.null⟩

theorem Sound.impl_tl {F : Th} {s : St} (h : Sound F s) {q : Lit} (hq : s.tl q) {M : Asg} (hM : F.G M)
    {d : Nat} (hd : s.level q.var ≤ d) (hp : s.pathSat M d) : M.sat q := by
  rcases hq with rfl | hq
  · exact h.tt M (F.sub M hM)
  · exact h.impl q hq M hM (fun i h1 h2 => hp i h1 (Nat.le_trans h2 hd))

theorem Sound.push {F : Th} {s : St} (hb : s.Base) (h : Sound F s) {p : Lit} (hp : s.value p.var = none) {r : List Lit}
    (hr : ∀ q ∈ r, s.tl q) (hF : ∀ M, F M → M.all r → M.sat p) : Sound F (s.push p (some r)) := by
  refine ⟨h.tt, ?_, ?_, ?_⟩
  · intro t1 q t2 ht r' hr'
    have ht : p :: s.trail = t1 ++ q :: t2 := ht
    cases t1 with
    | nil =>
      simp only [List.nil_append, List.cons.injEq] at ht
      obtain ⟨rfl, rfl⟩ := ht
      have : r' = r := by
        have : Function.update s.reason p.var (some r) p.var = some r' := hr'
        rw [Function.update_self] at this; exact (Option.some.inj this).symm
      subst this
      exact ⟨hr, hF⟩
    | cons x t1 =>
      simp only [List.cons_append, List.cons.injEq] at ht
      have hq : s.tl q := Or.inr (by rw [ht.2]; simp)
      have : s.reason q.var = some r' := by
        have : Function.update s.reason p.var (some r) q.var = some r' := hr'
        rwa [Function.update_of_ne (free_ne_of_tl hb hp hq)] at this
      exact h.reason t1 q t2 ht.2 r' this
  · intro q hq M hM hps
    have hps' : ∀ d, d ≤ s.dl → (s.push p (some r)).pathSat M d → s.pathSat M d := by
      intro d hd hps i h1 hi
      rw [← push_decision hb.wf (p := p) (some r) h1 (Nat.le_trans hi hd)]; exact hps i h1 hi
    rcases List.mem_cons.1 hq with rfl | hq
    · rw [push_level, if_pos rfl] at hps
      have := hps' _ (Nat.le_refl _) hps
      exact hF M (F.sub M hM) (fun q' hq' => h.impl_tl (hr q' hq') hM (hb.level_le (hr q' hq')) this)
    · rw [push_level_tl hb hp _ (Or.inr hq)] at hps
      exact h.impl q hq M hM (hps' _ (trail_lev_le hb.wf hq) hps)
  · intro q hq hn hf
    rcases List.mem_cons.1 hq with rfl | hq
    · have : Function.update s.reason q.var (some r) q.var = none := hn
      rw [Function.update_self] at this; simp at this
    · have hne := free_ne_of_tl hb hp (Or.inr hq)
      have : Function.update s.reason p.var (some r) q.var = none := hn
      rw [Function.update_of_ne hne] at this
      rw [push_level_tl hb hp _ (Or.inr hq)] at hf ⊢
      rw [push_decision hb.wf _ (by have : s.flip < _ := hf; omega) (trail_lev_le hb.wf hq)]
      exact h.null q hq this hf

theorem Sound.cut {F : Th} {s t : St} {d : Nat} (h : Sound F s) (hb : s.Base) (c : Cut s t d)
    (hfl : s.flip ≤ t.flip ∨ d ≤ t.flip) : Sound F t := by
  have hdec : ∀ M k, k ≤ d → t.pathSat M k → s.pathSat M k := by
    intro M k hk hp i h1 hi
    rw [← c.dec i h1 (Nat.le_trans hi hk)]; exact hp i h1 hi
  refine ⟨h.tt, ?_, ?_, ?_⟩
  · intro t1 p t2 ht r hr
    obtain ⟨w, hw⟩ := c.suf
    rw [c.reason] at hr
    exact h.reason (w ++ t1) p t2 (by rw [hw, ht, List.append_assoc]) r hr
  · intro q hq M hM hp
    have := c.level hb (Or.inr hq)
    rw [this] at hp
    exact h.impl q (c.mem.1 hq).1 M hM (hdec M _ (c.mem.1 hq).2 hp)
  · intro q hq hn hf
    have hq' := c.mem.1 hq
    rw [c.level hb (Or.inr hq)] at hf ⊢
    rw [c.reason] at hn
    rw [c.dec _ (by omega) hq'.2]
    exact h.null q hq'.1 hn (by omega)

end St
end Clasp.Core
