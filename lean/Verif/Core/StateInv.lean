/-
The invariant of the solver state: conflicts, implied literals waiting for reassignment, marks. No code is modelled in
this file.
-/
import Verif.Core.State
namespace Clasp.Core
namespace St

/-- Literals that hold on an earlier level than the one they were assigned on. -/
structure ImpOk (F : Th) (s : St) : Prop where
  snd : ∀ x ∈ s.imp, ∀ r, x.ante = some r → (∀ q ∈ r, s.tl q ∧ s.level q.var ≤ x.lev) ∧ ∀ M, F M → M.all r → M.sat x.lit
  nul : ∀ x ∈ s.imp, x.ante = none → x.lit ∈ s.trail ∧ s.level x.lit.var = x.lev
  fr : s.impFront ≤ s.imp.length
  low : ∀ x ∈ s.imp, s.tl x.lit → x.lev ≤ s.level x.lit.var
  asg : ∀ x ∈ s.imp, (s.tl x.lit ∧ s.level x.lit.var ≤ s.flip) ∨ (s.conflict ≠ [] ∧ s.dl = s.flip)
  rt : ∀ x ∈ s.imp.take s.impFront, (s.tl x.lit ∧ s.level x.lit.var ≤ s.root) ∨ (s.conflict ≠ [] ∧ s.dl ≤ s.root)
  lvl : ∀ x ∈ s.imp, (s.tl x.lit ∧ s.level x.lit.var ≤ s.impLevel) ∨ (s.conflict ≠ [] ∧ s.dl ≤ s.impLevel)

/-- Invariant of the solver state with respect to the models `F`, without the implied literals. -/
structure Inv0 (learn : Bool) (F : Th) (s : St) : Prop where
  base : s.Base
  sound : s.Sound F
  stop : s.stop = none
  mode : s.mode ≤ 1
  /-- a conflict refutes the current path -/
  dead : s.conflict ≠ [] → ∀ M, F.G M → ¬ s.pathSat M s.dl
  conf : ∀ q ∈ s.conflict, s.tl q
  confF : learn = true → s.conflict ≠ [] → s.dl ≠ s.flip → ∀ M, F M → ¬ M.all s.conflict
  confTop : learn = true → s.conflict ≠ [] → s.dl ≠ s.flip → ∃ q ∈ s.conflict, q ∈ s.trail ∧ s.level q.var = s.dl
  m1 : ∀ q ∈ s.trail, s.seen q.var = true → s.level q.var = 0
  m2 : 0 < s.dl → ∀ q ∈ s.trail, s.level q.var = 0 → s.seen q.var = true

/-- Invariant of the solver state with respect to the models `F`. -/
structure Inv (learn : Bool) (F : Th) (s : St) : Prop extends Inv0 learn F s where
  imp : s.ImpOk F

theorem ImpOk.mono {F G : Th} {s : St} (h : s.ImpOk F) (hg : G.Le F) : s.ImpOk G :=
  ⟨fun x hx r hr => ⟨(h.snd x hx r hr).1, fun M m => (h.snd x hx r hr).2 M (hg.f M m)⟩, h.nul, h.fr, h.low, h.asg, h.rt, h.lvl⟩

theorem Inv.mono {learn : Bool} {F G : Th} {s : St} (h : s.Inv learn F) (hg : G.Le F) : s.Inv learn G :=
  ⟨⟨h.base, h.sound.mono hg, h.stop, h.mode, fun hc M m => h.dead hc M (hg.g M m), h.conf,
   fun hl hc hd M m => h.confF hl hc hd M (hg.f M m), h.confTop, h.m1, h.m2⟩, h.imp.mono hg⟩

theorem hasConflict_false {s : St} : s.hasConflict = false ↔ s.conflict = [] ∧ s.stop = none := by
  unfold hasConflict; simp

/-- The marks of a state that has propagated everything: level 0 literals are marked. -/
def Marked (s : St) : Prop := s.dl = 0 → s.conflict = [] → ∀ t1 q t2, s.trail = t1 ++ q :: t2 → t2.length < s.front → s.seen q.var = true

section
variable {learn : Bool} {F : Th} {s : St}

theorem seen_push {p : Lit} {a : Ante} (v : Nat) : (s.push p a).seen v = if v = p.var then false else s.seen v := by
  unfold seen push; dsimp only
  by_cases h : v = p.var
  · rw [h, Function.update_self, if_pos rfl]; rfl
  · rw [Function.update_of_ne h, if_neg h]

/-- Forcing a free literal for a sound reason. -/
theorem Inv0.push (h : s.Inv0 learn F) (hc : s.conflict = []) {p : Lit} (hp : s.value p.var = none) {r : List Lit}
    (hr : ∀ q ∈ r, s.tl q) (hF : ∀ M, F M → M.all r → M.sat p) :
    (s.push p (some r)).Inv0 learn F := by
  have hb := h.base
  have hne : ∀ {q : Lit}, s.tl q → q.var ≠ p.var := fun hq => free_ne_of_tl hb hp hq
  refine ⟨hb.push hp _, h.sound.push hb hp hr hF, h.stop, h.mode, fun hn => absurd hc hn, ?_, fun _ hn => absurd hc hn,
    fun _ hn => absurd hc hn, ?_, ?_⟩
  · intro q hq
    have : q ∈ s.conflict := hq
    rw [hc] at this; simp at this
  · intro q hq hs
    rw [seen_push] at hs
    rcases List.mem_cons.1 hq with rfl | hq
    · simp at hs
    · rw [if_neg (hne (Or.inr hq))] at hs
      rw [push_level_tl hb hp _ (Or.inr hq)]
      exact h.m1 q hq hs
  · intro hd q hq hl
    rcases List.mem_cons.1 hq with rfl | hq
    · rw [push_level, if_pos rfl] at hl
      have : 0 < s.dl := hd
      omega
    · rw [seen_push, if_neg (hne (Or.inr hq))]
      rw [push_level_tl hb hp _ (Or.inr hq)] at hl
      exact h.m2 hd q hq hl

theorem Inv.push (h : s.Inv learn F) (hc : s.conflict = []) {p : Lit} (hp : s.value p.var = none) {r : List Lit}
    (hr : ∀ q ∈ r, s.tl q) (hF : ∀ M, F M → M.all r → M.sat p) :
    (s.push p (some r)).Inv learn F := by
  have hb := h.base
  refine ⟨h.toInv0.push hc hp hr hF, ?_⟩
  have asg : ∀ x ∈ s.imp, s.tl x.lit ∧ s.level x.lit.var ≤ s.flip := fun x hx => by
    rcases h.imp.asg x hx with h1 | h1
    · exact h1
    · exact absurd hc h1.1
  refine ⟨?_, ?_, h.imp.fr, ?_, ?_, ?_, ?_⟩
  · intro x hx r' hr'
    obtain ⟨h1, h2⟩ := h.imp.snd x hx r' hr'
    refine ⟨fun q hq => ⟨(push_tl q _).2 (Or.inl (h1 q hq).1), ?_⟩, h2⟩
    rw [push_level_tl hb hp _ (h1 q hq).1]; exact (h1 q hq).2
  · intro x hx hn
    obtain ⟨h1, h2⟩ := h.imp.nul x hx hn
    exact ⟨List.mem_cons_of_mem _ h1, by rw [push_level_tl hb hp _ (Or.inr h1)]; exact h2⟩
  · intro x hx _
    rw [push_level_tl hb hp _ (asg x hx).1]
    exact h.imp.low x hx (asg x hx).1
  · intro x hx
    left
    exact ⟨(push_tl _ _).2 (Or.inl (asg x hx).1), by rw [push_level_tl hb hp _ (asg x hx).1]; exact (asg x hx).2⟩
  · intro x hx
    rcases h.imp.rt x hx with h1 | h1
    · left; exact ⟨(push_tl _ _).2 (Or.inl h1.1), by rw [push_level_tl hb hp _ h1.1]; exact h1.2⟩
    · exact absurd hc h1.1
  · intro x hx
    rcases h.imp.lvl x hx with h1 | h1
    · left; exact ⟨(push_tl _ _).2 (Or.inl h1.1), by rw [push_level_tl hb hp _ h1.1]; exact h1.2⟩
    · exact absurd hc h1.1

/-- Forcing a false literal for a sound reason: the conflict refutes the path. -/
theorem Inv0.conflict (h : s.Inv0 learn F) (hc : s.conflict = []) {p : Lit} (hp : s.isFalse p = true) {r : List Lit}
    (hr : ∀ q ∈ r, s.tl q) (hF : ∀ M, F M → M.all r → M.sat p)
    (htop : s.dl ≠ s.flip → ∃ q ∈ p.neg :: r, q ∈ s.trail ∧ s.level q.var = s.dl) :
    (s.setConflict learn p (some r)).Inv0 learn F := by
  have hb := h.base
  have hpn : s.tl p.neg := (hb.isFalse_iff p).1 hp
  have hcs : (s.setConflict learn p (some r)).conflict = p.neg :: (if learn then r else []) := by
    show s.conflict ++ _ = _
    rw [hc]; rfl
  refine ⟨⟨hb.wf.congr rfl rfl rfl hb.wf.front hb.wf.rf hb.wf.fd, hb.c0, hb.toff, hb.asg, hb.qlev⟩,
    ⟨h.sound.tt, h.sound.reason, h.sound.impl, h.sound.null⟩, h.stop, h.mode, ?_, ?_, ?_, ?_, h.m1, h.m2⟩
  · intro _ M hM hps
    have hps : s.pathSat M s.dl := hps
    have h1 : M.sat p := hF M (F.sub M hM) (fun q hq => h.sound.impl_tl (hr q hq) hM (hb.level_le (hr q hq)) hps)
    have h2 : M.sat p.neg := h.sound.impl_tl hpn hM (hb.level_le hpn) hps
    exact (Asg.sat_neg M p).1 h2 h1
  · intro q hq
    rw [hcs] at hq
    rcases List.mem_cons.1 hq with rfl | hq
    · exact hpn
    · cases learn with
      | true => exact hr q (by simpa using hq)
      | false => simp at hq
  · intro hl _ _ M hM hall
    rw [hcs, hl] at hall
    have h1 : M.sat p := hF M hM (fun q hq => hall q (by simp [hq]))
    exact (Asg.sat_neg M p).1 (hall p.neg (by simp)) h1
  · intro hl _ hd
    rw [hcs, hl]
    exact htop hd

theorem Inv.conflict (h : s.Inv learn F) (hc : s.conflict = []) {p : Lit} (hp : s.isFalse p = true) {r : List Lit}
    (hr : ∀ q ∈ r, s.tl q) (hF : ∀ M, F M → M.all r → M.sat p)
    (htop : s.dl ≠ s.flip → ∃ q ∈ p.neg :: r, q ∈ s.trail ∧ s.level q.var = s.dl) :
    (s.setConflict learn p (some r)).Inv learn F := by
  refine ⟨h.toInv0.conflict hc hp hr hF htop, ⟨h.imp.snd, h.imp.nul, h.imp.fr, h.imp.low, ?_, ?_, ?_⟩⟩
  · intro x hx
    rcases h.imp.asg x hx with h1 | h1
    · exact Or.inl h1
    · exact absurd hc h1.1
  · intro x hx
    rcases h.imp.rt x hx with h1 | h1
    · exact Or.inl h1
    · exact absurd hc h1.1
  · intro x hx
    rcases h.imp.lvl x hx with h1 | h1
    · exact Or.inl h1
    · exact absurd hc h1.1

/-- `force` with a sound reason. -/
theorem Inv0.force (h : s.Inv0 learn F) (hc : s.conflict = []) {p : Lit} {r : List Lit}
    (hr : ∀ q ∈ r, s.tl q) (hF : ∀ M, F M → M.all r → M.sat p)
    (htop : s.isFalse p = true → s.dl ≠ s.flip → ∃ q ∈ p.neg :: r, q ∈ s.trail ∧ s.level q.var = s.dl) :
    (s.force learn p (some r)).1.Inv0 learn F := by
  rcases s.value_cases p with hv | hv | hv
  · rw [force_free hv]; exact h.push hc hv hr hF
  · rw [force_true hv]; exact h
  · rw [force_false hv]; exact h.conflict hc hv hr hF (htop hv)

/-- `force` with a sound reason. -/
theorem Inv.force (h : s.Inv learn F) (hc : s.conflict = []) {p : Lit} {r : List Lit}
    (hr : ∀ q ∈ r, s.tl q) (hF : ∀ M, F M → M.all r → M.sat p)
    (htop : s.isFalse p = true → s.dl ≠ s.flip → ∃ q ∈ p.neg :: r, q ∈ s.trail ∧ s.level q.var = s.dl) :
    (s.force learn p (some r)).1.Inv learn F := by
  rcases s.value_cases p with hv | hv | hv
  · rw [force_free hv]; exact h.push hc hv hr hF
  · rw [force_true hv]; exact h
  · rw [force_false hv]; exact h.conflict hc hv hr hF (htop hv)

end

/-! ### Decisions -/

/-- the state after deciding the free literal `p` -/
def decide' (s : St) (p : Lit) : St := ({ s with lv := s.trail.length :: s.lv } : St).push p none

theorem assume_free {s : St} {p : Lit} (h : s.value p.var = none) : s.assume p = (s.decide' p, true) := by
  unfold assume
  rw [if_pos h]
  unfold assign
  have : ({ s with lv := s.trail.length :: s.lv } : St).value p.var = none := h
  simp only [this]; rfl

theorem decide_dl (s : St) (p : Lit) : (s.decide' p).dl = s.dl + 1 := rfl

theorem decide_level (s : St) (p : Lit) (v : Nat) : (s.decide' p).level v = if v = p.var then s.dl + 1 else s.level v := by
  unfold decide'; rw [push_level]; rfl

theorem decide_start (s : St) (p : Lit) {i : Nat} (h1 : 1 ≤ i) (hi : i ≤ s.dl) : (s.decide' p).levelStart i = s.levelStart i := by
  unfold levelStart decide' push
  dsimp only
  rw [List.reverse_cons, List.getElem?_append_left (by rw [List.length_reverse]; unfold dl at hi; omega)]

theorem decide_decision {s : St} (h : s.WF) (p : Lit) {i : Nat} (h1 : 1 ≤ i) (hi : i ≤ s.dl) :
    (s.decide' p).decision i = s.decision i := by
  unfold decision
  rw [decide_start s p h1 hi]
  obtain ⟨l1, l, hl, hlen⟩ := lv_split (show i - 1 < s.dl by omega)
  rw [show i - 1 + 1 = i by omega] at hl
  have hlt : s.levelStart i < s.trail.length := (List.pairwise_cons.1 h.lvs).1 _ (by rw [hl]; simp)
  show ((p :: s.trail).reverse[s.levelStart i]?).getD _ = _
  rw [List.reverse_cons, List.getElem?_append_left (by simpa using hlt)]

theorem decide_new {s : St} (p : Lit) : (s.decide' p).decision (s.dl + 1) = p := by
  unfold decision
  have : (s.decide' p).levelStart (s.dl + 1) = s.trail.length := by
    unfold levelStart decide' push dl
    dsimp only
    rw [List.reverse_cons, List.getElem?_append_right (by simp)]
    simp
  rw [this]
  show ((p :: s.trail).reverse[s.trail.length]?).getD _ = _
  rw [List.reverse_cons, List.getElem?_append_right (by simp)]
  simp

theorem Inv.decide {learn : Bool} {F : Th} {s : St} (h : s.Inv learn F) (hm : s.Marked) (hc : s.conflict = [])
    {p : Lit} (hp : s.value p.var = none) (hqe : s.front = s.trail.length) : (s.decide' p).Inv learn F := by
  have hb := h.base
  have hp0 : p.var ≠ 0 := by
    intro e; unfold value at hp; rw [e, hb.c0] at hp; simp at hp
  have hne : ∀ {q : Lit}, s.tl q → q.var ≠ p.var := fun hq => free_ne_of_tl hb hp hq
  have hlev : ∀ {q : Lit}, s.tl q → (s.decide' p).level q.var = s.level q.var := fun hq => by
    rw [decide_level, if_neg (hne hq)]
  have htl : ∀ {q : Lit}, s.tl q → (s.decide' p).tl q := fun hq => by
    rcases hq with h | h
    · exact Or.inl h
    · exact Or.inr (List.mem_cons_of_mem _ h)
  have hwf : (s.decide' p).WF := by
    have := hb.wf.assume p; rw [assume_free hp] at this; exact this
  have hpath : ∀ M d, d ≤ s.dl → (s.decide' p).pathSat M d → s.pathSat M d := by
    intro M d hd hps i h1 hi
    rw [← decide_decision hb.wf p h1 (by omega)]; exact hps i h1 hi
  have asg : ∀ x ∈ s.imp, s.tl x.lit ∧ s.level x.lit.var ≤ s.flip := fun x hx => by
    rcases h.imp.asg x hx with h1 | h1
    · exact h1
    · exact absurd hc h1.1
  have hseen : ∀ q ∈ s.trail, (s.decide' p).seen q.var = s.seen q.var := fun q hq => by
    unfold decide'; rw [seen_push, if_neg (hne (Or.inr hq))]; rfl
  refine ⟨⟨⟨hwf, ?_, ?_, ?_, ?_⟩, ⟨h.sound.tt, ?_, ?_, ?_⟩, h.stop, h.mode, fun hn => absurd hc hn, ?_,
    fun _ hn => absurd hc hn, fun _ hn => absurd hc hn, ?_, ?_⟩, ⟨?_, ?_, h.imp.fr, ?_, ?_, ?_, ?_⟩⟩
  · show Function.update s.cell p.var _ 0 = _
    rw [Function.update_of_ne (Ne.symm hp0)]; exact hb.c0
  · intro q hq
    rcases List.mem_cons.1 hq with rfl | hq
    · exact hp0
    · exact hb.toff q hq
  · intro v hv
    by_cases e : v = p.var
    · exact Or.inr ⟨p, by simp [decide', St.push], e.symm⟩
    · have : s.value v ≠ none := by
        unfold value decide' St.push at hv; dsimp only at hv; rwa [Function.update_of_ne e] at hv
      rcases hb.asg v this with h0 | ⟨q, hq, hqv⟩
      · exact Or.inl h0
      · exact Or.inr ⟨q, by simp [decide', St.push, hq], hqv⟩
  · intro t1 q t2 ht hf
    have ht : p :: s.trail = t1 ++ q :: t2 := ht
    have hf : s.front ≤ t2.length := hf
    cases t1 with
    | nil =>
      simp only [List.nil_append, List.cons.injEq] at ht
      rw [decide_level, if_pos (by rw [ht.1])]; rfl
    | cons x t1 =>
      simp only [List.cons_append, List.cons.injEq] at ht
      rw [hqe, ht.2] at hf; simp at hf; omega
  · intro t1 q t2 ht r hr
    have ht : p :: s.trail = t1 ++ q :: t2 := ht
    cases t1 with
    | nil =>
      simp only [List.nil_append, List.cons.injEq] at ht
      have : Function.update s.reason p.var none q.var = some r := hr
      rw [ht.1, Function.update_self] at this; simp at this
    | cons x t1 =>
      simp only [List.cons_append, List.cons.injEq] at ht
      have : Function.update s.reason p.var none q.var = some r := hr
      rw [Function.update_of_ne (hne (Or.inr (by rw [ht.2]; simp)))] at this
      exact h.sound.reason t1 q t2 ht.2 r this
  · intro q hq M hM hps
    rcases List.mem_cons.1 hq with rfl | hq
    · rw [decide_level, if_pos rfl] at hps
      have := hps (s.dl + 1) (by omega) (Nat.le_refl _)
      rwa [decide_new] at this
    · rw [hlev (Or.inr hq)] at hps
      exact h.sound.impl q hq M hM (hpath M _ (trail_lev_le hb.wf hq) hps)
  · intro q hq hn hf
    rcases List.mem_cons.1 hq with rfl | hq
    · rw [decide_level, if_pos rfl, decide_new]
    · rw [hlev (Or.inr hq)] at hf ⊢
      have hf : s.flip < s.level q.var := hf
      have : Function.update s.reason p.var none q.var = none := hn
      rw [Function.update_of_ne (hne (Or.inr hq))] at this
      rw [decide_decision hb.wf p (by omega) (trail_lev_le hb.wf hq)]
      exact h.sound.null q hq this hf
  · intro q hq
    have : q ∈ s.conflict := hq
    rw [hc] at this; simp at this
  · intro q hq hs
    rcases List.mem_cons.1 hq with rfl | hq
    · unfold decide' at hs; rw [seen_push, if_pos rfl] at hs; simp at hs
    · rw [hseen q hq] at hs
      rw [hlev (Or.inr hq)]; exact h.m1 q hq hs
  · intro _ q hq hl
    rcases List.mem_cons.1 hq with rfl | hq
    · rw [decide_level, if_pos rfl] at hl; omega
    · rw [hlev (Or.inr hq)] at hl
      rw [hseen q hq]
      by_cases hd : s.dl = 0
      · obtain ⟨t1, t2, ht⟩ := List.append_of_mem hq
        exact hm hd hc t1 q t2 ht (by rw [hqe, ht]; simp; omega)
      · exact h.m2 (by omega) q hq hl
  · intro x hx r' hr'
    obtain ⟨h1, h2⟩ := h.imp.snd x hx r' hr'
    exact ⟨fun q hq => ⟨htl (h1 q hq).1, by rw [hlev (h1 q hq).1]; exact (h1 q hq).2⟩, h2⟩
  · intro x hx hn
    obtain ⟨h1, h2⟩ := h.imp.nul x hx hn
    exact ⟨List.mem_cons_of_mem _ h1, by rw [hlev (Or.inr h1)]; exact h2⟩
  · intro x hx _
    rw [hlev (asg x hx).1]; exact h.imp.low x hx (asg x hx).1
  · intro x hx
    exact Or.inl ⟨htl (asg x hx).1, by rw [hlev (asg x hx).1]; exact (asg x hx).2⟩
  · intro x hx
    rcases h.imp.rt x hx with h1 | h1
    · exact Or.inl ⟨htl h1.1, by rw [hlev h1.1]; exact h1.2⟩
    · exact absurd hc h1.1
  · intro x hx
    rcases h.imp.lvl x hx with h1 | h1
    · exact Or.inl ⟨htl h1.1, by rw [hlev h1.1]; exact h1.2⟩
    · exact absurd hc h1.1

/-! ### Undoing -/

theorem Inv0.cut {learn : Bool} {F : Th} {s t : St} {d : Nat} (h : s.Inv0 learn F) (c : Cut s t d) (hw : t.WF) (hd : d < s.dl)
    (hfl : s.flip ≤ t.flip ∨ d ≤ t.flip) (hm : t.mode ≤ 1) : t.Inv0 learn F := by
  have hb := h.base
  refine ⟨c.base hb hw, h.sound.cut hb c hfl, c.stop, hm, fun hn => absurd c.conf hn, ?_,
    fun _ hn => absurd c.conf hn, fun _ hn => absurd c.conf hn, ?_, ?_⟩
  · intro q hq; rw [c.conf] at hq; simp at hq
  · intro q hq hs
    have hq' := c.mem.1 hq
    have e := c.level_mem hq
    rw [c.level hb (Or.inr hq)]
    exact h.m1 q hq'.1 (by unfold seen at hs ⊢; rw [← e]; exact hs)
  · intro _ q hq hl
    have hq' := c.mem.1 hq
    have e := c.level_mem hq
    rw [c.level hb (Or.inr hq)] at hl
    have := h.m2 (by omega) q hq'.1 hl
    unfold seen at this ⊢; rw [e]; exact this

theorem Cut.marked {learn : Bool} {F : Th} {s t : St} {d : Nat} (h : s.Inv0 learn F) (c : Cut s t d) (hd : d < s.dl) : t.Marked := by
  intro h0 _ t1 q t2 ht _
  have hq : q ∈ t.trail := by rw [ht]; simp
  have e := c.level_mem hq
  have hq' := c.mem.1 hq
  rw [c.dl] at h0
  have := h.m2 (by omega) q hq'.1 (by omega)
  unfold seen at this ⊢; rw [e]; exact this

/-- Undoing to a level on which every implied literal is still assigned. -/
theorem ImpOk.cut {F : Th} {s t : St} {d : Nat} (h : s.ImpOk F) (hb : s.Base) (c : Cut s t d) (hs : Same s t) (hd : d < s.dl)
    (hi : ∀ x ∈ s.imp, s.tl x.lit ∧ s.level x.lit.var ≤ d) (hr : s.root ≤ d) (hf : s.flip ≤ d) : t.ImpOk F := by
  have htl : ∀ {q : Lit}, s.tl q → s.level q.var ≤ d → t.tl q := fun h1 h2 => (c.tl_iff hb).2 ⟨h1, h2⟩
  refine ⟨?_, ?_, by rw [hs.imp, hs.impFront]; exact h.fr, ?_, ?_, ?_, ?_⟩
  · intro x hx r hr
    rw [hs.imp] at hx
    obtain ⟨h1, h2⟩ := h.snd x hx r hr
    have hx' := hi x hx
    have := h.low x hx hx'.1
    refine ⟨fun q hq => ?_, h2⟩
    have htq := htl (h1 q hq).1 (by have := (h1 q hq).2; omega)
    exact ⟨htq, by rw [c.level hb htq]; exact (h1 q hq).2⟩
  · intro x hx hn
    rw [hs.imp] at hx
    obtain ⟨h1, h2⟩ := h.nul x hx hn
    have := (hi x hx).2
    have hm := c.mem.2 ⟨h1, this⟩
    exact ⟨hm, by rw [c.level hb (Or.inr hm)]; exact h2⟩
  · intro x hx hl
    rw [hs.imp] at hx
    rw [c.level hb hl]; exact h.low x hx (hi x hx).1
  · intro x hx
    rw [hs.imp] at hx
    have htq := htl (hi x hx).1 (hi x hx).2
    refine Or.inl ⟨htq, ?_⟩
    rw [c.level hb htq, hs.flip]
    rcases h.asg x hx with h1 | h1
    · exact h1.2
    · omega
  · intro x hx
    rw [hs.imp, hs.impFront] at hx
    have hx' := hi x (List.mem_of_mem_take hx)
    have htq := htl hx'.1 hx'.2
    refine Or.inl ⟨htq, ?_⟩
    rw [c.level hb htq, hs.root]
    rcases h.rt x hx with h1 | h1
    · exact h1.2
    · omega
  · intro x hx
    rw [hs.imp] at hx
    have hx' := hi x hx
    have htq := htl hx'.1 hx'.2
    refine Or.inl ⟨htq, ?_⟩
    rw [c.level hb htq, hs.impLevel]
    rcases h.lvl x hx with h1 | h1
    · exact h1.2
    · omega

/-- `undoUntil(dl)`, which stops at the backtrack level. -/
theorem Inv.undoImpl {learn : Bool} {F : Th} {s : St} (h : s.Inv learn F) (d : Nat) : (s.undoUntilImpl d).Inv learn F := by
  by_cases hd : max d s.flip < s.dl
  · rw [undo_max]
    have hf : s.flip ≤ max d s.flip := by omega
    obtain ⟨c, hs⟩ := cut_undo h.base.wf hd hf
    refine ⟨h.toInv0.cut c (h.base.wf.undoUntilImpl _) hd (Or.inl (by rw [hs.flip]; exact Nat.le_refl _)) (by rw [hs.mode]; exact h.mode),
      h.imp.cut h.base c hs hd ?_ ?_ hf⟩
    · intro x hx
      rcases h.imp.asg x hx with h1 | h1
      · exact ⟨h1.1, by omega⟩
      · omega
    · have := h.base.wf.rf; omega
  · rw [undo_noop (by omega)]; exact h

theorem Marked.undoImpl {learn : Bool} {F : Th} {s : St} (h : s.Inv0 learn F) (hm : s.Marked) (d : Nat) : (s.undoUntilImpl d).Marked := by
  by_cases hd : max d s.flip < s.dl
  · rw [undo_max]
    exact (cut_undo h.base.wf hd (by omega)).1.marked h hd
  · rw [undo_noop (by omega)]; exact hm

/-! ### Forcing several literals on the current level -/

/-- `t` is `s` with more literals forced on the current level (and possibly a conflict). -/
structure Ext (s t : St) : Prop where
  trail : ∃ e, t.trail = e ++ s.trail ∧ ∀ q ∈ e, t.level q.var = s.dl ∧ s.value q.var = none ∧ t.value q.var ≠ none
  lv : t.lv = s.lv
  keep : ∀ v, s.value v ≠ none → t.cell v = s.cell v ∧ t.reason v = s.reason v
  front : t.front = s.front
  root : t.root = s.root
  flip : t.flip = s.flip
  mode : t.mode = s.mode
  conf : s.conflict ≠ [] → t.conflict ≠ []

theorem Same.refl (s : St) : Same s s := ⟨rfl, rfl, rfl, rfl, rfl, rfl⟩
theorem Same.trans {s t u : St} (a : Same s t) (b : Same t u) : Same s u :=
  ⟨by rw [b.root, a.root], by rw [b.flip, a.flip], by rw [b.mode, a.mode], by rw [b.imp, a.imp], by rw [b.impLevel, a.impLevel],
   by rw [b.impFront, a.impFront]⟩

theorem Ext.refl (s : St) : Ext s s := ⟨⟨[], by simp⟩, rfl, fun _ _ => ⟨rfl, rfl⟩, rfl, rfl, rfl, rfl, id⟩

theorem Ext.value {s t : St} (a : Ext s t) {v : Nat} (h : s.value v ≠ none) : t.value v ≠ none := by
  unfold St.value at h ⊢; rw [(a.keep v h).1]; exact h

theorem Ext.trans {s t u : St} (a : Ext s t) (b : Ext t u) : Ext s u := by
  obtain ⟨e1, h1, h1'⟩ := a.trail
  obtain ⟨e2, h2, h2'⟩ := b.trail
  refine ⟨⟨e2 ++ e1, by rw [h2, h1, List.append_assoc], ?_⟩, by rw [b.lv, a.lv], ?_, by rw [b.front, a.front], by rw [b.root, a.root],
    by rw [b.flip, a.flip], by rw [b.mode, a.mode], fun h => b.conf (a.conf h)⟩
  · intro q hq
    rcases List.mem_append.1 hq with hq | hq
    · obtain ⟨h3, h4, h5⟩ := h2' q hq
      refine ⟨by rw [h3]; unfold dl; rw [a.lv], ?_, h5⟩
      by_contra hn
      exact a.value hn h4
    · obtain ⟨h3, h4, h5⟩ := h1' q hq
      refine ⟨?_, h4, b.value h5⟩
      unfold St.level at h3 ⊢; rw [(b.keep _ h5).1]; exact h3
  · intro v hv
    have := a.keep v hv
    have h3 := b.keep v (a.value hv)
    exact ⟨by rw [h3.1, this.1], by rw [h3.2, this.2]⟩

end St
end Clasp.Core
