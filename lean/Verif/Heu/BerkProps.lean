import Verif.Heu.BerkLem
/-!
# C51: decisions of the Berkmin heuristic

Whenever a variable is free, the heuristic returns a free variable, and it is the one its description promises: a most active variable of the most recent
conflict nogood that is not satisfied (or of another such nogood), a free variable with the highest activity, or one with the best static score.
-/

namespace Clasp.Berk

/-- Proof device: what is remembered about the nogoods between two backtrackings. -/
def Bk.Mem (s : Bk) : Prop :=
  (s.fresh = true → s.tc = none) ∧ ∀ L, s.lim = some L → ∃ k, s.tc = some k ∧ k ≤ L ∧ L ≤ s.db.length ∧ s.Sat k L

theorem isOpen_some {s : Bk} {c l : List Lit} (h : s.isOpen c = some l) : c.any s.isTrue = false ∧ l = c.filter fun l => (s.val l.1).isNone := by
  unfold Bk.isOpen at h
  cases hc : c.any s.isTrue with
  | false => rw [hc] at h; injection h with h; exact ⟨rfl, h.symm⟩
  | true => rw [hc] at h; cases h

theorem cap_le (len : Nat) (o : Option Nat) : cap len o ≤ len := by
  cases o with
  | none => exact Nat.le_refl _
  | some k => exact Nat.min_le_left _ _

theorem top_spec {s : Bk} :
    ∃ k, s.top.2.tc = some k ∧ k ≤ cap s.db.length s.tc ∧ s.Sat k (cap s.db.length s.tc) ∧
    ((∃ i c l, k = i + 1 ∧ s.db[i]? = some (Ty.conflict, c) ∧ s.isOpen c = some l ∧ (l ≠ [] → s.top.1 = l)) ∨
      k = cap s.db.length s.tc - s.maxB.getD (cap s.db.length s.tc)) ∧
    (s.top.1 = [] ∨ ∃ i, s.At i s.top.1) := by
  unfold Bk.top
  simp only
  obtain ⟨T, hT⟩ : ∃ T, cap s.db.length s.tc = T := ⟨_, rfl⟩
  obtain ⟨U, hU⟩ : ∃ U, cap s.db.length s.tot = U := ⟨_, rfl⟩
  rw [hT, hU]
  have hTl : T ≤ s.db.length := by rw [← hT]; exact cap_le _ _
  obtain ⟨r1, hr1⟩ : ∃ r1, (if (s.loop || s.other) = true then s.findOther T (U - T) else (U, [])) = r1 := ⟨_, rfl⟩
  rw [hr1]
  have ho : ∀ p, (if r1.2.isEmpty = true then none else some r1) = some p → ∃ i, p.1 = i + 1 ∧ s.At i p.2 := by
    intro p hp
    by_cases he : r1.2.isEmpty = true
    · rw [if_pos he] at hp; cases hp
    · rw [if_neg he] at hp
      injection hp with hp
      rw [← hp]
      by_cases hl : (s.loop || s.other) = true
      · rw [if_pos hl] at hr1
        rcases findOther_spec (s := s) (tc := T) (k := U - T) with h1 | h1
        · rw [hr1] at h1; rw [h1] at he; exact absurd rfl he
        · rw [hr1] at h1; exact h1
      · rw [if_neg hl] at hr1
        rw [← hr1] at he; exact absurd rfl he
  obtain ⟨f1, f2, f3, f4⟩ := findConf_spec (k := s.maxB.getD T) hTl ho
  obtain ⟨r2, hr2⟩ : ∃ r2, s.findConf T (s.maxB.getD T) (if r1.2.isEmpty = true then none else some r1) = r2 := ⟨_, rfl⟩
  rw [hr2] at f1 f2 f3 f4 ⊢
  refine ⟨r2.1, rfl, f1, f2, ?_, ?_⟩
  · rcases f4 with ⟨i, c, e1, e2, e3⟩ | ⟨_, e⟩
    · refine Or.inl ⟨i, c, r2.2.1, e1, e2, e3, fun hne => ?_⟩
      rw [if_neg (by simpa using hne)]
    · exact Or.inr e
  · by_cases he : r2.2.1.isEmpty = true
    · rw [if_pos he]
      cases hp : r2.2.2 with
      | none => exact Or.inl rfl
      | some p =>
        obtain ⟨i, _, h2⟩ := f3 p hp
        exact Or.inr ⟨i, h2⟩
    · rw [if_neg he]
      rcases f4 with ⟨i, c, _, e2, e3⟩ | ⟨e, _⟩
      · exact Or.inr ⟨i, _, c, e2, Or.inl rfl, e3⟩
      · rw [e] at he; exact absurd rfl he

theorem top_mem {s : Bk} (h : s.Mem) : s.top.2.Mem := by
  refine ⟨(fun hh => by cases hh), ?_⟩
  intro L hL
  obtain ⟨k, t1, t2, t3, _, _⟩ := top_spec (s := s)
  have hL' : (if s.fresh = true then some s.db.length else s.lim) = some L := hL
  refine ⟨k, t1, ?_⟩
  by_cases htc : s.fresh = true
  · rw [if_pos htc] at hL'
    injection hL' with hL'
    have : s.tc = none := h.1 htc
    rw [this] at t2 t3
    simp only [cap] at t2 t3
    rw [← hL']
    exact ⟨t2, Nat.le_refl _, t3⟩
  · rw [if_neg htc] at hL'
    obtain ⟨k0, m1, m2, m3, m4⟩ := h.2 L hL'
    rw [m1] at t2 t3
    have hc : cap s.db.length (some k0) = k0 := by simp only [cap]; omega
    rw [hc] at t2 t3
    refine ⟨by omega, m3, ?_⟩
    intro j c h1 h2 h3
    by_cases hj : j < k0
    · exact t3 j c h1 hj h3
    · exact m4 j c (by omega) h2 h3

theorem select_cases {s : Bk} (hi : s.Inv) (hf : ∃ v, s.isFree v = true) (dk : Bool) (mo : Nat → Nat) (rnd : Nat) :
    ∃ v via s', s.select dk mo rnd = some (v, via, s') ∧ s.isFree v = true ∧ s'.Inv ∧ s'.val = s.val ∧ s'.db = s.db ∧
      s'.tc = (s.decayStep dk).top.2.tc ∧ s'.lim = (s.decayStep dk).top.2.lim ∧ s'.fresh = (s.decayStep dk).top.2.fresh ∧ s'.sc = (s.decayStep dk).sc ∧
      ((s.decayStep dk).top.1 ≠ [] → via = .nogood ∧ ∃ b, (v, b) ∈ (s.decayStep dk).top.1 ∧ ∀ p ∈ (s.decayStep dk).top.1,
        (s.decayStep dk).sc p.1 ≤ (s.decayStep dk).sc v ∧ ((s.decayStep dk).sc p.1 = (s.decayStep dk).sc v → mo p.1 ≤ mo v)) ∧
      ((s.decayStep dk).top.1 = [] → via ≠ .nogood) ∧
      (via = .active → s.dirty = false → ∀ w, s.isFree w = true → (s.decayStep dk).sc w ≤ (s.decayStep dk).sc v) ∧
      (via = .moms → ∀ w, s.isFree w = true → w ≤ s.pv → mo w ≤ mo v) := by
  obtain ⟨d1, d2, d3, d4, d5, d6, d7, d8, d9, d10, d11⟩ := decay_fields s dk
  have hi1 := decay_inv hi dk
  have hi2 := top_inv hi1
  have hfr := decay_isFree s dk
  unfold Bk.select
  simp only
  obtain ⟨_, _, _, _, _, t6⟩ := top_spec (s := s.decayStep dk)
  cases ht : (s.decayStep dk).top.1 with
  | cons a l =>
    obtain ⟨x, x1, x2, x3⟩ := selRange_spec (s := s.decayStep dk) (mo := mo) (rnd := rnd) (l := a :: l) (by simp)
    simp only [x1, Option.map_some]
    refine ⟨x.1, .nogood, _, rfl, ?_, hi2, d3, d4, rfl, rfl, rfl, rfl, fun _ => ⟨rfl, x.2, x2, x3⟩, by simp, by simp, by simp⟩
    rcases t6 with h1 | ⟨i, t, c, h1, _, h3⟩
    · rw [ht] at h1; cases h1
    · rw [ht] at h3
      obtain ⟨_, e⟩ := isOpen_some h3
      rw [e] at x2
      obtain ⟨y1, y2⟩ := List.mem_filter.1 x2
      have := hi1.db t c (List.mem_of_getElem? h1) x y1
      rw [← hfr]
      simp only [Bk.isFree, Bool.and_eq_true, decide_eq_true_eq]
      grind
  | nil =>
    simp only
    have hf2 : ∃ v, (s.decayStep dk).top.2.isFree v = true := by
      obtain ⟨v, hv⟩ := hf
      exact ⟨v, by rw [(top_fields _).2.2.2.2.1, hfr]; exact hv⟩
    by_cases hh : (s.decayStep dk).has = true
    · rw [if_pos hh]
      obtain ⟨v, s', e, m1, m2, m3, m4, m5, m6, m7, m8, m9⟩ := most_spec hi2 hf2
      rw [e]
      refine ⟨v, .active, s', rfl, ?_, m2, m4.trans d3, m5.trans d4, m6, m7, m9, m8, by simp, by simp, ?_, by simp⟩
      · rw [← hfr]; exact m1
      · intro _ hd w hw
        exact m3 (d8.trans hd) w (by rw [(top_fields _).2.2.2.2.1, hfr]; exact hw)
    · rw [if_neg hh]
      obtain ⟨v, s', e, m1, m2, m3, m4, m5, m6, m7, m8, m9⟩ := moms_spec hi2 mo hf2
      rw [e]
      refine ⟨v, .moms, s', rfl, ?_, m2, m4.trans d3, m5.trans d4, m6, m7, m9, m8, by simp, by simp, by simp, ?_⟩
      · rw [← hfr]; exact m1
      · intro _ w hw hp
        exact m3 w (by rw [(top_fields _).2.2.2.2.1, hfr]; exact hw) (by rw [(top_fields _).2.1, d2]; exact hp)

theorem true_assign {s : Bk} {v : Nat} {b : Bool} (hv : s.isFree v = true) {l : Lit} (h : s.isTrue l = true) :
    Bk.isTrue { s with val := fun w => if w = v then some b else s.val w } l = true := by
  simp only [Bk.isFree, Bool.and_eq_true, decide_eq_true_eq] at hv
  simp only [Bk.isTrue, beq_iff_eq] at h ⊢
  by_cases hl : l.1 = v
  · rw [hl] at h
    have h2 := hv.2
    rw [h] at h2; simp at h2
  · rw [if_neg hl]; exact h

theorem step_inv {s s' : Bk} (hi : s.Inv) (hm : s.Mem) (ev : Ev) (h : step s ev = some s') : s'.Inv ∧ s'.Mem := by
  have hfilt : ∀ n t c, (t, c) ∈ (s.db.filter fun c => c.2.all fun l => decide (1 ≤ l.1) && decide (l.1 ≤ n)) → ∀ l ∈ c, 1 ≤ l.1 ∧ l.1 ≤ n := by
    intro n t c hc l hl
    have := (List.mem_filter.1 hc).2
    rw [List.all_eq_true] at this
    simpa using this l hl
  have hzero : ∀ (x : Bk) v, v < 1 → x.isFree v = false := by
    intro x v hv
    have : v = 0 := by omega
    simp [this, Bk.isFree]
  cases ev with
  | start n pv val =>
    injection h with h
    rw [← h]
    exact ⟨⟨hzero _, by simp, hi.dec, Nat.min_le_right _ _, hfilt n, fun _ => ⟨List.Pairwise.nil, by simp⟩⟩, ⟨fun _ => rfl, fun L hL => (by cases hL)⟩⟩
  | done act all hh =>
    simp only [step] at h
    by_cases hg : s.front = 1 ∧ s.cache = [] ∧ s.tc = none
    · rw [if_pos hg] at h
      injection h with h
      by_cases ha : all = true
      · rw [if_pos ha] at h
        rw [← h]
        refine ⟨⟨hi.front, hi.csize, by simp, hi.pv, hi.db, fun _ => ?_⟩, hm⟩
        obtain ⟨f1, f2⟩ := foldl_ins (s := { s with act := act, dec := fun _ => s.decay, has := s.has || hh }) (l := Bk.range 1 s.n) (c := []) List.Pairwise.nil
        refine ⟨f1, fun w hw => Or.inl ((f2 w).2 (Or.inl ?_))⟩
        have hw' : s.isFree w = true := hw
        exact (List.mem_filter.1 (mem_free.2 hw')).1
      · rw [if_neg ha] at h
        rw [← h]
        refine ⟨⟨hi.front, hi.csize, by simp, hi.pv, hi.db, fun _ => ?_⟩, hm⟩
        simp only [hg.2.1]
        exact ⟨List.Pairwise.nil, by simp⟩
    · rw [if_neg hg] at h; cases h
  | assign v b =>
    simp only [step] at h
    by_cases hv : s.isFree v = true
    · rw [if_pos hv] at h
      injection h with h
      have hle : ∀ w, s'.isFree w = true → s.isFree w = true := by
        intro w hw
        rw [← h] at hw
        simp only [Bk.isFree, Bool.and_eq_true, decide_eq_true_eq] at hw ⊢
        by_cases hwv : w = v
        · rw [if_pos hwv] at hw; simp at hw
        · rw [if_neg hwv] at hw; exact hw
      rw [← h] at hle ⊢
      refine ⟨⟨?_, hi.csize, hi.dec, hi.pv, hi.db, fun hd => ⟨(hi.cache hd).1, fun w hw => (hi.cache hd).2 w (hle w hw)⟩⟩, ?_⟩
      · intro w hw
        by_contra hc
        have := hi.front w hw
        rw [hle w (by simpa using hc)] at this; cases this
      · refine ⟨hm.1, ?_⟩
        intro L hL
        obtain ⟨k, m1, m2, m3, m4⟩ := hm.2 L hL
        refine ⟨k, m1, m2, m3, ?_⟩
        intro j c h1 h2 h3
        have := m4 j c h1 h2 h3
        rw [List.any_eq_true] at this ⊢
        obtain ⟨l, l1, l2⟩ := this
        exact ⟨l, l1, true_assign hv l2⟩
    · rw [if_neg hv] at h; cases h
  | undo keep =>
    injection h with h
    rw [← h]
    refine ⟨⟨hzero _, ?_, hi.dec, hi.pv, hi.db, fun _ => ⟨List.Pairwise.nil, by simp [Bk.undone]⟩⟩, ⟨fun _ => rfl, fun L hL => (by cases hL)⟩⟩
    have := hi.csize
    simp only [Bk.undone]
    split <;> omega
  | vars n pv =>
    injection h with h
    rw [← h]
    exact ⟨⟨hzero _, hi.csize, hi.dec, Nat.min_le_right _ _, hfilt n, fun _ => ⟨List.Pairwise.nil, by simp⟩⟩, ⟨hm.1, fun L hL => (by cases hL)⟩⟩
  | learn t c =>
    simp only [step] at h
    by_cases hg : (c.all fun l => decide (1 ≤ l.1) && decide (l.1 ≤ s.n)) = true
    · rw [if_pos hg] at h
      injection h with h
      rw [← h]
      refine ⟨⟨hi.front, hi.csize, hi.dec, hi.pv, ?_, hi.cache⟩, ?_⟩
      · intro t' c' hc l hl
        rcases List.mem_append.1 hc with h1 | h1
        · exact hi.db t' c' h1 l hl
        · rw [List.mem_singleton] at h1
          injection h1 with _ h1
          rw [h1] at hl
          rw [List.all_eq_true] at hg
          simpa using hg l hl
      · refine ⟨hm.1, ?_⟩
        intro L hL
        obtain ⟨k, m1, m2, m3, m4⟩ := hm.2 L hL
        refine ⟨k, m1, m2, by simp only [List.length_append]; omega, ?_⟩
        intro j c' h1 h2 h3
        simp only at h3
        rw [List.getElem?_append_left (by omega)] at h3
        exact m4 j c' h1 h2 h3
    · rw [if_neg hg] at h; cases h
  | score act hh =>
    injection h with h
    rw [← h]
    exact ⟨⟨hi.front, hi.csize, by simp, hi.pv, hi.db, fun hd => by cases hd⟩, hm⟩
  | select dk mo rnd =>
    simp only [step] at h
    by_cases hg : ((Bk.range 1 s.n).any s.isFree) = true
    · rw [if_pos hg] at h
      rw [List.any_eq_true] at hg
      obtain ⟨x, _, hx⟩ := hg
      obtain ⟨v, via, s1, e, _, i2, i3, i4, i5, i6, i7, _⟩ := select_cases hi ⟨x, hx⟩ dk mo rnd
      rw [e] at h
      injection h with h
      simp only at h
      rw [← h]
      refine ⟨i2, ?_⟩
      obtain ⟨_, _, d3, d4, _, _, _, _, d9, d10, _⟩ := decay_fields s dk
      have hm1 : (s.decayStep dk).Mem := by
        unfold Bk.Mem Bk.Sat Bk.isTrue
        rw [d3, d4, d9, d10, decay_fresh]; exact hm
      have hm2 := top_mem hm1
      unfold Bk.Mem Bk.Sat Bk.isTrue at hm2 ⊢
      rw [i3, i4, i5, i6, i7]
      rw [(top_fields _).2.2.1, (top_fields _).2.2.2.1, d3, d4] at hm2
      exact hm2
    · rw [if_neg hg] at h; cases h

theorem reach_inv {hu : Bool} {mb : Option Nat} {lo ot : Bool} {s : Bk} (h : Reach hu mb lo ot s) : s.Inv ∧ s.Mem := by
  induction h with
  | new =>
    refine ⟨⟨?_, by simp [Bk.new], by simp [Bk.new], by simp [Bk.new], by simp [Bk.new], fun _ => ⟨List.Pairwise.nil, by simp [Bk.new]⟩⟩, ⟨fun _ => rfl, fun L hL => (by cases hL)⟩⟩
    intro v hv
    have hv : v < 1 := hv
    have : v = 0 := by omega
    simp [this, Bk.isFree]
  | step ev _ hs ih => exact step_inv ih.1 ih.2 ev hs

/-- The activity of a variable as it is compared: the counter, halved once for every decay since it was last touched (the description of the
heuristic, clasp/heuristics.h:91-99, 140-150). -/
def activity (s : Bk) (v : Nat) : Nat := s.act v / 2 ^ (s.decay - s.dec v)

theorem sc_activity (s : Bk) : s.sc = activity s := by
  funext v
  exact Nat.shiftRight_eq_div_pow _ _

/-- A literal is true. -/
def tru (s : Bk) (l : Lit) : Prop := s.val l.1 = some (!l.2)

/-- A variable is free. -/
def free (s : Bk) (v : Nat) : Prop := 1 ≤ v ∧ v ≤ s.n ∧ s.val v = none

theorem isFree_iff {s : Bk} {v : Nat} : s.isFree v = true ↔ free s v := by
  simp [Bk.isFree, free, and_assoc]

/-- **C51 (a decision is possible).**  In every reachable state with a free variable the heuristic returns a free variable of the problem; it never
looks past the last variable or past the learnt nogoods. -/
theorem C51_free {hu : Bool} {mb : Option Nat} {lo ot : Bool} {s : Bk} (h : Reach hu mb lo ot s) (hf : ∃ v, free s v)
    (dk : Bool) (mo : Nat → Nat) (rnd : Nat) : ∃ v via s', s.select dk mo rnd = some (v, via, s') ∧ free s v := by
  obtain ⟨x, hx⟩ := hf
  obtain ⟨v, via, s', e, h1, _⟩ := select_cases (reach_inv h).1 ⟨x, isFree_iff.2 hx⟩ dk mo rnd
  exact ⟨v, via, s', e, isFree_iff.1 h1⟩

theorem sel_free {s s' : Bk} {dk : Bool} {mo : Nat → Nat} {rnd v : Nat} {via : Via} (hf : ∃ v, free s v) (hi : s.Inv)
    (hs : s.select dk mo rnd = some (v, via, s')) :
    s'.val = s.val ∧ s'.db = s.db ∧
      s'.tc = (s.decayStep dk).top.2.tc ∧ s'.lim = (s.decayStep dk).top.2.lim ∧ s'.sc = (s.decayStep dk).sc ∧
      ((s.decayStep dk).top.1 ≠ [] → via = .nogood ∧ ∃ b, (v, b) ∈ (s.decayStep dk).top.1 ∧ ∀ p ∈ (s.decayStep dk).top.1,
        s'.sc p.1 ≤ s'.sc v ∧ (s'.sc p.1 = s'.sc v → mo p.1 ≤ mo v)) ∧
      ((s.decayStep dk).top.1 = [] → via ≠ .nogood) ∧
      (via = .active → s.dirty = false → ∀ w, s.isFree w = true → s'.sc w ≤ s'.sc v) ∧
      (via = .moms → ∀ w, s.isFree w = true → w ≤ s.pv → mo w ≤ mo v) := by
  obtain ⟨x, hx⟩ := hf
  obtain ⟨v1, via1, s1, e, _, _, e1, e2, e3, e4, _, e5, r⟩ := select_cases hi ⟨x, isFree_iff.2 hx⟩ dk mo rnd
  rw [hs] at e
  injection e with e
  injection e with a b
  injection b with b c
  subst a b c
  rw [e5]
  exact ⟨e1, e2, e3, e4, rfl, r⟩

/-- **C51 (the most active variable).**  If the decision is made by activity and no activity was changed since the last backtracking, then no free
variable has a higher activity; whatever is left of the cache of earlier decisions. -/
theorem C51_active {hu : Bool} {mb : Option Nat} {lo ot : Bool} {s s' : Bk} (h : Reach hu mb lo ot s) (hf : ∃ v, free s v) (hd : s.dirty = false)
    {dk : Bool} {mo : Nat → Nat} {rnd v : Nat} (hs : s.select dk mo rnd = some (v, .active, s')) :
    ∀ w, free s w → activity s' w ≤ activity s' v := by
  intro w hw
  obtain ⟨_, _, _, _, _, _, _, r, _⟩ := sel_free hf (reach_inv h).1 hs
  rw [← sc_activity]
  exact r rfl hd w (isFree_iff.2 hw)

/-- **C51 (the static score).**  If there are no activities, the decision has the best static score among the free variables of the problem. -/
theorem C51_moms {hu : Bool} {mb : Option Nat} {lo ot : Bool} {s s' : Bk} (h : Reach hu mb lo ot s) (hf : ∃ v, free s v)
    {dk : Bool} {mo : Nat → Nat} {rnd v : Nat} (hs : s.select dk mo rnd = some (v, .moms, s')) :
    ∀ w, free s w → w ≤ s.pv → mo w ≤ mo v := by
  intro w hw hp
  obtain ⟨_, _, _, _, _, _, _, _, r⟩ := sel_free hf (reach_inv h).1 hs
  exact r rfl w (isFree_iff.2 hw) hp

/-- **C51 (a decision from a nogood).**  If the decision is made from a nogood, it is a variable of a learnt nogood without a true literal, and no free
variable of this nogood is more active, or equally active with a better static score. -/
theorem C51_nogood {hu : Bool} {mb : Option Nat} {lo ot : Bool} {s s' : Bk} (h : Reach hu mb lo ot s) (hf : ∃ v, free s v)
    {dk : Bool} {mo : Nat → Nat} {rnd v : Nat} (hs : s.select dk mo rnd = some (v, .nogood, s')) :
    ∃ t c b, (t, c) ∈ s.db ∧ (v, b) ∈ c ∧ (∀ l ∈ c, ¬ tru s l) ∧
      ∀ l ∈ c, free s l.1 → activity s' l.1 ≤ activity s' v ∧ (activity s' l.1 = activity s' v → mo l.1 ≤ mo v) := by
  obtain ⟨_, _, _, _, _, r1, r2, _, _⟩ := sel_free hf (reach_inv h).1 hs
  have hne : (s.decayStep dk).top.1 ≠ [] := fun hh => r2 hh rfl
  obtain ⟨_, b, r3, r4⟩ := r1 hne
  obtain ⟨_, _, d3, d4, _⟩ := decay_fields s dk
  obtain ⟨_, _, _, _, _, t6⟩ := top_spec (s := s.decayStep dk)
  rcases t6 with t6 | ⟨i, t, c, h1, _, h3⟩
  · exact absurd t6 hne
  · obtain ⟨o1, o2⟩ := isOpen_some h3
    rw [o2] at r3 r4
    refine ⟨t, c, b, by rw [← d4]; exact List.mem_of_getElem? h1, (List.mem_filter.1 r3).1, ?_, ?_⟩
    · intro l hl ht
      have := List.any_eq_false.1 o1 l hl
      apply this
      unfold Bk.isTrue
      rw [d3, ht]; simp
    · intro l hl hfl
      rw [← sc_activity]
      exact r4 l (List.mem_filter.2 ⟨hl, by rw [d3, hfl.2.2]; rfl⟩)

/-- **C51 (the most recent nogood).**  Let the nogoods that were learnt up to the last backtracking be those below `L`.  If the conflict nogood at position `i` has a free
literal and no true one, and all later conflict nogoods are satisfied, and it is within the number of nogoods to be looked at (`maxB`), then the decision is made from this
nogood, however many decisions and assignments were made since the backtracking. -/
theorem C51_recent {hu : Bool} {mb : Option Nat} {lo ot : Bool} {s s' : Bk} (h : Reach hu mb lo ot s) (hf : ∃ v, free s v)
    {dk : Bool} {mo : Nat → Nat} {rnd v : Nat} {via : Via} (hs : s.select dk mo rnd = some (v, via, s')) {L i : Nat} {c : List Lit}
    (hL : s'.lim = some L) (hi : i < L) (hc : s.db[i]? = some (Ty.conflict, c)) (ho : ∀ l ∈ c, ¬ tru s l) (hfc : ∃ l ∈ c, s.val l.1 = none)
    (hlater : ∀ j c', i < j → j < L → s.db[j]? = some (Ty.conflict, c') → ∃ l ∈ c', tru s l)
    (hb : ∀ m, s.maxB = some m → L - i ≤ m) :
    via = .nogood ∧ ∃ b, (v, b) ∈ c ∧
      ∀ l ∈ c, free s l.1 → activity s' l.1 ≤ activity s' v ∧ (activity s' l.1 = activity s' v → mo l.1 ≤ mo v) := by
  obtain ⟨hI, hM⟩ := reach_inv h
  obtain ⟨q1, q2, q3, q4, _, r1, _⟩ := sel_free hf hI hs
  obtain ⟨_, _, d3, d4, _, _, _, _, d9, d10, d11⟩ := decay_fields s dk
  have hm1 : (s.decayStep dk).Mem := by
    unfold Bk.Mem Bk.Sat Bk.isTrue
    rw [d3, d4, d9, d10, decay_fresh]; exact hM
  have hm2 := top_mem hm1
  obtain ⟨k, t1, t2, t3, t5, _⟩ := top_spec (s := s.decayStep dk)
  obtain ⟨k', m1, m2, m3, m4⟩ := hm2.2 L (by rw [← q4]; exact hL)
  have hk : k = k' := by rw [t1] at m1; injection m1
  subst hk
  have htr : ∀ l, (s.decayStep dk).isTrue l = true ↔ tru s l := by
    intro l
    unfold Bk.isTrue tru
    rw [d3]; simp
  have hcl : c.any (s.decayStep dk).isTrue = false := by
    rw [List.any_eq_false]
    intro l hl hh
    exact ho l hl ((htr l).1 hh)
  have hik : i < k := by
    by_contra hh
    have hx : c.any (s.decayStep dk).isTrue = true := m4 i c (by omega) hi (by
      rw [(top_fields _).2.2.2.1, d4]; exact hc)
    rw [hcl] at hx; cases hx
  have hcapL : cap (s.decayStep dk).db.length (s.decayStep dk).tc ≤ L := by
    have hL' : (if (s.decayStep dk).fresh = true then some (s.decayStep dk).db.length else (s.decayStep dk).lim) = some L := by
      rw [← hL, q4]; rfl
    by_cases hn : (s.decayStep dk).fresh = true
    · rw [if_pos hn] at hL'
      injection hL' with hL'
      rw [← hL']; exact cap_le _ _
    · rw [if_neg hn] at hL'
      obtain ⟨k0, z1, z2, _, _⟩ := hm1.2 L hL'
      rw [z1]; simp only [cap]; omega
  rcases t5 with ⟨i', c', l, e1, e2, e3, e4⟩ | e
  · obtain ⟨o1, o2⟩ := isOpen_some e3
    have hii : i' = i := by
      by_contra hne
      rw [d4] at e2
      obtain ⟨x, x1, x2⟩ := hlater i' c' (by omega) (by omega) e2
      exact List.any_eq_false.1 o1 x x1 ((htr x).2 x2)
    rw [hii, d4, hc] at e2
    injection e2 with e2
    injection e2 with _ e2
    subst e2
    have hl : l ≠ [] := by
      obtain ⟨x, x1, x2⟩ := hfc
      intro hh
      have : x ∈ l := by rw [o2]; exact List.mem_filter.2 ⟨x1, by rw [d3, x2]; rfl⟩
      rw [hh] at this; cases this
    have ht := e4 hl
    obtain ⟨v1, b, v2, v3⟩ := r1 (by rw [ht]; exact hl)
    rw [ht, o2] at v2 v3
    refine ⟨v1, b, (List.mem_filter.1 v2).1, ?_⟩
    intro x hx hfx
    rw [← sc_activity]
    exact v3 x (List.mem_filter.2 ⟨hx, by rw [d3, hfx.2.2]; rfl⟩)
  · rw [d11] at e
    cases hmb : s.maxB with
    | none => rw [hmb] at e; simp only [Option.getD_none] at e; omega
    | some m =>
      rw [hmb] at e
      simp only [Option.getD_some] at e
      have := hb m hmb
      omega

/-! ### Concrete cases -/

/-- Several events one after another (example only). -/
def runs : List Ev → Bk → Option Bk
  | [], s => some s
  | e :: t, s => (step s e).bind (runs t)

theorem reach_runs {hu : Bool} {mb : Option Nat} {lo ot : Bool} {es : List Ev} {s s' : Bk} (h : Reach hu mb lo ot s) (he : runs es s = some s') :
    Reach hu mb lo ot s' := by
  induction es generalizing s with
  | nil => injection he with he; rw [← he]; exact h
  | cons e t ih =>
    simp only [runs] at he
    cases hs : step s e with
    | none => rw [hs] at he; cases he
    | some s1 => rw [hs] at he; exact ih (Reach.step e h hs) he

/-- Six variables with activities 1, 9, 4, 4, 2, 7; two conflict nogoods over 2, 3 and 4, 5, 3, and a decision after backtracking (example only). -/
def exEvs : List Ev := [.start 6 6 (fun _ => none), .done (fun v => [0, 1, 9, 4, 4, 2, 7].getD v 0) true true, .learn .conflict [(2, false), (3, false)],
  .learn .conflict [(4, false), (5, true), (3, false)], .undo (fun _ => false)]

/-- The state after these events (example only). -/
def exS : Bk := (runs exEvs (Bk.new false none true false)).getD (Bk.new false none true false)

theorem exS_reach : Reach false none true false exS :=
  reach_runs Reach.new (show runs exEvs (Bk.new false none true false) = some exS from rfl)

/-- The state after the last nogood was satisfied by 4 and the first one by 3, with a decision in between (example only). -/
def exT : Bk := (runs [.select true (fun _ => 0) 0, .assign 4 true, .select false (fun _ => 0) 0, .assign 3 true] exS).getD exS

theorem exT_reach : Reach false none true false exT :=
  reach_runs exS_reach (show runs [.select true (fun _ => 0) 0, .assign 4 true, .select false (fun _ => 0) 0, .assign 3 true] exS = some exT from rfl)

/-- Case for `C51_free`, `C51_nogood` and `C51_recent`: the decision is 4, as 3 and 4 are equally active in the last nogood and 4 has the better static score, although 2
has the highest activity of all. -/
example : (∃ v, free exS v) ∧ ∃ s', exS.select true (fun v => v) 0 = some (4, .nogood, s') ∧ s'.lim = some 2 ∧
    exS.db[1]? = some (Ty.conflict, [(4, false), (5, true), (3, false)]) ∧ activity s' 4 = activity s' 3 ∧ activity s' 4 < activity s' 2 :=
  ⟨⟨1, by decide, by decide, rfl⟩, _, rfl, rfl, rfl, by decide, by decide⟩

/-- Case for `C51_active`: with both nogoods satisfied the most active free variable is chosen. -/
example : (∃ v, free exT v) ∧ exT.dirty = false ∧ ∃ s', exT.select false (fun _ => 0) 0 = some (2, .active, s') ∧ free exT 6 ∧ activity s' 6 < activity s' 2 :=
  ⟨⟨1, by decide, by decide, rfl⟩, rfl, _, rfl, ⟨by decide, by decide, rfl⟩, by decide⟩

/-- Case for `C51_moms`: without activities, the best static score. -/
example : ∃ s s', runs [.start 4 3 (fun _ => none), .done (fun _ => 0) false false, .assign 2 true] (Bk.new false none true false) = some s ∧
    free s 1 ∧ s.select false (fun v => [0, 3, 9, 5, 8].getD v 0) 0 = some (3, .moms, s') :=
  ⟨_, _, rfl, ⟨by decide, by decide, rfl⟩, rfl⟩

/-- **C51 (the condition of `C51_active` is needed).**  If activities change without backtracking (which happens in `bump` and when nogoods are added without a
conflict), the order of the cache is not renewed, and a decision by activity can be for a variable although another free one is more active. -/
theorem C51_stale : ∃ s s', Reach false none true false s ∧ ∃ v w, s.select false (fun _ => 0) 0 = some (v, .active, s') ∧ free s v ∧ free s w ∧
    activity s' v < activity s' w := by
  refine ⟨(runs [.select false (fun _ => 0) 0, .assign 2 true, .score (fun v => [0, 50, 9, 4, 4, 2, 7].getD v 0) true] exT).getD exT, _,
    reach_runs (es := [.select false (fun _ => 0) 0, .assign 2 true, .score (fun v => [0, 50, 9, 4, 4, 2, 7].getD v 0) true]) exT_reach rfl, 6, 1, rfl, ⟨by decide, by decide, rfl⟩, ⟨by decide, by decide, rfl⟩, by decide⟩

end Clasp.Berk
