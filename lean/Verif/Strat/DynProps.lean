import Verif.Strat.Dyn

/-!
# Dynamic restarts: theorems
-/

namespace Clasp.Dyn

/-- Specification: the mean of a list of numbers, 0 if it is empty. -/
def mean (l : List Nat) : ℚ := (l.sum : ℚ) / l.length

/-- Specification: the last `w` elements of a list (all if there are fewer). -/
def lastN {α : Type} (w : Nat) (l : List α) : List α := l.drop (l.length - w)

/-- Specification: what is done with an average. -/
inductive Op
  | push (v : Nat)
  | clear

/-- Specification: the values since the last `clear`, oldest first. -/
def hist (l : List Op) : List Nat :=
  l.foldl (fun h o => match o with
    | .push v => h ++ [v]
    | .clear => []) []

/-- The average after a sequence of calls. -/
def runAvg (a : Avg) (l : List Op) : Avg :=
  l.foldl (fun a o => match o with
    | .push v => a.push v
    | .clear => a.clear) a

/-- State of a simple average with window `w` after the values `h`. -/
structure Sma (w : Nat) (a : Avg) (h : List Nat) : Prop where
  ty : a.ty = .sma
  win : a.win = w
  full : a.full = decide (w ≤ h.length)
  pos : w ≠ 0 → a.pos = h.length % w
  num : w = 0 → a.num = h.length
  buf : ∀ j v, h[j]? = some v → h.length ≤ j + w → a.buf (j % w) = v
  avg : a.avg = if w = 0 then mean h else mean (lastN w h)

theorem mean_snoc (h : List Nat) (v : Nat) : mean (h ++ [v]) = cma (mean h) v h.length := by
  unfold mean cma
  by_cases hl : h.length = 0
  · have : h = [] := List.length_eq_zero_iff.1 hl
    subst this
    simp
  · have : (h.length : ℚ) ≠ 0 := by exact_mod_cast hl
    rw [div_mul_cancel₀ _ this]
    simp
    ring

theorem Sma.clear {w : Nat} {a : Avg} {h : List Nat} (s : Sma w a h) : Sma w a.clear [] where
  ty := s.ty
  win := s.win
  full := by
    by_cases hw : w = 0
    · simp [Avg.clear, s.win, hw, s.full]
    · simp [Avg.clear, s.win, hw]
  pos := by simp [Avg.clear]
  num := by intro hw; simp [Avg.clear, s.win, hw]
  buf := by intro j v hj; simp at hj
  avg := by simp [Avg.clear, mean, lastN]

theorem Sma.push {w : Nat} {a : Avg} {h : List Nat} (s : Sma w a h) (v : Nat) : Sma w (a.push v) (h ++ [v]) := by
  by_cases hw : w = 0
  · have hwin := s.win
    have hn := s.num hw
    have ha := s.avg
    have hf := s.full
    subst hw
    refine ⟨s.ty, s.win, ?_, fun h => absurd rfl h, ?_, ?_, ?_⟩
    · simp [Avg.push, hwin, hf]
    · simp [Avg.push, hwin, hn]
    · intro j u hj hl
      have := (List.getElem?_eq_some_iff.1 hj).1
      omega
    · simp only [Avg.push, hwin, if_true]
      rw [mean_snoc, hn, ha, if_pos rfl]
  · have hpos := s.pos hw
    have hwpos : 0 < w := Nat.pos_of_ne_zero hw
    have hlt := Nat.mod_lt h.length hwpos
    refine ⟨s.ty, s.win, ?_, ?_, fun h => absurd h hw, ?_, ?_⟩
    · simp only [Avg.push, s.win, hpos, s.full, List.length_append, List.length_singleton]
      by_cases hq : h.length % w + 1 = w
      · rw [if_pos hq]
        have := Nat.mod_le h.length w
        simp; omega
      · rw [if_neg hq]
        by_cases hle : w ≤ h.length
        · simp [hle]; omega
        · have := Nat.mod_eq_of_lt (Nat.lt_of_not_le hle)
          rw [decide_eq_false hle, decide_eq_false (by omega)]
    · intro _
      simp only [Avg.push, s.win, hpos, List.length_append, List.length_singleton]
      rw [Nat.add_mod]
      by_cases h1 : w = 1
      · subst h1; simp [Nat.mod_one]
      · rw [Nat.mod_eq_of_lt (show 1 < w by omega)]
        by_cases hq : h.length % w + 1 = w
        · rw [if_pos hq, hq, Nat.mod_self]
        · rw [if_neg hq, Nat.mod_eq_of_lt (show h.length % w + 1 < w by omega)]
    · intro j u hj hl
      simp only [List.length_append, List.length_singleton] at hl
      have hjl := (List.getElem?_eq_some_iff.1 hj).1
      simp only [List.length_append, List.length_singleton] at hjl
      simp only [Avg.push, s.win, s.ty, hpos]
      by_cases hje : j = h.length
      · subst hje
        simp at hj
        simp [hw, hj]
      · have hj' : h[j]? = some u := by rw [List.getElem?_append_left (by omega)] at hj; exact hj
        have hne : j % w ≠ h.length % w := by
          intro he
          have hd : (h.length - j) % w = 0 := by
            have := Nat.sub_mod_eq_zero_of_mod_eq (m := h.length) (n := j) (k := w) he.symm
            exact this
          rw [Nat.mod_eq_of_lt (by omega)] at hd
          omega
        rw [if_neg (by tauto)]
        exact s.buf j u hj' (by omega)
    · rw [if_neg hw]
      have ha := s.avg
      rw [if_neg hw] at ha
      simp only [Avg.push, s.win, if_neg hw, s.ty, sma, s.full, hpos]
      by_cases hle : w ≤ h.length
      · rw [decide_eq_true hle, if_pos rfl]
        obtain ⟨p, t, hh, hp⟩ : ∃ p t, h = p ++ t ∧ t.length = w := ⟨h.take (h.length - w), h.drop (h.length - w), (List.take_append_drop _ _).symm, by simp; omega⟩
        obtain ⟨x, t', ht⟩ : ∃ x t', t = x :: t' := by
          cases t with
          | nil => simp at hp; omega
          | cons x t' => exact ⟨x, t', rfl⟩
        have e1 : lastN w h = x :: t' := by
          unfold lastN
          rw [hh, List.length_append, hp, Nat.add_sub_cancel, List.drop_left, ht]
        have e2 : lastN w (h ++ [v]) = t' ++ [v] := by
          unfold lastN
          rw [hh, ht]
          rw [ht] at hp
          simp only [List.length_cons] at hp
          simp only [List.length_append, List.length_cons, List.length_nil]
          rw [show p.length + (t'.length + 1) + (0 + 1) - w = p.length + 1 by omega]
          simp [List.drop_append]
        have hold : a.buf (h.length % w) = x := by
          have := s.buf p.length x (by rw [hh, ht]; simp) (by rw [hh, List.length_append, hp])
          rw [hh, List.length_append, hp, Nat.add_mod_right]
          exact this
        have htl : t'.length + 1 = w := by rw [ht] at hp; simpa using hp
        rw [e2, hold, ha, e1]
        unfold mean
        have hwq : (w : ℚ) ≠ 0 := by exact_mod_cast hw
        simp only [List.sum_cons, List.length_cons, List.sum_append, List.sum_nil, List.length_append, List.length_nil, htl, Nat.zero_add]
        push_cast
        field_simp
        ring
      · rw [decide_eq_false hle, if_neg (by simp), Nat.mod_eq_of_lt (by omega), ha]
        have e1 : lastN w h = h := by unfold lastN; rw [show h.length - w = 0 by omega, List.drop_zero]
        have e2 : lastN w (h ++ [v]) = h ++ [v] := by unfold lastN; rw [show (h ++ [v]).length - w = 0 by simp; omega, List.drop_zero]
        rw [e1, e2, mean_snoc]

theorem Sma.new (w : Nat) : Sma w (Avg.new w .sma) [] where
  ty := rfl
  win := rfl
  full := by cases w <;> simp [Avg.new]
  pos := by simp [Avg.new]
  num := by simp [Avg.new]
  buf := by intro j v hj; simp at hj
  avg := by simp [Avg.new, mean, lastN]

/-- **C53 (simple averages).**  After any sequence of calls, a simple moving average with a window is the mean of the last values in the window, as far as there are any since the last `clear`;
without a window it is the mean of all of them; it is valid exactly if the window is filled. -/
theorem C53_sma (w : Nat) (l : List Op) :
    (runAvg (Avg.new w .sma) l).avg = (if w = 0 then mean (hist l) else mean (lastN w (hist l))) ∧ (runAvg (Avg.new w .sma) l).full = decide (w ≤ (hist l).length) := by
  have key : ∀ (l : List Op) (a : Avg) (h : List Nat), Sma w a h → Sma w (runAvg a l) (l.foldl (fun h o => match o with
    | .push v => h ++ [v]
    | .clear => []) h) := by
    intro l
    induction l with
    | nil => intro a h s; exact s
    | cons o l ih =>
      intro a h s
      cases o with
      | push v => exact ih _ _ (s.push v)
      | clear => exact ih _ _ s.clear
  have := key l _ [] (Sma.new w)
  exact ⟨this.avg, this.full⟩

/-- A window of 2 that wraps around and a `clear`. -/
example : (runAvg (Avg.new 2 .sma) [.push 9, .clear, .push 4, .push 6, .push 1]).avg = 7 / 2 := by
  rw [(C53_sma 2 _).1]; simp [hist, mean, lastN]

theorem alpha_pos {log : Bool} {w : Nat} : 0 ≤ alpha log w ∧ (w ≠ 0 → alpha log w ≤ 1) := by
  unfold alpha
  have h2 : (1 : ℚ) ≤ ((2 ^ Nat.log2 w : Nat) : ℚ) := by exact_mod_cast Nat.one_le_two_pow
  have hw0 : (0 : ℚ) ≤ w := Nat.cast_nonneg w
  cases log
  · simp only [Bool.false_eq_true, if_false]
    refine ⟨div_nonneg (by norm_num) (by linarith), fun hw => ?_⟩
    have : (1 : ℚ) ≤ w := by exact_mod_cast Nat.pos_of_ne_zero hw
    rw [div_le_one (by linarith)]
    linarith
  · simp only [if_true]
    refine ⟨div_nonneg (by norm_num) (by linarith), fun _ => ?_⟩
    rw [div_le_one (by linarith)]
    exact h2

theorem smoothAlpha_pos {a : ℚ} {p : Nat} (h : 0 ≤ a) (h1 : a ≤ 1) : 0 ≤ smoothAlpha a p ∧ smoothAlpha a p ≤ 1 ∧ (p = 0 → smoothAlpha a p = 1) := by
  unfold smoothAlpha
  have h2 : (1 : ℚ) ≤ ((2 ^ p : Nat) : ℚ) := by exact_mod_cast Nat.one_le_two_pow
  by_cases hp : p < 32
  · rw [if_pos hp]
    refine ⟨le_max_of_le_left h, max_le h1 ?_, ?_⟩
    · rw [div_le_one (by linarith)]; exact h2
    · intro h0; subst h0; simp [h1]
  · rw [if_neg hp]
    exact ⟨h, h1, fun h0 => absurd h0 (by omega)⟩

theorem ema_mid {c s a lo hi : ℚ} (h0 : 0 ≤ a) (h1 : a ≤ 1) (hc : lo ≤ c ∧ c ≤ hi) (hs : lo ≤ s ∧ s ≤ hi) : lo ≤ ema c s a ∧ ema c s a ≤ hi := by
  unfold ema
  constructor
  · nlinarith [mul_nonneg h0 (sub_nonneg.2 hs.1), mul_nonneg (sub_nonneg.2 h1) (sub_nonneg.2 hc.1)]
  · nlinarith [mul_nonneg h0 (sub_nonneg.2 hs.2), mul_nonneg (sub_nonneg.2 h1) (sub_nonneg.2 hc.2)]

/-- State of an exponential average with window `w` after the values `h`. -/
structure Ema (w : Nat) (log smooth : Bool) (a : Avg) (h : List Nat) : Prop where
  ty : a.ty = .ema log smooth
  win : a.win = w
  full : a.full = decide (w ≤ h.length)
  pos : h.length < w → a.pos = h.length
  plt : a.pos < w
  avg : smooth = false → h.length ≤ w → a.avg = mean h
  mid : ∀ lo hi : ℚ, h ≠ [] → (∀ v ∈ h, lo ≤ v ∧ (v : ℚ) ≤ hi) → lo ≤ a.avg ∧ a.avg ≤ hi

theorem mean_mid {h : List Nat} {lo hi : ℚ} (hn : h ≠ []) (hb : ∀ v ∈ h, lo ≤ v ∧ (v : ℚ) ≤ hi) : lo ≤ mean h ∧ mean h ≤ hi := by
  have key : ∀ h : List Nat, (∀ v ∈ h, lo ≤ v ∧ (v : ℚ) ≤ hi) → lo * h.length ≤ (h.sum : ℚ) ∧ (h.sum : ℚ) ≤ hi * h.length := by
    intro h
    induction h with
    | nil => intro _; simp
    | cons v h ih =>
      intro hb
      have h1 := ih fun u hu => hb u (List.mem_cons_of_mem _ hu)
      have h2 := hb v (by simp)
      simp only [List.sum_cons, List.length_cons]
      push_cast
      constructor <;> nlinarith [h1.1, h1.2, h2.1, h2.2]
  have hl : (0 : ℚ) < h.length := by exact_mod_cast List.length_pos_iff.2 hn
  obtain ⟨k1, k2⟩ := key h hb
  exact ⟨(le_div_iff₀ hl).2 k1, (div_le_iff₀ hl).2 k2⟩

theorem Ema.clear {w : Nat} {log sm : Bool} (hw : w ≠ 0) {a : Avg} {h : List Nat} (s : Ema w log sm a h) : Ema w log sm a.clear [] where
  ty := s.ty
  win := s.win
  full := by simp [Avg.clear, s.win, hw]
  pos := by simp [Avg.clear]
  plt := Nat.pos_of_ne_zero hw
  avg := by simp [Avg.clear, mean]
  mid := by intro lo hi h; exact absurd rfl h

theorem Ema.new {w : Nat} (hw : w ≠ 0) (log sm : Bool) : Ema w log sm (Avg.new w (.ema log sm)) [] where
  ty := rfl
  win := rfl
  full := by simp [Avg.new, hw]
  pos := by simp [Avg.new]
  plt := Nat.pos_of_ne_zero hw
  avg := by simp [Avg.new, mean]
  mid := by intro lo hi h; exact absurd rfl h

theorem Ema.push {w : Nat} {log sm : Bool} (hw : w ≠ 0) {a : Avg} {h : List Nat} (s : Ema w log sm a h) (v : Nat) : Ema w log sm (a.push v) (h ++ [v]) := by
  have hpl := s.plt
  have al := alpha_pos (log := log) (w := w)
  refine ⟨s.ty, s.win, ?_, ?_, ?_, ?_, ?_⟩
  · simp only [Avg.push, s.win, s.full, List.length_append, List.length_singleton]
    by_cases hl : h.length < w
    · rw [s.pos hl]
      by_cases hq : h.length + 1 = w
      · rw [if_pos hq]; simp; omega
      · rw [if_neg hq, decide_eq_false (by omega), decide_eq_false (by omega)]
    · rw [decide_eq_true (by omega), decide_eq_true (by omega)]; simp
  · intro hl
    simp only [List.length_append, List.length_singleton] at hl ⊢
    simp only [Avg.push, s.win, s.pos (show h.length < w by omega)]
    rw [if_neg (by omega)]
  · simp only [Avg.push, s.win]
    split
    · exact Nat.pos_of_ne_zero hw
    · omega
  · intro hsm hl
    simp only [List.length_append, List.length_singleton] at hl
    subst hsm
    simp only [Avg.push, s.win, if_neg hw, s.ty, s.full, decide_eq_false (show ¬ w ≤ h.length by omega), Bool.false_eq_true, if_false]
    rw [mean_snoc, s.pos (by omega), s.avg rfl (by omega)]
  · intro lo hi _ hb
    have hv := hb v (by simp)
    have hb' : ∀ u ∈ h, lo ≤ u ∧ (u : ℚ) ≤ hi := fun u hu => hb u (by simp [hu])
    simp only [Avg.push, s.win, if_neg hw, s.ty, s.full]
    by_cases hle : w ≤ h.length
    · rw [decide_eq_true hle, if_pos rfl]
      have hne : h ≠ [] := by rintro rfl; simp at hle; omega
      exact ema_mid al.1 (al.2 hw) (s.mid lo hi hne hb') hv
    · rw [decide_eq_false hle, if_neg (by simp), s.pos (by omega)]
      cases sm with
      | true =>
        rw [if_pos rfl]
        have sa := smoothAlpha_pos (p := h.length) al.1 (al.2 hw)
        by_cases hne : h = []
        · subst hne
          have := sa.2.2 rfl
          simp only [List.length_nil] at this ⊢
          rw [this]
          unfold ema
          constructor <;> linarith [hv.1, hv.2]
        · exact ema_mid sa.1 sa.2.1 (s.mid lo hi hne hb') hv
      | false =>
        rw [if_neg (by simp), s.avg rfl (by omega), ← mean_snoc]
        exact mean_mid (by simp) hb

/-- **C53 (exponential averages).**  After any sequence of calls, an exponential average lies between any two bounds of the values since the last `clear`; it is valid exactly if there are at least
as many as the window says; from then on each value moves it by the given fraction of their difference; until then it is the mean of the values if it is not smoothed. -/
theorem C53_ema {w : Nat} (hw : w ≠ 0) (log smooth : Bool) (l : List Op) :
    let a := runAvg (Avg.new w (.ema log smooth)) l
    (∀ lo hi : ℚ, hist l ≠ [] → (∀ v ∈ hist l, lo ≤ v ∧ (v : ℚ) ≤ hi) → lo ≤ a.avg ∧ a.avg ≤ hi) ∧ a.full = decide (w ≤ (hist l).length) ∧
    (w ≤ (hist l).length → ∀ v, (a.push v).avg - a.avg = (if log then 1 / 2 ^ Nat.log2 w else 2 / ((w : ℚ) + 1)) * (v - a.avg)) ∧
    (smooth = false → (hist l).length ≤ w → a.avg = mean (hist l)) := by
  have key : ∀ (l : List Op) (a : Avg) (h : List Nat), Ema w log smooth a h → Ema w log smooth (runAvg a l) (l.foldl (fun h o => match o with
    | .push v => h ++ [v]
    | .clear => []) h) := by
    intro l
    induction l with
    | nil => intro a h s; exact s
    | cons o l ih =>
      intro a h s
      cases o with
      | push v => exact ih _ _ (s.push hw v)
      | clear => exact ih _ _ (s.clear hw)
  have := key l _ [] (Ema.new hw log smooth)
  refine ⟨this.mid, this.full, ?_, this.avg⟩
  intro hl v
  have hf : (runAvg (Avg.new w (.ema log smooth)) l).full = true := this.full.trans (decide_eq_true hl)
  simp only [Avg.push, this.win, if_neg hw, this.ty]
  rw [hf, if_pos rfl]
  unfold ema alpha
  push_cast
  ring

/-- An exponential average with window 3: two values are averaged, the fourth counts half. -/
example : (runAvg (Avg.new 3 (.ema false false)) [.push 4, .push 6]).avg = 5 ∧ (runAvg (Avg.new 3 (.ema false false)) [.push 4, .push 6, .push 5, .push 9]).avg = 7 := by
  constructor <;> norm_num [runAvg, Avg.new, Avg.push, cma, ema, alpha]

/-! ### Dynamic limit -/

/-- Specification: the conflicts (level and lbd) since the last restart, block or reset. -/
def runOf (l : List Ev) : List (Nat × Nat) :=
  l.foldl (fun h e => match e with
    | .update dl lbd => h ++ [(dl, lbd)]
    | _ => []) []

/-- Specification: the conflicts since the last `reset`. -/
def allOf (l : List Ev) : List (Nat × Nat) :=
  l.foldl (fun h e => match e with
    | .update dl lbd => h ++ [(dl, lbd)]
    | .reset => []
    | _ => h) []

/-- Specification: what is measured, the level or the lbd of a conflict. -/
def val (lvl : Bool) (c : Nat × Nat) : Nat := if lvl then c.1 else c.2

/-- The limit after a sequence of calls. -/
def runLim (d : Lim) (l : List Ev) : Lim := l.foldl Lim.step d

/-- State of a limit with simple averages after the conflicts `g` (since the last reset) and `r` (in this run). -/
structure LI (w sw : Nat) (d : Lim) (g r : List (Nat × Nat)) : Prop where
  lbd : Sma sw d.lbd (g.map (val false))
  cfl : Sma sw d.cfl (g.map (val true))
  fast : ∃ p, Sma w d.fast (p ++ r.map (val d.lvl))
  num : d.num = r.length

theorem LI.resetRun {w sw : Nat} {d : Lim} {g : List (Nat × Nat)} (hl : Sma sw d.lbd (g.map (val false))) (hc : Sma sw d.cfl (g.map (val true))) {h : List Nat}
    (hf : Sma w d.fast h) (keep : Bool) : LI w sw (d.resetRun keep) g [] := by
  refine ⟨hl, hc, ?_, rfl⟩
  cases keep with
  | true => exact ⟨h, by simpa [Lim.resetRun] using hf⟩
  | false => exact ⟨[], by simpa [Lim.resetRun] using hf.clear⟩

theorem lastN_append {α : Type} {w : Nat} {p r : List α} (h : w ≤ r.length) : lastN w (p ++ r) = lastN w r := by
  unfold lastN
  rw [List.length_append, show p.length + r.length - w = p.length + (r.length - w) by omega]
  simp [List.drop_append]

theorem LI.step {w sw : Nat} {d : Lim} {g r : List (Nat × Nat)} (h : LI w sw d g r) (e : Ev) :
    LI w sw (d.step e) (match e with
      | .update dl lbd => g ++ [(dl, lbd)]
      | .reset => []
      | _ => g) (match e with
      | .update dl lbd => r ++ [(dl, lbd)]
      | _ => []) := by
  obtain ⟨p, hf⟩ := h.fast
  cases e with
  | update dl lbd =>
    refine ⟨?_, ?_, ⟨p, ?_⟩, ?_⟩
    · simpa [val, Lim.step, Lim.update] using h.lbd.push lbd
    · simpa [val, Lim.step, Lim.update] using h.cfl.push dl
    · have := hf.push (if d.lvl then dl else lbd)
      simpa [val, Lim.step, Lim.update] using this
    · simp [Lim.step, Lim.update, h.num]
  | restart m k =>
    simp only [Lim.step, Lim.restart]
    split
    · refine LI.resetRun ?_ ?_ (h := p ++ r.map (val d.lvl)) ?_ _
      exacts [h.lbd, h.cfl, hf]
    · split
      · exact LI.resetRun (by simpa [Lim.resetAdjust] using h.lbd) (by simpa [Lim.resetAdjust] using h.cfl) (by simpa [Lim.resetAdjust] using hf) _
      · refine LI.resetRun ?_ ?_ (h := p ++ r.map (val d.lvl)) ?_ _
        exacts [h.lbd, h.cfl, hf]
  | block => exact LI.resetRun h.lbd h.cfl hf _
  | reset => exact LI.resetRun (d := { d with
      lbd := d.lbd.clear
      cfl := d.cfl.clear }) (by simpa using h.lbd.clear) (by simpa using h.cfl.clear) hf _
  | again k lim =>
    refine ⟨by simpa [Lim.step, Lim.resetAdjust] using h.lbd, by simpa [Lim.step, Lim.resetAdjust] using h.cfl, ⟨[], ?_⟩, by simp [Lim.step, Lim.resetAdjust]⟩
    simpa [Lim.step, Lim.resetAdjust] using hf.clear

theorem lim_li {w : Nat} (k : ℚ) (keepR keepB : Bool) (sw : Nat) (lim : Option Nat) (l : List Ev) :
    LI w sw (runLim (Lim.new k w .sma keepR keepB .sma sw lim) l) (allOf l) (runOf l) := by
  have key : ∀ (l : List Ev) (d : Lim) (g r : List (Nat × Nat)), LI w sw d g r → LI w sw (runLim d l) (l.foldl (fun h e => match e with
      | .update dl lbd => h ++ [(dl, lbd)]
      | .reset => []
      | _ => h) g) (l.foldl (fun h e => match e with
      | .update dl lbd => h ++ [(dl, lbd)]
      | _ => []) r) := by
    intro l
    induction l with
    | nil => intro d g r h; exact h
    | cons e l ih =>
      intro d g r h
      exact ih _ _ _ (h.step e)
  exact key l (Lim.new k w .sma keepR keepB .sma sw lim) [] [] ⟨by simpa [Lim.new] using Sma.new sw, by simpa [Lim.new] using Sma.new sw, ⟨[], by simpa [Lim.new] using Sma.new w⟩, rfl⟩

/-- **C53 (dynamic restarts).**  With simple averages, after any sequence of conflicts, restarts, blocks and resets, and whether averages are kept over restarts and blocks or not, a restart is due
exactly if this run has at least as many conflicts as the window says and the mean of the last of them, times the ratio, is above the mean of all conflicts (or the last ones, if the slow average
has a window) since the last reset; both means are those of levels or both those of lbds. -/
theorem C53_reached {w : Nat} (hw : w ≠ 0) (k : ℚ) (keepR keepB : Bool) (sw : Nat) (lim : Option Nat) (l : List Ev) :
    let d := runLim (Lim.new k w .sma keepR keepB .sma sw lim) l
    d.reached = true ↔ w ≤ (runOf l).length ∧
      (if sw = 0 then mean ((allOf l).map (val d.lvl)) else mean (lastN sw ((allOf l).map (val d.lvl)))) < mean (lastN w ((runOf l).map (val d.lvl))) * d.rk := by
  have h := lim_li (w := w) k keepR keepB sw lim l
  intro d
  change LI w sw d (allOf l) (runOf l) at h
  obtain ⟨p, hf⟩ := h.fast
  unfold Lim.reached
  rw [decide_eq_true_eq, hf.win, h.num]
  refine and_congr_right fun hle => ?_
  have e1 : d.fast.avg = mean (lastN w ((runOf l).map (val d.lvl))) := by
    rw [hf.avg, if_neg hw, lastN_append (by simpa using hle)]
  have e2 : (if d.lvl then d.cfl else d.lbd).avg = if sw = 0 then mean ((allOf l).map (val d.lvl)) else mean (lastN sw ((allOf l).map (val d.lvl))) := by
    cases hlv : d.lvl with
    | true => simpa using h.cfl.avg
    | false => simpa using h.lbd.avg
  rw [e1, e2]

/-- **C53 (no restart soon after a restart or a block).**  Whatever the averages are, no restart is due before the run has as many conflicts as the window says. -/
theorem C53_window (k : ℚ) (w : Nat) (ft st : Ty) (keepR keepB : Bool) (sw : Nat) (lim : Option Nat) (l : List Ev)
    (h : (runLim (Lim.new k w ft keepR keepB st sw lim) l).reached = true) : w ≤ (runOf l).length := by
  have cw : ∀ a : Avg, a.clear.win = a.win := fun a => rfl
  have key : ∀ (l : List Ev) (d : Lim) (r : List (Nat × Nat)), d.num = r.length → d.fast.win = w → (runLim d l).num = (l.foldl (fun h e => match e with
      | .update dl lbd => h ++ [(dl, lbd)]
      | _ => []) r).length ∧ (runLim d l).fast.win = w := by
    intro l
    induction l with
    | nil => intro d r h1 h2; exact ⟨h1, h2⟩
    | cons e l ih =>
      intro d r h1 h2
      apply ih
      · cases e <;> simp [Lim.step, Lim.update, Lim.restart, Lim.block, Lim.reset, Lim.resetRun, Lim.resetAdjust, h1]
      · cases e with
        | restart m k =>
          have rr : ∀ (d : Lim) (b : Bool), (d.resetRun b).fast.win = d.fast.win := by
            intro d b; cases b <;> simp [Lim.resetRun, cw]
          simp only [Lim.step, Lim.restart]
          rw [rr]
          split
          · exact h2
          · split
            · simpa [Lim.resetAdjust] using h2
            · exact h2
        | update dl lbd => simpa [Lim.step, Lim.update, Avg.push] using h2
        | block => simp only [Lim.step, Lim.block, Lim.resetRun]; split <;> simp [cw, h2]
        | reset => simp [Lim.step, Lim.reset, Lim.resetRun, cw, h2]
        | again k lim => simp [Lim.step, Lim.resetAdjust, cw, h2]
  have := key l (Lim.new k w ft keepR keepB st sw lim) [] rfl rfl
  unfold Lim.reached at h
  rw [decide_eq_true_eq, this.1, this.2] at h
  exact h.1

/-- Simple averages, window 2, ratio 9/10: the averages are kept over the restart, and the fast one is that of the run; a restart is due since 9/10 of 7 is above 22/4. -/
example : (runLim (Lim.new (9 / 10) 2 .sma true true .sma 0 none) [.update 3 3, .update 5 5, .restart 0 (9 / 10), .update 8 7, .update 9 7]).reached = true := by
  refine (C53_reached (by omega) _ _ _ _ _ _).2 ?_
  simp only [runLim, List.foldl, Lim.step, Lim.new, Lim.update, Lim.restart, Lim.resetRun, runOf, allOf]
  norm_num [val, mean, lastN]

/-- **C53 (levels or lbds).**  A restart switches between lbds and levels only if there is a limit and at least as many conflicts as it says since the last adjustment; then levels are used exactly if a bound on lbds is
given and the slow mean of lbds is above it. -/
theorem C53_switch {w : Nat} (k : ℚ) (keepR keepB : Bool) (sw : Nat) (lim : Option Nat) (l : List Ev) (m : Nat) (k' : ℚ) :
    let d := runLim (Lim.new k w .sma keepR keepB .sma sw lim) l
    let d' := runLim (Lim.new k w .sma keepR keepB .sma sw lim) (l ++ [.restart m k'])
    (∀ n, d.limit = some n → n ≤ d.samples →
      (d'.lvl = true ↔ m ≠ 0 ∧ (m : ℚ) < if sw = 0 then mean ((allOf l).map (val false)) else mean (lastN sw ((allOf l).map (val false)))) ∧ d'.samples = 0) ∧
    ((∀ n, d.limit = some n → d.samples < n) → d'.lvl = d.lvl ∧ d'.rk = d.rk ∧ d'.limit = d.limit ∧ d'.samples = d.samples) := by
  intro d d'
  have h : LI w sw d (allOf l) (runOf l) := lim_li k keepR keepB sw lim l
  have hd' : d' = d.restart m k' := by
    change runLim _ (l ++ [.restart m k']) = _
    unfold runLim
    rw [List.foldl_append]
    rfl
  rw [hd']
  constructor
  · intro n hn hs
    simp only [Lim.restart, hn, if_pos hs, Lim.resetAdjust, Lim.resetRun, decide_eq_true_eq, h.lbd.avg, and_true]
  · intro hs
    simp only [Lim.restart]
    cases hl : d.limit with
    | none => simp [Lim.resetRun, hl]
    | some n =>
      have := hs n hl
      simp only
      rw [if_neg (by omega)]
      simp [Lim.resetRun]

/-- Both cases: before and at the limit. -/
example : (runLim (Lim.new (4 / 5) 2 .sma true true .sma 0 (some 2)) [.update 55 20, .restart 10 (4 / 5)]).lvl = false ∧
    (runLim (Lim.new (4 / 5) 2 .sma true true .sma 0 (some 2)) [.update 55 20, .update 55 20, .restart 10 (4 / 5)]).lvl = true ∧
    (runLim (Lim.new (4 / 5) 2 .sma true true .sma 0 (some 2)) [.update 55 20, .update 55 20, .restart 0 (4 / 5)]).lvl = false := by
  refine ⟨?_, ?_, ?_⟩ <;> norm_num [runLim, Lim.step, Lim.new, Lim.update, Lim.restart, Lim.resetRun, Lim.resetAdjust, Avg.new, Avg.push, cma, sma, adjusted]

/-- Specification: every call that gives a ratio gives `k`, every limit that is given is `lim`. -/
def sameK (k : ℚ) (lim : Option Nat) : Ev → Prop
  | .restart _ k' => k' = k
  | .again k' lim' => k' = k ∧ lim' = lim
  | _ => True

/-- **C53 (ratio and limit).**  The ratio never goes below the given one, from which it differs by multiples of 1/20; the limit after which a restart is forced is never below the given one of 16000, and is not
changed if there is none. -/
theorem C53_ratio (k : ℚ) (w : Nat) (ft st : Ty) (keepR keepB : Bool) (sw : Nat) (lim : Option Nat) (hlim : ∀ n, lim = some n → 16000 ≤ n) (l : List Ev)
    (hl : ∀ e ∈ l, sameK k lim e) :
    let d := runLim (Lim.new k w ft keepR keepB st sw lim) l
    k ≤ d.rk ∧ (∃ n : Nat, d.rk = k + n / 20) ∧ (lim = none → d.limit = none ∧ d.rk = k) ∧ ∀ n, d.limit = some n → 16000 ≤ n := by
  have key : ∀ (l : List Ev) (d : Lim), (∀ e ∈ l, sameK k lim e) → (∃ n : Nat, d.rk = k + n / 20) ∧ (lim = none → d.limit = none ∧ d.rk = k) ∧ (∀ n, d.limit = some n → 16000 ≤ n) →
      (∃ n : Nat, (runLim d l).rk = k + n / 20) ∧ (lim = none → (runLim d l).limit = none ∧ (runLim d l).rk = k) ∧ ∀ n, (runLim d l).limit = some n → 16000 ≤ n := by
    intro l
    induction l with
    | nil => intro d _ h; exact h
    | cons e l ih =>
      intro d he h
      refine ih (d.step e) (fun e' he' => he e' (List.mem_cons_of_mem _ he')) ?_
      have hk := he e (by simp)
      obtain ⟨⟨n, hn⟩, h2, h3⟩ := h
      cases e with
      | update dl lbd => exact ⟨⟨n, hn⟩, h2, h3⟩
      | block => exact ⟨⟨n, hn⟩, h2, h3⟩
      | reset => exact ⟨⟨n, hn⟩, h2, h3⟩
      | again k' lim' =>
        simp only [sameK] at hk
        simp only [Lim.step, Lim.resetAdjust, hk.1, hk.2]
        exact ⟨⟨0, by simp⟩, fun h => ⟨h, trivial⟩, hlim⟩
      | restart m k' =>
        simp only [sameK] at hk
        subst hk
        have rr : ∀ (d : Lim) (b : Bool), (d.resetRun b).rk = d.rk ∧ (d.resetRun b).limit = d.limit := fun d b => ⟨rfl, rfl⟩
        simp only [Lim.step, Lim.restart, (rr _ _).1, (rr _ _).2]
        cases hd : d.limit with
        | none =>
          simp only [hd]
          exact ⟨⟨n, hn⟩, fun h => ⟨trivial, (h2 h).2⟩, fun n hn => by cases hn⟩
        | some lm =>
          have hlm := h3 lm hd
          have hne : lim ≠ none := fun h => by rw [(h2 h).1] at hd; cases hd
          have adj : ∀ rLen : ℚ, (∃ n : Nat, (adjusted d.rk k' rLen d.num lm).1 = k' + n / 20) ∧ 16000 ≤ (adjusted d.rk k' rLen d.num lm).2 := by
            intro rLen
            unfold adjusted
            split
            · exact ⟨⟨n + 2, by rw [hn]; push_cast; ring⟩, Nat.le_refl _⟩
            · split
              · exact ⟨⟨n + 1, by rw [hn]; push_cast; ring⟩, Nat.le_max_left _ _⟩
              · split
                · exact ⟨⟨n + 1, by rw [hn]; push_cast; ring⟩, hlm⟩
                · split
                  · exact ⟨⟨n, hn⟩, by simp; omega⟩
                  · split
                    · rename_i hgt
                      rw [hn] at hgt
                      cases n with
                      | zero => simp at hgt
                      | succ n => exact ⟨⟨n, by rw [hn]; push_cast; ring⟩, hlm⟩
                    · exact ⟨⟨n, hn⟩, hlm⟩
          simp only
          split
          · simp only [Lim.resetAdjust]
            split
            · exact ⟨(adj _).1, fun h => absurd h hne, fun m hm => by injection hm with hm; rw [← hm]; exact (adj _).2⟩
            · exact ⟨⟨n, hn⟩, fun h => absurd h hne, fun m hm => by injection hm with hm; omega⟩
          · exact ⟨⟨n, hn⟩, fun h => absurd h hne, fun m hm => by injection hm with hm; omega⟩
  obtain ⟨⟨n, hn⟩, h2, h3⟩ := key l (Lim.new k w ft keepR keepB st sw lim) hl ⟨⟨0, by simp [Lim.new]⟩, fun h => ⟨h, rfl⟩, hlim⟩
  refine ⟨?_, ⟨n, hn⟩, h2, h3⟩
  rw [hn]
  have : (0 : ℚ) ≤ n := Nat.cast_nonneg n
  linarith

/-- The limit of clasp with some calls. -/
example : ∀ e ∈ [Ev.update 3 2, .restart 10 (8 / 10), .again (8 / 10) (some 16000), .block], sameK (8 / 10) (some 16000) e := by
  intro e he
  simp at he
  rcases he with rfl | rfl | rfl | rfl <;> simp [sameK]

/-- **C53 (a kept exponential average mixes levels and lbds).**  If the fast average is exponential and kept over restarts, it may still contain lbds after the switch to levels: all levels of the run
and their mean times the ratio are above the slow average and the window is filled, but no restart is due. -/
theorem C53_keep_mixes :
    let l : List Ev := [.update 55 20, .update 55 20, .restart 10 (4 / 5), .update 100 20, .update 100 20]
    let d := runLim (Lim.new (4 / 5) 2 (.ema false false) true true .sma 0 (some 2)) l
    d.lvl = true ∧ d.reached = false ∧ 2 ≤ (runOf l).length ∧ ∀ c ∈ runOf l, mean ((allOf l).map (val true)) < (val true c : ℚ) * d.rk := by
  norm_num [runLim, Lim.step, Lim.new, Lim.update, Lim.restart, Lim.resetRun, Lim.resetAdjust, Lim.reached, Avg.new, Avg.push, cma, ema, alpha, sma, runOf, allOf, val, mean]

/-! ### Blocking -/

/-- The conflicts with their numbers of assigned variables. -/
def runBlock (b : Block) (l : List Nat) : Block := l.foldl Block.conflict b

/-- **C53 (blocking).**  Restarts are not blocked before the given number of conflicts and the size of the window, and two conflicts at which they are blocked are at least the given number of conflicts (and 50) apart. -/
theorem C53_block (w : Nat) (r : ℚ) (t : Ty) (base first : Nat) (l : List Nat) :
    let b := runBlock (Block.new w r t base first) l
    (∀ n ∈ b.at_, w ≤ n ∧ first ≤ n ∧ n ≤ l.length) ∧ b.at_.Pairwise fun n m => n + base ≤ m ∧ n + 50 ≤ m := by
  have key : ∀ (l : List Nat) (b : Block), b.inc = max base 50 → max w first ≤ b.next → (∀ n ∈ b.at_, max w first ≤ n ∧ n ≤ b.n ∧ n + b.inc ≤ b.next) →
      b.at_.Pairwise (fun n m => n + base ≤ m ∧ n + 50 ≤ m) →
      (∀ n ∈ (runBlock b l).at_, max w first ≤ n ∧ n ≤ b.n + l.length) ∧ (runBlock b l).at_.Pairwise fun n m => n + base ≤ m ∧ n + 50 ≤ m := by
    intro l
    induction l with
    | nil => intro b _ _ h h'; exact ⟨fun n hn => ⟨(h n hn).1, (h n hn).2.1⟩, h'⟩
    | cons ts l ih =>
      intro b h1 h2 h3 h4
      have : runBlock b (ts :: l) = runBlock (b.conflict ts) l := rfl
      rw [this]
      have hn : (b.conflict ts).n = b.n + 1 := by unfold Block.conflict; simp only; split <;> rfl
      have := ih (b.conflict ts) (by unfold Block.conflict; simp only; split <;> exact h1) (by
        unfold Block.conflict; simp only; split
        · simp only; omega
        · exact h2) (by
        unfold Block.conflict; simp only; split
        · rename_i hc
          intro n hn
          simp only [List.mem_append, List.mem_singleton] at hn
          simp only
          rcases hn with hn | hn
          · have := h3 n hn; omega
          · omega
        · intro n hn
          have := h3 n hn
          simp only
          omega) (by
        unfold Block.conflict; simp only; split
        · rename_i hc
          rw [List.pairwise_append]
          refine ⟨h4, by simp, ?_⟩
          intro n hn m hm
          simp only [List.mem_singleton] at hm
          have := h3 n hn
          omega
        · exact h4)
      rw [hn] at this
      refine ⟨fun n hn => ?_, this.2⟩
      have := this.1 n hn
      simp only [List.length_cons]
      omega
  have := key l (Block.new w r t base first) rfl (Nat.le_refl _) (by simp [Block.new]) (by simp [Block.new])
  refine ⟨fun n hn => ?_, this.2⟩
  have := this.1 n hn
  simp only [Block.new] at this
  omega

/-- **C53 (when restarts are blocked).**  Restarts are blocked at a conflict exactly if the number of conflicts is at least the given one and the size of the window, all earlier blocks are far enough away, and more
variables are assigned than the scaled average says, with this conflict included. -/
theorem C53_block_when (w : Nat) (r : ℚ) (t : Ty) (base first : Nat) (l : List Nat) (ts : Nat) :
    let b := runBlock (Block.new w r t base first) l
    (runBlock (Block.new w r t base first) (l ++ [ts])).at_ =
      if (w ≤ l.length + 1 ∧ first ≤ l.length + 1 ∧ ∀ m ∈ b.at_, m + max base 50 ≤ l.length + 1) ∧ (runAvg (Avg.new w t) ((l ++ [ts]).map .push)).avg * r < (ts : ℚ)
      then b.at_ ++ [l.length + 1] else b.at_ := by
  have key : ∀ (l : List Nat) (b : Block), b.inc = max base 50 → (∀ x, b.next ≤ x ↔ max w first ≤ x ∧ ∀ m ∈ b.at_, m + b.inc ≤ x) →
      (runBlock b l).inc = max base 50 ∧ (∀ x, (runBlock b l).next ≤ x ↔ max w first ≤ x ∧ ∀ m ∈ (runBlock b l).at_, m + (runBlock b l).inc ≤ x) ∧
      (runBlock b l).n = b.n + l.length ∧ (runBlock b l).avg = runAvg b.avg (l.map .push) ∧ (runBlock b l).r = b.r := by
    intro l
    induction l with
    | nil => intro b h1 h2; exact ⟨h1, h2, rfl, rfl, rfl⟩
    | cons ts l ih =>
      intro b h1 h2
      obtain ⟨i1, i2, i3, i4, i5⟩ := ih (b.conflict ts) (by unfold Block.conflict; simp only; split <;> exact h1) (by
        unfold Block.conflict; simp only; split
        · rename_i hc
          intro x
          have hn := (h2 (b.n + 1)).1 hc.1
          simp only [List.mem_append, List.mem_singleton]
          constructor
          · intro hx
            refine ⟨by omega, ?_⟩
            rintro m (hm | hm)
            · have := hn.2 m hm; omega
            · omega
          · rintro ⟨_, hx⟩
            exact hx _ (Or.inr rfl)
        · exact h2)
      have e1 : (b.conflict ts).n = b.n + 1 := by unfold Block.conflict; simp only; split <;> rfl
      have e2 : (b.conflict ts).avg = b.avg.push ts := by unfold Block.conflict; simp only; split <;> rfl
      have e3 : (b.conflict ts).r = b.r := by unfold Block.conflict; simp only; split <;> rfl
      rw [e1] at i3
      rw [e2] at i4
      refine ⟨i1, i2, ?_, i4, i5.trans e3⟩
      rw [List.length_cons]
      refine i3.trans ?_
      omega
  intro b
  obtain ⟨i1, i2, i3, i4, i5⟩ := key l (Block.new w r t base first) rfl (by intro x; simp [Block.new])
  have hb : runBlock (Block.new w r t base first) (l ++ [ts]) = b.conflict ts := by
    unfold runBlock
    rw [List.foldl_append]
    rfl
  change b.inc = _ at i1
  change ∀ x, b.next ≤ x ↔ _ ∧ ∀ m ∈ b.at_, m + b.inc ≤ x at i2
  change b.n = 0 + l.length at i3
  change b.avg = _ at i4
  change b.r = r at i5
  have ha : (runAvg (Avg.new w t) ((l ++ [ts]).map .push)) = b.avg.push ts := by
    rw [i4, List.map_append]
    unfold runAvg
    rw [List.foldl_append]
    rfl
  rw [hb, ha]
  have hn : b.n + 1 = l.length + 1 := by omega
  unfold Block.conflict
  simp only [hn, i5]
  have hiff : b.next ≤ l.length + 1 ↔ (w ≤ l.length + 1 ∧ first ≤ l.length + 1 ∧ ∀ m ∈ b.at_, m + max base 50 ≤ l.length + 1) := by
    rw [i2, i1, max_le_iff, and_assoc]
  by_cases hc : b.next ≤ l.length + 1 ∧ (b.avg.push ts).avg * r < (ts : ℚ)
  · rw [if_pos hc, if_pos ⟨hiff.1 hc.1, hc.2⟩]
  · rw [if_neg hc, if_neg (fun h => hc ⟨hiff.2 h.1, h.2⟩)]

/-- A block at the third conflict. -/
example : (runBlock (Block.new 2 (14 / 10) (.ema false false) 50 3) [10, 10, 100, 400]).at_ = [3] := by
  norm_num [runBlock, Block.new, Block.conflict, Avg.new, Avg.push, cma, ema, alpha]

end Clasp.Dyn
