/- Helper lemmas for C34 (DimacsReader). -/
import Verif.Input.DimacsSpec
import Mathlib.Tactic.IntervalCases
namespace Clasp.Input
open Core Weight

/-- Proof device: the first character, if any, has property `P`. -/
def Starts (P : Char → Prop) (s : Text) : Prop := ∀ c, s.head? = some c → P c

/-- Proof device: characters a number starts with. -/
def numCh (c : Char) : Prop := c.isDigit = true ∨ c = '+' ∨ c = '-'

theorem Starts.cons {P : Char → Prop} {c : Char} {s : Text} (h : P c) : Starts P (c :: s) := fun _ e => by cases e; exact h

theorem digit_ok : ∀ d < 10, (Char.ofNat (48 + d)).isDigit = true ∧ (Char.ofNat (48 + d)).toNat = 48 + d := by decide

theorem digit_ws {c : Char} (h : c.isDigit = true) : isWs c = false := by
  unfold Char.isDigit at h
  simp only [Bool.and_eq_true, decide_eq_true_eq] at h
  unfold isWs
  have : (48 : Nat) ≤ c.toNat := h.1
  simp only [Bool.and_eq_false_iff, decide_eq_false_iff_not]
  exact .inr (by omega)

theorem ws_digit {c : Char} (h : isWs c = true) : c.isDigit = false := by
  cases hd : c.isDigit with
  | false => rfl
  | true => rw [digit_ws hd] at h; cases h

theorem numCh_ws {c : Char} (h : numCh c) : isWs c = false := by
  rcases h with h | rfl | rfl
  · exact digit_ws h
  · decide
  · decide

theorem numCh_ne {c x : Char} (h : numCh c) (hx : x.isDigit = false) (h1 : x ≠ '+') (h2 : x ≠ '-') : c ≠ x := by
  rintro rfl
  rcases h with h | h | h
  · rw [hx] at h; cases h
  · exact h1 h
  · exact h2 h

theorem skipWs_app {w s : Text} (h : Ws w) (hs : Starts (fun c => isWs c = false) s) : skipWs (w ++ s) = s := by
  induction w with
  | nil =>
    cases s with
    | nil => rfl
    | cons c s => unfold skipWs; rw [List.nil_append, List.dropWhile_cons]; rw [if_neg (by rw [hs c rfl]; simp)]
  | cons c w ih =>
    unfold skipWs at ih ⊢
    rw [List.cons_append, List.dropWhile_cons, if_pos (h c (by simp))]
    exact ih fun c hc => h c (List.mem_cons_of_mem _ hc)

theorem skipWs_id {s : Text} (hs : Starts (fun c => isWs c = false) s) : skipWs s = s :=
  skipWs_app (w := []) (fun _ h => (nomatch h)) hs

theorem skipWs_nil {w : Text} (h : Ws w) : skipWs w = [] := by
  have := skipWs_app (w := w) (s := []) h (fun _ e => (nomatch e))
  rwa [List.append_nil] at this

theorem digs_app {n : Nat} {a : Text} (h : Digs n a) : ∀ (s : Text) (x : Nat), digs (a ++ s) x = digs s (x * 10 ^ a.length + n) := by
  induction h with
  | one d hd =>
    intro s x
    obtain ⟨h1, h2⟩ := digit_ok d hd
    rw [List.singleton_append]
    rw [digs, if_pos h1, h2]
    congr 1
    simp
    omega
  | snoc d hd _ ih =>
    intro s x
    obtain ⟨h1, h2⟩ := digit_ok d hd
    rw [List.append_assoc, ih, List.singleton_append, digs, if_pos h1, h2]
    congr 1
    rw [List.length_append, List.length_singleton, Nat.pow_succ, ← Nat.mul_assoc]
    generalize x * 10 ^ _ = y
    omega

theorem digs_stop {s : Text} (h : Starts (fun c => c.isDigit = false) s) (x : Nat) : digs s x = (x, s) := by
  cases s with
  | nil => rfl
  | cons c s => rw [digs, if_neg (by rw [h c rfl]; simp)]

theorem digs_head {n : Nat} {a : Text} (h : Digs n a) : ∃ c t, a = c :: t ∧ c.isDigit = true := by
  induction h with
  | one d hd => exact ⟨_, _, rfl, (digit_ok d hd).1⟩
  | snoc d hd _ ih => obtain ⟨c, t, rfl, h⟩ := ih; exact ⟨c, t ++ _, rfl, h⟩

theorem matchN_ok {n : Nat} {a s : Text} (h : Digs n a) (hs : Starts (fun c => c.isDigit = false) s) : matchN (a ++ s) = (some n, s) := by
  obtain ⟨c, t, rfl, hc⟩ := digs_head h
  rw [List.cons_append, matchN, if_pos hc, ← List.cons_append, digs_app h, digs_stop hs]
  simp

theorem num_head {i : Int} {a : Text} (h : Num i a) : ∃ c t, a = c :: t ∧ numCh c := by
  cases h with
  | plain h => obtain ⟨c, t, rfl, hc⟩ := digs_head h; exact ⟨c, t, rfl, .inl hc⟩
  | plus h => exact ⟨_, _, rfl, .inr (.inl rfl)⟩
  | minus h => exact ⟨_, _, rfl, .inr (.inr rfl)⟩

theorem num_starts {i : Int} {a s : Text} (h : Num i a) {P : Char → Prop} (hp : ∀ c, numCh c → P c) : Starts P (a ++ s) := by
  obtain ⟨c, t, rfl, hc⟩ := num_head h
  exact .cons (hp c hc)

/-- a number -/
theorem matchI_ok {i : Int} {w a s : Text} (hw : Ws w) (h : Num i a) (hs : Starts (fun c => c.isDigit = false) s) :
    matchI (w ++ (a ++ s)) = (some i, s) := by
  unfold matchI
  rw [skipWs_app hw (num_starts h fun _ => numCh_ws)]
  cases h with
  | plain h =>
    obtain ⟨c, t, rfl, hc⟩ := digs_head h
    have hn : numCh c := .inl hc
    have e : sign (c :: t ++ s) = (false, c :: t ++ s) := by
      rw [List.cons_append, sign, if_neg (by rintro rfl; cases hc), if_neg (by rintro rfl; cases hc)]
    rw [e]
    show ((matchN (c :: t ++ s)).1.map _, (matchN (c :: t ++ s)).2) = _
    rw [matchN_ok h hs]; rfl
  | plus h =>
    show ((matchN (_ ++ s)).1.map _, (matchN (_ ++ s)).2) = _
    rw [matchN_ok h hs]; rfl
  | minus h =>
    show ((matchN (_ ++ s)).1.map _, (matchN (_ ++ s)).2) = _
    rw [matchN_ok h hs]; rfl

/-- no number -/
theorem matchI_no {c : Char} {w s : Text} (hw : Ws w) (h1 : isWs c = false) (h2 : ¬ numCh c) : matchI (w ++ c :: s) = (none, c :: s) := by
  unfold matchI
  rw [skipWs_app hw (.cons h1)]
  have e : sign (c :: s) = (false, c :: s) := by
    rw [sign, if_neg (fun h => h2 (.inr (.inr h))), if_neg (fun h => h2 (.inr (.inl h)))]
  rw [e]
  show ((matchN (c :: s)).1.map _, (matchN (c :: s)).2) = _
  rw [matchN, if_neg (fun h => h2 (.inl h))]
  rfl

theorem Ws1.ws {w : Text} (h : Ws1 w) : Ws w := h.2

theorem Ws1.nodig {w s : Text} (h : Ws1 w) : Starts (fun c => c.isDigit = false) (w ++ s) := by
  obtain ⟨h1, h2⟩ := h
  cases w with
  | nil => exact absurd rfl h1
  | cons c w => exact .cons (ws_digit (h2 c (by simp)))

theorem Sep.nodig {s : Text} (h : Sep s) : Starts (fun c => c.isDigit = false) s := fun c hc => ws_digit (h c hc)

/-! ### Words -/

theorem tok_yes {w t s : Text} (hw : Ws w) (ht : Starts (fun c => isWs c = false) (t ++ s)) : tok true t (w ++ (t ++ s)) = (true, s) := by
  unfold tok
  rw [if_pos rfl, skipWs_app hw ht]
  have : t.isPrefixOf (t ++ s) = true := List.isPrefixOf_iff_prefix.mpr (List.prefix_append t s)
  show (if t.isPrefixOf (t ++ s) = true then _ else _) = _
  rw [if_pos this, List.drop_left]

theorem tok_yes0 {t s : Text} : tok false t (t ++ s) = (true, s) := by
  unfold tok
  have : t.isPrefixOf (t ++ s) = true := List.isPrefixOf_iff_prefix.mpr (List.prefix_append t s)
  simp only [Bool.false_eq_true, if_false]
  rw [if_pos this, List.drop_left]

theorem tok_no {c x : Char} {w t s : Text} (hw : Ws w) (hx : isWs x = false) (hc : c ≠ x) : tok true (c :: t) (w ++ x :: s) = (false, x :: s) := by
  unfold tok
  rw [if_pos rfl, skipWs_app hw (.cons hx)]
  show (if List.isPrefixOf (c :: t) (x :: s) = true then _ else _) = _
  rw [if_neg]
  simp [List.isPrefixOf, hc]

theorem tok_no0 {c x : Char} {t s : Text} (hc : c ≠ x) : tok false (c :: t) (x :: s) = (false, x :: s) := by
  simp [tok, List.isPrefixOf, hc]

/-! ### Literals and terms -/

theorem Lits.len {n ls s} (h : Lits n ls s) : ls.length ≤ s.length := by
  induction h with
  | nil => simp
  | cons _ _ hw _ ih =>
    obtain ⟨hw, _⟩ := hw
    have := List.length_pos_iff.mpr hw
    simp only [List.length_append, List.length_cons]
    omega

theorem litLoop_ok {n ls s} (h : Lits n ls s) : ∀ (u r : Text) (acc : List Int) (f : Nat), Ws u → ∃ u', Ws u' ∧
    litLoop n (f + ls.length) (u ++ (s ++ r)) acc = litLoop n f (u' ++ r) (acc ++ ls) := by
  induction h with
  | nil => intro u r acc f hu; exact ⟨u, hu, by simp⟩
  | @cons l ls a w s h1 h2 h3 h4 ih =>
    intro u r acc f hu
    obtain ⟨u', hu', e⟩ := ih w r (acc ++ [l]) f h3.ws
    refine ⟨u', hu', ?_⟩
    rw [List.append_assoc, List.singleton_append] at e
    rw [← e, List.length_cons, ← Nat.add_assoc, litLoop, List.append_assoc, List.append_assoc, matchI_ok hu h2 h3.nodig]
    simp only
    rw [if_neg h1.1, if_pos h1.2]

theorem Terms.len {n ts s} (h : Terms n ts s) : ts.length ≤ s.length := by
  induction h with
  | nil => simp
  | star _ _ _ _ _ _ _ hw _ ih =>
    simp only [List.length_append, List.length_cons]
    omega
  | blank _ _ _ _ _ _ hw _ ih =>
    obtain ⟨hw, _⟩ := hw
    have := List.length_pos_iff.mpr hw
    simp only [List.length_append, List.length_cons]
    omega

theorem pbLoop_ok {n ts s} (h : Terms n ts s) : ∀ (u r : Text) (acc : List WL) (f : Nat), Ws u → ∃ u', Ws u' ∧
    pbLoop n (f + ts.length) (u ++ (s ++ r)) acc = pbLoop n f (u' ++ r) (acc ++ ts.map fun t => ⟨toLit t.2, t.1⟩) := by
  induction h with
  | nil => intro u r acc f hu; exact ⟨u, hu, by simp⟩
  | @star c l ts a u1 v b w s h1 h2 h3 h4 h5 h6 h7 h8 _ ih =>
    intro u r acc f hu
    obtain ⟨u', hu', e⟩ := ih w r (acc ++ [⟨toLit l, c⟩]) f h8.ws
    refine ⟨u', hu', ?_⟩
    rw [List.append_assoc, List.singleton_append] at e
    rw [List.map_cons, ← e, List.length_cons, ← Nat.add_assoc, pbLoop]
    simp only [List.append_assoc]
    rw [matchI_ok hu h4 (by
      cases u1 with
      | nil => exact .cons (by decide)
      | cons c _ => exact .cons (ws_digit (h5 c (by simp))))]
    simp only
    rw [if_pos ⟨by omega, h2⟩, tok_yes h5 (.cons (by decide))]
    simp only
    rw [matchI_ok h6 h7 h8.nodig]
    simp only
    rw [if_pos ⟨h3.2.1, h3.2.2, h3.1⟩]
  | @blank c l ts a u1 b w s h1 h2 h3 h4 h5 h7 h8 _ ih =>
    intro u r acc f hu
    obtain ⟨u', hu', e⟩ := ih w r (acc ++ [⟨toLit l, c⟩]) f h8.ws
    refine ⟨u', hu', ?_⟩
    rw [List.append_assoc, List.singleton_append] at e
    rw [List.map_cons, ← e, List.length_cons, ← Nat.add_assoc, pbLoop]
    simp only [List.append_assoc]
    rw [matchI_ok hu h4 h5.nodig]
    simp only
    have ht : tok true ['*'] (u1 ++ (b ++ (w ++ (s ++ r)))) = (false, b ++ (w ++ (s ++ r))) := by
      obtain ⟨x, t, rfl, hx⟩ := num_head h7
      exact tok_no h5.ws (numCh_ws hx) (numCh_ne hx (by decide) (by decide) (by decide)).symm
    rw [if_pos ⟨by omega, h2⟩, ht]
    have hm := matchI_ok (w := []) (fun _ h => (nomatch h)) h7 (h8.nodig (s := s ++ r))
    rw [List.nil_append] at hm
    simp only
    rw [hm]
    simp only
    rw [if_pos ⟨h3.2.1, h3.2.2, h3.1⟩]

/-! ### Right hand side -/

/-- Proof device: the call for a linear constraint. -/
def linCall (ts : List (Int × Int)) (ge : Bool) (b : Int) : Call :=
  if ge then .con (ts.map fun t => ⟨toLit t.2, t.1⟩) b else .con (ts.map fun t => ⟨toLit t.2, -t.1⟩) (-b)

theorem rhs_ok {ts : List (Int × Int)} {ge : Bool} {b : Int} {a s : Text} (h : Rel ge b a) (hs : Sep s) (ht : ∀ t ∈ ts, -MAXW ≤ t.1) :
    rhs (ts.map fun t => ⟨toLit t.2, t.1⟩) (a ++ s) = .ok (linCall ts ge b, s) := by
  cases h with
  | @ge b a w h1 h2 hw hn =>
    simp only [List.cons_append, List.nil_append, List.append_assoc]
    rw [rhs, if_pos (.inr rfl)]
    have e := tok_yes (w := []) (t := ['=', ' ']) (s := w ++ (a ++ s)) (fun _ h => (nomatch h)) (.cons (by decide))
    simp only [List.cons_append, List.nil_append] at e
    rw [e]
    simp only
    rw [matchI_ok hw hn hs.nodig]
    simp only
    rw [rhsCall, if_pos ⟨by omega, h2⟩, if_neg (by decide)]
    rfl
  | @le b a w h1 h2 hw hn =>
    simp only [List.cons_append, List.nil_append, List.append_assoc]
    rw [rhs, if_pos (.inl rfl)]
    have e := tok_yes (w := []) (t := ['=', ' ']) (s := w ++ (a ++ s)) (fun _ h => (nomatch h)) (.cons (by decide))
    simp only [List.cons_append, List.nil_append] at e
    rw [e]
    simp only
    rw [matchI_ok hw hn hs.nodig]
    simp only
    rw [rhsCall, if_pos ⟨by omega, h2⟩, if_pos rfl, if_neg]
    · simp [linCall, Function.comp_def]; rfl
    · rintro (h | h)
      · omega
      · rw [List.any_eq_true] at h
        obtain ⟨x, hx, hw⟩ := h
        obtain ⟨t, ht', rfl⟩ := List.mem_map.mp hx
        have := ht t ht'
        simp at hw
        omega

theorem rel_head {ge b a} (h : Rel ge b a) : ∃ c t, a = c :: t ∧ (c = '<' ∨ c = '>') := by
  cases h with
  | ge => exact ⟨_, _, rfl, .inr rfl⟩
  | le => exact ⟨_, _, rfl, .inl rfl⟩

/-! ### Items -/

/-- Proof device: the call for an item. -/
def itemCall : Int × Item → Call
  | (cw, .clause ls) => .clause (ls.map toLit) cw
  | (_, .lin ts ge b) => linCall ts ge b

theorem Terms.rng {n ts s} (h : Terms n ts s) : (∀ t ∈ ts, -MAXW ≤ t.1) ∧ ∀ t ∈ ts, LitOk n t.2 := by
  induction h with
  | nil => simp
  | star h1 _ h3 _ _ _ _ _ _ ih => simp only [List.forall_mem_cons]; exact ⟨⟨h1, ih.1⟩, h3, ih.2⟩
  | blank h1 _ h3 _ _ _ _ _ ih => simp only [List.forall_mem_cons]; exact ⟨⟨h1, ih.1⟩, h3, ih.2⟩

theorem Lits.rng {n ls s} (h : Lits n ls s) : ∀ l ∈ ls, LitOk n l := by
  induction h with
  | nil => simp
  | cons h1 _ _ _ ih => simp only [List.forall_mem_cons]; exact ⟨h1, ih⟩

theorem lits_head {n ls s c t} (h : Lits n ls s) (hc : numCh c ∨ c = '<' ∨ c = '>') : ∃ x y, s ++ c :: t = x :: y ∧ (numCh x ∨ x = '<' ∨ x = '>') := by
  cases h with
  | nil => exact ⟨c, t, rfl, hc⟩
  | cons _ h2 => obtain ⟨x, y, rfl, hx⟩ := num_head h2; exact ⟨x, _, rfl, .inl hx⟩

/-- `litLoop` on the text of literals followed by `r` -/
theorem litLoop_zero {n ls s} (h : Lits n ls s) {u a r : Text} {F : Nat} (hu : Ws u) (ha : Num 0 a) (hr : Sep r) (hF : ls.length < F) :
    litLoop n F (u ++ (s ++ (a ++ r))) [] = .ok (ls, true, r) := by
  obtain ⟨u', hu', e⟩ := litLoop_ok h u (a ++ r) [] (F - ls.length - 1 + 1) hu
  rw [show F - ls.length - 1 + 1 + ls.length = F by omega] at e
  rw [e, litLoop, matchI_ok hu' ha hr.nodig]
  simp

theorem litLoop_stop {n ls s} (h : Lits n ls s) {u r : Text} {c : Char} {F : Nat} (hu : Ws u) (h1 : isWs c = false) (h2 : ¬ numCh c)
    (hF : ls.length < F) : litLoop n F (u ++ (s ++ c :: r)) [] = .ok (ls, false, c :: r) := by
  obtain ⟨u', hu', e⟩ := litLoop_ok h u (c :: r) [] (F - ls.length - 1 + 1) hu
  rw [show F - ls.length - 1 + 1 + ls.length = F by omega] at e
  rw [e, litLoop, matchI_no hu' h1 h2]
  simp

theorem not_w {x : Char} (h : numCh x ∨ x = '<' ∨ x = '>') : x ≠ 'w' ∧ isWs x = false ∧ x ≠ 'c' ∧ x ≠ 'k' := by
  rcases h with h | rfl | rfl
  · exact ⟨numCh_ne h (by decide) (by decide) (by decide), numCh_ws h, numCh_ne h (by decide) (by decide) (by decide),
      numCh_ne h (by decide) (by decide) (by decide)⟩
  · decide
  · decide

theorem item1_ok {f : Fmt} {n : Nat} {x : Item} {t s u : Text} {cw : Int} {hw : Int} (h : ItemTxt f n x t) (hu : Ws u) (hs : Sep s)
    (hu0 : f.w = false → u = []) : item1 ⟨n, hw, f.w, f.p⟩ cw (u ++ (t ++ s)) = .ok (itemCall (cw, x), s) := by
  have hsw : ∀ c y, t ++ s = c :: y → isWs c = false → (if f.w = true then skipWs (u ++ (t ++ s)) else u ++ (t ++ s)).head? = some c := by
    intro c y e hc
    by_cases hw : f.w = true
    · rw [if_pos hw, skipWs_app hu (by rw [e]; exact .cons hc), e]; rfl
    · rw [if_neg hw, hu0 (by simpa using hw), e]; rfl
  cases h with
  | @clause ls t a hl ha =>
    have hh : ∃ x y, (t ++ a) ++ s = x :: y ∧ (numCh x ∨ x = '<' ∨ x = '>') := by
      obtain ⟨c, t', rfl, hc⟩ := num_head ha
      obtain ⟨x, y, e, hx⟩ := lits_head (t := t' ++ s) hl (.inl hc)
      exact ⟨x, y, by rw [← e]; simp, hx⟩
    obtain ⟨c, y, e, hc⟩ := hh
    have hn := not_w hc
    rw [item1, if_neg (fun hh => by
      have h2 := hh.2
      simp only at h2
      rw [hsw c y e hn.2.1] at h2; cases h2; exact hn.1 rfl)]
    simp only [List.append_assoc]
    rw [litLoop_zero hl hu ha hs (by have := hl.len; simp only [List.length_append]; omega)]
    rfl
  | @card ls t a ge b hp hl hr =>
    obtain ⟨c0, t0, rfl, hc0⟩ := rel_head hr
    have hh : ∃ x y, (t ++ c0 :: t0) ++ s = x :: y ∧ (numCh x ∨ x = '<' ∨ x = '>') := by
      obtain ⟨x, y, e, hx⟩ := lits_head (t := t0 ++ s) hl (.inr hc0)
      exact ⟨x, y, by rw [← e]; simp, hx⟩
    obtain ⟨c, y, e, hc⟩ := hh
    have hn := not_w hc
    have hn0 : ¬ numCh c0 ∧ isWs c0 = false := by
      rcases hc0 with rfl | rfl
      · exact ⟨by unfold numCh; decide, by decide⟩
      · exact ⟨by unfold numCh; decide, by decide⟩
    rw [item1, if_neg (fun hh => by
      have h2 := hh.2
      simp only at h2
      rw [hsw c y e hn.2.1] at h2; cases h2; exact hn.1 rfl)]
    simp only [List.append_assoc, List.cons_append]
    rw [litLoop_stop hl hu hn0.2 hn0.1 (by have := hl.len; simp only [List.length_append]; omega)]
    simp only
    rw [if_pos hp]
    have := rhs_ok (ts := ls.map fun l => ((1 : Int), l)) hr hs (by
      intro t ht; obtain ⟨l, _, rfl⟩ := List.mem_map.mp ht; show -MAXW ≤ (1 : Int); unfold MAXW; omega)
    simpa [Function.comp_def, itemCall] using this
  | @pb ts w t a ge b hp hw ht hr =>
    have hh : (['w'] ++ w ++ t ++ a) ++ s = 'w' :: (w ++ (t ++ (a ++ s))) := by simp
    have e1 := hsw 'w' _ hh (by decide)
    rw [item1, if_pos ⟨hp, e1⟩]
    rw [hh]
    have e2 := tok_yes (w := u) (t := ['w']) (s := w ++ (t ++ (a ++ s))) hu (.cons (by decide))
    rw [List.singleton_append] at e2
    rw [e2]
    obtain ⟨u', hu', e⟩ := pbLoop_ok ht w (a ++ s) [] ((u ++ 'w' :: (w ++ (t ++ (a ++ s)))).length - ts.length + 1) hw
    have hlen := ht.len
    have e3 : (u ++ 'w' :: (w ++ (t ++ (a ++ s)))).length - ts.length + 1 + ts.length = (u ++ 'w' :: (w ++ (t ++ (a ++ s)))).length + 1 := by
      simp only [List.length_append, List.length_cons]; omega
    rw [e3] at e
    obtain ⟨c0, t0, rfl, hc0⟩ := rel_head hr
    have hn0 : ¬ numCh c0 ∧ isWs c0 = false := by
      rcases hc0 with rfl | rfl
      · exact ⟨by unfold numCh; decide, by decide⟩
      · exact ⟨by unfold numCh; decide, by decide⟩
    simp only at e ⊢
    rw [e, pbLoop, List.cons_append, matchI_no hu' hn0.2 hn0.1]
    simp only [List.nil_append]
    show rhs _ (c0 :: (t0 ++ s)) = _
    rw [← List.cons_append]
    exact rhs_ok hr hs (ht.rng.1)
  | @atLeast ls k a w t z v hp hfw h0 h1 hv hk hw hl hz =>
    have hu' := hu0 hfw
    subst hu'
    rw [item1, if_neg (fun hh => by have := hh.1; simp only at this; rw [hp] at this; cases this)]
    simp only [List.cons_append, List.nil_append, List.append_assoc]
    have e1 := litLoop_stop (n := n) (ls := []) (s := []) .nil (u := []) (c := 'k') (r := ' ' :: (v ++ (a ++ (w ++ (t ++ (z ++ s))))))
      (F := ('k' :: ' ' :: (v ++ (a ++ (w ++ (t ++ (z ++ s)))))).length + 1) (fun _ h => (nomatch h)) (by decide) (by unfold numCh; decide) (by simp)
    simp only [List.nil_append] at e1
    rw [e1]
    simp only
    rw [if_neg (by rw [hp]; simp), if_pos ⟨trivial, hfw⟩]
    have e2 := tok_yes (w := []) (t := ['k', ' ']) (s := v ++ (a ++ (w ++ (t ++ (z ++ s))))) (fun _ h => (nomatch h)) (.cons (by decide))
    simp only [List.cons_append, List.nil_append] at e2
    rw [e2]
    simp only
    rw [atLeastK, matchI_ok hv hk hw.nodig]
    simp only
    rw [if_pos ⟨h0, h1⟩, litLoop_zero hl hw.ws hz hs (by have := hl.len; simp only [List.length_append]; omega)]
    simp [itemCall, linCall, Function.comp_def]

theorem itemTxt_head {f n x t} (h : ItemTxt f n x t) (s : Text) : ∃ c y, t ++ s = c :: y ∧ isWs c = false ∧ c ≠ 'c' := by
  cases h with
  | @clause ls t a hl ha =>
    obtain ⟨c, t', rfl, hc⟩ := num_head ha
    obtain ⟨x, y, e, hx⟩ := lits_head (t := t' ++ s) hl (.inl hc)
    exact ⟨x, y, by rw [← e]; simp, (not_w hx).2.1, (not_w hx).2.2.1⟩
  | @card ls t a ge b hp hl hr =>
    obtain ⟨c0, t0, rfl, hc0⟩ := rel_head hr
    obtain ⟨x, y, e, hx⟩ := lits_head (t := t0 ++ s) hl (.inr hc0)
    exact ⟨x, y, by rw [← e]; simp, (not_w hx).2.1, (not_w hx).2.2.1⟩
  | pb => exact ⟨'w', _, by simp only [List.append_assoc]; rfl, by decide, by decide⟩
  | atLeast => exact ⟨'k', _, by simp only [List.append_assoc]; rfl, by decide, by decide⟩

theorem witem_head {f n d x t} (h : WItem f n d x t) (s : Text) : ∃ c y, t ++ s = c :: y ∧ isWs c = false ∧ c ≠ 'c' := by
  cases h with
  | plain _ h => exact itemTxt_head h s
  | weighted _ _ ha =>
    obtain ⟨c, t', rfl, hc⟩ := num_head ha
    exact ⟨c, _, by simp only [List.append_assoc, List.cons_append]; rfl, numCh_ws hc, numCh_ne hc (by decide) (by decide) (by decide)⟩

theorem item_ok {f : Fmt} {n : Nat} {ms : Bool} {x : Int × Item} {t s : Text} {hw : Int} (h : WItem f n (if ms then 1 else 0) x t) (hs : Sep s) :
    item ⟨n, hw, f.w, f.p⟩ ms (t ++ s) = .ok (itemCall x, s) := by
  cases h with
  | @plain x t hf hx =>
    rw [item, weight, if_neg (by simp [hf])]
    have := item1_ok (cw := if ms then 1 else 0) (hw := hw) hx (u := []) (fun _ h => (nomatch h)) hs (fun _ => rfl)
    rw [List.nil_append] at this
    exact this
  | @weighted cw x a w t hf hcw ha hw1 hx =>
    rw [item, weight, if_pos hf]
    simp only [List.append_assoc]
    have hm := matchI_ok (w := []) (fun _ h => (nomatch h)) ha (hw1.nodig (s := t ++ s))
    rw [List.nil_append] at hm
    rw [hm]
    simp only
    rw [if_pos hcw]
    exact item1_ok hx hw1.ws hs (fun h => by rw [hf] at h; cases h)

/-! ### Comments -/

theorem skipLine_ok {t s : Text} (h : Line t) : skipLine (t ++ '\n' :: s) = s := by
  induction t with
  | nil => simp [skipLine]
  | cons c t ih =>
    rw [List.cons_append, skipLine, if_neg (fun e => h (by rw [e]; simp))]
    exact ih fun hm => h (List.mem_cons_of_mem _ hm)

theorem skipLine_end {t : Text} (h : Line t) : skipLine t = [] := by
  induction t with
  | nil => rfl
  | cons c t ih =>
    rw [skipLine, if_neg (fun e => h (by rw [e]; simp))]
    exact ih fun hm => h (List.mem_cons_of_mem _ hm)

theorem skipLines_stop {x : Char} {w s : Text} {F : Nat} (hw : Ws w) (hs : Starts (fun c => isWs c = false ∧ c ≠ x) s) : skipLines x F (w ++ s) = s := by
  have e : skipWs (w ++ s) = s := skipWs_app hw fun c hc => (hs c hc).1
  cases F with
  | zero => exact e
  | succ F =>
    rw [skipLines, e, if_neg (fun h => (hs x h).2 rfl)]

theorem skipLines_step {x : Char} {w t s : Text} {F : Nat} (hx : isWs x = false) (hn : x ≠ '\n') (hw : Ws w) (ht : Line t) :
    skipLines x (F + 1) (w ++ x :: t ++ '\n' :: s) = skipLines x F s := by
  have e : skipWs (w ++ x :: t ++ '\n' :: s) = x :: (t ++ '\n' :: s) := by
    rw [List.append_assoc, List.cons_append]; exact skipWs_app hw (.cons hx)
  rw [skipLines, e, if_pos (by rfl)]
  congr 1
  rw [skipLine, if_neg hn]
  exact skipLine_ok ht

end Clasp.Input
