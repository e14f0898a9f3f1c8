/- Helper lemmas for C34 (OpbReader). -/
import Verif.Input.OpbSpec
import Verif.Input.Opb
import Verif.Input.DimacsProps
import Verif.Input.PbProps
namespace Clasp.Input
open Core Weight

theorem lift_bind {α β : Type} (x : R α) (f : α → R β) : lift (x >>= f) = lift x >>= fun y => lift (f y) := by cases x <;> rfl

theorem ebind_ok {α β : Type} (x : α) (f : α → Except OErr β) : (Except.ok x >>= f) = f x := rfl
theorem ebind_err {α β : Type} (e : OErr) (f : α → Except OErr β) : ((Except.error e : Except OErr α) >>= f) = .error e := rfl

theorem ws_nil : Ws [] := fun _ h => nomatch h

theorem matchInt_ok {lo hi i : Int} {w a s : Text} (hw : Ws w) (h : Num i a) (h1 : lo ≤ i) (h2 : i ≤ hi)
    (hs : Starts (fun c => c.isDigit = false) s) : matchInt lo hi (w ++ (a ++ s)) = .ok (i, s) := by
  unfold matchInt
  rw [matchI_ok hw h hs]
  simp only
  rw [if_pos ⟨h1, h2⟩]

theorem need_ok {w t s : Text} (hw : Ws w) (ht : Starts (fun c => isWs c = false) (t ++ s)) : need t (w ++ (t ++ s)) = .ok s := by
  unfold need
  rw [tok_yes hw ht]

theorem needPos_ok {t : Text} {max n : Nat} {v w a s : Text} (hv : Ws v) (ht : ∀ r, Starts (fun c => isWs c = false) (t ++ r)) (hw : Ws w) (ha : Num n a)
    (hn : n ≤ max) (hs : Starts (fun c => c.isDigit = false) s) : needPos t max (v ++ (t ++ (w ++ (a ++ s)))) = .ok (n, s) := by
  unfold needPos
  rw [need_ok hv (ht _), ebind_ok, matchPos_ok hw ha hn hs]

theorem needPos_nil {max n : Nat} {w a s : Text} (hw : Ws w) (ha : Num n a)
    (hn : n ≤ max) (hs : Starts (fun c => c.isDigit = false) s) : needPos [] max (w ++ (a ++ s)) = .ok (n, s) := by
  unfold needPos need tok
  have e : skipWs (w ++ (a ++ s)) = a ++ s := skipWs_app hw (num_starts ha fun _ => numCh_ws)
  rw [if_pos rfl, e]
  have := matchPos_ok (w := []) ws_nil ha hn hs
  rw [List.nil_append] at this
  simp only [List.isPrefixOf, List.length_nil, List.drop_zero, if_true]
  rw [ebind_ok, this]

theorem ws_nodig {w s : Text} (hw : Ws w) (hs : Starts (fun c => c.isDigit = false) s) : Starts (fun c => c.isDigit = false) (w ++ s) := by
  cases w with
  | nil => exact hs
  | cons c w => exact .cons (ws_digit (hw c (by simp)))

/-! ### Terms -/

theorem tok_skip {c : Char} {w s : Text} (hw : Ws w) (hs : Starts (fun x => isWs x = false ∧ x ≠ c) s) : tok true [c] (w ++ s) = (false, s) := by
  cases s with
  | nil =>
    rw [List.append_nil]
    unfold tok
    rw [if_pos rfl, skipWs_nil hw]
    rfl
  | cons x s => exact tok_no hw (hs x rfl).1 (fun e => (hs x rfl).2 e.symm)

theorem olit_head {n l a} (h : OLit n l a) : ∃ c y, a = c :: y ∧ (c = 'x' ∨ c = '~') := by
  cases h with
  | pos => exact ⟨_, _, rfl, .inl rfl⟩
  | neg => exact ⟨_, _, rfl, .inr rfl⟩

theorem oterm_head {n t a} (h : OTerm n t a) : ∃ c y, a = c :: y ∧ (c = 'x' ∨ c = '~') := by
  cases h with
  | one h => exact olit_head h
  | cons h _ _ => obtain ⟨c, y, rfl, hc⟩ := olit_head h; exact ⟨c, _, rfl, hc⟩
  | star h _ _ _ => obtain ⟨c, y, rfl, hc⟩ := olit_head h; exact ⟨c, _, rfl, hc⟩

theorem opbLit_ok {n N : Nat} {l : Int} {a : Text} (h : OLit n l a) (hN : n ≤ N) (hB : n < 2 ^ 30) {T u r : Text} (hT : (tok true ['*'] T).2 = u ++ (a ++ r)) (hu : Ws u)
    (hr : Starts (fun c => c.isDigit = false) r) (f : Nat) (acc : List Lit) :
    opbTerm N (f + 1) T acc = if (skipWs r).head? = some '*' ∨ (skipWs r).head? = some '~' ∨ (skipWs r).head? = some 'x' then
      opbTerm N f (skipWs r) (acc ++ [toLit l]) else .ok (acc ++ [toLit l], skipWs r) := by
  cases h with
  | @pos v a h1 h2 h3 =>
    have e1 : tok true ['~'] (tok true ['*'] T).2 = (false, 'x' :: (a ++ r)) := by
      rw [hT]; exact tok_no hu (by decide) (by decide)
    have e2 : need ['x'] ('x' :: (a ++ r)) = .ok (a ++ r) := need_ok (w := []) (t := ['x']) ws_nil (.cons (by decide))
    have e3 : matchInt 1 (2 ^ 31 - 1) (a ++ r) = .ok (v, r) := matchInt_ok (w := []) ws_nil (.plain h3) (by omega) (by omega) hr
    have hl : toLit (v : Int) = ⟨v, false⟩ := by unfold toLit; simp
    rw [opbTerm]
    simp only [e1, e2, e3, ebind_ok]
    rw [if_pos (by omega), hl]
    rfl
  | @neg v a h1 h2 h3 =>
    have e1 : tok true ['~'] (tok true ['*'] T).2 = (true, 'x' :: (a ++ r)) := by
      rw [hT]; exact tok_yes (t := ['~']) hu (.cons (by decide))
    have e2 : need ['x'] ('x' :: (a ++ r)) = .ok (a ++ r) := need_ok (w := []) (t := ['x']) ws_nil (.cons (by decide))
    have e3 : matchInt 1 (2 ^ 31 - 1) (a ++ r) = .ok (v, r) := matchInt_ok (w := []) ws_nil (.plain h3) (by omega) (by omega) hr
    have hl : toLit (-(v : Int)) = ⟨v, true⟩ := by unfold toLit; simp; omega
    rw [opbTerm]
    simp only [e1, e2, e3, ebind_ok]
    rw [if_pos (by omega), hl]
    rfl

theorem opbTerm_ok {n N : Nat} {t : List Int} {s : Text} (h : OTerm n t s) (hN : n ≤ N) (hB : n < 2 ^ 30) : ∀ {T u r : Text} (f : Nat) (acc : List Lit),
    (tok true ['*'] T).2 = u ++ (s ++ r) → Ws u → Starts (fun c => c.isDigit = false) r →
    Starts (fun c => c ≠ '*' ∧ c ≠ '~' ∧ c ≠ 'x') (skipWs r) → s.length ≤ f → opbTerm N f T acc = .ok (acc ++ t.map toLit, skipWs r) := by
  induction h with
  | @one l a h =>
    intro T u r f acc hT hu hr hx hf
    obtain ⟨c, y, rfl, _⟩ := olit_head h
    simp only [List.length_cons] at hf
    obtain ⟨f, rfl⟩ : ∃ f', f = f' + 1 := ⟨f - 1, by omega⟩
    rw [opbLit_ok h hN hB hT hu hr, if_neg]
    · rfl
    · rintro (h | h | h)
      · exact (hx _ h).1 rfl
      · exact (hx _ h).2.1 rfl
      · exact (hx _ h).2.2 rfl
  | @cons l ls a w s h hw hs ih =>
    intro T u r f acc hT hu hr hx hf
    obtain ⟨c, y, e, _⟩ := olit_head h
    simp only [List.length_append, e, List.length_cons] at hf
    obtain ⟨f, rfl⟩ : ∃ f', f = f' + 1 := ⟨f - 1, by omega⟩
    obtain ⟨c2, y2, e2, hc2⟩ := oterm_head hs
    have hsk : skipWs (w ++ (s ++ r)) = s ++ r := skipWs_app hw (by rw [e2]; exact .cons (by rcases hc2 with rfl | rfl <;> decide))
    have hd : Starts (fun c => c.isDigit = false) (w ++ (s ++ r)) := ws_nodig hw (by rw [e2]; exact .cons (by rcases hc2 with rfl | rfl <;> decide))
    rw [List.append_assoc, List.append_assoc] at hT
    rw [opbLit_ok h hN hB hT hu hd, hsk, if_pos, ih (u := []) f _ ?_ ws_nil hr hx (by omega)]
    · simp
    · have : tok true ['*'] ([] ++ (s ++ r)) = (false, s ++ r) := tok_skip ws_nil (by rw [e2]; exact .cons (by rcases hc2 with rfl | rfl <;> decide))
      rw [List.nil_append] at this
      rw [this]; rfl
    · rw [e2]
      rcases hc2 with rfl | rfl
      · exact .inr (.inr rfl)
      · exact .inr (.inl rfl)
  | @star l ls a w u2 s h hw hu2 hs ih =>
    intro T u r f acc hT hu hr hx hf
    obtain ⟨c, y, e, _⟩ := olit_head h
    simp only [List.length_append, e, List.length_cons] at hf
    obtain ⟨f, rfl⟩ : ∃ f', f = f' + 1 := ⟨f - 1, by omega⟩
    simp only [List.append_assoc, List.nil_append, List.cons_append] at hT
    have hsk : skipWs (w ++ '*' :: (u2 ++ (s ++ r))) = '*' :: (u2 ++ (s ++ r)) := skipWs_app hw (.cons (by decide))
    have hd : Starts (fun c => c.isDigit = false) (w ++ '*' :: (u2 ++ (s ++ r))) := ws_nodig hw (.cons (by decide))
    rw [opbLit_ok h hN hB hT hu hd, hsk, if_pos (.inl rfl), ih (u := u2) f _ ?_ hu2 hr hx (by omega)]
    · simp
    · have := tok_yes (w := []) (t := ['*']) (s := u2 ++ (s ++ r)) ws_nil (.cons (by decide))
      simp only [List.nil_append, List.singleton_append] at this
      rw [this]

/-! ### The builder never forgets variables -/

theorem term_aux {p p' : Pb} {t : List Lit} {x : Lit} (h : p.term t = .ok (p', x)) : p.aux ≤ p'.aux := by
  have hprod : p.addProduct t = .ok (p', x) → p.aux ≤ p'.aux := by
    intro h
    unfold Pb.addProduct at h
    split at h
    · cases h; exact Nat.le_refl _
    · obtain ⟨ls, _, h⟩ := bind_ok.1 h
      have hp : ∀ ls, p.product ls = .ok (p', x) → p.aux ≤ p'.aux := by
        intro ls h
        unfold Pb.product at h
        split at h
        · cases h; exact Nat.le_refl _
        · obtain ⟨⟨s1, v⟩, hv, h⟩ := bind_ok.1 h
          unfold Pb.auxVar at hv
          split at hv
          · cases hv; cases h; exact Nat.le_succ _
          · cases hv
      match ls, h with
      | [], h => cases h
      | [y], h => cases h; exact Nat.le_refl _
      | y :: z :: ls, h => exact hp _ h
  match t with
  | [] => exact hprod h
  | [y] => cases h; exact Nat.le_refl _
  | a :: b :: t => exact hprod h

theorem sum_aux : ∀ {ts : List (Int × List Lit)} {p p' : Pb} {ls : List WL}, Pb.sum ts p = .ok (p', ls) → p.aux ≤ p'.aux := by
  intro ts
  induction ts with
  | nil => intro p p' ls h; cases h; exact Nat.le_refl _
  | cons t ts ih =>
    intro p p' ls h
    obtain ⟨⟨s1, x⟩, h1, h⟩ := bind_ok.1 h
    obtain ⟨⟨s2, r⟩, h2, h⟩ := bind_ok.1 h
    cases h
    exact Nat.le_trans (term_aux h1) (ih h2)

theorem con_aux {p p' : Pb} {ls : List WL} {b : Int} {eq : Bool} {cw : Int} (h : p.addConstraint ls b eq cw = .ok p') : p.aux ≤ p'.aux := by
  have hc : ∀ (q : Pb) W, q.create eq W ls b = .ok p' → q.aux = p'.aux := by
    intro q W h
    obtain ⟨m, _, h⟩ := bind_ok.1 h
    cases h; rfl
  unfold Pb.addConstraint at h
  split at h
  · cases h; exact Nat.le_refl _
  · split at h
    · have hm : (do let v ← p.auxVar; (v.1.addMin ⟨⟨v.2, true⟩, cw⟩).create eq ⟨v.2, false⟩ ls b : R Pb) = .ok p' → p.aux ≤ p'.aux := by
        intro h
        obtain ⟨⟨s1, v⟩, hv, h⟩ := bind_ok.1 h
        unfold Pb.auxVar at hv
        split at hv
        · cases hv
          rw [← hc _ _ h]; exact Nat.le_succ _
        · cases hv
      match ls, h, hm with
      | [], h, hm => exact hm h
      | a :: b :: ls, h, hm => exact hm h
      | [x], h, _ =>
        obtain ⟨l, _, h⟩ := bind_ok.1 h
        cases h; exact Nat.le_refl _
    · exact Nat.le_of_eq (hc _ _ h)

/-! ### Sums -/

/-- Proof device: a sum of the text as given to the builder. -/
def litTerms (ts : List (Int × List Int)) : List (Int × List Lit) := ts.map fun t => (t.1, t.2.map toLit)

theorem osum_head {n ts s} (h : OSum n ts s) : ∃ c y, s = c :: y ∧ numCh c := by
  cases h with
  | one _ _ h _ _ => obtain ⟨c, y, rfl, hc⟩ := num_head h; exact ⟨c, _, rfl, hc⟩
  | cons _ _ h _ _ _ _ => obtain ⟨c, y, rfl, hc⟩ := num_head h; exact ⟨c, _, rfl, hc⟩

theorem opbWTerm_ok {n : Nat} {c : Int} {t : List Int} {a u b v r : Text} {p : Pb} (h1 : -MAXW ≤ c) (h2 : c ≤ MAXW) (h3 : Num c a) (h4 : Ws u)
    (h5 : OTerm n t b) (hp : n < p.aux) (hB : n < 2 ^ 30) (hv : Ws v) (hr : Starts (fun c => c.isDigit = false) r)
    (hx : Starts (fun c => c ≠ '*' ∧ c ≠ '~' ∧ c ≠ 'x') (skipWs r)) :
    opbWTerm p (v ++ (a ++ (u ++ (b ++ r)))) = lift (p.term (t.map toLit)) >>= fun x => .ok (x.1, ⟨x.2, c⟩, skipWs r) := by
  obtain ⟨c2, y2, e2, hc2⟩ := oterm_head h5
  have hd : Starts (fun c => c.isDigit = false) (u ++ (b ++ r)) := ws_nodig h4 (by rw [e2]; exact .cons (by rcases hc2 with rfl | rfl <;> decide))
  have hT : (tok true ['*'] (u ++ (b ++ r))).2 = [] ++ (b ++ r) := by
    rw [tok_skip h4 (by rw [e2]; exact .cons (by rcases hc2 with rfl | rfl <;> decide))]; rfl
  have e : opbTerm (p.aux - 1) ((u ++ (b ++ r)).length + 1) (u ++ (b ++ r)) [] = .ok ([] ++ t.map toLit, skipWs r) :=
    opbTerm_ok h5 (by omega) hB _ _ hT ws_nil hr hx (by simp only [List.length_append]; omega)
  have hsk : skipWs (skipWs r) = skipWs r := by
    have : Starts (fun c => isWs c = false) (skipWs r) := by
      intro c hc
      unfold skipWs at hc
      have := List.head?_dropWhile_not isWs r
      rw [hc] at this
      simpa using this
    exact skipWs_id this
  unfold opbWTerm
  rw [matchInt_ok hv h3 h1 h2 hd, ebind_ok]
  simp only
  rw [e, ebind_ok]
  simp only [List.nil_append, hsk]

theorem numCh_ne3 {c : Char} (h : numCh c) : c ≠ '*' ∧ c ≠ '~' ∧ c ≠ 'x' :=
  ⟨numCh_ne h (by decide) (by decide) (by decide), numCh_ne h (by decide) (by decide) (by decide), numCh_ne h (by decide) (by decide) (by decide)⟩

/-- Proof device: where a sum ends. -/
def sumEnd (x : Char) (r : Text) : Text := if x = ';' then r else x :: r

theorem opbSum_ok {n : Nat} {ts : List (Int × List Int)} {s : Text} (h : OSum n ts s) (hB : n < 2 ^ 30) : ∀ {v w r : Text} {x : Char} (f : Nat) (p : Pb) (acc : List WL),
    n < p.aux → Ws v → Ws w → (x = ';' ∨ x = '>' ∨ x = '=') → s.length < f →
    opbSum f p (v ++ (s ++ (w ++ x :: r))) acc = lift (Pb.sum (litTerms ts) p) >>= fun y => .ok (y.1, acc ++ y.2, sumEnd x r) := by
  induction h with
  | @one c t a u b h1 h2 h3 h4 h5 =>
    intro v w r x f p acc hp hv hw hx hf
    obtain ⟨c1, y1, e1, hc1⟩ := num_head h3
    obtain ⟨c2, y2, e2, hc2⟩ := oterm_head h5
    have hl : 2 ≤ (a ++ u ++ b).length := by simp only [List.length_append, e1, e2, List.length_cons]; omega
    obtain ⟨f, rfl⟩ : ∃ f', f = f' + 2 := ⟨f - 2, by omega⟩
    have hxw : isWs x = false := by rcases hx with rfl | rfl | rfl <;> decide
    have hxd : x.isDigit = false := by rcases hx with rfl | rfl | rfl <;> decide
    have hsk : skipWs (w ++ x :: r) = x :: r := skipWs_app hw (.cons hxw)
    have hdig : Starts (fun c => c.isDigit = false) (w ++ x :: r) := ws_nodig hw (.cons hxd)
    have hxx : Starts (fun c => c ≠ '*' ∧ c ≠ '~' ∧ c ≠ 'x') (skipWs (w ++ x :: r)) := by
      rw [hsk]; exact .cons (by rcases hx with rfl | rfl | rfl <;> decide)
    have htok : tok true [';'] (v ++ (a ++ u ++ b ++ (w ++ x :: r))) = (false, a ++ (u ++ (b ++ (w ++ x :: r)))) := by
      simp only [List.append_assoc]
      exact tok_skip hv (by rw [e1]; exact .cons ⟨numCh_ws hc1, numCh_ne hc1 (by decide) (by decide) (by decide)⟩)
    have hw1 := opbWTerm_ok (p := p) (v := []) h1 h2 h3 h4 h5 hp hB ws_nil hdig hxx
    rw [List.nil_append] at hw1
    rw [opbSum, htok]
    simp only
    rw [hw1, hsk]
    simp only [litTerms, List.map_cons, List.map_nil, Pb.sum]
    cases ht : p.term (t.map toLit) with
    | error e => rfl
    | ok y =>
      simp only [lift, ebind_ok]
      show _ = Except.ok (y.1, acc ++ [⟨y.2, c⟩], sumEnd x r)
      by_cases hx' : x = ';'
      · subst hx'
        rw [if_neg (by simp), opbSum]
        have := tok_yes (w := []) (t := [';']) (s := r) ws_nil (.cons (by decide))
        simp only [List.nil_append, List.singleton_append] at this
        rw [this]
        simp [sumEnd]
      · rw [if_pos (by rcases hx with h | h | h <;> simp_all)]
        simp [sumEnd, hx']
  | @cons c t ts a u b w1 s h1 h2 h3 h4 h5 h6 h7 ih =>
    intro v w r x f p acc hp hv hw hx hf
    obtain ⟨c1, y1, e1, hc1⟩ := num_head h3
    obtain ⟨c3, y3, e3, hc3⟩ := osum_head h7
    have hl : s.length + 1 ≤ (a ++ u ++ b ++ w1 ++ s).length := by simp only [List.length_append, e1, List.length_cons]; omega
    obtain ⟨f, rfl⟩ : ∃ f', f = f' + 1 := ⟨f - 1, by omega⟩
    have hsk : skipWs (w1 ++ (s ++ (w ++ x :: r))) = s ++ (w ++ x :: r) := skipWs_app h6.ws (by rw [e3]; exact .cons (numCh_ws hc3))
    have hxx : Starts (fun c => c ≠ '*' ∧ c ≠ '~' ∧ c ≠ 'x') (skipWs (w1 ++ (s ++ (w ++ x :: r)))) := by
      rw [hsk, e3]; exact .cons (numCh_ne3 hc3)
    have htok : tok true [';'] (v ++ (a ++ u ++ b ++ w1 ++ s ++ (w ++ x :: r))) = (false, a ++ (u ++ (b ++ (w1 ++ (s ++ (w ++ x :: r)))))) := by
      simp only [List.append_assoc]
      exact tok_skip hv (by rw [e1]; exact .cons ⟨numCh_ws hc1, numCh_ne hc1 (by decide) (by decide) (by decide)⟩)
    have hw1 := opbWTerm_ok (p := p) (v := []) h1 h2 h3 h4 h5 hp hB ws_nil h6.nodig hxx
    rw [List.nil_append] at hw1
    rw [opbSum, htok]
    simp only
    rw [hw1, hsk]
    simp only [litTerms, List.map_cons, Pb.sum]
    cases ht : p.term (t.map toLit) with
    | error e => rfl
    | ok y =>
      simp only [lift, ebind_ok]
      rw [if_neg]
      · have := ih (v := []) (w := w) (r := r) (x := x) f y.1 (acc ++ [⟨y.2, c⟩]) (Nat.lt_of_lt_of_le hp (term_aux ht)) ws_nil hw hx (by omega)
        rw [List.nil_append] at this
        rw [this]
        show _ = lift (Pb.sum (litTerms ts) y.1 >>= fun r => Except.ok (r.1, (⟨y.2, c⟩ : WL) :: r.2)) >>= _
        cases Pb.sum (litTerms ts) y.1 with
        | error e => rfl
        | ok z => simp only [lift, ebind_ok, List.append_assoc, List.singleton_append]; rfl
      · rw [e3]
        rintro (h | h)
        · exact numCh_ne hc3 (x := '>') (by decide) (by decide) (by decide) (by simpa using h)
        · exact numCh_ne hc3 (x := '=') (by decide) (by decide) (by decide) (by simpa using h)

/-! ### Constraints -/

/-- Proof device: a constraint of the text as given to the builder. -/
def conCall (x : OCon) : PCall := .con (litTerms x.ts) x.b x.eq (x.cost.getD 0)

/-- Proof device: the objective of the text as given to the builder. -/
def objCalls : OObj → List PCall
  | .none => []
  | .min ts => [.obj (litTerms ts)]
  | .soft k => [.bound k]

theorem call_aux {p p' : Pb} {c : PCall} (h : p.call c = .ok p') : p.aux ≤ p'.aux := by
  cases c with
  | con ts b eq cw =>
    obtain ⟨⟨s1, ls⟩, h1, h⟩ := bind_ok.1 h
    exact Nat.le_trans (sum_aux h1) (con_aux h)
  | obj ts =>
    obtain ⟨⟨s1, ls⟩, h1, h⟩ := bind_ok.1 h
    cases h
    exact sum_aux (p' := s1) h1
  | bound b =>
    simp only [Pb.call, Except.ok.injEq] at h
    rw [← h]; unfold Pb.setSoftBound; split <;> exact Nat.le_refl _

theorem conTxt_head {n x s} (h : ConTxt n x s) : ∃ c y, s = c :: y ∧ numCh c := by
  cases h with
  | eq h _ _ _ _ _ _ => obtain ⟨c, y, rfl, hc⟩ := osum_head h; exact ⟨c, _, rfl, hc⟩
  | ge h _ _ _ _ _ _ => obtain ⟨c, y, rfl, hc⟩ := osum_head h; exact ⟨c, _, rfl, hc⟩

theorem sconTxt_head {n lo hi x s} (h : SConTxt n lo hi x s) : ∃ c y, s = c :: y ∧ (numCh c ∨ c = '[') := by
  cases h with
  | hard h => obtain ⟨c, y, rfl, hc⟩ := conTxt_head h; exact ⟨c, _, rfl, .inl hc⟩
  | soft _ _ _ _ _ _ _ _ => exact ⟨'[', _, rfl, .inr rfl⟩

/-- Proof device: what follows the costs. -/
def conRest (p : Pb) (c : Int) (s : Text) : Except OErr (Pb × Text) := do
  let t ← opbSum (s.length + 1) p s []
  let r ← opbRel t.2.2
  let b ← matchInt (-MAXW - 1) MAXW r.2
  let s ← need [';'] b.2
  let p ← lift (t.1.addConstraint t.2.1 b.1 r.1 c)
  .ok (p, s)

theorem conRest_ok {n : Nat} {x : OCon} {s u r : Text} (h : ConTxt n x s) (hB : n < 2 ^ 30) {p : Pb} (hp : n < p.aux) (hu : Ws u) (c : Int) :
    conRest p c (u ++ (s ++ r)) = lift (p.call (.con (litTerms x.ts) x.b x.eq c)) >>= fun p' => .ok (p', r) := by
  cases h with
  | @eq ts b s w v a z h1 h2 h3 h4 h5 h6 h7 =>
    unfold conRest
    simp only [List.append_assoc, List.cons_append, List.nil_append]
    rw [opbSum_ok h1 hB (x := '=') _ p [] hp hu h2 (.inr (.inr rfl)) (by simp only [List.length_append]; omega)]
    show _ = lift (Pb.sum (litTerms ts) p >>= fun r => r.1.addConstraint r.2 b true c) >>= _
    cases Pb.sum (litTerms ts) p with
    | error e => rfl
    | ok y =>
      have e1 : opbRel ('=' :: (v ++ (a ++ (z ++ (';' :: r))))) = .ok (true, v ++ (a ++ (z ++ (';' :: r)))) := by
        have := tok_yes (w := []) (t := ['=']) (s := v ++ (a ++ (z ++ (';' :: r)))) ws_nil (.cons (by decide))
        simp only [List.nil_append, List.singleton_append] at this
        unfold opbRel
        rw [this]
      have e2 : matchInt (-MAXW - 1) MAXW (v ++ (a ++ (z ++ (';' :: r)))) = .ok (b, z ++ (';' :: r)) :=
        matchInt_ok h3 h6 h4 h5 (ws_nodig h7 (.cons (by decide)))
      have e3 : need [';'] (z ++ (';' :: r)) = .ok r := need_ok (t := [';']) h7 (.cons (by decide))
      simp only [lift, ebind_ok, sumEnd, List.nil_append, if_neg (show ¬ ('=' = ';') by decide), e1, e2, e3]
      rfl
  | @ge ts b s w v a z h1 h2 h3 h4 h5 h6 h7 =>
    unfold conRest
    simp only [List.append_assoc, List.cons_append, List.nil_append]
    rw [opbSum_ok h1 hB (x := '>') _ p [] hp hu h2 (.inr (.inl rfl)) (by simp only [List.length_append]; omega)]
    show _ = lift (Pb.sum (litTerms ts) p >>= fun r => r.1.addConstraint r.2 b false c) >>= _
    cases Pb.sum (litTerms ts) p with
    | error e => rfl
    | ok y =>
      have e1 : opbRel ('>' :: '=' :: (v ++ (a ++ (z ++ (';' :: r))))) = .ok (false, v ++ (a ++ (z ++ (';' :: r)))) := by
        have h1 := tok_no (c := '=') (x := '>') (w := []) (t := []) (s := '=' :: (v ++ (a ++ (z ++ (';' :: r))))) ws_nil (by decide) (by decide)
        have h2 := tok_yes0 (t := ['>', '=']) (s := v ++ (a ++ (z ++ (';' :: r))))
        simp only [List.nil_append, List.cons_append] at h1 h2
        unfold opbRel
        rw [h1]
        simp only
        rw [h2]
      have e2 : matchInt (-MAXW - 1) MAXW (v ++ (a ++ (z ++ (';' :: r)))) = .ok (b, z ++ (';' :: r)) :=
        matchInt_ok h3 h6 h4 h5 (ws_nodig h7 (.cons (by decide)))
      have e3 : need [';'] (z ++ (';' :: r)) = .ok r := need_ok (t := [';']) h7 (.cons (by decide))
      simp only [lift, ebind_ok, sumEnd, List.nil_append, if_neg (show ¬ ('>' = ';') by decide), e1, e2, e3]
      rfl

theorem opbCon_ok {n : Nat} {H : OHdr} {x : OCon} {s r : Text} (h : SConTxt n H.lo H.hi x s) (hB : n < 2 ^ 30) {p : Pb} (hp : n < p.aux) :
    opbCon H p (s ++ r) = lift (p.call (conCall x)) >>= fun p' => .ok (p', r) := by
  have hc : ∀ T, opbCon H p T = opbCost H T >>= fun c => conRest p c.1 c.2 := fun T => rfl
  cases h with
  | hard h =>
    obtain ⟨c, y, e, hc1⟩ := conTxt_head h
    have e1 : opbCost H (s ++ r) = .ok (0, s ++ r) := by
      have : tok true ['['] ([] ++ (s ++ r)) = (false, s ++ r) := tok_skip ws_nil (by
        rw [e]; exact .cons ⟨numCh_ws hc1, numCh_ne hc1 (by decide) (by decide) (by decide)⟩)
      rw [List.nil_append] at this
      unfold opbCost
      rw [this]
    have hx : x.cost = none := by cases h <;> rfl
    rw [hc, e1, ebind_ok]
    have := conRest_ok (u := []) (r := r) h hB hp ws_nil 0
    rw [List.nil_append] at this
    rw [this]
    unfold conCall
    rw [hx]; rfl
  | @soft x c u a v w s h1 h2 h3 h4 h5 h6 h7 h =>
    simp only [List.append_assoc, List.cons_append, List.nil_append]
    have e1 : opbCost H ('[' :: (u ++ (a ++ (v ++ ']' :: (w ++ (s ++ r)))))) = .ok (c, w ++ (s ++ r)) := by
      have t1 := tok_yes (w := []) (t := ['[']) (s := u ++ (a ++ (v ++ ']' :: (w ++ (s ++ r))))) ws_nil (.cons (by decide))
      simp only [List.nil_append, List.cons_append] at t1
      unfold opbCost
      rw [t1]
      simp only
      rw [matchInt_ok h4 h5 h2 h3 (ws_nodig h6 (.cons (by decide))), ebind_ok]
      have := need_ok (w := v) (t := [']']) (s := w ++ (s ++ r)) h6 (.cons (by decide))
      simp only [List.cons_append, List.nil_append] at this
      simp only [this, ebind_ok]
    rw [hc, e1, ebind_ok]
    exact conRest_ok (u := w) (r := r) h hB hp h7 c

/-! ### Comments and the loop -/

theorem gap_ws {w g : Text} (hw : Ws w) (hg : Gap g) : Gap (w ++ g) := by
  cases hg with
  | ws h => exact .ws fun c hc => (List.mem_append.mp hc).elim (hw c) (h c)
  | @comment v t s h1 h2 h3 =>
    have : Gap ((w ++ v) ++ '*' :: t ++ '\n' :: s) := .comment (fun c hc => (List.mem_append.mp hc).elim (hw c) (h1 c)) h2 h3
    simpa only [List.append_assoc] using this

theorem gap_skip {g : Text} (hg : Gap g) : ∀ {s : Text} {F : Nat}, Starts (fun c => isWs c = false ∧ c ≠ '*') s → g.length ≤ F →
    skipLines '*' F (g ++ s) = s := by
  induction hg with
  | ws h => intro s F hs _; exact skipLines_stop h hs
  | @comment w t g h1 h2 _ ih =>
    intro s F hs hF
    simp only [List.length_append, List.length_cons] at hF
    obtain ⟨F, rfl⟩ : ∃ f', F = f' + 1 := ⟨F - 1, by omega⟩
    have := skipLines_step (x := '*') (F := F) (s := g ++ s) (by decide) (by decide) h1 h2
    simp only [List.append_assoc, List.cons_append] at this ⊢
    rw [this, ih hs (by omega)]

theorem sconTxt_starts {n lo hi x t} (h : SConTxt n lo hi x t) (s : Text) : Starts (fun c => isWs c = false ∧ c ≠ '*') (t ++ s) := by
  obtain ⟨c, y, rfl, hc⟩ := sconTxt_head h
  refine .cons ?_
  rcases hc with hc | rfl
  · exact ⟨numCh_ws hc, (numCh_ne3 hc).1⟩
  · decide

theorem opbItems_ok {n : Nat} {H : OHdr} (hB : n < 2 ^ 30) {xs : List OCon} {s : Text} (h : Cons n H.lo H.hi xs s) : ∀ (f : Nat) (p : Pb), n < p.aux →
    s.length < f → opbItems H f p s = lift (Pb.calls (xs.map conCall) p) := by
  induction h with
  | @nil g hg =>
    intro f p hp hf
    obtain ⟨f, rfl⟩ : ∃ f', f = f' + 1 := ⟨f - 1, by omega⟩
    rw [opbItems]
    have := gap_skip hg (s := []) (F := g.length) (fun c h => nomatch h) (Nat.le_refl _)
    rw [List.append_nil] at this
    rw [this]; rfl
  | @item x xs g t s hg ht _ ih =>
    intro f p hp hf
    obtain ⟨f, rfl⟩ : ∃ f', f = f' + 1 := ⟨f - 1, by omega⟩
    have e0 := gap_skip hg (s := t ++ s) (F := (g ++ t ++ s).length) (sconTxt_starts ht s) (by simp only [List.length_append]; omega)
    obtain ⟨c, y, e, _⟩ := sconTxt_head ht
    rw [opbItems]
    have hl : (g ++ t ++ s).length = g.length + (y.length + 1) + s.length := by rw [e]; simp only [List.length_append, List.length_cons]
    rw [List.append_assoc] at e0 ⊢
    rw [e0]
    have hm : ∀ next, opbMore H next p (t ++ s) = opbCon H p (t ++ s) >>= fun x => next x.1 x.2 := by
      intro next; rw [e]; rfl
    rw [hm, opbCon_ok ht hB hp]
    show _ = lift (p.call (conCall x) >>= Pb.calls (xs.map conCall))
    rw [lift_bind]
    cases hc : p.call (conCall x) with
    | error e => rfl
    | ok p' =>
      simp only [lift, ebind_ok]
      exact ih f p' (Nat.lt_of_lt_of_le hp (call_aux hc)) (by omega)

theorem cons_skip {n lo hi : Nat} {xs : List OCon} {s w : Text} (h : Cons n lo hi xs s) (hw : Ws w) {F : Nat} (hF : (w ++ s).length ≤ F) :
    ∃ s', skipLines '*' F (w ++ s) = s' ∧ Cons n lo hi xs s' ∧ (s' = [] ∨ ∃ c y, s' = c :: y ∧ isWs c = false ∧ c ≠ 'm' ∧ c ≠ 's') := by
  cases h with
  | nil hg =>
    refine ⟨[], ?_, .nil (.ws ws_nil), .inl rfl⟩
    have := gap_skip (gap_ws hw hg) (s := []) (F := F) (fun c h => nomatch h) hF
    rwa [List.append_nil] at this
  | @item x xs g t s hg ht hs =>
    refine ⟨t ++ s, ?_, ?_, .inr ?_⟩
    · have := gap_skip (gap_ws hw hg) (s := t ++ s) (F := F) (sconTxt_starts ht s) (by simp only [List.length_append] at hF ⊢; omega)
      simpa only [List.append_assoc] using this
    · exact .item (g := []) (.ws ws_nil) ht hs
    · obtain ⟨c, y, rfl, hc⟩ := sconTxt_head ht
      refine ⟨c, _, rfl, ?_⟩
      rcases hc with hc | rfl
      · exact ⟨numCh_ws hc, numCh_ne hc (by decide) (by decide) (by decide), numCh_ne hc (by decide) (by decide) (by decide)⟩
      · decide

/-! ### The objective -/

theorem objTxt_head {n o t} (h : ObjTxt n o t) : ∃ c y, t = c :: y ∧ isWs c = false ∧ c ≠ '*' := by
  cases h with
  | empty _ => exact ⟨'m', _, rfl, by decide⟩
  | min _ _ _ => exact ⟨'m', _, rfl, by decide⟩
  | soft _ _ _ _ => exact ⟨'s', _, rfl, by decide⟩

theorem opbObj_ok {n : Nat} {o : OObj} {t r : Text} (h : ObjTxt n o t) (hB : n < 2 ^ 30) {p : Pb} (hp : n < p.aux) :
    opbObj p (t ++ r) = lift (Pb.calls (objCalls o) p) >>= fun p' => .ok (p', r) := by
  cases h with
  | @empty w hw =>
    have t1 := tok_yes (w := []) (t := ['m', 'i', 'n', ':']) (s := w ++ ';' :: r) ws_nil (.cons (by decide))
    have t2 := tok_yes (w := w) (t := [';']) (s := r) hw (.cons (by decide))
    unfold opbObj
    simp only [List.append_assoc, List.cons_append, List.nil_append] at t1 t2 ⊢
    rw [t1]
    simp only
    rw [opbSum, t2]
    rfl
  | @min ts w s v hw hs hv =>
    have t1 := tok_yes (w := []) (t := ['m', 'i', 'n', ':']) (s := w ++ (s ++ (v ++ ';' :: r))) ws_nil (.cons (by decide))
    unfold opbObj
    simp only [List.append_assoc, List.cons_append, List.nil_append] at t1 ⊢
    rw [t1]
    simp only
    rw [opbSum_ok hs hB (x := ';') _ p [] hp hw hv (.inl rfl) (by simp only [List.length_append]; omega)]
    show _ = lift ((Pb.sum (litTerms ts) p >>= fun r => Except.ok (r.1.addObjective r.2)) >>= Pb.calls []) >>= _
    cases Pb.sum (litTerms ts) p with
    | error e => rfl
    | ok y =>
      simp only [lift, ebind_ok, sumEnd, if_true, List.nil_append]
      rfl
  | @soft k w a v hk hw ha hv =>
    have t1 := tok_no (c := 'm') (x := 's') (w := []) (t := ['i', 'n', ':']) (s := 'o' :: 'f' :: 't' :: ':' :: (w ++ (a ++ (v ++ ';' :: r)))) ws_nil (by decide) (by decide)
    have t2 := tok_yes (w := []) (t := ['s', 'o', 'f', 't', ':']) (s := w ++ (a ++ (v ++ ';' :: r))) ws_nil (.cons (by decide))
    have t3 : need [';'] (v ++ ';' :: r) = .ok r := need_ok (t := [';']) hv (.cons (by decide))
    unfold opbObj
    simp only [List.append_assoc, List.cons_append, List.nil_append] at t1 t2 ⊢
    rw [t1]
    simp only
    rw [t2]
    simp only
    rw [matchI_ok hw ha (ws_nodig hv (.cons (by decide)))]
    simp only
    rw [if_pos hk, t3]
    rfl

/-! ### The problem line -/

theorem skipWs_nows (r : Text) : Starts (fun c => isWs c = false) (skipWs r) := by
  intro c hc
  unfold skipWs at hc
  have := List.head?_dropWhile_not isWs r
  rw [hc] at this
  simpa using this

theorem skipWs_idem (r : Text) : skipWs (skipWs r) = skipWs r := skipWs_id (skipWs_nows r)

theorem tok_skipWs (t r : Text) : tok true t (skipWs r) = tok true t r := by
  unfold tok
  simp only [if_true, skipWs_idem]

theorem tok_other {t r : Text} {c : Char} (h : Starts (· ≠ c) (skipWs r)) : tok true (c :: t) r = (false, skipWs r) := by
  rw [← tok_skipWs]
  have hn := skipWs_nows r
  generalize skipWs r = z at h hn ⊢
  cases z with
  | nil => rfl
  | cons x z => exact tok_no (w := []) ws_nil (hn x rfl) (fun e => h x rfl e.symm)

theorem opbSoft_skipWs (nv np : Nat) (r : Text) : opbSoft nv np (skipWs r) = opbSoft nv np r := by
  unfold opbSoft
  rw [tok_skipWs]

theorem gap_skipWs {g : Text} (hg : Gap g) {w : Text} (hw : Ws w) {s : Text} (hs : Starts (fun c => isWs c = false) s) :
    ∃ g', Gap g' ∧ skipWs (w ++ (g ++ s)) = g' ++ s ∧ (g' = [] ∨ ∃ y, g' = '*' :: y) := by
  cases hg with
  | ws h =>
    refine ⟨[], .ws ws_nil, ?_, .inl rfl⟩
    rw [← List.append_assoc]
    exact skipWs_app (fun c hc => (List.mem_append.mp hc).elim (hw c) (h c)) hs
  | @comment v t g h1 h2 h3 =>
    refine ⟨'*' :: t ++ '\n' :: g, .comment (w := []) ws_nil h2 h3, ?_, .inr ⟨_, rfl⟩⟩
    simp only [List.append_assoc, List.cons_append]
    rw [← List.append_assoc]
    exact skipWs_app (fun c hc => (List.mem_append.mp hc).elim (hw c) (h1 c)) (.cons (by decide))

theorem cons_skipWs {n lo hi : Nat} {xs : List OCon} {s w : Text} (h : Cons n lo hi xs s) (hw : Ws w) :
    ∃ s', skipWs (w ++ s) = s' ∧ Cons n lo hi xs s' ∧ Starts (· ≠ '#') s' := by
  cases h with
  | nil hg =>
    obtain ⟨g', h1, h2, h3⟩ := gap_skipWs hg hw (s := []) (fun c h => nomatch h)
    rw [List.append_nil, List.append_nil] at h2
    refine ⟨g', h2, .nil h1, ?_⟩
    rcases h3 with rfl | ⟨y, rfl⟩
    · exact fun c h => nomatch h
    · exact .cons (by decide)
  | @item x xs g t s hg ht hs =>
    obtain ⟨g', h1, h2, h3⟩ := gap_skipWs hg hw (s := t ++ s) (fun c h => (sconTxt_starts ht s c h).1)
    refine ⟨g' ++ t ++ s, by simpa only [List.append_assoc] using h2, .item h1 ht hs, ?_⟩
    rcases h3 with rfl | ⟨y, rfl⟩
    · obtain ⟨c, y, rfl, hc⟩ := sconTxt_head ht
      refine .cons ?_
      rcases hc with hc | rfl
      · exact numCh_ne hc (by decide) (by decide) (by decide)
      · decide
    · exact .cons (by decide)

theorem body_skipWs {n lo hi : Nat} {o : OObj} {xs : List OCon} {s w : Text} (h : OBody n lo hi o xs s) (hw : Ws w) :
    ∃ s', skipWs (w ++ s) = s' ∧ OBody n lo hi o xs s' ∧ Starts (· ≠ '#') s' := by
  cases h with
  | none h =>
    obtain ⟨s', h1, h2, h3⟩ := cons_skipWs h hw
    exact ⟨s', h1, .none h2, h3⟩
  | @obj o xs g t s hg ht hs =>
    obtain ⟨c, y, e, hc⟩ := objTxt_head ht
    obtain ⟨g', h1, h2, h3⟩ := gap_skipWs hg hw (s := t ++ s) (by rw [e]; exact .cons hc.1)
    refine ⟨g' ++ t ++ s, by simpa only [List.append_assoc] using h2, .obj h1 ht hs, ?_⟩
    rcases h3 with rfl | ⟨z, rfl⟩
    · cases ht with
      | empty _ => exact .cons (by decide)
      | min _ _ _ => exact .cons (by decide)
      | soft _ _ _ _ => exact .cons (by decide)
    · exact .cons (by decide)

theorem ws_word {v t s : Text} {c : Char} (hv : Ws v) (hc : c.isDigit = false) : Starts (fun c => c.isDigit = false) (v ++ ((c :: t) ++ s)) :=
  ws_nodig hv (.cons hc)

/-- The soft part of the problem line. -/
theorem opbSoft_ok {nv np q lo hi : Nat} {y w b : Text} {n : Nat} {o : OObj} {xs : List OCon} (h : SoftTxt q lo hi y) (hw : Ws w) (hn : w ≠ [])
    (hb : OBody n lo hi o xs b) : ∃ w' b', Ws w' ∧ OBody n lo hi o xs b' ∧ opbSoft nv np (y ++ (w ++ b)) = .ok (⟨nv, np, q, lo, hi⟩, w' ++ b') := by
  cases h with
  | none =>
    obtain ⟨s', h1, h2, h3⟩ := body_skipWs hb hw
    refine ⟨[], s', ws_nil, h2, ?_⟩
    rw [List.nil_append]
    unfold opbSoft
    rw [tok_other (c := '#') (by rw [h1]; exact h3), h1]
    rfl
  | @some q lo hi z t u a v v1 b1 v2 v3 c1 v4 v5 d hq hlo hhi hz i1 i2 i3 i4 i5 i6 i7 i8 i9 i10 i11 i12 =>
    refine ⟨w, b, hw, hb, ?_⟩
    have hd : Starts (fun c => c.isDigit = false) (w ++ b) := by
      cases w with
      | nil => exact absurd rfl hn
      | cons c w => exact .cons (ws_digit (hw c (by simp)))
    unfold opbSoft
    simp only [List.append_assoc]
    rw [tok_yes i1 (.cons (by decide))]
    simp only
    rw [needPos_nil (max := 2 ^ 32 - 1) i2 i3 (by omega) (ws_word i4 (by decide)), ebind_ok]
    simp only
    rw [needPos_ok (t := ['m', 'i', 'n', 'c', 'o', 's', 't', '=']) i4 (fun r => .cons (by decide)) i5 i6 (max := MAXW.toNat) (by omega) (ws_word i7 (by decide)), ebind_ok]
    simp only
    rw [needPos_ok (t := ['m', 'a', 'x', 'c', 'o', 's', 't', '=']) i7 (fun r => .cons (by decide)) i8 i9 (max := MAXW.toNat) (by omega) (ws_word i10 (by decide)), ebind_ok]
    simp only
    rw [need_ok i10 (.cons (by decide)), ebind_ok]
    rw [matchI_ok i11 i12 hd]
    simp only
    rw [if_pos hz]

theorem softTxt_nodig {q lo hi : Nat} {y w b : Text} (h : SoftTxt q lo hi y) (hw : Ws w) (hn : w ≠ []) : Starts (fun c => c.isDigit = false) (y ++ (w ++ b)) := by
  cases h with
  | none =>
    cases w with
    | nil => exact absurd rfl hn
    | cons c w => exact .cons (ws_digit (hw c (by simp)))
  | some hq hlo hhi hz i1 i2 i3 i4 i5 i6 i7 i8 i9 i10 i11 i12 =>
    simp only [List.append_assoc]
    exact ws_nodig i1 (.cons (by decide))

theorem opbProds_ok {p q lo hi : Nat} {x y w b : Text} {n : Nat} {o : OObj} {xs : List OCon} (h : ProdTxt p x) (hs : SoftTxt q lo hi y) (hw : Ws w) (hn : w ≠ [])
    (hb : OBody n lo hi o xs b) : opbProds (x ++ (y ++ (w ++ b))) = .ok (p, y ++ (w ++ b)) ∨ opbProds (x ++ (y ++ (w ++ b))) = .ok (p, skipWs (y ++ (w ++ b))) := by
  cases h with
  | none =>
    right
    rw [List.nil_append]
    have key : tok true ['#', 'p', 'r', 'o', 'd', 'u', 'c', 't', '='] (y ++ (w ++ b)) = (false, skipWs (y ++ (w ++ b))) := by
      cases hs with
      | none =>
        obtain ⟨s', h1, h2, h3⟩ := body_skipWs hb hw
        rw [List.nil_append]
        exact tok_other (by rw [h1]; exact h3)
      | some hq hlo hhi hz i1 i2 i3 i4 i5 i6 i7 i8 i9 i10 i11 i12 =>
        have hh : ∀ {t s : Text}, Ws t → tok true ['#', 'p', 'r', 'o', 'd', 'u', 'c', 't', '='] (t ++ (['#', 's', 'o', 'f', 't', '='] ++ s)) =
            (false, skipWs (t ++ (['#', 's', 'o', 'f', 't', '='] ++ s))) := by
          intro t s ht
          have e : skipWs (t ++ (['#', 's', 'o', 'f', 't', '='] ++ s)) = ['#', 's', 'o', 'f', 't', '='] ++ s := skipWs_app ht (.cons (by decide))
          unfold tok
          rw [if_pos rfl, e]
          rfl
        simp only [List.append_assoc]
        exact hh i1
    unfold opbProds
    rw [key]
  | @some p z t u a v v1 b1 hp hz i1 i2 i3 i4 i5 i6 =>
    left
    unfold opbProds
    simp only [List.append_assoc]
    rw [tok_yes i1 (.cons (by decide))]
    simp only
    rw [needPos_nil (max := 2 ^ 32 - 1) i2 i3 (by omega) (ws_word i4 (by decide)), ebind_ok]
    simp only
    rw [needPos_ok (t := ['s', 'i', 'z', 'e', 'p', 'r', 'o', 'd', 'u', 'c', 't', '=']) i4 (fun r => .cons (by decide)) i5 i6 (max := 2 ^ 32 - 1) (by omega) (softTxt_nodig hs hw hn), ebind_ok]

theorem opbAttach_ok {n p q lo hi : Nat} {a b : Text} {o : OObj} {xs : List OCon} (h : OHead n p q lo hi a) (hb : OBody n lo hi o xs b) :
    ∃ w' b', Ws w' ∧ OBody n lo hi o xs b' ∧ opbAttach (a ++ b) = .ok (⟨n, p, q, lo, hi⟩, w' ++ b') := by
  cases h with
  | @mk m u c v w d x y z hn hm i1 i2 i3 i4 i5 i6 i7 i8 =>
    have hz : Ws (z ++ ['\n']) := fun c hc => (List.mem_append.mp hc).elim (i8 c) (fun h => by rw [List.mem_singleton.mp h]; decide)
    obtain ⟨w', b', h1, h2, h3⟩ := opbSoft_ok (nv := n) (np := p) i7 hz (by simp) hb
    refine ⟨w', b', h1, h2, ?_⟩
    have hd : Starts (fun c => c.isDigit = false) (x ++ (y ++ ((z ++ ['\n']) ++ b))) := by
      cases i6 with
      | none => rw [List.nil_append]; exact softTxt_nodig i7 hz (by simp)
      | some hp hz' j1 j2 j3 j4 j5 j6 =>
        simp only [List.append_assoc]
        exact ws_nodig j1 (.cons (by decide))
    have key : ∀ T, opbAttach ('*' :: T) = (do
        let v ← needPos ['*', ' ', '#', 'v', 'a', 'r', 'i', 'a', 'b', 'l', 'e', '='] VARMAX ('*' :: T)
        let c ← needPos ['#', 'c', 'o', 'n', 's', 't', 'r', 'a', 'i', 'n', 't', '='] (2 ^ 32 - 1) v.2
        let p ← opbProds c.2
        opbSoft v.1 p.1 p.2) := fun T => rfl
    have n1 := needPos_ok (t := ['*', ' ', '#', 'v', 'a', 'r', 'i', 'a', 'b', 'l', 'e', '=']) (max := VARMAX) (v := []) (s := v ++ (['#', 'c', 'o', 'n', 's', 't', 'r', 'a', 'i', 'n', 't', '='] ++ (w ++ (d ++ (x ++ (y ++ ((z ++ ['\n']) ++ b))))))) ws_nil (fun r => .cons (by decide)) i1 i2 (by unfold VARMAX; omega) (ws_nodig i3 (.cons (by decide)))
    have n2 := needPos_ok (t := ['#', 'c', 'o', 'n', 's', 't', 'r', 'a', 'i', 'n', 't', '=']) (max := 2 ^ 32 - 1) (v := v) (s := x ++ (y ++ ((z ++ ['\n']) ++ b))) i3 (fun r => .cons (by decide)) i4 i5 (by omega) hd
    have n3 := opbProds_ok i6 i7 hz (by simp) hb
    simp only [List.append_assoc, List.cons_append, List.nil_append] at n1 n2 n3 h3 ⊢
    rw [key, n1, ebind_ok]
    simp only
    rw [n2, ebind_ok]
    simp only
    rcases n3 with n3 | n3
    · rw [n3, ebind_ok]; exact h3
    · rw [n3, ebind_ok]
      simp only
      rw [opbSoft_skipWs]; exact h3

theorem calls_append : ∀ (a b : List PCall) (p : Pb), Pb.calls (a ++ b) p = Pb.calls a p >>= Pb.calls b := by
  intro a
  induction a with
  | nil => intro b p; rfl
  | cons c a ih =>
    intro b p
    show (p.call c >>= Pb.calls (a ++ b)) = (p.call c >>= Pb.calls a) >>= Pb.calls b
    cases p.call c with
    | error e => rfl
    | ok y => exact ih b y

theorem calls_aux : ∀ {cs : List PCall} {p p' : Pb}, Pb.calls cs p = .ok p' → p.aux ≤ p'.aux := by
  intro cs
  induction cs with
  | nil => intro p p' h; cases h; exact Nat.le_refl _
  | cons c cs ih =>
    intro p p' h
    obtain ⟨q, h1, h⟩ := bind_ok.1 h
    exact Nat.le_trans (call_aux h1) (ih h)

/-- A document is read as the calls it denotes. -/
theorem opb_calls {n p q : Nat} {o : OObj} {xs : List OCon} {s : Text} (h : ODoc n p q o xs s) :
    opb s = lift (Pb.calls (objCalls o ++ xs.map conCall) (Pb.prepare n p q)) := by
  obtain ⟨lo, hi, a, b, rfl, ha, hb⟩ := h
  have hB : n < 2 ^ 30 := by cases ha; assumption
  obtain ⟨w, b', hw, hb', e⟩ := opbAttach_ok ha hb
  have hp : n < (Pb.prepare n p q).aux := Nat.lt_succ_self n
  unfold opb
  rw [e, ebind_ok]
  simp only
  cases hb' with
  | none hc =>
    obtain ⟨s', h1, h2, h3⟩ := cons_skip hc hw (Nat.le_refl _)
    have hobj : opbObj (Pb.prepare n p q) s' = .ok (Pb.prepare n p q, s') := by
      rcases h3 with rfl | ⟨c, y, rfl, h4, h5, h6⟩
      · rfl
      · have t1 := tok_no (c := 'm') (x := c) (w := []) (t := ['i', 'n', ':']) (s := y) ws_nil h4 h5.symm
        have t2 := tok_no (c := 's') (x := c) (w := []) (t := ['o', 'f', 't', ':']) (s := y) ws_nil h4 h6.symm
        simp only [List.nil_append] at t1 t2
        unfold opbObj
        rw [t1]
        simp only
        rw [t2]
    rw [h1, hobj, ebind_ok]
    exact opbItems_ok (H := ⟨n, p, q, lo, hi⟩) hB h2 _ _ hp (Nat.lt_succ_self _)
  | @obj o xs g t s hg ht hs =>
    obtain ⟨c, y, e2, hc⟩ := objTxt_head ht
    have e1 := gap_skip (gap_ws hw hg) (s := t ++ s) (F := (w ++ (g ++ t ++ s)).length) (by rw [e2]; exact .cons hc) (by simp only [List.length_append]; omega)
    simp only [List.append_assoc] at e1 ⊢
    rw [e1, opbObj_ok ht hB hp, calls_append, lift_bind]
    cases hcc : Pb.calls (objCalls o) (Pb.prepare n p q) with
    | error e => rfl
    | ok p' =>
      simp only [lift, ebind_ok]
      exact opbItems_ok (H := ⟨n, _, q, lo, hi⟩) hB hs _ _ (Nat.lt_of_lt_of_le hp (calls_aux hcc)) (Nat.lt_succ_self _)

end Clasp.Input
