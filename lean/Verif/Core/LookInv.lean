import Verif.Core.LookLem
import Mathlib.Data.List.Perm.Basic

/-! # Lookahead: no candidate is lost -/

namespace Clasp.Look

theorem Core.of_perm {C U C' U' : List Nat} (h : (C ++ 1 :: U).Nodup) (p : (C' ++ 1 :: U').Perm (C ++ 1 :: U)) :
    (C' ++ 1 :: U').Nodup := p.nodup_iff.2 h

theorem unlink_core {s : St} {X Y Z top rest : List Nat} {r t u : Nat}
    (h : Core s (X ++ r :: t :: Y) (top ++ rest)) (hz : 1 :: top = Z ++ [u]) (tl : t ≠ s.last) (t0 : t ≠ 0) :
    Core (unlink s r t u) (X ++ r :: Y) (top ++ t :: rest) := by
  have hp : ((X ++ r :: Y) ++ 1 :: (top ++ t :: rest)).Perm ((X ++ r :: t :: Y) ++ 1 :: (top ++ rest)) := by
    rw [List.perm_iff_count]; intro a
    simp only [List.count_append, List.count_cons]; omega
  have e1 : (1 :: (top ++ rest) : List Nat) = Z ++ u :: rest := by
    rw [← List.cons_append, hz]; simp
  have e2 : (1 :: (top ++ t :: rest) : List Nat) = Z ++ u :: t :: rest := by
    rw [← List.cons_append, hz]; simp
  have nd := h.nd
  have und := h.und
  have cyc := h.cyc
  rw [e1] at nd und
  rw [Ch_append] at und cyc
  simp only [hd_cons, Ch_cons] at und cyc
  obtain ⟨u1, u2, u3⟩ := und
  obtain ⟨c1, c2, c3, c4⟩ := cyc
  have nx : ∀ x, (unlink s r t u).next x = if x = u then some t else if x = t then s.next u else
      if x = r then s.next t else s.next x := by
    intro x
    have hur : u ≠ r := by
      intro hh; subst hh
      simp only [List.nodup_append, List.mem_append, List.mem_cons] at nd
      exact nd.2.2 u (by simp) u (by simp) rfl
    simp only [unlink, Function.update_apply]
    split_ifs <;> simp_all
  simp only [List.nodup_append, List.mem_append, List.mem_cons, List.nodup_cons] at nd
  obtain ⟨n1, n2, n3⟩ := nd
  have dis : ∀ a, (a ∈ X ∨ a = r ∨ a = t ∨ a ∈ Y) → (a ∈ Z ∨ a = u ∨ a ∈ rest) → False := fun a ha hb => n3 a ha a hb rfl
  refine ⟨?_, ?_, ?_, Core.of_perm h.nd hp, fun i => by rw [hp.mem_iff]; exact h.mem i, ?_, ?_, ?_, h.l0, h.lev,
    h.v0, h.vn⟩
  · have := h.hd
    show _ = some s.pos
    cases X <;> simpa using this
  · rw [Ch_append]
    simp only [hd_cons, Ch_cons]
    refine ⟨Ch_congr c1 ?_, ?_, Ch_congr c4 ?_⟩
    · intro x hx
      rw [nx, if_neg (fun hh => dis x (Or.inl hx) (by simp [hh])), if_neg, if_neg]
      · rintro rfl; exact n1.2.2 x hx x (by simp) rfl
      · rintro rfl; exact n1.2.2 x hx x (by simp) rfl
    · rw [nx, if_neg (fun hh => dis r (by simp) (by simp [hh])), if_neg, if_pos rfl]
      · exact c3
      · rintro rfl; simp at n1
    · intro x hx
      rw [nx, if_neg (fun hh => dis x (by simp [hx]) (by simp [hh])), if_neg, if_neg]
      · rintro rfl; simp [hx] at n1
      · rintro rfl; simp [hx] at n1
  · rw [e2, Ch_append]
    simp only [hd_cons, Ch_cons]
    refine ⟨Ch_congr u1 ?_, ?_, ?_, Ch_congr u3 ?_⟩
    · intro x hx
      rw [nx, if_neg, if_neg, if_neg]
      · rintro rfl; exact dis x (by simp) (by simp [hx])
      · rintro rfl; exact dis x (by simp) (by simp [hx])
      · rintro rfl; exact n2.2.2 x hx x (by simp) rfl
    · rw [nx, if_pos rfl]
    · rw [nx, if_neg, if_pos rfl, u2]
      · rintro rfl; exact dis t (by simp) (by simp)
    · intro x hx
      rw [nx, if_neg, if_neg, if_neg]
      · rintro rfl; exact dis x (by simp) (by simp [hx])
      · rintro rfl; exact dis x (by simp) (by simp [hx])
      · rintro rfl; exact n2.2.1.1 hx
  · have := h.zero
    simp only [List.mem_append, List.mem_cons] at this ⊢
    rcases this with h | h | h | h
    · exact Or.inl h
    · exact Or.inr (Or.inl h)
    · exact absurd h.symm t0
    · exact Or.inr (Or.inr h)
  · have := h.lst
    simp only [List.mem_append, List.mem_cons] at this ⊢
    rcases this with h | h | h | h
    · exact Or.inl h
    · exact Or.inr (Or.inl h)
    · exact absurd h.symm tl
    · exact Or.inr (Or.inr h)
  · show (unlink s r t u).next s.last = _
    have hl := h.lst
    simp only [List.mem_append, List.mem_cons] at hl
    rw [nx, if_neg (fun hh => dis s.last hl (by simp [hh])), if_neg tl.symm, if_neg]
    · exact h.nl
    · intro hh
      have := h.nl
      rw [hh, c2] at this
      exact t0 (Option.some.inj this)

theorem rot_core {s : St} {X Y U : List Nat} {t : Nat} (h : Core s (X ++ t :: Y) U) :
    Core { s with pos := t } (t :: (Y ++ X)) U := by
  have hp : ((t :: (Y ++ X)) ++ 1 :: U).Perm ((X ++ t :: Y) ++ 1 :: U) := by
    rw [List.perm_iff_count]; intro a
    simp only [List.count_append, List.count_cons]; omega
  have mm : ∀ a, a ∈ X ++ t :: Y → a ∈ t :: (Y ++ X) := by
    intro a; simp only [List.mem_append, List.mem_cons]; tauto
  refine ⟨rfl, ?_, h.und, Core.of_perm h.nd hp, fun i => by rw [hp.mem_iff]; exact h.mem i, mm _ h.zero,
    mm _ h.lst, h.nl, h.l0, h.lev, h.v0, h.vn⟩
  have c := h.cyc
  rw [Ch_append] at c
  rw [← List.cons_append, Ch_append]
  cases X with
  | nil =>
    have := h.hd
    simp only [List.nil_append, List.head?_cons, Option.some.injEq] at this
    refine ⟨?_, trivial⟩
    have := c.2
    simp_all
  | cons x X =>
    have := h.hd
    simp only [List.cons_append, List.head?_cons, Option.some.injEq] at this
    subst this
    exact ⟨c.2, c.1⟩

theorem splice_core {s : St} {C seg rest : List Nat} (h : Core s C (seg ++ rest)) :
    ∃ C', Core (splice s (seg.getLastD 1)) C' rest := by
  rcases List.eq_nil_or_concat seg with rfl | ⟨Z, u, rfl⟩
  · exact ⟨C, by simpa [splice] using h⟩
  · simp only [List.concat_eq_append] at h ⊢
    have hlast : (Z ++ [u]).getLastD 1 = u := by simp
    rw [hlast]
    have h0 := h.zero
    obtain ⟨X, Y, rfl⟩ := List.append_of_mem h0
    have e1 : (1 :: (Z ++ [u] ++ rest) : List Nat) = 1 :: (Z ++ u :: rest) := by simp
    have hU := h.und
    have nd := h.nd
    have cyc := h.cyc
    rw [e1] at hU nd
    simp only [Ch_cons, Ch_append, hd_cons, hd_append] at hU cyc
    obtain ⟨c1, c2, c3⟩ := cyc
    obtain ⟨u1, u2, u3, u4⟩ := hU
    simp only [List.nodup_append, List.mem_append, List.mem_cons, List.nodup_cons] at nd
    obtain ⟨n1, n2, n3⟩ := nd
    have dis : ∀ a, (a ∈ X ∨ a = 0 ∨ a ∈ Y) → (a = 1 ∨ a ∈ Z ∨ a = u ∨ a ∈ rest) → False :=
      fun a ha hb => n3 a ha a hb rfl
    have u1' : u ≠ 1 := by rintro rfl; simp at n2
    have u0' : u ≠ 0 := by rintro rfl; exact dis 0 (by simp) (by simp)
    have nx : ∀ x, (splice s u).next x = if x = 0 then hd Z (some u) else if x = u then s.next 0 else
        if x = 1 then s.next u else s.next x := by
      intro x
      simp only [splice, if_pos u1', Function.update_apply, u1]
      split_ifs <;> simp_all
    have hp : ((X ++ 0 :: (Z ++ u :: Y)) ++ 1 :: rest).Perm ((X ++ 0 :: Y) ++ 1 :: (Z ++ [u] ++ rest)) := by
      rw [List.perm_iff_count]; intro a
      simp only [List.count_append, List.count_cons, List.count_nil]; omega
    have fr : ∃ k, splice s u = { s with next := k } := by
      simp only [splice, if_pos u1']; exact ⟨_, rfl⟩
    obtain ⟨k, hk⟩ := fr
    have l0 : s.last ≠ 0 := by
      intro hh
      have h2 := h.l0 hh
      have := (h.mem u).1 (by simp)
      omega
    refine ⟨X ++ 0 :: (Z ++ u :: Y), ?_, ?_, ?_, Core.of_perm h.nd hp, fun i => by rw [hp.mem_iff, hk]; exact h.mem i,
      by simp, ?_, ?_, by rw [hk]; exact h.l0, by rw [hk]; exact h.lev, by rw [hk]; exact h.v0, by rw [hk]; exact h.vn⟩
    · have := h.hd
      have e : (splice s u).pos = s.pos := by rw [hk]
      rw [e]
      cases X <;> simpa using this
    · have e : (splice s u).pos = s.pos := by rw [hk]
      rw [e, Ch_append]
      simp only [Ch_cons, Ch_append, hd_cons, hd_append]
      refine ⟨Ch_congr c1 ?_, ?_, Ch_congr u2 ?_, ?_, Ch_congr c3 ?_⟩
      · intro x hx
        rw [nx, if_neg, if_neg, if_neg]
        · rintro rfl; exact dis 1 (by simp [hx]) (by simp)
        · rintro rfl; exact dis x (by simp [hx]) (by simp)
        · rintro rfl; exact n1.2.2 _ hx _ (by simp) rfl
      · rw [nx, if_pos rfl]
      · intro x hx
        rw [nx, if_neg, if_neg, if_neg]
        · rintro rfl; simp [hx] at n2
        · rintro rfl; exact n2.2.2.2 _ hx _ (by simp) rfl
        · rintro rfl; exact dis 0 (by simp) (by simp [hx])
      · rw [nx, if_neg u0', if_pos rfl]; exact c2
      · intro x hx
        rw [nx, if_neg, if_neg, if_neg]
        · rintro rfl; exact dis 1 (by simp [hx]) (by simp)
        · rintro rfl; exact dis x (by simp [hx]) (by simp)
        · rintro rfl; exact n1.2.1.1 hx
    · simp only [Ch_cons]
      refine ⟨?_, Ch_congr u4 ?_⟩
      · rw [nx, if_neg (by decide), if_neg u1'.symm, if_pos rfl]; exact u3
      · intro x hx
        rw [nx, if_neg, if_neg, if_neg]
        · rintro rfl; simp [hx] at n2
        · rintro rfl; exact n2.2.2.1.1 hx
        · rintro rfl; exact dis 0 (by simp) (by simp [hx])
    · have e : (splice s u).last = s.last := by rw [hk]
      have := h.lst
      rw [e]
      simp only [List.mem_append, List.mem_cons] at this ⊢
      tauto
    · have e : (splice s u).last = s.last := by rw [hk]
      have hl := h.lst
      simp only [List.mem_append, List.mem_cons] at hl
      rw [e, nx, if_neg l0, if_neg, if_neg]
      · exact h.nl
      · intro hh; exact dis s.last hl (by simp [hh])
      · intro hh; exact dis s.last hl (by simp [hh])

theorem append_core {s : St} {C U : List Nat} (h : Core s C U) (p : L) (b : Bool) (hp : p.var ≠ 0) :
    ∃ C', Core (append s p b) C' U := by
  obtain ⟨X, Y, rfl⟩ := List.append_of_mem h.lst
  have hn : ∀ i, i ∈ (X ++ s.last :: Y) ++ 1 :: U → i ≠ s.n := fun i hi => Nat.ne_of_lt ((h.mem i).1 hi)
  have hpm : ((X ++ s.last :: s.n :: Y) ++ 1 :: U).Perm (s.n :: ((X ++ s.last :: Y) ++ 1 :: U)) := by
    rw [List.perm_iff_count]; intro a
    simp only [List.count_append, List.count_cons]; omega
  have cyc := h.cyc
  simp only [Ch_cons, Ch_append, hd_cons] at cyc
  obtain ⟨c1, c2, c3⟩ := cyc
  have nd := h.nd
  simp only [List.nodup_append, List.mem_append, List.mem_cons, List.nodup_cons] at nd
  obtain ⟨n1, n2, n3⟩ := nd
  have nx : ∀ x, x ≠ s.n → x ≠ s.last → (append s p b).next x = s.next x := by
    intro x a b; simp [append, a, b]
  have lasn : s.last ≠ s.n := hn _ (by simp)
  have two : 2 ≤ s.n := (h.mem 1).1 (by simp)
  refine ⟨X ++ s.last :: s.n :: Y, ?_, ?_, ?_, ?_, ?_, ?_, by show s.n ∈ _; simp, ?_, ?_, h.lev, ?_, ?_⟩
  · have := h.hd
    show _ = some s.pos
    cases X <;> simpa using this
  · show Ch _ _ (some s.pos)
    simp only [Ch_cons, Ch_append, hd_cons]
    refine ⟨Ch_congr c1 ?_, ?_, ?_, Ch_congr c3 ?_⟩
    · intro x hx
      exact nx x (hn x (by simp [hx])) (by rintro rfl; exact n1.2.2 _ hx _ (by simp) rfl)
    · simp [append, lasn]
    · rw [← c2, h.nl]; simp [append]
    · intro x hx
      exact nx x (hn x (by simp [hx])) (by rintro rfl; exact n1.2.1.1 hx)
  · refine Ch_congr h.und ?_
    intro x hx
    refine nx x (hn x (by simp only [List.mem_append]; exact Or.inr hx)) ?_
    rintro rfl
    exact n3 _ (by simp) _ (List.mem_cons.1 hx) rfl
  · rw [hpm.nodup_iff, List.nodup_cons]
    exact ⟨fun hh => hn _ hh rfl, h.nd⟩
  · intro i
    rw [hpm.mem_iff, List.mem_cons, h.mem]
    show _ ↔ i < s.n + 1
    omega
  · have := h.zero
    simp only [List.mem_append, List.mem_cons] at this ⊢
    tauto
  · simp [append]
  · show s.n = 0 → _
    omega
  · have e : (append s p b).lit 0 = s.lit 0 := by
      simp only [append, Function.update_apply]; rw [if_neg]; omega
    rw [e]; exact h.v0
  · intro i hi hi2
    have hi2 : i < s.n + 1 := hi2
    simp only [append, Function.update_apply]
    split_ifs with hh
    · exact hp
    · exact h.vn i hi (by omega)

/-! ## The loop -/

/-- Proof device: the variable of node `i` is assigned on a level up to `l`. -/
def Asg (s : St) (i l : Nat) : Prop := ∃ e ∈ s.trail, e.1.var = (s.lit i).var ∧ e.2 ≤ l

/-- Proof device: like `Frame`, but the lists may differ. -/
structure Frame2 (s s' : St) : Prop where
  n : s'.n = s.n
  lit : s'.lit = s.lit
  flg : s'.flg = s.flg
  last : s'.last = s.last
  saved : s'.saved = s.saved
  imp1 : s'.imp1 = s.imp1
  dl : s'.dl = s.dl
  watch : s'.watch = s.watch
  trail : ∃ new : List (L × Nat), s'.trail = s.trail ++ new ∧ ∀ e ∈ new, e.2 = s.dl

theorem Frame.to2 {s s' : St} (h : Frame s s') : Frame2 s s' :=
  ⟨h.n, h.lit, h.flg, h.last, h.saved, h.imp1, h.dl, h.watch, h.trail⟩

theorem Frame2.next (s : St) (nx) : Frame2 s { s with next := nx } := by
  constructor <;> first | rfl | exact ⟨[], by simp, by simp⟩

theorem Frame2.posn (s : St) (p) : Frame2 s { s with pos := p } := by
  constructor <;> first | rfl | exact ⟨[], by simp, by simp⟩

theorem Frame2.trans {a b c : St} (h : Frame2 a b) (k : Frame2 b c) : Frame2 a c := by
  obtain ⟨x, hx, hx'⟩ := h.trail
  obtain ⟨y, hy, hy'⟩ := k.trail
  refine ⟨k.n.trans h.n, k.lit.trans h.lit, k.flg.trans h.flg, k.last.trans h.last,
    k.saved.trans h.saved, k.imp1.trans h.imp1, k.dl.trans h.dl,
    k.watch.trans h.watch, x ++ y, by rw [hy, hx, List.append_assoc], ?_⟩
  intro e he
  rcases List.mem_append.1 he with m | m
  · exact hx' e m
  · rw [hy' e m, h.dl]

theorem Frame2.asg {s s' : St} (h : Frame2 s s') {i l} (k : Asg s i l) : Asg s' i l := by
  obtain ⟨x, hx, -⟩ := h.trail
  obtain ⟨e, he, h1, h2⟩ := k
  exact ⟨e, by rw [hx]; simp [he], by rw [h.lit]; exact h1, h2⟩

theorem not_free_asg {s : St} {C U : List Nat} (h : Core s C U) {t : Nat} (ht : t ∈ C) (t0 : t ≠ 0)
    (hf : ¬ s.free (s.lit t).var = true) : Asg s t s.dl := by
  have h1 : t ≠ 1 := by
    rintro rfl
    have := h.nd
    rw [List.nodup_append] at this
    exact this.2.2 1 ht 1 (by simp) rfl
  have := h.vn t (by omega) ((h.mem t).1 (by simp [ht]))
  simp only [St.free, Bool.and_eq_true, decide_eq_true_eq, List.all_eq_true, not_and, not_forall] at hf
  obtain ⟨e, he, hv⟩ := hf this
  exact ⟨e, he, by simpa using hv, h.lev e he⟩

theorem loop_gen (e : Env) (J : St → List Nat → Prop) (K : Res → St → Prop)
    (jn : ∀ s nx todo, J s todo → J { s with next := nx } todo)
    (js : ∀ s todo, J s todo → J (splitStep e s).2 todo)
    (jt : ∀ s t todo, J s (t :: todo) → s.free (s.lit t).var = true →
      (test e s (s.lit t) (s.flg t)).1 = .ok → J (test e s (s.lit t) (s.flg t)).2 todo)
    (jk : ∀ s t todo, J s (t :: todo) → ¬ s.free (s.lit t).var = true → J s todo)
    (kf : ∀ s t todo, J s (t :: todo) → s.free (s.lit t).var = true →
      (test e s (s.lit t) (s.flg t)).1 ≠ .ok →
      K (test e s (s.lit t) (s.flg t)).1 { (test e s (s.lit t) (s.flg t)).2 with pos := t })
    (kd : ∀ s, J s [] → K .ok s)
    (kl : ∀ s todo, J s todo → s.limit = some 0 → K .ok s) :
    ∀ fuel todo s X r top rest, todo.length < fuel → Core s (X ++ r :: todo) (top ++ rest) →
      (∀ i ∈ top, Asg s i s.dl) → J s todo →
      ∃ res s' C' top', loop e fuel s r (top.getLastD 1) = some (res, s', top'.getLastD 1) ∧
        Core s' C' (top' ++ rest) ∧ (∀ i ∈ top', Asg s' i s.dl) ∧ Frame2 s s' ∧ K res s' := by
  intro fuel
  induction fuel with
  | zero => intro todo; simp
  | succ fuel ih =>
    intro todo s X r top rest hf hc ha hj
    have cyc := hc.cyc
    simp only [Ch_append, Ch_cons, hd_cons] at cyc
    have hnx := cyc.2.1
    rw [loop]
    cases todo with
    | nil =>
      rw [hd_nil] at hnx
      simp only [hnx, if_true]
      exact ⟨_, _, _, top, rfl, hc, ha, (Frame.rfl' s).to2, kd s hj⟩
    | cons t todo =>
      rw [hd_cons] at hnx
      simp only [hnx]
      have nd := hc.nd
      have tp : t ≠ s.pos := by
        have h1 := hc.hd
        have h2 := (List.nodup_append.1 nd).1
        intro hh
        subst hh
        cases X with
        | nil => simp at h1; simp [h1] at h2
        | cons x X => simp at h1; simp [h1] at h2
      rw [if_neg tp]
      obtain ⟨f0, s1, s2, s3, s4, s5, s6⟩ := split_frame e s
      have hj1 := js s _ hj
      obtain ⟨b, s', hx⟩ : ∃ b s', splitStep e s = (b, s') := ⟨_, _, rfl⟩
      rw [hx] at f0 s1 s2 s3 s4 s5 s6 hj1
      simp only [hx]
      simp only at f0 s1 s2 s3 s4 s5 s6 hj1
      have hc1 := f0.core hc
      have ha1 : ∀ i ∈ top, Asg s' i s'.dl := fun i hi => by
        rw [f0.dl]; exact f0.to2.asg (ha i hi)
      by_cases hb : b = true
      · rw [if_pos hb]
        exact ⟨_, _, _, top, rfl, hc1, fun i hi => f0.to2.asg (ha i hi), f0.to2, kl s' _ hj1 (s6 hb)⟩
      · rw [if_neg hb]
        by_cases hfr : s'.free (s'.lit t).var = true
        · rw [if_pos hfr]
          have ft := test_frame e s' (s'.lit t) (s'.flg t)
          by_cases hok : (test e s' (s'.lit t) (s'.flg t)).1 = .ok
          · rw [if_pos hok]
            have hj2 := jt s' t todo hj1 hfr hok
            obtain ⟨s2', hs2⟩ : ∃ s2', (test e s' (s'.lit t) (s'.flg t)).2 = s2' := ⟨_, rfl⟩
            rw [hs2] at hj2 ft ⊢
            have hc2 : Core s2' ((X ++ [r]) ++ t :: todo) (top ++ rest) := by
              have := ft.core hc1
              simpa using this
            obtain ⟨res, s3', C', top', g1, g2, g3, g4, g5⟩ := ih todo s2' (X ++ [r]) t top rest
              (by simp at hf; omega) hc2
              (fun i hi => by rw [ft.dl]; exact ft.to2.asg (ha1 i hi)) hj2
            refine ⟨res, s3', C', top', g1, g2, ?_, (f0.to2.trans ft.to2).trans g4, g5⟩
            intro i hi
            have := g3 i hi
            rw [ft.dl, f0.dl] at this; exact this
          · rw [if_neg hok]
            have hk := kf s' t todo hj1 hfr hok
            obtain ⟨s2', hs2⟩ : ∃ s2', (test e s' (s'.lit t) (s'.flg t)).2 = s2' := ⟨_, rfl⟩
            rw [hs2] at hk ft ⊢
            have hc2 : Core s2' ((X ++ [r]) ++ t :: todo) (top ++ rest) := by
              have := ft.core hc1
              simpa using this
            refine ⟨_, _, _, top, rfl, rot_core hc2, ?_, (f0.to2.trans ft.to2).trans (Frame2.posn _ _), hk⟩
            intro i hi
            exact (Frame2.posn s2' t).asg (ft.to2.asg (f0.to2.asg (ha i hi)))
        · rw [if_neg hfr]
          have hj2 := jk s' t todo hj1 hfr
          by_cases htl : t ≠ s'.last ∧ t ≠ 0
          · rw [if_pos htl]
            have hz : ∃ Z, 1 :: top = Z ++ [top.getLastD 1] := by
              rcases List.eq_nil_or_concat top with rfl | ⟨Z, u, rfl⟩
              · exact ⟨[], rfl⟩
              · exact ⟨1 :: Z, by simp⟩
            obtain ⟨Z, hz⟩ := hz
            have hc2 := unlink_core hc1 hz htl.1 htl.2
            have hta := not_free_asg hc1 (by simp) htl.2 hfr
            obtain ⟨nx, hu⟩ : ∃ nx, unlink s' r t (top.getLastD 1) = { s' with next := nx } := ⟨_, rfl⟩
            rw [hu] at hc2 ⊢
            have fn := Frame2.next s' nx
            have hl : (top ++ [t]).getLastD 1 = t := by simp
            obtain ⟨res, s3', C', top', g1, g2, g3, g4, g5⟩ := ih todo { s' with next := nx } X r (top ++ [t]) rest
              (by simp at hf; omega) (by simpa using hc2)
              (fun i hi => by
                rcases List.mem_append.1 hi with h | h
                · exact fn.asg (ha1 i h)
                · rw [List.mem_singleton.1 h]; exact fn.asg hta) (jn s' nx todo hj2)
            rw [hl] at g1
            refine ⟨res, s3', C', top', g1, g2, ?_, (f0.to2.trans fn).trans g4, g5⟩
            intro i hi
            have := g3 i hi
            rw [← f0.dl]; exact this
          · rw [if_neg htl]
            obtain ⟨res, s3', C', top', g1, g2, g3, g4, g5⟩ := ih todo s' (X ++ [r]) t top rest
              (by simp at hf; omega) (by simpa using hc1) ha1 hj2
            refine ⟨res, s3', C', top', g1, g2, ?_, f0.to2.trans g4, g5⟩
            intro i hi
            have := g3 i hi
            rw [f0.dl] at this; exact this

/-! ## The stack of undo lists -/

/-- Proof device: the undo list made of the lists of all levels, the highest level first. -/
def flat (sg : List (Option (List Nat))) : List Nat := sg.flatMap (·.getD [])

/-- Proof device: node `i` is in the undo list of level `l`. -/
def In : List (Option (List Nat)) → Nat → Nat → Prop
  | [], _, _ => False
  | x :: r, i, l => (l = r.length ∧ ∃ y, x = some y ∧ i ∈ y) ∨ In r i l

/-- Proof device: level `l` has an undo list. -/
def Has : List (Option (List Nat)) → Nat → Prop
  | [], _ => False
  | x :: r, l => (l = r.length ∧ x.isSome = true) ∨ Has r l

theorem Has_lt {sg l} (h : Has sg l) : l < sg.length := by
  induction sg with
  | nil => exact h.elim
  | cons x r ih =>
    rcases h with h | h
    · simp [h.1]
    · have := ih h; simp; omega

theorem In_has {sg i l} (h : In sg i l) : Has sg l := by
  induction sg with
  | nil => exact h.elim
  | cons x r ih =>
    rcases h with ⟨h, y, hy, -⟩ | h
    · exact Or.inl ⟨h, by simp [hy]⟩
    · exact Or.inr (ih h)

theorem resize_map {α β : Type} (f : α → β) (sg : List (Option α)) (k : Nat) :
    resize (sg.map (Option.map f)) k = (resize sg k).map (Option.map f) := by
  simp [resize]

theorem resize_len {α : Type} (sg : List (Option α)) (k : Nat) : (resize sg k).length = k := by
  simp [resize]; omega

theorem rep_spec (m : Nat) (sg : List (Option (List Nat))) :
    flat (List.replicate m none ++ sg) = flat sg ∧ (∀ i l, In (List.replicate m none ++ sg) i l ↔ In sg i l) ∧
    (∀ l, Has (List.replicate m none ++ sg) l ↔ Has sg l) := by
  induction m with
  | zero => simp
  | succ m ih =>
    obtain ⟨h1, h2, h3⟩ := ih
    refine ⟨?_, fun i l => ?_, fun l => ?_⟩
    · simpa [List.replicate_succ, flat] using h1
    · simp [List.replicate_succ, In, h2]
    · simp [List.replicate_succ, Has, h3]

theorem drop_spec (j : Nat) (sg : List (Option (List Nat))) (hj : j ≤ sg.length)
    (h : ∀ l, Has sg l → l < sg.length - j) :
    flat (sg.drop j) = flat sg ∧ (∀ i l, In (sg.drop j) i l ↔ In sg i l) ∧
    (∀ l, Has (sg.drop j) l ↔ Has sg l) := by
  induction j generalizing sg with
  | zero => simp
  | succ j ih =>
    cases sg with
    | nil => simp at hj
    | cons x r =>
      have hx : x = none := by
        cases x with
        | none => rfl
        | some y =>
          have := h r.length (Or.inl ⟨rfl, rfl⟩)
          simp at this hj; omega
      subst hx
      have := ih r (by simpa using hj) (fun l hl => by
        have := h l (Or.inr hl); simp at this; omega)
      obtain ⟨h1, h2, h3⟩ := this
      refine ⟨by simpa [flat] using h1, fun i l => ?_, fun l => ?_⟩
      · simp [In, h2]
      · simp [Has, h3]

theorem resize_spec (sg : List (Option (List Nat))) (k : Nat) (h : ∀ l, Has sg l → l < k) :
    flat (resize sg k) = flat sg ∧ (∀ i l, In (resize sg k) i l ↔ In sg i l) ∧
    (∀ l, Has (resize sg k) l ↔ Has sg l) := by
  obtain ⟨a1, a2, a3⟩ := rep_spec (k - sg.length) (sg.drop (sg.length - k))
  obtain ⟨b1, b2, b3⟩ := drop_spec (sg.length - k) sg (by omega) (fun l hl => by
    have := h l hl; have := Has_lt hl; omega)
  exact ⟨a1.trans b1, fun i l => (a2 i l).trans (b2 i l), fun l => (a3 l).trans (b3 l)⟩

/-- Proof device: `sg` are the undo lists that `saved_` and the undo watches stand for. -/
structure Sv (s : St) (sg : List (Option (List Nat))) : Prop where
  sav : s.saved = sg.map (Option.map (·.getLastD 1))
  asg : ∀ i l, In sg i l → Asg s i l
  wat : ∀ l, s.watch l = true ↔ l ≠ 0 ∧ Has sg l
  wle : ∀ l, Has sg l → l ≤ s.dl

theorem Core.upd {s s' : St} {C U} (h : Core s C U) (n : s'.n = s.n) (lit : s'.lit = s.lit) (next : s'.next = s.next)
    (last : s'.last = s.last) (pos : s'.pos = s.pos) (lev : ∀ e ∈ s'.trail, e.2 ≤ s'.dl) : Core s' C U :=
  ⟨by rw [pos]; exact h.hd, by rw [next, pos]; exact h.cyc, by rw [next]; exact h.und, h.nd, by rw [n]; exact h.mem,
    h.zero, by rw [last]; exact h.lst, by rw [next, last]; exact h.nl, by rw [last, n]; exact h.l0, lev,
    by rw [lit]; exact h.v0, by rw [lit, n]; exact h.vn⟩

theorem start_spec {s : St} {C sg} (hc : Core s C (flat sg)) (hs : Sv s sg) :
    ∃ top rest v w, start s = (clearDeps { s with saved := v :: rest.map (Option.map (·.getLastD 1)), watch := w },
        top.getLastD 1) ∧ Core (start s).1 C (top ++ flat rest) ∧ rest.length = s.dl ∧
      (∀ i ∈ top, Asg s i s.dl) ∧ (∀ i l, In rest i l → Asg s i l) ∧
      (∀ l, w l = true ↔ l ≠ 0 ∧ (l = s.dl ∨ Has rest l)) := by
  obtain ⟨h1, h2, h3⟩ := resize_spec sg (s.dl + 1) (fun l hl => by have := hs.wle l hl; omega)
  have hl := resize_len sg (s.dl + 1)
  have hm := resize_map (·.getLastD 1) sg (s.dl + 1)
  obtain ⟨R, hR⟩ : ∃ R, resize sg (s.dl + 1) = R := ⟨_, rfl⟩
  rw [hR] at h1 h2 h3 hl hm
  cases R with
  | nil => simp at hl
  | cons x rest =>
    have hrl : rest.length = s.dl := by simpa using hl
    have hst : start s = (clearDeps { s with
        saved := (x.map (·.getLastD 1)) :: rest.map (Option.map (·.getLastD 1)),
        watch := if x.isSome = true then s.watch else if s.dl ≠ 0 then Function.update s.watch s.dl true else s.watch },
        (x.getD []).getLastD 1) := by
      unfold start
      simp only [hs.sav, hm]
      cases x <;> simp
    refine ⟨x.getD [], rest, _, _, hst, ?_, hrl, ?_, ?_, ?_⟩
    · rw [hst]
      have : flat sg = x.getD [] ++ flat rest := by rw [← h1]; simp [flat]
      rw [← this]
      exact hc.upd rfl rfl rfl rfl rfl hc.lev
    · intro i hi
      cases x with
      | none => simp at hi
      | some y => exact hs.asg i s.dl ((h2 _ _).1 (Or.inl ⟨hrl.symm, y, rfl, by simpa using hi⟩))
    · intro i l hi
      exact hs.asg i l ((h2 _ _).1 (Or.inr hi))
    · intro l
      have hw := hs.wat l
      have h3l := h3 l
      cases x with
      | some y =>
        simp only [Option.isSome_some, if_true]
        rw [hw, ← h3l]
        simp [Has, hrl]
      | none =>
        have h3l' : Has rest l ↔ Has sg l := by rw [← h3l]; simp [Has]
        simp only [Option.isSome_none, Bool.false_eq_true, if_false]
        split_ifs with hd
        · simp only [Function.update_apply]
          split_ifs with hh
          · simp [hh, hd]
          · rw [hw, h3l']; simp [hh]
        · rw [hw, h3l']
          constructor
          · rintro ⟨a, b⟩; exact ⟨a, Or.inr b⟩
          · rintro ⟨a, b⟩; exact ⟨a, b.resolve_left (fun h => a (by omega))⟩

theorem core_len {s : St} {C U} (h : Core s C U) : C.length ≤ s.n := by
  have h1 : C.Nodup := (List.nodup_append.1 h.nd).1
  have : C ⊆ List.range s.n := fun i hi => List.mem_range.2 ((h.mem i).1 (by simp [hi]))
  simpa using (List.subperm_of_subset h1 this).length_le

theorem pos_eta (s : St) (p : Nat) (h : s.pos = p) : ({ s with pos := p } : St) = s := by subst h; rfl

theorem pl_gen (e : Env) (J : St → List Nat → Prop) (K : Res → St → Prop)
    (jn : ∀ s nx todo, J s todo → J { s with next := nx } todo)
    (js : ∀ s todo, J s todo → J (splitStep e s).2 todo)
    (jt : ∀ s t todo, J s (t :: todo) → s.free (s.lit t).var = true →
      (test e s (s.lit t) (s.flg t)).1 = .ok → J (test e s (s.lit t) (s.flg t)).2 todo)
    (jk : ∀ s t todo, J s (t :: todo) → ¬ s.free (s.lit t).var = true → J s todo)
    (kf : ∀ s t todo, J s (t :: todo) → s.free (s.lit t).var = true →
      (test e s (s.lit t) (s.flg t)).1 ≠ .ok →
      K (test e s (s.lit t) (s.flg t)).1 { (test e s (s.lit t) (s.flg t)).2 with pos := t })
    (kd : ∀ s, J s [] → K .ok s)
    (kl : ∀ s todo, J s todo → s.limit = some 0 → K .ok s)
    (ks : ∀ r s x, K r s → K r { s with saved := x })
    {s : St} {C sg} (hc : Core s C (flat sg)) (hs : Sv s sg) (hj : J (start s).1 C) :
    ∃ res s' C' sg', propagateLevel e s = some (res, s') ∧ Core s' C' (flat sg') ∧ Sv s' sg' ∧
      s'.n = s.n ∧ s'.lit = s.lit ∧ s'.flg = s.flg ∧ s'.imp1 = s.imp1 ∧ s'.dl = s.dl ∧
      (∃ new : List (L × Nat), s'.trail = s.trail ++ new ∧ ∀ e ∈ new, e.2 = s.dl) ∧ K res s' := by
  obtain ⟨top, rest, v, w, h1, h2, h3, h4, h5, h6⟩ := start_spec hc hs
  have hcl := core_len hc
  obtain ⟨s1, hs1⟩ : ∃ s1, (start s).1 = s1 := ⟨_, rfl⟩
  rw [hs1] at h2 hj
  have hu : (start s).2 = top.getLastD 1 := by rw [h1]
  have hs1' : s1 = clearDeps { s with saved := v :: rest.map (Option.map (·.getLastD 1)), watch := w } := by
    rw [← hs1, h1]
  have e1 : s1.dl = s.dl := by rw [hs1']; rfl
  have e2 : s1.trail = s.trail := by rw [hs1']; rfl
  have e3 : s1.lit = s.lit := by rw [hs1']; rfl
  have e4 : s1.n = s.n := by rw [hs1']; rfl
  have e5 : s1.flg = s.flg := by rw [hs1']; rfl
  have e6 : s1.imp1 = s.imp1 := by rw [hs1']; rfl
  have e7 : s1.saved = v :: rest.map (Option.map (·.getLastD 1)) := by rw [hs1']; rfl
  have e8 : s1.watch = w := by rw [hs1']; rfl
  have asg1 : ∀ {i l}, Asg s i l → Asg s1 i l := by
    intro i l ⟨x, a, b, c⟩; exact ⟨x, by rw [e2]; exact a, by rw [e3]; exact b, c⟩
  have fin : ∀ (res : Res) (s2 : St) (C' top' : List Nat), Frame2 s1 s2 → Core s2 C' (top' ++ flat rest) →
      (∀ i ∈ top', Asg s2 i s.dl) → K res s2 →
      ∃ C' sg', Core { s2 with saved := some (top'.getLastD 1) :: s2.saved.tail } C' (flat sg') ∧
        Sv { s2 with saved := some (top'.getLastD 1) :: s2.saved.tail } sg' ∧
        s2.n = s.n ∧ s2.lit = s.lit ∧ s2.flg = s.flg ∧ s2.imp1 = s.imp1 ∧ s2.dl = s.dl ∧
      (∃ new : List (L × Nat), s2.trail = s.trail ++ new ∧ ∀ e ∈ new, e.2 = s.dl) ∧
        K res { s2 with saved := some (top'.getLastD 1) :: s2.saved.tail } := by
    intro res s2 C' top' f c a k
    refine ⟨C', some top' :: rest, ?_, ⟨?_, ?_, ?_, ?_⟩, by rw [f.n, e4], by rw [f.lit, e3], by rw [f.flg, e5],
      by rw [f.imp1, e6], by rw [f.dl, e1], ?_, ks _ _ _ k⟩
    · have : flat (some top' :: rest) = top' ++ flat rest := by simp [flat]
      rw [this]
      exact c.upd rfl rfl rfl rfl rfl c.lev
    · simp [f.saved, e7]
    · intro i l hi
      rcases hi with ⟨rfl, y, hy, hi⟩ | hi
      · cases hy; rw [h3]; exact a i hi
      · exact f.asg (asg1 (h5 i l hi))
    · intro l
      show s2.watch l = true ↔ _
      rw [f.watch, e8, h6]
      simp [Has, h3]
    · intro l hl
      show l ≤ s2.dl
      rw [f.dl, e1]
      have := Has_lt hl
      simp [h3] at this; omega
    · obtain ⟨x, hx, hx'⟩ := f.trail
      exact ⟨x, by rw [hx, e2], by rw [← e1]; exact hx'⟩
  cases hC : C with
  | nil => have := hc.hd; simp [hC] at this
  | cons p0 D =>
    subst hC
    have hp0 : p0 = s1.pos := by have := h2.hd; simpa using this
    subst hp0
    have hlp : ∀ s2, Frame s1 s2 → J s2 D → ∃ res s' C' top',
        loop e (s1.n + 1) s2 s1.pos (top.getLastD 1) = some (res, s', top'.getLastD 1) ∧
        Core s' C' (top' ++ flat rest) ∧ (∀ i ∈ top', Asg s' i s.dl) ∧ Frame2 s1 s' ∧ K res s' := by
      intro s2 f hj2
      obtain ⟨res, s', C', top', g1, g2, g3, g4, g5⟩ := loop_gen e J K jn js jt jk kf kd kl (s1.n + 1) D s2 [] s1.pos
        top (flat rest) (by simp at hcl; omega) (by simpa using f.core h2)
        (fun i hi => by rw [f.dl, e1]; exact f.to2.asg (asg1 (h4 i hi))) hj2
      exact ⟨res, s', C', top', g1, g2, fun i hi => by have := g3 i hi; rw [f.dl, e1] at this; exact this,
        f.to2.trans g4, g5⟩
    unfold propagateLevel
    simp only [hs1, hu]
    by_cases hfr : s1.free (s1.lit s1.pos).var = true
    · rw [if_pos hfr]
      have ft := test_frame e s1 (s1.lit s1.pos) (s1.flg s1.pos)
      by_cases hok : (test e s1 (s1.lit s1.pos) (s1.flg s1.pos)).1 = .ok
      · rw [if_pos hok]
        obtain ⟨res, s', C', top', g1, g2, g3, g4, g5⟩ := hlp _ ft (jt s1 s1.pos D hj hfr hok)
        simp only [g1]
        obtain ⟨C2, sg2, k1, k2, k3, k4, k5, k6, k7, k8, k9⟩ := fin res s' C' top' g4 g2 g3 g5
        exact ⟨_, _, C2, sg2, rfl, k1, k2, k3, k4, k5, k6, k7, k8, k9⟩
      · rw [if_neg hok]
        have hk := kf s1 s1.pos D hj hfr hok
        have : ({ (test e s1 (s1.lit s1.pos) (s1.flg s1.pos)).2 with pos := s1.pos } : St) =
            (test e s1 (s1.lit s1.pos) (s1.flg s1.pos)).2 := pos_eta _ _ ft.pos
        rw [this] at hk
        obtain ⟨C2, sg2, k1, k2, k3, k4, k5, k6, k7, k8, k9⟩ := fin _ _ _ top ft.to2 (ft.core h2)
          (fun i hi => ft.to2.asg (asg1 (h4 i hi))) hk
        exact ⟨_, _, C2, sg2, rfl, k1, k2, k3, k4, k5, k6, k7, k8, k9⟩
    · rw [if_neg hfr]
      simp only [if_true]
      obtain ⟨res, s', C', top', g1, g2, g3, g4, g5⟩ := hlp _ (Frame.rfl' s1) (jk s1 s1.pos D hj hfr)
      simp only [g1]
      obtain ⟨C2, sg2, k1, k2, k3, k4, k5, k6, k7, k8, k9⟩ := fin res s' C' top' g4 g2 g3 g5
      exact ⟨_, _, C2, sg2, rfl, k1, k2, k3, k4, k5, k6, k7, k8, k9⟩

end Clasp.Look
