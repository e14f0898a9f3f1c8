import Verif.Core.LookInv

/-! # Lookahead: what the tests mean -/

namespace Clasp.Look

/-- Specification: literal `l` is true in `m`. -/
def tr (m : Nat → Bool) (l : L) : Prop := m l.var = !l.neg

theorem tr_or (m : Nat → Bool) (p : L) : tr m p ∨ tr m p.not := by
  simp only [tr, L.not]; cases m p.var <;> cases p.neg <;> simp

theorem tr_not (m : Nat → Bool) (p : L) (h : tr m p) : ¬ tr m p.not := by
  simp only [tr, L.not] at *; rw [h]; simp

/-- Proof device: invariants of the marks and of the literals kept on level 0. -/
structure Oth (e : Env) (s : St) : Prop where
  dep : DepOk s
  imp : s.imp1 = false → s.imps = []
  inj : ∀ i j, 2 ≤ i → i < s.n → 2 ≤ j → j < s.n → (s.lit i).var = (s.lit j).var → i = j
  typ : ∀ i, 2 ≤ i → i < s.n → e.typ (s.lit i).var = true

theorem test_ind (P : St → Prop) (e : Env) (s : St) (p : L) (fl) (h0 : P s)
    (hs : ∀ s q fl, q.var = p.var → P s → P (sTest e s q fl).2) (hc : ∀ s, P s → P (checkImps e s p).2) :
    P (test e s p fl).2 := by
  unfold test
  simp only
  obtain ⟨r1, h1⟩ : ∃ r1, (if s.seen p.var p.neg then (Res.ok, s) else sTest e s p fl) = r1 := ⟨_, rfl⟩
  have f1 : P r1.2 := by
    rw [← h1]; split_ifs
    · exact h0
    · exact hs s p fl rfl h0
  rw [h1]
  obtain ⟨r2, h2⟩ : ∃ r2, (if !fl || r1.2.seen p.var (!p.neg) then (Res.ok, r1.2) else sTest e r1.2 p.not false) = r2 :=
    ⟨_, rfl⟩
  have f2 : P r2.2 := by
    rw [← h2]; split_ifs
    · exact f1
    · exact hs _ p.not _ rfl f1
  rw [h2]
  split_ifs
  · exact f1
  · exact f2
  · exact f2
  · exact hc _ f2

/-- Specification: propagation only adds literals. -/
def Ext (e : Env) : Prop := ∀ A B, e.cl A = some B → A <+: B

theorem drop_ext {e : Env} (he : Ext e) {s : St} {p : L} {B} (h : e.cl (s.lits ++ [p]) = some B) :
    p ∈ B.drop s.trail.length := by
  obtain ⟨w, hw⟩ := he _ _ h
  rw [← hw, List.append_assoc, List.drop_append_of_le_length (by simp [St.lits])]
  simp [St.lits]

theorem test_dep {e : Env} (he : Ext e) {s : St} {p : L} {fl} (ht : e.typ p.var = true) (hd : DepOk s) :
    DepOk (test e s p fl).2 := by
  refine test_ind DepOk e s p fl hd ?_ ?_
  · intro s q fl hq hd
    rcases sTest_cases e s q fl with h | ⟨-, h⟩ | ⟨-, h⟩ | ⟨B, hB, -, h⟩ <;> rw [h]
    · exact hd
    · exact hd
    · exact hd
    · obtain ⟨i, hi, -⟩ := undoTest_eq e { s with tick := s.tick + 1 } q fl (B.drop s.trail.length)
      obtain ⟨-, -, -, -, hh⟩ := scoreLits_spec e { s with tick := s.tick + 1 } q (B.drop s.trail.length)
      rw [hi]
      exact hh hd (by rw [hq]; exact ht) (drop_ext he hB)
  · intro s hd
    obtain ⟨T, k, h, -⟩ := checkImps_cases e s p
    rw [h]; exact hd

theorem test_imp1 {e : Env} {s : St} {p : L} {fl} (hd : s.imp1 = false ∧ s.imps = []) :
    (test e s p fl).2.imps = [] := by
  refine (test_ind (fun s => s.imp1 = false ∧ s.imps = []) e s p fl hd ?_ ?_).2
  · intro s q fl _ hd
    rcases sTest_cases e s q fl with h | ⟨-, h⟩ | ⟨-, h⟩ | ⟨B, hB, -, h⟩ <;> rw [h]
    · exact hd
    · exact hd
    · exact hd
    · obtain ⟨i, hi, h1, -⟩ := undoTest_eq e { s with tick := s.tick + 1 } q fl (B.drop s.trail.length)
      obtain ⟨⟨d, k, t, hh⟩, -⟩ := scoreLits_spec e { s with tick := s.tick + 1 } q (B.drop s.trail.length)
      rw [hi, hh, h1 (by simp [hd.1])]
      exact hd
  · intro s hd
    obtain ⟨T, k, h, -⟩ := checkImps_cases e s p
    rw [h]; exact ⟨hd.1, rfl⟩

theorem test_tested {e : Env} {s : St} {p : L} {fl} {v b} (h : (test e s p fl).2.tested v b = true) :
    s.tested v b = true ∨ v = p.var := by
  refine test_ind (fun s' => s'.tested v b = true → s.tested v b = true ∨ v = p.var) e s p fl Or.inl ?_ ?_ h
  · intro s q fl hq hd
    rcases sTest_cases e s q fl with h | ⟨-, h⟩ | ⟨-, h⟩ | ⟨B, hB, -, h⟩ <;> rw [h]
    · exact hd
    · exact hd
    · exact hd
    · obtain ⟨i, hi, -⟩ := undoTest_eq e { s with tick := s.tick + 1 } q fl (B.drop s.trail.length)
      obtain ⟨-, -, -, hh, -⟩ := scoreLits_spec e { s with tick := s.tick + 1 } q (B.drop s.trail.length)
      rw [hi]
      intro ht
      rcases (hh v b).1 ht with k | k
      · exact hd k
      · right; rw [← hq, ← k]
  · intro s hd
    obtain ⟨T, k, h, -⟩ := checkImps_cases e s p
    rw [h]; exact hd

theorem test_bad {e : Env} {s : St} {p : L} {fl} (h : s.dl + 1 = s.saved.length) : (test e s p fl).1 ≠ .bad := by
  have hst : ∀ s q fl, s.dl + 1 = s.saved.length → (sTest e s q fl).1 ≠ .bad := by
    intro s q fl h
    rcases sTest_cases e s q fl with k | ⟨-, k⟩ | ⟨hh, k⟩ | ⟨B, hB, -, k⟩
    · rw [k]; simp
    · rw [k]; simp
    · exact absurd h hh
    · rw [k]; simp
  unfold test
  simp only
  obtain ⟨r1, h1⟩ : ∃ r1, (if s.seen p.var p.neg then (Res.ok, s) else sTest e s p fl) = r1 := ⟨_, rfl⟩
  have f1 : r1.1 ≠ .bad ∧ r1.2.dl + 1 = r1.2.saved.length := by
    rw [← h1]; split_ifs
    · exact ⟨by simp, h⟩
    · have f := (sTest_frame e s p fl).1
      exact ⟨hst s p fl h, by rw [f.dl, f.saved]; exact h⟩
  rw [h1]
  obtain ⟨r2, h2⟩ : ∃ r2, (if !fl || r1.2.seen p.var (!p.neg) then (Res.ok, r1.2) else sTest e r1.2 p.not false) = r2 :=
    ⟨_, rfl⟩
  have f2 : r2.1 ≠ .bad := by
    rw [← h2]; split_ifs
    · simp
    · exact hst _ _ _ f1.2
  rw [h2]
  split_ifs
  · exact f1.1
  · exact f2
  · simp
  · obtain ⟨T, k, -, -, hh⟩ := checkImps_cases e r2.2 p
    rcases hh with ⟨-, -, h⟩ | ⟨new, -, ⟨-, -, h⟩ | ⟨-, h⟩ | ⟨-, -, h⟩ | ⟨B, -, -, h⟩⟩ <;> rw [h] <;> simp

/-! ## Soundness -/

theorem forceAll_true {m : Nat → Bool} {A : List L} (hA : ∀ l ∈ A, tr m l) :
    ∀ ls new : List L, (∀ l ∈ new, tr m l) → (∀ l ∈ ls, tr m l) →
      ∃ new', forceAll A new ls = some new' ∧ ∀ l ∈ new', tr m l := by
  intro ls
  induction ls with
  | nil => intro new hn _; exact ⟨new, rfl, hn⟩
  | cons l ls ih =>
    intro new hn hl
    rw [forceAll]
    split_ifs with h1 h2
    · exact ih new hn fun x hx => hl x (by simp [hx])
    · exfalso
      have : tr m l.not := by
        rcases List.mem_append.1 h2 with h | h
        · exact hA _ h
        · exact hn _ h
      exact tr_not m l (hl l (by simp)) this
    · refine ih (new ++ [l]) ?_ fun x hx => hl x (by simp [hx])
      intro x hx
      rcases List.mem_append.1 hx with h | h
      · exact hn x h
      · rw [List.mem_singleton.1 h]; exact hl l (by simp)

/-- Specification: propagation adds only literals that are true in `m`, if it starts with such. -/
def SoundFor (e : Env) (m : Nat → Bool) : Prop :=
  ∀ A, (∀ l ∈ A, tr m l) → ∃ B, e.cl A = some B ∧ ∀ l ∈ B, tr m l

theorem checkImps_true {e : Env} {m} (hM : SoundFor e m) {s : St} {p : L} (hT : ∀ l ∈ s.lits, tr m l)
    (hI : s.both p.var = true → ∀ l ∈ s.imps, tr m l) :
    (∀ l ∈ (checkImps e s p).2.lits, tr m l) ∧ (checkImps e s p).2.imps = [] ∧
    ((checkImps e s p).1 = .ok ∨ (checkImps e s p).1 = .stopped) := by
  obtain ⟨T, k, h, -, hc⟩ := checkImps_cases e s p
  have hl : (checkImps e s p).2.lits = s.lits ++ T.map (·.1) := by rw [h]; simp [St.lits]
  obtain ⟨new', hn, hnt⟩ := forceAll_true hT (if s.both p.var then s.imps else []) [] (by simp) (by
    split_ifs with hb
    · exact hI hb
    · simp)
  have hi : (checkImps e s p).2.imps = [] := by rw [h]
  rw [hl]
  refine ⟨?_, hi, ?_⟩
  · intro l hl
    rcases List.mem_append.1 hl with hl | hl
    · exact hT l hl
    · obtain ⟨B, hB, hBt⟩ := hM (s.lits ++ new') (fun l hl => by
        rcases List.mem_append.1 hl with h | h
        · exact hT l h
        · exact hnt l h)
      rcases hc with ⟨-, rfl, -⟩ | ⟨new, hn', ⟨-, rfl, -⟩ | ⟨rfl, -⟩ | ⟨rfl, -, -⟩ | ⟨B', hB', rfl, -⟩⟩
      · simp at hl
      · simp at hl
      · rw [hn] at hn'; cases hn'
        simp only [List.map_map, List.mem_map, Function.comp_apply] at hl
        obtain ⟨x, hx, rfl⟩ := hl
        exact hnt x hx
      · rw [hn] at hn'; cases hn'
        simp only [List.map_map, List.mem_map, Function.comp_apply] at hl
        obtain ⟨x, hx, rfl⟩ := hl
        exact hnt x hx
      · rw [hn] at hn'; cases hn'
        rw [hB] at hB'; cases hB'
        simp only [List.map_map, List.mem_map, Function.comp_apply] at hl
        obtain ⟨x, hx, rfl⟩ := hl
        exact hBt x (List.mem_of_mem_drop hx)
  · rcases hc with ⟨h, -⟩ | ⟨new, hn', ⟨-, -, h⟩ | ⟨-, h⟩ | ⟨-, hB, -⟩ | ⟨B', -, -, h⟩⟩
    · rw [hn] at h; cases h
    · exact Or.inl h
    · exact Or.inr h
    · rw [hn] at hn'; cases hn'
      obtain ⟨B, hB', -⟩ := hM (s.lits ++ new') (fun l hl => by
        rcases List.mem_append.1 hl with h | h
        · exact hT l h
        · exact hnt l h)
      rw [hB] at hB'; cases hB'
    · exact Or.inl h

theorem sTest_sound {e : Env} {m} (hM : SoundFor e m) {s : St} {p : L} {fl} (hT : ∀ l ∈ s.lits, tr m l) :
    (∀ l ∈ (sTest e s p fl).2.lits, tr m l) ∧ (sTest e s p fl).1 ≠ .conflict ∧
    ∀ q, (sTest e s p fl).1 = .failed q → ¬ tr m q := by
  have hl : (sTest e s p fl).2.lits = s.lits := by rw [St.lits, (sTest_frame e s p fl).2]; rfl
  rw [hl]
  refine ⟨hT, ?_⟩
  rcases sTest_cases e s p fl with k | ⟨hn, k⟩ | ⟨hh, k⟩ | ⟨B, hB, -, k⟩ <;> rw [k]
  · simp
  · refine ⟨by simp, ?_⟩
    intro q hq ht
    cases hq
    obtain ⟨B, hB, -⟩ := hM (s.lits ++ [p]) (fun l hl => by
      rcases List.mem_append.1 hl with h | h
      · exact hT l h
      · rw [List.mem_singleton.1 h]; exact ht)
    rw [hn] at hB; cases hB
  · simp
  · simp

theorem test_sound {e : Env} {m} (hM : SoundFor e m) {s : St} {p : L} {fl} (hT : ∀ l ∈ s.lits, tr m l)
    (hu : ∀ b, s.tested p.var b = false)
    (hi : s.imps = [] ∨ ((∀ v b, s.seen v b = false) ∧ s.dl = 0 ∧ s.imp1 = true)) :
    (∀ l ∈ (test e s p fl).2.lits, tr m l) ∧ ((test e s p fl).1 = .ok → (test e s p fl).2.imps = []) ∧
    (test e s p fl).1 ≠ .conflict ∧ ∀ q, (test e s p fl).1 = .failed q → ¬ tr m q := by
  have key : ∀ r : Res × St, (∀ l ∈ r.2.lits, tr m l) → (r.1 = .ok → r.2.both p.var = true → ∀ l ∈ r.2.imps, tr m l) →
      r.1 ≠ .conflict → (∀ q, r.1 = .failed q → ¬ tr m q) →
      ∀ r' : Res × St, r' = (if r.1 ≠ .ok then r else if r.2.imps.isEmpty then (.ok, r.2) else checkImps e r.2 p) →
      (∀ l ∈ r'.2.lits, tr m l) ∧ (r'.1 = .ok → r'.2.imps = []) ∧
      r'.1 ≠ .conflict ∧ ∀ q, r'.1 = .failed q → ¬ tr m q := by
    intro r h1 h2 h3 h4 r' hr
    rw [hr]
    by_cases hok : r.1 = .ok
    · rw [if_neg (by simpa using hok)]
      by_cases hie : r.2.imps.isEmpty = true
      · rw [if_pos hie]
        exact ⟨h1, fun _ => by simpa using hie, by simp, by simp⟩
      · rw [if_neg hie]
        obtain ⟨a, b, c⟩ := checkImps_true hM (p := p) h1 (h2 hok)
        refine ⟨a, fun _ => b, ?_, ?_⟩
        · rcases c with c | c <;> rw [c] <;> simp
        · intro q; rcases c with c | c <;> rw [c] <;> simp
    · rw [if_pos hok]
      exact ⟨h1, fun h => absurd h hok, h3, h4⟩
  unfold test
  simp only
  by_cases hs : s.seen p.var p.neg = true
  · have hi0 : s.imps = [] := hi.resolve_right fun h => by rw [h.1] at hs; cases hs
    rw [if_pos hs]
    simp only [ne_eq, not_true_eq_false, if_false]
    refine key _ ?_ ?_ ?_ ?_ _ rfl
    · split_ifs
      · exact hT
      · exact (sTest_sound hM hT).1
    · split_ifs
      · intro _ _; simp [hi0]
      · rcases sTest_cases e s p.not false with k | ⟨-, k⟩ | ⟨-, k⟩ | ⟨B, hB, -, k⟩ <;> rw [k] <;> try (intro h; cases h)
        obtain ⟨i, hie, -, -, h3, -⟩ := undoTest_eq e { s with tick := s.tick + 1 } p.not false (B.drop s.trail.length)
        rw [hie, h3 hi0 rfl]
        intro _; simp
    · split_ifs
      · simp
      · exact (sTest_sound hM hT).2.1
    · split_ifs
      · simp
      · exact (sTest_sound hM hT).2.2
  · rw [if_neg hs]
    obtain ⟨q1, q2, q3⟩ := sTest_sound hM (s := s) (p := p) (fl := fl) hT
    rcases sTest_cases e s p fl with k | ⟨-, k⟩ | ⟨-, k⟩ | ⟨B, hB, -, k⟩
    · rw [k] at q1 q2 q3 ⊢; simp only [ne_eq, reduceCtorEq, not_false_eq_true, if_true]
      exact ⟨q1, by simp, trivial, by first | exact q3 | simp⟩
    · rw [k] at q1 q2 q3 ⊢; simp only [ne_eq, reduceCtorEq, not_false_eq_true, if_true]
      exact ⟨q1, by simp, trivial, by first | exact q3 | simp⟩
    · rw [k] at q1 q2 q3 ⊢; simp only [ne_eq, reduceCtorEq, not_false_eq_true, if_true]
      exact ⟨q1, by simp, trivial, by first | exact q3 | simp⟩
    · rw [k] at q1 ⊢
      simp only [ne_eq, not_true_eq_false, if_false]
      simp only at q1
      obtain ⟨i, hie, h1, h2, h3, -, h5⟩ := undoTest_eq e { s with tick := s.tick + 1 } p fl (B.drop s.trail.length)
      obtain ⟨⟨d, kk, t, hh⟩, -, -, htt, -⟩ := scoreLits_spec e { s with tick := s.tick + 1 } p (B.drop s.trail.length)
      obtain ⟨s1, hs1⟩ : ∃ s1, undoTest e { s with tick := s.tick + 1 } p fl (B.drop s.trail.length) = s1 := ⟨_, rfl⟩
      rw [hs1] at hie q1 ⊢
      have t1 : ∀ b, s1.tested p.var b = true ↔ b = p.neg := by
        intro b
        rw [hie]
        have := htt p.var b
        rw [hu b] at this
        obtain ⟨pv, pn⟩ := p
        simpa using this
      have i1 : s1.imps = i := by rw [hie]
      have l1 : s1.lits = s.lits := by rw [hie, hh]; rfl
      have d1 : s1.dl = s.dl := by rw [hie, hh]
      have m1 : s1.imp1 = s.imp1 := by rw [hie, hh]
      have tr1 : s1.trail = s.trail := by rw [hie, hh]
      by_cases hc : (!fl || s1.seen p.var (!p.neg)) = true
      · rw [if_pos hc]
        refine key _ q1 ?_ (by simp) (by simp) _ rfl
        intro _ hb
        exfalso
        simp only [St.both, Bool.and_eq_true] at hb
        have a := (t1 true).1 hb.1
        have b := (t1 false).1 hb.2
        rw [← a] at b; cases b
      · rw [if_neg hc]
        have hfl : fl = true := by
          cases fl
          · simp at hc
          · rfl
        have q1' : ∀ l ∈ s1.lits, tr m l := q1
        obtain ⟨r1, r2, r3⟩ := sTest_sound hM (s := s1) (p := p.not) (fl := false) q1'
        refine key _ r1 ?_ r2 r3 _ rfl
        rcases sTest_cases e s1 p.not false with k' | ⟨-, k'⟩ | ⟨-, k'⟩ | ⟨B2, hB2, -, k'⟩ <;> rw [k'] <;>
          try (intro h; cases h)
        intro _
        obtain ⟨i2, hie2, g1, -, -, g4, g5⟩ := undoTest_eq e { s1 with tick := s1.tick + 1 } p.not false
          (B2.drop s1.trail.length)
        rw [hie2]
        show ∀ l ∈ i2, tr m l
        by_cases hd : s.dl = 0 ∧ s.imp1 = true
        · intro l hl
          have := g4 (by rw [← hd.1]; exact d1) (by rw [← hd.2]; exact m1) rfl
            (by simp only [L.not, Bool.not_not]; exact (t1 p.neg).2 rfl) l hl
          obtain ⟨hl1, hl2⟩ := this
          have hl1 : l ∈ i := by rw [← i1]; exact hl1
          rcases tr_or m p with hp | hp
          · obtain ⟨B', hB', hBt⟩ := hM (s.lits ++ [p]) (fun l hl => by
              rcases List.mem_append.1 hl with h | h
              · exact hT l h
              · rw [List.mem_singleton.1 h]; exact hp)
            rw [hB] at hB'; cases hB'
            exact hBt l (List.mem_of_mem_drop (h2 hd.1 hd.2 hfl l hl1))
          · obtain ⟨B', hB', hBt⟩ := hM (s1.lits ++ [p.not]) (fun l hl => by
              rcases List.mem_append.1 hl with h | h
              · exact q1 l h
              · rw [List.mem_singleton.1 h]; exact hp)
            rw [hB2] at hB'; cases hB'
            rcases List.mem_append.1 hl2 with h | h
            · exact q1 l h
            · exact hBt l (List.mem_of_mem_drop h)
        · intro l hl
          have e1 := h1 hd
          have : s.imps = [] := hi.resolve_right fun h => hd h.2
          have := g5 rfl l hl
          have hl1 : l ∈ i := by rw [← i1]; exact this
          rw [e1] at hl1
          simp_all

/-! ## Above level 0 -/

theorem test_high {e : Env} {s : St} {p : L} {fl} (hd : s.dl ≠ 0) (hi : s.imps = []) :
    (test e s p fl).2.trail = s.trail ∧ (test e s p fl).2.imps = [] := by
  have hst : ∀ s' q fl, s'.dl ≠ 0 → s'.imps = [] → (sTest e s' q fl).2.imps = [] := by
    intro s q fl hd hi
    rcases sTest_cases e s q fl with h | ⟨-, h⟩ | ⟨-, h⟩ | ⟨B, hB, -, h⟩ <;> rw [h]
    · exact hi
    · exact hi
    · exact hi
    · obtain ⟨i, hie, h1, -⟩ := undoTest_eq e { s with tick := s.tick + 1 } q fl (B.drop s.trail.length)
      rw [hie, h1 (fun h => hd h.1)]
      exact hi
  unfold test
  simp only
  obtain ⟨r1, h1⟩ : ∃ r1, (if s.seen p.var p.neg then (Res.ok, s) else sTest e s p fl) = r1 := ⟨_, rfl⟩
  have f1 : r1.2.trail = s.trail ∧ r1.2.imps = [] ∧ r1.2.dl ≠ 0 := by
    rw [← h1]; split_ifs
    · exact ⟨rfl, hi, hd⟩
    · exact ⟨(sTest_frame e s p fl).2, hst s p fl hd hi, by rw [(sTest_frame e s p fl).1.dl]; exact hd⟩
  rw [h1]
  obtain ⟨r2, h2⟩ : ∃ r2, (if !fl || r1.2.seen p.var (!p.neg) then (Res.ok, r1.2) else sTest e r1.2 p.not false) = r2 :=
    ⟨_, rfl⟩
  have f2 : r2.2.trail = s.trail ∧ r2.2.imps = [] := by
    rw [← h2]; split_ifs
    · exact ⟨f1.1, f1.2.1⟩
    · exact ⟨(sTest_frame e _ _ _).2.trans f1.1, hst _ _ _ f1.2.2 f1.2.1⟩
  rw [h2]
  split_ifs with a b c
  · exact ⟨f1.1, f1.2.1⟩
  · exact f2
  · exact f2
  · exact absurd (by simp [f2.2]) c

/-! ## Completeness -/

/-- Proof device: every marked literal follows from a tested one. -/
def MarkOk (e : Env) (s : St) : Prop :=
  ∀ v b, s.seen v b = true → ∃ q B, e.cl (s.lits ++ [q]) = some B ∧ (⟨v, b⟩ : L) ∈ B

/-- Specification: propagation only adds literals, and a part of what follows from it does not lead to a
conflict. -/
structure Mono (e : Env) : Prop where
  ext : Ext e
  sub : ∀ A B A', e.cl A = some B → A' ⊆ B → (e.cl A').isSome = true

theorem MarkOk.some {e : Env} (he : Mono e) {s : St} (h : MarkOk e s) {p : L} (hp : s.seen p.var p.neg = true) :
    (e.cl (s.lits ++ [p])).isSome = true := by
  obtain ⟨q, B, hB, hm⟩ := h _ _ hp
  refine he.sub _ _ _ hB ?_
  intro l hl
  rcases List.mem_append.1 hl with h | h
  · exact (he.ext _ _ hB).subset (List.mem_append_left _ h)
  · rw [List.mem_singleton.1 h]; exact hm

theorem sTest_mark {e : Env} {s : St} {p : L} {fl} (h : MarkOk e s) (hok : (sTest e s p fl).1 = .ok) :
    MarkOk e (sTest e s p fl).2 ∧ (e.cl (s.lits ++ [p])).isSome = true := by
  have hl : (sTest e s p fl).2.lits = s.lits := by rw [St.lits, (sTest_frame e s p fl).2]; rfl
  rcases sTest_cases e s p fl with k | ⟨-, k⟩ | ⟨-, k⟩ | ⟨B, hB, -, k⟩
  · rw [k] at hok; cases hok
  · rw [k] at hok; cases hok
  · rw [k] at hok; cases hok
  · refine ⟨?_, by rw [hB]; rfl⟩
    intro v b hv
    rw [hl]
    rw [k] at hv
    obtain ⟨i, hie, -⟩ := undoTest_eq e { s with tick := s.tick + 1 } p fl (B.drop s.trail.length)
    obtain ⟨-, -, hh, -⟩ := scoreLits_spec e { s with tick := s.tick + 1 } p (B.drop s.trail.length)
    rw [hie] at hv
    rcases hh v b hv with g | g
    · exact h v b g
    · exact ⟨p, B, hB, List.mem_of_mem_drop g⟩

theorem test_mark {e : Env} (he : Mono e) {s : St} {p : L} {fl} (h : MarkOk e s) (hok : (test e s p fl).1 = .ok)
    (htr : (test e s p fl).2.trail = s.trail) :
    MarkOk e (test e s p fl).2 ∧ (e.cl (s.lits ++ [p])).isSome = true ∧
      (fl = true → (e.cl (s.lits ++ [p.not])).isSome = true) := by
  unfold test at hok htr ⊢
  simp only at hok htr ⊢
  obtain ⟨r1, h1⟩ : ∃ r1, (if s.seen p.var p.neg then (Res.ok, s) else sTest e s p fl) = r1 := ⟨_, rfl⟩
  rw [h1] at hok htr ⊢
  by_cases hr1 : r1.1 = .ok
  swap
  · rw [if_pos hr1] at hok; exact absurd hok hr1
  rw [if_neg (by simpa using hr1)] at hok htr ⊢
  have f1 : MarkOk e r1.2 ∧ (e.cl (s.lits ++ [p])).isSome = true ∧ r1.2.trail = s.trail := by
    rw [← h1] at hr1 ⊢
    split_ifs at hr1 ⊢ with hs
    · exact ⟨h, h.some he hs, rfl⟩
    · exact ⟨(sTest_mark h hr1).1, (sTest_mark h hr1).2, (sTest_frame e s p fl).2⟩
  have l1 : r1.2.lits = s.lits := by rw [St.lits, f1.2.2]; rfl
  obtain ⟨r2, h2⟩ : ∃ r2, (if !fl || r1.2.seen p.var (!p.neg) then (Res.ok, r1.2) else sTest e r1.2 p.not false) = r2 :=
    ⟨_, rfl⟩
  rw [h2] at hok htr ⊢
  by_cases hr2 : r2.1 = .ok
  swap
  · rw [if_pos hr2] at hok; exact absurd hok hr2
  rw [if_neg (by simpa using hr2)] at hok htr ⊢
  have f2 : MarkOk e r2.2 ∧ (fl = true → (e.cl (s.lits ++ [p.not])).isSome = true) ∧ r2.2.trail = s.trail := by
    rw [← h2] at hr2 ⊢
    split_ifs at hr2 ⊢ with hs
    · refine ⟨f1.1, ?_, f1.2.2⟩
      intro hfl
      rw [hfl] at hs
      have := f1.1.some he (p := p.not) (by simpa [L.not] using hs)
      rw [l1] at this; exact this
    · have := sTest_mark f1.1 hr2
      rw [l1] at this
      exact ⟨this.1, fun _ => this.2, (sTest_frame e _ _ _).2.trans f1.2.2⟩
  refine ⟨?_, f1.2.1, f2.2.1⟩
  split_ifs at hok htr ⊢ with hie
  · exact f2.1
  · obtain ⟨T, k, hc, -⟩ := checkImps_cases e r2.2 p
    intro v b hv
    have hl : (checkImps e r2.2 p).2.lits = r2.2.lits := by rw [St.lits, htr, St.lits, f2.2.2]
    rw [hl]
    rw [hc] at hv
    exact f2.1 v b hv

end Clasp.Look
