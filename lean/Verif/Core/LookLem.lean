import Verif.Core.Look
import Mathlib.Data.List.Nodup
import Mathlib.Tactic.Tauto
import Mathlib.Tactic.SplitIfs

/-! # Lookahead: the lists, and what a test changes -/

namespace Clasp.Look

/-- Proof device: the first element of `l`, or `e` if `l` is empty. -/
def hd (l : List Nat) (e : Option Nat) : Option Nat := l.head?.or e

/-- Proof device: following `nx` from the first element of the list runs through the list and ends
in `e`. -/
def Ch (nx : Nat → Option Nat) : List Nat → Option Nat → Prop
  | [], _ => True
  | a :: l, e => nx a = hd l e ∧ Ch nx l e

@[simp] theorem hd_nil (e) : hd [] e = e := rfl
@[simp] theorem hd_cons (a l e) : hd (a :: l) e = some a := rfl
@[simp] theorem Ch_nil (nx e) : Ch nx [] e ↔ True := Iff.rfl
@[simp] theorem Ch_cons (nx a l e) : Ch nx (a :: l) e ↔ nx a = hd l e ∧ Ch nx l e := Iff.rfl

theorem hd_append (l m : List Nat) (e) : hd (l ++ m) e = hd l (hd m e) := by
  cases l <;> simp [hd]

theorem Ch_append (nx) (l m : List Nat) (e) : Ch nx (l ++ m) e ↔ Ch nx l (hd m e) ∧ Ch nx m e := by
  induction l with
  | nil => simp
  | cons a l ih => simp [ih, hd_append, and_assoc]

theorem Ch_congr {nx nx' : Nat → Option Nat} {l e} (h : Ch nx l e) (hx : ∀ x ∈ l, nx' x = nx x) :
    Ch nx' l e := by
  induction l with
  | nil => trivial
  | cons a l ih =>
    exact ⟨(hx a (by simp)).trans h.1, ih h.2 fun x m => hx x (by simp [m])⟩

/-- Proof device: the list `C` is the candidate list from `pos_` on, `U` is the undo list. -/
structure Core (s : St) (C U : List Nat) : Prop where
  hd : C.head? = some s.pos
  cyc : Ch s.next C (some s.pos)
  und : Ch s.next (1 :: U) none
  nd : (C ++ 1 :: U).Nodup
  mem : ∀ i, i ∈ C ++ 1 :: U ↔ i < s.n
  zero : 0 ∈ C
  lst : s.last ∈ C
  nl : s.next s.last = some 0
  l0 : s.last = 0 → s.n = 2
  lev : ∀ e ∈ s.trail, e.2 ≤ s.dl
  v0 : (s.lit 0).var = 0
  vn : ∀ i, 2 ≤ i → i < s.n → (s.lit i).var ≠ 0

/-- Proof device: `s'` has the lists of `s`, and its trail is that of `s` plus literals of the current
level. -/
structure Frame (s s' : St) : Prop where
  n : s'.n = s.n
  lit : s'.lit = s.lit
  flg : s'.flg = s.flg
  next : s'.next = s.next
  last : s'.last = s.last
  pos : s'.pos = s.pos
  saved : s'.saved = s.saved
  imp1 : s'.imp1 = s.imp1
  dl : s'.dl = s.dl
  watch : s'.watch = s.watch
  trail : ∃ new : List (L × Nat), s'.trail = s.trail ++ new ∧ ∀ e ∈ new, e.2 = s.dl

theorem Frame.rfl' (s : St) : Frame s s := by
  constructor <;> first | rfl | exact ⟨[], by simp, by simp⟩

theorem Frame.trans {a b c : St} (h : Frame a b) (k : Frame b c) : Frame a c := by
  obtain ⟨x, hx, hx'⟩ := h.trail
  obtain ⟨y, hy, hy'⟩ := k.trail
  refine ⟨k.n.trans h.n, k.lit.trans h.lit, k.flg.trans h.flg, k.next.trans h.next, k.last.trans h.last,
    k.pos.trans h.pos, k.saved.trans h.saved, k.imp1.trans h.imp1, k.dl.trans h.dl,
    k.watch.trans h.watch, x ++ y, by rw [hy, hx, List.append_assoc], ?_⟩
  intro e he
  rcases List.mem_append.1 he with m | m
  · exact hx' e m
  · rw [hy' e m, h.dl]

theorem Frame.core {s s' : St} {C U} (h : Frame s s') (k : Core s C U) : Core s' C U := by
  obtain ⟨x, hx, hx'⟩ := h.trail
  refine ⟨by rw [h.pos]; exact k.hd, by rw [h.pos, h.next]; exact k.cyc, by rw [h.next]; exact k.und,
    k.nd, by rw [h.n]; exact k.mem, k.zero, by rw [h.last]; exact k.lst,
    by rw [h.last, h.next]; exact k.nl, by rw [h.last, h.n]; exact k.l0, ?_, by rw [h.lit]; exact k.v0,
    by rw [h.lit, h.n]; exact k.vn⟩
  intro e he
  rw [hx] at he
  rw [h.dl]
  rcases List.mem_append.1 he with m | m
  · exact k.lev e m
  · exact Nat.le_of_eq (hx' e m)

/-! ## Marks -/

theorem fold_mark (e : Env) (seg : List L) (s : St) :
    (∃ d k, seg.foldl (mark e) s = { s with deps := d, seen := k }) ∧
    (∀ v b, s.seen v b = true → (seg.foldl (mark e) s).seen v b = true) ∧
    (∀ v b, (seg.foldl (mark e) s).seen v b = true → s.seen v b = true ∨ (⟨v, b⟩ : L) ∈ seg) ∧
    (∀ v, v ∈ s.deps → v ∈ (seg.foldl (mark e) s).deps) ∧
    ((∀ v b, s.seen v b = true → v ∈ s.deps) →
      (∀ v b, (seg.foldl (mark e) s).seen v b = true → v ∈ (seg.foldl (mark e) s).deps) ∧
      ∀ l ∈ seg, e.typ l.var = true → l.var ∈ (seg.foldl (mark e) s).deps) := by
  induction seg generalizing s with
  | nil => exact ⟨⟨s.deps, s.seen, rfl⟩, fun v b h => h, fun v b h => Or.inl h, fun v h => h,
      fun h => ⟨h, by simp⟩⟩
  | cons l seg ih =>
    simp only [List.foldl_cons]
    obtain ⟨s1, hs1⟩ : ∃ s1, mark e s l = s1 := ⟨_, rfl⟩
    have a1 : ∃ d k, s1 = { s with deps := d, seen := k } := by
      rw [← hs1, mark]
      by_cases ht : e.typ l.var = true
      · rw [if_pos ht]; exact ⟨_, _, rfl⟩
      · rw [if_neg ht]; exact ⟨_, _, rfl⟩
    have a2 : ∀ v b, s.seen v b = true → s1.seen v b = true := by
      intro v b h
      rw [← hs1, mark]
      by_cases ht : e.typ l.var = true
      · rw [if_pos ht]
        simp only [Function.update_apply]
        split_ifs with h1
        · subst h1; simp only [Function.update_apply]; split_ifs <;> simp [h]
        · exact h
      · rw [if_neg ht]; exact h
    have a3 : ∀ v b, s1.seen v b = true → s.seen v b = true ∨ (⟨v, b⟩ : L) = l := by
      intro v b h
      rw [← hs1, mark] at h
      by_cases ht : e.typ l.var = true
      · rw [if_pos ht] at h
        simp only [Function.update_apply] at h
        split_ifs at h with h1
        · subst h1; simp only [Function.update_apply] at h
          split_ifs at h with h2
          · subst h2; exact Or.inr rfl
          · exact Or.inl h
        · exact Or.inl h
      · rw [if_neg ht] at h; exact Or.inl h
    have a4 : ∀ v, v ∈ s.deps → v ∈ s1.deps := by
      intro v h
      rw [← hs1, mark]
      by_cases ht : e.typ l.var = true
      · rw [if_pos ht]; simp only; split_ifs <;> simp [h]
      · rw [if_neg ht]; exact h
    have a5 : (∀ v b, s.seen v b = true → v ∈ s.deps) → (e.typ l.var = true → l.var ∈ s1.deps) := by
      intro hd ht
      rw [← hs1, mark, if_pos ht]
      simp only
      split_ifs with h
      · simp only [Bool.or_eq_true] at h
        rcases h with h | h
        · exact hd _ _ h
        · exact hd _ _ h
      · simp
    have a6 : (∀ v b, s.seen v b = true → v ∈ s.deps) → ∀ v b, s1.seen v b = true → v ∈ s1.deps := by
      intro hd v b h
      rcases a3 v b h with k | k
      · exact a4 v (hd v b k)
      · by_cases ht : e.typ l.var = true
        · have := a5 hd ht
          rw [← k] at this; exact this
        · rw [← hs1, mark, if_neg ht] at h ⊢
          exact hd v b h
    rw [hs1]
    obtain ⟨b1, b2, b3, b4, b5⟩ := ih s1
    refine ⟨?_, fun v b h => b2 v b (a2 v b h), ?_, fun v h => b4 v (a4 v h), ?_⟩
    · obtain ⟨d, k, h⟩ := b1
      obtain ⟨d', k', h'⟩ := a1
      exact ⟨d, k, by rw [h, h']⟩
    · intro v b h
      rcases b3 v b h with k | k
      · rcases a3 v b k with k | k
        · exact Or.inl k
        · exact Or.inr (by simp [k])
      · exact Or.inr (by simp [k])
    · intro hd
      obtain ⟨c1, c2⟩ := b5 (a6 hd)
      refine ⟨c1, ?_⟩
      intro l' hl ht
      rcases List.mem_cons.1 hl with rfl | hl
      · exact b4 _ (a5 hd ht)
      · exact c2 l' hl ht

/-- Proof device: all marked variables are among the dependent ones. -/
def DepOk (s : St) : Prop := ∀ v b, s.seen v b = true ∨ s.tested v b = true → v ∈ s.deps

theorem scoreLits_spec (e : Env) (s : St) (p : L) (seg : List L) :
    (∃ d k t, scoreLits e s p seg = { s with deps := d, seen := k, tested := t }) ∧
    (∀ v b, s.seen v b = true → (scoreLits e s p seg).seen v b = true) ∧
    (∀ v b, (scoreLits e s p seg).seen v b = true → s.seen v b = true ∨ (⟨v, b⟩ : L) ∈ seg) ∧
    (∀ v b, (scoreLits e s p seg).tested v b = true ↔ s.tested v b = true ∨ (⟨v, b⟩ : L) = p) ∧
    (DepOk s → e.typ p.var = true → p ∈ seg → DepOk (scoreLits e s p seg)) := by
  unfold scoreLits
  obtain ⟨t0, ht0⟩ : ∃ t0, Function.update s.tested p.var (Function.update (s.tested p.var) p.neg true) = t0 :=
    ⟨_, rfl⟩
  have htt : ∀ v b, t0 v b = true ↔ s.tested v b = true ∨ (⟨v, b⟩ : L) = p := by
    intro v b
    rw [← ht0]
    obtain ⟨pv, pn⟩ := p
    simp only [Function.update_apply, L.mk.injEq]
    split_ifs with h1
    · subst h1
      simp only [Function.update_apply]
      split_ifs with h2 <;> simp [h2]
    · simp [h1]
  rw [ht0]
  obtain ⟨⟨d, k, h⟩, b2, b3, b4, b5⟩ := fold_mark e seg { s with tested := t0 }
  refine ⟨⟨d, k, t0, h⟩, b2, b3, ?_, ?_⟩
  · intro v b; rw [h]; exact htt v b
  · intro hd ht hp v b hv
    obtain ⟨c1, c2⟩ := b5 (fun v b h => hd v b (Or.inl h))
    rcases hv with hv | hv
    · exact c1 v b hv
    · have : t0 v b = true := by rw [h] at hv; exact hv
      rcases (htt v b).1 this with k | k
      · exact b4 v (hd v b (Or.inr k))
      · have := c2 p hp ht
        rw [← k] at this; exact this

theorem undoTest_eq (e : Env) (s : St) (p : L) (fl : Bool) (seg : List L) :
    ∃ i, undoTest e s p fl seg = { scoreLits e s p seg with imps := i } ∧
      (¬ (s.dl = 0 ∧ s.imp1 = true) → i = s.imps) ∧
      (s.dl = 0 → s.imp1 = true → fl = true → ∀ l ∈ i, l ∈ seg) ∧
      (s.imps = [] → fl = false → i = []) ∧
      (s.dl = 0 → s.imp1 = true → fl = false → s.tested p.var (!p.neg) = true →
        ∀ l ∈ i, l ∈ s.imps ∧ l ∈ s.lits ++ seg) ∧
      (fl = false → ∀ l ∈ i, l ∈ s.imps) := by
  obtain ⟨⟨d, k, t, h⟩, -, -, ht, -⟩ := scoreLits_spec e s p seg
  have hb : (scoreLits e s p seg).both p.var = true ↔ s.tested p.var (!p.neg) = true := by
    obtain ⟨pv, pn⟩ := p
    simp only [St.both, Bool.and_eq_true, ht, L.mk.injEq, true_and]
    cases pn <;> simp
  unfold undoTest
  simp only
  obtain ⟨s1, hs1⟩ : ∃ s1, scoreLits e s p seg = s1 := ⟨_, rfl⟩
  rw [hs1] at h hb ⊢
  have e1 : s1.dl = s.dl := by rw [h]
  have e2 : s1.imp1 = s.imp1 := by rw [h]
  have e3 : s1.imps = s.imps := by rw [h]
  have e4 : s1.lits = s.lits := by rw [h]; rfl
  rw [e1, e2, e3, e4]
  have hc : s.dl + 1 = (if s.imp1 then 1 else 0) ↔ s.dl = 0 ∧ s.imp1 = true := by
    split_ifs with h <;> simp [h]
  by_cases h1 : s.dl = 0 ∧ s.imp1 = true
  · rw [if_pos (hc.2 h1)]
    by_cases h2 : fl = true
    · rw [if_pos h2]
      refine ⟨_, rfl, fun hh => absurd h1 hh, ?_, by simp [h2], by simp [h2], by simp [h2]⟩
      intro _ _ _ l hl
      exact List.mem_of_mem_take (List.mem_of_mem_tail hl)
    · rw [if_neg h2]
      by_cases h3 : s1.both p.var = true
      · rw [if_pos h3]
        refine ⟨_, rfl, fun hh => absurd h1 hh, fun _ _ h => absurd h h2, ?_, ?_, ?_⟩
        · intro h _; simp [h]
        · intro _ _ _ _ l hl
          simpa using hl
        · intro _ l hl; exact (List.mem_filter.1 hl).1
      · rw [if_neg h3]
        refine ⟨s.imps, by rw [h], fun hh => absurd h1 hh, fun _ _ h => absurd h h2, fun h _ => h, ?_,
          fun _ l hl => hl⟩
        intro _ _ _ h; exact absurd (hb.2 h) h3
  · rw [if_neg (fun h => h1 (hc.1 h))]
    exact ⟨s.imps, by rw [h], fun _ => rfl, fun a b => absurd ⟨a, b⟩ h1, fun h _ => h,
      fun a b => absurd ⟨a, b⟩ h1, fun _ l hl => hl⟩

/-! ## Tests -/

theorem sTest_cases (e : Env) (s : St) (p : L) (fl : Bool) :
    (sTest e s p fl = (.stopped, { s with tick := s.tick + 1 })) ∨
    (e.cl (s.lits ++ [p]) = none ∧ sTest e s p fl = (.failed p, { s with tick := s.tick + 1 })) ∨
    (s.dl + 1 ≠ s.saved.length ∧ sTest e s p fl = (.bad, { s with tick := s.tick + 1 })) ∨
    (∃ B, e.cl (s.lits ++ [p]) = some B ∧ s.dl + 1 = s.saved.length ∧
      sTest e s p fl = (.ok, undoTest e { s with tick := s.tick + 1 } p fl (B.drop s.trail.length))) := by
  unfold sTest
  simp only
  by_cases h1 : e.stop s.tick = true
  · rw [if_pos h1]; exact Or.inl rfl
  · rw [if_neg h1]
    cases h : e.cl (s.lits ++ [p]) with
    | none => exact Or.inr (Or.inl ⟨rfl, rfl⟩)
    | some B =>
      simp only
      split_ifs with h2
      · exact Or.inr (Or.inr (Or.inr ⟨B, rfl, h2, rfl⟩))
      · exact Or.inr (Or.inr (Or.inl ⟨h2, rfl⟩))

theorem undoTest_frame (e : Env) (s : St) (p : L) (fl seg) :
    Frame s (undoTest e s p fl seg) ∧ (undoTest e s p fl seg).trail = s.trail := by
  obtain ⟨i, h, -⟩ := undoTest_eq e s p fl seg
  obtain ⟨⟨d, k, t, h'⟩, -⟩ := scoreLits_spec e s p seg
  rw [h, h']
  exact ⟨by constructor <;> first | rfl | exact ⟨[], by simp, by simp⟩, rfl⟩

theorem tick_frame (s : St) (k : Nat) : Frame s { s with tick := k } := by
  constructor <;> first | rfl | exact ⟨[], by simp, by simp⟩

theorem sTest_frame (e : Env) (s : St) (p : L) (fl) :
    Frame s (sTest e s p fl).2 ∧ (sTest e s p fl).2.trail = s.trail := by
  rcases sTest_cases e s p fl with h | ⟨-, h⟩ | ⟨-, h⟩ | ⟨B, -, -, h⟩ <;> rw [h]
  · exact ⟨tick_frame s _, rfl⟩
  · exact ⟨tick_frame s _, rfl⟩
  · exact ⟨tick_frame s _, rfl⟩
  · obtain ⟨a, b⟩ := undoTest_frame e { s with tick := s.tick + 1 } p fl (B.drop s.trail.length)
    exact ⟨(tick_frame s _).trans a, b⟩

theorem checkImps_cases (e : Env) (s : St) (p : L) :
    ∃ T k, (checkImps e s p).2 = { s with imps := [], tick := k, trail := s.trail ++ T } ∧
      (∀ x ∈ T, x.2 = s.dl) ∧
      ((forceAll s.lits [] (if s.both p.var then s.imps else []) = none ∧ T = [] ∧ (checkImps e s p).1 = .conflict) ∨
       (∃ new, forceAll s.lits [] (if s.both p.var then s.imps else []) = some new ∧
         ((new = [] ∧ T = [] ∧ (checkImps e s p).1 = .ok) ∨
          (T = new.map (fun l => (l, s.dl)) ∧ (checkImps e s p).1 = .stopped) ∨
          (T = new.map (fun l => (l, s.dl)) ∧ e.cl (s.lits ++ new) = none ∧ (checkImps e s p).1 = .conflict) ∨
          (∃ B, e.cl (s.lits ++ new) = some B ∧ T = (B.drop s.trail.length).map (fun l => (l, s.dl)) ∧
            (checkImps e s p).1 = .ok)))) := by
  unfold checkImps
  simp only
  cases h : forceAll s.lits [] (if s.both p.var then s.imps else []) with
  | none => exact ⟨[], s.tick, by simp, by simp, Or.inl ⟨rfl, rfl, rfl⟩⟩
  | some new =>
    cases new with
    | nil => exact ⟨[], s.tick, by simp, by simp, Or.inr ⟨[], rfl, Or.inl ⟨rfl, rfl, rfl⟩⟩⟩
    | cons a new =>
      simp only
      by_cases h1 : e.stop s.tick = true
      · simp only [if_pos h1]
        exact ⟨(a :: new).map fun l => (l, s.dl), s.tick + 1, rfl, by simp,
          Or.inr ⟨_, rfl, Or.inr (Or.inl ⟨rfl, by simp⟩)⟩⟩
      · simp only [if_neg h1]
        cases h2 : e.cl (s.lits ++ a :: new) with
        | none => exact ⟨(a :: new).map fun l => (l, s.dl), s.tick + 1, rfl, by simp,
            Or.inr ⟨_, rfl, Or.inr (Or.inr (Or.inl ⟨rfl, h2, rfl⟩))⟩⟩
        | some B => exact ⟨(B.drop s.trail.length).map fun l => (l, s.dl), s.tick + 1, rfl, fun x hx => by
            obtain ⟨l, -, rfl⟩ := List.mem_map.1 hx; rfl,
            Or.inr ⟨_, rfl, Or.inr (Or.inr (Or.inr ⟨B, h2, rfl, rfl⟩))⟩⟩

theorem checkImps_frame (e : Env) (s : St) (p : L) : Frame s (checkImps e s p).2 := by
  obtain ⟨T, k, h, hT, -⟩ := checkImps_cases e s p
  rw [h]
  constructor <;> first | rfl | exact ⟨T, rfl, hT⟩

theorem test_frame (e : Env) (s : St) (p : L) (fl) : Frame s (test e s p fl).2 := by
  unfold test
  simp only
  obtain ⟨r1, h1⟩ : ∃ r1, (if s.seen p.var p.neg then (Res.ok, s) else sTest e s p fl) = r1 := ⟨_, rfl⟩
  have f1 : Frame s r1.2 := by
    rw [← h1]; split_ifs
    · exact Frame.rfl' s
    · exact (sTest_frame e s p fl).1
  rw [h1]
  obtain ⟨r2, h2⟩ : ∃ r2, (if !fl || r1.2.seen p.var (!p.neg) then (Res.ok, r1.2) else sTest e r1.2 p.not false) = r2 :=
    ⟨_, rfl⟩
  have f2 : Frame r1.2 r2.2 := by
    rw [← h2]; split_ifs
    · exact Frame.rfl' _
    · exact (sTest_frame e _ _ _).1
  rw [h2]
  split_ifs
  · exact f1
  · exact f1.trans f2
  · exact f1.trans f2
  · exact (f1.trans f2).trans (checkImps_frame e _ p)

theorem split_frame (e : Env) (s : St) :
    Frame s (splitStep e s).2 ∧ (splitStep e s).2.trail = s.trail ∧ (splitStep e s).2.imps = s.imps ∧
    (splitStep e s).2.seen = s.seen ∧ (splitStep e s).2.tested = s.tested ∧ (splitStep e s).2.deps = s.deps ∧
    ((splitStep e s).1 = true → (splitStep e s).2.limit = some 0) := by
  unfold splitStep
  simp only
  split_ifs with h1
  · exact ⟨by constructor <;> first | rfl | exact ⟨[], by simp, by simp⟩, rfl, rfl, rfl, rfl, rfl, by simp⟩
  · cases h : s.limit with
    | none => exact ⟨by constructor <;> first | rfl | exact ⟨[], by simp, by simp⟩, rfl, rfl, rfl, rfl, rfl, by simp⟩
    | some k =>
      exact ⟨by constructor <;> first | rfl | exact ⟨[], by simp, by simp⟩, rfl, rfl, rfl, rfl, rfl, by simp⟩

end Clasp.Look
