import Verif.Conc.Par

/-!
# Parallel solving: the invariant

Proof devices for `Verif/Conc/ParProps.lean`: nothing that is still to be searched gets lost.
-/

namespace Clasp.Par

/-- Proof device: a path was lost, or everything was searched. -/
def Z (s : St) : Prop := s.lost = true ∨ ∀ x ∈ s.X, x ∈ s.done

/-- Proof device: about to report that everything was searched. -/
def Pc.t23 : Pc → Bool
  | .term2 true => true
  | .term3 => true
  | _ => false

/-- Proof device: about to terminate because there is nothing left. -/
def Pc.bad : Pc → Bool
  | .term1 true => true
  | .term2 true => true
  | .term3 => true
  | .none false => true
  | _ => false

/-- Proof device: about to stop the others without having searched everything. -/
def Pc.doom : Pc → Bool
  | .term1 false => true
  | .term2 false => true
  | _ => false

/-- Proof device: will look at `initVec` again. -/
def Pc.pre : Pc → Bool
  | .req _ => true
  | .init => true
  | .got _ => true
  | .run => true
  | .sync _ false => true
  | _ => false

/-- Proof device: what the other threads do while the last one completes a synchronization. -/
def Pc.quiet : Pc → Bool
  | .req _ => true
  | .lock => true
  | .wait => true
  | .none _ => true
  | .sync _ _ => true
  | .left => true
  | _ => false

/-- Proof device: before the first path is handed out. -/
def Pc.early : Pc → Bool
  | .req Option.none => true
  | .sync Option.none _ => true
  | .fin Option.none => true
  | .left => true
  | _ => false

/-- Proof device: completes a synchronization. -/
def Pc.isFin : Pc → Bool
  | .fin _ => true
  | _ => false

/-- Proof device: has been let into the part of `SharedData::requestWork` for splitting. -/
def Pc.locked : Pc → Bool
  | .lock0 => true
  | .lock => true
  | .wait => true
  | _ => false

/-- Proof device: has no path and will ask for one. -/
def Pc.more : Pc → Bool
  | .req Option.none => true
  | .init => true
  | .sub => true
  | .sync Option.none _ => true
  | .fin Option.none => true
  | _ => false

/-- Proof device: holds a path (not in a synchronization). -/
def Pc.hold' : Pc → Option Path
  | .req a => a
  | .got a => some a
  | _ => Option.none

/-- Proof device: the point `x` is still to be searched by this thread. -/
def covT (mode : Bool) (t : Th) (x : Nat) : Prop :=
  (∃ a, t.pc.hold' = some a ∧ (mode = true ∨ a.1 = false) ∧ x ∈ a.2) ∨
  (t.pc = .run ∧ t.fixed = false ∧ x ∈ t.sp)

/-- Proof device: the point `x` was searched or somebody will do it. -/
def Cov (s : St) (x : Nat) : Prop :=
  x ∈ s.done ∨ (∃ q ∈ s.queue, (s.mode = true ∨ q.1 = false) ∧ x ∈ q.2) ∨ (∃ i, covT s.mode (s.th i) x) ∨
  (s.mode = true ∧ s.iv ≠ 0 ∧ (s.queue ≠ [] ∨ ∃ c, (s.th c).pc.pre = true))

/-- Proof device: has a path. -/
def act (t : Th) : Prop := t.pc.hold.isSome = true ∨ t.pc = .run

/-- Proof device: has a path that may overlap with others. -/
def tok (t : Th) : Prop := (∃ l, t.pc.hold = some (true, l)) ∨ (t.pc = .run ∧ t.disj = false)

/-- Proof device: invariant of a thread. -/
structure TI (s : St) (i : Nat) (t : Th) : Prop where
  lt : t.pc ≠ .left → i < s.n
  bad : t.pc.bad = false
  ptr : ∀ l, t.ptr = some (true, l) → l = s.X
  hold : ∀ a, t.pc.hold = some a → t.ptr = some a
  sp : t.pc = .run → ∃ a, t.ptr = some a ∧ ∀ x ∈ t.sp, x ∈ a.2
  fixed : t.pc = .run → t.fixed = true → ∀ x ∈ s.X, x ∈ s.done ∨ x ∈ t.sp
  split : t.pc = .run → t.fixed = false → s.allow = true ∧ (s.mode = true ∨ t.disj = true)
  nfix : t.pc = .run → s.mode = true → t.fixed = false
  own : ∀ l, t.pc.hold = some (false, l) → s.allow = true
  locked : t.pc.locked = true → s.allow = true
  more : t.pc.more = true → s.allow = true ∨ s.iv.testBit i = true ∨ s.sync = true
  sub : t.pc = .sub → s.mode = false
  rq : t.rq = true → s.mode = true

/-- Proof device: paths are disjoint when models are enumerated by backtracking. -/
structure KK (s : St) : Prop where
  q : ∀ q ∈ s.queue, q.1 = false
  tok : ∀ i, tok (s.th i) → s.queue = [] ∧ s.iv = 0 ∧ ∀ j, j ≠ i → ¬ act (s.th j)
  iv : s.iv ≠ 0 → s.queue = [] ∧ ∀ j, ¬ act (s.th j)
  num : s.num ≠ 0 → s.iv = 0 ∧ ∀ i, ¬ Par.tok (s.th i)

/-- Proof device: invariant while nobody has terminated the search. -/
structure GI (s : St) : Prop where
  n64 : s.n ≤ 64
  th : ∀ i, TI s i (s.th i)
  g1 : s.mode = true → s.allow = true
  g2 : s.mode = false → s.forbid = true
  g3 : s.restart = true → s.mode = true
  g4 : s.num ≠ 0 → s.forbid = true ∧ s.allow = true ∧ s.bt = true
  g5 : s.allow = true → s.mode = true ∨ s.num ≠ 0
  q1 : ∀ q ∈ s.queue, q.1 = true → q.2 = s.X
  q2 : s.queue ≠ [] → s.allow = true
  iv : s.mode = true → s.iv = 0 ∨ s.iv = 2 ^ 64 - 1
  e : s.sync = true → s.restart = false → s.num = 0 ∧ ∀ i, (s.th i).pc.early = true
  f : ∀ i, (s.th i).pc.isFin = true → s.sync = true ∧ ∀ j, j ≠ i → (s.th j).pc.quiet = true
  m : s.allow = true → s.sync = false → (∃ i, (s.th i).pc.doom = true) ∨ ∀ x ∈ s.X, Cov s x
  k : s.bt = true → s.mode = true → s.sync = false → KK s

/-- Proof device: the invariant. -/
def Inv (s : St) : Prop :=
  Z s ∨ (s.compl = false ∧ (∀ i, (s.th i).pc.t23 = false) ∧ (s.term = true ∨ GI s))

theorem put_th (s : St) (i : Nat) (t : Th) (j : Nat) : (s.put i t).th j = if j = i then t else s.th j := by
  simp [St.put, Function.update_apply]

/-- the globals that threads refer to only grow -/
theorem TI.mono {s s' : St} {i : Nat} {t : Th} (h : TI s i t) (hn : s'.n = s.n) (hX : s'.X = s.X)
    (hm : s'.mode = s.mode) (ha : s.allow = true → s'.allow = true) (hd : ∀ x ∈ s.done, x ∈ s'.done)
    (hb : t.pc.more = true → (s.allow = true ∨ s.iv.testBit i = true ∨ s.sync = true) →
      s'.allow = true ∨ s'.iv.testBit i = true ∨ s'.sync = true) : TI s' i t := by
  refine ⟨?_, h.bad, ?_, h.hold, h.sp, ?_, ?_, ?_, ?_, ?_, ?_, ?_, ?_⟩
  · rw [hn]; exact h.lt
  · rw [hX]; exact h.ptr
  · intro a b x hx; rw [hX] at hx; have := h.fixed a b x hx; grind
  · intro a b; rw [hm]; have := h.split a b; grind
  · rw [hm]; exact h.nfix
  · intro l hl; exact ha (h.own l hl)
  · intro hl; exact ha (h.locked hl)
  · intro hl; exact hb hl (h.more hl)
  · rw [hm]; exact h.sub
  · rw [hm]; exact h.rq

theorem Cov.mono {s s' : St} {x : Nat} (h : Cov s x) (hm : s'.mode = s.mode) (hd : ∀ x ∈ s.done, x ∈ s'.done)
    (hq : ∀ q ∈ s.queue, q ∈ s'.queue) (hiv : s.iv ≠ 0 → s'.iv ≠ 0)
    (ht : ∀ i, covT s.mode (s.th i) x → covT s.mode (s'.th i) x ∨ x ∈ s'.done ∨
      ∃ q ∈ s'.queue, (s.mode = true ∨ q.1 = false) ∧ x ∈ q.2)
    (hp : s.mode = true → s.iv ≠ 0 → ∀ i, (s.th i).pc.pre = true → (s'.th i).pc.pre = true ∨ s'.queue ≠ []) :
    Cov s' x := by
  unfold Cov
  rw [hm]
  rcases h with h | ⟨q, h1, h2⟩ | ⟨i, h⟩ | ⟨h1, h2, h3⟩
  · exact Or.inl (hd _ h)
  · exact Or.inr (Or.inl ⟨q, hq _ h1, h2⟩)
  · rcases ht i h with h | h | h
    · exact Or.inr (Or.inr (Or.inl ⟨i, h⟩))
    · exact Or.inl h
    · exact Or.inr (Or.inl h)
  · refine Or.inr (Or.inr (Or.inr ⟨h1, hiv h2, ?_⟩))
    rcases h3 with h3 | ⟨c, hc⟩
    · left
      cases hq' : s.queue with
      | nil => exact absurd hq' h3
      | cons a b =>
        have := hq a (by simp [hq'])
        intro h; rw [h] at this; simp at this
    · rcases hp h1 h2 c hc with h | h
      · exact Or.inr ⟨c, h⟩
      · exact Or.inl h

/-- A step of thread `i` that leaves the control flags alone. -/
theorem GI.gen {s s' : St} {i : Nat} {t : Th} (h : GI s) (hth : s'.th = Function.update s.th i t)
    (hn : s'.n = s.n) (hX : s'.X = s.X) (hb : s'.bt = s.bt) (hmo : s'.mode = s.mode) (hal : s'.allow = s.allow)
    (hfo : s'.forbid = s.forbid) (hsy : s'.sync = s.sync) (hre : s'.restart = s.restart) (hnu : s'.num = s.num)
    (hiv : s'.iv = s.iv) (hdo : ∀ x ∈ s.done, x ∈ s'.done) (hqu : ∀ q ∈ s.queue, q ∈ s'.queue)
    (hq1 : ∀ q ∈ s'.queue, q ∈ s.queue ∨ (s.allow = true ∧ (q.1 = true → q.2 = s.X)))
    (hi : TI s' i t)
    (he : s.sync = true → s.restart = false → (s.th i).pc.early = true → t.pc.early = true)
    (hf : t.pc.isFin = true → s.sync = true ∧ ∀ j, j ≠ i → (s.th j).pc.quiet = true)
    (hq : s.sync = true → (s.th i).pc.quiet = true → (∃ k, k ≠ i ∧ (s.th k).pc.isFin = true) → t.pc.quiet = true)
    (hm : s.allow = true → s.sync = false → t.pc.doom = true ∨ ((s.th i).pc.doom = false ∧
      (∀ x ∈ s.X, covT s.mode (s.th i) x → covT s.mode t x ∨ x ∈ s'.done ∨
        ∃ q ∈ s'.queue, (s.mode = true ∨ q.1 = false) ∧ x ∈ q.2) ∧
      (s.mode = true → s.iv ≠ 0 → (s.th i).pc.pre = true → t.pc.pre = true ∨ s'.queue ≠ [])))
    (hk : s.bt = true → s.mode = true → s.sync = false → (act t → act (s.th i)) ∧ (tok t → tok (s.th i)) ∧
      ∀ q ∈ s'.queue, q ∈ s.queue ∨ (q.1 = false ∧ act (s.th i) ∧ ¬ tok t)) :
    GI s' := by
  have hput : ∀ j, s'.th j = if j = i then t else s.th j := by
    intro j; rw [hth, Function.update_apply]
  refine ⟨by rw [hn]; exact h.n64, ?_, ?_, ?_, ?_, ?_, ?_, ?_, ?_, ?_, ?_, ?_, ?_, ?_⟩
  · intro j
    rw [hput]
    by_cases hj : j = i
    · rw [if_pos hj, hj]; exact hi
    · rw [if_neg hj]
      exact (h.th j).mono hn hX hmo (by rw [hal]; exact id) hdo (by rw [hal, hiv, hsy]; exact fun _ => id)
  · rw [hmo, hal]; exact h.g1
  · rw [hmo, hfo]; exact h.g2
  · rw [hmo, hre]; exact h.g3
  · rw [hnu, hfo, hal, hb]; exact h.g4
  · rw [hnu, hmo, hal]; exact h.g5
  · intro q hq h1
    rw [hX]
    rcases hq1 q hq with h2 | h2
    · exact h.q1 q h2 h1
    · exact h2.2 h1
  · intro hne
    rw [hal]
    obtain ⟨q, hq⟩ := List.exists_mem_of_ne_nil _ hne
    rcases hq1 q hq with h2 | h2
    · exact h.q2 (List.ne_nil_of_mem h2)
    · exact h2.1
  · rw [hmo, hiv]; exact h.iv
  · rw [hsy, hre, hnu]
    intro h1 h2
    have h3 := h.e h1 h2
    refine ⟨h3.1, fun j => ?_⟩
    rw [hput]
    by_cases hj : j = i
    · rw [if_pos hj]; exact he h1 h2 (h3.2 i)
    · rw [if_neg hj]; exact h3.2 j
  · intro j h1
    rw [hput] at h1
    rw [hsy]
    by_cases hj : j = i
    · rw [if_pos hj] at h1
      have h2 := hf h1
      refine ⟨h2.1, fun k hk => ?_⟩
      rw [hput, if_neg (by rw [← hj]; exact hk)]
      exact h2.2 k (by rw [← hj]; exact hk)
    · rw [if_neg hj] at h1
      have h2 := h.f j h1
      refine ⟨h2.1, fun k hk => ?_⟩
      rw [hput]
      by_cases hki : k = i
      · rw [if_pos hki]
        exact hq h2.1 (h2.2 i (by rw [← hki]; exact hk)) ⟨j, hj, h1⟩
      · rw [if_neg hki]; exact h2.2 k hk
  · rw [hal, hsy, hX]
    intro h1 h2
    rcases hm h1 h2 with h3 | ⟨h3, h4, h5⟩
    · left; exact ⟨i, by rw [hput, if_pos rfl]; exact h3⟩
    · rcases h.m h1 h2 with ⟨j, hj⟩ | h6
      · left
        refine ⟨j, ?_⟩
        rw [hput, if_neg (by rintro rfl; rw [h3] at hj; cases hj)]
        exact hj
      · right
        intro x hx
        refine (h6 x hx).mono hmo hdo hqu (by rw [hiv]; exact id) ?_ ?_
        · intro j hj
          rw [hput]
          by_cases hji : j = i
          · rw [if_pos hji]; rw [hji] at hj; exact h4 x hx hj
          · rw [if_neg hji]; exact Or.inl hj
        · intro a b j hj
          rw [hput]
          by_cases hji : j = i
          · rw [if_pos hji]; rw [hji] at hj; exact h5 a b hj
          · rw [if_neg hji]; exact Or.inl hj
  · rw [hb, hmo, hsy]
    intro h1 h2 h3
    obtain ⟨k1, k2, k3⟩ := hk h1 h2 h3
    have hK := h.k h1 h2 h3
    refine ⟨?_, ?_, ?_, ?_⟩
    · intro q hq
      rcases k3 q hq with h4 | h4
      · exact hK.q q h4
      · exact h4.1
    · intro j hj
      rw [hput] at hj
      rw [hiv]
      have hnil : (∀ q ∈ s'.queue, False) → s'.queue = [] := fun hh => List.eq_nil_iff_forall_not_mem.2 hh
      by_cases hji : j = i
      · rw [if_pos hji] at hj
        obtain ⟨e1, e2, e3⟩ := hK.tok i (k2 hj)
        refine ⟨hnil fun q hq => ?_, e2, fun k hk => ?_⟩
        · rcases k3 q hq with h4 | h4
          · rw [e1] at h4; cases h4
          · exact h4.2.2 hj
        · rw [hput, if_neg (by rw [← hji]; exact hk)]; exact e3 k (by rw [← hji]; exact hk)
      · rw [if_neg hji] at hj
        obtain ⟨e1, e2, e3⟩ := hK.tok j hj
        refine ⟨hnil fun q hq => ?_, e2, fun k hk => ?_⟩
        · rcases k3 q hq with h4 | h4
          · rw [e1] at h4; cases h4
          · exact e3 i (fun hh => hji hh.symm) h4.2.1
        · rw [hput]
          by_cases hki : k = i
          · rw [if_pos hki]; exact fun hh => e3 i (by rw [← hki]; exact hk) (k1 hh)
          · rw [if_neg hki]; exact e3 k hk
    · rw [hiv]
      intro hne
      obtain ⟨e1, e2⟩ := hK.iv hne
      refine ⟨List.eq_nil_iff_forall_not_mem.2 fun q hq => ?_, fun k => ?_⟩
      · rcases k3 q hq with h4 | h4
        · rw [e1] at h4; cases h4
        · exact e2 i h4.2.1
      · rw [hput]
        by_cases hki : k = i
        · rw [if_pos hki]; exact fun hh => e2 i (k1 hh)
        · rw [if_neg hki]; exact e2 k
    · rw [hnu, hiv]
      intro hne
      obtain ⟨e1, e2⟩ := hK.num hne
      refine ⟨e1, fun k => ?_⟩
      rw [hput]
      by_cases hki : k = i
      · rw [if_pos hki]; exact fun hh => e2 i (k2 hh)
      · rw [if_neg hki]; exact e2 k

/-- A step of thread `i` that changes nothing else. -/
theorem GI.put {s : St} {i : Nat} {t : Th} (h : GI s) (hi : TI s i t)
    (he : s.sync = true → s.restart = false → (s.th i).pc.early = true → t.pc.early = true)
    (hf : t.pc.isFin = true → s.sync = true ∧ ∀ j, j ≠ i → (s.th j).pc.quiet = true)
    (hq : s.sync = true → (s.th i).pc.quiet = true → (∃ k, k ≠ i ∧ (s.th k).pc.isFin = true) → t.pc.quiet = true)
    (hm : s.allow = true → s.sync = false → t.pc.doom = true ∨ ((s.th i).pc.doom = false ∧
      (∀ x ∈ s.X, covT s.mode (s.th i) x → covT s.mode t x) ∧
      (s.mode = true → s.iv ≠ 0 → (s.th i).pc.pre = true → t.pc.pre = true)))
    (hk : s.bt = true → s.mode = true → s.sync = false → (act t → act (s.th i)) ∧ (tok t → tok (s.th i))) :
    GI (s.put i t) := by
  refine h.gen (i := i) (t := t) rfl rfl rfl rfl rfl rfl rfl rfl rfl rfl rfl (fun _ => id) (fun _ => id)
    (fun _ => Or.inl) ?_ he hf hq ?_ ?_
  · exact hi.mono rfl rfl rfl id (fun _ => id) (fun _ => id)
  · intro h1 h2
    rcases hm h1 h2 with h3 | ⟨h3, h4, h5⟩
    · exact Or.inl h3
    · exact Or.inr ⟨h3, fun x hx hc => Or.inl (h4 x hx hc), fun a b c => Or.inl (h5 a b c)⟩
  · intro h1 h2 h3
    exact ⟨(hk h1 h2 h3).1, (hk h1 h2 h3).2, fun q hq => Or.inl hq⟩

end Clasp.Par
