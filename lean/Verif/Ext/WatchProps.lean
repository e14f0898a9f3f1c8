import Verif.Ext.WatchLem
/-!
# C40: watches of a theory propagator reach the solvers
-/

namespace Clasp.Watch

theorem want_mono {i p} {b c : Bool} {os : List Op} (h : b = true → c = true) (hw : want i p b os = true) : want i p c os = true := by
  induction os generalizing b c with
  | nil => exact h hw
  | cons o os ih =>
    cases o <;> simp only [want] at hw ⊢ <;> refine ih ?_ hw <;> (try split_ifs) <;> simp_all

theorem want_or {i p} {b : Bool} {os : List Op} (hw : want i p b os = true) : b = true ∨ want i p false os = true := by
  cases b with
  | true => exact Or.inl rfl
  | false => exact Or.inr hw

theorem want_idem {i p} {b : Bool} {os : List Op} : want i p (want i p b os) os = want i p b os := by
  cases h : want i p b os with
  | true => exact want_mono (by simp) h
  | false =>
    cases h2 : want i p false os with
    | false => rfl
    | true => rw [want_mono (b := false) (by simp) h2] at h; cases h

/-- Proof device: the invariant; `old` are the calls of earlier steps, `cur` those of the current one. -/
structure Inv (e : Bool) (σ : St) (old cur : List Op) (op : Bool) : Prop where
  en : σ.enabled = e
  oko : ∀ o ∈ old, o.ok = true
  okc : ∀ o ∈ cur, o.ok = true
  good : Good σ.changes
  eff : ∀ f p b, effs f p b σ.changes = effs f p b (cur.map Op.change)
  mem : ∀ c, c ∈ σ.changes ↔ c ∈ cur.map Op.change
  hist : e = true → ∀ i < 64, ∀ p, (σ.hist.mask p).getLsbD i = want i p false old
  keys : ∀ p, σ.hist.mask p ≠ 0 → p ∈ σ.hist.keys
  st : 1 ≤ σ.step
  first : σ.step = 1 → old = []
  le : ∀ i, σ.last i ≤ σ.step
  opn : op = true → ∀ i, σ.last i < σ.step
  new : ∀ i, σ.last i = 0 → σ.watch i = []
  exCur : ∀ i < 64, σ.last i = σ.step → σ.skipped i = false → ∀ p, decide (p ∈ σ.watch i) = want i p false (old ++ cur)
  exOld : ∀ i < 64, σ.last i + 1 = σ.step → σ.skipped i = false → ∀ p, decide (p ∈ σ.watch i) = want i p false old
  supCur : e = true → ∀ i < 64, σ.last i = σ.step → ∀ p, want i p false (old ++ cur) = true → p ∈ σ.watch i
  supOld : e = true → ∀ i < 64, σ.last i + 1 = σ.step → ∀ p, want i p false old = true → p ∈ σ.watch i
  fzW : ∀ i < 64, ∀ p ∈ σ.watch i, p.natAbs ∈ σ.frozen
  fzO : ∀ i < 64, ∀ p, want i p false old = true → p.natAbs ∈ σ.frozen
  fzC : op = false → ∀ i < 64, ∀ p, want i p false cur = true → p.natAbs ∈ σ.frozen

theorem Inv.start (e : Bool) : Inv e (St.start e) [] [] true where
  en := rfl
  oko := by simp
  okc := by simp
  good := by simp [Good, St.start]
  eff := by simp [St.start]
  mem := by simp [St.start]
  hist := by intro _ i _ p; simp [St.start, want]
  keys := by simp [St.start]
  st := by simp [St.start]
  first := by simp
  le := by simp [St.start]
  opn := by simp [St.start]
  new := by simp [St.start]
  exCur := by simp [St.start]
  exOld := by simp [St.start, want]
  supCur := by simp [St.start]
  supOld := by simp [St.start, want]
  fzW := by simp [St.start]
  fzO := by simp [want]
  fzC := by simp

theorem Inv.op {e σ old cur} (h : Inv e σ old cur true) {o : Op} (ho : o.ok = true) : Inv e (record σ o) old (cur ++ [o]) true := by
  have hne : ∀ i, σ.last i ≠ σ.step := fun i => Nat.ne_of_lt (h.opn rfl i)
  refine { h with okc := ?_, good := ?_, eff := ?_, mem := ?_, exCur := ?_, supCur := ?_, fzC := ?_ }
  · intro q hq
    rcases List.mem_append.mp hq with hq | hq
    · exact h.okc q hq
    · simp at hq; subst hq; exact ho
  · intro c hc
    rcases List.mem_append.mp hc with hc | hc
    · exact h.good c hc
    · exact good_ops (os := [o]) (by simpa using ho) c (by simpa using hc)
  · intro f p b
    simp only [record, List.map_append, effs_append, h.eff]
    rfl
  · intro c
    simp [record, h.mem c]
  · intro i _ hl; exact absurd hl (hne i)
  · intro _ i _ hl; exact absurd hl (hne i)
  · intro hx; cases hx

theorem Inv.want_changes {e σ old cur op} (h : Inv e σ old cur op) (i : Nat) (p : Int) (b : Bool) : effs (forSolver i) p b σ.changes = want i p b cur := by
  rw [h.eff, ← want_effs]

theorem frozen_prepare {e σ old cur} (h : Inv e σ old cur true) (v : Nat) :
    v ∈ (prepare σ).frozen ↔ v ∈ σ.frozen ∨ ∃ p : Int, p.natAbs = v ∧ (Op.freeze p ∈ cur ∨ ∃ i < 64, want i p false cur = true) := by
  have hg : Good (σ.changes.mergeSort Change.le) := fun c hc => h.good c ((List.mergeSort_perm _ _).mem_iff.mp hc)
  have hs := frozen_spec _ _ (Nat.le_refl _) hg (List.pairwise_mergeSort le_trans' le_total' σ.changes) v
  simp only [prepare, List.mem_append]
  rw [hs, or_comm]
  apply or_congr Iff.rfl
  apply exists_congr
  intro p
  apply and_congr Iff.rfl
  apply or_congr
  · constructor
    · rintro ⟨c, hc, h1, h2⟩
      have hc' := (h.mem c).mp ((List.mergeSort_perm _ _).mem_iff.mp hc)
      obtain ⟨o, ho, rfl⟩ := List.mem_map.mp hc'
      cases o <;> simp [Op.change] at h1 h2
      subst h1; exact ho
    · intro ho
      exact ⟨(Op.freeze p).change, (List.mergeSort_perm _ _).mem_iff.mpr ((h.mem _).mpr (List.mem_map.mpr ⟨_, ho, rfl⟩)), rfl, rfl⟩
  · apply exists_congr
    intro i
    rw [effs_sort, h.want_changes]

theorem Inv.prepare {e σ old cur} (h : Inv e σ old cur true) : Inv e (prepare σ) old cur false := by
  have hne : ∀ i, σ.last i ≠ σ.step := fun i => Nat.ne_of_lt (h.opn rfl i)
  have hfz := frozen_prepare h
  refine { h with good := ?_, eff := ?_, mem := ?_, opn := ?_, fzW := ?_, fzO := ?_, fzC := ?_ }
  · exact fun c hc => h.good c ((List.mergeSort_perm _ _).mem_iff.mp hc)
  · intro f p b
    rw [← h.eff]; exact effs_sort _ _ _ _
  · intro c
    rw [← h.mem]; exact (List.mergeSort_perm _ _).mem_iff
  · intro hx; cases hx
  · intro i hi p hp
    exact (hfz _).mpr (Or.inl (h.fzW i hi p hp))
  · intro i hi p hp
    exact (hfz _).mpr (Or.inl (h.fzO i hi p hp))
  · intro _ i hi p hp
    exact (hfz _).mpr (Or.inr ⟨p, rfl, Or.inr ⟨i, hi, hp⟩⟩)

theorem foldl_add_mem (ks : List Int) (i : Int) (W : List Int) (p : Int) :
    p ∈ ks.foldl (fun W p => Change.apply W ⟨p, i, .add⟩) W ↔ p ∈ ks ∨ p ∈ W := by
  induction ks generalizing W with
  | nil => simp
  | cons k ks ih =>
    rw [List.foldl_cons, ih]
    simp only [Change.apply, List.mem_cons]
    split_ifs with hk
    · constructor
      · rintro (h | h)
        · exact Or.inl (Or.inr h)
        · exact Or.inr h
      · rintro ((h | h) | h)
        · subst h; exact Or.inr hk
        · exact Or.inl h
        · exact Or.inr h
    · rw [List.mem_cons]; tauto

/-- What a solver watches before the changes of the current step. -/
theorem mem_fromHist {e σ old cur op} (h : Inv e σ old cur op) {i : Nat} (hi : i < 64) (p : Int) :
    p ∈ fromHist σ i ↔ p ∈ σ.watch i ∨ (e = true ∧ σ.step - σ.last i > 1 ∧ want i p false old = true) := by
  simp only [fromHist, h.en]
  split_ifs with hc
  · rw [foldl_add_mem, List.mem_filter, h.hist hc.1 i hi p, or_comm]
    apply or_congr Iff.rfl
    constructor
    · rintro ⟨_, h2⟩; exact ⟨hc.1, hc.2, h2⟩
    · rintro ⟨_, _, h2⟩
      refine ⟨h.keys p ?_, h2⟩
      intro h0
      have := h.hist hc.1 i hi p
      rw [h0, h2] at this
      simp at this
  · constructor
    · exact Or.inl
    · rintro (h1 | h1)
      · exact h1
      · exact absurd ⟨h1.1, h1.2.1⟩ hc

theorem mem_init {e σ old cur} (h : Inv e σ old cur false) {i : Nat} (hi : i < 64) (p : Int) :
    decide (p ∈ (init σ i).watch i) = want i p (decide (p ∈ fromHist σ i)) cur := by
  have := mem_applyChanges h.good hi (fromHist σ i) p
  rw [h.want_changes] at this
  simp only [init, if_true]
  exact this

theorem Inv.init {e σ old cur} (h : Inv e σ old cur false) {i : Nat} (hi : i < 64) : Inv e (init σ i) old cur false := by
  have hm := fun p => mem_init h hi p
  have hf := fun p => mem_fromHist h hi p
  have ho : ∀ j, j ≠ i → (Watch.init σ i).watch j = σ.watch j ∧ (Watch.init σ i).last j = σ.last j ∧ (Watch.init σ i).skipped j = σ.skipped j := by
    intro j hj; simp [Watch.init, hj]
  have hl : (Watch.init σ i).last i = σ.step := by simp [Watch.init]
  have hst : (Watch.init σ i).step = σ.step := rfl
  have hle := h.le i
  have hst1 := h.st
  refine { h with le := ?_, opn := (fun hx => nomatch hx), new := ?_, exCur := ?_, exOld := ?_, supCur := ?_, supOld := ?_, fzW := ?_ }
  · intro j
    by_cases hj : j = i
    · subst hj; rw [hl]; exact Nat.le_refl _
    · rw [(ho j hj).2.1]; exact h.le j
  · intro j
    by_cases hj : j = i
    · subst hj; rw [hl]; omega
    · rw [(ho j hj).2.1, (ho j hj).1]; exact h.new j
  · intro j hj64
    by_cases hj : j = i
    · subst hj
      intro _ hs p
      have hs' : σ.skipped j = false ∧ ¬ (σ.step - σ.last j > 1 ∧ (σ.last j ≠ 0 ∨ e = false)) := by
        simp only [Watch.init, if_true, h.en] at hs
        rw [Bool.or_eq_false_iff] at hs
        refine ⟨hs.1, ?_⟩
        rintro ⟨a1, a2⟩
        have := hs.2
        rcases a2 with a2 | a2 <;> simp [a1, a2] at this
      rw [hm p]
      by_cases hcur : σ.last j = σ.step
      · have h1 : decide (p ∈ fromHist σ j) = decide (p ∈ σ.watch j) := by
          apply decide_eq_decide.mpr
          rw [hf p]
          constructor
          · rintro (h1 | h1)
            · exact h1
            · omega
          · exact Or.inl
        rw [h1, h.exCur j hj64 hcur hs'.1 p, want_append, want_idem]
      · rw [want_append]
        congr 1
        by_cases hprev : σ.last j + 1 = σ.step
        · rw [← h.exOld j hj64 hprev hs'.1 p]
          apply decide_eq_decide.mpr
          rw [hf p]
          constructor
          · rintro (h1 | h1)
            · exact h1
            · omega
          · exact Or.inl
        · have hgt : σ.step - σ.last j > 1 := by omega
          have h0 : σ.last j = 0 := by
            by_contra hx; exact hs'.2 ⟨hgt, Or.inl hx⟩
          have he : e = true := by
            cases hx : e with
            | true => rfl
            | false => exact absurd ⟨hgt, Or.inr hx⟩ hs'.2
          have : p ∈ fromHist σ j ↔ want j p false old = true := by
            rw [hf p, h.new j h0]
            simp [he, hgt]
          rw [Bool.eq_iff_iff, decide_eq_true_iff, this]
    · rw [(ho j hj).2.1, (ho j hj).1, (ho j hj).2.2]; exact h.exCur j hj64
  · intro j hj64
    by_cases hj : j = i
    · subst hj; rw [hl, hst]; omega
    · rw [(ho j hj).2.1, (ho j hj).1, (ho j hj).2.2]; exact h.exOld j hj64
  · intro he j hj64
    by_cases hj : j = i
    · subst hj
      intro _ p hw
      have h1 := hm p
      rw [want_append] at hw
      suffices hx : want j p (decide (p ∈ fromHist σ j)) cur = true by
        rw [hx] at h1; simpa using h1
      by_cases hcur : σ.last j = σ.step
      · have h2 : want j p false (old ++ cur) = true := by rw [want_append]; exact hw
        have h3 := h.supCur he j hj64 hcur p h2
        have h4 : p ∈ fromHist σ j := (hf p).mpr (Or.inl h3)
        have h5 : want j p (want j p false (old ++ cur)) cur = true := by rw [want_append, want_idem]; exact hw
        rw [h2] at h5
        rw [decide_eq_true h4]; exact h5
      · refine want_mono ?_ hw
        intro hwo
        rw [decide_eq_true_iff, hf p]
        by_cases hprev : σ.last j + 1 = σ.step
        · exact Or.inl (h.supOld he j hj64 hprev p hwo)
        · exact Or.inr ⟨he, by omega, hwo⟩
    · rw [(ho j hj).2.1, (ho j hj).1]; exact h.supCur he j hj64
  · intro he j hj64
    by_cases hj : j = i
    · subst hj; rw [hl, hst]; omega
    · rw [(ho j hj).2.1, (ho j hj).1]; exact h.supOld he j hj64
  · intro j hj64
    by_cases hj : j = i
    · subst hj
      intro p hp
      have h1 := hm p
      rw [decide_eq_true hp] at h1
      rcases want_or h1.symm with h2 | h2
      · rw [decide_eq_true_iff, hf p] at h2
        rcases h2 with h2 | h2
        · exact h.fzW j hj64 p h2
        · exact h.fzO j hj64 p h2.2.2
      · exact h.fzC rfl j hj64 p h2
    · rw [(ho j hj).1]; exact h.fzW j hj64

theorem Inv.unfreeze {e σ old cur} (h : Inv e σ old cur false) : Inv e (unfreeze σ) (old ++ cur) [] true where
  en := h.en
  oko := by
    intro o ho
    rcases List.mem_append.mp ho with ho | ho
    · exact h.oko o ho
    · exact h.okc o ho
  okc := by simp
  good := by simp [Watch.unfreeze, Good]
  eff := by simp [Watch.unfreeze]
  mem := by simp [Watch.unfreeze]
  hist := by
    intro he i hi p
    simp only [Watch.unfreeze, h.en, he, if_true]
    rw [hist_mask h.good hi, h.hist he i hi, h.want_changes, want_append]
  keys := by
    simp only [Watch.unfreeze]
    split_ifs
    · exact hist_keys _ _ h.keys
    · exact h.keys
  st := by simp [Watch.unfreeze]
  first := by
    intro hx
    have := h.st
    simp only [Watch.unfreeze] at hx
    omega
  le := by
    intro i
    have := h.le i
    show σ.last i ≤ σ.step + 1
    omega
  opn := by
    intro _ i
    have := h.le i
    show σ.last i < σ.step + 1
    omega
  new := h.new
  exCur := by
    intro i _ hl
    have := h.le i
    have hl' : σ.last i = σ.step + 1 := hl
    omega
  exOld := by
    intro i hi hl
    have hl' : σ.last i + 1 = σ.step + 1 := hl
    exact h.exCur i hi (by omega)
  supCur := by
    intro _ i _ hl
    have := h.le i
    have hl' : σ.last i = σ.step + 1 := hl
    omega
  supOld := by
    intro he i hi hl
    have hl' : σ.last i + 1 = σ.step + 1 := hl
    exact h.supCur he i hi (by omega)
  fzW := h.fzW
  fzO := by
    intro i hi p hp
    rw [want_append] at hp
    rcases want_or hp with h1 | h1
    · exact h.fzO i hi p h1
    · exact h.fzC rfl i hi p h1
  fzC := by intro hx; cases hx

theorem Reach.inv {e σ old cur op} (r : Reach e σ old cur op) : Inv e σ old cur op := by
  induction r with
  | start => exact Inv.start e
  | op o _ ho ih => exact ih.op ho
  | prepare _ ih => exact ih.prepare
  | init i hi _ ih => exact ih.init hi
  | unfreeze _ ih => exact ih.unfreeze

/-! ### The claims -/

/-- C40: attaching a solver changes its watches as if the calls of the step had been made for it one after the other, whatever it watched before. -/
theorem C40_step {e σ old cur} (r : Reach e σ old cur false) {i : Nat} (hi : i < 64) (hl : σ.step - σ.last i ≤ 1) (p : Int) :
    p ∈ (init σ i).watch i ↔ want i p (decide (p ∈ σ.watch i)) cur = true := by
  have h := r.inv
  rw [← decide_eq_true_iff (p := p ∈ (init σ i).watch i), mem_init h hi]
  have : decide (p ∈ fromHist σ i) = decide (p ∈ σ.watch i) := by
    apply decide_eq_decide.mpr
    rw [mem_fromHist h hi]
    constructor
    · rintro (h1 | h1)
      · exact h1
      · omega
    · exact Or.inl
  rw [this]

/-- C40, partial: a solver attached in the current step that was attached in every step since its first one (which was the first step, or the history is enabled) watches exactly the literals
asked for by all calls so far.  Without the hypothesis the claim is false, see `C40_skip_fails`. -/
theorem C40_exact_partial {e σ old cur op} (r : Reach e σ old cur op) {i : Nat} (hi : i < 64) (hl : σ.last i = σ.step) (hs : σ.skipped i = false) (p : Int) :
    p ∈ σ.watch i ↔ want i p false (old ++ cur) = true := by
  rw [← r.inv.exCur i hi hl hs p, decide_eq_true_iff]

/-- C40: with history no watch is missed, also by solvers that were not attached in some steps. -/
theorem C40_all {σ old cur op} (r : Reach true σ old cur op) {i : Nat} (hi : i < 64) (hl : σ.last i = σ.step) (p : Int) (hw : want i p false (old ++ cur) = true) : p ∈ σ.watch i :=
  r.inv.supCur rfl i hi hl p hw

/-- C40: the variables frozen in a step are those for which a literal is to be watched by some solver after the calls of the step, or was frozen explicitly. -/
theorem C40_frozen {e σ old cur} (r : Reach e σ old cur true) (v : Nat) :
    v ∈ (prepare σ).frozen ↔ v ∈ σ.frozen ∨ ∃ p : Int, p.natAbs = v ∧ (Op.freeze p ∈ cur ∨ ∃ i < 64, want i p false cur = true) :=
  frozen_prepare r.inv v

/-- C40: a watched literal is frozen. -/
theorem C40_watched {e σ old cur op} (r : Reach e σ old cur op) {i : Nat} (hi : i < 64) {p : Int} (hp : p ∈ σ.watch i) : p.natAbs ∈ σ.frozen :=
  r.inv.fzW i hi p hp

/-! ### Examples and a counterexample -/

/-- Example: literal 5 is watched by all solvers, -7 by solver 1 only; solver 1 is attached. -/
def ex1 : St := init (prepare (record (record (record (St.start true) (.addAll 5)) (.addFor 1 (-7))) (.freeze 9))) 1
theorem ex1_reach : Reach true ex1 [] [.addAll 5, .addFor 1 (-7), .freeze 9] false :=
  .init 1 (by decide) (.prepare (.op (.freeze 9) (.op (.addFor 1 (-7)) (.op (.addAll 5) .start rfl) rfl) rfl))

/-- Example: in the second step the watch for 5 is removed, solver 1 is not attached; in the third step it is. -/
def ex2 : St := init (prepare (unfreeze (init (prepare (record (unfreeze ex1) (.removeAll 5))) 0))) 1
theorem ex2_reach : Reach true ex2 (([] ++ [.addAll 5, .addFor 1 (-7), .freeze 9]) ++ [.removeAll 5]) [] false :=
  .init 1 (by decide) (.prepare (.unfreeze (.init 0 (by decide) (.prepare (.op (.removeAll 5) (.unfreeze ex1_reach) rfl)))))

/-- Example for `C40_exact_partial` and `C40_watched`. -/
example : (-7 : Int) ∈ ex1.watch 1 ∧ 7 ∈ ex1.frozen :=
  have h := (C40_exact_partial ex1_reach (i := 1) (by decide) rfl (by decide) (-7)).mpr (by decide)
  ⟨h, C40_watched ex1_reach (i := 1) (by decide) h⟩
/-- Example for `C40_frozen`: variable 9. -/
example : 9 ∈ (prepare (record (record (record (St.start true) (.addAll 5)) (.addFor 1 (-7))) (.freeze 9))).frozen :=
  (C40_frozen (.op (.freeze 9) (.op (.addFor 1 (-7)) (.op (.addAll 5) .start rfl) rfl) rfl) 9).mpr (Or.inr ⟨9, rfl, Or.inl (by decide)⟩)
/-- Example for `C40_all`: solver 1 skipped a step. -/
example : (-7 : Int) ∈ ex2.watch 1 := C40_all ex2_reach (i := 1) (by decide) rfl (-7) (by decide)
/-- Example for `C40_step`: the same step again. -/
example : (5 : Int) ∈ (init ex1 1).watch 1 ↔ want 1 5 (decide ((5 : Int) ∈ ex1.watch 1)) [.addAll 5, .addFor 1 (-7), .freeze 9] = true :=
  C40_step ex1_reach (by decide) (by decide) 5

/-- C40, exactness fails for solvers that skip a step: the watch for 5 was removed from all solvers while solver 1 was not attached; afterwards it still has it. -/
theorem C40_skip_fails : ∃ σ old cur i p, Reach true σ old cur false ∧ i < 64 ∧ σ.last i = σ.step ∧ p ∈ σ.watch i ∧ want i p false (old ++ cur) = false := by
  refine ⟨ex2, _, _, 1, 5, ex2_reach, by decide, rfl, ?_, by decide⟩
  have h1 : (5 : Int) ∈ ex1.watch 1 := (C40_exact_partial ex1_reach (i := 1) (by decide) rfl (by decide) 5).mpr (by decide)
  have r2 : Reach true (prepare (unfreeze (init (prepare (record (unfreeze ex1) (.removeAll 5))) 0))) (([] ++ [.addAll 5, .addFor 1 (-7), .freeze 9]) ++ [.removeAll 5]) [] false :=
    .prepare (.unfreeze (.init 0 (by decide) (.prepare (.op (.removeAll 5) (.unfreeze ex1_reach) rfl))))
  have h2 := mem_init r2.inv (i := 1) (by decide) 5
  rw [← decide_eq_true_iff (p := (5 : Int) ∈ ex2.watch 1), ex2, h2]
  simp only [want, decide_eq_true_iff]
  exact (mem_fromHist r2.inv (by decide) 5).mpr (Or.inl h1)

end Clasp.Watch
