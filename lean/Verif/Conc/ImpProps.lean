import Verif.Conc.ImpStep
/-!
# C52: learnt short clauses shared by threads are neither lost nor torn

For any number of threads, any interleaving and any capacity of the blocks (at least two words).
-/

namespace Clasp.Imp

/-- Specification: the clause a thread is adding. -/
def adding : Pc → Option Cl
  | .load c => some c
  | .lockb c _ => some c
  | .copy c _ _ _ => some c
  | .store c _ _ => some c
  | .pub c _ => some c
  | .cas c => some c
  | _ => none

/-- Specification: an execution in which thread `i` does not leave the traversal it is in. -/
inductive Run (i : Nat) : St → St → Prop
  | refl (s : St) : Run i s s
  | step {s s' s'' : St} : Run i s s' → Step s' s'' → s''.th i ≠ .idle → Run i s s''

/-- Specification: an execution in which only thread `j` does steps. -/
inductive Alone (j : Nat) : St → St → Prop
  | refl (s : St) : Alone j s s
  | step {s s' s'' : St} : next s j = some s' → Alone j s' s'' → Alone j s s''

/-- **C52 (no undefined access).**  No thread ever accesses a word outside of a block or a block that does not exist. -/
theorem C52_safe {cap : Nat} (hc : 2 ≤ cap) {s : St} (h : Reach cap s) : s.bad = false := (reach_inv hc h).bad

/-- A step leaves the other threads alone. -/
theorem next_other {s s' : St} {i j : Nat} (hj : j ≠ i) (h : next s i = some s') : s'.th j = s.th j := by
  unfold next at h
  simp only at h
  repeat' split at h
  all_goals (first | (injection h with h; subst h; simp [St.go, St.err, hj]; done) | cases h)

/-- **C52 (an addition happens once).**  A step of a thread that adds the clause `c` either leaves it adding `c` and the clauses added so far as they are, or it ends the
addition and `c` was added once; a step of any other thread changes nothing for it, and a step of a thread that goes through the list adds nothing. -/
theorem C52_once {cap : Nat} (hc : 2 ≤ cap) {s s' : St} (h : Reach cap s) {i : Nat} (hs : next s i = some s') :
    (∀ c, adding (s.th i) = some c → (adding (s'.th i) = some c ∧ s'.added = s.added) ∨ (s'.th i = .idle ∧ s'.added = s.added ++ [c])) ∧
    (adding (s.th i) = none → adding (s'.th i) = none ∧ s'.added = s.added) ∧ ∀ j, j ≠ i → s'.th j = s.th j := by
  have hb : s'.bad = false := C52_safe hc (Reach.step h (Step.next i hs))
  refine ⟨?_, ?_, fun j hj => next_other hj hs⟩
  · intro c hcl
    unfold next at hs
    simp only at hs
    repeat' split at hs
    all_goals (first | (injection hs with hs; subst hs; simp_all [St.go, St.err, adding]; done) | cases hs)
  · intro hcl
    unfold next at hs
    simp only at hs
    repeat' split at hs
    all_goals (first | (injection hs with hs; subst hs; simp_all [St.go, St.err, adding]; done) | cases hs)

theorem step_added {s s' : St} (h : Step s s') (c : Cl) : s.added.count c ≤ s'.added.count c := by
  cases h with
  | add i c hi => exact Nat.le_refl _
  | read i hi => exact Nat.le_refl _
  | fin i snap acc hi => exact Nat.le_refl _
  | next i hs =>
    unfold next at hs
    simp only at hs
    repeat' split at hs
    all_goals (first | (injection hs with hs; subst hs; simp [St.go, St.err, List.count_append]; done) | cases hs)

/-- Proof device: the clauses that a traversal has to see. -/
def snapOf : Pc → Option (List Cl)
  | .rsize _ l _ => some l
  | .rword _ _ _ l _ => some l
  | .rsnd _ _ _ _ l _ => some l
  | .rnext _ l _ => some l
  | .rdone l _ => some l
  | _ => none

theorem next_snap {s s' : St} {i : Nat} (h : next s i = some s') :
    (s.th i = .rhead → snapOf (s'.th i) = some s.added) ∧ ∀ l, snapOf (s.th i) = some l → snapOf (s'.th i) = some l := by
  unfold next at h
  simp only at h
  repeat' split at h
  all_goals (first | (injection h with h; subst h; simp_all [St.go, St.err, snapOf]; done) | cases h)

theorem run_snap {cap : Nat} {i : Nat} {s s' : St} (h0 : Reach cap s) (hi : s.th i = .rhead) (h : Run i s s') :
    Reach cap s' ∧ (∀ c, s.added.count c ≤ s'.added.count c) ∧ (s'.th i = .rhead ∨ ∃ l, snapOf (s'.th i) = some l ∧ ∀ c, s.added.count c ≤ l.count c) := by
  induction h with
  | refl => exact ⟨h0, fun c => Nat.le_refl _, Or.inl hi⟩
  | @step s1 s2 _ hs hne ih =>
    obtain ⟨i1, i2, i3⟩ := ih
    refine ⟨Reach.step i1 hs, fun c => Nat.le_trans (i2 c) (step_added hs c), ?_⟩
    cases hs with
    | add j c hj =>
      have hji : i ≠ j := by
        rintro rfl
        rw [hj] at i3
        rcases i3 with h | ⟨l, h, _⟩ <;> cases h
      simpa [St.go, hji] using i3
    | read j hj =>
      have hji : i ≠ j := by
        rintro rfl
        rw [hj] at i3
        rcases i3 with h | ⟨l, h, _⟩ <;> cases h
      simpa [St.go, hji] using i3
    | fin j snap acc hj =>
      have hji : i ≠ j := by
        rintro rfl
        exact hne (by simp [St.go])
      simpa [St.go, hji] using i3
    | next j hn =>
      by_cases hji : i = j
      · subst hji
        obtain ⟨n1, n2⟩ := next_snap hn
        rcases i3 with h | ⟨l, h, h'⟩
        · exact Or.inr ⟨_, n1 h, i2⟩
        · exact Or.inr ⟨l, n2 l h, h'⟩
      · rw [next_other hji hn]; exact i3

/-- **C52 (nothing lost, nothing torn).**  Let a thread start to go through the list in state `s` and be through in state `s'`; meanwhile other threads may have added clauses.
Then it has seen every clause as often as it had been added when it started, and no clause more often than it was added in the end; in particular it has seen no clause
that was not added. -/
theorem C52_read {cap : Nat} (hc : 2 ≤ cap) {s s' : St} (h : Reach cap s) {i : Nat} (hi : s.th i = .rhead) (hr : Run i s s') {snap acc : List Cl}
    (hd : s'.th i = .rdone snap acc) (c : Cl) : s.added.count c ≤ acc.count c ∧ acc.count c ≤ s'.added.count c := by
  obtain ⟨r1, r2, r3⟩ := run_snap h hi hr
  have hI := reach_inv hc r1
  have ht := hI.ti i
  rw [hd] at ht r3
  obtain ⟨t1, t2⟩ := ht c
  rcases r3 with r3 | ⟨l, r3, r4⟩
  · cases r3
  · injection r3 with r3
    subst r3
    exact ⟨Nat.le_trans (r4 c) t1, by rw [hI.blk.ct c]; exact t2⟩

/-- **C52 (`hasLearnt`).**  If `hasLearnt` finds a clause, one was added whose literals are among those asked for (together with the literal of the list); and it finds one if such a
clause had been added when it started, provided that the two literals of a ternary clause differ. -/
theorem C52_has {cap : Nat} (hc : 2 ≤ cap) {s s' : St} (h : Reach cap s) {i : Nat} (hi : s.th i = .rhead) (hr : Run i s s') {snap acc : List Cl}
    (hd : s'.th i = .rdone snap acc) (q : Nat) (r : Option Nat) :
    (hasLearnt q r acc = true → ∃ c ∈ s'.added, ∀ l ∈ c.1 :: c.2.toList, l ∈ q :: r.toList) ∧
    ((∃ c ∈ s.added, c.2 ≠ some c.1 ∧ ∀ l ∈ c.1 :: c.2.toList, l ∈ q :: r.toList) → hasLearnt q r acc = true) := by
  have hmem1 : ∀ c, c ∈ acc → c ∈ s'.added := fun c hcm => by
    have := (C52_read hc h hi hr hd c).2
    exact List.count_pos_iff.1 (Nat.lt_of_lt_of_le (List.count_pos_iff.2 hcm) this)
  have hmem2 : ∀ c, c ∈ s.added → c ∈ acc := fun c hcm => by
    have := (C52_read hc h hi hr hd c).1
    exact List.count_pos_iff.1 (Nat.lt_of_lt_of_le (List.count_pos_iff.2 hcm) this)
  constructor
  · intro hh
    unfold hasLearnt at hh
    rw [List.any_eq_true] at hh
    obtain ⟨⟨a, b⟩, c1, c2⟩ := hh
    refine ⟨(a, b), hmem1 _ c1, ?_⟩
    cases b <;> cases r <;> simp at c2 ⊢ <;> grind
  · rintro ⟨⟨a, b⟩, c1, c2, c3⟩
    unfold hasLearnt
    rw [List.any_eq_true]
    refine ⟨(a, b), hmem2 _ c1, ?_⟩
    cases b <;> cases r <;> simp at c2 c3 ⊢ <;> grind

theorem Alone.trans {j : Nat} {s s' s'' : St} (h : Alone j s s') (h' : Alone j s' s'') : Alone j s s'' := by
  induction h with
  | refl => exact h'
  | step h1 _ ih => exact .step h1 (ih h')

/-- A thread that holds the lock ends its addition. -/
theorem holder_done {s : St} (h : Inv s) {j : Nat} (hj : hold (s.th j) ≠ none) : ∃ s', Alone j s s' ∧ s'.th j = .idle := by
  have key : ∀ m (s : St), Inv s → ∀ c x n k, s.th j = .copy c x n k → (enc c).length - k ≤ m → ∃ s', Alone j s s' ∧ s'.th j = .idle := by
    intro m
    induction m with
    | zero =>
      intro s h c x n k hp hm
      have := h.ti j
      rw [hp] at this
      obtain ⟨_, _, _, _, _, h4, _⟩ := this
      omega
    | succ m ih =>
      intro s h c x n k hp hm
      have := h.ti j
      rw [hp] at this
      obtain ⟨b, hb, _, _, h3, h4, _⟩ := this
      obtain ⟨s1, hs1, hth⟩ : ∃ s1, next s j = some s1 ∧ (s1.th j = .store c x n ∨ s1.th j = .copy c x n (k + 1)) := by
        unfold next
        simp only [hp, hb, List.getElem?_eq_getElem h4]
        rw [if_pos (by omega)]
        by_cases he : k + 1 = (enc c).length
        · rw [if_pos he]; exact ⟨_, rfl, Or.inl (by simp [St.go])⟩
        · rw [if_neg he]; exact ⟨_, rfl, Or.inr (by simp [St.go])⟩
      have hI := next_inv h j hs1
      rcases hth with hth | hth
      · have ht := hI.ti j
        rw [hth] at ht
        obtain ⟨b1, hb1, _⟩ := ht
        obtain ⟨s2, hs2, hd⟩ : ∃ s2, next s1 j = some s2 ∧ s2.th j = .idle := by
          unfold next
          simp only [hth, hb1]
          exact ⟨_, rfl, by simp [St.go]⟩
        exact ⟨s2, .step hs1 (.step hs2 (.refl _)), hd⟩
      · obtain ⟨s2, a, d⟩ := ih s1 hI c x n (k + 1) hth (by omega)
        exact ⟨s2, .step hs1 a, d⟩
  cases hp : s.th j with
  | copy c x n k => exact key _ s h c x n k hp (Nat.le_refl _)
  | store c x n =>
    have ht := h.ti j
    rw [hp] at ht
    obtain ⟨b1, hb1, _⟩ := ht
    obtain ⟨s2, hs2, hd⟩ : ∃ s2, next s j = some s2 ∧ s2.th j = .idle := by
      unfold next
      simp only [hp, hb1]
      exact ⟨_, rfl, by simp [St.go]⟩
    exact ⟨s2, .step hs2 (.refl _), hd⟩
  | pub c x =>
    obtain ⟨s2, hs2, hd⟩ : ∃ s2, next s j = some s2 ∧ s2.th j = .idle := by
      unfold next
      simp only [hp]
      exact ⟨_, rfl, by simp [St.go]⟩
    exact ⟨s2, .step hs2 (.refl _), hd⟩
  | _ => rw [hp] at hj; exact absurd rfl hj

/-- If nobody holds the lock, a thread about to read a nonempty list ends its addition. -/
theorem load_done {s : St} (h : Inv s) (hno : ∀ i, hold (s.th i) = none) {j x : Nat} {c : Cl} (hp : s.th j = .load c) (hx : s.head = some x) :
    ∃ s', Alone j s s' ∧ s'.th j = .idle := by
  have hxl := head_get h hx
  have hs1 : next s j = some (s.go j (.lockb c x)) := by
    unfold next
    simp only [hp, hx]
  have hI := next_inv h j hs1
  have hlt : x < s.blk.length := by omega
  have hb := List.getElem?_eq_getElem hlt
  have hun : s.blk[x].lock = false := by
    cases hl : s.blk[x].lock with
    | false => rfl
    | true =>
      obtain ⟨i, hi⟩ := h.free _ (by rw [show s.blk.length - 1 = x by omega]; exact hb) hl
      exact absurd (hno i) hi
  obtain ⟨s2, hs2, hd⟩ : ∃ s2, next (s.go j (.lockb c x)) j = some s2 ∧ hold (s2.th j) ≠ none := by
    have e1 : (s.go j (.lockb c x)).th j = .lockb c x := by simp [St.go]
    have e2 : (s.go j (.lockb c x)).blk[x]? = some s.blk[x] := hb
    unfold next
    simp only [e1, e2, hun, Bool.false_eq_true, if_false]
    split
    · exact ⟨_, rfl, by simp [St.go, hold]⟩
    · exact ⟨_, rfl, by simp [St.go, hold]⟩
  obtain ⟨s3, a, d⟩ := holder_done (next_inv hI j hs2) hd
  exact ⟨s3, .step hs1 (.step hs2 a), d⟩

/-- **C52 (somebody makes progress).**  Whenever a thread is adding a clause, there is a thread that adds a clause and that ends its addition if it is run, whatever the
other threads wait for; a lock is never left behind by a thread that has ended. -/
theorem C52_progress {cap : Nat} (hc : 2 ≤ cap) {s : St} (h : Reach cap s) {i : Nat} (hi : adding (s.th i) ≠ none) :
    ∃ j s', adding (s.th j) ≠ none ∧ Alone j s s' ∧ s'.th j = .idle := by
  have hI := reach_inv hc h
  by_cases hh : ∃ j, hold (s.th j) ≠ none
  · obtain ⟨j, hj⟩ := hh
    obtain ⟨s', a, d⟩ := holder_done hI hj
    refine ⟨j, s', ?_, a, d⟩
    cases hp : s.th j <;> rw [hp] at hj <;> first | exact absurd rfl hj | simp [adding]
  · have hno : ∀ j, hold (s.th j) = none := by
      intro j
      cases hq : hold (s.th j) with
      | none => rfl
      | some y => exact absurd ⟨j, by rw [hq]; simp⟩ hh
    refine ⟨i, ?_⟩
    have hmove : ∀ (s1 : St), next s i = some s1 → hold (s1.th i) = none → ∀ j, hold (s1.th j) = none := by
      intro s1 h1 h2 j
      by_cases hj : j = i
      · rw [hj]; exact h2
      · rw [next_other hj h1]; exact hno j
    have hload : ∀ (s1 : St), Inv s1 → (∀ j, hold (s1.th j) = none) → ∀ c, s1.th i = .load c → ∃ s', Alone i s1 s' ∧ s'.th i = .idle := by
      intro s1 h1 h2 c h3
      cases hx : s1.head with
      | some x => exact load_done h1 h2 h3 hx
      | none =>
        have n1 : next s1 i = some (s1.go i (.cas c)) := by
          unfold next
          simp only [h3, hx]
        have I1 := next_inv h1 i n1
        obtain ⟨s2, n2, t2, x2⟩ : ∃ s2, next (s1.go i (.cas c)) i = some s2 ∧ s2.th = (fun j => if j = i then Pc.load c else (s1.go i (.cas c)).th j) ∧
            s2.head = some s1.blk.length := by
          have e1 : (s1.go i (.cas c)).th i = .cas c := by simp [St.go]
          have e2 : (s1.go i (.cas c)).head = none := hx
          unfold next
          simp only [e1, e2]
          exact ⟨_, rfl, rfl, rfl⟩
        have I2 := next_inv I1 i n2
        obtain ⟨s3, a, d⟩ := load_done I2 (by
          intro j
          rw [t2]
          by_cases hj : j = i
          · simp [hj, hold]
          · simp only [if_neg hj, St.go]
            exact h2 j) (show s2.th i = .load c by rw [t2]; simp) x2
        exact ⟨s3, .step n1 (.step n2 a), d⟩
    cases hp : s.th i with
    | load c =>
      obtain ⟨s', a, d⟩ := hload s hI hno c hp
      exact ⟨s', by simp [adding], a, d⟩
    | lockb c x =>
      have ht := hI.ti i
      rw [hp] at ht
      simp only [TI] at ht
      have hb := List.getElem?_eq_getElem ht
      obtain ⟨s1, n1, h1⟩ : ∃ s1, next s i = some s1 ∧ (s1.th i = .load c ∨ hold (s1.th i) ≠ none) := by
        unfold next
        simp only [hp, hb]
        split
        · exact ⟨_, rfl, Or.inl (by simp [St.go])⟩
        · split
          · exact ⟨_, rfl, Or.inr (by simp [St.go, hold])⟩
          · exact ⟨_, rfl, Or.inr (by simp [St.go, hold])⟩
      have I1 := next_inv hI i n1
      rcases h1 with h1 | h1
      · obtain ⟨s', a, d⟩ := hload s1 I1 (hmove s1 n1 (by rw [h1]; rfl)) c h1
        exact ⟨s', by simp [adding], .step n1 a, d⟩
      · obtain ⟨s', a, d⟩ := holder_done I1 h1
        exact ⟨s', by simp [adding], .step n1 a, d⟩
    | cas c =>
      obtain ⟨s1, n1, h1⟩ : ∃ s1, next s i = some s1 ∧ s1.th i = .load c := by
        unfold next
        simp only [hp]
        split
        · exact ⟨_, rfl, by simp [St.go]⟩
        · exact ⟨_, rfl, by simp [St.go]⟩
      obtain ⟨s', a, d⟩ := hload s1 (next_inv hI i n1) (hmove s1 n1 (by rw [h1]; rfl)) c h1
      exact ⟨s', by simp [adding], .step n1 a, d⟩
    | copy c x n k => have := hno i; rw [hp] at this; cases this
    | store c x n => have := hno i; rw [hp] at this; cases this
    | pub c x => have := hno i; rw [hp] at this; cases this
    | _ => rw [hp] at hi; exact absurd rfl hi

/-! ### Concrete cases -/

/-- An event (example only): a next step, the start of an addition, the start of a traversal. -/
inductive Ev
  | nx (i : Nat)
  | ad (i : Nat) (c : Cl)
  | rd (i : Nat)

/-- Whether a thread is in none of the functions (example only). -/
def isIdle : Pc → Bool
  | .idle => true
  | _ => false

/-- One event (example only). -/
def one (s : St) : Ev → Option St
  | .nx i => next s i
  | .ad i c => if isIdle (s.th i) then some (s.go i (.load c)) else none
  | .rd i => if isIdle (s.th i) then some (s.go i .rhead) else none

/-- A schedule (example only). -/
def sched : List Ev → St → Option St
  | [], s => some s
  | e :: t, s => (one s e).bind (sched t)

/-- A schedule in which thread `i` stays in its function (example only). -/
def schedIn (i : Nat) : List Ev → St → Option St
  | [], s => some s
  | e :: t, s => (one s e).bind fun s => if isIdle (s.th i) then none else schedIn i t s

/-- `n` next steps of thread `i` (example only). -/
def stp (i n : Nat) : List Ev := List.replicate n (.nx i)

theorem isIdle_iff {p : Pc} : isIdle p = true ↔ p = .idle := by cases p <;> simp [isIdle]

theorem one_step {s s' : St} {e : Ev} (h : one s e = some s') : Step s s' := by
  cases e with
  | nx i => exact Step.next i h
  | ad i c =>
    simp only [one] at h
    split at h
    · rename_i hi; injection h with h; subst h; exact Step.add i c (isIdle_iff.1 hi)
    · cases h
  | rd i =>
    simp only [one] at h
    split at h
    · rename_i hi; injection h with h; subst h; exact Step.read i (isIdle_iff.1 hi)
    · cases h

theorem sched_reach {t : List Ev} {s s' : St} {cap : Nat} (h : Reach cap s) (hs : sched t s = some s') : Reach cap s' := by
  induction t generalizing s with
  | nil => injection hs with hs; rw [← hs]; exact h
  | cons e t ih =>
    simp only [sched] at hs
    cases hn : one s e with
    | none => rw [hn] at hs; cases hs
    | some s1 => rw [hn] at hs; exact ih (Reach.step h (one_step hn)) hs

theorem schedIn_run {t : List Ev} {i : Nat} {s s' s0 : St} (h : Run i s0 s) (hs : schedIn i t s = some s') : Run i s0 s' := by
  induction t generalizing s with
  | nil => injection hs with hs; rw [← hs]; exact h
  | cons e t ih =>
    simp only [schedIn] at hs
    cases hn : one s e with
    | none => rw [hn] at hs; cases hs
    | some s1 =>
      rw [hn] at hs
      simp only [Option.bind_some] at hs
      split at hs
      · cases hs
      · rename_i hi
        exact ih (Run.step h (one_step hn) (fun hq => hi (isIdle_iff.2 hq))) hs

/-- Threads 0 and 1 find the list empty at the same time, thread 1 comes first; thread 0 adds a ternary clause, thread 1 has locked the block for a binary one that does not fit any more,
and thread 2 begins to go through the list. -/
def ex1 : List Ev := [.ad 0 (1, some 2), .ad 1 (3, none), .nx 0, .nx 1, .nx 1, .nx 0] ++ stp 0 5 ++ stp 1 2 ++ [.rd 2]

/-- While thread 2 goes through the list, thread 1 publishes its block and thread 0 adds another binary clause to it. -/
def ex2 : List Ev := [.nx 2, .nx 2, .nx 1, .ad 0 (4, none)] ++ stp 0 4 ++ stp 2 4

/-- Blocks of two words: the state after `ex1` and the execution `ex2` meet the hypotheses of all theorems: nothing bad, one clause added, thread 1 adding and holding the lock, thread 2 at
the start; then thread 2 has seen the clause that was there at its start, and two more were added since. -/
example : ∃ s s' snap acc, Reach 2 s ∧ s.bad = false ∧ s.added = [(1, some 2)] ∧ adding (s.th 1) = some (3, none) ∧ (∃ s1, next s 1 = some s1 ∧ s1.added = [(1, some 2), (3, none)]) ∧
    s.th 2 = .rhead ∧ Run 2 s s' ∧ s'.th 2 = .rdone snap acc ∧ acc = [(1, some 2)] ∧ s'.added = [(1, some 2), (3, none), (4, none)] ∧ hasLearnt 2 (some 1) acc = true ∧
    hasLearnt 3 none acc = false := by
  have h1 : (sched ex1 (St.new 2)).isSome = true := by decide +kernel
  obtain ⟨s, hs⟩ := Option.isSome_iff_exists.1 h1
  have hR : Reach 2 s := sched_reach .new hs
  have h2 : ((sched ex1 (St.new 2)).bind (schedIn 2 ex2)).isSome = true := by decide +kernel
  rw [hs] at h2
  obtain ⟨s', hs'⟩ := Option.isSome_iff_exists.1 h2
  simp only [Option.bind_some] at hs'
  have hs2 : (sched ex1 (St.new 2)).bind (schedIn 2 ex2) = some s' := by rw [hs]; exact hs'
  refine ⟨s, s', [(1, some 2)], [(1, some 2)], hR, C52_safe (by omega) hR, ?_, ?_, ?_, ?_, schedIn_run (.refl s) hs', ?_, rfl, ?_, by decide +kernel, by decide +kernel⟩
  all_goals first | (cases hs; rfl) | (cases hs; exact ⟨_, rfl, rfl⟩) | (cases hs2; rfl)

end Clasp.Imp
