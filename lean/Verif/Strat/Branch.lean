/-!
# Conflicts of the current branch

Model of `Solver::updateBranch` (src/solver.cpp:1825-1830) and of the start of a search (src/solver.cpp:1846), which count the conflicts of the current branch for local restarts
(src/solver.cpp:1834-1837).  Counters are unbounded here and 32 bits wide in the code.
-/

namespace Clasp.Branch

/-- The loop in src/solver.cpp:1827: `rev` is `cflStamp_` from its back, `k` the number of elements to be removed, `n` their sum so far. -/
def popLoop : Nat → List Nat → Nat → List Nat × Nat
  | 0, rev, n => (rev, n)
  | _ + 1, [], n => ([], n)
  | k + 1, x :: rev, n => popLoop k rev (n + x)

/-- src/solver.cpp:1829 `cflStamp_.back() += n`; the vector is never empty there. -/
def addBack : List Nat → Nat → List Nat
  | [], _ => []
  | x :: t, n => (x + n) :: t

/-- src/solver.cpp:1825-1830 `updateBranch(n)` on level `dl`; `rev` is `cflStamp_` from its back. -/
def update (rev : List Nat) (dl n : Nat) : List Nat :=
  let r :=
    if dl + 1 < rev.length then popLoop (rev.length - (dl + 1)) rev n
    else if rev.length < dl + 1 then (List.replicate (dl + 1 - rev.length) 0 ++ rev, n)
    else (rev, n)
  addBack r.1 r.2

/-- `cflStamp_` after some rounds of the loop in src/solver.cpp:1857-1865, each with the level it ended on and its number of conflicts, since the last search that started on the root level `root` (src/solver.cpp:1846).
Between two rounds decisions are made (or levels are taken back for other reasons, e.g. after a model), which leaves the vector as it is. -/
def stamps (root : Nat) (l : List (Nat × Nat)) : List Nat := l.foldl (fun v c => update v c.1 c.2) (List.replicate (root + 1) 0)

/-- src/solver.cpp:1835: the number compared with the limit for restarts; `used` is the number of conflicts of the search. -/
def current (loc : Bool) (rev : List Nat) (used : Nat) : Nat := if !loc || rev.isEmpty then used else rev.headD 0

/-- src/solver.cpp:1834-1837 `restartReached` without dynamic limit; `none` is `UINT64_MAX`, simplified to no limit. -/
def restartReached (loc : Bool) (rev : List Nat) (used : Nat) (limit : Option Nat) : Bool :=
  match limit with
  | none => false
  | some c => decide (c ≤ current loc rev used)

/-- Specification: the conflicts since the branch at level `l` was entered, that is, since the last time the search went back below `l`. -/
def since (l : Nat) (h : List (Nat × Nat)) : Nat := ((h.reverse.takeWhile fun c => decide (l ≤ c.1)).map (·.2)).sum

theorem popLoop_eq (k : Nat) (rev : List Nat) (n : Nat) (h : k ≤ rev.length) : popLoop k rev n = (rev.drop k, n + (rev.take k).sum) := by
  induction k generalizing rev n with
  | zero => simp [popLoop]
  | succ k ih =>
    cases rev with
    | nil => simp at h
    | cons x rev =>
      simp only [popLoop, List.drop_succ_cons, List.take_succ_cons, List.sum_cons]
      rw [ih rev _ (by simpa using h), Nat.add_assoc]

/-- Invariant: the stamps of level `l` and above are the conflicts since the branch at `l` was entered; the vector ends with the level of the last conflict. -/
structure Inv (v : List Nat) (h : List (Nat × Nat)) : Prop where
  len : ∀ c, h.getLast? = some c → v.length = c.1 + 1
  sum : ∀ l, l < v.length → (v.take (v.length - l)).sum = since l h
  ne : v ≠ []

theorem since_snoc (l : Nat) (h : List (Nat × Nat)) (d n : Nat) (hl : l ≤ d) : since l (h ++ [(d, n)]) = n + since l h := by
  simp [since, hl]

theorem since_zero {l : Nat} {h : List (Nat × Nat)} (hl : ∀ c, h.getLast? = some c → c.1 < l) : since l h = 0 := by
  unfold since
  cases hr : h.reverse with
  | nil => simp
  | cons c t =>
    have := hl c (by rw [List.getLast?_eq_head?_reverse, hr]; rfl)
    simp [show ¬ l ≤ c.1 by omega]

theorem update_inv {v : List Nat} {h : List (Nat × Nat)} (i : Inv v h) (d n : Nat) : Inv (update v d n) (h ++ [(d, n)]) ∧ (update v d n).length = d + 1 := by
  -- the vector before the last addition
  obtain ⟨w, m, hw, hlen, hsum⟩ : ∃ w m, update v d n = addBack w m ∧ w.length = d + 1 ∧ ∀ l, l ≤ d → (w.take (d + 1 - l)).sum + m = n + since l h := by
    by_cases h1 : d + 1 < v.length
    · refine ⟨v.drop (v.length - (d + 1)), n + (v.take (v.length - (d + 1))).sum, ?_, by simp; omega, ?_⟩
      · unfold update
        rw [if_pos h1, popLoop_eq _ _ _ (by omega)]
      · intro l hl
        rw [← i.sum l (by omega), show v.length - l = (v.length - (d + 1)) + (d + 1 - l) by omega, List.take_add, List.sum_append]
        omega
    · by_cases h2 : v.length < d + 1
      · refine ⟨List.replicate (d + 1 - v.length) 0 ++ v, n, ?_, by simp; omega, ?_⟩
        · unfold update
          rw [if_neg h1, if_pos h2]
        · intro l hl
          have hz : ∀ k, (List.replicate k 0).sum = 0 := by
            intro k
            induction k with
            | zero => rfl
            | succ k ih => rw [List.replicate_succ, List.sum_cons, ih]
          rw [List.take_append, List.sum_append, List.take_replicate, hz, List.length_replicate]
          by_cases hlv : l < v.length
          · rw [← i.sum l hlv, show d + 1 - l - (d + 1 - v.length) = v.length - l by omega]
            omega
          · have hs : since l h = 0 := since_zero fun c hc => by
              have := i.len c hc
              omega
            rw [hs, show d + 1 - l - (d + 1 - v.length) = 0 by omega]
            simp
      · refine ⟨v, n, ?_, by omega, ?_⟩
        · unfold update
          rw [if_neg h1, if_neg h2]
        · intro l hl
          rw [← i.sum l (by omega), show v.length = d + 1 by omega]
          omega
  cases w with
  | nil => simp at hlen
  | cons x t =>
    have hu : update v d n = (x + m) :: t := hw
    rw [hu]
    simp only [List.length_cons] at hlen
    refine ⟨⟨?_, ?_, by simp⟩, by simpa using hlen⟩
    · intro c hc
      simp at hc
      rw [← hc]
      simpa using hlen
    · intro l hl
      simp only [List.length_cons] at hl ⊢
      have h3 := hsum l (by omega)
      rw [since_snoc l h d n (by omega), ← h3, show t.length + 1 - l = (d - l) + 1 by omega, show d + 1 - l = (d - l) + 1 by omega]
      simp only [List.take_succ_cons, List.sum_cons]
      omega

theorem stamps_inv (root : Nat) (h : List (Nat × Nat)) : Inv (stamps root h) h := by
  have key : ∀ (l h : List (Nat × Nat)) (v : List Nat), Inv v h → Inv (l.foldl (fun v c => update v c.1 c.2) v) (h ++ l) := by
    intro l
    induction l with
    | nil => intro h v i; simpa using i
    | cons c l ih =>
      intro h v i
      have := ih (h ++ [c]) _ (update_inv i c.1 c.2).1
      simpa using this
  have hz : ∀ k, (List.replicate k 0).sum = 0 := by
    intro k
    induction k with
    | zero => rfl
    | succ k ih => rw [List.replicate_succ, List.sum_cons, ih]
  have := key h [] (List.replicate (root + 1) 0) ⟨by intro c hc; simp at hc, by intro l _; rw [List.take_replicate, hz]; simp [since], by simp⟩
  simpa [stamps] using this

/-- **C54 (local restarts).**  With local restarts, a restart is due after a round of conflicts exactly if the number of conflicts since the branch at the level the search went back to was entered
(since the last time conflicts took it below this level, or since the start) is at least the limit.  Without, the conflicts of the whole search are compared. -/
theorem C54_local (root : Nat) (h : List (Nat × Nat)) (d n used c : Nat) :
    (restartReached true (stamps root (h ++ [(d, n)])) used (some c) = true ↔ c ≤ since d (h ++ [(d, n)])) ∧
    (restartReached false (stamps root (h ++ [(d, n)])) used (some c) = true ↔ c ≤ used) := by
  refine ⟨?_, by simp [restartReached, current]⟩
  have i := stamps_inv root (h ++ [(d, n)])
  have hl := i.len (d, n) (by simp)
  have hs := i.sum d (by omega)
  rw [hl, show d + 1 - d = 1 by omega] at hs
  rw [← hs]
  cases hv : stamps root (h ++ [(d, n)]) with
  | nil => exact absurd hv i.ne
  | cons x t => simp [restartReached, current]

/-- Conflicts end on levels 3, 5 and 4: 5 since level 4 was entered.  Then 4 more end on level 2, which all 10 belong to.  When level 4 is entered again, only the 7 new ones count: a limit of 7 is reached, one of 8 is not,
although there were 17 conflicts. -/
example : since 4 [(3, 1), (5, 2), (4, 3)] = 5 ∧ since 2 [(3, 1), (5, 2), (4, 3), (2, 4)] = 10 ∧
    restartReached true (stamps 0 [(3, 1), (5, 2), (4, 3), (2, 4), (4, 7)]) 17 (some 7) = true ∧
    restartReached true (stamps 0 [(3, 1), (5, 2), (4, 3), (2, 4), (4, 7)]) 17 (some 8) = false ∧
    restartReached false (stamps 0 [(3, 1), (5, 2), (4, 3), (2, 4), (4, 7)]) 17 (some 8) = true := by decide

end Clasp.Branch
