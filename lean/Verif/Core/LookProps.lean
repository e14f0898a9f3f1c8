import Verif.Core.LookReach
import Mathlib.Logic.Relation

/-!
# C49: lookahead loses no candidate, and adds and rejects only what follows

The specification does not use the lists of the model: a candidate is any literal that was appended,
a model is any assignment that propagation is sound for.
-/

namespace Clasp.Look

/-! ## The candidate list -/

theorem ch_reach {nx : Nat → Option Nat} {e : Option Nat} {i : Nat} : ∀ (l : List Nat) (a : Nat), Ch nx (a :: l) e →
    i ∈ a :: l → Relation.ReflTransGen (fun a b => nx a = some b) a i := by
  intro l
  induction l with
  | nil =>
    intro a _ hi
    rw [List.mem_singleton.1 hi]
  | cons b l ih =>
    intro a h hi
    rcases List.mem_cons.1 hi with rfl | hi
    · exact Relation.ReflTransGen.refl
    · exact Relation.ReflTransGen.head h.1 (ih b h.2 hi)

theorem flat_in {sg : List (Option (List Nat))} {i} (h : i ∈ flat sg) : ∃ l, In sg i l := by
  induction sg with
  | nil => simp [flat] at h
  | cons x r ih =>
    simp only [flat, List.flatMap_cons, List.mem_append] at h
    rcases h with h | h
    · cases x with
      | none => simp at h
      | some y => exact ⟨r.length, Or.inl ⟨rfl, y, rfl, by simpa using h⟩⟩
    · obtain ⟨l, hl⟩ := ih h
      exact ⟨l, Or.inr hl⟩

theorem asg_not_free {s : St} {i l} (h : Asg s i l) : s.free (s.lit i).var = false := by
  obtain ⟨x, hx, hv, -⟩ := h
  rw [St.free]
  simp only [Bool.and_eq_false_iff]
  right
  rw [List.all_eq_false]
  exact ⟨x, hx, by simp [hv]⟩

theorem mem_cand {s : St} {C sg} (hc : Core s C (flat sg)) (hs : Sv s sg) {i} (h2 : 2 ≤ i) (hn : i < s.n)
    (hf : s.free (s.lit i).var = true) : i ∈ C := by
  have := (hc.mem i).2 hn
  rcases List.mem_append.1 this with h | h
  · exact h
  · rcases List.mem_cons.1 h with h | h
    · omega
    · obtain ⟨l, hl⟩ := flat_in h
      rw [asg_not_free (hs.asg i l hl)] at hf; cases hf

/-- No candidate is lost: at any time a candidate whose variable is free is found when the candidate
list is followed from its head. -/
theorem C49_candidates {e : Env} (he : Ext e) {imp1 : Bool} {s : St} (h : Reach e imp1 s) {i : Nat} (h2 : 2 ≤ i)
    (hn : i < s.n) (hf : s.free (s.lit i).var = true) :
    Relation.ReflTransGen (fun a b => s.next a = some b) 0 i := by
  obtain ⟨⟨C, sg, hc, hs⟩, -⟩ := reach_inv he h
  have hi := mem_cand hc hs h2 hn hf
  obtain ⟨X, Y, rfl⟩ := List.append_of_mem hc.zero
  have hr := (rot_core hc).cyc
  refine ch_reach _ 0 hr ?_
  simp only [List.mem_append, List.mem_cons] at hi ⊢
  tauto

/-- Lookahead never goes wrong: it ends, uses no invalid index, does not confuse the end of a test with
the end of a level; going back to a lower level works and leaves exactly the literals of the remaining
levels. -/
theorem C49_total {e : Env} (he : Ext e) {imp1 : Bool} {s : St} (h : Reach e imp1 s) :
    (∃ res s', propagateLevel e s = some (res, s') ∧ res ≠ .bad) ∧
    ∀ k, ∃ s', undoUntil s k s.dl = some s' ∧ s'.dl = min s.dl k ∧
      s'.trail = s.trail.filter fun x => decide (x.2 ≤ min s.dl k) := by
  have hi := reach_inv he h
  refine ⟨?_, fun k => ?_⟩
  · obtain ⟨res, s', h1, -, h2, -⟩ := run_inv he hi
    exact ⟨res, s', h1, h2⟩
  · obtain ⟨s', h1, -, -, -, -, h2, h3⟩ := undoUntil_spec e k s.dl s hi (Nat.le_refl _)
    exact ⟨s', h1, h2, by rw [h3, h2]⟩

/-! ## Soundness -/

/-- Literals that lookahead adds are true in every model that the assignment so far is true in; a literal
whose test fails is false in every such model; a conflict is reported only if there is no such model. -/
theorem C49_sound {e : Env} (he : Ext e) {imp1 : Bool} {s : St} (h : Reach e imp1 s) (hg : s.imps = [] ∨ s.dl = 0)
    {m : Nat → Bool} (hM : SoundFor e m) (hT : ∀ l ∈ s.lits, tr m l) {res s'}
    (hr : propagateLevel e s = some (res, s')) :
    (∀ l ∈ s'.lits, tr m l) ∧ res ≠ .conflict ∧ ∀ q, res = .failed q → ¬ tr m q := by
  obtain ⟨⟨C, sg, hc, hs⟩, ho⟩ := reach_inv he h
  obtain ⟨sv, w, hst, hsl⟩ := start_fst (s := s)
  have := pl_gen e
    (fun s todo => Todo e s todo ∧ (∀ l ∈ s.lits, tr m l) ∧ (∀ t ∈ todo, ∀ b, s.tested (s.lit t).var b = false) ∧
      (s.imps = [] ∨ ((∀ v b, s.seen v b = false) ∧ s.dl = 0 ∧ s.imp1 = true)))
    (fun r s => (∀ l ∈ s.lits, tr m l) ∧ r ≠ .conflict ∧ ∀ q, r = .failed q → ¬ tr m q)
    (fun s nx todo h => ⟨h.1.lit rfl, h.2⟩)
    (fun s todo h => by
      obtain ⟨f, t, i, se, te, de, -⟩ := split_frame e s
      refine ⟨h.1.lit f.lit, ?_, ?_, ?_⟩
      · rw [St.lits, t]; exact h.2.1
      · rw [te, f.lit]; exact h.2.2.1
      · rw [i, se, f.dl, f.imp1]; exact h.2.2.2)
    (fun s t todo h hf hok => by
      have f := test_frame e s (s.lit t) (s.flg t)
      obtain ⟨a, b, -, -⟩ := test_sound hM (fl := s.flg t) h.2.1 (h.2.2.1 t (by simp)) h.2.2.2
      refine ⟨h.1.tail.lit f.lit, a, ?_, Or.inl (b hok)⟩
      intro t' ht' b'
      rw [f.lit]
      by_contra hh
      have hh : (test e s (s.lit t) (s.flg t)).2.tested (s.lit t').var b' = true := by simpa using hh
      rcases test_tested hh with g | g
      · rw [h.2.2.1 t' (List.mem_cons_of_mem _ ht') b'] at g; cases g
      · have := h.1.vars
        rw [List.map_cons, List.nodup_cons] at this
        exact this.1 (List.mem_map.2 ⟨t', ht', g⟩))
    (fun s t todo h hf => ⟨h.1.tail, h.2.1, fun t' ht' => h.2.2.1 t' (List.mem_cons_of_mem _ ht'), h.2.2.2⟩)
    (fun s t todo h hf hok => by
      obtain ⟨a, b, c, d⟩ := test_sound hM (fl := s.flg t) h.2.1 (h.2.2.1 t (by simp)) h.2.2.2
      exact ⟨a, c, d⟩)
    (fun s h => ⟨h.2.1, by simp, by simp⟩)
    (fun s todo h _ => ⟨h.2.1, by simp, by simp⟩)
    (fun r s x h => h)
    hc hs (by
      rw [hst]
      refine ⟨(todo_of hc ho).lit rfl, hT, fun t _ b => (clear_none (s := { s with saved := sv, watch := w }) ho.dep).2 _ b, ?_⟩
      by_cases hi : s.imps = []
      · exact Or.inl hi
      · refine Or.inr ⟨(clear_none (s := { s with saved := sv, watch := w }) ho.dep).1, hg.resolve_left hi, ?_⟩
        show s.imp1 = true
        by_contra hh
        exact hi (ho.imp (by simpa using hh)))
  obtain ⟨res', s'', -, -, a1, -, -, -, -, -, -, -, -, a10⟩ := this
  rw [hr] at a1
  cases a1
  exact a10

/-- Above level 0 lookahead assigns nothing itself. -/
theorem C49_high {e : Env} (he : Ext e) {imp1 : Bool} {s : St} (h : Reach e imp1 s) (hi : s.imps = []) (hd : s.dl ≠ 0)
    {res s'} (hr : propagateLevel e s = some (res, s')) : s'.trail = s.trail ∧ s'.imps = [] := by
  obtain ⟨⟨C, sg, hc, hs⟩, ho⟩ := reach_inv he h
  obtain ⟨sv, w, hst, hsl⟩ := start_fst (s := s)
  have := pl_gen e
    (fun s' _ => s'.trail = s.trail ∧ s'.imps = [] ∧ s'.dl ≠ 0)
    (fun _ s' => s'.trail = s.trail ∧ s'.imps = [])
    (fun s nx todo h => h)
    (fun s todo h => by
      obtain ⟨f, t, i, -⟩ := split_frame e s
      exact ⟨t.trans h.1, i.trans h.2.1, by rw [f.dl]; exact h.2.2⟩)
    (fun s t todo h hf hok => by
      have f := test_frame e s (s.lit t) (s.flg t)
      obtain ⟨a, b⟩ := test_high (e := e) (p := s.lit t) (fl := s.flg t) h.2.2 h.2.1
      exact ⟨a.trans h.1, b, by rw [f.dl]; exact h.2.2⟩)
    (fun s t todo h hf => h)
    (fun s t todo h hf hok => by
      obtain ⟨a, b⟩ := test_high (e := e) (p := s.lit t) (fl := s.flg t) h.2.2 h.2.1
      exact ⟨a.trans h.1, b⟩)
    (fun s h => ⟨h.1, h.2.1⟩)
    (fun s todo h _ => ⟨h.1, h.2.1⟩)
    (fun r s x h => h)
    hc hs (by rw [hst]; exact ⟨rfl, hi, hd⟩)
  obtain ⟨res', s'', -, -, a1, -, -, -, -, -, -, -, -, a10⟩ := this
  rw [hr] at a1
  cases a1
  exact a10

/-! ## Completeness -/

/-- If lookahead succeeds, was not cut short by split requests and added nothing, then no candidate whose
variable is free can be assigned such that propagation fails: neither its literal nor, if both are to be
tested, the complement. -/
theorem C49_no_failed {e : Env} (he : Mono e) {imp1 : Bool} {s : St} (h : Reach e imp1 s) {s'}
    (hr : propagateLevel e s = some (.ok, s')) (ht : s'.trail = s.trail) (hl : s'.limit ≠ some 0)
    {i : Nat} (h2 : 2 ≤ i) (hn : i < s.n) (hf : s.free (s.lit i).var = true) :
    (e.cl (s.lits ++ [s.lit i])).isSome = true ∧
    (s.flg i = true → (e.cl (s.lits ++ [(s.lit i).not])).isSome = true) := by
  obtain ⟨⟨C, sg, hc, hs⟩, ho⟩ := reach_inv he.ext h
  obtain ⟨sv, w, hst, hsl⟩ := start_fst (s := s)
  obtain ⟨good, hgood⟩ : ∃ good : Nat → Prop, good = fun t => s.free (s.lit t).var = true →
    (e.cl (s.lits ++ [s.lit t])).isSome = true ∧
    (s.flg t = true → (e.cl (s.lits ++ [(s.lit t).not])).isSome = true) := ⟨_, rfl⟩
  have := pl_gen e
    (fun s' todo => (∃ new, s'.trail = s.trail ++ new) ∧ s'.lit = s.lit ∧ s'.flg = s.flg ∧
      (s'.trail = s.trail → MarkOk e s' ∧ ∀ t ∈ C, t ∉ todo → good t))
    (fun r s' => r = .ok → s'.trail = s.trail → s'.limit ≠ some 0 → ∀ t ∈ C, good t)
    (fun s nx todo h => h)
    (fun s' todo h => by
      obtain ⟨f, t, i, se, -⟩ := split_frame e s'
      refine ⟨by rw [t]; exact h.1, f.lit.trans h.2.1, f.flg.trans h.2.2.1, ?_⟩
      rw [t]
      intro ht
      refine ⟨?_, (h.2.2.2 ht).2⟩
      intro v b hv
      rw [se] at hv
      rw [St.lits, t]
      exact (h.2.2.2 ht).1 v b hv)
    (fun s' t todo h hf hok => by
      have f := test_frame e s' (s'.lit t) (s'.flg t)
      obtain ⟨⟨new, hnew⟩, hlit, hflg, hm⟩ := h
      obtain ⟨new2, hnew2, -⟩ := f.trail
      refine ⟨⟨new ++ new2, by rw [hnew2, hnew, List.append_assoc]⟩, f.lit.trans hlit, f.flg.trans hflg, ?_⟩
      intro hh
      have hnn : new ++ new2 = [] := by
        rw [hnew2, hnew, List.append_assoc] at hh
        simpa using hh
      have e1 : s'.trail = s.trail := by rw [hnew, (List.append_eq_nil_iff.1 hnn).1]; simp
      have e2 : s'.lits = s.lits := by rw [St.lits, e1]; rfl
      obtain ⟨a, b, c⟩ := test_mark he (hm e1).1 hok (hh.trans e1.symm)
      refine ⟨a, ?_⟩
      intro t' ht' hnt
      by_cases htt : t' = t
      · subst htt
        rw [hgood]
        intro _
        rw [hlit, e2] at b c
        rw [hflg] at c
        exact ⟨b, c⟩
      · exact (hm e1).2 t' ht' (by simp [htt, hnt]))
    (fun s' t todo h hf => by
      obtain ⟨hnew, hlit, hflg, hm⟩ := h
      refine ⟨hnew, hlit, hflg, ?_⟩
      intro hh
      refine ⟨(hm hh).1, ?_⟩
      intro t' ht' hnt
      by_cases htt : t' = t
      · subst htt
        rw [hgood]
        intro hfr
        exfalso
        apply hf
        rw [hlit]
        have : s'.free (s.lit t').var = s.free (s.lit t').var := by rw [St.free, St.free, hh]
        rw [this]; exact hfr
      · exact (hm hh).2 t' ht' (by simp [htt, hnt]))
    (fun s' t todo h hf hok hr => absurd hr hok)
    (fun s' h _ hh _ t ht => (h.2.2.2 hh).2 t ht (by simp))
    (fun s' todo h hl _ _ hl' => absurd hl hl')
    (fun r s x h => h)
    hc hs (by
      rw [hst]
      refine ⟨⟨[], by simp [clearDeps]⟩, rfl, rfl, fun _ => ⟨?_, fun t ht hnt => absurd ht hnt⟩⟩
      intro v b hv
      rw [(clear_none (s := { s with saved := sv, watch := w }) ho.dep).1] at hv; cases hv)
  obtain ⟨res', s'', -, -, a1, -, -, -, -, -, -, -, -, a10⟩ := this
  rw [hr] at a1
  cases a1
  have := a10 rfl ht hl i (mem_cand hc hs h2 hn hf)
  rw [hgood] at this
  exact this hf

/-! ## Examples -/

namespace Ex

/-- Example: the literal is true in `m`. -/
def trb (m : Nat → Bool) (l : L) : Bool := m l.var == !l.neg

/-- Example: propagation of everything that follows from the models in `Ms`, for the variables up to
`k`. -/
def semCl (Ms : List (Nat → Bool)) (k : Nat) (A : List L) : Option (List L) :=
  let N := Ms.filter fun m => A.all (trb m)
  if N.isEmpty then none
  else some (A ++ ((List.range k).flatMap fun v => [(⟨v + 1, false⟩ : L), ⟨v + 1, true⟩]).filter fun l =>
    decide (l ∉ A) && N.all fun m => trb m l)

/-- Example: surroundings with these models; the propagations with the given numbers are stopped. -/
def semEnv (Ms : List (Nat → Bool)) (k : Nat) (st : List Nat) : Env where
  typ := fun v => decide (1 ≤ v ∧ v ≤ k)
  cl := semCl Ms k
  stop := fun n => decide (n ∈ st)
  split := fun _ => false

theorem trb_iff (m l) : trb m l = true ↔ tr m l := by simp [trb, tr]

theorem sem_mono (Ms k st) : Mono (semEnv Ms k st) := by
  constructor
  · intro A B h
    simp only [semEnv, semCl] at h
    split_ifs at h
    cases h
    exact List.prefix_append _ _
  · intro A B A' h hs
    simp only [semEnv, semCl] at h ⊢
    split_ifs at h with hN
    cases h
    obtain ⟨m, hm⟩ := List.exists_mem_of_ne_nil (Ms.filter fun m => A.all (trb m)) (by rwa [List.isEmpty_iff] at hN)
    obtain ⟨hm1, hm2⟩ := List.mem_filter.1 hm
    have : ¬ (Ms.filter fun m => A'.all (trb m)).isEmpty = true := by
      intro hh
      have : m ∈ Ms.filter fun m => A'.all (trb m) := by
        refine List.mem_filter.2 ⟨hm1, ?_⟩
        rw [List.all_eq_true] at hm2 ⊢
        intro l hl
        rcases List.mem_append.1 (hs hl) with g | g
        · exact hm2 l g
        · have := (List.mem_filter.1 g).2
          simp only [Bool.and_eq_true] at this
          exact (List.all_eq_true.1 this.2) m (List.mem_filter.2 ⟨hm1, by rw [List.all_eq_true]; exact hm2⟩)
      rw [List.isEmpty_iff] at hh
      rw [hh] at this; simp at this
    rw [if_neg this]; rfl

theorem sem_sound {Ms k st m} (hm : m ∈ Ms) : SoundFor (semEnv Ms k st) m := by
  intro A hA
  have hmN : m ∈ Ms.filter fun m => A.all (trb m) :=
    List.mem_filter.2 ⟨hm, by rw [List.all_eq_true]; intro l hl; exact (trb_iff m l).2 (hA l hl)⟩
  simp only [semEnv, semCl]
  rw [if_neg (by rw [List.isEmpty_iff]; intro hh; rw [hh] at hmN; simp at hmN)]
  refine ⟨_, rfl, ?_⟩
  intro l hl
  rcases List.mem_append.1 hl with g | g
  · exact hA l g
  · have := (List.mem_filter.1 g).2
    simp only [Bool.and_eq_true] at this
    exact (trb_iff m l).1 ((List.all_eq_true.1 this.2) m hmN)

/-- Example: the events in turn. -/
def exec (e : Env) : St → List Ev → Option St
  | s, [] => some s
  | s, ev :: evs => (step e s ev).bind fun s' => exec e s' evs

theorem exec_reach {e imp1} : ∀ (evs : List Ev) (s s' : St), Reach e imp1 s → exec e s evs = some s' → Reach e imp1 s' := by
  intro evs
  induction evs with
  | nil => intro s s' h hx; simp only [exec, Option.some.injEq] at hx; rw [← hx]; exact h
  | cons ev evs ih =>
    intro s s' h hx
    simp only [exec, Option.bind_eq_some_iff] at hx
    obtain ⟨s1, h1, h2⟩ := hx
    exact ih s1 s' (Reach.step ev h h1) h2

/-- Example: the assignment in which exactly the given variables are true. -/
def asgn (l : List Nat) : Nat → Bool := fun v => decide (v ∈ l)

/-- Example: variables 1 to 4, with 1 → 3, 2 → 3, and not both 1 and 2. -/
def Ms : List (Nat → Bool) := [asgn [], asgn [3], asgn [4], asgn [3, 4], asgn [1, 3], asgn [1, 3, 4], asgn [2, 3],
  asgn [2, 3, 4]]

/-- Example: three candidates; lookahead on level 0, a decision, an assignment, lookahead on level 1. -/
def evs : List Ev := [.append ⟨1, false⟩ true, .append ⟨2, false⟩ true, .append ⟨4, true⟩ true, .run,
  .decide ⟨1, false⟩, .assign ⟨2, true⟩, .assign ⟨3, false⟩, .run]

/-- Example: after the events nodes 2 and 3 (variables 1 and 2) are in the undo list, and after going back they are
found again. -/
example : ((exec (semEnv Ms 4 []) (St.init true) evs).map fun s => ((List.range 5).map s.next, s.dl)) =
    some ([some 4, some 2, some 3, none, some 0], 1) ∧
  ((exec (semEnv Ms 4 []) (St.init true) (evs ++ [.undo 0])).map fun s => ((List.range 5).map s.next, s.dl,
    s.free (s.lit 3).var)) =
    some ([some 2, none, some 3, some 4, some 0], 0, true) := by decide +kernel

/-- Example: `C49_candidates` and `C49_total` apply. -/
example (s : St) (h : exec (semEnv Ms 4 []) (St.init true) (evs ++ [.undo 0]) = some s)
    (hn : 3 < s.n) (hf : s.free (s.lit 3).var = true) : Relation.ReflTransGen (fun a b => s.next a = some b) 0 3 :=
  C49_candidates (sem_mono Ms 4 []).ext (exec_reach _ _ _ Reach.init h) (by decide) hn hf

/-- Example: 3 follows from both values of 1, and 2 cannot be true. -/
def Ms2 : List (Nat → Bool) := [asgn [1, 3], asgn [3]]

/-- Example: a propagation that finds only what follows from one literal: 1 → 3, -1 → 3, 2 fails. -/
def cl2 (A : List L) : Option (List L) :=
  if (⟨2, false⟩ : L) ∈ A ∨ (⟨3, true⟩ : L) ∈ A then none
  else if ((⟨1, false⟩ : L) ∈ A ∨ (⟨1, true⟩ : L) ∈ A) ∧ (⟨3, false⟩ : L) ∉ A then some (A ++ [⟨3, false⟩])
  else some A

/-- Example: surroundings with that propagation. -/
def env2 : Env where
  typ := fun v => decide (1 ≤ v ∧ v ≤ 3)
  cl := cl2
  stop := fun _ => false
  split := fun _ => false

theorem env2_ext : Ext env2 := by
  intro A B h
  simp only [env2, cl2] at h
  split_ifs at h <;> cases h
  · exact List.prefix_append _ _
  · exact List.prefix_rfl

theorem env2_sound : SoundFor env2 (asgn [1, 3]) := by
  intro A hA
  have h1 : ¬ ((⟨2, false⟩ : L) ∈ A ∨ (⟨3, true⟩ : L) ∈ A) := by
    rintro (h | h)
    · have := hA _ h; simp [tr, asgn] at this
    · have := hA _ h; simp [tr, asgn] at this
  simp only [env2, cl2, if_neg h1]
  split_ifs
  · refine ⟨_, rfl, ?_⟩
    intro l hl
    rcases List.mem_append.1 hl with g | g
    · exact hA l g
    · rw [List.mem_singleton.1 g]; simp [tr, asgn]
  · exact ⟨_, rfl, hA⟩

/-- Example: lookahead on level 0 adds 3, which follows from both 1 and its complement; then the test of
2 fails. -/
example : ((exec env2 (St.init true) [.append ⟨1, false⟩ true, .append ⟨2, true⟩ true]).bind fun s =>
    (propagateLevel env2 s).map fun r => (r.1, r.2.trail)) = some (.failed ⟨2, false⟩, [(⟨3, false⟩, 0)]) := by
  decide +kernel

/-- Example: `C49_sound` applies to it. -/
example (s : St) (h : exec env2 (St.init true) [.append ⟨1, false⟩ true, .append ⟨2, true⟩ true] = some s)
    (hd : s.dl = 0) (ht : s.trail = []) {res s'} (hr : propagateLevel env2 s = some (res, s')) :
    (∀ l ∈ s'.lits, tr (asgn [1, 3]) l) ∧ res ≠ .conflict ∧ ∀ q, res = .failed q → ¬ tr (asgn [1, 3]) q :=
  C49_sound env2_ext (exec_reach _ _ _ Reach.init h) (Or.inr hd) env2_sound (by simp [St.lits, ht]) hr

/-- Example: a run on level 1 that succeeds, is not cut short and adds nothing, with a free candidate (node
4): the hypotheses of `C49_no_failed` and `C49_high`. -/
example : ((exec (semEnv Ms 4 []) (St.init true) (evs.take 7)).bind fun s =>
    (propagateLevel (semEnv Ms 4 []) s).map fun r => (r.1, decide (r.2.trail = s.trail), r.2.limit, s.dl, s.imps.length,
      s.free (s.lit 4).var)) = some (.ok, true, none, 1, 0, true) := by decide +kernel

/-! ## What the theorems leave out is needed -/

/-- Example: 1 → 3, with 2 free. -/
def Ms3 : List (Nat → Bool) := [asgn [], asgn [2], asgn [3], asgn [2, 3], asgn [1, 3], asgn [1, 2, 3]]

/-- Example: lookahead on level 0 is stopped while the complement of 1 is tested, then the complement of 1
becomes the decision of level 1. -/
def evs3 : List Ev := [.append ⟨1, false⟩ true, .append ⟨2, false⟩ true, .run, .decide ⟨1, true⟩]

/-- Example: propagation by unit clauses of 1 → 2, -1 → 2, 3 → -4, (2 and -4) → 5, (2 and -4) → -5. -/
def cl4 (A : List L) : Option (List L) :=
  let A1 := if (⟨1, false⟩ : L) ∈ A ∨ (⟨1, true⟩ : L) ∈ A then (if (⟨2, false⟩ : L) ∈ A then A else A ++ [⟨2, false⟩]) else A
  let A2 := if (⟨3, false⟩ : L) ∈ A1 ∧ (⟨4, true⟩ : L) ∉ A1 then A1 ++ [⟨4, true⟩] else A1
  if (⟨2, false⟩ : L) ∈ A2 ∧ (⟨4, true⟩ : L) ∈ A2 then none else some A2

/-- Example: surroundings with that propagation. -/
def env4 : Env where
  typ := fun v => decide (1 ≤ v ∧ v ≤ 5)
  cl := cl4
  stop := fun _ => false
  split := fun _ => false

end Ex

/-- The condition of `C49_sound` is needed: after a stopped run on level 0 the literals kept from the test
of one literal are still there, and a run on level 1 would assign them, although a model that the
assignment is true in makes them false. -/
theorem C49_needs_level_0 : ∃ (e : Env) (s : St) (m : Nat → Bool), Mono e ∧ SoundFor e m ∧ Reach e true s ∧ s.dl = 1 ∧
    (∀ l ∈ s.lits, tr m l) ∧ ∃ res s', propagateLevel e s = some (res, s') ∧ ∃ l ∈ s'.lits, ¬ tr m l := by
  obtain ⟨s, hs⟩ : ∃ s, Ex.exec (Ex.semEnv Ex.Ms3 3 [1]) (St.init true) Ex.evs3 = some s :=
    Option.isSome_iff_exists.1 (by decide +kernel)
  have h1 : ((Ex.exec (Ex.semEnv Ex.Ms3 3 [1]) (St.init true) Ex.evs3).map fun s => (s.dl, s.lits)) =
      some (1, [⟨1, true⟩]) := by decide +kernel
  have h2 : ((Ex.exec (Ex.semEnv Ex.Ms3 3 [1]) (St.init true) Ex.evs3).bind fun s =>
      (propagateLevel (Ex.semEnv Ex.Ms3 3 [1]) s).map fun r => decide ((⟨3, false⟩ : L) ∈ r.2.lits)) = some true := by
    decide +kernel
  rw [hs] at h1 h2
  simp only [Option.map_some, Option.some.injEq, Prod.mk.injEq] at h1
  simp only [Option.bind_some, Option.map_eq_some_iff, decide_eq_true_eq] at h2
  obtain ⟨⟨res, s'⟩, hr, hm⟩ := h2
  refine ⟨_, s, Ex.asgn [], Ex.sem_mono _ _ _, Ex.sem_sound (by simp [Ex.Ms3]), Ex.exec_reach _ _ _ Reach.init hs,
    h1.1, ?_, res, s', hr, ⟨3, false⟩, hm, ?_⟩
  · rw [h1.2]; simp [tr, Ex.asgn]
  · simp [tr, Ex.asgn]

/-- The condition of `C49_no_failed` that nothing was added is needed: on level 0 a literal added late in a
run can make a literal fail that was tested early in it; the run is not repeated. -/
theorem C49_one_pass : ∃ (e : Env) (s s' : St), Ext e ∧ Reach e true s ∧ s.dl = 0 ∧
    propagateLevel e s = some (.ok, s') ∧ s'.limit ≠ some 0 ∧
    ∃ i, 2 ≤ i ∧ i < s.n ∧ s'.free (s.lit i).var = true ∧ e.cl s'.lits = some s'.lits ∧
      e.cl (s'.lits ++ [s.lit i]) = none := by
  obtain ⟨s, hs⟩ : ∃ s, Ex.exec Ex.env4 (St.init true) [.append ⟨3, false⟩ true, .append ⟨1, false⟩ true] = some s :=
    Option.isSome_iff_exists.1 (by decide +kernel)
  have h2 : ((Ex.exec Ex.env4 (St.init true) [.append ⟨3, false⟩ true, .append ⟨1, false⟩ true]).bind fun s =>
      (propagateLevel Ex.env4 s).map fun r => decide (s.dl = 0 ∧ r.1 = .ok ∧ r.2.limit ≠ some 0 ∧ 2 < s.n ∧
        r.2.free (s.lit 2).var = true ∧ Ex.env4.cl r.2.lits = some r.2.lits ∧
        Ex.env4.cl (r.2.lits ++ [s.lit 2]) = none)) = some true := by
    decide +kernel
  rw [hs] at h2
  simp only [Option.bind_some, Option.map_eq_some_iff, decide_eq_true_eq] at h2
  obtain ⟨⟨res, s'⟩, hr, hd, hok, hl, hn, hf, hc, hc2⟩ := h2
  simp only at hok hl hn hf hc hc2
  subst hok
  refine ⟨Ex.env4, s, s', ?_, Ex.exec_reach _ _ _ Reach.init hs, hd, hr, hl, 2, by decide, hn, hf, hc, hc2⟩
  intro A B h
  simp only [Ex.env4, Ex.cl4] at h
  split_ifs at h <;> cases h <;>
    first | exact List.prefix_rfl | exact List.prefix_append _ _ | exact (List.prefix_append _ _).trans (List.prefix_append _ _)

end Clasp.Look
