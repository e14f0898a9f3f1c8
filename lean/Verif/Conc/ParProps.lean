import Verif.Conc.ParStep

/-!
# Parallel solving: properties

C50: if parallel solving reports that the search space is exhausted, every point of it was searched.  This is so
if there are no global restarts and no thread runs out of memory, and more generally as long as none of the steps
named in `C50_loss` occurs.  The four witnesses at the end show that each kind of these steps leads to a wrong report.
-/

namespace Clasp.Par

/-- Specification: the state after a list of events. -/
def exec (s : St) : List Ev → Option St
  | [] => some s
  | ev :: l => (step s ev).bind fun s' => exec s' l

/-- Specification: all points of the search space were searched. -/
def Searched (s : St) : Prop := ∀ x ∈ s.X, x ∈ s.done

/-- Specification: neither a global restart nor a thread that runs out of memory. -/
def Ev.plain : Ev → Bool
  | .post _ => false
  | .fail _ => false
  | _ => true

theorem step_const {s s' : St} {ev : Ev} (h : step s ev = some s') :
    s'.X = s.X ∧ s'.n = s.n ∧ s'.bt = s.bt ∧ s'.mode = s.mode ∧ (∀ x ∈ s.done, x ∈ s'.done) ∧
      (s.lost = true → s'.lost = true) ∧ (s.term = true → s'.term = true) := by
  cases ev <;> simp only [step, leave, conflict, enter, go, take, sub, skip, lock0, lock, wake, noWork, Par.term, Par.simp, wsync,
    fin, search, split, finish, limit, stop, want, post, model1, model2, update, fail] at h <;>
    (repeat' split at h) <;> cases h <;> simp_all [St.put]

theorem put_t23 {s s1 : St} {i : Nat} {t : Th} (h : ∀ j, (s.th j).pc.t23 = false) (ht : t.pc.t23 = false)
    (hs : s1.th = s.th) (j : Nat) : ((s1.put i t).th j).pc.t23 = false := by
  rw [put_th, hs]
  by_cases hj : j = i
  · rw [if_pos hj]; exact ht
  · rw [if_neg hj]; exact h j

theorem term_keep {s s' : St} {ev : Ev} (hst : step s ev = some s') (ht : s.term = true) (hc : s.compl = false)
    (h23 : ∀ i, (s.th i).pc.t23 = false) : s'.compl = false ∧ ∀ i, (s'.th i).pc.t23 = false := by
  have hpi := h23
  cases ev with
  | term i =>
    have := h23 i
    simp only [step, Par.term, ht] at hst
    split at hst
    · cases hst; exact ⟨hc, put_t23 h23 rfl rfl⟩
    · rename_i c hp
      cases c with
      | true => simp [hp, Pc.t23] at this
      | false => cases hst; exact ⟨hc, put_t23 h23 rfl rfl⟩
    · rename_i hp; simp [hp, Pc.t23] at this
    · cases hst
  | _ =>
    simp only [step, leave, conflict, enter, go, take, sub, skip, lock0, lock, wake, noWork, Par.simp, wsync,
      fin, search, split, finish, limit, stop, want, post, model1, model2, update, fail] at hst <;>
    (repeat' split at hst) <;> cases hst <;>
    first
      | exact ⟨hc, h23⟩
      | (refine ⟨hc, put_t23 h23 ?_ rfl⟩
         first
           | rfl
           | (simp_all [Pc.t23]; done)
           | (split <;> simp_all [Pc.t23]))

theorem step_post {s s' : St} {ev : Ev} (h : GI s) (hz : ¬ Z s) (ht : s.term = false) (hst : step s ev = some s') :
    Post s' := by
  cases ev <;> simp only [step] at hst
  case leave i =>
    unfold leave at hst
    rw [ht] at hst
    split at hst <;> cases hst
  case conflict i =>
    exfalso
    unfold conflict at hst
    split at hst
    · split at hst
      · rename_i hall
        apply hz
        right
        intro x hx
        simpa using List.all_eq_true.1 hall x hx
      · cases hst
    · cases hst
  case enter => exact Or.inr (Or.inr (enter_inv h hst))
  case go => exact Or.inr (Or.inr (go_inv h hst))
  case take => exact Or.inr (Or.inr (take_inv h hst))
  case sub => exact Or.inr (Or.inr (sub_inv h hst))
  case skip => exact Or.inr (Or.inr (skip_inv h hst))
  case lock0 => exact Or.inr (Or.inr (lock0_inv h hst))
  case lock => exact Or.inr (Or.inr (lock_inv h hz ht hst))
  case wake => exact Or.inr (Or.inr (wake_inv h hst))
  case none => exact noWork_inv h ht hst
  case term => exact term_inv h ht hst
  case simp => exact Or.inr (Or.inr (simp_inv h hst))
  case wsync => exact Or.inr (Or.inr (wsync_inv h hst))
  case fin => exact fin_inv h hst
  case search => exact Or.inr (Or.inr (search_inv h hst))
  case split => exact Or.inr (Or.inr (split_inv h hst))
  case finish => exact Or.inr (Or.inr (finish_inv h hz hst))
  case limit => exact Or.inr (Or.inr (limit_inv h hst))
  case stop =>
    unfold stop at hst
    rw [ht] at hst
    split at hst <;> cases hst
  case want => exact Or.inr (Or.inr (want_inv h hst))
  case post => exact Or.inr (Or.inr (post_inv h hst))
  case model1 => exact Or.inr (Or.inr (model1_inv h hst))
  case model2 => exact Or.inr (Or.inr (model2_inv h hst))
  case update => exact Or.inr (Or.inr (update_inv h hst))
  case fail => exact fail_inv h hst
  case interrupt => cases hst; exact Or.inr (Or.inl ⟨rfl, h.t23⟩)

theorem compl_keep {s s' : St} {ev : Ev} (h : GI s) (hc : s.compl = false) (hst : step s ev = some s') :
    s'.compl = false := by
  cases ev with
  | term i =>
    have := (h.th i).bad
    simp only [step, Par.term] at hst
    split at hst
    · cases hst; exact hc
    · cases hst; exact hc
    · rename_i hp; simp [hp, Pc.bad] at this
    · cases hst
  | _ =>
    simp only [step, leave, conflict, enter, go, take, sub, skip, lock0, lock, wake, noWork, Par.simp, wsync,
      fin, search, split, finish, limit, stop, want, post, model1, model2, update, fail] at hst <;>
    (repeat' split at hst) <;> cases hst <;> exact hc

theorem Inv.step {s s' : St} {ev : Ev} (h : Inv s) (hst : Par.step s ev = some s') : Inv s' := by
  have hcn := step_const hst
  rcases h with hz | ⟨hc, h23, hG⟩
  · left
    rcases hz with hz | hz
    · exact Or.inl (hcn.2.2.2.2.2.1 hz)
    · right; rw [hcn.1]; exact fun x hx => hcn.2.2.2.2.1 x (hz x hx)
  · by_cases hz : Z s
    · left
      rcases hz with hz | hz
      · exact Or.inl (hcn.2.2.2.2.2.1 hz)
      · right; rw [hcn.1]; exact fun x hx => hcn.2.2.2.2.1 x (hz x hx)
    · by_cases ht : s.term = true
      · have := term_keep hst ht hc h23
        exact Or.inr ⟨this.1, this.2, Or.inl (hcn.2.2.2.2.2.2 ht)⟩
      · have hG : GI s := hG.resolve_left ht
        have hc' := compl_keep hG hc hst
        rcases step_post hG hz (by simpa using ht) hst with h1 | h1 | h1
        · exact Or.inl h1
        · exact Or.inr ⟨hc', h1.2, Or.inl h1.1⟩
        · exact Or.inr ⟨hc', h1.t23, Or.inr h1⟩

theorem GI.init {n : Nat} (X : List Nat) (bt mode : Bool) (hn : n ≤ 64) : GI (St.init n X bt mode) := by
  have hpc : ∀ i, ((St.init n X bt mode).th i).pc = if i < n then .req none else .left := fun _ => rfl
  refine ⟨hn, ?_, ?_, ?_, ?_, ?_, ?_, ?_, ?_, ?_, ?_, ?_, ?_, ?_⟩
  · intro i
    constructor <;> (try simp only [hpc]) <;> by_cases hi : i < n <;>
      simp [hi, St.init, Pc.bad, Pc.hold, Pc.locked, Pc.more]
  · simp [St.init]
  · simp [St.init]
  · simp [St.init]
  · simp [St.init]
  · simp [St.init]
  · simp [St.init]
  · simp [St.init]
  · simp [St.init]
  · intro _ _
    refine ⟨rfl, fun i => ?_⟩
    rw [hpc]
    by_cases hi : i < n <;> simp [hi, Pc.early]
  · intro i hi
    rw [hpc] at hi
    by_cases hl : i < n <;> simp [hl, Pc.isFin] at hi
  · simp [St.init]
  · simp [St.init]

theorem inv {n : Nat} {X : List Nat} {bt mode : Bool} {s : St} (hn : n ≤ 64) (h : Reach n X bt mode s) : Inv s := by
  induction h with
  | init => exact Or.inr ⟨rfl, (GI.init X bt mode hn).t23, Or.inr (GI.init X bt mode hn)⟩
  | step ev _ hst ih => exact ih.step hst

/-- **C50**, partial.  With at most 64 threads, in every interleaving, in both modes and for both kinds of enumeration: once
`complete_flag` is set, every point was searched, if none of the steps of `C50_loss` has occurred. -/
theorem C50_exhausted_partial {n : Nat} {X : List Nat} {bt mode : Bool} {s : St} (hn : n ≤ 64)
    (h : Reach n X bt mode s) (hl : s.lost = false) (hc : s.compl = true) : Searched s := by
  rcases inv hn h with hz | ⟨h1, _⟩
  · rcases hz with hz | hz
    · rw [hl] at hz; cases hz
    · exact hz
  · rw [hc] at h1; cases h1

/-- **C50**: the only steps that may lose work.  (1) A thread that left the queue because of a synchronization finds that it is
over and takes this for the end.  (2) A synchronization for a restart that is completed after restarts were forbidden.  (3) A restart, with
enumeration by backtracking, while a thread keeps a path it has not begun.  (4) A thread running out of memory. -/
theorem C50_loss {s s' : St} {ev : Ev} (h : step s ev = some s') (hl : s.lost = false) (hl' : s'.lost = true) :
    (∃ i, ev = .none i ∧ (s.th i).pc = .none true ∧ s.sync = false ∧ s.term = false) ∨
    (∃ i, ev = .fin i ∧ s.restart = true ∧ (s.forbid = true ∨
      s.bt = true ∧ ∃ j < s.n, (s.th j).pc.hold ≠ none)) ∨
    (∃ i, ev = .fail i ∧ s.allow = true) := by
  cases ev with
  | none i =>
    simp only [step, noWork] at h
    split at h
    · rename_i c hp
      split at h
      · cases h; simp_all [St.put]
      · cases h
        left
        simp only [St.put, hl, Bool.false_or, Bool.and_eq_true, Bool.not_eq_true'] at hl'
        exact ⟨i, rfl, by rw [hp, hl'.1], by simp_all, hl'.2⟩
    · cases h
  | fin i =>
    right; left
    refine ⟨i, rfl, ?_⟩
    simp only [step, fin] at h
    split at h
    · split at h
      · rename_i hc
        simp only [Bool.and_eq_true] at hc
        exact ⟨hc.1, Or.inl hc.2⟩
      · cases h
        simp only [St.put, hl, Bool.false_or, Bool.and_eq_true, Bool.not_eq_true'] at hl'
        refine ⟨hl'.1.2, Or.inr ⟨hl'.1.1, ?_⟩⟩
        have := hl'.2
        rw [List.all_eq_false] at this
        obtain ⟨j, hj, h2⟩ := this
        exact ⟨j, List.mem_range.1 hj, by intro hh; rw [hh] at h2; simp at h2⟩
    · cases h
  | fail i =>
    right; right
    refine ⟨i, rfl, ?_⟩
    simp only [step, fail] at h
    split at h
    · cases h
      simp only [St.put, hl, Bool.false_or, Bool.and_eq_true] at hl'
      exact hl'.1
    · cases h
  | _ =>
    exfalso
    simp only [step, leave, conflict, enter, go, take, sub, skip, lock0, lock, wake, Par.term, Par.simp, wsync,
      search, split, finish, limit, stop, want, post, model1, model2, update] at h <;>
    (repeat' split at h) <;> cases h <;> simp_all [St.put]

theorem plain_restart {s s' : St} {ev : Ev} (h : step s ev = some s') (hp : ev.plain = true) (hr : s.restart = false) :
    s'.restart = false := by
  cases ev with
  | post i => cases hp
  | fail i => cases hp
  | _ =>
    simp only [step, leave, conflict, enter, go, take, sub, skip, lock0, lock, wake, noWork, Par.term, Par.simp, wsync,
      fin, search, split, finish, limit, stop, want, model1, model2, update] at h <;>
    (repeat' split at h) <;> cases h <;> simp_all [St.put]

theorem plain_none {s s' : St} {ev : Ev} (h : step s ev = some s') (hG : GI s) (ht : s.term = false)
    (hr : s.restart = false) (hn : ∀ i, (s.th i).pc ≠ .none true) (j : Nat) : (s'.th j).pc ≠ .none true := by
  have hput : ∀ (s1 : St) (i : Nat) (t : Th), s1.th = s.th → t.pc ≠ .none true → ((s1.put i t).th j).pc ≠ .none true := by
    intro s1 i t h1 h2
    rw [put_th, h1]
    by_cases hj : j = i
    · rw [if_pos hj]; exact h2
    · rw [if_neg hj]; exact hn j
  have hni := hn j
  cases ev with
  | lock i =>
    simp only [step, lock] at h
    split at h
    · rename_i hp
      have hsy : s.sync = false := by
        by_contra hc
        have := (hG.e (by simpa using hc) hr).2 i
        simp [hp, Pc.early] at this
      rw [if_neg (by simp [ht, hsy])] at h
      split at h
      · cases h; exact hput _ _ _ rfl (by simp)
      · cases h; exact hput _ _ _ rfl (by simp only; split <;> simp)
    · cases h
  | _ =>
    simp only [step, leave, conflict, enter, go, take, sub, skip, lock0, wake, noWork, Par.term, Par.simp, wsync,
      fin, search, split, finish, limit, stop, want, post, model1, model2, update, fail] at h <;>
    (repeat' split at h) <;> cases h <;>
    first
      | exact hni
      | (apply hput _ _ _ rfl
         first
           | (simp; done)
           | (simp_all; done)
           | (simp only; split <;> simp)
           | (simp only; split <;> simp_all))

/-- Proof device: the invariant without restarts and failures. -/
def Plain (s : St) : Prop :=
  Searched s ∨ (s.lost = false ∧ s.restart = false ∧ (s.term = true ∨ (GI s ∧ ∀ i, (s.th i).pc ≠ .none true)))

theorem Plain.step {s s' : St} {ev : Ev} (h : Plain s) (hp : ev.plain = true) (hst : Par.step s ev = some s') :
    Plain s' := by
  have hcn := step_const hst
  by_cases hS : Searched s
  · left; unfold Searched; rw [hcn.1]; exact fun x hx => hcn.2.2.2.2.1 x (hS x hx)
  · obtain ⟨hl, hr, hG⟩ := h.resolve_left hS
    have hr' := plain_restart hst hp hr
    have hl' : s'.lost = false := by
      by_contra hc
      rcases C50_loss hst hl (by simpa using hc) with ⟨i, _, h1, h2, h3⟩ | ⟨i, _, h1, _⟩ | ⟨i, h1, _⟩
      · rcases hG with hG | hG
        · rw [hG] at h3; cases h3
        · exact hG.2 i h1
      · rw [hr] at h1; cases h1
      · rw [h1] at hp; cases hp
    by_cases ht : s.term = true
    · exact Or.inr ⟨hl', hr', Or.inl (hcn.2.2.2.2.2.2 ht)⟩
    · obtain ⟨hG, hn⟩ := hG.resolve_left ht
      have hz : ¬ Z s := by
        rintro (h1 | h1)
        · rw [hl] at h1; cases h1
        · exact hS h1
      rcases step_post hG hz (by simpa using ht) hst with h1 | h1 | h1
      · rcases h1 with h1 | h1
        · rw [hl'] at h1; cases h1
        · exact Or.inl h1
      · exact Or.inr ⟨hl', hr', Or.inl h1.1⟩
      · exact Or.inr ⟨hl', hr', Or.inr ⟨h1, plain_none hst hG (by simpa using ht) hr hn⟩⟩

theorem exec_reach {n : Nat} {X : List Nat} {bt mode : Bool} {s s' : St} {l : List Ev} (h : Reach n X bt mode s)
    (he : exec s l = some s') : Reach n X bt mode s' := by
  induction l generalizing s with
  | nil => cases he; exact h
  | cons ev l ih =>
    simp only [exec, Option.bind_eq_some_iff] at he
    obtain ⟨s1, h1, h2⟩ := he
    exact ih (.step ev h h1) h2

theorem exec_plain {s s' : St} {l : List Ev} (h : Plain s) (hp : ∀ ev ∈ l, ev.plain = true)
    (he : exec s l = some s') : Plain s' := by
  induction l generalizing s with
  | nil => cases he; exact h
  | cons ev l ih =>
    simp only [exec, Option.bind_eq_some_iff] at he
    obtain ⟨s1, h1, h2⟩ := he
    exact ih (h.step (hp ev (by simp)) h1) (fun e he => hp e (by simp [he])) h2

/-- **C50** without global restarts (the default) and if no thread runs out of memory: once `complete_flag` is set, every point
was searched. -/
theorem C50_exhausted_plain {n : Nat} {X : List Nat} {bt mode : Bool} {s : St} {l : List Ev} (hn : n ≤ 64)
    (hp : ∀ ev ∈ l, ev.plain = true) (he : exec (St.init n X bt mode) l = some s) (hc : s.compl = true) :
    Searched s := by
  have h0 : Plain (St.init n X bt mode) := by
    refine Or.inr ⟨rfl, rfl, Or.inr ⟨GI.init X bt mode hn, fun i => ?_⟩⟩
    simp only [St.init]
    split <;> simp
  rcases exec_plain h0 hp he with h1 | h1
  · exact h1
  · exact C50_exhausted_partial hn (exec_reach .init he) h1.1 hc

/-- Example: two threads complete the first synchronization; thread 0 begins with the initial path. -/
def Ex.start : List Ev :=
  [.enter 0, .enter 1, .wsync 0, .wsync 1, .fin 1, .wake 0, .wsync 0, .go 0, .take 0, .simp 0 true]

/-- Example: thread `i` asks for work and gets into the part for splitting. -/
def Ex.ask (i : Nat) : List Ev := [.go i, .skip i, .lock0 i, .lock i]

/-- Example: thread `i` reports that there is nothing left. -/
def Ex.quit (i : Nat) : List Ev := [.none i, .term i, .term i, .term i]

/-- Example: thread 0 splits, thread 1 gets a part, both search their part, thread 1 terminates the search. -/
def Ex.good : List Ev :=
  Ex.start ++ Ex.ask 1 ++ [.split 0 [2], .wake 1, .lock 1, .simp 1 true, .search 0 1, .search 1 2, .finish 0 false, .finish 1 false] ++
    Ex.ask 0 ++ Ex.ask 1 ++ Ex.quit 1

example : (∀ ev ∈ Ex.good, ev.plain = true) ∧
    (exec (St.init 2 [1, 2] false true) Ex.good).map (fun s => (s.compl, s.done, s.lost)) = some (true, [2, 1], false) ∧
    (exec (St.init 2 [1, 2] true true) Ex.good).map (fun s => (s.compl, s.done, s.lost)) = some (true, [2, 1], false) := by
  decide +kernel

/-- Example: competition with enumeration by backtracking; thread 0 finds the first model, splits, thread 1 gives up its own
search and gets a part. -/
def Ex.compete : List Ev :=
  Ex.start.dropLast.dropLast.dropLast ++ [.go 0, .take 0, .sub 0 0, .simp 0 true, .go 1, .take 1, .sub 1 0, .simp 1 true, .search 0 1,
    .model1 0, .model2, .update 1] ++ Ex.ask 1 ++ [.split 0 [2], .wake 1, .lock 1, .simp 1 true, .search 1 2, .finish 0 false,
    .finish 1 false] ++ Ex.ask 0 ++ Ex.ask 1 ++ Ex.quit 1

example : (exec (St.init 2 [1, 2] true false) Ex.compete).map (fun s => (s.compl, s.done, s.lost)) = some (true, [2, 1], false) := by
  decide +kernel

/-- Example: a global restart without loss. -/
def Ex.restart : List Ev :=
  Ex.start ++ [.want 0, .post 0, .enter 1, .enter 0, .wsync 0, .wsync 1, .fin 1, .wake 0, .wsync 0, .go 0, .take 0, .simp 0 true,
    .search 0 1, .search 0 2, .finish 0 false] ++ Ex.ask 0 ++ Ex.ask 1 ++ Ex.quit 1

example : (exec (St.init 2 [1, 2] false true) Ex.restart).map (fun s => (s.compl, s.done, s.lost)) = some (true, [2, 1], false) := by
  decide +kernel

/-- Example, case (1) of `C50_loss`: thread 1 wakes up because of the restart, and looks at `sync_flag` again only after thread 0 has completed the
restart. -/
def Ex.race : List Ev :=
  Ex.start ++ Ex.ask 1 ++ [.want 0, .post 0, .enter 0, .wsync 0, .wake 1, .lock 1, .fin 0] ++ Ex.quit 1

/-- **C50** is false with global restarts: nothing at all was searched, but the search is reported as exhausted. -/
theorem C50_race_fails : ∃ s, Reach 2 [1, 2] false true s ∧ s.compl = true ∧ s.done = [] := by
  have h : (exec (St.init 2 [1, 2] false true) Ex.race).map (fun s => (s.compl, s.done)) = some (true, []) := by
    decide +kernel
  obtain ⟨s, h1, h2⟩ := Option.map_eq_some_iff.1 h
  simp only [Prod.mk.injEq] at h2
  exact ⟨s, exec_reach .init h1, h2.1, h2.2⟩

/-- Example, case (2) of `C50_loss`: thread 1 finds the first model after thread 0 has requested a restart. -/
def Ex.abandon : List Ev :=
  Ex.start ++ Ex.ask 1 ++ [.split 0 [2], .wake 1, .lock 1, .simp 1 true, .want 0, .post 0, .search 1 2, .model1 1, .model2,
    .enter 0, .enter 1, .wsync 0, .wsync 1, .fin 1, .wake 0, .wsync 0] ++ Ex.ask 0 ++ Ex.ask 1 ++ Ex.quit 1

/-- **C50** is false with global restarts and enumeration by backtracking: both threads give up their paths, but the restart is
abandoned. -/
theorem C50_abandoned_fails : ∃ s, Reach 2 [1, 2] true true s ∧ s.compl = true ∧ s.done = [2] := by
  have h : (exec (St.init 2 [1, 2] true true) Ex.abandon).map (fun s => (s.compl, s.done)) = some (true, [2]) := by
    decide +kernel
  obtain ⟨s, h1, h2⟩ := Option.map_eq_some_iff.1 h
  simp only [Prod.mk.injEq] at h2
  exact ⟨s, exec_reach .init h1, h2.1, h2.2⟩

/-- Example, case (3) of `C50_loss`: thread 1 keeps a part over a restart, begins it together with the initial path of thread 0, and finds
the first model. -/
def Ex.stale : List Ev :=
  Ex.start ++ Ex.ask 1 ++ [.split 0 [2], .wake 1, .lock 1, .simp 1 false, .want 0, .post 0, .enter 0, .enter 1, .wsync 0, .wsync 1,
    .fin 1, .wake 0, .wsync 0, .go 0, .take 0, .simp 0 true, .go 1, .simp 1 true, .search 1 2, .model1 1, .model2, .update 0] ++
    Ex.ask 0 ++ [.finish 1 false] ++ Ex.ask 1 ++ Ex.quit 1

/-- **C50** is false with global restarts and enumeration by backtracking: the thread with the initial path gives it up. -/
theorem C50_stale_fails : ∃ s, Reach 2 [1, 2] true true s ∧ s.compl = true ∧ s.done = [2] := by
  have h : (exec (St.init 2 [1, 2] true true) Ex.stale).map (fun s => (s.compl, s.done)) = some (true, [2]) := by
    decide +kernel
  obtain ⟨s, h1, h2⟩ := Option.map_eq_some_iff.1 h
  simp only [Prod.mk.injEq] at h2
  exact ⟨s, exec_reach .init h1, h2.1, h2.2⟩

/-- Example, case (4) of `C50_loss`: thread 1 has the initial path, splits it and runs out of memory; thread 2 takes over the initial path but
gives it up when thread 0 finds the first model. -/
def Ex.memory : List Ev :=
  [.enter 0, .enter 1, .enter 2, .wsync 0, .wsync 2, .wsync 1, .fin 1, .go 1, .take 1, .simp 1 true, .split 1 [2], .fail 1,
    .wake 0, .wsync 0, .wake 2, .wsync 2] ++ Ex.ask 0 ++ Ex.ask 2 ++ [.simp 0 true, .simp 2 true, .search 0 2, .model1 0, .model2, .update 2] ++
    Ex.ask 2 ++ [.finish 0 false] ++ Ex.ask 0 ++ Ex.quit 0

/-- **C50** is false with enumeration by backtracking if a thread runs out of memory; the run has no restart. -/
theorem C50_memory_fails : ∃ s, Reach 3 [1, 2] true true s ∧ s.compl = true ∧ s.done = [2] := by
  have h : (exec (St.init 3 [1, 2] true true) Ex.memory).map (fun s => (s.compl, s.done)) = some (true, [2]) := by
    decide +kernel
  obtain ⟨s, h1, h2⟩ := Option.map_eq_some_iff.1 h
  simp only [Prod.mk.injEq] at h2
  exact ⟨s, exec_reach .init h1, h2.1, h2.2⟩

end Clasp.Par
