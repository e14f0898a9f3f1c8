import Verif.Heu.VmtfInv
/-!
# The move-to-front heuristic chooses a free variable (C45)

The claim: whenever the solver asks for a decision while variables are free, the heuristic answers with a free variable. Proved as long as three things did not happen
(`C45_select_partial`); for each of them there is an execution in which the heuristic fails (`C45_again_fails`, `C45_front_fails`, `C45_stuck_fails`).
-/

namespace Clasp.Heu

theorem vm_inv {s : Vm} (h : VmReach s) : s.Inv := by
  induction h with
  | init => exact Vm.Inv.init
  | step _ hc he ih => exact vm_exec_inv ih hc he

theorem Vm.Rep.next_mem {s : Vm} {L : List Nat} (h : s.Rep L) {v : Nat} (hv : v ∈ L) : s.nx v ∈ 0 :: L := by
  obtain ⟨A, B, rfl⟩ := List.append_of_mem hv
  rcases List.mem_append.1 (seg_append.1 h.seg).2.first.1 with h1 | h1
  · exact List.mem_cons_of_mem _ (List.mem_append_right _ (List.mem_cons_of_mem _ h1))
  · rw [List.mem_singleton.1 h1]; simp

/-- C45: if variables are free, the heuristic ends with a free variable. Missing: executions in which a variable was added to the list although it was its only element (`again`),
in which a variable that does not exist any more stayed in the list (`stuck`), or in which the variable at which the search starts was removed since (`stale`). -/
theorem C45_select_partial {s : Vm} (h : VmReach s) (hr : s.ready = true) (h1 : s.again = false) (h2 : s.stuck = false) (h3 : s.stale = false) (hf : ∃ v, s.Free v) (k dist : Nat) :
    ∃ f t s', (∀ g, f ≤ g → s.select g k dist = some (t, s')) ∧ s.Free t := by
  obtain ⟨L, hL⟩ := (vm_inv h).good h1 h2
  obtain ⟨f1, v, h4, h5⟩ := hL.scan hr hf (hL.front hr h3)
  have hL' : ({ s with front := v } : Vm).Good L := ⟨hL.rep.congr rfl rfl, hL.bd, hL.free, fun _ _ => List.mem_cons_of_mem _ (hL.free hr v h4), hL.back⟩
  obtain ⟨f2, v2, h6, h7⟩ := hL'.scan hr hf (hL'.rep.next_mem (hL.free hr v h4))
  by_cases hk : 1 < k
  · by_cases ha : s.act v2 < s.act v + 2 * dist + 3
    · refine ⟨f1 + f2, v, { s with front := v }, fun g hg => ?_, h4⟩
      unfold Vm.select
      rw [h5 g (by omega)]
      simp only [if_pos hk]
      rw [h7 g (by omega)]
      simp only [if_pos ha]
    · refine ⟨f1 + f2, v2, { s with front := v }, fun g hg => ?_, h6⟩
      unfold Vm.select
      rw [h5 g (by omega)]
      simp only [if_pos hk]
      rw [h7 g (by omega)]
      simp only [if_neg ha]
  · refine ⟨f1, v, { s with front := v }, fun g hg => ?_, h4⟩
    unfold Vm.select
    rw [h5 g hg]
    simp only [if_neg hk]

theorem moveAll_append : ∀ (vs ws : List Nat) (s : Vm), s.moveAll (vs ++ ws) = (s.moveAll vs).moveAll ws
  | [], _, _ => rfl
  | v :: vs, ws, s => by show Vm.moveAll _ (vs ++ ws) = _; rw [moveAll_append]; rfl

theorem move_first (s : Vm) (v : Nat) : (s.move v).nx 0 = v := by
  unfold Vm.move
  split_ifs with h
  · exact h
  · simp [upd]

/-- C45: after a conflict the last variable moved to the front is the first candidate. If it is still free at the next decision, it is chosen unless the candidate after it has a
clearly higher activity. (`again` and `stuck` as above.) -/
theorem C45_move_partial {s : Vm} (h : VmReach s) (hr : s.ready = true) (h1 : s.again = false) (h2 : s.stuck = false) {vs : List Nat} {v : Nat} (hz : ∀ x ∈ vs, x ≠ 0) (hv : s.Free v) {g k dist t : Nat} {s' : Vm}
    (hs : (s.learn (vs ++ [v])).select g k dist = some (t, s')) : t = v ∨ s.act v + 2 * dist + 3 ≤ s.act t := by
  obtain ⟨L, hL⟩ := (vm_inv h).good h1 h2
  obtain ⟨m1, _, _, m2⟩ := moveAll_ok vs s
  obtain ⟨L1, r1, e1⟩ := m2 L hL.rep hz
  have hv1 : v ∈ L1 := (e1 v).2 (hL.free hr v hv)
  have hact : ∀ (ws : List Nat) (u : Vm), (u.moveAll ws).act = u.act := by
    intro ws
    induction ws with
    | nil => intro u; rfl
    | cons w ws ih =>
      intro u
      show Vm.act (Vm.moveAll _ ws) = _
      rw [ih]
      split_ifs
      · unfold Vm.move; split_ifs <;> rfl
      · rfl
  obtain ⟨s1, hs1⟩ : ∃ s1, s1 = s.learn (vs ++ [v]) := ⟨_, rfl⟩
  have hfront : s1.front = v := by
    rw [hs1]
    show (s.moveAll (vs ++ [v])).nx 0 = v
    rw [moveAll_append]
    show (if (s.moveAll vs).inList v then (s.moveAll vs).move v else s.moveAll vs).nx 0 = v
    split_ifs with hi
    · exact move_first _ v
    · have := (r1.only hv1 (by simpa using hi)).2
      simpa [Vm.only] using this
  have hfree : s1.isFree v = some true := by
    have := (moveAll_ok (vs ++ [v]) s).1
    rw [Vm.free_iff, hs1]
    exact (Vm.free_congr (s' := s.moveAll (vs ++ [v])) this v).2 hv
  have ha : s1.act = s.act := by rw [hs1]; exact hact _ s
  rw [← hs1] at hs
  unfold Vm.select at hs
  rw [hfront] at hs
  cases g with
  | zero => exact nomatch hs
  | succ g =>
    have h3 : s1.scan (g + 1) v = some v := by unfold Vm.scan; rw [hfree]
    rw [h3] at hs
    simp only at hs
    split_ifs at hs with hk
    · split at hs
      · exact nomatch hs
      · rename_i v2 _
        split_ifs at hs with hlt
        · cases hs; exact Or.inl rfl
        · cases hs; exact Or.inr (by rw [← ha]; exact Nat.le_of_not_lt hlt)
    · cases hs; exact Or.inl rfl

namespace VmEx

/-- Example: what the solver guarantees, checked by evaluation. -/
def chk (s : Vm) : VmEv → Bool
  | .setup n tr _ => s.n ≤ n && tr.all (fun v => v ≠ 0 && v ≤ n)
  | .endInit vs => vs.Nodup && vs.all (fun v => s.isFree v == some true) && (List.range (s.n + 1)).all (fun v => vs.contains v || s.isFree v == some false)
  | .assign v => s.isFree v == some true
  | .learn vs => vs.all (fun v => v ≠ 0 && v ≤ s.n)
  | .pop => s.base < s.tr.length
  | .popAux k => k ≤ s.n
  | .select _ _ => s.ready && (List.range (s.n + 1)).any fun v => s.isFree v == some true
  | _ => true

/-- Example: a sequence of calls. -/
def run : Vm → List VmEv → Option Vm
  | s, [] => some s
  | s, e :: es => if chk s e then
      match e.exec s with
      | none => none
      | some s' => run s' es
    else none

theorem chk_can {s : Vm} {e : VmEv} (h : chk s e = true) : e.can s := by
  cases e with
  | setup n tr elim =>
    simp only [chk, Bool.and_eq_true, decide_eq_true_eq, List.all_eq_true] at h
    exact ⟨h.1, fun v hv => by simpa using h.2 v hv⟩
  | endInit vs =>
    simp only [chk, Bool.and_eq_true, decide_eq_true_eq, List.all_eq_true, beq_iff_eq, Bool.or_eq_true, List.contains_iff_mem, List.mem_range] at h
    refine ⟨h.1.1, fun v => ⟨fun hv => h.1.2 v hv, fun hv => ?_⟩⟩
    have hn : v < s.n + 1 := by
      have := (Vm.free_iff.1 hv).2.1
      omega
    rcases h.2 v hn with h1 | h1
    · exact h1
    · rw [hv] at h1; exact nomatch h1
  | assign v => show _ = _; simpa [chk] using h
  | learn vs =>
    simp only [chk, List.all_eq_true] at h
    exact fun v hv => by simpa using h v hv
  | pop => show _ < _; simpa [chk] using h
  | popAux k => show _ ≤ _; simpa [chk] using h
  | select f d =>
    simp only [chk, Bool.and_eq_true, List.any_eq_true, beq_iff_eq] at h
    obtain ⟨h1, v, _, h2⟩ := h
    exact ⟨h1, v, h2⟩
  | score | tell | simplify | pushAux => trivial

theorem run_reach : ∀ (es : List VmEv) (s t : Vm), VmReach s → run s es = some t → VmReach t
  | [], s, t, h, hr => by cases hr; exact h
  | e :: es, s, t, h, hr => by
    unfold run at hr
    split_ifs at hr with hc
    split at hr
    · exact nomatch hr
    · rename_i s' hs'
      exact run_reach es s' t (h.step (chk_can hc) hs') hr

theorem run_ex {es : List VmEv} {p : Vm → Bool} (h : (run Vm.init es).map p = some true) : ∃ s, VmReach s ∧ p s = true := by
  cases h1 : run Vm.init es with
  | none => rw [h1] at h; exact nomatch h
  | some s => rw [h1] at h; exact ⟨s, run_reach es _ s .init h1, by simpa using h⟩

/-- Example: no variable is eliminated. -/
def no : Nat → Bool := fun _ => false

/-- Example: decisions, a learnt constraint, backtracking, a fixed and a new variable. -/
def evs : List VmEv :=
  [.setup 4 [] no, .endInit [1, 2, 3, 4], .assign 4, .simplify 0, .select 9 0, .assign 1, .select 9 0, .assign 2, .pushAux, .learn [3, 2], .tell, .pop]

/-- Example: the hypotheses of `C45_select_partial`; variable 2, which was moved to the front last, is chosen. -/
example : ∃ s, VmReach s ∧ s.ready = true ∧ s.again = false ∧ s.stuck = false ∧ s.stale = false ∧ s.Free 2 ∧ s.Free 3 ∧ ¬ s.Free 4 ∧ (s.select 9 3 0).map (·.1) = some 2 := by
  obtain ⟨s, h1, h2⟩ := run_ex (es := evs) (p := fun s => s.ready && !s.again && !s.stuck && !s.stale && s.isFree 2 == some true && s.isFree 3 == some true && s.isFree 4 == some false &&
    (s.select 9 3 0).map (·.1) == some 2) (by decide +kernel)
  simp only [Bool.and_eq_true, beq_iff_eq, Bool.not_eq_true'] at h2
  obtain ⟨⟨⟨⟨⟨⟨⟨a, b⟩, c⟩, d⟩, e⟩, f⟩, g⟩, i⟩ := h2
  refine ⟨s, h1, a, b, c, d, Vm.free_iff.1 e, Vm.free_iff.1 f, fun hc => ?_, i⟩
  rw [Vm.free_iff.2 hc] at g
  exact nomatch g

/-- Example: the hypotheses of `C45_move_partial`; variable 3 is chosen after it was moved to the front, variable 1 if its activity is high. -/
example : ∃ s, VmReach s ∧ s.ready = true ∧ s.again = false ∧ s.stuck = false ∧ s.Free 3 ∧ ((s.learn [2, 3]).select 9 3 0).map (·.1) = some 3 ∧
    (({ s with act := fun v => if v = 2 then 9 else 0 } : Vm).learn [2, 3]).front = 3 := by
  obtain ⟨s, h1, h2⟩ := run_ex (es := evs) (p := fun s => s.ready && !s.again && !s.stuck && s.isFree 3 == some true && ((s.learn [2, 3]).select 9 3 0).map (·.1) == some 3 &&
    (({ s with act := fun v => if v = 2 then 9 else 0 } : Vm).learn [2, 3]).front == 3) (by decide +kernel)
  simp only [Bool.and_eq_true, beq_iff_eq, Bool.not_eq_true'] at h2
  obtain ⟨⟨⟨⟨⟨a, b⟩, c⟩, e⟩, f⟩, g⟩ := h2
  exact ⟨s, h1, a, b, c, Vm.free_iff.1 e, f, g⟩

end VmEx

open VmEx in
/-- C45 fails if a second problem step adds a variable that is the only element of the list: the later variables are lost with it, and the search for a free variable does not end. -/
theorem C45_again_fails : ∃ s, VmReach s ∧ s.ready = true ∧ s.Free 2 ∧ s.Free 3 ∧ s.again = true ∧ s.stuck = false ∧ s.stale = false ∧ ∀ f k d, s.select f k d = none := by
  obtain ⟨s, h1, h2⟩ := run_ex (es := [.setup 1 [] no, .endInit [1], .setup 3 [] no, .endInit [1, 2, 3], .assign 1, .simplify 0])
    (p := fun s => s.ready && s.isFree 2 == some true && s.isFree 3 == some true && s.again && !s.stuck && !s.stale && s.isFree 0 == some false && s.isFree 1 == some false &&
      s.front == 1 && s.nx 1 == 0 && s.nx 0 == 1) (by decide +kernel)
  simp only [Bool.and_eq_true, beq_iff_eq, Bool.not_eq_true'] at h2
  obtain ⟨⟨⟨⟨⟨⟨⟨⟨⟨⟨a, b⟩, c⟩, e⟩, f⟩, g⟩, i⟩, j⟩, k⟩, l⟩, m⟩ := h2
  have hs : ∀ f, s.scan f 0 = none ∧ s.scan f 1 = none := by
    intro f
    induction f with
    | zero => exact ⟨rfl, rfl⟩
    | succ f ih => unfold Vm.scan; rw [i, j]; simp only [l, m]; exact ⟨ih.2, ih.1⟩
  exact ⟨s, h1, a, Vm.free_iff.1 b, Vm.free_iff.1 c, e, f, g, fun f _ _ => by unfold Vm.select; rw [k, (hs f).2]⟩

open VmEx in
/-- C45 fails if the variable at which the search starts was removed: the heuristic asks for the value of a variable that does not exist. -/
theorem C45_front_fails : ∃ s, VmReach s ∧ s.ready = true ∧ s.Free 2 ∧ s.Free 3 ∧ s.again = false ∧ s.stuck = false ∧ s.stale = true ∧ s.isFree s.front = none ∧ ∀ f k d, s.select f k d = none := by
  obtain ⟨s, h1, h2⟩ := run_ex (es := [.setup 3 [] no, .endInit [1, 2, 3], .pushAux, .learn [4], .score (fun v => if v = 1 then 9 else 0), .select 9 1, .assign 1, .popAux 1])
    (p := fun s => s.ready && s.isFree 2 == some true && s.isFree 3 == some true && !s.again && !s.stuck && s.stale && s.isFree s.front == none) (by decide +kernel)
  simp only [Bool.and_eq_true, beq_iff_eq, Bool.not_eq_true'] at h2
  obtain ⟨⟨⟨⟨⟨⟨a, b⟩, c⟩, e⟩, f⟩, g⟩, i⟩ := h2
  refine ⟨s, h1, a, Vm.free_iff.1 b, Vm.free_iff.1 c, e, f, g, i, fun f _ _ => ?_⟩
  have hs : s.scan f s.front = none := by
    cases f with
    | zero => rfl
    | succ f => unfold Vm.scan; rw [i]
  unfold Vm.select
  rw [hs]

open VmEx in
/-- C45 fails if a removed variable is the only element of the list: it stays there, and a later search reaches it. -/
theorem C45_stuck_fails : ∃ s, VmReach s ∧ s.ready = true ∧ s.Free 1 ∧ s.again = false ∧ s.stuck = true ∧ s.stale = false ∧ s.isFree s.front = none ∧ ∀ f k d, s.select f k d = none := by
  obtain ⟨s, h1, h2⟩ := run_ex (es := [.setup 0 [] no, .endInit [], .pushAux, .pushAux, .assign 1, .simplify 0, .popAux 2, .pushAux, .tell])
    (p := fun s => s.ready && s.isFree 1 == some true && !s.again && s.stuck && !s.stale && s.isFree s.front == none) (by decide +kernel)
  simp only [Bool.and_eq_true, beq_iff_eq, Bool.not_eq_true'] at h2
  obtain ⟨⟨⟨⟨⟨a, b⟩, c⟩, e⟩, f⟩, i⟩ := h2
  refine ⟨s, h1, a, Vm.free_iff.1 b, c, e, f, i, fun f _ _ => ?_⟩
  have hs : s.scan f s.front = none := by
    cases f with
    | zero => rfl
    | succ f => unfold Vm.scan; rw [i]
  unfold Vm.select
  rw [hs]

end Clasp.Heu
