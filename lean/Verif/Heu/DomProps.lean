import Verif.Heu.DomInv
import Verif.Heu.DomTab
/-!
# C46: modifications of the domain heuristic

No code is modelled in this file.
-/

namespace Clasp.Dom

/-! ## Examples of executions -/

namespace DomEx

/-- Example: `DmEv.can` as a test. -/
def chk (s : Dm) : DmEv → Bool
  | .init _ => s.dl == 0
  | .choose p => s.free p.1 && s.qf == s.tr.length && s.pend == []
  | .assign p => s.free p.1
  | .next => decide (s.qf < s.tr.length) && s.pend == []
  | .call => s.pend != []
  | .undo => decide (0 < s.dl)

theorem chk_can {s : Dm} {e : DmEv} (h : chk s e = true) : e.can s := by
  cases e <;> simp [chk, DmEv.can, Bool.and_eq_true] at h ⊢ <;> tauto

/-- Example: executing some events. -/
def run (s : Dm) : List DmEv → Option Dm
  | [] => some s
  | e :: es => if chk s e then (e.exec s).bind fun s' => run s' es else none

theorem run_reach {ini : Nat → Mod → Int} : ∀ {es : List DmEv} {s s' : Dm}, DmReach ini s → run s es = some s' → DmReach ini s'
  | [], _, _, h, he => by cases he; exact h
  | e :: es, s, s', h, he => by
    unfold run at he
    split_ifs at he with hc
    obtain ⟨s1, h1, h2⟩ := Option.bind_eq_some_iff.1 he
    exact run_reach (.step h (chk_can hc) h1) h2

theorem run_ex {ini : Nat → Mod → Int} {es : List DmEv} {p : Dm → Bool} (h : (run (Dm.start ini) es).map p = some true) : ∃ s, DmReach ini s ∧ p s = true := by
  obtain ⟨s, h1, h2⟩ := Option.map_eq_some_iff.1 h
  exact ⟨s, run_reach .start h1, h2⟩

/-- Example: level 0, factor 1, no sign. -/
def ini0 (_ : Nat) : Mod → Int
  | .factor => 1
  | _ => 0

/-- Example: variable 1 gets level 3 with priority 2 and should be false with priority 1; while variable 2 is true it gets level 9 and should be true, with priority 4; while variable 3 is true
it gets level 5 with priority 3. -/
def entries : List DomEntry := [⟨1, .level, 3, 2, none⟩, ⟨1, .sign, -1, 1, none⟩, ⟨1, .tru, 9, 4, some (2, true)⟩, ⟨1, .level, 5, 3, some (3, true)⟩]

/-- Example: entries are added, the conditions become true on levels 1 and 2. -/
def evs : List DmEv := [.init entries, .choose (3, true), .next, .call, .choose (2, true), .next, .call]

end DomEx

/-! ## Nothing goes wrong -/

/-- The heuristic never leaves its tables: every event within the guarantees of the solver is defined. -/
theorem C46_defined {ini : Nat → Mod → Int} {s : Dm} (h : DmReach ini s) {e : DmEv} (hc : e.can s) : ∃ s', e.exec s = some s' := by
  obtain ⟨O, st, base, ap, hi⟩ := reach_inv h
  obtain ⟨s', _, _, _, _, k1, _⟩ := exec_inv hi hc
  exact ⟨s', k1⟩

/-- Example: a state with two frames, where the last level can be removed. -/
example : ∃ s, DmReach DomEx.ini0 s ∧ (s.frames.length = 3 ∧ s.acts.length = 3) ∧ DmEv.can s .undo := by
  obtain ⟨s, h1, h2⟩ := DomEx.run_ex (ini := DomEx.ini0) (es := DomEx.evs) (p := fun s => s.frames.length == 3 && s.acts.length == 3 && decide (0 < s.dl)) (by decide +kernel)
  simp only [Bool.and_eq_true, beq_iff_eq, decide_eq_true_eq] at h2
  exact ⟨s, h1, h2⟩

/-! ## What is in effect -/

/-- Specification: `d` is one of the wishes expressed by the entries. -/
def Wished (es : List DomEntry) (d : Wish) : Prop := ∃ e ∈ es, d ∈ e.wishes

/-- Specification: what should be in effect for `v` and `m`: the value of an active wish such that no active wish has a higher priority; without active wishes the initial value. -/
def RightVal (es : List DomEntry) (tr : List (DLit × Nat)) (v : Nat) (m : Mod) (i x : Int) : Prop :=
  ((∀ d, Wished es d → d.v = v → d.m = m → ¬ d.active tr) ∧ x = i) ∨
    ∃ d, Wished es d ∧ d.v = v ∧ d.m = m ∧ d.active tr ∧ x = d.val ∧ ∀ d', Wished es d' → d'.v = v → d'.m = m → d'.active tr → d'.prio ≤ d.prio

/-- When propagation is complete, for each unassigned variable the modifications in effect are those of the entries seen so far whose conditions hold and whose priority is highest: whatever was
applied earlier and whichever levels were removed in the meantime. -/
theorem C46_effect {ini : Nat → Mod → Int} {s : Dm} (h : DmReach ini s) (hp : s.pend = []) (hq : s.qf = s.tr.length) {v : Nat} (hv : ∀ x ∈ s.tr, x.1.1 ≠ v) (m : Mod) :
    RightVal s.given s.tr v m (ini v m) (s.cur v m).2 := by
  obtain ⟨O, st, base, ap, hi⟩ := reach_inv h
  have hvl := hi.vals
  have ht := hi.trail
  have hch := hvl.chain v m
  have hmax : ∀ d, Wished s.given d → d.v = v → d.m = m → d.active s.tr → DLe d.prio (base v m) ∨ ∃ n ∈ (ap.map (·.1)).filter (fun n => (O n).v = v ∧ (O n).m = m), d.prio ≤ (O n).prio := by
    rintro d ⟨e, he, hd⟩ rfl rfl ha
    rcases hvl.given e he d hd with ⟨b, hb⟩ | ⟨c, hc, hb⟩ | h1 | ⟨n, hn, rfl⟩
    · exact absurd rfl (hv _ hb)
    · exfalso
      obtain ⟨L, hL⟩ := ha c hc
      obtain ⟨i, hi⟩ := List.mem_iff_getElem?.1 hb
      obtain ⟨j, hj⟩ := List.mem_iff_getElem?.1 hL
      have := nodup_inj ht hi hj rfl
      rw [this, hj] at hi
      have h2 := congrArg (fun x => x.1.2) (Option.some.inj hi)
      simp only at h2
      cases hc2 : c.2 <;> rw [hc2] at h2 <;> exact nomatch h2
    · exact Or.inl h1
    · obtain ⟨c, hc, _⟩ := hi.groups.watch n hn
      obtain ⟨L, hL⟩ := ha c hc
      obtain ⟨j, hj⟩ := List.mem_iff_getElem?.1 hL
      have hni : ¬ DIdle s O st n := by
        rintro (h1 | h1)
        · exact h1 c hc j _ (by rw [hq]; exact mem_lt hj) hj rfl
        · rw [hp] at h1; exact nomatch h1
      obtain ⟨c', L', _, _, h3⟩ := hvl.seen n hn hni
      rcases h3 with ⟨x, hx, _, h4⟩ | h3 | ⟨x, hx, _, h4, h5, h6⟩
      · exact absurd h4 (hv x hx)
      · exact Or.inl h3
      · exact Or.inr ⟨x.1, List.mem_filter.2 ⟨List.mem_map.2 ⟨x, hx, rfl⟩, by simp [h4, h5]⟩, h6⟩
  cases hl : (ap.map (·.1)).filter (fun n => (O n).v = v ∧ (O n).m = m) with
  | nil =>
    rw [hl] at hch hmax
    have hcur : s.cur v m = (base v m).1 := hch
    have hmax' : ∀ d, Wished s.given d → d.v = v → d.m = m → d.active s.tr → DLe d.prio (base v m) := fun d h1 h2 h3 h4 => by
      rcases hmax d h1 h2 h3 h4 with h5 | ⟨_, h5, _⟩
      · exact h5
      · exact nomatch h5
    rcases hvl.base v m with h1 | ⟨e, he, d, hd, h1, h2, h3, h4⟩
    · refine Or.inl ⟨fun d k1 k2 k3 k4 => ?_, by rw [hcur, h1]⟩
      have := (hmax' d k1 k2 k3 k4).2
      rw [h1] at this; exact nomatch this
    · refine Or.inr ⟨d, ⟨e, he, hd⟩, h1, h2, fun c hc => ⟨0, h4 c hc⟩, by rw [hcur, ← h3], fun d' k1 k2 k3 k4 => ?_⟩
      have := (hmax' d' k1 k2 k3 k4).1
      rw [← h3] at this; exact this
  | cons n l =>
    have hmem : n ∈ (ap.map (·.1)).filter (fun n => (O n).v = v ∧ (O n).m = m) := by rw [hl]; simp
    obtain ⟨h1, h2⟩ := List.mem_filter.1 hmem
    obtain ⟨x, hx, rfl⟩ := List.mem_map.1 h1
    simp only [decide_eq_true_eq] at h2
    obtain ⟨k1, _, _, c, k2, k3⟩ := hvl.app x hx
    have hmono := hch.mono
    rw [hl] at hch
    obtain ⟨a, _, hcur, _, _⟩ := hch
    refine Or.inr ⟨O x.1, hvl.src x.1 k1, h2.1, h2.2, fun c' hc' => ?_, by rw [hcur], fun d' j1 j2 j3 j4 => ?_⟩
    · rw [k2] at hc'; rw [← Option.some.inj hc']; exact ⟨_, k3⟩
    · have e : (s.cur v m).1 = (O x.1).prio := by rw [hcur]
      rw [← e]
      rcases hmax d' j1 j2 j3 j4 with h5 | ⟨n, h5, h6⟩
      · exact Nat.le_trans h5.1 hmono.1
      · exact Nat.le_trans h6 (hmono.2 n h5)

/-- Example: with both conditions true level and sign of the third entry are in effect. -/
example : ∃ s, DmReach DomEx.ini0 s ∧ s.pend = [] ∧ s.qf = s.tr.length ∧ (∀ x ∈ s.tr, x.1.1 ≠ 1) ∧ (s.cur 1 .level = (4, 9) ∧ s.cur 1 .sign = (4, 1)) := by
  obtain ⟨s, h1, h2⟩ := DomEx.run_ex (ini := DomEx.ini0) (es := DomEx.evs) (p := fun s => s.pend == [] && s.qf == s.tr.length && s.tr.all (fun x => x.1.1 != 1) && (s.cur 1 .level == (4, 9) && s.cur 1 .sign == (4, 1)))
    (by decide +kernel)
  simp only [Bool.and_eq_true, beq_iff_eq, List.all_eq_true, bne_iff_ne] at h2
  obtain ⟨⟨⟨k1, k2⟩, k3⟩, k4⟩ := h2
  exact ⟨s, h1, k1, k2, k3, k4⟩

/-- Example: after removing the last level the fourth entry is in effect again, after removing the first one the entries without condition. -/
example : ∃ s s', DmReach DomEx.ini0 s ∧ DmReach DomEx.ini0 s' ∧ (s.cur 1 .level = (3, 5) ∧ s.cur 1 .sign = (1, 2)) ∧ (s'.cur 1 .level = (2, 3) ∧ s'.cur 1 .sign = (1, 2)) := by
  obtain ⟨s, h1, h2⟩ := DomEx.run_ex (ini := DomEx.ini0) (es := DomEx.evs ++ [.undo]) (p := fun s => s.cur 1 .level == (3, 5) && s.cur 1 .sign == (1, 2)) (by decide +kernel)
  obtain ⟨s', h1', h2'⟩ := DomEx.run_ex (ini := DomEx.ini0) (es := DomEx.evs ++ [.undo, .undo]) (p := fun s => s.cur 1 .level == (2, 3) && s.cur 1 .sign == (1, 2)) (by decide +kernel)
  simp only [Bool.and_eq_true, beq_iff_eq] at h2 h2'
  exact ⟨s, s', h1, h1', h2, h2'⟩

/-! ## The table -/

/-- Merging the entries for the same variable and condition neither adds wishes nor removes the ones of highest priority. Part of the claim: no bias is 32767 (see `C46_table_fails`). -/
theorem C46_table_partial (es : List DomEntry) (hb : ∀ e ∈ es, e.bias ≠ 32767) :
    (∀ d, Wished (simplify es) d → Wished es d) ∧ ∀ d, Wished es d → ∃ d', Wished (simplify es) d' ∧ d'.v = d.v ∧ d'.m = d.m ∧ d'.cond = d.cond ∧ d.prio ≤ d'.prio := by
  obtain ⟨h1, h2⟩ := simplify_ok es
  refine ⟨fun d hd => mem_wishesOf.1 (h1 d (mem_wishesOf.2 hd)), fun d hd => ?_⟩
  obtain ⟨d', k1, k2⟩ := h2 hb d (mem_wishesOf.2 hd)
  exact ⟨d', mem_wishesOf.1 k1, k2⟩

/-- Example: five entries for two variables become three; level and sign of the same priority are combined. -/
example : simplify [⟨2, .factor, 7, 1, none⟩, ⟨1, .level, 3, 1, some (4, false)⟩, ⟨1, .level, 5, 2, some (4, false)⟩, ⟨1, .sign, -8, 2, some (4, false)⟩, ⟨1, .factor, 2, 9, some (4, false)⟩] =
    [⟨2, .factor, 7, 1, none⟩, ⟨1, .fls, 5, 2, some (4, false)⟩, ⟨1, .factor, 2, 9, some (4, false)⟩] := by decide +kernel

/-- For a bias of 32767 (to which `LogicProgram::addDomHeuristic` also reduces all larger ones) the claim fails: the level of variable 1 is lost because there is a second entry for the variable. -/
theorem C46_table_fails : ∃ es : List DomEntry, ∃ d, Wished es d ∧ ¬ ∃ d', Wished (simplify es) d' ∧ d'.v = d.v ∧ d'.m = d.m := by
  have hs : simplify [⟨1, .level, 32767, 2, none⟩, ⟨1, .sign, 1, 1, none⟩] = [⟨1, .sign, 1, 1, none⟩] := by decide +kernel
  refine ⟨[⟨1, .level, 32767, 2, none⟩, ⟨1, .sign, 1, 1, none⟩], ⟨1, .level, 32767, 2, none⟩, ⟨_, List.mem_cons_self, List.mem_cons_self⟩, ?_⟩
  rw [hs]
  rintro ⟨d', ⟨e, he, hd⟩, _, h2⟩
  rw [List.mem_singleton.1 he] at hd
  rw [List.mem_singleton.1 hd] at h2
  exact nomatch h2

/-- Example: without the second entry the level is kept. -/
example : simplify [⟨1, .level, 32767, 2, none⟩] = [⟨1, .level, 32767, 2, none⟩] := by decide +kernel

/-- Both parts together: the modifications in effect are those the user asked for, in however many steps. Part of the claim: no bias is 32767. -/
theorem C46_user_partial {ini : Nat → Mod → Int} {s : Dm} (h : DmReach ini s) (us : List (List DomEntry)) (hg : s.given = us.flatMap simplify) (hb : ∀ es ∈ us, ∀ e ∈ es, e.bias ≠ 32767)
    (hp : s.pend = []) (hq : s.qf = s.tr.length) {v : Nat} (hv : ∀ x ∈ s.tr, x.1.1 ≠ v) (m : Mod) : RightVal us.flatten s.tr v m (ini v m) (s.cur v m).2 := by
  have hsub : ∀ d, Wished s.given d → Wished us.flatten d := by
    rintro d ⟨e, he, hd⟩
    rw [hg] at he
    obtain ⟨es, hes, he⟩ := List.mem_flatMap.1 he
    obtain ⟨e', he', hd'⟩ := (C46_table_partial es (hb es hes)).1 d ⟨e, he, hd⟩
    exact ⟨e', List.mem_flatten.2 ⟨es, hes, he'⟩, hd'⟩
  have hcov : ∀ d, Wished us.flatten d → ∃ d', Wished s.given d' ∧ d'.v = d.v ∧ d'.m = d.m ∧ d'.cond = d.cond ∧ d.prio ≤ d'.prio := by
    rintro d ⟨e, he, hd⟩
    obtain ⟨es, hes, he⟩ := List.mem_flatten.1 he
    obtain ⟨d', ⟨e', he', hd'⟩, h2⟩ := (C46_table_partial es (hb es hes)).2 d ⟨e, he, hd⟩
    exact ⟨d', ⟨e', by rw [hg]; exact List.mem_flatMap.2 ⟨es, hes, he'⟩, hd'⟩, h2⟩
  have hact : ∀ d d' : Wish, d'.cond = d.cond → d.active s.tr → d'.active s.tr := fun d d' e ha c hc => ha c (e ▸ hc)
  rcases C46_effect h hp hq hv m with ⟨h1, h2⟩ | ⟨d, h1, h2, h3, h4, h5, h6⟩
  · refine Or.inl ⟨fun d k1 k2 k3 k4 => ?_, h2⟩
    obtain ⟨d', j1, j2, j3, j4, _⟩ := hcov d k1
    exact h1 d' j1 (j2.trans k2) (j3.trans k3) (hact d d' j4 k4)
  · refine Or.inr ⟨d, hsub d h1, h2, h3, h4, h5, fun d0 k1 k2 k3 k4 => ?_⟩
    obtain ⟨d', j1, j2, j3, j4, j5⟩ := hcov d0 k1
    exact Nat.le_trans j5 (h6 d' j1 (j2.trans k2) (j3.trans k3) (hact d0 d' j4 k4))

/-- Example: entries are added in two steps; the second one replaces the sign given in the first one. -/
example : ∃ s, DmReach DomEx.ini0 s ∧ s.given = ([[⟨1, .level, 3, 2, none⟩, ⟨1, .sign, -1, 1, none⟩], [⟨1, .sign, 1, 2, none⟩, ⟨1, .sign, -1, 0, none⟩]] : List (List DomEntry)).flatMap simplify ∧ s.pend = [] ∧
    s.qf = s.tr.length ∧ (s.cur 1 .level = (2, 3) ∧ s.cur 1 .sign = (2, 1)) := by
  obtain ⟨s, h1, h2⟩ := DomEx.run_ex (ini := DomEx.ini0) (es := [.init (simplify [⟨1, .level, 3, 2, none⟩, ⟨1, .sign, -1, 1, none⟩]), .choose (2, true), .next, .undo, .init (simplify [⟨1, .sign, 1, 2, none⟩, ⟨1, .sign, -1, 0, none⟩])])
    (p := fun s => s.given == ([[⟨1, .level, 3, 2, none⟩, ⟨1, .sign, -1, 1, none⟩], [⟨1, .sign, 1, 2, none⟩, ⟨1, .sign, -1, 0, none⟩]] : List (List DomEntry)).flatMap simplify && s.pend == [] && s.qf == s.tr.length &&
      (s.cur 1 .level == (2, 3) && s.cur 1 .sign == (2, 1))) (by decide +kernel)
  simp only [Bool.and_eq_true, beq_iff_eq] at h2
  obtain ⟨⟨⟨k1, k2⟩, k3⟩, k4⟩ := h2
  exact ⟨s, h1, k1, k2, k3, k4⟩

end Clasp.Dom
