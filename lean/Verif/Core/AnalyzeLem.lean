/- Lemmas for C13/C14: the steps after the first-UIP loop. -/
import Verif.Core.AnalyzeUip
import Verif.Core.AnalyzeMin
import Mathlib.Data.List.Perm.Basic
namespace Clasp.Core
open St

theorem assertAux_spec (level : Nat → Nat) (cc : List Lit) (i : Nat) (best : Nat × Nat) :
    best.2 ≤ (assertAux level cc i best).2 ∧ (∀ c ∈ cc, level c.var ≤ (assertAux level cc i best).2) ∧
    (assertAux level cc i best = best ∨ ∃ k c, cc[k]? = some c ∧ assertAux level cc i best = (i + k, level c.var)) := by
  induction cc generalizing i best with
  | nil => simp [assertAux]
  | cons c cc ih =>
    unfold assertAux
    by_cases h : level c.var > best.2
    · rw [if_pos h]
      obtain ⟨h1, h2, h3⟩ := ih (i + 1) (i, level c.var)
      simp only at h1
      refine ⟨by omega, fun d hd => ?_, Or.inr ?_⟩
      · rcases List.mem_cons.1 hd with e | hd
        · subst e; exact h1
        · exact h2 d hd
      · rcases h3 with h3 | ⟨k, d, hk, h3⟩
        · exact ⟨0, c, by simp, by rw [h3]; simp⟩
        · exact ⟨k + 1, d, by simpa using hk, by rw [h3]; simp only [Prod.mk.injEq, and_true]; omega⟩
    · rw [if_neg h]
      obtain ⟨h1, h2, h3⟩ := ih (i + 1) best
      refine ⟨h1, fun d hd => ?_, ?_⟩
      · rcases List.mem_cons.1 hd with e | hd
        · subst e; omega
        · exact h2 d hd
      · rcases h3 with h3 | ⟨k, d, hk, h3⟩
        · exact Or.inl h3
        · exact Or.inr ⟨k + 1, d, by simpa using hk, by rw [h3]; simp only [Prod.mk.injEq, and_true]; omega⟩

/-- The literal moved to the front has the greatest level. -/
theorem swapFront_spec (level : Nat → Nat) (cc : List Lit) (hpos : ∀ c ∈ cc, 0 < level c.var) :
    let b := assertAux level cc 0 (0, 0)
    (swapFront cc b.1).Perm cc ∧ (∀ c ∈ cc, level c.var ≤ b.2) ∧
    (∀ c, (swapFront cc b.1).head? = some c → level c.var = b.2) ∧ (cc = [] → b.2 = 0) := by
  intro b
  obtain ⟨_, h2, h3⟩ := assertAux_spec level cc 0 (0, 0)
  have hb : b = assertAux level cc 0 (0, 0) := rfl
  rw [← hb] at h2 h3
  cases cc with
  | nil => simp [swapFront, hb, assertAux]
  | cons c cc =>
    obtain ⟨k, d, hk, hbk⟩ : ∃ k d, (c :: cc)[k]? = some d ∧ b = (0 + k, level d.var) := by
      rcases h3 with h3 | h3
      · have h4 := h2 c (by simp)
        have h5 := hpos c (by simp)
        rw [h3] at h4; simp only at h4; omega
      · exact h3
    have hb1 : b.1 = k := by rw [hbk]; simp
    have hb2 : b.2 = level d.var := by rw [hbk]
    have hsw : swapFront (c :: cc) b.1 = ((c :: cc).set 0 d).set k c := by
      unfold swapFront; rw [hb1, hk]; simp
    refine ⟨?_, h2, ?_, by simp⟩
    · rw [hsw]
      cases k with
      | zero =>
        simp only [List.getElem?_cons_zero, Option.some.injEq] at hk
        subst hk; simp
      | succ k =>
        simp only [List.getElem?_cons_succ] at hk
        simp only [List.set_cons_zero, List.set_cons_succ]
        obtain ⟨hlt, hge⟩ := List.getElem?_eq_some_iff.1 hk
        have hsplit : cc = cc.take k ++ d :: cc.drop (k + 1) := by
          rw [← hge, ← List.drop_eq_getElem_cons hlt, List.take_append_drop]
        have hset : cc.set k c = cc.take k ++ c :: cc.drop (k + 1) := by
          rw [List.set_eq_take_append_cons_drop]; simp [hlt]
        rw [hset]
        conv => rhs; rw [hsplit]
        refine (List.Perm.cons d List.perm_middle).trans ((List.Perm.swap c d _).trans (List.Perm.cons c List.perm_middle.symm))
    · intro e he
      rw [hsw] at he
      cases k with
      | zero =>
        simp only [List.getElem?_cons_zero, Option.some.injEq] at hk
        subst hk
        simp at he; rw [hb2, he]
      | succ k =>
        simp at he; rw [hb2, he]

theorem foldClear (l : List Lit) (st : St) :
    l.foldl (fun s c => s.clearSeen c.var) st =
      { st with cell := fun v => if v ∈ l.map Lit.var then { st.cell v with seen := (false, false) } else st.cell v } := by
  induction l generalizing st with
  | nil => simp
  | cons c l ih =>
    rw [List.foldl_cons, ih]
    simp only [St.clearSeen, List.map_cons, List.mem_cons]
    congr 1
    funext v
    by_cases e : v = c.var
    · subst e; simp
    · simp [e]

theorem foldUpd (ls : List Nat) (b : Bool) (m : Nat → Bool) (k : Nat) :
    (ls.foldl (fun m l => Function.update m l b) m) k = if k ∈ ls then b else m k := by
  induction ls generalizing m with
  | nil => simp
  | cons l ls ih =>
    rw [List.foldl_cons, ih]
    by_cases e : k = l
    · subst e; simp
    · simp [e]

theorem ccResolve_perm (seen : Nat → Bool) (c : Lit) (cc r : List Lit) :
    (ccResolve seen (c :: cc) r).Perm (cc ++ (r.filter fun x => !seen x.var).map Lit.neg) := by
  unfold ccResolve
  dsimp only
  generalize cc ++ (r.filter fun x => !seen x.var).map Lit.neg = l
  cases h : l.getLast? with
  | none => rw [List.getLast?_eq_none_iff] at h; rw [h]
  | some b =>
    dsimp only
    rcases List.eq_nil_or_concat l with e | ⟨l', x, e⟩
    · subst e; simp at h
    · subst e
      simp only [List.concat_eq_append, List.getLast?_append, List.getLast?_singleton, Option.some_or, Option.some.injEq] at h
      subst h
      simp only [List.concat_eq_append, List.dropLast_concat]
      exact (List.perm_append_singleton x l').symm

/-- The start of the analysis. -/
theorem AInv.start {F : Asg → Prop} {s : St} (hp : AnaPre F s) : AInv F s ⟨s, [], 0, fun _ => false⟩ [] s.trail s.conflict := by
  have hsn : ∀ q ∈ s.trail, s.seen q.var = false → s.cell q.var = { s.cell q.var with seen := (false, false) } := by
    intro q _ h
    unfold St.seen Cell.marked at h
    simp only [Bool.or_eq_false_iff] at h
    cases hc : s.cell q.var with | mk v sn l =>
    rw [hc] at h
    cases sn; simp_all
  refine ⟨by simp, ⟨[], by simp, by simp⟩, by simp, by simp, by simp, by simp, hsn, by simp, hp.conf, by simp, by simp, ?_, ?_, by simp, ?_⟩
  · intro q hq h1 _ h3
    have := (hp.marks q hq).1 h3; omega
  · symm
    rw [List.countP_eq_zero]
    intro q hq
    have := hp.dl
    by_cases h : s.level q.var = s.dl
    · have : s.seen q.var = false := by
        by_contra hc
        have := (hp.marks q hq).1 (by simpa using hc); omega
      simp [this]
    · simp [h]
  · intro M hM hc _ _
    exact hp.confF M hM hc

/-- position of a variable on a trail (0 is the oldest) -/
def trailPos (T : List Lit) (v : Nat) : Nat := (T.reverse.map Lit.var).idxOf v

theorem trailPos_lt {T : List Lit} (hn : (T.map Lit.var).Nodup) {t1 t2 : List Lit} {x : Lit} (hT : T = t1 ++ x :: t2) {q : Lit} (hq : q ∈ t2) :
    trailPos T q.var < trailPos T x.var := by
  unfold trailPos
  have hr : T.reverse.map Lit.var = t2.reverse.map Lit.var ++ x.var :: t1.reverse.map Lit.var := by rw [hT]; simp
  have hx : x.var ∉ t2.reverse.map Lit.var := by
    intro hm
    rw [hT, List.map_append, List.nodup_append] at hn
    have := hn.2.1
    simp only [List.map_cons, List.nodup_cons] at this
    apply this.1
    simpa using hm
  rw [hr, List.idxOf_append_of_notMem hx, List.idxOf_append_of_mem (by
    rw [List.map_reverse, List.mem_reverse]; exact List.mem_map_of_mem hq)]
  have : (t2.reverse.map Lit.var).idxOf q.var < (t2.reverse.map Lit.var).length := by
    apply List.idxOf_lt_length_of_mem
    rw [List.map_reverse, List.mem_reverse]; exact List.mem_map_of_mem hq
  omega

/-- What first-UIP resolution followed by minimization delivers. -/
structure MinPost (F : Asg → Prop) (cfg : AnaCfg) (s : St) (a : Ana) (p : Lit) (u keep rem : List Lit) (rc : Option Rec) : Prop where
  uip : UipPost F s a p u
  loop : anaLoop (s.trail.length + 1) ⟨s, [], 0, fun _ => false⟩ s.conflict = some (a, p)
  min : ∃ N, ∀ fuel ≥ N, minLoop (fun x : Lit => if cfg.use x.var then a.st.reason x.var else none) a.st.seen (fun v => a.lm (a.st.level v)) fuel
    (cfg.rc.map Rec.start) a.cc = some (keep, rem, rc)
  split : Split a.cc keep rem
  red : ∀ M, F M → (∀ c ∈ keep, M.sat c.neg) → ∀ c ∈ rem, M.sat c.neg
  epoch : rc.isSome = cfg.rc.isSome ∧ ∀ r, rc = some r → ∀ v, r.epoch v ≤ r.epoch 0

theorem min_spec {F : Asg → Prop} {s : St} (hp : AnaPre F s) (cfg : AnaCfg) (hep : ∀ e, cfg.rc = some e → ∀ v, e v ≤ e 0) :
    ∃ a p u keep rem rc N, MinPost F cfg s a p u keep rem rc ∧
      ∀ fuel ≥ N, minLoop (fun x : Lit => if cfg.use x.var then a.st.reason x.var else none) a.st.seen (fun v => a.lm (a.st.level v)) fuel
        (cfg.rc.map Rec.start) a.cc = some (keep, rem, rc) := by
  obtain ⟨a, p, u, hloop, hpost⟩ := anaLoop_spec hp (s.trail.length + 1) (AInv.start hp) (by omega) (Or.inr hp.confTop)
  have hi := hpost.inv
  obtain ⟨w, hw, hwf⟩ := hi.suf
  have hreas : a.st.reason = s.reason := by rw [hi.same]
  have hsplit : s.trail = (w ++ [p]) ++ u := by rw [hw]; simp
  have hmemT : ∀ x ∈ u, x ∈ s.trail := fun x hx => by rw [hsplit]; simp [hx]
  have hnu : (u.map Lit.var).Nodup := nodup_suffix hp.wf hsplit
  have hdown : ∀ x ∈ u, ∀ r, (if cfg.use x.var then a.st.reason x.var else none) = some r →
      (∀ q ∈ r, q = litTrue ∨ (q ∈ u ∧ trailPos u q.var < trailPos u x.var)) ∧ ∀ M, F M → M.all r → M.sat x := by
    intro x hx r hr
    have hr : s.reason x.var = some r := by
      rw [hreas] at hr; split at hr
      · exact hr
      · simp at hr
    obtain ⟨t1, t2, ht⟩ := List.append_of_mem hx
    have := hp.reason ((w ++ [p]) ++ t1) x t2 (by rw [hsplit, ht]; simp) r hr
    refine ⟨fun q hq => ?_, this.2⟩
    rcases this.1 q hq with h | h
    · exact Or.inl h
    · exact Or.inr ⟨by rw [ht]; simp [h], trailPos_lt hnu ht h⟩
  have hseen0 : a.st.seen 0 = true := by
    unfold St.seen; rw [hi.off 0 hp.toff]; exact hp.tcell.1
  have hm : MinPre (fun x : Lit => if cfg.use x.var then a.st.reason x.var else none) a.st.seen u (trailPos u) :=
    ⟨fun x hx y hy => same_var_eq hp.wf (hmemT x hx) (hmemT y hy), hnu.of_map, fun x hx r hr => (hdown x hx r hr).1, hseen0⟩
  have hrc : RcOk (fun x : Lit => if cfg.use x.var then a.st.reason x.var else none) a.st.seen u (cfg.rc.map Rec.start) := by
    cases he : cfg.rc with
    | none => trivial
    | some e =>
      have hb := hep e he
      have key : ∀ e' : Nat → Nat, (∀ v, e' v ≤ e' 0) → RecOk (fun x : Lit => if cfg.use x.var then a.st.reason x.var else none) a.st.seen u
          ⟨Function.update e' 0 (e' 0 + 2), e' 0⟩ := by
        intro e' he'
        have hst : ∀ x ∈ u, (Rec.mk (Function.update e' 0 (e' 0 + 2)) (e' 0)).state x.var = .opn := by
          intro x hx
          have := hp.toff x (hmemT x hx)
          unfold Rec.state
          simp only [Function.update_of_ne this, if_pos (he' x.var)]
        refine ⟨fun x hx h => ?_, fun x hx _ => hst x hx, fun v => ?_, by simp⟩
        · rw [hst x hx] at h; simp at h
        · by_cases e0 : v = 0
          · subst e0; simp
          · simp only [Function.update_of_ne e0]; have := he' v; omega
      show RecOk _ _ _ (Rec.start e)
      unfold Rec.start
      dsimp only
      by_cases hc : 2 ^ 32 - 1 - e 0 < 2
      · simp only [if_pos hc]; exact key (fun _ => 0) (by simp)
      · simp only [if_neg hc]; exact key e hb
  obtain ⟨keep, rem, rc, N, h1, h2, h3, h4, h5⟩ := minLoop_spec (fun v => a.lm (a.st.level v)) hm a.cc
    (fun c hc => ⟨(hi.ccP c hc).1, (hi.ccP c hc).2.2.2⟩) _ hrc
  refine ⟨a, p, u, keep, rem, rc, N, ⟨hpost, hloop, ⟨N, h1⟩, h2, fun M hM hk c hc => ?_, ?_⟩, h1⟩
  · have hcc := (h2.mem c).2 (Or.inr hc)
    refine redundant hm h3 h5 (fun x hx r hr => (hdown x hx r hr).2) hp.tt (fun x hx hs => ?_) hM hk _ c.neg (hi.ccP c hcc).1 rfl
      (Or.inl (hi.ccP c hcc).2.2.2)
    by_cases h0 : s.level x.var = 0
    · exact Or.inl fun M hM => hp.zero x (hmemT x hx) h0 M hM
    · right
      have hne : s.level x.var ≠ s.dl := fun e => by
        have := hpost.noTop x hx e; rw [this] at hs; exact absurd hs (by simp)
      have hle := trail_lev_le hp.wf (hmemT x hx)
      exact (h2.mem _).1 (hi.mid x hx (by omega) (by omega) hs)
  · cases hr : cfg.rc with
    | none => rw [hr] at h4; cases rc <;> simp_all [rcMono]
    | some e =>
      rw [hr] at h4
      cases rc with
      | none => simp [rcMono] at h4
      | some r =>
        refine ⟨rfl, fun r' hr' v => ?_⟩
        simp only [Option.some.injEq] at hr'
        subst hr'
        rw [h3.top]; exact h3.bound v

end Clasp.Core
