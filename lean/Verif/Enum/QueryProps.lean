/-
C18: cautious consequences by queries (cb_enumerator.cpp 85-219).
-/
import Verif.Enum.QueryLem
namespace Clasp.Core
open St

namespace Query
open Cons (trueBit estBit isTrue isEst isDef)
variable {learn : Bool} {n : Nat} {E : Asg → Prop} {x0 x y : Sys} {c y1 : Core.Sys}

/-! ### The solver relative to the start -/

/-- Proof device: the solver `c` works on the problem of `x0` with the assumptions of `x0` on its first levels. -/
structure Rel (learn : Bool) (n : Nat) (E : Asg → Prop) (b c : Core.Sys) : Prop where
  reach : Core.Sys.Reach learn n E (fun _ => true) c
  found : c.found = []
  recs : c.recs = []
  orig : c.orig = b.orig
  root : b.st.root ≤ c.st.root
  dec : ∀ i, 1 ≤ i → i ≤ b.st.root → c.st.decision i = b.st.decision i

variable {b : Core.Sys}

theorem level_le {s : St} (hb : s.Base) {p : Lit} (h : s.tl p) : s.level p.var ≤ s.dl := by
  rcases h with rfl | h
  · rw [litTrue_var]; unfold St.level; rw [hb.c0]; simp
  · exact trail_lev_le hb.wf h

theorem Rel.base (hr : Rel learn n E b c) (hn : n < varMax) : c.st.Base := (hr.reach.inv hn).ok.inv.base

theorem Rel.dl (hr : Rel learn n E b c) (hn : n < varMax) : c.st.root ≤ c.st.dl :=
  Nat.le_trans (hr.base hn).wf.rf (hr.base hn).wf.fd

/-- an answer passes the first levels -/
theorem Rel.path (hr : Rel learn n E b c) (hb : Rel learn n E b b) (hn : n < varMax) {M : Asg} (hM : b.Answer E M) :
    c.st.pathSat M b.st.root ∧ (c.th E n).G M := by
  obtain ⟨h1, h2⟩ := Core.Sys.answer_iff.1 hM
  have htd : c.todo E n M := ⟨⟨⟨h1.1, h1.2.1, by rw [hr.orig]; exact h1.2.2⟩, by rw [hr.recs]; simp⟩, by rw [hr.found]; simp⟩
  refine ⟨fun i j1 j2 => ?_, htd, (hr.reach.inv hn).zero M htd⟩
  rw [hr.dec i j1 j2]
  exact h2 _ ((hb.reach.inv hn).root i j1 j2)

/-- what holds on the first levels is a consequence -/
theorem Rel.low (hr : Rel learn n E b c) (hb : Rel learn n E b b) (hn : n < varMax) {p : Lit} (hp : c.st.isTrue p = true)
    (hl : c.st.level p.var ≤ b.st.root) : All (b.Answer E) p := by
  intro M hM
  obtain ⟨h1, h2⟩ := hr.path hb hn hM
  exact (hr.reach.inv hn).ok.inv.sound.impl_tl (((hr.base hn).isTrue_iff p).1 hp) h2 hl h1

/-- a model is an answer of the start -/
theorem Rel.answer (hr : Rel learn n E b c) (hb : Rel learn n E b b) (hn : n < varMax) {M : Asg} (hM : c.Answer E M) : b.Answer E M := by
  obtain ⟨h1, h2⟩ := Core.Sys.answer_iff.1 hM
  have hi := hb.reach.inv hn
  have hbase : b.base E M := ⟨h1.1, h1.2.1, by rw [← hr.orig]; exact h1.2.2⟩
  have htd : b.todo E n M := ⟨⟨hbase, by rw [hb.recs]; simp⟩, by rw [hb.found]; simp⟩
  refine Core.Sys.answer_iff.2 ⟨hbase, fun a ha => ?_⟩
  obtain ⟨a1, a2⟩ := hi.asm a ha
  refine hi.ok.inv.sound.impl_tl a1 (M := M) ⟨htd, hi.zero M htd⟩ a2 fun i j1 j2 => ?_
  have := h2 _ ((hr.reach.inv hn).root i j1 (Nat.le_trans j2 hr.root))
  rw [hr.dec i j1 j2] at this
  exact this

/-- after withdrawing levels -/
theorem Rel.popped (hr : Rel learn n E b c) (hn : n < varMax) {q : Lit} (hk : c.st.root - popLevels c.st q = b.st.root) :
    Rel learn n E b (popped learn c c.st q) ∧ (popped learn c c.st q).st.root = b.st.root ∧ (popped learn c c.st q).st.dl = b.st.root := by
  have hi := hr.reach.inv hn
  have := Core.Sys.pop_down (s := c.st) (u := c.st) (T := c.th E n)
    (by unfold clearStopConflict; rw [show c.st.stop = none from hi.ok.inv.stop]) hi.ok.inv (popLevels c.st q)
  have e1 : (Query.popped learn c c.st q).st.root = b.st.root := this.2.1.trans hk
  have e2 : (Query.popped learn c c.st q).st.dl = b.st.root := this.2.2.trans hk
  refine ⟨⟨hr.reach.step (.popRoot _ hr.found hr.recs), hr.found, hr.recs, hr.orig, by rw [e1], fun i j1 j2 => ?_⟩, e1, e2⟩
  rw [← hr.dec i j1 j2]
  exact this.1.dec i j1 (by rw [this.2.2, hk]; exact j2)

/-- the same after backtracking has failed -/
theorem Rel.poppedStop (hr : Rel learn n E b c) (hn : n < varMax) {q : Lit} (hk : c.st.root - popLevels c.st q = b.st.root) (hc : c.st.conflict ≠ [])
    (hbt : (c.st.backtrack learn).2 = false) :
    Rel learn n E b (Query.popped learn c (c.st.backtrack learn).1 q) ∧ (Query.popped learn c (c.st.backtrack learn).1 q).st.root = b.st.root ∧
      (Query.popped learn c (c.st.backtrack learn).1 q).st.dl = b.st.root ∧ ∀ M, (c.th E n).G M → ¬ c.st.pathSat M c.st.root := by
  have hi := hr.reach.inv hn
  obtain ⟨u, b1, b2, b3, b4, b5, b6⟩ := (backtrack_spec hi.ok.inv (hi.ok.inv.dead hc)).2 hbt
  have := Core.Sys.pop_down (s := (c.st.backtrack learn).1) (u := u) (T := c.th E n)
    (by rw [show (c.st.backtrack learn).1 = _ from b1]; exact stop_clear b2.stop b4 b2.base.wf.fd b2.base.wf.rf) b2 (popLevels c.st q)
  rw [b5] at this
  have e1 : (Query.popped learn c (c.st.backtrack learn).1 q).st.root = b.st.root := this.2.1.trans hk
  have e2 : (Query.popped learn c (c.st.backtrack learn).1 q).st.dl = b.st.root := this.2.2.trans hk
  refine ⟨⟨hr.reach.step (.popFail _ hr.found hr.recs hc hbt), hr.found, hr.recs, hr.orig, by rw [e1], fun i j1 j2 => ?_⟩, e1, e2, ?_⟩
  · rw [← hr.dec i j1 j2]
    exact (b3.trans this.1).dec i j1 (by rw [this.2.2]; exact Nat.le_trans j2 (Nat.le_of_eq hk.symm))
  · intro M hM hp
    refine b6 M hM fun i j1 j2 => ?_
    rw [b3.dec i j1 j2]
    rw [b4, b5] at j2
    exact hp i j1 j2

/-- `pushRoot` of a query that is free -/
theorem Rel.push (hr : Rel learn n E b c) (hb : Rel learn n E b b) (hn : n < varMax) {p : Lit} (h : PushRoot learn n E true c p y1)
    (hd : c.st.dl = b.st.root) (hrt : c.st.root = b.st.root) (hex : ∃ M, b.Answer E M) :
    Rel learn n E b y1 ∧ y1.st.root = b.st.root + 1 ∧ y1.st.decision (b.st.root + 1) = p := by
  have settle : ∀ {z}, Core.Sys.Settle learn n E c z → Rel learn n E b z ∧ z.st.dl = b.st.root ∧ z.st.root = b.st.root := by
    intro z hz
    obtain ⟨h1, h2⟩ := Core.Sys.Settle.spec hn hr.reach hz
    have hi := (h1.inv hn).ok.inv.base.wf
    have hrz : z.st.root = b.st.root := h2.root.trans hrt
    have hdz : z.st.dl = b.st.root := by
      have h3 := h2.dl
      have h4 : z.st.root ≤ z.st.dl := Nat.le_trans hi.rf hi.fd
      omega
    refine ⟨⟨h1, h2.found.trans hr.found, h2.recs.trans hr.recs, h2.orig.trans hr.orig, by omega, fun i j1 j2 => ?_⟩, hdz, hrz⟩
    rw [h2.dec i j1 (by omega), hr.dec i j1 j2]
  cases h with
  | assume hs hy hf hv hnv =>
    obtain ⟨s1, s2, s3⟩ := settle hs
    rename_i z
    have hst := Core.Sys.Step.assume (learn := learn) (E := E) (P := fun _ => true) p hy (by rw [s2, s3]) hf hv hnv s1.found s1.recs
    have hrt : (((z.st.decide' p).pushRootLevel 1) : St).root = b.st.root + 1 := by
      show min (z.st.decide' p).dl ((z.st.decide' p).root + 1) = _
      rw [decide_dl, s2, show (z.st.decide' p).root = z.st.root from rfl, s3]; simp
    refine ⟨⟨s1.reach.step hst, s1.found, s1.recs, s1.orig, ?_, fun i j1 j2 => ?_⟩, hrt, ?_⟩
    · show _ ≤ (((z.st.decide' p).pushRootLevel 1) : St).root
      rw [hrt]; omega
    · rw [← s1.dec i j1 j2]
      exact decide_decision (s1.base hn).wf p j1 (by rw [s2]; exact j2)
    · have := decide_new (s := z.st) p
      rw [s2] at this
      exact this
  | queue hs hy =>
    obtain ⟨s1, s2, s3⟩ := settle hs
    obtain ⟨M, hM⟩ := hex
    obtain ⟨h1, h2⟩ := s1.path hb hn hM
    exact absurd (by rw [← s2] at h1; exact h1) ((s1.reach.inv hn).ok.inv.dead hy M h2)
  | holds hs hy hf hv hcl => simp at hcl
  | fails hs hy hf hv hcl => simp at hcl

theorem value_zero (hr : Rel learn n E b c) (hn : n < varMax) : c.st.value 0 ≠ none := by
  unfold St.value; rw [(hr.base hn).c0]; simp

/-- a query that is assumed to be false is popped -/
theorem popLevels_query (hr : Rel learn n E b c) (hn : n < varMax) {q : Lit} (hrt : c.st.root = b.st.root + 1) (hd : c.st.decision (b.st.root + 1) = q.neg) :
    q.var ≠ 0 ∧ c.st.level q.var = b.st.root + 1 ∧ c.st.isFalse q = true ∧ c.st.root - popLevels c.st q = b.st.root := by
  have h := decision_mem (hr.base hn).wf (d := b.st.root + 1) (by omega) (by have := hr.dl hn; omega)
  rw [hd] at h
  have h0 : q.var ≠ 0 := (hr.base hn).toff q.neg h.1
  have hf : c.st.isFalse q = true := ((hr.base hn).isFalse_iff q).2 (Or.inr h.1)
  have hl : c.st.level q.var = b.st.root + 1 := h.2
  refine ⟨h0, hl, hf, ?_⟩
  unfold popLevels
  rw [hf, hl, hrt]
  have : q ≠ litFalse := fun e => h0 (by rw [e]; rfl)
  simp [this]

/-! ### The run -/

/-- the phases of a run -/
inductive Phase (learn : Bool) (n : Nat) (E : Asg → Prop) (x0 x : Sys) : Prop
  /-- before the first model -/
  | start (query : x.query = litFalse) (due : x.due = false) (fin : x.fin = false) (val : x.val = x0.val) (cand : x.cand = x0.cand)
      (root : x.sys.st.root = x0.sys.st.root) (done : x.done = 0)
  /-- there is no model -/
  | none (no : ∀ M, ¬ x0.sys.Answer E M) (query : x.query = litFalse) (due : x.due = true) (op : isOpen x.val x.query = true) (done : x.done = 0)
      (val : x.val = x0.val)
  | run (M0 : Asg) (bnd : Bnd (x0.sys.Answer E) M0 (· ∈ x0.cand) (· ∈ x.cand) x.val) (rep : Rep x.val)
      (sub : ∀ p ∈ x.cand, p ∈ x0.cand) (cnt : x.done + x.cand.length ≤ x0.cand.length + 1)
      (ph : (x.due = true ∧ x.fin = false ∧ x.query = litFalse ∧ isOpen x.val x.query = false ∧ x.sys.st.root = x0.sys.st.root) ∨
        (x.due = false ∧ x.fin = false ∧ x.query ∈ x.cand ∧ isOpen x.val x.query = true ∧ x.sys.st.root = x0.sys.st.root + 1 ∧
          x.sys.st.decision (x0.sys.st.root + 1) = x.query.neg) ∨
        (x.due = true ∧ x.fin = false ∧ isOpen x.val x.query = false ∧ x.sys.st.root = x0.sys.st.root + 1 ∧
          x.sys.st.decision (x0.sys.st.root + 1) = x.query.neg) ∨
        (x.due = true ∧ x.fin = false ∧ x.sys.st.root = x0.sys.st.root ∧ x.sys.st.dl = x0.sys.st.root ∧ All (x0.sys.Answer E) x.query) ∨
        (x.due = false ∧ x.fin = true ∧ x.cand = []))

/-- The invariant. -/
structure Inv (learn : Bool) (n : Nat) (E : Asg → Prop) (x0 x : Sys) : Prop where
  rel : Rel learn n E x0.sys x.sys
  ph : Phase learn n E x0 x

theorem Start.rel (h : Start learn n E x0) : Rel learn n E x0.sys x0.sys := ⟨h.reach, h.found, h.recs, rfl, Nat.le_refl _, fun _ _ _ => rfl⟩

theorem Start.inv (h : Start learn n E x0) : Inv learn n E x0 x0 := ⟨h.rel, .start h.query h.due h.fin rfl rfl rfl h.done⟩

theorem popLevels_false {s : St} : popLevels s litFalse = 0 := by unfold popLevels; simp

theorem popLevels_neg {s : St} {q : Lit} (h : s.isFalse q = false) : popLevels s q = 0 := by unfold popLevels; simp [h]

/-- the values after the first model -/
theorem first_bnd (h0 : Start learn n E x0) (hn : n < varMax) (hr : Rel learn n E x0.sys c) (ht : c.st.Total n) (hE : E c.st.model) :
    Bnd (x0.sys.Answer E) c.st.model (· ∈ x0.cand) (· ∈ (initUpper c.st x0.cand (fix x0.val litFalse.neg)).1)
      (initUpper c.st x0.cand (fix x0.val litFalse.neg)).2 ∧ Rep (initUpper c.st x0.cand (fix x0.val litFalse.neg)).2 ∧
      (initUpper c.st x0.cand (fix x0.val litFalse.neg)).1.length ≤ x0.cand.length ∧
      (∀ p ∈ (initUpper c.st x0.cand (fix x0.val litFalse.neg)).1, p ∈ x0.cand) := by
  have hb := hr.base hn
  have hA : x0.sys.Answer E c.st.model := hr.answer h0.rel hn (Core.Sys.C15_model hn hr.reach ht hE).1
  have e : fix x0.val litFalse.neg = fix (fun _ => 0) litFalse.neg := by
    rw [h0.val]
    unfold fix push
    funext v
    by_cases hv : v = 0
    · subst hv; rw [show litFalse.neg.var = 0 from rfl, Function.update_self, Function.update_self]
    · rw [show litFalse.neg.var = 0 from rfl, show litFalse.var = 0 from rfl, Function.update_of_ne hv, Function.update_of_ne hv, Function.update_of_ne hv]
  have hz : ∀ p : Lit, isTrue 0 p = false ∧ isEst 0 p = false := fun p => (bits p p rfl).2.2.2.2
  have b0 : Bnd (x0.sys.Answer E) c.st.model (fun _ => False) (fun _ => False) (fun _ => 0) :=
    ⟨hA, fun p h => by rw [(hz p).1] at h; simp at h, fun _ h => h.elim, fun p h => by rw [(hz p).1] at h; simp at h,
      fun p h => by rw [(hz p).2] at h; simp at h⟩
  have r0 : Rep (fun _ => 0) := fun p h => by rw [(hz p).2] at h; simp at h
  have htt : All (x0.sys.Answer E) litFalse.neg := fun M hM => hM.1
  have b1 := b0.fix htt
  rw [← e] at b1
  obtain ⟨i1, i2, i3, i4⟩ := init_spec (A := x0.sys.Answer E) (M0 := c.st.model) c.st (fun p hp => Core.Sys.model_sat hb ((hb.isTrue_iff p).1 hp))
    (fun p hp hl => hr.low h0.rel hn hp (by omega)) x0.cand
    (fun p hp hf => by
      have := (Core.Sys.Total.tl hb ht (h0.vars p hp)).resolve_left fun h => by rw [(hb.isTrue_iff p).2 h] at hf; simp at hf
      exact (Asg.sat_neg _ _).1 (Core.Sys.model_sat hb this)) _ _ _ b1 (e ▸ r0.fix _)
  exact ⟨i1.weaken (fun p hp => Or.inr hp) (fun p _ hp => hp.resolve_left id), i2, i4, fun p hp => (i3 p hp).1⟩

theorem Inv.step (h0 : Start learn n E x0) (hn : n < varMax) (hi : Inv learn n E x0 x) (h : Step learn n E true x y) : Inv learn n E x0 y := by
  obtain ⟨hr, ph⟩ := hi
  have hr0 := h0.rel
  have hb := hr.base hn
  -- what follows the removal of the query
  have openB : ∀ {M0 : Asg} {cc : Core.Sys} {v : Nat → Nat}, Rel learn n E x0.sys cc → cc.st.dl = x0.sys.st.root →
      Bnd (x0.sys.Answer E) M0 (· ∈ x0.cand) (· ∈ x.cand) v → Rep v →
      Bnd (x0.sys.Answer E) M0 (· ∈ x0.cand) (· ∈ (updateOpen cc.st x.cand v).1) (updateOpen cc.st x.cand v).2 ∧
      Rep (updateOpen cc.st x.cand v).2 ∧
      (∀ p ∈ (updateOpen cc.st x.cand v).1, cc.st.value p.var = Option.none ∧ isOpen (updateOpen cc.st x.cand v).2 p = true ∧ p ∈ x.cand) ∧
      (updateOpen cc.st x.cand v).1.length ≤ x.cand.length ∧
      (∀ q ∈ x.cand, isOpen v q = false → (updateOpen cc.st x.cand v).1.length < x.cand.length) := by
    intro M0 cc v hc hd hB hR
    have hbc := hc.base hn
    have ht : ∀ p, cc.st.isTrue p = true → All (x0.sys.Answer E) p := fun p hp =>
      hc.low hr0 hn hp (by rw [← hd]; exact level_le hbc ((hbc.isTrue_iff p).1 hp))
    have hf : ∀ p, cc.st.isFalse p = true → ¬ All (x0.sys.Answer E) p := fun p hp hA => by
      have := ht p.neg (by rw [← isFalse_eq]; exact hp)
      exact (Asg.sat_neg _ _).1 (this _ hB.ans) (hA _ hB.ans)
    obtain ⟨o1, o2, o3, o4, o5⟩ := open_spec cc.st ht hf x.cand.length [] x.cand v (Nat.le_refl _) (by simpa using hB) hR (by simp)
    exact ⟨o1, o2, fun p hp => ⟨(o3 p hp).1, (o3 p hp).2.1, (o3 p hp).2.2.resolve_left (by simp)⟩, by simpa [updateOpen] using o4, by simpa [updateOpen] using o5⟩
  -- the situation when `update` is called
  have due : x.due = true → ∀ {M0 : Asg}, x0.sys.Answer E M0 →
      ((x.due = true ∧ x.fin = false ∧ x.query = litFalse ∧ isOpen x.val x.query = false ∧ x.sys.st.root = x0.sys.st.root) ∨
        (x.due = false ∧ x.fin = false ∧ x.query ∈ x.cand ∧ isOpen x.val x.query = true ∧ x.sys.st.root = x0.sys.st.root + 1 ∧
          x.sys.st.decision (x0.sys.st.root + 1) = x.query.neg) ∨
        (x.due = true ∧ x.fin = false ∧ isOpen x.val x.query = false ∧ x.sys.st.root = x0.sys.st.root + 1 ∧
          x.sys.st.decision (x0.sys.st.root + 1) = x.query.neg) ∨
        (x.due = true ∧ x.fin = false ∧ x.sys.st.root = x0.sys.st.root ∧ x.sys.st.dl = x0.sys.st.root ∧ All (x0.sys.Answer E) x.query) ∨
        (x.due = false ∧ x.fin = true ∧ x.cand = [])) →
      x.sys.st.root - popLevels x.sys.st x.query = x0.sys.st.root ∧ x.fin = false := by
    intro hd M0 hM0 hph
    rcases hph with h | h | h | h | h
    · refine ⟨?_, h.2.1⟩
      rw [h.2.2.1, popLevels_false, h.2.2.2.2]; rfl
    · rw [h.1] at hd; simp at hd
    · exact ⟨(popLevels_query hr hn h.2.2.2.1 h.2.2.2.2).2.2.2, h.2.1⟩
    · refine ⟨?_, h.2.1⟩
      rw [popLevels_neg, h.2.2.1]; · rfl
      by_contra hf
      have hf : x.sys.st.isFalse x.query = true := by simpa using hf
      have hl := level_le hb ((hb.isFalse_iff _).1 hf)
      rw [h.2.2.2.1] at hl
      have := hr.low hr0 hn (p := x.query.neg) (by rw [← isFalse_eq]; exact hf) hl
      exact (Asg.sat_neg _ _).1 (this _ hM0) (h.2.2.2.2 _ hM0)
    · rw [h.1] at hd; simp at hd
  cases h with
  | solver z hd hfin hst h1 h2 h3 h4 h5 =>
    have hiz := (hr.reach.step hst).inv hn
    have hk := hst.keepRoot hn (hr.reach.inv hn) hiz h1 h2 h3 h4 h5
    refine ⟨⟨hr.reach.step hst, h3, h4, h1.trans hr.orig, by show _ ≤ z.st.root; rw [h5]; exact hr.root, fun i j1 j2 => ?_⟩, ?_⟩
    · exact (hk i j1 (Nat.le_trans j2 hr.root)).trans (hr.dec i j1 j2)
    cases ph with
    | start q1 q2 q3 q4 q5 q6 q7 => exact .start q1 q2 q3 q4 q5 (h5.trans q6) q7
    | none q1 q2 q3 q4 => rw [hd] at q3; simp at q3
    | run M0 hB hR hsub hcnt hph =>
      refine .run M0 hB hR hsub hcnt ?_
      rcases hph with h | h | h | h | h
      · rw [hd] at h; simp at h
      · refine Or.inr (Or.inl ⟨h.1, h.2.1, h.2.2.1, h.2.2.2.1, h5.trans h.2.2.2.2.1, ?_⟩)
        exact (hk _ (by omega) (by rw [h.2.2.2.2.1])).trans h.2.2.2.2.2
      · rw [hd] at h; simp at h
      · rw [hd] at h; simp at h
      · rw [hfin] at h; simp at h
  | model hd hfin ht hE =>
    refine ⟨hr, ?_⟩
    cases ph with
    | none q1 q2 q3 q4 => rw [hd] at q3; simp at q3
    | start q1 q2 q3 q4 q5 q6 q7 =>
      have e : commitModel x = { x with
          cand := (initUpper x.sys.st x0.cand (fix x0.val litFalse.neg)).1, val := (initUpper x.sys.st x0.cand (fix x0.val litFalse.neg)).2
          due := true, done := x.done + 1 } := by
        unfold commitModel
        rw [if_pos (by rw [q1]; rfl), q1, q4, q5]
      obtain ⟨f1, f2, f3, f4⟩ := first_bnd h0 hn hr ht hE
      rw [e]
      refine .run _ f1 f2 f4 (by show x.done + 1 + (initUpper x.sys.st x0.cand (fix x0.val litFalse.neg)).1.length ≤ _; rw [q7]; omega) (Or.inl ⟨rfl, q3, q1, ?_, q6⟩)
      show isOpen _ x.query = false
      rw [q1]
      by_contra ho
      have ho : isEst ((initUpper x.sys.st x0.cand (fix x0.val litFalse.neg)).2 litFalse.var) litFalse = true := by
        rw [← open_est]; simpa using ho
      have h2 := f1.rep _ (f2 _ ho)
      exact (Asg.sat_neg _ _).1 (show x.sys.st.model.sat litFalse.neg from f1.ans.1) h2
    | run M0 hB hR hsub hcnt hph =>
      rcases hph with h | h | h | h | h
      · rw [hd] at h; simp at h
      · obtain ⟨_, _, hq, ho, hrt, hdec⟩ := h
        obtain ⟨p1, p2, p3, p4⟩ := popLevels_query hr hn hrt hdec
        have hA : x0.sys.Answer E x.sys.st.model := hr.answer hr0 hn (Core.Sys.C15_model hn hr.reach ht hE).1
        have hnot : ∀ p : Lit, x.sys.st.isTrue p = false → x.sys.st.value p.var ≠ Option.none → ¬ All (x0.sys.Answer E) p := fun p hf hv hall => by
          rcases x.sys.st.value_cases p with e | e | e
          · exact hv e
          · rw [e] at hf; simp at hf
          · exact (Asg.sat_neg _ _).1 (Core.Sys.model_sat hb ((hb.isFalse_iff p).1 e)) (hall _ hA)
        have hqf : ¬ All (x0.sys.Answer E) x.query := fun hall =>
          (Asg.sat_neg _ _).1 (Core.Sys.model_sat hb ((hb.isFalse_iff _).1 p3)) (hall _ hA)
        have hpo : isOpen (pop x.val x.query) x.query = false := by unfold isOpen pop; rw [Function.update_self]; exact (bits _ _ rfl).2.2.2.2.2
        have e : commitModel x = { x with
            cand := (updateUpper x.sys.st (x0.sys.st.root + 1) x.cand (pop x.val x.query)).1
            val := (updateUpper x.sys.st (x0.sys.st.root + 1) x.cand (pop x.val x.query)).2, due := true, done := x.done + 1 } := by
          unfold commitModel
          rw [if_neg p1, p2]
        obtain ⟨u1, u2, u3, u4⟩ := upper_spec (K := fun _ => False) x.sys.st (x0.sys.st.root + 1)
          (fun p hp hl => hr.low hr0 hn hp (by omega)) x.cand (fun p hp hf => hnot p hf (ht.all _ (h0.vars p (hsub p hp)))) (pop x.val x.query)
          ((hB.pop (hR _ ho) hqf).weaken (fun _ h => h) fun _ _ h => Or.inr h) (hR.pop _)
        have hlen := (upper_len x.sys.st (x0.sys.st.root + 1) x.cand (pop x.val x.query)).2 _ hq hpo
        rw [e]
        refine .run M0 (u1.weaken (fun _ h => h) fun _ _ h => h.resolve_left id) u2 (fun p hp => hsub p (u3 p hp).1) ?_
          (Or.inr (Or.inr (Or.inl ⟨rfl, hfin, u4 _ hpo, hrt, hdec⟩)))
        show x.done + 1 + (updateUpper x.sys.st (x0.sys.st.root + 1) x.cand (pop x.val x.query)).1.length ≤ _
        omega
      · rw [hd] at h; simp at h
      · rw [hd] at h; simp at h
      · rw [hfin] at h; simp at h
  | unsat hd hfin hc hdr hok =>
    cases ph with
    | none q1 q2 q3 q4 => rw [hd] at q3; simp at q3
    | start q1 q2 q3 q4 q5 q6 q7 =>
      have hk : x.sys.st.root - popLevels x.sys.st x.query = x0.sys.st.root := by rw [q1, popLevels_false, q6]; rfl
      obtain ⟨r1, r2, r3⟩ := hr.popped hn hk
      have e : commitUnsat learn x = { x with sys := popped learn x.sys x.sys.st x.query, due := true } := by
        unfold commitUnsat
        dsimp only
        rw [if_neg (by rw [q1]; simp [litFalse])]
      rw [e]
      refine ⟨r1, .none (fun M hM => ?_) q1 rfl ?_ q7 q4⟩
      · obtain ⟨h1, h2⟩ := hr.path hr0 hn hM
        exact (hr.reach.inv hn).ok.inv.dead hc M h2 (by
          show x.sys.st.pathSat M x.sys.st.dl
          rw [hdr, q6]; exact h1)
      · show isOpen x.val x.query = true
        rw [q4, q1, h0.val]; decide
    | run M0 hB hR hsub hcnt hph =>
      rcases hph with h | h | h | h | h
      · rw [hd] at h; simp at h
      · obtain ⟨_, _, hq, ho, hrt, hdec⟩ := h
        obtain ⟨p1, p2, p3, p4⟩ := popLevels_query hr hn hrt hdec
        obtain ⟨r1, r2, r3⟩ := hr.popped hn p4
        have hall : All (x0.sys.Answer E) x.query := by
          intro M hM
          obtain ⟨h1, h2⟩ := hr.path hr0 hn hM
          by_contra hs
          refine (hr.reach.inv hn).ok.inv.dead hc M h2 ?_
          intro i j1 j2
          rw [show x.sys.db.st.dl = x0.sys.st.root + 1 from hdr.trans hrt] at j2
          rcases Nat.lt_or_ge i (x0.sys.st.root + 1) with hlt | hge
          · exact h1 i j1 (by omega)
          · rw [show i = x0.sys.st.root + 1 by omega]
            show M.sat (x.sys.st.decision _)
            rw [hdec]; exact (Asg.sat_neg _ _).2 hs
        have hfo : isOpen (fix x.val x.query) x.query = false := by unfold isOpen fix; rw [Function.update_self]; exact (bits _ _ rfl).2.1
        have hok' : (popped learn x.sys x.sys.st x.query).st.conflict = [] := by
          unfold commitUnsat at hok
          dsimp only at hok
          split at hok <;> exact hok
        have e : commitUnsat learn x = { x with
            sys := popped learn x.sys x.sys.st x.query
            cand := (updateOpen (popped learn x.sys x.sys.st x.query).st x.cand (fix x.val x.query)).1
            val := (updateOpen (popped learn x.sys x.sys.st x.query).st x.cand (fix x.val x.query)).2, due := true, done := x.done + 1 } := by
          unfold commitUnsat
          dsimp only
          rw [if_pos ⟨p1, hok', ho⟩]
        rw [e]
        obtain ⟨o1, o2, o3, o4, o5⟩ := openB r1 r3 ((hB.fix hall).weaken (fun _ h => Or.inl h) fun _ _ h => h) (hR.fix x.query)
        have := o5 _ hq hfo
        refine ⟨r1, .run M0 o1 o2 (fun p hp => hsub p (o3 p hp).2.2) ?_ (Or.inr (Or.inr (Or.inr (Or.inl ⟨rfl, hfin, r2, r3, hall⟩))))⟩
        show x.done + 1 + (updateOpen (popped learn x.sys x.sys.st x.query).st x.cand (fix x.val x.query)).1.length ≤ _
        omega
      · rw [hd] at h; simp at h
      · rw [hd] at h; simp at h
      · rw [hfin] at h; simp at h
  | stop hd hfin hc hbt hok =>
    cases ph with
    | none q1 q2 q3 q4 => rw [hd] at q3; simp at q3
    | start q1 q2 q3 q4 q5 q6 q7 =>
      have hk : x.sys.st.root - popLevels x.sys.st x.query = x0.sys.st.root := by rw [q1, popLevels_false, q6]; rfl
      obtain ⟨r1, r2, r3, r4⟩ := hr.poppedStop hn hk hc hbt
      refine ⟨r1, .none (fun M hM => ?_) q1 rfl ?_ q7 q4⟩
      · obtain ⟨h1, h2⟩ := hr.path hr0 hn hM
        exact r4 M h2 (by rw [q6]; exact h1)
      · show isOpen x.val x.query = true
        rw [q4, q1, h0.val]; decide
    | run M0 hB hR hsub hcnt hph =>
      rcases hph with h | h | h | h | h
      · rw [hd] at h; simp at h
      · obtain ⟨_, _, hq, ho, hrt, hdec⟩ := h
        obtain ⟨p1, p2, p3, p4⟩ := popLevels_query hr hn hrt hdec
        obtain ⟨r1, r2, r3, r4⟩ := hr.poppedStop hn p4 hc hbt
        have hall : All (x0.sys.Answer E) x.query := by
          intro M hM
          obtain ⟨h1, h2⟩ := hr.path hr0 hn hM
          by_contra hs
          refine r4 M h2 ?_
          intro i j1 j2
          rw [hrt] at j2
          rcases Nat.lt_or_ge i (x0.sys.st.root + 1) with hlt | hge
          · exact h1 i j1 (by omega)
          · rw [show i = x0.sys.st.root + 1 by omega, hdec]; exact (Asg.sat_neg _ _).2 hs
        exact ⟨r1, .run M0 hB hR hsub hcnt (Or.inr (Or.inr (Or.inr (Or.inl ⟨rfl, hfin, r2, r3, hall⟩))))⟩
      · rw [hd] at h; simp at h
      · rw [hd] at h; simp at h
      · rw [hfin] at h; simp at h
  | keep hd ho hv hcl => simp at hcl
  | again z hd ho hv hok hp =>
    cases ph with
    | start q1 q2 q3 q4 q5 q6 q7 => rw [q2] at hd; simp at hd
    | none q1 q2 q3 q4 => rw [q2] at hv; exact absurd hv (value_zero hr hn)
    | run M0 hB hR hsub hcnt hph =>
      obtain ⟨hk, hfin⟩ := due hd hB.ans hph
      obtain ⟨r1, r2, r3⟩ := hr.popped hn hk
      obtain ⟨z1, z2, z3⟩ := r1.push hr0 hn hp r3 r2 ⟨M0, hB.ans⟩
      exact ⟨z1, .run M0 hB hR hsub hcnt (Or.inr (Or.inl ⟨rfl, hfin, hB.cl _ ho, ho, z2, z3⟩))⟩
  | next q z hd ho hok hq hp =>
    cases ph with
    | start q1 q2 q3 q4 q5 q6 q7 => rw [q2] at hd; simp at hd
    | none q1 q2 q3 q4 => rw [q4] at ho; simp at ho
    | run M0 hB hR hsub hcnt hph =>
      obtain ⟨hk, hfin⟩ := due hd hB.ans hph
      obtain ⟨r1, r2, r3⟩ := hr.popped hn hk
      obtain ⟨z1, z2, z3⟩ := r1.push hr0 hn hp r3 r2 ⟨M0, hB.ans⟩
      obtain ⟨o1, o2, o3, o4, o5⟩ := openB r1 r3 hB hR
      refine ⟨z1, .run M0 o1 o2 (fun p hp => hsub p (o3 p hp).2.2) ?_ (Or.inr (Or.inl ⟨rfl, hfin, hq, (o3 _ hq).2.1, z2, z3⟩))⟩
      show x.done + (updateOpen (popped learn x.sys x.sys.st x.query).st x.cand x.val).1.length ≤ _
      omega
  | fin hd hfin ho hok hq =>
    cases ph with
    | start q1 q2 q3 q4 q5 q6 q7 => rw [q2] at hd; simp at hd
    | none q1 q2 q3 q4 => rw [q4] at ho; simp at ho
    | run M0 hB hR hsub hcnt hph =>
      obtain ⟨hk, _⟩ := due hd hB.ans hph
      obtain ⟨r1, r2, r3⟩ := hr.popped hn hk
      obtain ⟨o1, o2, o3, o4, o5⟩ := openB r1 r3 hB hR
      refine ⟨r1, .run M0 (by rw [hq] at o1; exact o1) o2 (fun p hp => nomatch hp) ?_ (Or.inr (Or.inr (Or.inr (Or.inr ⟨rfl, rfl, rfl⟩))))⟩
      show x.done + 0 ≤ _
      omega

theorem Reach.inv (h0 : Start learn n E x0) (hn : n < varMax) (h : Reach learn n E true x0 x) : Inv learn n E x0 x := by
  induction h with
  | init => exact h0.inv
  | step _ hs ih => exact ih.step h0 hn hs

/-! ### Theorems -/

/-- Specification: `p` is a cautious consequence: it holds in all models of the problem under the assumptions -/
def Consequence (E : Asg → Prop) (x0 : Sys) (p : Lit) : Prop := ∀ M, x0.sys.Answer E M → M.sat p

/-- **C18 (cautious consequences by queries, the result).** When there are no further queries, there is a model, and a candidate is
reported true exactly if it is a cautious consequence. Missing: runs in which a selected literal gets a value before it is assumed
(`clean = false`); for these the claim is false, see `C18_query_lost`. -/
theorem C18_query_final_partial (hn : n < varMax) (h0 : Start learn n E x0) (h : Reach learn n E true x0 x) (hf : x.fin = true) :
    (∃ M, x0.sys.Answer E M) ∧ ∀ p ∈ x0.cand, isTrue (x.val p.var) p = true ↔ Consequence E x0 p := by
  obtain ⟨_, ph⟩ := h.inv h0 hn
  have nofin : ∀ {x : Sys}, Reach learn n E true x0 x → x.due = true → x.fin = true → False := by
    intro x hx
    induction hx with
    | init => intro h1; rw [h0.due] at h1; simp at h1
    | step hx hs ih =>
      cases hs with
      | solver z hd hfin => intro h1; rw [show _ = true from h1] at hd; simp at hd
      | model hd hfin => intro _ h2; unfold commitModel at h2; dsimp only at h2; rw [h2] at hfin; simp at hfin
      | unsat hd hfin hc hdr hok =>
        intro _ h2
        unfold commitUnsat at h2
        dsimp only at h2
        split at h2 <;> (rw [show _ = true from h2] at hfin; simp at hfin)
      | stop hd hfin => intro _ h2; rw [show _ = true from h2] at hfin; simp at hfin
      | keep => intro h1; simp at h1
      | again => intro h1; simp at h1
      | next => intro h1; simp at h1
      | fin => intro h1; simp at h1
  cases ph with
  | start q1 q2 q3 => rw [q3] at hf; simp at hf
  | none q1 q2 q3 q4 => exact (nofin h q3 hf).elim
  | run M0 hB hR hsub hcnt hph =>
    have hc : x.cand = [] := by
      rcases hph with h | h | h | h | h
      · rw [hf] at h; simp at h
      · rw [hf] at h; simp at h
      · rw [hf] at h; simp at h
      · rw [hf] at h; simp at h
      · exact h.2.2
    refine ⟨⟨M0, hB.ans⟩, fun p hp => ⟨fun ht => ?_, hB.lo p hp⟩⟩
    refine hB.hi p ht ?_
    by_contra he
    have := hB.cl p (by simpa using he)
    rw [hc] at this; simp at this

/-- **C18 (cautious consequences by queries, bounds).** After the first model, what is reported as definite is a consequence, and every
candidate that is a consequence is reported as such or as a possible one. Missing: as in `C18_query_final_partial`. -/
theorem C18_query_bounds_partial (hn : n < varMax) (h0 : Start learn n E x0) (h : Reach learn n E true x0 x) (hd : 0 < x.done) :
    ∀ p ∈ x0.cand, (isDef false false (x.val p.var) p = true → Consequence E x0 p) ∧ (Consequence E x0 p → isTrue (x.val p.var) p = true) := by
  obtain ⟨_, ph⟩ := h.inv h0 hn
  cases ph with
  | start q1 q2 q3 q4 q5 q6 q7 => omega
  | none q1 q2 q3 q4 q5 => omega
  | run M0 hB hR hsub hcnt hph =>
    refine fun p hp => ⟨fun hdef => ?_, hB.lo p hp⟩
    unfold isDef at hdef
    simp at hdef
    exact hB.hi p hdef.1 hdef.2

/-- **C18 (cautious consequences by queries, end).** If the search ends because the conflict remains after withdrawing the query, there is
no model at all. -/
theorem C18_query_none_partial (hn : n < varMax) (h0 : Start learn n E x0) (h : Reach learn n E true x0 x) (hd : x.due = false) (hf : x.fin = false)
    (hc : x.sys.st.conflict ≠ []) (hr : x.sys.st.dl = x.sys.st.root) (hno : (commitUnsat learn x).sys.st.conflict ≠ []) : ¬ ∃ M, x0.sys.Answer E M := by
  rintro ⟨M, hM⟩
  obtain ⟨hrel, ph⟩ := h.inv h0 hn
  obtain ⟨h1, h2⟩ := hrel.path h0.rel hn hM
  cases ph with
  | start q1 q2 q3 q4 q5 q6 q7 =>
    exact (hrel.reach.inv hn).ok.inv.dead hc M h2 (by show x.sys.st.pathSat M x.sys.st.dl; rw [hr, q6]; exact h1)
  | none q1 q2 q3 q4 q5 => exact q1 M hM
  | run M0 hB hR hsub hcnt hph =>
    rcases hph with h | h | h | h | h
    · rw [hd] at h; simp at h
    · obtain ⟨_, _, hq, ho, hrt, hdec⟩ := h
      obtain ⟨p1, p2, p3, p4⟩ := popLevels_query hrel hn hrt hdec
      obtain ⟨r1, r2, r3⟩ := hrel.popped hn p4
      obtain ⟨h3, h4⟩ := r1.path h0.rel hn hM
      have e : (commitUnsat learn x).sys = popped learn x.sys x.sys.st x.query := by
        unfold commitUnsat
        dsimp only
        split <;> rfl
      rw [e] at hno
      exact (r1.reach.inv hn).ok.inv.dead hno M h4 (by show (popped learn x.sys x.sys.st x.query).st.pathSat M (popped learn x.sys x.sys.st x.query).st.dl; rw [r3]; exact h3)
    · rw [hd] at h; simp at h
    · rw [hd] at h; simp at h
    · rw [hf] at h; simp at h

/-- **C18 (cautious consequences by queries, progress).** The number of models and refuted queries is at most one more than the number of
candidates. -/
theorem C18_query_progress_partial (hn : n < varMax) (h0 : Start learn n E x0) (h : Reach learn n E true x0 x) : x.done ≤ x0.cand.length + 1 := by
  obtain ⟨_, ph⟩ := h.inv h0 hn
  cases ph with
  | start q1 q2 q3 q4 q5 q6 q7 => omega
  | none q1 q2 q3 q4 q5 => omega
  | run M0 hB hR hsub hcnt hph => omega

/-! ### Examples -/

namespace Ex
open Core.Sys.Ex (T A pos nega add cfg)

/-- Example: propagation -/
def next (x : Core.Sys) : Core.Sys := Core.Sys.Ex.next x
/-- Example: decision and propagation -/
def dec (x : Core.Sys) (p : Lit) : Core.Sys := next (x.setSt (x.st.decide' p))
/-- Example: conflict resolution -/
def res (x : Core.Sys) : Core.Sys := { x with db := ((x.db.resolve true cfg 20 7 false true).getD (x.db, false)).1 }

theorem add4 {x : Core.Sys} (h : Core.Sys.Reach true 4 T A x) (C : List Lit) (id : Nat) (hc : x.st.conflict = []) (hf : x.found = []) (hr : x.recs = [])
    (hid : id ∉ x.db.ids) (hv : ∀ p ∈ C, p.var ≤ 4) (hlen : C.length < umax) : Core.Sys.Reach true 4 T A (add x C id) :=
  h.step (.clause C id true false true hc hf hr hid hv hlen (Or.inl rfl))

variable {b : Bool} {y x : Sys}

theorem r_next (h : Reach true 4 T b y x) (hd : x.due = false ∧ x.fin = false ∧ x.sys.st.conflict = [] ∧ (x.sys.db.propagate true 20).isSome = true)
    (hr : (next x.sys).st.root = x.sys.st.root ∧ x.sys.found = [] ∧ x.sys.recs = []) : Reach true 4 T b y { x with sys := next x.sys } := by
  refine h.step (.solver (next x.sys) hd.1 hd.2.1 ?_ rfl rfl hr.2.1 hr.2.2 hr.1)
  unfold next Core.Sys.Ex.next
  cases hh : x.sys.db.propagate true 20 with
  | none => rw [hh] at hd; simp at hd
  | some r => exact .propagate 20 r.1 r.2 hd.2.2.1 hh

theorem r_dec (h : Reach true 4 T b y x) (p : Lit) (hd : x.due = false ∧ x.fin = false ∧ x.sys.st.conflict = [] ∧ x.sys.st.front = x.sys.st.trail.length)
    (hp : x.sys.st.value p.var = none) (hv : p.var ≤ 4) (hs : ((x.sys.setSt (x.sys.st.decide' p)).db.propagate true 20).isSome = true)
    (hr : x.sys.found = [] ∧ x.sys.recs = [] ∧ (dec x.sys p).st.root = x.sys.st.root) : Reach true 4 T b y { x with sys := dec x.sys p } := by
  have h1 : Reach true 4 T b y { x with sys := x.sys.setSt (x.sys.st.decide' p) } :=
    h.step (.solver _ hd.1 hd.2.1 (.decide p hd.2.2.1 hd.2.2.2 hp hv) rfl rfl hr.1 hr.2.1 rfl)
  exact r_next h1 ⟨hd.1, hd.2.1, hd.2.2.1, hs⟩ ⟨hr.2.2, hr.1, hr.2.1⟩

theorem r_res (h : Reach true 4 T b y x) (hd : x.due = false ∧ x.fin = false ∧ x.sys.st.conflict ≠ [] ∧ 7 ∉ x.sys.db.ids)
    (hs : (x.sys.db.resolve true cfg 20 7 false true).map Prod.snd = some true)
    (hr : x.sys.found = [] ∧ x.sys.recs = [] ∧ (res x.sys).st.root = x.sys.st.root) : Reach true 4 T b y { x with sys := res x.sys } := by
  refine h.step (.solver (res x.sys) hd.1 hd.2.1 ?_ rfl rfl hr.1 hr.2.1 hr.2.2)
  unfold res
  cases hh : x.sys.db.resolve true cfg 20 7 false true with
  | none => rw [hh] at hs; simp at hs
  | some r =>
    obtain ⟨r1, r2⟩ := r
    rw [hh] at hs
    simp at hs
    subst hs
    exact .resolve cfg 20 7 false true r1 hd.2.2.1 hd.2.2.2 (by simp [cfg]) (by intro; simp [cfg]) hh

theorem tot {s : St} (h1 : s.conflict = [] ∧ s.front = s.trail.length) (h3 : s.value 0 ≠ none ∧ s.value 1 ≠ none ∧ s.value 2 ≠ none ∧ s.value 3 ≠ none ∧ s.value 4 ≠ none) :
    s.Total 4 :=
  ⟨h1.1, h1.2, fun v hv => by
    have : v = 0 ∨ v = 1 ∨ v = 2 ∨ v = 3 ∨ v = 4 := by omega
    rcases this with rfl | rfl | rfl | rfl | rfl <;> tauto⟩

/-- Example: the clauses {2, 4}, {2, ¬4}, {¬2, 3} -/
def c0 : Core.Sys := add (add (add Core.Sys.init [pos 2, pos 4] 0) [pos 2, nega 4] 1) [nega 2, pos 3] 2
/-- Example: the candidates 1 and 3; 3 is a consequence -/
def s0 : Sys := ⟨c0, [pos 1, pos 3], push (fun _ => 0) litFalse, litFalse, false, false, 0⟩
/-- Example: the first model {2, 3, 4, 1} -/
def s1 : Sys := commitModel { s0 with sys := dec (dec (dec c0 (pos 2)) (pos 4)) (pos 1) }
/-- Example: the state after withdrawing the query -/
def pp (x : Sys) : Core.Sys := popped true x.sys x.sys.st x.query
/-- Example: `update` with the query `q` and the solver `z` -/
def ask (x : Sys) (q : Lit) (z : Core.Sys) : Sys :=
  { x with sys := z, query := q, due := false, cand := (updateOpen (pp x).st x.cand x.val).1, val := (updateOpen (pp x).st x.cand x.val).2 }
/-- Example: the query 1 -/
def s2 : Sys := ask s1 (pos 1) { (pp s1).setSt (((pp s1).st.decide' (nega 1)).pushRootLevel 1) with asm := nega 1 :: (pp s1).asm }
/-- Example: propagation -/
def e1 : Sys := { s2 with sys := next s2.sys }
/-- Example: the decision ¬2 leads to a conflict -/
def e2 : Sys := { e1 with sys := dec e1.sys (nega 2) }
/-- Example: 2 is learnt; it holds on level 0 but is assigned on level 1 -/
def e3 : Sys := { e2 with sys := res e2.sys }
/-- Example: propagation -/
def e4 : Sys := { e3 with sys := next e3.sys }
/-- Example: the decision 4 -/
def e5 : Sys := { e4 with sys := dec e4.sys (pos 4) }
/-- Example: a model without 1 -/
def s3 : Sys := commitModel e5
/-- Example: the query 3 is selected, but propagation makes it true -/
def s4 : Sys := ask s3 (pos 3) (next (pp s3))
/-- Example: the decision 4 -/
def f1 : Sys := { s4 with sys := dec s4.sys (pos 4) }
/-- Example: the decision 1 -/
def f2 : Sys := { f1 with sys := dec f1.sys (pos 1) }
/-- Example: a model, in which 3 is true, is taken as a proof that 3 is not a consequence -/
def s5 : Sys := commitModel f2
/-- Example: the end -/
def s6 : Sys := { s5 with sys := pp s5, query := litFalse, due := false, fin := true, cand := [], val := (updateOpen (pp s5).st s5.cand s5.val).2 }

theorem rc0 : Core.Sys.Reach true 4 T A c0 :=
  add4 (add4 (add4 .init _ _ (by decide +kernel) (by decide +kernel) (by decide +kernel) (by decide +kernel) (by decide +kernel) (by decide +kernel)) _ _
    (by decide +kernel) (by decide +kernel) (by decide +kernel) (by decide +kernel) (by decide +kernel) (by decide +kernel)) _ _
    (by decide +kernel) (by decide +kernel) (by decide +kernel) (by decide +kernel) (by decide +kernel) (by decide +kernel)

theorem start : Start true 4 T s0 := ⟨rc0, rfl, rfl, rfl, rfl, rfl, rfl, rfl, by decide +kernel⟩

theorem rs1 : Reach true 4 T b s0 s1 := by
  have h1 := r_dec (b := b) (y := s0) .init (pos 2) (by decide +kernel) (by decide +kernel) (by decide +kernel) (by decide +kernel) (by decide +kernel)
  have h2 := r_dec h1 (pos 4) (by decide +kernel) (by decide +kernel) (by decide +kernel) (by decide +kernel) (by decide +kernel)
  have h3 := r_dec h2 (pos 1) (by decide +kernel) (by decide +kernel) (by decide +kernel) (by decide +kernel) (by decide +kernel)
  exact h3.step (.model (by decide +kernel) (by decide +kernel) (tot (by decide +kernel) (by decide +kernel)) trivial)

theorem rs2 : Reach true 4 T b s0 s2 :=
  rs1.step (.next (pos 1) _ (by decide +kernel) (by decide +kernel) (by decide +kernel) (by decide +kernel)
    (.assume (.refl _) (by decide +kernel) (by decide +kernel) (by decide +kernel) (by decide +kernel)))

theorem re1 : Reach true 4 T b s0 e1 := by unfold e1; exact r_next rs2 (by decide +kernel) (by decide +kernel)
theorem re2 : Reach true 4 T b s0 e2 := by unfold e2; exact r_dec re1 (nega 2) (by decide +kernel) (by decide +kernel) (by decide +kernel) (by decide +kernel) (by decide +kernel)
theorem re3 : Reach true 4 T b s0 e3 := by unfold e3; exact r_res re2 (by decide +kernel) (by decide +kernel) (by decide +kernel)
theorem re4 : Reach true 4 T b s0 e4 := by unfold e4; exact r_next re3 (by decide +kernel) (by decide +kernel)
theorem re5 : Reach true 4 T b s0 e5 := by unfold e5; exact r_dec re4 (pos 4) (by decide +kernel) (by decide +kernel) (by decide +kernel) (by decide +kernel) (by decide +kernel)
theorem rs3 : Reach true 4 T b s0 s3 := by unfold s3; exact re5.step (.model (by decide +kernel) (by decide +kernel) (tot (by decide +kernel) (by decide +kernel)) trivial)

theorem settle {x : Core.Sys} (hc : x.st.conflict = []) (hs : (x.db.propagate true 20).isSome = true) : Core.Sys.Settle true 4 T x (next x) := by
  refine .step (.refl x) ?_
  unfold next Core.Sys.Ex.next
  cases hh : x.db.propagate true 20 with
  | none => rw [hh] at hs; simp at hs
  | some r => exact .propagate 20 r.1 r.2 hc hh

theorem rs4 : Reach true 4 T false s0 s4 :=
  rs3.step (.next (pos 3) _ (by decide +kernel) (by decide +kernel) (by decide +kernel) (by decide +kernel)
    (.fails (settle (by decide +kernel) (by decide +kernel)) (by decide +kernel) (by decide +kernel) (by decide +kernel) rfl))

theorem rf1 : Reach true 4 T false s0 f1 := by unfold f1; exact r_dec rs4 (pos 4) (by decide +kernel) (by decide +kernel) (by decide +kernel) (by decide +kernel) (by decide +kernel)
theorem rf2 : Reach true 4 T false s0 f2 := by unfold f2; exact r_dec rf1 (pos 1) (by decide +kernel) (by decide +kernel) (by decide +kernel) (by decide +kernel) (by decide +kernel)
theorem rs5 : Reach true 4 T false s0 s5 := by unfold s5; exact rf2.step (.model (by decide +kernel) (by decide +kernel) (tot (by decide +kernel) (by decide +kernel)) trivial)
theorem rs6 : Reach true 4 T false s0 s6 := by unfold s6; exact rs5.step (.fin (by decide +kernel) (by decide +kernel) (by decide +kernel) (by decide +kernel) (by decide +kernel))

/-- Example: a run in which the query 3 is free: the decision 2 instead of ¬2 -/
def g1 : Sys := { e1 with sys := dec e1.sys (pos 2) }
/-- Example: the decision 4 -/
def g2 : Sys := { g1 with sys := dec g1.sys (pos 4) }
/-- Example: a model without 1 -/
def g3 : Sys := commitModel g2
/-- Example: the query 3 -/
def g4 : Sys := ask g3 (pos 3) { (pp g3).setSt (((pp g3).st.decide' (nega 3)).pushRootLevel 1) with asm := nega 3 :: (pp g3).asm }
/-- Example: it leads to a conflict -/
def g5 : Sys := { g4 with sys := next g4.sys }
/-- Example: 3 is a consequence -/
def g6 : Sys := commitUnsat true g5
/-- Example: the end -/
def g7 : Sys := { g6 with sys := pp g6, query := litFalse, due := false, fin := true, cand := [], val := (updateOpen (pp g6).st g6.cand g6.val).2 }

theorem rg1 : Reach true 4 T true s0 g1 := by unfold g1; exact r_dec re1 (pos 2) (by decide +kernel) (by decide +kernel) (by decide +kernel) (by decide +kernel) (by decide +kernel)
theorem rg2 : Reach true 4 T true s0 g2 := by unfold g2; exact r_dec rg1 (pos 4) (by decide +kernel) (by decide +kernel) (by decide +kernel) (by decide +kernel) (by decide +kernel)
theorem rg3 : Reach true 4 T true s0 g3 := by unfold g3; exact rg2.step (.model (by decide +kernel) (by decide +kernel) (tot (by decide +kernel) (by decide +kernel)) trivial)
theorem rg4 : Reach true 4 T true s0 g4 :=
  rg3.step (.next (pos 3) _ (by decide +kernel) (by decide +kernel) (by decide +kernel) (by decide +kernel)
    (.assume (.refl _) (by decide +kernel) (by decide +kernel) (by decide +kernel) (by decide +kernel)))
theorem rg5 : Reach true 4 T true s0 g5 := by unfold g5; exact r_next rg4 (by decide +kernel) (by decide +kernel)
theorem rg6 : Reach true 4 T true s0 g6 := by unfold g6; exact rg5.step (.unsat (by decide +kernel) (by decide +kernel) (by decide +kernel) (by decide +kernel) (by decide +kernel))
theorem rg7 : Reach true 4 T true s0 g7 := by unfold g7; exact rg6.step (.fin (by decide +kernel) (by decide +kernel) (by decide +kernel) (by decide +kernel) (by decide +kernel))

/-- Example: a problem without models -/
def c1 : Core.Sys := add c0 [nega 2, nega 3] 3
/-- Example: the start -/
def t0 : Sys := ⟨c1, [pos 1, pos 3], push (fun _ => 0) litFalse, litFalse, false, false, 0⟩
/-- Example: a conflict -/
def t1 : Sys := { t0 with sys := dec t0.sys (nega 2) }
/-- Example: it is resolved -/
def t2 : Sys := { t1 with sys := res t1.sys }
/-- Example: a conflict on level 0 -/
def t3 : Sys := { t2 with sys := next t2.sys }
theorem rc1 : Core.Sys.Reach true 4 T A c1 := add4 rc0 _ _ (by decide +kernel) (by decide +kernel) (by decide +kernel) (by decide +kernel) (by decide +kernel) (by decide +kernel)
theorem start' : Start true 4 T t0 := ⟨rc1, rfl, rfl, rfl, rfl, rfl, rfl, rfl, (by decide +kernel)⟩
theorem rt1 : Reach true 4 T true t0 t1 := by unfold t1; exact r_dec .init (nega 2) (by decide +kernel) (by decide +kernel) (by decide +kernel) (by decide +kernel) (by decide +kernel)
theorem rt2 : Reach true 4 T true t0 t2 := by unfold t2; exact r_res rt1 (by decide +kernel) (by decide +kernel) (by decide +kernel)
theorem rt3 : Reach true 4 T true t0 t3 := by unfold t3; exact r_next rt2 (by decide +kernel) (by decide +kernel)

end Ex

open Ex Core.Sys.Ex in
/-- **C18 (cautious consequences by queries, defect).** Without the restriction on the runs the result is wrong: a literal that gets true
before it is assumed to be false is dropped by the next model although it is a consequence. -/
theorem C18_query_lost : ∃ (x0 x : Sys), Start true 4 T x0 ∧ Reach true 4 T false x0 x ∧ x.fin = true ∧
    ∃ p ∈ x0.cand, Consequence T x0 p ∧ isTrue (x.val p.var) p = false := by
  refine ⟨s0, s6, start, rs6, rfl, pos 3, by decide, ?_, by decide +kernel⟩
  intro M hM
  have h1 := hM.2.2.1 [pos 2, pos 4] (by decide +kernel)
  have h2 := hM.2.2.1 [pos 2, nega 4] (by decide +kernel)
  have h3 := hM.2.2.1 [nega 2, pos 3] (by decide +kernel)
  simp [Asg.satC, Asg.sat, pos, nega, Lit.tv] at h1 h2 h3 ⊢
  grind

open Ex Core.Sys.Ex in
/-- the result is right if the query is free: 1 is not a consequence, 3 is one -/
example : (isTrue (g7.val 1) (pos 1), isTrue (g7.val 3) (pos 3), g7.done) = (false, true, 3) ∧
    ∀ p ∈ s0.cand, isTrue (g7.val p.var) p = true ↔ Consequence T s0 p :=
  ⟨(by decide +kernel), (C18_query_final_partial (by decide) start rg7 rfl).2⟩
open Ex Core.Sys.Ex in
/-- after the second model 1 is excluded, and 3 is possible but not definite -/
example : (isTrue (g3.val 1) (pos 1), isTrue (g3.val 3) (pos 3), isDef false false (g3.val 3) (pos 3)) = (false, true, false) ∧
    ∀ p ∈ s0.cand, (isDef false false (g3.val p.var) p = true → Consequence T s0 p) ∧ (Consequence T s0 p → isTrue (g3.val p.var) p = true) :=
  ⟨(by decide +kernel), C18_query_bounds_partial (by decide) start rg3 (by decide +kernel)⟩
open Ex Core.Sys.Ex in
example := C18_query_progress_partial (by decide) start rg7
open Ex Core.Sys.Ex in
example : ¬ ∃ M, t0.sys.Answer T M := C18_query_none_partial (by decide) start' rt3 (by decide +kernel) (by decide +kernel) (by decide +kernel) (by decide +kernel) (by decide +kernel)

end Query
end Clasp.Core
