import Verif.Strat.Limits

/-!
# Limits on conflicts and restarts: theorems
-/

namespace Clasp.Limits

/-- Specification: the schedules never give 0 (C07). -/
structure Pos (p : Par) : Prop where
  sched : ∀ n, p.sched n ≠ some 0
  red : ∀ n, p.red n ≠ some 0
  grow : ∀ n, p.grow n ≠ some 0

/-- Invariant. -/
structure Inv (p : Par) (conf rst : Option Nat) (s : St) : Prop where
  bad : s.bad = false
  run0 : s.stop = false → s.red ≠ some 0 ∧ s.grow ≠ some 0 ∧ s.glob ≠ some 0 ∧ s.left ≠ some 0 ∧ (p.loc = false → s.rs ≠ some 0)
  over : s.over ≤ s.used
  rover : s.runOver ≤ s.run
  glob : s.glob = osub conf (s.used - s.over)
  gle : ∀ c, conf = some c → s.used - s.over ≤ c
  left : s.left = osub rst s.made
  lle : ∀ r, rst = some r → s.made ≤ r
  rs : s.stop = false → p.dyn = false → p.loc = false → ∀ v, p.sched s.nRs = some v → s.rs = some (v + s.blk - (s.run - s.runOver)) ∧ s.run - s.runOver < v + s.blk
  rs0 : s.stop = false → p.dyn = false → p.loc = false → p.sched s.nRs = none → s.rs = none

theorem omin_ne {x y : Option Nat} : omin x y ≠ some 0 ↔ x ≠ some 0 ∧ y ≠ some 0 := by
  cases x <;> cases y <;> simp [omin]

theorem omin_le {x y : Option Nat} {c z : Nat} (h : omin x y = some c) : (x = some z → c ≤ z) ∧ (y = some z → c ≤ z) := by
  cases x <;> cases y <;> simp_all [omin] <;> omega

theorem osub_add {x : Option Nat} {m n : Nat} : osub (osub x m) n = osub x (m + n) := by
  cases x <;> simp [osub]
  omega

theorem cnt_le (p : Par) (s : St) (a : Ans) : cnt p s a ≤ a.used := by
  unfold cnt; split
  · exact Nat.le_refl _
  · exact Nat.min_le_left _ _

theorem cnt_glob (p : Par) (s : St) (a : Ans) {g : Nat} (h : s.glob = some g) : cnt p s a ≤ g := by
  unfold cnt
  split
  · rename_i h0
    exfalso
    unfold St.lim at h0
    rw [h] at h0
    cases hx : omin s.red s.grow <;> cases hy : (if p.loc then none else s.rs) <;> rw [hx, hy] at h0 <;> simp [omin] at h0
  · rename_i c h0
    unfold St.lim at h0
    obtain ⟨d, hd⟩ : ∃ d, omin (if p.loc then none else s.rs) s.glob = some d := by
      rw [h]; cases (if p.loc then none else s.rs) <;> simp [omin]
    have h1 := (omin_le (z := d) h0).2 hd
    have h2 := (omin_le (z := g) hd).2 h
    omega

theorem reduce_eq (p : Par) (s : St) (full off : Bool) : ∃ r g nr ng, s.reduce p full off = { s with
    red := r
    grow := g
    nRed := nr
    nGrow := ng } ∧ (Pos p → r ≠ some 0 ∧ g ≠ some 0) := by
  unfold St.reduce
  by_cases h1 : s.red = some 0 <;> by_cases h2 : s.grow = some 0 <;> cases full <;> cases off <;> simp only [h1, h2, if_true, if_false, Bool.false_eq_true] <;>
    exact ⟨_, _, _, _, rfl, fun hp => ⟨by first | exact h1 | exact hp.red _, by first | exact h2 | exact hp.grow _ | simp⟩⟩

theorem round_inv {p : Par} (hp : Pos p) {conf rst : Option Nat} {s : St} (h : Inv p conf rst s) (hs : s.stop = false) (a : Ans) (ha : a.next ≠ some 0) (off : Bool) :
    Inv p conf rst (s.round p a off) := by
  obtain ⟨h1, h2, h3, h4, h5⟩ := h.run0 hs
  have hlim : s.lim p ≠ some 0 := by
    unfold St.lim
    rw [omin_ne, omin_ne, omin_ne]
    refine ⟨⟨h1, h2⟩, ?_, h3⟩
    cases hl : p.loc with
    | true => simp
    | false => simpa using h5 hl
  have hn := cnt_le p s a
  have hgl : osub s.glob (cnt p s a) = osub conf (s.used + a.used - (s.over + (a.used - cnt p s a))) := by
    rw [h.glob, osub_add]
    have := h.over
    congr 1
    omega
  have hgle : ∀ c, conf = some c → s.used + a.used - (s.over + (a.used - cnt p s a)) ≤ c := by
    intro c hc
    have h6 := h.gle c hc
    have h7 : s.glob = some (c - (s.used - s.over)) := by rw [h.glob, hc]; rfl
    have := cnt_glob p s a h7
    have := h.over
    omega
  have hov := h.over
  have hrov := h.rover
  have hbad : (s.bad || s.lim p == some 0) = false := by simp [h.bad, hlim]
  obtain ⟨t, ht⟩ : ∃ t, s.search p a = t := ⟨_, rfl⟩
  unfold St.round
  simp only [ht]
  have t1 : t.bad = false := by rw [← ht]; exact hbad
  have t2 : t.over ≤ t.used := by rw [← ht]; simp only [St.search]; omega
  have t3 : t.runOver ≤ t.run := by rw [← ht]; simp only [St.search]; omega
  have t4 : t.glob = osub conf (t.used - t.over) := by rw [← ht]; exact hgl
  have t5 : ∀ c, conf = some c → t.used - t.over ≤ c := by rw [← ht]; exact hgle
  have t6 : t.left = osub rst t.made := by rw [← ht]; exact h.left
  have t7 : ∀ r, rst = some r → t.made ≤ r := by rw [← ht]; exact h.lle
  have t8 : t.left = s.left := by rw [← ht]; rfl
  split
  · exact ⟨t1, fun h => (by cases h), t2, t3, t4, t5, t6, t7, fun h => (by cases h), fun h => (by cases h)⟩
  · split
    · have hlle : ∀ r, rst = some r → t.made + 1 ≤ r := by
        intro r hr
        rw [hr] at t6
        rw [← t8, t6] at h4
        simp [osub] at h4
        omega
      have hle : osub t.left 1 = osub rst (t.made + 1) := by rw [t6, osub_add]
      split
      · rename_i hst
        exact ⟨t1, fun h => (by rw [hst] at h; cases h), t2, Nat.le_refl _, t4, t5, hle, hlle, fun h => (by rw [hst] at h; cases h), fun h => (by rw [hst] at h; cases h)⟩
      · rename_i hst
        obtain ⟨r, g, nr, ng, he, hpos⟩ := reduce_eq p (t.restart p a.next) a.full off
        rw [he]
        have hl0 : osub t.left 1 ≠ some 0 := by
          simp only [St.restart] at hst
          cases hl : t.left with
          | none => simp [osub]
          | some x =>
            rw [hl] at hst
            simp at hst
            have : x ≠ 0 := by rw [← t8, hl] at h4; simpa using h4
            simp [osub]
            omega
        refine ⟨t1, fun hs' => ⟨(hpos hp).1, (hpos hp).2, by simpa [St.restart] using hs', hl0, fun _ => ?_⟩, t2, Nat.le_refl _, t4, t5, hle, hlle, ?_, ?_⟩
        · simp only [St.restart]
          split
          · exact ha
          · exact hp.sched _
        · intro _ hd _ v hv
          have hv' : p.sched (t.nRs + 1) = some v := hv
          have := hp.sched (t.nRs + 1)
          simp only [St.restart, hd, Bool.false_eq_true, if_false, hv', Nat.sub_zero, Nat.add_zero, true_and]
          rw [hv'] at this
          exact Nat.pos_of_ne_zero (by simpa using this)
        · intro _ hd _ hv
          have hv' : p.sched (t.nRs + 1) = none := hv
          simp only [St.restart, hd, Bool.false_eq_true, if_false, hv']
    · rename_i hnr
      obtain ⟨r, g, nr, ng, he, hpos⟩ := reduce_eq p (t.keep p (cnt p s a)) a.full off
      rw [he]
      have k : ∀ q : St, q = t.keep p (cnt p s a) → q.bad = t.bad ∧ q.over = t.over ∧ q.used = t.used ∧ q.run = t.run ∧ q.runOver = t.runOver ∧ q.glob = t.glob ∧ q.left = t.left ∧ q.made = t.made ∧ q.nRs = t.nRs ∧
          q.blk = t.blk ∧ q.rs = if p.loc then t.rs else osub t.rs (cnt p s a) := by
        rintro q rfl
        unfold St.keep
        cases p.loc <;> simp
      obtain ⟨k1, k2, k3, k4, k5, k6, k7, k8, k9, k10, k11⟩ := k _ rfl
      have hreach : p.loc = false → ∀ x, t.rs = some x → a.used < x := by
        intro hl x hx
        unfold reached at hnr
        rw [hx, hl] at hnr
        simp [atLeast] at hnr
        omega
      refine ⟨k1.trans t1, fun hs' => ⟨(hpos hp).1, (hpos hp).2, by simpa using hs', by simp only [k7, t8]; exact h4, fun hl => ?_⟩, by simp only [k2, k3]; exact t2, by simp only [k4, k5]; exact t3,
        by simp only [k6, k2, k3]; exact t4, by simp only [k2, k3]; exact t5, by simp only [k7, k8]; exact t6, by simp only [k8]; exact t7, ?_, ?_⟩
      · simp only [k11, hl, Bool.false_eq_true, if_false]
        cases hx : t.rs with
        | none => simp [osub]
        | some x => have := hreach hl x hx; simp [osub]; omega
      · intro _ hd hl v hv
        simp only [k9] at hv
        have hv' : p.sched s.nRs = some v := by rw [← ht] at hv; exact hv
        obtain ⟨r1, r2⟩ := h.rs hs hd hl v hv'
        have e1 : t.rs = some (v + s.blk - (s.run - s.runOver) + a.add) := by rw [← ht]; simp [St.search, hd, r1]
        have e2 : t.blk = s.blk + a.add := by rw [← ht]; simp [St.search, hd]
        have e3 : t.run = s.run + a.used := by rw [← ht]; rfl
        have e4 : t.runOver = s.runOver + (a.used - cnt p s a) := by rw [← ht]; rfl
        have := hreach hl _ e1
        simp only [k11, k10, k4, k5, hl, Bool.false_eq_true, if_false, e1, e2, e3, e4, osub, Option.map_some]
        refine ⟨?_, by omega⟩
        congr 1
        omega
      · intro _ hd hl hv
        simp only [k9] at hv
        have hv' : p.sched s.nRs = none := by rw [← ht] at hv; exact hv
        have r1 := h.rs0 hs hd hl hv'
        have e1 : t.rs = none := by rw [← ht]; simp [St.search, hd, r1]
        simp only [k11, hl, Bool.false_eq_true, if_false, e1, osub, Option.map_none]

theorem reach_inv {p : Par} (hp : Pos p) {conf rst : Option Nat} {s : St} (h : Reach p conf rst s) : Inv p conf rst s := by
  induction h with
  | new =>
    refine ⟨rfl, fun h => (by cases h), Nat.le_refl _, Nat.le_refl _, ?_, fun _ _ => Nat.zero_le _, ?_, fun _ _ => Nat.zero_le _, fun h => (by cases h), fun h => (by cases h)⟩
    · cases conf <;> simp [St.new, osub]
    · cases rst <;> simp [St.new, osub]
  | step _ hs ih =>
    cases hs with
    | call n v g h1 h2 h3 h4 h5 h6 =>
      refine ⟨ih.bad, fun _ => ⟨hp.red _, h4, h2, h3, fun _ => ?_⟩, ih.over, Nat.le_refl _, ih.glob, ih.gle, ih.left, ih.lle, ?_, ?_⟩
      · simp only [St.call]
        split
        · exact h5
        · exact hp.sched _
      · intro _ hd _ w hw
        have hw' : p.sched n = some w := hw
        have := hp.sched n
        simp only [St.call, hd, Bool.false_eq_true, if_false, hw', Nat.sub_zero, Nat.add_zero, true_and]
        rw [hw'] at this
        exact Nat.pos_of_ne_zero (by simpa using this)
      · intro _ hd _ hw
        have hw' : p.sched n = none := hw
        simp only [St.call, hd, Bool.false_eq_true, if_false, hw']
    | round a off h1 h2 => exact round_inv hp ih h1 a h2 off

/-- **C54 (no empty search).**  Every search is started with at least one conflict allowed. -/
theorem C54_positive {p : Par} (hp : Pos p) {conf rst : Option Nat} {s : St} (h : Reach p conf rst s) : s.bad = false ∧ (s.stop = false → s.lim p ≠ some 0) := by
  have hI := reach_inv hp h
  refine ⟨hI.bad, fun hs => ?_⟩
  obtain ⟨h1, h2, h3, _, h5⟩ := hI.run0 hs
  unfold St.lim
  rw [omin_ne, omin_ne, omin_ne]
  refine ⟨⟨h1, h2⟩, ?_, h3⟩
  cases hl : p.loc with
  | true => simp
  | false => simpa using h5 hl

/-- **C54 (limit on conflicts).**  The conflicts of all calls together, except those beyond the limits of the single searches, are never more than the limit, each search is allowed at most what is left, and
the limit is reported as reached only after that many conflicts; without a limit it is never reached. -/
theorem C54_conflicts {p : Par} (hp : Pos p) {conf rst : Option Nat} {s : St} (h : Reach p conf rst s) :
    (∀ c, conf = some c → s.used ≤ c + s.over ∧ (s.glob = some 0 → c ≤ s.used) ∧ (∀ m, s.stop = false → s.lim p = some m → m + (s.used - s.over) ≤ c)) ∧ (conf = none → s.glob = none) := by
  have hI := reach_inv hp h
  have hov := hI.over
  constructor
  · intro c hc
    have h1 := hI.gle c hc
    have h2 := hI.glob
    rw [hc] at h2
    refine ⟨by omega, ?_, ?_⟩
    · intro h0
      rw [h0] at h2
      simp [osub] at h2
      omega
    · intro m _ hm
      unfold St.lim at hm
      obtain ⟨d, hd⟩ : ∃ d, omin (if p.loc then none else s.rs) s.glob = some d := by
        rw [h2]; cases (if p.loc then none else s.rs) <;> simp [omin, osub]
      have h3 := (omin_le (z := d) hm).2 hd
      have h4 := (omin_le (z := c - (s.used - s.over)) hd).2 (by rw [h2]; simp [osub])
      omega
  · intro hc
    rw [hI.glob, hc]
    rfl

/-- **C54 (limit on restarts).**  There are never more restarts than the limit says, in all calls together, and the limit is reported as reached exactly if there were that many. -/
theorem C54_restarts {p : Par} (hp : Pos p) {conf rst : Option Nat} {s : St} (h : Reach p conf rst s) :
    (∀ r, rst = some r → s.made ≤ r ∧ (s.left = some 0 ↔ s.made = r)) ∧ (rst = none → s.left = none) := by
  have hI := reach_inv hp h
  constructor
  · intro r hr
    have h1 := hI.lle r hr
    have h2 := hI.left
    rw [hr] at h2
    refine ⟨h1, ?_⟩
    rw [h2]
    simp [osub]
    omega
  · intro hr
    rw [hI.left, hr]
    rfl

/-- **C54 (when to restart).**  With a fixed schedule on all conflicts: a round that ends without a result makes a restart exactly if the conflicts since the last restart, except those beyond the limits of earlier searches, are at least what the
schedule says, plus what blocking has added since. -/
theorem C54_schedule {p : Par} (hp : Pos p) {conf rst : Option Nat} {s : St} (h : Reach p conf rst s) (hs : s.stop = false) (hd : p.dyn = false) (hl : p.loc = false) (a : Ans) (off : Bool)
    (hr : a.res = none) (hdue : a.due = false) {v : Nat} (hv : p.sched s.nRs = some v) :
    ((s.round p a off).made = s.made + 1 ↔ v + (s.blk + a.add) ≤ s.run - s.runOver + a.used) ∧ ((s.round p a off).made = s.made ∨ (s.round p a off).made = s.made + 1) := by
  obtain ⟨r1, r2⟩ := (reach_inv hp h).rs hs hd hl v hv
  have e1 : (s.search p a).rs = some (v + s.blk - (s.run - s.runOver) + a.add) := by simp [St.search, hd, r1]
  have e2 : (s.search p a).made = s.made := rfl
  have hre : reached p (s.search p a) a = decide (v + (s.blk + a.add) ≤ s.run - s.runOver + a.used) := by
    unfold reached
    rw [e1, hl, hdue]
    simp only [Bool.false_or, Bool.not_false, Bool.true_and, atLeast, decide_eq_decide]
    omega
  unfold St.round
  simp only [hr, Option.isSome_none, Bool.false_eq_true, if_false, hre]
  by_cases hc : v + (s.blk + a.add) ≤ s.run - s.runOver + a.used
  · rw [decide_eq_true hc, if_pos rfl]
    have : ((s.search p a).restart p a.next).made = s.made + 1 := rfl
    split
    · simp [this, hc]
    · obtain ⟨r, g, nr, ng, he, _⟩ := reduce_eq p ((s.search p a).restart p a.next) a.full off
      rw [he]
      simp [this, hc]
  · rw [decide_eq_false hc, if_neg (by simp)]
    generalize cnt p s a = n
    obtain ⟨r, g, nr, ng, he, _⟩ := reduce_eq p ((s.search p a).keep p n) a.full off
    rw [he]
    have : ((s.search p a).keep p n).made = s.made := by unfold St.keep; rw [hl]; rfl
    simp [this, hc]

/-! ### A concrete case -/

/-- Schedules 10, 20, 30, ... for restarts and 15 for deletion (example only). -/
def exP : Par where
  loc := false
  dyn := false
  sched := fun n => some (10 * (n + 1))
  red := fun _ => some 15
  grow := fun _ => none

theorem exP_pos : Pos exP := ⟨fun n => by simp [exP], fun n => by simp [exP], fun n => by simp [exP]⟩

/-- All theorems apply to a call with four searches (12 conflicts where 10 were allowed; 5; 6 with blocking by 50; and 9, after which the limit of 30 is reached): the second state has 10 of 12 conflicts counted and one restart made, the last one has used up the limit after 32 conflicts. -/
example : ∃ s0 s1 s4, Reach exP (some 30) (some 5) s0 ∧ s0.stop = false ∧ exP.sched s0.nRs = some 10 ∧ Reach exP (some 30) (some 5) s1 ∧ s1.made = 1 ∧ s1.used = 12 ∧ s1.over = 2 ∧ s1.stop = false ∧
    s1.lim exP = some 5 ∧ Reach exP (some 30) (some 5) s4 ∧ s4.glob = some 0 ∧ s4.stop = true ∧ s4.used = 32 ∧ s4.made = 1 ∧ s4.left = some 4 := by
  have r0 : Reach exP (some 30) (some 5) ((St.new (some 30) (some 5)).call exP 0 none none) := .step .new (.call 0 none none rfl (by decide) (by decide) (by decide) (by decide) (Or.inl rfl))
  have r1 := Reach.step r0 (.round ⟨12, 0, none, false, false, none⟩ false rfl (by decide))
  have r2 := Reach.step r1 (.round ⟨5, 0, none, false, false, none⟩ false (by decide) (by decide))
  have r3 := Reach.step r2 (.round ⟨6, 50, none, false, false, none⟩ false (by decide) (by decide))
  have r4 := Reach.step r3 (.round ⟨9, 0, none, false, false, none⟩ false (by decide) (by decide))
  exact ⟨_, _, _, r0, rfl, rfl, r1, by decide, by decide, by decide, by decide, by decide, r4, by decide, by decide, by decide, by decide, by decide⟩

end Clasp.Limits
