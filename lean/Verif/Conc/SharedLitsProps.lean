/-
C33: shared literals are deallocated exactly once, by the last owner, never used afterwards, and only modified by a sole owner.
-/
import Verif.Conc.SharedLits
import Mathlib.Algebra.BigOperators.Ring.Finset
import Mathlib.Algebra.Order.BigOperators.Group.Finset
import Mathlib.Algebra.Order.Group.Nat
import Mathlib.Tactic.Linarith
namespace Clasp.SL
open Finset

variable {T L : Type} [DecidableEq T] [Fintype T]

/-! ## Specification -/

/-- Specification: number of references that exist, in whatever hands. -/
def St.owned (s : St T L) : Nat := ∑ t, s.hold t

/-! ## Invariant -/

omit [DecidableEq T] in
theorem owned_zero {s : St T L} : s.owned = 0 ↔ ∀ t, s.hold t = 0 := by
  simp [St.owned, Finset.sum_eq_zero_iff]

omit [DecidableEq T] in
theorem hold_le (f : T → Nat) (t : T) : f t ≤ ∑ t, f t :=
  Finset.single_le_sum (f := f) (fun _ _ => Nat.zero_le _) (Finset.mem_univ t)

theorem sum_update (f : T → Nat) (t : T) (n : Nat) : ∑ u, Function.update f t n u + f t = ∑ u, f u + n := by
  rw [Finset.sum_update_of_mem (Finset.mem_univ t), ← Finset.add_sum_erase _ f (Finset.mem_univ t)]
  rw [Finset.sdiff_singleton_eq_erase]; omega

omit [DecidableEq T] in
theorem sum_two {f : T → Nat} {t u : T} (h : t ≠ u) : f t + f u ≤ ∑ v, f v := by
  classical
  rw [← Finset.add_sum_erase _ f (Finset.mem_univ t)]
  have := Finset.single_le_sum (f := f) (s := Finset.univ.erase t) (fun _ _ => Nat.zero_le _)
    (Finset.mem_erase.2 ⟨h.symm, Finset.mem_univ u⟩)
  omega

/-- Invariant of all reachable states (proof device). -/
structure Inv (s : St T L) : Prop where
  ok : s.bad = false
  rc : s.rc = s.owned
  dtor : ∀ t, s.pc t = .dtor → s.owned = 0 ∧ s.alive = true ∧ s.freed = 0 ∧ ∀ u, s.pc u = .dtor → u = t
  zero : s.owned = 0 → (∃ t, s.pc t = .dtor) ∨ (s.freed = 1 ∧ s.alive = false)
  pos : 0 < s.owned → s.alive = true ∧ s.freed = 0
  simp : ∀ t rf r c n, s.pc t = .simp rf r c n → 0 < s.hold t ∧ (rf = true → s.owned = 1) ∧ (rf = false → c = r)

theorem Inv.init (t : T) (ls : List L) (refs : Nat) : Inv (SL.init t ls refs) := by
  have h : (SL.init t ls refs).owned = max 1 refs := by
    have := sum_update (fun _ : T => 0) t (max 1 refs)
    simpa [SL.init, St.owned] using this
  constructor <;> simp [SL.init] <;> simp [SL.init] at h <;> omega

omit [DecidableEq T] in
theorem Inv.alive_of {s : St T L} (h : Inv s) {t : T} (ht : 0 < s.hold t) : s.alive = true :=
  (h.pos (lt_of_lt_of_le ht (hold_le s.hold t))).1

omit [DecidableEq T] in
theorem Inv.other {s : St T L} (h : Inv s) {t u : T} {r c n} (hs : s.pc t = .simp true r c n) (hu : u ≠ t) :
    s.hold u = 0 := by
  have h1 := h.simp _ _ _ _ _ hs
  have h2 := sum_two (f := s.hold) hu
  have h3 := h1.2.1 rfl
  simp only [St.owned] at h3; omega

theorem Inv.simpEnd {s : St T L} (h : Inv s) {t : T} {rf r c n n'} (hs : s.pc t = .simp rf r c n) :
    Inv (s.simpEnd t rf n') := by
  have ha := h.alive_of (h.simp _ _ _ _ _ hs).1
  have hp := (h.pos (lt_of_lt_of_le (h.simp _ _ _ _ _ hs).1 (hold_le s.hold t)))
  have hne : s.owned ≠ 0 := by have := hold_le s.hold t; have := (h.simp _ _ _ _ _ hs).1; simp only [St.owned]; omega
  have ho : (s.simpEnd t rf n').owned = s.owned := rfl
  refine ⟨by simp [St.simpEnd, St.touch, h.ok, ha], h.rc, ?_, ?_, ?_, ?_⟩
  · intro u hu
    have : s.pc u = .dtor := by
      by_cases e : u = t
      · subst e; simp [St.simpEnd] at hu
      · simpa [St.simpEnd, e] using hu
    exact absurd (h.dtor u this).1 hne
  · intro hz; exact absurd hz hne
  · intro; exact hp
  · intro u rf' r' c' n'' hu
    by_cases e : u = t
    · subst e; simp [St.simpEnd] at hu
    · exact h.simp u _ _ _ _ (by simpa [St.simpEnd, e] using hu)

/-- A step that only moves thread `t` inside `simplify`. -/
theorem Inv.simpMove {s : St T L} (h : Inv s) {t : T} {rf : Bool} {r c n : Nat} (ls : List L)
    (ht : 0 < s.hold t) (h1 : rf = true → s.owned = 1) (h2 : rf = false → c = r) :
    Inv { s.touch with lits := ls, pc := Function.update s.pc t (.simp rf r c n) } := by
  have ha := h.alive_of ht
  have hp := (h.pos (lt_of_lt_of_le ht (hold_le s.hold t)))
  have hne : s.owned ≠ 0 := by have := hold_le s.hold t; simp only [St.owned]; omega
  refine ⟨by simp [St.touch, h.ok, ha], h.rc, ?_, ?_, ?_, ?_⟩
  · intro u hu
    have : s.pc u = .dtor := by
      by_cases e : u = t
      · subst e; simp at hu
      · simpa [e] using hu
    exact absurd (h.dtor u this).1 hne
  · intro hz; exact absurd hz hne
  · intro; exact hp
  · intro u rf' r' c' n' hu
    by_cases e : u = t
    · subst e; simp at hu; obtain ⟨rfl, rfl, rfl, rfl⟩ := hu; exact ⟨ht, h1, h2⟩
    · exact h.simp u _ _ _ _ (by simpa [e] using hu)

theorem Inv.step {v : T → L → Val} {s s' : St T L} (h : Inv s) (hs : Step v s s') : Inv s' := by
  cases hs with
  | @share t hp ht =>
    have ha := h.alive_of ht
    have hpos := (h.pos (lt_of_lt_of_le ht (hold_le s.hold t)))
    have ho : (s.share t).owned = s.owned + 1 := by
      have := sum_update s.hold t (s.hold t + 1); simp only [St.owned, St.share]; omega
    refine ⟨by simp [St.share, St.touch, h.ok, ha], by rw [ho]; simp [St.share, h.rc], ?_, by omega, fun _ => hpos, ?_⟩
    · intro u hu
      have := (h.dtor u hu).1
      rw [owned_zero] at this; have := this t; omega
    · intro u rf r c n hu
      have h1 := h.simp u rf r c n hu
      have e : u ≠ t := by rintro rfl; rw [show s.pc u = _ from hu] at hp; cases hp
      refine ⟨by simpa [St.share, e] using h1.1, ?_, h1.2.2⟩
      rintro rfl
      have := h.other (t := u) (u := t) (by exact hu) e.symm; omega
  | @release t n hp hn hle =>
    have ht : 0 < s.hold t := by omega
    have ha := h.alive_of ht
    have hpos := (h.pos (lt_of_lt_of_le ht (hold_le s.hold t)))
    have hle' := hold_le s.hold t
    have ho : (s.release t n).owned = s.owned - n := by
      have := sum_update s.hold t (s.hold t - n); simp only [St.owned, St.release]; omega
    have hle'' : n ≤ s.owned := by simp only [St.owned]; omega
    have nod : ∀ u, s.pc u ≠ .dtor := by
      intro u hu; have := (h.dtor u hu).1; rw [owned_zero] at this; have := this t; omega
    have hrc : s.rc - n = 0 ↔ s.owned - n = 0 := by rw [h.rc]; omega
    refine ⟨by simp [St.release, St.touch, h.ok, ha], ?_, ?_, ?_, fun _ => hpos, ?_⟩
    · rw [ho]; simp only [St.release, St.touch, h.rc]; omega
    · intro u hu
      by_cases hz : s.rc - n = 0
      · have hu' : u = t := by
          by_contra e; simp [St.release, hz, e] at hu; exact nod _ hu
        subst hu'
        refine ⟨by omega, hpos.1, hpos.2, ?_⟩
        intro w hw; by_contra e; simp [St.release, hz, e] at hw; exact nod _ hw
      · simp [St.release, hz] at hu; exact absurd hu (nod _)
    · intro hz
      left; refine ⟨t, ?_⟩
      have : s.rc - n = 0 := by rw [hrc]; omega
      simp [St.release, this]
    · intro u rf r c m hu
      have hu' : s.pc u = .simp rf r c m := by
        by_cases hz : s.rc - n = 0
        · by_cases e : u = t
          · subst e; simp [St.release, hz] at hu
          · simpa [St.release, hz, e] using hu
        · simpa [St.release, hz] using hu
      have e : u ≠ t := by rintro rfl; rw [hu'] at hp; cases hp
      have h1 := h.simp u rf r c m hu'
      refine ⟨by simpa [St.release, e] using h1.1, ?_, h1.2.2⟩
      rintro rfl
      have := h.other hu' e.symm; omega
  | @free t hp =>
    obtain ⟨h1, h2, h3, h4⟩ := h.dtor t hp
    have ho : (s.free t).owned = s.owned := rfl
    have nod : ∀ u, (s.free t).pc u ≠ .dtor := by
      intro u hu
      by_cases e : u = t
      · subst e; simp [St.free] at hu
      · simp [St.free, e] at hu; exact e (h4 u hu)
    refine ⟨by simp [St.free, St.touch, h.ok, h2], h.rc, fun u hu => absurd hu (nod u), ?_, by omega, ?_⟩
    · intro; right; simp [St.free, h3]
    · intro u rf r c n hu
      by_cases e : u = t
      · subst e; simp [St.free] at hu
      · exact h.simp u _ _ _ _ (by simpa [St.free, e] using hu)
  | @give t u n hp hne hle =>
    have ho : St.owned { s with hold := Function.update (Function.update s.hold t (s.hold t - n)) u (s.hold u + n) } = s.owned := by
      have h1 := sum_update (Function.update s.hold t (s.hold t - n)) u (s.hold u + n)
      have h2 := sum_update s.hold t (s.hold t - n)
      rw [Function.update_of_ne (Ne.symm hne)] at h1
      simp only [St.owned]; omega
    refine ⟨h.ok, by rw [ho]; exact h.rc, by rw [ho]; exact h.dtor, by rw [ho]; exact h.zero, by rw [ho]; exact h.pos, ?_⟩
    rw [ho]
    intro w rf r c m hw
    have h1 := h.simp w rf r c m hw
    have e : w ≠ t := by rintro rfl; rw [show s.pc w = _ from hw] at hp; cases hp
    refine ⟨?_, h1.2⟩
    by_cases e' : w = u
    · subst e'; simp; omega
    · simpa [e, e'] using h1.1
  | @read t hp ht =>
    have ha := h.alive_of ht
    refine ⟨by simp [St.touch, h.ok, ha], h.rc, h.dtor, h.zero, h.pos, h.simp⟩
  | @simpStart t hp ht =>
    refine h.simpMove s.lits ht ?_ (fun _ => rfl)
    intro hr; have := hold_le s.hold t; simp only [decide_eq_true_eq, h.rc] at hr; simp only [St.owned] at hr ⊢; omega
  | @simpStep t rf r c n hp =>
    have h1 := h.simp _ _ _ _ _ hp
    unfold St.simpStep
    cases s.lits[r]? with
    | none => exact h.simpEnd hp
    | some x =>
      dsimp only
      cases v t x with
      | free =>
        refine h.simpMove _ h1.1 h1.2.1 ?_
        intro hf; rw [h1.2.2 hf]
      | tru => exact h.simpEnd hp
      | fls =>
        refine h.simpMove s.lits h1.1 h1.2.1 ?_
        intro hf; simp [hf, h1.2.2 hf]

theorem Reach.inv {v : T → L → Val} {t₀ : T} {ls : List L} {refs : Nat} {s : St T L} (h : Reach v t₀ ls refs s) : Inv s := by
  induction h with
  | init => exact Inv.init _ _ _
  | step _ hs ih => exact ih.step hs

/-! ## Properties -/

variable {v : T → L → Val} {t₀ : T} {ls : List L} {refs : Nat} {s s' : St T L}

/-- C33: under every interleaving the object is never accessed after it was freed and is freed at most once. -/
theorem C33_safe (h : Reach v t₀ ls refs s) : s.bad = false ∧ s.freed ≤ 1 := by
  refine ⟨h.inv.ok, ?_⟩
  rcases Nat.eq_zero_or_pos s.owned with hz | hp
  · rcases h.inv.zero hz with ⟨t, ht⟩ | hf
    · have := (h.inv.dtor t ht).2.2.1; omega
    · omega
  · have := (h.inv.pos hp).2; omega

/-- C33: the object is freed only when no references are left … -/
theorem C33_not_early (h : Reach v t₀ ls refs s) (t : T) (ht : 0 < s.hold t) : s.freed = 0 ∧ s.alive = true := by
  have := h.inv.pos (lt_of_lt_of_le ht (hold_le s.hold t)); exact ⟨this.2, this.1⟩

/-- … and it is freed once no references are left, unless exactly one thread, the one whose `release` gave up the last
reference, is just about to free it. -/
theorem C33_no_leak (h : Reach v t₀ ls refs s) (hz : ∀ t, s.hold t = 0) :
    s.freed = 1 ∨ (∃ t, s.pc t = .dtor ∧ (s.free t).freed = 1 ∧ ∀ u, s.pc u = .dtor → u = t) := by
  rcases h.inv.zero (owned_zero.2 hz) with ⟨t, ht⟩ | hf
  · obtain ⟨_, _, h3, h4⟩ := h.inv.dtor t ht
    exact .inr ⟨t, ht, by simp [St.free, h3], h4⟩
  · exact .inl hf.1

/-- C33: a `release` goes on to free the object iff it gave up the last reference. -/
theorem C33_last_owner (h : Reach v t₀ ls refs s) {t : T} {n : Nat} (hp : s.pc t = .idle) (hn : 0 < n) (hle : n ≤ s.hold t) :
    (s.release t n).pc t = .dtor ↔ ∀ u, (s.release t n).hold u = 0 := by
  have hi := h.inv.step (Step.release (v := v) hp hn hle)
  rw [← owned_zero]
  constructor
  · exact fun hd => (hi.dtor t hd).1
  · intro hz
    have h1 := hi.rc
    rw [hz] at h1
    have : s.rc - n = 0 := by simpa [St.release] using h1
    simp [St.release, this]

/-- C33: the literals change only while one thread holds the only reference. -/
theorem C33_exclusive (h : Reach v t₀ ls refs s) (hs : Step v s s') (hl : s'.lits ≠ s.lits) :
    ∃ t, s.hold t = 1 ∧ ∀ u, u ≠ t → s.hold u = 0 := by
  have hi := h.inv
  cases hs with
  | share => exact absurd rfl hl
  | release => exact absurd rfl hl
  | free => exact absurd rfl hl
  | give => exact absurd rfl hl
  | read => exact absurd rfl hl
  | simpStart => exact absurd rfl hl
  | @simpStep t rf r c n hp =>
    have h1 := hi.simp _ _ _ _ _ hp
    have hrf : rf = true := by
      by_contra hf
      have hf : rf = false := by simpa using hf
      apply hl
      subst hf
      have e := h1.2.2 rfl
      subst e
      unfold St.simpStep
      cases s.lits[c]? with
      | none => simp [St.simpEnd, St.touch]
      | some x => dsimp only; cases v t x <;> simp [St.simpEnd, St.touch]
    subst hrf
    refine ⟨t, ?_, fun u hu => hi.other hp hu⟩
    have := hold_le s.hold t
    have := h1.2.1 rfl
    simp only [St.owned] at this; omega

/-- The next step of thread `t` inside `simplify`; outside nothing happens (clause.cpp:73-92, specification of a run
of one thread on its own). -/
def simpNext (w : L → Val) (t : T) (s : St T L) : St T L :=
  match s.pc t with
  | .simp rf r c n => s.simpStep w t rf r c n
  | _ => s

omit [Fintype T] in
theorem simp_run (w : L → Val) (t : T) (o : List L) (rf : Bool) :
    ∀ (k r c n : Nat) (s : St T L), o.length - r = k → r ≤ o.length → s.pc t = .simp rf r c n → s.lits.length = o.length →
      s.lits.drop r = o.drop r → (∀ x ∈ o.take r, w x ≠ .tru) → n = ((o.take r).filter (fun x => w x = .free)).length →
      (if rf then c = n ∧ s.lits.take c = (o.take r).filter (fun x => w x = .free) else c = r ∧ s.lits = o) →
      ∃ j, let f := (simpNext w t)^[j] s
        f.pc t = .idle ∧
        f.lits = (if rf then (if ∃ x ∈ o, w x = .tru then [] else o.filter (fun x => w x = .free)) else o) ∧
        f.out t = some (if ∃ x ∈ o, w x = .tru then 0 else (o.filter (fun x => w x = .free)).length) := by
  intro k
  induction k with
  | zero =>
    intro r c n s hk hr hpc hlen hdrop hnt hn hrf
    have er : r = o.length := by omega
    subst er
    rw [List.take_length] at hnt hn hrf
    have hno : ¬ ∃ x ∈ o, w x = .tru := by rintro ⟨x, hx, h⟩; exact hnt x hx h
    have hget : s.lits[o.length]? = none := by rw [List.getElem?_eq_none]; omega
    refine ⟨1, ?_⟩
    simp only [Function.iterate_one, simpNext, hpc, St.simpStep, hget, St.simpEnd, hno, if_false]
    refine ⟨by simp, ?_, by simp [hn]⟩
    cases rf with
    | false => simpa using hrf.2
    | true =>
      simp at hrf
      obtain ⟨rfl, h2⟩ := hrf
      by_cases e : c = s.lits.length
      · simp [e]; rw [e, List.take_length] at h2; exact h2
      · simp [e, h2]
  | succ k ih =>
    intro r c n s hk hr hpc hlen hdrop hnt hn hrf
    have hlt : r < o.length := by omega
    have hget : s.lits[r]? = some o[r] := by
      have h1 : (s.lits.drop r)[0]? = (o.drop r)[0]? := by rw [hdrop]
      simpa [hlt] using h1
    have htake : o.take (r+1) = o.take r ++ [o[r]] := by rw [List.take_add_one]; simp [hlt]
    have hnx : simpNext w t s = s.simpStep w t rf r c n := by simp [simpNext, hpc]
    have hd1 : s.lits.drop (r+1) = o.drop (r+1) := by
      have := congrArg (List.drop 1) hdrop; simpa [List.drop_drop, Nat.add_comm] using this
    cases hv : w o[r] with
    | tru =>
      refine ⟨1, ?_⟩
      have hex : ∃ x ∈ o, w x = .tru := ⟨o[r], List.getElem_mem _, hv⟩
      simp only [Function.iterate_one, hnx, St.simpStep, hget, hv, St.simpEnd, hex, if_true]
      refine ⟨by simp, ?_, by simp⟩
      cases rf with
      | false => simpa using hrf.2
      | true => simp; omega
    | fls =>
      have hfil : (o.take (r+1)).filter (fun x => w x = .free) = (o.take r).filter (fun x => w x = .free) := by
        rw [htake, List.filter_append]; simp [hv]
      obtain ⟨j, hj⟩ := ih (r+1) (if rf then c else c+1) n (simpNext w t s) (by omega) (by omega)
        (by simp [hnx, St.simpStep, hget, hv]) (by simpa [hnx, St.simpStep, hget, hv, St.touch] using hlen)
        (by simpa [hnx, St.simpStep, hget, hv, St.touch] using hd1)
        (by rw [htake]; intro x hx; rcases List.mem_append.1 hx with h | h
            · exact hnt x h
            · simp at h; rw [h, hv]; simp)
        (by rw [hfil]; exact hn)
        (by cases rf with
            | false => simp [hnx, St.simpStep, hget, hv, St.touch] at hrf ⊢; exact hrf
            | true => simp only [hfil]; simpa [hnx, St.simpStep, hget, hv, St.touch] using hrf)
      exact ⟨j+1, hj⟩
    | free =>
      have hfil : (o.take (r+1)).filter (fun x => w x = .free) = (o.take r).filter (fun x => w x = .free) ++ [o[r]] := by
        rw [htake, List.filter_append]; simp [hv]
      have hcr : c ≤ r := by
        cases rf with
        | false => simp at hrf; omega
        | true =>
          simp at hrf
          have := List.length_filter_le (fun x => decide (w x = .free)) (o.take r)
          rw [List.length_take] at this; omega
      obtain ⟨j, hj⟩ := ih (r+1) (c+1) (n+1) (simpNext w t s) (by omega) (by omega)
        (by simp [hnx, St.simpStep, hget, hv]) (by simp [hnx, St.simpStep, hget, hv]; split <;> simp [hlen])
        (by simp only [hnx, St.simpStep, hget, hv]
            split
            · exact hd1
            · rw [List.drop_set_of_lt (by omega)]; exact hd1)
        (by rw [htake]; intro x hx; rcases List.mem_append.1 hx with h | h
            · exact hnt x h
            · simp at h; rw [h, hv]; simp)
        (by rw [hfil]; simp [hn])
        (by cases rf with
            | false => simp [hnx, St.simpStep, hget, hv] at hrf ⊢; exact ⟨hrf.1, by simp [hrf.1, hrf.2]⟩
            | true =>
              simp at hrf
              obtain ⟨rfl, h2⟩ := hrf
              simp only [hnx, St.simpStep, hget, hv, hfil, if_true, true_and]
              have hcl : c < s.lits.length := by omega
              split
              · rename_i e; subst e
                rw [List.take_add_one, h2, hget]; rfl
              · rw [List.take_add_one, List.take_set_of_le (by omega), h2]; simp [hcl])
      exact ⟨j+1, hj⟩

omit [Fintype T] in
/-- C33: what `simplify` computes. A sole owner ends up with exactly the free literals (nothing if one of them is true);
otherwise the literals stay as they are; in both cases the result is the number of free literals, or 0 if one is true. -/
theorem C33_simplify (w : L → Val) (t : T) (s : St T L) :
    ∃ j, let f := (simpNext w t)^[j] (s.simpStart t)
      f.pc t = .idle ∧
      f.lits = (if s.rc ≤ 1 then (if ∃ x ∈ s.lits, w x = .tru then [] else s.lits.filter (fun x => w x = .free)) else s.lits) ∧
      f.out t = some (if ∃ x ∈ s.lits, w x = .tru then 0 else (s.lits.filter (fun x => w x = .free)).length) := by
  have := simp_run w t s.lits (decide (s.rc ≤ 1)) s.lits.length 0 0 0 (s.simpStart t) (by simp) (by simp)
    (by simp [St.simpStart]) (by simp [St.simpStart, St.touch]) (by simp [St.simpStart, St.touch]) (by simp) (by simp)
    (by split <;> simp [St.simpStart, St.touch])
  simpa using this

/-! ### Distribution -/

/-- Reachability by steps of the object from a given state. -/
inductive Steps (v : T → L → Val) : St T L → St T L → Prop
  | refl {a} : Steps v a a
  | tail {a b c} : Steps v a b → Step v b c → Steps v a c

omit [Fintype T] in
theorem publishLoop_spec (v : T → L → Val) (sender : T) (wants : T → Bool) :
    ∀ (is : List T) (s₀ s : St T L) (d : Nat), is.Nodup → Steps v s₀ s → s.pc sender = .idle →
      d + (is.filter (· ≠ sender)).length ≤ s.hold sender →
      let r := publishLoop sender wants is s d
      Steps v s₀ r.1 ∧ r.1.pc = s.pc ∧ r.1.rc = s.rc ∧ r.2 ≤ r.1.hold sender ∧
      r.1.hold sender - r.2 + d + (is.filter (· ≠ sender)).length = s.hold sender ∧
      ∀ u, u ≠ sender → r.1.hold u = s.hold u + (if u ∈ is ∧ wants u then 1 else 0) := by
  intro is
  induction is with
  | nil => intro s₀ s d _ hs hp hd; simp [publishLoop] at *; refine ⟨hs, hd, by omega⟩
  | cons i is ih =>
    intro s₀ s d hnd hs hp hd
    obtain ⟨hni, hnd'⟩ := List.nodup_cons.1 hnd
    by_cases e : i = sender
    · subst e
      have e2 : ((i :: is).filter (· ≠ i)) = is.filter (· ≠ i) := by simp
      rw [e2] at hd ⊢
      obtain ⟨h1, h2, h3, h4, h5, h6⟩ := ih s₀ s d hnd' hs hp hd
      simp only [publishLoop, if_true]
      refine ⟨h1, h2, h3, h4, h5, ?_⟩
      intro u hu; rw [h6 u hu]; simp [hu]
    · have e2 : ((i :: is).filter (· ≠ sender)).length = (is.filter (· ≠ sender)).length + 1 := by simp [e]
      rw [e2]
      by_cases hw : wants i
      · have hst := Steps.tail hs (Step.give (v := v) (t := sender) (u := i) (n := 1) hp (Ne.symm e) (by rw [e2] at hd; omega))
        obtain ⟨h1, h2, h3, h4, h5, h6⟩ := ih s₀ _ d hnd' hst hp (by rw [e2] at hd; simp only [Function.update_of_ne (Ne.symm e), Function.update_self]; omega)
        simp only [publishLoop, if_neg e, hw, Bool.not_true, Bool.false_eq_true, if_false]
        refine ⟨h1, h2, h3, h4, ?_, ?_⟩
        · simp only [Function.update_of_ne (Ne.symm e), Function.update_self] at h5; omega
        · intro u hu
          rw [h6 u hu]
          by_cases eu : u = i
          · subst eu; simp [hni, hw]
          · simp [eu, hu]
      · obtain ⟨h1, h2, h3, h4, h5, h6⟩ := ih s₀ s (d+1) hnd' hs hp (by rw [e2] at hd; omega)
        simp only [publishLoop, if_neg e, hw, Bool.not_false, if_true]
        refine ⟨h1, h2, h3, h4, by omega, ?_⟩
        intro u hu; rw [h6 u hu]
        by_cases eu : u = i
        · subst eu; simp [hni, hw]
        · simp [eu]

omit [Fintype T] in
/-- C33: distributing a clause to `n` threads uses the initial references exactly: the sender only gives away references it
holds, every interested thread gets one, and the sender keeps exactly one iff it builds its own constraint on top of the
object (the clause is long and shared physically), else none. -/
theorem C33_distribute (v : T → L → Val) (sender : T) (wants : T → Bool) (threads : List T) (hnd : threads.Nodup)
    (hmem : sender ∈ threads) (hone : 2 ≤ threads.length) (ls : List L) (short physical : Bool) :
    let s := init sender ls (initialRefs threads.length short physical)
    let f := publish sender wants threads s
    Steps v s f ∧
    (∀ u, u ≠ sender → f.hold u = if u ∈ threads ∧ wants u then 1 else 0) ∧
    f.hold sender = (if short = false ∧ physical = true then 1 else 0) := by
  intro s f
  have hlen : (threads.filter (· ≠ sender)).length = threads.length - 1 := by
    have h1 := hnd.erase_eq_filter sender
    have h2 := List.length_erase_of_mem hmem
    rw [h1] at h2
    rw [← h2]; congr 1
    apply List.filter_congr; intro x _; by_cases e : x = sender <;> simp [e]
  have hm : max 1 (initialRefs threads.length short physical) = initialRefs threads.length short physical := by
    unfold initialRefs; split <;> omega
  have hh : s.hold sender = initialRefs threads.length short physical := by simp [s, init, hm]
  have hge : threads.length - 1 ≤ initialRefs threads.length short physical := by unfold initialRefs; split <;> omega
  have hle : initialRefs threads.length short physical ≤ threads.length := by unfold initialRefs; omega
  obtain ⟨h1, h2, h3, h4, h5, h6⟩ := publishLoop_spec v sender wants threads s s 0 hnd .refl (by simp [s, init])
    (by rw [hlen, hh]; omega)
  have hz : ∀ u, u ≠ sender → s.hold u = 0 := by intro u hu; simp [s, init, hu]
  rw [hlen, hh] at h5
  have hfin : (publishLoop sender wants threads s 0).1.hold sender - (publishLoop sender wants threads s 0).2
      = if short = false ∧ physical = true then 1 else 0 := by
    have hi : initialRefs threads.length short physical
        = threads.length - 1 + (if short = false ∧ physical = true then 1 else 0) := by
      cases short <;> cases physical <;> simp [initialRefs] <;> omega
    generalize (if short = false ∧ physical = true then 1 else 0) = k at *
    omega
  show Steps v s (publish sender wants threads s) ∧ _
  unfold f publish
  dsimp only
  split
  · rename_i hd
    refine ⟨h1, fun u hu => by rw [h6 u hu, hz u hu, Nat.zero_add], ?_⟩
    rw [hd, Nat.sub_zero] at hfin; exact hfin
  · rename_i hd
    refine ⟨.tail h1 (.release (by rw [h2]; simp [s, init]) (by omega) h4), ?_, ?_⟩
    · intro u hu; simp only [St.release, Function.update_of_ne hu]; rw [h6 u hu, hz u hu, Nat.zero_add]
    · simp only [St.release, Function.update_self]; exact hfin

/-! ## Concrete cases -/

/-- Two threads: the first creates the object with two references and gives one away; the other then releases, the first
simplifies as sole owner and finally releases and frees. -/
example : ∃ s : St Bool Nat, Reach (fun _ x => if x = 2 then .fls else .free) false [1, 2, 3] 2 s ∧ s.freed = 1 ∧ s.lits = [1, 3] := by
  let v : Bool → Nat → Val := fun _ x => if x = 2 then .fls else .free
  have r0 : Reach v false [1,2,3] 2 (init false [1,2,3] 2) := .init
  have r1 := Reach.step r0 (Step.give (t := false) (u := true) (n := 1) rfl (by decide) (by decide))
  have r2 := Reach.step r1 (Step.release (t := true) (n := 1) rfl (by decide) (by decide))
  have r3 := Reach.step r2 (Step.simpStart (t := false) (by rfl) (by decide))
  have r4 := Reach.step r3 (Step.simpStep (t := false) (rf := true) (r := 0) (c := 0) (n := 0) (by rfl))
  have r5 := Reach.step r4 (Step.simpStep (t := false) (rf := true) (r := 1) (c := 1) (n := 1) (by rfl))
  have r6 := Reach.step r5 (Step.simpStep (t := false) (rf := true) (r := 2) (c := 1) (n := 1) (by rfl))
  have r7 := Reach.step r6 (Step.simpStep (t := false) (rf := true) (r := 3) (c := 2) (n := 2) (by rfl))
  have r8 := Reach.step r7 (Step.release (t := false) (n := 1) (by rfl) (by decide) (by decide))
  have r9 := Reach.step r8 (Step.free (t := false) (by rfl))
  exact ⟨_, r9, by rfl, by rfl⟩

/-- Three threads, a long clause that is physically shared: the sender keeps one reference, the interested thread gets one and the
reference of the third is given back. -/
example : (publish (0 : Fin 3) (fun u => u == 1) [0, 1, 2] (init 0 [(7 : Nat)] (initialRefs 3 false true))).hold 0 = 1 ∧
    (publish (0 : Fin 3) (fun u => u == 1) [0, 1, 2] (init 0 [(7 : Nat)] (initialRefs 3 false true))).hold 1 = 1 ∧
    (publish (0 : Fin 3) (fun u => u == 1) [0, 1, 2] (init 0 [(7 : Nat)] (initialRefs 3 false true))).hold 2 = 0 ∧
    (publish (0 : Fin 3) (fun u => u == 1) [0, 1, 2] (init 0 [(7 : Nat)] (initialRefs 3 false true))).rc = 2 := by
  decide

end Clasp.SL
