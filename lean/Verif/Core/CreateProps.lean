/-
C12: adding a clause never changes the problem. Specification vocabulary: literal values and levels of the solver state,
satisfaction of a clause by a total assignment.
-/
import Verif.Core.CreateLem
namespace Clasp.Core
open Prep

/-- A state as the solver keeps it: fewer than 2^30 levels, assigned variables have a level, variable 0 is true. -/
structure St.LvOk (s : St) : Prop where
  dl : s.dl < varMax
  lev : ∀ v, s.value v ≠ none → s.level v ≤ s.dl
  tt : s.value 0 = some true ∧ s.level 0 = 0

theorem St.Base.lvOk {s : St} (h : s.Base) (hd : s.dl < varMax) : s.LvOk := by
  refine ⟨hd, fun v hv => ?_, by unfold St.value St.level; rw [h.c0]; exact ⟨rfl, rfl⟩⟩
  rcases h.asg v hv with rfl | ⟨q, hq, rfl⟩
  · unfold St.level; rw [h.c0]; simp
  · exact St.trail_lev_le h.wf hq

/-- `M` agrees with the assignment of level 0. -/
def agree0 (s : St) (M : Asg) : Prop := ∀ p, s.isTrue p = true → s.level p.var = 0 → M.sat p

section
variable {s : St}

theorem St.LvOk.order (h : s.LvOk) (p : Lit) : (s.value p.var = none ∧ s.watchOrder p = s.dl + 1) ∨
    (s.isTrue p = true ∧ s.level p.var ≤ s.dl ∧ s.watchOrder p = umax - s.level p.var) ∨
    (s.isFalse p = true ∧ s.level p.var ≤ s.dl ∧ s.watchOrder p = s.level p.var) := by
  unfold St.watchOrder
  rcases s.value_cases p with hv | hv | hv
  · left; rw [hv]; exact ⟨rfl, rfl⟩
  · right; left
    have hv' : s.value p.var = some p.tv := by simpa [St.isTrue] using hv
    refine ⟨hv, h.lev _ (by rw [hv']; simp), ?_⟩
    rw [hv']; simp
  · right; right
    have hv' : s.value p.var = some (!p.tv) := by simpa [St.isFalse] using hv
    refine ⟨hv, h.lev _ (by rw [hv']; simp), ?_⟩
    rw [hv']
    cases p.tv <;> simp

theorem St.true_free {p : Lit} (h : s.isTrue p = true) : s.value p.var ≠ none := by
  unfold St.isTrue at h; intro e; rw [e] at h; simp at h
theorem St.false_free {p : Lit} (h : s.isFalse p = true) : s.value p.var ≠ none := by
  unfold St.isFalse at h; intro e; rw [e] at h; simp at h
theorem St.true_false {p : Lit} (h : s.isTrue p = true) : s.isFalse p = false := by
  unfold St.isTrue at h; unfold St.isFalse
  have h : s.value p.var = some p.tv := by simpa using h
  rw [h]; cases p.tv <;> rfl

theorem umax_val : umax = 4294967295 := rfl
theorem varMax_val : varMax = 1073741824 := rfl

theorem St.LvOk.zero (h : s.LvOk) (p : Lit) : s.watchOrder p = 0 ↔ s.isFalse p = true ∧ s.level p.var = 0 := by
  have hd := h.dl
  rw [varMax_val] at hd
  rcases h.order p with ⟨hv, ho⟩ | ⟨hv, hl, ho⟩ | ⟨hv, hl, ho⟩
  · rw [ho]
    exact ⟨fun h => by omega, fun h => absurd hv (St.false_free h.1)⟩
  · rw [ho, umax_val]
    exact ⟨fun h => by omega, fun h => by rw [St.true_false hv] at h; simp at h⟩
  · rw [ho]; simp [hv]

theorem St.LvOk.max (h : s.LvOk) (p : Lit) : s.watchOrder p = umax ↔ s.isTrue p = true ∧ s.level p.var = 0 := by
  have hd := h.dl
  rw [varMax_val] at hd
  rcases h.order p with ⟨hv, ho⟩ | ⟨hv, hl, ho⟩ | ⟨hv, hl, ho⟩
  · rw [ho, umax_val]
    exact ⟨fun h => by omega, fun h => absurd hv (St.true_free h.1)⟩
  · rw [ho, umax_val]; simp only [hv, true_and]; omega
  · rw [ho, umax_val]
    exact ⟨fun h => by omega, fun h => by rw [St.true_false h.1] at hv; simp at hv⟩

theorem agree0.neg {M : Asg} (h : agree0 s M) {p : Lit} (hp : s.isFalse p = true) (hl : s.level p.var = 0) : ¬ M.sat p := by
  have := h p.neg (by rw [← St.isFalse_eq]; exact hp) hl
  exact (Asg.sat_neg M p).1 this

end

/-- The literal has a value on level 0. -/
def St.top (s : St) (p : Lit) : Prop := s.value p.var ≠ none ∧ s.level p.var = 0

section
variable {s : St} (hs : s.LvOk)
include hs

theorem marks_top {maxOut : Nat} {x : Prep} (h : PInv s maxOut x) {p : Lit} (hp : p ∈ x.marks) : ¬ s.top p := by
  rintro ⟨h1, h2⟩
  obtain ⟨o1, o2⟩ := h.ord p hp
  rcases s.value_cases p with hv | hv | hv
  · exact h1 hv
  · exact o2 ((hs.max p).2 ⟨hv, h2⟩)
  · exact o1 ((hs.zero p).2 ⟨hv, h2⟩)

/-- The prepared literals: the constant true clause if the clause is a tautology or true on level 0, otherwise the
literals of the clause that are not assigned on level 0, best watches first. -/
theorem prepareVec_spec {lits : List Lit} {force : Bool} (hlen : lits.length < umax)
    (hd : force = true ∨ lits.Nodup ∨ lits.length ≤ 2) :
    (prepareVec s lits force = [litTrue] ∧ ((∃ p ∈ lits, s.isTrue p = true ∧ s.level p.var = 0) ∨ ∃ p ∈ lits, p.neg ∈ lits)) ∨
    ((∀ p ∈ lits, ¬ (s.isTrue p = true ∧ s.level p.var = 0)) ∧
     (∀ p, p ∈ prepareVec s lits force ↔ p ∈ lits ∧ ¬ s.top p) ∧
     ((prepareVec s lits force).Nodup) ∧ (force = true → ((prepareVec s lits force).map Lit.var).Nodup) ∧
     (∀ a b rest, prepareVec s lits force = a :: b :: rest → s.watchOrder b ≤ s.watchOrder a ∧ ∀ c ∈ rest, s.watchOrder c ≤ s.watchOrder b)) := by
  have key : prepareVec s lits force = (List.range (prepare s lits force (umax - 1)).1).map (prepare s lits force (umax - 1)).2 := by
    unfold prepareVec
    by_cases he : lits = []
    · subst he
      have h0 : s.watchOrder litFalse = 0 := (hs.zero _).2 ⟨by simp [St.isFalse, litFalse, hs.tt.1, Lit.tv], hs.tt.2⟩
      unfold prepare loop
      simp [h0, init, umax_val, loop]
    · simp [he]
  rw [key]
  have hsi : lits.length ≤ umax - 1 + 1 := by rw [umax_val] at *; omega
  obtain ⟨n, out, he, hc⟩ := prepare_spec (s := s) (lits := lits) (force := force) (maxOut := umax - 1) (by decide) rfl
  have hse : decide (umax - 1 + 1 ≥ lits.length) = true := by simpa using hsi
  rw [hse, Bool.and_true] at hc
  rw [he]
  dsimp only
  rcases hc with ⟨rfl, h0, hc⟩ | ⟨x, hl, hc⟩
  · left
    refine ⟨by simp [h0], hc.imp (fun ⟨p, hp, h⟩ => ⟨p, hp, (hs.max p).1 h⟩) id⟩
  · right
    have hall : ∀ p, p ∈ x.marks ↔ p ∈ lits ∧ ¬ s.top p := by
      intro p
      constructor
      · intro hp
        refine ⟨?_, marks_top hs hl.inv hp⟩
        simpa [init] using hl.sub p hp
      · rintro ⟨hp, ht⟩
        rcases (hl.all p hp).2 with h | h
        · exfalso
          have := (hs.zero p).1 h
          exact ht ⟨St.false_free this.1, this.2⟩
        · exact h
    have hnt : ∀ p ∈ lits, ¬ (s.isTrue p = true ∧ s.level p.var = 0) := fun p hp h => (hl.all p hp).1 ((hs.max p).2 h)
    have hsize : x.size ≤ lits.length := by
      have := hl.len; rw [hl.inv.size]; simpa [init] using this
    have hperm := hl.inv.all (by rw [umax_val] at *; omega)
    have hsm : ∀ {a b : Lit} {rest : List Lit}, lits.length ≤ 2 → 2 ≤ x.size → x.marks.Perm (a :: b :: rest) → rest = [] := by
      intro a b rest h2 h2' hp
      have := hp.length_eq
      rw [← hl.inv.size] at this
      simp only [List.length_cons] at this
      exact List.eq_nil_of_length_eq_zero (by omega)
    have hnd : lits.Nodup → x.marks.Nodup := by
      intro hn
      cases hsimp : (force && decide (lits.length > 2)) with
      | true => exact List.Nodup.of_map _ (hl.nodup hsimp (by simp [init]))
      | false =>
        rw [hl.eq hsimp]; simp only [init, List.append_nil, List.nodup_reverse]
        exact hn.filter _
    rcases hc with ⟨rfl, rfl, hv⟩ | ⟨rfl, h0, hsimp, h2, h01⟩
    · have hmn : x.marks.Nodup := by
        rcases hd with hd | hd | hd
        · by_cases h2 : lits.length > 2
          · exact List.Nodup.of_map _ (hl.nodup (by simp [hd, h2]) (by simp [init]))
          · by_cases h2' : 2 ≤ x.size
            · obtain ⟨rest, t1, _⟩ := hl.inv.top.two h2'
              rw [hsm (by omega) h2' t1] at t1
              rw [t1.nodup_iff]
              have := hv h2'
              simp; intro e; rw [e] at this; simp at this
            · have := hl.inv.size
              rcases hx : x.marks with _ | ⟨a, _ | ⟨b, r⟩⟩
              · simp
              · simp
              · rw [hx] at this; simp at this; omega
        · exact hnd hd
        · by_cases h2' : 2 ≤ x.size
          · obtain ⟨rest, t1, _⟩ := hl.inv.top.two h2'
            rw [hsm hd h2' t1] at t1
            rw [t1.nodup_iff]
            have := hv h2'
            simp; intro e; rw [e] at this; simp at this
          · have := hl.inv.size
            rcases hx : x.marks with _ | ⟨a, _ | ⟨b, r⟩⟩
            · simp
            · simp
            · rw [hx] at this; simp at this; omega
      refine ⟨hnt, fun p => by rw [hperm.mem_iff]; exact hall p, hperm.nodup_iff.2 hmn, fun hf => ?_, ?_⟩
      · by_cases h2 : lits.length > 2
        · exact (hperm.map Lit.var).nodup_iff.2 (hl.nodup (by simp [hf, h2]) (by simp [init]))
        · rw [(hperm.map Lit.var).nodup_iff]
          by_cases h2' : 2 ≤ x.size
          · obtain ⟨rest, t1, _⟩ := hl.inv.top.two h2'
            rw [hsm (by omega) h2' t1] at t1
            rw [(t1.map Lit.var).nodup_iff]
            simpa using hv h2'
          · have := hl.inv.size
            rcases hx : x.marks with _ | ⟨a, _ | ⟨b, r⟩⟩
            · simp
            · simp
            · rw [hx] at this; simp at this; omega
      · intro a b rest hr
        have h2' : 2 ≤ x.size := by
          have := congrArg List.length hr; simp at this; omega
        obtain ⟨r, t1, t2, t3, t4, t5⟩ := hl.inv.top.two h2'
        have ha : x.out 0 = a := by
          have := congrArg (fun l => l[0]?) hr
          simp [List.getElem?_map, List.getElem?_range (show 0 < x.size by omega)] at this
          exact this
        have hb : x.out 1 = b := by
          have := congrArg (fun l => l[1]?) hr
          simp [List.getElem?_map, List.getElem?_range (show 1 < x.size by omega)] at this
          exact this
        rw [ha] at t1 t2
        rw [hb] at t1 t3
        refine ⟨by rw [← t2, ← t3]; exact t4, fun c hc => ?_⟩
        rw [← t3]
        refine t5 c ?_
        have hp2 := hperm.trans t1
        rw [hr] at hp2
        exact ((hp2.cons_inv).cons_inv).mem_iff.1 hc
    · obtain ⟨rest, t1, t2, t3, t4, t5⟩ := hl.inv.top.two h2
      have h2l : lits.length ≤ 2 := by
        rcases hd with hd | hd | hd
        · simpa [hd] using hsimp
        · exfalso
          have := t1.nodup_iff.1 (hnd hd)
          simp [h01] at this
        · exact hd
      rw [hsm h2l h2 t1] at t1
      refine ⟨hnt, fun p => ?_, by simp, by simp, fun a b rest hr => ?_⟩
      · rw [← hall p, t1.mem_iff]
        simp [h0, h01]
      · have := congrArg List.length hr; simp at this

end

/-- C12. `prepare` keeps the models that agree with the assignment of level 0. The precondition is the one of
clause.h:163-166: duplicates are found only if simplification is requested or the clause is short. -/
theorem C12_prepare {s : St} (hs : s.LvOk) {lits : List Lit} {force : Bool} (hlen : lits.length < umax)
    (hd : force = true ∨ lits.Nodup ∨ lits.length ≤ 2) {M : Asg} (hM : agree0 s M) :
    M.satC (prepareVec s lits force) ↔ M.satC lits := by
  rcases prepareVec_spec hs hlen hd with ⟨he, hc⟩ | ⟨h1, h2, _⟩
  · rw [he]
    have htt : M.sat litTrue := hM litTrue (by simp [St.isTrue, litTrue, Lit.tv, hs.tt.1]) hs.tt.2
    have hl : M.satC lits := by
      rcases hc with ⟨p, hp, h⟩ | ⟨p, hp, h⟩
      · exact ⟨p, hp, hM p h.1 h.2⟩
      · by_cases hm : M.sat p
        · exact ⟨p, hp, hm⟩
        · exact ⟨p.neg, h, (Asg.sat_neg M p).2 hm⟩
    exact ⟨fun _ => hl, fun _ => ⟨litTrue, by simp, htt⟩⟩
  · constructor
    · rintro ⟨p, hp, h⟩
      exact ⟨p, ((h2 p).1 hp).1, h⟩
    · rintro ⟨p, hp, h⟩
      refine ⟨p, (h2 p).2 ⟨hp, fun ht => ?_⟩, h⟩
      rcases s.value_cases p with hv | hv | hv
      · exact ht.1 hv
      · exact h1 p hp ⟨hv, ht.2⟩
      · exact hM.neg hv ht.2 h

/-- C12. A prepared clause is the constant true clause or has no literal assigned on level 0, no literal twice, and, if
simplification was requested, no variable twice. -/
theorem C12_prepare_shape {s : St} (hs : s.LvOk) {lits : List Lit} {force : Bool} (hlen : lits.length < umax)
    (hd : force = true ∨ lits.Nodup ∨ lits.length ≤ 2) :
    prepareVec s lits force = [litTrue] ∨
    ((∀ p ∈ prepareVec s lits force, p ∈ lits ∧ (s.value p.var ≠ none → s.level p.var ≠ 0)) ∧ (prepareVec s lits force).Nodup ∧
     (force = true → ((prepareVec s lits force).map Lit.var).Nodup)) := by
  rcases prepareVec_spec hs hlen hd with ⟨he, hc⟩ | ⟨h1, h2, h3, h4, _⟩
  · exact Or.inl he
  · exact Or.inr ⟨fun p hp => ⟨((h2 p).1 hp).1, fun h h' => ((h2 p).1 hp).2 ⟨h, h'⟩⟩, h3, h4⟩

/-- C12. The first two literals of a prepared clause are the best watches: a true literal is in front, of the lowest level;
a false literal is among the first two only if all literals after it are false, on the same or a lower level. -/
theorem C12_prepare_watches {s : St} (hs : s.LvOk) {lits : List Lit} {force : Bool} (hlen : lits.length < umax)
    (hd : force = true ∨ lits.Nodup ∨ lits.length ≤ 2) {a b : Lit} {rest : List Lit}
    (he : prepareVec s lits force = a :: b :: rest) :
    (∀ c ∈ b :: rest, s.isTrue c = true → s.isTrue a = true ∧ s.level a.var ≤ s.level c.var) ∧
    (s.isFalse a = true → ∀ c ∈ b :: rest, s.isFalse c = true ∧ s.level c.var ≤ s.level a.var) ∧
    (s.isFalse b = true → ∀ c ∈ rest, s.isFalse c = true ∧ s.level c.var ≤ s.level b.var) := by
  rcases prepareVec_spec hs hlen hd with ⟨he', hc⟩ | ⟨h1, h2, h3, h4, h5⟩
  · rw [he] at he'; simp at he'
  · obtain ⟨o1, o2⟩ := h5 a b rest he
    have o3 : ∀ c ∈ b :: rest, s.watchOrder c ≤ s.watchOrder a := by
      intro c hc
      rcases List.mem_cons.1 hc with rfl | hc
      · exact o1
      · exact Nat.le_trans (o2 c hc) o1
    have hdl := hs.dl
    rw [varMax_val] at hdl
    have hf : ∀ x c, s.isFalse x = true → s.watchOrder c ≤ s.watchOrder x → s.isFalse c = true ∧ s.level c.var ≤ s.level x.var := by
      intro x c hx hc
      rcases hs.order x with ⟨hv, ho⟩ | ⟨hv, hl, ho⟩ | ⟨hv, hl, ho⟩
      · exact absurd hv (St.false_free hx)
      · rw [St.true_false hv] at hx; simp at hx
      · rcases hs.order c with ⟨hv', ho'⟩ | ⟨hv', hl', ho'⟩ | ⟨hv', hl', ho'⟩
        · omega
        · rw [umax_val] at ho'; omega
        · exact ⟨hv', by omega⟩
    refine ⟨fun c hc ht => ?_, fun ha c hc => hf a c ha (o3 c hc), fun hb c hc => hf b c hb (o2 c hc)⟩
    have := o3 c hc
    rcases hs.order c with ⟨hv', ho'⟩ | ⟨hv', hl', ho'⟩ | ⟨hv', hl', ho'⟩
    · exact absurd hv' (St.true_free ht)
    · rw [umax_val] at ho'
      rcases hs.order a with ⟨hv, ho⟩ | ⟨hv, hl, ho⟩ | ⟨hv, hl, ho⟩
      · omega
      · rw [umax_val] at ho; exact ⟨hv, by omega⟩
      · omega
    · rw [St.true_false ht] at hv'; simp at hv'

/-! ### The reported status -/

/-- `p` is the only literal of the clause on its level, all others are false on lower levels -/
def onTop (s : St) (lits : List Lit) (p : Lit) : Prop :=
  0 < s.level p.var ∧ ∀ q ∈ lits, q ≠ p → s.isFalse q = true ∧ s.level q.var < s.level p.var

/-- What the status codes of clause.h:112-123 say about a clause under the current assignment. -/
def StatusMeans (s : St) (lits : List Lit) (st : Nat) : Prop :=
  -- subsumed: true on level 0
  (st = 9 ∧ ∃ p ∈ lits, s.isTrue p = true ∧ s.level p.var = 0) ∨
  -- empty: false on level 0
  (st = 10 ∧ ∀ p ∈ lits, s.isFalse p = true ∧ s.level p.var = 0) ∨
  -- satisfied and asserting
  (st = 5 ∧ ∃ p ∈ lits, s.isTrue p = true ∧ onTop s lits p) ∨
  -- satisfied
  (st = 1 ∧ (∃ p ∈ lits, s.isTrue p = true) ∧ ∀ p ∈ lits, s.isTrue p = true → 0 < s.level p.var ∧ ¬ onTop s lits p) ∨
  -- asserting: false with a single literal on the highest level
  (st = 6 ∧ ∃ p ∈ lits, s.isFalse p = true ∧ onTop s lits p) ∨
  -- false
  (st = 2 ∧ (∀ p ∈ lits, s.isFalse p = true ∧ ¬ onTop s lits p) ∧ ∃ p ∈ lits, 0 < s.level p.var) ∨
  -- unit: one free literal, the others are false
  (st = 4 ∧ ∃ p ∈ lits, s.value p.var = none ∧ ∀ q ∈ lits, q ≠ p → s.isFalse q = true) ∨
  -- open: no true literal and at least two free ones
  (st = 0 ∧ (∀ p ∈ lits, s.isTrue p = false) ∧ ∃ p ∈ lits, ∃ q ∈ lits, p ≠ q ∧ s.value p.var = none ∧ s.value q.var = none)

theorem St.false_true {s : St} {p : Lit} (h : s.isFalse p = true) : s.isTrue p = false := by
  by_contra hn
  have := St.true_false (s := s) (p := p) (by simpa using hn)
  rw [h] at this; simp at this
theorem St.free_true {s : St} {p : Lit} (h : s.value p.var = none) : s.isTrue p = false := by
  unfold St.isTrue; rw [h]; rfl
theorem St.free_false {s : St} {p : Lit} (h : s.value p.var = none) : s.isFalse p = false := by
  unfold St.isFalse; rw [h]; rfl

/-- The status code of a prepared clause from the watch orders of its first two literals. -/
theorem status_val {s : St} (hs : s.LvOk) {n : Nat} {a b : Lit} (hn : n ≠ 0) (ha : s.watchOrder a ≠ umax) (ha0 : s.watchOrder a ≠ 0) :
    s.status n a b = (if s.isTrue a then (if (n > 1 → s.watchOrder b ≤ s.dl ∧ s.watchOrder b < s.level a.var) then 5 else 1)
      else if s.isFalse a then (if (n > 1 → s.watchOrder b ≤ s.dl ∧ s.watchOrder b < s.level a.var) then 6 else 2)
      else (if (n > 1 → s.watchOrder b ≤ s.dl) then 4 else 0)) := by
  have hdl := hs.dl
  have hu := umax_val
  have hvm := varMax_val
  unfold St.status
  simp only [if_pos hn, if_neg ha]
  rcases hs.order a with ⟨hv, ho⟩ | ⟨hv, hl, ho⟩ | ⟨hv, hl, ho⟩
  · rw [St.free_true hv, St.free_false hv]
    rw [if_neg (show ¬ s.watchOrder a > varMax by omega), if_neg (show ¬ s.watchOrder a ≤ s.dl by omega)]
    simp only [Bool.false_eq_true, if_false]
    by_cases h1 : n > 1
    · simp only [h1, if_true, forall_const]
      by_cases h2 : s.watchOrder b ≤ s.dl
      · rw [if_pos ⟨h2, by omega⟩, if_pos h2]; rfl
      · rw [if_neg (fun h => h2 h.1), if_neg h2]; rfl
    · simp only [h1, if_false, false_imp_iff, if_true]
      rw [if_pos ⟨by omega, by omega⟩]; rfl
  · rw [hv]
    rw [if_pos (show s.watchOrder a > varMax by omega)]
    have he : umax - s.watchOrder a = s.level a.var := by omega
    have h0 : 0 < s.level a.var := by
      rcases Nat.eq_zero_or_pos (s.level a.var) with h | h
      · exact absurd ((hs.max a).2 ⟨hv, h⟩) ha
      · exact h
    simp only [he, if_true]
    by_cases h1 : n > 1
    · simp only [h1, if_true, forall_const, gt_iff_lt]
      split <;> rfl
    · simp only [h1, if_false, false_imp_iff, if_true]
      rw [if_pos ⟨by omega, by omega⟩]; rfl
  · rw [St.false_true hv, hv]
    rw [if_neg (show ¬ s.watchOrder a > varMax by omega), if_pos (show s.watchOrder a ≤ s.dl by omega), if_pos ha0]
    simp only [Bool.false_eq_true, if_false, if_true, ho]
    by_cases h1 : n > 1
    · simp only [h1, if_true, forall_const, gt_iff_lt]
      split <;> rfl
    · simp only [h1, if_false, false_imp_iff, if_true]
      have : s.level a.var ≠ 0 := by rw [← ho]; exact ha0
      rw [if_pos ⟨by omega, by omega⟩]; rfl

/-- C12. The reported status is right for the current assignment. -/
theorem C12_status {s : St} (hs : s.LvOk) {lits : List Lit} (hv : (lits.map Lit.var).Nodup) :
    StatusMeans s lits (s.statusOf lits) := by
  unfold St.statusOf
  by_cases he : lits = []
  · subst he; right; left; exact ⟨rfl, by simp⟩
  rw [if_neg (by simpa using he)]
  have hu := umax_val
  have hdl := hs.dl
  have hvm := varMax_val
  have hneg : ∀ p ∈ lits, ∀ q ∈ lits, p.var = q.var → p = q := by
    intro p hp q hq e
    exact List.inj_on_of_nodup_map hv hp hq e
  obtain ⟨n, out, hp, hc⟩ := prepare_spec (s := s) (lits := lits) (force := false) (maxOut := 2) (Nat.le_refl _) rfl
  rw [hp]
  dsimp only
  rcases hc with ⟨rfl, h0, hc⟩ | ⟨x, hl, hc⟩
  · left
    refine ⟨?_, ?_⟩
    · rw [h0]
      have : s.watchOrder litTrue = umax := (hs.max _).2 ⟨by simp [St.isTrue, litTrue, Lit.tv, hs.tt.1], hs.tt.2⟩
      unfold St.status; simp [this, stSubsumed]
    · rcases hc with ⟨p, hp, h⟩ | ⟨p, hp, h⟩
      · exact ⟨p, hp, (hs.max p).1 h⟩
      · have := hneg p hp p.neg h rfl
        exfalso
        cases p; simp [Lit.neg] at this
  · have hmem : ∀ p, p ∈ x.marks → p ∈ lits := fun p hp => by simpa [init] using hl.sub p hp
    have hord := hl.inv.ord
    have hrest : ∀ q ∈ lits, q ∉ x.marks → s.isFalse q = true ∧ s.level q.var = 0 := by
      intro q hq hm
      rcases (hl.all q hq).2 with h | h
      · exact (hs.zero q).1 h
      · exact absurd h hm
    have hn0 : ∀ p ∈ lits, s.isTrue p = true → 0 < s.level p.var := by
      intro p hp ht
      rcases Nat.eq_zero_or_pos (s.level p.var) with h | h
      · exact absurd ((hs.max p).2 ⟨ht, h⟩) (hl.all p hp).1
      · exact h
    have hpos : ∀ a, a ∈ x.marks → s.isFalse a = true → 0 < s.level a.var := by
      intro a ha hf
      rcases Nat.eq_zero_or_pos (s.level a.var) with h | h
      · exact absurd ((hs.zero a).2 ⟨hf, h⟩) (hord a ha).1
      · exact h
    have hne01 : 2 ≤ x.size → x.out 0 ≠ x.out 1 := by
      intro h2 he
      obtain ⟨rest, t1, _⟩ := hl.inv.top.two h2
      have hnd : x.marks.Nodup := by
        rw [hl.eq (by simp)]; simp only [init, List.append_nil, List.nodup_reverse]
        exact (List.Nodup.of_map _ hv).filter _
      have := t1.nodup_iff.1 hnd
      simp [he] at this
    rcases hc with ⟨rfl, rfl, -⟩ | ⟨rfl, h0, hsimp, h2, h01⟩
    swap
    · exact absurd h01 (hne01 h2)
    by_cases hz : x.size = 0
    · right; left
      have hm : x.marks = [] := by
        have := hl.inv.size; rw [hz] at this; exact List.eq_nil_of_length_eq_zero this.symm
      refine ⟨?_, fun p hp => hrest p hp (by rw [hm]; simp)⟩
      unfold St.status; simp [hz, umax_val, varMax_val, stEmpty]
    · -- the best literal, and a bound on the others
      obtain ⟨a, b, ha, hb, hall⟩ : ∃ a b, a = x.out 0 ∧ b = x.out 1 ∧ a ∈ x.marks ∧
          (x.size > 1 → b ∈ x.marks ∧ s.watchOrder b ≤ s.watchOrder a ∧ a ≠ b) ∧
          (∀ q ∈ x.marks, q = a ∨ (x.size > 1 ∧ s.watchOrder q ≤ s.watchOrder b)) := by
        refine ⟨_, _, rfl, rfl, ?_⟩
        by_cases ho : x.size = 1
        · obtain ⟨o1, _⟩ := hl.inv.top.one ho
          refine ⟨by rw [o1]; simp, fun h => by omega, fun q hq => ?_⟩
          rw [o1] at hq; left; simpa using hq
        · obtain ⟨rest, t1, t2, t3, t4, t5⟩ := hl.inv.top.two (by omega)
          refine ⟨t1.mem_iff.2 (by simp), fun h => ⟨t1.mem_iff.2 (by simp), by rw [← t2, ← t3]; exact t4, hne01 h⟩, fun q hq => ?_⟩
          rcases List.mem_cons.1 (t1.mem_iff.1 hq) with h | h
          · exact Or.inl h
          · right
            refine ⟨by omega, ?_⟩
            rcases List.mem_cons.1 h with h | h
            · exact Nat.le_of_eq (by rw [h])
            · rw [← t3]; exact t5 q h
      rw [← ha, ← hb]
      clear ha hb hp
      obtain ⟨ha, hb, hq⟩ := hall
      rw [status_val hs hz (hord a ha).2 (hord a ha).1]
      have hlow : (x.size > 1 → s.watchOrder b ≤ s.dl) → ∀ q ∈ lits, q ≠ a → s.isFalse q = true ∧ (x.size > 1 → s.level q.var ≤ s.watchOrder b) ∧ (¬ x.size > 1 → s.level q.var = 0) := by
        intro hbd q hql hqa
        by_cases hm : q ∈ x.marks
        · rcases hq q hm with h | ⟨h1, h2⟩
          · exact absurd h hqa
          · have := hbd h1
            rcases hs.order q with ⟨hv, ho⟩ | ⟨hv, hl, ho⟩ | ⟨hv, hl, ho⟩
            · omega
            · omega
            · exact ⟨hv, fun _ => by omega, fun h => absurd h1 h⟩
        · obtain ⟨h1, h2⟩ := hrest q hql hm
          exact ⟨h1, fun _ => by omega, fun _ => h2⟩
      have htop : 0 < s.level a.var → (x.size > 1 → s.watchOrder b ≤ s.dl ∧ s.watchOrder b < s.level a.var) → onTop s lits a := by
        intro h0 h
        refine ⟨h0, fun q hql hqa => ?_⟩
        obtain ⟨h1, h2, h3⟩ := hlow (fun h' => (h h').1) q hql hqa
        refine ⟨h1, ?_⟩
        by_cases h' : x.size > 1
        · have := h2 h'; have := (h h').2; omega
        · rw [h3 h']; exact h0
      have hntop : ¬ (x.size > 1 → s.watchOrder b ≤ s.dl ∧ s.watchOrder b < s.level a.var) → ¬ onTop s lits a := by
        intro h ht
        push Not at h
        obtain ⟨h1, h2⟩ := h
        obtain ⟨m1, m2, m3⟩ := hb h1
        obtain ⟨f1, f2⟩ := ht.2 b (hmem b m1) (Ne.symm m3)
        rcases hs.order b with ⟨hv, ho⟩ | ⟨hv, hl, ho⟩ | ⟨hv, hl, ho⟩
        · exact St.false_free f1 hv
        · rw [St.true_false hv] at f1; simp at f1
        · have := h2 (by omega); omega
      rcases hs.order a with ⟨hva, hoa⟩ | ⟨hva, hla, hoa⟩ | ⟨hva, hla, hoa⟩
      · rw [St.free_true hva, St.free_false hva]
        simp only [Bool.false_eq_true, if_false]
        by_cases h1 : x.size > 1 → s.watchOrder b ≤ s.dl
        · rw [if_pos h1]
          right; right; right; right; right; right; left
          exact ⟨rfl, a, hmem a ha, hva, fun q hql hqa => (hlow h1 q hql hqa).1⟩
        · rw [if_neg h1]
          push Not at h1
          obtain ⟨h1, h2⟩ := h1
          obtain ⟨m1, m2, m3⟩ := hb h1
          right; right; right; right; right; right; right
          have hbf : s.value b.var = none := by
            rcases hs.order b with ⟨hv, ho⟩ | ⟨hv, hl, ho⟩ | ⟨hv, hl, ho⟩
            · exact hv
            · omega
            · omega
          refine ⟨rfl, fun p hpl => ?_, a, hmem a ha, b, hmem b m1, m3, hva, hbf⟩
          by_cases hm : p ∈ x.marks
          · have hle : s.watchOrder p ≤ s.watchOrder a := by
              rcases hq p hm with h | ⟨_, h⟩
              · exact Nat.le_of_eq (by rw [h])
              · omega
            rcases hs.order p with ⟨hv, ho⟩ | ⟨hv, hl, ho⟩ | ⟨hv, hl, ho⟩
            · exact St.free_true hv
            · omega
            · exact St.false_true hv
          · exact St.false_true (hrest p hpl hm).1
      · rw [hva]
        simp only [if_true]
        by_cases h1 : (x.size > 1 → s.watchOrder b ≤ s.dl ∧ s.watchOrder b < s.level a.var)
        · rw [if_pos h1]
          right; right; left
          exact ⟨rfl, a, hmem a ha, hva, htop (hn0 a (hmem a ha) hva) h1⟩
        · rw [if_neg h1]
          right; right; right; left
          refine ⟨rfl, ⟨a, hmem a ha, hva⟩, fun p hpl ht => ⟨hn0 p hpl ht, fun hto => ?_⟩⟩
          by_cases hpa : p = a
          · rw [hpa] at hto; exact hntop h1 hto
          · have := (hto.2 a (hmem a ha) (Ne.symm hpa)).1
            rw [St.true_false hva] at this; simp at this
      · rw [St.false_true hva, hva]
        simp only [Bool.false_eq_true, if_false, if_true]
        have hbf : x.size > 1 → s.watchOrder b ≤ s.dl := fun h => by have := (hb h).2.1; omega
        by_cases h1 : (x.size > 1 → s.watchOrder b ≤ s.dl ∧ s.watchOrder b < s.level a.var)
        · rw [if_pos h1]
          right; right; right; right; left
          exact ⟨rfl, a, hmem a ha, hva, htop (hpos a ha hva) h1⟩
        · rw [if_neg h1]
          right; right; right; right; right; left
          refine ⟨rfl, fun p hpl => ?_, a, hmem a ha, hpos a ha hva⟩
          by_cases hpa : p = a
          · subst hpa; exact ⟨hva, hntop h1⟩
          · refine ⟨(hlow hbf p hpl hpa).1, fun hto => ?_⟩
            have h3 := (hto.2 a (hmem a ha) (Ne.symm hpa)).2
            by_cases h' : x.size > 1
            · have := (hlow hbf p hpl hpa).2.1 h'
              have := (hb h').2.1
              omega
            · have := (hlow hbf p hpl hpa).2.2 h'
              omega

/-- The meanings of different codes exclude each other, so the meaning determines the code. -/
theorem C12_status_unique {s : St} {lits : List Lit} {m n : Nat} (hm : StatusMeans s lits m) (hn : StatusMeans s lits n) :
    m = n := by
  have tf : ∀ p, s.isTrue p = true → s.isFalse p = true → False := fun p h1 h2 => by rw [St.true_false h1] at h2; simp at h2
  have tn : ∀ p, s.isTrue p = true → s.value p.var = none → False := fun p h1 h2 => St.true_free h1 h2
  have fn : ∀ p, s.isFalse p = true → s.value p.var = none → False := fun p h1 h2 => St.false_free h1 h2
  unfold StatusMeans onTop at hm hn
  rcases hm with ⟨rfl, hm⟩ | ⟨rfl, hm⟩ | ⟨rfl, hm⟩ | ⟨rfl, hm⟩ | ⟨rfl, hm⟩ | ⟨rfl, hm⟩ | ⟨rfl, hm⟩ | ⟨rfl, hm⟩ <;>
  rcases hn with ⟨rfl, hn⟩ | ⟨rfl, hn⟩ | ⟨rfl, hn⟩ | ⟨rfl, hn⟩ | ⟨rfl, hn⟩ | ⟨rfl, hn⟩ | ⟨rfl, hn⟩ | ⟨rfl, hn⟩ <;>
  first | rfl | (exfalso; grind)

/-! ### A case meeting the hypotheses -/

/-- 1 is false on level 0, 2 true on level 1, 3 false on level 2, 4 false on level 1 -/
def demoC : St := { St.init with
  cell := fun v => if v = 0 then ⟨some true, (true, true), 0⟩ else if v = 1 then ⟨some false, (true, true), 0⟩
    else if v = 2 then ⟨some true, (false, false), 1⟩ else if v = 3 then ⟨some false, (false, false), 2⟩
    else if v = 4 then ⟨some false, (false, false), 1⟩ else Cell.free
  trail := [⟨3, true⟩, ⟨4, true⟩, ⟨2, false⟩, ⟨1, true⟩]
  lv := [3, 1] }

theorem demoC_ok : demoC.LvOk := by
  refine ⟨by decide, fun v hv => ?_, by decide⟩
  unfold St.level demoC
  dsimp only
  show _ ≤ 2
  split_ifs <;> simp [Cell.free]

example : prepareVec demoC [⟨1, false⟩, ⟨4, false⟩, ⟨3, false⟩, ⟨4, false⟩, ⟨5, true⟩, ⟨1, false⟩, ⟨2, true⟩] true =
    [⟨5, true⟩, ⟨3, false⟩, ⟨4, false⟩, ⟨2, true⟩] := by decide
example : prepareVec demoC [⟨5, false⟩, ⟨4, false⟩, ⟨5, true⟩] true = [litTrue] := by decide
example : demoC.statusOf [⟨1, false⟩, ⟨4, false⟩, ⟨3, false⟩] = stAsserting := by decide
example : demoC.statusOf [⟨1, false⟩, ⟨4, false⟩, ⟨2, true⟩] = stUnsat := by decide
example : demoC.statusOf [⟨4, false⟩, ⟨5, false⟩, ⟨3, false⟩] = stUnit := by decide
example : demoC.statusOf [⟨2, false⟩, ⟨5, false⟩, ⟨3, false⟩] = stSat := by decide
example : agree0 demoC (fun v => decide (v ≠ 1)) := by
  rintro ⟨v, sg⟩ h1 h2
  unfold St.isTrue St.value demoC at h1
  unfold St.level demoC at h2
  dsimp only at h1 h2
  unfold Asg.sat
  split_ifs at h1 h2 <;> simp_all [Lit.tv, Cell.free]

/-- Without simplification and with a literal given twice the result may be stronger than the clause: the precondition of
`C12_prepare` is needed. -/
theorem C12_prepare_duplicates : prepareVec St.init [⟨1, false⟩, ⟨1, false⟩, ⟨2, false⟩] false = [⟨1, false⟩] := by decide

end Clasp.Core
