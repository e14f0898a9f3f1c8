/-
C18: brave and cautious consequences.
-/
import Verif.Enum.Cons
namespace Clasp.Core
open St
namespace Cons
variable {learn : Bool} {n : Nat} {E : Asg → Prop} {brave : Bool} {root : Nat} {step : Lit} {x0 x : Sys}

/-! ### Specification -/

/-- the models of the problem under the assumptions -/
def Answer (E : Asg → Prop) (x : Sys) (M : Asg) : Prop := M.sat litTrue ∧ E M ∧ (∀ C ∈ x.orig, M.satC C) ∧ M.all x.sys.asm

/-- the consequences asked for: true in some model, or in all models -/
def Consequence (brave : Bool) (E : Asg → Prop) (x : Sys) (p : Lit) : Prop :=
  if brave then ∃ M, Answer E x M ∧ M.sat p else ∀ M, Answer E x M → M.sat p

/-! ### Rounds -/

/-- does the assignment decide the candidate -/
def hit (brave : Bool) (s : St) (p : Lit) : Bool := if brave then s.isTrue p else s.isFalse p

theorem round_fst (s : St) (c : Lit × Bool) : ((round brave s root c).1).1 = c.1 := by
  unfold round; rfl

theorem round_flag (s : St) (c : Lit × Bool) : ((round brave s root c).1).2 = if c.2 = brave ∨ hit brave s c.1 = true then brave else !brave := by
  unfold round hit
  obtain ⟨p, f⟩ := c
  cases brave <;> cases f <;> simp <;> (repeat' split) <;> simp_all

theorem round_con (s : St) (c : Lit × Bool) : (round brave s root c).2.1 =
    if c.2 = brave ∨ hit brave s c.1 = true ∨ s.level c.1.var = 0 then none else some (if brave then c.1 else c.1.neg) := by
  unfold round hit
  obtain ⟨p, f⟩ := c
  cases brave <;> cases f <;> simp <;> (repeat' split) <;> simp_all

theorem round_out (s : St) (c : Lit × Bool) : (round brave s root c).2.2 =
    (if c.2 = brave ∨ hit brave s c.1 = true ∨ s.level c.1.var ≤ root then 0 else estBit c.1) ||| (if ((round brave s root c).1).2 then trueBit c.1 else 0) := by
  unfold round hit
  obtain ⟨p, f⟩ := c
  cases brave <;> cases f <;> simp <;> (repeat' split) <;> simp_all <;> omega

theorem mem_update {s : St} {cons : List (Lit × Bool)} {c : Lit × Bool} : c ∈ update brave s root cons ↔ ∃ c' ∈ cons, c'.1 = c.1 ∧
    c.2 = if c'.2 = brave ∨ hit brave s c'.1 = true then brave else !brave := by
  unfold update
  rw [List.mem_map]
  constructor
  · rintro ⟨c', h, rfl⟩
    exact ⟨c', h, (round_fst ..).symm, round_flag ..⟩
  · rintro ⟨c', h, h1, h2⟩
    refine ⟨c', h, Prod.ext ((round_fst ..).trans h1) ?_⟩
    rw [round_flag, h2]

theorem mem_constraint {s : St} {cons : List (Lit × Bool)} {p : Lit} : p ∈ constraint brave s root step cons ↔ p = step.neg ∨
    ∃ c ∈ cons, c.2 = !brave ∧ hit brave s c.1 = false ∧ s.level c.1.var ≠ 0 ∧ p = if brave then c.1 else c.1.neg := by
  unfold constraint
  rw [List.mem_cons, List.mem_filterMap]
  refine or_congr Iff.rfl (exists_congr fun c => and_congr Iff.rfl ?_)
  rw [round_con]
  cases brave <;> cases hc : c.2 <;> simp <;> tauto

/-! ### Output -/

theorem out_bits (p q : Lit) (hv : p.var = q.var) (e t : Bool) : let b := (if e then estBit q else 0) ||| (if t then trueBit q else 0)
    isTrue b p = (decide (p = q) && t) ∧ isEst b p = (decide (p = q) && e) := by
  have : p = q ↔ p.sign = q.sign := by
    constructor
    · intro h; rw [h]
    · intro h; cases p; cases q; simp_all
  simp only [this]
  unfold isTrue isEst trueBit estBit
  cases p.sign <;> cases q.sign <;> cases e <;> cases t <;> decide

theorem isTrue_or (a b : Nat) (p : Lit) : isTrue (a ||| b) p = (isTrue a p || isTrue b p) := by
  unfold isTrue
  have : (a ||| b) &&& 3 &&& trueBit p = (a &&& 3 &&& trueBit p) ||| (b &&& 3 &&& trueBit p) := by
    rw [Nat.and_or_distrib_right, Nat.and_or_distrib_right]
  rw [this, Bool.eq_iff_iff]
  simp only [decide_eq_true_eq, Bool.or_eq_true, ne_eq, Nat.or_eq_zero_iff]
  tauto

theorem isEst_or (a b : Nat) (p : Lit) : isEst (a ||| b) p = (isEst a p || isEst b p) := by
  unfold isEst
  rw [Nat.and_or_distrib_right, Bool.eq_iff_iff]
  simp only [decide_eq_true_eq, Bool.or_eq_true, ne_eq, Nat.or_eq_zero_iff]
  tauto

theorem output_aux (s : St) (cons : List (Lit × Bool)) (m : Nat → Nat) (p : Lit) :
    let o := cons.foldl (fun m c => Function.update m c.1.var (m c.1.var ||| (round brave s root c).2.2)) m
    (isTrue (o p.var) p = true ↔ isTrue (m p.var) p = true ∨ (p, true) ∈ update brave s root cons) ∧
    (isEst (o p.var) p = true ↔ isEst (m p.var) p = true ∨ ∃ c ∈ cons, c.1 = p ∧ c.2 = !brave ∧ hit brave s p = false ∧ root < s.level p.var) := by
  induction cons generalizing m with
  | nil => simp [update]
  | cons c r ih =>
    intro o
    obtain ⟨h1, h2⟩ := ih (Function.update m c.1.var (m c.1.var ||| (round brave s root c).2.2))
    have e1 : isTrue ((Function.update m c.1.var (m c.1.var ||| (round brave s root c).2.2)) p.var) p = true ↔
        isTrue (m p.var) p = true ∨ (round brave s root c).1 = (p, true) := by
      by_cases hv : p.var = c.1.var
      · rw [hv, Function.update_self, isTrue_or, round_out, Bool.or_eq_true]
        have := (out_bits p c.1 hv (!decide (c.2 = brave ∨ hit brave s c.1 = true ∨ s.level c.1.var ≤ root)) ((round brave s root c).1).2).1
        refine or_congr Iff.rfl ?_
        have e : (if (!decide (c.2 = brave ∨ hit brave s c.1 = true ∨ s.level c.1.var ≤ root)) = true then estBit c.1 else 0) =
            (if c.2 = brave ∨ hit brave s c.1 = true ∨ s.level c.1.var ≤ root then 0 else estBit c.1) := by
          by_cases hh : c.2 = brave ∨ hit brave s c.1 = true ∨ s.level c.1.var ≤ root <;> simp [hh]
        rw [e] at this
        rw [this]
        rw [Bool.and_eq_true, decide_eq_true_eq, Prod.ext_iff, round_fst]
        exact and_congr ⟨fun h => h.symm, fun h => h.symm⟩ Iff.rfl
      · rw [Function.update_of_ne hv]
        refine ⟨Or.inl, ?_⟩
        rintro (h | h)
        · exact h
        · exact absurd (by rw [← round_fst (brave := brave) (root := root) s c, h]) hv
    have e2 : isEst ((Function.update m c.1.var (m c.1.var ||| (round brave s root c).2.2)) p.var) p = true ↔
        isEst (m p.var) p = true ∨ (c.1 = p ∧ c.2 = !brave ∧ hit brave s p = false ∧ root < s.level p.var) := by
      by_cases hv : p.var = c.1.var
      · rw [hv, Function.update_self, isEst_or, round_out, Bool.or_eq_true]
        have := (out_bits p c.1 hv (!decide (c.2 = brave ∨ hit brave s c.1 = true ∨ s.level c.1.var ≤ root)) ((round brave s root c).1).2).2
        refine or_congr Iff.rfl ?_
        have e : (if (!decide (c.2 = brave ∨ hit brave s c.1 = true ∨ s.level c.1.var ≤ root)) = true then estBit c.1 else 0) =
            (if c.2 = brave ∨ hit brave s c.1 = true ∨ s.level c.1.var ≤ root then 0 else estBit c.1) := by
          by_cases hh : c.2 = brave ∨ hit brave s c.1 = true ∨ s.level c.1.var ≤ root <;> simp [hh]
        rw [e] at this
        rw [this, Bool.and_eq_true, decide_eq_true_eq]
        constructor
        · rintro ⟨rfl, hh⟩
          simp only [Bool.not_eq_true', decide_eq_false_iff_not, not_or] at hh
          refine ⟨rfl, ?_, by simpa using hh.2.1, by omega⟩
          cases hc : c.2 <;> cases hb : brave <;> simp_all
        · rintro ⟨rfl, h1, h2, h3⟩
          refine ⟨rfl, ?_⟩
          simp only [Bool.not_eq_true', decide_eq_false_iff_not, not_or]
          refine ⟨by rw [h1]; cases brave <;> simp, by rw [h2]; simp, by omega⟩
      · rw [Function.update_of_ne hv]
        refine ⟨Or.inl, ?_⟩
        rintro (h | h)
        · exact h
        · exact absurd (by rw [h.1]) hv
    refine ⟨?_, ?_⟩
    · refine h1.trans ?_
      rw [e1]
      unfold update
      rw [List.map_cons, List.mem_cons]
      constructor
      · rintro ((h | h) | h)
        · exact Or.inl h
        · exact Or.inr (Or.inl h.symm)
        · exact Or.inr (Or.inr h)
      · rintro (h | (h | h))
        · exact Or.inl (Or.inl h)
        · exact Or.inl (Or.inr h.symm)
        · exact Or.inr h
    · refine h2.trans ?_
      rw [e2]
      simp only [List.mem_cons, exists_eq_or_imp]
      exact or_assoc

theorem output_spec (s : St) (cons : List (Lit × Bool)) (p : Lit) :
    (isTrue (output brave s root cons p.var) p = true ↔ (p, true) ∈ update brave s root cons) ∧
    (isEst (output brave s root cons p.var) p = true ↔ ∃ c ∈ cons, c.1 = p ∧ c.2 = !brave ∧ hit brave s p = false ∧ root < s.level p.var) := by
  obtain ⟨h1, h2⟩ := output_aux (brave := brave) (root := root) s cons (fun _ => 0) p
  refine ⟨h1.trans ?_, h2.trans ?_⟩
  · simp [isTrue]
  · simp [isEst]

/-! ### Invariant -/

/-- the candidate is not settled by the models so far, and `M` would settle it -/
def News (brave : Bool) (cand : List (Lit × Bool)) (M : Asg) : Prop := ∃ c ∈ cand, c.2 = !brave ∧ (M.sat c.1 ↔ brave = true)

structure Inv (learn : Bool) (n : Nat) (E : Asg → Prop) (brave : Bool) (step : Lit) (x0 x : Sys) : Prop where
  reach : Core.Sys.Reach learn n E (fun _ => true) x.sys
  found : x.sys.found = []
  recs : x.sys.recs = []
  orig : x.orig = x0.orig
  sub : ∀ C ∈ x.orig, C ∈ x.sys.orig
  asm : x.sys.asm = x0.sys.asm
  root : x.sys.st.root = x0.sys.st.root
  cand : x.cand.map Prod.fst = x0.cand.map Prod.fst
  /-- settled candidates -/
  old : ∀ c ∈ x.cand, c.2 = brave → ∃ M, Answer E x M ∧ (M.sat c.1 ↔ brave = true)
  /-- models that settle another candidate are not excluded -/
  new : ∀ M, Answer E x M → News brave x.cand M → ∀ C, (C ∈ x.sys.orig ∨ x.current = some C) → M.satC C
  con : ∀ C, x.current = some C → C.Nodup ∧ C.length < umax ∧ ∀ p ∈ C, p.var ≤ n

theorem answer_sys {M : Asg} (h : Inv learn n E brave step x0 x) (hM : Answer E x M) (hn : News brave x.cand M) : x.sys.todo E n M :=
  ⟨⟨⟨hM.1, hM.2.1, fun C hC => h.new M hM hn C (Or.inl hC)⟩, by rw [h.recs]; simp⟩, by rw [h.found]; simp⟩

theorem hit_model {s : St} (hb : s.Base) (ht : s.Total n) {p : Lit} (hp : p.var ≤ n) : hit brave s p = true ↔ (s.model.sat p ↔ brave = true) := by
  have h1 : s.isTrue p = true → s.model.sat p := fun h => Core.Sys.model_sat hb ((hb.isTrue_iff p).1 h)
  have h2 : s.isFalse p = true → ¬ s.model.sat p := fun h => (Asg.sat_neg _ p).1 (Core.Sys.model_sat hb ((hb.isFalse_iff p).1 h))
  have h3 := s.value_cases p
  have h4 := ht.all p.var hp
  unfold hit
  cases brave <;> simp <;> tauto

theorem Inv.start (h : Start learn n E brave root step x0) : Inv learn n E brave step x0 x0 := by
  refine ⟨h.reach, h.found, h.recs, rfl, fun C hC => by rw [← h.orig]; exact hC, rfl, rfl, rfl, fun c hc hf => ?_, fun M hM _ C hC => ?_, ?_⟩
  · rw [h.flags c hc] at hf; cases brave <;> simp at hf
  · rcases hC with hC | hC
    · exact hM.2.2.1 C (by rw [h.orig]; exact hC)
    · rw [h.current] at hC; simp at hC
  · intro C hC; rw [h.current] at hC; simp at hC

theorem neg_inj {p q : Lit} (h : p.neg = q.neg) : p = q := by
  have := congrArg Lit.neg h
  rwa [Lit.neg_neg, Lit.neg_neg] at this

/-- the constraint is well formed -/
theorem constraint_ok (hn : n < varMax) (h0 : Start learn n E brave root step x0) (h : Inv learn n E brave step x0 x) :
    (constraint brave x.sys.st root step x.cand).Nodup ∧ (constraint brave x.sys.st root step x.cand).length < umax ∧
    ∀ p ∈ constraint brave x.sys.st root step x.cand, p.var ≤ n := by
  have hvars : ∀ c ∈ x.cand, c.1.var ≤ n := fun c hc => by
    have : c.1 ∈ x0.cand.map Prod.fst := by rw [← h.cand]; exact List.mem_map_of_mem hc
    obtain ⟨c', h1, h2⟩ := List.mem_map.1 this
    rw [← h2]; exact h0.vars c' h1
  refine ⟨?_, ?_, ?_⟩
  · unfold constraint
    refine List.nodup_cons.2 ⟨fun hm => ?_, ?_⟩
    · have : step.neg ∈ constraint brave x.sys.st root step x.cand := by unfold constraint; exact List.mem_cons_of_mem _ hm
      obtain ⟨c, hc, hr⟩ := List.mem_filterMap.1 hm
      rw [round_con] at hr
      split at hr
      · simp at hr
      · rename_i hl
        simp only [Option.some.injEq] at hr
        have hv : c.1.var = step.var := by
          have := congrArg Lit.var hr
          rw [Lit.neg_var] at this
          cases brave <;> simpa using this
        rcases h0.step with rfl | ⟨_, _, hs⟩
        · apply hl; right; right
          rw [hv]
          have hb := (h.reach.inv (by assumption)).ok.inv.base
          unfold St.level; show (x.sys.db.st.cell 0).lev = 0; rw [hb.c0]
        · have : c.1 ∈ x0.cand.map Prod.fst := by rw [← h.cand]; exact List.mem_map_of_mem hc
          obtain ⟨c', h1, h2⟩ := List.mem_map.1 this
          exact hs c' h1 (by rw [h2]; exact hv)
    · have hnd : (x.cand.map Prod.fst).Nodup := by rw [h.cand]; exact h0.nodup
      have hnd : x.cand.Pairwise fun a b => a.1 ≠ b.1 := List.pairwise_map.1 hnd
      refine List.Pairwise.filterMap _ ?_ hnd
      intro a b hab p hp q hq e
      rw [round_con] at hp hq
      split at hp <;> simp at hp
      split at hq <;> simp at hq
      subst hp hq
      cases brave
      · exact hab (neg_inj (by simpa using e))
      · exact hab (by simpa using e)
  · unfold constraint
    have h1 := List.length_filterMap_le (fun c => (round brave x.sys.st root c).2.1) x.cand
    have h2 : x.cand.length = x0.cand.length := by have := congrArg List.length h.cand; simpa using this
    have := h0.len
    simp; omega
  · intro p hp
    rcases mem_constraint.1 hp with rfl | ⟨c, hc, _, _, _, rfl⟩
    · rw [Lit.neg_var]
      rcases h0.step with rfl | hs
      · exact Nat.zero_le _
      · exact hs.2.1
    · have := hvars c hc
      cases brave
      · simpa [Lit.neg_var] using this
      · simpa using this

theorem Inv.next (hn : n < varMax) (h0 : Start learn n E brave root step x0) (h : Inv learn n E brave step x0 x) {y : Sys}
    (hs : Step learn n E brave root step x y) : Inv learn n E brave step x0 y := by
  cases hs with
  | solver z hz h1 h2 h3 h4 h5 =>
    refine ⟨h.reach.step hz, h3, h4, h.orig, fun C hC => by show C ∈ z.orig; rw [h1]; exact h.sub C hC, h2.trans h.asm, h5.trans h.root, h.cand, ?_, ?_, h.con⟩
    · intro c hc hf
      obtain ⟨M, hM, hh⟩ := h.old c hc hf
      exact ⟨M, by unfold Answer at *; rw [show ({ x with sys := z } : Sys).sys.asm = x.sys.asm from h2]; exact hM, hh⟩
    · intro M hM hw C hC
      unfold Answer at hM; rw [show ({ x with sys := z } : Sys).sys.asm = x.sys.asm from h2] at hM
      exact h.new M hM hw C (by rw [← h1]; exact hC)
  | model ht hE hc =>
    have hi := h.reach.inv hn
    have hb := hi.ok.inv.base
    have hvars : ∀ c ∈ x.cand, c.1.var ≤ n := fun c hc => by
      have : c.1 ∈ x0.cand.map Prod.fst := by rw [← h.cand]; exact List.mem_map_of_mem hc
      obtain ⟨c', h1, h2⟩ := List.mem_map.1 this
      rw [← h2]; exact h0.vars c' h1
    refine ⟨h.reach, h.found, h.recs, h.orig, h.sub, h.asm, h.root, ?_, ?_, ?_, ?_⟩
    · rw [← h.cand]
      show (update brave x.sys.st root x.cand).map Prod.fst = _
      unfold update
      rw [List.map_map]
      exact List.map_congr_left fun c _ => round_fst ..
    · intro c hc hf
      obtain ⟨c', hm, h1, h2⟩ := mem_update.1 hc
      by_cases h3 : c'.2 = brave
      · rw [← h1]; exact h.old c' hm h3
      · by_cases h4 : hit brave x.sys.st c'.1 = true
        · rw [← h1]
          obtain ⟨m1, _⟩ := Core.Sys.C15_model hn h.reach ht hE
          exact ⟨x.sys.st.model, ⟨m1.1, m1.2.1, fun C hC => m1.2.2.1 C (h.sub C hC), m1.2.2.2⟩, (hit_model hb ht (hvars c' hm)).1 h4⟩
        · rw [if_neg (by tauto), hf] at h2
          cases brave <;> simp at h2
    · intro M hM ⟨c, hc, hf, hw⟩ C hC
      obtain ⟨c', hm, h1, h2⟩ := mem_update.1 hc
      have hnot : ¬ (c'.2 = brave ∨ hit brave x.sys.st c'.1 = true) := by
        intro hh
        rw [if_pos hh, hf] at h2
        cases brave <;> simp at h2
      have hf' : c'.2 = !brave := by
        have : ¬ c'.2 = brave := fun e => hnot (Or.inl e)
        cases hh : c'.2 <;> cases hb : brave <;> simp_all
      have hnews : News brave x.cand M := ⟨c', hm, hf', by rw [h1]; exact hw⟩
      have hM' : Answer E x M := hM
      have hold := h.new M hM' hnews
      rcases hC with hC | hC
      · exact hold C (Or.inl hC)
      · simp only [Option.some.injEq] at hC
        subst hC
        by_cases hl : x.sys.st.level c'.1.var = 0
        · -- a literal of level 0 settles nothing new
          exfalso
          have htd := answer_sys h hM' hnews
          have hz := hi.zero M htd
          have hz' : ∀ q, x.sys.st.tl q → x.sys.st.level q.var = 0 → M.sat q := by
            rintro q (rfl | hq) hl
            · exact hM.1
            · exact hz q hq hl
          have h3 := x.sys.st.value_cases c'.1
          have h4 := ht.all c'.1.var (hvars c' hm)
          have h5 : hit brave x.sys.st c'.1 = false := by
            cases hh : hit brave x.sys.st c'.1
            · rfl
            · exact absurd (Or.inr hh) hnot
          rw [← h1] at hw
          unfold hit at h5
          cases hbr : brave with
          | true =>
            subst hbr
            have hf : x.sys.st.isFalse c'.1 = true := by simp at h5; rcases h3 with h | h | h; exact absurd h h4; rw [h5] at h; simp at h; exact h
            have := hz' c'.1.neg ((hb.isFalse_iff _).1 hf) (by rw [Lit.neg_var]; exact hl)
            exact (Asg.sat_neg M _).1 this (hw.2 rfl)
          | false =>
            subst hbr
            have hf : x.sys.st.isTrue c'.1 = true := by simp at h5; rcases h3 with h | h | h; exact absurd h h4; exact h; rw [h5] at h; simp at h
            have := hz' c'.1 ((hb.isTrue_iff _).1 hf) hl
            exact absurd (hw.1 this) (by simp)
        · refine ⟨_, mem_constraint.2 (Or.inr ⟨c', hm, hf', ?_, hl, rfl⟩), ?_⟩
          · cases hh : hit brave x.sys.st c'.1
            · rfl
            · exact absurd (Or.inr hh) hnot
          · rw [← h1] at hw
            cases hbr : brave with
            | true => subst hbr; simpa using hw
            | false => subst hbr; simp only [Bool.false_eq_true, if_false]; exact (Asg.sat_neg M _).2 (fun e => absurd (hw.1 e) (by simp))
    · intro C hC
      simp only [Option.some.injEq] at hC
      subst hC
      exact constraint_ok hn h0 h
  | integrate C id lr hc hid hcf =>
    obtain ⟨k1, k2, k3⟩ := h.con C hc
    have hst := Core.Sys.Step.clause (learn := learn) (n := n) (E := E) (P := fun _ => true) C id false lr false hcf h.found h.recs hid k3 k2 (Or.inr (Or.inl k1))
    have hi := h.reach.inv hn
    have hr : (x.sys.db.createPrepared learn (Prep.prepareVec x.sys.st C false) id false lr false {}).1.st.root = x.sys.st.root := by
      have hcore : ∀ M, ({ x.sys with orig := C :: x.sys.orig, prob := id :: x.sys.prob } : Core.Sys).core E M → x.sys.core E M := fun M m =>
        ⟨⟨m.1.1, m.1.2.1, fun D hD => m.1.2.2 D (List.mem_cons_of_mem _ hD)⟩, m.2⟩
      obtain ⟨r1, r2⟩ := Core.Sys.retheory (y := { x.sys with orig := C :: x.sys.orig, prob := id :: x.sys.prob }) hi.zero hi.ok
        (fun q hq hl => ⟨hq, hl⟩) hcore (fun M m => ⟨hcore M m.1, m.2⟩)
      exact (Core.Sys.prep_created (f := {}) (shared := false) (lr := lr) (implicit := false) r1 (fun _ m => m.2) (hi.lvOk hn) hcf hid k2
        (Or.inr (Or.inl k1)) (fun M m => m.1.1.2.2 C (List.mem_cons_self ..))).1.root
    refine ⟨h.reach.step hst, h.found, h.recs, h.orig, fun C hC => List.mem_cons_of_mem _ (h.sub C hC), h.asm, hr.trans h.root, h.cand, h.old, ?_, ?_⟩
    · intro M hM hw D hD
      rcases hD with hD | hD
      · rcases List.mem_cons.1 hD with rfl | hD
        · exact h.new M hM hw _ (Or.inr hc)
        · exact h.new M hM hw D (Or.inl hD)
      · simp at hD
    · intro D hD; simp at hD

theorem Reach.inv (hn : n < varMax) (h0 : Start learn n E brave root step x0) (h : Reach learn n E brave root step x0 x) : Inv learn n E brave step x0 x := by
  induction h with
  | init => exact Inv.start h0
  | step _ hs ih => exact ih.next hn h0 hs

theorem answer_eq (h : Inv learn n E brave step x0 x) (M : Asg) : Answer E x M ↔ Answer E x0 M := by
  unfold Answer; rw [h.orig, h.asm]

/-- **C18 (final answer).** When the solver reports that there are no more models, the flagged candidates are exactly the brave
(cautious) consequences of the problem under the assumptions. -/
theorem C18_final (hn : n < varMax) (h0 : Start learn n E brave root step x0) (h : Reach learn n E brave root step x0 x)
    (hu : Core.Sys.Unsat learn n E x.sys) : ∀ c ∈ x.cand, (c.2 = true ↔ Consequence brave E x0 c.1) := by
  have hi := h.inv hn h0
  have hno : ∀ M, Answer E x M → ¬ News brave x.cand M := fun M hM hw =>
    Core.Sys.unsat_dead hn (hi.reach.inv hn) hu M (answer_sys hi hM hw) hM.2.2.2
  intro c hc
  unfold Consequence
  cases hbr : brave with
  | true =>
    subst hbr
    simp only [if_true]
    constructor
    · intro hf
      obtain ⟨M, hM, hw⟩ := hi.old c hc hf
      exact ⟨M, (answer_eq hi M).1 hM, hw.2 rfl⟩
    · rintro ⟨M, hM, hs⟩
      by_contra hf
      exact hno M ((answer_eq hi M).2 hM) ⟨c, hc, by simpa using hf, by simpa using hs⟩
  | false =>
    subst hbr
    simp only [Bool.false_eq_true, if_false]
    constructor
    · intro hf M hM
      by_contra hs
      exact hno M ((answer_eq hi M).2 hM) ⟨c, hc, by simpa using hf, by simpa using hs⟩
    · intro hall
      by_contra hf
      obtain ⟨M, hM, hw⟩ := hi.old c hc (by simpa using hf)
      exact absurd (hw.1 (hall M ((answer_eq hi M).1 hM))) (by simp)

/-- **C18 (bounds).** With every reported model: a literal reported as brave consequence is one, a literal that is neither reported nor
marked as open is none; a cautious consequence is reported, and a literal reported and not marked as open is one. -/
theorem C18_bounds (hn : n < varMax) (h0 : Start learn n E brave root step x0) (h : Reach learn n E brave root step x0 x)
    (ht : x.sys.st.Total n) (hE : E x.sys.st.model) (hc : x.current = none) : ∀ p ∈ x0.cand.map Prod.fst,
    (brave = true → (isTrue (output brave x.sys.st root x.cand p.var) p = true → Consequence brave E x0 p) ∧
      (isTrue (output brave x.sys.st root x.cand p.var) p = false → isEst (output brave x.sys.st root x.cand p.var) p = false → ¬ Consequence brave E x0 p)) ∧
    (brave = false → (Consequence brave E x0 p → isTrue (output brave x.sys.st root x.cand p.var) p = true) ∧
      (isDef false false (output brave x.sys.st root x.cand p.var) p = true → Consequence brave E x0 p)) := by
  intro p hp
  have hi := h.inv hn h0
  have hi' := hi.next hn h0 (.model (root := root) (step := step) ht hE hc)
  have hsi := hi.reach.inv hn
  have hb := hsi.ok.inv.base
  rw [← hi.cand] at hp
  obtain ⟨⟨p', f⟩, hcm, rfl⟩ := List.mem_map.1 hp
  dsimp only
  have hpv : p'.var ≤ n := by
    have : p' ∈ x0.cand.map Prod.fst := by rw [← hi.cand]; exact List.mem_map_of_mem hcm
    obtain ⟨c', h1, h2⟩ := List.mem_map.1 this
    rw [← h2]; exact h0.vars c' h1
  have hcand : (round brave x.sys.st root (p', f)).1 = (p', if f = brave ∨ hit brave x.sys.st p' = true then brave else !brave) :=
    Prod.ext (round_fst ..) (round_flag ..)
  have hcu : (p', if f = brave ∨ hit brave x.sys.st p' = true then brave else !brave) ∈ update brave x.sys.st root x.cand := by
    rw [← hcand]; exact List.mem_map_of_mem hcm
  have huniq : ∀ g, (p', g) ∈ x.cand → g = f := by
    intro g hg
    have hnd : (x.cand.map Prod.fst).Nodup := by rw [hi.cand]; exact h0.nodup
    have := List.inj_on_of_nodup_map hnd hg hcm rfl
    exact (Prod.ext_iff.1 this).2
  have huniq' : ∀ g, (p', g) ∈ update brave x.sys.st root x.cand → g = if f = brave ∨ hit brave x.sys.st p' = true then brave else !brave := by
    intro g hg
    obtain ⟨c', h1, h2, h3⟩ := mem_update.1 hg
    have : c' = (p', f) := by
      have hcc : (p', c'.2) ∈ x.cand := by rw [← show c'.1 = p' from h2]; exact h1
      exact Prod.ext h2 (huniq _ hcc)
    rw [this] at h3
    exact h3
  obtain ⟨o1, o2⟩ := output_spec (brave := brave) (root := root) x.sys.st x.cand p'
  -- literals of the root level are fixed
  have hfix : ∀ q, x.sys.st.tl q → x.sys.st.level q.var ≤ root → ∀ M, Answer E x M → News brave x.cand M → M.sat q := by
    intro q hq hl M hM hw
    have htd := answer_sys hi hM hw
    refine hsi.ok.inv.sound.impl_tl hq (M := M) ⟨htd, hsi.zero M htd⟩ hl fun i j1 j2 => hM.2.2.2 _ (hsi.root i j1 ?_)
    have := h0.root
    rw [hi.root]; omega
  have hset : x.sys.st.isTrue p' = true ∨ x.sys.st.isFalse p' = true := by
    have h1 := x.sys.st.value_cases p'
    have h2 := ht.all p'.var hpv
    tauto
  refine ⟨?_, ?_⟩
  · rintro rfl
    refine ⟨fun hT => ?_, fun hT hO => ?_⟩
    · have := o1.1 hT
      obtain ⟨M, hM, hw⟩ := hi'.old _ this rfl
      exact ⟨M, (answer_eq hi' M).1 hM, hw.2 rfl⟩
    · rintro ⟨M, hM, hs⟩
      have hM := (answer_eq hi M).2 hM
      have hf : ¬ (f = true ∨ hit true x.sys.st p' = true) := by
        intro hh
        rw [if_pos hh] at hcu
        rw [o1.2 hcu] at hT; simp at hT
      have hf1 : f = false := by
        cases f
        · rfl
        · exact absurd (Or.inl rfl) hf
      have hh : hit true x.sys.st p' = false := Bool.eq_false_iff.2 (fun e => hf (Or.inr e))
      have hlev : x.sys.st.level p'.var ≤ root := by
        by_contra hl
        rw [o2.2 ⟨_, hcm, rfl, hf1, hh, by omega⟩] at hO; simp at hO
      have hfl : x.sys.st.isFalse p' = true := by
        rcases hset with hs | hs
        · unfold hit at hh; simp [hs] at hh
        · exact hs
      exact (Asg.sat_neg M _).1 (hfix p'.neg ((hb.isFalse_iff _).1 hfl) (by rw [Lit.neg_var]; exact hlev) M hM ⟨_, hcm, hf1, by simpa using hs⟩) hs
  · rintro rfl
    refine ⟨fun hall => ?_, fun hD M hM => ?_⟩
    · by_contra hT
      have hf : f = false ∨ hit false x.sys.st p' = true := by
        by_contra hh
        rw [if_neg hh] at hcu
        exact hT (o1.2 hcu)
      rw [if_pos hf] at hcu
      obtain ⟨M, hM, hw⟩ := hi'.old _ hcu rfl
      exact absurd (hw.1 (hall M ((answer_eq hi' M).1 hM))) (by simp)
    · have hM := (answer_eq hi M).2 hM
      unfold isDef at hD
      simp only [Bool.and_eq_true, Bool.or_eq_true, Bool.false_eq_true, false_or, Bool.not_eq_true'] at hD
      obtain ⟨hT, hO⟩ := hD
      have := huniq' true (o1.1 hT)
      have hf : ¬ (f = false ∨ hit false x.sys.st p' = true) := by intro hh; rw [if_pos hh] at this; simp at this
      have hf1 : f = true := by
        cases f
        · exact absurd (Or.inl rfl) hf
        · rfl
      have hh : hit false x.sys.st p' = false := Bool.eq_false_iff.2 (fun e => hf (Or.inr e))
      have hlev : x.sys.st.level p'.var ≤ root := by
        by_contra hl
        rw [o2.2 ⟨_, hcm, rfl, hf1, hh, by omega⟩] at hO; simp at hO
      have htr : x.sys.st.isTrue p' = true := by
        rcases hset with hs | hs
        · exact hs
        · unfold hit at hh; simp [hs] at hh
      by_contra hs
      exact hs (hfix p' ((hb.isTrue_iff _).1 htr) hlev M hM ⟨_, hcm, hf1, by simpa using hs⟩)

/-! ### Progress -/

/-- number of settled candidates -/
def settled (brave : Bool) (cand : List (Lit × Bool)) : Nat := cand.countP (fun c => c.2 == brave)

theorem settled_update (s : St) (cand : List (Lit × Bool)) : settled brave cand ≤ settled brave (update brave s root cand) ∧
    ((∃ c ∈ cand, c.2 = !brave ∧ hit brave s c.1 = true) → settled brave cand < settled brave (update brave s root cand)) := by
  induction cand with
  | nil => simp [settled, update]
  | cons c r ih =>
    unfold settled update at *
    have hf := round_flag (brave := brave) (root := root) s c
    rw [List.map_cons, List.countP_cons, List.countP_cons]
    have h1 : (c.2 == brave) = true → (((round brave s root c).1).2 == brave) = true := by
      intro h; rw [hf, if_pos (Or.inl (by simpa using h))]; simp
    refine ⟨?_, ?_⟩
    · by_cases h : (c.2 == brave) = true
      · rw [if_pos h, if_pos (h1 h)]; omega
      · rw [if_neg h]; omega
    · rintro ⟨c', hc, h2, h3⟩
      rcases List.mem_cons.1 hc with rfl | hc
      · rw [if_neg (by rw [h2]; cases brave <;> simp), if_pos (by rw [hf, if_pos (Or.inr h3)]; simp)]; omega
      · have := ih.2 ⟨c', hc, h2, h3⟩
        by_cases h : (c.2 == brave) = true
        · rw [if_pos h, if_pos (h1 h)]; omega
        · rw [if_neg h]; omega

theorem Reach.prog (hn : n < varMax) (h0 : Start learn n E brave root step x0) (h : Reach learn n E brave root step x0 x) :
    x.models ≤ settled brave x.cand + 1 ∧
    (x.models ≠ 0 → ∀ M, Answer E x M → (∀ C, (C ∈ x.sys.orig ∨ x.current = some C) → M.satC C) → News brave x.cand M) := by
  induction h with
  | init => rw [h0.models]; exact ⟨by omega, fun h => absurd rfl h⟩
  | @step x y hr hs ih =>
    have hi := hr.inv hn h0
    cases hs with
    | solver z hz h1 h2 h3 h4 h5 =>
      refine ⟨ih.1, fun hm M hM hC => ih.2 hm M ?_ fun C hc => hC C ?_⟩
      · unfold Answer at hM; rw [show ({ x with sys := z } : Sys).sys.asm = x.sys.asm from h2] at hM; exact hM
      · show C ∈ z.orig ∨ _
        rw [h1]; exact hc
    | model ht hE hc =>
      have hb := (hi.reach.inv hn).ok.inv.base
      refine ⟨?_, fun _ M hM hC => ?_⟩
      · show x.models + 1 ≤ settled brave (update brave x.sys.st root x.cand) + 1
        obtain ⟨s1, s2⟩ := settled_update (brave := brave) (root := root) x.sys.st x.cand
        by_cases hm : x.models = 0
        · omega
        · obtain ⟨m1, _⟩ := Core.Sys.C15_model hn hi.reach ht hE
          have hA : Answer E x x.sys.st.model := ⟨m1.1, m1.2.1, fun C hC => m1.2.2.1 C (hi.sub C hC), m1.2.2.2⟩
          obtain ⟨c, hcm, hf, hw⟩ := ih.2 hm _ hA (fun C hC => by
            rcases hC with hC | hC
            · exact m1.2.2.1 C hC
            · rw [hc] at hC; simp at hC)
          have hcv : c.1.var ≤ n := by
            have : c.1 ∈ x0.cand.map Prod.fst := by rw [← hi.cand]; exact List.mem_map_of_mem hcm
            obtain ⟨c', h1, h2⟩ := List.mem_map.1 this
            rw [← h2]; exact h0.vars c' h1
          have := s2 ⟨c, hcm, hf, (hit_model hb ht hcv).2 hw⟩
          have := ih.1
          omega
      · obtain ⟨p, hp, hs⟩ := hC _ (Or.inr rfl)
        rcases mem_constraint.1 hp with rfl | ⟨c, hc, hf, hh, _, rfl⟩
        · exfalso
          refine (Asg.sat_neg M _).1 hs ?_
          rcases h0.step with rfl | hst
          · exact hM.1
          · exact hM.2.2.2 _ (by show _ ∈ x.sys.asm; rw [hi.asm]; exact hst.1)
        · refine ⟨(c.1, !brave), mem_update.2 ⟨c, hc, rfl, ?_⟩, rfl, ?_⟩
          · rw [if_neg]
            rintro (h | h)
            · rw [hf] at h; cases brave <;> simp at h
            · rw [hh] at h; simp at h
          · cases hbr : brave with
            | true => subst hbr; simpa using hs
            | false =>
              subst hbr
              simp only [Bool.false_eq_true, if_false] at hs
              simpa using (Asg.sat_neg M _).1 hs
    | integrate C id lr hc hid hcf =>
      refine ⟨ih.1, fun hm M hM hC => ih.2 hm M hM fun D hD => ?_⟩
      rcases hD with hD | hD
      · exact hC D (Or.inl (List.mem_cons_of_mem _ hD))
      · rw [hc] at hD
        simp only [Option.some.injEq] at hD
        subst hD
        exact hC C (Or.inl (List.mem_cons_self ..))

/-- **C18 (progress).** Every model reported after the first one settles a further candidate; so at most one more model than there
are candidates is reported. -/
theorem C18_progress (hn : n < varMax) (h0 : Start learn n E brave root step x0) (h : Reach learn n E brave root step x0 x) :
    x.models ≤ x0.cand.length + 1 ∧
    (x.models ≠ 0 → x.current = none → x.sys.st.Total n → E x.sys.st.model → ∃ c ∈ x.cand, c.2 = !brave ∧ (x.sys.st.model.sat c.1 ↔ brave = true)) := by
  have hi := h.inv hn h0
  obtain ⟨h1, h2⟩ := h.prog hn h0
  have hl : x.cand.length = x0.cand.length := by have := congrArg List.length hi.cand; simpa using this
  have : settled brave x.cand ≤ x.cand.length := List.countP_le_length
  refine ⟨by omega, fun hm hc ht hE => ?_⟩
  obtain ⟨m1, _⟩ := Core.Sys.C15_model hn hi.reach ht hE
  refine h2 hm _ ⟨m1.1, m1.2.1, fun C hC => m1.2.2.1 C (hi.sub C hC), m1.2.2.2⟩ fun C hC => ?_
  rcases hC with hC | hC
  · exact m1.2.2.1 C hC
  · rw [hc] at hC; simp at hC

/-- **C18 (constraints).** The constraint of a later model implies the constraint of an earlier one (for assignments that make the
literals of level 0 true), so constraints of earlier models are not needed any more. -/
theorem C18_stronger {s t : St} {cand : List (Lit × Bool)} {M : Asg} (hz : ∀ c ∈ cand, s.level c.1.var = 0 → t.level c.1.var = 0)
    (h : M.satC (constraint brave t root step (update brave s root cand))) : M.satC (constraint brave s root step cand) := by
  obtain ⟨p, hp, hs⟩ := h
  rcases mem_constraint.1 hp with rfl | ⟨c, hc, hf, hh, hl, rfl⟩
  · exact ⟨_, mem_constraint.2 (Or.inl rfl), hs⟩
  · obtain ⟨c', h1, h2, h3⟩ := mem_update.1 hc
    have hnot : ¬ (c'.2 = brave ∨ hit brave s c'.1 = true) := by
      intro e; rw [if_pos e, hf] at h3; cases brave <;> simp at h3
    rw [← h2] at hl hs
    refine ⟨_, mem_constraint.2 (Or.inr ⟨c', h1, ?_, ?_, fun e => hl (hz c' h1 e), rfl⟩), hs⟩
    · have : ¬ c'.2 = brave := fun e => hnot (Or.inl e)
      cases hh : c'.2 <;> cases hb : brave <;> simp_all
    · cases hh : hit brave s c'.1
      · rfl
      · exact absurd (Or.inr hh) hnot

/-! ### Concrete run: {1, 2}, candidates 1 and 2 -/

namespace Ex
open Core.Sys.Ex

def next (x : Sys) : Sys := { x with sys := Core.Sys.Ex.next x.sys }
def decide (x : Sys) (p : Lit) : Sys := { x with sys := x.sys.setSt (x.sys.st.decide' p) }
def undo (x : Sys) : Sys := { x with sys := x.sys.setSt (x.sys.st.undoUntil true 0 undoDefault) }
def model (brave : Bool) (x : Sys) : Sys :=
  { x with cand := update brave x.sys.st 0 x.cand, current := some (constraint brave x.sys.st 0 litTrue x.cand), models := x.models + 1 }
def integrate (x : Sys) (C : List Lit) (id : Nat) : Sys := { x with
  current := none
  sys := { x.sys with
    db := (x.sys.db.createPrepared true (Prep.prepareVec x.sys.st C false) id false false false {}).1, orig := C :: x.sys.orig, prob := id :: x.sys.prob } }

variable {b : Bool} {y x : Sys}

theorem r_next (h : Reach true 2 T b 0 litTrue y x) (hc : x.sys.st.conflict = []) (hs : (x.sys.db.propagate true 20).isSome = true)
    (hr : (next x).sys.st.root = x.sys.st.root ∧ x.sys.found = [] ∧ x.sys.recs = []) : Reach true 2 T b 0 litTrue y (next x) := by
  refine h.step ?_
  refine .solver (Core.Sys.Ex.next x.sys) ?_ rfl rfl hr.2.1 hr.2.2 hr.1
  unfold Core.Sys.Ex.next
  cases hh : x.sys.db.propagate true 20 with
  | none => rw [hh] at hs; simp at hs
  | some r => exact .propagate 20 r.1 r.2 hc hh

theorem r_decide (h : Reach true 2 T b 0 litTrue y x) (p : Lit) (hc : x.sys.st.conflict = []) (hf : x.sys.st.front = x.sys.st.trail.length)
    (hp : x.sys.st.value p.var = none) (hv : p.var ≤ 2) (hr : x.sys.found = [] ∧ x.sys.recs = [] ∧ (decide x p).sys.st.root = x.sys.st.root) :
    Reach true 2 T b 0 litTrue y (decide x p) :=
  h.step (.solver _ (.decide p hc hf hp hv) rfl rfl hr.1 hr.2.1 hr.2.2)

theorem r_undo (h : Reach true 2 T b 0 litTrue y x) (hr : x.sys.found = [] ∧ x.sys.recs = [] ∧ (undo x).sys.st.root = x.sys.st.root) :
    Reach true 2 T b 0 litTrue y (undo x) :=
  h.step (.solver _ (.undo 0) rfl rfl hr.1 hr.2.1 hr.2.2)

def st0 (b : Bool) : Sys := ⟨x1, [(pos 1, !b), (pos 2, !b)], none, [[pos 1, pos 2]], 0⟩
theorem start (b : Bool) : Start true 2 T b 0 litTrue (st0 b) :=
  ⟨r1, rfl, rfl, by cases b <;> decide +kernel, rfl, rfl, by cases b <;> decide, by cases b <;> decide, by cases b <;> decide, by cases b <;> decide,
   by cases b <;> decide +kernel, Or.inl rfl⟩

/-- brave consequences: the model {¬1, 2} -/
def b1 : Sys := next (decide (st0 true) (nega 1))
/-- next, 1 has to be true -/
def b2 : Sys := next (integrate (undo (model true b1)) [litFalse, pos 1] 1)
/-- the model {1, ¬2} -/
def b3 : Sys := next (decide b2 (nega 2))
/-- nothing is left -/
def b4 : Sys := integrate (undo (model true b3)) [litFalse] 2

theorem rb1 : Reach true 2 T true 0 litTrue (st0 true) b1 :=
  r_next (r_decide .init _ (by decide +kernel) (by decide +kernel) (by decide +kernel) (by decide +kernel) (by decide +kernel)) (by decide +kernel) (by decide +kernel) (by decide +kernel)
theorem tb1 : b1.sys.st.Total 2 := total (by decide +kernel) (by decide +kernel) (by decide +kernel)
theorem rb2 : Reach true 2 T true 0 litTrue (st0 true) b2 :=
  r_next ((r_undo (rb1.step (.model tb1 trivial (by decide +kernel))) (by decide +kernel)).step (.integrate _ 1 false (by decide +kernel) (by decide +kernel) (by decide +kernel)))
    (by decide +kernel) (by decide +kernel) (by decide +kernel)
theorem rb3 : Reach true 2 T true 0 litTrue (st0 true) b3 :=
  r_next (r_decide rb2 _ (by decide +kernel) (by decide +kernel) (by decide +kernel) (by decide +kernel) (by decide +kernel)) (by decide +kernel) (by decide +kernel) (by decide +kernel)
theorem tb3 : b3.sys.st.Total 2 := total (by decide +kernel) (by decide +kernel) (by decide +kernel)
theorem rb4 : Reach true 2 T true 0 litTrue (st0 true) b4 :=
  (r_undo (rb3.step (.model tb3 trivial (by decide +kernel))) (by decide +kernel)).step (.integrate _ 2 false (by decide +kernel) (by decide +kernel) (by decide +kernel))

end Ex

open Ex Core.Sys.Ex in
example : b4.cand = [(pos 1, true), (pos 2, true)] ∧ b4.models = 2 ∧ ∀ c ∈ b4.cand, (c.2 = true ↔ Consequence true T (st0 true) c.1) :=
  ⟨by decide +kernel, by decide +kernel, C18_final (by decide) (start true) rb4 (.root (by decide +kernel) (by decide +kernel))⟩
open Ex Core.Sys.Ex in
/-- after the first model: 2 is a consequence, 1 is open -/
example : (output true b1.sys.st 0 b1.cand 1, output true b1.sys.st 0 b1.cand 2) = (4, 1) := by decide +kernel
open Ex Core.Sys.Ex in
example := C18_bounds (by decide) (start true) rb1 tb1 trivial (by decide +kernel)
open Ex Core.Sys.Ex in
example := C18_progress (by decide) (start true) rb3
open Ex Core.Sys.Ex in
open Ex Core.Sys.Ex in
/-- cautious consequences: after the model {¬1, 2} only 2 remains, and one of the remaining has to be false -/
example : update false b1.sys.st 0 (st0 false).cand = [(pos 1, false), (pos 2, true)] ∧ constraint false b1.sys.st 0 litTrue (st0 false).cand = [litFalse, nega 2] := by
  decide +kernel
open Ex Core.Sys.Ex in
example : (Asg.satC (fun v => v == 1) (constraint true b3.sys.st 0 litTrue (update true b1.sys.st 0 b1.cand)) → Asg.satC (fun v => v == 1) (constraint true b1.sys.st 0 litTrue b1.cand)) :=
  C18_stronger (by decide +kernel)

end Cons
end Clasp.Core
