import Verif.Asp.UfsRun

/-! The reasons computed for an unfounded set (C29). No code is modelled in this file; it contains
specifications and proof devices only. -/

namespace Clasp.Ufs
open Clasp.Core

variable {g : UGraph} {isF : Lit → Bool} {s : St}

/-- Specification: `b` cannot be used to derive an atom from `U` of component `c` without using an atom from
`U` if all literals in `R` are false. -/
def Expl (g : UGraph) (U : List Nat) (c : Nat) (R : List Lit) (b : Nat) : Prop :=
  (g.body b).lit ∈ R ∨ (g.body b).scc = c ∧ ((g.body b).ext = false → ∃ p ∈ g.pre b, p ∈ U) ∧
    ((g.body b).ext = true → g.wsSum b (fun i => !R.contains (g.slit b i) && !ufsPos g U b i) < (g.body b).bound)

theorem Expl.mono (hg : GWf g) {U : List Nat} {c b : Nat} (hb : b ∈ g.bodies) {R R' : List Lit} (hR : ∀ q ∈ R, q ∈ R') (h : Expl g U c R b) : Expl g U c R' b := by
  rcases h with h | ⟨h1, h2, h3⟩
  · exact .inl (hR _ h)
  · refine .inr ⟨h1, h2, fun he => Int.lt_of_le_of_lt (wsSum_mono hg hb fun i _ hi => ?_) (h3 he)⟩
    simp only [Bool.and_eq_true, Bool.not_eq_true', List.contains_eq_mem, decide_eq_false_iff_not] at hi ⊢
    exact ⟨fun hx => hi.1 (hR _ hx), hi.2⟩

theorem range_sum {α : Type} (F : α → Int) : ∀ l : List α, ((List.range l.length).map fun i => (l[i]?.map F).getD 0).sum = (l.map F).sum
  | [] => rfl
  | x :: l => by
    rw [List.length_cons, List.range_succ_eq_map]
    simp only [List.map_cons, List.sum_cons, List.map_map]
    rw [← range_sum F l]
    rfl

theorem wsSum_lits (P : Lit → Bool) (b : Nat) : g.wsSum b (fun i => P (g.slit b i)) = ((g.subs b).map fun x => if P x.1 then x.2 else 0).sum := by
  rw [← range_sum]
  unfold UGraph.wsSum
  congr 1
  apply List.map_congr_left
  intro i hi
  have hi := List.mem_range.1 hi
  unfold UGraph.slit UGraph.weight
  simp only [List.getElem?_eq_getElem hi, Option.map_some, Option.getD_some]

theorem wsSum_pre (U : List Nat) (b : Nat) : g.wsSum b (ufsPos g U b) = ((g.body b).preds.map fun x => if U.contains x.1 then x.2 else 0).sum := by
  let T : List (Int × Option Nat) := (g.body b).preds.map (fun p => (p.2, some p.1)) ++ (g.body b).lits.map (fun x => (x.2, none))
  let F : Int × Option Nat → Int := fun x => match x.2 with
    | some p => if U.contains p then x.1 else 0
    | none => 0
  have h1 : (T.map F).sum = ((g.body b).preds.map fun x => if U.contains x.1 then x.2 else 0).sum := by
    have h0 : ∀ l : List (Lit × Int), ((l.map (fun x => (x.2, (none : Option Nat)))).map F).sum = 0 := by
      intro l
      induction l with
      | nil => rfl
      | cons x l ih => simp only [List.map_cons, List.sum_cons, ih]; rfl
    simp only [T, List.map_append, List.sum_append, h0, Int.add_zero]
    rw [List.map_map]
    rfl
  rw [← h1, ← range_sum F T]
  have hl : T.length = (g.subs b).length := by simp [T, UGraph.subs]
  unfold UGraph.wsSum
  rw [hl]
  congr 1
  apply List.map_congr_left
  intro i hi
  have hi := List.mem_range.1 hi
  unfold ufsPos UGraph.pr UGraph.weight UGraph.subs
  by_cases hlt : i < (g.body b).preds.length
  · have e1 : T[i]? = some (((g.body b).preds[i]).2, some ((g.body b).preds[i]).1) := by
      simp only [T]
      rw [List.getElem?_append_left (by simpa using hlt), List.getElem?_map, List.getElem?_eq_getElem hlt]; rfl
    rw [e1, List.getElem?_append_left (by simpa using hlt)]
    simp only [List.getElem?_map, List.getElem?_eq_getElem hlt, Option.map_some, Option.getD_some]
    rfl
  · have hge : (g.body b).preds.length ≤ i := Nat.le_of_not_lt hlt
    have e1 : (T[i]?.map F).getD 0 = 0 := by
      simp only [T]
      rw [List.getElem?_append_right (by simpa using hge)]
      simp only [List.getElem?_map, List.length_map]
      cases (g.body b).lits[i - (g.body b).preds.length]? <;> rfl
    rw [e1, List.getElem?_eq_none hge]
    rfl

/-- the loop of `isExternal` -/
theorem extLoop_spec (s : St) : ∀ (L : List (Nat × Int)) (S : Int), (∀ x ∈ L, 0 ≤ x.2) →
    let D := (L.map fun x => if inUfs g isF s x.1 then x.2 else 0).sum
    0 ≤ D ∧ (0 ≤ extLoop g isF s L S → extLoop g isF s L S = S - D) ∧ (extLoop g isF s L S < 0 → S - D < 0)
  | [], S, _ => by simp [extLoop]
  | p :: r, S, hw => by
    have hp := hw p (by simp)
    obtain ⟨h1, h2, h3⟩ := extLoop_spec s r (if inUfs g isF s p.1 then S - p.2 else S) (fun x hx => hw x (by simp [hx]))
    simp only [List.map_cons, List.sum_cons]
    unfold extLoop
    by_cases hS : S < 0
    · rw [if_pos hS]
      split <;> refine ⟨by omega, fun h => by omega, fun _ => by omega⟩
    · rw [if_neg hS]
      split <;> rename_i hu <;> simp only [hu, if_true, if_false, Bool.false_eq_true] at h2 h3 ⊢ <;>
        refine ⟨by omega, fun h => by have := h2 h; omega, fun h => by have := h3 h; omega⟩

theorem mem_addReasonLit {c : List Lit} {p q : Lit} : q ∈ addReasonLit c p ↔ q ∈ c ∨ q = p := by
  unfold addReasonLit
  split
  · rename_i hp
    exact ⟨.inl, fun h => h.elim (fun h => h) (fun e => e ▸ hp)⟩
  · simp

/-- the loop collecting false literals of an extended body -/
theorem addFalseLits_spec : ∀ (L : List (Lit × Int)) (S : Int) (c : List Lit), (∀ x ∈ L, 0 ≤ x.2) →
    let c' := addFalseLits isF L S c
    (∀ q ∈ c, q ∈ c') ∧ (∀ q ∈ c', q ∈ c ∨ isF q = true) ∧
    ((∀ x ∈ L, isF x.1 = true → x.1 ∈ c') ∨ S < (L.map fun x => if isF x.1 && c'.contains x.1 then x.2 else 0).sum)
  | [], S, c, _ => ⟨fun q h => h, fun q h => .inl h, .inl (by simp)⟩
  | (p, w) :: r, S, c, hw => by
    have hp := hw (p, w) (by simp)
    have hr : ∀ x ∈ r, 0 ≤ x.2 := fun x hx => hw x (by simp [hx])
    have hnn : ∀ (c' : List Lit) (l : List (Lit × Int)), (∀ x ∈ l, 0 ≤ x.2) → 0 ≤ (l.map fun x => if isF x.1 && c'.contains x.1 then x.2 else 0).sum := by
      intro c' l hl
      induction l with
      | nil => simp
      | cons x l ih =>
        have := ih (fun y hy => hl y (by simp [hy]))
        have hx := hl x (by simp)
        simp only [List.map_cons, List.sum_cons]
        split <;> omega
    unfold addFalseLits
    by_cases hc : (isF p && decide (0 ≤ S)) = true
    · rw [if_pos hc]
      rw [Bool.and_eq_true] at hc
      obtain ⟨h1, h2, h3⟩ := addFalseLits_spec r (S - w) (addReasonLit c p) hr
      have hpm := h1 p (mem_addReasonLit.2 (.inr rfl))
      refine ⟨fun q hq => h1 q (mem_addReasonLit.2 (.inl hq)), fun q hq => ?_, ?_⟩
      · rcases h2 q hq with h | h
        · rcases mem_addReasonLit.1 h with h | h
          · exact .inl h
          · exact .inr (h ▸ hc.1)
        · exact .inr h
      · rcases h3 with h3 | h3
        · left
          intro x hx hF
          rcases List.mem_cons.1 hx with e | hx
          · rw [e]; exact hpm
          · exact h3 x hx hF
        · right
          simp only [List.map_cons, List.sum_cons]
          have : (isF p && (addFalseLits isF r (S - w) (addReasonLit c p)).contains p) = true := by
            simp [hc.1, hpm]
          rw [this, if_pos rfl]; omega
    · rw [if_neg hc]
      obtain ⟨h1, h2, h3⟩ := addFalseLits_spec r S c hr
      refine ⟨h1, h2, ?_⟩
      by_cases hF : isF p = true
      · right
        have hS : S < 0 := by
          by_contra hS
          exact hc (by simp [hF]; omega)
        exact Int.lt_of_lt_of_le hS (hnn _ _ hw)
      · rcases h3 with h3 | h3
        · left
          intro x hx hx'
          rcases List.mem_cons.1 hx with e | hx
          · rw [e] at hx'; exact absurd hx' hF
          · exact h3 x hx hx'
        · right
          simp only [List.map_cons, List.sum_cons]
          have := Bool.eq_false_iff.2 hF
          rw [this]; simpa using h3

theorem wsSum_add3 (hg : GWf g) {b : Nat} (hb : b ∈ g.bodies) {f1 f2 f3 : Nat → Bool}
    (h : ∀ i < (g.subs b).length, (f1 i = true → f2 i = false ∧ f3 i = false) ∧ (f2 i = true → f3 i = false)) :
    g.wsSum b f1 + g.wsSum b f2 + g.wsSum b f3 ≤ g.wsSum b fun _ => true := by
  unfold UGraph.wsSum
  have : ∀ l : List Nat, (∀ i ∈ l, i < (g.subs b).length) →
      (l.map fun i => if f1 i then g.weight b i else 0).sum + (l.map fun i => if f2 i then g.weight b i else 0).sum +
      (l.map fun i => if f3 i then g.weight b i else 0).sum ≤ (l.map fun i => if true = true then g.weight b i else 0).sum := by
    intro l
    induction l with
    | nil => intro _; simp
    | cons i l ih =>
      intro hl
      have ih := ih fun j hj => hl j (by simp [hj])
      have hw := weight_nonneg hg hb i
      have hi := h i (hl i (by simp))
      simp only [List.map_cons, List.sum_cons, if_true]
      cases e1 : f1 i <;> cases e2 : f2 i <;> cases e3 : f3 i <;> simp [e1, e2, e3] at hi ⊢ <;> simp at ih <;> omega
  exact this _ fun i hi => List.mem_range.1 hi

/-- Proof device: what holds for the clause and `pickedExt_` while a reason is computed. -/
structure RS (g : UGraph) (isF : Lit → Bool) (U : List Nat) (c : Nat) (x : List Lit × List Nat) : Prop where
  fal : ∀ q ∈ x.1, isF q = true
  pick : ∀ b ∈ x.2, b ∈ g.bodies ∧ Expl g U c x.1 b

theorem addIfReason_spec (hg : GWf g) (hok : UfsOk s) (hsl : ∀ b ∈ g.bodies, (g.body b).ext = true → (s.bodies b).slack = slack0 g b)
    (hU : UnfSet g isF s.ufs) {c : Nat} (hcl : ∀ b ∈ g.bodies, (g.body b).ext = false → ∀ p ∈ g.pre b, isF (g.atom p).lit = true → isF (g.body b).lit = true)
    {x : List Lit × List Nat} (H : RS g isF (s.ufs.filter fun a => !isF (g.atom a).lit) c x) {a b : Nat} (ha : a ∈ s.ufs) (hac : (g.atom a).scc = c)
    (hb : b ∈ (g.atom a).bodies) (hbg : b ∈ g.bodies) :
    let U := s.ufs.filter fun a => !isF (g.atom a).lit
    let x' := addIfReason g isF s c x b
    RS g isF U c x' ∧ (∀ q ∈ x.1, q ∈ x'.1) ∧ Expl g U c x'.1 b := by
  intro U x'
  have hmem : ∀ p, p ∈ U ↔ p ∈ s.ufs ∧ isF (g.atom p).lit = false := by intro p; simp [U]
  have hin : ∀ p, inUfs g isF s p = U.contains p := by
    intro p
    rw [Bool.eq_iff_iff]
    unfold inUfs
    simp only [Bool.and_eq_true, Bool.not_eq_true', List.contains_eq_mem, decide_eq_true_eq, hmem]
    rw [hok.fl p]
  have hwp : ∀ y ∈ (g.body b).preds, 0 ≤ y.2 := fun y hy =>
    hg.wpos b hbg ((g.atom y.1).lit, y.2) (by unfold UGraph.subs; exact List.mem_append_left _ (List.mem_map.2 ⟨y, hy, rfl⟩))
  have hadd : isF (g.body b).lit = true → RS g isF U c (addReasonLit x.1 (g.body b).lit, x.2) := by
    intro hF
    refine ⟨fun q hq => ?_, fun b' hb' => ⟨(H.pick b' hb').1, (H.pick b' hb').2.mono hg (H.pick b' hb').1 fun q hq => mem_addReasonLit.2 (.inl hq)⟩⟩
    rcases mem_addReasonLit.1 hq with h | h
    · exact H.fal q h
    · exact h ▸ hF
  have hx' : x' = addIfReason g isF s c x b := rfl
  clear_value x'
  subst hx'
  unfold addIfReason
  dsimp only
  by_cases hA : (!(g.body b).ext || (g.body b).scc ≠ c) = true
  · rw [if_pos hA]
    by_cases hB : (isF (g.body b).lit && !decide ((g.body b).lit ∈ x.1) && (decide ((g.body b).scc ≠ c) || decide (0 ≤ extLoop g isF s (g.body b).preds 0))) = true
    · rw [if_pos hB]
      simp only [Bool.and_eq_true] at hB
      exact ⟨hadd hB.1.1, fun q hq => mem_addReasonLit.2 (.inl hq), .inl (mem_addReasonLit.2 (.inr rfl))⟩
    · rw [if_neg hB]
      refine ⟨H, fun q hq => hq, ?_⟩
      by_cases hR : (g.body b).lit ∈ x.1
      · exact .inl hR
      have hB' : isF (g.body b).lit = true → (g.body b).scc = c ∧ extLoop g isF s (g.body b).preds 0 < 0 := by
        intro hF
        by_contra hcon
        apply hB
        simp only [hF, hR, decide_false, Bool.not_false, Bool.and_self, Bool.true_and, Bool.or_eq_true, decide_eq_true_eq]
        by_cases hs : (g.body b).scc = c
        · right
          by_contra hlt
          exact hcon ⟨hs, by omega⟩
        · exact .inl hs
      have hscc : (g.body b).scc = c := by
        cases hF : isF (g.body b).lit with
        | true => exact (hB' hF).1
        | false => rw [← hac]; exact (hU a ha b hb hF).1
      have hext : (g.body b).ext = false := by
        simp only [Bool.or_eq_true, Bool.not_eq_true', decide_eq_true_eq] at hA
        exact hA.resolve_right fun h => h hscc
      refine .inr ⟨hscc, fun _ => ?_, fun he => (by rw [hext] at he; cases he)⟩
      by_contra hno
      have hF : isF (g.body b).lit = true := by
        by_contra hF
        have hF := Bool.eq_false_iff.2 hF
        obtain ⟨p, hp, h⟩ := (hU a ha b hb hF).2.1 hext
        by_cases hpF : isF (g.atom p).lit = true
        · rw [hcl b hbg hext p hp hpF] at hF; cases hF
        · exact hno ⟨p, hp, (hmem p).2 ⟨h.resolve_right hpF, Bool.eq_false_iff.2 hpF⟩⟩
      have hlt := (hB' hF).2
      have hD : ∀ l : List (Nat × Int), (∀ y ∈ l, y.1 ∉ U) → (l.map fun y => if inUfs g isF s y.1 then y.2 else 0).sum = 0 := by
        intro l
        induction l with
        | nil => intro _; rfl
        | cons y l ih =>
          intro hl
          have h1 := ih fun z hz => hl z (by simp [hz])
          have h2 : U.contains y.1 = false := by simpa using hl y (by simp)
          rw [List.map_cons, List.sum_cons, h1, hin, h2]
          rfl
      have h0 := hD (g.body b).preds fun y hy hyU => hno ⟨y.1, List.mem_map.2 ⟨y, hy, rfl⟩, hyU⟩
      have := (extLoop_spec (g := g) (isF := isF) s (g.body b).preds 0 hwp).2.2 hlt
      rw [h0] at this; omega
  · rw [if_neg hA]
    simp only [Bool.or_eq_true, Bool.not_eq_true', decide_eq_true_eq, not_or, Bool.not_eq_false] at hA
    obtain ⟨hext, hscc⟩ := hA
    have hscc : (g.body b).scc = c := by simpa using hscc
    by_cases hP : b ∈ x.2
    · rw [if_pos hP]
      exact ⟨H, fun q hq => hq, (H.pick b hP).2⟩
    rw [if_neg hP]
    have hS := hsl b hbg hext
    have hL := extLoop_spec (g := g) (isF := isF) s (g.body b).preds (s.bodies b).slack hwp
    generalize hT : extLoop g isF s (g.body b).preds (s.bodies b).slack = T at *
    simp only [hin] at hL
    rw [← wsSum_pre U b, hS] at hL
    obtain ⟨_, hL1, hL2⟩ := hL
    unfold slack0 at hL1 hL2
    have hpos : ∀ i, ufsPos g U b i = true → isF (g.slit b i) = false := by
      intro i hi
      unfold ufsPos at hi
      cases hpr : g.pr b i with
      | none => rw [hpr] at hi; cases hi
      | some p =>
        rw [hpr] at hi
        rw [slit_pr hpr]
        exact ((hmem p).1 (by simpa using hi)).2
    have fin : ∀ R : List Lit, (∀ q ∈ x.1, q ∈ R) → (∀ q ∈ R, isF q = true) → Expl g U c R b → RS g isF U c (R, x.2 ++ [b]) ∧ (∀ q ∈ x.1, q ∈ R) ∧ Expl g U c R b := by
      intro R h1 h2 h3
      refine ⟨⟨h2, fun b' hb' => ?_⟩, h1, h3⟩
      rcases List.mem_append.1 hb' with h | h
      · exact ⟨(H.pick b' h).1, (H.pick b' h).2.mono hg (H.pick b' h).1 h1⟩
      · rw [List.mem_singleton] at h; rw [h]; exact ⟨hbg, h3⟩
    by_cases hT0 : 0 ≤ T
    · rw [if_pos hT0]
      have hTe := hL1 hT0
      by_cases hF : isF (g.body b).lit = true
      · rw [if_pos hF]
        exact fin _ (fun q hq => mem_addReasonLit.2 (.inl hq)) (hadd hF).fal (.inl (mem_addReasonLit.2 (.inr rfl)))
      · rw [if_neg hF]
        obtain ⟨h1, h2, h3⟩ := addFalseLits_spec (isF := isF) (g.subs b) T x.1 (hg.wpos b hbg)
        refine fin _ h1 (fun q hq => (h2 q hq).elim (H.fal q) fun h => h) ?_
        refine .inr ⟨hscc, fun h => (by rw [hext] at h; cases h), fun _ => ?_⟩
        generalize addFalseLits isF (g.subs b) T x.1 = R at h1 h2 h3 ⊢
        rcases h3 with h3 | h3
        · refine Int.lt_of_le_of_lt (wsSum_mono hg hbg fun i hi h => ?_) ((hU a ha b hb (Bool.eq_false_iff.2 hF)).2.2 hext)
          simp only [Bool.and_eq_true, Bool.not_eq_true', List.contains_eq_mem, decide_eq_false_iff_not] at h ⊢
          have hnF : isF (g.slit b i) = false := by
            by_contra hc
            have hc : isF (g.slit b i) = true := by simpa using hc
            apply h.1
            have hsl : g.slit b i = ((g.subs b)[i]).1 := by unfold UGraph.slit; rw [List.getElem?_eq_getElem hi]; rfl
            rw [hsl]
            exact h3 _ (List.getElem_mem hi) (by rw [← hsl]; exact hc)
          refine ⟨hnF, ?_⟩
          have h4 := h.2
          unfold ufsPos at h4 ⊢
          cases hpr : g.pr b i with
          | none => rfl
          | some p =>
            rw [hpr] at h4
            rw [slit_pr hpr] at hnF
            simp only [List.contains_eq_mem, decide_eq_false_iff_not] at h4 ⊢
            exact fun hp => h4 ((hmem p).2 ⟨hp, hnF⟩)
        · rw [← wsSum_lits (fun q => isF q && R.contains q) b] at h3
          have := wsSum_add3 hg hbg (f1 := fun i => !R.contains (g.slit b i) && !ufsPos g U b i) (f2 := ufsPos g U b)
            (f3 := fun i => isF (g.slit b i) && R.contains (g.slit b i)) (fun i _ => ⟨fun h => ?_, fun h => ?_⟩)
          · omega
          · simp only [Bool.and_eq_true, Bool.not_eq_true'] at h
            rw [h.1]; exact ⟨h.2, by simp⟩
          · rw [hpos i h]; rfl
    · rw [if_neg hT0]
      refine fin _ (fun q hq => hq) H.fal (.inr ⟨hscc, fun h => (by rw [hext] at h; cases h), fun _ => ?_⟩)
      have h5 := hL2 (by omega)
      have := wsSum_add3 hg hbg (f1 := fun i => !x.1.contains (g.slit b i) && !ufsPos g U b i) (f2 := ufsPos g U b)
            (f3 := fun _ => false) (fun i _ => ⟨fun h => ?_, fun h => rfl⟩)
      · have h0 : g.wsSum b (fun _ => false) = 0 := by
          unfold UGraph.wsSum
          generalize List.range (g.subs b).length = l
          induction l with
          | nil => rfl
          | cons y l ih => simp
        omega
      · simp only [Bool.and_eq_true, Bool.not_eq_true'] at h
        exact ⟨h.2, rfl⟩

/-- The reason computed for an unfounded set: its literals are false, and they rule out all ways of deriving
atoms in the set. Unit propagation must have made bodies false that contain a false subgoal. -/
theorem computeReason_spec (hg : GWf g) (hok : UfsOk s) (hsl : ∀ b ∈ g.bodies, (g.body b).ext = true → (s.bodies b).slack = slack0 g b)
    (hU : UnfSet g isF s.ufs) {c : Nat} (hc : ∀ x ∈ s.ufs, x ∈ g.atoms ∧ (g.atom x).scc = c)
    (hcl : ∀ b ∈ g.bodies, (g.body b).ext = false → ∀ p ∈ g.pre b, isF (g.atom p).lit = true → isF (g.body b).lit = true) :
    let U := s.ufs.filter fun a => !isF (g.atom a).lit
    (∀ q ∈ computeReason g isF s, isF q = true) ∧ ∀ a ∈ U, ∀ b ∈ (g.atom a).bodies, Expl g U c (computeReason g isF s) b := by
  intro U
  have hbodies : ∀ (a : Nat), a ∈ s.ufs → ∀ (bs : List Nat) (x : List Lit × List Nat), (∀ b ∈ bs, b ∈ (g.atom a).bodies) → RS g isF U c x →
      let x' := bs.foldl (addIfReason g isF s c) x
      RS g isF U c x' ∧ (∀ q ∈ x.1, q ∈ x'.1) ∧ ∀ b ∈ bs, Expl g U c x'.1 b := by
    intro a ha bs
    induction bs with
    | nil => intro x _ H; exact ⟨H, fun q hq => hq, by simp⟩
    | cons b bs ih =>
      intro x hbs H
      have hb := hbs b (by simp)
      have hbg := (hg.bods a (hc a ha).1 b hb).1
      obtain ⟨h1, h2, h3⟩ := addIfReason_spec hg hok hsl hU hcl H ha (hc a ha).2 hb hbg
      obtain ⟨h4, h5, h6⟩ := ih _ (fun b' hb' => hbs b' (by simp [hb'])) h1
      refine ⟨h4, fun q hq => h5 q (h2 q hq), fun b' hb' => ?_⟩
      rcases List.mem_cons.1 hb' with e | hb'
      · rw [e]; exact h3.mono hg hbg h5
      · exact h6 b' hb'
  have hatoms : ∀ (as : List Nat) (x : List Lit × List Nat), (∀ a ∈ as, a ∈ s.ufs) → RS g isF U c x →
      let x' := as.foldl (fun c' a => if isF (g.atom a).lit then c' else (g.atom a).bodies.foldl (addIfReason g isF s c) c') x
      RS g isF U c x' ∧ (∀ q ∈ x.1, q ∈ x'.1) ∧ ∀ a ∈ as, isF (g.atom a).lit = false → ∀ b ∈ (g.atom a).bodies, Expl g U c x'.1 b := by
    intro as
    induction as with
    | nil => intro x _ H; exact ⟨H, fun q hq => hq, by simp⟩
    | cons a as ih =>
      intro x has H
      have ha := has a (by simp)
      rw [List.foldl_cons]
      by_cases hF : isF (g.atom a).lit = true
      · rw [if_pos hF]
        obtain ⟨h1, h2, h3⟩ := ih x (fun b hb => has b (by simp [hb])) H
        refine ⟨h1, h2, fun a' ha' hF' => ?_⟩
        rcases List.mem_cons.1 ha' with e | ha'
        · rw [e, hF] at hF'; cases hF'
        · exact h3 a' ha' hF'
      · rw [if_neg hF]
        obtain ⟨h1, h2, h3⟩ := hbodies a ha _ x (fun b hb => hb) H
        obtain ⟨h4, h5, h6⟩ := ih _ (fun b hb => has b (by simp [hb])) h1
        refine ⟨h4, fun q hq => h5 q (h2 q hq), fun a' ha' hF' b hb => ?_⟩
        rcases List.mem_cons.1 ha' with e | ha'
        · rw [e] at hb
          exact (h3 b hb).mono hg (hg.bods a (hc a ha).1 b hb).1 h5
        · exact h6 a' ha' hF' b hb
  obtain ⟨h1, _, h3⟩ := hatoms s.ufs ([], []) (fun a ha => ha) ⟨by simp, by simp⟩
  have hcr : computeReason g isF s = (s.ufs.foldl (fun c' a => if isF (g.atom a).lit then c' else (g.atom a).bodies.foldl (addIfReason g isF s c) c') ([], [])).1 := by
    unfold computeReason
    cases hu : s.ufs with
    | nil => rfl
    | cons a r =>
      dsimp only
      rw [(hc a (by rw [hu]; simp)).2]
  rw [hcr]
  refine ⟨h1.fal, fun a ha b hb => ?_⟩
  have ha := List.mem_filter.1 ha
  exact h3 a ha.1 (by simpa using ha.2) b hb

end Clasp.Ufs
