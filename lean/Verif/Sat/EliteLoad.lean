/- Loading the clauses establishes the invariants. No code is modelled here. -/
import Verif.Sat.EliteElim
namespace Clasp.Elite
open Clasp.Core Function

/-- Specification: the models of the problem given to the preprocessor: the other constraints (models `O`), the literals already
true, the unit clauses and the clauses. -/
def Problem (O : Asg → Prop) (tr units : List Lit) (cs : List Cl) (M : Asg) : Prop :=
  O M ∧ M.all tr ∧ M.all units ∧ ∀ c ∈ cs, M.satC c

theorem init_wf {cx : Cx} {tr : List Lit} (h : (tr.map Lit.var).Nodup) : Wf cx (init tr) :=
  ⟨fun h => (nomatch h), fun h => (nomatch h), fun h => (nomatch h), fun h => (nomatch h), fun _ => by simp [init], fun h => (nomatch h),
   fun h => (nomatch h), fun _ => by simp [init], fun h => by simp [init] at h, h, Nat.zero_le _, fun h => (nomatch h), fun h => (nomatch h),
   fun h => (nomatch h)⟩

/-- Proof device: a state in which only facts were added. -/
structure Fresh (s : St) : Prop where
  occ : ∀ v, s.occ v = []
  wat : ∀ v, s.wat v = []
  mrk : ∀ v, s.mark v = none
  elim : s.elim = []
  elimd : ∀ v, s.elimd v = false
  facts : s.facts = 0
  trN : (s.trail.map Lit.var).Nodup

theorem Fresh.wf {cx s} (h : Fresh s) : Wf cx { s with cls := fun _ => none } :=
  ⟨fun h => (nomatch h), fun h => (nomatch h), fun h => (nomatch h), fun _ h => (nomatch h), fun v => by simp [h.occ], fun h => (nomatch h),
   fun {id v} hv => by simp [h.wat] at hv, fun v => by simp [h.wat], fun hl => by simp [h.facts] at hl, h.trN, by simp [h.facts],
   fun hv => by simp [h.elimd] at hv, fun hv => by simp [h.elimd] at hv, fun hv => by simp [h.elimd] at hv⟩

theorem addUnits_ok {cx O} (hl : cx.Law O) : ∀ (ls : List Lit) (s : St), Fresh s → (∀ id, s.cls id = none) →
    match addUnits cx ls s with
    | .ok s' => Fresh s' ∧ (∀ id, s'.cls id = none) ∧ ∀ M, Sem O s M ∧ M.all ls ↔ Sem O s' M
    | .unsat => ∀ M, Sem O s M → ¬ M.all ls
    | .undef => False
    | .fuel => False
  | [], s, h, hc => ⟨h, hc, fun M => ⟨fun h => h.1, fun h => ⟨h, by simp [Asg.all]⟩⟩⟩
  | l :: ls, s, h, hc => by
    have hs : s = { s with cls := fun _ => none } := by
      have : s.cls = fun _ => none := funext hc
      rw [← this]
    have hw : Wf cx s := by rw [hs]; exact h.wf
    have hg := addUnit_gen (O := O) (R := []) (l := l) hl hw (fun v sg hv => by rw [h.mrk] at hv; cases hv) (h.elimd _)
    have hall : ∀ M : Asg, M.all (l :: ls) ↔ M.sat l ∧ M.all ls := fun M => by simp [Asg.all]
    unfold addUnits
    cases hr : addUnit cx l s with
    | ok s1 =>
      rw [hr] at hg
      obtain ⟨a, b, c, d, e⟩ := hg
      simp only [Res.bind]
      have hf : Fresh s1 := by
        rw [e]
        exact ⟨h.occ, h.wat, h.mrk, h.elim, h.elimd, h.facts, a.trN⟩
      have ih := addUnits_ok (O := O) hl ls s1 hf (by rw [e]; exact hc)
      cases hr2 : addUnits cx ls s1 with
      | ok s2 =>
        rw [hr2] at ih
        exact ⟨ih.1, ih.2.1, fun M => by rw [← ih.2.2 M, ← d M, hall, and_assoc]⟩
      | unsat => rw [hr2] at ih; exact fun M hM ha => ih M ((d M).mp ⟨hM, ((hall M).mp ha).1⟩) ((hall M).mp ha).2
      | undef => rw [hr2] at ih; exact ih.elim
      | fuel => rw [hr2] at ih; exact ih.elim
    | unsat => rw [hr] at hg; exact fun M hM ha => hg M hM ((hall M).mp ha).1
    | undef => rw [hr] at hg; exact hg.elim
    | fuel => rw [hr] at hg; exact hg.elim

/-- Proof device: the clauses with ids below `n` are stored but not attached. -/
structure Stored (n : Nat) (s : St) : Prop where
  fresh : Fresh s
  hi : ∀ id, n ≤ id → s.cls id = none
  ne : ∀ id c, s.cls id = some c → c ≠ [] ∧ (c.map Lit.var).Nodup

theorem simplify_cases (tr : List Lit) (c : Cl) :
    (∃ t ∈ c, t ∈ tr ∧ simplifyCl tr c = [t]) ∨ ((∀ y ∈ c, y.neg ∈ tr) ∧ simplifyCl tr c = c) ∨
    (∃ x t, simplifyCl tr c = x :: t ∧ (x :: t).Sublist c ∧ (∀ y ∈ c, y ∈ x :: t ∨ y.neg ∈ tr) ∧ x ∉ tr ∧ x.neg ∉ tr) := by
  unfold simplifyCl
  cases hf : c.find? (isTrue tr) with
  | some t =>
    refine Or.inl ⟨t, List.mem_of_find?_eq_some hf, ?_, rfl⟩
    simpa [isTrue] using List.find?_some hf
  | none =>
    simp only []
    cases hr : c.filter (fun l => !isFalse tr l) with
    | nil =>
      refine Or.inr (Or.inl ⟨fun y hy => ?_, rfl⟩)
      have := List.filter_eq_nil_iff.mp hr y hy
      simpa [isFalse] using this
    | cons x t =>
      refine Or.inr (Or.inr ⟨x, t, rfl, ?_, fun y hy => ?_, ?_, ?_⟩)
      · rw [← hr]; exact List.filter_sublist
      · by_cases hn : y.neg ∈ tr
        · exact Or.inr hn
        · left; rw [← hr]; exact List.mem_filter.mpr ⟨hy, by simpa [isFalse] using hn⟩
      · have hx : x ∈ c := List.mem_of_mem_filter (p := fun l => !isFalse tr l) (by rw [hr]; simp)
        have := List.find?_eq_none.mp hf x hx
        simpa [isTrue] using this
      · have hx : x ∈ c.filter (fun l => !isFalse tr l) := by rw [hr]; simp
        have := (List.mem_filter.mp hx).2
        simpa [isFalse] using this

theorem loadLoop_ok {cx O} : ∀ (cs : List Cl) (n : Nat) (s : St), Stored n s → (∀ c ∈ cs, c ≠ [] ∧ (c.map Lit.var).Nodup) →
    match loadLoop cx cs n s with
    | .ok r => Stored r.1 r.2 ∧ ∀ M, Sem O s M ∧ (∀ c ∈ cs, M.satC c) ↔ Sem O r.2 M
    | .unsat => ∀ M, Sem O s M → ¬ ∀ c ∈ cs, M.satC c
    | .undef => False
    | .fuel => False
  | [], n, s, h, _ => ⟨h, fun M => by simp⟩
  | c :: cs, n, s, h, hcs => by
    have hc := hcs c (by simp)
    have hcs' : ∀ c ∈ cs, c ≠ [] ∧ (c.map Lit.var).Nodup := fun d hd => hcs d (List.mem_cons_of_mem _ hd)
    have hall : ∀ M : Asg, (∀ d ∈ c :: cs, M.satC d) ↔ M.satC c ∧ ∀ d ∈ cs, M.satC d := fun M => by simp
    unfold loadLoop
    rcases simplify_cases s.trail c with ⟨t, htc, htt, he⟩ | ⟨hf, he⟩ | ⟨x, t, he, hsub, hrest, hx1, hx2⟩
    · rw [he]
      simp only [htt, true_or, if_true]
      have : addUnit cx t s = .ok s := by simp [addUnit, htt]
      rw [this]
      simp only [Res.bind]
      have ih := loadLoop_ok (O := O) (cx := cx) cs n s h hcs'
      have hsat : ∀ M, Sem O s M → M.satC c := fun M hM => ⟨t, htc, hM.2.2 t htt⟩
      cases hr : loadLoop cx cs n s with
      | ok r =>
        rw [hr] at ih
        exact ⟨ih.1, fun M => by
          rw [← ih.2 M, hall]
          exact ⟨fun h => ⟨h.1, h.2.2⟩, fun h => ⟨h.1, hsat M h.1, h.2⟩⟩⟩
      | unsat => rw [hr] at ih; exact fun M hM ha => ih M hM ((hall M).mp ha).2
      | undef => rw [hr] at ih; exact ih.elim
      | fuel => rw [hr] at ih; exact ih.elim
    · rw [he]
      cases c with
      | nil => exact absurd rfl hc.1
      | cons x t =>
        have hxn := hf x (by simp)
        simp only [hxn, or_true, if_true]
        have : addUnit cx x s = .unsat := by
          unfold addUnit
          rw [if_neg (fun hx => ?_), if_pos hxn]
          have := h.fresh.trN
          have := lit_eq_of_var this hx hxn (by simp)
          exact absurd (congrArg Lit.sign this) (by simp [Lit.neg])
        rw [this]
        intro M hM ha
        obtain ⟨y, hy, hs⟩ := ha _ (by simp : (x :: t) ∈ (x :: t) :: cs)
        exact (Asg.sat_neg _ _).mp (hM.2.2 _ (hf y hy)) hs
    · rw [he]
      have hnn : ¬ (x ∈ s.trail ∨ x.neg ∈ s.trail) := by rintro (h | h); exacts [hx1 h, hx2 h]
      simp only [hnn, if_false]
      have hst : Stored (n + 1) { s with cls := update s.cls n (some (x :: t)) } := by
        refine ⟨⟨h.fresh.occ, h.fresh.wat, h.fresh.mrk, h.fresh.elim, h.fresh.elimd, h.fresh.facts, h.fresh.trN⟩, fun id hid => ?_, fun id d hd => ?_⟩
        · show update s.cls n _ id = none
          rw [update_of_ne (by omega)]; exact h.hi id (by omega)
        · replace hd : update s.cls n (some (x :: t)) id = some d := hd
          by_cases hid : id = n
          · subst hid; rw [update_self] at hd; cases hd
            exact ⟨by simp, hc.2.sublist (hsub.map _)⟩
          · rw [update_of_ne hid] at hd; exact h.ne id d hd
      have hsem : ∀ M, Sem O s M ∧ M.satC c ↔ Sem O { s with cls := update s.cls n (some (x :: t)) } M := fun M => by
        have hiff : M.all s.trail → (M.satC c ↔ M.satC (x :: t)) := fun ha => by
          constructor
          · rintro ⟨y, hy, hs⟩
            rcases hrest y hy with h1 | h1
            · exact ⟨y, h1, hs⟩
            · exact absurd hs ((Asg.sat_neg _ _).mp (ha _ h1))
          · rintro ⟨y, hy, hs⟩; exact ⟨y, hsub.subset hy, hs⟩
        constructor
        · rintro ⟨⟨h1, h2, h3⟩, h4⟩
          refine ⟨h1, fun id d hd => ?_, h3⟩
          replace hd : update s.cls n (some (x :: t)) id = some d := hd
          by_cases hid : id = n
          · subst hid; rw [update_self] at hd; cases hd; exact (hiff h3).mp h4
          · rw [update_of_ne hid] at hd; exact h2 id d hd
        · rintro ⟨h1, h2, h3⟩
          refine ⟨⟨h1, fun id d hd => h2 id d ?_, h3⟩, (hiff h3).mpr (h2 n _ (by show update s.cls n _ n = _; simp))⟩
          show update s.cls n _ id = _
          rw [update_of_ne (fun e => by rw [e, h.hi n (Nat.le_refl _)] at hd; cases hd)]; exact hd
      have ih := loadLoop_ok (O := O) (cx := cx) cs (n + 1) _ hst hcs'
      cases hr : loadLoop cx cs (n + 1) { s with cls := update s.cls n (some (x :: t)) } with
      | ok r =>
        rw [hr] at ih
        exact ⟨ih.1, fun M => by rw [← ih.2 M, ← hsem M, hall, and_assoc]⟩
      | unsat =>
        rw [hr] at ih
        exact fun M hM ha => ih M ((hsem M).mp ⟨hM, ((hall M).mp ha).1⟩) ((hall M).mp ha).2
      | undef => rw [hr] at ih; exact ih.elim
      | fuel => rw [hr] at ih; exact ih.elim

theorem attachAll_ok {cx n s} (h : Stored n s) : ∀ k, k ≤ n →
    let s' := attachAll k s
    Wf cx { s' with cls := fun j => if j < k then s.cls j else none } ∧ s'.cls = s.cls ∧ (∀ v e, e ∈ s'.occ v → e.1 < k) ∧
    (∀ v, s'.mark v = none) ∧ s'.trail = s.trail ∧ s'.facts = 0 ∧ s'.elim = [] ∧ (∀ v, s'.elimd v = false)
  | 0, _ => by
    refine ⟨?_, rfl, fun v e he => ?_, h.fresh.mrk, rfl, h.fresh.facts, h.fresh.elim, h.fresh.elimd⟩
    · simpa [attachAll] using h.fresh.wf
    · simp [attachAll, h.fresh.occ] at he
  | k + 1, hk => by
    obtain ⟨a1, a2, a3, a4, a5, a6, a7, a8⟩ := attachAll_ok (cx := cx) h k (by omega)
    simp only [attachAll]
    generalize attachAll k s = s1 at a1 a2 a3 a4 a5 a6 a7 a8
    cases hc : s.cls k with
    | none =>
      have : attach k s1 = s1 := by unfold Elite.attach; rw [a2, hc]
      rw [this]
      have hf : (fun j => if j < k + 1 then s.cls j else none) = fun j => if j < k then s.cls j else none := by
        funext j
        by_cases hj : j = k
        · subst hj; simp [hc]
        · have : j < k + 1 ↔ j < k := by omega
          simp [this]
      rw [hf]
      exact ⟨a1, a2, fun v e he => Nat.lt_succ_of_lt (a3 v e he), a4, a5, a6, a7, a8⟩
    | some c =>
      obtain ⟨hne, hnd⟩ := h.ne k c hc
      cases c with
      | nil => exact absurd rfl hne
      | cons x t =>
        have heq : attach k s1 = { s1 with
            occ := attachOcc k (x :: t) s1.occ
            mark := unmarkAll s1.mark (x :: t)
            wat := update s1.wat x.var (s1.wat x.var ++ [k]) } := by
          unfold Elite.attach; rw [a2, hc]
        rw [heq]
        have hw := a1.attach (id := k) (x := x) (t := t) (by simp) (fun v sg hv => absurd (a3 v _ hv) (by simp)) hnd
          (fun l hl => by replace hl : l ∈ s1.trail.take s1.facts := hl; simp [a6] at hl) (fun y _ => a8 _)
        have hf : (fun j => if j < k + 1 then s.cls j else none) = update (fun j => if j < k then s.cls j else none) k (some (x :: t)) := by
          funext j
          by_cases hj : j = k
          · subst hj; simp [hc]
          · have : j < k + 1 ↔ j < k := by omega
            rw [update_of_ne hj]; simp [this]
        rw [hf]
        refine ⟨{ hw with }, a2, fun v e he => ?_, fun v => ?_, a5, a6, a7, a8⟩
        · rcases mem_attachOcc.mp he with h1 | ⟨l, _, _, rfl⟩
          · exact Nat.lt_succ_of_lt (a3 v e h1)
          · exact Nat.lt_succ_self k
        · show unmarkAll s1.mark (x :: t) v = none
          rw [unmarkAll_apply]; split
          · rfl
          · exact a4 v

theorem load_ok {cx O} (hl : cx.Law O) {tr units : List Lit} {cs : List Cl} (htr : (tr.map Lit.var).Nodup)
    (hcs : ∀ c ∈ cs, c ≠ [] ∧ (c.map Lit.var).Nodup) :
    match load cx tr units cs with
    | .ok s => Inv cx O (Problem O tr units cs) s
    | .unsat => ∀ M, ¬ Problem O tr units cs M
    | .undef => False
    | .fuel => False := by
  unfold load
  have hf0 : Fresh (init tr) := ⟨fun _ => rfl, fun _ => rfl, fun _ => rfl, rfl, fun _ => rfl, rfl, htr⟩
  have hs0 : ∀ M, O M ∧ M.all tr ↔ Sem O (init tr) M := fun M =>
    ⟨fun h => ⟨h.1, fun _ _ h => (nomatch h), h.2⟩, fun h => ⟨h.1, h.2.2⟩⟩
  have hu := addUnits_ok (O := O) hl units (init tr) hf0 (fun _ => rfl)
  cases hr : addUnits cx units (init tr) with
  | ok s1 =>
    rw [hr] at hu
    obtain ⟨u1, u2, u3⟩ := hu
    simp only [Res.bind]
    have hst : Stored 0 s1 := ⟨u1, fun id _ => u2 id, fun id c hc => by rw [u2] at hc; cases hc⟩
    have hlo := loadLoop_ok (O := O) (cx := cx) cs 0 s1 hst hcs
    cases hr2 : loadLoop cx cs 0 s1 with
    | ok r =>
      rw [hr2] at hlo
      obtain ⟨l1, l2⟩ := hlo
      obtain ⟨a1, a2, a3, a4, a5, a6, a7, a8⟩ := attachAll_ok (cx := cx) l1 r.1 (Nat.le_refl _)
      simp only []
      generalize attachAll r.1 r.2 = s at a1 a2 a3 a4 a5 a6 a7 a8
      have hcl : (fun j => if j < r.1 then r.2.cls j else none) = s.cls := by
        rw [a2]; funext j
        split
        · rfl
        · rw [l1.hi j (by omega)]
      have hs : ({ s with cls := fun j => if j < r.1 then r.2.cls j else none } : St) = s := by rw [hcl]
      rw [hs] at a1
      refine ⟨a1, fun v sg hv => (by rw [a4] at hv; cases hv), ?_, by rw [a7]; exact fun _ h => (nomatch h)⟩
      have hE : (fun v => s.elimd v = true) = fun _ => False := by funext v; simp [a8]
      rw [a7, hE]
      refine .equiv _ .nil (fun M => ?_)
      have : Sem O s M ↔ Sem O r.2 M := by unfold Sem; rw [a2, a5]
      rw [this, ← l2 M, ← u3 M, ← hs0 M]
      unfold Problem
      constructor
      · rintro ⟨h1, h2, h3, h4⟩; exact ⟨⟨⟨h1, h2⟩, h3⟩, h4⟩
      · rintro ⟨⟨⟨h1, h2⟩, h3⟩, h4⟩; exact ⟨h1, h2, h3, h4⟩
    | unsat =>
      rw [hr2] at hlo
      rintro M ⟨h1, h2, h3, h4⟩
      exact hlo M ((u3 M).mp ⟨(hs0 M).mp ⟨h1, h2⟩, h3⟩) h4
    | undef => rw [hr2] at hlo; exact hlo.elim
    | fuel => rw [hr2] at hlo; exact hlo.elim
  | unsat =>
    rw [hr] at hu
    rintro M ⟨h1, h2, h3, h4⟩
    exact hu M ((hs0 M).mp ⟨h1, h2⟩) h3
  | undef => rw [hr] at hu; exact hu.elim
  | fuel => rw [hr] at hu; exact hu.elim

theorem run_ok {cx O F0} (hl : cx.Law O) : ∀ (ops : List Op) (s : St), Inv cx O F0 s → PostI cx O F0 s (run cx ops s)
  | [], s, h => ⟨h, fun h => h⟩
  | o :: os, s, h => by
    unfold run
    refine PostI.bind ?_ (fun s' h' => run_ok hl os s' h')
    cases o with
    | prop f => exact (propFacts_post hl f s h.wf h.mks).toI h
    | sub f id best => exact (subsumeWith_post hl f id best s h.wf h.mks).toI h
    | bceVe f b v n => exact bceVe_ok hl f b v n h

end Clasp.Elite
