/-
C35: equality constraints `W == (sum(lits) = bound)` as created by `WeightConstraint::create` with `create_eq_bound`
(src/weight_constraint.cpp 172-190), used for `=` in OPB input (src/program_builder.cpp 242-258).
-/
import Verif.Weight.MakeProps
namespace Clasp.Weight
open Core

/-- Specification: the equality `sum(lits) = bound` holds in `M`. -/
def eqHolds (M : Asg) (lits : List WL) (bound : Int) : Prop := val M lits = bound

theorem unit_addPos {a a' : Acc} {x : Lit} (hs : a.seen x = false) (hs' : a.seen x.neg = false) (h : addPos a x 1 = .ok a') :
    a'.out = a.out ++ [⟨x, 1⟩] := by
  unfold addPos at h
  simp [hs, hs'] at h; rw [← h]

theorem unit_loop1 {top : Top} : ∀ {ls : List WL} {a a' : Acc}, AInv top a → loop1 top ls a = .ok a' → (∀ e ∈ a.out, e.w = 1) →
    (∀ e ∈ ls, e.w = 1 ∨ e.w = -1) → (ls.map fun e => e.lit.var).Nodup → (∀ e ∈ ls, ∀ o ∈ a.out, o.lit.var ≠ e.lit.var) →
    ∀ e ∈ a'.out, e.w = 1 := by
  intro ls
  induction ls with
  | nil => intro a a' _ h hu _ _ _; simp [loop1] at h; subst h; exact hu
  | cons l ls ih =>
    intro a a' hi h hu hw hnd hdis
    unfold loop1 at h
    obtain ⟨a1, h1, h⟩ := bind_ok.1 h
    simp only [List.map_cons, List.nodup_cons] at hnd
    have hns : ∀ p : Lit, p.var = l.lit.var → a.seen p = false := by
      intro p hp
      by_contra hc
      obtain ⟨o, ho, rfl⟩ := mem_lit.1 ((hi.seen p).1 (by simpa using hc))
      exact hdis l (.head _) o ho hp
    have hkey : (a1.out = a.out ∨ ∃ x : Lit, x.var = l.lit.var ∧ a1.out = a.out ++ [⟨x, 1⟩]) := by
      unfold step1 at h1
      split at h1
      · split at h1
        · rename_i hneg
          have e : l.w = -1 := by rcases hw l (.head _) with h | h <;> omega
          obtain ⟨w, hw1, h1⟩ := bind_ok.1 h1
          obtain ⟨rfl, _⟩ := chk_ok.1 hw1
          split at h1
          · obtain ⟨b, _, h1⟩ := bind_ok.1 h1
            rw [e] at h1
            exact .inr ⟨l.lit.neg, rfl, unit_addPos (a := { a with bound := b }) (hns _ rfl) (hns _ rfl) h1⟩
          · cases h1
        · have e : l.w = 1 := by rcases hw l (.head _) with h | h <;> omega
          rw [e] at h1
          exact .inr ⟨l.lit, rfl, unit_addPos (hns _ rfl) (hns _ rfl) h1⟩
      · split at h1
        · obtain ⟨b, _, h1⟩ := bind_ok.1 h1
          simp at h1; subst h1; exact .inl rfl
        · simp at h1; subst h1; exact .inl rfl
    refine ih (hi.step1 h1).1 h ?_ (fun e he => hw e (.tail _ he)) hnd.2 ?_
    · rcases hkey with hk | ⟨x, _, hk⟩
      · rw [hk]; exact hu
      · rw [hk]; intro e he; rcases List.mem_append.1 he with he | he
        · exact hu e he
        · simp at he; rw [he]
    · intro e he o ho
      have hne : l.lit.var ≠ e.lit.var := fun h => hnd.1 (List.mem_map.2 ⟨e, he, h.symm⟩)
      rcases hkey with hk | ⟨x, hx, hk⟩
      · rw [hk] at ho; exact hdis e (.tail _ he) o ho
      · rw [hk] at ho; rcases List.mem_append.1 ho with ho | ho
        · exact hdis e (.tail _ he) o ho
        · simp at ho; rw [ho]; dsimp only; rw [hx]; exact hne

theorem create_unit {top : Top} {lits : List WL} {bound : Int} {r : Rep} (h : create top lits bound = .ok r)
    (hu : ∀ e ∈ lits, e.w = 1 ∨ e.w = -1) (hnd : (lits.map fun e => e.lit.var).Nodup) :
    (∀ e ∈ r.lits, e.w = 1) ∧ ∀ M, ext M top → val M r.lits - r.bound = val M lits - bound := by
  unfold create at h
  obtain ⟨a, h1, h⟩ := bind_ok.1 h
  obtain ⟨⟨ls, m⟩, h2, h⟩ := bind_ok.1 h
  have hi : AInv top ⟨[], fun _ => false, bound⟩ := ⟨by simp, by simp, by simp, by simp⟩
  obtain ⟨ha, hv⟩ := hi.loop1 h1
  have hone := unit_loop1 hi h1 (by simp) hu hnd (by simp)
  obtain ⟨e1, e2, e3, e4, e5, e6, e7, e8, e9⟩ := loop2_spec (by omega) h2 ha.pos (by dsimp only; omega) (by simp)
  have e1 : ls = a.out := by
    rw [e1]; conv_rhs => rw [← List.map_id a.out]
    apply List.map_congr_left
    intro e he
    have := hone e he
    have h : min e.w (max a.bound 1) = e.w := by omega
    rw [h]; rfl
  subst e1
  dsimp only at h hv e8 e4
  have hv' : ∀ M, ext M top → val M a.out - a.bound = val M lits - bound := by
    intro M hM; have := hv M hM; simp at this; omega
  split at h
  · simp only [Except.ok.injEq] at h; subst h
    refine ⟨fun e he => hone e ((List.mergeSort_perm _ _).mem_iff.1 he), fun M hM => ?_⟩
    dsimp only; rw [val_perm (List.mergeSort_perm _ _)]; exact hv' M hM
  · rename_i hmm
    split at h
    · exfalso
      rename_i hne
      have hm : m.mx = m.mn := by simpa using hmm
      cases ho : a.out with
      | nil =>
        rw [ho] at h2; simp [loop2] at h2
        rw [← h2] at hm; simp [MAXW] at hm
      | cons x xs =>
        have h3 := e8 x (by rw [ho]; simp)
        have h4 := hone x (by rw [ho]; simp)
        omega
    · simp only [Except.ok.injEq] at h; subst h
      exact ⟨hone, hv'⟩

theorem backprop_false_val {B : Int} : ∀ {ls : List WL} {top top' : Top} {bound reach : Int} {r' : Rep} {done : Bool},
    backprop false B top ls bound reach = .ok (some (top', r', done)) → Norm0 top ⟨ls, bound, reach⟩ →
    r'.bound = bound ∧ (∀ M, ext M top' → val M r'.lits = val M ls) ∧ (∀ e ∈ r'.lits, e ∈ ls) ∧
    (∀ v b, top v = some b → top' v = some b) := by
  intro ls
  induction ls with
  | nil => intro top top' bound reach r' done h; simp [backprop] at h
  | cons l ls ih =>
    intro top top' bound reach r' done h hn
    unfold backprop at h
    split at h
    · obtain ⟨re, hre, h⟩ := bind_ok.1 h
      obtain ⟨rfl, _⟩ := chk_ok.1 hre
      simp only [Bool.false_eq_true, if_false, Bool.false_and] at h
      cases hf : force top l.lit.neg with
      | none => rw [hf] at h; simp at h
      | some top1 =>
        rw [hf] at h
        dsimp only at h
        obtain ⟨f1, f2, f3⟩ := force_some hf
        have f2' : ∀ v, v ≠ l.lit.var → top1 v = top v := f2
        have h : (if ls = [] then (.ok (some (top1, (⟨[], bound, reach - l.w⟩ : Rep), true)) : R _)
            else backprop false B top1 ls bound (reach - l.w)) = .ok (some (top', r', done)) := h
        have hmono : ∀ v b, top v = some b → top1 v = some b := by
          intro v b hv; by_cases e : v = l.lit.var
          · subst e; rw [hn.free l (.head _)] at hv; cases hv
          · rw [f2 v e]; exact hv
        have hsat : ∀ M, ext M top1 → ¬ M.sat l.lit := by
          intro M hM; have := ((f3 M).1 hM).2; rwa [Asg.sat_neg] at this
        split at h
        · rename_i hnil
          subst hnil
          simp only [Except.ok.injEq, Option.some.injEq, Prod.mk.injEq] at h
          obtain ⟨rfl, rfl, rfl⟩ := h
          exact ⟨rfl, fun M hM => by simp [hsat M hM], by simp, hmono⟩
        · obtain ⟨i1, i2, i3, i4⟩ := ih h (hn.tail f2' rfl)
          refine ⟨i1, fun M hM => ?_, fun e he => .tail _ (i3 e he), fun v b hv => i4 v b (hmono v b hv)⟩
          have : ext M top1 := fun v b hv => hM v b (i4 v b hv)
          rw [i2 M hM, val_cons]; simp [hsat M this]
    · simp only [Except.ok.injEq, Option.some.injEq, Prod.mk.injEq] at h
      obtain ⟨rfl, rfl, rfl⟩ := h
      exact ⟨rfl, fun _ _ => rfl, fun _ h => h, fun _ _ h => h⟩

theorem recoef_id {b : Int} {ls : List WL} {s : Int} (h : ∀ e ∈ ls, e.w ≤ b) : recoef b ls s = .ok (ls, s) := by
  cases ls with
  | nil => rfl
  | cons l ls => unfold recoef; rw [if_neg (by have := h l (.head _); omega)]

/-- The first half of an equality with a true `W`: the representation that is left has the same value relative to its bound. -/
theorem doCreate_unit {explicit addSat : Bool} {top : Top} {W : Lit} {r r' : Rep} {m : Made} (hn : Normal top r)
    (hW : top W.var = some W.tv) (hu : ∀ e ∈ r.lits, e.w = 1) (h : doCreate explicit addSat top W.neg r = .ok (some (m, r'))) :
    (∀ M, ext M m.top → ext M top ∧ val M r'.lits - r'.bound = val M r.lits - r.bound) ∧ Norm0 m.top r' ∧
    (∀ e ∈ r'.lits, e.w = 1 ∧ e.w < r'.bound) := by
  unfold doCreate at h
  obtain ⟨p, hp, h⟩ := bind_ok.1 h
  cases p with
  | none => simp at h
  | some q =>
    obtain ⟨t, r1⟩ := q
    dsimp only at h
    have hmr : m.top = t ∧ r' = r1 := by
      split at h
      · simp only [Except.ok.injEq, Option.some.injEq, Prod.mk.injEq] at h; obtain ⟨rfl, rfl⟩ := h; exact ⟨rfl, rfl⟩
      · split at h
        · simp only [Except.ok.injEq, Option.some.injEq, Prod.mk.injEq] at h; obtain ⟨rfl, rfl⟩ := h; exact ⟨rfl, rfl⟩
        · simp only [Except.ok.injEq, Option.some.injEq, Prod.mk.injEq] at h; obtain ⟨rfl, rfl⟩ := h; exact ⟨rfl, rfl⟩
    obtain ⟨rfl, rfl⟩ := hmr
    clear h
    have hvar : W.neg.var = W.var := rfl
    unfold propagate at hp
    split at hp
    · exfalso
      have : force top W.neg = none := by
        unfold force; rw [hvar, hW]; dsimp only; rw [if_neg (by rw [tv_neg]; cases W.tv <;> simp)]
      rw [this] at hp; simp at hp
    rename_i hs
    have hb0 : 0 < r.bound := by simpa [Rep.isSat] using hs
    split at hp
    · rename_i hun
      have hun : r.reach < r.bound := by simpa [Rep.isUnsat] using hun
      have hf : force top W.neg.neg = some top := by
        unfold force; rw [Lit.neg_neg, hW]; simp
      rw [hf] at hp
      simp only [Option.map_some, Except.ok.injEq, Option.some.injEq, Prod.mk.injEq] at hp
      obtain ⟨e1, rfl⟩ := hp
      rw [← e1]
      refine ⟨fun M hM => ⟨hM, rfl⟩, hn.norm0, fun e he => ⟨hu e he, ?_⟩⟩
      have := mem_le_total hn.pos he; have := hn.reach; omega
    rename_i hun
    have hbt : (top W.neg.var == some W.neg.tv) = false := by
      rw [hvar, hW, tv_neg]; cases W.tv <;> simp
    rw [if_neg (by rw [hvar, hW]; simp)] at hp
    dsimp only at hp
    rw [hbt] at hp
    simp only [Bool.false_eq_true, if_false] at hp
    have hp : (backprop false r.bound top r.lits r.bound r.reach >>= fun x => match x with
        | none => Except.ok none
        | some (top', r', done) =>
          if done = true then Except.ok (some (top', r'))
          else
            match r'.lits.head?, r'.lits.getLast? with
            | some f, some l =>
              if f.w > 1 ∧ f.w = l.w then do
                let c ← toCard f.w r'
                Except.ok (some (top', c))
              else Except.ok (some (top', r'))
            | _, _ => Except.error Fail.bad) = Except.ok (some (m.top, r')) := hp
    obtain ⟨bp, hbp, hp⟩ := bind_ok.1 hp
    cases bp with
    | none => simp at hp
    | some q =>
      obtain ⟨t1, r2, done⟩ := q
      obtain ⟨i1, i2, i3, i4⟩ := backprop_false_val hbp hn.norm0
      obtain ⟨j1, j2, j3, j4, j5, j6, j7⟩ := backprop_false hbp hn.norm0 hb0
      have hfin : t1 = m.top ∧ r2 = r' := by
        dsimp only at hp
        split at hp
        · simp only [Except.ok.injEq, Option.some.injEq, Prod.mk.injEq] at hp; exact hp
        · split at hp
          · rename_i f l hf hl
            rw [if_neg] at hp
            · simp only [Except.ok.injEq, Option.some.injEq, Prod.mk.injEq] at hp; exact hp
            · have := hu f (i3 f (List.mem_of_mem_head? hf)); omega
          · simp at hp
      obtain ⟨rfl, rfl⟩ := hfin
      refine ⟨fun M hM => ⟨fun v b hv => hM v b (i4 v b hv), by rw [i2 M hM, i1]⟩, j4, fun e he => ⟨hu e (i3 e he), by rw [i1]; exact j7 e he⟩⟩

/-- C35 (part): an equality over distinct variables with weights ±1 whose literal `W` is true at the top level is exact: a conflict
means that there is no solution, otherwise the two constraints left behind have exactly the solutions of the equality.
Missing: other weights and a literal `W` that is not true at the top level, for which the claim is false (`C35_division`,
`C35_soft`). -/
theorem C35_cardinality_partial {explicit addSat : Bool} {top : Top} {W : Lit} {lits : List WL} {bound : Int}
    {res : Option (List Made)} (h : createCon true explicit addSat top W lits bound = .ok res) (hW : top W.var = some W.tv)
    (hu : ∀ e ∈ lits, e.w = 1 ∨ e.w = -1) (hnd : (lits.map fun e => e.lit.var).Nodup) :
    (res = none → ∀ M, ext M top → ¬ eqHolds M lits bound) ∧
    ∀ ms, res = some ms → ∀ M, (ext M top ∧ eqHolds M lits bound) ↔ (ext M top ∧ ∀ m ∈ ms, m.models M) := by
  unfold createCon at h
  obtain ⟨b, hb, h⟩ := bind_ok.1 h
  simp only [if_true] at hb h
  obtain ⟨rfl, _⟩ := chk_ok.1 hb
  obtain ⟨r, hr, h⟩ := bind_ok.1 h
  obtain ⟨_, hn⟩ := C21_create hr
  obtain ⟨hu1, hv⟩ := create_unit hr hu hnd
  obtain ⟨p, hp, h⟩ := bind_ok.1 h
  obtain ⟨c1, c2⟩ := C21_doCreate hn hp
  have hneg : ∀ M, ext M top → ¬ M.sat W.neg := fun M hM => by rw [Asg.sat_neg, not_not]; exact ext_sat hM hW
  have hfst : ∀ M, ext M top → (iffHolds M W.neg r.lits r.bound ↔ val M lits ≤ bound) := by
    intro M hM
    unfold iffHolds holds
    have h1 := hv M hM
    have h2 := hneg M hM
    simp only [h2, false_iff]; omega
  cases p with
  | none =>
    simp only [Except.ok.injEq] at h; subst h
    exact ⟨fun _ M hM hi => c1 rfl M hM ((hfst M hM).2 (le_of_eq hi)), by simp⟩
  | some q =>
    obtain ⟨m1, r'⟩ := q
    dsimp only at h
    obtain ⟨d1, d2, d3⟩ := doCreate_unit hn hW hu1 hp
    obtain ⟨b2, hb2, h⟩ := bind_ok.1 h
    obtain ⟨rfl, _⟩ := chk_ok.1 hb2
    rw [recoef_id (fun e he => by have := d3 e he; omega)] at h
    obtain ⟨⟨ls, s⟩, hls, h⟩ := bind_ok.1 h
    simp only [Except.ok.injEq, Prod.mk.injEq] at hls
    obtain ⟨rfl, rfl⟩ := hls
    obtain ⟨p0, hp0, h⟩ := bind_ok.1 h
    have hn2 : Normal m1.top ⟨r'.lits, r'.bound - 1, r'.reach⟩ :=
      ⟨d2.pos, d2.sorted, d2.nodup, d2.free, d2.reach, fun e he => by have := d3 e he; dsimp only; omega⟩
    obtain ⟨k1, k2⟩ := C21_doCreate hn2 hp0
    have hm1 := c2 m1 r' rfl
    have hsnd : ∀ M, ext M m1.top → (iffHolds M W r'.lits (r'.bound - 1) ↔ bound ≤ val M lits) := by
      intro M hM
      obtain ⟨g1, g2⟩ := d1 M hM
      have h1 := hv M g1
      have h2 : M.sat W := ext_sat g1 hW
      unfold iffHolds holds
      simp only [h2, true_iff]; omega
    cases p0 with
    | none =>
      simp only [Except.ok.injEq] at h; subst h
      refine ⟨fun _ M hM hi => ?_, by simp⟩
      have h1 := ((hm1 M).1 ⟨hM, (hfst M hM).2 (le_of_eq hi)⟩).1
      exact k1 rfl M h1 ((hsnd M h1).2 (le_of_eq hi.symm))
    | some q0 =>
      obtain ⟨m0, r0⟩ := q0
      simp only [Except.ok.injEq] at h; subst h
      refine ⟨by simp, ?_⟩
      intro ms e M
      simp only [Option.some.injEq] at e; subst e
      simp only [List.mem_cons, List.not_mem_nil, or_false, forall_eq_or_imp, forall_eq]
      constructor
      · rintro ⟨hM, hi⟩
        have h1 := (hm1 M).1 ⟨hM, (hfst M hM).2 (le_of_eq hi)⟩
        exact ⟨hM, h1, (k2 m0 r0 rfl M).1 ⟨h1.1, (hsnd M h1.1).2 (le_of_eq hi.symm)⟩⟩
      · rintro ⟨hM, h1, h2⟩
        refine ⟨hM, ?_⟩
        have h3 := (hfst M hM).1 ((hm1 M).2 h1).2
        have h4 := (hsnd M h1.1).1 ((k2 m0 r0 rfl M).2 h2).2
        exact le_antisymm h3 h4

/-! ## Concrete cases -/

namespace EqEx

/-- Specification (test data): variables 1, 2, 3; the literal with variable 0 is true at the top level. -/
def x : Lit := ⟨1, false⟩
def y : Lit := ⟨2, false⟩
def z : Lit := ⟨3, false⟩
def tt : Lit := ⟨0, false⟩
def top0 : Top := fun v => if v = 0 then some true else none

/-- The literal `tt` is true at the top level. -/
example : top0 tt.var = some tt.tv := rfl

/-- `x - y + z = 1`: the call succeeds with two constraints, so the hypotheses of `C35_cardinality_partial` are met. -/
example : (createCon true false false top0 tt [⟨x, 1⟩, ⟨y, -1⟩, ⟨z, 1⟩] 1).toOption.map (fun o => o.map List.length) = some (some 2) := by
  decide +kernel

/-- `3x + 2y + 2z - x >= 4` with a free literal: the call succeeds (hypothesis of `C21_makeCon_partial`). -/
example : (createCon false false false top0 ⟨4, false⟩ [⟨x, 3⟩, ⟨y, 2⟩, ⟨z, 2⟩, ⟨x, -1⟩] 4).toOption.map (fun o => o.map List.length)
    = some (some 1) := by decide +kernel

/-- `2x + 2~y - 3z >= 1`, `3x + 2y >= 4`: normal forms computed without failure (hypothesis of `C21_create`). -/
example : ∃ r, create top0 [⟨x, 2⟩, ⟨y.neg, 2⟩, ⟨z, -3⟩] 1 = .ok r := C21_total (by decide +kernel)
example : create top0 [⟨x, 3⟩, ⟨tt, 2⟩, ⟨y, 2⟩, ⟨x.neg, 1⟩] 5 = .ok ⟨[⟨x, 1⟩, ⟨y, 1⟩], 1, 2⟩ := by decide +kernel
/-- `C21_total` applies to it. -/
example : |(1 : Int)| + 2 * mass [⟨x, 2⟩, ⟨y.neg, 2⟩, ⟨z, -3⟩] ≤ 2 ^ 30 := by decide +kernel
/-- With `W` true, `3x + 2y + 2z >= 6`: backward propagation makes `x` true and divides the rest (`C21_propagate`, `C21_doCreate`). -/
example : (propagate top0 tt ⟨[⟨x, 3⟩, ⟨y, 2⟩, ⟨z, 2⟩], 5, 7⟩).toOption.map (fun o => o.map (fun q => (q.1 1, q.2)))
    = some (some (some true, ⟨[⟨y, 1⟩, ⟨z, 1⟩], 1, 2⟩)) := by decide +kernel

end EqEx

open EqEx

/-- C21: a value outside the 32-bit range is not always reported: for the single literal `x` with weight `2^30+1` and the same bound,
the rounding `bound + (minW - 1)` overflows although literal, bound and sum are in range, and no error is raised. -/
theorem C21_overflow_witness : create top0 [⟨x, 2 ^ 30 + 1⟩] (2 ^ 30 + 1) = .error .overflow := by decide +kernel

/-- C35 fails for other weights: `2x + 2y = 3` has no solution, but the constraints created for it are satisfied if exactly one of
`x`, `y` is true. -/
theorem C35_division : (¬ ∃ M, eqHolds M [⟨x, 2⟩, ⟨y, 2⟩] 3) ∧
    ∃ ms, createCon true true false top0 tt [⟨x, 2⟩, ⟨y, 2⟩] 3 = .ok (some ms) ∧
      ∃ M, ext M top0 ∧ ∀ m ∈ ms, m.models M := by
  refine ⟨?_, ?_⟩
  · rintro ⟨M, hM⟩
    unfold eqHolds at hM
    simp only [val_cons, val_nil] at hM
    split_ifs at hM <;> omega
  · refine ⟨[⟨top0, [], some (tt.neg, ⟨[⟨x, 1⟩, ⟨y, 1⟩], 2, 2⟩)⟩, ⟨top0, [], some (tt, ⟨[⟨x, 1⟩, ⟨y, 1⟩], 1, 2⟩)⟩], rfl, ?_⟩
    refine ⟨fun v => v == 0 || v == 1, ?_, ?_⟩
    · intro v b hv; simp only [top0] at hv; split at hv
      · rename_i h; subst h; simpa using hv
      · cases hv
    · intro m hm
      simp only [List.mem_cons, List.not_mem_nil, or_false] at hm
      have hext : ext (fun v => v == 0 || v == 1) top0 := by
        intro v b hv; simp only [top0] at hv; split at hv
        · rename_i h; subst h; simpa using hv
        · cases hv
      rcases hm with rfl | rfl
      · refine ⟨hext, by simp, fun W r e => ?_⟩
        simp only [Option.some.injEq, Prod.mk.injEq] at e; obtain ⟨rfl, rfl⟩ := e
        unfold iffHolds holds; decide
      · refine ⟨hext, by simp, fun W r e => ?_⟩
        simp only [Option.some.injEq, Prod.mk.injEq] at e; obtain ⟨rfl, rfl⟩ := e
        unfold iffHolds holds; decide

/-- C35 fails for a literal that is not assigned: for `W == (x + y = 1)` the constraints created exclude every assignment with
`W` false, although such assignments with `x + y = 2` satisfy the documented meaning. -/
theorem C35_soft : ∃ ms, createCon true true false (fun _ => none) z [⟨x, 1⟩, ⟨y, 1⟩] 1 = .ok (some ms) ∧
    (∀ M, (∀ m ∈ ms, m.models M) → M.sat z) ∧ ∃ M : Asg, (M.sat z ↔ eqHolds M [⟨x, 1⟩, ⟨y, 1⟩] 1) ∧ ¬ M.sat z := by
  refine ⟨[⟨fun _ => none, [], some (z.neg, ⟨[⟨x, 1⟩, ⟨y, 1⟩], 2, 2⟩)⟩, ⟨fun _ => none, [], some (z, ⟨[⟨x, 1⟩, ⟨y, 1⟩], 1, 2⟩)⟩], rfl, ?_, ?_⟩
  · intro M hM
    have h1 := (hM _ (.head _)).2.2 _ _ rfl
    have h2 := (hM _ (.tail _ (.head _))).2.2 _ _ rfl
    unfold iffHolds holds at h1 h2
    by_contra hz
    have h3 := h1.1 (by rw [Asg.sat_neg]; exact hz)
    exact hz (h2.2 (by dsimp only at h3 ⊢; omega))
  · refine ⟨fun v => v == 1 || v == 2, ?_, ?_⟩
    · unfold eqHolds; decide
    · decide

end Clasp.Weight
