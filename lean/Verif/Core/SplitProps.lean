/-
C24: splitting loses and duplicates nothing.
-/
import Verif.Core.Split
namespace Clasp.Core
open St

namespace Sys
variable {learn : Bool} {n : Nat} {E : Asg → Prop} {P : Nat → Bool} {x y : Sys} {O : List (List Lit)}

/-! ### Specification -/

/-- Specification: 1 if the assignment satisfies the literals, 0 otherwise -/
def inPath (M : Asg) (l : List Lit) : Nat := if l.all (fun q => M q.var == q.tv) = true then 1 else 0

/-- Specification: how many of the open paths contain the assignment -/
def Par.count (p : Par) (M : Asg) : Nat := (p.work.map (inPath M)).sum + (p.act.map fun x => inPath M x.asm).sum

/-- Specification: the constraints only concern the variables `0..n` -/
def Support (n : Nat) (E : Asg → Prop) : Prop := ∀ M, E M → ∀ v, n < v → M v = false

theorem inPath_eq (M : Asg) (l : List Lit) [Decidable (M.all l)] : inPath M l = if M.all l then 1 else 0 := by
  unfold inPath
  congr 1
  simp [Asg.all, Asg.sat]

theorem inPath_pos {M : Asg} {l : List Lit} (h : M.all l) : inPath M l = 1 := by
  classical
  rw [inPath_eq, if_pos h]

theorem inPath_zero {M : Asg} {l : List Lit} (h : ¬ M.all l) : inPath M l = 0 := by
  classical
  rw [inPath_eq, if_neg h]

theorem inPath_congr {M : Asg} {l l' : List Lit} (h : M.all l ↔ M.all l') : inPath M l = inPath M l' := by
  classical
  rw [inPath_eq, inPath_eq]
  simp only [h]

theorem sum_zero {α : Type} (f : α → Nat) : ∀ (l : List α) (z : α), z ∈ l → (l.map f).sum = 0 → f z = 0 := by
  intro l
  induction l with
  | nil => intro z hz; simp at hz
  | cons a l ih =>
    intro z hz h0
    rw [List.map_cons, List.sum_cons] at h0
    rcases List.mem_cons.1 hz with rfl | hz
    · omega
    · exact ih z hz (by omega)

/-! ### Splitting -/

theorem splittable_iff (s : St) (frozen aux : Nat → Bool) : s.splittable frozen aux = true ↔
    s.dl ≠ s.root ∧ frozen (s.root + 1) = false ∧ (∀ i, 1 ≤ i → i ≤ s.root + 1 → aux (s.decision i).var = false) ∧
    ∀ y ∈ s.imp, y.ante = none → y.lev ≤ s.root + 1 → aux y.lit.var = false := by
  unfold splittable
  split
  · rename_i h
    simp only [Bool.or_eq_true, beq_iff_eq] at h
    refine ⟨fun h => by simp at h, fun ⟨h1, h2, _⟩ => ?_⟩
    rcases h with h | h
    · exact absurd h h1
    · rw [h] at h2; simp at h2
  · rename_i h
    simp only [Bool.or_eq_true, beq_iff_eq, not_or, Bool.not_eq_true] at h
    split
    · rename_i h2
      obtain ⟨i, hi, ha⟩ := List.any_eq_true.1 h2
      refine ⟨fun h => by simp at h, fun ⟨_, _, h3, _⟩ => ?_⟩
      rw [h3 (i + 1) (by omega) (by have := List.mem_range.1 hi; omega)] at ha
      simp at ha
    · rename_i h2
      simp only [List.any_eq_true, not_exists, not_and, List.mem_range, Bool.not_eq_true] at h2
      rw [Bool.not_eq_true', List.any_eq_false]
      constructor
      · intro h3
        refine ⟨h.1, h.2, fun i h4 h5 => ?_, fun y hy hn hl => ?_⟩
        · have := h2 (i - 1) (by omega)
          rwa [show i - 1 + 1 = i by omega] at this
        · have := h3 y hy
          rw [hn] at this
          simp at this
          exact this (by omega)
      · intro ⟨_, _, h3, h4⟩ y hy
        simp only [Bool.and_eq_true, Option.isNone_iff_eq_none, decide_eq_true_eq, not_and, Bool.not_eq_true]
        intro hn
        exact h4 y hy hn.1 (by omega)

/-- **C24 (refused).** A split is refused if and only if there is no decision above the root level, that level is frozen, or the path
would contain a variable only this solver knows: a decision, or a literal without reason. -/
theorem C24_refused (s : St) (frozen aux : Nat → Bool) : s.split frozen aux = none ↔
    s.dl = s.root ∨ frozen (s.root + 1) = true ∨ (∃ i, 1 ≤ i ∧ i ≤ s.root + 1 ∧ aux (s.decision i).var = true) ∨
    ∃ y ∈ s.imp, y.ante = none ∧ y.lev ≤ s.root + 1 ∧ aux y.lit.var = true := by
  have h := splittable_iff s frozen aux
  unfold St.split
  by_cases hs : s.splittable frozen aux = true
  · rw [if_pos hs]
    obtain ⟨h1, h2, h3, h4⟩ := h.1 hs
    refine ⟨fun h => by simp at h, ?_⟩
    rintro (h5 | h5 | ⟨i, h5, h6, h7⟩ | ⟨y, h5, h6, h7, h8⟩)
    · exact absurd h5 h1
    · rw [h5] at h2; simp at h2
    · rw [h3 i h5 h6] at h7; simp at h7
    · rw [h4 y h5 h6 h7] at h8; simp at h8
  · rw [if_neg hs]
    refine ⟨fun _ => ?_, fun _ => rfl⟩
    by_contra hc
    simp only [not_or, not_exists, not_and, Bool.not_eq_true] at hc
    exact hs (h.2 ⟨hc.1, hc.2.1, hc.2.2.1, hc.2.2.2⟩)

theorem split_eq {s s' : St} {frozen aux : Nat → Bool} {out : List Lit} (hrd : s.root ≤ s.dl) (h : s.split frozen aux = some (s', out)) :
    s.root < s.dl ∧ s' = s.pushRootLevel 1 ∧ out = s.guidingPath aux ++ [(s.decision (s.root + 1)).neg] := by
  unfold St.split at h
  split at h
  · rename_i hs
    simp only [Option.some.injEq, Prod.mk.injEq] at h
    have h1 := ((splittable_iff s frozen aux).1 hs).1
    have hlt : s.root < s.dl := by omega
    refine ⟨hlt, h.1.symm, ?_⟩
    rw [← h.2]
    congr 1
    have : (s.pushRootLevel 1).root = s.root + 1 := by
      show min s.dl (s.root + 1) = _
      omega
    rw [this]
    rfl
  · simp at h

/-- what the path given away contains -/
theorem mem_guiding {s : St} {frozen aux : Nat → Bool} (hs : s.splittable frozen aux = true) (q : Lit) :
    q ∈ s.guidingPath aux ↔ (∃ i, 1 ≤ i ∧ i ≤ s.root ∧ q = s.decision i) ∨ ∃ y ∈ s.imp, y.lev ≤ s.root ∧ aux y.lit.var = false ∧ q = y.lit := by
  obtain ⟨_, _, h3, h4⟩ := (splittable_iff s frozen aux).1 hs
  have hal : s.auxLevel aux = s.root + 1 := by
    unfold auxLevel
    split
    · rename_i i hi
      have h5 := List.find?_some hi
      have h6 := List.mem_range.1 (List.mem_of_find?_eq_some hi)
      rw [h3 (i + 1) (by omega) (by omega)] at h5
      simp at h5
    · rfl
  unfold guidingPath
  rw [List.mem_append, List.mem_filter, List.mem_map, List.mem_map, hal]
  constructor
  · rintro (⟨⟨i, hi, rfl⟩, _⟩ | ⟨y, hy, rfl⟩)
    · exact Or.inl ⟨i + 1, by omega, by have := List.mem_range.1 hi; omega, rfl⟩
    · obtain ⟨hy, h5⟩ := List.mem_filter.1 hy
      simp only [Bool.and_eq_true, decide_eq_true_eq, Bool.not_eq_true'] at h5
      exact Or.inr ⟨y, hy, h5.1.1, h5.2, rfl⟩
  · rintro (⟨i, h5, h6, rfl⟩ | ⟨y, hy, h5, h6, rfl⟩)
    · left
      refine ⟨⟨i - 1, List.mem_range.2 (by omega), by rw [show i - 1 + 1 = i by omega]⟩, ?_⟩
      rw [h3 i h5 (by omega)]; rfl
    · right
      refine ⟨y, List.mem_filter.2 ⟨hy, ?_⟩, rfl⟩
      simp only [Bool.and_eq_true, decide_eq_true_eq, Bool.not_eq_true', Bool.or_eq_true]
      exact ⟨⟨h5, Or.inr (by omega)⟩, h6⟩

/-- **C24 (local variables).** The path given away contains no variable that only this solver knows. -/
theorem C24_local (s : St) (frozen aux : Nat → Bool) (hrd : s.root ≤ s.dl) {s' : St} {out : List Lit} (h : s.split frozen aux = some (s', out)) :
    ∀ q ∈ out, aux q.var = false := by
  have hs : s.splittable frozen aux = true := by
    by_contra hs
    unfold St.split at h
    rw [if_neg hs] at h; simp at h
  obtain ⟨_, _, rfl⟩ := split_eq hrd h
  obtain ⟨_, _, h3, h4⟩ := (splittable_iff s frozen aux).1 hs
  intro q hq
  rcases List.mem_append.1 hq with hq | hq
  · rcases (mem_guiding hs q).1 hq with ⟨i, h5, h6, rfl⟩ | ⟨y, hy, h5, h6, rfl⟩
    · exact h3 i h5 (by omega)
    · exact h6
  · rw [List.mem_singleton.1 hq]
    exact h3 _ (by omega) (Nat.le_refl _)

theorem popped_conflict {s : St} (hn : n < varMax) (hi : x.Inv learn n E P) (hl : Leave learn n E x s) (h0 : 0 < x.st.root) :
    (s.popRootLevel learn x.st.root).2 = true ↔ (s.popRootLevel learn x.st.root).1.conflict = [] := by
  obtain ⟨u, T, e, hok, _⟩ := hl.spec hi hn h0
  exact (popRoot_spec (e ▸ hok.inv : s.clearStopConflict.Inv learn _) x.st.root).2.2.2.2.2

theorem Sol.inv (hn : n < varMax) (hE : Support n E) (h : Sol learn n E P x) : x.Inv learn n E P ∧ x.recs = [] := by
  induction h with
  | init => exact ⟨Inv.init, rfl⟩
  | step _ hs ih =>
    obtain ⟨hi, hr⟩ := ih
    cases hs with
    | step hs hr' => exact ⟨hi.step hn hs, hr'⟩
    | assume p hc hd hf hp hv => exact ⟨hi.assume hc hd hf hp hv hr, hr⟩
    | assumeTrue p hc hd hp => exact ⟨hi.assumeTrue hd hp hr, hr⟩
    | split frozen aux s' out hc hs =>
      have hb := hi.ok.inv.base
      obtain ⟨h1, rfl, _⟩ := split_eq (Nat.le_trans hb.wf.rf hb.wf.fd) hs
      exact ⟨hi.split hc h1 hr, hr⟩
    | renew s f hl h0 hc hf hf' => exact ⟨hi.renew hn hE hl h0 hr ((popped_conflict hn hi hl h0).1 hc) hf hf', hr⟩

theorem eq_of_agree (hE : Support n E) {M M' : Asg} (h1 : M.sat litTrue) (h2 : E M) (h3 : M'.sat litTrue) (h4 : E M')
    (h : agreeOn (fun _ => true) n M M') : M = M' := by
  funext v
  by_cases hv0 : v = 0
  · subst hv0; exact Eq.trans h1 h3.symm
  · by_cases hv : v ≤ n
    · exact h v (by omega) hv rfl
    · rw [hE M h2 v (by omega), hE M' h4 v (by omega)]

theorem todo_of (hE : Support n E) (hi : x.Inv learn n E P) (hr : x.recs = []) {M : Asg} (hM : problem E x.orig M) (hf : M ∉ x.found) : x.todo E n M := by
  refine ⟨⟨⟨hM.1, hM.2.1, hM.2.2⟩, by rw [hr]; simp⟩, fun M' hM' ha => ?_⟩
  have hc := (hi.fnd M' hM').1.1
  rw [eq_of_agree hE hM.1 hM.2.1 hc.1 hc.2.1 ha] at hf
  exact hf hM'

/-- **C24 (split).** For every state of every solver: the path given away and the path kept are disjoint, for the models that are
still to be found both together are the same as the path before, and the path given away contains none of the models that this solver has
reported; the solver that keeps its part remains a correct solver. -/
theorem C24_split (hn : n < varMax) (hE : Support n E) (hx : Sol learn n E P x) (hc : x.st.conflict = []) {frozen aux : Nat → Bool} {s' : St}
    {out : List Lit} (h : x.st.split frozen aux = some (s', out)) :
    Sol learn n E P (x.giver s') ∧ (x.giver s').orig = x.orig ∧ (x.giver s').found = x.found ∧ (∀ M : Asg, ¬ (M.all (x.giver s').asm ∧ M.all out)) ∧
      (∀ M, problem E x.orig M → M ∉ x.found → (M.all x.asm ↔ M.all (x.giver s').asm ∨ M.all out)) ∧ ∀ M ∈ x.found, ¬ M.all out := by
  obtain ⟨hi, hr⟩ := hx.inv hn hE
  have hb := hi.ok.inv.base
  have hrd : x.st.root ≤ x.st.dl := Nat.le_trans hb.wf.rf hb.wf.fd
  have hsp : x.st.splittable frozen aux = true := by
    by_contra hs
    unfold St.split at h
    rw [if_neg hs] at h; simp at h
  have hsol := hx.step (.split frozen aux s' out hc h)
  obtain ⟨h1, rfl, rfl⟩ := split_eq hrd h
  have hg := mem_guiding hsp
  have hneg : ∀ M : Asg, M.all (x.st.guidingPath aux ++ [(x.st.decision (x.st.root + 1)).neg]) → ¬ M.sat (x.st.decision (x.st.root + 1)) := by
    intro M hM
    exact (Asg.sat_neg M _).1 (hM _ (by simp))
  refine ⟨hsol, rfl, rfl, fun M ⟨ha, hb⟩ => ?_, fun M hM hf => ?_, fun M hM ha => ?_⟩
  · exact hneg M hb (ha (x.st.decision (x.st.root + 1)) (List.mem_cons_self ..))
  · have htd := todo_of hE hi hr hM hf
    have hG : (x.th E n).G M := ⟨htd, hi.zero M htd⟩
    have hasm : x.db.st.pathSat M x.st.root → M.all x.asm := by
      intro hp a ha
      obtain ⟨a1, a2⟩ := hi.asm a ha
      exact hi.ok.inv.sound.impl_tl a1 hG a2 hp
    constructor
    · intro ha
      have hp : x.db.st.pathSat M x.st.root := fun i j1 j2 => ha _ (hi.root i j1 j2)
      by_cases hd : M.sat (x.st.decision (x.st.root + 1))
      · left
        intro q hq
        rcases List.mem_cons.1 hq with rfl | hq
        · exact hd
        · exact ha q hq
      · right
        intro q hq
        rcases List.mem_append.1 hq with hq | hq
        · rcases (hg q).1 hq with ⟨i, j1, j2, rfl⟩ | ⟨y, hy, hl, _, rfl⟩
          · exact hp i j1 j2
          · cases hya : y.ante with
            | none =>
              obtain ⟨t1, t2⟩ := hi.ok.inv.imp.nul y hy hya
              exact hi.ok.inv.sound.impl_tl (Or.inr t1) hG (by rw [t2]; exact hl) hp
            | some r =>
              obtain ⟨t1, t2⟩ := hi.ok.inv.imp.snd y hy r hya
              exact t2 M ((x.th E n).sub M hG) fun q hq => hi.ok.inv.sound.impl_tl (t1 q hq).1 hG (Nat.le_trans (t1 q hq).2 hl) hp
        · rw [List.mem_singleton.1 hq]
          exact (Asg.sat_neg M _).2 hd
    · rintro (ha | ha)
      · exact fun q hq => ha q (List.mem_cons_of_mem _ hq)
      · exact hasm fun i j1 j2 => ha _ (List.mem_append.2 (Or.inl ((hg _).2 (Or.inl ⟨i, j1, j2, rfl⟩))))
  · obtain ⟨f1, k, hk, f3, f4, q, hq, hl, hns, hv, y, hy, rfl, hyl, hya⟩ := hi.fnd M hM
    by_cases hkr : k ≤ x.st.root
    · cases hyn : y.ante with
      | none =>
        refine hns (ha _ (List.mem_append.2 (Or.inl ((hg _).2 (Or.inr ⟨y, hy, Nat.le_trans hyl hkr, ?_, rfl⟩)))))
        exact ((splittable_iff x.st frozen aux).1 hsp).2.2.2 y hy hyn (by omega)
      | some r =>
        have hlt : y.lev < k := by
          rcases hya with hya | hya
          · rw [hyn] at hya; simp at hya
          · exact hya
        obtain ⟨t1, t2⟩ := hi.ok.inv.imp.snd y hy r hyn
        refine hns (t2 M ⟨f1, fun q hq hl => f4 q hq (by omega)⟩ fun q hq => ?_)
        obtain ⟨q1, q2⟩ := t1 q hq
        rcases q1 with rfl | q1
        · exact f1.1.1
        · exact f4 q q1 (Nat.lt_of_le_of_lt q2 hlt)
    · exact hneg M ha (f3 _ (by omega) (by omega))

/-! ### Parallel search -/

/-- Proof device: invariant of the parallel search. -/
structure PInv (learn : Bool) (n : Nat) (E : Asg → Prop) (P : Nat → Bool) (O : List (List Lit)) (path : List Lit) (p : Par) : Prop where
  act : ∀ x ∈ p.act, Sol learn n E P x ∧ x.orig = O ∧ ∀ M ∈ x.found, M ∈ p.rep
  idle : ∀ x ∈ p.idle, Sol learn n E P x ∧ x.orig = O ∧ ∀ M ∈ x.found, M ∈ p.rep
  nodup : p.rep.Nodup
  mods : ∀ M ∈ p.rep, problem E O M ∧ M.all path
  opn : ∀ M, problem E O M → M ∉ p.rep → p.count M = inPath M path
  work : ∀ M ∈ p.rep, ∀ w ∈ p.work, ¬ M.all w
  own : ∀ M ∈ p.rep, ∀ x ∈ p.act, M.all x.asm → M ∈ x.found

theorem step_found {m : List Asg} (hs : Step learn n E P x y) (hm : y.found = m ++ x.found) :
    m = [] ∨ (m = [x.st.model] ∧ x.st.Total n ∧ E x.st.model) := by
  have key : y.found = x.found → m = [] := by
    intro h
    rw [h] at hm
    have := congrArg List.length hm
    simp at this
    exact this
  cases hs with
  | modelBt ht hE s' hu =>
    right
    refine ⟨?_, ht, hE⟩
    have : [x.st.model] ++ x.found = m ++ x.found := hm
    exact (List.append_cancel_right this).symm
  | _ => exact Or.inl (key rfl)

theorem par_inv (hn : n < varMax) (hE : Support n E) {path : List Lit} {p : Par} (h : PReach learn n E P O path p) : PInv learn n E P O path p := by
  induction h with
  | init => exact ⟨by simp, by simp, by simp, by simp, fun M _ _ => by simp [Par.count], by simp, by simp⟩
  | step _ hs ih =>
    cases hs with
    | @attach w a i r x hx ho hf =>
      refine ⟨ih.act, fun y hy => ?_, ih.nodup, ih.mods, ih.opn, ih.work, ih.own⟩
      rcases List.mem_cons.1 hy with rfl | hy
      · exact ⟨hx, ho, by rw [hf]; simp⟩
      · exact ih.idle y hy
    | @prepare w a i1 i2 r x y hs ho hf =>
      refine ⟨ih.act, fun z hz => ?_, ih.nodup, ih.mods, ih.opn, ih.work, ih.own⟩
      have hx := ih.idle x (by simp)
      rcases List.mem_append.1 hz with hz | hz
      · exact ih.idle z (by simp [hz])
      · rcases List.mem_cons.1 hz with rfl | hz
        · exact ⟨hx.1.step hs, ho.trans hx.2.1, fun M hM => hx.2.2 M (hf M hM)⟩
        · exact ih.idle z (by simp [hz])
    | @take w1 w2 p a i1 i2 r x hp ha =>
      have hx := ih.idle x (by simp)
      have hiff : ∀ M, problem E O M → (M.all x.asm ↔ M.all p) := fun M hM =>
        ⟨fun h q hq => h q (hp q hq), fun h q hq => (ha q hq).elim (h q) (fun h => h M hM)⟩
      refine ⟨fun y hy => ?_, fun y hy => ?_, ih.nodup, ih.mods, fun M hM hr => ?_, fun M hM w hw => ih.work M hM w ?_, fun M hM y hy hya => ?_⟩
      · rcases List.mem_cons.1 hy with rfl | hy
        · exact hx
        · exact ih.act y hy
      · refine ih.idle y ?_
        rcases List.mem_append.1 hy with hy | hy <;> simp [hy]
      · rw [← ih.opn M hM hr]
        simp only [Par.count, List.map_append, List.map_cons, List.sum_append, List.sum_cons, inPath_congr (hiff M hM)]
        omega
      · change w ∈ w1 ++ w2 at hw
        rcases List.mem_append.1 hw with hw | hw <;> simp [hw]
      · rcases List.mem_cons.1 hy with rfl | hy
        · exact absurd ((hiff M (ih.mods M hM).1).1 hya) (ih.work M hM p (by simp))
        · exact ih.own M hM y hy hya
    | @refuse w1 w2 p a i1 i2 r x ha hu =>
      obtain ⟨hx, ho, hxr⟩ := ih.idle x (by simp)
      obtain ⟨hi, hrc⟩ := hx.inv hn hE
      refine ⟨ih.act, ih.idle, ih.nodup, ih.mods, fun M hM hr => ?_, fun M hM w hw => ih.work M hM w ?_, ih.own⟩
      · rw [← ih.opn M hM hr]
        have : inPath M p = 0 := by
          refine inPath_zero fun hall => ?_
          have htd := todo_of hE hi hrc (ho ▸ hM) (fun hf => hr (hxr M hf))
          have hasm : M.all x.asm := fun q hq => (ha q hq).elim (hall q) (fun h => h M hM)
          rcases hu with hu | ⟨hd, q, hq, hq'⟩
          · exact unsat_dead hn hi hu M htd hasm
          · have hb := hi.ok.inv.base
            have ht := (hb.isFalse_iff q).1 hq'
            have hl : x.db.st.level q.neg.var ≤ x.db.st.dl := by
              rcases ht with e | ht
              · rw [e, litTrue_var]; unfold St.level; rw [hb.c0]; simp
              · exact trail_lev_le hb.wf ht
            have := hi.ok.inv.sound.impl_tl ht (M := M) ⟨htd, hi.zero M htd⟩ hl
              (fun i j1 j2 => hasm _ (hi.root i j1 (by show i ≤ x.st.root; rw [← hd]; exact j2)))
            exact (Asg.sat_neg M q).1 this (hall q hq)
        simp only [Par.count, List.map_append, List.map_cons, List.sum_append, List.sum_cons, this]
        omega
      · change w ∈ w1 ++ w2 at hw
        rcases List.mem_append.1 hw with hw | hw <;> simp [hw]
    | @run w a1 a2 i r x y m hs ho hr ha hm =>
      obtain ⟨hx, hxo, hxr⟩ := ih.act x (by simp)
      obtain ⟨hi, hrc⟩ := hx.inv hn hE
      have hcnt : ∀ M, (⟨w, a1 ++ y :: a2, i, m ++ r⟩ : Par).count M = (⟨w, a1 ++ x :: a2, i, r⟩ : Par).count M := by
        intro M
        simp only [Par.count, List.map_append, List.map_cons, List.sum_append, List.sum_cons, ha]
      have hcx : ∀ M, M.all x.asm → 1 ≤ (⟨w, a1 ++ x :: a2, i, r⟩ : Par).count M := by
        intro M hM
        simp only [Par.count, List.map_append, List.map_cons, List.sum_append, List.sum_cons, inPath_pos hM]
        omega
      -- the new model, if any
      have hnew : ∀ M ∈ m, M ∉ r ∧ problem E O M ∧ M.all path ∧ M.all x.asm := by
        intro M hM
        rcases step_found hs hm with rfl | ⟨rfl, ht, hEm⟩
        · simp at hM
        · rw [List.mem_singleton.1 hM]
          obtain ⟨m1, m2⟩ := hi.model ht hEm
          have hpr : problem E O x.st.model := ⟨m1.1.1, m1.1.2.1, by rw [← hxo]; exact m1.1.2.2⟩
          have hnr : x.st.model ∉ r := fun hin => hi.not_found (ih.own _ hin x (by simp) m2) (fun _ _ _ _ => rfl)
          refine ⟨hnr, hpr, ?_, m2⟩
          by_contra hnp
          have := ih.opn _ hpr hnr
          rw [inPath_zero hnp] at this
          have := hcx _ m2
          omega
      have hnd : m.Nodup := by
        rcases step_found hs hm with rfl | ⟨rfl, _, _⟩ <;> simp
      have hyf : ∀ M ∈ y.found, M ∈ m ++ r := fun M hM => by
        rw [hm] at hM
        rcases List.mem_append.1 hM with hM | hM
        · exact List.mem_append_left _ hM
        · exact List.mem_append_right _ (hxr M hM)
      have hle : ∀ M ∈ m, (w.map (inPath M)).sum + ((a1.map fun z => inPath M z.asm).sum + (a2.map fun z => inPath M z.asm).sum) = 0 := by
        intro M hM
        obtain ⟨h1, h2, h3, h4⟩ := hnew M hM
        have := ih.opn M h2 h1
        rw [inPath_pos h3] at this
        simp only [Par.count, List.map_append, List.map_cons, List.sum_append, List.sum_cons, inPath_pos h4] at this
        omega
      refine ⟨fun z hz => ?_, fun z hz => ?_, ?_, fun M hM => ?_, fun M hM hnr => ?_, fun M hM w' hw => ?_, fun M hM z hz hza => ?_⟩
      · rcases List.mem_append.1 hz with hz | hz
        · have := ih.act z (by simp [hz])
          exact ⟨this.1, this.2.1, fun M hM => List.mem_append_right _ (this.2.2 M hM)⟩
        · rcases List.mem_cons.1 hz with rfl | hz
          · exact ⟨hx.step (.step hs hr), ho.trans hxo, hyf⟩
          · have := ih.act z (by simp [hz])
            exact ⟨this.1, this.2.1, fun M hM => List.mem_append_right _ (this.2.2 M hM)⟩
      · have := ih.idle z hz
        exact ⟨this.1, this.2.1, fun M hM => List.mem_append_right _ (this.2.2 M hM)⟩
      · refine List.nodup_append'.2 ⟨hnd, ih.nodup, fun M h1 h2 => (hnew M h1).1 h2⟩
      · rcases List.mem_append.1 hM with hM | hM
        · exact ⟨(hnew M hM).2.1, (hnew M hM).2.2.1⟩
        · exact ih.mods M hM
      · rw [hcnt]
        exact ih.opn M hM (fun h => hnr (List.mem_append_right _ h))
      · rcases List.mem_append.1 hM with hM | hM
        · intro hall
          have := sum_zero (inPath M) w w' hw (by have := hle M hM; omega)
          rw [inPath_pos hall] at this
          simp at this
        · exact ih.work M hM w' hw
      · rcases List.mem_append.1 hM with hm' | hm'
        · rcases List.mem_append.1 hz with hz | hz
          · have := sum_zero (fun z : Sys => inPath M z.asm) a1 z hz (by have := hle M hm'; omega)
            rw [inPath_pos hza] at this
            simp at this
          · rcases List.mem_cons.1 hz with rfl | hz
            · rw [hm]; exact List.mem_append_left _ hm'
            · have := sum_zero (fun z : Sys => inPath M z.asm) a2 z hz (by have := hle M hm'; omega)
              rw [inPath_pos hza] at this
              simp at this
        · rcases List.mem_append.1 hz with hz | hz
          · exact ih.own M hm' z (by simp [hz]) hza
          · rcases List.mem_cons.1 hz with rfl | hz
            · rw [hm]
              rw [ha] at hza
              exact List.mem_append_right _ (ih.own M hm' x (by simp) hza)
            · exact ih.own M hm' z (by simp [hz]) hza
    | @split w a1 a2 i r x frozen aux s' out hc hs =>
      obtain ⟨hx, hxo, hxr⟩ := ih.act x (by simp)
      obtain ⟨hi, hrc⟩ := hx.inv hn hE
      obtain ⟨k1, k2, k3, k4, k5, k6⟩ := C24_split hn hE hx hc hs
      have hgx : ∀ M : Asg, M.all (x.giver s').asm → M.all x.asm := fun M hM q hq => hM q (List.mem_cons_of_mem _ hq)
      refine ⟨fun z hz => ?_, ih.idle, ih.nodup, ih.mods, fun M hM hnr => ?_, fun M hM w' hw => ?_, fun M hM z hz hza => ?_⟩
      · rcases List.mem_append.1 hz with hz | hz
        · exact ih.act z (by simp [hz])
        · rcases List.mem_cons.1 hz with rfl | hz
          · exact ⟨k1, k2.trans hxo, by rw [k3]; exact hxr⟩
          · exact ih.act z (by simp [hz])
      · rw [← ih.opn M hM hnr]
        have e2 := k5 M (hxo ▸ hM) (fun hf => hnr (hxr M hf))
        have e1 := k4 M
        have : inPath M x.asm = inPath M (x.giver s').asm + inPath M out := by
          by_cases g1 : M.all (x.giver s').asm <;> by_cases g2 : M.all out
          · exact absurd ⟨g1, g2⟩ e1
          · rw [inPath_pos (e2.2 (Or.inl g1)), inPath_pos g1, inPath_zero g2]
          · rw [inPath_pos (e2.2 (Or.inr g2)), inPath_zero g1, inPath_pos g2]
          · rw [inPath_zero (fun h => (e2.1 h).elim g1 g2), inPath_zero g1, inPath_zero g2]
        simp only [Par.count, List.map_append, List.map_cons, List.sum_append, List.sum_cons, this, List.map_nil, List.sum_nil]
        omega
      · rcases List.mem_append.1 hw with hw | hw
        · exact ih.work M hM w' hw
        · rw [List.mem_singleton.1 hw]
          by_cases hf : M ∈ x.found
          · exact k6 M hf
          · intro hout
            have := (k5 M (hxo ▸ (ih.mods M hM).1) hf).2 (Or.inr hout)
            exact hf (ih.own M hM x (by simp) this)
      · rcases List.mem_append.1 hz with hz | hz
        · exact ih.own M hM z (by simp [hz]) hza
        · rcases List.mem_cons.1 hz with rfl | hz
          · rw [k3]; exact ih.own M hM x (by simp) (hgx M hza)
          · exact ih.own M hM z (by simp [hz]) hza
    | @close w a1 a2 i r x hu =>
      obtain ⟨hx, hxo, hxr⟩ := ih.act x (by simp)
      obtain ⟨hi, hrc⟩ := hx.inv hn hE
      have hsub : ∀ z ∈ a1 ++ a2, z ∈ a1 ++ x :: a2 := fun z hz => by rcases List.mem_append.1 hz with hz | hz <;> simp [hz]
      refine ⟨fun z hz => ih.act z (hsub z hz), fun z hz => ?_, ih.nodup, ih.mods, fun M hM hnr => ?_, ih.work, fun M hM z hz => ih.own M hM z (hsub z hz)⟩
      · rcases List.mem_cons.1 hz with rfl | hz
        · exact ⟨hx, hxo, hxr⟩
        · exact ih.idle z hz
      · rw [← ih.opn M hM hnr]
        have : inPath M x.asm = 0 := inPath_zero (unsat_dead hn hi hu M (todo_of hE hi hrc (hxo ▸ hM) (fun hf => hnr (hxr M hf))))
        simp only [Par.count, List.map_append, List.map_cons, List.sum_append, List.sum_cons, this]
        omega
    | @last w a1 a2 i r x ht hEm hl =>
      obtain ⟨hx, hxo, hxr⟩ := ih.act x (by simp)
      obtain ⟨hi, hrc⟩ := hx.inv hn hE
      have hsub : ∀ z ∈ a1 ++ a2, z ∈ a1 ++ x :: a2 := fun z hz => by rcases List.mem_append.1 hz with hz | hz <;> simp [hz]
      obtain ⟨m1, m2⟩ := hi.model ht hEm
      have hpr : problem E O x.st.model := ⟨m1.1.1, m1.1.2.1, by rw [← hxo]; exact m1.1.2.2⟩
      have hnr : x.st.model ∉ r := fun hin => hi.not_found (ih.own _ hin x (by simp) m2) (fun _ _ _ _ => rfl)
      have hcnt := ih.opn _ hpr hnr
      have hcnt' := hcnt
      simp only [Par.count, List.map_append, List.map_cons, List.sum_append, List.sum_cons, inPath_pos m2] at hcnt'
      have hpath : x.st.model.all path := by
        by_contra hnp
        rw [inPath_zero hnp] at hcnt'
        omega
      rw [inPath_pos hpath] at hcnt'
      refine ⟨fun z hz => ?_, fun z hz => ?_, List.nodup_cons.2 ⟨hnr, ih.nodup⟩, fun M hM => ?_, fun M hM hnr' => ?_, fun M hM w' hw => ?_, fun M hM z hz hza => ?_⟩
      · have := ih.act z (hsub z hz)
        exact ⟨this.1, this.2.1, fun M hM => List.mem_cons_of_mem _ (this.2.2 M hM)⟩
      · rcases List.mem_cons.1 hz with rfl | hz
        · exact ⟨hx, hxo, fun M hM => List.mem_cons_of_mem _ (hxr M hM)⟩
        · have := ih.idle z hz
          exact ⟨this.1, this.2.1, fun M hM => List.mem_cons_of_mem _ (this.2.2 M hM)⟩
      · rcases List.mem_cons.1 hM with rfl | hM
        · exact ⟨hpr, hpath⟩
        · exact ih.mods M hM
      · rw [← ih.opn M hM (fun h => hnr' (List.mem_cons_of_mem _ h))]
        have : inPath M x.asm = 0 := by
          refine inPath_zero fun hall => ?_
          rcases last_dead hn hi hrc ht hl M ⟨hM.1, hM.2.1, by rw [hxo]; exact hM.2.2, hall⟩ with h | ⟨M', hM', h⟩
          · exact hnr' (by rw [eq_of_agree hE hM.1 hM.2.1 hpr.1 hpr.2.1 h]; exact List.mem_cons_self ..)
          · have hc := (hi.fnd M' hM').1.1
            rw [eq_of_agree hE hM.1 hM.2.1 hc.1 hc.2.1 h] at hnr'
            exact hnr' (List.mem_cons_of_mem _ (hxr M' hM'))
        simp only [Par.count, List.map_append, List.map_cons, List.sum_append, List.sum_cons, this]
        omega
      · rcases List.mem_cons.1 hM with rfl | hM
        · intro hall
          have := sum_zero (inPath x.st.model) w w' hw (by omega)
          rw [inPath_pos hall] at this
          simp at this
        · exact ih.work M hM w' hw
      · rcases List.mem_cons.1 hM with rfl | hM
        · rcases List.mem_append.1 hz with hz | hz
          · have := sum_zero (fun z : Sys => inPath x.st.model z.asm) a1 z hz (by omega)
            rw [inPath_pos hza] at this
            simp at this
          · have := sum_zero (fun z : Sys => inPath x.st.model z.asm) a2 z hz (by omega)
            rw [inPath_pos hza] at this
            simp at this
        · exact ih.own M hM z (hsub z hz) hza

/-- **C24 (partition).** Whatever any number of solvers does, with any number of splits and however often solvers change their path: a
model in the initial path that has not been reported belongs to exactly one of the open paths; a model that has been reported belongs to
no path that is waiting, and a solver whose path contains it has reported it itself; models outside the initial path belong to none. -/
theorem C24_partition (hn : n < varMax) (hE : Support n E) {path : List Lit} {p : Par} (h : PReach learn n E P O path p) {M : Asg} (hM : problem E O M) :
    (M.all path → M ∉ p.rep → p.count M = 1) ∧
    (M ∈ p.rep → (∀ w ∈ p.work, ¬ M.all w) ∧ ∀ x ∈ p.act, M.all x.asm → M ∈ x.found) ∧
    (¬ M.all path → M ∉ p.rep ∧ p.count M = 0) := by
  have hi := par_inv hn hE h
  refine ⟨fun h1 h2 => ?_, fun h1 => ⟨hi.work M h1, hi.own M h1⟩, fun h1 => ?_⟩
  · rw [hi.opn M hM h2, inPath_pos h1]
  · have hr : M ∉ p.rep := fun h2 => h1 (hi.mods M h2).2
    exact ⟨hr, by rw [hi.opn M hM hr, inPath_zero h1]⟩

/-- **C24 (once).** The models reported by all solvers together are pairwise different models that satisfy the initial path. -/
theorem C24_once (hn : n < varMax) (hE : Support n E) {path : List Lit} {p : Par} (h : PReach learn n E P O path p) :
    p.rep.Nodup ∧ ∀ M ∈ p.rep, problem E O M ∧ M.all path :=
  ⟨(par_inv hn hE h).nodup, (par_inv hn hE h).mods⟩

/-- **C24 (exhausted).** If no path is open any more, the models reported are exactly the models that satisfy the initial path, each once. -/
theorem C24_exhausted (hn : n < varMax) (hE : Support n E) {path : List Lit} {p : Par} (h : PReach learn n E P O path p) (hw : p.work = []) (ha : p.act = []) :
    p.rep.Nodup ∧ ∀ M, M ∈ p.rep ↔ problem E O M ∧ M.all path := by
  refine ⟨(C24_once hn hE h).1, fun M => ⟨(C24_once hn hE h).2 M, fun ⟨h1, h2⟩ => ?_⟩⟩
  by_contra hr
  have := (C24_partition hn hE h h1).1 h2 hr
  simp [Par.count, hw, ha] at this

/-- **C24 (global conflict).** If a solver that leaves its path has a conflict without any assumption, the search is over: all models that
satisfy the initial path have been reported, whatever the other solvers do. The same holds if its path is exhausted while there is
no decision for it. -/
theorem C24_toplevel (hn : n < varMax) (hE : Support n E) {path : List Lit} {p : Par} (h : PReach learn n E P O path p) (hx : x ∈ p.act ∨ x ∈ p.idle)
    (hc : (∃ s, Leave learn n E x s ∧ 0 < x.st.root ∧ (s.popRootLevel learn x.st.root).2 = false) ∨ (Unsat learn n E x ∧ x.st.root = 0)) :
    ∀ M, problem E O M → M.all path → M ∈ p.rep := by
  intro M hM _
  have hi := par_inv hn hE h
  obtain ⟨hx, hxo, hxr⟩ := hx.elim (hi.act x) (hi.idle x)
  obtain ⟨hi, hrc⟩ := hx.inv hn hE
  by_contra hr
  have htd := todo_of hE hi hrc (hxo ▸ hM) (fun hf => hr (hxr M hf))
  rcases hc with ⟨s, hl, h0, hc⟩ | ⟨hu, h0⟩
  · have := (popped_conflict hn hi hl h0).2 (hl.sat hi hn h0 htd.1 (hi.zero M htd)).1
    rw [hc] at this; simp at this
  · refine unsat_dead hn hi hu M htd fun a ha => ?_
    obtain ⟨a1, a2⟩ := hi.asm a ha
    exact hi.ok.inv.sound.impl_tl a1 ⟨htd, hi.zero M htd⟩ a2 (fun i j1 j2 => by omega)

/-! ### Concrete runs -/

namespace SplitEx
open Ex

/-- Example: assignments of the variables 0, 1, 2 -/
def S2 : Asg → Prop := fun M => ∀ v, 2 < v → M v = false
theorem sup : Support 2 S2 := fun _ h => h

theorem supp {x : Sys} (h : Sol true 2 S2 A x) (ht : ∀ q ∈ x.st.trail, q.var ≤ 2) : S2 x.st.model := by
  intro v hv
  have hb := (h.inv (by decide) sup).1.ok.inv.base
  by_contra hne
  have h1 : x.st.value v ≠ none := by
    intro e
    unfold St.model at hne
    rw [e] at hne; simp at hne
  rcases hb.asg v h1 with rfl | ⟨q, hq, rfl⟩
  · omega
  · have := ht q hq; omega

def dec (x : Sys) (p : Lit) : Sys := x.setSt (x.st.decide' p)

theorem st_next {x : Sys} (hc : x.st.conflict = []) (hs : (x.db.propagate true 20).isSome = true) : Step true 2 S2 A x (next x) := by
  unfold next
  cases hh : x.db.propagate true 20 with
  | none => rw [hh] at hs; simp at hs
  | some r => exact .propagate 20 r.1 r.2 hc hh

theorem st_bt {x : Sys} (ht : x.st.Total 2) (hE : S2 x.st.model) (hs : (x.st.btCommit.1.btUpdate true x.st.btCommit.2).map Prod.snd = some true) :
    Step true 2 S2 A x (bt x) := by
  unfold bt
  cases hh : x.st.btCommit.1.btUpdate true x.st.btCommit.2 with
  | none => rw [hh] at hs; simp at hs
  | some r =>
    obtain ⟨r1, r2⟩ := r
    rw [hh] at hs
    simp at hs
    subst hs
    exact .modelBt ht hE _ hh

theorem bt_last {x : Sys} (hs : (x.st.btCommit.1.btUpdate true x.st.btCommit.2).map Prod.snd = some false) :
    x.st.btCommit.1.btUpdate true x.st.btCommit.2 = some (((x.st.btCommit.1.btUpdate true x.st.btCommit.2).getD (x.st, false)).1, false) := by
  cases hh : x.st.btCommit.1.btUpdate true x.st.btCommit.2 with
  | none => rw [hh] at hs; simp at hs
  | some r => obtain ⟨a, b⟩ := r; rw [hh] at hs; simp at hs; subst hs; rfl

/-- Example: the clause {1, 2} -/
def g0 : Sys := add init [pos 1, pos 2] 0
/-- Example: decisions 1, 2 -/
def g1 : Sys := next (dec g0 (pos 1))
def g2 : Sys := next (dec g1 (pos 2))
/-- Example: the model {1, 2} is reported, ¬2 holds now on level 1 -/
def g3 : Sys := bt g2
/-- Example: the path ¬1 is given away, 1 is kept -/
def g4 : Sys := g3.giver (g3.st.pushRootLevel 1)
def g5 : Sys := next g4
/-- Example: the model {1, ¬2} is the last one; the solver leaves its path -/
def g6 : Sys := g5.renew true ((g5.st.btCommit.1.btUpdate true g5.st.btCommit.2).getD (g5.st, false)).1 []
/-- Example: ... and assumes ¬1 -/
def g7 : Sys := { g6.setSt ((g6.st.decide' (nega 1)).pushRootLevel 1) with asm := [nega 1] }
def g8 : Sys := next g7

theorem w0 : Sol true 2 S2 A g0 := Sol.init.step (.step (.clause [pos 1, pos 2] 0 true false true (by decide +kernel) rfl rfl (by decide +kernel) (by decide +kernel)
    (by decide +kernel) (Or.inl rfl)) rfl)
theorem e1 : Step true 2 S2 A g0 (dec g0 (pos 1)) := .decide _ (by decide +kernel) (by decide +kernel) (by decide +kernel) (by decide +kernel)
theorem e1' : Step true 2 S2 A (dec g0 (pos 1)) g1 := st_next (by decide +kernel) (by decide +kernel)
theorem e2 : Step true 2 S2 A g1 (dec g1 (pos 2)) := .decide _ (by decide +kernel) (by decide +kernel) (by decide +kernel) (by decide +kernel)
theorem e2' : Step true 2 S2 A (dec g1 (pos 2)) g2 := st_next (by decide +kernel) (by decide +kernel)
theorem w2 : Sol true 2 S2 A g2 := (((w0.step (.step e1 rfl)).step (.step e1' rfl)).step (.step e2 rfl)).step (.step e2' rfl)
theorem t2 : g2.st.Total 2 := total (by decide +kernel) (by decide +kernel) (by decide +kernel)
theorem e3 : Step true 2 S2 A g2 g3 := st_bt t2 (supp w2 (by decide +kernel)) (by decide +kernel)
theorem w3 : Sol true 2 S2 A g3 := w2.step (.step e3 rfl)
theorem sp : g3.st.split (fun _ => false) (fun _ => false) = some (g3.st.pushRootLevel 1, [nega 1]) := by
  have h1 : g3.st.splittable (fun _ => false) (fun _ => false) = true := by decide +kernel
  have h2 : g3.st.guidingPath (fun _ => false) ++ [((g3.st.pushRootLevel 1).decision (g3.st.pushRootLevel 1).root).neg] = [nega 1] := by decide +kernel
  unfold St.split
  rw [if_pos h1]
  dsimp only
  rw [h2]
theorem w4 : Sol true 2 S2 A g4 := w3.step (.split _ _ _ _ (by decide +kernel) sp)
theorem e5 : Step true 2 S2 A g4 g5 := st_next (by decide +kernel) (by decide +kernel)
theorem w5 : Sol true 2 S2 A g5 := w4.step (.step e5 rfl)
theorem t5 : g5.st.Total 2 := total (by decide +kernel) (by decide +kernel) (by decide +kernel)
theorem l5 : (g5.st.btCommit.1.btUpdate true g5.st.btCommit.2).map Prod.snd = some false := by decide +kernel
theorem z5 (M : Asg) : g5.zeroSat M := by
  intro q hq hl
  have : ∀ q ∈ g5.st.trail, g5.st.level q.var ≠ 0 := by decide +kernel
  exact absurd hl (this q hq)
theorem e6 : WStep true 2 S2 A g5 g6 :=
  .renew _ [] (.last _ t5 (supp w5 (by decide +kernel)) (bt_last l5)) (by decide +kernel) (by decide +kernel) (by simp)
    (fun M _ => by simp; exact z5 M)
theorem w6 : Sol true 2 S2 A g6 := w5.step e6
theorem e7 : WStep true 2 S2 A g6 g7 := .assume _ (by decide +kernel) (by decide +kernel) (by decide +kernel) (by decide +kernel) (by decide +kernel)
theorem e8 : Step true 2 S2 A g7 g8 := st_next (by decide +kernel) (by decide +kernel)
theorem w8 : Sol true 2 S2 A g8 := (w6.step e7).step (.step e8 rfl)
theorem t8 : g8.st.Total 2 := total (by decide +kernel) (by decide +kernel) (by decide +kernel)
theorem l8 : (g8.st.btCommit.1.btUpdate true g8.st.btCommit.2).map Prod.snd = some false := by decide +kernel

/-- Example: after the split, with one model reported -/
def p4 : Par := ⟨[[nega 1]], [g4], [], [g2.st.model]⟩
theorem run4 : PReach true 2 S2 A g0.orig [] p4 := by
  have h1 := (PReach.init (learn := true) (n := 2) (E := S2) (P := A) (O := g0.orig) (path := [])).step (.attach g0 w0 rfl rfl)
  have h2 := h1.step (.take (w1 := []) (w2 := []) (i1 := []) (i2 := []) (by simp) (by intro q hq; exact absurd (show q ∈ ([] : List Lit) from hq) List.not_mem_nil))
  have h3 := h2.step (.run (a1 := []) (a2 := []) [] e1 rfl rfl rfl rfl)
  have h4 := h3.step (.run (a1 := []) (a2 := []) [] e1' rfl rfl rfl rfl)
  have h5 := h4.step (.run (a1 := []) (a2 := []) [] e2 rfl rfl rfl rfl)
  have h6 := h5.step (.run (a1 := []) (a2 := []) [] e2' rfl rfl rfl rfl)
  have h7 := h6.step (.run (a1 := []) (a2 := []) [g2.st.model] e3 rfl rfl rfl rfl)
  exact h7.step (.split (a1 := []) (a2 := []) (fun _ => false) (fun _ => false) _ _ (by decide +kernel) sp)

/-- Example: all three models have been reported, by one solver that worked on two paths -/
def p9 : Par := ⟨[], [], [g8], [g8.st.model, g5.st.model, g2.st.model]⟩
theorem run9 : PReach true 2 S2 A g0.orig [] p9 := by
  have h1 := run4.step (.run (a1 := []) (a2 := []) [] e5 rfl rfl rfl rfl)
  have h2 := h1.step (.last (a1 := []) (a2 := []) t5 (supp w5 (by decide +kernel)) ⟨_, bt_last l5⟩)
  have h3 := h2.step (.prepare (i1 := []) (i2 := []) e6 rfl (by intro M hM; exact absurd hM (List.not_mem_nil)))
  have h4 := h3.step (.prepare (i1 := []) (i2 := []) e7 rfl (fun M hM => hM))
  have h5 := h4.step (.prepare (i1 := []) (i2 := []) (.step e8 rfl) rfl (fun M hM => hM))
  have h6 := h5.step (.take (w1 := []) (w2 := []) (i1 := []) (i2 := []) (p := [nega 1]) (by decide +kernel) (fun q hq => Or.inl hq))
  exact h6.step (.last (a1 := []) (a2 := []) t8 (supp w8 (by decide +kernel)) ⟨_, bt_last l8⟩)

/-- The solver keeps the assignments with 1 and gives away those without. -/
example := C24_split (by decide) sup w3 (by decide +kernel) sp

/-- a model that is still to be found, in the path given away -/
example : p4.count (fun v => v == 0 || v == 2) = 1 :=
  (C24_partition (by decide) sup run4 (M := fun v => v == 0 || v == 2) ⟨by decide +kernel, fun v hv => by
      have h1 : v ≠ 0 := by omega
      have h2 : v ≠ 2 := by omega
      simp [h1, h2], by
    intro C hC
    rw [show g0.orig = [[pos 1, pos 2]] from rfl, List.mem_singleton] at hC
    subst hC
    exact ⟨pos 2, by simp, by decide⟩⟩).1 (by intro q hq; simp at hq) (by
      intro h
      have h := List.mem_singleton.1 h
      have h1 := congrFun h 1
      exact absurd h1 (by decide +kernel))

example : p9.rep.Nodup ∧ ∀ M, M ∈ p9.rep ↔ problem S2 g0.orig M ∧ M.all [] := C24_exhausted (by decide) sup run9 rfl rfl

example := C24_once (by decide) sup run4

/-- level 1 is frozen; variable 1 is local -/
example : g3.st.split (fun l => l == 1) (fun _ => false) = none ∧ g3.st.split (fun _ => false) (fun v => v == 1) = none :=
  ⟨(C24_refused _ _ _).2 (Or.inr (Or.inl (by decide +kernel))), (C24_refused _ _ _).2 (Or.inr (Or.inr (Or.inl ⟨1, by decide +kernel⟩)))⟩

/-- variable 2 is local and flipped, but on level 1: the split is refused, too -/
example : g3.st.split (fun _ => false) (fun v => v == 2) = none :=
  (C24_refused _ _ _).2 (Or.inr (Or.inr (Or.inr ⟨_, List.mem_of_mem_head? (show _ ∈ g3.st.imp.head? from rfl), by decide +kernel⟩)))

example := C24_local g3.st (fun _ => false) (fun _ => false) (by decide +kernel) sp

/-- **C24 (failing thread).** If the thread of `p4` fails with bad_alloc and its initial path is put back into the queue
(parallel_solve.cpp:485-487), the model {2} is in two of the waiting paths and will be reported twice, and the model {1, 2}, which has
been reported, is in a waiting path. -/
theorem C24_failing_thread : (⟨[nega 1] :: [[]], [], [], p4.rep⟩ : Par).count (fun v => v == 0 || v == 2) = 2 ∧
    (⟨[nega 1] :: [[]], [], [], p4.rep⟩ : Par).count g2.st.model = 1 := by
  decide +kernel

/-- Example: {¬1, 2}, {¬1, ¬2} under the assumption 1: the path is exhausted after propagation. -/
def h1 : Sys := add (add init [nega 1, pos 2] 0) [nega 1, nega 2] 1
def h2 : Sys := { h1.setSt ((h1.st.decide' (pos 1)).pushRootLevel 1) with asm := [pos 1] }
def h3 : Sys := next h2

theorem v1 : Sol true 2 S2 A h1 :=
  (Sol.init.step (.step (.clause [nega 1, pos 2] 0 true false true (by decide +kernel) rfl rfl (by decide +kernel) (by decide +kernel)
    (by decide +kernel) (Or.inl rfl)) rfl)).step (.step (.clause [nega 1, nega 2] 1 true false true (by decide +kernel) rfl rfl (by decide +kernel) (by decide +kernel)
    (by decide +kernel) (Or.inl rfl)) rfl)
theorem v12 : WStep true 2 S2 A h1 h2 := .assume _ (by decide +kernel) (by decide +kernel) (by decide +kernel) (by decide +kernel) (by decide +kernel)
theorem v23 : Step true 2 S2 A h2 h3 := st_next (by decide +kernel) (by decide +kernel)

theorem runh : PReach true 2 S2 A h1.orig [pos 1] ⟨[], [], [h3], []⟩ := by
  have k1 := (PReach.init (learn := true) (n := 2) (E := S2) (P := A) (O := h1.orig) (path := [pos 1])).step (.attach h1 v1 rfl rfl)
  have k2 := k1.step (.prepare (i1 := []) (i2 := []) v12 rfl (fun M hM => hM))
  have k3 := k2.step (.prepare (i1 := []) (i2 := []) (.step v23 rfl) rfl (fun M hM => hM))
  exact k3.step (.refuse (w1 := []) (w2 := []) (i1 := []) (i2 := []) (fun q hq => Or.inl hq) (Or.inl (.root (by decide +kernel) (by decide +kernel))))

example : ¬ ∃ M, problem S2 h1.orig M ∧ M.all [pos 1] := by
  rintro ⟨M, hM⟩
  exact absurd (((C24_exhausted (by decide) sup runh rfl rfl).2 M).2 hM) List.not_mem_nil

/-- Example: {1}, {¬1, 2}, {¬1, ¬2}: a conflict without assumptions -/
def k1 : Sys := add (add (add init [pos 1] 0) [nega 1, pos 2] 1) [nega 1, nega 2] 2

theorem vk : Sol true 2 S2 A k1 :=
  ((Sol.init.step (.step (.clause [pos 1] 0 true false true (by decide +kernel) rfl rfl (by decide +kernel) (by decide +kernel)
    (by decide +kernel) (Or.inl rfl)) rfl)).step (.step (.clause [nega 1, pos 2] 1 true false true (by decide +kernel) rfl rfl (by decide +kernel) (by decide +kernel)
    (by decide +kernel) (Or.inl rfl)) rfl)).step (.step (.clause [nega 1, nega 2] 2 true false true (by decide +kernel) rfl rfl (by decide +kernel) (by decide +kernel)
    (by decide +kernel) (Or.inl rfl)) rfl)

example : ∀ M, problem S2 k1.orig M → M.all [] → M ∈ ([] : List Asg) :=
  C24_toplevel (by decide) sup ((PReach.init (learn := true) (n := 2) (E := S2) (P := A) (O := k1.orig) (path := [])).step (.attach k1 vk rfl rfl))
    (Or.inr (List.mem_singleton.2 rfl)) (Or.inr ⟨.root (by decide +kernel) (by decide +kernel), by decide +kernel⟩)

end SplitEx

end Sys
end Clasp.Core
