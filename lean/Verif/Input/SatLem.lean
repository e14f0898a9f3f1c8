/- Helper lemmas for C34 (SatBuilder). -/
import Verif.Input.Sat
namespace Clasp.Input
open Core Weight Function

open Classical in
/-- Specification: what a clause with weight `w` costs in `M` if it is not satisfied. -/
noncomputable def penalty (M : Asg) (c : List Lit) (w : Int) : Int := if M.satC c then 0 else w

/-- Specification: a call is about a hard constraint that `M` satisfies, or not about a hard constraint. -/
def Call.hard (hw : Int) (M : Asg) : Call → Prop
  | .clause c cw => cw = hw → M.satC c
  | .con lits b => holds M lits b
  | _ => True

/-- Specification: what a call adds to the costs of `M`. -/
noncomputable def Call.cost (hw : Int) (M : Asg) : Call → Int
  | .clause c cw => if cw = hw then 0 else penalty M c cw
  | .obj m => val M m
  | _ => 0

/-- Specification: costs of `M`. -/
noncomputable def costs (hw : Int) (cs : List Call) (M : Asg) : Int := (cs.map (Call.cost hw M)).sum

/-- Proof device: costs of the stored soft clauses. -/
noncomputable def softSum (M : Asg) (es : List Soft) : Int :=
  (es.map fun e => if e.cl = [] then (if M.sat e.relax then e.w else 0) else penalty M e.cl e.w).sum

theorem satC_cons {M : Asg} {x : Lit} {c : List Lit} : M.satC (x :: c) ↔ M.sat x ∨ M.satC c := by simp [Asg.satC]

@[simp] theorem satC_nil {M : Asg} : ¬ M.satC [] := fun ⟨_, h, _⟩ => nomatch h

theorem penalty_congr {M : Asg} {a b : List Lit} {w : Int} (h : M.satC a ↔ M.satC b) : penalty M a w = penalty M b w := by
  unfold penalty; by_cases ha : M.satC a
  · rw [if_pos ha, if_pos (h.1 ha)]
  · rw [if_neg ha, if_neg (fun hb => ha (h.2 hb))]

/-! ### `satisfied` -/

theorem neg_ne (l : Lit) : l.neg ≠ l := by
  cases l with | mk v s => cases s <;> simp [Lit.neg]

theorem satLoop_ok {seen0 : Lit → Bool} : ∀ (xs pre : List Lit) (seen : Lit → Bool) (out : List Lit),
    (∀ l, seen l = true ↔ seen0 l = true ∨ l ∈ out) → (∀ l ∈ out, l ∈ pre) →
    (∀ l ∈ out, seen0 l = false ∧ seen0 l.neg = false ∧ l.neg ∉ out) →
    (∀ M : Asg, (∀ l, seen0 l = true → ¬ M.sat l) → (M.satC pre ↔ M.satC out)) →
    ∀ seen' out' sat, satLoop xs seen out = (seen', out', sat) → (∀ l, seen' l = true ↔ seen0 l = true ∨ l ∈ out') ∧ (∀ l ∈ out', l ∈ pre ++ xs) ∧
      (∀ l ∈ out', seen0 l = false ∧ seen0 l.neg = false ∧ l.neg ∉ out') ∧
      ∀ M : Asg, (∀ l, seen0 l = true → ¬ M.sat l) → if sat then M.satC (pre ++ xs) else (M.satC (pre ++ xs) ↔ M.satC out')
  | [], pre, seen, out, h1, h2, h3, h4 => by
    intro _ _ _ hr
    simp only [satLoop] at hr
    cases hr
    rw [List.append_nil]
    exact ⟨h1, h2, h3, fun M hM => by simpa using h4 M hM⟩
  | x :: xs, pre, seen, out, h1, h2, h3, h4 => by
    intro seen' out' sat hr
    unfold satLoop at hr
    have hseen : ∀ l, seen l = false → seen0 l = false ∧ l ∉ out := fun l hl =>
      ⟨Bool.eq_false_iff.mpr fun h => (by rw [(h1 l).2 (.inl h)] at hl; cases hl),
       fun h => (by rw [(h1 l).2 (.inr h)] at hl; cases hl)⟩
    split at hr
    · next hc =>
      obtain ⟨a1, a2⟩ := hseen _ hc.1
      obtain ⟨b1, b2⟩ := hseen _ hc.2
      have := satLoop_ok (seen0 := seen0) xs (pre ++ [x]) (update seen x true) (out ++ [x]) (fun l => ?_) (fun l hl => ?_) (fun l hl => ?_) (fun M hM => ?_) _ _ _ hr
      · simpa using this
      · by_cases hl : l = x
        · subst hl; simp
        · rw [update_of_ne hl, h1]; simp [hl]
      · rcases List.mem_append.mp hl with hl | hl
        · exact List.mem_append_left _ (h2 l hl)
        · exact List.mem_append_right _ hl
      · rcases List.mem_append.mp hl with hl | hl
        · obtain ⟨c1, c2, c3⟩ := h3 l hl
          refine ⟨c1, c2, fun hm => ?_⟩
          rcases List.mem_append.mp hm with hm | hm
          · exact c3 hm
          · rw [List.mem_singleton] at hm
            apply b2; rw [← hm, Lit.neg_neg]; exact hl
        · rw [List.mem_singleton] at hl; subst hl
          refine ⟨a1, b1, fun hm => ?_⟩
          rcases List.mem_append.mp hm with hm | hm
          · exact b2 hm
          · rw [List.mem_singleton] at hm; exact neg_ne _ hm
      · rw [Asg.satC_append, Asg.satC_append, h4 M hM]
    · split at hr
      · next hc =>
        cases hr
        refine ⟨h1, fun l hl => List.mem_append_left _ (h2 l hl), h3, fun M hM => ?_⟩
        rw [if_pos rfl]
        rcases (h1 x.neg).1 hc.2 with h | h
        · have := hM _ h
          rw [Asg.sat_neg, not_not] at this
          exact ⟨x, by simp, this⟩
        · by_cases hx : M.sat x
          · exact ⟨x, by simp, hx⟩
          · exact ⟨x.neg, List.mem_append_left _ (h2 _ h), (Asg.sat_neg M x).2 hx⟩
      · next hn1 hn2 =>
        have hx : seen x = true := by
          cases h : seen x with
          | true => rfl
          | false =>
            cases h' : seen x.neg with
            | true => exact absurd ⟨h, h'⟩ hn2
            | false => exact absurd ⟨h, h'⟩ hn1
        have := satLoop_ok (seen0 := seen0) xs (pre ++ [x]) seen out h1 (fun l hl => List.mem_append_left _ (h2 l hl)) h3 (fun M hM => ?_) _ _ _ hr
        · simpa using this
        · rw [Asg.satC_append, h4 M hM]
          refine ⟨fun h => h.elim id fun ⟨y, hy, hs⟩ => ?_, .inl⟩
          rw [List.mem_singleton] at hy; subst hy
          rcases (h1 y).1 hx with h | h
          · exact absurd hs (hM _ h)
          · exact ⟨y, h, hs⟩

/-- Proof device: marked literals are false in all models. -/
def Sat.SeenOk (s : Sat) : Prop := ∀ l, s.seen l = true → ∀ M, s.db.Models M → ¬ M.sat l

theorem var_eq_iff {x l : Lit} : x.var = l.var ↔ x = l ∨ x = l.neg :=
  ⟨Lit.eq_or_neg, fun h => h.elim (fun e => by rw [e]) fun e => by rw [e]; rfl⟩

theorem satisfied_ok (s : Sat) (c : List Lit) (hs : s.SeenOk) :
    match s.satisfied c with
    | (s', c', sat) => s'.db = s.db ∧ s'.seen = s.seen ∧ s'.soft = s.soft ∧ s'.hard = s.hard ∧ s'.vars = s.vars ∧ s'.n = s.n ∧
      (∀ l ∈ c', l ∈ c) ∧ s'.occ = (if sat then s.occ else markOcc c' s.occ) ∧ (∀ M, s.db.Models M → if sat then M.satC c else (M.satC c ↔ M.satC c')) := by
  have h := satLoop_ok (seen0 := s.seen) c [] s.seen [] (by simp) (by simp) (by simp) (by simp)
  unfold Sat.satisfied
  generalize satLoop c s.seen [] = r at h ⊢
  obtain ⟨seen, out, sat⟩ := r
  obtain ⟨h1, h2, h3, h4⟩ := h _ _ _ rfl
  refine ⟨rfl, ?_, rfl, rfl, rfl, rfl, by simpa using h2, rfl, fun M hM => by simpa using h4 M (fun l hl => hs l hl M hM)⟩
  funext l
  show (if out.any (fun x => x.var == l.var) = true then false else seen l) = s.seen l
  split
  · next ha =>
    obtain ⟨x, hx, hv⟩ := List.any_eq_true.mp ha
    rcases var_eq_iff.1 (beq_iff_eq.mp hv) with rfl | e
    · exact (h3 x hx).1.symm
    · have := (h3 x hx).2.1
      rw [e, Lit.neg_neg] at this; exact this.symm
  · next ha =>
    have hl : l ∉ out := fun hl => ha (List.any_eq_true.mpr ⟨l, hl, by simp⟩)
    cases h5 : s.seen l with
    | true => exact (h1 l).2 (.inl h5)
    | false =>
      cases h6 : seen l with
      | false => rfl
      | true =>
        rcases (h1 l).1 h6 with h | h
        · rw [h] at h5; cases h5
        · exact absurd h hl

/-! ### the calls -/

theorem val_append (M : Asg) (a b : List WL) : val M (a ++ b) = val M a + val M b := by simp [val]

theorem softSum_append (M : Asg) (a b : List Soft) : softSum M (a ++ b) = softSum M a + softSum M b := by simp [softSum]

theorem costs_append (hw : Int) (a b : List Call) (M : Asg) : costs hw (a ++ b) M = costs hw a M + costs hw b M := by simp [costs]

/-- Specification: the variables of a call are at most `n`. -/
def Call.le (n : Nat) : Call → Prop
  | .clause c _ => ∀ l ∈ c, l.var ≤ n
  | .con lits _ => ∀ x ∈ lits, x.lit.var ≤ n
  | .obj m => ∀ x ∈ m, x.lit.var ≤ n
  | .assume x => x.var ≤ n

/-- Proof device: the invariant of the calls `cs` made so far. -/
structure SInv (hw : Int) (n : Nat) (cs : List Call) (s : Sat) : Prop where
  seen : s.SeenOk
  hard : s.hard = hw
  vars : n ≤ s.vars
  num : s.n = n
  sem : ∀ M, s.db.Models M ↔ M 0 = true ∧ ∀ c ∈ cs, c.hard hw M
  cost : ∀ M, s.db.Models M → costs hw cs M = val M s.db.mini + softSum M s.soft
  pos : ∀ e ∈ s.soft, 0 ≤ e.w
  rel : ∀ e ∈ s.soft, e.cl ≠ [] → n < e.relax.var ∧ e.relax.var ≤ s.vars ∧ e.relax.sign = false
  rng : (∀ c ∈ cs, c.le n) → ∀ e ∈ s.soft, ∀ l ∈ e.cl, l.var ≤ n
  dis : (s.soft.filter fun e => e.cl ≠ []).Pairwise fun a b => a.relax.var ≠ b.relax.var

theorem markAssigned_ok {pr : Db → Option Top} (hp : Prop1.Law pr) (s : Sat) (hs : s.SeenOk) :
    (s.markAssigned pr).SeenOk ∧ (∀ M, (s.markAssigned pr).db.Models M ↔ s.db.Models M) ∧
    (s.markAssigned pr).soft = s.soft ∧ (s.markAssigned pr).hard = s.hard ∧ (s.markAssigned pr).vars = s.vars ∧
    (s.markAssigned pr).n = s.n ∧ (s.markAssigned pr).db.mini = s.db.mini := by
  refine ⟨fun l hl M hM => ?_, fun M => prop_models hp s.db M, rfl, rfl, rfl, rfl, ?_⟩
  · replace hl : (s.seen l || (s.db.prop pr).top l.var == some (!l.tv)) = true := hl
    replace hM : (s.db.prop pr).Models M := hM
    rcases (Bool.or_eq_true _ _).mp hl with h | h
    · exact hs l h M ((prop_models hp s.db M).1 hM)
    · have := hM.2.1 _ _ (beq_iff_eq.mp h)
      intro hc
      rw [Asg.sat, this] at hc
      cases h2 : l.tv <;> rw [h2] at hc <;> cases hc
  · show (s.db.prop pr).mini = _
    unfold Db.prop; split <;> rfl

theorem models_ok {d : Db} {M : Asg} (h : d.ok = false) : ¬ d.Models M := fun hm => by rw [hm.1] at h; cases h

theorem hard_snoc {hw : Int} {cs : List Call} {c : Call} {M : Asg} :
    (∀ x ∈ cs ++ [c], x.hard hw M) ↔ (∀ x ∈ cs, x.hard hw M) ∧ c.hard hw M := by
  simp only [List.mem_append, List.mem_singleton, or_imp, forall_and, forall_eq]

theorem costs_snoc {hw : Int} {cs : List Call} {c : Call} {M : Asg} : costs hw (cs ++ [c]) M = costs hw cs M + c.cost hw M := by
  rw [costs_append]; simp [costs]

theorem le_snoc {n : Nat} {cs : List Call} {c : Call} (h : ∀ x ∈ cs ++ [c], x.le n) : ∀ x ∈ cs, x.le n :=
  fun x hx => h x (List.mem_append_left _ hx)

/-- a call that is ignored because there was a conflict -/
theorem SInv.skip {hw n cs s} (h : SInv hw n cs s) (hok : s.db.ok = false) (c : Call) : SInv hw n (cs ++ [c]) s := by
  refine ⟨h.seen, h.hard, h.vars, h.num, fun M => ⟨fun hm => absurd hm (models_ok hok), fun ⟨h0, hc⟩ => ?_⟩,
    fun M hm => absurd hm (models_ok hok), h.pos, h.rel, fun hl => h.rng (le_snoc hl), h.dis⟩
  exact (h.sem M).2 ⟨h0, (hard_snoc.1 hc).1⟩

theorem addSoft_ok {hw n cs s} {c0 c : List Lit} {cw : Int} (h : SInv hw n cs s) (hcw : cw ≠ hw) (hpos : 0 ≤ cw)
    (hsub : ∀ l ∈ c, l ∈ c0) (hc : ∀ M, s.db.Models M → (M.satC c0 ↔ M.satC c)) : SInv hw n (cs ++ [.clause c0 cw]) (s.addSoft c cw) := by
  have hsem : ∀ M, s.db.Models M ↔ M 0 = true ∧ ∀ x ∈ cs ++ [.clause c0 cw], x.hard hw M := fun M => by
    rw [hard_snoc, h.sem M]
    have : (Call.clause c0 cw).hard hw M := fun e => absurd e hcw
    tauto
  have hcost : ∀ M, s.db.Models M → ∀ e : Soft, (if e.cl = [] then (if M.sat e.relax then e.w else 0) else penalty M e.cl e.w) = penalty M c cw →
      costs hw (cs ++ [.clause c0 cw]) M = val M s.db.mini + softSum M (s.soft ++ [e]) := fun M hM e he => by
    rw [costs_snoc, h.cost M hM, softSum_append]
    have h1 : (Call.clause c0 cw).cost hw M = penalty M c cw := by
      show (if cw = hw then 0 else penalty M c0 cw) = _
      rw [if_neg hcw]; exact penalty_congr (hc M hM)
    have h2 : softSum M [e] = penalty M c cw := by rw [← he]; simp [softSum]
    rw [h1, h2]; omega
  have hM0 : ∀ M, s.db.Models M → M.sat litTrue := fun M hM => ((h.sem M).1 hM).1
  clear hc
  have hrng : ∀ e : Soft, (∀ l ∈ e.cl, l ∈ c) → (∀ x ∈ cs ++ [.clause c0 cw], x.le n) → ∀ e' ∈ s.soft ++ [e], ∀ l ∈ e'.cl, l.var ≤ n := by
    intro e he hl e' he' l hl'
    rcases List.mem_append.mp he' with h1 | h1
    · exact h.rng (le_snoc hl) e' h1 l hl'
    · rw [List.mem_singleton] at h1; subst h1
      exact hl (.clause c0 cw) (by simp) l (hsub l (he l hl'))
  match c, hcost, hrng with
  | [], hcost, hrng =>
    refine ⟨h.seen, h.hard, h.vars, h.num, hsem, fun M hM => hcost M hM _ ?_, ?_, ?_, hrng _ (fun _ h => (nomatch h)), ?_⟩
    · simp only [if_true, if_pos (hM0 M hM), penalty, satC_nil, if_false]
    · intro e he
      rcases List.mem_append.mp he with he | he
      · exact h.pos e he
      · rw [List.mem_singleton] at he; subst he; exact hpos
    · intro e he hne
      rcases List.mem_append.mp he with he | he
      · exact h.rel e he hne
      · rw [List.mem_singleton] at he; subst he; exact absurd rfl hne
    · show ((s.soft ++ [_]).filter _).Pairwise _
      simpa using h.dis
  | [x], hcost, hrng =>
    refine ⟨h.seen, h.hard, h.vars, h.num, hsem, fun M hM => hcost M hM _ ?_, ?_, ?_, hrng _ (fun _ h => (nomatch h)), ?_⟩
    · simp only [if_true, penalty, satC_cons, satC_nil, or_false, Asg.sat_neg, ite_not]
    · intro e he
      rcases List.mem_append.mp he with he | he
      · exact h.pos e he
      · rw [List.mem_singleton] at he; subst he; exact hpos
    · intro e he hne
      rcases List.mem_append.mp he with he | he
      · exact h.rel e he hne
      · rw [List.mem_singleton] at he; subst he; exact absurd rfl hne
    · show ((s.soft ++ [_]).filter _).Pairwise _
      simpa using h.dis
  | x :: y :: c, hcost, hrng =>
    refine ⟨h.seen, h.hard, Nat.le_succ_of_le h.vars, h.num, hsem, fun M hM => hcost M hM _ ?_, ?_, ?_, hrng _ (fun _ h => h), ?_⟩
    · rw [if_neg (by simp)]
    · intro e he
      rcases List.mem_append.mp he with he | he
      · exact h.pos e he
      · rw [List.mem_singleton] at he; subst he; exact hpos
    · intro e he hne
      rcases List.mem_append.mp he with he | he
      · obtain ⟨a, b, c⟩ := h.rel e he hne
        exact ⟨a, Nat.le_succ_of_le b, c⟩
      · rw [List.mem_singleton] at he; subst he
        exact ⟨Nat.lt_succ_of_le h.vars, Nat.le_refl _, rfl⟩
    · show ((s.soft ++ [_]).filter _).Pairwise _
      rw [List.filter_append, List.pairwise_append]
      refine ⟨h.dis, (List.pairwise_singleton _ _).sublist List.filter_sublist, fun a ha b hb => ?_⟩
      obtain ⟨ha1, ha2⟩ := List.mem_filter.mp ha
      have hb1 := (List.mem_filter.mp hb).1
      rw [List.mem_singleton] at hb1; subst hb1
      have := (h.rel a ha1 (by simpa using ha2)).2.1
      show a.relax.var ≠ s.vars + 1
      omega

theorem call_ok {pr : Db → Option Top} (hp : Prop1.Law pr) {hw n cs s s'} {c : Call} (h : SInv hw n cs s) (hr : s.call pr c = .ok s') :
    SInv hw n (cs ++ [c]) s' := by
  cases c with
  | clause c cw =>
    replace hr : s.addClause pr c cw = .ok s' := hr
    unfold Sat.addClause at hr
    split at hr
    · next hok => cases hr; exact h.skip hok _
    · have hsat := satisfied_ok s c h.seen
      generalize s.satisfied c = r at hsat hr
      obtain ⟨s1, c1, sat⟩ := r
      obtain ⟨e1, e2, e3, e4, e5, e6, e7, e8, e9⟩ := hsat
      have h1 : SInv hw n cs s1 := by
        refine ⟨?_, e4.trans h.hard, by rw [e5]; exact h.vars, e6.trans h.num, by rw [e1]; exact h.sem, by rw [e1, e3]; exact h.cost,
          by rw [e3]; exact h.pos, by rw [e3, e5]; exact h.rel, by rw [e3]; exact h.rng, by rw [e3]; exact h.dis⟩
        unfold Sat.SeenOk; rw [e1, e2]; exact h.seen
      cases sat with
      | true =>
        cases hr
        have hc : ∀ M, s'.db.Models M → M.satC c := fun M hM => by rw [e1] at hM; simpa using e9 M hM
        refine { h1 with sem := fun M => ?_, cost := fun M hM => ?_, rng := fun hl => h1.rng (le_snoc hl) }
        · rw [hard_snoc, h1.sem M]
          refine ⟨fun hh => ⟨hh.1, hh.2, fun _ => hc M ((h1.sem M).2 hh)⟩, fun hh => ⟨hh.1, hh.2.1⟩⟩
        · rw [costs_snoc, h1.cost M hM]
          have : (Call.clause c cw).cost hw M = 0 := by
            show (if cw = hw then 0 else penalty M c cw) = 0
            unfold penalty; rw [if_pos (hc M hM)]; split <;> rfl
          omega
      | false =>
        have hc : ∀ M, s1.db.Models M → (M.satC c ↔ M.satC c1) := fun M hM => by rw [e1] at hM; simpa using e9 M hM
        simp only at hr
        split at hr
        · next hrange =>
          split at hr
          · next hhard =>
            cases hr
            rw [h1.hard] at hhard; subst hhard
            have hs2 : ({ s1 with db := s1.db.clause c1 } : Sat).SeenOk := fun l hl M hM => h1.seen l hl M ((clause_models _ _ _).1 hM).1
            obtain ⟨m1, m2, m3, m4, m5, m6, m7⟩ := markAssigned_ok hp { s1 with db := s1.db.clause c1 } hs2
            have hmini : (s1.db.clause c1).mini = s1.db.mini := by
              match c1 with
              | [] => rfl
              | [x] =>
                show Db.mini (match force s1.db.top x with | none => { s1.db with ok := false } | some t => { s1.db with top := t }) = _
                split <;> rfl
              | x :: y :: c => rfl
            refine ⟨m1, m4.trans h1.hard, by rw [m5]; exact h1.vars, m6.trans h1.num, fun M => ?_, fun M hM => ?_,
              by rw [m3]; exact h1.pos, by rw [m3, m5]; exact h1.rel, by rw [m3]; exact fun hl => h1.rng (le_snoc hl), by rw [m3]; exact h1.dis⟩
            · rw [m2 M]
              show (s1.db.clause c1).Models M ↔ _
              rw [clause_models, hard_snoc, h1.sem M]
              refine ⟨fun ⟨hh, hx⟩ => ⟨hh.1, hh.2, fun _ => (hc M ((h1.sem M).2 hh)).2 hx⟩, fun ⟨h0, hh, hx⟩ => ⟨⟨h0, hh⟩, ?_⟩⟩
              exact (hc M ((h1.sem M).2 ⟨h0, hh⟩)).1 (hx rfl)
            · rw [m2 M] at hM
              replace hM : (s1.db.clause c1).Models M := hM
              rw [costs_snoc, m7, m3]
              show _ = val M (s1.db.clause c1).mini + softSum M s1.soft
              rw [hmini, ← h1.cost M ((clause_models _ _ _).1 hM).1]
              simp [Call.cost]
          · next hne =>
            cases hr
            rw [h1.hard] at hne
            exact addSoft_ok h1 hne hrange.1 e7 hc
        · cases hr
  | con lits b =>
    replace hr : s.addConstraint lits b = .ok s' := hr
    unfold Sat.addConstraint at hr
    split at hr
    · next hok => cases hr; exact h.skip hok _
    · obtain ⟨r, hr1, hr⟩ := bind_ok.1 hr
      obtain ⟨m, hm, hr⟩ := bind_ok.1 hr
      cases hr
      obtain ⟨he, hn⟩ := C21_create hr1
      obtain ⟨c1, c2⟩ := C21_doCreate hn hm
      have key : ∀ M, (s.db.made (m.map fun p => [p.1])).Models M ↔ s.db.Models M ∧ holds M lits b := fun M => by
        have htr : ∀ M, s.db.Models M → (iffHolds M litTrue r.lits r.bound ↔ holds M lits b) := fun M hM => by
          have h0 : M.sat litTrue := ((h.sem M).1 hM).1
          unfold iffHolds
          rw [he M hM.2.1]; simp [h0]
        cases m with
        | none =>
          refine ⟨fun hh => absurd hh (made_none _ M), fun ⟨hM, hh⟩ => absurd ((htr M hM).2 hh) (c1 rfl M hM.2.1)⟩
        | some p =>
          have c2 := c2 p.1 p.2 rfl M
          show (s.db.made (some [p.1])).Models M ↔ _
          rw [made_some]
          simp only [List.mem_singleton, forall_eq]
          refine ⟨fun ⟨a1, a2, a3, a4, _⟩ => ?_, fun ⟨hM, hh⟩ => ⟨hM.1, hM.2.2.1, hM.2.2.2, c2.1 ⟨hM.2.1, (htr M hM).2 hh⟩, fun e => (nomatch e)⟩⟩
          obtain ⟨b1, b2⟩ := c2.2 a4
          have hM : s.db.Models M := ⟨a1, b1, a2, a3⟩
          exact ⟨hM, (htr M hM).1 b2⟩
      refine ⟨fun l hl M hM => h.seen l hl M ((key M).1 hM).1, h.hard, h.vars, h.num, fun M => ?_, fun M hM => ?_, h.pos, h.rel, fun hl => h.rng (le_snoc hl), h.dis⟩
      · rw [hard_snoc]
        exact (key M).trans (by rw [h.sem M]; exact and_assoc)
      · rw [costs_snoc, h.cost M ((key M).1 hM).1]
        have hmini : (s.db.made (m.map fun p => [p.1])).mini = s.db.mini := by cases m <;> rfl
        show _ = val M (s.db.made (m.map fun p => [p.1])).mini + softSum M s.soft
        rw [hmini]; simp [Call.cost]
  | obj m =>
    cases hr
    refine ⟨h.seen, h.hard, h.vars, h.num, fun M => ?_, fun M hM => ?_, h.pos, h.rel, fun hl => h.rng (le_snoc hl), h.dis⟩
    · rw [hard_snoc]
      refine (h.sem M).trans ⟨fun hh => ⟨hh.1, hh.2, trivial⟩, fun hh => ⟨hh.1, hh.2.1⟩⟩
    · rw [costs_snoc, h.cost M hM]
      show _ = val M (s.db.mini ++ m) + softSum M s.soft
      rw [val_append]; simp only [Call.cost]; omega
  | assume x =>
    cases hr
    refine ⟨h.seen, h.hard, h.vars, h.num, fun M => ?_, fun M hM => ?_, h.pos, h.rel, fun hl => h.rng (le_snoc hl), h.dis⟩
    · rw [hard_snoc]
      refine (h.sem M).trans ⟨fun hh => ⟨hh.1, hh.2, trivial⟩, fun hh => ⟨hh.1, hh.2.1⟩⟩
    · rw [costs_snoc, h.cost M hM]
      show _ = val M s.db.mini + softSum M s.soft
      simp [Call.cost]

theorem calls_ok {pr : Db → Option Top} (hp : Prop1.Law pr) {hw n} : ∀ (todo cs : List Call) (s s' : Sat), SInv hw n cs s →
    Sat.calls pr todo s = .ok s' → SInv hw n (cs ++ todo) s'
  | [], cs, s, s', h, hr => by
    cases hr; simpa using h
  | c :: todo, cs, s, s', h, hr => by
    obtain ⟨s1, h1, h2⟩ := bind_ok.1 hr
    have := calls_ok hp todo (cs ++ [c]) s1 s' (call_ok hp h h1) h2
    simpa using this

theorem prepare_ok {pr : Db → Option Top} (hp : Prop1.Law pr) (n : Nat) (hw : Int) : SInv hw n [] (Sat.prepare pr n hw) := by
  obtain ⟨m1, m2, m3, m4, m5, m6, m7⟩ := markAssigned_ok hp ⟨.init, fun _ => false, fun _ => false, [], hw, n, n⟩ (fun l hl => (nomatch hl))
  refine ⟨m1, m4, ?_, m6, fun M => ?_, fun M hM => ?_, ?_, ?_, ?_, ?_⟩
  · unfold Sat.prepare; rw [m5]
  · unfold Sat.prepare; rw [m2 M]
    refine ⟨fun hh => ⟨hh.2.1 0 true rfl, fun _ hc => (nomatch hc)⟩, fun hh => ⟨rfl, fun v b hv => ?_, fun _ hc => (nomatch hc), fun _ hc => (nomatch hc)⟩⟩
    replace hv : (if v = 0 then some true else none) = some b := hv
    split at hv
    · next h0 => cases hv; rw [h0]; exact hh.1
    · cases hv
  · unfold Sat.prepare; rw [m7, m3]; rfl
  · unfold Sat.prepare; rw [m3]; exact fun _ h => (nomatch h)
  · unfold Sat.prepare; rw [m3]; exact fun _ h => (nomatch h)
  · unfold Sat.prepare; rw [m3]; exact fun _ _ h => (nomatch h)
  · unfold Sat.prepare; rw [m3]; exact List.Pairwise.nil

/-! ### `doEndProgram` -/

theorem endSoft_models : ∀ (es : List Soft) (d : Db) (M : Asg), (endSoft es d).Models M ↔
    d.Models M ∧ ∀ e ∈ es, e.cl ≠ [] → M.sat e.relax ∨ M.satC e.cl
  | [], d, M => by simp [endSoft]
  | e :: es, d, M => by
    unfold endSoft
    split
    · next hok => exact ⟨fun h => absurd h (models_ok hok), fun h => absurd h.1 (models_ok hok)⟩
    · simp only []
      rw [endSoft_models es]
      have hm : ∀ (d : Db) (x : WL), Db.Models { d with mini := d.mini ++ [x] } M ↔ d.Models M := fun d x => Iff.rfl
      rw [hm]
      simp only [List.mem_cons, forall_eq_or_imp]
      by_cases hc : e.cl = []
      · rw [if_pos hc]
        constructor
        · exact fun h => ⟨h.1, fun hn => absurd hc hn, h.2⟩
        · exact fun h => ⟨h.1, h.2.2⟩
      · rw [if_neg hc, clause_models, satC_cons]
        constructor
        · exact fun h => ⟨h.1.1, fun _ => h.1.2, h.2⟩
        · exact fun h => ⟨⟨h.1, h.2.1 hc⟩, h.2.2⟩

theorem endSoft_mini : ∀ (es : List Soft) (d : Db), (endSoft es d).ok = true → (endSoft es d).mini = d.mini ++ es.map fun e => ⟨e.relax, e.w⟩
  | [], d, _ => by simp [endSoft]
  | e :: es, d, h => by
    unfold endSoft at h ⊢
    split at h
    · next hok => rw [h] at hok; cases hok
    · next hok =>
      rw [if_neg hok]
      simp only [] at h ⊢
      rw [endSoft_mini es _ h]
      have : (if e.cl = [] then d else d.clause (e.relax :: e.cl)).mini = d.mini := by
        split
        · rfl
        · match e.cl with
          | [] =>
            show Db.mini (match force d.top e.relax with | none => { d with ok := false } | some t => { d with top := t }) = _
            split <;> rfl
          | x :: c => rfl
      simp only [this, List.map_cons, List.append_assoc, List.singleton_append]

end Clasp.Input
