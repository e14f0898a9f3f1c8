/- C37: propagation of the bound of a branch-and-bound optimization is sound, complete and never goes wrong. -/
import Verif.Opt.MinReach
import Verif.Opt.MinBuild
import Verif.Opt.Bound
namespace Clasp.MinC
open Clasp.Core (Lit Asg)
open Clasp.Mini (Data LW weightAt)

/-! ## Specification

Costs are compared level by level, see `BB.lt` and `BB.le` (lexicographic order). -/

/-- Specification: the cost of `M` on level `L`, without the constant part of the data (see `Clasp.Mini.dataCost`). -/
def costOf (M : Asg) (d : Data) (L : Nat) : Int := (d.lits.map fun x => if M.sat x.1 then weightAt d x L else 0).sum

/-- Specification: `M` makes the literals assigned up to level `l` true. -/
def Agree (M : Asg) (tr : List Entry) (l : Nat) : Prop := ∀ e ∈ tr, e.lev ≤ l → M.sat e.lit

/-! ## Costs and sums -/

theorem costOf_eq {d : Data} (hd : Wf d) (M : Asg) (L : Nat) :
    costOf M d L = (((List.range d.lits.length).filter fun i => decide (M.sat (lit d i))).map fun i => wv d (sec d i) L).sum := by
  unfold costOf
  rw [sum_range (g := fun i => if M.sat (lit d i) then wv d (sec d i) L else 0) (fun i hi => by
    rw [weightAt_wv hd.one, lit_get hi, sec_get hi])]
  generalize List.range d.lits.length = l
  induction l with
  | nil => rfl
  | cons a l ih =>
    rw [List.map_cons, List.sum_cons, ih, List.filter_cons]
    by_cases h : M.sat (lit d a) <;> simp [h]

theorem V_map (d : Data) (l : List Nat) : V (rules d) (fun L => (l.map fun i => wv d (sec d i) L).sum) = (l.map (W d)).sum := by
  induction l with
  | nil => rfl
  | cons a l ih =>
    have : (fun L => ((a :: l).map fun i => wv d (sec d i) L).sum) = fun L => wv d (sec d a) L + (l.map fun i => wv d (sec d i) L).sum := by
      funext L; simp
    rw [this, V_add, ih]; simp [W]

theorem V_cost {d : Data} (hd : Wf d) (M : Asg) :
    V (rules d) (costOf M d) = (((List.range d.lits.length).filter fun i => decide (M.sat (lit d i))).map (W d)).sum := by
  rw [← V_map]; congr 1; funext L; exact costOf_eq hd M L

/-- The cost is at least the sum over literals that are true. -/
theorem le_cost {d : Data} (hd : Wf d) {M : Asg} {l : List Nat} (hN : l.Nodup) (hl : ∀ i ∈ l, i < d.lits.length ∧ M.sat (lit d i)) :
    (l.map (W d)).sum ≤ V (rules d) (costOf M d) := by
  rw [V_cost hd]
  obtain ⟨l', h1, h2⟩ := List.subperm_of_subset hN (l₂ := (List.range d.lits.length).filter fun i => decide (M.sat (lit d i)))
    (fun i hi => by simpa using hl i hi)
  rw [← (h1.map (W d)).sum_eq]
  refine List.Sublist.sum_le_sum (h2.map _) ?_
  intro a ha
  obtain ⟨i, hi, rfl⟩ := List.mem_map.1 ha
  exact (hd.pos i (by simpa using (List.mem_filter.1 hi).1)).le

theorem S_map (d : Data) (U : List (Nat × Nat)) : S d U = ((U.map Prod.fst).map (W d)).sum := by unfold S; rw [List.map_map]; rfl

theorem lt_iff {n : Nat} {f g : Nat → Int} : BB.lt n f g ↔ V n f < V n g := V_lt.symm

theorem le_iff {n : Nat} {f g : Nat → Int} : BB.le n f g ↔ V n f ≤ V n g := by
  rw [le_iff_lt_or_eq, BB.le, lt_iff]
  refine or_congr Iff.rfl ⟨V_congr, fun h i hi => ?_⟩
  exact congrFun (toLex.injective h) ⟨i, hi⟩

theorem reason_pre {d : Data} {c : Con} {U : List (Nat × Nat)} (hu : c.undo = mk U) {up : Nat} (h : up ≤ U.length) :
    ∃ R, reason d c up = some R ∧ R = ((pre U up).map fun x => lit d x.1).reverse := by
  refine ⟨_, by unfold reason; rw [hu, mk_length, if_pos h], ?_⟩
  have : (mk U).map Prod.fst = U.map Prod.fst := by
    clear hu h
    induction U with
    | nil => rfl
    | cons x u ih => simp [mk, ih]
  have e : ((mk U).reverse.take up).map (fun x => lit d x.1) = (((mk U).map Prod.fst).reverse.take up).map (lit d) := by
    rw [← List.map_reverse, ← List.map_take, List.map_map]; rfl
  rw [e, this, ← List.map_reverse, ← List.map_take, List.take_reverse, pre, List.map_map, List.map_reverse]; rfl

theorem RsOk.sound {d : Data} (hd : Wf d) {w : Wd} {I : List Entry} {U : List (Nat × Nat)} {K : Nat} (h : Core0 d w I U K) {P : Nat × Nat → Prop} {p : Lit}
    {lev : Nat} {r : Rs} (hr : RsOk d U P p lev r) : ∃ R, reason d w.con r.up = some R ∧ (∀ q ∈ R, ∃ x ∈ pre U r.up, P x ∧ x.2 ≤ lev ∧ q = lit d x.1) ∧
      r.base ≤ lev ∧ ∀ M : Asg, (∀ q ∈ R, M.sat q) → ¬ M.sat p → BB.lt (rules d) r.bnd (costOf M d) := by
  obtain ⟨i, h1, h2, h3, h4, h5, h6, hi⟩ := hr
  obtain ⟨R, hR, eR⟩ := reason_pre (d := d) h.und h3
  have hmem : ∀ q, q ∈ R ↔ ∃ x ∈ pre U r.up, lit d x.1 = q := by intro q; rw [eR]; simp
  refine ⟨R, hR, fun q hq => ?_, h6, fun M hM hp => lt_iff.2 (lt_of_lt_of_le h5 ?_)⟩
  · obtain ⟨x, hx, rfl⟩ := (hmem q).1 hq
    exact ⟨x, hx, (h4 x hx).1, (h4 x hx).2, rfl⟩
  · have hp' : M.sat (lit d i) := by rw [h2] at hp; simpa using hp
    have := le_cost hd (M := M) (l := i :: (pre U r.up).map Prod.fst)
      (List.nodup_cons.2 ⟨hi, h.uN.sublist ((pre_sub _ _).map _)⟩) (by
        intro j hj
        rcases List.mem_cons.1 hj with rfl | hj
        · exact ⟨h1, hp'⟩
        · obtain ⟨x, hx, rfl⟩ := List.mem_map.1 hj
          exact ⟨(h.uT x ((pre_sub _ _).subset hx)).1, hM _ ((hmem _).2 ⟨x, hx, rfl⟩)⟩)
    rw [List.map_cons, List.sum_cons, ← S_map, add_comm] at this
    exact this

/-- The processed literals are the true ones that are not pending. -/
theorem Core.perm {d : Data} {w : Wd} {U : List (Nat × Nat)} (h : Core d w U) :
    (U.map Prod.fst).Perm ((List.range d.lits.length).filter fun i => isTrue w.tr (lit d i) && decide (i ∉ w.pend)) := by
  refine (List.perm_ext_iff_of_nodup h.uN (List.nodup_range.filter _)).2 fun i => ?_
  simp only [List.mem_filter, List.mem_range, Bool.and_eq_true, decide_eq_true_eq]
  constructor
  · intro hi
    obtain ⟨x, hx, rfl⟩ := List.mem_map.1 hi
    obtain ⟨h1, e, he, e1, _⟩ := h.uT x hx
    exact ⟨h1, isTrue_iff.2 ⟨e, he, e1⟩, fun hp => (h.pendT _ hp).2.1 hi⟩
  · rintro ⟨h1, h2, h3⟩
    exact (h.pendC i h1 h2).resolve_right h3

/-- The same for the literals up to a level. -/
theorem Core.perm_upto {d : Data} {w : Wd} {U : List (Nat × Nat)} (h : Core d w U) (t : Nat) :
    ((upto U t).map Prod.fst).Perm
      ((List.range d.lits.length).filter fun i => isTrue (w.tr.filter fun e => decide (e.lev ≤ t)) (lit d i) && decide (i ∉ w.pend)) := by
  refine (List.perm_ext_iff_of_nodup (h.uN.sublist ((upto_sub U t).map _)) (List.nodup_range.filter _)).2 fun i => ?_
  simp only [List.mem_filter, List.mem_range, Bool.and_eq_true, decide_eq_true_eq]
  constructor
  · intro hi
    obtain ⟨x, hx, rfl⟩ := List.mem_map.1 hi
    obtain ⟨hx, hxt⟩ := mem_upto.1 hx
    obtain ⟨h1, e, he, e1, e2⟩ := h.uT x hx
    exact ⟨h1, isTrue_iff.2 ⟨e, List.mem_filter.2 ⟨he, by simpa [e2] using hxt⟩, e1⟩, fun hp => (h.pendT _ hp).2.1 (List.mem_map.2 ⟨x, hx, rfl⟩)⟩
  · rintro ⟨h1, h2, h3⟩
    obtain ⟨e, he, e1⟩ := isTrue_iff.1 h2
    obtain ⟨he, he2⟩ := List.mem_filter.1 he
    obtain ⟨x, hx, rfl⟩ := List.mem_map.1 ((h.pendC i h1 (isTrue_iff.2 ⟨e, he, e1⟩)).resolve_right h3)
    refine List.mem_map.2 ⟨x, mem_upto.2 ⟨hx, ?_⟩, rfl⟩
    obtain ⟨_, f, hf, f1, f2⟩ := h.uT x hx
    have := entry_inj h.trN hf he (by rw [f1, e1])
    subst this
    simp at he2; omega

/-- What `check` changes. -/
theorem check_shape {d : Data} {w v : Wd} {r : Option Nat} (h : check d w = some (v, r)) : v.tr = w.tr ∧ v.pend = w.pend ∧ v.con.opt = w.con.opt ∧
    (r = none → w.root ≤ w.dl → ∃ t, v.target = some t ∧ w.root ≤ t) := by
  unfold check at h
  dsimp only at h
  split at h
  · cases h
  · split at h
    · obtain ⟨c, hc, h⟩ := Option.map_eq_some_iff.1 h
      split at h
      · rename_i hr
        simp only [Prod.mk.injEq] at h
        obtain ⟨rfl, rfl⟩ := h
        exact ⟨rfl, rfl, rfl, fun _ _ => ⟨_, rfl, by omega⟩⟩
      · simp only [Prod.mk.injEq] at h
        obtain ⟨rfl, rfl⟩ := h
        exact ⟨rfl, rfl, rfl, fun h => (nomatch h)⟩
    · simp only [Option.some.injEq, Prod.mk.injEq] at h
      obtain ⟨rfl, rfl⟩ := h
      exact ⟨rfl, rfl, rfl, fun _ h => ⟨_, rfl, h⟩⟩

/-! ## C37

In all theorems, `d` is the shared data built from minimize statements (`Built`, see C20), the literals `tr` are true on level 0 when the
constraint is attached, and `w` is a state that is reached by any sequence of assignments, decisions, notifications, conflicts, backjumps,
restarts, changes of the root level and bounds. -/

section
variable {d : Data} {tr : List Lit} {w : Wd}

/-- C37: no operation fails, i.e. no assertion is violated and no empty stack is popped: notification, going back (also below the root level
when the bound was removed), comparison with a new bound, propagation of a new bound. -/
theorem C37_defined (hd : Built d) (ht : (tr.map (·.var)).Nodup) (h : Reach d tr w) :
    (w.conf = none → w.stale = false → ∀ i ∈ w.pend, propagate d { w with pend := w.pend.erase i, target := none } i ≠ none) ∧
    (∀ l, w.root ≤ l → undoTo d w l ≠ none) ∧
    (w.con.opt = (fun _ => MAXB) → w.con.pos = 0 → ∀ l, undoTo d w l ≠ none) ∧
    (w.stale = true → check d w ≠ none) ∧
    (w.conf = none → ∀ t, w.target = some t → w.dl ≤ t → ∀ lim, w.root ≤ lim → lim ≤ w.dl → integrate d lim w ≠ none) := by
  have hd := build_wf hd
  obtain ⟨U, h⟩ := inv_reach hd ht h
  refine ⟨fun hc hs i hi => ?_, fun l hl => ?_, fun _ hp l => ?_, fun hs => ?_, fun hc t h1 h2 lim h3 h4 => ?_⟩
  · obtain ⟨v, e, _⟩ := inv_notify hd h hc hs hi; rw [e]; simp
  · by_cases hlt : l < w.dl
    · obtain ⟨t, p, im, u, c, cf, u1, _⟩ := undoTo_spec hd h.toCore hlt (.inl hl); rw [u1]; simp
    · unfold undoTo; rw [if_pos (by omega)]; simp
  · by_cases hlt : l < w.dl
    · obtain ⟨t, p, im, u, c, cf, u1, _⟩ := undoTo_spec hd h.toCore hlt (.inr hp); rw [u1]; simp
    · unfold undoTo; rw [if_pos (by omega)]; simp
  · obtain ⟨v, r, e, _⟩ := check_spec hd h hs; rw [e]; simp
  · obtain ⟨v, U', e, _⟩ := inv_integrate hd h hc h1 h2 h3 h4; rw [e]; simp

/-- C37: whenever the constraint is the antecedent of an assigned literal, its reason consists of literals that were assigned before on levels
that are not above the level of the literal, the tag literal is true there, and every assignment that makes the reason true and the literal
false costs more than the bound for which the literal was forced. -/
theorem C37_reason (hd : Built d) (ht : (tr.map (·.var)).Nodup) (h : Reach d tr w) {a b : List Entry} {e : Entry} (he : w.tr = a ++ e :: b)
    {r : Rs} (hr : e.rs = some r) :
    ∃ R, reason d w.con r.up = some R ∧ (∀ q ∈ R, ∃ f ∈ b, f.lit = q ∧ f.lev ≤ e.lev) ∧ r.base ≤ e.lev ∧
      ∀ M : Asg, (∀ q ∈ R, M.sat q) → ¬ M.sat e.lit → BB.lt (rules d) r.bnd (costOf M d) := by
  have hd := build_wf hd
  obtain ⟨U, h⟩ := inv_reach hd ht h
  obtain ⟨R, h1, h2, h3, h4⟩ := RsOk.sound hd h.toCore0 (h.rs a e b r he hr)
  refine ⟨R, h1, fun q hq => ?_, h3, h4⟩
  obtain ⟨x, _, ⟨f, hf, e1⟩, _, rfl⟩ := h2 q hq
  refine ⟨f, hf, e1, ?_⟩
  have := h.trS
  rw [he] at this
  exact (List.pairwise_cons.1 (List.pairwise_append.1 this).2.1).1 f hf

/-- C37: whenever the constraint is the antecedent of a conflict, the literal is false, its reason is true, and every assignment that makes
the reason true and the literal false costs more than the bound. -/
theorem C37_conflict (hd : Built d) (ht : (tr.map (·.var)).Nodup) (h : Reach d tr w) {p : Lit} {r : Rs} (hc : w.conf = some (p, some r)) :
    ∃ R, reason d w.con r.up = some R ∧ (∀ q ∈ R, ∃ f ∈ w.tr, f.lit = q) ∧ (∃ f ∈ w.tr, f.lit = p.neg) ∧
      ∀ M : Asg, (∀ q ∈ R, M.sat q) → ¬ M.sat p → BB.lt (rules d) r.bnd (costOf M d) := by
  have hd := build_wf hd
  obtain ⟨U, h⟩ := inv_reach hd ht h
  obtain ⟨c1, c2⟩ := h.conf p r hc
  obtain ⟨R, h1, h2, _, h4⟩ := RsOk.sound hd h.toCore0 c1
  refine ⟨R, h1, fun q hq => ?_, isTrue_iff.1 c2, h4⟩
  obtain ⟨x, _, ⟨f, hf, e1⟩, _, rfl⟩ := h2 q hq
  exact ⟨f, hf, e1⟩

/-- C37: the sum is the sum of the weights of the true literals whose notification is not pending, on every level and also after conflicts
and backjumps. -/
theorem C37_sum (hd : Built d) (ht : (tr.map (·.var)).Nodup) (h : Reach d tr w) (L : Nat) :
    w.con.sum L = (((List.range d.lits.length).filter fun i => isTrue w.tr (lit d i) && decide (i ∉ w.pend)).map
      fun i => weightAt d (d.lits.getD i (⟨0, false⟩, 0)) L).sum := by
  have hd := build_wf hd
  obtain ⟨U, h⟩ := inv_reach hd ht h
  have e : sumOf d U L = ((U.map Prod.fst).map fun i => wv d (sec d i) L).sum := by rw [List.map_map]; rfl
  rw [h.sum, e, ((h.perm).map _).sum_eq]
  congr 1
  apply List.map_congr_left
  intro i hi
  have hi : i < d.lits.length := by simpa using (List.mem_filter.1 hi).1
  rw [weightAt_wv hd.one, sec_get hi, List.getD_eq_getElem?_getD, List.getElem?_eq_getElem hi]; rfl

/-- C37: propagation is complete. When there is no conflict and the bound is integrated, the sum does not exceed the bound, and no unassigned
literal would exceed it. -/
theorem C37_complete (hd : Built d) (ht : (tr.map (·.var)).Nodup) (h : Reach d tr w) (hc : w.conf = none) (hs : w.stale = false) :
    BB.le (rules d) w.con.sum w.con.opt ∧ ∀ x ∈ d.lits, isTrue w.tr x.1 = false → isFalse w.tr x.1 = false →
      BB.le (rules d) (fun L => w.con.sum L + weightAt d x L) w.con.opt := by
  have hd := build_wf hd
  obtain ⟨U, h⟩ := inv_reach hd ht h
  have hS : V (rules d) w.con.sum = S d U := by rw [h.sum, V_sumOf]
  refine ⟨by rw [le_iff, hS]; exact h.bnd hs, fun x hx h1 h2 => ?_⟩
  obtain ⟨i, hi, rfl⟩ := List.getElem_of_mem hx
  rw [← lit_get hi] at h1 h2
  have hiU : i ∉ U.map Prod.fst := fun hm => by
    have := (h.perm.mem_iff.1 hm); simp [h1] at this
  have hw : (fun L => w.con.sum L + weightAt d d.lits[i] L) = fun L => w.con.sum L + wv d (sec d i) L := by
    funext L; rw [weightAt_wv hd.one, sec_get hi]
  rw [le_iff, hw, V_add, hS]
  refine not_lt.1 fun hlt => ?_
  have hall : upto U w.dl = U := upto_dl h.toCore0 (Nat.le_refl _)
  have := h.claim i hi (.inl hs) w.dl h.rootL (by rw [top_none hc]; omega)
  rw [Claim, hall] at this
  rcases this hiU hlt with ⟨e, he, e1, _⟩ | ⟨e, he, e1, _⟩
  · rw [isFalse, isTrue_iff.2 ⟨e, he, e1⟩] at h2; cases h2
  · have := (h.imp e he).2 hc
    rw [e1] at this; rw [isFalse, this] at h2; cases h2

/-- C37: a total assignment that passes the constraint does not cost more than the bound, and its cost is the sum of the constraint. -/
theorem C37_model (hd : Built d) (ht : (tr.map (·.var)).Nodup) (h : Reach d tr w) (hc : w.conf = none) (hs : w.stale = false) (hp : w.pend = [])
    (htot : ∀ x ∈ d.lits, isTrue w.tr x.1 = true ∨ isFalse w.tr x.1 = true) {M : Asg} (hM : ∀ e ∈ w.tr, M.sat e.lit) :
    (∀ L, w.con.sum L = costOf M d L) ∧ BB.le (rules d) (costOf M d) w.con.opt := by
  have hsum : ∀ L, w.con.sum L = costOf M d L := by
    intro L
    have h0 := C37_sum hd ht h L
    have hd := build_wf hd
    rw [h0, costOf_eq hd]
    have hf : ((List.range d.lits.length).filter fun i => isTrue w.tr (lit d i) && decide (i ∉ w.pend)) =
        (List.range d.lits.length).filter fun i => decide (M.sat (lit d i)) := by
      apply List.filter_congr
      intro i hi
      have hi : i < d.lits.length := by simpa using hi
      rw [hp]
      have := htot _ (List.getElem_mem hi)
      rw [← lit_get hi] at this
      rcases this with h1 | h1
      · obtain ⟨e, he, e1⟩ := isTrue_iff.1 h1
        have := hM e he; rw [e1] at this
        simp [h1, this]
      · obtain ⟨e, he, e1⟩ := isTrue_iff.1 h1
        have := hM e he; rw [e1, Asg.sat_neg] at this
        have hn : isTrue w.tr (lit d i) = false := by
          cases h2 : isTrue w.tr (lit d i) with
          | false => rfl
          | true =>
            obtain ⟨f, hf, f1⟩ := isTrue_iff.1 h2
            exact absurd (f1 ▸ hM f hf) this
        simp [hn, this]
    rw [hf]
    congr 1
    apply List.map_congr_left
    intro i hi
    have hi : i < d.lits.length := by simpa using (List.mem_filter.1 hi).1
    rw [weightAt_wv hd.one, sec_get hi, List.getD_eq_getElem?_getD, List.getElem?_eq_getElem hi]; rfl
  refine ⟨hsum, ?_⟩
  have := (C37_complete hd ht h hc hs).1
  rwa [show w.con.sum = costOf M d from funext hsum] at this

/-- C37: when the constraint reports that a new bound cannot be met on the current guiding path, then every assignment that agrees with the
literals assigned up to the reported level costs more than the bound; that level is not above the root level and not below the level of the
tag literal. Otherwise it gives a level to go back to that is not below the root level: the true literals up to that
level do not exceed the bound. -/
theorem C37_check (hd : Built d) (ht : (tr.map (·.var)).Nodup) (h : Reach d tr w) (hs : w.stale = true) {v : Wd} {r : Option Nat}
    (hr : check d w = some (v, r)) :
    (∀ L, r = some L → L ≤ w.root ∧ w.base ≤ L ∧ ∀ M : Asg, Agree M w.tr L → BB.lt (rules d) w.con.opt (costOf M d)) ∧
    (r = none → ∃ t, v.target = some t ∧ w.root ≤ t ∧ BB.le (rules d)
      (fun L => (((List.range d.lits.length).filter fun i => isTrue (w.tr.filter fun e => decide (e.lev ≤ t)) (lit d i) && decide (i ∉ w.pend)).map
        fun i => weightAt d (d.lits.getD i (⟨0, false⟩, 0)) L).sum) w.con.opt) := by
  have hd := build_wf hd
  obtain ⟨U, h⟩ := inv_reach hd ht h
  obtain ⟨v', r', k1, k2, k3⟩ := check_spec hd h hs
  rw [k1] at hr
  simp only [Option.some.injEq, Prod.mk.injEq] at hr
  obtain ⟨rfl, rfl⟩ := hr
  obtain ⟨s1, s2, s3, s4⟩ := check_shape k1
  refine ⟨fun L hL => ?_, fun hn => ?_⟩
  · obtain ⟨l1, l2, l3⟩ := k3 L hL
    refine ⟨l1, l2, fun M hM => lt_iff.2 (lt_of_lt_of_le l3 ?_)⟩
    rw [S_map]
    refine le_cost hd (h.uN.sublist ((upto_sub U L).map _)) fun i hi => ?_
    obtain ⟨x, hx, rfl⟩ := List.mem_map.1 hi
    obtain ⟨hx, hxL⟩ := mem_upto.1 hx
    obtain ⟨h1, e, he, e1, e2⟩ := h.uT x hx
    exact ⟨h1, e1 ▸ hM e he (by omega)⟩
  · obtain ⟨t, ht, hrt⟩ := s4 hn h.rootL
    refine ⟨t, ht, hrt, ?_⟩
    have h1 := k2.tgt t ht
    have hp := k2.toCore.perm_upto t
    rw [s1, s2] at hp
    rw [s3, S_map, (hp.map _).sum_eq, ← V_map] at h1
    rw [le_iff]
    refine le_of_eq_of_le ?_ h1
    congr 1
    funext L
    congr 1
    apply List.map_congr_left
    intro i hi
    have hi : i < d.lits.length := by simpa using (List.mem_filter.1 hi).1
    rw [weightAt_wv hd.one, sec_get hi, List.getD_eq_getElem?_getD, List.getElem?_eq_getElem hi]; rfl

end
end Clasp.MinC
