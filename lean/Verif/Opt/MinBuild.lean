/- C37: the shared data built by `build` is well-formed. -/
import Verif.Opt.MinInv
import Verif.Opt.BuilderProps
namespace Clasp.MinC
open Clasp.Core (Lit)
open Clasp.Mini Clasp.Weight

/-! ### Literals are distinct -/

theorem mergeInner_rest {it : MLit} : ∀ {es : List MLit} {ws : List LW} {adj : List Int}, es.Pairwise lvLt → (∀ k ∈ es, it.lit.var ≤ k.lit.var) →
    (mergeInner it ws adj es).2.2 <:+ es ∧ ∀ k ∈ (mergeInner it ws adj es).2.2, it.lit.var < k.lit.var := by
  intro es
  induction es with
  | nil => intro ws adj _ _; exact ⟨List.suffix_refl _, by simp [mergeInner]⟩
  | cons k ks ih =>
    intro ws adj hs hk
    obtain ⟨hs1, hs2⟩ := List.pairwise_cons.1 hs
    have hk' : ∀ x ∈ ks, it.lit.var ≤ x.lit.var := fun x hx => hk x (.tail _ hx)
    unfold mergeInner
    split
    · split
      · exact ⟨(ih hs2 hk').1.trans (List.suffix_cons _ _), (ih hs2 hk').2⟩
      · exact ⟨(ih hs2 hk').1.trans (List.suffix_cons _ _), (ih hs2 hk').2⟩
    · rename_i hne
      refine ⟨List.suffix_refl _, ?_⟩
      have h0 := hk k (.head _)
      intro x hx
      rcases List.mem_cons.1 hx with rfl | hx
      · omega
      · have := hs1 x hx
        unfold lvLt at this
        omega

theorem mergeLoop_vars : ∀ {n : Nat} {es : List MLit} {ws ws' : List LW} {adj adj' : List Int} {xs : List (Lit × Nat)},
    mergeLoop n ws adj es = .ok (xs, ws', adj') → es.Pairwise lvLt →
    xs.Pairwise (fun a b => a.1.var < b.1.var) ∧ ∀ x ∈ xs, ∃ e ∈ es, e.lit = x.1 := by
  intro n
  induction n with
  | zero => intro es ws ws' adj adj' xs h; simp [mergeLoop] at h
  | succ n ih =>
    intro es ws ws' adj adj' xs h hs
    cases es with
    | nil => simp [mergeLoop] at h; obtain ⟨rfl, rfl, rfl⟩ := h; simp
    | cons it es =>
      unfold mergeLoop at h
      obtain ⟨r, hr, h⟩ := bind_ok.1 h
      simp only [Except.ok.injEq, Prod.mk.injEq] at h
      obtain ⟨rfl, rfl, rfl⟩ := h
      obtain ⟨hs1, hs2⟩ := List.pairwise_cons.1 hs
      obtain ⟨m1, m2⟩ := mergeInner_rest (it := it) (ws := ws ++ [⟨it.prio.toNat, false, it.weight⟩]) (adj := adj) hs2
        (fun k hk => by have := hs1 k hk; unfold lvLt at this; omega)
      obtain ⟨i1, i2⟩ := ih (xs := r.1) (ws' := r.2.1) (adj' := r.2.2) hr (hs2.sublist m1.sublist)
      refine ⟨List.pairwise_cons.2 ⟨?_, i1⟩, ?_⟩
      · intro x hx
        obtain ⟨e, he, e1⟩ := i2 x hx
        rw [← e1]; exact m2 e he
      · intro x hx
        rcases List.mem_cons.1 hx with rfl | hx
        · exact ⟨it, .head _, rfl⟩
        · obtain ⟨e, he, e1⟩ := i2 x hx
          exact ⟨e, .tail _ (m1.subset he), e1⟩

/-! ### Copied weights -/

/-- Proof device: `o` is the copy of `x`: the same literal, with the same weights at its position. -/
def Copy (N : Nat) (ws out : List LW) (o x : Lit × Nat) : Prop :=
  o.1 = x.1 ∧ ∃ g r s, ws.drop x.2 = g ++ r ∧ PVec N g ∧ out.drop o.2 = g ++ s

theorem copy_rel {N : Nat} {ws : List LW} : ∀ {xs : List (Lit × Nat)} {o1 g r : List LW} {l : Nat},
    (∀ x ∈ xs, ∃ g r, ws.drop x.2 = g ++ r ∧ PVec N g) → ws.drop l = g ++ r → PVec N g →
    xs.Pairwise (fun x y => cmpVec (ws.drop y.2) (ws.drop x.2) = false) →
    (∀ x ∈ xs, cmpVec (ws.drop x.2) (ws.drop l) = false) →
    (∃ e, (copyLoop ws (some (l, o1.length)) xs (o1 ++ g)).2 = o1 ++ g ++ e) ∧ ∀ t,
      List.Forall₂ (Copy N ws ((copyLoop ws (some (l, o1.length)) xs (o1 ++ g)).2 ++ t)) (copyLoop ws (some (l, o1.length)) xs (o1 ++ g)).1 xs := by
  intro xs
  induction xs with
  | nil => intro o1 g r l _ _ _ _ _; exact ⟨⟨[], by simp [copyLoop]⟩, fun t => .nil⟩
  | cons a xs ih =>
    intro o1 g r l hx hl hg hs hge
    obtain ⟨x, i⟩ := a
    obtain ⟨hs1, hs2⟩ := List.pairwise_cons.1 hs
    obtain ⟨gi, ri, hi, hgi⟩ := hx _ (.head _)
    dsimp only at hi
    unfold copyLoop
    dsimp only
    split
    · rename_i hc
      have hv : vec (ws.drop i) = gi := by rw [hi, vec_append hgi.vec]
      rw [hv]
      obtain ⟨⟨e, k1⟩, k2⟩ := ih (o1 := o1 ++ g) (g := gi) (r := ri) (l := i) (fun y hy => hx y (.tail _ hy)) hi hgi hs2 hs1
      refine ⟨⟨gi ++ e, by rw [k1]; simp⟩, fun t => .cons ⟨rfl, gi, ri, e ++ t, hi, hgi, ?_⟩ (k2 t)⟩
      dsimp only
      rw [k1, List.append_assoc, List.append_assoc, List.drop_left]
    · rename_i hc
      have hc : cmpVec (ws.drop l) (ws.drop i) = false := by simpa using hc
      have hc' := hge _ (.head _)
      dsimp only at hc'
      have heq : gi = g := by
        rw [hl, hi] at hc hc'
        have h1 : ¬ LexGt (at' g) (at' gi) := by rw [← cmpVec_iff r ri hg.toGoodVec hgi.toGoodVec, hc]; simp
        have h2 : ¬ LexGt (at' gi) (at' g) := by rw [← cmpVec_iff ri r hgi.toGoodVec hg.toGoodVec, hc']; simp
        exact hgi.toGoodVec.eq_of_at hg.toGoodVec fun L => LexGt.total h2 h1 L
      subst heq
      obtain ⟨⟨e, k1⟩, k2⟩ := ih (o1 := o1) (g := gi) (r := r) (l := l) (fun y hy => hx y (.tail _ hy)) hl hg hs2
        (fun y hy => hge y (.tail _ hy))
      refine ⟨⟨e, k1⟩, fun t => .cons ⟨rfl, gi, ri, e ++ t, hi, hgi, ?_⟩ (k2 t)⟩
      dsimp only
      rw [k1, List.append_assoc, List.append_assoc, List.drop_left]

theorem copy_none_rel {N : Nat} {ws : List LW} {xs : List (Lit × Nat)} (hx : ∀ x ∈ xs, ∃ g r, ws.drop x.2 = g ++ r ∧ PVec N g)
    (hs : xs.Pairwise (fun x y => cmpVec (ws.drop y.2) (ws.drop x.2) = false)) (t : List LW) :
    List.Forall₂ (Copy N ws ((copyLoop ws none xs []).2 ++ t)) (copyLoop ws none xs []).1 xs := by
  cases xs with
  | nil => exact .nil
  | cons a xs =>
    obtain ⟨x, i⟩ := a
    obtain ⟨hs1, hs2⟩ := List.pairwise_cons.1 hs
    obtain ⟨gi, ri, hi, hgi⟩ := hx _ (.head _)
    dsimp only at hi
    have hv : vec (ws.drop i) = gi := by rw [hi, vec_append hgi.vec]
    obtain ⟨⟨e, k1⟩, k2⟩ := copy_rel (ws := ws) (xs := xs) (o1 := []) (g := gi) (r := ri) (l := i)
      (fun y hy => hx y (.tail _ hy)) hi hgi hs2 hs1
    unfold copyLoop
    dsimp only
    rw [hv]
    refine .cons ⟨rfl, gi, ri, e ++ t, hi, hgi, ?_⟩ (k2 t)
    dsimp only
    simp only [List.length_nil, List.nil_append] at k1 ⊢
    rw [k1, List.drop_zero, List.append_assoc]

/-- Related lists: pairs of elements. -/
theorem forall₂_get {α β : Type} {R : α → β → Prop} {a : List α} {b : List β} (h : List.Forall₂ R a b) :
    a.length = b.length ∧ ∀ i (ha : i < a.length) (hb : i < b.length), R a[i] b[i] := by
  induction h with
  | nil => exact ⟨rfl, fun i ha => by simp at ha⟩
  | cons h1 _ ih =>
    refine ⟨by simp [ih.1], fun i ha hb => ?_⟩
    cases i with
    | zero => exact h1
    | succ i => exact ih.2 i (by simpa using ha) (by simpa using hb)

theorem lit_get {d : Data} {i : Nat} (h : i < d.lits.length) : lit d i = d.lits[i].1 := by
  unfold lit; rw [List.getD_eq_getElem?_getD, List.getElem?_eq_getElem h]; rfl
theorem sec_get {d : Data} {i : Nat} (h : i < d.lits.length) : sec d i = d.lits[i].2 := by
  unfold sec; rw [List.getD_eq_getElem?_getD, List.getElem?_eq_getElem h]; rfl
theorem sec_end {d : Data} : sec d d.lits.length = ((d.weights.length - 1 : Nat) : Int) := by
  unfold sec; rw [List.getD_eq_getElem?_getD, List.getElem?_eq_none (Nat.le_refl _)]; rfl

/-- Specification: data built from minimize statements (`top` is the assignment on level 0, where the special variable 0 is true); the sum of
the most important weights fits into 64 bits. -/
def Built (d : Data) : Prop :=
  ∃ top lits, top 0 = some true ∧ build top lits = .ok d ∧ (d.lits.map fun x => weightAt d x 0).sum < MAXB

theorem weightAt_wv {d : Data} (h : d.weights = [] ↔ rules d = 1) (x : Lit × Int) (L : Nat) : weightAt d x L = wv d x.2 L := by
  unfold weightAt wv
  by_cases hr : d.adjust.length = 1
  · rw [if_pos hr, if_pos (h.2 hr)]
  · rw [if_neg hr, if_neg fun e => hr (h.1 e)]; rfl

theorem sum_range {α : Type} {l : List α} {f : α → Int} {g : Nat → Int} (h : ∀ i (hi : i < l.length), f l[i] = g i) :
    (l.map f).sum = ((List.range l.length).map g).sum := by
  congr 1
  apply List.ext_getElem (by simp)
  intro i h1 h2
  simp only [List.getElem_map, List.getElem_range]
  exact h i (by simpa using h1)

/-- Data built from minimize statements is well-formed. -/
theorem build_wf {d : Data} (hd : Built d) : Wf d := by
  obtain ⟨top, lits, h0, h, hsm⟩ := hd
  unfold build at h
  obtain ⟨⟨ls, adj, ps⟩, h1, h⟩ := bind_ok.1 h
  obtain ⟨p1, p2, p3, p4, p5, p6, p7⟩ := levels_spec h1 (sorted_prio lits)
  dsimp only at h
  split at h
  · rename_i hlen
    obtain ⟨⟨xs, ws, adj'⟩, h2, h⟩ := bind_ok.1 h
    simp only [Except.ok.injEq] at h
    have hstrict : (ssort cmpLit ls).Pairwise lvLt := by
      refine pairwise_strict (sorted_lit ls) ?_
      have hd : ls.Pairwise (fun a b => ¬ (a.prio = b.prio ∧ a.lit.var = b.lit.var)) := p7.imp fun h => by omega
      exact hd.perm (ssort_perm ls).symm (fun h1 h2 => h1 ⟨h2.1.symm, h2.2.symm⟩)
    obtain ⟨gs, m1, m2, m3, m4, m5⟩ := mergeLoop_spec h2 hstrict (by
      intro k hk
      have hk := (ssort_perm ls).mem_iff.1 hk
      obtain ⟨i, hi, hi2⟩ := p5 k hk
      exact ⟨by omega, by omega, (p6 k hk).1⟩)
    obtain ⟨v1, v2⟩ := mergeLoop_vars h2 hstrict
    simp only [List.length_nil, List.nil_append] at m1 m2
    have hx : ∀ x ∈ xs, ∃ g r, ws.drop x.2 = g ++ r ∧ PVec ps.length g := by
      rintro ⟨x, i⟩ hx
      rw [m1] at hx
      obtain ⟨g, r, h3, h4⟩ := mem_offs (pre := []) (post := []) hx
      rw [List.nil_append, List.append_nil, ← m2] at h4
      exact ⟨g, r, h4, p1 ▸ m3 _ h3⟩
    have hsorted : (ssort (fun a b : Lit × Nat => cmpVec (ws.drop a.2) (ws.drop b.2)) xs).Pairwise
        (fun x y => cmpVec (ws.drop y.2) (ws.drop x.2) = false) := by
      refine ssort_sorted (S := fun x => ∃ g r, ws.drop x.2 = g ++ r ∧ PVec ps.length g) ?_ ?_ hx
      · rintro a b ⟨g1, r1, e1, v1⟩ ⟨g2, r2, e2, v2⟩ hc
        rw [e1, e2] at *
        rw [cmpVec_iff _ _ v1.toGoodVec v2.toGoodVec] at hc
        have := hc.asymm
        rw [← cmpVec_iff r2 r1 v2.toGoodVec v1.toGoodVec] at this
        simpa using this
      · rintro a b c ⟨g1, r1, e1, v1⟩ ⟨g2, r2, e2, v2⟩ ⟨g3, r3, e3, v3⟩ h1 h2
        rw [e1, e2] at h1; rw [e3, e2] at h2; rw [e3, e1]
        have h1' : ¬ LexGt (at' g2) (at' g1) := by rw [← cmpVec_iff r2 r1 v2.toGoodVec v1.toGoodVec, h1]; simp
        have h2' : ¬ LexGt (at' g3) (at' g2) := by rw [← cmpVec_iff r3 r2 v3.toGoodVec v2.toGoodVec, h2]; simp
        have := LexGt.not_trans h1' h2'
        rw [← cmpVec_iff r3 r1 v3.toGoodVec v1.toGoodVec] at this
        simpa using this
    have hF := copy_none_rel (fun x hx' => hx x ((ssort_perm xs).mem_iff.1 hx')) hsorted [⟨adj'.length - 1, false, 0⟩]
    have hperm : (ssort (fun a b : Lit × Nat => cmpVec (ws.drop a.2) (ws.drop b.2)) xs).Perm xs := ssort_perm xs
    generalize ssort (fun a b : Lit × Nat => cmpVec (ws.drop a.2) (ws.drop b.2)) xs = ys at *
    generalize copyLoop ws none ys [] = c at *
    obtain ⟨f1, f2⟩ := forall₂_get hF
    have hr : rules d = ps.length := by rw [← h]; show adj'.length = _; omega
    have hwe : d.weights = c.2 ++ [⟨adj'.length - 1, false, 0⟩] := by rw [← h]
    have hwn : d.weights ≠ [] := by rw [hwe]; simp
    have hl : d.lits = c.1.map (fun x => (x.1, (x.2 : Int))) := by rw [← h]
    have hlen' : d.lits.length = c.1.length := by rw [hl]; simp
    have hlen2 : d.lits.length = ys.length := by omega
    have hlit : ∀ i (hi : i < ys.length), lit d i = ys[i].1 := by
      intro i hi
      rw [lit_get (by omega)]
      have := (f2 i (by omega) hi).1
      rw [← this]; simp [hl]
    have hdrop : ∀ i (hi : i < ys.length), ∃ g r s, ws.drop ys[i].2 = g ++ r ∧ PVec ps.length g ∧ d.weights.drop (sec d i).toNat = g ++ s := by
      intro i hi
      obtain ⟨_, g, r, s, g1, g2, g3⟩ := f2 i (by omega) hi
      refine ⟨g, r, s, g1, g2, ?_⟩
      rw [← g3, sec_get (by omega), hwe]
      simp [hl]
    have hwv : ∀ i, d.weights ≠ [] → ∀ g s, d.weights.drop (sec d i).toNat = g ++ s → isVec g → wv d (sec d i) = at' g := by
      intro i _ g s e hv
      funext L; unfold wv; rw [if_neg hwn, e, vec_append hv]
    have hvar : ∀ i (hi : i < ys.length), top (ys[i].1.var) = none := by
      intro i hi
      obtain ⟨e, he, e1⟩ := v2 _ (hperm.mem_iff.1 (List.getElem_mem hi))
      rw [← e1]; exact (p6 e ((ssort_perm ls).mem_iff.1 he)).2.2
    have hone : d.weights = [] ↔ rules d = 1 := ⟨fun e => absurd e hwn, fun e => by omega⟩
    refine ⟨hone, by omega, ?_, ?_, ?_, ?_, ?_, ?_, ?_⟩
    · intro i hi _
      rcases Nat.lt_or_ge i d.lits.length with hi' | hi'
      · obtain ⟨g, r, s, g1, g2, g3⟩ := hdrop i (by omega)
        exact ⟨g, s, g3, g2.vec, g2.inc, by rw [hr]; exact g2.lev⟩
      · obtain rfl : i = d.lits.length := by omega
        refine ⟨[⟨adj'.length - 1, false, 0⟩], [], ?_, by simp [isVec], by simp, ?_⟩
        · rw [sec_end, hwe]; simp
        · rw [hr]; simp; omega
    · intro i j hij hj
      obtain ⟨g, r, s, g1, g2, g3⟩ := hdrop i (by omega)
      obtain ⟨g', r', s', g1', g2', g3'⟩ := hdrop j (by omega)
      rw [hwv i hwn g s g3 g2.vec, hwv j hwn g' s' g3' g2'.vec]
      have := List.pairwise_iff_getElem.1 hsorted i j (by omega) (by omega) hij
      rw [g1, g1'] at this
      have h1' : ¬ LexGt (at' g') (at' g) := by rw [← cmpVec_iff r' r g2'.toGoodVec g2.toGoodVec, this]; simp
      refine not_lt.1 fun hc => h1' ?_
      obtain ⟨k, _, hk2, hk3⟩ := V_lt.1 hc
      exact ⟨k, fun j hj => (hk2 j hj).symm, hk3⟩
    · intro i hi
      obtain ⟨g, r, s, g1, g2, g3⟩ := hdrop i (by omega)
      rw [hwv i hwn g s g3 g2.vec]
      unfold lvl
      rw [if_neg hwn, g3]
      cases g with
      | nil => exact absurd g2.vec (by simp [isVec])
      | cons w g =>
        simp only [List.cons_append, List.headD_cons]
        rw [at'_cons, if_pos rfl]; exact g2.pos w rfl
    · intro i j hi hj e
      have hN : (ys.map (·.1.var)).Nodup := by
        refine (hperm.map _).nodup_iff.2 ?_
        rw [List.Nodup, List.pairwise_map]
        exact v1.imp fun h => by omega
      rw [hlit i (by omega), hlit j (by omega)] at e
      exact (List.Nodup.getElem_inj_iff hN (hi := by simp; omega) (hj := by simp; omega)).1 (by simpa using e)
    · intro i hi e
      have := hvar i (by omega)
      rw [← hlit i (by omega), e, h0] at this; cases this
    · have := sum_range (l := d.lits) (f := fun x => weightAt d x 0) (g := fun i => wv d (sec d i) 0) (fun i hi => by
        rw [weightAt_wv hone, sec_get hi])
      rw [← this]; exact hsm
    · intro _
      exact ⟨c.2, by rw [hwe, hr]; congr 3; omega⟩
  · rename_i hlen
    have hsub : d.lits = (ssort (fun a b => decide (a.weight > b.weight)) ls).map (fun e => (e.lit, e.weight)) ∧ d.weights = [] ∧ rules d = 1 := by
      split at h
      · simp only [Except.ok.injEq] at h; subst h; exact ⟨rfl, rfl, rfl⟩
      · rename_i he
        simp only [Except.ok.injEq] at h; subst h
        refine ⟨rfl, rfl, ?_⟩
        show adj.length = 1
        have : 0 < ps.length := List.length_pos_iff.2 he
        omega
    obtain ⟨hl, hw, hr⟩ := hsub
    have hperm : (ssort (fun a b : MLit => decide (a.weight > b.weight)) ls).Perm ls := ssort_perm ls
    have hsorted : (ssort (fun a b : MLit => decide (a.weight > b.weight)) ls).Pairwise (fun x y => decide (y.weight > x.weight) = false) := by
      refine ssort_sorted (S := fun _ => True) ?_ ?_ (by simp)
      · intro a b _ _ h; simp at h ⊢; omega
      · intro a b c _ _ _ h1 h2; simp at h1 h2 ⊢; omega
    generalize ssort (fun a b : MLit => decide (a.weight > b.weight)) ls = ys at *
    have hlen2 : d.lits.length = ys.length := by rw [hl]; simp
    have hlit : ∀ i (hi : i < ys.length), lit d i = ys[i].lit := by
      intro i hi; rw [lit_get (by omega)]; simp [hl]
    have hsec : ∀ i (hi : i < ys.length), sec d i = ys[i].weight := by
      intro i hi; rw [sec_get (by omega)]; simp [hl]
    have hmem : ∀ i (hi : i < ys.length), ys[i] ∈ ls := fun i hi => hperm.mem_iff.1 (List.getElem_mem hi)
    have hone : d.weights = [] ↔ rules d = 1 := ⟨fun _ => hr, fun _ => hw⟩
    refine ⟨hone, by omega, ?_, ?_, ?_, ?_, ?_, ?_, ?_⟩
    · intro i _ hn; exact absurd hw hn
    · intro i j hij hj
      refine not_lt.1 fun hc => ?_
      obtain ⟨k, hk1, _, hk3⟩ := V_lt.1 hc
      obtain rfl : k = 0 := by omega
      have := List.pairwise_iff_getElem.1 hsorted i j (by omega) (by omega) hij
      simp only [wv, if_pos hw, if_true] at hk3
      rw [hsec i (by omega), hsec j (by omega)] at hk3
      simp at this; omega
    · intro i hi
      simp only [wv, lvl, if_pos hw, if_true]
      rw [hsec i (by omega)]
      exact (p6 _ (hmem i (by omega))).1
    · intro i j hi hj e
      have hN : (ys.map (·.lit.var)).Nodup := by
        refine (hperm.map _).nodup_iff.2 ?_
        rw [List.Nodup, List.pairwise_map]
        refine List.Pairwise.imp_of_mem ?_ p7
        intro a b ha hb h
        obtain ⟨x, hx1, hx2⟩ := p5 a ha
        obtain ⟨y, hy1, hy2⟩ := p5 b hb
        omega
      rw [hlit i (by omega), hlit j (by omega)] at e
      exact (List.Nodup.getElem_inj_iff hN (hi := by simp; omega) (hj := by simp; omega)).1 (by simpa using e)
    · intro i hi e
      have := (p6 _ (hmem i (by omega))).2.2
      rw [← hlit i (by omega), e, h0] at this; cases this
    · have := sum_range (l := d.lits) (f := fun x => weightAt d x 0) (g := fun i => wv d (sec d i) 0) (fun i hi => by
        rw [weightAt_wv hone, sec_get hi])
      rw [← this]; exact hsm
    · intro hn; exact absurd hw hn

end Clasp.MinC
