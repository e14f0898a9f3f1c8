/- C37: the invariant holds in every reachable state. -/
import Verif.Opt.MinProp
namespace Clasp.MinC
open Clasp.Core (Lit)
open Clasp.Mini (Data LW)

theorem Core.sum_lt {d : Data} (hd : Wf d) {w : Wd} {U : List (Nat × Nat)} (h : Core d w U) : sumOf d U 0 < MAXB := by
  have hwn : ∀ j, j < d.lits.length → 0 ≤ wv d (sec d j) 0 := by
    intro j hj
    by_cases h0 : lvl d (sec d j) = 0
    · have := hd.lead j hj; rw [h0] at this; omega
    · rw [wv_lt (hd.good j (by omega)) (by omega)]
  have hsub : U.map Prod.fst ⊆ List.range d.lits.length := by
    intro j hj
    obtain ⟨x, hx, rfl⟩ := List.mem_map.1 hj
    exact List.mem_range.2 (h.conf_none x hx)
  have e : sumOf d U 0 = ((U.map Prod.fst).map fun i => wv d (sec d i) 0).sum := by rw [List.map_map]; rfl
  rw [e]
  obtain ⟨l, h1, h2⟩ := List.subperm_of_subset h.uN hsub
  rw [← (h1.map fun i => wv d (sec d i) 0).sum_eq]
  refine lt_of_le_of_lt (List.Sublist.sum_le_sum (h2.map _) ?_) hd.small
  intro a ha
  obtain ⟨j, hj, rfl⟩ := List.mem_map.1 ha
  exact hwn j (List.mem_range.1 hj)

theorem Core.sum_max {d : Data} (hd : Wf d) {w : Wd} {U : List (Nat × Nat)} (h : Core d w U) {o : Nat → Int} (ho : o 0 = MAXB) : S d U ≤ V (rules d) o := by
  rw [← V_sumOf]
  refine le_of_lt (V_lt.2 ⟨0, hd.ge, fun j hj => by omega, ?_⟩)
  rw [ho]; exact h.sum_lt hd

/-- With no bound, nothing has to be false. -/
theorem Core.claim_max {d : Data} (hd : Wf d) {w : Wd} {U : List (Nat × Nat)} (h : Core d w U) (ho : w.con.opt 0 = MAXB) {i : Nat} (hi : i < d.lits.length) (l : Nat) :
    Claim d w U i l := fun hn himp =>
  absurd himp (no_bound hd ho (fun x hx => h.conf_none x (mem_upto.1 hx).1) (h.uN.sublist ((upto_sub U l).map _)) hi hn)

theorem RsOk.cons {d : Data} {U : List (Nat × Nat)} {P : Nat × Nat → Prop} {p : Lit} {lev : Nat} {r : Rs} (x : Nat × Nat) (h : RsOk d U P p lev r) :
    RsOk d (x :: U) P p lev r := by
  obtain ⟨i, h1, h2, h3, h4, h5, h6⟩ := h
  have e : pre (x :: U) r.up = pre U r.up := pre_append (a := [x]) h3
  exact ⟨i, h1, h2, by simp; omega, by rw [e]; exact h4, by rw [e]; exact h5, by rw [e]; exact h6⟩

/-! ### Steps of the solver -/

theorem inv_assign {d : Data} {w : Wd} {U : List (Nat × Nat)} (h : Inv d w U) {p : Lit} (hc : w.conf = none) (h1 : isTrue w.tr p = false) (h2 : isFalse w.tr p = false) :
    Inv d (push d w p none) U := by
  have a := push_core0 h.toCore0 h1 h2 (rs := none) (fun _ h => nomatch h)
  have b := push_pd h.toCore0 h.pd h1 (rs := none)
  exact
  { a with
    pendT := b.pendT
    pendN := b.pendN
    pendC := b.pendC
    imp := fun e he => ⟨(h.imp e he).1, fun hc => by
      obtain ⟨f, hf, f1⟩ := isTrue_iff.1 ((h.imp e he).2 hc)
      exact isTrue_iff.2 ⟨f, .tail _ hf, f1⟩⟩
    rootL := h.rootL
    baseL := h.baseL
    conf := fun q r hq => by
      have hq : w.conf = some (q, some r) := hq
      rw [hc] at hq; cases hq
    claim := fun i hi hs l a1 a2 b1 b2 => (h.claim i hi hs l a1 a2 b1 b2).push
    bnd := h.bnd
    tgt := h.tgt
    stl := h.stl }

theorem inv_implied {d : Data} {w : Wd} {U : List (Nat × Nat)} (h : Inv d w U) {p : Lit} {lev : Nat} (hc : w.conf = none) (hlev : lev < w.dl)
    (h2 : isFalse w.tr p = false) : Inv d (forceAt d w p lev none) U := by
  obtain ⟨t, pe, im, cf, f1, f2, f3, f4, f5, f6⟩ := forceAt_spec h.toCore hc (p := p) (lev := lev) (rs := none) (by omega) (fun _ h => nomatch h)
  have hcf := f6 h2
  subst hcf
  rw [f1]
  have htop : top { w with tr := t, pend := pe, imps := im, conf := none } = top w := by rw [top_none hc, top_none rfl]
  exact
  { f2 with
    rootL := h.rootL
    baseL := h.baseL
    conf := f3
    claim := fun i hi hs l a1 a2 b1 b2 => f4 (l + 1) l (Nat.lt_succ_self _) i (h.claim i hi hs l a1 (by rw [htop] at a2; exact a2) b1 b2)
    bnd := h.bnd
    tgt := h.tgt
    stl := h.stl }

theorem inv_level {d : Data} {w : Wd} {U : List (Nat × Nat)} (h : Inv d w U) (hc : w.conf = none) (hp : w.pend = []) (hs : w.stale = false) :
    Inv d { w with dl := w.dl + 1, target := none } U := by
  have htop : top { w with dl := w.dl + 1, target := none } = w.dl + 2 := top_none hc
  have htopw : top w = w.dl + 1 := top_none hc
  exact
  { trN := h.trN
    trS := h.trS
    trL := fun e he => Nat.le_succ_of_le (h.trL e he)
    und := h.und
    uw := h.uw
    psO := h.psO
    uN := h.uN
    uS := h.uS
    uT := h.uT
    seen := h.seen
    sum := h.sum
    act := h.act
    actL := h.actL
    pos := fun _ => h.pos (by
      have := h.rootL
      have : hl U ≤ w.dl := by
        cases hU : U with
        | nil => exact Nat.zero_le _
        | cons x u => exact dl_ge h.toCore0 x (by rw [hU]; exact .head _)
      omega)
    posL := .inr (Nat.le_succ_of_le h.rootL)
    posN := h.posN
    rs := h.rs
    rsI := fun e he _ => h.rsI e he (Nat.le_of_lt (h.imp e he).1)
    pendT := fun i hi => by
      have hi : i ∈ w.pend := hi
      rw [hp] at hi; cases hi
    pendN := h.pendN
    pendC := h.pendC
    imp := fun e he => ⟨Nat.lt_succ_of_lt (h.imp e he).1, (h.imp e he).2⟩
    rootL := Nat.le_succ_of_le h.rootL
    baseL := h.baseL
    conf := fun q r hq => by
      have hq : w.conf = some (q, some r) := hq
      rw [hc] at hq; cases hq
    claim := fun i hi _ l a1 a2 => by
      rw [htop] at a2
      rcases Nat.lt_or_ge l (w.dl + 1) with hl | hl
      · exact h.claim i hi (.inl hs) l a1 (by omega)
      · unfold Claim
        rw [upto_dl h.toCore0 (by omega)]
        intro b1 b2
        have := h.claim i hi (.inl hs) w.dl h.rootL (by omega)
        unfold Claim at this
        rw [upto_dl h.toCore0 (Nat.le_refl _)] at this
        exact (this b1 b2).mono (by omega)
    bnd := h.bnd
    tgt := fun _ h => (nomatch h)
    stl := fun _ h => nomatch h }

theorem inv_conflict {d : Data} {w : Wd} {U : List (Nat × Nat)} (h : Inv d w U) (p : Lit) : Inv d { w with conf := some (p, none) } U := by
  have htop : top { w with conf := some (p, none) } ≤ top w := by
    rw [top_some (w := { w with conf := some (p, none) }) (by simp)]; exact le_top w
  exact
  { h with
    pos := fun hr => h.pos (Nat.lt_of_lt_of_le hr htop)
    imp := fun e he => ⟨(h.imp e he).1, fun h => nomatch h⟩
    conf := fun q r hq => by
      have hq : some (p, none) = some (q, some r) := hq
      simp at hq
    claim := fun i hi hs l a1 a2 => h.claim i hi hs l a1 (Nat.lt_of_lt_of_le a2 htop) }

theorem inv_undo {d : Data} (hd : Wf d) {w v : Wd} {U : List (Nat × Nat)} (h : Inv d w U) {l : Nat} (hr : w.root ≤ l) (hl : l < w.dl)
    (hv : undoTo d w l = some v) : Inv d v (upto U l) := by
  obtain ⟨t, p, im, u, c, cf, u1, u2, u3, u4, u5, u6, u7, u8⟩ := undoTo_spec hd h.toCore hl (.inl hr)
  rw [u1] at hv
  injection hv with hv
  subst hv
  have htop : top { w with tr := t, pend := p, imps := im, uw := u, con := c, conf := cf, dl := l } ≤ l + 1 := top_le _
  have hw := le_top w
  exact
  { u2 with
    rootL := hr
    baseL := h.baseL
    conf := u3
    claim := fun i hi hs m a1 a2 => by
      unfold Claim
      rw [upto_upto (by omega)]
      dsimp only
      rw [u4]
      intro b1 b2
      refine u7 m a2 i (h.claim i hi (hs.imp id fun h => ?_) m a1 (by omega) b1 b2)
      dsimp only at h; omega
    bnd := fun hs => by
      dsimp only; rw [u4]
      exact le_trans (S_upto_le hd h.conf_none l) (h.bnd hs)
    tgt := fun t' ht => by
      dsimp only; rw [u4]
      refine le_trans (S_sub hd ?_ fun x hx => h.conf_none x (mem_upto.1 hx).1) (h.tgt t' ht)
      exact (upto_sub U l).filter _
    stl := h.stl }

theorem inv_pushRoot {d : Data} {w : Wd} {U : List (Nat × Nat)} (h : Inv d w U) {r : Nat} (h1 : w.root ≤ r) (h2 : r ≤ w.dl) : Inv d { w with root := r } U :=
  { h with
    psO := PosOk.root (fun _ _ _ hL hf => hf.mono hL) (.inl h1) h.psO
    pos := fun hr i hi => by
      have hr : max (hl U) r < top w := hr
      exact (h.pos (by omega) i hi).imp (fun h => h) fun hf => hf.mono (by dsimp only; omega)
    posL := .inr h2
    rootL := h2
    baseL := Nat.le_trans h.baseL h1
    claim := fun i hi hs l a1 a2 => h.claim i hi hs l (Nat.le_trans h1 a1) a2 }

theorem inv_popRoot {d : Data} (hd : Wf d) {w v : Wd} {U : List (Nat × Nat)} (h : Inv d w U) {r : Nat} (h1 : r < w.root) (ho : w.con.opt = fun _ => MAXB)
    (hp : w.con.pos = 0) (hv : undoTo d w r = some v) : Inv d { v with root := r, base := 0 } (upto U r) := by
  obtain ⟨t, p, im, u, c, cf, u1, u2, u3, u4, u5, u6, u7, u8⟩ := undoTo_spec hd h.toCore (l := r) (Nat.lt_of_lt_of_le h1 h.rootL) (.inr hp)
  rw [u1] at hv
  injection hv with hv
  subst hv
  have hc0 : c.pos = 0 := by omega
  have hco : Core d { w with tr := t, pend := p, imps := im, uw := u, con := c, conf := cf, dl := r, root := r, base := 0 } (upto U r) :=
    { u2 with
      psO := PosOk.root (fun _ _ _ hL hf => hf.mono hL) (.inr fun x hx => (mem_upto.1 hx).2) u2.psO
      pos := fun _ i hi => by
        have hi : i < c.pos := hi
        omega
      posL := .inl hc0 }
  exact
  { hco with
    rootL := Nat.le_refl _
    baseL := Nat.zero_le _
    conf := u3
    claim := fun i hi _ m _ _ => hco.claim_max hd (by show c.opt 0 = MAXB; rw [u4, ho]) hi m
    bnd := fun _ => hco.sum_max hd (by show c.opt 0 = MAXB; rw [u4, ho])
    tgt := fun t' _ => le_trans (S_upto_le hd hco.conf_none t') (hco.sum_max hd (by show c.opt 0 = MAXB; rw [u4, ho]))
    stl := h.stl }

theorem inv_relax {d : Data} (hd : Wf d) {w : Wd} {U : List (Nat × Nat)} (h : Inv d w U) : Inv d (relax w) U := by
  have hge := hd.ge
  have hco : Core d (relax w) U :=
    { h with
      act := fun j hj => absurd hj (Nat.not_lt_zero _)
      actL := by show 0 < rules d; omega
      pos := fun _ i hi => absurd hi (Nat.not_lt_zero _)
      posL := .inl rfl
      posN := Nat.zero_le _ }
  exact
  { hco with
    rootL := h.rootL
    baseL := h.baseL
    conf := h.conf
    claim := fun i hi _ m _ _ => hco.claim_max hd rfl hi m
    bnd := fun _ => hco.sum_max hd rfl
    tgt := fun _ h => (nomatch h)
    stl := fun _ h => nomatch h }

theorem inv_bound {d : Data} (hd : Wf d) {w : Wd} {U : List (Nat × Nat)} (h : Inv d w U) (o : Nat → Int) :
    Inv d { w with con := { w.con with opt := o, pos := 0, act := 0 }, stale := true, target := none } U := by
  have hge := hd.ge
  exact
  { h with
    act := fun j hj => absurd hj (Nat.not_lt_zero _)
    actL := by show 0 < rules d; omega
    pos := fun _ i hi => absurd hi (Nat.not_lt_zero _)
    posL := .inl rfl
    posN := Nat.zero_le _
    claim := fun i hi hs m _ _ => by
      rcases hs with hs | hs
      · cases hs
      · exact absurd hs (Nat.not_lt_zero _)
    bnd := fun h => nomatch h
    tgt := fun _ h => (nomatch h)
    stl := fun _ h => nomatch h }

theorem inv_load {d : Data} (hd : Wf d) {w : Wd} {U : List (Nat × Nat)} (h : Inv d w U) (o : Nat → Int) (ho : w.con.opt = fun _ => MAXB) (hr : w.dl = w.root) :
    Inv d { w with con := { w.con with opt := o }, stale := true, target := none } U := by
  have hact : w.con.act = 0 := by
    by_contra hne
    have h1 := h.act 0 (by omega)
    rw [ho, h.sum] at h1
    have h2 := h.toCore.sum_lt hd
    have h1 : sumOf d U 0 = MAXB := h1
    omega
  exact
  { h with
    act := fun j hj => by
      have hj : j < w.con.act := hj
      omega
    claim := fun i hi hs m a1 a2 => by
      have a2 : m < top w := a2
      have a1 : w.root ≤ m := a1
      have := top_le w
      have hm : m = w.dl := by omega
      subst hm
      unfold Claim
      rw [upto_dl h.toCore0 (Nat.le_refl _)]
      intro b1 _
      rcases hs with hs | hs
      · cases hs
      · have hhl : hl U ≤ w.dl := by
          cases hU : U with
          | nil => exact Nat.zero_le _
          | cons x u => exact dl_ge h.toCore0 x (by rw [hU]; exact .head _)
        exact ((h.pos (by omega) i hs).resolve_left b1).mono (by omega)
    bnd := fun h => nomatch h
    tgt := fun _ h => (nomatch h)
    stl := fun _ h => nomatch h }

/-! ### Steps of the constraint -/

theorem levels {d : Data} {w : Wd} {I : List Entry} {U : List (Nat × Nat)} {K : Nat} (h : Core0 d w I U K) : ∀ x ∈ U, x.1 < d.lits.length ∧ levelOf w.tr (lit d x.1).var = x.2 := by
  intro x hx
  obtain ⟨x1, e, he, e1, e2⟩ := h.uT x hx
  refine ⟨x1, ?_⟩
  rw [← e1, levelOf_eq h.trN he, e2]

/-- A literal that is true is not among those that have to be false. -/
theorem Core.notFalse {d : Data} {w : Wd} {U : List (Nat × Nat)} (h : Core d w U) (hc : w.conf = none) {i L : Nat} (ht : isTrue w.tr (lit d i) = true) :
    ¬ FalseAt d w.tr w.imps L i := by
  rintro (⟨e, he, e1, _⟩ | ⟨e, he, e1, _⟩)
  · exact not_both h.trN ht (isTrue_iff.2 ⟨e, he, e1⟩)
  · have := (h.imp e he).2 hc
    rw [e1] at this
    exact not_both h.trN ht this

/-- A notification: it never fails, and the invariant holds. -/
theorem inv_notify {d : Data} (hd : Wf d) {w : Wd} {U : List (Nat × Nat)} (h : Inv d w U) {i : Nat} (hc : w.conf = none) (hs : w.stale = false) (hi : i ∈ w.pend) :
    ∃ v, propagate d { w with pend := w.pend.erase i, target := none } i = some v ∧ Inv d v ((i, w.dl) :: U) := by
  obtain ⟨hiN, hiU, e, he, he1, he2⟩ := h.pendT i hi
  have hit : isTrue w.tr (lit d i) = true := isTrue_iff.2 ⟨e, he, he1⟩
  have hUle := dl_ge h.toCore0
  have hhl : hl U ≤ w.dl := by
    cases hU : U with
    | nil => exact Nat.zero_le _
    | cons x u => exact hUle x (by rw [hU]; exact .head _)
  have hroot := h.rootL
  have htopw : top w = w.dl + 1 := top_none hc
  have hpos : w.con.pos ≤ i := by
    by_contra hlt
    rcases h.pos (by omega) i (by omega) with hm | hm
    · exact hiU hm
    · exact h.toCore.notFalse hc hit hm
  have hlast : lastUndo d w.tr w.con.undo = hl U := by rw [h.und]; exact lastUndo_eq h.toCore0
  -- the state in which literals are propagated
  have hst : ∃ u ps un, pushUndo d { w with pend := w.pend.erase i, target := none } i =
        some { w with pend := w.pend.erase i, target := none, uw := u, con := { w.con with seen := Function.update w.con.seen i true, undo := un, ps := ps } } ∧
      u = lv ((i, w.dl) :: U) ∧ un = mk ((i, w.dl) :: U) ∧ PosOk (FalseAt d w.tr w.imps) w.root ((i, w.dl) :: U) ps := by
    unfold pushUndo
    rw [if_pos hpos]
    dsimp only
    rw [hlast]
    by_cases hne : hl U ≠ w.dl
    · rw [if_pos hne]
      refine ⟨_, _, _, rfl, ?_, ?_, ?_⟩
      · rw [lv, if_pos hne, h.uw]
      · rw [mk, h.und]; simp [hne]
      · rw [PosOk, if_pos hne]
        exact ⟨_, _, rfl, fun _ => h.pos (by omega), h.psO⟩
    · rw [if_neg hne]
      refine ⟨_, w.con.ps, _, rfl, ?_, ?_, ?_⟩
      · rw [lv, if_neg hne, h.uw]
      · rw [mk, h.und]; simp only [hne]; simp
      · rw [PosOk, if_neg hne]; exact h.psO
  obtain ⟨u, ps, un, p1, p2, p3, p4⟩ := hst
  unfold propagate
  rw [p1, Option.bind_some]
  unfold propImpl
  dsimp only
  have hlevpos : levelAt d w.con.pos ≤ lvl d (sec d i) := by rw [levelAt_eq hd]; exact hd.levs hpos hiN
  have hco : Core d { w with pend := w.pend.erase i, target := none, uw := u, con := { w.con with seen := Function.update w.con.seen i true, undo := un, ps := ps, sum := add d w.con.sum (sec d i), act := min w.con.act (levelAt d w.con.pos) } } ((i, w.dl) :: U) :=
    { trN := h.trN
      trS := h.trS
      trL := h.trL
      und := p3
      uw := p2
      psO := p4
      uN := by rw [List.map_cons, List.nodup_cons]; exact ⟨hiU, h.uN⟩
      uS := by rw [List.pairwise_cons]; exact ⟨fun x hx => hUle x hx, h.uS⟩
      uT := by
        intro x hx
        rcases List.mem_cons.1 hx with rfl | hx
        · exact ⟨hiN, e, he, he1, he2⟩
        · exact h.uT x hx
      seen := by
        intro j
        show Function.update w.con.seen i true j = true ↔ _
        by_cases hj : j = i
        · subst hj; simp
        · rw [Function.update_of_ne hj, h.seen, List.map_cons, List.mem_cons]; simp [hj]
      sum := by
        show add d w.con.sum (sec d i) = _
        rw [add_eq (hd.good i (by omega)), h.sum]
        funext L; simp [sumOf]; ring
      act := by
        intro j hj
        have hj : j < min w.con.act (levelAt d w.con.pos) := hj
        show add d w.con.sum (sec d i) j = w.con.opt j
        rw [add_eq (hd.good i (by omega))]
        dsimp only
        rw [wv_lt (hd.good i (by omega)) (by omega), Int.add_zero]
        exact h.act j (by omega)
      actL := by
        show min w.con.act (levelAt d w.con.pos) < rules d
        have := h.actL; omega
      pos := by
        intro _ j hj
        rcases h.pos (by omega) j hj with hm | hm
        · exact .inl (by rw [List.map_cons]; exact .tail _ hm)
        · exact .inr (hm.mono (by show max (hl U) w.root ≤ max w.dl w.root; omega))
      posL := .inr hroot
      posN := h.posN
      rs := fun a e b r e1 e2 => (h.rs a e b r e1 e2).cons _
      rsI := fun e he hel r hr => (h.rsI e he hel r hr).cons _
      pendT := by
        intro j hj
        have hj : j ∈ w.pend.erase i := hj
        have hne : j ≠ i := fun e => by subst e; exact (List.Nodup.mem_erase_iff h.pendN).1 hj |>.1 rfl
        obtain ⟨b1, b2, b3⟩ := h.pendT j (List.mem_of_mem_erase hj)
        refine ⟨b1, ?_, b3⟩
        rw [List.map_cons, List.mem_cons]
        rintro (hm | hm)
        · exact hne hm
        · exact b2 hm
      pendN := h.pendN.erase i
      pendC := by
        intro j hj ht
        rcases h.pendC j hj ht with hm | hm
        · exact .inl (by rw [List.map_cons]; exact .tail _ hm)
        · by_cases hji : j = i
          · left; rw [hji, List.map_cons]; exact .head _
          · exact .inr ((List.Nodup.mem_erase_iff h.pendN).2 ⟨hji, hm⟩)
      imp := h.imp }
  have htopc : top { w with pend := w.pend.erase i, target := none, uw := u, con := { w.con with seen := Function.update w.con.seen i true, undo := un, ps := ps, sum := add d w.con.sum (sec d i), act := min w.con.act (levelAt d w.con.pos) } } = w.dl + 1 := top_none hc
  have hS : S d ((i, w.dl) :: U) ≤ V (rules d) w.con.opt := by
    rw [S_cons, add_comm]
    refine not_lt.1 fun hlt => ?_
    have hcl := h.claim i hiN (.inl hs) w.dl hroot (by omega)
    unfold Claim at hcl
    rw [upto_dl h.toCore0 (Nat.le_refl _)] at hcl
    exact h.toCore.notFalse hc hit (hcl hiU hlt)
  obtain ⟨t, pe, im, c, cf, l1, l2, l3, l4, l5, l6, l7⟩ := loopF hd (lim := 0) (d.lits.length - w.con.pos) w.con.pos
    ⟨none, w.dl, un.length⟩ _ hco (fun p r hq => by
      have hq : w.conf = some (p, some r) := hq
      rw [hc] at hq; cases hq) (Nat.zero_le _) hroot (Nat.le_trans h.baseL hroot) (by simp only [hl]; exact Nat.le_max_left _ _)
    (by omega) rfl (by show un.length = _; rw [p3, mk_length]) (fun x hx => by cases hx)
    (fun hp hw => by show min w.con.act (levelAt d w.con.pos) ≤ _; rw [levelAt_eq hd]; omega)
    (fun _ j hj => (hco.pos (by rw [htopc]; show max w.dl w.root < w.dl + 1; omega) j hj).imp id fun hf => hf.mono (by show max w.dl w.root ≤ w.dl; omega))
  dsimp only at l1 l2 l3 l4 l5 l6 l7
  refine ⟨_, l1, ?_⟩
  have htop := top_le { w with tr := t, pend := pe, imps := im, uw := u, con := c, conf := cf, target := none }
  dsimp only at htop
  exact
  { l2 with
    rootL := hroot
    baseL := h.baseL
    conf := l3
    claim := by
      intro j hj _ m a1 a2
      have a2 : m < top { w with tr := t, pend := pe, imps := im, uw := u, con := c, conf := cf, target := none } := a2
      unfold Claim
      dsimp only
      rw [l4]
      intro b1 b2
      rcases Nat.lt_or_ge m w.dl with hm | hm
      · have e : upto ((i, w.dl) :: U) m = upto U m := by unfold upto; rw [List.filter_cons_of_neg (by simpa using hm)]
        rw [e] at b1 b2
        exact l5 m a2 j (h.claim j hj (.inl hs) m a1 (by omega) b1 b2)
      · have hme : m = w.dl := by omega
        subst hme
        have hcf : cf = none := by
          by_contra hne
          rw [top_some hne] at a2
          exact absurd a2 (Nat.lt_irrefl _)
        rw [upto_dl hco.toCore0 (Nat.le_refl _)] at b1 b2
        exact l7 hcf j hj b1 b2
    bnd := fun _ => by dsimp only; rw [l4]; exact hS
    tgt := fun _ h => (nomatch h)
    stl := fun _ h => nomatch h }

theorem sec_last {d : Data} : (if d.weights = [] then (0 : Int) else ((d.weights.length - 1 : Nat) : Int)) = sec d d.lits.length := by
  unfold sec
  rw [List.getD_eq_getElem?_getD, List.getElem?_eq_none (Nat.le_refl _)]
  dsimp only [Option.getD]
  split
  · rename_i h; rw [h]; rfl
  · rfl

theorem W_last {d : Data} (hd : Wf d) : W d d.lits.length = 0 := by
  rw [W, ← V_zero]
  congr 1
  funext L
  rw [← sec_last]
  unfold wv
  split
  · simp
  · rename_i h
    obtain ⟨ws, e⟩ := hd.last h
    rw [e]
    have : ((((ws ++ [⟨rules d - 1, false, 0⟩] : List LW).length - 1 : Nat) : Int)).toNat = ws.length := by simp
    rw [this, List.drop_left]
    simp only [Clasp.Mini.vec, Clasp.Mini.at']
    by_cases hL : rules d - 1 = L <;> simp [hL]

theorem lvl_last {d : Data} (hd : Wf d) (hw : d.weights ≠ []) : lvl d (sec d d.lits.length) = rules d - 1 := by
  rw [← sec_last, if_neg hw]
  unfold lvl
  rw [if_neg hw]
  obtain ⟨ws, e⟩ := hd.last hw
  rw [e]
  have : ((((ws ++ [⟨rules d - 1, false, 0⟩] : List LW).length - 1 : Nat) : Int)).toNat = ws.length := by simp
  rw [this, List.drop_left]
  rfl

/-- Comparison of the sum with the bound. -/
theorem check_spec {d : Data} (hd : Wf d) {w : Wd} {U : List (Nat × Nat)} (h : Inv d w U) (hst : w.stale = true) :
    ∃ v r, check d w = some (v, r) ∧ Inv d v U ∧
      ∀ L, r = some L → L ≤ w.root ∧ w.base ≤ L ∧ V (rules d) w.con.opt < S d (upto U L) := by
  have hact := h.actL
  obtain ⟨b, a, i1, i2, i3, i4⟩ := imp_spec (hd.good d.lits.length (Nat.le_refl _)) (fun h => hd.one.1 h) (lhs := w.con.sum) (rhs := w.con.opt) (lev := w.con.act)
    (fun hw => by rw [lvl_last hd hw]; omega) h.act
  have ha2 : a < rules d := imp_act hd (Nat.le_refl _) i1 h.actL i4
  rw [h.sum, V_sumOf] at i2
  unfold check
  rw [sec_last]
  dsimp only
  rw [i1]
  dsimp only
  have hinv : ∀ t, (∀ t', t = some t' → S d (upto U t') ≤ V (rules d) w.con.opt) → Inv d { w with con := { w.con with act := a }, target := t } U := fun t ht =>
    { h with act := i3, actL := ha2, tgt := ht, stl := fun _ _ => hst }
  cases b with
  | false =>
    rw [if_neg (by simp)]
    refine ⟨_, _, rfl, hinv (some w.dl) ?_, fun L h => nomatch h⟩
    intro t' ht
    injection ht with ht
    subst ht
    rw [upto_dl h.toCore0 (Nat.le_refl _)]
    refine not_lt.1 fun hlt => ?_
    have : (false = true) := i2.2 (by
      show _ < S d U + W d d.lits.length
      rw [W_last hd, add_zero]; exact hlt)
    cases this
  | true =>
    rw [if_pos rfl]
    obtain ⟨L, up, s1, s2, s3, s4, s5, s6, s7⟩ := implSet_spec hd (w := { w with con := { w.con with act := a } }) (k := d.lits.length) (Nat.le_refl _) U w.con.sum a h.uS
      (fun x hx => levels h.toCore0 x hx) h.sum i3 ha2 i4 (i2.1 rfl)
    have hcomp : computeImpl d { w with con := { w.con with act := a } } (sec d d.lits.length) = some (L, up) := by
      rw [← h.und] at s1
      exact s1
    rw [hcomp, Option.map_some]
    dsimp only
    rw [W_last hd] at s3 s6
    have hb := h.baseL
    by_cases hroot : w.root < L
    · rw [if_pos hroot]
      refine ⟨_, _, rfl, hinv (some (L - 1)) ?_, fun L h => nomatch h⟩
      intro t' ht
      injection ht with ht
      subst ht
      refine not_lt.1 fun hlt => s6 (L - 1) (by dsimp only; omega) (by omega) (by rw [add_zero]; exact hlt)
    · rw [if_neg hroot]
      refine ⟨_, _, rfl, { h with act := i3, actL := ha2 }, ?_⟩
      intro L' e
      injection e with e
      subst e
      refine ⟨by omega, s5, ?_⟩
      rw [add_zero] at s3
      obtain ⟨p1, p2⟩ := pre_upto h.uS s2 (l := L) s4
      rw [← p2] at s3
      exact lt_of_lt_of_le s3 (S_sub hd (pre_sub _ _) fun x hx => h.conf_none x (mem_upto.1 hx).1)

/-- Propagation of a bound: it never fails, and the invariant holds. -/
theorem inv_integrate {d : Data} (hd : Wf d) {w : Wd} {U : List (Nat × Nat)} (h : Inv d w U) {lim t : Nat} (hc : w.conf = none) (ht : w.target = some t) (hdl : w.dl ≤ t)
    (h1 : w.root ≤ lim) (h2 : lim ≤ w.dl) : ∃ v U', integrate d lim w = some v ∧ Inv d v U' := by
  have hS : S d U ≤ V (rules d) w.con.opt := by
    have := h.tgt t ht
    rwa [upto_dl h.toCore0 hdl] at this
  have hactL := h.actL
  have htopw : top w = w.dl + 1 := top_none hc
  have hhl : hl U ≤ w.dl := by
    cases hU : U with
    | nil => exact Nat.zero_le _
    | cons x u => exact dl_ge h.toCore0 x (by rw [hU]; exact .head _)
  have hposle := h.posN
  have hco := h.toCore.setAct (a := min w.con.act (levelAt d w.con.pos)) (fun j hj => h.act j (by omega)) (by omega)
  obtain ⟨t', pe, im, u, c, cf, D, l1, l2, l3, l4, l5, l6, l7⟩ := loopT hd (lim := lim) (d.lits.length - w.con.pos) w.con.pos
    ⟨none, w.dl + 1, w.con.undo.length⟩ _ U hco (by exact h.conf) h2 h1 h.baseL (by omega) hS (Nat.le_refl _)
    (fun hp hw => by show min w.con.act (levelAt d w.con.pos) ≤ _; rw [levelAt_eq hd]; omega)
    (fun _ x hx => by cases hx) (fun j hj m a1 a2 => by
      by_cases hjl : j < d.lits.length
      · exact h.claim j hjl (.inr hj) m a1 a2
      · omega)
    (fun _ j hj => h.pos (by omega) j hj)
  dsimp only at l1 l2 l3 l4 l5 l6
  unfold integrate propImpl
  rw [if_pos rfl, l1, Option.map_some]
  have base : ∀ (st : Bool) (tg : Option Nat), (st = false → cf = none) → (∀ t, tg = some t → st = true) → Inv d { w with tr := t', pend := pe, imps := im, uw := u, con := c, conf := cf, dl := D, stale := st, target := tg } (upto U D) := by
    intro st tg hst htg
    have hsum : S d (upto U D) ≤ V (rules d) c.opt := by rw [l4]; exact le_trans (S_upto_le hd h.conf_none D) hS
    exact
    { ({ l2 with } : Core d { w with tr := t', pend := pe, imps := im, uw := u, con := c, conf := cf, dl := D, stale := st, target := tg } (upto U D)) with
      rootL := Nat.le_trans h1 l5
      baseL := h.baseL
      conf := l3
      claim := fun j hj hor m a1 a2 => l7 j hj (hor.imp hst id) m a1 a2
      bnd := fun _ => hsum
      tgt := fun t'' _ => le_trans (S_upto_le hd l2.conf_none t'') hsum
      stl := htg }
  by_cases hcf : cf = none
  · refine ⟨_, upto U D, rfl, ?_⟩
    rw [if_pos (by rw [hcf]; rfl)]
    exact base false none (fun _ => hcf) fun _ h => nomatch h
  · refine ⟨_, upto U D, rfl, ?_⟩
    rw [if_neg (by simpa using hcf)]
    have hst := h.stl t ht
    exact base w.stale w.target (fun h => by rw [hst] at h; cases h) h.stl

/-! ### All steps -/

theorem inv_step {d : Data} (hd : Wf d) {w v : Wd} {U : List (Nat × Nat)} (h : Inv d w U) (hs : Step d w v) : ∃ U', Inv d v U' := by
  cases hs with
  | assign p h1 h2 h3 => exact ⟨U, inv_assign h h1 h2 h3⟩
  | implied p lev h1 h2 h3 => exact ⟨U, inv_implied h h1 h2 h3⟩
  | decide p h1 h2 h3 h4 h5 => exact ⟨U, inv_assign (inv_level h h1 h2 h3) h1 h4 h5⟩
  | notify _ i h1 h2 h3 h4 =>
    obtain ⟨v', e, hv⟩ := inv_notify hd h h1 h2 h3
    rw [h4] at e
    injection e with e
    exact ⟨_, by rw [e]; exact hv⟩
  | conflict p => exact ⟨U, inv_conflict h p⟩
  | undo _ l h1 h2 h3 => exact ⟨_, inv_undo hd h h1 h2 h3⟩
  | pushRoot r h1 h2 => exact ⟨U, inv_pushRoot h h1 h2⟩
  | popRoot v r h1 h2 h3 h4 => exact ⟨_, inv_popRoot hd h h1 h2 h3 h4⟩
  | base b h1 h2 => exact ⟨U, { h with baseL := h1 }⟩
  | relax => exact ⟨U, inv_relax hd h⟩
  | bound o => exact ⟨U, inv_bound hd h o⟩
  | load o h1 h2 => exact ⟨U, inv_load hd h o h1 h2⟩
  | check _ h1 h2 h3 =>
    obtain ⟨v', r, e, hv, _⟩ := check_spec hd h h2
    rw [h3] at e
    injection e with e
    injection e with e1 e2
    exact ⟨U, by rw [e1]; exact hv⟩
  | integrate _ lim t h1 h2 h3 h4 h5 h6 =>
    obtain ⟨v', U', e, hv⟩ := inv_integrate hd h h1 h2 h3 h4 h5
    rw [h6] at e
    injection e with e
    exact ⟨U', by rw [e]; exact hv⟩

theorem inv_init {d : Data} (hd : Wf d) {tr : List Lit} (ht : (tr.map (·.var)).Nodup) : Inv d (init d tr) [] := by
  have hmem : ∀ e ∈ (init d tr).tr, e.lit ∈ tr ∧ e.lev = 0 ∧ e.rs = none := by
    intro e he
    obtain ⟨p, hp, rfl⟩ := List.mem_map.1 he
    exact ⟨hp, rfl, rfl⟩
  have hco : Core d (init d tr) [] :=
    { trN := by
        show ((tr.map fun p => (⟨p, 0, none⟩ : Entry)).map (·.lit.var)).Nodup
        rw [List.map_map]; exact ht
      trS := by
        show (tr.map fun p => (⟨p, 0, none⟩ : Entry)).Pairwise _
        rw [List.pairwise_map]
        exact List.pairwise_of_forall (fun _ _ => Nat.le_refl _)
      trL := fun e he => by rw [(hmem e he).2.1]; exact Nat.zero_le _
      und := rfl
      uw := rfl
      psO := rfl
      uN := List.nodup_nil
      uS := .nil
      uT := fun x hx => nomatch hx
      seen := fun i => by simp [init]
      sum := rfl
      act := fun j hj => absurd hj (Nat.not_lt_zero _)
      actL := hd.ge
      pos := fun _ i hi => absurd hi (Nat.not_lt_zero _)
      posL := .inl rfl
      posN := Nat.zero_le _
      rs := fun a e b r e1 e2 => by
        have := (hmem e (by rw [e1]; simp)).2.2
        rw [this] at e2; cases e2
      rsI := fun e he => nomatch he
      pendT := by
        intro i hi
        obtain ⟨p, hp, h1⟩ := List.mem_flatMap.1 hi
        obtain ⟨a1, a2⟩ := mem_idxOf.1 h1
        exact ⟨a1, by simp, ⟨p, 0, none⟩, List.mem_map_of_mem hp, a2.symm, rfl⟩
      pendN := by
        show (tr.flatMap (idxOf d)).Nodup
        rw [List.nodup_flatMap]
        refine ⟨fun p _ => List.nodup_range.filter _, ?_⟩
        have : tr.Nodup := List.Nodup.of_map _ ht
        refine this.imp ?_
        intro p q hpq i h1 h2
        exact hpq (by rw [← (mem_idxOf.1 h1).2, ← (mem_idxOf.1 h2).2])
      pendC := by
        intro i hi h1
        obtain ⟨e, he, e1⟩ := isTrue_iff.1 h1
        exact .inr (List.mem_flatMap.2 ⟨e.lit, (hmem e he).1, mem_idxOf.2 ⟨hi, e1.symm⟩⟩)
      imp := fun e he => nomatch he }
  exact
  { hco with
    rootL := Nat.le_refl _
    baseL := Nat.le_refl _
    conf := fun _ _ h => nomatch h
    claim := fun i hi _ l _ _ => hco.claim_max hd rfl hi l
    bnd := fun _ => hco.sum_max hd rfl
    tgt := fun _ h => nomatch h
    stl := fun _ h => nomatch h }

theorem inv_reach {d : Data} (hd : Wf d) {tr : List Lit} (ht : (tr.map (·.var)).Nodup) {w : Wd} (h : Reach d tr w) : ∃ U, Inv d w U := by
  induction h with
  | init => exact ⟨[], inv_init hd ht⟩
  | step _ hs ih =>
    obtain ⟨U, hU⟩ := ih
    exact inv_step hd hU hs

end Clasp.MinC
