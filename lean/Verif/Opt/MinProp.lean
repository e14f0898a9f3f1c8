/- C37: propagation of sums and bounds. -/
import Verif.Opt.MinForce
namespace Clasp.MinC
open Clasp.Core (Lit)
open Clasp.Mini (Data LW)

theorem upto_dl {d : Data} {w : Wd} {I : List Entry} {U : List (Nat × Nat)} {K : Nat} (h : Core0 d w I U K) {l : Nat} (hl : w.dl ≤ l) : upto U l = U :=
  upto_all fun x hx => by have := dl_ge h x hx; omega

theorem hl_mem' {U : List (Nat × Nat)} (hs : U.Pairwise (fun a b => b.2 ≤ a.2)) {y : Nat × Nat} (hy : y ∈ U) : y.2 ≤ hl U := le_hl hs y hy

theorem Core.conf_none {d : Data} {w : Wd} {U : List (Nat × Nat)} (h : Core d w U) : ∀ x ∈ U, x.1 < d.lits.length := fun x hx => (h.uT x hx).1

/-- The literal with index `i` is forced to be false. -/
theorem forceLit_spec {d : Data} (hd : Wf d) {w : Wd} {U : List (Nat × Nat)} (h : Core d w U) (hc : w.conf = none) {i il up lim : Nat} (hi : i < d.lits.length)
    (hiU : i ∉ U.map Prod.fst) (hle : il ≤ w.dl) (hlim : lim ≤ w.dl) (hroot : w.root ≤ lim ∨ il = w.dl) (hup : up ≤ U.length)
    (himp : V (rules d) w.con.opt < S d (pre U up) + W d i) (hpre : ∀ y ∈ pre U up, y.2 ≤ il) (hbase : w.base ≤ il) :
    ∃ t pe im u c cf l, forceLit d lim w i il up = some { w with tr := t, pend := pe, imps := im, uw := u, con := c, conf := cf, dl := l } ∧
      Core d { w with tr := t, pend := pe, imps := im, uw := u, con := c, conf := cf, dl := l } (upto U l) ∧
      ConfOk d { w with tr := t, pend := pe, imps := im, uw := u, con := c, conf := cf, dl := l } (upto U l) ∧
      il ≤ l ∧ lim ≤ l ∧ l ≤ w.dl ∧ c.opt = w.con.opt ∧ c.pos ≤ w.con.pos ∧ c.act ≤ w.con.act ∧
      Keep d w.tr w.imps t im (top { w with conf := cf, dl := l }) ∧ (il < top { w with conf := cf, dl := l } → FalseAt d t im il i) ∧
      (il = w.dl → l = w.dl ∧ c = w.con ∧ u = w.uw) := by
  have hmax : w.con.opt 0 ≠ MAXB := by
    intro he
    have hs := pre_sub U up
    exact no_bound hd he (fun x hx => h.conf_none x (hs.subset hx)) (h.uN.sublist (hs.map _)) hi (fun hm => hiU ((hs.map _).subset hm)) himp
  have hself : w = { w with tr := w.tr, pend := w.pend, imps := w.imps, uw := w.uw, con := w.con, conf := none, dl := w.dl } := by rw [← hc]
  unfold forceLit
  rw [if_neg hmax]
  by_cases hcond : isFalse w.tr (lit d i) = false ∨ (il < w.dl ∧ il < levelOf w.tr (lit d i).var)
  swap
  · rw [if_neg hcond]
    have h1 : isFalse w.tr (lit d i) = true := by
      cases hf : isFalse w.tr (lit d i) with
      | true => rfl
      | false => exact absurd (.inl hf) hcond
    have h2 : ¬ (il < w.dl ∧ il < levelOf w.tr (lit d i).var) := fun h => hcond (.inr h)
    refine ⟨w.tr, w.pend, w.imps, w.uw, w.con, none, w.dl, congrArg some hself, ?_, fun _ _ h => (nomatch h), hle, hlim, Nat.le_refl _, rfl, Nat.le_refl _, Nat.le_refl _,
      fun L _ j hf => hf, fun _ => ?_, fun _ => ⟨rfl, rfl, rfl⟩⟩
    · rw [upto_dl h.toCore0 (Nat.le_refl _), ← hself]; exact h
    · obtain ⟨e, he, e1⟩ := isTrue_iff.1 h1
      have h3 := h.trL e he
      have h4 : levelOf w.tr (lit d i).var = e.lev := by
        rw [← levelOf_eq h.trN he, e1]; rfl
      rw [h4] at h2
      exact .inl ⟨e, he, e1, by omega⟩
  rw [if_pos hcond]
  -- the state after going back
  have key : ∃ t pe im u c l, (if il ≠ w.dl then undoTo d w (max il lim) else some w) =
        some { w with tr := t, pend := pe, imps := im, uw := u, con := c, conf := none, dl := l } ∧
      Core d { w with tr := t, pend := pe, imps := im, uw := u, con := c, conf := none, dl := l } (upto U l) ∧
      il ≤ l ∧ lim ≤ l ∧ l ≤ w.dl ∧ c.opt = w.con.opt ∧ c.pos ≤ w.con.pos ∧ c.act ≤ w.con.act ∧
      Keep d w.tr w.imps t im (l + 1) ∧ (il = w.dl → l = w.dl ∧ c = w.con ∧ u = w.uw) := by
    have hstay : Core d { w with tr := w.tr, pend := w.pend, imps := w.imps, uw := w.uw, con := w.con, conf := none, dl := w.dl } (upto U w.dl) := by
      rw [upto_dl h.toCore0 (Nat.le_refl _), ← hself]; exact h
    by_cases hil : il = w.dl
    · rw [if_neg (by simpa using hil)]
      exact ⟨w.tr, w.pend, w.imps, w.uw, w.con, w.dl, congrArg some hself, hstay, hle, hlim, Nat.le_refl _, rfl, Nat.le_refl _, Nat.le_refl _, fun L _ j hf => hf,
        fun _ => ⟨rfl, rfl, rfl⟩⟩
    · rw [if_pos hil]
      by_cases hm : w.dl ≤ max il lim
      · refine ⟨w.tr, w.pend, w.imps, w.uw, w.con, w.dl, ?_, hstay, hle, hlim, Nat.le_refl _, rfl, Nat.le_refl _, Nat.le_refl _, fun L _ j hf => hf,
          fun h => absurd h hil⟩
        unfold undoTo; rw [if_pos hm]; exact congrArg some hself
      · obtain ⟨t, pe, im, u, c, cf, u1, u2, u3, u4, u5, u6, u7, u8⟩ := undoTo_spec hd h (l := max il lim) (by omega) (.inl (by
          rcases hroot with hr | hr
          · omega
          · exact absurd hr hil))
        obtain ⟨hcf, _⟩ := u8 hc
        subst hcf
        have ht : top { w with dl := max il lim, conf := none } = max il lim + 1 := top_none rfl
        rw [ht] at u7
        exact ⟨t, pe, im, u, c, max il lim, u1, u2, by omega, by omega, by omega, u4, u5, u6, u7, fun h => absurd h hil⟩
  obtain ⟨t, pe, im, u, c, l, k1, k2, k3, k4, k5, k6, k7, k8, k9, k10⟩ := key
  rw [k1, Option.map_some]
  obtain ⟨t', pe', im', cf, f1, f2, f3, f4, f5, f6⟩ := forceAt_spec k2 rfl (p := (lit d i).neg) (lev := il) (rs := some ⟨up, w.con.opt, w.base⟩) k3 (by
    intro r hr
    injection hr with hr
    subst hr
    obtain ⟨p1, p2⟩ := pre_upto h.uS hup (l := l) fun y hy => by have := hpre y hy; omega
    exact ⟨i, hi, rfl, p1, by dsimp only; rw [p2]; exact fun y hy => ⟨trivial, hpre y hy⟩, by dsimp only; rw [p2]; exact himp, hbase,
      fun hm => hiU ((((pre_sub _ _).trans (upto_sub _ _)).map _).subset hm)⟩)
  rw [f1]
  refine ⟨t', pe', im', u, c, cf, l, rfl, f2, f3, k3, k4, k5, k6, k7, k8, ?_, f5, k10⟩
  intro L hL j hf
  have := top_le { w with conf := cf, dl := l }
  dsimp only at this
  exact f4 _ L hL j (k9 L (by omega) j hf)

theorem imp_act {d : Data} (hd : Wf d) {lhs rhs : Nat → Int} {i lev l : Nat} {b : Bool} (hi : i ≤ d.lits.length) (h : imp d lhs (sec d i) rhs lev = some (b, l))
    (hlev : lev < rules d) (hl : d.weights ≠ [] → l ≤ lvl d (sec d i)) : l < rules d := by
  by_cases hw : d.weights = []
  · unfold imp at h; rw [if_pos hw] at h; simp only [Option.some.injEq, Prod.mk.injEq] at h; omega
  · have := hl hw; have := lvl_lt hd hi; omega

/-- A new value of `actLev_`. -/
theorem Core.setAct {d : Data} {w : Wd} {U : List (Nat × Nat)} (h : Core d w U) {a : Nat} (ha : ∀ j < a, w.con.sum j = w.con.opt j) (hr : a < rules d) :
    Core d { w with con := { w.con with act := a } } U := { h with act := ha, actL := hr }

theorem Core.setPos {d : Data} {w : Wd} {U : List (Nat × Nat)} (h : Core d w U) {a : Nat}
    (ha : max (hl U) w.root < top w → ∀ i < a, i ∈ U.map Prod.fst ∨ FalseAt d w.tr w.imps (max (hl U) w.root) i) (hr : w.root ≤ w.dl) (hn : a ≤ d.lits.length) :
    Core d { w with con := { w.con with pos := a } } U := { h with pos := ha, posL := .inr hr, posN := hn }

/-- Propagation after a literal was added to the sum. -/
theorem loopF {d : Data} (hd : Wf d) {U : List (Nat × Nat)} {lim : Nat} : ∀ (k i : Nat) (l : Loc) (w : Wd), Core d w U → ConfOk d w U → lim ≤ w.dl →
    w.root ≤ w.dl → w.base ≤ w.dl → w.dl ≤ max (hl U) w.root → i + k = d.lits.length → l.il = w.dl → l.up = U.length →
    (∀ x, l.last = some x → V (rules d) w.con.opt < S d U + V (rules d) (wv d x)) →
    (i < d.lits.length → d.weights ≠ [] → w.con.act ≤ lvl d (sec d i)) →
    (w.conf = none → ∀ j < i, j ∈ U.map Prod.fst ∨ FalseAt d w.tr w.imps w.dl j) →
    ∃ t pe im c cf, propLoop d false lim k i l w = some { w with tr := t, pend := pe, imps := im, con := c, conf := cf } ∧
      Core d { w with tr := t, pend := pe, imps := im, con := c, conf := cf } U ∧ ConfOk d { w with tr := t, pend := pe, imps := im, con := c, conf := cf } U ∧
      c.opt = w.con.opt ∧ Keep d w.tr w.imps t im (top { w with conf := cf }) ∧ (w.conf ≠ none → cf ≠ none) ∧
      (cf = none → ∀ j < d.lits.length, j ∉ U.map Prod.fst → V (rules d) w.con.opt < S d U + W d j → FalseAt d t im w.dl j) := by
  intro k
  induction k with
  | zero =>
    intro i l w h hco hlim hroot hbase hhl hik hil hup hlast hact hq
    refine ⟨w.tr, w.pend, w.imps, w.con, w.conf, rfl, h, hco, rfl, fun L _ j hf => hf, fun h => h, fun hcf j hj hjU _ => ?_⟩
    exact (hq hcf j (by omega)).resolve_left hjU
  | succ k ih =>
    intro i l w h hco hlim hroot hbase hhl hik hil hup hlast hact hq
    have hi : i < d.lits.length := by omega
    rw [propLoop]
    by_cases hcs : w.conf.isSome = true
    · rw [if_pos hcs]
      refine ⟨w.tr, w.pend, w.imps, w.con, w.conf, rfl, h, hco, rfl, fun L _ j hf => hf, fun h => h, fun hcf => ?_⟩
      rw [hcf] at hcs; simp at hcs
    rw [if_neg hcs]
    have hcn : w.conf = none := by simpa using hcs
    have hactn : ∀ {a}, (d.weights ≠ [] → a ≤ lvl d (sec d i)) → i + 1 < d.lits.length → d.weights ≠ [] → a ≤ lvl d (sec d (i + 1)) := fun ha h1 hw =>
      Nat.le_trans (ha hw) (hd.levs (Nat.le_succ i) h1)
    by_cases hskip : w.con.seen i = true ∨ (false = false ∧ isFalse w.tr (lit d i) = true)
    · rw [if_pos hskip]
      refine ih (i + 1) l w h hco hlim hroot hbase hhl (by omega) hil hup hlast (hactn (hact hi)) (fun hcn j hj => ?_)
      rcases Nat.lt_or_ge j i with hji | hji
      · exact hq hcn j hji
      · have : j = i := by omega
        subst this
        rcases hskip with hs | ⟨_, hs⟩
        · exact .inl ((h.seen j).1 hs)
        · obtain ⟨e, he, e1⟩ := isTrue_iff.1 hs
          exact .inr (.inl ⟨e, he, e1, h.trL e he⟩)
    rw [if_neg hskip]
    have hiU : i ∉ U.map Prod.fst := fun hm => hskip (.inl ((h.seen i).2 hm))
    -- the literal is implied, in a state with a new value of `actLev_`
    have main : ∀ (a : Nat) (l' : Loc), (∀ j < a, w.con.sum j = w.con.opt j) → a < rules d → (d.weights ≠ [] → a ≤ lvl d (sec d i)) → l'.il = w.dl → l'.up = U.length →
        (∀ x, l'.last = some x → V (rules d) w.con.opt < S d U + V (rules d) (wv d x)) → V (rules d) w.con.opt < S d U + W d i →
        ∃ t pe im c cf, (forceLit d lim { w with con := { w.con with act := a } } i l'.il l'.up).bind (propLoop d false lim k (i + 1) l') =
            some { w with tr := t, pend := pe, imps := im, con := c, conf := cf } ∧
          Core d { w with tr := t, pend := pe, imps := im, con := c, conf := cf } U ∧ ConfOk d { w with tr := t, pend := pe, imps := im, con := c, conf := cf } U ∧
          c.opt = w.con.opt ∧ Keep d w.tr w.imps t im (top { w with conf := cf }) ∧ (w.conf ≠ none → cf ≠ none) ∧
          (cf = none → ∀ j < d.lits.length, j ∉ U.map Prod.fst → V (rules d) w.con.opt < S d U + W d j → FalseAt d t im w.dl j) := by
      intro a l' ha1 ha2 ha3 hil' hup' hlast' himp
      have hpre : pre U U.length = U := by simp [pre]
      obtain ⟨t, pe, im, u, c, cf, m, f1, f2, f3, f4, f5, f6, f7, f8, f9, f10, f11, f12⟩ := forceLit_spec hd (h.setAct ha1 ha2) hcn (i := i) (il := l'.il) (up := l'.up)
        (lim := lim) hi hiU (by dsimp only; omega) hlim (.inr hil') (by omega) (by rw [hup', hpre]; exact himp)
        (by rw [hup', hpre]; intro y hy; have := dl_ge h.toCore0 y hy; omega) (by dsimp only; omega)
      obtain ⟨e1, e2, e3⟩ := f12 hil'
      subst e1 e2 e3
      rw [f1, Option.bind_some]
      have f10 : Keep d w.tr w.imps t im (top { w with conf := cf }) := f10
      have f11 : l'.il < top { w with conf := cf } → FalseAt d t im l'.il i := f11
      dsimp only at f2 f3
      rw [upto_dl h.toCore0 (Nat.le_refl _)] at f2 f3
      obtain ⟨t', pe', im', c', cf', g1, g2, g3, g4, g5, g6, g7⟩ := ih (i + 1) l'
        { w with tr := t, pend := pe, imps := im, con := { w.con with act := a }, conf := cf } f2 f3 hlim hroot hbase hhl (by omega) hil' hup' hlast' (hactn ha3) (by
          intro hcf j hj
          have hcf : cf = none := hcf
          have htop : top { w with conf := cf } = w.dl + 1 := top_none hcf
          rcases Nat.lt_or_ge j i with hji | hji
          · exact (hq hcn j hji).imp id (f10 w.dl (by omega) j)
          · have : j = i := by omega
            subst this
            have := f11 (by omega)
            rw [hil'] at this
            exact .inr this)
      dsimp only at g1 g2 g3 g4 g5 g6 g7
      refine ⟨t', pe', im', c', cf', g1, g2, g3, g4, ?_, fun hne => absurd hcn hne, g7⟩
      intro L hL j hf
      refine g5 L hL j (f10 L ?_ j hf)
      have hL : L < top { w with conf := cf' } := hL
      by_cases hcf : cf = none
      · have e1 : top { w with conf := cf } = w.dl + 1 := top_none hcf
        have e2 := top_le { w with conf := cf' }
        dsimp only at e2
        omega
      · have e1 : top { w with conf := cf' } = w.dl := top_some (g6 hcf)
        have e2 := le_top { w with conf := cf }
        dsimp only at e2
        omega
    unfold checkW
    by_cases hsame : l.last = some (sec d i)
    · rw [if_pos hsame]
      dsimp only
      exact main w.con.act l h.act h.actL (hact hi) hil hup hlast (hlast _ hsame)
    · rw [if_neg hsame]
      obtain ⟨b, a, i1, i2, i3, i4⟩ := imp_spec (hd.good i (by omega)) (fun h => hd.one.1 h) (lhs := w.con.sum) (rhs := w.con.opt) (lev := w.con.act) (hact hi) h.act
      have ha2 : a < rules d := imp_act hd (by omega) i1 h.actL i4
      rw [i1]
      dsimp only
      rw [h.sum, V_sumOf] at i2
      cases b with
      | true =>
        rw [if_pos rfl, if_neg (by simp)]
        dsimp only
        refine main a { l with last := some (sec d i) } i3 ha2 i4 hil hup ?_ (i2.1 rfl)
        intro x hx
        injection hx with hx
        subst hx; exact i2.1 rfl
      | false =>
        rw [if_neg (by simp)]
        dsimp only
        have hnot : ¬ V (rules d) w.con.opt < S d U + W d i := fun h => by have := i2.2 h; cases this
        refine ⟨w.tr, w.pend, w.imps, { w.con with act := a, pos := i }, w.conf, rfl, ?_, hco, rfl, fun L _ j hf => hf, fun h => h, ?_⟩
        · refine (h.setAct i3 ha2).setPos ?_ hroot (Nat.le_of_lt hi)
          intro _ j hj
          exact (hq hcn j hj).imp id (fun h => h.mono hhl)
        · intro _ j hj hjU himp
          rcases Nat.lt_or_ge j i with hji | hji
          · exact (hq hcn j hji).resolve_left hjU
          · exact absurd (lt_of_lt_of_le himp (add_le_add le_rfl (W_mono hd hji hj))) hnot

/-- Proof device: the cached implication set. -/
structure Cach (d : Data) (w : Wd) (U : List (Nat × Nat)) (l : Loc) (X : G (rules d)) : Prop where
  imp : V (rules d) w.con.opt < S d (pre U l.up) + X
  up : l.up ≤ U.length
  lev : ∀ y ∈ pre U l.up, y.2 ≤ l.il
  base : w.base ≤ l.il
  dl : l.il ≤ w.dl
  min : ∀ l', w.base ≤ l' → l' < l.il → ¬ V (rules d) w.con.opt < S d (upto U l') + X
  top : l.il ≤ w.base ∨ ∃ y ∈ U, y.2 = l.il

/-- Propagation of a new bound. -/
theorem loopT {d : Data} (hd : Wf d) {lim : Nat} : ∀ (k i : Nat) (l : Loc) (w : Wd) (U : List (Nat × Nat)), Core d w U → ConfOk d w U → lim ≤ w.dl →
    w.root ≤ lim → w.base ≤ w.root → i + k = d.lits.length → S d U ≤ V (rules d) w.con.opt → w.con.pos ≤ i →
    (i < d.lits.length → d.weights ≠ [] → w.con.act ≤ lvl d (sec d i)) →
    (w.conf = none → ∀ x, l.last = some x → Cach d w U l (V (rules d) (wv d x))) →
    (∀ j < i, ∀ m, w.root ≤ m → m < top w → Claim d w U j m) →
    (w.conf = none → ∀ j < i, j ∈ U.map Prod.fst ∨ FalseAt d w.tr w.imps (max (hl U) w.root) j) →
    ∃ t pe im u c cf dl, propLoop d true lim k i l w = some { w with tr := t, pend := pe, imps := im, uw := u, con := c, conf := cf, dl := dl } ∧
      Core d { w with tr := t, pend := pe, imps := im, uw := u, con := c, conf := cf, dl := dl } (upto U dl) ∧
      ConfOk d { w with tr := t, pend := pe, imps := im, uw := u, con := c, conf := cf, dl := dl } (upto U dl) ∧
      c.opt = w.con.opt ∧ lim ≤ dl ∧ dl ≤ w.dl ∧
      (∀ j < d.lits.length, (cf = none ∨ j < c.pos) → ∀ m, w.root ≤ m → m < top { w with conf := cf, dl := dl } →
        Claim d { w with tr := t, pend := pe, imps := im, uw := u, con := c, conf := cf, dl := dl } (upto U dl) j m) := by
  intro k
  induction k with
  | zero =>
    intro i l w U h hco hlim hroot hbase hik hS hpos hact hlast hP hQ
    refine ⟨w.tr, w.pend, w.imps, w.uw, w.con, w.conf, w.dl, rfl, ?_, ?_, rfl, hlim, Nat.le_refl _, fun j hj _ m h1 h2 => ?_⟩
    · rw [upto_dl h.toCore0 (Nat.le_refl _)]; exact h
    · rw [upto_dl h.toCore0 (Nat.le_refl _)]; exact hco
    · rw [upto_dl h.toCore0 (Nat.le_refl _)]; exact hP j (by omega) m h1 h2
  | succ k ih =>
    intro i l w U h hco hlim hroot hbase hik hS hpos hact hlast hP hQ
    have hi : i < d.lits.length := by omega
    rw [propLoop]
    by_cases hcs : w.conf.isSome = true
    · rw [if_pos hcs]
      refine ⟨w.tr, w.pend, w.imps, w.uw, w.con, w.conf, w.dl, rfl, ?_, ?_, rfl, hlim, Nat.le_refl _, fun j hj hor m h1 h2 => ?_⟩
      · rw [upto_dl h.toCore0 (Nat.le_refl _)]; exact h
      · rw [upto_dl h.toCore0 (Nat.le_refl _)]; exact hco
      · rw [upto_dl h.toCore0 (Nat.le_refl _)]
        rcases hor with hor | hor
        · rw [hor] at hcs; simp at hcs
        · exact hP j (by omega) m h1 h2
    rw [if_neg hcs]
    have hcn : w.conf = none := by simpa using hcs
    have htopw : top w = w.dl + 1 := top_none hcn
    have hU := h.conf_none
    have hactn : ∀ {a}, (d.weights ≠ [] → a ≤ lvl d (sec d i)) → i + 1 < d.lits.length → d.weights ≠ [] → a ≤ lvl d (sec d (i + 1)) := fun ha h1 hw =>
      Nat.le_trans (ha hw) (hd.levs (Nat.le_succ i) h1)
    -- processed literals are not implied
    have hseenNo : ∀ y ∈ U, ∀ m, m < y.2 → ¬ V (rules d) w.con.opt < S d (upto U m) + W d y.1 := fun y hy m hm himp =>
      absurd (lt_of_lt_of_le himp (le_trans (S_upto_add hd h.uS hU hy hm) hS)) (lt_irrefl _)
    by_cases hskip : w.con.seen i = true ∨ (true = false ∧ isFalse w.tr (lit d i) = true)
    · rw [if_pos hskip]
      have hiU : i ∈ U.map Prod.fst := by
        rcases hskip with hs | ⟨hs, _⟩
        · exact (h.seen i).1 hs
        · cases hs
      refine ih (i + 1) l w U h hco hlim hroot hbase (by omega) hS (by omega) (hactn (hact hi)) hlast (fun j hj => ?_) (fun hcn j hj => ?_)
      · rcases Nat.lt_or_ge j i with hji | hji
        · exact hP j hji
        · have : j = i := by omega
          subst this
          intro m h1 h2 hnot himp
          obtain ⟨y, hy, rfl⟩ := List.mem_map.1 hiU
          rcases Nat.lt_or_ge m y.2 with hm | hm
          · exact absurd himp (hseenNo y hy m hm)
          · exact absurd (List.mem_map.2 ⟨y, mem_upto.2 ⟨hy, hm⟩, rfl⟩) hnot
      · rcases Nat.lt_or_ge j i with hji | hji
        · exact hQ hcn j hji
        · have : j = i := by omega
          subst this; exact .inl hiU
    rw [if_neg hskip]
    have hiU : i ∉ U.map Prod.fst := fun hm => hskip (.inl ((h.seen i).2 hm))
    have main : ∀ (a : Nat) (l' : Loc), (∀ j < a, w.con.sum j = w.con.opt j) → a < rules d → (d.weights ≠ [] → a ≤ lvl d (sec d i)) →
        (∀ x, l'.last = some x → Cach d w U l' (V (rules d) (wv d x))) → Cach d w U l' (W d i) →
        ∃ t pe im u c cf dl, (forceLit d lim { w with con := { w.con with act := a } } i l'.il l'.up).bind (propLoop d true lim k (i + 1) l') =
            some { w with tr := t, pend := pe, imps := im, uw := u, con := c, conf := cf, dl := dl } ∧
          Core d { w with tr := t, pend := pe, imps := im, uw := u, con := c, conf := cf, dl := dl } (upto U dl) ∧
          ConfOk d { w with tr := t, pend := pe, imps := im, uw := u, con := c, conf := cf, dl := dl } (upto U dl) ∧
          c.opt = w.con.opt ∧ lim ≤ dl ∧ dl ≤ w.dl ∧
          (∀ j < d.lits.length, (cf = none ∨ j < c.pos) → ∀ m, w.root ≤ m → m < top { w with conf := cf, dl := dl } →
            Claim d { w with tr := t, pend := pe, imps := im, uw := u, con := c, conf := cf, dl := dl } (upto U dl) j m) := by
      intro a l' ha1 ha2 ha3 hcl hci
      obtain ⟨t, pe, im, u, c, cf, D, f1, f2, f3, f4, f5, f6, f7, f8, f9, f10, f11, f12⟩ := forceLit_spec hd (h.setAct ha1 ha2) hcn (i := i) (il := l'.il) (up := l'.up)
        (lim := lim) hi hiU hci.dl hlim (.inl hroot) hci.up hci.imp hci.lev hci.base
      dsimp only at f1 f2 f3 f6 f7 f8 f9 f10 f12
      have f10 : Keep d w.tr w.imps t im (top { w with conf := cf, dl := D }) := f10
      have f11 : l'.il < top { w with conf := cf, dl := D } → FalseAt d t im l'.il i := f11
      rw [f1, Option.bind_some]
      have htopD := top_le { w with conf := cf, dl := D }
      dsimp only at htopD
      have htop' : top { w with tr := t, pend := pe, imps := im, uw := u, con := c, conf := cf, dl := D } = top { w with conf := cf, dl := D } := rfl
      -- if a literal before `i` is processed, then on a level up to the one of the implication
      have hseenLe : ∀ j < i, ∀ y ∈ U, y.1 = j → y.2 ≤ D := by
        intro j hj y hy hyj
        by_contra hgt
        refine hseenNo y hy D (by omega) ?_
        have h1 : S d (pre U l'.up) ≤ S d (upto U D) := by
          obtain ⟨p1, p2⟩ := pre_upto h.uS hci.up (l := D) fun y hy => by have := hci.lev y hy; omega
          rw [← p2]
          exact S_sub hd (pre_sub _ _) fun x hx => hU x (mem_upto.1 hx).1
        have h2 : W d i ≤ W d y.1 := W_mono hd (by omega) hi
        exact lt_of_lt_of_le hci.imp (add_le_add h1 h2)
      have hupto : ∀ m, m < top { w with conf := cf, dl := D } → upto (upto U D) m = upto U m := fun m hm => upto_upto (by omega)
      have hclaim : ∀ j < i + 1, ∀ m, w.root ≤ m → m < top { w with conf := cf, dl := D } →
          Claim d { w with tr := t, pend := pe, imps := im, uw := u, con := c, conf := cf, dl := D } (upto U D) j m := by
        intro j hj m h1 h2
        unfold Claim
        rw [hupto m h2]
        intro hnot himp
        dsimp only at himp
        rw [f7] at himp
        rcases Nat.lt_or_ge j i with hji | hji
        · exact f10 m h2 j (hP j hji m h1 (by omega) hnot himp)
        · have : j = i := by omega
          subst this
          have hle : l'.il ≤ m := by
            by_contra hlt
            exact hci.min m (by omega) (by omega) himp
          exact (f11 (by omega)).mono hle
      obtain ⟨t', pe', im', u', c', cf', D', g1, g2, g3, g4, g5, g6, g7⟩ := ih (i + 1) l'
        { w with tr := t, pend := pe, imps := im, uw := u, con := c, conf := cf, dl := D } (upto U D) f2 f3 f5 hroot hbase (by omega) (by
          dsimp only; rw [f7]
          exact le_trans (S_upto_le hd hU D) hS) (by dsimp only; omega) (hactn fun hw => Nat.le_trans f9 (ha3 hw)) (by
          intro _ x hx
          have hcx := hcl x hx
          obtain ⟨p1, p2⟩ := pre_upto h.uS hcx.up (l := D) fun y hy => by have := hcx.lev y hy; omega
          exact
          { imp := by dsimp only; rw [p2, f7]; exact hcx.imp
            up := p1
            lev := by rw [p2]; exact hcx.lev
            base := hcx.base
            dl := f4
            min := by
              intro m h1 h2
              dsimp only
              rw [upto_upto (by omega), f7]
              exact hcx.min m h1 h2
            top := hcx.top.imp id fun ⟨y, hy, e⟩ => ⟨y, mem_upto.2 ⟨hy, by omega⟩, e⟩ }) hclaim (by
          intro hcf j hj
          have hcf : cf = none := hcf
          have htop : top { w with conf := cf, dl := D } = D + 1 := top_none hcf
          have hile : l'.il ≤ max (hl (upto U D)) w.root := by
            rcases hci.top with ht | ⟨y, hy, e⟩
            · omega
            · have := hl_mem' (h.uS.sublist (upto_sub U D)) (mem_upto.2 ⟨hy, (by omega : y.2 ≤ D)⟩)
              omega
          rcases Nat.lt_or_ge j i with hji | hji
          · by_cases hjU : j ∈ U.map Prod.fst
            · obtain ⟨y, hy, e⟩ := List.mem_map.1 hjU
              exact .inl (List.mem_map.2 ⟨y, mem_upto.2 ⟨hy, hseenLe j hji y hy e⟩, e⟩)
            · right
              have hm : FalseAt d w.tr w.imps (max l'.il w.root) j := by
                have := hci.dl
                refine hP j hji (max l'.il w.root) (by omega) (by omega) (fun hm => hjU (((upto_sub U _).map _).subset hm)) ?_
                have h1 : S d (pre U l'.up) ≤ S d (upto U (max l'.il w.root)) := by
                  obtain ⟨p1, p2⟩ := pre_upto h.uS hci.up (l := max l'.il w.root) fun y hy => by have := hci.lev y hy; omega
                  rw [← p2]
                  exact S_sub hd (pre_sub _ _) fun x hx => hU x (mem_upto.1 hx).1
                exact lt_of_lt_of_le hci.imp (add_le_add h1 (W_mono hd (by omega) hi))
              exact (f10 _ (by omega) j hm).mono (by dsimp only; omega)
          · have : j = i := by omega
            subst this
            exact .inr ((f11 (by omega)).mono hile))
      dsimp only at g1 g2 g3 g4 g5 g6 g7
      rw [upto_upto g6] at g2 g3 g7
      exact ⟨t', pe', im', u', c', cf', D', g1, g2, g3, by rw [g4, f7], g5, by omega, g7⟩
    unfold checkW
    by_cases hsame : l.last = some (sec d i)
    · rw [if_pos hsame]
      dsimp only
      exact main w.con.act l h.act h.actL (hact hi) (hlast hcn) (hlast hcn _ hsame)
    · rw [if_neg hsame]
      obtain ⟨b, a, i1, i2, i3, i4⟩ := imp_spec (hd.good i (by omega)) (fun h => hd.one.1 h) (lhs := w.con.sum) (rhs := w.con.opt) (lev := w.con.act) (hact hi) h.act
      have ha2 : a < rules d := imp_act hd (by omega) i1 h.actL i4
      rw [i1]
      dsimp only
      rw [h.sum, V_sumOf] at i2
      cases b with
      | true =>
        rw [if_pos rfl, if_pos rfl]
        obtain ⟨L, up, s1, s2, s3, s4, s5, s6, s7⟩ := implSet_spec hd (w := { w with con := { w.con with act := a } }) (k := i) (by omega) U w.con.sum a h.uS (by
          intro x hx
          obtain ⟨x1, e, he, e1, e2⟩ := h.uT x hx
          refine ⟨x1, ?_⟩
          show levelOf w.tr _ = _
          rw [← e1, levelOf_eq h.trN he, e2]) h.sum i3 ha2 i4 (i2.1 rfl)
        have hcomp : computeImpl d { w with con := { w.con with act := a } } (sec d i) = some (L, up) := by
          rw [← h.und] at s1
          exact s1
        rw [hcomp, Option.map_some]
        dsimp only
        have hca : Cach d w U ⟨some (sec d i), L, up⟩ (W d i) :=
          ⟨s3, s2, s4, s5, by
            rcases s7 with hL | ⟨y, hy, e⟩
            · dsimp only at hL ⊢; omega
            · have := dl_ge h.toCore0 y hy; dsimp only; omega, s6, s7⟩
        refine main a ⟨some (sec d i), L, up⟩ i3 ha2 i4 ?_ hca
        intro x hx
        injection hx with hx
        subst hx; exact hca
      | false =>
        rw [if_neg (by simp)]
        dsimp only
        have hnot : ¬ V (rules d) w.con.opt < S d U + W d i := fun h => by have := i2.2 h; cases this
        refine ⟨w.tr, w.pend, w.imps, w.uw, { w.con with act := a, pos := i }, w.conf, w.dl, rfl, ?_, ?_, rfl, hlim, Nat.le_refl _, ?_⟩
        · rw [upto_dl h.toCore0 (Nat.le_refl _)]
          refine (h.setAct i3 ha2).setPos ?_ (Nat.le_trans hroot hlim) (Nat.le_of_lt hi)
          intro _ j hj
          exact hQ hcn j hj
        · rw [upto_dl h.toCore0 (Nat.le_refl _)]; exact hco
        · intro j hj _ m h1 h2
          rw [upto_dl h.toCore0 (Nat.le_refl _)]
          rcases Nat.lt_or_ge j i with hji | hji
          · exact hP j hji m h1 h2
          · intro _ himp
            refine absurd (lt_of_lt_of_le himp (add_le_add (S_upto_le hd hU m) (W_mono hd hji hj))) hnot

end Clasp.MinC
