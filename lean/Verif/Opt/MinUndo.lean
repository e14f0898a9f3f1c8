/- C37: going back to an earlier level. -/
import Verif.Opt.MinInv
namespace Clasp.MinC
open Clasp.Core (Lit)
open Clasp.Mini (Data LW)

theorem isTrue_iff {tr : List Entry} {p : Lit} : isTrue tr p = true ↔ ∃ e ∈ tr, e.lit = p := by
  unfold isTrue; rw [List.any_eq_true]; simp

theorem entry_inj {tr : List Entry} (h : (tr.map (·.lit.var)).Nodup) {e f : Entry} (he : e ∈ tr) (hf : f ∈ tr) (hv : e.lit.var = f.lit.var) : e = f :=
  List.inj_on_of_nodup_map h he hf hv

theorem not_both {tr : List Entry} (h : (tr.map (·.lit.var)).Nodup) {p : Lit} (h1 : isTrue tr p = true) (h2 : isTrue tr p.neg = true) : False := by
  obtain ⟨e, he, e1⟩ := isTrue_iff.1 h1
  obtain ⟨f, hf, f1⟩ := isTrue_iff.1 h2
  have := entry_inj h he hf (by rw [e1, f1]; rfl)
  subst this
  rw [e1] at f1
  exact Lit.neg_ne p f1.symm

theorem levelOf_eq {tr : List Entry} (h : (tr.map (·.lit.var)).Nodup) {e : Entry} (he : e ∈ tr) : levelOf tr e.lit.var = e.lev := by
  unfold levelOf
  cases hf : tr.find? fun f => decide (f.lit.var = e.lit.var) with
  | none => exact absurd (List.find?_eq_none.1 hf e he) (by simp)
  | some f =>
    have h1 := List.mem_of_find?_eq_some hf
    have h2 : f.lit.var = e.lit.var := by simpa using List.find?_some hf
    rw [entry_inj h h1 he h2]; rfl

theorem lastUndo_eq {d : Data} {w : Wd} {I : List Entry} {U : List (Nat × Nat)} {K : Nat} (h : Core0 d w I U K) : lastUndo d w.tr (mk U) = hl U := by
  cases U with
  | nil => rfl
  | cons x u =>
    obtain ⟨_, e, he, e1, e2⟩ := h.uT x (.head _)
    simp only [mk, lastUndo, hl]
    rw [← e1, levelOf_eq h.trN he, e2]

theorem FalseAt.mono {d : Data} {tr I : List Entry} {L L' i : Nat} (h : L ≤ L') (hf : FalseAt d tr I L i) : FalseAt d tr I L' i := by
  rcases hf with ⟨e, he, h1, h2⟩ | ⟨e, he, h1, h2⟩
  · exact .inl ⟨e, he, h1, by omega⟩
  · exact .inr ⟨e, he, h1, by omega⟩

/-- Proof device: what is false stays false, for levels below `K`. -/
def Keep (d : Data) (tr I tr' I' : List Entry) (K : Nat) : Prop := ∀ L, L < K → ∀ i, FalseAt d tr I L i → FalseAt d tr' I' L i

theorem Keep.trans {d : Data} {tr I tr' I' tr'' I'' : List Entry} {M M' : Nat} (h : Keep d tr I tr' I' M) (h' : Keep d tr' I' tr'' I'' M') (hM : M' ≤ M) :
    Keep d tr I tr'' I'' M' := fun L hL i hf => h' L hL i (h L (by omega) i hf)

/-- Trail entries up to a level. -/
theorem drop_filter {tr : List Entry} {D : Nat} (hD : 0 < D) (hs : tr.Pairwise (fun a b => b.lev ≤ a.lev)) (hL : ∀ e ∈ tr, e.lev ≤ D) :
    tr.dropWhile (fun e => decide (e.lev = D)) = tr.filter fun e => decide (e.lev ≤ D - 1) := by
  induction tr with
  | nil => rfl
  | cons e t ih =>
    have h1 := List.pairwise_cons.1 hs
    have h2 := hL e (.head _)
    by_cases he : e.lev = D
    · rw [List.dropWhile_cons_of_pos (by simpa using he), List.filter_cons_of_neg (by simp; omega)]
      exact ih h1.2 fun f hf => hL f (.tail _ hf)
    · rw [List.dropWhile_cons_of_neg (by simpa using he)]
      symm
      rw [List.filter_eq_self]
      intro f hf
      rcases List.mem_cons.1 hf with rfl | hf
      · simp; omega
      · have := h1.1 f hf; simp; omega

/-- A suffix of the trail that contains the entry also contains what is before it. -/
theorem filter_split {tr a b : List Entry} {e : Entry} {l : Nat} (h : tr.filter (fun e => decide (e.lev ≤ l)) = a ++ e :: b)
    (hs : tr.Pairwise (fun a b => b.lev ≤ a.lev)) : ∃ a', tr = a' ++ e :: b := by
  induction tr with
  | nil => simp at h
  | cons f t ih =>
    have h1 := List.pairwise_cons.1 hs
    by_cases hf : f.lev ≤ l
    · have : (f :: t).filter (fun e => decide (e.lev ≤ l)) = f :: t := by
        rw [List.filter_eq_self]
        intro g hg
        rcases List.mem_cons.1 hg with rfl | hg
        · simpa using hf
        · have := h1.1 g hg; simp; omega
      rw [this] at h; exact ⟨a, h⟩
    · rw [List.filter_cons_of_neg (by simpa using hf)] at h
      obtain ⟨a', e'⟩ := ih h h1.2
      exact ⟨f :: a', by rw [e']; rfl⟩

theorem RsOk.upto {d : Data} {U : List (Nat × Nat)} (hs : U.Pairwise (fun a b => b.2 ≤ a.2)) {P : Nat × Nat → Prop} {p : Lit} {lev l : Nat} {r : Rs}
    (h : RsOk d U P p lev r) (hl : lev ≤ l) : RsOk d (upto U l) P p lev r := by
  obtain ⟨i, h1, h2, h3, h4, h5, h6⟩ := h
  obtain ⟨k1, k2⟩ := pre_upto hs (l := l) h3 fun x hx => by have := (h4 x hx).2; omega
  exact ⟨i, h1, h2, k1, by rw [k2]; exact h4, by rw [k2]; exact h5, by rw [k2]; exact h6⟩

theorem RsOk.imp {d : Data} {U : List (Nat × Nat)} {P Q : Nat × Nat → Prop} {p : Lit} {lev lev' : Nat} {r : Rs}
    (h : RsOk d U P p lev r) (hl : lev ≤ lev') (hPQ : ∀ x ∈ pre U r.up, P x → Q x) : RsOk d U Q p lev' r := by
  obtain ⟨i, h1, h2, h3, h4, h5, h6⟩ := h
  exact ⟨i, h1, h2, h3, fun x hx => ⟨hPQ x hx (h4 x hx).1, by have := (h4 x hx).2; omega⟩, h5, by omega, h6.2⟩

theorem hl_upto_le {U : List (Nat × Nat)} {l : Nat} : hl (upto U l) ≤ l := by
  cases h : upto U l with
  | nil => exact Nat.zero_le _
  | cons x u =>
    have : x ∈ upto U l := by rw [h]; exact .head _
    exact (mem_upto.1 this).2

/-- One level back. -/
theorem undo1_spec {d : Data} (hd : Wf d) {w : Wd} {I : List Entry} {U : List (Nat × Nat)} {K : Nat} (h : Core0 d w I U K) (hD : 0 < w.dl) (hK : w.dl ≤ K)
    (hr : w.root ≤ w.dl - 1 ∨ w.con.pos = 0) :
    ∃ c u, undo1 d w = some { w with tr := w.tr.filter (fun e => decide (e.lev ≤ w.dl - 1)), pend := [], dl := w.dl - 1, uw := u, con := c } ∧
      Core0 d { w with tr := w.tr.filter (fun e => decide (e.lev ≤ w.dl - 1)), pend := [], dl := w.dl - 1, uw := u, con := c } I (upto U (w.dl - 1)) w.dl ∧
      c.opt = w.con.opt ∧ c.pos ≤ w.con.pos ∧ c.act ≤ w.con.act := by
  have hUle : ∀ x ∈ U, x.2 ≤ w.dl := fun x hx => by
    obtain ⟨_, e, he, _, e2⟩ := h.uT x hx
    have := h.trL e he; omega
  have hhl : hl U ≤ w.dl := by
    cases U with
    | nil => exact Nat.zero_le _
    | cons x u => exact hUle x (.head _)
  generalize hT : w.tr.filter (fun e => decide (e.lev ≤ w.dl - 1)) = T
  have hTmem : ∀ e, e ∈ T ↔ e ∈ w.tr ∧ e.lev ≤ w.dl - 1 := fun e => by rw [← hT]; simp
  have hKp : ∀ L, L ≤ w.dl - 1 → ∀ i, FalseAt d w.tr I L i → FalseAt d T I L i := by
    rintro L hL i (⟨e, he, h1, h2⟩ | h1)
    · exact .inl ⟨e, (hTmem e).2 ⟨he, by omega⟩, h1, h2⟩
    · exact .inr h1
  have hsub := upto_sub U (w.dl - 1)
  have hUle' : ∀ x ∈ upto U (w.dl - 1), x.2 ≤ w.dl - 1 := fun x hx => (mem_upto.1 hx).2
  -- the constraint after the level is gone
  have key : ∃ c u, undoWatches d w.dl w.uw w.con = some (u, c) ∧ u = lv (upto U (w.dl - 1)) ∧ c.undo = mk (upto U (w.dl - 1)) ∧
      (∀ i, c.seen i = true ↔ i ∈ (upto U (w.dl - 1)).map Prod.fst) ∧ c.sum = sumOf d (upto U (w.dl - 1)) ∧
      (∀ j < c.act, c.sum j = c.opt j) ∧ c.act < rules d ∧ c.opt = w.con.opt ∧ c.pos ≤ w.con.pos ∧ c.act ≤ w.con.act ∧
      PosOk (FalseAt d w.tr I) w.root (upto U (w.dl - 1)) c.ps ∧
      (w.root ≤ w.dl - 1 → ∀ i < c.pos, i ∈ (upto U (w.dl - 1)).map Prod.fst ∨ FalseAt d w.tr I (max (hl (upto U (w.dl - 1))) w.root) i) := by
    by_cases hh : hl U = w.dl
    · obtain ⟨s1, p, ps', s2, s3, s4⟩ := seg hD h.uS hh h.psO
      obtain ⟨c', c1, c2, c3, c4, c5, c6, c7, c8, c9, c10⟩ := popLoop_spec hd hD (c := { w.con with ps := ps' }) h.uS hh h.uN (fun x hx => (h.uT x hx).1)
        h.seen h.sum h.act h.actL
      have hstop : ∀ c, undoWatches d w.dl (lv (upto U (w.dl - 1))) c = some (lv (upto U (w.dl - 1)), c) := by
        intro c
        cases hl2 : lv (upto U (w.dl - 1)) with
        | nil => rfl
        | cons y ys =>
          have h1 : y ≤ hl (upto U (w.dl - 1)) := lv_le (List.Pairwise.sublist hsub h.uS) y (by rw [hl2]; exact .head _)
          have h2 := hl_upto_le (U := U) (l := w.dl - 1)
          rw [undoWatches, if_neg (by omega)]
      have hcu : conUndo d w.con = some (restore d c' p) := by
        have c1 : popLoop d (mk U) { w.con with ps := ps' } = some c' := c1
        rw [← h.und] at c1
        unfold conUndo
        rw [s2]
        dsimp only
        rw [c1]; rfl
      refine ⟨restore d c' p, _, ?_, rfl, ?_⟩
      · rw [h.uw, s1, undoWatches, if_pos rfl, hcu, Option.bind_some, hstop]
      · have hr' : (restore d c' p).undo = c'.undo ∧ (restore d c' p).seen = c'.seen ∧ (restore d c' p).sum = c'.sum ∧ (restore d c' p).opt = c'.opt ∧
            (restore d c' p).ps = c'.ps ∧ (restore d c' p).act ≤ c'.act ∧ (restore d c' p).pos ≤ c'.pos ∧ (restore d c' p).pos ≤ p := by
          unfold restore; split
          · exact ⟨rfl, rfl, rfl, rfl, rfl, by dsimp only; omega, by dsimp only; omega, Nat.le_refl _⟩
          · exact ⟨rfl, rfl, rfl, rfl, rfl, Nat.le_refl _, Nat.le_refl _, by omega⟩
        obtain ⟨r1, r2, r3, r4, r5, r6, r7, r8⟩ := hr'
        rw [r1, r2, r3, r4, r5]
        refine ⟨c2, c3, c4, fun j hj => c5 j (by omega), by omega, c7, by rw [c8] at r7; exact r7, Nat.le_trans r6 c10, by rw [c9]; exact s4, fun hr i hi => s3 (by omega) i (by omega)⟩
    · have hU : upto U (w.dl - 1) = U := upto_all fun x hx => by have := le_hl h.uS x hx; omega
      rw [hU]
      refine ⟨w.con, lv U, ?_, rfl, h.und, h.seen, h.sum, h.act, h.actL, rfl, Nat.le_refl _, Nat.le_refl _, h.psO, fun hr => h.pos (by omega)⟩
      rw [h.uw]
      cases hl2 : lv U with
      | nil => rfl
      | cons y ys =>
        have h1 : y ≤ hl U := lv_le h.uS y (by rw [hl2]; exact .head _)
        rw [undoWatches, if_neg (by omega)]
  obtain ⟨c, u, k1, k2, k3, k4, k5, k6, k7, k8, k9, k12, k10, k11⟩ := key
  refine ⟨c, u, ?_, ?_, k8, k9, k12⟩
  · unfold undo1
    rw [k1, Option.map_some, drop_filter hD h.trS h.trL, hT]
  · have hlu := hl_upto_le (U := U) (l := w.dl - 1)
    exact
    { trN := by
        show (T.map (·.lit.var)).Nodup
        rw [← hT]; exact h.trN.sublist (List.filter_sublist.map _)
      trS := by
        show T.Pairwise _
        rw [← hT]; exact h.trS.sublist List.filter_sublist
      trL := fun e he => ((hTmem e).1 he).2
      und := k3
      uw := k2
      psO := PosOk.mono (M := w.dl - 1) (h.uS.sublist hsub) hUle' (fun L hL => hKp L (by omega)) k10
      uN := h.uN.sublist (hsub.map _)
      uS := h.uS.sublist hsub
      uT := by
        intro x hx
        obtain ⟨hx1, hx2⟩ := mem_upto.1 hx
        obtain ⟨h1, e, he, e1, e2⟩ := h.uT x hx1
        exact ⟨h1, e, (hTmem e).2 ⟨he, by omega⟩, e1, e2⟩
      seen := k4
      sum := k5
      act := k6
      actL := k7
      pos := by
        intro hr' i hi
        have hi' : i < c.pos := hi
        have hr' : max (hl (upto U (w.dl - 1))) w.root < w.dl := hr'
        exact (k11 (by omega) i hi).imp (fun h => h) (hKp _ (by show max (hl (upto U (w.dl - 1))) w.root ≤ w.dl - 1; omega) _)
      posL := by
        show c.pos = 0 ∨ w.root ≤ w.dl - 1
        rcases hr with hr | hr
        · exact .inr hr
        · left; omega
      posN := Nat.le_trans k9 h.posN
      rs := by
        intro a e b r e1 e2
        have e1 : T = a ++ e :: b := e1
        have hel : e.lev ≤ w.dl - 1 := ((hTmem e).1 (by rw [e1]; simp)).2
        rw [← hT] at e1
        obtain ⟨a', e3⟩ := filter_split e1 h.trS
        exact (h.rs a' e b r e3 e2).upto h.uS hel
      rsI := by
        intro e he hel r e2
        have hel : e.lev ≤ w.dl - 1 := hel
        exact (h.rsI e he (by omega) r e2).upto h.uS hel }

/-- Several levels back. -/
theorem undoN_spec {d : Data} (hd : Wf d) {I : List Entry} : ∀ (n : Nat) {w : Wd} {U : List (Nat × Nat)} {K : Nat}, Core0 d w I U K → w.dl ≤ K → n ≤ w.dl →
    (w.root ≤ w.dl - n ∨ w.con.pos = 0) →
    ∃ c u p, undoN d n w = some { w with tr := w.tr.filter (fun e => decide (e.lev ≤ w.dl - n)), pend := p, dl := w.dl - n, uw := u, con := c } ∧
      Core0 d { w with tr := w.tr.filter (fun e => decide (e.lev ≤ w.dl - n)), pend := p, dl := w.dl - n, uw := u, con := c } I (upto U (w.dl - n)) (if n = 0 then K else w.dl - n + 1) ∧
      c.opt = w.con.opt ∧ c.pos ≤ w.con.pos ∧ c.act ≤ w.con.act ∧ (n ≠ 0 → p = []) := by
  intro n
  induction n with
  | zero =>
    intro w U K h _ _ _
    have h1 : w.tr.filter (fun e => decide (e.lev ≤ w.dl - 0)) = w.tr := by
      rw [List.filter_eq_self]; intro e he; simpa using h.trL e he
    have h2 : upto U (w.dl - 0) = U := upto_all fun x hx => by
      obtain ⟨_, e, he, _, e2⟩ := h.uT x hx
      have := h.trL e he; omega
    rw [h1, h2, if_pos rfl]
    exact ⟨w.con, w.uw, w.pend, rfl, h, rfl, Nat.le_refl _, Nat.le_refl _, fun h => absurd rfl h⟩
  | succ n ih =>
    intro w U K h hK hn hr
    obtain ⟨c, u, e1, e2, e3, e4, e6⟩ := undo1_spec hd h (by omega) hK (by rcases hr with hr | hr; (left; omega); exact .inr hr)
    obtain ⟨c', u', p, f1, f2, f3, f4, f6, f5⟩ := ih e2 (by show w.dl - 1 ≤ w.dl; omega) (by show n ≤ w.dl - 1; omega) (by
      rcases hr with hr | hr
      · left; show w.root ≤ w.dl - 1 - n; omega
      · right; show c.pos = 0; omega)
    have hdl : w.dl - 1 - n = w.dl - (n + 1) := by omega
    dsimp only at f1 f2 f3 f4 f5 f6
    rw [hdl, List.filter_filter] at f1 f2
    rw [upto_upto (by omega)] at f2
    have hKe : (if n = 0 then w.dl else w.dl - (n + 1) + 1) = if n + 1 = 0 then K else w.dl - (n + 1) + 1 := by
      rw [if_neg (Nat.succ_ne_zero n)]; split <;> omega
    rw [hKe] at f2
    have hfil : (fun e : Entry => decide (e.lev ≤ w.dl - (n + 1)) && decide (e.lev ≤ w.dl - 1)) = fun e => decide (e.lev ≤ w.dl - (n + 1)) := by
      funext e; by_cases h1 : e.lev ≤ w.dl - (n + 1)
      · simp [h1]; omega
      · simp [h1]
    rw [hfil] at f1 f2
    have hp : p = [] := by
      by_cases h0 : n = 0
      · subst h0
        have := congrArg (fun o : Option Wd => o.map (·.pend)) f1
        simpa [undoN] using this.symm
      · exact f5 h0
    refine ⟨c', u', p, ?_, f2, by rw [f3, e3], by omega, by omega, fun _ => hp⟩
    rw [undoN, e1, Option.bind_some, f1]

/-! ### Assignment of a literal -/

theorem mem_idxOf {d : Data} {p : Lit} {i : Nat} : i ∈ idxOf d p ↔ i < d.lits.length ∧ lit d i = p := by simp [idxOf]

theorem isTrue_false {tr : List Entry} {p : Lit} : isTrue tr p = false ↔ ∀ e ∈ tr, e.lit ≠ p := by
  rw [← Bool.not_eq_true, isTrue_iff]; grind

theorem FalseAt.push {d : Data} {tr I : List Entry} {L i : Nat} {e : Entry} (h : FalseAt d tr I L i) : FalseAt d (e :: tr) I L i := by
  rcases h with ⟨f, hf, h1⟩ | h
  · exact .inl ⟨f, .tail _ hf, h1⟩
  · exact .inr h

theorem dl_ge {d : Data} {w : Wd} {I : List Entry} {U : List (Nat × Nat)} {K : Nat} (h : Core0 d w I U K) : ∀ x ∈ U, x.2 ≤ w.dl := fun x hx => by
  obtain ⟨_, e, he, _, e2⟩ := h.uT x hx
  have := h.trL e he; omega

/-- A free literal is assigned. -/
theorem push_core0 {d : Data} {w : Wd} {I : List Entry} {U : List (Nat × Nat)} {K : Nat} (h : Core0 d w I U K) {p : Lit} {rs : Option Rs}
    (h1 : isTrue w.tr p = false) (h2 : isFalse w.tr p = false)
    (hrs : ∀ r, rs = some r → RsOk d U (fun x => ∃ y ∈ w.tr, y.lit = lit d x.1) p w.dl r) : Core0 d (push d w p rs) I U K where
  trN := by
    show (p.var :: w.tr.map (·.lit.var)).Nodup
    rw [List.nodup_cons]
    refine ⟨?_, h.trN⟩
    intro hm
    obtain ⟨e, he, e1⟩ := List.mem_map.1 hm
    have a1 := isTrue_false.1 h1 e he
    have a2 := isTrue_false.1 h2 e he
    rcases Lit.eq_or_neg e1 with h | h
    · exact a1 h
    · exact a2 h
  trS := by
    show (_ :: w.tr).Pairwise _
    rw [List.pairwise_cons]
    exact ⟨fun e he => h.trL e he, h.trS⟩
  trL := by
    intro e he
    rcases List.mem_cons.1 he with rfl | he
    · exact Nat.le_refl _
    · exact h.trL e he
  und := h.und
  uw := h.uw
  psO := PosOk.mono (M := w.dl) h.uS (dl_ge h) (fun _ _ _ hf => hf.push) h.psO
  uN := h.uN
  uS := h.uS
  uT := fun x hx => by
    obtain ⟨a, e, he, b⟩ := h.uT x hx
    exact ⟨a, e, .tail _ he, b⟩
  seen := h.seen
  sum := h.sum
  act := h.act
  actL := h.actL
  pos := fun hr i hi => (h.pos hr i hi).imp (fun h => h) fun h => h.push
  posL := h.posL
  posN := h.posN
  rs := by
    intro a e b r e1 e2
    cases a with
    | nil =>
      injection e1 with e3 e4
      subst e3 e4
      exact hrs r e2
    | cons f a =>
      injection e1 with e3 e4
      exact h.rs a e b r e4 e2
  rsI := h.rsI

/-- Proof device: the part of `Core` about pending notifications. -/
structure Pd (d : Data) (w : Wd) (U : List (Nat × Nat)) : Prop where
  pendT : ∀ i ∈ w.pend, i < d.lits.length ∧ i ∉ U.map Prod.fst ∧ ∃ e ∈ w.tr, e.lit = lit d i ∧ e.lev = w.dl
  pendN : w.pend.Nodup
  pendC : ∀ i < d.lits.length, isTrue w.tr (lit d i) = true → i ∈ U.map Prod.fst ∨ i ∈ w.pend

theorem Core.pd {d : Data} {w : Wd} {U : List (Nat × Nat)} (h : Core d w U) : Pd d w U := ⟨h.pendT, h.pendN, h.pendC⟩

theorem push_pd {d : Data} {w : Wd} {I : List Entry} {U : List (Nat × Nat)} {K : Nat} (h : Core0 d w I U K) (hp : Pd d w U) {p : Lit} {rs : Option Rs}
    (h1 : isTrue w.tr p = false) : Pd d (push d w p rs) U where
  pendT := by
    intro i hi
    rcases List.mem_append.1 hi with hi | hi
    · obtain ⟨a1, a2⟩ := mem_idxOf.1 hi
      refine ⟨a1, ?_, _, .head _, a2.symm, rfl⟩
      intro hm
      obtain ⟨x, hx, e1⟩ := List.mem_map.1 hm
      obtain ⟨_, e, he, e2, _⟩ := h.uT x hx
      exact isTrue_false.1 h1 e he (by rw [e2, e1, a2])
    · obtain ⟨a1, a2, e, he, a3⟩ := hp.pendT i hi
      exact ⟨a1, a2, e, .tail _ he, a3⟩
  pendN := by
    show (idxOf d p ++ w.pend).Nodup
    rw [List.nodup_append]
    refine ⟨List.nodup_range.filter _, hp.pendN, ?_⟩
    intro i hi j hj e
    subst e
    obtain ⟨_, a2⟩ := mem_idxOf.1 hi
    obtain ⟨_, _, e, he, a3, _⟩ := hp.pendT i hj
    exact isTrue_false.1 h1 e he (by rw [a3, a2])
  pendC := by
    intro i hi ht
    obtain ⟨e, he, e1⟩ := isTrue_iff.1 ht
    rcases List.mem_cons.1 he with rfl | he
    · exact .inr (List.mem_append.2 (.inl (mem_idxOf.2 ⟨hi, e1.symm⟩)))
    · rcases hp.pendC i hi (isTrue_iff.2 ⟨e, he, e1⟩) with h | h
      · exact .inl h
      · exact .inr (List.mem_append.2 (.inr h))

/-- A different set of implied literals, one that agrees on the levels that matter. -/
theorem Core0.imps {d : Data} {w : Wd} {I I' : List Entry} {U : List (Nat × Nat)} {K K' : Nat} (h : Core0 d w I U K) (hle : K' ≤ K) (hge : w.dl ≤ K')
    (hK : Keep d w.tr I w.tr I' K') (hI : ∀ e ∈ I', e.lev ≤ w.dl → ∀ r, e.rs = some r → RsOk d U (fun _ => True) e.lit e.lev r) :
    Core0 d w I' U K' :=
  { h with
    psO := PosOk.mono (M := w.dl) h.uS (dl_ge h) (fun L hL => hK L (by omega)) h.psO
    pos := fun hr i hi => (h.pos (by omega) i hi).imp (fun h => h) (hK _ hr _)
    rsI := hI }

/-- Proof device: a conflict is sound. -/
def ConfOk (d : Data) (w : Wd) (U : List (Nat × Nat)) : Prop :=
  ∀ p r, w.conf = some (p, some r) → RsOk d U (fun x => ∃ y ∈ w.tr, y.lit = lit d x.1) p w.dl r ∧ isTrue w.tr p.neg = true

theorem top_some {w : Wd} (h : w.conf ≠ none) : top w = w.dl := by unfold top; rw [if_neg h]
theorem top_none {w : Wd} (h : w.conf = none) : top w = w.dl + 1 := by unfold top; rw [if_pos h]
theorem le_top (w : Wd) : w.dl ≤ top w := by unfold top; split <;> omega
theorem top_le (w : Wd) : top w ≤ w.dl + 1 := by unfold top; split <;> omega

/-- Proof device: what `force` does. -/
theorem force_spec {d : Data} {w : Wd} {I : List Entry} {U : List (Nat × Nat)} (h : Core0 d w I U (top w)) (hp : Pd d w U) (hc : w.conf = none)
    {p : Lit} {rs : Option Rs} (hrs : ∀ r, rs = some r → RsOk d U (fun _ => True) p w.dl r) :
    ∃ t pe cf, force d w p rs = { w with tr := t, pend := pe, conf := cf } ∧ Core0 d { w with tr := t, pend := pe, conf := cf } I U (top { w with conf := cf }) ∧
      Pd d { w with tr := t, pend := pe, conf := cf } U ∧ ConfOk d { w with tr := t, pend := pe, conf := cf } U ∧
      (∀ e ∈ w.tr, e ∈ t) ∧ (∀ e ∈ t, e ∈ w.tr ∨ e.lit = p) ∧ (cf = none → isTrue t p = true) ∧ (isFalse w.tr p = false → cf = none) := by
  have hrs' : ∀ r, rs = some r → RsOk d U (fun x => ∃ y ∈ w.tr, y.lit = lit d x.1) p w.dl r := fun r hr =>
    (hrs r hr).imp (Nat.le_refl _) fun x hx _ => by
      obtain ⟨_, f, hf, e1, _⟩ := h.uT x ((pre_sub _ _).subset hx)
      exact ⟨f, hf, e1⟩
  by_cases h1 : isTrue w.tr p = true
  · refine ⟨w.tr, w.pend, none, ?_, ?_, ?_, fun p r h => (nomatch h), fun e he => he, fun e he => .inl he, fun _ => h1, fun _ => rfl⟩
    · unfold force; rw [if_pos h1, ← hc]
    · have : top { w with conf := none } = top w := by rw [top_none hc, top_none (w := { w with conf := none }) rfl]
      rw [this]; exact { h with }
    · exact ⟨hp.pendT, hp.pendN, hp.pendC⟩
  have h1 : isTrue w.tr p = false := by simpa using h1
  by_cases h2 : isFalse w.tr p = true
  · refine ⟨w.tr, w.pend, some (p, rs), ?_, ?_, ?_, ?_, fun e he => he, fun e he => .inl he, fun h => (nomatch h), fun h => by rw [h2] at h; exact (nomatch h)⟩
    · unfold force; rw [if_neg (by simp [h1]), if_pos h2]
    · have : top { w with conf := some (p, rs) } ≤ top w := by
        rw [top_none hc, top_some (w := { w with conf := some (p, rs) }) (by simp)]; exact Nat.le_succ _
      exact { h with pos := fun hr => h.pos (Nat.lt_of_lt_of_le hr this) }
    · exact ⟨hp.pendT, hp.pendN, hp.pendC⟩
    · intro q r e
      have e : some (p, rs) = some (q, some r) := e
      injection e with e
      injection e with e1 e2
      subst e1
      exact ⟨hrs' r e2, h2⟩
  · have h2 : isFalse w.tr p = false := by simpa using h2
    have a := push_core0 h h1 h2 hrs'
    have b := push_pd h hp h1 (rs := rs)
    have hf : force d w p rs = push d w p rs := by unfold force; rw [if_neg (by simp [h1]), if_neg (by simp [h2])]
    refine ⟨⟨p, w.dl, rs⟩ :: w.tr, idxOf d p ++ w.pend, none, ?_, ?_, ?_, fun p r h => (nomatch h), fun e he => .tail _ he, ?_, fun _ => isTrue_iff.2 ⟨_, .head _, rfl⟩, fun _ => rfl⟩
    · rw [hf, push, ← hc]
    · have : top { w with conf := none } = top w := by rw [top_none hc, top_none (w := { w with conf := none }) rfl]
      rw [this]; exact { a with }
    · exact ⟨b.pendT, b.pendN, b.pendC⟩
    · intro e he
      rcases List.mem_cons.1 he with rfl | he
      · exact .inr rfl
      · exact .inl he

/-- Literals that are implied on an earlier level are assigned again. -/
theorem assignImps_spec {d : Data} {U : List (Nat × Nat)} : ∀ (l : List Entry) (w : Wd),
    Core0 d { w with imps := [] } (l ++ w.imps) U (top w) → Pd d w U → ConfOk d w U →
    (∀ e ∈ w.imps, e.lev < w.dl ∧ (w.conf = none → isTrue w.tr e.lit = true)) →
    ∃ t p im cf, assignImps d l w = { w with tr := t, pend := p, imps := im, conf := cf } ∧ Core d { w with tr := t, pend := p, imps := im, conf := cf } U ∧
      ConfOk d { w with tr := t, pend := p, imps := im, conf := cf } U ∧
      Keep d w.tr (l ++ w.imps) t im (top { w with conf := cf }) ∧
      (∀ T0 : List Entry, (T0.map (·.lit.var)).Nodup → (∀ e ∈ w.tr, ∃ f ∈ T0, f.lit = e.lit) → (∀ e ∈ l, ∃ f ∈ T0, f.lit = e.lit) → w.conf = none →
        cf = none ∧ ∀ e ∈ t, ∃ f ∈ T0, f.lit = e.lit) ∧ (w.conf ≠ none → cf ≠ none) := by
  intro l
  induction l with
  | nil =>
    intro w h hp hc hi
    refine ⟨w.tr, w.pend, w.imps, w.conf, rfl, ?_, hc, fun L _ i hf => hf, fun T0 _ h1 _ h2 => ⟨h2, h1⟩, fun h => h⟩
    exact { ({ h with } : Core0 d w w.imps U (top w)) with pendT := hp.pendT, pendN := hp.pendN, pendC := hp.pendC, imp := hi }
  | cons e l ih =>
    intro w h hp hc hi
    rw [assignImps]
    by_cases hle : e.lev ≤ w.dl
    · rw [if_pos hle]
      -- the state after the literal is forced
      have key : ∃ t p cf, (if w.conf.isNone then force d w e.lit e.rs else w) = { w with tr := t, pend := p, conf := cf } ∧
          Core0 d { w with tr := t, pend := p, conf := cf, imps := [] } (e :: l ++ w.imps) U (top { w with conf := cf }) ∧
          Pd d { w with tr := t, pend := p, conf := cf } U ∧ ConfOk d { w with tr := t, pend := p, conf := cf } U ∧ (cf = none → isTrue t e.lit = true) ∧
          (∀ f ∈ w.tr, f ∈ t) ∧ (∀ f ∈ t, f ∈ w.tr ∨ f.lit = e.lit) ∧ (w.conf = none → isFalse w.tr e.lit = false → cf = none) ∧
          (w.conf ≠ none → cf ≠ none) := by
        by_cases hcn : w.conf = none
        · have h0 : Core0 d w (e :: l ++ w.imps) U (top w) := { h with }
          obtain ⟨t, p, cf, a1, a2, a3, a4, a5, a6, a7, a8⟩ := force_spec h0 hp hcn (p := e.lit) (rs := e.rs) fun r hr =>
            (h.rsI e (by simp) hle r hr).imp hle fun _ _ h => h
          refine ⟨t, p, cf, ?_, { a2 with }, a3, a4, a7, a5, a6, fun _ => a8, fun h => absurd hcn h⟩
          rw [hcn]; exact a1
        · refine ⟨w.tr, w.pend, w.conf, ?_, h, hp, hc, fun h => absurd h hcn, fun f hf => hf, fun f hf => .inl hf, fun h => absurd h hcn, fun h => h⟩
          rw [if_neg]; simpa using hcn
      obtain ⟨t, p, cf, k1, k2, k3, k4, k5, k6, k7, k8, k9⟩ := key
      rw [k1]
      dsimp only
      have hK : ∀ K, K ≤ top { w with conf := cf } → Keep d t (e :: l ++ w.imps) t (l ++ if e.lev < w.dl then w.imps ++ [e] else w.imps) K := by
        rintro K hK' L hL i (⟨f, hf, a1, a2⟩ | ⟨f, hf, a1, a2⟩)
        · exact .inl ⟨f, hf, a1, a2⟩
        · rw [List.cons_append, List.mem_cons, List.mem_append] at hf
          rcases hf with rfl | hf | hf
          · by_cases hlt : f.lev < w.dl
            · rw [if_pos hlt]; exact .inr ⟨f, by simp, a1, a2⟩
            · have hcf : cf = none := by
                by_contra hne
                rw [top_some (w := { w with conf := cf }) hne] at hK'
                dsimp only at hK'
                omega
              obtain ⟨g, hg, e1⟩ := isTrue_iff.1 (k5 hcf)
              have := k2.trL g hg
              exact .inl ⟨g, hg, by rw [e1, a1], by simp only at this; omega⟩
          · exact .inr ⟨f, by simp [hf], a1, a2⟩
          · exact .inr ⟨f, by split <;> simp [hf], a1, a2⟩
      obtain ⟨t', p', im, cf', m1, m2, m3, m4, m5, m6⟩ := ih { w with tr := t, pend := p, conf := cf, imps := if e.lev < w.dl then w.imps ++ [e] else w.imps } (by
          refine Core0.imps (I := e :: l ++ w.imps) (w := { w with tr := t, pend := p, conf := cf, imps := [] }) k2 (Nat.le_refl _) (le_top _) (hK _ (Nat.le_refl _)) ?_
          intro f hf
          refine k2.rsI f ?_
          rcases List.mem_append.1 hf with hf | hf
          · simp [hf]
          · split at hf
            · rcases List.mem_append.1 hf with hf | hf
              · simp [hf]
              · rw [List.mem_singleton.1 hf]; simp
            · simp [hf]) ⟨k3.pendT, k3.pendN, k3.pendC⟩ k4 (by
          intro f hf
          have hold : ∀ f ∈ w.imps, f.lev < w.dl ∧ (cf = none → isTrue t f.lit = true) := fun f hf => by
            refine ⟨(hi f hf).1, fun hcf => ?_⟩
            obtain ⟨g, hg, e1⟩ := isTrue_iff.1 ((hi f hf).2 (by_contra fun hne => k9 hne hcf))
            exact isTrue_iff.2 ⟨g, k6 g hg, e1⟩
          dsimp only at hf ⊢
          split at hf
          · rename_i hlt
            rcases List.mem_append.1 hf with hf | hf
            · exact hold f hf
            · rw [List.mem_singleton.1 hf]; exact ⟨hlt, k5⟩
          · exact hold f hf)
      dsimp only at m1 m2 m3 m4 m5 m6
      have hle : top { w with conf := cf' } ≤ top { w with conf := cf } := by
        by_cases hcf : cf = none
        · rw [top_none (w := { w with conf := cf }) hcf]; exact top_le _
        · rw [top_some (w := { w with conf := cf' }) (m6 hcf)]; exact le_top { w with conf := cf }
      have m4 : Keep d t (l ++ if e.lev < w.dl then w.imps ++ [e] else w.imps) t' im (top { w with conf := cf' }) := m4
      refine ⟨t', p', im, cf', m1, m2, m3, ?_, ?_, fun h => m6 (k9 h)⟩
      · intro L hL i hf
        refine m4 L hL i (hK _ hle L hL i ?_)
        rcases hf with ⟨f, hf, a1⟩ | hf
        · exact .inl ⟨f, k6 f hf, a1⟩
        · exact .inr hf
      · intro T0 hT h1 h2 hcn
        have hnf : isFalse w.tr e.lit = false := by
          rw [isFalse, isTrue_false]
          intro f hf e1
          obtain ⟨g, hg, e2⟩ := h1 f hf
          obtain ⟨k, hk, e3⟩ := h2 e (.head _)
          have := entry_inj hT hg hk (by rw [e2, e1, e3]; rfl)
          subst this
          rw [e2] at e3
          rw [e3] at e1
          exact Lit.neg_ne _ e1.symm
        refine m5 T0 hT ?_ (fun f hf => h2 f (.tail _ hf)) (k8 hcn hnf)
        intro f hf
        rcases k7 f hf with hf | hf
        · exact h1 f hf
        · obtain ⟨g, hg, e1⟩ := h2 e (.head _); exact ⟨g, hg, by rw [e1, hf]⟩
    · rw [if_neg hle]
      have hK : ∀ t K, K ≤ top w → Keep d t (e :: l ++ w.imps) t (l ++ w.imps) K := by
        rintro t K hK L hL i (hf | ⟨f, hf, a1, a2⟩)
        · exact .inl hf
        · rw [List.cons_append, List.mem_cons] at hf
          have := top_le w
          rcases hf with rfl | hf
          · omega
          · exact .inr ⟨f, hf, a1, a2⟩
      obtain ⟨t', p', im, cf, m1, m2, m3, m4, m5, m6⟩ := ih w (h.imps (Nat.le_refl _) (le_top _) (hK _ _ (Nat.le_refl _)) fun f hf => h.rsI f (.tail _ hf)) hp hc hi
      have hle' : top { w with conf := cf } ≤ top w := by
        by_cases hcf : w.conf = none
        · rw [top_none hcf]; exact top_le _
        · rw [top_some (w := { w with conf := cf }) (m6 hcf)]; exact le_top w
      exact ⟨t', p', im, cf, m1, m2, m3, fun L hL i hf => m4 L hL i (hK _ _ hle' L hL i hf), fun T0 a b c => m5 T0 a b fun f hf => c f (.tail _ hf), m6⟩

/-- Back to an earlier level. -/
theorem undoTo_spec {d : Data} (hd : Wf d) {w : Wd} {U : List (Nat × Nat)} (h : Core d w U) {l : Nat} (hl : l < w.dl)
    (hr : w.root ≤ l ∨ w.con.pos = 0) :
    ∃ t p im u c cf, undoTo d w l = some { w with tr := t, pend := p, imps := im, uw := u, con := c, conf := cf, dl := l } ∧
      Core d { w with tr := t, pend := p, imps := im, uw := u, con := c, conf := cf, dl := l } (upto U l) ∧
      ConfOk d { w with tr := t, pend := p, imps := im, uw := u, con := c, conf := cf, dl := l } (upto U l) ∧
      c.opt = w.con.opt ∧ c.pos ≤ w.con.pos ∧ c.act ≤ w.con.act ∧ Keep d w.tr w.imps t im (top { w with dl := l, conf := cf }) ∧
      (w.conf = none → cf = none ∧ ∀ e ∈ t, ∃ f ∈ w.tr, f.lit = e.lit) := by
  have h0 : Core0 d { w with conf := none } w.imps U (top w) := { h.toCore0 with }
  obtain ⟨c, u, p, e1, e2, e3, e4, e6, e5⟩ := undoN_spec hd (w.dl - l) h0 (le_top w) (Nat.sub_le _ _) (by
    show w.root ≤ w.dl - (w.dl - l) ∨ w.con.pos = 0
    rcases hr with hr | hr
    · left; omega
    · exact .inr hr)
  dsimp only at e1 e2 e3 e4 e5 e6
  have hdl : w.dl - (w.dl - l) = l := by omega
  rw [hdl] at e1 e2
  rw [if_neg (by omega)] at e2
  have hp : p = [] := e5 (by omega)
  subst hp
  obtain ⟨t, p', im, cf, m1, m2, m3, m4, m5, m6⟩ := assignImps_spec (U := upto U l) w.imps
    { w with tr := w.tr.filter (fun e => decide (e.lev ≤ l)), pend := [], dl := l, uw := u, con := c, conf := none, imps := [] } (by
      rw [List.append_nil, top_none rfl]; exact { e2 with }) ⟨by intro i hi; simp at hi, by simp, by
        intro i hi ht
        obtain ⟨e, he, f1⟩ := isTrue_iff.1 ht
        simp only [List.mem_filter, decide_eq_true_eq] at he
        rcases h.pendC i hi (isTrue_iff.2 ⟨e, he.1, f1⟩) with hU | hP
        · left
          obtain ⟨x, hx, f2⟩ := List.mem_map.1 hU
          obtain ⟨_, f, hf, f3, f4⟩ := h.uT x hx
          have := entry_inj h.trN hf he.1 (by rw [f3, f1, f2])
          subst this
          exact List.mem_map.2 ⟨x, mem_upto.2 ⟨hx, by omega⟩, f2⟩
        · obtain ⟨_, _, f, hf, f3, f4⟩ := h.pendT i hP
          have := entry_inj h.trN hf he.1 (by rw [f3, f1])
          subst this
          omega⟩ (fun _ _ h => nomatch h) (by simp)
  refine ⟨t, p', im, u, c, cf, ?_, m2, m3, e3, e4, e6, ?_, ?_⟩
  · unfold undoTo
    rw [if_neg (by omega), e1, Option.map_some]
    exact congrArg some m1
  · intro L hL i hf
    have hL' : L < top { w with dl := l, conf := cf } := hL
    have := top_le { w with dl := l, conf := cf }
    dsimp only at this
    refine m4 L hL i ?_
    rw [List.append_nil]
    rcases hf with ⟨e, he, a1, a2⟩ | hf
    · exact .inl ⟨e, by simp [he]; omega, a1, a2⟩
    · exact .inr hf
  · intro hcn
    refine m5 w.tr h.trN (by
        intro e he
        simp only [List.mem_filter, decide_eq_true_eq] at he
        exact ⟨e, he.1, rfl⟩) (by
        intro e he
        obtain ⟨f, hf, f1⟩ := isTrue_iff.1 ((h.imp e he).2 hcn)
        exact ⟨f, hf, f1⟩) rfl

end Clasp.MinC
