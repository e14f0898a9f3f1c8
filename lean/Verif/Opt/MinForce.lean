/- C37: implication sets, and forcing of implied literals. -/
import Verif.Opt.MinUndo
namespace Clasp.MinC
open Clasp.Core (Lit)
open Clasp.Mini (Data LW)

theorem S_upto_mono {d : Data} (hd : Wf d) {U : List (Nat × Nat)} (hU : ∀ x ∈ U, x.1 < d.lits.length) {l m : Nat} (h : l ≤ m) :
    S d (upto U l) ≤ S d (upto U m) := S_sub hd (upto_mono h) fun x hx => hU x (mem_upto.1 hx).1

theorem S_upto_le {d : Data} (hd : Wf d) {U : List (Nat × Nat)} (hU : ∀ x ∈ U, x.1 < d.lits.length) (l : Nat) : S d (upto U l) ≤ S d U :=
  S_sub hd (upto_sub U l) hU

/-- A processed literal is not among those of an earlier level. -/
theorem S_upto_add {d : Data} (hd : Wf d) {U : List (Nat × Nat)} (hs : U.Pairwise (fun a b => b.2 ≤ a.2)) (hU : ∀ x ∈ U, x.1 < d.lits.length) {l : Nat}
    {x : Nat × Nat} (hx : x ∈ U) (hl : l < x.2) : S d (upto U l) + W d x.1 ≤ S d U := by
  obtain ⟨a, e, ha⟩ := upto_drop hs l
  have hxa : x ∈ a := by
    rw [e] at hx
    rcases List.mem_append.1 hx with h | h
    · exact h
    · have := (mem_upto.1 h).2; omega
  have h1 : S d [x] ≤ S d a := S_sub hd (List.singleton_sublist.2 hxa) fun y hy => hU y (by rw [e]; exact List.mem_append.2 (.inl hy))
  conv_rhs => rw [e, S_append]
  have h2 : S d [x] = W d x.1 := by simp [S]
  rw [← h2, add_comm]
  exact add_le_add h1 le_rfl

/-- With no bound, nothing is implied. -/
theorem no_bound {d : Data} (hd : Wf d) {o : Nat → Int} (ho : o 0 = MAXB) {U : List (Nat × Nat)} (hU : ∀ x ∈ U, x.1 < d.lits.length)
    (hN : (U.map Prod.fst).Nodup) {i : Nat} (hi : i < d.lits.length) (hiU : i ∉ U.map Prod.fst) : ¬ V (rules d) o < S d U + W d i := by
  have hwn : ∀ j, j < d.lits.length → 0 ≤ wv d (sec d j) 0 := by
    intro j hj
    by_cases h0 : lvl d (sec d j) = 0
    · have := hd.lead j hj; rw [h0] at this; omega
    · rw [wv_lt (hd.good j (by omega)) (by omega)]
  have hle : (((i, 0) :: U).map fun x => wv d (sec d x.1) 0).sum ≤ ((List.range d.lits.length).map fun i => wv d (sec d i) 0).sum := by
    have hN' : (((i, 0) :: U).map Prod.fst).Nodup := by rw [List.map_cons, List.nodup_cons]; exact ⟨hiU, hN⟩
    have hsub : ((i, 0) :: U).map Prod.fst ⊆ List.range d.lits.length := by
      intro j hj
      rw [List.map_cons, List.mem_cons] at hj
      rcases hj with rfl | hj
      · exact List.mem_range.2 hi
      · obtain ⟨x, hx, rfl⟩ := List.mem_map.1 hj
        exact List.mem_range.2 (hU x hx)
    have : (((i, 0) :: U).map fun x => wv d (sec d x.1) 0) = (((i, 0) :: U).map Prod.fst).map fun i => wv d (sec d i) 0 := by
      rw [List.map_map]; rfl
    rw [this]
    obtain ⟨l, h1, h2⟩ := List.subperm_of_subset hN' hsub
    rw [← (h1.map fun i => wv d (sec d i) 0).sum_eq]
    refine List.Sublist.sum_le_sum (h2.map _) ?_
    intro a ha
    obtain ⟨j, hj, rfl⟩ := List.mem_map.1 ha
    exact hwn j (List.mem_range.1 hj)
  have hs : sumOf d U 0 + wv d (sec d i) 0 < o 0 := by
    have := hd.small
    rw [ho]
    have e : (((i, 0) :: U).map fun x => wv d (sec d x.1) 0).sum = wv d (sec d i) 0 + sumOf d U 0 := by simp [sumOf]
    omega
  rw [← V_sumOf]
  intro hlt
  obtain ⟨k, _, h1, h2⟩ := V_lt.1 (show V (rules d) o < V (rules d) (fun L => sumOf d U L + wv d (sec d i) L) from hlt)
  rcases Nat.eq_zero_or_pos k with rfl | h0
  · omega
  · have := h1 0 h0; omega

/-- The literals that imply a weight. -/
theorem implSet_spec {d : Data} (hd : Wf d) {w : Wd} {k : Nat} (hk : k ≤ d.lits.length) : ∀ (U : List (Nat × Nat)) (temp : Nat → Int) (lev : Nat),
    U.Pairwise (fun a b => b.2 ≤ a.2) → (∀ x ∈ U, x.1 < d.lits.length ∧ levelOf w.tr (lit d x.1).var = x.2) → temp = sumOf d U →
    (∀ j < lev, temp j = w.con.opt j) → lev < rules d → (d.weights ≠ [] → lev ≤ lvl d (sec d k)) →
    V (rules d) w.con.opt < S d U + W d k →
    ∃ L up, implSet d w (sec d k) (mk U) temp lev = some (L, up) ∧ up ≤ U.length ∧ V (rules d) w.con.opt < S d (pre U up) + W d k ∧
      (∀ y ∈ pre U up, y.2 ≤ L) ∧ w.base ≤ L ∧ (∀ l, w.base ≤ l → l < L → ¬ V (rules d) w.con.opt < S d (upto U l) + W d k) ∧
      (L ≤ w.base ∨ ∃ y ∈ U, y.2 = L) := by
  intro U
  induction U with
  | nil =>
    intro temp lev _ _ _ _ _ _ h
    refine ⟨w.base, 0, rfl, Nat.le_refl _, h, ?_, Nat.le_refl _, fun l h1 h2 => by omega, .inl (Nat.le_refl _)⟩
    intro y hy; simp [pre] at hy
  | cons x u ih =>
    intro temp lev hs hx htemp hlev hlevr hlevk h
    have hp := List.pairwise_cons.1 hs
    obtain ⟨x1, x2⟩ := hx x (.head _)
    obtain ⟨a1, a2, a3⟩ := act_sub hd x1 hlev hlevr
    have hsum' : (sub d temp (sec d x.1) lev).1 = sumOf d u := by
      rw [sub_eq (hd.good x.1 (by omega)), htemp]
      funext L; simp [sumOf]
    obtain ⟨b, l, i1, i2, i3, i4⟩ := imp_spec (hd.good k hk) (fun h => hd.one.1 h) (lhs := (sub d temp (sec d x.1) lev).1) (rhs := w.con.opt)
      (lev := (sub d temp (sec d x.1) lev).2) (fun hw => Nat.le_trans a2 (hlevk hw)) a1
    rw [hsum', V_sumOf] at i2
    rw [mk, implSet]
    rw [i1]
    have hpre : ∀ n, n ≤ u.length → pre (x :: u) n = pre u n := fun n hn => pre_append (a := [x]) hn
    have hupto : ∀ l, l < x.2 → upto (x :: u) l = upto u l := fun l hl => by unfold upto; rw [List.filter_cons_of_neg (by simpa using hl)]
    have hS : ∀ l, S d (upto u l) ≤ S d u := fun l => S_upto_le hd (fun y hy => (hx y (.tail _ hy)).1) l
    cases b with
    | true =>
      dsimp only
      have hlr : l < rules d := by
        by_cases hw : d.weights = []
        · have hl2 : l = (sub d temp (sec d x.1) lev).2 := by
            unfold imp at i1; rw [if_pos hw] at i1; simp only [Option.some.injEq, Prod.mk.injEq] at i1; exact i1.2.symm
          omega
        · have := i4 hw; have := lvl_lt hd hk; omega
      obtain ⟨L, up, e1, e2, e3, e4, e5, e6, e7⟩ := ih _ l hp.2 (fun y hy => hx y (.tail _ hy)) hsum' i3 hlr i4 (i2.1 rfl)
      refine ⟨L, up, e1, by simp; omega, by rw [hpre _ e2]; exact e3, by rw [hpre _ e2]; exact e4, e5, ?_, e7.imp id fun ⟨y, hy, h⟩ => ⟨y, .tail _ hy, h⟩⟩
      intro l' h1 h2
      have hlx : l' < x.2 := by
        rcases e7 with h | ⟨y, hy, h⟩
        · omega
        · have := hp.1 y hy; omega
      rw [hupto l' hlx]
      exact e6 l' h1 h2
    | false =>
      dsimp only
      have hnot : ¬ V (rules d) w.con.opt < S d u + W d k := fun h => by have := i2.2 h; cases this
      have hfull : pre (x :: u) ((mk u).length + 1) = x :: u := by rw [mk_length]; simp [pre]
      rw [x2]
      refine ⟨_, _, rfl, by simp [mk_length], by rw [hfull]; exact h, ?_, Nat.le_max_right _ _, ?_, ?_⟩
      · rw [hfull]
        intro y hy
        rcases List.mem_cons.1 hy with rfl | hy
        · exact Nat.le_max_left _ _
        · have := hp.1 y hy; omega
      · intro l' h1 h2 h3
        rw [hupto l' (by omega)] at h3
        exact hnot (lt_of_lt_of_le h3 (add_le_add (hS l') le_rfl))
      · by_cases hle : x.2 ≤ w.base
        · left; omega
        · right; exact ⟨x, .head _, by omega⟩

/-! ### Literals implied on an earlier level -/

theorem setReason_mem {tr : List Entry} {p : Lit} {rs : Option Rs} {e : Entry} (h : e ∈ setReason tr p rs) : ∃ f ∈ tr, f.lit = e.lit ∧ f.lev = e.lev := by
  obtain ⟨f, hf, e1⟩ := List.mem_map.1 h
  refine ⟨f, hf, ?_⟩
  subst e1; split <;> exact ⟨rfl, rfl⟩

theorem mem_setReason {tr : List Entry} {p : Lit} {rs : Option Rs} {e : Entry} (h : e ∈ tr) : ∃ f ∈ setReason tr p rs, f.lit = e.lit ∧ f.lev = e.lev := by
  refine ⟨_, List.mem_map_of_mem h, ?_⟩
  split <;> exact ⟨rfl, rfl⟩

theorem isTrue_setReason {tr : List Entry} {p : Lit} {rs : Option Rs} (q : Lit) : isTrue (setReason tr p rs) q = isTrue tr q := by
  rw [Bool.eq_iff_iff, isTrue_iff, isTrue_iff]
  constructor
  · rintro ⟨e, he, h⟩; obtain ⟨f, hf, h1, _⟩ := setReason_mem he; exact ⟨f, hf, by rw [h1, h]⟩
  · rintro ⟨e, he, h⟩; obtain ⟨f, hf, h1, _⟩ := mem_setReason (p := p) (rs := rs) he; exact ⟨f, hf, by rw [h1, h]⟩

theorem setReason_falseAt {d : Data} {tr I : List Entry} {p : Lit} {rs : Option Rs} {L i : Nat} (h : FalseAt d tr I L i) :
    FalseAt d (setReason tr p rs) I L i := by
  rcases h with ⟨e, he, h1, h2⟩ | h
  · obtain ⟨f, hf, a, b⟩ := mem_setReason (p := p) (rs := rs) he
    exact .inl ⟨f, hf, by rw [a, h1], by omega⟩
  · exact .inr h

/-- The reason of a literal is replaced by one with literals of earlier levels. -/
theorem setReason_core0 {d : Data} {w : Wd} {I : List Entry} {U : List (Nat × Nat)} {K : Nat} (h : Core0 d w I U K) {p : Lit} {rs : Option Rs} {lev : Nat}
    (hrs : ∀ r, rs = some r → RsOk d U (fun _ => True) p lev r) (hp : ∀ e ∈ w.tr, e.lit = p → lev < e.lev) :
    Core0 d { w with tr := setReason w.tr p rs } I U K where
  trN := by
    have : (setReason w.tr p rs).map (·.lit.var) = w.tr.map (·.lit.var) := by
      unfold setReason
      rw [List.map_map]
      apply List.map_congr_left
      intro e _
      simp only [Function.comp_apply]
      split <;> rfl
    show ((setReason w.tr p rs).map (·.lit.var)).Nodup
    rw [this]; exact h.trN
  trS := by
    show (setReason w.tr p rs).Pairwise _
    unfold setReason
    rw [List.pairwise_map]
    refine h.trS.imp ?_
    intro a b hab
    split <;> split <;> exact hab
  trL := fun e he => by
    obtain ⟨f, hf, _, h2⟩ := setReason_mem he
    have := h.trL f hf
    show e.lev ≤ w.dl
    omega
  und := h.und
  uw := h.uw
  psO := PosOk.mono (M := w.dl) h.uS (dl_ge h) (fun _ _ _ hf => setReason_falseAt hf) h.psO
  uN := h.uN
  uS := h.uS
  uT := fun x hx => by
    obtain ⟨a, e, he, b, c⟩ := h.uT x hx
    obtain ⟨f, hf, h1, h2⟩ := mem_setReason (p := p) (rs := rs) he
    exact ⟨a, f, hf, by rw [h1, b], by rw [h2, c]⟩
  seen := h.seen
  sum := h.sum
  act := h.act
  actL := h.actL
  pos := fun hr i hi => (h.pos hr i hi).imp (fun h => h) setReason_falseAt
  posL := h.posL
  posN := h.posN
  rs := by
    intro a e b r e1 e2
    have e1 : setReason w.tr p rs = a ++ e :: b := e1
    unfold setReason at e1
    obtain ⟨a', b', t1, t2, t3⟩ := List.map_eq_append_iff.1 e1
    obtain ⟨e', b'', t4, t5, t6⟩ := List.map_eq_cons_iff.1 t3
    subst t4
    by_cases hep : e'.lit = p
    · rw [if_pos hep] at t5
      subst t5
      have e2 : rs = some r := e2
      have hlev := hp e' (by rw [t1]; simp) hep
      show RsOk d U _ e'.lit e'.lev r
      rw [hep]
      refine (hrs r e2).imp (by omega) ?_
      intro x hx _
      obtain ⟨i, _, _, _, r4, _⟩ := hrs r e2
      have hx2 := (r4 x hx).2
      obtain ⟨_, f, hf, f1, f2⟩ := h.uT x ((pre_sub _ _).subset hx)
      have hfb : f ∈ b'' := by
        rw [t1] at hf
        have hso := h.trS
        rw [t1, List.pairwise_append] at hso
        rcases List.mem_append.1 hf with hf | hf
        · have := hso.2.2 f hf e' (.head _); omega
        · rcases List.mem_cons.1 hf with rfl | hf
          · omega
          · exact hf
      refine ⟨_, by rw [← t6]; exact List.mem_map_of_mem hfb, ?_⟩
      split <;> exact f1
    · rw [if_neg hep] at t5
      subst t5
      refine (h.rs a' e' b'' r t1 e2).imp (Nat.le_refl _) ?_
      rintro x _ ⟨y, hy, y1⟩
      refine ⟨_, by rw [← t6]; exact List.mem_map_of_mem hy, ?_⟩
      split <;> exact y1
  rsI := h.rsI

theorem mem_replaceImp {n e : Entry} : ∀ {l : List Entry}, e ∈ replaceImp n l → e = n ∨ e ∈ l := by
  intro l
  induction l with
  | nil => intro h; simp [replaceImp] at h
  | cons f l ih =>
    intro h
    rw [replaceImp] at h
    split at h
    · rcases List.mem_cons.1 h with h | h
      · exact .inl h
      · exact .inr (.tail _ h)
    · rcases List.mem_cons.1 h with h | h
      · exact .inr (by rw [h]; exact .head _)
      · exact (ih h).imp id (.tail _)

theorem replaceImp_spec {n x : Entry} : ∀ {l : List Entry}, l.find? (fun e => decide (e.lit = n.lit)) = some x →
    n ∈ replaceImp n l ∧ ∀ e ∈ l, e = x ∨ e ∈ replaceImp n l := by
  intro l
  induction l with
  | nil => intro h; simp at h
  | cons f l ih =>
    intro h
    rw [replaceImp]
    by_cases hf : f.lit = n.lit
    · rw [if_pos hf]
      rw [List.find?_cons_of_pos (by simpa using hf)] at h
      injection h with h
      refine ⟨.head _, fun e he => ?_⟩
      rcases List.mem_cons.1 he with rfl | he
      · exact .inl h
      · exact .inr (.tail _ he)
    · rw [if_neg hf]
      rw [List.find?_cons_of_neg (by simpa using hf)] at h
      obtain ⟨a, b⟩ := ih h
      refine ⟨.tail _ a, fun e he => ?_⟩
      rcases List.mem_cons.1 he with rfl | he
      · exact .inr (.head _)
      · exact (b e he).imp id (.tail _)

/-- Proof device: the literal is true on the level, or implied to be true. -/
def TrueAt (tr imps : List Entry) (L : Nat) (p : Lit) : Prop := (∃ e ∈ tr, e.lit = p ∧ e.lev ≤ L) ∨ ∃ e ∈ imps, e.lit = p ∧ e.lev ≤ L

/-- A literal is forced on an earlier level. -/
theorem forceAt_spec {d : Data} {w : Wd} {U : List (Nat × Nat)} (h : Core d w U) (hc : w.conf = none) {p : Lit} {lev : Nat} {rs : Option Rs}
    (hle : lev ≤ w.dl) (hrs : ∀ r, rs = some r → RsOk d U (fun _ => True) p lev r) :
    ∃ t pe im cf, forceAt d w p lev rs = { w with tr := t, pend := pe, imps := im, conf := cf } ∧ Core d { w with tr := t, pend := pe, imps := im, conf := cf } U ∧
      ConfOk d { w with tr := t, pend := pe, imps := im, conf := cf } U ∧ (∀ K, Keep d w.tr w.imps t im K) ∧
      (lev < top { w with conf := cf } → TrueAt t im lev p) ∧ (isFalse w.tr p = false → cf = none) := by
  have hcore : ∀ {w : Wd}, Core d w U → w.conf = none → Core d { w with conf := none } U := fun {w} h hc => by
    have : w = { w with conf := none } := by rw [← hc]
    rw [← this]; exact h
  have triv : ∀ {p q : _} (_ : (none : Option (Lit × Option Rs)) = some (p, some q)), False := fun h => nomatch h
  have hself : w = { w with tr := w.tr, pend := w.pend, imps := w.imps, conf := none } := by rw [← hc]
  unfold forceAt
  by_cases h1 : lev = w.dl
  · rw [if_pos h1]
    obtain ⟨t, pe, cf, a1, a2, a3, a4, a5, a6, a7, a8⟩ := force_spec h.toCore0 h.pd hc (p := p) (rs := rs) (by rw [← h1]; exact hrs)
    refine ⟨t, pe, w.imps, cf, a1, ?_, a4, ?_, ?_, a8⟩
    · refine { a2 with pendT := a3.pendT, pendN := a3.pendN, pendC := a3.pendC, imp := fun e he => ⟨(h.imp e he).1, fun _ => ?_⟩ }
      obtain ⟨f, hf, f1⟩ := isTrue_iff.1 ((h.imp e he).2 hc)
      exact isTrue_iff.2 ⟨f, a5 f hf, f1⟩
    · rintro K L _ i (⟨e, he, b⟩ | b)
      · exact .inl ⟨e, a5 e he, b⟩
      · exact .inr b
    · intro hlt
      have hcf : cf = none := by
        by_contra hne
        rw [top_some (w := { w with conf := cf }) hne] at hlt
        dsimp only at hlt; omega
      obtain ⟨e, he, e1⟩ := isTrue_iff.1 (a7 hcf)
      exact .inl ⟨e, he, e1, by have := a2.trL e he; dsimp only at this; omega⟩
  rw [if_neg h1]
  have hlt : lev < w.dl := by omega
  by_cases h2 : isTrue w.tr p = true ∧ levelOf w.tr p.var ≤ lev
  · rw [if_pos h2]
    refine ⟨w.tr, w.pend, w.imps, none, hself, hcore h hc, fun _ _ h => (nomatch h), fun K L _ i hf => hf, fun _ => ?_, fun _ => rfl⟩
    obtain ⟨e, he, e1⟩ := isTrue_iff.1 h2.1
    have := h2.2
    rw [← e1, levelOf_eq h.trN he] at this
    exact .inl ⟨e, he, e1, this⟩
  rw [if_neg h2]
  have hplev : ∀ e ∈ w.tr, e.lit = p → lev < e.lev := by
    intro e he e1
    by_contra hc'
    refine h2 ⟨isTrue_iff.2 ⟨e, he, e1⟩, ?_⟩
    rw [← e1, levelOf_eq h.trN he]; omega
  split
  · rename_i x hx
    split at hx
    swap
    · cases hx
    rename_i hpt
    by_cases h3 : lev < x.lev
    · rw [if_pos h3]
      have hxl : x.lit = p := by simpa using List.find?_some hx
      obtain ⟨m1, m2⟩ := replaceImp_spec (n := ⟨p, lev, rs⟩) (x := x) hx
      have hkeep : ∀ t K, Keep d t w.imps t (replaceImp ⟨p, lev, rs⟩ w.imps) K := by
        rintro t K L _ i (b | ⟨e, he, b1, b2⟩)
        · exact .inl b
        · rcases m2 e he with rfl | he
          · exact .inr ⟨_, m1, by rw [← b1, hxl], by dsimp only; omega⟩
          · exact .inr ⟨e, he, b1, b2⟩
      refine ⟨setReason w.tr p rs, w.pend, replaceImp ⟨p, lev, rs⟩ w.imps, none, by rw [← hc], ?_, fun _ _ h => (nomatch h), ?_, ?_, fun _ => rfl⟩
      · have c1 := setReason_core0 h.toCore0 hrs hplev
        have c2 := c1.imps (I' := replaceImp ⟨p, lev, rs⟩ w.imps) (Nat.le_refl _) (le_top w) (hkeep _ _) (by
          intro e he hel r hr
          rcases mem_replaceImp he with rfl | he
          · exact hrs r hr
          · exact h.rsI e he hel r hr)
        have ht : top { w with tr := setReason w.tr p rs, imps := replaceImp ⟨p, lev, rs⟩ w.imps, conf := none } = top w := by
          rw [top_none hc, top_none rfl]
        rw [← ht] at c2
        refine { ({ c2 with } : Core0 d { w with tr := setReason w.tr p rs, imps := replaceImp ⟨p, lev, rs⟩ w.imps, conf := none } _ U _) with pendT := ?_, pendN := h.pendN, pendC := ?_, imp := ?_ }
        · intro i hi
          obtain ⟨a, b, e, he, c, f⟩ := h.pendT i hi
          obtain ⟨g, hg, g1, g2⟩ := mem_setReason (p := p) (rs := rs) he
          exact ⟨a, b, g, hg, by rw [g1, c], by rw [g2, f]⟩
        · intro i hi ht
          rw [isTrue_setReason] at ht
          exact h.pendC i hi ht
        · intro e he
          dsimp only
          rw [isTrue_setReason]
          rcases mem_replaceImp he with rfl | he
          · exact ⟨hlt, fun _ => hpt⟩
          · exact ⟨(h.imp e he).1, fun _ => (h.imp e he).2 hc⟩
      · rintro K L hL i hf
        exact hkeep _ K L hL i (setReason_falseAt hf)
      · intro _; exact .inr ⟨_, m1, rfl, Nat.le_refl _⟩
    · rw [if_neg h3]
      have hxl : x.lit = p := by simpa using List.find?_some hx
      refine ⟨w.tr, w.pend, w.imps, none, hself, hcore h hc, fun _ _ h => (nomatch h), fun K L _ i hf => hf, fun _ => ?_, fun _ => rfl⟩
      exact .inr ⟨x, List.mem_of_find?_eq_some hx, hxl, by omega⟩
  · have hkeep : ∀ t K, Keep d t w.imps t (w.imps ++ [⟨p, lev, rs⟩]) K := by
      rintro t K L _ i (b | ⟨e, he, b1, b2⟩)
      · exact .inl b
      · exact .inr ⟨e, by simp [he], b1, b2⟩
    have hI : ∀ e ∈ w.imps ++ [⟨p, lev, rs⟩], e.lev ≤ w.dl → ∀ r, e.rs = some r → RsOk d U (fun _ => True) e.lit e.lev r := by
      intro e he hel r hr
      rcases List.mem_append.1 he with he | he
      · exact h.rsI e he hel r hr
      · rw [List.mem_singleton] at he
        subst he; exact hrs r hr
    by_cases hpt : isTrue w.tr p = true
    · dsimp only
      rw [if_pos hpt]
      refine ⟨setReason w.tr p rs, w.pend, w.imps ++ [⟨p, lev, rs⟩], none, by rw [← hc], ?_, fun _ _ h => (nomatch h), ?_, ?_, fun _ => rfl⟩
      · have c1 := setReason_core0 h.toCore0 hrs hplev
        have c2 := c1.imps (I' := w.imps ++ [⟨p, lev, rs⟩]) (Nat.le_refl _) (le_top w) (hkeep _ _) hI
        have ht : top { w with tr := setReason w.tr p rs, imps := w.imps ++ [⟨p, lev, rs⟩], conf := none } = top w := by
          rw [top_none hc, top_none rfl]
        rw [← ht] at c2
        refine { ({ c2 with } : Core0 d { w with tr := setReason w.tr p rs, imps := w.imps ++ [⟨p, lev, rs⟩], conf := none } _ U _) with pendT := ?_, pendN := h.pendN, pendC := ?_, imp := ?_ }
        · intro i hi
          obtain ⟨a, b, e, he, c, f⟩ := h.pendT i hi
          obtain ⟨g, hg, g1, g2⟩ := mem_setReason (p := p) (rs := rs) he
          exact ⟨a, b, g, hg, by rw [g1, c], by rw [g2, f]⟩
        · intro i hi ht
          rw [isTrue_setReason] at ht
          exact h.pendC i hi ht
        · intro e he
          dsimp only
          rw [isTrue_setReason]
          rcases List.mem_append.1 he with he | he
          · exact ⟨(h.imp e he).1, fun _ => (h.imp e he).2 hc⟩
          · rw [List.mem_singleton] at he
            subst he; exact ⟨hlt, fun _ => hpt⟩
      · rintro K L hL i hf
        exact hkeep _ K L hL i (setReason_falseAt hf)
      · intro _; exact .inr ⟨⟨p, lev, rs⟩, by simp, rfl, Nat.le_refl _⟩
    · dsimp only
      rw [if_neg hpt]
      have c1 : Core0 d { w with imps := w.imps ++ [⟨p, lev, rs⟩] } (w.imps ++ [⟨p, lev, rs⟩]) U (top { w with imps := w.imps ++ [⟨p, lev, rs⟩] }) := by
        have := h.toCore0.imps (I' := w.imps ++ [⟨p, lev, rs⟩]) (Nat.le_refl _) (le_top w) (hkeep _ _) hI
        exact { this with }
      obtain ⟨t, pe, cf, a1, a2, a3, a4, a5, a6, a7, a8⟩ := force_spec c1 ⟨h.pendT, h.pendN, h.pendC⟩ hc (p := p) (rs := rs) (fun r hr =>
        (hrs r hr).imp (by dsimp only; omega) fun _ _ h => h)
      refine ⟨t, pe, w.imps ++ [⟨p, lev, rs⟩], cf, a1, ?_, a4, ?_, fun _ => .inr ⟨⟨p, lev, rs⟩, by simp, rfl, Nat.le_refl _⟩, a8⟩
      · refine { a2 with pendT := a3.pendT, pendN := a3.pendN, pendC := a3.pendC, imp := ?_ }
        intro e he
        rcases List.mem_append.1 he with he | he
        · refine ⟨(h.imp e he).1, fun _ => ?_⟩
          obtain ⟨f, hf, f1⟩ := isTrue_iff.1 ((h.imp e he).2 hc)
          exact isTrue_iff.2 ⟨f, a5 f hf, f1⟩
        · rw [List.mem_singleton] at he
          subst he; exact ⟨hlt, a7⟩
      · rintro K L hL i hf
        refine hkeep _ K L hL i ?_
        rcases hf with ⟨e, he, b⟩ | b
        · exact .inl ⟨e, a5 e he, b⟩
        · exact .inr b

end Clasp.MinC
