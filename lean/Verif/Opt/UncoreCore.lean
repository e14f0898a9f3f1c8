import Verif.Opt.UncoreK
/-! Helper lemmas for core-guided optimization: adding a core (`addCore`). No code is modelled here. -/

namespace Clasp.Uncore
open Clasp.Core (Lit Asg)

theorem get_of {σ : St} {i : Nat} {d : Dat} (h : σ.dat[i]? = some d) : σ.get i = d := by
  simp [St.get, List.getD, h]

/-- Proof device: an element of a core whose weight can be paid. -/
def PayOk (σ : St) (w : Int) (e : Lit × Nat) : Prop :=
  ∃ d, σ.dat[e.2]? = some d ∧ d.lit = e.1.neg ∧ w ≤ d.weight ∧ (σ.disj = true ∨ d.assume = true)

theorem val_put {σ : St} {i : Nat} {d : Dat} (h : σ.dat[i]? = some d) (d' : Dat) (M : Asg) :
    val (σ.put i d') M = val σ M - d.pot M + d'.pot M := by
  simp only [val, St.put, pot_set M h]; ring

theorem Fr.put {S : Nat → Prop} {i : Nat} (hi : S i) (σ : St) (d : Dat) : Fr S σ (σ.put i d) := by
  refine ⟨le_refl _, fun _ h => h, by simp [St.put], ?_, le_refl _, ⟨[], by simp [St.put]⟩, ⟨le_refl _, id⟩, by simp [St.put]⟩
  intro j hj hs
  have : j ≠ i := fun h => hs (h ▸ hi)
  simp [St.put, List.getElem?_set, this.symm]

theorem Wf.put {F n0 T σ} (h : Wf F n0 T σ) {i : Nat} {d : Dat} (hd : σ.dat[i]? = some d) (d' : Dat) (T' : Nat → Prop) (hl : d'.lit = d.lit) (ha : d'.assume = true → d.assume = true)
    (hT : ∀ j, j ≠ i → T j → T' j) (hok : DatOk F σ.cons σ.n T' i d') : Wf F n0 T' (σ.put i d') where
  n0 := h.n0
  cons := h.cons
  dat := by
    intro j x hx
    simp only [St.put, List.getElem?_set] at hx
    by_cases hj : i = j
    · subst hj
      have : i < σ.dat.length := (List.getElem?_eq_some_iff.1 hd).1
      simp [this] at hx; subst hx; exact hok
    · simp [hj] at hx
      have := h.dat j x hx
      exact ⟨this.var, this.nn, this.zero, fun q => (this.act q).imp id (hT j (Ne.symm hj)), this.core⟩
  asm1 := by
    intro e he
    obtain ⟨x, hx, hl'⟩ := h.asm1 e he
    simp only [St.put, List.getElem?_set]
    by_cases hj : i = e.2
    · subst hj
      have : e.2 < σ.dat.length := (List.getElem?_eq_some_iff.1 hd).1
      refine ⟨d', by simp [this], ?_⟩
      rw [hd] at hx; cases hx; rw [hl, hl']
    · exact ⟨x, by simp [hj, hx], hl'⟩
  asm2 := by
    intro j x hx hax
    simp only [St.put, List.getElem?_set] at hx
    by_cases hj : i = j
    · subst hj
      have : i < σ.dat.length := (List.getElem?_eq_some_iff.1 hd).1
      simp [this] at hx; subst hx
      rw [hl]; exact h.asm2 i d hd (ha hax)
    · simp [hj] at hx; exact h.asm2 j x hx hax

/-- Proof device: the assumption is no longer active if its weight was paid. -/
def Paid (σ : St) (w : Int) (e : Lit × Nat) (r : St × Bool) : Prop :=
  (σ.get e.2).weight = w → r.2 = true → (r.1.get e.2).assume = false

theorem payStep_post {X : Ctx} {o : Slv} (ho : o.Sound X.F) {T S : Nat → Prop} {σ : St} {e : Lit × Nat} {w : Int} {E : Asg → Int} (succ : Bool)
    (hE : Dep σ.n E) (hw : 0 < w) (W : Wf X.F X.n0 T σ) (hp : PayOk σ w e) (hS : S e.2) (g : Good X σ E) :
    Post X (fun j => T j ∧ j ≠ e.2) S σ
      (if ((payLit σ w e).get e.2).weight = 0 then relaxCore o succ (payLit σ w e) e.2 else (payLit σ w e, true))
      (fun M => E M + w * viol M e.1.neg) ∧
    Paid σ w e (if ((payLit σ w e).get e.2).weight = 0 then relaxCore o succ (payLit σ w e) e.2 else (payLit σ w e, true)) := by
  obtain ⟨d, hd, hl, hwd, hact⟩ := hp
  have hlen : e.2 < σ.dat.length := (List.getElem?_eq_some_iff.1 hd).1
  have hget := get_of hd
  have hok := W.dat _ _ hd
  have hvar : e.1.neg.var < σ.n := hl ▸ hok.var
  have hE' : Dep σ.n (fun M => E M + w * viol M e.1.neg) := fun M M' a => by simp only [hE M M' a, viol_congr a hvar]
  by_cases hz : d.weight - w ≤ 0
  · have hdw : d.weight = w := by omega
    have h1 : payLit σ w e = σ.put e.2 { d with weight := 0, assume := false } := by
      simp only [payLit, hget, hz, if_true]
    have hd1 : (σ.put e.2 { d with weight := 0, assume := false }).dat[e.2]? = some { d with weight := 0, assume := false } := by
      simp [St.put, hlen]
    have hg1 := get_of hd1
    rw [h1, hg1, if_pos rfl, relaxCore, hg1]
    simp only
    cases hc : d.core with
    | none =>
      rw [hc] at hg1
      refine ⟨⟨fun _ => ⟨g.same W.n0 rfl ?_, W.put hd _ _ rfl (by simp) (fun j hj ht => ⟨ht, hj⟩)
        ⟨hok.var, le_refl _, fun _ => ⟨rfl, rfl⟩, fun q => absurd rfl q, fun c q => by cases q⟩, Fr.put hS σ _⟩, fun q => by simp at q⟩, fun _ _ => by simp only [hg1]⟩
      intro M _ _
      rw [val_put hd]
      simp only [Dat.pot, hc, hl, hdw]; ring
    | some c =>
      rw [hc] at hd1 hg1
      have hcok := hok.core c hc
      simp only
      have hdz : DatOk X.F σ.cons σ.n (fun j => T j ∧ j ≠ e.2) e.2 ⟨d.lit, 0, false, none⟩ :=
        ⟨hok.var, le_refl _, fun _ => ⟨rfl, rfl⟩, fun q => absurd rfl q, fun c q => by cases q⟩
      have W2 : Wf X.F X.n0 (fun j => T j ∧ j ≠ e.2) (σ.put e.2 ⟨d.lit, 0, false, none⟩) :=
        W.put hd _ _ rfl (by simp) (fun j hj ht => ⟨ht, hj⟩) hdz
      have g2 : Good X (σ.put e.2 ⟨d.lit, 0, false, none⟩) (fun M => (E M + w * viol M e.1.neg) +
          c.weight * surplus M (WC.addAll (o.top σ.cons) ⟨c.bound + 1, []⟩ c.lits)) := by
        refine g.same W.n0 rfl ?_
        intro M hF hs
        have h2 := WC.addAll_spec ho hF hs c.lits ⟨c.bound + 1, []⟩
        rw [val_put hd]
        simp only [Dat.pot, hc, hl, hdw, surplus]
        rw [show cnt M (WC.addAll (o.top σ.cons) ⟨c.bound + 1, []⟩ c.lits).lits - (WC.addAll (o.top σ.cons) ⟨c.bound + 1, []⟩ c.lits).bound + 1 =
          cnt M c.lits - c.bound by rw [h2]; simp [cnt]; ring]
        ring
      have hpp : (σ.put e.2 ⟨d.lit, 0, false, some c⟩).put e.2 ⟨d.lit, 0, false, none⟩ = σ.put e.2 ⟨d.lit, 0, false, none⟩ := by
        simp [St.put]
      have hcl : closeCore o (σ.put e.2 ⟨d.lit, 0, false, some c⟩) e.2
          (decide ((WC.addAll (o.top σ.cons) ⟨c.bound + 1, []⟩ c.lits).bound ≤ 1)) =
          if (WC.addAll (o.top σ.cons) ⟨c.bound + 1, []⟩ c.lits).bound ≤ 1 then fixLit o (σ.put e.2 ⟨d.lit, 0, false, none⟩) d.lit.neg
          else (σ.put e.2 ⟨d.lit, 0, false, none⟩, !o.bad σ.cons) := by
        simp only [closeCore, hg1, decide_eq_true_eq]
        rw [hpp]; rfl
      have hcons : (σ.put e.2 ⟨d.lit, 0, false, some c⟩).cons = σ.cons := rfl
      rw [hcons]
      have hclose : Post X (fun j => T j ∧ j ≠ e.2) S σ (closeCore o (σ.put e.2 ⟨d.lit, 0, false, some c⟩) e.2
          (decide ((WC.addAll (o.top σ.cons) ⟨c.bound + 1, []⟩ c.lits).bound ≤ 1))) (fun M => (E M + w * viol M e.1.neg) +
          c.weight * surplus M (WC.addAll (o.top σ.cons) ⟨c.bound + 1, []⟩ c.lits)) := by
        rw [hcl]
        split
        · rename_i hb
          have := fixLit_post ho S g2 W2 (p := d.lit.neg) (by simpa [St.put] using hok.var) (by
            intro M hF _ hs _
            have h2 := WC.addAll_spec ho hF hs c.lits ⟨c.bound + 1, []⟩
            have h3 := cnt_nonneg M (WC.addAll (o.top σ.cons) ⟨c.bound + 1, []⟩ c.lits).lits
            simp only [St.put, cnt] at h2
            rw [Clasp.Core.Asg.sat_neg]
            intro hsat
            have := hcok.link M hF hs hsat
            omega)
          exact ⟨fun h => ⟨(this.1 h).1, (this.1 h).2.1, (Fr.put hS σ _).trans (this.1 h).2.2⟩, this.2⟩
        · exact ⟨fun _ => ⟨g2, W2, Fr.put hS σ _⟩, fun h => g2.nosat (ho.bad _ (by show o.bad σ.cons = true; simpa using h))⟩
      have hcd : (closeCore o (σ.put e.2 ⟨d.lit, 0, false, some c⟩) e.2
          (decide ((WC.addAll (o.top σ.cons) ⟨c.bound + 1, []⟩ c.lits).bound ≤ 1))).1.dat[e.2]? = some ⟨d.lit, 0, false, none⟩ := by
        rw [hcl]
        split <;> simp [fixLit, addCon, St.put, hlen]
      have hmem : ∀ q ∈ (WC.addAll (o.top σ.cons) ⟨c.bound + 1, []⟩ c.lits).lits, q.var < σ.n := by
        intro q hq
        rcases WC.addAll_mem hq with h | h
        · simp at h
        · exact hcok.vars q h
      clear hcl
      generalize closeCore o (σ.put e.2 ⟨d.lit, 0, false, some c⟩) e.2 (decide ((WC.addAll (o.top σ.cons) ⟨c.bound + 1, []⟩ c.lits).bound ≤ 1)) = y at hclose hcd
      refine ⟨hclose.bind (fun _ h => h) (f := fun τ => addOllCon o succ τ (WC.addAll (o.top σ.cons) ⟨c.bound + 1, []⟩ c.lits) c.weight) ?_, ?_⟩
      · intro τ g3 w3 f3
        exact addOllCon_post ho succ (hE'.mono f3.n) hcok.wpos (fun q hq => (hmem q hq).trans_le f3.n) w3 g3
      · intro _ hok2
        by_cases hy : y.2 = true
        · simp only [hy, not_true, if_false] at hok2 ⊢
          obtain ⟨g3, w3, f3⟩ := hclose.1 hy
          have := addOllCon_post (S := fun _ => False) ho succ (hE'.mono f3.n) hcok.wpos (fun q hq => (hmem q hq).trans_le f3.n) w3 g3
          have h5 := (this.1 hok2).2.2.dat e.2 (List.getElem?_eq_some_iff.1 hcd).1 (fun h => h)
          rw [hcd] at h5
          rw [get_of h5]
        · simp [hy] at hok2
  · have hwk : Wf X.F X.n0 (fun j => T j ∧ j ≠ e.2) (payLit σ w e) ∧ (∀ M, val (payLit σ w e) M = val σ M - w * viol M e.1.neg) ∧
        ((payLit σ w e).get e.2).weight = d.weight - w ∧ (payLit σ w e).cons = σ.cons ∧ Fr S σ (payLit σ w e) := by
      have hval : ∀ a M, val (σ.put e.2 { d with weight := d.weight - w, assume := a }) M = val σ M - w * viol M e.1.neg := by
        intro a M; rw [val_put hd]; simp only [Dat.pot, hl]; ring
      have hdat : ∀ a, (σ.put e.2 { d with weight := d.weight - w, assume := a }).dat[e.2]? = some { d with weight := d.weight - w, assume := a } := by
        intro a; simp [St.put, hlen]
      have hdok : DatOk X.F σ.cons σ.n (fun j => T j ∧ j ≠ e.2) e.2 { d with weight := d.weight - w, assume := true } :=
        ⟨hok.var, by simp only; omega, fun q => by simp only at q; omega, fun _ => Or.inl rfl, hok.core⟩
      by_cases ha : d.assume = true
      · have h1 : payLit σ w e = σ.put e.2 { d with weight := d.weight - w, assume := true } := by
          simp only [payLit, hget, hz, if_false, ha, not_true, and_false]
        rw [h1]
        exact ⟨W.put hd _ _ rfl (fun _ => ha) (fun j hj ht => ⟨ht, hj⟩) hdok, hval true, by rw [get_of (hdat true)], rfl, Fr.put hS σ _⟩
      · have hdj : σ.disj = true := by tauto
        have h1 : payLit σ w e = { σ.put e.2 { d with weight := d.weight - w, assume := true } with asm := σ.asm ++ [(e.1.neg, e.2)] } := by
          unfold payLit
          simp only [hget, hz, if_false]
          rw [if_pos ⟨hdj, ha⟩]
        rw [h1]
        refine ⟨⟨W.n0, W.cons, ?_, ?_, ?_⟩, hval true, ?_, rfl, ?_⟩
        · intro j x hx
          simp only [St.put, List.getElem?_set] at hx
          by_cases hj : e.2 = j
          · subst hj
            simp [hlen] at hx; subst hx; exact hdok
          · simp [hj] at hx
            have := W.dat j x hx
            exact ⟨this.var, this.nn, this.zero, fun q => (this.act q).imp id (fun h => ⟨h, Ne.symm hj⟩), this.core⟩
        · intro e' he
          have key : ∀ e' : Lit × Nat, (∃ x, σ.dat[e'.2]? = some x ∧ x.lit = e'.1) →
              ∃ x, (σ.dat.set e.2 { d with weight := d.weight - w, assume := true })[e'.2]? = some x ∧ x.lit = e'.1 := by
            rintro e' ⟨x, hx, hl'⟩
            rw [List.getElem?_set]
            by_cases hj : e.2 = e'.2
            · rw [← hj, hd] at hx; cases hx
              exact ⟨{ d with weight := d.weight - w, assume := true }, by rw [if_pos hj, if_pos hlen], hl'⟩
            · exact ⟨x, by rw [if_neg hj]; exact hx, hl'⟩
          simp only [St.put, List.mem_append, List.mem_singleton] at he ⊢
          rcases he with he | rfl
          · exact key e' (W.asm1 e' he)
          · exact key _ ⟨d, hd, hl⟩
        · intro j x hx hax
          simp only [St.put, List.getElem?_set, List.mem_append, List.mem_singleton] at hx ⊢
          by_cases hj : e.2 = j
          · subst hj
            simp [hlen] at hx; subst hx
            right; rw [← hl]
          · simp [hj] at hx; left; exact W.asm2 j x hx hax
        · show (St.get (σ.put e.2 _) e.2).weight = _
          rw [get_of (hdat true)]
        · have := Fr.put (S := S) hS σ { d with weight := d.weight - w, assume := true }
          exact ⟨this.n, this.cons, this.len, this.dat, this.low, ⟨_, rfl⟩, this.nextW, this.misc⟩
    obtain ⟨w1, w2, w3, w4, w5⟩ := hwk
    rw [w3, if_neg (by omega)]
    refine ⟨⟨fun _ => ⟨g.same W.n0 w4 ?_, w1, w5⟩, fun q => by simp at q⟩, fun q => by rw [hget] at q; omega⟩
    intro M _ _
    rw [w2]; ring

theorem payCore_post {X : Ctx} {o : Slv} (ho : o.Sound X.F) {w : Int} (hw : 0 < w) (succ : Bool) (core : List (Lit × Nat)) :
    ∀ (S T : Nat → Prop) (σ : St) (E : Asg → Int), Dep σ.n E → Wf X.F X.n0 T σ → (∀ e ∈ core, PayOk σ w e) → (core.map Prod.snd).Nodup →
      (∀ e ∈ core, S e.2) → Good X σ E →
      Post X (fun j => T j ∧ j ∉ core.map Prod.snd) S σ (payCore o succ w core σ) (fun M => E M + w * cnt M (core.map Prod.fst)) ∧
      ∀ e ∈ core, Paid σ w e (payCore o succ w core σ) := by
  induction core with
  | nil =>
    intro S T σ E hE W _ _ _ g
    exact ⟨⟨fun _ => ⟨by simpa [payCore, cnt] using g, by simpa [payCore] using W, Fr.refl _ _⟩, fun q => by simp [payCore] at q⟩, by simp⟩
  | cons e es ih =>
    intro S T σ E hE W hp hnd hS g
    have hp1 := hp e (by simp)
    have hvar : e.1.neg.var < σ.n := by
      obtain ⟨d, hd, hl, _⟩ := hp1; rw [← hl]; exact (W.dat _ _ hd).var
    have hlen : e.2 < σ.dat.length := by
      obtain ⟨d, hd, _⟩ := hp1; exact (List.getElem?_eq_some_iff.1 hd).1
    obtain ⟨h1, hz⟩ := payStep_post (S := fun j => j = e.2) ho succ hE hw W hp1 rfl g
    unfold payCore
    simp only
    simp only [List.map_cons, List.nodup_cons] at hnd
    generalize (if ((payLit σ w e).get e.2).weight = 0 then relaxCore o succ (payLit σ w e) e.2 else (payLit σ w e, true)) = y at h1 hz
    by_cases hy : y.2 = true
    · rw [if_neg (by simpa using hy)]
      obtain ⟨g1, w1, f1⟩ := h1.1 hy
      have hpay : ∀ e' ∈ es, PayOk y.1 w e' ∧ y.1.get e'.2 = σ.get e'.2 := by
        intro e' he'
        obtain ⟨d, hd, r⟩ := hp e' (by simp [he'])
        have hd' : y.1.dat[e'.2]? = some d := by
          rw [f1.dat e'.2 (List.getElem?_eq_some_iff.1 hd).1 (fun h => hnd.1 (h ▸ List.mem_map_of_mem he')), hd]
        refine ⟨⟨d, hd', r.1, r.2.1, ?_⟩, by rw [get_of hd', get_of hd]⟩
        rw [f1.misc.2.2.2.2.2.2.1]; exact r.2.2
      obtain ⟨this, hz2⟩ := ih (fun j => j ∈ es.map Prod.snd) (fun j => T j ∧ j ≠ e.2) y.1 (fun M => E M + w * viol M e.1.neg)
        (fun M M' a => by have a' := a.mono f1.n; simp only [hE M M' a', viol_congr a' hvar]) w1 (fun e' he' => (hpay e' he').1) hnd.2
        (fun e' he' => List.mem_map_of_mem he') g1
      refine ⟨⟨fun h => ⟨?_, ?_, ?_⟩, this.2⟩, ?_⟩
      · have g2 := (this.1 h).1
        have : ∀ M, E M + w * cnt M (List.map Prod.fst (e :: es)) = E M + w * viol M e.1.neg + w * cnt M (List.map Prod.fst es) := by
          intro M; simp only [List.map_cons, cnt, viol_neg]; ring
        simp only [this]; exact g2
      · have w2 := (this.1 h).2.1
        have : (fun j => (T j ∧ j ≠ e.2) ∧ j ∉ es.map Prod.snd) = fun j => T j ∧ j ∉ List.map Prod.snd (e :: es) := by
          funext j; simp only [List.map_cons, List.mem_cons, not_or, ne_eq, and_assoc]
        rw [← this]; exact w2
      · refine (f1.mono ?_).trans ((this.1 h).2.2.mono ?_)
        · rintro i rfl; exact hS e (by simp)
        · intro i hi
          obtain ⟨e', he', rfl⟩ := List.mem_map.1 hi
          exact hS e' (by simp [he'])
      · intro e' he' hwt hr
        rcases List.mem_cons.1 he' with rfl | he'
        · have h3 := hz hwt hy
          have h4 := (this.1 hr).2.2.dat e'.2 (by have := f1.len; omega) hnd.1
          simp only [St.get, List.getD] at h3 ⊢
          rw [h4]; exact h3
        · exact hz2 e' he' (by rw [(hpay e' he').2]; exact hwt) hr
    · rw [if_pos hy]
      exact ⟨⟨fun q => absurd q hy, h1.2⟩, fun _ _ _ q => absurd q hy⟩

theorem newCore_post {X : Ctx} {o : Slv} (ho : o.Sound X.F) {T S : Nat → Prop} {p : Opts} (hg : ∀ n, 1 ≤ p.groups n) {σ : St} {ls : List Lit} {w : Int}
    {E : Asg → Int} (hE : Dep σ.n E) (hw : 0 < w) (hne : ls ≠ []) (hl : ∀ p ∈ ls, p.var < σ.n) (W : Wf X.F X.n0 T σ) (hh : Holds X σ ls)
    (g : Good X σ (fun M => E M + w * (cnt M ls - 1))) : Post X T S σ (newCore o p σ ls w) E := by
  have hl1 : 1 ≤ ls.length := by cases ls; exact absurd rfl hne; simp
  by_cases h1 : ls.length = 1
  · obtain ⟨l, rfl⟩ := List.length_eq_one_iff.1 h1
    have hl' : ∀ M, X.F M → Sat σ.cons M → M.sat l := fun M hF hs => by
      obtain ⟨q, hq, h⟩ := cnt_pos_iff.1 (hh M hF hs)
      simp at hq; exact hq ▸ h
    unfold newCore
    refine fixLit_post ho S (g.same W.n0 rfl ?_) W (hl l (by simp)) (fun M hF _ hs _ => hl' M hF hs)
    intro M hF hs
    simp [cnt, hl' M hF hs]
  · have h2 : newCore o p σ ls w = match p.algo with
        | .oll => addOll o p.succinct σ ls w
        | .one => addK o p σ ls.length ls w
        | .k lim => addK o p σ lim ls w
        | .pmr => addPmr o p.succinct σ ls w := by
      unfold newCore
      split
      · simp at h1
      · rfl
    rw [h2]
    split
    · exact addOll_post ho _ hE hw hne hl W hh g
    · exact addK_post ho _ hE hw (by omega) (hg _) hl W hh g
    · exact addK_post ho _ hE hw (by omega) (hg _) hl W hh g
    · exact addPmr_post ho _ hE hw (by omega) hl W hh g

theorem addCore_post {X : Ctx} {o : Slv} (ho : o.Sound X.F) {T : Nat → Prop} {p : Opts} (hg : ∀ n, 1 ≤ p.groups n) {σ : St} {core : List (Lit × Nat)} {w : Int}
    {E : Asg → Int} (upd : Bool) (hE : Dep σ.n E) (hw : 0 < w) (hne : core ≠ []) (W : Wf X.F X.n0 T σ) (hp : ∀ e ∈ core, PayOk σ w e) (hnd : (core.map Prod.snd).Nodup)
    (hh : Holds X σ (core.map Prod.fst)) (g : Good X σ E) :
    Post X (fun j => T j ∧ j ∉ core.map Prod.snd) (fun j => j ∈ core.map Prod.snd) σ (addCore o p σ core w upd)
      (fun M => E M + if upd then 0 else w) ∧
    (∀ e ∈ core, Paid σ w e (addCore o p σ core w upd)) ∧
    ((addCore o p σ core w upd).2 = true → σ.lower + (if upd then w else 0) ≤ (addCore o p σ core w upd).1.lower) := by
  have hE' : Dep σ.n (fun M => E M + if upd then 0 else w) := hE.add (Dep.const _ _)
  have hl : ∀ q ∈ core.map Prod.fst, q.var < σ.n := by
    intro q hq
    obtain ⟨e, he, rfl⟩ := List.mem_map.1 hq
    obtain ⟨d, hd, hl, _⟩ := hp e he
    have := (W.dat _ _ hd).var
    rw [hl] at this; simpa using this
  unfold addCore
  simp only
  generalize hσ : (if upd = true then { σ with lower := σ.lower + w } else σ) = σ1
  have f1 : ∀ S, Fr S σ σ1 := by
    intro S
    subst hσ
    cases upd
    · exact Fr.refl _ _
    · refine ⟨le_refl _, fun _ h => h, le_refl _, fun _ _ _ => rfl, ?_, ⟨[], by simp⟩, ⟨le_refl _, id⟩, by simp⟩
      simp only [if_true]; omega
  have e1 : σ1.n = σ.n ∧ σ1.cons = σ.cons ∧ σ1.dat = σ.dat ∧ σ1.asm = σ.asm ∧ σ1.disj = σ.disj ∧ σ1.lower = σ.lower + if upd then w else 0 := by
    subst hσ; cases upd <;> simp
  have W1 : Wf X.F X.n0 T σ1 := by
    refine ⟨e1.1 ▸ W.n0, ?_, ?_, ?_, ?_⟩
    · rw [e1.1, e1.2.1]; exact W.cons
    · rw [e1.1, e1.2.1, e1.2.2.1]; exact W.dat
    · rw [e1.2.2.1, e1.2.2.2.1]; exact W.asm1
    · rw [e1.2.2.1, e1.2.2.2.1]; exact W.asm2
  have g1 : Good X σ1 (fun M => E M - if upd then w else 0) := g.same W.n0 e1.2.1 (fun M _ _ => by
    simp only [val, e1.2.2.1, e1.2.2.2.2.2]; ring)
  obtain ⟨h1, hz⟩ := payCore_post ho hw p.succinct core (fun j => j ∈ core.map Prod.snd) T σ1 (fun M => E M - if upd then w else 0)
    (by rw [e1.1]; exact hE.add (E' := fun _ => - if upd then w else 0) (Dep.const _ _)) W1 (fun e he => by
      unfold PayOk; rw [e1.2.2.1, e1.2.2.2.2.1]; exact hp e he) hnd (fun e he => List.mem_map_of_mem he) g1
  generalize payCore o p.succinct w core σ1 = y at h1 hz
  have hnew : ∀ S, y.2 = true → Post X (fun j => T j ∧ j ∉ core.map Prod.snd) S y.1 (newCore o p y.1 (core.map Prod.fst) w) (fun M => E M + if upd then 0 else w) := by
    intro S hy
    obtain ⟨g2, w2, f2⟩ := h1.1 hy
    refine newCore_post ho hg (hE'.mono (by have := f2.n; omega)) hw (by simpa using hne) (fun q hq => by have := hl q hq; have := f2.n; omega) w2 ?_ ?_
    · intro M hF hs
      exact hh M hF (fun c hc => hs c (f2.cons c (e1.2.1 ▸ hc)))
    · have : ∀ M, E M + (if upd = true then 0 else w) + w * (cnt M (core.map Prod.fst) - 1) = (E M - if upd = true then w else 0) + w * cnt M (core.map Prod.fst) := by
        intro M; cases upd <;> simp <;> ring
      simp only [this]; exact g2
  by_cases hy : y.2 = true
  · rw [if_neg (by simpa using hy)]
    have h2 := hnew (fun _ => False) hy
    have f2 := (h1.1 hy).2.2
    refine ⟨⟨fun h => ⟨(h2.1 h).1, (h2.1 h).2.1, (f1 _).trans (f2.trans ((h2.1 h).2.2.mono (fun _ q => q.elim)))⟩, h2.2⟩, ?_, ?_⟩
    · intro e he hwt hr
      have h3 := hz e he (by simpa only [St.get, e1.2.2.1] using hwt) hy
      obtain ⟨d, hd, _⟩ := hp e he
      have h4 := (h2.1 hr).2.2.dat e.2 (by have := (List.getElem?_eq_some_iff.1 hd).1; have := f2.len; rw [e1.2.2.1] at this; omega) (fun q => q)
      simp only [St.get, List.getD] at h3 ⊢
      rw [h4]; exact h3
    · intro hr
      have h3 := (f2.mono (S' := fun _ => True) (fun _ _ => trivial)).low
      have h4 := (h2.1 hr).2.2.low
      rw [e1.2.2.2.2.2] at h3; omega
  · rw [if_pos hy]
    exact ⟨⟨fun q => absurd q hy, h1.2⟩, fun _ _ _ q => absurd q hy, fun q => absurd q hy⟩

end Clasp.Uncore
