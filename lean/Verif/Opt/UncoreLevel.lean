import Verif.Opt.UncorePath
/-! Helper lemmas for core-guided optimization: the end of a level and the start of the next one. No code is modelled here. -/

namespace Clasp.Uncore
open Clasp.Core (Lit Asg)

/-- Proof device: the state between two levels. -/
structure Btw (V : Env) (vl : Nat → Int) (k : Nat) (σ : St) : Prop where
  st : Settled V vl k σ.cons σ.up σ.found
  ext : ∀ M, V.F M → Pref V.pr vl k M → ∃ M', Agr V.n0 M M' ∧ Sat σ.cons M'
  n0 : V.n0 ≤ σ.n
  cons : ∀ c ∈ σ.cons, Con.below σ.n c
  dat : σ.dat = []
  asm : σ.asm = []
  todo : σ.todo = []
  shr : σ.shrink = false

theorem Btw.bad {V vl k σ} (h : Btw V vl k σ) (hb : ∀ M, V.F M → ¬ Sat σ.cons M) : σ.up = none ∧ ∀ M, ¬ V.F M := by
  have key : ∀ M, V.F M → Pref V.pr vl k M → False := by
    intro M hF hp
    obtain ⟨M', a, hs⟩ := h.ext M hF hp
    exact hb M' ((V.hF _ _ a).2 hF) hs
  cases hu : σ.up with
  | none => exact ⟨rfl, fun M hF => key M hF ((h.st.unb hu).2 M hF)⟩
  | some u =>
    obtain ⟨_, N, hF, _, hp⟩ := h.st.bnd u hu
    exact (key N hF hp).elim

theorem Done.of_none {V : Env} {σ : St} (hu : σ.up = none) (h : ∀ M, ¬ V.F M) : Done V σ :=
  ⟨fun _ => h, fun u q => (nomatch (hu.symm.trans q)), fun u q => (nomatch (hu.symm.trans q)), fun M q => absurd q.1 (h M)⟩

theorem Btw.done {V vl σ} (h : Btw V vl (V.pr.max + 1) σ) (hu : σ.up ≠ none) : Done V σ := by
  have hpre : ∀ M, Opt V M → Pref V.pr vl (V.pr.max + 1) M := by
    intro M hM
    cases hq : σ.up with
    | none => exact absurd hq hu
    | some u =>
      obtain ⟨_, N, hF, _, hp⟩ := h.st.bnd u hq
      intro j
      induction j using Nat.strongRecOn with
      | _ j ih =>
        intro hj
        have h1 := h.st.opt M hM.1 j hj (fun i hi => ih i hi (by omega))
        by_contra hne
        exact hM.2 N hF ⟨j, hj, fun i hi => by rw [hp i (by omega), ih i hi (by omega)], by rw [hp j hj]; omega⟩
  refine ⟨fun q => absurd q hu, ?_, ?_, fun M hM => h.ext M hM.1 (hpre M hM)⟩
  · intro u hq
    obtain ⟨_, N, hF, hN, hp⟩ := h.st.bnd u hq
    refine ⟨N, ⟨hF, ?_⟩, hN⟩
    rintro M hM ⟨i, hi, heq, hlt⟩
    have := h.st.opt M hM i hi (fun j hj => by rw [heq j hj, hp j (by omega)])
    rw [hp i hi] at hlt; omega
  · intro u hq M hM hs j hj
    obtain ⟨_, N, hF, hN, hp⟩ := h.st.bnd u hq
    rw [hN, hp j (by omega), h.st.pref M hM hs j (by omega)]

/-- Proof device: a level with a tight lower bound is done when its assumptions are fixed. -/
theorem settle {V : Env} {vl} {σ : St} (m : Main V vl σ) (ht : σ.todo = []) {u : Nat → Int} (hu : σ.up = some u) (hl : σ.lower = u σ.level) {C' : List Con}
    (hC : ∀ M, Sat C' M ↔ Sat σ.cons M ∧ ∀ e ∈ σ.asm, (σ.get e.2).assume = true → M.sat e.1) :
    Settled V (Function.update vl σ.level σ.lower) (σ.level + 1) C' σ.up σ.found ∧
    ∀ M, V.F M → Pref V.pr (Function.update vl σ.level σ.lower) (σ.level + 1) M → ∃ M', Agr V.n0 M M' ∧ Sat C' M' := by
  have hT : Wf V.F V.n0 (fun _ => False) σ := m.wf.weaken (fun i h => by have := h.2; simp [tids, ht] at this)
  have hp0 : pend σ = 0 := by simp [pend, ht]
  have hQ : ∀ M, Pref V.pr vl σ.level M → sums V.pr M σ.level ≤ σ.lower → (V.ctx vl σ.level σ.up).Q M := by
    intro M hp hle
    refine ⟨hp, fun u' hu' => ?_⟩
    rw [hu] at hu'; cases hu'; omega
  have hpot0 : ∀ M, V.F M → Sat C' M → pot M σ.dat = 0 := by
    intro M hF hs
    obtain ⟨hs1, hs2⟩ := (hC M).1 hs
    have hz : ∀ L : List Dat, (∀ d ∈ L, d.pot M = 0) → pot M L = 0 := by
      intro L
      induction L with
      | nil => intro _; rfl
      | cons d L ih =>
        intro hL
        have e1 := hL d (by simp)
        have e2 := ih (fun d' hd' => hL d' (by simp [hd']))
        unfold pot at e2 ⊢
        rw [List.map_cons, List.sum_cons, e1, e2]; rfl
    apply hz
    intro d hd
    obtain ⟨i, hi⟩ := List.mem_iff_getElem?.1 hd
    have hok := hT.dat i d hi
    unfold Dat.pot
    by_cases hz : d.weight = 0
    · rw [(hok.zero hz).2, hz]; simp
    · have ha : d.assume = true := (hok.act hz).resolve_right (fun h => h)
      have hsat : M.sat d.lit := hs2 (d.lit, i) (hT.asm2 i d hi ha) (by rw [get_of hi]; exact ha)
      simp only [viol, hsat, if_true, mul_zero, zero_add]
      cases hc : d.core with
      | none => rfl
      | some c =>
        have := (hok.core c hc).link M hF hs1 hsat
        simp only
        rw [max_eq_left (by omega), mul_zero]
  have hprefix : ∀ M k, k ≤ σ.level → (Pref V.pr (Function.update vl σ.level σ.lower) k M ↔ Pref V.pr vl k M) := by
    intro M k hk
    refine forall_congr' fun j => forall_congr' fun hj => ?_
    rw [Function.update_of_ne (by omega)]
  have hpsucc : ∀ M, Pref V.pr (Function.update vl σ.level σ.lower) (σ.level + 1) M ↔ Pref V.pr vl σ.level M ∧ sums V.pr M σ.level = σ.lower := by
    intro M
    rw [← hprefix M σ.level (le_refl _)]
    constructor
    · intro h
      exact ⟨fun j hj => h j (by omega), by have := h σ.level (by omega); rwa [Function.update_self] at this⟩
    · rintro ⟨h1, h2⟩ j hj
      rcases Nat.lt_succ_iff_lt_or_eq.1 hj with h | h
      · exact h1 j h
      · rw [h, h2, Function.update_self]
  refine ⟨⟨?_, ?_, ?_, ?_⟩, ?_⟩
  · intro M hF hs
    have hs1 := ((hC M).1 hs).1
    have hp := m.st.pref M hF hs1
    refine (hpsucc M).2 ⟨hp, ?_⟩
    have h1 : sums V.pr M σ.level ≤ val σ M + - pend σ := m.good.B M hF hs1
    simp only [val, hpot0 M hF hs, hp0] at h1
    have h2 : σ.lower ≤ sums V.pr M σ.level := m.good.lower m.wf m.todo hF (hQ M hp (by omega))
    omega
  · intro M hF j hj hp
    rcases Nat.lt_succ_iff_lt_or_eq.1 hj with h | h
    · rw [Function.update_of_ne (by omega)]
      exact m.st.opt M hF j h ((hprefix M j (by omega)).1 hp)
    · subst h
      rw [Function.update_self]
      by_contra hlt
      have h2 : σ.lower ≤ sums V.pr M σ.level := m.good.lower m.wf m.todo hF (hQ M ((hprefix M _ (le_refl _)).1 hp) (by omega))
      omega
  · intro q; rw [hu] at q; cases q
  · intro u' hu'
    obtain ⟨h1, N, hF, hN, hp⟩ := m.st.bnd u' hu'
    refine ⟨h1, N, hF, hN, (hpsucc N).2 ⟨hp, ?_⟩⟩
    rw [hu] at hu'; cases hu'
    rw [hl, hN]
  · intro M hF hp
    obtain ⟨hp1, hp2⟩ := (hpsucc M).1 hp
    obtain ⟨M', a, hs, hv⟩ := m.good.A M hF (hQ M hp1 (by omega))
    refine ⟨M', a, (hC M').2 ⟨hs, ?_⟩⟩
    intro e he ha
    have hF' : V.F M' := (V.hF _ _ a).2 hF
    have hc1 : (V.ctx vl σ.level σ.up).c M = sums V.pr M σ.level := rfl
    have hc2 : (V.ctx vl σ.level σ.up).c M' = sums V.pr M' σ.level := rfl
    rw [hc1, ← V.sums_congr a, ← hc2] at hv
    have := harden (X := V.ctx vl σ.level σ.up) m.wf m.todo hF' hs hv (i := e.2) (by simp [tids, ht])
    rw [hc2, V.sums_congr a, hp2] at this
    obtain ⟨d, hd, hdl⟩ := hT.asm1 e he
    have hok := hT.dat _ _ hd
    rw [get_of hd] at this ha
    rw [hdl] at this
    by_contra hns
    simp only [viol, hns, if_false, mul_one] at this
    have h1 := hok.nn
    have h2 : d.weight ≠ 0 := fun q => by have := (hok.zero q).1; rw [ha] at this; cases this
    omega

theorem fixAll_eq (o : Slv) (L : List (Lit × Nat)) : ∀ σ : St, fixAll o L σ =
    { σ with cons := ((L.filter fun e => (σ.get e.2).assume).map fun e => Con.clause [e.1]).reverse ++ σ.cons } := by
  induction L with
  | nil => intro σ; simp [fixAll]
  | cons e es ih =>
    intro σ
    unfold fixAll
    by_cases h : (σ.get e.2).assume = true
    · rw [if_pos h, ih]
      have : ∀ e' : Lit × Nat, St.get (fixLit o σ e.1).1 e'.2 = σ.get e'.2 := fun _ => rfl
      simp only [this, List.filter_cons, h, if_true, List.map_cons, List.reverse_cons, List.append_assoc]
      simp [fixLit, addCon]
    · rw [if_neg h, ih]
      simp [h]

theorem fixTight_eq (o : Slv) (σ : St) : fixTight o σ = { σ with cons := (σ.asm.map fun e => Con.clause [e.1]) ++ σ.cons, dat := [], asm := [] } := by
  unfold fixTight
  have : ∀ L : List (Lit × Nat), L.foldr (fun e τ => (fixLit o τ e.1).1) σ = { σ with cons := (L.map fun e => Con.clause [e.1]) ++ σ.cons } := by
    intro L
    induction L with
    | nil => simp
    | cons e L ih => simp only [List.foldr_cons, ih]; simp [fixLit, addCon]
  rw [this]

theorem clause_sat {M : Asg} {p : Lit} : (Con.clause [p]).sat M ↔ M.sat p := by simp [Con.sat]

theorem fixLevel_btw {V : Env} {vl} {σ : St} (o : Slv) (m : Main V vl σ) (ht : σ.todo = []) {u : Nat → Int} (hu : σ.up = some u) (hl : σ.lower = u σ.level) :
    Btw V (Function.update vl σ.level σ.lower) (σ.level + 1) (fixLevel o σ).1 ∧ (fixLevel o σ).1.up = σ.up ∧ (fixLevel o σ).1.level = σ.level ∧
      (fixLevel o σ).1.init = σ.init ∧ (fixLevel o σ).1.fin = σ.fin := by
  have heq : (fixLevel o σ).1 = releaseLits { σ with cons := ((σ.asm.filter fun e => (σ.get e.2).assume).map fun e => Con.clause [e.1]).reverse ++ σ.cons } := by
    simp only [fixLevel, fixAll_eq]
  rw [heq]
  have hC : ∀ M, Sat (((σ.asm.filter fun e => (σ.get e.2).assume).map fun e => Con.clause [e.1]).reverse ++ σ.cons) M ↔
      Sat σ.cons M ∧ ∀ e ∈ σ.asm, (σ.get e.2).assume = true → M.sat e.1 := by
    intro M
    rw [Sat_append]
    constructor
    · rintro ⟨h1, h2⟩
      refine ⟨h2, fun e he ha => ?_⟩
      have := h1 (.clause [e.1]) (by simp only [List.mem_reverse, List.mem_map, List.mem_filter]; exact ⟨e, ⟨he, ha⟩, rfl⟩)
      exact clause_sat.1 this
    · rintro ⟨h1, h2⟩
      refine ⟨?_, h1⟩
      intro c hc
      simp only [List.mem_reverse, List.mem_map, List.mem_filter] at hc
      obtain ⟨e, ⟨he, ha⟩, rfl⟩ := hc
      exact clause_sat.2 (h2 e he ha)
  obtain ⟨h1, h2⟩ := settle m ht hu hl hC
  refine ⟨⟨h1, h2, m.wf.n0, ?_, rfl, rfl, rfl, rfl⟩, rfl, rfl, rfl, rfl⟩
  intro c hc
  simp only [releaseLits, List.mem_append, List.mem_reverse, List.mem_map, List.mem_filter] at hc
  rcases hc with ⟨e, ⟨he, _⟩, rfl⟩ | hc
  · obtain ⟨d, hd, hdl⟩ := m.wf.asm1 e he
    have := (m.wf.dat _ _ hd).var
    simp only [Con.below, List.mem_singleton, forall_eq, releaseLits]
    rw [← hdl]; exact this
  · exact m.wf.cons c hc

/-- Proof device: the state while the literals of a level are added. -/
structure LitsInv (V : Env) (k : Nat) (σ τ : St) (L : List (Lit × (Nat → Int))) : Prop where
  wf : Wf V.F V.n0 (fun _ => False) τ
  act : ∀ d ∈ τ.dat, d.assume = true
  val : ∀ M, V.F M → Sat σ.cons M → val τ M = (L.map fun e => if M.sat e.1 then e.2 k else 0).sum
  fr : Fr (fun _ => True) { σ with lower := τ.lower } τ
  cons : τ.cons = σ.cons
  n : τ.n = σ.n

theorem initLit_inv {V : Env} {o : Slv} (ho : o.Sound V.F) {k : Nat} {σ τ : St} {L} (h : LitsInv V k σ τ L) (e : Lit × (Nat → Int)) (he : e.1.var < V.n0) :
    LitsInv V k σ (initLit o k τ e) (L ++ [e]) := by
  have hlow : ∀ z, LitsInv V k σ { τ with lower := τ.lower + z } L ∨ True := fun _ => Or.inr trivial
  clear hlow
  have hfr : ∀ z, Fr (fun _ => True) { σ with lower := z } { τ with lower := z } := by
    intro z
    have f := h.fr
    exact ⟨f.n, f.cons, f.len, fun i hi hn => absurd trivial hn, le_refl _, f.asm, f.nextW, f.misc⟩
  have key0 : ∀ z, (∀ M, V.F M → Sat σ.cons M → (if M.sat e.1 then e.2 k else 0) = z) → LitsInv V k σ { τ with lower := τ.lower + z } (L ++ [e]) := by
    intro z hz
    refine ⟨h.wf.cast rfl rfl rfl rfl, h.act, ?_, hfr _, h.cons, h.n⟩
    intro M hF hs
    have := h.val M hF hs
    simp only [List.map_append, List.sum_append, List.map_cons, List.map_nil, List.sum_cons, List.sum_nil, ← this, hz M hF hs, Uncore.val]
    ring
  have key1 : ∀ z p w, p.var < V.n0 → 0 < w → (∀ M, V.F M → Sat σ.cons M → (if M.sat e.1 then e.2 k else 0) = z + w * viol M p) →
      LitsInv V k σ (newAssumption { τ with lower := τ.lower + z } p w) (L ++ [e]) := by
    intro z p w hp hw hz
    have hn : NwOk { τ with lower := τ.lower + z } τ.nextW := ⟨le_refl _, id⟩
    obtain ⟨nw, hnw, h1⟩ := newAssumption_grow (k := 0) (cs := []) (ds := []) hn p w
    have hg0 := grow_zero { τ with lower := τ.lower + z }
    simp only at hg0
    rw [hg0] at h1
    rw [h1]
    have W : Wf V.F V.n0 (fun _ => False) { τ with lower := τ.lower + z } := h.wf.cast rfl rfl rfl rfl
    refine ⟨W.grow _ (by simp) ?_, ?_, ?_, ?_, h.cons, h.n⟩
    · intro j d hd
      cases j with
      | zero =>
        simp at hd; subst hd
        refine ⟨rfl, ?_, hw.le, fun q => by simp only at q; omega, fun _ => Or.inl rfl, fun c q => by cases q⟩
        have := h.wf.n0
        simp only; omega
      | succ j => simp at hd
    · intro d hd
      simp only [grow, List.nil_append, List.mem_append, List.mem_singleton] at hd
      rcases hd with hd | rfl
      · exact h.act d hd
      · rfl
    · intro M hF hs
      have := h.val M hF hs
      rw [val_grow]
      simp only [List.map_append, List.sum_append, List.map_cons, List.map_nil, List.sum_cons, List.sum_nil, ← this, hz M hF hs, Uncore.val, List.nil_append, pot_single, Dat.pot]
      ring
    · refine Fr.trans ?_ (Fr.grow _ _ _ _ _ hnw)
      exact hfr _
  have hroot : ∀ q, o.root τ.cons q = true → ∀ M, V.F M → Sat σ.cons M → M.sat q := by
    intro q hq M hF hs
    exact ho.root _ _ hq M hF (by rw [h.cons]; exact hs)
  unfold initLit
  simp only
  by_cases h0 : e.2 k = 0
  · rw [if_pos h0]
    have := key0 0 (fun M _ _ => by rw [h0]; split <;> rfl)
    simpa using this
  rw [if_neg h0]
  by_cases hneg : e.2 k < 0
  · simp only [hneg, if_true]
    split
    · rename_i hr
      have := key0 0 (fun M hF hs => by
        have := hroot _ hr M hF hs
        rw [Clasp.Core.Asg.sat_neg] at this
        rw [if_neg this])
      rw [add_zero] at this
      have hq : τ.lower + e.2 k + -e.2 k = τ.lower := by ring
      rw [hq]; exact this
    · split
      · rename_i _ hr
        exact key0 _ (fun M hF hs => by
          have := hroot _ hr M hF hs
          simp at this
          rw [if_pos this])
      · have := key1 (e.2 k) e.1.neg.neg (- e.2 k) (by simpa using he) (by omega) (fun M _ _ => by
          rw [viol_neg]
          simp only [Clasp.Core.Asg.sat_neg]
          split <;> simp)
        exact this
  · simp only [hneg, if_false]
    split
    · rename_i hr
      exact key0 _ (fun M hF hs => by rw [if_pos (hroot _ hr M hF hs)])
    · split
      · rename_i _ hr
        have := key0 0 (fun M hF hs => by
          have := hroot _ hr M hF hs
          rw [Clasp.Core.Asg.sat_neg] at this
          rw [if_neg this])
        simpa using this
      · have := key1 0 e.1.neg (e.2 k) (by simpa using he) (by omega) (fun M _ _ => by
          rw [viol_neg]
          split <;> simp)
        simpa using this

theorem initLits_inv {V : Env} {o : Slv} (ho : o.Sound V.F) {k : Nat} {σ : St} (hn : V.n0 ≤ σ.n) (hc : ∀ c ∈ σ.cons, Con.below σ.n c) (hd : σ.dat = []) (ha : σ.asm = []) :
    LitsInv V k { σ with level := k } (initLits o V.pr k σ) V.pr.lits := by
  have main : ∀ (L2 L1 : List (Lit × (Nat → Int))) (τ : St), (∀ e ∈ L2, e.1.var < V.n0) → LitsInv V k { σ with level := k } τ L1 →
      LitsInv V k { σ with level := k } (L2.foldl (initLit o k) τ) (L1 ++ L2) := by
    intro L2
    induction L2 with
    | nil => intro L1 τ _ h; simpa using h
    | cons e L2 ih =>
      intro L1 τ hv h
      have := ih (L1 ++ [e]) _ (fun e' he' => hv e' (by simp [he'])) (initLit_inv ho h e (hv e (by simp)))
      simpa using this
  have h0 : LitsInv V k { σ with level := k } { σ with level := k, lower := 0 } [] := by
    refine ⟨⟨hn, hc, ?_, ?_, ?_⟩, ?_, ?_, Fr.refl _ _, rfl, rfl⟩
    · intro i d q; simp only [hd] at q; simp at q
    · intro e q; simp only [ha] at q; simp at q
    · intro i d q; simp only [hd] at q; simp at q
    · intro d q; simp only [hd] at q; simp at q
    · intro M _ _; simp [val, hd, pot]
  have := main V.pr.lits [] _ V.hl h0
  rw [List.nil_append] at this
  exact this

/-- Proof device: a level begins. -/
theorem Btw.begin {V : Env} {o : Slv} (ho : o.Sound V.F) {vl} {k : Nat} {σ : St} (h : Btw V vl k σ) (hk : k ≤ V.pr.max) (hr : σ.ready = false) :
    Main V vl (initLits o V.pr k σ) ∧ Fr (fun _ => True) { σ with level := k, lower := (initLits o V.pr k σ).lower } (initLits o V.pr k σ) ∧
    (∀ d ∈ (initLits o V.pr k σ).dat, d.assume = true) ∧
    ((initLits o V.pr k σ).asm = [] → Btw V (Function.update vl k (initLits o V.pr k σ).lower) (k + 1) (initLits o V.pr k σ)) := by
  have h1 := initLits_inv (k := k) ho h.n0 h.cons h.dat h.asm
  have hval := h1.val
  have hf := h1.fr
  have e1 := hf.misc
  generalize initLits o V.pr k σ = τ at *
  have hcons : τ.cons = σ.cons := h1.cons
  have hl : τ.level = k := e1.2.2.2.2.1
  have hu : τ.up = σ.up := e1.2.2.1
  have hfd : τ.found = σ.found := e1.2.2.2.1
  have hv : ∀ M, V.F M → Sat σ.cons M → val τ M = sums V.pr M k := hval
  refine ⟨Main.mk0 ?_ h1.wf ⟨?_, ?_⟩ (e1.1.trans h.todo) (e1.2.1.trans h.shr) (e1.2.2.2.2.2.2.2.2.2.1.trans hr) (by rw [hl]; exact hk), hf, h1.act, ?_⟩
  · rw [hl, hu, hfd, hcons]; exact h.st
  · intro M hF hQ
    rw [hl] at hQ ⊢
    obtain ⟨M', a, hs⟩ := h.ext M hF hQ.1
    refine ⟨M', a, by rw [hcons]; exact hs, ?_⟩
    rw [hv M' ((V.hF _ _ a).2 hF) hs, add_zero]
    exact V.sums_congr a k
  · intro M hF hs
    rw [hcons] at hs
    rw [hv M hF hs, add_zero, hl]
    exact le_refl _
  · intro ha
    have hdat : τ.dat = [] := by
      cases hq : τ.dat with
      | nil => rfl
      | cons d ds =>
        have h2 := h1.wf.asm2 0 d (by simp [hq]) (h1.act d (by simp [hq]))
        rw [ha] at h2; simp at h2
    have hex : ∀ M, V.F M → Sat σ.cons M → sums V.pr M k = τ.lower := by
      intro M hF hs
      rw [← hv M hF hs]; simp [val, hdat, pot]
    have hex2 : ∀ M, V.F M → Pref V.pr vl k M → sums V.pr M k = τ.lower := by
      intro M hF hp
      obtain ⟨M', a, hs⟩ := h.ext M hF hp
      rw [← V.sums_congr a]; exact hex M' ((V.hF _ _ a).2 hF) hs
    have hprefix : ∀ M j, j ≤ k → (Pref V.pr (Function.update vl k τ.lower) j M ↔ Pref V.pr vl j M) := by
      intro M j hj
      refine forall_congr' fun i => forall_congr' fun hi => ?_
      rw [Function.update_of_ne (by omega)]
    have hpsucc : ∀ M, V.F M → Pref V.pr vl k M → Pref V.pr (Function.update vl k τ.lower) (k + 1) M := by
      intro M hF hp j hj
      rcases Nat.lt_succ_iff_lt_or_eq.1 hj with q | q
      · exact ((hprefix M k (le_refl _)).2 hp) j q
      · rw [q, Function.update_self]; exact hex2 M hF hp
    refine ⟨⟨?_, ?_, ?_, ?_⟩, ?_, ?_, ?_, hdat, ha, e1.1.trans h.todo, e1.2.1.trans h.shr⟩
    · intro M hF hs
      rw [hcons] at hs
      exact hpsucc M hF (h.st.pref M hF hs)
    · intro M hF j hj hp
      rcases Nat.lt_succ_iff_lt_or_eq.1 hj with q | q
      · rw [Function.update_of_ne (by omega)]
        exact h.st.opt M hF j q ((hprefix M j (by omega)).1 hp)
      · subst q; rw [Function.update_self]
        exact (hex2 M hF ((hprefix M _ (le_refl _)).1 hp)).ge
    · intro q
      rw [hu] at q; rw [hfd]
      exact ⟨(h.st.unb q).1, fun M hF => hpsucc M hF ((h.st.unb q).2 M hF)⟩
    · intro u q
      rw [hu] at q; rw [hfd]
      obtain ⟨a, N, hF, hN, hp⟩ := h.st.bnd u q
      exact ⟨a, N, hF, hN, hpsucc N hF hp⟩
    · intro M hF hp
      rw [hcons]
      exact h.ext M hF ((hprefix M k (le_refl _)).1 (fun j hj => hp j (by omega)))
    · exact h1.wf.n0
    · exact h1.wf.cons

theorem Main.lower_le {V vl} {σ : St} (m : Main V vl σ) {u : Nat → Int} (hu : σ.up = some u) : σ.lower ≤ u σ.level := by
  obtain ⟨_, N, hF, hN, hp⟩ := m.st.bnd u hu
  have := m.good.lower m.wf m.todo (M := N) hF ⟨hp, fun u' hu' => by rw [hu] at hu'; cases hu'; rw [hN]⟩
  rw [hN]; exact this

theorem levLoop_spec {V : Env} {o : Slv} (ho : o.Sound V.F) (fuel : Nat) : ∀ (k : Nat) (tight nxt : Bool) (σ : St) (vl : Nat → Int), k + fuel = V.pr.max + 1 → σ.ready = false →
    (σ.asm = [] → Btw V vl k σ) → (nxt = false → (∃ vl0, Main V vl0 σ) ∨ (1 ≤ fuel ∧ σ.asm = [])) → (nxt = true → σ.asm = [] ∧ σ.up ≠ none) → (tight = false → nxt = false) →
    ((levLoop o V.pr fuel k tight nxt σ).2 = true → Done V (levLoop o V.pr fuel k tight nxt σ).1) ∧
    ((levLoop o V.pr fuel k tight nxt σ).2 = false → ∃ vl0, Main V vl0 (levLoop o V.pr fuel k tight nxt σ).1) ∧
    (levLoop o V.pr fuel k tight nxt σ).1.fin = σ.fin ∧ (levLoop o V.pr fuel k tight nxt σ).1.ready = false ∧
    (levLoop o V.pr fuel k tight nxt σ).1.shrink = σ.shrink ∧ (levLoop o V.pr fuel k tight nxt σ).1.todo = σ.todo := by
  induction fuel with
  | zero =>
    intro k tight nxt σ vl hk hr h1 h2 h3 h4
    unfold levLoop
    refine ⟨fun q => ?_, fun q => ?_, rfl, hr, rfl, rfl⟩
    · obtain ⟨a, b⟩ := h3 q
      have hb := h1 a
      rw [show k = V.pr.max + 1 by omega] at hb
      exact hb.done b
    · rcases h2 q with h | h
      · exact h
      · omega
  | succ fuel ih =>
    intro k tight nxt σ vl hk hr h1 h2 h3 h4
    unfold levLoop
    by_cases ha : σ.asm = []
    swap
    · rw [if_pos (by simpa using ha)]
      refine ⟨fun q => absurd (h3 q).1 ha, fun q => ?_, rfl, hr, rfl, rfl⟩
      rcases h2 q with h | h
      · exact h
      · exact absurd h.2 ha
    rw [if_neg (by simpa using ha)]
    have hb := h1 ha
    obtain ⟨m, f, hact, hb2⟩ := hb.begin ho (by omega) hr
    simp only
    generalize initLits o V.pr k σ = τ at *
    have e1 := f.misc
    have hlev : τ.level = k := e1.2.2.2.2.1
    have hr' : τ.ready = false := e1.2.2.2.2.2.2.2.2.2.1.trans hr
    have hfin : τ.fin = σ.fin := e1.2.2.2.2.2.2.2.2.2.2
    have hshr : τ.shrink = σ.shrink := e1.2.1
    have htodo : τ.todo = σ.todo := e1.1
    have hcont : ((levLoop o V.pr fuel (k + 1) false false τ).2 = true → Done V (levLoop o V.pr fuel (k + 1) false false τ).1) ∧
        ((levLoop o V.pr fuel (k + 1) false false τ).2 = false → ∃ vl0, Main V vl0 (levLoop o V.pr fuel (k + 1) false false τ).1) ∧
        (levLoop o V.pr fuel (k + 1) false false τ).1.fin = σ.fin ∧ (levLoop o V.pr fuel (k + 1) false false τ).1.ready = false ∧
        (levLoop o V.pr fuel (k + 1) false false τ).1.shrink = σ.shrink ∧ (levLoop o V.pr fuel (k + 1) false false τ).1.todo = σ.todo := by
      have := ih (k + 1) false false τ _ (by omega) hr' hb2 (fun _ => Or.inl ⟨vl, m⟩) (fun q => by cases q) (fun _ => rfl)
      rw [hfin, hshr, htodo] at this; exact this
    by_cases ht : tight = true
    swap
    · have ht' : tight = false := by simpa using ht
      rw [if_pos ht, ht', h4 ht']
      exact hcont
    rw [if_neg (by simpa using ht)]
    cases hc : cmpUp τ with
    | lt => exact hcont
    | gt =>
      exfalso
      unfold cmpUp at hc
      cases hu : τ.up with
      | none => rw [hu] at hc; cases hc
      | some u =>
        rw [hu] at hc
        have := m.lower_le hu
        simp only [Int.compare_eq_gt] at hc
        omega
    | eq =>
      unfold cmpUp at hc
      cases hu : τ.up with
      | none => rw [hu] at hc; cases hc
      | some u =>
        rw [hu] at hc
        simp only [Int.compare_eq_eq] at hc
        have hfound := (m.st.bnd u hu).1
        simp only [hfound, true_or, decide_true]
        have htodo' : τ.todo = [] := htodo.trans hb.todo
        have hC : ∀ M, Sat (τ.asm.map (fun e => Con.clause [e.1]) ++ τ.cons) M ↔ Sat τ.cons M ∧ ∀ e ∈ τ.asm, (τ.get e.2).assume = true → M.sat e.1 := by
          intro M
          rw [Sat_append]
          constructor
          · rintro ⟨q1, q2⟩
            exact ⟨q2, fun e he _ => clause_sat.1 (q1 _ (List.mem_map_of_mem (f := fun e : Lit × Nat => Con.clause [e.1]) he))⟩
          · rintro ⟨q1, q2⟩
            refine ⟨?_, q1⟩
            intro c hc
            obtain ⟨e, he, rfl⟩ := List.mem_map.1 hc
            obtain ⟨d, hd, _⟩ := m.wf.asm1 e he
            exact clause_sat.2 (q2 e he (by rw [get_of hd]; exact hact d (List.mem_of_getElem? hd)))
        obtain ⟨s1, s2⟩ := settle m htodo' hu hc hC
        have hbt : Btw V (Function.update vl τ.level τ.lower) (τ.level + 1) (fixTight o τ) := by
          rw [fixTight_eq]
          refine ⟨s1, s2, m.wf.n0, ?_, rfl, rfl, htodo', hshr.trans hb.shr⟩
          intro c hc
          simp only [List.mem_append, List.mem_map] at hc
          rcases hc with ⟨e, he, rfl⟩ | hc
          · obtain ⟨d, hd, hdl⟩ := m.wf.asm1 e he
            have := (m.wf.dat _ _ hd).var
            simp only [Con.below, List.mem_singleton, forall_eq]
            rw [← hdl]; exact this
          · exact m.wf.cons c hc
        rw [hlev] at hbt
        have hft := fixTight_eq o τ
        have := ih (k + 1) true true (fixTight o τ) _ (by omega) (by rw [hft]; exact hr') (fun _ => hbt) (fun q => by cases q)
          (fun _ => ⟨hbt.asm, by rw [hft]; simp only [hu]; simp⟩) (fun q => by cases q)
        have e2 : (fixTight o τ).fin = σ.fin ∧ (fixTight o τ).shrink = σ.shrink ∧ (fixTight o τ).todo = σ.todo := by
          rw [hft]; exact ⟨hfin, hshr, htodo⟩
        rw [e2.1, e2.2.1, e2.2.2] at this
        exact this

theorem initLevel_spec {V : Env} {o : Slv} (ho : o.Sound V.F) (p : Opts) {vl} {σ : St} (h : Btw V vl (if σ.init = true then σ.level else σ.level + 1) σ)
    (hk : (if σ.init = true then σ.level else σ.level + 1) ≤ V.pr.max + 1) (h0 : σ.init = true → σ.level ≤ V.pr.max) (h1 : σ.init = false → σ.up ≠ none) (hfin : σ.fin = false) :
    ((initLevel o p V.pr σ).2 = true → (initLevel o p V.pr σ).1.fin = false ∧ (initLevel o p V.pr σ).1.init = false ∧ ∃ vl0, Main V vl0 (initLevel o p V.pr σ).1) ∧
    ((initLevel o p V.pr σ).2 = false → Done V (initLevel o p V.pr σ).1) := by
  have heq : fixLevel o { σ with next := false, disj := false, actW := 1, nextW := 0, ready := false } =
      ({ σ with next := false, disj := false, actW := 1, nextW := 0, ready := false }, !o.bad σ.cons) := by
    have hd := h.dat
    have ha := h.asm
    have ht := h.todo
    have hs := h.shr
    unfold fixLevel
    cases σ
    simp only at hd ha ht hs
    subst hd ha ht hs
    rfl
  unfold initLevel
  rw [heq]
  simp only
  by_cases hb : o.bad σ.cons = true
  · rw [if_pos (by simp [hb])]
    refine ⟨fun q => by simp [hb] at q, fun _ => ?_⟩
    obtain ⟨a, b⟩ := h.bad (ho.bad _ hb)
    exact Done.of_none a b
  rw [if_neg (by simp [hb])]
  have hB : Btw V vl (if σ.init = true then σ.level else σ.level + 1) { σ with next := false, disj := false, actW := 1, nextW := 0, ready := false } :=
    ⟨h.st, h.ext, h.n0, h.cons, h.dat, h.asm, h.todo, h.shr⟩
  have hl := levLoop_spec ho (V.pr.max + 1 - (if σ.init = true then σ.level else σ.level + 1)) (if σ.init = true then σ.level else σ.level + 1) true (!σ.init)
    { σ with next := false, disj := false, actW := 1, nextW := 0, ready := false } vl (by omega) rfl (fun _ => hB)
    (fun q => Or.inr ⟨by
      have hi : σ.init = true := by simpa using q
      rw [if_pos hi]; have := h0 hi; omega, h.asm⟩)
    (fun q => ⟨h.asm, h1 (by simpa using q)⟩) (fun q => by cases q)
  generalize levLoop o V.pr (V.pr.max + 1 - (if σ.init = true then σ.level else σ.level + 1)) (if σ.init = true then σ.level else σ.level + 1) true (!σ.init)
    { σ with next := false, disj := false, actW := 1, nextW := 0, ready := false } = y at hl
  obtain ⟨l1, l2, l3, l4, l5, l6⟩ := hl
  by_cases hy : y.2 = true
  · have hd := l1 hy
    have hd' : ∀ τ : St, τ.up = y.1.up → τ.cons = y.1.cons → Done V τ := by
      intro τ e1 e2
      refine ⟨?_, ?_, ?_, ?_⟩
      · rw [e1]; exact hd.unb
      · rw [e1]; exact hd.bnd
      · rw [e1, e2]; exact hd.enum
      · rw [e2]; exact hd.keep
    split
    · exact ⟨fun q => by simp at q, fun _ => hd' _ rfl rfl⟩
    · rename_i hq
      have hbad : o.bad y.1.cons = true := by
        by_contra hne; exact hq ⟨hy, hne⟩
      exact ⟨fun q => by simp [hbad] at q, fun _ => hd' _ rfl rfl⟩
  · rw [if_neg (fun q => hy q.1)]
    obtain ⟨vl0, m⟩ := l2 (by simpa using hy)
    have htodo : y.1.todo = [] := l6.trans h.todo
    have hshr : y.1.shrink = false := l5.trans h.shr
    have hm : Main V vl0 { y.1 with init := false, disj := p.disjoint, actW := if p.stratify = true then maxWt y.1 else 1 } :=
      Main.mk0 m.st (Wf.cast (m.wf.weaken (fun i q => by have := q.2; simp [tids, htodo] at this)) rfl rfl rfl rfl)
        (by
          have g := m.good
          have : pend y.1 = 0 := by simp [pend, htodo]
          rw [this, neg_zero] at g
          exact g.cast rfl rfl rfl) htodo hshr l4 m.lev
    refine ⟨fun _ => ⟨l3.trans hfin, rfl, vl0, hm⟩, fun q => ?_⟩
    have hbad : o.bad y.1.cons = true := by simpa using q
    exact Done.of_noq m.st (m.good.nosat (ho.bad _ hbad)) rfl

end Clasp.Uncore
