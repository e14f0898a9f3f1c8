import Verif.Opt.UncoreGrow
/-! Helper lemmas for core-guided optimization: the algorithms `oll` and `pmr`. No code is modelled here. -/

namespace Clasp.Uncore
open Clasp.Core (Lit Asg)

/-- Proof device: some literal of the list is true in all solutions. -/
def Holds (X : Ctx) (σ : St) (ls : List Lit) : Prop := ∀ M, X.F M → Sat σ.cons M → 1 ≤ cnt M ls

theorem addOll_post {X : Ctx} {o : Slv} (ho : o.Sound X.F) {T S : Nat → Prop} {σ : St} {ls : List Lit} {w : Int} {E : Asg → Int} (succ : Bool)
    (hE : Dep σ.n E) (hw : 0 < w) (hne : ls ≠ []) (hl : ∀ p ∈ ls, p.var < σ.n) (W : Wf X.F X.n0 T σ) (hh : Holds X σ ls)
    (g : Good X σ (fun M => E M + w * (cnt M ls - 1))) : Post X T S σ (addOll o succ σ ls w) E := by
  unfold addOll
  have hspec : ∀ M, X.F M → Sat σ.cons M → cnt M (WC.addAll (o.top σ.cons) ⟨2, []⟩ ls).lits - (WC.addAll (o.top σ.cons) ⟨2, []⟩ ls).bound = -2 + cnt M ls := by
    intro M hF hs
    have := WC.addAll_spec ho hF hs ls ⟨2, []⟩
    simpa [cnt] using this
  have hmem : ∀ p ∈ (WC.addAll (o.top σ.cons) ⟨2, []⟩ ls).lits, p.var < σ.n := by
    intro p hp
    rcases WC.addAll_mem hp with h | h
    · simp at h
    · exact hl p h
  generalize WC.addAll (o.top σ.cons) ⟨2, []⟩ ls = c at *
  have g' : Good X σ (fun M => E M + w * surplus M c) := by
    refine g.same W.n0 rfl (fun M hF hs => ?_)
    have h1 := hspec M hF hs
    have h2 := hh M hF hs
    simp only [surplus]
    rw [show max 0 (cnt M c.lits - c.bound + 1) = cnt M ls - 1 by omega]
  by_cases hu : c.unsat = true
  · have hu' := hu
    simp only [WC.unsat, decide_eq_true_eq] at hu'
    have g2 : Good X σ E := by
      refine g'.same W.n0 rfl (fun M hF hs => ?_)
      have h1 := cnt_le M c.lits
      simp only [surplus]
      rw [show max 0 (cnt M c.lits - c.bound + 1) = 0 by omega]; ring
    simp only [hu, not_true, if_false]
    split
    · exact ⟨fun _ => ⟨g2, W, Fr.refl _ _⟩, fun h => by simp at h⟩
    · rename_i hb
      refine fixLit_post ho S g2 W ?_ ?_
      · cases hc : c.lits with
        | nil =>
          cases ls with
          | nil => exact absurd rfl hne
          | cons l ls => simpa using hl l (by simp)
        | cons q qs => simpa using hmem q (by simp [hc])
      · intro M hF _ hs _
        have h1 := hspec M hF hs
        have h2 := hh M hF hs
        have h3 := cnt_le M c.lits
        cases hc : c.lits with
        | nil => rw [hc] at h1 h3; simp [cnt] at h1; omega
        | cons q qs =>
          simp only [List.cons_append, List.headD_cons]
          by_contra hq
          have h4 := cnt_le M qs
          rw [hc] at h1; simp only [cnt, hq, if_false] at h1
          rw [hc] at hu'; simp only [List.length_cons] at hu'; push_cast at hu'
          omega
  · simp only [hu]
    exact addOllCon_post ho succ hE hw hmem W g'

/-! ### Clauses -/

theorem addClauses_spec (o : Slv) (cs : List (List Lit)) (σ : St) :
    ((addClauses o cs σ).2 = true → (addClauses o cs σ).1 = { σ with cons := (cs.map Con.clause).reverse ++ σ.cons }) ∧
    ((addClauses o cs σ).2 = false → ∃ C, o.bad C = true ∧ ∀ c ∈ C, c ∈ cs.map Con.clause ∨ c ∈ σ.cons) := by
  induction cs generalizing σ with
  | nil => simp [addClauses]
  | cons c cs ih =>
    simp only [addClauses]
    cases hb : o.bad (.clause c :: σ.cons) with
    | true =>
      have : (addCon o σ (.clause c)).2 = false := by simp [addCon, hb]
      simp only [this]
      refine ⟨fun h => ?_, fun _ => ⟨_, hb, ?_⟩⟩
      · simp [this] at h
      · intro x hx; simp only [List.mem_cons] at hx; simp; tauto
    | false =>
      have h0 : (addCon o σ (.clause c)) = ({ σ with cons := .clause c :: σ.cons }, true) := by simp [addCon, hb]
      simp only [h0]
      have := ih { σ with cons := .clause c :: σ.cons }
      refine ⟨fun h => ?_, fun h => ?_⟩
      · simp at h
        simp only [not_true, if_false]
        rw [this.1 h]; simp
      · simp at h
        obtain ⟨C, h1, h2⟩ := this.2 h
        refine ⟨C, h1, fun x hx => ?_⟩
        have h3 := h2 x hx
        clear this ih h0 h
        simp only [List.mem_cons, List.map_cons] at h3 ⊢
        tauto

theorem addClauses_append (o : Slv) (cs ds : List (List Lit)) (σ : St) :
    (if ¬ (addClauses o cs σ).2 = true then addClauses o cs σ else addClauses o ds (addClauses o cs σ).1) = addClauses o (cs ++ ds) σ := by
  induction cs generalizing σ with
  | nil => simp [addClauses]
  | cons c cs ih =>
    simp only [addClauses, List.cons_append]
    by_cases h : (addCon o σ (.clause c)).2 = true
    · simp only [h]; simp only [not_true, if_false]; exact ih _
    · simp only [h]; simp; exact fun q => absurd q h

theorem sat_upd {M : Asg} {v : Nat} {P : Prop} [Decidable P] : Asg.sat (Function.update M v (decide P)) ⟨v, false⟩ ↔ P := by
  simp [Asg.sat, Lit.tv]
theorem sat_upd2 {M : Asg} {v u : Nat} {b : Bool} (h : v ≠ u) : Asg.sat (Function.update M u b) ⟨v, false⟩ ↔ M.sat ⟨v, false⟩ := by
  simp [Asg.sat, Function.update_of_ne h]

/-- Proof device: the clauses of `addPmrCon`. -/
def pmrClauses (succ conj : Bool) (h b1 b2 : Lit) : List (List Lit) :=
  let f (p : Lit) : Lit := if conj then p.neg else p
  let cs := [[f h.neg, f b1, f b2], [f h, f b1.neg], [f h, f b2.neg]]
  if ¬ succ then cs else if conj then cs.take 1 else cs.drop 1

theorem addPmrCon_eq (o succ conj σ h b1 b2) : addPmrCon o succ conj σ h b1 b2 = addClauses o (pmrClauses succ conj h b1 b2) σ := rfl

theorem pmr_conj_imp {succ h b1 b2} {M : Asg} (hs : Sat ((pmrClauses succ true h b1 b2).map Con.clause) M) : M.sat b1 → M.sat b2 → M.sat h := by
  intro h1 h2
  cases succ <;> simp [pmrClauses, Sat, Con.sat] at hs <;> tauto

theorem pmr_disj_imp {succ h b1 b2} {M : Asg} (hs : Sat ((pmrClauses succ false h b1 b2).map Con.clause) M) : M.sat b1 ∨ M.sat b2 → M.sat h := by
  intro h1
  cases succ <;> simp [pmrClauses, Sat, Con.sat] at hs <;> tauto

theorem pmr_conj_sat {succ h b1 b2} {M : Asg} (hs : M.sat h ↔ M.sat b1 ∧ M.sat b2) : Sat ((pmrClauses succ true h b1 b2).map Con.clause) M := by
  cases succ <;> simp [pmrClauses, Sat, Con.sat] <;> tauto

theorem pmr_disj_sat {succ h b1 b2} {M : Asg} (hs : M.sat h ↔ M.sat b1 ∨ M.sat b2) : Sat ((pmrClauses succ false h b1 b2).map Con.clause) M := by
  cases succ <;> simp [pmrClauses, Sat, Con.sat] <;> tauto

theorem pmr_below {succ conj : Bool} {h b1 b2 : Lit} {n} (h0 : h.var < n) (h1 : b1.var < n) (h2 : b2.var < n) :
    ∀ c ∈ (pmrClauses succ conj h b1 b2).map Con.clause, Con.below n c := by
  cases succ <;> cases conj <;> simp [pmrClauses, Con.below, h0, h1, h2]

/-- Proof device: a step that adds variables, assumptions without constraints of their own, and clauses. -/
theorem clauses_post {X : Ctx} {o : Slv} (ho : o.Sound X.F) {T S : Nat → Prop} {σ : St} {E E' : Asg → Int} (W : Wf X.F X.n0 T σ) (g : Good X σ E) {k ds nw}
    {cs : List (List Lit)} (hnw : NwOk σ nw)
    (hd : ∀ d ∈ ds, d.lit.var < σ.n + k ∧ 0 < d.weight ∧ d.assume = true ∧ d.core = none)
    (hc : ∀ c ∈ cs.map Con.clause, Con.below (σ.n + k) c)
    (hA : ∀ M, X.F M → Sat σ.cons M → ∃ M', Agr σ.n M M' ∧ Sat (cs.map Con.clause) M' ∧ pot M' ds + E' M' = E M)
    (hB : ∀ M, X.F M → Sat σ.cons M → Sat (cs.map Con.clause) M → E M ≤ pot M ds + E' M) :
    Post X T S σ (addClauses o cs (grow σ k [] ds nw)) E' ∧
    ((addClauses o cs (grow σ k [] ds nw)).2 = true →
      (addClauses o cs (grow σ k [] ds nw)).1.n = σ.n + k ∧
      ∀ M, Sat (addClauses o cs (grow σ k [] ds nw)).1.cons M ↔ Sat (cs.map Con.clause) M ∧ Sat σ.cons M) := by
  have hsp := addClauses_spec o cs (grow σ k [] ds nw)
  have hrev : ∀ M, Sat (cs.map Con.clause).reverse M ↔ Sat (cs.map Con.clause) M := fun M => by simp [Sat]
  have hgr : ({ grow σ k [] ds nw with cons := (cs.map Con.clause).reverse ++ (grow σ k [] ds nw).cons } : St) = grow σ k (cs.map Con.clause).reverse ds nw := by
    simp [grow]
  refine ⟨⟨fun h => ?_, fun h => ?_⟩, fun h => ?_⟩
  · rw [hsp.1 h, hgr]
    refine ⟨g.grow W ?_ ?_, W.grow nw ?_ ?_, Fr.grow _ _ _ _ _ hnw⟩
    · intro M hF hs
      obtain ⟨M', a, s, e⟩ := hA M hF hs
      exact ⟨M', a, (hrev _).2 s, e⟩
    · intro M hF hs hs2
      exact hB M hF hs ((hrev _).1 hs2)
    · intro c h; exact hc c (by simpa using h)
    · intro j d h
      obtain ⟨h1, h2, h3, h4⟩ := hd d (List.mem_of_getElem? h)
      exact ⟨h3, h1, h2.le, fun q => by omega, fun _ => Or.inl h3, fun c q => by rw [h4] at q; cases q⟩
  · obtain ⟨C, h1, h2⟩ := hsp.2 h
    refine NoQ.of_bad (cs := cs.map Con.clause) g W ho ?_ (C := C) ?_ h1
    · intro M hF hs
      obtain ⟨M', a, s, _⟩ := hA M hF hs
      exact ⟨M', a, s⟩
    · intro c hc
      have := h2 c hc
      simpa [grow] using this
  · rw [hsp.1 h, hgr]
    exact ⟨rfl, fun M => by simp only [grow, Sat_append, hrev]⟩

theorem pmrLoop_post {X : Ctx} {o : Slv} (ho : o.Sound X.F) {T S : Nat → Prop} {w : Int} (succ : Bool) (hw : 0 < w) {E : Asg → Int} (rest : List Lit) :
    ∀ (bp : Lit) (σ : St), rest ≠ [] → Dep σ.n E → (∀ p ∈ bp :: rest, p.var < σ.n) → Wf X.F X.n0 T σ → Holds X σ (bp :: rest) →
      Good X σ (fun M => E M + w * (cnt M (bp :: rest) - 1)) → Post X T S σ (pmrLoop o succ w rest bp σ) E := by
  induction rest with
  | nil => intro _ _ h; exact absurd rfl h
  | cons an rest ih =>
    intro bp σ _ hE hl W hh g
    have hn : NwOk σ σ.nextW := ⟨le_refl _, id⟩
    have hb : bp.var < σ.n := hl bp (by simp)
    have ha : an.var < σ.n := hl an (by simp)
    have h0 : newLit σ = (⟨σ.n, false⟩, grow σ 1 [] [] σ.nextW) := by
      have := newLit_grow σ 0 [] [] σ.nextW
      rwa [grow_zero] at this
    cases rest with
    | nil =>
      simp only [pmrLoop, h0]
      obtain ⟨nw, hnw, h1⟩ := newAssumption_grow (k := 1) (cs := []) (ds := []) hn (Lit.neg ⟨σ.n, false⟩) w
      rw [h1, addPmrCon_eq]
      refine (clauses_post ho W g hnw ?_ ?_ ?_ ?_).1
      · simp [hw, Lit.neg]
      · exact pmr_below (by simp) (by omega) (by omega)
      · intro M hF hs
        have hag : Agr σ.n M (Function.update M σ.n (decide (M.sat an ∧ M.sat bp))) := fun v hv => by
          rw [Function.update_of_ne (by omega)]
        refine ⟨_, hag, ?_, ?_⟩
        · apply pmr_conj_sat
          rw [sat_congr hag ha, sat_congr hag hb]
          exact sat_upd
        · rw [hE _ _ hag]
          have := hh M hF hs
          simp only [List.nil_append, pot_single, Dat.pot, viol_neg, cnt] at this ⊢
          simp only [Asg.sat, Lit.tv, Function.update_self]
          simp only [Asg.sat, Lit.tv] at this
          by_cases q1 : M an.var = !an.sign <;> by_cases q2 : M bp.var = !bp.sign <;> simp_all <;> ring
      · intro M hF hs hs2
        have h := pmr_conj_imp hs2
        simp only [List.nil_append, pot_single, Dat.pot, viol_neg, cnt]
        have hh' := hh M hF hs
        simp only [cnt] at hh'
        by_cases q1 : M.sat an <;> by_cases q2 : M.sat bp <;> simp_all
        · linarith
        · split <;> linarith
        · split <;> linarith
    | cons r rs =>
      rw [pmrLoop]
      swap; · simp
      simp only [h0]
      have h0' : newLit (grow σ 1 [] [] σ.nextW) = (⟨σ.n + 1, false⟩, grow σ 2 [] [] σ.nextW) := newLit_grow σ 1 [] [] σ.nextW
      simp only [h0']
      obtain ⟨nw, hnw, h1⟩ := newAssumption_grow (k := 2) (cs := []) (ds := []) hn (Lit.neg ⟨σ.n + 1, false⟩) w
      simp only [h1, addPmrCon_eq]
      have hstep := clauses_post (S := S) ho (E' := fun M => E M + w * (cnt M (⟨σ.n, false⟩ :: r :: rs) - 1)) W g hnw (k := 2)
        (ds := [] ++ [⟨Lit.neg ⟨σ.n + 1, false⟩, w, true, none⟩])
        (cs := pmrClauses succ false ⟨σ.n, false⟩ an bp ++ pmrClauses succ true ⟨σ.n + 1, false⟩ an bp)
        (by simp [hw, Lit.neg]) ?_ ?_ ?_
      · rw [← addClauses_append] at hstep
        generalize hx : addClauses o (pmrClauses succ false ⟨σ.n, false⟩ an bp) (grow σ 2 [] ([] ++ [⟨Lit.neg ⟨σ.n + 1, false⟩, w, true, none⟩]) nw) = x at hstep ⊢
        by_cases hx2 : x.2 = true
        · simp only [hx2, not_true, if_false] at hstep ⊢
          by_cases hy2 : (addClauses o (pmrClauses succ true ⟨σ.n + 1, false⟩ an bp) x.1).2 = true
          · simp only [hy2, not_true, if_false]
            obtain ⟨g1, w1, f1⟩ := hstep.1.1 hy2
            obtain ⟨e1, e2⟩ := hstep.2 hy2
            generalize (addClauses o (pmrClauses succ true ⟨σ.n + 1, false⟩ an bp) x.1).1 = τ at g1 w1 f1 e1 e2
            have := ih ⟨σ.n, false⟩ τ (by simp) (hE.mono (by omega)) ?_ w1 ?_ g1
            · exact ⟨fun h => ⟨(this.1 h).1, (this.1 h).2.1, f1.trans (this.1 h).2.2⟩, this.2⟩
            · intro p hp
              rcases List.mem_cons.1 hp with rfl | hp
              · simp [e1]
              · have := hl p (by simp only [List.mem_cons] at hp ⊢; tauto); omega
            · intro M hF hs
              obtain ⟨s1, s2⟩ := (e2 M).1 hs
              rw [List.map_append, Sat_append] at s1
              have h1 := pmr_disj_imp s1.1
              have h2 := hh M hF s2
              apply cnt_pos
              obtain ⟨p, hp, hp2⟩ := cnt_pos_iff.1 h2
              simp only [List.mem_cons] at hp ⊢
              rcases hp with rfl | rfl | hp
              · exact ⟨_, Or.inl rfl, h1 (Or.inr hp2)⟩
              · exact ⟨_, Or.inl rfl, h1 (Or.inl hp2)⟩
              · exact ⟨p, Or.inr hp, hp2⟩
          · rw [if_pos hy2]
            exact ⟨fun q => absurd q hy2, hstep.1.2⟩
        · rw [if_pos hx2] at hstep
          rw [if_pos hx2]
          exact ⟨fun q => absurd q hx2, hstep.1.2⟩
      · intro c hc
        rw [List.map_append, List.mem_append] at hc
        rcases hc with hc | hc
        · exact pmr_below (by show σ.n < σ.n + 2; omega) (by omega) (by omega) c hc
        · exact pmr_below (by show σ.n + 1 < σ.n + 2; omega) (by omega) (by omega) c hc
      · intro M hF hs
        let M1 : Asg := Function.update (Function.update M σ.n (decide (M.sat an ∨ M.sat bp))) (σ.n + 1) (decide (M.sat an ∧ M.sat bp))
        have hag : Agr σ.n M M1 := fun v hv => by
          simp only [M1]
          rw [Function.update_of_ne (by omega), Function.update_of_ne (by omega)]
        have hm0 : M1.sat ⟨σ.n, false⟩ ↔ M.sat an ∨ M.sat bp := by
          simp only [M1]; rw [sat_upd2 (by omega)]; exact sat_upd
        have hm1 : M1.sat ⟨σ.n + 1, false⟩ ↔ M.sat an ∧ M.sat bp := sat_upd
        refine ⟨M1, hag, ?_, ?_⟩
        · rw [List.map_append, Sat_append]
          refine ⟨pmr_disj_sat ?_, pmr_conj_sat ?_⟩ <;> rw [sat_congr hag ha, sat_congr hag hb]
          · exact hm0
          · exact hm1
        · rw [hE _ _ hag]
          simp only [List.nil_append, pot_single, Dat.pot, viol_neg, cnt, hm0, hm1]
          have : ∀ p ∈ (r :: rs), p.var < σ.n := fun p hp => hl p (by simp only [List.mem_cons] at hp ⊢; tauto)
          have h3 := cnt_congr hag this
          simp only [cnt] at h3
          rw [h3]
          by_cases q1 : M.sat an <;> by_cases q2 : M.sat bp <;> simp [q1, q2] <;> ring
      · intro M hF hs hs2
        rw [List.map_append, Sat_append] at hs2
        have h1 := pmr_disj_imp hs2.1
        have h2 := pmr_conj_imp hs2.2
        simp only [List.nil_append, pot_single, Dat.pot, viol_neg, cnt]
        have key : (if M.sat an then (1 : Int) else 0) + (if M.sat bp then 1 else 0) ≤
            (if M.sat ⟨σ.n + 1, false⟩ then 1 else 0) + (if M.sat ⟨σ.n, false⟩ then 1 else 0) := by
          clear g ih hh hE
          split_ifs <;> first | omega | tauto
        have := mul_le_mul_of_nonneg_left key hw.le
        linarith

theorem cnt_reverse (M) (ls : List Lit) : cnt M ls.reverse = cnt M ls := by
  induction ls with
  | nil => rfl
  | cons p ps ih => simp only [List.reverse_cons, cnt_append, ih, cnt]; ring

theorem addPmr_post {X : Ctx} {o : Slv} (ho : o.Sound X.F) {T S : Nat → Prop} {σ : St} {ls : List Lit} {w : Int} {E : Asg → Int} (succ : Bool)
    (hE : Dep σ.n E) (hw : 0 < w) (hlen : 2 ≤ ls.length) (hl : ∀ p ∈ ls, p.var < σ.n) (W : Wf X.F X.n0 T σ) (hh : Holds X σ ls)
    (g : Good X σ (fun M => E M + w * (cnt M ls - 1))) : Post X T S σ (addPmr o succ σ ls w) E := by
  unfold addPmr
  have hr : ls.reverse.length = ls.length := by simp
  have hc : ∀ M, cnt M ls.reverse = cnt M ls := fun M => cnt_reverse M ls
  have hl' : ∀ p ∈ ls.reverse, p.var < σ.n := fun p hp => hl p (by simpa using hp)
  cases h : ls.reverse with
  | nil => rw [h] at hr; simp at hr; omega
  | cons bp rest =>
    rw [h] at hr hc hl'
    refine pmrLoop_post ho succ hw rest bp σ ?_ hE hl' W ?_ ?_
    · rintro rfl; simp at hr; omega
    · intro M hF hs; rw [hc]; exact hh M hF hs
    · simpa only [hc] using g

end Clasp.Uncore
