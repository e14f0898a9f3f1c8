import Verif.Asp.ShiftRep

/-! What the shifted rules of a disjunction express (C48). No code is modelled in this file; it contains proof devices only. -/

namespace Clasp.Shift
open Clasp.Asp

variable {n : Nat} {K : AtomSet → AtomSet → Prop} {R : List Rule} {e : Env} {Bs : List Body}

/-- Proof device: the same atom or the same component. -/
def Mate (e : Env) (h o : Nat) : Prop := h = o ∨ (e.scc h ≠ noScc ∧ e.scc o = e.scc h)

/-- Proof device: one of the supports holds. -/
def AnyB (Bs : List Body) (X M : AtomSet) : Prop := ∃ B ∈ Bs, B.holds X M = true

/-- Proof device: what the shifted rule for the component of `h` says. -/
def kd (e : Env) (Bs : List Body) (hd : List Nat) (h : Nat) (X M : AtomSet) : Prop :=
  AnyB Bs X M → (∀ o ∈ hd, ¬ Mate e h o → M o = false) → ∃ o ∈ hd, Mate e h o ∧ X o = true

/-- Proof device: the literal for the supports is equivalent to them. -/
def SupOk (n m : Nat) (Bs : List Body) (Q : List Rule) (E : AtomSet → AtomSet → AtomSet) (sup : Sup) : Prop := sup ≠ .fls →
  (∀ l ∈ sup.lits, l.atom < m ∧ (l.neg = true → l.atom < n)) ∧ (∀ X M, (∀ l ∈ sup.lits, l.holds (E X M) M = true) ↔ AnyB Bs X M) ∧
  ∀ X M, Closed Q X M → AnyB Bs X M → ∀ l ∈ sup.lits, l.holds X M = true

theorem Mate.refl {h : Nat} : Mate e h h := .inl rfl

theorem Mate.symm {h o : Nat} (g : Mate e h o) : Mate e o h := by
  rcases g with rfl | ⟨g1, g2⟩
  · exact .inl rfl
  · exact .inr ⟨by rw [g2]; exact g1, g2.symm⟩

theorem Mate.trans {a b c : Nat} (g : Mate e a b) (k : Mate e b c) : Mate e a c := by
  rcases g with rfl | ⟨g1, g2⟩
  · exact k
  · rcases k with rfl | ⟨k1, k2⟩
    · exact .inr ⟨g1, g2⟩
    · exact .inr ⟨g1, k2.trans g2⟩

theorem kd_mate {hd : List Nat} {h p : Nat} (g : Mate e p h) {X M : AtomSet} (hk : kd e Bs hd p X M) : kd e Bs hd h X M := by
  intro h1 h2
  obtain ⟨o, ho, hm, hx⟩ := hk h1 fun o ho hn => h2 o ho fun hm => hn (g.trans hm)
  exact ⟨o, ho, g.symm.trans hm, hx⟩

theorem anyB_below (hB : ∀ B ∈ Bs, ∀ l ∈ B.lits, l.atom < n) {X Y M N : AtomSet} (h1 : ∀ a < n, X a = Y a) (h2 : ∀ a < n, M a = N a) (h : AnyB Bs X M) : AnyB Bs Y N := by
  obtain ⟨B, hb, hh⟩ := h
  exact ⟨B, hb, by rw [← body_below (hB B hb) h1 h2]; exact hh⟩

theorem kd_below (hB : ∀ B ∈ Bs, ∀ l ∈ B.lits, l.atom < n) {hd : List Nat} (hhd : ∀ a ∈ hd, a < n) {h : Nat} {X Y M N : AtomSet} (h1 : ∀ a < n, X a = Y a) (h2 : ∀ a < n, M a = N a)
    (hk : kd e Bs hd h X M) : kd e Bs hd h Y N := by
  intro g1 g2
  obtain ⟨o, ho, hm, hx⟩ := hk (anyB_below hB (fun a ha => (h1 a ha).symm) (fun a ha => (h2 a ha).symm) g1) fun o ho hn => by rw [h2 o (hhd o ho)]; exact g2 o ho hn
  exact ⟨o, ho, hm, by rw [← h1 o (hhd o ho)]; exact hx⟩

theorem mem_shiftAll {lits : List BLit} : ∀ {rest pre : List Nat} {g : Rule}, g ∈ shiftAll lits pre rest →
    ∃ (h : Nat) (os : List Nat), h ∈ rest ∧ g = ⟨.disj [h], .conj (lits ++ os.map fun o => ⟨o, true⟩)⟩ ∧ (∀ o ∈ os, o ∈ pre ++ rest) ∧ ∀ o ∈ pre ++ rest, o = h ∨ o ∈ os
  | [], pre, g, hg => by simp [shiftAll] at hg
  | h :: t, pre, g, hg => by
    rw [shiftAll, List.mem_cons] at hg
    rcases hg with rfl | hg
    · refine ⟨h, pre ++ t, by simp, rfl, fun o ho => by simp only [List.mem_append, List.mem_cons] at *; tauto, fun o ho => ?_⟩
      simp only [List.mem_append, List.mem_cons] at *; tauto
    · obtain ⟨h', os, g1, g2, g3, g4⟩ := mem_shiftAll hg
      refine ⟨h', os, List.mem_cons_of_mem _ g1, g2, fun o ho => ?_, fun o ho => ?_⟩
      · have := g3 o ho
        simp only [List.mem_append, List.mem_cons, List.not_mem_nil, or_false] at *; tauto
      · refine g4 o ?_
        simp only [List.mem_append, List.mem_cons, List.not_mem_nil, or_false] at *; tauto

theorem conj_holds {ls : List BLit} {X M : AtomSet} : (Body.conj ls).holds X M = true ↔ ∀ l ∈ ls, l.holds X M = true := by
  simp [Body.holds]

theorem negs_holds {os : List Nat} {X M : AtomSet} : (∀ l ∈ os.map (fun o => (⟨o, true⟩ : BLit)), l.holds X M = true) ↔ ∀ o ∈ os, M o = false := by
  simp [BLit.holds]

theorem app_holds {ls ks : List BLit} {X M : AtomSet} : (Body.conj (ls ++ ks)).holds X M = true ↔ (∀ l ∈ ls, l.holds X M = true) ∧ ∀ l ∈ ks, l.holds X M = true := by
  rw [conj_holds]
  simp only [List.mem_append]
  exact ⟨fun h => ⟨fun l hl => h l (.inl hl), fun l hl => h l (.inr hl)⟩, fun h l hl => hl.elim (h.1 l) (h.2 l)⟩

section
variable {hd rh rest : List Nat} {h c : Nat} {st : St} {sup : Sup} {E : AtomSet → AtomSet → AtomSet}

theorem SupOk.more {m : Nat} {Q Q' : List Rule} (hs : SupOk n m Bs Q E sup) (h : ∀ r ∈ Q, r ∈ Q') : SupOk n m Bs Q' E sup := fun hne =>
  ⟨(hs hne).1, (hs hne).2.1, fun X M hc => (hs hne).2.2 X M fun r hr => hc r (h r hr)⟩

theorem SupOk.next {m : Nat} {Q Q' : List Rule} {E' : AtomSet → AtomSet → AtomSet} (hs : SupOk n m Bs Q E sup) (h : ∀ r ∈ Q, r ∈ Q') (hE : ∀ X M, ∀ a < m, E' X M a = E X M a) :
    SupOk n (m + 1) Bs Q' E' sup := fun hne => by
  obtain ⟨h1, h2, h3⟩ := hs hne
  refine ⟨fun l hl => ⟨Nat.lt_succ_of_lt (h1 l hl).1, (h1 l hl).2⟩, fun X M => ?_, fun X M hc => h3 X M fun r hr => hc r (h r hr)⟩
  rw [← h2 X M]
  have : ∀ l ∈ sup.lits, l.holds (E' X M) M = l.holds (E X M) M := fun l hl => by
    unfold BLit.holds; rw [hE X M _ (h1 l hl).1]
  exact ⟨fun g l hl => by rw [← this l hl]; exact g l hl, fun g l hl => by rw [this l hl]; exact g l hl⟩

/-- Adding the rule for the component of `h`. -/
theorem emit_rep (hr : Rep n st.next K (R ++ st.rules) st.gammas E) (hs : SupOk n st.next Bs (R ++ st.rules) E sup) (hne : sup ≠ .fls)
    (hB : ∀ B ∈ Bs, ∀ l ∈ B.lits, l.atom < n) (hhd : ∀ a ∈ hd, a < n) (hrh : ∀ o, o ∈ rh ↔ o ∈ hd ∧ Mate e h o) (hrest : ∀ o, o ∈ rest ↔ o ∈ hd ∧ ¬ Mate e h o) :
    ∃ E', Rep n (emit e c rh (sup.lits ++ rest.map fun o => ⟨o, true⟩) st).next (fun X M => K X M ∧ kd e Bs hd h X M)
        (R ++ (emit e c rh (sup.lits ++ rest.map fun o => ⟨o, true⟩) st).rules) (emit e c rh (sup.lits ++ rest.map fun o => ⟨o, true⟩) st).gammas E' ∧
      SupOk n (emit e c rh (sup.lits ++ rest.map fun o => ⟨o, true⟩) st).next Bs (R ++ (emit e c rh (sup.lits ++ rest.map fun o => ⟨o, true⟩) st).rules) E' sup := by
  obtain ⟨s1, s2, s3⟩ := hs hne
  have hn := hr.le
  have hrbl : ∀ l ∈ sup.lits ++ rest.map (fun o => (⟨o, true⟩ : BLit)), l.atom < st.next ∧ (l.neg = true → l.atom < n) := by
    intro l hl
    rcases List.mem_append.1 hl with hl | hl
    · exact s1 l hl
    · obtain ⟨o, ho, rfl⟩ := List.mem_map.1 hl
      have := hhd o ((hrest o).1 ho).1
      exact ⟨by show o < _; omega, fun _ => this⟩
  have hrb : ∀ X M, (Body.conj (sup.lits ++ rest.map fun o => ⟨o, true⟩)).holds (E X M) M = true ↔ AnyB Bs X M ∧ ∀ o ∈ rest, M o = false := fun X M => by
    rw [app_holds, negs_holds, s2]
  have hrhl : ∀ a ∈ rh, a < n := fun a ha => hhd a ((hrh a).1 ha).1
  have r1 : Rep n st.next (fun X M => K X M ∧ kd e Bs hd h X M) (R ++ (st.rules ++ [⟨.disj rh, .conj (sup.lits ++ rest.map fun o => ⟨o, true⟩)⟩])) st.gammas E := by
    rw [← List.append_assoc]
    refine hr.addRule (B := .conj (sup.lits ++ rest.map fun o => (⟨o, true⟩ : BLit))) (fun a ha => by have := hrhl a ha; omega) ⟨fun l hl => (hrbl l hl).1, fun l hl => (hrbl l hl).2⟩ (fun X Y M N e1 e2 => kd_below hB hhd e1 e2) ?_ ?_
    · intro X M _ _ hk hb
      obtain ⟨g1, g2⟩ := (hrb X M).1 hb
      obtain ⟨o, ho, hm, hx⟩ := hk g1 fun o ho hn => g2 o ((hrest o).2 ⟨ho, hn⟩)
      exact ⟨o, (hrh o).2 ⟨ho, hm⟩, by rw [hr.low X M o (hhd o ho)]; exact hx⟩
    · intro X M hc hok g1 g2
      obtain ⟨o, ho, hx⟩ := hok (app_holds.2 ⟨s3 X M hc g1, negs_holds.2 fun o ho => g2 o ((hrest o).1 ho).1 ((hrest o).1 ho).2⟩)
      exact ⟨o, ((hrh o).1 ho).1, ((hrh o).1 ho).2, hx⟩
  have s1' : SupOk n st.next Bs (R ++ (st.rules ++ [⟨.disj rh, .conj (sup.lits ++ rest.map fun o => ⟨o, true⟩)⟩])) E sup :=
    hs.more fun r hr => by rw [← List.append_assoc]; exact List.mem_append_left _ hr
  -- the redundant rules
  have hgam : ∀ X M, Sub X M → kd e Bs hd h X M → AnyB Bs X M → (∀ o ∈ rest, M o = false) → ∀ h' ∈ rh, ∀ os : List Nat, (∀ o ∈ rh, o = h' ∨ o ∈ os) → (∀ o ∈ os, M o = false) → X h' = true := by
    intro X M hs hk g1 g2 h' hh' os hos g3
    obtain ⟨o, ho, hm, hx⟩ := hk g1 fun o ho hn => g2 o ((hrest o).2 ⟨ho, hn⟩)
    rcases hos o ((hrh o).2 ⟨ho, hm⟩) with rfl | h4
    · exact hx
    · have := g3 o h4
      rw [hs o hx] at this; cases this
  by_cases hlen : rh.length ≤ 1
  · refine ⟨E, ?_, ?_⟩ <;> simp only [emit, hlen, if_true]
    · exact r1
    · exact s1'
  · by_cases hng : e.noGamma = true
    · refine ⟨E, ?_, ?_⟩ <;> simp only [emit, hlen, if_false, hng, if_true]
      · exact r1
      · exact s1'
    · by_cases h4 : 4 ≤ (sup.lits ++ rest.map fun o => (⟨o, true⟩ : BLit)).length
      · have r2 := r1.addDef (Bs := [.conj (sup.lits ++ rest.map fun o => ⟨o, true⟩)]) (fun B hB => by
          have : B = .conj (sup.lits ++ rest.map fun o => ⟨o, true⟩) := by simpa using hB
          subst this
          exact ⟨fun l hl => (hrbl l hl).1, fun l hl => (hrbl l hl).2, trivial⟩)
        have r3 := r2.addGamma (G' := shiftAll [⟨st.next, false⟩] [] rh) (fun g hg => by
          obtain ⟨h', os, k1, k2, k3, k4⟩ := mem_shiftAll hg
          simp only [List.nil_append] at k3 k4
          refine ⟨_, _, k2, fun a ha => ?_, fun l hl => ?_, fun l hl hn => ?_⟩
          · have : a = h' := by simpa using ha
            have := hrhl h' k1; omega
          · simp only [Body.lits, List.mem_append, List.mem_singleton, List.mem_map] at hl
            rcases hl with rfl | ⟨o, ho, rfl⟩
            · exact Nat.lt_succ_self _
            · have := hrhl o (k3 o ho); show o < _; omega
          · simp only [Body.lits, List.mem_append, List.mem_singleton, List.mem_map] at hl
            rcases hl with rfl | ⟨o, ho, rfl⟩
            · cases hn
            · exact hrhl o (k3 o ho)) (fun X M hsub hK g hg => by
          obtain ⟨h', os, k1, k2, k3, k4⟩ := mem_shiftAll hg
          simp only [List.nil_append] at k3 k4
          subst k2
          intro hb
          obtain ⟨b1, b2⟩ := app_holds.1 hb
          have b1 := b1 ⟨st.next, false⟩ (by simp)
          have b1 : (Body.conj (sup.lits ++ rest.map fun o => ⟨o, true⟩)).holds (E X M) M = true := by simpa [BLit.holds] using b1
          obtain ⟨g1, g2⟩ := (hrb X M).1 b1
          refine ⟨h', by simp, ?_⟩
          have : h' < n := hrhl h' k1
          show (if h' = st.next then _ else E X M h') = true
          rw [if_neg (by omega), hr.low X M h' this]
          exact hgam X M hsub hK.2 g1 g2 h' k1 os k4 (negs_holds.1 b2))
        refine ⟨fun X M a => if a = st.next then [Body.conj (sup.lits ++ rest.map fun o => ⟨o, true⟩)].any fun B => B.holds (E X M) M else E X M a, ?_, ?_⟩
        · simp only [emit, hlen, if_false, hng, Bool.false_eq_true, h4, if_true]
          simpa only [List.map_cons, List.map_nil, List.append_assoc] using r3
        · simp only [emit, hlen, if_false, hng, Bool.false_eq_true, h4, if_true]
          refine s1'.next (fun r hr => ?_) fun X M a ha => ?_
          · simp only [List.mem_append] at hr ⊢; tauto
          · show (if a = st.next then _ else E X M a) = _
            rw [if_neg (by omega)]
      · refine ⟨E, ?_, ?_⟩ <;> simp only [emit, hlen, if_false, hng, Bool.false_eq_true, h4]
        · refine r1.addGamma (fun g hg => ?_) fun X M hsub hK g hg => ?_
          · obtain ⟨h', os, k1, k2, k3, k4⟩ := mem_shiftAll hg
            simp only [List.nil_append] at k3 k4
            refine ⟨_, _, k2, fun a ha => ?_, fun l hl => ?_, fun l hl hn => ?_⟩
            · have : a = h' := by simpa using ha
              have := hrhl h' k1; omega
            · rw [Body.lits, List.mem_append] at hl
              rcases hl with hl | hl
              · exact (hrbl l hl).1
              · obtain ⟨o, ho, rfl⟩ := List.mem_map.1 hl
                have := hrhl o (k3 o ho); show o < _; omega
            · rw [Body.lits, List.mem_append] at hl
              rcases hl with hl | hl
              · exact (hrbl l hl).2 hn
              · obtain ⟨o, ho, rfl⟩ := List.mem_map.1 hl
                exact hrhl o (k3 o ho)
          · obtain ⟨h', os, k1, k2, k3, k4⟩ := mem_shiftAll hg
            simp only [List.nil_append] at k3 k4
            subst k2
            intro hb
            obtain ⟨b1, b2⟩ := app_holds.1 hb
            obtain ⟨g1, g2⟩ := (hrb X M).1 (conj_holds.2 b1)
            refine ⟨h', by simp, ?_⟩
            rw [hr.low X M h' (hrhl h' k1)]
            exact hgam X M hsub hK.2 g1 g2 h' k1 os k4 (negs_holds.1 b2)
        · exact s1'

/-- The loop over the head. -/
theorem shiftLoop_rep (hne : sup ≠ .fls) (hB : ∀ B ∈ Bs, ∀ l ∈ B.lits, l.atom < n) (hhd : ∀ a ∈ hd, a < n) (hnd : hd.Nodup) :
    ∀ (rest pre : List Nat) (seen : Nat → Bool) (st : St) (K : AtomSet → AtomSet → Prop) (E : AtomSet → AtomSet → AtomSet), hd = pre ++ rest →
    (∀ c, c ≠ noScc → (∃ a ∈ rest, e.scc a = c) → seen c = false → ∃ p ∈ pre, e.scc p = c) →
    (∀ X M, K X M → ∀ p ∈ pre, kd e Bs hd p X M) →
    Rep n st.next K (R ++ st.rules) st.gammas E → SupOk n st.next Bs (R ++ st.rules) E sup →
    ∃ E', Rep n (shiftLoop e sup pre rest seen st).next (fun X M => K X M ∧ ∀ h ∈ rest, kd e Bs hd h X M)
      (R ++ (shiftLoop e sup pre rest seen st).rules) (shiftLoop e sup pre rest seen st).gammas E'
  | [], pre, seen, st, K, E, _, _, _, hr, _ => ⟨E, by
      simp only [shiftLoop]
      exact hr.congrK fun X M => by simp⟩
  | h :: t, pre, seen, st, K, E, he, hseen, hpre, hr, hs => by
    have he' : hd = (pre ++ [h]) ++ t := by rw [he]; simp
    simp only [shiftLoop]
    by_cases hc : e.scc h = noScc ∨ seen (e.scc h) = true
    · rw [if_pos hc, if_neg hne]
      have hnh : h ∉ pre ++ t := by
        rw [he] at hnd
        have := (List.nodup_append.1 hnd)
        intro hm
        rcases List.mem_append.1 hm with hm | hm
        · exact this.2.2 h hm h (by simp) rfl
        · exact (List.nodup_cons.1 this.2.1).1 hm
      have hmem : ∀ o, o ∈ hd ↔ o = h ∨ o ∈ pre ++ t := fun o => by rw [he]; simp only [List.mem_append, List.mem_cons]; tauto
      have hmt : ∀ o, o ≠ h → (Mate e h o ↔ mate e (e.scc h) o = true) := fun o ho => by
        unfold Mate mate
        simp only [Bool.and_eq_true, decide_eq_true_eq, beq_iff_eq]
        constructor
        · rintro (rfl | g)
          · exact absurd rfl ho
          · exact g
        · exact fun g => .inr g
      have hrh : ∀ o, o ∈ h :: (pre ++ t).filter (mate e (e.scc h)) ↔ o ∈ hd ∧ Mate e h o := fun o => by
        rw [List.mem_cons, List.mem_filter, hmem]
        by_cases ho : o = h
        · subst ho; simp [Mate.refl]
        · rw [hmt o ho]; simp [ho]
      have hrest : ∀ o, o ∈ (pre ++ t).filter (fun o => !mate e (e.scc h) o) ↔ o ∈ hd ∧ ¬ Mate e h o := fun o => by
        rw [List.mem_filter, hmem]
        by_cases ho : o = h
        · subst ho; simp [Mate.refl]
          exact fun h1 => absurd (List.mem_append.2 h1) hnh
        · rw [hmt o ho]; simp [ho]
      obtain ⟨E1, r1, s1⟩ := emit_rep (c := e.scc h) (e := e) hr hs hne hB hhd hrh hrest
      obtain ⟨E', r2⟩ := shiftLoop_rep hne hB hhd hnd t (pre ++ [h]) (fun x => if x = e.scc h then false else seen x) _ _ E1 he' (by
        intro c hcn ⟨a, ha, hac⟩ hsn
        by_cases hch : c = e.scc h
        · exact ⟨h, by simp, hch.symm⟩
        · simp only [hch, if_false] at hsn
          obtain ⟨p, hp, hpc⟩ := hseen c hcn ⟨a, List.mem_cons_of_mem _ ha, hac⟩ hsn
          exact ⟨p, List.mem_append_left _ hp, hpc⟩) (by
        intro X M hK p hp
        rcases List.mem_append.1 hp with hp | hp
        · exact hpre X M hK.1 p hp
        · have : p = h := by simpa using hp
          subst this; exact hK.2) r1 s1
      refine ⟨E', r2.congrK fun X M => ?_⟩
      simp only [List.mem_cons, forall_eq_or_imp]
      tauto
    · rw [if_neg hc]
      rw [not_or] at hc
      obtain ⟨p, hp, hpc⟩ := hseen (e.scc h) hc.1 ⟨h, by simp, rfl⟩ (by simpa using hc.2)
      have hkh : ∀ X M, K X M → kd e Bs hd h X M := fun X M hK => kd_mate (.inr ⟨by rw [hpc]; exact hc.1, hpc.symm⟩) (hpre X M hK p hp)
      obtain ⟨E', r2⟩ := shiftLoop_rep hne hB hhd hnd t (pre ++ [h]) seen st K E he' (by
        intro c hcn ⟨a, ha, hac⟩ hsn
        obtain ⟨p, hp, hpc⟩ := hseen c hcn ⟨a, List.mem_cons_of_mem _ ha, hac⟩ hsn
        exact ⟨p, List.mem_append_left _ hp, hpc⟩) (by
        intro X M hK p hp
        rcases List.mem_append.1 hp with hp | hp
        · exact hpre X M hK p hp
        · have : p = h := by simpa using hp
          subst this; exact hkh X M hK) hr hs
      refine ⟨E', r2.congrK fun X M => ?_⟩
      simp only [List.mem_cons, forall_eq_or_imp]
      exact ⟨fun g => ⟨g.1, hkh X M g.1, g.2⟩, fun g => ⟨g.1, g.2.2⟩⟩

theorem shiftLoop_fls : ∀ (rest pre : List Nat) (seen : Nat → Bool) (st : St), shiftLoop e .fls pre rest seen st = st
  | [], _, _, _ => rfl
  | h :: t, pre, seen, st => by
    simp only [shiftLoop]
    split_ifs <;> exact shiftLoop_fls t _ _ st

end

/-! ### Head and supports -/

theorem headLoop_false : ∀ (as hd : List Nat), headLoop e as false hd = (hd, false)
  | [], _ => rfl
  | a :: as, hd => by simp [headLoop, headLoop_false as hd]

theorem headLoop_eq : ∀ (as hd : List Nat), (headLoop e as true hd).2 = as.all (fun a => !e.fact (e.root a)) ∧
    ((headLoop e as true hd).2 = true → (headLoop e as true hd).1 = hd ++ (as.map e.root).filter e.upper)
  | [], hd => by simp [headLoop]
  | a :: as, hd => by
    by_cases hf : e.fact (e.root a) = true
    · simp [headLoop, hf, headLoop_false]
    · by_cases hu : e.upper (e.root a) = true
      · obtain ⟨h1, h2⟩ := headLoop_eq as (hd ++ [e.root a])
        simp only [headLoop, hf, hu, if_true]
        simp only [Bool.not_true, Bool.false_eq_true, if_false, List.all_cons, hf, List.map_cons, List.filter_cons, hu, if_true]
        refine ⟨by rw [h1]; simp, fun h => ?_⟩
        rw [h2 h]; simp
      · obtain ⟨h1, h2⟩ := headLoop_eq as hd
        simp only [headLoop, hf, hu]
        simp only [Bool.not_true, Bool.false_eq_true, if_false, List.all_cons, hf, List.map_cons, List.filter_cons, hu]
        refine ⟨by rw [h1]; simp, fun h => ?_⟩
        rw [h2 h]

/-- Proof device: the bodies of the supports that are used. -/
def Disj.bodies (d : Disj) : List Body := (d.sups.filter (·.live)).map (·.body)

/-- Proof device: the disjunction is not dropped. -/
def Disj.used (e : Env) (d : Disj) : Bool := d.upper && d.atoms.all fun a => !e.fact (e.root a)

/-- Proof device: the head after simplification. -/
def Disj.head (e : Env) (d : Disj) : List Nat := (d.atoms.map e.root).filter e.upper

/-- Proof device: what the rules for a disjunction say. -/
def KD (e : Env) (d : Disj) (X M : AtomSet) : Prop := d.used e = true → ∀ h ∈ d.head e, kd e d.bodies (d.head e) h X M

/-- Specification: a disjunction has atoms and supports of the program; a body with fewer than two goals is a conjunction; equivalent atoms do not occur twice. -/
structure Disj.Ok (e : Env) (n : Nat) (d : Disj) : Prop where
  atoms : ∀ a ∈ d.atoms, e.root a < n
  nodup : (d.atoms.map e.root).Nodup
  sups : ∀ s ∈ d.sups, (∀ l ∈ s.body.lits, l.atom < n) ∧ s.body.nonneg ∧ (s.body.lits.length < 2 → ∃ ls, s.body = .conj ls)

theorem step_rep {d : Disj} (hd : d.Ok e n) {st : St} {E : AtomSet → AtomSet → AtomSet} (hr : Rep n st.next K (R ++ st.rules) st.gammas E) :
    ∃ E', Rep n (step e st d).next (fun X M => K X M ∧ KD e d X M) (R ++ (step e st d).rules) (step e st d).gammas E' := by
  have hbl : ∀ B ∈ d.bodies, (∀ l ∈ B.lits, l.atom < n) ∧ B.nonneg ∧ (B.lits.length < 2 → ∃ ls, B = .conj ls) := fun B hB => by
    obtain ⟨s, hs, rfl⟩ := List.mem_map.1 hB
    exact hd.sups s (List.mem_filter.1 hs).1
  have hlb := hr.le
  have hdx : (headLoop e d.atoms d.upper []).2 = d.used e := by
    unfold Disj.used
    cases hu : d.upper with
    | false => rw [headLoop_false]; rfl
    | true => rw [(headLoop_eq d.atoms []).1]; simp
  have hhd : d.used e = true → (headLoop e d.atoms d.upper []).1 = d.head e := by
    intro h
    unfold Disj.used at h
    rw [Bool.and_eq_true] at h
    rw [h.1]
    have := (headLoop_eq (e := e) d.atoms []).2 (by rw [(headLoop_eq d.atoms []).1]; exact h.2)
    rw [this]; rfl
  by_cases hfl : d.bodies = [] ∨ d.used e = false
  · -- dropped
    refine ⟨E, ?_⟩
    have e1 : step e st d = st := by
      unfold step
      have : eqAtomLit e (headLoop e d.atoms d.upper []).2 d.same ((d.sups.filter (·.live)).map (·.body)) (seen0 e (headLoop e d.atoms d.upper []).1) st = (.fls, st) := by
        unfold eqAtomLit
        rw [if_pos ?_]
        rw [hdx]
        rcases hfl with h | h
        · unfold Disj.bodies at h; simp [h]
        · simp [h]
      simp only [this]
      exact shiftLoop_fls _ _ _ _
    rw [e1]
    refine hr.congrK fun X M => ⟨fun h => ⟨h, fun hu => ?_⟩, fun h => h.1⟩
    rcases hfl with h | h
    · intro o _ ⟨B, hB, _⟩
      rw [h] at hB; cases hB
    · rw [h] at hu; cases hu
  · rw [not_or] at hfl
    obtain ⟨hbn, hu⟩ := hfl
    rw [Bool.not_eq_false] at hu
    have hhead := hhd hu
    have hhdl : ∀ a ∈ d.head e, a < n := fun a ha => by
      obtain ⟨b, hb, rfl⟩ := List.mem_map.1 (List.mem_filter.1 ha).1
      exact hd.atoms b hb
    have hnd : (d.head e).Nodup := hd.nodup.filter _
    have hseen : ∀ c, c ≠ noScc → (∃ a ∈ d.head e, e.scc a = c) → seen0 e (d.head e) c = false → ∃ p ∈ ([] : List Nat), e.scc p = c := by
      rintro c hc ⟨a, ha, hac⟩ hs
      unfold seen0 at hs
      have : (d.head e).any (fun a => e.scc a == c) = true := List.any_eq_true.2 ⟨a, ha, by simp [hac]⟩
      rw [this] at hs
      simp [hc] at hs
    -- the supports
    have key : ∃ E1, Rep n (eqAtomLit e (d.used e) d.same d.bodies (seen0 e (d.head e)) st).2.next K (R ++ (eqAtomLit e (d.used e) d.same d.bodies (seen0 e (d.head e)) st).2.rules)
          (eqAtomLit e (d.used e) d.same d.bodies (seen0 e (d.head e)) st).2.gammas E1 ∧
        SupOk n (eqAtomLit e (d.used e) d.same d.bodies (seen0 e (d.head e)) st).2.next d.bodies (R ++ (eqAtomLit e (d.used e) d.same d.bodies (seen0 e (d.head e)) st).2.rules) E1
          (eqAtomLit e (d.used e) d.same d.bodies (seen0 e (d.head e)) st).1 ∧ (eqAtomLit e (d.used e) d.same d.bodies (seen0 e (d.head e)) st).1 ≠ .fls := by
      unfold eqAtomLit
      rw [if_neg (by simp [hu, hbn])]
      by_cases h1 : d.bodies.length = 1 ∧ (d.bodies.headD (.conj [])).lits.length < 2 ∧ d.same = true
      · rw [if_pos h1]
        obtain ⟨B, hB⟩ := List.length_eq_one_iff.1 h1.1
        have h2 := h1.2.1
        rw [hB, List.headD_cons] at h2
        obtain ⟨bl, bn, bc⟩ := hbl B (by rw [hB]; simp)
        obtain ⟨ls, rfl⟩ := bc h2
        rw [hB]
        simp only [List.headD_cons, Body.lits]
        have hany : ∀ X M, AnyB [.conj ls] X M ↔ ∀ l ∈ ls, l.holds X M = true := fun X M => by
          unfold AnyB
          simp only [List.mem_singleton, exists_eq_left]
          exact conj_holds
        match ls, h2, bl with
        | [], _, _ =>
          refine ⟨E, hr, fun _ => ⟨by simp [Sup.lits], fun X M => ?_, by simp [Sup.lits]⟩, by simp⟩
          rw [hany]; simp [Sup.lits]
        | [l], _, bl =>
          have hl : l.atom < n := bl l (by simp [Body.lits])
          refine ⟨E, hr, fun _ => ⟨fun k hk => ?_, fun X M => ?_, fun X M _ ha => ?_⟩, fun h => by cases h⟩
          · have : k = l := by simpa [Sup.lits] using hk
            subst this
            exact ⟨Nat.lt_of_lt_of_le hl hlb, fun _ => hl⟩
          · rw [hany]
            simp only [Sup.lits, List.mem_singleton, forall_eq]
            unfold BLit.holds
            rw [hr.low X M _ hl]
          · rw [hany] at ha; exact ha
        | _ :: _ :: _, h2, _ => simp [Body.lits] at h2; omega
      · rw [if_neg h1]
        have r1 := hr.addDef (Bs := d.bodies) fun B hB =>
          ⟨fun l hl => Nat.lt_of_lt_of_le ((hbl B hB).1 l hl) hlb, fun l hl _ => (hbl B hB).1 l hl, (hbl B hB).2.1⟩
        refine ⟨_, by simpa only [List.append_assoc] using r1, fun _ => ⟨fun l hl => ?_, fun X M => ?_, fun X M hc ha l hl => ?_⟩, by simp⟩
        · have : l = ⟨st.next, false⟩ := by simpa [Sup.lits] using hl
          subst this
          exact ⟨Nat.lt_succ_self _, fun h => by cases h⟩
        · simp only [Sup.lits, List.mem_singleton, forall_eq]
          unfold BLit.holds
          simp only [Bool.false_eq_true, if_false, if_true, List.any_eq_true]
          unfold AnyB
          constructor <;> rintro ⟨B, hB, hh⟩ <;> refine ⟨B, hB, ?_⟩
          · rw [← body_below (hbl B hB).1 (hr.low X M) fun _ _ => rfl]; exact hh
          · rw [body_below (hbl B hB).1 (hr.low X M) fun _ _ => rfl]; exact hh
        · have : l = ⟨st.next, false⟩ := by simpa [Sup.lits] using hl
          subst this
          obtain ⟨B, hB, hh⟩ := ha
          obtain ⟨a, ha, hx⟩ := hc ⟨.disj [st.next], B⟩ (by simp only [List.mem_append, List.mem_map]; exact .inr (.inr ⟨B, hB, rfl⟩)) hh
          have : a = st.next := by simpa using ha
          subst this
          simpa [BLit.holds] using hx
    obtain ⟨E1, r1, s1, hne⟩ := key
    obtain ⟨E', r2⟩ := shiftLoop_rep (R := R) hne (fun B hB => (hbl B hB).1) hhdl hnd (d.head e) [] (seen0 e (d.head e)) _ K E1 (by simp) hseen (by simp) r1 s1
    refine ⟨E', ?_⟩
    unfold step
    rw [show headLoop e d.atoms d.upper [] = (d.head e, d.used e) from Prod.ext hhead hdx]
    refine r2.congrK fun X M => ?_
    unfold KD
    simp only [hu, forall_const]

theorem foldl_rep : ∀ (ds : List Disj) (st : St) (K : AtomSet → AtomSet → Prop) (E : AtomSet → AtomSet → AtomSet), (∀ d ∈ ds, d.Ok e n) → Rep n st.next K (R ++ st.rules) st.gammas E →
    ∃ E', Rep n (ds.foldl (step e) st).next (fun X M => K X M ∧ ∀ d ∈ ds, KD e d X M) (R ++ (ds.foldl (step e) st).rules) (ds.foldl (step e) st).gammas E'
  | [], st, K, E, _, hr => ⟨E, hr.congrK fun X M => by simp⟩
  | d :: ds, st, K, E, hd, hr => by
    obtain ⟨E1, r1⟩ := step_rep (hd d (by simp)) hr
    obtain ⟨E2, r2⟩ := foldl_rep ds (step e st d) _ E1 (fun d hd' => hd d (List.mem_cons_of_mem _ hd')) r1
    refine ⟨E2, r2.congrK fun X M => ?_⟩
    simp only [List.mem_cons, forall_eq_or_imp]
    tauto

theorem finalize_rep {ds : List Disj} (hR : ∀ r ∈ R, r.below n) (hd : ∀ d ∈ ds, d.Ok e n) :
    ∃ E, Rep n (finalize e n ds).next (fun X M => Closed R X M ∧ ∀ d ∈ ds, KD e d X M) (R ++ (finalize e n ds).rules) (finalize e n ds).gammas E :=
  foldl_rep ds ⟨n, [], [], [], []⟩ _ _ hd (by simpa using Rep.base hR)

end Clasp.Shift
