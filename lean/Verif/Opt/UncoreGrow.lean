import Verif.Opt.UncoreLem
/-! Helper lemmas for core-guided optimization: new variables, assumptions and constraints. No code is modelled here. -/

namespace Clasp.Uncore
open Clasp.Core (Lit Asg)

/-- Proof device: the pairs of new assumptions. -/
def idx : Nat → List Dat → List (Lit × Nat)
  | _, [] => []
  | i, d :: ds => (d.lit, i) :: idx (i + 1) ds

theorem idx_append (i) (a b : List Dat) : idx i (a ++ b) = idx i a ++ idx (i + a.length) b := by
  induction a generalizing i with
  | nil => simp [idx]
  | cons d ds ih => simp [idx, ih, Nat.add_assoc, Nat.add_comm 1]

theorem mem_idx {i : Nat} {ds : List Dat} {e : Lit × Nat} : e ∈ idx i ds ↔ ∃ j d, ds[j]? = some d ∧ e = (d.lit, i + j) := by
  induction ds generalizing i with
  | nil => simp [idx]
  | cons d ds ih =>
    simp only [idx, List.mem_cons, ih]
    constructor
    · rintro (rfl | ⟨j, d', h, rfl⟩)
      · exact ⟨0, d, by simp⟩
      · exact ⟨j + 1, d', by simpa using h, by simp; omega⟩
    · rintro ⟨j, d', h, rfl⟩
      cases j with
      | zero => simp at h; subst h; exact Or.inl (by simp)
      | succ j => exact Or.inr ⟨j, d', by simpa using h, by simp; omega⟩

/-- Proof device: `k` new variables, new constraints `cs` and new assumptions `ds`. -/
def grow (σ : St) (k : Nat) (cs : List Con) (ds : List Dat) (nw : Int) : St :=
  { σ with n := σ.n + k, cons := cs ++ σ.cons, dat := σ.dat ++ ds, asm := σ.asm ++ idx σ.dat.length ds, nextW := nw }

/-- Proof device: the new value of `nextW_`. -/
def NwOk (σ : St) (nw : Int) : Prop := σ.nextW ≤ nw ∧ (σ.nextW = 0 → nw = 0)

theorem grow_zero (σ : St) : grow σ 0 [] [] σ.nextW = σ := by simp [grow, idx]

theorem newLit_grow (σ k cs ds nw) : newLit (grow σ k cs ds nw) = (⟨σ.n + k, false⟩, grow σ (k + 1) cs ds nw) := by
  simp [newLit, grow, Nat.add_assoc]

theorem newAssumption_grow {σ k cs ds nw} (h : NwOk σ nw) (p : Lit) (w : Int) :
    ∃ nw', NwOk σ nw' ∧ newAssumption (grow σ k cs ds nw) p w = grow σ k cs (ds ++ [⟨p, w, true, none⟩]) nw' := by
  refine ⟨if nw ≠ 0 ∧ w > nw then w else nw, ?_, ?_⟩
  · unfold NwOk at *; split <;> omega
  · simp [newAssumption, grow, idx_append, idx]

theorem addCon_grow (o : Slv) (σ k cs ds nw) (c : Con) :
    addCon o (grow σ k cs ds nw) c = (grow σ k (c :: cs) ds nw, !o.bad (c :: (cs ++ σ.cons))) := by simp [addCon, grow]

theorem val_grow (σ k cs ds nw M) : val (grow σ k cs ds nw) M = val σ M + pot M ds := by
  simp only [val, grow, pot_append]; ring

theorem Sat_append {A B M} : Sat (A ++ B) M ↔ Sat A M ∧ Sat B M := by
  simp only [Sat, List.mem_append, or_imp, forall_and]

theorem Wf.grow {F n0 T σ} (h : Wf F n0 T σ) {k cs ds} (nw) (hc : ∀ c ∈ cs, Con.below (σ.n + k) c)
    (hd : ∀ j d, ds[j]? = some d → d.assume = true ∧ DatOk F (cs ++ σ.cons) (σ.n + k) T (σ.dat.length + j) d) :
    Wf F n0 T (Uncore.grow σ k cs ds nw) where
  n0 := h.n0.trans (by simp [Uncore.grow])
  cons := by
    intro c h1
    rcases List.mem_append.1 h1 with h1 | h1
    · exact hc c h1
    · exact (h.cons c h1).mono (by simp [Uncore.grow])
  dat := by
    intro i d h1
    simp only [Uncore.grow] at h1 ⊢
    by_cases hi : i < σ.dat.length
    · rw [List.getElem?_append_left hi] at h1
      exact (h.dat i d h1).mono (by simp) (fun M hs => (Sat_append.1 hs).2)
    · rw [List.getElem?_append_right (by omega)] at h1
      have := (hd _ d h1).2
      rwa [show σ.dat.length + (i - σ.dat.length) = i by omega] at this
  asm1 := by
    intro e he
    simp only [Uncore.grow] at he ⊢
    rcases List.mem_append.1 he with he | he
    · obtain ⟨d, h1, h2⟩ := h.asm1 e he
      obtain ⟨hi, _⟩ := List.getElem?_eq_some_iff.1 h1
      exact ⟨d, by rw [List.getElem?_append_left hi, h1], h2⟩
    · obtain ⟨j, d, h1, rfl⟩ := mem_idx.1 he
      exact ⟨d, by simp [List.getElem?_append_right, h1], rfl⟩
  asm2 := by
    intro i d h1 ha
    simp only [Uncore.grow] at h1 ⊢
    rw [List.mem_append]
    by_cases hi : i < σ.dat.length
    · rw [List.getElem?_append_left hi] at h1
      exact Or.inl (h.asm2 i d h1 ha)
    · rw [List.getElem?_append_right (by omega)] at h1
      exact Or.inr (mem_idx.2 ⟨_, d, h1, by rw [show σ.dat.length + (i - σ.dat.length) = i by omega]⟩)

theorem Fr.grow (S) (σ : St) (k cs ds) {nw} (hn : NwOk σ nw) : Fr S σ (Uncore.grow σ k cs ds nw) :=
  ⟨by simp [Uncore.grow], fun _ h => by simp [Uncore.grow, h], by simp [Uncore.grow],
    fun i hi _ => by simp [Uncore.grow, List.getElem?_append_left hi], by simp [Uncore.grow], ⟨_, rfl⟩, hn, by simp [Uncore.grow]⟩

theorem Good.grow {X : Ctx} {σ : St} {E E' : Asg → Int} {T} (g : Good X σ E) (w : Wf X.F X.n0 T σ) {k cs ds nw}
    (hA : ∀ M, X.F M → Sat σ.cons M → ∃ M', Agr σ.n M M' ∧ Sat cs M' ∧ pot M' ds + E' M' = E M)
    (hB : ∀ M, X.F M → Sat σ.cons M → Sat cs M → E M ≤ pot M ds + E' M) : Good X (Uncore.grow σ k cs ds nw) E' := by
  refine g.extend w.n0 ?_ ?_
  · intro M hF _ hs _
    obtain ⟨M', a, s, e⟩ := hA M hF hs
    refine ⟨M', a, Sat_append.2 ⟨s, (Sat_congr a w.cons).2 hs⟩, ?_⟩
    rw [val_grow, val_congr w a]; linarith
  · intro M hF hs
    have h1 := Sat_append.1 hs
    have := hB M hF h1.2 h1.1
    rw [val_grow]
    exact ⟨h1.2, by linarith⟩

/-- Proof device: if the new constraints can always be satisfied, no conflict with some of them is possible as long as there are models to be kept. -/
theorem NoQ.of_bad {X : Ctx} {σ : St} {E : Asg → Int} {T} (g : Good X σ E) (w : Wf X.F X.n0 T σ) {cs C : List Con} {o : Slv} (ho : o.Sound X.F)
    (hA : ∀ M, X.F M → Sat σ.cons M → ∃ M', Agr σ.n M M' ∧ Sat cs M')
    (hC : ∀ c ∈ C, c ∈ cs ∨ c ∈ σ.cons) (hb : o.bad C = true) : NoQ X := by
  intro M hF hQ
  obtain ⟨M1, a1, s1, _⟩ := g.A M hF hQ
  have hF1 := (X.hF _ _ a1).2 hF
  obtain ⟨M2, a2, s2⟩ := hA M1 hF1 s1
  refine ho.bad _ hb M2 ((X.hF _ _ (a2.mono w.n0)).2 hF1) (fun c hc => ?_)
  rcases hC c hc with h | h
  · exact s2 c h
  · exact (Sat_congr a2 w.cons).2 s1 c h

/-! ### Cardinality constraints -/

theorem WC.add_spec {F : Asg → Prop} {o : Slv} (ho : o.Sound F) {C : List Con} {M : Asg} (hF : F M) (hs : Sat C M) (c : WC) (p : Lit) :
    cnt M (c.add (o.top C) p).lits - (c.add (o.top C) p).bound = cnt M c.lits - c.bound + cnt M [p] := by
  unfold WC.add
  split
  · rename_i h
    have := ho.top C p h M hF hs
    simp [cnt, this]; ring
  · split
    · rename_i h
      have := ho.top C _ h M hF hs
      rw [Clasp.Core.Asg.sat_neg] at this
      simp [cnt, this]
    · simp [cnt_append]; ring

theorem WC.addAll_spec {F : Asg → Prop} {o : Slv} (ho : o.Sound F) {C : List Con} {M : Asg} (hF : F M) (hs : Sat C M) (ps : List Lit) (c : WC) :
    cnt M (c.addAll (o.top C) ps).lits - (c.addAll (o.top C) ps).bound = cnt M c.lits - c.bound + cnt M ps := by
  induction ps generalizing c with
  | nil => simp [WC.addAll, cnt]
  | cons p ps ih =>
    have h := ih (c.add (o.top C) p)
    simp only [WC.addAll, List.foldl_cons] at h ⊢
    rw [h, WC.add_spec ho hF hs]
    simp only [cnt]; ring

theorem WC.add_mem {t : Lit → Bool} {c : WC} {p q : Lit} (h : q ∈ (c.add t p).lits) : q ∈ c.lits ∨ q = p := by
  unfold WC.add at h
  grind

theorem WC.addAll_mem {t : Lit → Bool} {ps : List Lit} {c : WC} {q : Lit} (h : q ∈ (c.addAll t ps).lits) : q ∈ c.lits ∨ q ∈ ps := by
  induction ps generalizing c with
  | nil => exact Or.inl h
  | cons p ps ih =>
    rcases ih (c := c.add t p) h with h | h
    · rcases WC.add_mem h with h | h
      · exact Or.inl h
      · exact Or.inr (by simp [h])
    · exact Or.inr (by simp [h])

/-- Proof device: the number of new assumptions a cardinality constraint has to violate. -/
def surplus (M : Asg) (c : WC) : Int := max 0 (cnt M c.lits - c.bound + 1)

theorem ollNew_post {X : Ctx} {o : Slv} (ho : o.Sound X.F) {T S : Nat → Prop} {σ : St} {ls : List Lit} {B w : Int} {E : Asg → Int} (succ : Bool)
    (hE : Dep σ.n E) (hw : 0 < w) (hB : 1 ≤ B) (hl : ∀ p ∈ ls, p.var < σ.n) (W : Wf X.F X.n0 T σ)
    (g : Good X σ (fun M => E M + w * max 0 (cnt M ls - B + 1))) : Post X T S σ (ollNew o succ σ ls B w) E := by
  have hn : NwOk σ σ.nextW := ⟨le_refl _, id⟩
  obtain ⟨nw, hnw, h1⟩ := newAssumption_grow (k := 1) (cs := []) (ds := []) hn ⟨σ.n, false⟩ w
  have h2 : newLit σ = (⟨σ.n, false⟩, grow σ 1 [] [] σ.nextW) := by
    have := newLit_grow σ 0 [] [] σ.nextW
    rwa [grow_zero] at this
  generalize ha : (if succ then Con.imp (Lit.neg ⟨σ.n, false⟩) ls B else .iff (Lit.neg ⟨σ.n, false⟩) ls B) = a
  have hsat : ∀ M, a.sat M → (M.sat ⟨σ.n, false⟩ → cnt M ls < B) := by
    intro M h hM
    rw [← ha] at h
    cases succ
    · simp only [Bool.false_eq_true, if_false, Con.sat, Clasp.Core.Asg.sat_neg] at h
      by_contra hc; exact (h.2 (by omega)) hM
    · simp only [if_true, Con.sat, Clasp.Core.Asg.sat_neg] at h
      by_contra hc; exact (h (by omega)) hM
  have hset : ∀ M, (M.sat ⟨σ.n, false⟩ ↔ cnt M ls < B) → a.sat M := by
    intro M h
    rw [← ha]
    cases succ
    · simp only [Bool.false_eq_true, if_false, Con.sat, Clasp.Core.Asg.sat_neg, h]; omega
    · simp only [if_true, Con.sat, Clasp.Core.Asg.sat_neg, h]; omega
  have hbel : Con.below (σ.n + 1) a := by
    have : ∀ p ∈ ls, p.var < σ.n + 1 := fun p hp => by have := hl p hp; omega
    rw [← ha]; cases succ <;> simp [Con.below, Lit.neg] <;> exact this
  -- the model with the new variable
  have hex : ∀ M : Asg, ∃ M', Agr σ.n M M' ∧ (M'.sat ⟨σ.n, false⟩ ↔ cnt M' ls < B) := by
    intro M
    have hag : Agr σ.n M (Function.update M σ.n (decide (cnt M ls < B))) := fun v hv => by
      rw [Function.update_of_ne (by omega)]
    refine ⟨_, hag, ?_⟩
    rw [cnt_congr hag hl]
    simp [Asg.sat, Lit.tv]
  have hpot : ∀ (M : Asg) (co : Option Core), (co = none ∧ B = ls.length ∨ co = some ⟨ls, B, w⟩) →
      pot M [⟨⟨σ.n, false⟩, w, true, co⟩] = w * viol M ⟨σ.n, false⟩ + w * max 0 (cnt M ls - B) := by
    intro M co h
    rw [pot_single]
    rcases h with ⟨rfl, h⟩ | rfl
    · have := cnt_le M ls
      simp [Dat.pot, show max 0 (cnt M ls - B) = 0 by omega]
    · rfl
  have hr : ollNew o succ σ ls B w =
      (grow σ 1 [a] [⟨⟨σ.n, false⟩, w, true, if (!o.bad (a :: σ.cons)) = true ∧ B ≠ ls.length then some ⟨ls, B, w⟩ else none⟩] nw, !o.bad (a :: σ.cons)) := by
    simp only [ollNew, h2, h1, ha, addCon_grow]
    simp [St.put, St.get, grow, idx]
  rw [hr]
  refine ⟨fun hok => ?_, fun hok => ?_⟩
  · simp only at hok
    have hco : (if (!o.bad (a :: σ.cons)) = true ∧ B ≠ ls.length then some (⟨ls, B, w⟩ : Core) else none) = none ∧ B = ls.length ∨
      (if (!o.bad (a :: σ.cons)) = true ∧ B ≠ ls.length then some (⟨ls, B, w⟩ : Core) else none) = some ⟨ls, B, w⟩ := by
      by_cases hb : B = ls.length
      · left; simp [hb]
      · right; rw [if_pos ⟨hok, hb⟩]
    generalize (if (!o.bad (a :: σ.cons)) = true ∧ B ≠ ls.length then some (⟨ls, B, w⟩ : Core) else none) = co at hco
    refine ⟨g.grow W ?_ ?_, W.grow nw ?_ ?_, Fr.grow _ _ _ _ _ hnw⟩
    · intro M _ _
      obtain ⟨M', hag, h⟩ := hex M
      refine ⟨M', hag, by simp [Sat, hset M' h], ?_⟩
      rw [hpot M' co hco, hE _ _ hag, ← cnt_congr hag hl]
      have hv : viol M' ⟨σ.n, false⟩ + max 0 (cnt M' ls - B) = max 0 (cnt M' ls - B + 1) := by
        unfold viol; split
        · rename_i h'; have := h.1 h'; omega
        · rename_i h'; have : ¬ cnt M' ls < B := fun q => h' (h.2 q)
          omega
      rw [← hv]; ring
    · intro M _ _ hs
      have hs' := hsat M (by simpa [Sat] using hs)
      rw [hpot M co hco]
      have hv : max 0 (cnt M ls - B + 1) ≤ viol M ⟨σ.n, false⟩ + max 0 (cnt M ls - B) := by
        unfold viol; split
        · rename_i h'; have := hs' h'; omega
        · omega
      nlinarith
    · simpa using hbel
    · intro j d hd
      rcases j with _ | j
      · simp at hd; subst hd
        refine ⟨rfl, ⟨by simp, hw.le, fun h => by simp at h; omega, fun _ => Or.inl rfl, ?_⟩⟩
        intro c hc
        simp only at hc
        rcases hco with ⟨h, _⟩ | h
        · rw [h] at hc; cases hc
        · rw [h] at hc; cases hc
          exact ⟨fun q hq => by have := hl q hq; show _ < σ.n + 1; omega, hB, hw, fun M _ hs hM => hsat M (by exact hs a (by simp)) hM⟩
      · simp at hd
  · simp only [Bool.not_eq_false'] at hok
    refine NoQ.of_bad (cs := [a]) g W ho ?_ (by simp) hok
    intro M _ _
    obtain ⟨M', hag, h⟩ := hex M
    exact ⟨M', hag, by simp [Sat, hset M' h]⟩

theorem addOllCon_post {X : Ctx} {o : Slv} (ho : o.Sound X.F) {T S : Nat → Prop} {σ : St} {c : WC} {w : Int} {E : Asg → Int} (succ : Bool)
    (hE : Dep σ.n E) (hw : 0 < w) (hl : ∀ p ∈ c.lits, p.var < σ.n) (W : Wf X.F X.n0 T σ)
    (g : Good X σ (fun M => E M + w * surplus M c)) : Post X T S σ (addOllCon o succ σ c w) E := by
  unfold addOllCon ollBound
  by_cases hB : c.bound ≤ 0
  · have W' : Wf X.F X.n0 T { σ with lower := σ.lower + (1 - c.bound) * w } := ⟨W.n0, W.cons, W.dat, W.asm1, W.asm2⟩
    have hlow : σ.lower ≤ σ.lower + (1 - c.bound) * w := by nlinarith
    have hfr : Fr S σ { σ with lower := σ.lower + (1 - c.bound) * w } :=
      ⟨le_refl _, fun _ h => h, le_refl _, fun _ _ _ => rfl, hlow, ⟨[], by simp⟩, ⟨le_refl _, id⟩, by simp⟩
    have g' : Good X { σ with lower := σ.lower + (1 - c.bound) * w } (fun M => E M + w * max 0 (cnt M c.lits - 1 + 1)) := by
      refine g.same W.n0 rfl (fun M _ _ => ?_)
      have := cnt_nonneg M c.lits
      simp only [val, surplus]
      rw [show max 0 (cnt M c.lits - 1 + 1) = cnt M c.lits by omega, show max 0 (cnt M c.lits - c.bound + 1) = cnt M c.lits - c.bound + 1 by omega]
      ring
    simp only [hB, if_true]
    split
    · rename_i h
      refine ⟨fun _ => ⟨g'.same W'.n0 rfl (fun M _ _ => ?_), W', hfr⟩, fun h => by simp at h⟩
      have h1 := cnt_le M c.lits
      have h2 := cnt_nonneg M c.lits
      rw [show max 0 (cnt M c.lits - 1 + 1) = 0 by omega]; ring
    · rename_i h
      have := ollNew_post (S := S) ho succ (by exact hE) hw (le_refl 1) (by exact hl) W' g'
      exact ⟨fun a => ⟨(this.1 a).1, (this.1 a).2.1, hfr.trans (this.1 a).2.2⟩, this.2⟩
  · simp only [hB, if_false]
    split
    · rename_i h
      refine ⟨fun _ => ⟨g.same W.n0 rfl (fun M _ _ => ?_), W, Fr.refl _ _⟩, fun h => by simp at h⟩
      have h1 := cnt_le M c.lits
      unfold surplus
      rw [show max 0 (cnt M c.lits - c.bound + 1) = 0 by omega]; ring
    · rename_i h
      exact ollNew_post ho succ hE hw (by omega) hl W g

end Clasp.Uncore
