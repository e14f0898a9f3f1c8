/-
Cautious consequences by queries: the assumptions are not changed by the search, and the values reported are bounds.
-/
import Verif.Enum.Query
namespace Clasp.Core
open St

namespace Sys
variable {learn : Bool} {n : Nat} {E : Asg → Prop} {P : Nat → Bool} {x y : Sys}

theorem pop_down {s u : St} {T : Th} (hcl : s.clearStopConflict = u) (hi : u.Inv learn T) (k : Nat) : Down u (s.popRootLevel learn k).1 ∧
    (s.popRootLevel learn k).1.root = u.root - k ∧ (s.popRootLevel learn k).1.dl = u.root - k := by
  obtain ⟨_, p2, _, p4, p5, _⟩ := popRoot_spec (hcl ▸ hi : s.clearStopConflict.Inv learn T) k
  rw [hcl] at p2 p4 p5
  exact ⟨p4, p2, p5⟩

/-- Calls that leave the constraints and the assumptions alone leave the decisions of the root levels alone. -/
theorem Step.keepRoot (hn : n < varMax) (hi : x.Inv learn n E P) (h : Step learn n E P x y) (hiy : y.Inv learn n E P) (h1 : y.orig = x.orig)
    (h2 : y.asm = x.asm) (h3 : y.found = []) (h4 : y.recs = []) (h5 : y.st.root = x.st.root) :
    ∀ i, 1 ≤ i → i ≤ x.st.root → y.st.decision i = x.st.decision i := by
  have hb := hi.ok.inv.base
  have hwf := hb.wf
  have hrd : x.st.root ≤ x.st.dl := Nat.le_trans hwf.rf hwf.fd
  have hrd' : x.st.root ≤ y.st.dl := by
    have := hiy.ok.inv.base.wf
    rw [← h5]; exact Nat.le_trans this.rf this.fd
  have ofKeep : Keep x y → ∀ i, 1 ≤ i → i ≤ x.st.root → y.st.decision i = x.st.decision i := fun k i j1 j2 => k.dec i j1 (by omega)
  cases h with
  | clause C id simp lr implicit hc hf hr hid hv hlen hd =>
    have := congrArg List.length h1
    simp at this
  | implied C id simp shared lr implicit f hc hid hlen hd hF => exact ofKeep ((LStep.implied C id simp shared lr implicit f hc hid hlen hd hF).keep hn hi)
  | propagate fuel d' ok hc h => exact ofKeep ((LStep.propagate fuel d' ok hc h).keep hn hi)
  | force p r hc hr hF htop => exact ofKeep ((LStep.force p r hc hr hF htop).keep hn hi)
  | decide p hc hf hp hv => exact fun i j1 j2 => decide_decision hb.wf p j1 (Nat.le_trans j2 hrd)
  | resolve cfg fuel id shared implicit d' hc hid hep harc hr =>
    have hr0 := hr
    unfold Db.resolve at hr
    split at hr
    · split at hr
      · rename_i g1 g2
        obtain ⟨g2, rfl⟩ := g2
        have hfd := hwf.fd
        obtain ⟨d1, l, N, e1, e2, e3, _⟩ := Db.resolve_learn hi.ok hc (show x.db.st.flip < x.db.st.dl by omega) hi.mode
          (fun q hq hl M m => m.2 q hq hl) (Nat.lt_of_le_of_lt hi.dl_le hn) cfg hep harc hid shared implicit
        have := Db.resolve_mono (k := N) hr0
        rw [e1 _ (by omega)] at this
        simp only [Option.some.injEq, Prod.mk.injEq, and_true] at this
        subst this
        exact fun i j1 j2 => e2.down.dec i j1 (Nat.le_trans j2 hrd')
      · simp only [Option.some.injEq, Prod.mk.injEq] at hr
        obtain ⟨rfl, g2⟩ := hr
        exact fun i j1 j2 => ((backtrack_spec hi.ok.inv (hi.ok.inv.dead hc)).1 g2).2.2.1.dec i j1 (Nat.le_trans j2 hrd')
    · simp at hr
  | undo k =>
    obtain ⟨u1, u2, u3, _⟩ := undo_core (level := k) (s := x.st) hi.ok.inv hwf.rf (Nat.le_refl _) (Nat.le_refl _) hi.ok.inv.mode (Or.inl ⟨rfl, rfl⟩) (Or.inl rfl)
    change St.Inv learn _ (undoFin learn x.st k) at u1
    change x.st.UndoTo (undoFin learn x.st k) _ at u2
    change x.st.Keeps (undoFin learn x.st k) at u3
    have hd := u2.down hb u1.base u3 (undoFin_flp rfl _)
    intro i j1 j2
    have hrd' : x.st.root ≤ (x.st.undoUntil learn k undoDefault).dl := hrd'
    show (x.st.undoUntil learn k undoDefault).decision i = _
    rw [undoDef_eq hi.mode] at hrd' ⊢
    exact hd.dec i j1 (Nat.le_trans j2 hrd')
  | delete id h => exact fun _ _ _ => rfl
  | removeSat id p hi hp ht hl => exact fun _ _ _ => rfl
  | assume p hc hd hf hp hv hfd hr => have := congrArg List.length h2; simp at this
  | assumeTrue p hc hd hp hfd hr => have := congrArg List.length h2; simp at this
  | split hc hd hfd hr => have := congrArg List.length h2; simp at this
  | popRoot k hfd hr =>
    have := pop_down (s := x.st) (u := x.st) (T := x.th E n) (by unfold clearStopConflict; rw [show x.st.stop = none from hi.ok.inv.stop]) hi.ok.inv k
    exact fun i j1 j2 => this.1.dec i j1 (Nat.le_trans j2 hrd')
  | popFail k hfd hr hc hbf =>
    obtain ⟨u, b1, b2, b3, b4, b5, _⟩ := (backtrack_spec hi.ok.inv (hi.ok.inv.dead hc)).2 hbf
    have hrf := b2.base.wf.rf
    have hfu := b2.base.wf.fd
    have := pop_down (s := (x.st.backtrack learn).1) (u := u) (T := x.th E n)
      (by rw [show (x.st.backtrack learn).1 = _ from b1]; exact stop_clear b2.stop b4 hfu hrf) b2 k
    exact fun i j1 j2 => (b3.trans this.1).dec i j1 (Nat.le_trans j2 hrd')
  | modelBt ht hE s' h => simp at h3
  | modelRec ht hE k id lr implicit C hfd hid hu hlen hC => simp at h4

end Sys

namespace Query
open Cons (trueBit estBit isTrue isEst isDef)

/-! ### Values -/

theorem lit_eq {p q : Lit} (hv : p.var = q.var) : p = q ∨ p = q.neg := by
  obtain ⟨v, s⟩ := p
  obtain ⟨w, t⟩ := q
  simp only at hv
  subst hv
  cases s <;> cases t <;> simp [Lit.neg]

theorem neg_ne (p : Lit) : p.neg ≠ p := fun e => by have := congrArg Lit.sign e; simp [Lit.neg] at this

theorem open_est (v : Nat → Nat) (p : Lit) : isOpen v p = isEst (v p.var) p := rfl

theorem bits (p q : Lit) (hv : p.var = q.var) : (isTrue (trueBit q) p = true ↔ p = q) ∧ isEst (trueBit q) p = false ∧
    (isTrue (estBit q ||| trueBit q) p = true ↔ p = q) ∧ (isEst (estBit q ||| trueBit q) p = true ↔ p = q) ∧ isTrue 0 p = false ∧ isEst 0 p = false := by
  have : p = q ↔ p.sign = q.sign := by
    constructor
    · intro h; rw [h]
    · intro h; cases p; cases q; simp_all
  simp only [this]
  unfold Cons.isTrue Cons.isEst trueBit estBit
  cases p.sign <;> cases q.sign <;> decide

variable {A : Asg → Prop} {M0 : Asg}

/-- `p` holds in all models -/
def All (A : Asg → Prop) (p : Lit) : Prop := ∀ M, A M → M.sat p

/-- Proof device: the values are bounds for the consequences among the literals `D`; `K` are the listed open literals, and `M0` is a
model in which everything reported holds. -/
structure Bnd (A : Asg → Prop) (M0 : Asg) (D K : Lit → Prop) (v : Nat → Nat) : Prop where
  ans : A M0
  rep : ∀ p, isTrue (v p.var) p = true → M0.sat p
  lo : ∀ p, D p → All A p → isTrue (v p.var) p = true
  hi : ∀ p, isTrue (v p.var) p = true → isEst (v p.var) p = false → All A p
  cl : ∀ p, isEst (v p.var) p = true → K p

variable {D K : Lit → Prop} {v : Nat → Nat}

theorem Bnd.weaken (h : Bnd A M0 D K v) {D' K' : Lit → Prop} (hD : ∀ p, D' p → D p) (hK : ∀ p, isEst (v p.var) p = true → K p → K' p) : Bnd A M0 D' K' v :=
  ⟨h.ans, h.rep, fun p hp => h.lo p (hD p hp), h.hi, fun p hp => hK p hp (h.cl p hp)⟩

theorem Bnd.fix (h : Bnd A M0 D K v) {q : Lit} (hq : All A q) : Bnd A M0 (fun p => D p ∨ p = q) K (fix v q) := by
  have key : ∀ p : Lit, p.var = q.var → Query.fix v q p.var = trueBit q := fun p hp => by unfold Query.fix; rw [hp, Function.update_self]
  have key' : ∀ p : Lit, p.var ≠ q.var → Query.fix v q p.var = v p.var := fun p hp => by unfold Query.fix; rw [Function.update_of_ne hp]
  refine ⟨h.ans, fun p hp => ?_, fun p hp hA => ?_, fun p h1 h2 => ?_, fun p h1 => ?_⟩ <;> by_cases hv : p.var = q.var
  · rw [key p hv] at hp; rw [(bits p q hv).1.1 hp]; exact hq _ h.ans
  · rw [key' p hv] at hp; exact h.rep p hp
  · rw [key p hv]
    rcases lit_eq hv with rfl | rfl
    · exact (bits _ _ rfl).1.2 rfl
    · exact absurd (hq _ h.ans) ((Asg.sat_neg _ _).1 (hA _ h.ans))
  · rw [key' p hv]
    rcases hp with hp | rfl
    · exact h.lo p hp hA
    · exact absurd rfl hv
  · rw [key p hv] at h1; rw [(bits p q hv).1.1 h1]; exact hq
  · rw [key' p hv] at h1 h2; exact h.hi p h1 h2
  · rw [key p hv, (bits p q hv).2.1] at h1; simp at h1
  · rw [key' p hv] at h1; exact h.cl p h1

theorem Bnd.push (h : Bnd A M0 D K v) {q : Lit} (hq : M0.sat q) : Bnd A M0 (fun p => D p ∨ p = q) (fun p => K p ∨ p = q) (push v q) := by
  have key : ∀ p : Lit, p.var = q.var → Query.push v q p.var = (estBit q ||| trueBit q) := fun p hp => by unfold Query.push; rw [hp, Function.update_self]
  have key' : ∀ p : Lit, p.var ≠ q.var → Query.push v q p.var = v p.var := fun p hp => by unfold Query.push; rw [Function.update_of_ne hp]
  refine ⟨h.ans, fun p hp => ?_, fun p hp hA => ?_, fun p h1 h2 => ?_, fun p h1 => ?_⟩ <;> by_cases hv : p.var = q.var
  · rw [key p hv] at hp; rw [(bits p q hv).2.2.1.1 hp]; exact hq
  · rw [key' p hv] at hp; exact h.rep p hp
  · rw [key p hv]
    rcases lit_eq hv with rfl | rfl
    · exact (bits _ _ rfl).2.2.1.2 rfl
    · exact absurd hq ((Asg.sat_neg _ _).1 (hA _ h.ans))
  · rw [key' p hv]
    rcases hp with hp | rfl
    · exact h.lo p hp hA
    · exact absurd rfl hv
  · rw [key p hv] at h1 h2
    rw [(bits p q hv).2.2.2.1.2 ((bits p q hv).2.2.1.1 h1)] at h2; simp at h2
  · rw [key' p hv] at h1 h2; exact h.hi p h1 h2
  · rw [key p hv] at h1; exact Or.inr ((bits p q hv).2.2.2.1.1 h1)
  · rw [key' p hv] at h1; exact Or.inl (h.cl p h1)

theorem Bnd.pop (h : Bnd A M0 D K v) {q : Lit} (ho : isTrue (v q.var) q = true) (hq : ¬ All A q) : Bnd A M0 D K (pop v q) := by
  have key : ∀ p : Lit, p.var = q.var → Query.pop v q p.var = 0 := fun p hp => by unfold Query.pop; rw [hp, Function.update_self]
  have key' : ∀ p : Lit, p.var ≠ q.var → Query.pop v q p.var = v p.var := fun p hp => by unfold Query.pop; rw [Function.update_of_ne hp]
  refine ⟨h.ans, fun p hp => ?_, fun p hp hA => ?_, fun p h1 h2 => ?_, fun p h1 => ?_⟩ <;> by_cases hv : p.var = q.var
  · rw [key p hv, (bits p q hv).2.2.2.2.1] at hp; simp at hp
  · rw [key' p hv] at hp; exact h.rep p hp
  · rcases lit_eq hv with rfl | rfl
    · exact absurd hA hq
    · exact absurd (h.rep _ ho) ((Asg.sat_neg _ _).1 (hA _ h.ans))
  · rw [key' p hv]; exact h.lo p hp hA
  · rw [key p hv, (bits p q hv).2.2.2.2.1] at h1; simp at h1
  · rw [key' p hv] at h1 h2; exact h.hi p h1 h2
  · rw [key p hv, (bits p q hv).2.2.2.2.2] at h1; simp at h1
  · rw [key' p hv] at h1; exact h.cl p h1

/-- open literals are reported -/
def Rep (v : Nat → Nat) : Prop := ∀ p : Lit, isEst (v p.var) p = true → isTrue (v p.var) p = true

theorem Rep.fix (h : Rep v) (q : Lit) : Rep (fix v q) := by
  intro p hp
  unfold Query.fix at *
  by_cases hv : p.var = q.var
  · rw [hv, Function.update_self, (bits p q hv).2.1] at hp; simp at hp
  · rw [Function.update_of_ne hv] at *; exact h p hp

theorem Rep.push (h : Rep v) (q : Lit) : Rep (push v q) := by
  intro p hp
  unfold Query.push at *
  by_cases hv : p.var = q.var
  · rw [hv, Function.update_self] at hp ⊢
    exact (bits p q hv).2.2.1.2 ((bits p q hv).2.2.2.1.1 hp)
  · rw [Function.update_of_ne hv] at *; exact h p hp

theorem Rep.pop (h : Rep v) (q : Lit) : Rep (pop v q) := by
  intro p hp
  unfold Query.pop at *
  by_cases hv : p.var = q.var
  · rw [hv, Function.update_self, (bits p q hv).2.2.2.2.2] at hp; simp at hp
  · rw [Function.update_of_ne hv] at *; exact h p hp

/-! ### Loops -/

/-- the first model: `M0` is the assignment of `s` -/
theorem init_spec (s : St) (hs : ∀ p, s.isTrue p = true → M0.sat p) (hz : ∀ p, s.isTrue p = true → s.level p.var = 0 → All A p)
    (l : List Lit) (hl : ∀ p ∈ l, s.isTrue p = false → ¬ M0.sat p) : ∀ (v : Nat → Nat) (D K : Lit → Prop), Bnd A M0 D K v → Rep v →
    Bnd A M0 (fun p => D p ∨ p ∈ l) (fun p => K p ∨ p ∈ (initUpper s l v).1) (initUpper s l v).2 ∧ Rep (initUpper s l v).2 ∧
    (∀ p ∈ (initUpper s l v).1, p ∈ l ∧ s.level p.var ≠ 0) ∧ (initUpper s l v).1.length ≤ l.length := by
  induction l with
  | nil => intro v D K h hr; exact ⟨h.weaken (by simp) (fun p _ => Or.inl), hr, by simp [initUpper], by simp [initUpper]⟩
  | cons q r ih =>
    intro v D K h hr
    have ih := ih (fun p hp => hl p (List.mem_cons_of_mem _ hp))
    unfold initUpper
    split
    · rename_i ht
      split
      · rename_i hlev
        obtain ⟨i1, i2, i3, i4⟩ := ih _ _ _ (h.push (hs q ht)) (hr.push q)
        refine ⟨i1.weaken (fun p hp => ?_) (fun p _ hp => ?_), i2, fun p hp => ?_, ?_⟩
        · rcases hp with hp | hp
          · exact Or.inl (Or.inl hp)
          · rcases List.mem_cons.1 hp with rfl | hp
            · exact Or.inl (Or.inr rfl)
            · exact Or.inr hp
        · rcases hp with (hp | rfl) | hp
          · exact Or.inl hp
          · exact Or.inr (List.mem_cons_self ..)
          · exact Or.inr (List.mem_cons_of_mem _ hp)
        · rcases List.mem_cons.1 hp with rfl | hp
          · exact ⟨List.mem_cons_self .., hlev⟩
          · exact ⟨List.mem_cons_of_mem _ (i3 p hp).1, (i3 p hp).2⟩
        · simp; omega
      · rename_i hlev
        obtain ⟨i1, i2, i3, i4⟩ := ih _ _ _ (h.fix (hz q ht (by omega))) (hr.fix q)
        refine ⟨i1.weaken (fun p hp => ?_) (fun p _ hp => hp), i2, fun p hp => ⟨List.mem_cons_of_mem _ (i3 p hp).1, (i3 p hp).2⟩, by simp; omega⟩
        rcases hp with hp | hp
        · exact Or.inl (Or.inl hp)
        · rcases List.mem_cons.1 hp with rfl | hp
          · exact Or.inl (Or.inr rfl)
          · exact Or.inr hp
    · rename_i ht
      obtain ⟨i1, i2, i3, i4⟩ := ih _ _ _ h hr
      refine ⟨⟨i1.ans, i1.rep, fun p hp hA => ?_, i1.hi, i1.cl⟩, i2, fun p hp => ⟨List.mem_cons_of_mem _ (i3 p hp).1, (i3 p hp).2⟩, by simp; omega⟩
      rcases hp with hp | hp
      · exact i1.lo p (Or.inl hp) hA
      · rcases List.mem_cons.1 hp with rfl | hp
        · exact absurd (hA _ h.ans) (hl p (List.mem_cons_self ..) (by simpa using ht))
        · exact i1.lo p (Or.inr hp) hA

/-- a later model -/
theorem upper_spec (s : St) (root : Nat) (hz : ∀ p, s.isTrue p = true → s.level p.var < root → All A p)
    (l : List Lit) (hl : ∀ p ∈ l, s.isTrue p = false → ¬ All A p) : ∀ (v : Nat → Nat) (K : Lit → Prop), Bnd A M0 D (fun p => K p ∨ p ∈ l) v → Rep v →
    Bnd A M0 D (fun p => K p ∨ p ∈ (updateUpper s root l v).1) (updateUpper s root l v).2 ∧ Rep (updateUpper s root l v).2 ∧
    (∀ p ∈ (updateUpper s root l v).1, p ∈ l ∧ isOpen v p = true) ∧ (∀ p, isOpen v p = false → isOpen (updateUpper s root l v).2 p = false) := by
  induction l with
  | nil => intro v K h hr; exact ⟨h, hr, by simp [updateUpper], fun p hp => hp⟩
  | cons q r ih =>
    intro v K h hr
    have ih := ih (fun p hp => hl p (List.mem_cons_of_mem _ hp))
    have drop : ∀ {v'}, Bnd A M0 D (fun p => K p ∨ p ∈ q :: r) v' → isOpen v' q = false → Bnd A M0 D (fun p => K p ∨ p ∈ r) v' := by
      intro v' h' hq
      refine h'.weaken (fun _ h => h) fun p he hp => ?_
      rcases hp with hp | hp
      · exact Or.inl hp
      · rcases List.mem_cons.1 hp with rfl | hp
        · rw [open_est, he] at hq; simp at hq
        · exact Or.inr hp
    have hfixo : isOpen (Query.fix v q) q = false := by unfold isOpen Query.fix; rw [Function.update_self]; exact (bits q q rfl).2.1
    have hpopo : isOpen (Query.pop v q) q = false := by unfold isOpen Query.pop; rw [Function.update_self]; exact (bits q q rfl).2.2.2.2.2
    have sub : ∀ {v'}, v' = Query.fix v q ∨ v' = Query.pop v q → ∀ p, isOpen v p = false → isOpen v' p = false := by
      intro v' hv' p hp
      by_cases hv : p.var = q.var
      · rcases hv' with rfl | rfl
        · unfold isOpen Query.fix; rw [hv, Function.update_self]; exact (bits p q hv).2.1
        · unfold isOpen Query.pop; rw [hv, Function.update_self]; exact (bits p q hv).2.2.2.2.2
      · rcases hv' with rfl | rfl
        · unfold isOpen Query.fix; rw [Function.update_of_ne hv]; exact hp
        · unfold isOpen Query.pop; rw [Function.update_of_ne hv]; exact hp
    have up : ∀ {v'}, v' = Query.fix v q ∨ v' = Query.pop v q → ∀ p, isOpen v' p = true → isOpen v p = true := by
      intro v' hv' p hp
      cases hh : isOpen v p
      · rw [sub hv' p hh] at hp; simp at hp
      · rfl
    unfold updateUpper
    split
    · rename_i ho
      split
      · rename_i ht
        have ht : s.isTrue q = false := by simpa using ht
        obtain ⟨i1, i2, i3, i4⟩ := ih _ _ (drop (h.pop (hr q ho) (hl q (List.mem_cons_self ..) ht)) hpopo) (hr.pop q)
        exact ⟨i1, i2, fun p hp => ⟨List.mem_cons_of_mem _ (i3 p hp).1, up (Or.inr rfl) p (i3 p hp).2⟩, fun p hp => i4 p (sub (Or.inr rfl) p hp)⟩
      · rename_i ht
        have ht : s.isTrue q = true := by simpa using ht
        split
        · rename_i hlev
          obtain ⟨i1, i2, i3, i4⟩ := ih _ _ (drop ((h.fix (hz q ht hlev)).weaken (fun _ h => Or.inl h) (fun _ _ h => h)) hfixo) (hr.fix q)
          exact ⟨i1, i2, fun p hp => ⟨List.mem_cons_of_mem _ (i3 p hp).1, up (Or.inl rfl) p (i3 p hp).2⟩, fun p hp => i4 p (sub (Or.inl rfl) p hp)⟩
        · have h' : Bnd A M0 D (fun p => (K p ∨ p = q) ∨ p ∈ r) v := h.weaken (fun _ h => h) fun p _ hp => by
            rcases hp with hp | hp
            · exact Or.inl (Or.inl hp)
            · rcases List.mem_cons.1 hp with rfl | hp
              · exact Or.inl (Or.inr rfl)
              · exact Or.inr hp
          obtain ⟨i1, i2, i3, i4⟩ := ih v (fun p => K p ∨ p = q) h' hr
          refine ⟨i1.weaken (fun _ h => h) fun p _ hp => ?_, i2, fun p hp => ?_, i4⟩
          · rcases hp with (hp | rfl) | hp
            · exact Or.inl hp
            · exact Or.inr (List.mem_cons_self ..)
            · exact Or.inr (List.mem_cons_of_mem _ hp)
          · rcases List.mem_cons.1 hp with rfl | hp
            · exact ⟨List.mem_cons_self .., ho⟩
            · exact ⟨List.mem_cons_of_mem _ (i3 p hp).1, (i3 p hp).2⟩
    · rename_i ho
      have ho : isOpen v q = false := by simpa using ho
      obtain ⟨i1, i2, i3, i4⟩ := ih _ _ (drop h ho) hr
      exact ⟨i1, i2, fun p hp => ⟨List.mem_cons_of_mem _ (i3 p hp).1, (i3 p hp).2⟩, i4⟩

theorem upper_len (s : St) (root : Nat) (l : List Lit) : ∀ v, (updateUpper s root l v).1.length ≤ l.length ∧
    (∀ q ∈ l, isOpen v q = false → (updateUpper s root l v).1.length < l.length) := by
  induction l with
  | nil => intro v; simp [updateUpper]
  | cons p r ih =>
    intro v
    have sub : ∀ {v'}, v' = Query.fix v p ∨ v' = Query.pop v p → ∀ q, isOpen v q = false → isOpen v' q = false := by
      intro v' hv' q hq
      by_cases hv : q.var = p.var
      · rcases hv' with rfl | rfl
        · unfold isOpen Query.fix; rw [hv, Function.update_self]; exact (bits q p hv).2.1
        · unfold isOpen Query.pop; rw [hv, Function.update_self]; exact (bits q p hv).2.2.2.2.2
      · rcases hv' with rfl | rfl
        · unfold isOpen Query.fix; rw [Function.update_of_ne hv]; exact hq
        · unfold isOpen Query.pop; rw [Function.update_of_ne hv]; exact hq
    unfold updateUpper
    have := (ih (pop v p)).1
    have := (ih (Query.fix v p)).1
    have := (ih v).1
    split
    · rename_i ho
      split
      · exact ⟨by simp; omega, fun q hq hv => by simp; omega⟩
      · split
        · exact ⟨by simp; omega, fun q hq hv => by simp; omega⟩
        · refine ⟨by simp; omega, fun q hq hv => ?_⟩
          rcases List.mem_cons.1 hq with rfl | hq
          · rw [hv] at ho; simp at ho
          · have := (ih v).2 q hq hv
            simp; omega
    · exact ⟨by simp; omega, fun q hq hv => by simp; omega⟩

theorem mem_swap {q : Lit} (r : List Lit) : q ∈ r.getLast?.toList ++ r.dropLast ↔ q ∈ r := by
  rcases List.eq_nil_or_concat r with rfl | ⟨a, b, rfl⟩
  · simp
  · simp [or_comm]

theorem len_swap (r : List Lit) : (r.getLast?.toList ++ r.dropLast).length = r.length := by
  rcases List.eq_nil_or_concat r with rfl | ⟨a, b, rfl⟩
  · simp
  · simp

/-- removing what is not open any more -/
theorem open_spec (s : St) (ht : ∀ p, s.isTrue p = true → All A p) (hf : ∀ p, s.isFalse p = true → ¬ All A p) : ∀ (k : Nat) (front rest : List Lit) (v : Nat → Nat),
    rest.length ≤ k → Bnd A M0 D (fun p => p ∈ front ∨ p ∈ rest) v → Rep v → (∀ p ∈ front, s.value p.var = none ∧ isOpen v p = true) →
    Bnd A M0 D (· ∈ (openLoop s k front rest v).1) (openLoop s k front rest v).2 ∧ Rep (openLoop s k front rest v).2 ∧
    (∀ p ∈ (openLoop s k front rest v).1, s.value p.var = none ∧ isOpen (openLoop s k front rest v).2 p = true ∧ (p ∈ front ∨ p ∈ rest)) ∧
    (openLoop s k front rest v).1.length ≤ front.length + rest.length ∧
    (∀ q ∈ rest, isOpen v q = false → (openLoop s k front rest v).1.length < front.length + rest.length) := by
  intro k
  induction k with
  | zero =>
    intro front rest v hl h hr hfr
    have : rest = [] := List.length_eq_zero_iff.1 (by omega)
    subst this
    unfold openLoop
    refine ⟨by simpa using h, hr, fun p hp => ?_, by simp, by simp⟩
    have hp : p ∈ front := by simpa using hp
    exact ⟨(hfr p hp).1, (hfr p hp).2, Or.inl hp⟩
  | succ k ih =>
    intro front rest v hl h hr hfr
    cases rest with
    | nil => exact ⟨by simpa [openLoop] using h, hr, fun p hp => ⟨(hfr p hp).1, (hfr p hp).2, Or.inl hp⟩, by simp [openLoop], by simp⟩
    | cons q r =>
      unfold openLoop
      split
      · rename_i hc
        simp only [Bool.and_eq_true, beq_iff_eq] at hc
        obtain ⟨i1, i2, i3, i4, i5⟩ := ih (front ++ [q]) r v (by simp at hl; omega) (h.weaken (fun _ h => h) fun p _ hp => by simp at hp ⊢; tauto) hr
          (fun p hp => by
            rcases List.mem_append.1 hp with hp | hp
            · exact hfr p hp
            · rw [List.mem_singleton.1 hp]; exact hc)
        refine ⟨i1, i2, fun p hp => ⟨(i3 p hp).1, (i3 p hp).2.1, by have := (i3 p hp).2.2; simp at this ⊢; tauto⟩, by simp at i4 ⊢; omega, fun p hp ho => ?_⟩
        rcases List.mem_cons.1 hp with rfl | hp
        · rw [hc.2] at ho; simp at ho
        · have := i5 p hp ho
          simp at this ⊢; omega
      · rename_i hc
        generalize hv' : (if s.isTrue q then Query.fix v q else if isOpen v q then Query.pop v q else v) = v'
        have hvq : s.value q.var = none → isOpen v q = false := fun e => by simpa [e] using hc
        -- the value of `q` is removed, other values stay
        have hothers : ∀ p : Lit, p.var ≠ q.var → v' p.var = v p.var := by
          intro p hp
          rw [← hv']
          split
          · unfold Query.fix; rw [Function.update_of_ne hp]
          · split
            · unfold Query.pop; rw [Function.update_of_ne hp]
            · rfl
        have hno : isOpen v' q = false := by
          rw [← hv']
          split
          · unfold isOpen Query.fix; rw [Function.update_self]; exact (bits q q rfl).2.1
          · split
            · unfold isOpen Query.pop; rw [Function.update_self]; exact (bits q q rfl).2.2.2.2.2
            · rename_i h2; simpa using h2
        have hB : Bnd A M0 D (fun p => p ∈ front ∨ p ∈ q :: r) v' ∧ Rep v' := by
          rw [← hv']
          split
          · rename_i h1
            exact ⟨(h.fix (ht q h1)).weaken (fun _ h => Or.inl h) (fun _ _ h => h), hr.fix q⟩
          · rename_i h1
            split
            · rename_i h2
              refine ⟨h.pop (hr q h2) (hf q ?_), hr.pop q⟩
              rcases s.value_cases q with e | e | e
              · rw [hvq e] at h2; simp at h2
              · rw [e] at h1; simp at h1
              · exact e
            · exact ⟨h, hr⟩
        have hsame : ∀ p ∈ front, isOpen v' p = true := by
          intro p hp
          by_cases hv : p.var = q.var
          · have h1 := hvq (hv ▸ (hfr p hp).1)
            have hnt : s.isTrue q = false := by unfold St.isTrue; rw [← hv, (hfr p hp).1]; rfl
            rw [hnt, h1] at hv'
            simp only [Bool.false_eq_true, if_false] at hv'
            rw [← hv']; exact (hfr p hp).2
          · unfold isOpen; rw [hothers p hv]; exact (hfr p hp).2
        obtain ⟨i1, i2, i3, i4, _⟩ := ih front (r.getLast?.toList ++ r.dropLast) v' (by rw [len_swap]; simp at hl; omega)
          (hB.1.weaken (fun _ h => h) fun p he hp => by
            rcases hp with hp | hp
            · exact Or.inl hp
            · rcases List.mem_cons.1 hp with rfl | hp
              · rw [open_est, he] at hno; simp at hno
              · exact Or.inr ((mem_swap r).2 hp)) hB.2 (fun p hp => ⟨(hfr p hp).1, hsame p hp⟩)
        rw [len_swap] at i4
        refine ⟨i1, i2, fun p hp => ⟨(i3 p hp).1, (i3 p hp).2.1, ?_⟩, by simp; omega, fun p hp _ => by simp; omega⟩
        rcases (i3 p hp).2.2 with h | h
        · exact Or.inl h
        · exact Or.inr (List.mem_cons_of_mem _ ((mem_swap r).1 h))

end Query
end Clasp.Core
