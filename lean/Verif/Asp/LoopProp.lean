/- C36: propagation preserves the invariant of loop formulas. No code is modelled in this file. -/
import Verif.Asp.LoopStep
namespace Clasp.Loop
open Core

/-! ### Forcing literals -/

theorem force_spec {w : Wd} (ht : Trl w.tr w.dl w.pend) {p : Lit} (hp : p.var ≠ 0) :
    (force w p).con = w.con ∧ (force w p).dl = w.dl ∧ Trl (force w p).tr (force w p).dl (force w p).pend ∧
    ∃ N, (force w p).tr = N ++ w.tr ∧ (∀ e ∈ N, e.rs = true ∧ e.lev = w.dl ∧ e.lit = p ∧ isFree w.tr p = true) ∧ (∀ q ∈ w.pend, q ∈ (force w p).pend) ∧
      ((∃ e ∈ (force w p).tr, e.lit = p) ∧ (force w p).conf = w.conf ∨ (∃ e ∈ (force w p).tr, e.lit = p.neg) ∧ (force w p).conf = some p) := by
  unfold force
  split
  · rename_i h1
    refine ⟨rfl, rfl, ht, [], rfl, by simp, fun q hq => hq, Or.inl ⟨?_, rfl⟩⟩
    rcases isTrue_iff.1 h1 with h2 | h2
    · rw [h2] at hp; exact absurd rfl hp
    · exact h2
  · rename_i h1
    split
    · rename_i h2
      refine ⟨rfl, rfl, ht, [], rfl, by simp, fun q hq => hq, Or.inr ⟨?_, rfl⟩⟩
      unfold isFalse at h2
      rcases isTrue_iff.1 h2 with h3 | h3
      · have : p.neg.var = 0 := by rw [h3]; rfl
        exact absurd this hp
      · exact h3
    · rename_i h2
      have hf : isFree w.tr p = true := isFree_iff.2 ⟨by simpa using h1, by simpa using h2⟩
      refine ⟨rfl, rfl, ht.push hf true, [⟨p, w.dl, true⟩], rfl, ?_, fun q hq => List.mem_cons_of_mem _ hq, Or.inl ⟨⟨_, List.mem_cons_self .., rfl⟩, rfl⟩⟩
      intro e he
      rw [List.mem_singleton] at he
      subst he
      exact ⟨rfl, rfl, rfl, hf⟩

theorem free_of_app {N tr : List Entry} {p : Lit} (h : isFree (N ++ tr) p = true) : isFree tr p = true := by
  obtain ⟨h1, h2⟩ := isFree_iff.1 h
  refine isFree_iff.2 ⟨?_, ?_⟩
  · rw [← Bool.not_eq_true] at h1 ⊢
    intro h; apply h1
    rcases isTrue_iff.1 h with h | ⟨e, h3, h4⟩
    · exact isTrue_iff.2 (Or.inl h)
    · exact isTrue_iff.2 (Or.inr ⟨e, List.mem_append_right _ h3, h4⟩)
  · rw [← Bool.not_eq_true] at h2 ⊢
    intro h; apply h2
    rcases isTrue_iff.1 h with h | ⟨e, h3, h4⟩
    · exact isTrue_iff.2 (Or.inl h)
    · exact isTrue_iff.2 (Or.inr ⟨e, List.mem_append_right _ h3, h4⟩)

theorem forceAll_spec {ps : List Lit} : ∀ {w : Wd}, Trl w.tr w.dl w.pend → w.conf = none → (∀ p ∈ ps, p.var ≠ 0) →
    (forceAll ps w).con = w.con ∧ (forceAll ps w).dl = w.dl ∧ Trl (forceAll ps w).tr (forceAll ps w).dl (forceAll ps w).pend ∧
    ∃ N, (forceAll ps w).tr = N ++ w.tr ∧ (∀ e ∈ N, e.rs = true ∧ e.lev = w.dl ∧ e.lit ∈ ps ∧ isFree w.tr e.lit = true) ∧ (∀ q ∈ w.pend, q ∈ (forceAll ps w).pend) ∧
      ((forceAll ps w).conf = none → ∀ p ∈ ps, ∃ e ∈ (forceAll ps w).tr, e.lit = p) ∧
      (∀ p, (forceAll ps w).conf = some p → p ∈ ps ∧ ∃ e ∈ (forceAll ps w).tr, e.lit = p.neg) := by
  induction ps with
  | nil =>
    intro w ht hc _
    refine ⟨rfl, rfl, ht, [], rfl, by simp, fun q hq => hq, ?_, ?_⟩
    · intro _ p hp; cases hp
    · intro p hp
      change w.conf = some p at hp
      rw [hc] at hp; cases hp
  | cons p ps ih =>
    intro w ht hc hv
    obtain ⟨a1, a2, a3, N, a4, a5, a6, a7⟩ := force_spec ht (hv p (List.mem_cons_self ..))
    unfold forceAll
    dsimp only
    split
    · rename_i hcs
      refine ⟨a1, a2, a3, N, a4, fun e he => ?_, a6, fun hn => ?_, fun q hq => ?_⟩
      · obtain ⟨b1, b2, b3, b4⟩ := a5 e he
        exact ⟨b1, b2, b3 ▸ List.mem_cons_self .., b3.symm ▸ b4⟩
      · rw [hn] at hcs; cases hcs
      · rcases a7 with ⟨_, k⟩ | ⟨k1, k2⟩
        · rw [k, hc] at hq; cases hq
        · rw [k2] at hq
          cases hq
          exact ⟨List.mem_cons_self .., k1⟩
    · rename_i hcs
      have hcn : (force w p).conf = none := by simpa using hcs
      obtain ⟨b1, b2, b3, N', b4, b5, b6, b7, b8⟩ := ih a3 hcn (fun q hq => hv q (List.mem_cons_of_mem _ hq))
      refine ⟨b1.trans a1, b2.trans a2, b3, N' ++ N, by rw [b4, a4, List.append_assoc], fun e he => ?_, fun q hq => b6 q (a6 q hq), fun hn q hq => ?_, fun q hq => ?_⟩
      · rcases List.mem_append.1 he with he | he
        · obtain ⟨c1, c2, c3, c4⟩ := b5 e he
          exact ⟨c1, c2.trans a2, List.mem_cons_of_mem _ c3, free_of_app (a4 ▸ c4)⟩
        · obtain ⟨c1, c2, c3, c4⟩ := a5 e he
          exact ⟨c1, c2, c3 ▸ List.mem_cons_self .., c3.symm ▸ c4⟩
      · rcases List.mem_cons.1 hq with rfl | hq
        · rcases a7 with ⟨⟨e, k1, k2⟩, _⟩ | ⟨_, k⟩
          · exact ⟨e, by rw [b4]; exact List.mem_append_right _ k1, k2⟩
          · rw [k] at hcn; cases hcn
        · exact b7 hn q hq
      · obtain ⟨c1, c2⟩ := b8 q hq
        exact ⟨List.mem_cons_of_mem _ c1, c2⟩

/-! ### Looking for another watch -/

/-- Specification: positions strictly between `a` and `b` when walking up or down. -/
def Btw (up : Bool) (a b i : Nat) : Prop := if up then a < i ∧ i < b else b < i ∧ i < a

theorem scan_spec {tr : List Entry} {c : Con} {up : Bool} : ∀ {k pos o q o' : Nat}, scan tr c k pos up o = some (q, o') →
    isFalse tr (c.lit q) = false ∧ (c.lit q = litTrue ∨ c.flag q = false) ∧ (if up then pos < q else q < pos) ∧
    (∀ i, Btw up pos q i → isFalse tr (c.lit i) = true ∨ c.flag i = true) ∧
    ((o' = o ∧ ∀ i, Btw up pos q i → isFalse tr (c.lit i) = true) ∨ (Btw up pos q o' ∧ c.flag o' = true ∧ isFalse tr (c.lit o') = false)) ∧
    (∀ i, Btw up pos q i → c.lit i ≠ litTrue ∨ isFalse tr (c.lit i) = true) := by
  intro k
  induction k with
  | zero => intro pos o q o' h; cases h
  | succ k ih =>
    intro pos o q o' h
    unfold scan at h
    split at h
    · cases h
    · rename_i hnz
      dsimp only at h
      generalize hp : (if up then pos + 1 else pos - 1) = p at h
      have hpp : if up then p = pos + 1 else p + 1 = pos := by
        cases up
        · simp only [Bool.false_eq_true, if_false, true_and] at hp hnz ⊢; omega
        · simp only [if_true] at hp ⊢; omega
      have hb : ∀ i q, Btw up pos q i → i = p ∨ Btw up p q i := by
        intro i q hi
        unfold Btw at hi ⊢
        cases up
        · simp only [Bool.false_eq_true, if_false] at hi hpp ⊢; omega
        · simp only [if_true] at hi hpp ⊢; omega
      have hb' : ∀ i q, Btw up p q i → Btw up pos q i := by
        intro i q hi
        unfold Btw at hi ⊢
        cases up
        · simp only [Bool.false_eq_true, if_false] at hi hpp ⊢; omega
        · simp only [if_true] at hi hpp ⊢; omega
      have hbp : ∀ q, (if up then p < q else q < p) → Btw up pos q p := by
        intro q hq
        unfold Btw
        cases up
        · simp only [Bool.false_eq_true, if_false] at hq hpp ⊢; omega
        · simp only [if_true] at hq hpp ⊢; omega
      have hlt : ∀ q, (if up then p < q else q < p) → (if up then pos < q else q < pos) := by
        intro q hq
        cases up
        · simp only [Bool.false_eq_true, if_false] at hq hpp ⊢; omega
        · simp only [if_true] at hq hpp ⊢; omega
      have hself : if up then pos < p else p < pos := by
        cases up
        · simp only [Bool.false_eq_true, if_false] at hpp ⊢; omega
        · simp only [if_true] at hpp ⊢; omega
      have hnone : ∀ i, ¬ Btw up pos p i := by
        intro i hi
        unfold Btw at hi
        cases up
        · simp only [Bool.false_eq_true, if_false] at hi hpp; omega
        · simp only [if_true] at hi hpp; omega
      split at h
      · rename_i hf
        obtain ⟨b1, b2, b3, b4, b5, b6⟩ := ih h
        refine ⟨b1, b2, hlt _ b3, fun i hi => ?_, ?_, fun i hi => ?_⟩
        · rcases hb i q hi with rfl | hi
          · exact Or.inl hf
          · exact b4 i hi
        · rcases b5 with ⟨b5, b5'⟩ | ⟨b5, b5'⟩
          · refine Or.inl ⟨b5, fun i hi => ?_⟩
            rcases hb i q hi with rfl | hi
            · exact hf
            · exact b5' i hi
          · exact Or.inr ⟨hb' _ _ b5, b5'⟩
        · rcases hb i q hi with rfl | hi
          · exact Or.inr hf
          · exact b6 i hi
      · rename_i hf
        have hf : isFalse tr (c.lit p) = false := by simpa using hf
        split at h
        · rename_i hs
          cases h
          exact ⟨hf, Or.inl hs, hself, fun i hi => (hnone i hi).elim, Or.inl ⟨rfl, fun i hi => (hnone i hi).elim⟩, fun i hi => (hnone i hi).elim⟩
        · rename_i hs
          split at h
          · rename_i hfl
            obtain ⟨b1, b2, b3, b4, b5, b6⟩ := ih h
            refine ⟨b1, b2, hlt _ b3, fun i hi => ?_, ?_, fun i hi => ?_⟩
            · rcases hb i q hi with rfl | hi
              · exact Or.inr hfl
              · exact b4 i hi
            · right
              rcases b5 with ⟨b5, b5'⟩ | ⟨b5, b5'⟩
              · subst b5; exact ⟨hbp _ b3, hfl, hf⟩
              · exact ⟨hb' _ _ b5, b5'⟩
            · rcases hb i q hi with rfl | hi
              · exact Or.inl hs
              · exact b6 i hi
          · rename_i hfl
            cases h
            exact ⟨hf, Or.inr (by simpa using hfl), hself, fun i hi => (hnone i hi).elim, Or.inl ⟨rfl, fun i hi => (hnone i hi).elim⟩, fun i hi => (hnone i hi).elim⟩

theorem not_false_true {tr : List Entry} {dl : Nat} {pd : List Lit} (ht : Trl tr dl pd) : isFalse tr litTrue = false := by
  rw [← Bool.not_eq_true]
  unfold isFalse
  rw [isTrue_iff]
  rintro (h | ⟨e, h1, h2⟩)
  · exact absurd h (by decide)
  · exact ht.var0 h1 (by rw [h2]; rfl)

/-- the walk ends at a sentinel at the latest -/
theorem scan_some {tr : List Entry} {c : Con} {dl : Nat} {pd : List Lit} (ht : Trl tr dl pd) {up : Bool} {z : Nat} (hz : c.lit z = litTrue) :
    ∀ {k pos o : Nat}, (if up then pos < z ∧ z - pos ≤ k else z < pos ∧ pos - z ≤ k) → ∃ r, scan tr c k pos up o = some r := by
  have hnf := not_false_true ht
  intro k
  induction k with
  | zero =>
    intro pos o h
    cases up
    · simp only [Bool.false_eq_true, if_false] at h; omega
    · simp only [if_true] at h; omega
  | succ k ih =>
    intro pos o h
    unfold scan
    rw [if_neg (by rintro ⟨rfl, rfl⟩; simp only [Bool.false_eq_true, if_false] at h; omega)]
    dsimp only
    generalize hp : (if up then pos + 1 else pos - 1) = p
    have hne : p = z ∨ (if up then p < z ∧ z - p ≤ k else z < p ∧ p - z ≤ k) := by
      cases up
      · simp only [Bool.false_eq_true, if_false] at h hp ⊢; omega
      · simp only [if_true] at h hp ⊢; omega
    rcases hne with rfl | hne
    · rw [hz, hnf, if_neg (by decide), if_pos rfl]; exact ⟨_, rfl⟩
    · split
      · exact ih hne
      · split
        · exact ⟨_, rfl⟩
        · split
          · exact ih hne
          · exact ⟨_, rfl⟩

/-! ### The loop of `propagate` -/

/-- a notification has been dealt with -/
theorem Inv.drop {w : Wd} (h : Inv w) {p : Lit} {pd : List Lit} (hpd : ∀ q ∈ w.pend, q = p ∨ q ∈ pd) (hpd' : ∀ q ∈ pd, q ∈ w.pend)
    (hd : w.conf = none → (∀ i, 1 ≤ i → i < w.con.fin → w.con.flag i = true → (w.con.lit i).neg = p → Sat w.con w.tr w.dl ∨ SatA w.con w.tr w.dl) ∧
      (w.con.xPos = 1 → p.neg ∈ w.con.xs → Sat w.con w.tr w.dl ∨ At w.tr (w.con.lit 1).neg w.dl)) : Inv { w with pend := pd } := by
  refine ⟨h.lay, h.flags, h.wat, ⟨h.trl.vars, h.trl.lev, h.trl.ord, fun q hq => h.trl.pend q (hpd' q hq)⟩, h.oth, ?_, ?_, h.r, h.c⟩
  · intro i a1 a2 a3 l hl
    rcases h.p i a1 a2 a3 l hl with h1 | h1 | h1 | h1
    · have hl' := h.trl.level h1 hl
      rcases hpd _ h1 with h2 | h2
      · by_cases hc : w.conf = none
        · rcases (hd hc).1 i a1 a2 a3 h2 with k | k
          · exact Or.inr (Or.inl (k.mono hl'))
          · exact Or.inr (Or.inr (Or.inl (k.mono hl')))
        · exact Or.inr (Or.inr (Or.inr ⟨by cases hcc : w.conf with | none => exact absurd hcc hc | some _ => simp, hl'⟩))
      · exact Or.inl h2
    · exact Or.inr (Or.inl h1)
    · exact Or.inr (Or.inr (Or.inl h1))
    · exact Or.inr (Or.inr (Or.inr h1))
  · intro hx a ha l hl
    rcases h.q hx a ha l hl with h1 | h1 | h1 | h1
    · have hl' := h.trl.level h1 hl
      rcases hpd _ h1 with h2 | h2
      · by_cases hc : w.conf = none
        · rcases (hd hc).2 hx (by rw [← h2, neg_neg']; exact ha) with k | k
          · exact Or.inr (Or.inl (k.mono hl'))
          · exact Or.inr (Or.inr (Or.inl (k.mono hl')))
        · exact Or.inr (Or.inr (Or.inr ⟨by cases hcc : w.conf with | none => exact absurd hcc hc | some _ => simp, hl'⟩))
      · exact Or.inl h2
    · exact Or.inr (Or.inl h1)
    · exact Or.inr (Or.inr (Or.inl h1))
    · exact Or.inr (Or.inr (Or.inr h1))

/-- Proof device: the state while the notification of `e` is processed. -/
def Busy (w : Wd) (e : Watch) : Wd := { w with pend := e.lit.neg :: w.pend, con := { w.con with wat := e :: w.con.wat } }

theorem app_split {α : Type} {N tr pre post : List α} {e : α} (h : N ++ tr = pre ++ e :: post) (he : e ∉ tr) : ∃ x, post = x ++ tr ∧ e ∈ N := by
  induction N generalizing pre with
  | nil =>
    exact absurd (by rw [List.nil_append] at h; rw [h]; simp) he
  | cons a N ih =>
    cases pre with
    | nil =>
      obtain ⟨h1, h2⟩ := List.cons.inj h
      exact ⟨N, h2.symm, h1 ▸ List.mem_cons_self ..⟩
    | cons b pre =>
      obtain ⟨x, h1, h2⟩ := ih (List.cons.inj h).2
      exact ⟨x, h1, List.mem_cons_of_mem _ h2⟩

theorem unit_eq {w : Wd} {e : Watch} {o : Nat} {up : Bool} :
    (unit w e o up).1 = forceAll (w.con.lit o :: if o = w.con.xPos then w.con.xs else []) { w with con := { w.con with other := o } } := by
  unfold unit
  dsimp only
  conv_rhs => unfold forceAll
  dsimp only
  generalize hv : force { w with con := { w.con with other := o } } (w.con.lit o) = v
  by_cases hn : v.conf = none
  · rw [hn]
    simp only [Option.isSome_none, Bool.false_eq_true, if_false, and_true]
    split
    · rfl
    · rfl
  · have : v.conf.isSome = true := by
      cases hcc : v.conf with
      | none => exact absurd hcc hn
      | some _ => rfl
    rw [this, if_pos rfl, if_neg (fun h => hn h.2)]

theorem unit_inv {w : Wd} {e : Watch} {o : Nat} {up : Bool} (h : Inv (Busy w e)) (hc : w.conf = none) (hr : ∀ f ∈ w.tr, f.rs = false)
    (ho : 1 ≤ o ∧ o < w.con.fin) (ha : ∀ i, 1 ≤ i → i < w.con.fin → i ≠ o → isFalse w.tr (w.con.lit i) = true) :
    Inv (rewatch (unit w e o up)) := by
  have hlay : Lay w.con := ⟨h.lay.s0, h.lay.s1, h.lay.x, h.lay.size, h.lay.bvar, h.lay.xvar, h.lay.binj, h.lay.ab, h.lay.ai, h.lay.slot, h.lay.none⟩
  have htl : Trl w.tr w.dl w.pend := ⟨h.trl.vars, h.trl.lev, h.trl.ord, fun q hq => h.trl.pend q (List.mem_cons_of_mem _ hq)⟩
  have hp0 : ∃ f ∈ w.tr, f.lit = e.lit.neg ∧ f.lev = w.dl := h.trl.pend _ (List.mem_cons_self ..)
  have hop : w.con.lit o ∈ w.con.bodies ∧ o ≠ w.con.xPos ∨ o = w.con.xPos ∧ w.con.xPos = 1 ∧ w.con.lit o ∈ w.con.xs := by
    by_cases hx : o = w.con.xPos
    · have h1 : w.con.xPos = 1 := by rcases hlay.x with k | k <;> omega
      exact Or.inr ⟨hx, h1, by rw [hx, h1]; exact hlay.slot h1⟩
    · left
      refine ⟨mem_bodies.2 ⟨o, ?_, ho.2, rfl⟩, hx⟩
      rcases hlay.x with k | k <;> omega
  generalize hps : (w.con.lit o :: if o = w.con.xPos then w.con.xs else []) = ps
  have hpv : ∀ p ∈ ps, p.var ≠ 0 := by
    intro p hp
    rw [← hps] at hp
    rcases List.mem_cons.1 hp with rfl | hp
    · exact hlay.avar ho.1 ho.2
    · split at hp
      · exact hlay.xvar p hp
      · cases hp
  have hpx : ∀ p ∈ ps, (p = w.con.lit o ∧ o ≠ w.con.xPos) ∨ (p ∈ w.con.xs ∧ o = w.con.xPos ∧ w.con.xPos = 1) := by
    intro p hp
    rw [← hps] at hp
    rcases List.mem_cons.1 hp with rfl | hp
    · rcases hop with ⟨_, k⟩ | ⟨k1, k2, k3⟩
      · exact Or.inl ⟨rfl, k⟩
      · exact Or.inr ⟨k3, k1, k2⟩
    · split at hp
      · rename_i hx
        have h1 : w.con.xPos = 1 := by rcases hlay.x with k | k <;> omega
        exact Or.inr ⟨hp, hx, h1⟩
      · cases hp
  obtain ⟨a1, a2, a3, N, a4, a5, a6, a7, a8⟩ := forceAll_spec (ps := ps) (w := { w with con := { w.con with other := o } }) htl hc hpv
  have hue : (unit w e o up).1 = forceAll ps { w with con := { w.con with other := o } } := by rw [unit_eq, hps]
  generalize hv : forceAll ps { w with con := { w.con with other := o } } = v at *
  have hres : rewatch (unit w e o up) = { v with con := { v.con with wat := { e with up := up } :: v.con.wat } } := by
    have : unit w e o up = (v, some { e with up := up }) := Prod.ext hue rfl
    rw [this]; rfl
  rw [hres]
  change v.con = { w.con with other := o } at a1
  change v.tr = N ++ w.tr at a4
  change v.dl = w.dl at a2
  change ∀ e ∈ N, e.rs = true ∧ e.lev = w.dl ∧ e.lit ∈ ps ∧ isFree w.tr e.lit = true at a5
  change ∀ q ∈ w.pend, q ∈ v.pend at a6
  have hnew : ∀ f ∈ N, ∀ x : Lit, (x ∈ w.con.xs ∨ x ∈ w.con.bodies) → f.lit ≠ x.neg := by
    intro f hf x hx he
    have h3 := (a5 f hf).2.2.1
    rw [he] at h3
    rcases hpx _ h3 with ⟨k1, k2⟩ | ⟨k1, k2, k3⟩
    · have hb := hop.resolve_right (fun k => k2 k.1)
      rcases hx with hx | hx
      · exact hlay.ab x hx _ hb.1 (by rw [← k1]; rfl)
      · obtain ⟨i, i1, i2, rfl⟩ := mem_bodies.1 hx
        have := hlay.inj (i := i) (j := o) (by omega) i2 ho.1 ho.2 (by rw [← k1]; rfl)
        subst this
        exact neg_ne _ k1.symm
    · rcases hx with hx | hx
      · have := hlay.ai _ k1 x hx rfl
        exact neg_ne _ this.symm
      · exact hlay.ab _ k1 x hx rfl
  have hold : ∀ x : Lit, (x ∈ w.con.xs ∨ x ∈ w.con.bodies) → ∀ l, At v.tr x.neg l → At w.tr x.neg l := by
    rintro x hx l ⟨f, f1, f2, f3⟩
    rw [a4] at f1
    rcases List.mem_append.1 f1 with f1 | f1
    · exact (hnew f f1 x hx f2).elim
    · exact ⟨f, f1, f2, f3⟩
  have hfalse : ∀ i, 1 ≤ i → i < w.con.fin → i ≠ o → ∃ f ∈ w.tr, f.lit = (w.con.lit i).neg := by
    intro i i1 i2 i3
    obtain ⟨f, f1, f2, _⟩ := (isFalse_at htl (hlay.avar i1 i2)).1 (ha i i1 i2 i3)
    exact ⟨f, f1, f2⟩
  have hbod : o = w.con.xPos → ∀ b ∈ w.con.bodies, ∃ f ∈ w.tr, f.lit = b.neg := by
    intro hx b hb
    obtain ⟨i, i1, i2, rfl⟩ := mem_bodies.1 hb
    exact hfalse i (by omega) i2 (by omega)
  have hmid : ∀ i, 1 ≤ i → i < w.con.fin → w.con.lit i ∈ w.con.xs ∨ w.con.lit i ∈ w.con.bodies := by
    intro i i1 i2
    by_cases hx : 1 + w.con.xPos ≤ i
    · exact Or.inr (mem_bodies.2 ⟨i, hx, i2, rfl⟩)
    · have hx1 : w.con.xPos = 1 := by rcases hlay.x with k | k <;> omega
      have : i = 1 := by omega
      subst this
      exact Or.inl (hlay.slot hx1)
  have hwhy : ∀ q ∈ ps, ∀ (tr' post : List Entry) (l : Nat) (ex : Prop), (∀ f ∈ w.tr, f ∈ post) → ((∀ a ∈ w.con.xs, At tr' a l) ∨ ex ∨ o ≠ w.con.xPos) →
      Why { w.con with other := o } tr' post q l ex := by
    intro q hq tr' post l ex hsub hall
    rcases hpx q hq with ⟨k1, k2⟩ | ⟨k1, k2, k3⟩
    · refine Or.inl ⟨k2, k1, fun i i1 i2 i3 => ?_⟩
      obtain ⟨f, f1, f2⟩ := hfalse i i1 i2 i3
      exact ⟨f, hsub f f1, f2⟩
    · refine Or.inr ⟨k2, k3, k1, ?_, fun b hb => ?_⟩
      · rcases hall with h | h | h
        · exact Or.inl h
        · exact Or.inr h
        · exact absurd k2 h
      · obtain ⟨f, f1, f2⟩ := hbod k2 b hb
        exact ⟨f, hsub f f1, f2⟩
  have hxs : o = w.con.xPos → ∀ a ∈ w.con.xs, a ∈ ps := by
    intro hx a ha'
    rw [← hps, if_pos hx]
    exact List.mem_cons_of_mem _ ha'
  have hbusy : Inv { v with pend := e.lit.neg :: v.pend, con := { v.con with wat := { e with up := up } :: v.con.wat } } := by
    rw [a1]
    refine ⟨⟨h.lay.s0, h.lay.s1, h.lay.x, h.lay.size, h.lay.bvar, h.lay.xvar, h.lay.binj, h.lay.ab, h.lay.ai, h.lay.slot, h.lay.none⟩, h.flags, ?_, ?_, ho, ?_, ?_, ?_, ?_⟩
    · refine ⟨h.wat.nod, fun f hf => ?_, fun a ha => ?_, fun i i1 i2 i3 => ?_⟩
      · rcases List.mem_cons.1 hf with rfl | hf
        · exact h.wat.ok e (List.mem_cons_self ..)
        · exact h.wat.ok f (List.mem_cons_of_mem _ hf)
      · obtain ⟨f, f1, f2⟩ := h.wat.atom a ha
        rcases List.mem_cons.1 f1 with rfl | f1
        · exact ⟨_, List.mem_cons_self .., f2⟩
        · exact ⟨f, List.mem_cons_of_mem _ f1, f2⟩
      · obtain ⟨f, f1, f2⟩ := h.wat.body i i1 i2 i3
        rcases List.mem_cons.1 f1 with rfl | f1
        · exact ⟨_, List.mem_cons_self .., f2⟩
        · exact ⟨f, List.mem_cons_of_mem _ f1, f2⟩
    · refine ⟨a3.vars, a3.lev, a3.ord, fun q hq => ?_⟩
      rcases List.mem_cons.1 hq with rfl | hq
      · obtain ⟨f, f1, f2, f3⟩ := hp0
        exact ⟨f, a4.symm ▸ List.mem_append_right _ f1, f2, f3.trans a2.symm⟩
      · exact a3.pend q hq
    · intro i i1 i2 i3 l hl
      have hl' := hold _ (hmid i i1 i2) l hl
      rcases h.p i i1 i2 i3 l hl' with k | k | k | k
      · left
        rcases List.mem_cons.1 k with k | k
        · exact k ▸ List.mem_cons_self ..
        · exact List.mem_cons_of_mem _ (a6 _ k)
      · right; left
        show Sat _ v.tr l
        rw [a4]; exact Sat.app k
      · right; right; left
        show SatA _ v.tr l
        rw [a4]; exact SatA.app k
      · change w.conf.isSome = true ∧ _ at k
        rw [hc] at k; simp at k
    · intro hx a ha' l hl
      have hl' := hold a (Or.inl ha') l hl
      rcases h.q hx a ha' l hl' with k | k | k | k
      · left
        rcases List.mem_cons.1 k with k | k
        · exact k ▸ List.mem_cons_self ..
        · exact List.mem_cons_of_mem _ (a6 _ k)
      · right; left
        show Sat _ v.tr l
        rw [a4]; exact Sat.app k
      · right; right; left
        show At v.tr _ l
        rw [a4]; exact At.app k
      · change w.conf.isSome = true ∧ _ at k
        rw [hc] at k; simp at k
    · intro pre f post hf hfr
      change v.tr = _ at hf
      rw [a4] at hf
      have hnt : f ∉ w.tr := by
        intro hft
        rw [hr f hft] at hfr; cases hfr
      obtain ⟨x, x1, x2⟩ := app_split hf hnt
      obtain ⟨_, n2, n3, _⟩ := a5 f x2
      show Why { w.con with other := o } v.tr post f.lit f.lev (v.conf.isSome = true ∧ f.lev = v.dl)
      refine hwhy _ n3 v.tr post f.lev _ (fun g hg => by rw [x1]; exact List.mem_append_right _ hg) ?_
      by_cases hvc : v.conf = none
      · by_cases hx : o = w.con.xPos
        · left
          intro a ha'
          obtain ⟨g, g1, g2⟩ := a7 hvc a (hxs hx a ha')
          refine ⟨g, g1, g2, ?_⟩
          have := a3.lev g g1
          rw [n2]; omega
        · exact Or.inr (Or.inr hx)
      · right; left
        refine ⟨?_, by rw [n2, a2]⟩
        cases hcc : v.conf with
        | none => exact absurd hcc hvc
        | some _ => rfl
    · intro q hq
      obtain ⟨q1, q2⟩ := a8 q hq
      exact ⟨q2, hwhy q q1 v.tr v.tr v.dl True (fun g hg => by rw [a4]; exact List.mem_append_right _ hg) (Or.inr (Or.inl trivial))⟩
  have hxv : v.con.xs = w.con.xs := by rw [a1]; rfl
  have hbv : v.con.bodies = w.con.bodies := by rw [a1]; rfl
  have hdone : v.conf = none → Sat w.con v.tr v.dl ∨ (SatA w.con v.tr v.dl ∧ o = w.con.xPos) := by
    intro hvc
    rcases hop with ⟨k1, k2⟩ | ⟨k1, k2, k3⟩
    · obtain ⟨f, f1, f2⟩ := a7 hvc (w.con.lit o) (by rw [← hps]; exact List.mem_cons_self ..)
      exact Or.inl ⟨_, k1, f, f1, f2, a3.lev f f1⟩
    · refine Or.inr ⟨⟨k2, fun a ha' => ?_⟩, k1⟩
      obtain ⟨f, f1, f2⟩ := a7 hvc a (hxs k1 a ha')
      exact ⟨f, f1, f2, a3.lev f f1⟩
  refine hbusy.drop (p := e.lit.neg) (pd := v.pend) (fun q hq => List.mem_cons.1 hq) (fun q hq => List.mem_cons_of_mem _ hq) fun hvc => ⟨fun i i1 i2 i3 hi => ?_, fun hx hpx' => ?_⟩
  · rcases hdone hvc with k | ⟨k, _⟩
    · left
      obtain ⟨b, b1, b2⟩ := k
      exact ⟨b, by show b ∈ v.con.bodies; rw [hbv]; exact b1, b2⟩
    · right
      refine ⟨?_, fun a ha' => k.2 a ?_⟩
      · show v.con.xPos = 1
        rw [a1]; exact k.1
      · change a ∈ v.con.xs at ha'
        rw [hxv] at ha'; exact ha'
  · left
    rcases hdone hvc with k | ⟨k, _⟩
    · obtain ⟨b, b1, b2⟩ := k
      exact ⟨b, by show b ∈ v.con.bodies; rw [hbv]; exact b1, b2⟩
    · exfalso
      rw [neg_neg'] at hpx'
      change e.lit ∈ v.con.xs at hpx'
      rw [hxv] at hpx'
      obtain ⟨f, f1, f2, f3⟩ := hp0
      refine a3.not_both (k.2 _ hpx') (l' := v.dl) ⟨f, a4.symm ▸ List.mem_append_right _ f1, f2, by omega⟩

/-- the watch is replaced -/
theorem replace_inv {w : Wd} {e : Watch} {pos o : Nat} {up : Bool} (h : Inv (Busy w e)) (hc : w.conf = none) (hr : ∀ f ∈ w.tr, f.rs = false)
    (hi : 1 ≤ e.idx ∧ e.idx < w.con.fin) (hif : w.con.flag e.idx = true) (hil : w.con.lit e.idx = e.lit)
    (hp : 1 ≤ pos ∧ pos < w.con.fin) (hpf : w.con.flag pos = false) (hpn : isFalse w.tr (w.con.lit pos) = false)
    (ho : 1 ≤ o ∧ o < w.con.fin) : Inv (rewatch (replace w e pos o up)) := by
  have hlay : Lay w.con := ⟨h.lay.s0, h.lay.s1, h.lay.x, h.lay.size, h.lay.bvar, h.lay.xvar, h.lay.binj, h.lay.ab, h.lay.ai, h.lay.slot, h.lay.none⟩
  have hne : pos ≠ e.idx := by rintro rfl; rw [hif] at hpf; cases hpf
  have hp0 : ∃ f ∈ w.tr, f.lit = e.lit.neg ∧ f.lev = w.dl := h.trl.pend _ (List.mem_cons_self ..)
  have hfl : ∀ i, Function.update (Function.update w.con.flag e.idx false) pos true i = true → i = pos ∨ (i ≠ e.idx ∧ w.con.flag i = true) := by
    intro i hi'
    by_cases h1 : i = pos
    · exact Or.inl h1
    · rw [Function.update_of_ne h1] at hi'
      by_cases h2 : i = e.idx
      · subst h2; rw [Function.update_self] at hi'; cases hi'
      · rw [Function.update_of_ne h2] at hi'
        exact Or.inr ⟨h2, hi'⟩
  have hfl' : ∀ i, i ≠ e.idx → w.con.flag i = true → Function.update (Function.update w.con.flag e.idx false) pos true i = true := by
    intro i h1 h2
    by_cases h3 : i = pos
    · subst h3; rw [Function.update_self]
    · rw [Function.update_of_ne h3, Function.update_of_ne h1, h2]
  have hFl : ∃ f g, f ≠ g ∧ 1 ≤ f ∧ f < w.con.fin ∧ 1 ≤ g ∧ g < w.con.fin ∧
      ∀ i, Function.update (Function.update w.con.flag e.idx false) pos true i = true ↔ i = f ∨ i = g := by
    obtain ⟨f, g, f1, f2, f3, f4, f5, f6⟩ := h.flags
    change ∀ i, w.con.flag i = true ↔ i = f ∨ i = g at f6
    change f < w.con.fin at f3
    change g < w.con.fin at f5
    have hk : ∃ k, k ≠ e.idx ∧ 1 ≤ k ∧ k < w.con.fin ∧ ∀ i, w.con.flag i = true ↔ i = e.idx ∨ i = k := by
      rcases (f6 _).1 hif with k | k
      · exact ⟨g, by omega, f4, f5, fun i => by rw [f6, k]⟩
      · exact ⟨f, by omega, f2, f3, fun i => by rw [f6, k, or_comm]⟩
    obtain ⟨k, k1, k2, k3, k4⟩ := hk
    have hkp : pos ≠ k := by rintro rfl; rw [(k4 _).2 (Or.inr rfl)] at hpf; cases hpf
    refine ⟨pos, k, hkp, hp.1, hp.2, k2, k3, fun i => ⟨fun hi' => ?_, ?_⟩⟩
    · rcases hfl i hi' with h1 | ⟨h1, h2⟩
      · exact Or.inl h1
      · exact Or.inr (((k4 i).1 h2).resolve_left h1)
    · rintro (rfl | rfl)
      · rw [Function.update_self]
      · exact hfl' _ k1 ((k4 _).2 (Or.inr rfl))
  -- the literals watched so far differ from the new one
  have hnw : pos ≠ w.con.xPos → w.con.lit pos ∉ (e :: w.con.wat).map Watch.lit := by
    intro hx hm
    have hx1 : 1 + w.con.xPos ≤ pos := by rcases hlay.x with k | k <;> omega
    obtain ⟨f, f1, f2⟩ := List.mem_map.1 hm
    rcases h.wat.ok f f1 with ⟨k1, k2, _⟩ | ⟨k1, k2, k3, k4⟩
    · exact hlay.ab _ k2 (w.con.lit pos) (mem_bodies.2 ⟨pos, hx1, hp.2, rfl⟩) (by rw [f2])
    · have := hlay.binj pos f.idx hx1 hp.2 k1 k2 (by rw [← f2, k4]; rfl)
      subst this
      change w.con.flag f.idx = true at k3
      rw [hpf] at k3; cases k3
  have hokold : ∀ f ∈ w.con.wat, (w.con.xPos = 1 ∧ f.lit ∈ w.con.xs ∧ f.idx = 1) ∨
      (1 + w.con.xPos ≤ f.idx ∧ f.idx < w.con.fin ∧ Function.update (Function.update w.con.flag e.idx false) pos true f.idx = true ∧ f.lit = w.con.lit f.idx) := by
    intro f hf
    rcases h.wat.ok f (List.mem_cons_of_mem _ hf) with k | ⟨k1, k2, k3, k4⟩
    · exact Or.inl k
    · refine Or.inr ⟨k1, k2, hfl' _ ?_ k3, k4⟩
      intro hfe
      have : f.lit = e.lit := by rw [k4, hfe]; exact hil
      exact (List.nodup_cons.1 h.wat.nod).1 (List.mem_map.2 ⟨f, hf, this⟩)
  have hWat : ∀ con' : Con, con'.lit = w.con.lit → con'.fin = w.con.fin → con'.xPos = w.con.xPos → con'.size = w.con.size →
      con'.flag = Function.update (Function.update w.con.flag e.idx false) pos true →
      Wat con' ((if e.idx = w.con.xPos then [{ e with up := up }] else []) ++ if pos ≠ w.con.xPos then ⟨w.con.lit pos, pos, up⟩ :: w.con.wat else w.con.wat) := by
    intro con' c1 c2 c3 c4 c5
    have cx : con'.xs = w.con.xs := by unfold Con.xs; rw [c1, c2, c4]
    have hlist : ∀ f, f ∈ ((if e.idx = w.con.xPos then [{ e with up := up }] else []) ++ if pos ≠ w.con.xPos then ⟨w.con.lit pos, pos, up⟩ :: w.con.wat else w.con.wat) ↔
        (e.idx = w.con.xPos ∧ f = { e with up := up }) ∨ (pos ≠ w.con.xPos ∧ f = ⟨w.con.lit pos, pos, up⟩) ∨ f ∈ w.con.wat := by
      intro f
      by_cases h1 : e.idx = w.con.xPos <;> by_cases h2 : pos = w.con.xPos <;> simp [h1, h2]
    refine ⟨?_, fun f hf => ?_, fun a ha => ?_, fun i i1 i2 i3 => ?_⟩
    · have hn := h.wat.nod
      change ((e :: w.con.wat).map Watch.lit).Nodup at hn
      have hn1 : (if pos ≠ w.con.xPos then ⟨w.con.lit pos, pos, up⟩ :: w.con.wat else w.con.wat : List Watch).map Watch.lit =
          (if pos ≠ w.con.xPos then [w.con.lit pos] else []) ++ w.con.wat.map Watch.lit := by split <;> rfl
      have hn2 : (if e.idx = w.con.xPos then [{ e with up := up }] else [] : List Watch).map Watch.lit = if e.idx = w.con.xPos then [e.lit] else [] := by split <;> rfl
      rw [List.map_append, hn1, hn2]
      rw [List.map_cons, List.nodup_cons] at hn
      by_cases h2 : pos ≠ w.con.xPos
      · have h3 := hnw h2
        rw [List.map_cons, List.mem_cons, not_or] at h3
        rw [if_pos h2]
        split
        · simp only [List.singleton_append, List.nodup_cons, List.mem_cons, not_or]
          exact ⟨⟨fun k => h3.1 k.symm, hn.1⟩, h3.2, hn.2⟩
        · simp only [List.singleton_append, List.nil_append, List.nodup_cons]
          exact ⟨h3.2, hn.2⟩
      · rw [if_neg h2]
        split
        · simp only [List.singleton_append, List.nil_append, List.nodup_cons]
          exact ⟨hn.1, hn.2⟩
        · simpa using hn.2
    · rw [cx, c1, c2, c3, c5]
      rcases (hlist f).1 hf with ⟨k1, rfl⟩ | ⟨k1, rfl⟩ | k
      · have hx1 : w.con.xPos = 1 := by rcases hlay.x with k | k <;> omega
        refine Or.inl ⟨hx1, ?_, k1.trans hx1⟩
        show e.lit ∈ w.con.xs
        have := hlay.slot hx1
        rw [k1, hx1] at hil
        rw [← hil]; exact this
      · refine Or.inr ⟨?_, hp.2, Function.update_self .., rfl⟩
        show 1 + w.con.xPos ≤ pos
        rcases hlay.x with k | k <;> omega
      · exact hokold f k
    · rw [cx] at ha
      obtain ⟨f, f1, f2⟩ := h.wat.atom a ha
      rcases List.mem_cons.1 f1 with rfl | f1
      · by_cases hx : f.idx = w.con.xPos
        · exact ⟨{ f with up := up }, (hlist _).2 (Or.inl ⟨hx, rfl⟩), f2⟩
        · exfalso
          refine hlay.ab a ha (w.con.lit f.idx) (mem_bodies.2 ⟨f.idx, ?_, hi.2, rfl⟩) (by rw [hil, f2])
          rcases hlay.x with k | k <;> omega
      · exact ⟨f, (hlist _).2 (Or.inr (Or.inr f1)), f2⟩
    · rw [c3] at i1
      rw [c2] at i2
      rw [c5] at i3
      rw [c1]
      rcases hfl i i3 with rfl | ⟨h1, h2⟩
      · exact ⟨⟨w.con.lit i, i, up⟩, (hlist _).2 (Or.inr (Or.inl ⟨by omega, rfl⟩)), rfl⟩
      · obtain ⟨f, f1, f2⟩ := h.wat.body i i1 i2 h2
        change f.lit = w.con.lit i at f2
        rcases List.mem_cons.1 f1 with rfl | f1
        · exfalso
          exact h1 (hlay.inj (by omega) i2 hi.1 hi.2 (by rw [hil, f2]))
        · exact ⟨f, (hlist _).2 (Or.inr (Or.inr f1)), f2⟩
  have hres : rewatch (replace w e pos o up) = { w with con := { w.con with
      other := o
      flag := Function.update (Function.update w.con.flag e.idx false) pos true
      wat := (if e.idx = w.con.xPos then [{ e with up := up }] else []) ++ if pos ≠ w.con.xPos then ⟨w.con.lit pos, pos, up⟩ :: w.con.wat else w.con.wat } } := by
    unfold rewatch replace
    by_cases h1 : e.idx = w.con.xPos <;> simp [h1]
  rw [hres]
  have hb : Inv { w with pend := e.lit.neg :: w.pend, con := { w.con with
      other := o
      flag := Function.update (Function.update w.con.flag e.idx false) pos true
      wat := (if e.idx = w.con.xPos then [{ e with up := up }] else []) ++ if pos ≠ w.con.xPos then ⟨w.con.lit pos, pos, up⟩ :: w.con.wat else w.con.wat } } := by
    refine ⟨⟨h.lay.s0, h.lay.s1, h.lay.x, h.lay.size, h.lay.bvar, h.lay.xvar, h.lay.binj, h.lay.ab, h.lay.ai, h.lay.slot, h.lay.none⟩, hFl,
      hWat _ rfl rfl rfl rfl rfl, h.trl, ho, ?_, h.q, ?_, ?_⟩
    · intro i i1 i2 i3 l hl
      rcases hfl i i3 with rfl | ⟨_, h2⟩
      · exfalso
        have := (isFalse_at h.trl (hlay.avar i1 i2)).2 (hl.mono (l' := w.dl) ?_)
        · change isFalse w.tr (w.con.lit i) = true at this
          rw [hpn] at this; cases this
        · exact absurd ((isFalse_at h.trl (hlay.avar i1 i2)).2 (by
            obtain ⟨f, f1, f2, f3⟩ := hl
            exact ⟨f, f1, f2, h.trl.lev f f1⟩)) (by
            show ¬ isFalse w.tr (w.con.lit i) = true
            rw [hpn]; simp)
      · exact h.p i i1 i2 h2 l hl
    · intro pre f post hf hfr
      change w.tr = _ at hf
      have := hr f (by rw [hf]; simp)
      rw [hfr] at this; cases this
    · intro q hq
      change w.conf = some q at hq
      rw [hc] at hq; cases hq
  refine hb.drop (p := e.lit.neg) (pd := w.pend) (fun q hq => List.mem_cons.1 hq) (fun q hq => List.mem_cons_of_mem _ hq) fun _ => ⟨fun i i1 i2 i3 hi' => ?_, fun hx hpx => ?_⟩
  · exfalso
    change (w.con.lit i).neg = e.lit.neg at hi'
    have hii : i = e.idx := hlay.inj i1 i2 hi.1 hi.2 (by rw [hil]; have := congrArg Lit.var hi'; exact this)
    rcases hfl i i3 with k | ⟨k, _⟩
    · exact hne (k.symm.trans hii)
    · exact k hii
  · right
    rw [neg_neg'] at hpx
    have hii : e.idx = 1 := by
      by_contra hk
      refine hlay.ab _ hpx (w.con.lit e.idx) (mem_bodies.2 ⟨e.idx, ?_, hi.2, rfl⟩) (by rw [hil])
      change w.con.xPos = 1 at hx
      omega
    obtain ⟨f, f1, f2, f3⟩ := hp0
    refine ⟨f, f1, ?_, by rw [f3]; exact Nat.le_refl _⟩
    show f.lit = (w.con.lit 1).neg
    rw [← hii, hil]; exact f2

/-- the search never leaves the array and keeps the invariant -/
theorem search_inv {w : Wd} {e : Watch} (h : Inv (Busy w e)) (hc : w.conf = none) (hr : ∀ f ∈ w.tr, f.rs = false)
    (hi : 1 ≤ e.idx ∧ e.idx < w.con.fin) (hif : w.con.flag e.idx = true) (hil : w.con.lit e.idx = e.lit) :
    ∃ r, search w e = some r ∧ Inv (rewatch r) := by
  have hlay : Lay w.con := ⟨h.lay.s0, h.lay.s1, h.lay.x, h.lay.size, h.lay.bvar, h.lay.xvar, h.lay.binj, h.lay.ab, h.lay.ai, h.lay.slot, h.lay.none⟩
  have hoth : 1 ≤ w.con.other ∧ w.con.other < w.con.fin := h.oth
  have htl : Trl w.tr w.dl (e.lit.neg :: w.pend) := h.trl
  have hsz := hlay.size
  have hef : isFalse w.tr (w.con.lit e.idx) = true := by
    rw [hil]
    obtain ⟨f, f1, f2, _⟩ := htl.pend _ (List.mem_cons_self ..)
    exact isTrue_iff.2 (Or.inr ⟨f, f1, f2⟩)
  have hfa : ∀ i, w.con.flag i = true → 1 ≤ i ∧ i < w.con.fin := by
    intro i hi'
    obtain ⟨f, g, f1, f2, f3, f4, f5, f6⟩ := h.flags
    rcases (f6 i).1 hi' with k | k
    · rw [k]; exact ⟨f2, f3⟩
    · rw [k]; exact ⟨f4, f5⟩
  have hlt : ∀ i, 1 ≤ i → i < w.con.fin → w.con.lit i ≠ litTrue := by
    intro i i1 i2 he
    exact hlay.avar i1 i2 (by rw [he]; rfl)
  have hnft := not_false_true htl
  -- every scan stays within the active clause
  have hscan : ∀ up o, (1 ≤ o ∧ o < w.con.fin) → ∃ pos o', scan w.tr w.con w.con.size e.idx up o = some (pos, o') ∧ (1 ≤ o' ∧ o' < w.con.fin) ∧
      isFalse w.tr (w.con.lit pos) = false ∧ (w.con.lit pos ≠ litTrue → w.con.flag pos = false ∧ 1 ≤ pos ∧ pos < w.con.fin) ∧
      (w.con.lit pos = litTrue → pos = if up then w.con.fin else 0) ∧
      (∀ i, Btw up e.idx pos i → isFalse w.tr (w.con.lit i) = true ∨ w.con.flag i = true) ∧
      ((o' = o ∧ ∀ i, Btw up e.idx pos i → isFalse w.tr (w.con.lit i) = true) ∨
        (Btw up e.idx pos o' ∧ w.con.flag o' = true ∧ isFalse w.tr (w.con.lit o') = false)) := by
    intro up o ho
    obtain ⟨r, hr'⟩ := scan_some (c := w.con) htl (up := up) (z := if up then w.con.fin else 0) (by cases up; exact hlay.s0; exact hlay.s1)
      (k := w.con.size) (pos := e.idx) (o := o) (by cases up <;> simp <;> omega)
    obtain ⟨pos, o'⟩ := r
    obtain ⟨s1, s2, s3, s4, s5, s6⟩ := scan_spec hr'
    -- the sentinel is not passed
    have hle : if up then pos ≤ w.con.fin else 0 ≤ pos := by
      cases up
      · simp
      · simp only [if_true] at s3 ⊢
        by_contra hk
        rcases s6 w.con.fin (by unfold Btw; simp only [if_true]; omega) with k | k
        · exact k hlay.s1
        · rw [hlay.s1, hnft] at k; cases k
    refine ⟨pos, o', hr', ?_, s1, ?_, ?_, s4, s5⟩
    · rcases s5 with ⟨k, _⟩ | ⟨_, k, _⟩
      · rw [k]; exact ho
      · exact hfa _ k
    · intro hk
      refine ⟨s2.resolve_left hk, ?_⟩
      cases up
      · simp only [Bool.false_eq_true, if_false] at s3
        have : pos ≠ 0 := by rintro rfl; exact hk hlay.s0
        omega
      · simp only [if_true] at s3 hle
        have : pos ≠ w.con.fin := by rintro rfl; exact hk hlay.s1
        omega
    · intro hk
      cases up
      · simp only [Bool.false_eq_true, if_false] at s3 ⊢
        by_contra h0
        exact hlt pos (by omega) (by omega) hk
      · simp only [if_true] at s3 hle ⊢
        by_contra h0
        exact hlt pos (by omega) (by omega) hk
  obtain ⟨pos, o, s1, s2, s3, s4, s5, s6, s7⟩ := hscan e.up w.con.other hoth
  unfold search
  rw [s1]
  dsimp only
  by_cases hp : w.con.lit pos ≠ litTrue
  · rw [if_pos hp]
    obtain ⟨k1, k2⟩ := s4 hp
    exact ⟨_, rfl, replace_inv h hc hr hi hif hil k2 k1 s3 s2⟩
  · rw [if_neg hp]
    have hpos := s5 (not_not.1 hp)
    obtain ⟨pos', o', t1, t2, t3, t4, t5, t6, t7⟩ := hscan (!e.up) o s2
    rw [t1]
    dsimp only
    by_cases hp' : w.con.lit pos' ≠ litTrue
    · rw [if_pos hp']
      obtain ⟨k1, k2⟩ := t4 hp'
      exact ⟨_, rfl, replace_inv h hc hr hi hif hil k2 k1 t3 t2⟩
    · rw [if_neg hp']
      have hpos' := t5 (not_not.1 hp')
      refine ⟨_, rfl, unit_inv h hc hr t2 fun i i1 i2 i3 => ?_⟩
      by_cases hie : i = e.idx
      · rw [hie]; exact hef
      have hbtw : ∀ j, 1 ≤ j → j < w.con.fin → j ≠ e.idx → Btw e.up e.idx pos j ∨ Btw (!e.up) e.idx pos' j := by
        intro j j1 j2 j3
        unfold Btw
        cases hu : e.up
        · rw [hu] at hpos hpos'
          simp only [Bool.false_eq_true, if_false, Bool.not_false, if_true] at hpos hpos' ⊢
          omega
        · rw [hu] at hpos hpos'
          simp only [Bool.false_eq_true, if_false, Bool.not_true, if_true] at hpos hpos' ⊢
          omega
      have hdis : ∀ j, Btw e.up e.idx pos j → Btw (!e.up) e.idx pos' j → False := by
        intro j
        unfold Btw
        cases e.up <;> simp <;> omega
      have hidx : ∀ up z, ¬ Btw up e.idx z e.idx := by
        intro up z
        unfold Btw
        cases up <;> simp
      have hfo : ∀ j k, w.con.flag j = true → w.con.flag k = true → j ≠ e.idx → k ≠ e.idx → j = k := by
        obtain ⟨f, g, f1, f2, f3, f4, f5, f6⟩ := h.flags
        intro j k hj hk j3 k3
        have a1 := (f6 _).1 hif
        have a2 := (f6 _).1 hj
        have a3 := (f6 _).1 hk
        omega
      by_contra hnf
      have hif' : w.con.flag i = true := by
        rcases hbtw i i1 i2 hie with k | k
        · exact (s6 i k).resolve_left hnf
        · exact (t6 i k).resolve_left hnf
      rcases t7 with ⟨u1, u2⟩ | ⟨u1, u2, _⟩
      · rcases hbtw i i1 i2 hie with k | k
        · rcases s7 with ⟨v1, v2⟩ | ⟨v1, v2, _⟩
          · exact hnf (v2 i k)
          · have := hfo i o hif' v2 hie (by intro he; exact hidx _ _ (he ▸ v1))
            exact i3 (by rw [this, u1])
        · exact hnf (u2 i k)
      · exact i3 (hfo i o' hif' u2 hie (by intro he; exact hidx _ _ (he ▸ u1)))

theorem wat_perm {c : Con} {wat : List Watch} {e : Watch} (h : e ∈ wat) (hw : Wat c wat) : Wat c (e :: wat.erase e) :=
  hw.perm (List.perm_cons_erase h)

/-- a notification is processed -/
theorem propagate_inv {w : Wd} {e : Watch} (h : Inv (Busy w e)) (hc : w.conf = none) : ∃ r, propagate w e = some r ∧ Inv (rewatch r) := by
  have hp0 : At w.tr e.lit.neg w.dl := by
    obtain ⟨f, f1, f2, f3⟩ := h.trl.pend _ (List.mem_cons_self ..)
    exact ⟨f, f1, f2, by rw [f3]; exact Nat.le_refl _⟩
  have hos : otherIsSat w.tr (Busy w e).con = ((otherIsSat w.tr w.con).1, { (otherIsSat w.tr w.con).2 with wat := e :: w.con.wat }) ∧
      (otherIsSat w.tr w.con).2.wat = w.con.wat := by
    unfold otherIsSat Busy
    dsimp only
    split
    · exact ⟨rfl, rfl⟩
    · split
      · exact ⟨rfl, rfl⟩
      · have : ({ w.con with wat := e :: w.con.wat } : Con).xs = w.con.xs := rfl
        rw [this]
        split
        · exact ⟨rfl, rfl⟩
        · exact ⟨rfl, rfl⟩
  obtain ⟨hos, how⟩ := hos
  unfold propagate
  dsimp only
  cases hs : (otherIsSat w.tr w.con).1 with
  | true =>
    rw [if_pos rfl]
    refine ⟨_, rfl, ?_⟩
    obtain ⟨o1, o2⟩ := h.other_true (by
      show (otherIsSat w.tr (Busy w e).con).1 = true
      rw [hos]; exact hs)
    have o3 : (otherIsSat w.tr w.con).2 = w.con := by
      have : { (otherIsSat w.tr w.con).2 with wat := e :: w.con.wat } = (Busy w e).con := by
        have := o1
        change (otherIsSat w.tr (Busy w e).con).2 = _ at this
        rw [hos] at this; exact this
      have h2 := congrArg (fun c : Con => { c with wat := w.con.wat }) this
      change { (otherIsSat w.tr w.con).2 with wat := w.con.wat } = w.con at h2
      rw [← how] at h2
      exact h2
    rw [o3]
    refine h.drop (p := e.lit.neg) (pd := w.pend) (fun q hq => List.mem_cons.1 hq) (fun q hq => List.mem_cons_of_mem _ hq) fun _ => ⟨fun i i1 i2 i3 hi' => o2, fun hx hpx => ?_⟩
    rcases o2 with k | k
    · exact Or.inl k
    · rw [neg_neg'] at hpx
      exact (h.trl.not_both (k.2 _ hpx) hp0).elim
  | false =>
    rw [if_neg (by simp)]
    obtain ⟨hI, hr, x1, x2, x3, x4, x5, x6, x7, x8, x9⟩ := h.other_false hc (by
      show (otherIsSat w.tr (Busy w e).con).1 = false
      rw [hos]; exact hs)
    change Inv { Busy w e with con := (otherIsSat w.tr (Busy w e).con).2 } at hI
    rw [hos] at hI
    change (otherIsSat w.tr (Busy w e).con).2.xPos = w.con.xPos at x1
    change (otherIsSat w.tr (Busy w e).con).2.fin = w.con.fin at x5
    change (otherIsSat w.tr (Busy w e).con).2.xs = w.con.xs at x7
    change ∀ i, i ≠ 1 ∨ w.con.xPos = 0 → (otherIsSat w.tr (Busy w e).con).2.lit i = w.con.lit i at x9
    rw [hos] at x1 x5 x7 x9
    generalize hcc : (otherIsSat w.tr w.con).2 = c at *
    change c.xPos = w.con.xPos at x1
    change c.fin = w.con.fin at x5
    change c.xs = w.con.xs at x7
    change ∀ i, i ≠ 1 ∨ w.con.xPos = 0 → c.lit i = w.con.lit i at x9
    have hB : Inv (Busy { w with con := c } e) := by
      have : Busy { w with con := c } e = { Busy w e with con := { c with wat := e :: w.con.wat } } := by
        unfold Busy; dsimp only; rw [how]
      rw [this]; exact hI
    have hlay : Lay c := ⟨hB.lay.s0, hB.lay.s1, hB.lay.x, hB.lay.size, hB.lay.bvar, hB.lay.xvar, hB.lay.binj, hB.lay.ab, hB.lay.ai, hB.lay.slot, hB.lay.none⟩
    have hrs : ∀ f ∈ w.tr, f.rs = false := hr
    by_cases hx : e.idx = c.xPos
    · rw [if_pos hx]
      have hok : c.xPos = 1 ∧ e.lit ∈ c.xs ∧ e.idx = 1 := by
        rcases hB.wat.ok e (List.mem_cons_self ..) with k | ⟨k, _⟩
        · exact k
        · change 1 + c.xPos ≤ e.idx at k; omega
      obtain ⟨k1, k2, k3⟩ := hok
      have hfin : 1 < c.fin := by have := hB.fin1; change 1 + 1 < c.fin at this; omega
      have hone : ∀ i, 1 ≤ i → i < c.fin → c.lit i = e.lit → i = 1 := by
        intro i i1 i2 i3
        by_contra hk
        exact hlay.ab _ k2 (c.lit i) (mem_bodies.2 ⟨i, by omega, i2, rfl⟩) (by rw [i3])
      by_cases hf : c.lit e.idx ≠ e.lit ∧ isFalse w.tr (c.lit e.idx) = true
      · rw [if_pos hf]
        refine ⟨_, rfl, ?_⟩
        rw [k3] at hf
        refine hB.drop (p := e.lit.neg) (pd := w.pend) (fun q hq => List.mem_cons.1 hq) (fun q hq => List.mem_cons_of_mem _ hq) fun _ => ⟨fun i i1 i2 i3 hi' => ?_, fun _ _ => ?_⟩
        · exfalso
          have hil : c.lit i = e.lit := by
            have := congrArg Lit.neg hi'
            rw [neg_neg', neg_neg'] at this; exact this
          exact hf.1 (hone i i1 i2 hil ▸ hil)
        · right
          exact (isFalse_at hB.trl (hlay.avar (Nat.le_refl _) hfin)).1 hf.2
      · rw [if_neg hf]
        have hS : Inv (Busy { w with con := { c with lit := Function.update c.lit 1 e.lit } } e) := by
          refine Inv.setSlot hB hc k1 k2 hrs (fun _ l hl => Or.inl (List.mem_cons_self ..)) fun b hb l hl => ?_
          rcases hB.q k1 b hb l hl with m | m | m | m
          · exact Or.inl m
          · exact Or.inr (Or.inl m)
          · by_cases hle : c.lit 1 = e.lit
            · right; right; rw [← hle]; exact m
            · exfalso
              refine hf ⟨by rw [k3]; exact hle, ?_⟩
              rw [k3]
              obtain ⟨f, f1, f2, _⟩ := m
              exact isTrue_iff.2 (Or.inr ⟨f, f1, f2⟩)
          · change w.conf.isSome = true ∧ _ at m
            rw [hc] at m; simp at m
        have hfe : ({ w with con := { c with lit := Function.update c.lit e.idx e.lit } } : Wd) = { w with con := { c with lit := Function.update c.lit 1 e.lit } } := by
          rw [k3]
        simp only [hfe]
        have hslot : Function.update c.lit 1 e.lit 1 = e.lit := Function.update_self ..
        by_cases hfl : c.flag e.idx = false
        · rw [if_pos hfl]
          refine ⟨_, rfl, ?_⟩
          refine hS.drop (p := e.lit.neg) (pd := w.pend) (fun q hq => List.mem_cons.1 hq) (fun q hq => List.mem_cons_of_mem _ hq) fun _ => ⟨fun i i1 i2 i3 hi' => ?_, fun _ _ => ?_⟩
          · exfalso
            change (Function.update c.lit 1 e.lit i).neg = e.lit.neg at hi'
            change c.flag i = true at i3
            change i < c.fin at i2
            by_cases h1 : i = 1
            · rw [h1, ← k3, hfl] at i3; cases i3
            · rw [Function.update_of_ne h1] at hi'
              have hil : c.lit i = e.lit := by
                have := congrArg Lit.neg hi'
                rw [neg_neg', neg_neg'] at this; exact this
              exact h1 (hone i i1 i2 hil)
          · right
            show At w.tr (Function.update c.lit 1 e.lit 1).neg w.dl
            rw [hslot]; exact hp0
        · rw [if_neg hfl]
          refine search_inv hS hc hrs ⟨Nat.le_of_eq k3.symm, by rw [k3]; exact hfin⟩ ?_ ?_
          · show c.flag e.idx = true
            cases hh : c.flag e.idx with
            | true => rfl
            | false => exact absurd hh hfl
          · show Function.update c.lit 1 e.lit e.idx = e.lit
            rw [k3, hslot]
    · rw [if_neg hx]
      rcases hB.wat.ok e (List.mem_cons_self ..) with ⟨k1, _, k3⟩ | ⟨k1, k2, k3, k4⟩
      · change c.xPos = 1 at k1; omega
      · exact search_inv hB hc hrs ⟨by omega, k2⟩ k3 k4.symm

/-- delivering a notification never leaves the array and keeps the invariant -/
theorem Inv.notify {w : Wd} (h : Inv w) (hc : w.conf = none) {p : Lit} (hp : p ∈ w.pend) : ∃ v, notify w p = some v ∧ Inv v := by
  unfold Loop.notify
  dsimp only
  have hpd : ∀ q ∈ w.pend, q = p ∨ q ∈ w.pend.erase p := by
    intro q hq
    by_cases hqp : q = p
    · exact Or.inl hqp
    · exact Or.inr ((List.mem_erase_of_ne hqp).2 hq)
  have hpd' : ∀ q ∈ w.pend.erase p, q ∈ w.pend := fun q hq => List.mem_of_mem_erase hq
  cases hf : w.con.wat.find? fun e => decide (e.lit = p.neg) with
  | none =>
    refine ⟨_, rfl, ?_⟩
    have hno : ∀ e ∈ w.con.wat, e.lit ≠ p.neg := by
      intro e he
      have := List.find?_eq_none.1 hf e he
      simpa using this
    refine h.drop hpd hpd' fun _ => ⟨fun i i1 i2 i3 hi' => ?_, fun hx hpx => ?_⟩
    · exfalso
      have hil : w.con.lit i = p.neg := by rw [← hi', neg_neg']
      by_cases hb : 1 + w.con.xPos ≤ i
      · obtain ⟨e, e1, e2⟩ := h.wat.body i hb i2 i3
        exact hno e e1 (e2.trans hil)
      · have hx1 : w.con.xPos = 1 := by rcases h.lay.x with k | k <;> omega
        have : i = 1 := by omega
        subst this
        obtain ⟨e, e1, e2⟩ := h.wat.atom _ (h.lay.slot hx1)
        exact hno e e1 (e2.trans hil)
    · exfalso
      obtain ⟨e, e1, e2⟩ := h.wat.atom _ hpx
      exact hno e e1 e2
  | some e =>
    have hm : e ∈ w.con.wat := List.mem_of_find?_eq_some hf
    have hel : e.lit = p.neg := by simpa using List.find?_some hf
    have hB : Inv (Busy { w with pend := w.pend.erase p, con := { w.con with wat := w.con.wat.erase e } } e) := by
      have hpe : e.lit.neg = p := by rw [hel, neg_neg']
      refine ⟨⟨h.lay.s0, h.lay.s1, h.lay.x, h.lay.size, h.lay.bvar, h.lay.xvar, h.lay.binj, h.lay.ab, h.lay.ai, h.lay.slot, h.lay.none⟩, h.flags, ?_, ?_, h.oth, ?_, ?_, h.r, h.c⟩
      · have := wat_perm hm h.wat
        exact ⟨this.nod, this.ok, this.atom, this.body⟩
      · refine ⟨h.trl.vars, h.trl.lev, h.trl.ord, fun q hq => ?_⟩
        rcases List.mem_cons.1 hq with rfl | hq
        · rw [hpe]; exact h.trl.pend p hp
        · exact h.trl.pend q (hpd' q hq)
      · intro i i1 i2 i3 l hl
        refine (h.p i i1 i2 i3 l hl).imp_left fun k => ?_
        rcases hpd _ k with k | k
        · rw [← hpe] at k; exact k ▸ List.mem_cons_self ..
        · exact List.mem_cons_of_mem _ k
      · intro hx a ha l hl
        refine (h.q hx a ha l hl).imp_left fun k => ?_
        rcases hpd _ k with k | k
        · rw [← hpe] at k; exact k ▸ List.mem_cons_self ..
        · exact List.mem_cons_of_mem _ k
    obtain ⟨r, r1, r2⟩ := propagate_inv hB hc
    refine ⟨rewatch r, ?_, r2⟩
    dsimp only at r1 ⊢
    rw [r1]; rfl

end Clasp.Loop
