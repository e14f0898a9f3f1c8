/- C36: loop formulas: the invariant holds in every reachable state. No code is modelled in this file. -/
import Verif.Asp.LoopSimpInv
namespace Clasp.Loop
open Core

theorem clauses_eq {c d : Con} (h1 : d.xPos = c.xPos) (h2 : d.bodies = c.bodies) (h3 : d.xs = c.xs) : d.clauses = c.clauses := by
  unfold Con.clauses; rw [h1, h2, h3]

theorem simp_sat {w : Wd} (h : Inv w) (hc : w.conf = none) (hd : w.dl = 0) :
    ((simpSat w.tr w.con).1 = true → Lay (simpSat w.tr w.con).2 ∧ Wat (simpSat w.tr w.con).2 (simpSat w.tr w.con).2.wat ∧ 1 + 1 < (simpSat w.tr w.con).2.fin ∧
      (Sat (simpSat w.tr w.con).2 w.tr 0 ∨ SatA (simpSat w.tr w.con).2 w.tr 0) ∧ (simpSat w.tr w.con).2.clauses = w.con.clauses) ∧
    ((simpSat w.tr w.con).1 = false → Inv { w with con := { (simpSat w.tr w.con).2 with other := 1 } } ∧ (∀ e ∈ w.tr, e.rs = false) ∧
      (simpSat w.tr w.con).2.clauses = w.con.clauses ∧ ((simpSat w.tr w.con).2.xPos = 1 → isTrue w.tr ((simpSat w.tr w.con).2.lit 1) = false)) := by
  unfold simpSat
  dsimp only
  cases hs : (otherIsSat w.tr w.con).1 with
  | true =>
    simp only [Bool.true_eq_false, false_and, if_false, hs]
    obtain ⟨k1, k2⟩ := h.other_true hs
    rw [hd] at k2
    rw [k1]
    exact ⟨fun _ => ⟨h.lay, h.wat, h.fin1, k2, rfl⟩, fun k => by cases k⟩
  | false =>
    simp only [true_and]
    obtain ⟨hI, hr, x1, x2, x3, x4, x5, x6, x7, x8, x9⟩ := h.other_false hc hs
    have hcl := clauses_eq x1 x6 x7
    by_cases ho : (otherIsSat w.tr w.con).2.other ≠ (otherIsSat w.tr w.con).2.xPos
    · rw [if_pos ho]
      by_cases hx : (otherIsSat w.tr w.con).2.xPos ≠ 0
      · rw [if_pos hx]
        generalize (otherIsSat w.tr w.con).2 = c at *
        have hx1 : c.xPos = 1 := hI.lay.x.resolve_left hx
        have hf : 1 + 1 < c.fin := hI.fin1
        have hO : Inv { w with con := { c with other := c.xPos } } := Inv.setOther hI hc hr ⟨Nat.le_of_eq hx1.symm, by show c.xPos < c.fin; omega⟩
        cases hs' : (otherIsSat w.tr { c with other := c.xPos }).1 with
        | true =>
          obtain ⟨k1, k2⟩ := hO.other_true hs'
          change (otherIsSat w.tr { c with other := c.xPos }).2 = _ at k1
          rw [k1]
          change Sat _ w.tr w.dl ∨ SatA _ w.tr w.dl at k2
          rw [hd] at k2
          exact ⟨fun _ => ⟨hO.lay, hO.wat, hO.fin1, k2, hcl⟩, fun k => by cases k⟩
        | false =>
          obtain ⟨hI', hr', y1, y2, y3, y4, y5, y6, y7, y8, y9⟩ := hO.other_false hc hs'
          change (otherIsSat w.tr { c with other := c.xPos }).2.xPos = c.xPos at y1
          change (otherIsSat w.tr { c with other := c.xPos }).2.fin = c.fin at y5
          change c.xPos = c.xPos → isTrue w.tr ((otherIsSat w.tr { c with other := c.xPos }).2.lit c.xPos) = false at y8
          refine ⟨fun k => (by cases k), fun _ => ⟨Inv.setOther hI' hc hr ⟨Nat.le_refl _, ?_⟩, hr, (clauses_eq y1 y6 y7).trans hcl, fun _ => ?_⟩⟩
          · show 1 < (otherIsSat w.tr { c with other := c.xPos }).2.fin
            omega
          · have := y8 rfl
            rw [hx1] at this
            rw [← hx1]
            simpa [hx1] using this
      · rw [if_neg hx]
        refine ⟨fun k => (by cases k), fun _ => ⟨Inv.setOther hI hc hr ⟨Nat.le_refl _, ?_⟩, hr, hcl, fun k => ?_⟩⟩
        · have : 1 + 1 < (otherIsSat w.tr w.con).2.fin := hI.fin1
          show 1 < (otherIsSat w.tr w.con).2.fin
          omega
        · change (otherIsSat w.tr w.con).2.xPos = 1 at k
          exact absurd (by omega : (otherIsSat w.tr w.con).2.xPos ≠ 0) hx
    · rw [if_neg ho]
      have ho' : (otherIsSat w.tr w.con).2.other = (otherIsSat w.tr w.con).2.xPos := not_not.1 ho
      refine ⟨fun k => (by rw [hs] at k; cases k), fun _ => ⟨Inv.setOther hI hc hr ⟨Nat.le_refl _, ?_⟩, hr, hcl, fun k => ?_⟩⟩
      · have : 1 + 1 < (otherIsSat w.tr w.con).2.fin := hI.fin1
        show 1 < (otherIsSat w.tr w.con).2.fin
        omega
      · have := x8 (by rw [← x2, ho', x1])
        rw [← x1, k] at this; exact this

theorem rel_sat {tr : List Entry} {c : Con} (h : Sat c tr 0 ∨ SatA c tr 0) : Rel tr c.clauses [] := by
  refine ⟨fun C hC => Or.inl ?_, by simp⟩
  unfold Con.clauses at hC
  rcases h with ⟨b, b1, b2⟩ | ⟨h1, h2⟩
  · split at hC
    · rw [List.mem_singleton] at hC; subst hC; exact ⟨b, b1, b2⟩
    · obtain ⟨a, a1, rfl⟩ := List.mem_map.1 hC
      exact ⟨b, List.mem_cons_of_mem _ b1, b2⟩
  · rw [if_neg (by omega)] at hC
    obtain ⟨a, a1, rfl⟩ := List.mem_map.1 hC
    exact ⟨a, List.mem_cons_self .., h2 a a1⟩

/-- simplification on level 0 -/
theorem Inv.simplify {w : Wd} (h : Inv w) (hc : w.conf = none) (hd : w.dl = 0) (hp : w.pend = []) (imp : Bool) :
    (∀ c, simplify w.tr w.con imp = .keep c → Inv { w with con := c } ∧ Rel w.tr w.con.clauses c.clauses) ∧
    (∀ wat cls, simplify w.tr w.con imp = .gone wat cls → wat = [] ∧ Rel w.tr w.con.clauses cls) := by
  obtain ⟨s1, s2⟩ := simp_sat h hc hd
  unfold Loop.simplify
  dsimp only
  generalize simpSat w.tr w.con = r at *
  obtain ⟨b, c⟩ := r
  dsimp only at s1 s2 ⊢
  cases b with
  | true =>
    rw [if_pos rfl]
    obtain ⟨l1, l2, l3, l4, l5⟩ := s1 rfl
    refine ⟨fun _ k => (by cases k), fun wat cls k => ?_⟩
    cases k
    exact ⟨Wat.detach l1 l2 l3, l5 ▸ rel_sat l4⟩
  | false =>
    rw [if_neg (by simp)]
    obtain ⟨hI, hr, hcl, hsl⟩ := s2 rfl
    have hlay : Lay c := ⟨hI.lay.s0, hI.lay.s1, hI.lay.x, hI.lay.size, hI.lay.bvar, hI.lay.xvar, hI.lay.binj, hI.lay.ab, hI.lay.ai, hI.lay.slot, hI.lay.none⟩
    have hwat : Wat c c.wat := ⟨hI.wat.nod, hI.wat.ok, hI.wat.atom, hI.wat.body⟩
    have hfin : 1 + 1 < c.fin := hI.fin1
    have htl : Trl w.tr 0 [] := by
      have := h.trl
      rw [hd, hp] at this; exact this
    by_cases ht : (c.active 1).any (fun q => isTrue w.tr q.2.1) = true
    · rw [if_pos ht]
      refine ⟨fun _ k => (by cases k), fun wat cls k => ?_⟩
      cases k
      refine ⟨?_, ?_⟩
      · refine detach_nil hwat.nod fun e he => ?_
        rcases hwat.ok e he with ⟨_, k, _⟩ | ⟨k1, k2, k3, k4⟩
        · exact Or.inl k
        · right
          have hx : (simpActive w.tr c).2.1 ≤ c.xPos := by
            unfold simpActive
            dsimp only
            split
            · exact Nat.le_refl _
            · split
              · exact Nat.zero_le _
              · exact Nat.le_refl _
          refine ⟨(e.idx, c.lit e.idx, c.flag e.idx), ?_, k3, k4⟩
          show _ ∈ c.active (1 + (simpActive w.tr c).2.1)
          exact (mem_active hlay (by omega) (by omega)).2 ⟨by dsimp only; omega, k2, rfl⟩
      · rw [← hcl]
        rw [List.any_eq_true] at ht
        obtain ⟨q, q1, q2⟩ := ht
        obtain ⟨a1, a2, a3⟩ := (mem_active hlay (Nat.le_refl 1) (by omega)).1 q1
        rw [a3] at q2
        refine rel_sat (Or.inl ?_)
        refine ⟨c.lit q.1, mem_bodies.2 ⟨q.1, ?_, a2, rfl⟩, (isTrue_at htl (hlay.avar a1 a2)).1 q2⟩
        rcases hlay.x with k | k
        · omega
        · by_contra hlt
          have h1 : q.1 = 1 := by omega
          have := hsl k
          dsimp only at q2
          rw [h1, this] at q2; cases q2
    · rw [if_neg ht]
      have hnt : ∀ i, 1 ≤ i → i < c.fin → isTrue w.tr (c.lit i) = false := by
        intro i i1 i2
        cases hh : isTrue w.tr (c.lit i) with
        | false => rfl
        | true =>
          exact absurd (List.any_eq_true.2 ⟨(i, c.lit i, c.flag i), (mem_active hlay (Nat.le_refl 1) (by omega)).2 ⟨i1, i2, rfl⟩, hh⟩) ht
      have hns : ¬ Sat c w.tr 0 := by
        rintro ⟨b, b1, b2⟩
        obtain ⟨i, i1, i2, rfl⟩ := mem_bodies.1 b1
        have := hnt i (by omega) i2
        rw [(isTrue_at htl (hlay.avar (by omega) i2)).2 b2] at this; cases this
      have hna : ¬ SatA c w.tr 0 := by
        rintro ⟨a1, a2⟩
        have := hnt 1 (by omega) (by omega)
        rw [(isTrue_at htl (hlay.avar (by omega) (by omega))).2 (a2 _ (hlay.slot a1))] at this; cases this
      have hpre : Pre w.tr c := by
        refine ⟨hlay, hI.flags, hwat, htl, hnt, fun i i1 i2 i3 => ?_, fun hx a ha hf => ?_⟩
        · cases hh : isFalse w.tr (c.lit i) with
          | false => rfl
          | true =>
            exfalso
            rcases hI.p i i1 i2 i3 0 ((isFalse_at htl (hlay.avar i1 i2)).1 hh) with k | k | k | k
            · change _ ∈ w.pend at k
              rw [hp] at k; cases k
            · exact hns k
            · exact hna k
            · change w.conf.isSome = true ∧ _ at k
              rw [hc] at k; simp at k
        · rcases hI.q hx a ha 0 ((isFalse_at htl (hlay.xvar a ha)).1 hf) with k | k | k | k
          · change _ ∈ w.pend at k
            rw [hp] at k; cases k
          · exact absurd k hns
          · exact (isFalse_at htl (hlay.avar (by omega) (by omega))).2 k
          · change w.conf.isSome = true ∧ _ at k
            rw [hc] at k; simp at k
      have hpost := hpre.post
      have hfin' : 1 + 1 < (simpNew w.tr c).fin := by
        obtain ⟨f, g, h1, h2, h3, h4, h5, _⟩ := hpost.flags; omega
      have hrel : Rel w.tr w.con.clauses (simpNew w.tr c).clauses := hcl ▸ hpost.rel
      by_cases hsh : (1 < (simpActive w.tr c).1.length ∧ (simpActive w.tr c).1.length < 4) ∧ imp = true
      · rw [if_pos hsh]
        refine ⟨fun _ k => (by cases k), fun wat cls k => ?_⟩
        cases k
        refine ⟨Wat.detach hpost.lay hpost.wat hfin', ?_⟩
        rw [← hpost.cls]; exact hrel
      · rw [if_neg hsh]
        refine ⟨fun c' k => ?_, fun _ _ k => by cases k⟩
        cases k
        refine ⟨?_, hrel⟩
        have hnf : ∀ x : Lit, isFree w.tr x = true → ∀ l, ¬ At w.tr x.neg l := by
          rintro x hx l ⟨f, f1, f2, _⟩
          have := (isFree_iff.1 hx).2
          rw [show isFalse w.tr x = true from isTrue_iff.2 (Or.inr ⟨f, f1, f2⟩)] at this; cases this
        refine ⟨hpost.lay, hpost.flags, hpost.wat, h.trl, ?_, ?_, ?_, ?_, ?_⟩
        · show 1 ≤ (simpNew w.tr c).other ∧ (simpNew w.tr c).other < (simpNew w.tr c).fin
          rw [hpost.other]
          rcases hpost.lay.x with k | k <;> omega
        · intro i i1 i2 _ l hl
          exact absurd hl (hnf _ (hpost.free i i1 i2) l)
        · intro _ a ha l hl
          exact absurd hl (hnf _ (hpost.xfree a ha) l)
        · intro pre f post hf hfr
          change w.tr = _ at hf
          have := hr f (by rw [hf]; simp)
          rw [hfr] at this; cases this
        · intro q hq
          change w.conf = some q at hq
          rw [hc] at hq; cases hq

/-! ### What a notification leaves alone -/

/-- Proof device: only the slot differs. -/
def Same (c d : Con) : Prop := d.xPos = c.xPos ∧ d.fin = c.fin ∧ d.size = c.size ∧ ∀ i, i ≠ c.xPos → d.lit i = c.lit i

theorem Same.rfl' {c : Con} : Same c c := ⟨rfl, rfl, rfl, fun _ _ => rfl⟩

theorem Same.trans {a b c : Con} (h : Same a b) (h' : Same b c) : Same a c :=
  ⟨h'.1.trans h.1, h'.2.1.trans h.2.1, h'.2.2.1.trans h.2.2.1, fun i hi => (h'.2.2.2 i (by rw [h.1]; exact hi)).trans (h.2.2.2 i hi)⟩

theorem Same.clauses {c d : Con} (h : Same c d) (hx : c.xPos < c.fin) : d.clauses = c.clauses := by
  obtain ⟨h1, h2, h3, h4⟩ := h
  refine clauses_eq h1 ?_ ?_
  · unfold Con.bodies
    rw [h1, h2]
    apply List.map_congr_left
    intro i hi
    rw [List.mem_range'_1] at hi
    exact h4 i (by omega)
  · unfold Con.xs
    rw [h2, h3]
    apply List.map_congr_left
    intro i hi
    rw [List.mem_range'_1] at hi
    exact h4 i (by omega)

theorem other_same {tr : List Entry} {c : Con} : Same c (otherIsSat tr c).2 := by
  unfold otherIsSat
  split
  · exact Same.rfl'
  · split
    · exact Same.rfl'
    · split
      · exact ⟨rfl, rfl, rfl, fun i hi => Function.update_of_ne hi ..⟩
      · exact Same.rfl'

theorem force_same {w : Wd} {p : Lit} : (force w p).con = w.con ∧ (force w p).dl = w.dl ∧ ∃ N, (force w p).tr = N ++ w.tr := by
  unfold force
  split
  · exact ⟨rfl, rfl, [], rfl⟩
  · split
    · exact ⟨rfl, rfl, [], rfl⟩
    · exact ⟨rfl, rfl, [_], rfl⟩

theorem forceAll_same : ∀ {ps : List Lit} {w : Wd}, (forceAll ps w).con = w.con ∧ (forceAll ps w).dl = w.dl ∧ ∃ N, (forceAll ps w).tr = N ++ w.tr := by
  intro ps
  induction ps with
  | nil => intro w; exact ⟨rfl, rfl, [], rfl⟩
  | cons p ps ih =>
    intro w
    unfold forceAll
    dsimp only
    obtain ⟨h1, h2, N, h3⟩ := force_same (w := w) (p := p)
    split
    · exact ⟨h1, h2, N, h3⟩
    · obtain ⟨k1, k2, M, k3⟩ := ih (w := force w p)
      exact ⟨k1.trans h1, k2.trans h2, M ++ N, by rw [k3, h3, List.append_assoc]⟩

theorem search_same {w : Wd} {e : Watch} {r : Wd × Option Watch} (h : search w e = some r) : Same w.con r.1.con ∧ r.1.dl = w.dl ∧ ∃ N, r.1.tr = N ++ w.tr := by
  unfold search at h
  have hrep : ∀ pos o up, Same w.con (replace w e pos o up).1.con ∧ (replace w e pos o up).1.dl = w.dl ∧ ∃ N, (replace w e pos o up).1.tr = N ++ w.tr :=
    fun _ _ _ => ⟨Same.rfl', rfl, [], rfl⟩
  have hun : ∀ o up, Same w.con (unit w e o up).1.con ∧ (unit w e o up).1.dl = w.dl ∧ ∃ N, (unit w e o up).1.tr = N ++ w.tr := by
    intro o up
    rw [unit_eq]
    obtain ⟨h1, h2, h3⟩ := forceAll_same (ps := w.con.lit o :: if o = w.con.xPos then w.con.xs else []) (w := { w with con := { w.con with other := o } })
    exact ⟨by rw [h1]; exact Same.rfl', h2, h3⟩
  split at h
  · cases h
  · split at h
    · cases h; exact hrep ..
    · split at h
      · cases h
      · split at h
        · cases h; exact hrep ..
        · cases h; exact hun ..

theorem propagate_same {w : Wd} {e : Watch} {r : Wd × Option Watch} (h : propagate w e = some r) :
    Same w.con r.1.con ∧ r.1.dl = w.dl ∧ ∃ N, r.1.tr = N ++ w.tr := by
  have hos := other_same (tr := w.tr) (c := w.con)
  unfold propagate at h
  dsimp only at h
  generalize hr : otherIsSat w.tr w.con = o at *
  split at h
  · cases h; exact ⟨hos, rfl, [], rfl⟩
  · split at h
    · rename_i hx
      split at h
      · cases h; exact ⟨hos, rfl, [], rfl⟩
      · have hu : Same o.2 { o.2 with lit := Function.update o.2.lit e.idx e.lit } :=
          ⟨rfl, rfl, rfl, fun i hi => Function.update_of_ne (by rw [hx]; exact hi) ..⟩
        split at h
        · cases h; exact ⟨hos.trans hu, rfl, [], rfl⟩
        · obtain ⟨k1, k2, k3⟩ := search_same h
          exact ⟨(hos.trans hu).trans k1, k2, k3⟩
    · obtain ⟨k1, k2, k3⟩ := search_same h
      exact ⟨hos.trans k1, k2, k3⟩

theorem notify_same {w v : Wd} {p : Lit} (h : notify w p = some v) : Same w.con v.con ∧ v.dl = w.dl ∧ ∃ N, v.tr = N ++ w.tr := by
  unfold notify at h
  dsimp only at h
  split at h
  · cases h; exact ⟨Same.rfl', rfl, [], rfl⟩
  · rename_i e he
    rw [Option.map_eq_some_iff] at h
    obtain ⟨r, r1, rfl⟩ := h
    obtain ⟨k1, k2, k3⟩ := propagate_same r1
    have : Same r.1.con (rewatch r).con ∧ (rewatch r).dl = r.1.dl ∧ (rewatch r).tr = r.1.tr := by
      unfold rewatch
      split <;> exact ⟨Same.rfl', rfl, rfl⟩
    obtain ⟨t1, t2, t3⟩ := this
    exact ⟨Same.trans (a := w.con) (b := r.1.con) k1 t1, t2.trans k2, by rw [t3]; exact k3⟩

theorem isOpen_same {tr : List Entry} {c : Con} : Same c (isOpen tr c) := by
  unfold isOpen
  dsimp only
  split
  · exact other_same
  · split
    · exact other_same
    · exact other_same

/-! ### Reachable states -/

theorem Step.inv {w w' : Wd} (h : Inv w) (hs : Step w w') : Inv w' ∧ ∀ old, Rel w.tr old w.con.clauses → Rel w'.tr old w'.con.clauses := by
  have hx : w.con.xPos < w.con.fin := by
    have := h.fin1
    rcases h.lay.x with k | k <;> omega
  cases hs with
  | assign p hc hp => exact ⟨h.push hc hp, fun old hr => hr.mono fun x hx => hx.cons⟩
  | decide p hc hq hp =>
    refine ⟨(h.level hc hq).push hc hp, fun old hr => hr.mono fun x hx => hx.cons⟩
  | notify _ p hc hp hn =>
    obtain ⟨v, v1, v2⟩ := h.notify hc hp
    rw [hn] at v1
    cases v1
    obtain ⟨k1, k2, N, k3⟩ := notify_same hn
    refine ⟨v2, fun old hr => ?_⟩
    rw [k1.clauses hx]
    exact hr.mono fun x hx => by rw [k3]; exact hx.app
  | isOpen hc => exact ⟨h.isOpen hc, fun old hr => by rw [(isOpen_same (tr := w.tr) (c := w.con)).clauses hx]; exact hr⟩
  | undo h0 =>
    refine ⟨h.undo h0, fun old hr => hr.mono fun x hx => ?_⟩
    exact (at_undo h0).2 (hx.mono (Nat.zero_le _))
  | simplify imp c hc hd hp hk =>
    obtain ⟨k1, k2⟩ := (h.simplify hc hd hp imp).1 c hk
    exact ⟨k1, fun old hr => hr.trans k2⟩

/-- the invariant holds in every reachable state, and the formula stands for the clauses it was created from -/
theorem Reach.inv {bodies atoms : List Lit} {w : Wd} (h : Reach bodies atoms w) : Inv w ∧ Rel w.tr (atoms.map fun a => a :: bodies) w.con.clauses := by
  induction h with
  | @init w hs =>
    have hi := Inv.start hs
    refine ⟨hi, ?_⟩
    have h1 : w.con.xs = atoms := by rw [hs.con]; exact layout_xs
    have h2 : w.con.bodies = bodies := by
      rw [hs.con]
      unfold Con.new
      rw [layout_bodies]
      simp only [List.drop_succ_cons, List.drop_zero]
      apply List.ext_getElem
      · simp
      · intro i _ _; simp
    have h3 : w.con.xPos = 1 := by rw [hs.con]; rfl
    unfold Con.clauses
    rw [if_neg (by omega), h1, h2]
    exact Rel.refl
  | step _ hs ih =>
    obtain ⟨k1, k2⟩ := hs.inv ih.1
    exact ⟨k1, k2 _ ih.2⟩

end Clasp.Loop
