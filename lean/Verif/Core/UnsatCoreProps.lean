/-
C25: an unsatisfiable core is a set of assumptions that is inconsistent with the constraints.
-/
import Verif.Core.UnsatCore
namespace Clasp.Core
open St

namespace St
variable {learn : Bool} {F : Th} {s : St}

theorem lev_mono (h : s.WF) {t1 t2 : List Lit} {p q : Lit} (ht : s.trail = t1 ++ p :: t2) (hq : q ∈ t2) : s.level q.var ≤ s.level p.var := by
  obtain ⟨u1, u2, rfl⟩ := List.append_of_mem hq
  have e1 : s.trail.reverse[(u1 ++ q :: u2).length]? = some p := by
    rw [ht]
    simp only [List.reverse_append, List.reverse_cons, List.append_assoc]
    rw [← List.append_assoc, ← List.append_assoc, List.getElem?_append_right (by simp; omega)]
    simp
    rw [show u1.length + (u2.length + 1) - (u2.length + (u1.length + 1)) = 0 by omega]
    rfl
  have e2 : s.trail.reverse[u2.length]? = some q := by
    rw [ht]
    simp
  have h1 := h.lev _ _ e1
  have h2 := h.lev _ _ e2
  unfold level
  rw [h1, h2]
  unfold posLev
  apply List.countP_mono_left
  intro a _ ha
  simp at ha ⊢
  omega

theorem coreMark_seen (r : List Lit) (seen : Nat → Bool) (m : Nat) (v : Nat) :
    (coreMark r seen m).1 v = true ↔ seen v = true ∨ ∃ q ∈ r, q.var = v := by
  induction r generalizing seen m with
  | nil => simp [coreMark]
  | cons q r ih =>
    unfold coreMark
    split
    · rename_i h
      rw [ih]
      grind
    · rw [ih]
      by_cases e : v = q.var
      · subst e; simp
      · rw [Function.update_of_ne e]
        grind

/-- number of marked literals above level 0 -/
def cnt (s : St) (t : List Lit) (seen : Nat → Bool) : Nat := t.countP fun q => seen q.var && decide (0 < s.level q.var)

theorem cnt_upd {t : List Lit} (hn : (t.map Lit.var).Nodup) {q : Lit} (hq : q ∈ t) (hl : 0 < s.level q.var) {seen : Nat → Bool}
    (hs : seen q.var = false) : s.cnt t (Function.update seen q.var true) = s.cnt t seen + 1 := by
  induction t with
  | nil => simp at hq
  | cons p t ih =>
    simp only [List.map_cons, List.nodup_cons] at hn
    rcases List.mem_cons.1 hq with rfl | hq
    · have : s.cnt t (Function.update seen q.var true) = s.cnt t seen := by
        unfold cnt
        apply List.countP_congr
        intro a ha
        have : a.var ≠ q.var := fun e => hn.1 (List.mem_map.2 ⟨a, ha, e⟩)
        rw [Function.update_of_ne this]
      unfold cnt at this ⊢
      rw [List.countP_cons, List.countP_cons, this]
      simp [hs, hl]
    · have hne : p.var ≠ q.var := fun e => hn.1 (List.mem_map.2 ⟨q, hq, e.symm⟩)
      have := ih hn.2 hq
      unfold cnt at this ⊢
      rw [List.countP_cons, List.countP_cons, this, Function.update_of_ne hne]
      omega

theorem coreMark_cnt {t : List Lit} (hn : (t.map Lit.var).Nodup) (r : List Lit) {seen : Nat → Bool} {m : Nat}
    (hr : ∀ q ∈ r, seen q.var = true ∨ (q ∈ t ∧ 0 < s.level q.var)) (hm : m = s.cnt t seen) :
    (coreMark r seen m).2 = s.cnt t (coreMark r seen m).1 := by
  induction r generalizing seen m with
  | nil => exact hm
  | cons q r ih =>
    unfold coreMark
    split
    · exact ih (fun q hq => hr q (List.mem_cons_of_mem _ hq)) hm
    · rename_i hs
      have hs : seen q.var = false := by simpa using hs
      obtain ⟨h1, h2⟩ := (hr q (List.mem_cons_self ..)).resolve_left (by simp [hs])
      refine ih (fun q' hq' => ?_) (by rw [cnt_upd hn h1 h2 hs, hm])
      by_cases e : q'.var = q.var
      · left; rw [e]; simp
      · rw [Function.update_of_ne e]
        exact hr q' (List.mem_cons_of_mem _ hq')

/-- The loop computes decisions that together are inconsistent. -/
theorem coreLoop_spec (hb : s.Base) (hr : s.Sound F) (hfl : s.flip = 0) (h0 : ∀ M, F M → ∀ q ∈ s.trail, s.level q.var = 0 → M.sat q) (Bad : Asg → Prop) :
    ∀ (t t1 : List Lit) (seen : Nat → Bool) (m : Nat) (out : List Lit), s.trail = t1 ++ t →
      (∀ q, s.tl q → s.level q.var = 0 → seen q.var = true) →
      m = s.cnt t seen →
      (∀ M, F M → M.all out → (∀ q ∈ t, seen q.var = true → 0 < s.level q.var → M.sat q) → Bad M) →
      ∃ res, s.coreLoop t seen m out = some res ∧ (∀ M, F M → M.all res → Bad M) ∧
        ∀ p ∈ res, p ∈ out ∨ ∃ i, 1 ≤ i ∧ i ≤ s.dl ∧ p = s.decision i := by
  intro t
  induction t with
  | nil =>
    intro t1 seen m out ht _ hm hB
    have hm : m = 0 := hm
    subst hm
    exact ⟨out, by rw [coreLoop], fun M hM ha => hB M hM ha (by simp), fun p hp => Or.inl hp⟩
  | cons p t ih =>
    intro t1 seen m out ht hz hm hB
    match m with
    | 0 =>
      refine ⟨out, by rw [coreLoop], fun M hM ha => hB M hM ha ?_, fun p hp => Or.inl hp⟩
      intro q hq hs hl
      have := List.countP_eq_zero.1 (show s.cnt (p :: t) seen = 0 from hm.symm) q hq
      simp [hs] at this; omega
    | m + 1 =>
      have hnd : ((p :: t).map Lit.var).Nodup := by
        have := hb.wf.nodup
        rw [ht, List.map_append] at this
        exact (List.nodup_append.1 this).2.1
      have hnd' : p.var ∉ t.map Lit.var ∧ (t.map Lit.var).Nodup := by simpa using hnd
      have ht' : s.trail = (t1 ++ [p]) ++ t := by rw [ht]; simp
      have hne : ∀ q ∈ t, q.var ≠ p.var := fun q hq e => hnd'.1 (List.mem_map.2 ⟨q, hq, e⟩)
      have hpm : p ∈ s.trail := by rw [ht]; simp
      unfold coreLoop
      by_cases hs : seen p.var = true
      · rw [if_pos hs]
        -- the literal is above level 0
        have hlp : 0 < s.level p.var := by
          obtain ⟨q, hq, h1⟩ : ∃ q ∈ p :: t, (seen q.var && decide (0 < s.level q.var)) = true := by
            apply List.countP_pos_iff.1
            show 0 < s.cnt (p :: t) seen
            omega
          simp at h1
          rcases List.mem_cons.1 hq with rfl | hq
          · exact h1.2
          · exact Nat.lt_of_lt_of_le h1.2 (lev_mono hb.wf ht hq)
        have hcu : s.cnt t (Function.update seen p.var false) = m := by
          have e : s.cnt t (Function.update seen p.var false) = s.cnt t seen := by
            unfold cnt
            apply List.countP_congr
            intro a ha
            rw [Function.update_of_ne (hne a ha)]
          have : s.cnt (p :: t) seen = s.cnt t seen + 1 := by
            unfold cnt; rw [List.countP_cons]; simp [hs, hlp]
          omega
        have hz' : ∀ q, s.tl q → s.level q.var = 0 → Function.update seen p.var false q.var = true := by
          intro q hq hl
          rw [Function.update_of_ne (fun e => by rw [e] at hl; omega)]
          exact hz q hq hl
        cases hrp : s.reason p.var with
        | some r =>
          dsimp only
          obtain ⟨r1, r2⟩ := hr.reason t1 p t ht r hrp
          refine ih (t1 ++ [p]) _ _ out ht' ?_ ?_ ?_
          · intro q hq hl
            rw [coreMark_seen]; left; exact hz' q hq hl
          · refine coreMark_cnt hnd'.2 r ?_ hcu.symm
            intro q hq
            by_cases hl : s.level q.var = 0
            · left
              refine hz' q ?_ hl
              rcases r1 q hq with h | h
              · exact Or.inl h
              · right; rw [ht]; simp [h]
            · right
              rcases r1 q hq with h | h
              · exfalso; apply hl; rw [h, litTrue_var]; unfold St.level; rw [hb.c0]
              · exact ⟨h, by omega⟩
          · intro M hM ha hall
            refine hB M hM ha ?_
            have hrM : M.all r := by
              intro q hq
              rcases r1 q hq with h | h
              · rw [h]; exact hr.tt M hM
              · by_cases hl : s.level q.var = 0
                · exact h0 M hM q (by rw [ht]; simp [h]) hl
                · exact hall q h ((coreMark_seen _ _ _ _).2 (Or.inr ⟨q, hq, rfl⟩)) (by omega)
            intro q hq hsq hlq
            rcases List.mem_cons.1 hq with rfl | hq
            · exact r2 M hM hrM
            · exact hall q hq ((coreMark_seen _ _ _ _).2 (Or.inl (by rw [Function.update_of_ne (hne q hq)]; exact hsq))) hlq
        | none =>
          dsimp only
          rw [if_neg (by omega)]
          have hd := hr.null p hpm hrp (by omega)
          rw [if_pos hd]
          obtain ⟨res, e1, e2, e3⟩ := ih (t1 ++ [p]) (Function.update seen p.var false) m (out ++ [p]) ht' hz' hcu.symm (by
            intro M hM ha hall
            refine hB M hM (fun q hq => ha q (by simp [hq])) ?_
            intro q hq hsq hlq
            rcases List.mem_cons.1 hq with rfl | hq
            · exact ha q (by simp)
            · exact hall q hq (by rw [Function.update_of_ne (hne q hq)]; exact hsq) hlq)
          refine ⟨res, e1, e2, fun q hq => ?_⟩
          rcases e3 q hq with h | h
          · rcases List.mem_append.1 h with h | h
            · exact Or.inl h
            · rw [List.mem_singleton.1 h]
              exact Or.inr ⟨s.level p.var, hlp, trail_lev_le hb.wf hpm, hd⟩
          · exact Or.inr h
      · rw [if_neg hs]
        refine ih (t1 ++ [p]) seen (m + 1) out ht' hz ?_ ?_
        · rw [hm]
          unfold cnt; rw [List.countP_cons]; simp [hs]
        · intro M hM ha hall
          refine hB M hM ha ?_
          intro q hq hsq hlq
          rcases List.mem_cons.1 hq with rfl | hq
          · exact absurd hsq hs
          · exact hall q hq hsq hlq

/-- Above level 0 the core is computed, consists of decisions, and is inconsistent. -/
theorem resolveToCore_spec (h : s.Inv learn F) (hfl : s.flip = 0) (h0 : ∀ M, F M → ∀ q ∈ s.trail, s.level q.var = 0 → M.sat q)
    (hc : s.conflict ≠ []) (hd : 0 < s.dl) :
    ∃ res, s.resolveToCore learn = some res ∧ (∀ M, F.G M → ¬ M.all res) ∧ ∀ p ∈ res, ∃ i, 1 ≤ i ∧ i ≤ s.dl ∧ p = s.decision i := by
  have hb := h.base
  have hst : ∀ q ∈ s.coreStart learn, s.tl q := by
    intro q hq
    unfold coreStart at hq
    rcases List.mem_append.1 hq with hq | hq
    · exact h.conf q hq
    · split at hq
      · simp at hq
      · obtain ⟨i, hi, rfl⟩ := List.mem_map.1 hq
        exact Or.inr (decision_mem hb.wf (by omega) (by have := List.mem_range.1 hi; omega)).1
  have h00 : ∀ q, s.tl q → s.level q.var = 0 → s.seen q.var = true := by
    intro q hq hl
    rcases hq with rfl | hq
    · unfold St.seen; rw [litTrue_var, hb.c0]; rfl
    · exact h.m2 hd q hq hl
  refine Exists.elim (coreLoop_spec hb h.sound hfl h0 (fun M => ¬ F.G M) s.trail [] (coreMark (s.coreStart learn) s.seen 0).1
    (coreMark (s.coreStart learn) s.seen 0).2 [] rfl ?_ ?_ ?_) ?_
  rotate_left 3
  · rintro res ⟨e1, e2, e3⟩
    exact ⟨res, e1, fun M hM ha => e2 M (F.sub M hM) ha hM, fun p hp => (e3 p hp).resolve_left (by simp)⟩
  · intro q hq hl
    rw [coreMark_seen]; left; exact h00 q hq hl
  · refine coreMark_cnt hb.wf.nodup _ ?_ ?_
    · intro q hq
      have ht := hst q hq
      by_cases hl : s.level q.var = 0
      · exact Or.inl (h00 q ht hl)
      · right
        rcases ht with ht | ht
        · exfalso; apply hl; rw [ht, litTrue_var]; unfold St.level; rw [hb.c0]
        · exact ⟨ht, by omega⟩
    · symm
      unfold cnt
      rw [List.countP_eq_zero]
      intro q hq hs
      simp at hs
      have := h.m1 q hq hs.1
      omega
  · intro M hM _ hall hG
    have hsat : ∀ q ∈ s.coreStart learn, M.sat q := by
      intro q hq
      rcases hst q hq with ht | ht
      · rw [ht]; exact h.sound.tt M hM
      · by_cases hl : s.level q.var = 0
        · exact h0 M hM q ht hl
        · exact hall q ht ((coreMark_seen _ _ _ _).2 (Or.inr ⟨q, hq, rfl⟩)) (by omega)
    cases learn with
    | true => exact h.confF rfl hc (by omega) M hM (fun q hq => hsat q (List.mem_append.2 (Or.inl hq)))
    | false =>
      refine h.dead hc M hG fun i h1 h2 => hsat _ (List.mem_append.2 (Or.inr ?_))
      rw [if_neg (by simp)]
      exact List.mem_map.2 ⟨i - 1, List.mem_range.2 (by omega), by rw [show i - 1 + 1 = i by omega]⟩

theorem coreLoop_dec (hb : s.Base) : ∀ (t t1 : List Lit) (seen : Nat → Bool) (m : Nat) (out res : List Lit), s.trail = t1 ++ t →
    s.coreLoop t seen m out = some res → ∀ p ∈ res, p ∈ out ∨ ∃ i, 1 ≤ i ∧ i ≤ s.dl ∧ p = s.decision i := by
  intro t
  induction t with
  | nil =>
    intro t1 seen m out res _ h
    match m, h with
    | 0, h => rw [coreLoop] at h; cases h; exact fun p hp => Or.inl hp
    | m + 1, h => simp [coreLoop] at h
  | cons p t ih =>
    intro t1 seen m out res ht h
    have ht' : s.trail = (t1 ++ [p]) ++ t := by rw [ht]; simp
    match m, h with
    | 0, h => rw [coreLoop] at h; cases h; exact fun p hp => Or.inl hp
    | m + 1, h =>
      unfold coreLoop at h
      split at h
      · split at h
        · exact ih _ _ _ _ _ ht' h
        · split at h
          · simp at h
          · rename_i hl
            have := ih _ _ _ _ _ ht' h
            intro q hq
            rcases this q hq with h1 | h1
            · split at h1
              · rename_i hd
                rcases List.mem_append.1 h1 with h1 | h1
                · exact Or.inl h1
                · rw [List.mem_singleton.1 h1]
                  exact Or.inr ⟨_, by omega, trail_lev_le hb.wf (by rw [ht]; simp), hd⟩
              · exact Or.inl h1
            · exact Or.inr h1
      · exact ih _ _ _ _ _ ht' h

theorem mem_dropStep {step : Lit} {l : List Lit} {p : Lit} (h : p ∈ l) : p ∈ dropStep step l ∨ p = step := by
  unfold dropStep
  split
  · simp at h
  · split <;> simp_all
  · rename_i a b r
    split
    · rename_i he
      rcases List.mem_cons.1 h with rfl | h
      · exact Or.inr he
      · left
        rw [← List.dropLast_append_getLast (l := b :: r) (by simp)] at h
        rcases List.mem_append.1 h with h | h
        · exact List.mem_cons_of_mem _ h
        · rw [List.mem_singleton.1 h]; exact List.mem_cons_self ..
    · exact Or.inl h

theorem dropStep_sub {step : Lit} {l : List Lit} {p : Lit} (h : p ∈ dropStep step l) : p ∈ l := by
  unfold dropStep at h
  split at h
  · simp at h
  · split at h <;> simp_all
  · split at h
    · rcases List.mem_cons.1 h with rfl | h
      · exact List.mem_cons_of_mem _ (List.getLast_mem _)
      · exact List.mem_cons_of_mem _ (List.dropLast_subset _ h)
    · exact h

end St

namespace Sys
variable {learn : Bool} {n : Nat} {E : Asg → Prop} {P : Nat → Bool} {x y z : Sys}

/-- What the steps of `detach` preserve. -/
structure Keep (x y : Sys) : Prop where
  orig : y.orig = x.orig
  recs : y.recs = x.recs
  found : y.found = x.found
  root : y.st.root = x.st.root
  flip : y.st.flip = x.st.flip
  dl : y.st.dl ≤ x.st.dl
  dec : ∀ i, 1 ≤ i → i ≤ y.st.dl → y.st.decision i = x.st.decision i

theorem Keep.refl (x : Sys) : Keep x x := ⟨rfl, rfl, rfl, rfl, rfl, Nat.le_refl _, fun _ _ _ => rfl⟩
theorem Keep.trans (h : Keep x y) (k : Keep y z) : Keep x z :=
  ⟨k.orig.trans h.orig, k.recs.trans h.recs, k.found.trans h.found, k.root.trans h.root, k.flip.trans h.flip, Nat.le_trans k.dl h.dl,
   fun i h1 h2 => (k.dec i h1 h2).trans (h.dec i h1 (Nat.le_trans h2 k.dl))⟩

theorem LStep.step (h : LStep learn n E x y) : Step learn n E P x y := by
  cases h with
  | propagate fuel d' ok hc h => exact .propagate fuel d' ok hc h
  | force p r hc hr hF htop => exact .force p r hc hr hF htop
  | implied C id simp shared lr implicit f hc hid hlen hd hF => exact .implied C id simp shared lr implicit f hc hid hlen hd hF

theorem LStep.keep (hn : n < varMax) (hi : x.Inv learn n E P) (h : LStep learn n E x y) : Keep x y := by
  cases h with
  | propagate fuel d' ok hc h =>
    have hb := hi.ok.inv.base
    unfold Db.propagate at h
    rw [Option.map_eq_some_iff] at h
    obtain ⟨⟨d1, ok1⟩, h1, h2⟩ := h
    obtain ⟨q1, q2, q3, q4⟩ := Db.unitPropagate_spec fuel x.db d1 ok1 hi.ok.toOk0 hc h1
    have hstay := Grow.stay q2 hc hb
    have hd : d1.st.dl = x.db.st.dl := by unfold St.dl; rw [q2.lv]
    cases ok1 with
    | true =>
      simp only [Prod.mk.injEq] at h2
      obtain ⟨rfl, rfl⟩ := h2
      exact ⟨rfl, rfl, rfl, q2.root, q2.flip, Nat.le_of_eq hd, fun i h1 h2 => hstay.dec i h1 (by rw [← hd]; exact h2) h2⟩
    | false =>
      simp only [Prod.mk.injEq] at h2
      obtain ⟨rfl, rfl⟩ := h2
      exact ⟨rfl, rfl, rfl, q2.root, q2.flip, Nat.le_of_eq hd, fun i h1 h2 => hstay.dec i h1 (by rw [← hd]; exact h2) h2⟩
  | force p r hc hr hF htop =>
    have hi' := St.Inv.force hi.ok.inv hc hr hF htop
    have e := force_ext (learn := learn) (s := x.st) p (some r)
    have hd := e.down hi.ok.inv.base hi'.base (force_keeps hi.ok.inv.base p _) (force_flp _ _)
    exact ⟨rfl, rfl, rfl, e.root, e.flip, hd.dl, hd.dec⟩
  | implied C id simp shared lr implicit f hc hid hlen hd hF =>
    have hcr := (prep_created (f := f) (shared := shared) (lr := lr) (implicit := implicit) hi.ok (fun _ m => m.2) (hi.lvOk hn) hc hid hlen hd hF).1
    exact ⟨rfl, rfl, rfl, hcr.root, hcr.flip, hcr.down.dl, hcr.down.dec⟩

theorem Settle.spec (hn : n < varMax) (hr : Reach learn n E P x) (h : Settle learn n E x y) : Reach learn n E P y ∧ Keep x y := by
  induction h with
  | refl => exact ⟨hr, Keep.refl _⟩
  | step h1 h2 ih => exact ⟨ih.1.step h2.step, ih.2.trans (h2.keep hn (ih.1.inv hn))⟩

/-- The situation of `detach`: all decisions are among `D`. -/
structure At (learn : Bool) (n : Nat) (E : Asg → Prop) (P : Nat → Bool) (orig : List (List Lit)) (D : Lit → Prop) (x : Sys) : Prop where
  reach : Reach learn n E P x
  orig : x.orig = orig
  recs : x.recs = []
  found : x.found = []
  flip : x.st.flip = 0
  dec : ∀ i, 1 ≤ i → i ≤ x.st.dl → D (x.st.decision i)

variable {O : List (List Lit)} {D D' : Lit → Prop}

theorem At.mono (h : At learn n E P O D x) (hD : ∀ p, D p → D' p) : At learn n E P O D' x :=
  ⟨h.reach, h.orig, h.recs, h.found, h.flip, fun i h1 h2 => hD _ (h.dec i h1 h2)⟩

theorem At.keep (h : At learn n E P O D x) (hr : Reach learn n E P y) (k : Keep x y) : At learn n E P O D y :=
  ⟨hr, k.orig.trans h.orig, k.recs.trans h.recs, k.found.trans h.found, k.flip.trans h.flip, fun i h1 h2 => by
    rw [k.dec i h1 h2]; exact h.dec i h1 (Nat.le_trans h2 k.dl)⟩

/-- the constraints -/
def problem (E : Asg → Prop) (O : List (List Lit)) (M : Asg) : Prop := M.sat litTrue ∧ E M ∧ ∀ C ∈ O, M.satC C

theorem At.g (hn : n < varMax) (h : At learn n E P O D x) {M : Asg} (hM : problem E O M) : (x.th E n).G M := by
  have hb : x.todo E n M := ⟨⟨⟨hM.1, hM.2.1, by rw [h.orig]; exact hM.2.2⟩, by rw [h.recs]; simp⟩, by rw [h.found]; simp⟩
  exact ⟨hb, (h.reach.inv hn).zero M hb⟩

theorem At.path (h : At learn n E P O D x) {M : Asg} (hD : ∀ p, D p → M.sat p) {d : Nat} (hd : d ≤ x.st.dl) : x.db.st.pathSat M d :=
  fun i h1 h2 => hD _ (h.dec i h1 (Nat.le_trans h2 hd))

theorem At.dead (hn : n < varMax) (h : At learn n E P O D x) (hc : x.st.conflict ≠ []) {M : Asg} (hM : problem E O M) : ¬ ∀ p, D p → M.sat p := by
  intro hD
  exact (h.reach.inv hn).ok.inv.dead hc M (h.g hn hM) (h.path hD (Nat.le_refl _))

theorem At.sat (hn : n < varMax) (h : At learn n E P O D x) {p : Lit} (hp : x.st.isTrue p = true) {M : Asg} (hM : problem E O M)
    (hD : ∀ p, D p → M.sat p) : M.sat p := by
  have hi := (h.reach.inv hn).ok.inv
  have ht := (hi.base.isTrue_iff p).1 hp
  exact hi.sound.impl_tl ht (h.g hn hM) (hi.base.level_le ht) (h.path hD (Nat.le_refl _))

theorem PushRoot.spec (hn : n < varMax) (h : At learn n E P O D x) {p : Lit} {ok : Bool} (hp : PushRoot learn n E x p y ok) :
    At learn n E P O (fun q => D q ∨ q = p) y ∧ (ok = false → y.st.conflict ≠ [] ∨ y.st.isFalse p = true) ∧
      (ok = false → y.st.conflict ≠ [] → y.st.dl = 0 → ∀ M, ¬ problem E O M) := by
  have zero : ∀ {y : Sys} {D : Lit → Prop}, At learn n E P O D y → y.st.conflict ≠ [] → y.st.dl = 0 → ∀ M, ¬ problem E O M := by
    intro y D hy hc hd M hM
    refine (hy.reach.inv hn).ok.inv.dead hc M (hy.g hn hM) fun i h1 h2 => ?_
    have h2 : i ≤ y.st.dl := h2
    omega
  cases hp with
  | conflict hc => exact ⟨h.mono fun _ => Or.inl, fun _ => Or.inl hc, fun _ hc hd => zero h hc hd⟩
  | queue hc hf hs hy =>
    obtain ⟨s1, s2⟩ := hs.spec hn h.reach
    exact ⟨(h.keep s1 s2).mono fun _ => Or.inl, fun _ => Or.inl hy, fun _ hc hd => zero (h.keep s1 s2) hc hd⟩
  | assigned hc hs hy hf hv =>
    obtain ⟨s1, s2⟩ := hs.spec hn h.reach
    refine ⟨(h.keep s1 s2).mono fun _ => Or.inl, fun ho => Or.inr ?_, fun _ hc => absurd hy hc⟩
    rcases value_cases y.st p with h1 | h1 | h1
    · exact absurd h1 hv
    · rw [h1] at ho; simp at ho
    · exact h1
  | assume hc hs hy hf hv hnv hz ok hok hno =>
    rename_i y'
    obtain ⟨s1, s2⟩ := hs.spec hn h.reach
    have hat := h.keep s1 s2
    have hb := (s1.inv hn).ok.inv.base
    have hd : At learn n E P O (fun q => D q ∨ q = p) (y'.setSt (y'.st.decide' p)) := by
      refine ⟨s1.step (.decide p hy hf hv hnv), hat.orig, hat.recs, hat.found, hat.flip, fun i h1 h2 => ?_⟩
      show D ((y'.st.decide' p).decision i) ∨ (y'.st.decide' p).decision i = p
      have h2 : i ≤ (y'.st.decide' p).dl := h2
      rw [decide_dl] at h2
      by_cases hi : i ≤ y'.st.dl
      · left; exact (decide_decision hb.wf p h1 hi) ▸ hat.dec i h1 hi
      · right
        rw [show i = y'.st.dl + 1 by omega, decide_new]
    obtain ⟨z1, z2⟩ := hz.spec hn hd.reach
    exact ⟨hd.keep z1 z2, fun ho => Or.inl (hno ho), fun _ hc hd' => zero (hd.keep z1 z2) hc hd'⟩

/-- **C25.** Let `x` be a solver without assumptions in which no model was reported, and let `path` be assumptions that are not
satisfiable (C15). However propagation proceeds, the reported core consists of assumptions (and possibly the step literal), and no
assignment satisfies the constraints, the step literal and the core. -/
theorem C25_core (hn : n < varMax) {step : Lit} {x : Sys} {path core : List Lit} (hr : Reach learn n E P x) (h1 : x.recs = []) (h2 : x.found = [])
    (h3 : x.st.dl = 0) (hU : ¬ ∃ M, problem E x.orig M ∧ M.sat step ∧ M.all path) (h : Detach learn n E step x path [] core) :
    (∀ p ∈ core, p ∈ path ∨ (p = step ∧ step.var ≠ 0)) ∧ ¬ ∃ M, problem E x.orig M ∧ M.sat step ∧ M.all core := by
  generalize hO : x.orig = O at hU ⊢
  have key : ∀ {x : Sys} {ps c res : List Lit}, Detach learn n E step x ps c res →
      At learn n E P O (fun q => q ∈ c ∨ q = step) x → (∀ M, problem E O M → M.sat step → M.all c → ¬ M.all ps) →
      (∀ p ∈ res, p ∈ c ∨ p ∈ ps ∨ (p = step ∧ p.var ≠ 0)) ∧ ∀ M, problem E O M → M.sat step → ¬ M.all res := by
    intro x ps c res hd
    induction hd with
    | done => intro _ hU; exact ⟨fun p hp => Or.inl hp, fun M hM hs ha => hU M hM hs ha (fun p hp => by simp at hp)⟩
    | @skip x p ps c res hp _ ih =>
      intro hat hU
      obtain ⟨i1, i2⟩ := ih hat (fun M hM hs hc ha => hU M hM hs hc (by
        intro q hq
        rcases List.mem_cons.1 hq with rfl | hq
        · rcases hp with hp | hp
          · exact hat.sat hn hp hM (fun a h => h.elim (hc a) (fun e => e ▸ hs))
          · exact hp ▸ hs
        · exact ha q hq))
      exact ⟨fun q hq => (i1 q hq).imp id (Or.imp (List.mem_cons_of_mem _) id), i2⟩
    | @stepFail x y p ps c hp hs h =>
      intro hat _
      obtain ⟨q1, q2, _⟩ := h.spec hn hat
      refine ⟨fun q hq => Or.inl hq, fun M hM hst ha => ?_⟩
      have hD : ∀ a, ((a ∈ c ∨ a = step) ∨ a = step) → M.sat a := fun a h => h.elim (fun h => h.elim (ha a) (fun e => e ▸ hst)) (fun e => e ▸ hst)
      rcases q2 rfl with hc | hf
      · exact q1.dead hn hc hM hD
      · rw [isFalse_eq] at hf
        exact (Asg.sat_neg M step).1 (q1.sat hn hf hM hD) hst
    | @push x y z p ps c res hp hs hz _ ih =>
      intro hat hU
      have hy : At learn n E P O (fun q => q ∈ c ∨ q = step) y := by
        rcases hs with ⟨_, rfl⟩ | ⟨_, hs⟩
        · exact hat
        · exact (hs.spec hn hat).1.mono (fun q h => h.elim id Or.inr)
      obtain ⟨i1, i2⟩ := ih ((hz.spec hn hy).1.mono fun q h => by simp; tauto) (fun M hM hst hc ha => hU M hM hst (fun a h => hc a (by simp [h])) (by
        intro q hq
        rcases List.mem_cons.1 hq with rfl | hq
        · exact hc q (by simp)
        · exact ha q hq))
      refine ⟨fun q hq => ?_, i2⟩
      have := i1 q hq
      simp at this ⊢; tauto
    | @false x y z p ps c hp hs hz hf =>
      intro hat _
      have hy : At learn n E P O (fun q => q ∈ c ∨ q = step) y := by
        rcases hs with ⟨_, rfl⟩ | ⟨_, hs⟩
        · exact hat
        · exact (hs.spec hn hat).1.mono (fun q h => h.elim id Or.inr)
      obtain ⟨q1, _, _⟩ := hz.spec hn hy
      refine ⟨fun q hq => by simp at hq ⊢; tauto, fun M hM hst ha => ?_⟩
      rw [isFalse_eq] at hf
      have hps := ha p (by simp)
      refine (Asg.sat_neg M p).1 (q1.sat hn hf hM fun a h => ?_) hps
      rcases h with (h | rfl) | rfl
      · exact ha a (by simp [h])
      · exact hst
      · exact hps
    | @resolve x y z p ps c out hp hs hz hf hrc =>
      intro hat _
      have hy : At learn n E P O (fun q => q ∈ c ∨ q = step) y := by
        rcases hs with ⟨_, rfl⟩ | ⟨_, hs⟩
        · exact hat
        · exact (hs.spec hn hat).1.mono (fun q h => h.elim id Or.inr)
      obtain ⟨q1, q2, q3⟩ := hz.spec hn hy
      have hc := (q2 rfl).resolve_right hf
      have hi := q1.reach.inv hn
      refine ⟨fun q hq => ?_, ?_⟩
      · obtain ⟨i, j1, j2, e⟩ := (coreLoop_dec hi.ok.inv.base _ [] _ _ _ _ rfl hrc q (dropStep_sub hq)).resolve_left (by simp)
        have := q1.dec i j1 j2
        have hv := hi.ok.inv.base.toff _ (decision_mem hi.ok.inv.base.wf j1 j2).1
        rw [← e] at hv
        rw [show z.st.decision i = q from e.symm] at this
        rcases this with (h | h) | h
        · exact Or.inl h
        · exact Or.inr (Or.inr ⟨h, hv⟩)
        · exact Or.inr (Or.inl (h ▸ List.mem_cons_self ..))
      · by_cases hd : z.st.dl = 0
        · exact fun M hM => absurd hM (q3 rfl hc hd M)
        · intro M hM hst ha
          obtain ⟨res, e1, e2, _⟩ := resolveToCore_spec hi.ok.inv q1.flip (fun M hM => hM.2) hc (by show 0 < z.st.dl; omega)
          change z.st.resolveToCore learn = some res at e1
          rw [hrc] at e1
          cases e1
          refine e2 M (q1.g hn hM) fun a haa => ?_
          rcases mem_dropStep (step := step) haa with h | rfl
          · exact ha a h
          · exact hst
  have hfl : x.st.flip = 0 := by
    have : x.st.flip ≤ x.st.dl := (hr.inv hn).ok.inv.base.wf.fd
    omega
  obtain ⟨k1, k2⟩ := key h ⟨hr, hO, h1, h2, hfl, fun i j1 j2 => by omega⟩ (fun M hM hs _ ha => hU ⟨M, hM, hs, ha⟩)
  exact ⟨fun p hp => ((k1 p hp).resolve_left (by simp)).imp (fun h => h) (fun ⟨h, h'⟩ => ⟨h, h ▸ h'⟩), fun ⟨M, hM, hs, ha⟩ => k2 M hM hs ha⟩

/-- **C25 (no step literal).** When clasp is not used incrementally the step literal is the true literal: the core is a subset of
the assumptions and inconsistent with the constraints. -/
theorem C25_assumptions (hn : n < varMax) {x : Sys} {path core : List Lit} (hr : Reach learn n E P x) (h1 : x.recs = []) (h2 : x.found = [])
    (h3 : x.st.dl = 0) (hU : ¬ ∃ M, problem E x.orig M ∧ M.all path) (h : Detach learn n E litTrue x path [] core) :
    (∀ p ∈ core, p ∈ path) ∧ ¬ ∃ M, problem E x.orig M ∧ M.all core := by
  obtain ⟨k1, k2⟩ := C25_core hn hr h1 h2 h3 (fun ⟨M, hM, _, ha⟩ => hU ⟨M, hM, ha⟩) h
  exact ⟨fun p hp => (k1 p hp).resolve_right (fun h => h.2 rfl), fun ⟨M, hM, ha⟩ => k2 ⟨M, hM, hM.1, ha⟩⟩

/-- **C25 (no step literal left).** With a step literal the same holds for the assumptions given by the user, unless the step literal
itself is in the core. -/
theorem C25_incremental_partial (hn : n < varMax) {step : Lit} {x : Sys} {path core : List Lit} (hr : Reach learn n E P x) (h1 : x.recs = [])
    (h2 : x.found = []) (h3 : x.st.dl = 0) (hU : ¬ ∃ M, problem E x.orig M ∧ M.sat step ∧ M.all path)
    (h : Detach learn n E step x (path ++ [step]) [] core) (hs : step ∉ core) :
    (∀ p ∈ core, p ∈ path) ∧ ¬ ∃ M, problem E x.orig M ∧ M.sat step ∧ M.all core := by
  obtain ⟨k1, k2⟩ := C25_core hn hr h1 h2 h3 (fun ⟨M, hM, hst, ha⟩ => hU ⟨M, hM, hst, fun q hq => ha q (by simp [hq])⟩) h
  refine ⟨fun p hp => ?_, k2⟩
  have hne : p ≠ step := fun e => hs (e ▸ hp)
  rcases k1 p hp with h | h
  · simp at h; exact h.resolve_right hne
  · exact absurd h.1 hne

/-- **C25 (computed).** With a conflict above level 0 and only decisions of the user on the trail, the computation of the core
succeeds: every literal it looks at is above level 0, so the assertion and the access to the decision literal are fine. -/
theorem C25_defined (hn : n < varMax) {x : Sys} (hr : Reach learn n E P x) (hf : x.st.flip = 0) (hc : x.st.conflict ≠ []) (hd : 0 < x.st.dl) :
    ∃ core, x.st.resolveToCore learn = some core ∧ ∀ p ∈ core, ∃ i, 1 ≤ i ∧ i ≤ x.st.dl ∧ p = x.st.decision i := by
  obtain ⟨res, e1, _, e3⟩ := resolveToCore_spec (hr.inv hn).ok.inv hf (fun M hM => hM.2) hc hd
  exact ⟨res, e1, e3⟩

/-! ### Concrete runs -/

namespace CoreEx
open Ex

/-- the clauses {¬1, ¬2, 4} and {¬1, ¬2, ¬4} -/
def c2 : Sys := add (add init [nega 1, nega 2, pos 4] 0) [nega 1, nega 2, nega 4] 1
def dec (x : Sys) (p : Lit) : Sys := x.setSt (x.st.decide' p)

theorem r2 : Reach true 4 T A c2 :=
  (Reach.init.step (.clause [nega 1, nega 2, pos 4] 0 true false true (by decide +kernel) rfl rfl (by decide +kernel) (by decide +kernel)
    (by decide +kernel) (Or.inl rfl))).step (.clause [nega 1, nega 2, nega 4] 1 true false true (by decide +kernel) rfl rfl (by decide +kernel)
    (by decide +kernel) (by decide +kernel) (Or.inl rfl))

theorem settle {x : Sys} (hc : x.st.conflict = []) (hs : (x.db.propagate true 20).isSome = true) : Settle true 4 T x (next x) := by
  refine .step (.refl _) ?_
  unfold next
  cases hh : x.db.propagate true 20 with
  | none => rw [hh] at hs; simp at hs
  | some r => exact .propagate 20 r.1 r.2 hc hh

theorem push_ok {x : Sys} {p : Lit} (hc : x.st.conflict = []) (hf : x.st.front = x.st.trail.length) (hv : x.st.value p.var = none) (hn : p.var ≤ 4)
    (hs : ((dec x p).db.propagate true 20).isSome = true) (ok : Bool)
    (h : (next (dec x p)).st.conflict = [] ∧ (next (dec x p)).st.front = (next (dec x p)).st.trail.length ∧ ok = true ∨
      (next (dec x p)).st.conflict ≠ [] ∧ ok = false) :
    PushRoot true 4 T x p (next (dec x p)) ok :=
  .assume hc (.refl _) hc hf hv hn (settle hc hs) ok (fun e => by subst e; unfold dec at h; simpa using h)
    (fun e => by subst e; unfold dec at h; simpa using h)

/-- Assumptions 3, 1, 2: the core is {2, 1}. -/
theorem run_plain : Detach true 4 T litTrue c2 [pos 3, pos 1, pos 2] [] [pos 2, pos 1] := by
  refine .push (z := next (dec c2 (pos 3))) (by decide +kernel) (Or.inl ⟨by decide +kernel, rfl⟩)
    (push_ok (by decide +kernel) (by decide +kernel) (by decide +kernel) (by decide +kernel) (by decide +kernel) true (by decide +kernel)) ?_
  refine .push (z := next (dec (next (dec c2 (pos 3))) (pos 1))) (by decide +kernel) (Or.inl ⟨by decide +kernel, rfl⟩)
    (push_ok (by decide +kernel) (by decide +kernel) (by decide +kernel) (by decide +kernel) (by decide +kernel) true (by decide +kernel)) ?_
  exact .resolve (z := next (dec (next (dec (next (dec c2 (pos 3))) (pos 1))) (pos 2))) (out := [pos 2, pos 1]) (by decide +kernel) (Or.inl ⟨by decide +kernel, rfl⟩)
    (push_ok (by decide +kernel) (by decide +kernel) (by decide +kernel) (by decide +kernel) (by decide +kernel) false (by decide +kernel)) (by decide +kernel)
    (by decide +kernel)

/-- Step literal 1, assumption 2: the core computed is [2, 1], whose first element is not the step literal. -/
theorem run_step : Detach true 4 T (pos 1) c2 ([pos 2] ++ [pos 1]) [] [pos 2, pos 1] := by
  exact .resolve (y := next (dec c2 (pos 1))) (z := next (dec (next (dec c2 (pos 1))) (pos 2))) (out := [pos 2, pos 1]) (by decide +kernel)
    (Or.inr ⟨by decide +kernel,
      push_ok (by decide +kernel) (by decide +kernel) (by decide +kernel) (by decide +kernel) (by decide +kernel) true (by decide +kernel)⟩)
    (push_ok (by decide +kernel) (by decide +kernel) (by decide +kernel) (by decide +kernel) (by decide +kernel) false (by decide +kernel)) (by decide +kernel)
    (by decide +kernel)

theorem unsat {M : Asg} (h : problem T c2.orig M) (h1 : M.sat (pos 1)) (h2 : M.sat (pos 2)) : False := by
  obtain ⟨a, ha, hs⟩ := h.2.2 [nega 1, nega 2, nega 4] (by decide +kernel)
  obtain ⟨b, hb, ht⟩ := h.2.2 [nega 1, nega 2, pos 4] (by decide +kernel)
  simp [Asg.sat, pos, nega, Lit.tv] at *
  rcases ha with rfl | rfl | rfl <;> rcases hb with rfl | rfl | rfl <;> simp_all

/-- The hypotheses of `C25_core` and `C25_assumptions` can be met, with an assumption (3) that is not in the core. -/
example : (∀ p ∈ [pos 2, pos 1], p ∈ [pos 3, pos 1, pos 2]) ∧ ¬ ∃ M, problem T c2.orig M ∧ M.all [pos 2, pos 1] :=
  C25_assumptions (by decide) r2 rfl rfl (by decide +kernel) (fun ⟨_, h, ha⟩ => unsat h (ha _ (by simp)) (ha _ (by simp))) run_plain

example : ∃ core, (next (dec (next (dec c2 (pos 1))) (pos 2))).st.resolveToCore true = some core ∧ ∀ p ∈ core, ∃ i, 1 ≤ i ∧ i ≤ 2 ∧
    p = (next (dec (next (dec c2 (pos 1))) (pos 2))).st.decision i := by
  have hr : Reach true 4 T A (next (dec (next (dec c2 (pos 1))) (pos 2))) := by
    have h1 := (settle (x := dec c2 (pos 1)) (by decide +kernel) (by decide +kernel)).spec (P := A) (by decide)
      (r2.step (.decide (pos 1) (by decide +kernel) (by decide +kernel) (by decide +kernel) (by decide +kernel)))
    exact ((settle (x := dec (next (dec c2 (pos 1))) (pos 2)) (by decide +kernel) (by decide +kernel)).spec (by decide)
      (h1.1.step (.decide (pos 2) (by decide +kernel) (by decide +kernel) (by decide +kernel) (by decide +kernel)))).1
  exact C25_defined (by decide) hr (by decide +kernel) (by decide +kernel) (by decide +kernel)

/-- **C25 (defect).** With a step literal the reported core need not be a subset of the assumptions of the user: the literals of the
core are ordered from the newest to the oldest decision, so that the step literal, which is decided first, is the last element,
whereas solve_algorithms.cpp:316 looks for it at the front. -/
theorem C25_step_literal : ∃ (x : Sys) (step : Lit) (path core : List Lit), Reach true 4 T A x ∧ x.recs = [] ∧ x.found = [] ∧ x.st.dl = 0 ∧
    (¬ ∃ M, problem T x.orig M ∧ M.sat step ∧ M.all path) ∧ Detach true 4 T step x (path ++ [step]) [] core ∧ ¬ ∀ p ∈ core, p ∈ path :=
  ⟨c2, pos 1, [pos 2], [pos 2, pos 1], r2, rfl, rfl, by decide +kernel, fun ⟨_, h, h1, ha⟩ => unsat h h1 (ha _ (by simp)), run_step, by decide⟩

end CoreEx

end Sys
end Clasp.Core
