/- C22: every step preserves the invariant of weight constraint propagation. -/
import Verif.Weight.PropInv
namespace Clasp.WC
open Core Weight

theorem Inv.close {q : Par} {c : Side} {w : Wd} (h : Inv q (some c) w)
    (ha : w.con.active = some c → q.en (!c) = false ∨ (0, c) ∈ w.con.stack ∨
      (∃ l, Lv w.tr (sub q.lits 0 c) l ∧ (∀ u ∈ w.con.stack, At w.tr (sub q.lits u.1 u.2).neg l) ∧
        (∃ u ∈ w.con.stack, Lv w.tr (sub q.lits u.1 u.2).neg l) ∧ w.con.bound c ≤ 0 ∧ ∀ c', (0, c') ∉ w.con.stack) ∨
      (w.conf.isSome = true ∧ (∃ l, Lv w.tr (sub q.lits 0 c).neg l) ∧ ∃ u ∈ w.con.stack, Lv w.tr (sub q.lits u.1 u.2).neg w.dl))
    (hp : w.conf = none → q.en c = true → Prp q w.tr w.con.stack c w.dl) : Inv q none w :=
  { h with
    act := by
      intro c' hc'
      rcases h.act c' hc' with h1 | h1
      · simp only [Option.some.injEq] at h1; subst h1; exact .inr (ha hc')
      · exact .inr h1
    prp := by
      intro c' hen l hl hx
      by_cases hcc : c' = c
      · subst hcc
        rcases hx with hx | ⟨hx, _⟩
        · exact h.prp c' hen l hl (.inl hx)
        · rcases Nat.lt_or_ge l w.dl with h1 | h1
          · exact h.prp c' hen l hl (.inl h1)
          · rw [show l = w.dl by omega]; exact hp hx hen
      · exact h.prp c' hen l hl (hx.imp id fun h => ⟨h.1, by simpa using fun e => hcc e.symm⟩) }

theorem Inv.setAct {q : Par} {c : Side} {w : Wd} (h : Inv q (some c) w) (ha : w.con.active ≠ some (!c)) :
    Inv q (some c) { w with con := { w.con with active := some c } } :=
  have hcc : ∀ c', w.con.active = some c' → c' = c := by
    intro c' hc'; rw [hc'] at ha; cases c <;> cases c' <;> simp_all
  have hr : ∀ {tr post l p d}, Rsn q w.con tr post l p d → Rsn q { w.con with active := some c } tr post l p d := by
    rintro tr post l p d ⟨c', s, a1, a2⟩
    obtain rfl := hcc c' a1
    exact ⟨c', s, rfl, a2⟩
  { lits := h.lits, isW := h.isW, nod := h.nod, lev := h.lev, pendA := h.pendA, pendN := h.pendN, pendS := h.pendS, stk := h.stk,
    stkN := h.stkN, stkO := h.stkO, seen := h.seen, bnd := h.bnd, und := h.und, on0 := h.on0, wat := h.wat, prp := h.prp, bp := h.bp
    act := fun c' hc' => .inl hc'
    proc := by
      intro c' hen i hi l hl
      rcases h.proc c' hen i hi l hl with h1 | h1 | h1 | ⟨h1, h2⟩
      · exact .inl h1
      · exact .inr (.inl h1)
      · exact .inr (.inr (.inl h1))
      · exact .inr (.inr (.inr ⟨h1, by rw [← hcc _ h2]⟩))
    rsn := fun pre e post d he hd => hr (h.rsn pre e post d he hd)
    cnf := fun p d hp => ⟨(h.cnf p d hp).1, hr (h.cnf p d hp).2⟩ }

theorem Inv.setConf {q : Par} {c : Side} {w : Wd} {p : Lit} {d : Option Nat} (h : Inv q (some c) w) (hc : w.conf = none)
    (hp : ∃ l, Lv w.tr p.neg l) (hr : Rsn q w.con w.tr w.tr w.dl p d) : Inv q (some c) { w with conf := some (p, d) } :=
  { lits := h.lits, isW := h.isW, nod := h.nod, lev := h.lev, pendA := h.pendA, pendN := h.pendN, pendS := h.pendS, stk := h.stk,
    stkN := h.stkN, stkO := h.stkO, seen := h.seen, bnd := h.bnd, und := h.und, on0 := h.on0, wat := h.wat, bp := h.bp, proc := h.proc
    rsn := h.rsn
    act := by
      intro c' hc'
      rcases h.act c' hc' with h1 | h1 | h1 | h1 | ⟨h1, _⟩
      · exact .inl h1
      · exact .inr (.inl h1)
      · exact .inr (.inr (.inl h1))
      · exact .inr (.inr (.inr (.inl h1)))
      · rw [hc] at h1; cases h1
    prp := by
      intro c' hen l hl hx
      rcases hx with hx | ⟨hx, _⟩
      · exact h.prp c' hen l hl (.inl hx)
      · cases hx
    cnf := by
      intro p' d' e
      simp only [Option.some.injEq, Prod.mk.injEq] at e
      obtain ⟨rfl, rfl⟩ := e
      exact ⟨hp, hr⟩ }

/-- `force` with a valid reason. -/
theorem Inv.force {q : Par} {c : Side} {w : Wd} {p : Lit} {d : Option Nat} (h : Inv q (some c) w) (hc : w.conf = none)
    (hr : isTrue w.tr p = false → Rsn q w.con w.tr w.tr w.dl p d) :
    Inv q (some c) (WC.force w p d) ∧ (WC.force w p d).con = w.con ∧ (WC.force w p d).dl = w.dl ∧
    (∀ x l, Lv w.tr x l → Lv (WC.force w p d).tr x l) ∧
    ((WC.force w p d).conf = none → ∃ l, Lv (WC.force w p d).tr p l) ∧
    ((WC.force w p d).conf ≠ none → ∃ l, Lv (WC.force w p d).tr p.neg l) ∧
    (isTrue w.tr p = false → (WC.force w p d).conf = none → Lv (WC.force w p d).tr p w.dl) := by
  unfold WC.force
  by_cases h1 : isTrue w.tr p
  · rw [if_pos h1]
    exact ⟨h, rfl, rfl, fun _ _ h => h, fun _ => isTrue_iff.1 h1, fun hn => absurd hc hn, fun hf => absurd h1 (by simp [hf])⟩
  · have h1' : isTrue w.tr p = false := by simpa using h1
    rw [if_neg h1]
    by_cases h2 : isTrue w.tr p.neg
    · rw [if_pos h2]
      exact ⟨h.setConf hc (isTrue_iff.1 h2) (hr h1'), rfl, rfl, fun _ _ h => h, fun hn => (by cases hn), fun _ => isTrue_iff.1 h2, fun _ hn => by cases hn⟩
    · rw [if_neg h2]
      have hfree : assigned w.tr p.var = false := by
        cases ha : assigned w.tr p.var
        · rfl
        · exfalso
          obtain ⟨x, l, hx, hl⟩ := assigned_iff.1 ha
          rcases Lit.eq_or_neg hx with rfl | rfl
          · exact h1 (isTrue_iff.2 ⟨l, hl⟩)
          · exact h2 (isTrue_iff.2 ⟨l, hl⟩)
      refine ⟨h.push hc hfree fun d' hd => ?_, rfl, rfl, fun x l hx => lv_push.2 (.inr hx), fun _ => ⟨_, lv_push.2 (.inl ⟨rfl, rfl⟩)⟩, fun hn => absurd hc hn, fun _ _ => lv_push.2 (.inl ⟨rfl, rfl⟩)⟩
      simp only [Option.some.injEq] at hd; subst hd
      exact hr h1'

theorem Inv.rsnStack {q : Par} {X : Option Side} {w : Wd} (h : Inv q X w) {c : Side} (hen : q.en c = true) (ha : w.con.active = some c) {p : Lit}
    (hp : (p = sub q.lits 0 c ∧ (∀ c', (0, c') ∉ w.con.stack) ∧ w.con.bound c ≤ 0) ∨
     ((0, c) ∈ w.con.stack ∧ ∃ j, 1 ≤ j ∧ j < q.lits.length ∧ p = sub q.lits j c ∧ (∀ c', (j, c') ∉ w.con.stack) ∧
        w.con.bound c - wOf q.lits j < 0)) :
    Rsn q w.con w.tr w.tr w.dl p (if w.con.isW then some w.con.stack.length else none) := by
  refine ⟨c, w.con.stack, ha, List.suffix_rfl, fun hw => by rw [h.isW, hw]; rfl, fun hw => ⟨by rw [h.isW, hw]; rfl, rfl⟩, fun u hu => h.stkdl hu, ?_⟩
  rw [← h.bnd]
  rcases hp with ⟨h1, h2, h3⟩ | ⟨h1, j, h2⟩
  · exact .inl ⟨⟨h1, hen⟩, h2, h3, fun u hu => h.stkdl hu⟩
  · exact .inr ⟨h1, j, h2⟩

/-- Backward propagation. -/
theorem Inv.backward {q : Par} {c : Side} {d : Option Nat} (k : Nat) : ∀ (n : Nat) (w : Wd), Inv q (some c) w → w.conf = none → 
    w.con.active ≠ some (!c) → (0, c) ∈ w.con.stack → 1 ≤ n → n + k = q.lits.length → 
    d = (if w.con.isW then some w.con.stack.length else none) →
    (∀ i, 1 ≤ i → i < n → (∃ c', (i, c') ∈ w.con.stack) ∨ ∃ l, Lv w.tr (sub q.lits i c) l) →
    let r := WC.backward c d k n w
    Inv q (some c) r.1 ∧ r.1.con.stack = w.con.stack ∧ r.1.dl = w.dl ∧ r.1.con.bp = w.con.bp ∧ (∀ x l, Lv w.tr x l → Lv r.1.tr x l) ∧
    (r.2.2 = true ↔ r.1.conf = none) ∧
    (r.2.2 = true → n ≤ r.2.1 ∧ r.2.1 ≤ q.lits.length ∧ (r.2.1 < q.lits.length → 0 ≤ r.1.con.bound c - wOf q.lits r.2.1) ∧
      ∀ i, 1 ≤ i → i < r.2.1 → (∃ c', (i, c') ∈ r.1.con.stack) ∨ ∃ l, Lv r.1.tr (sub q.lits i c) l) := by
  induction k with
  | zero =>
    intro n w h hc ha h0 hn hk hd hdone
    exact ⟨h, rfl, rfl, rfl, fun _ _ h => h, by simp [WC.backward, hc], fun _ => ⟨Nat.le_refl _, by simp [WC.backward]; omega, fun hlt => by simp [WC.backward] at hlt; omega, hdone⟩⟩
  | succ k ih =>
    intro n w h hc ha h0 hn hk hd hdone
    unfold WC.backward
    by_cases hb : w.con.bound c - wOf w.con.lits n < 0
    · rw [if_pos hb]
      rw [h.lits] at hb
      by_cases hs : w.con.seen n
      · rw [if_pos hs]
        have hdone' : ∀ i, 1 ≤ i → i < n + 1 → (∃ c', (i, c') ∈ w.con.stack) ∨ ∃ l, Lv w.tr (sub q.lits i c) l := by
          intro i h1 h2
          by_cases e : i = n
          · subst e; exact .inl ((h.seen i).1 hs)
          · exact hdone i h1 (by omega)
        obtain ⟨r1, r2, r3, r4, r5, r6, r7⟩ := ih (n + 1) w h hc ha h0 (by omega) (by omega) hd hdone'
        exact ⟨r1, r2, r3, r4, r5, r6, fun hr => ⟨by have := (r7 hr).1; omega, (r7 hr).2⟩⟩
      · rw [if_neg hs]
        have hns : ∀ c', (n, c') ∉ w.con.stack := fun c' hm => hs ((h.seen n).2 ⟨c', hm⟩)
        have h1 := h.setAct ha
        have hf := h1.force (p := sub w.con.lits n c) (d := d) hc (by
          intro _
          rw [hd]
          refine h1.rsnStack (h.stk _ h0).2.1 rfl (.inr ⟨h0, n, hn, by omega, by rw [h.lits], hns, hb⟩))
        obtain ⟨f1, f2, f3, f4, f5, f6, f7⟩ := hf
        dsimp only
        generalize hg : WC.force { w with con := { w.con with active := some c } } (sub w.con.lits n c) d = w' at *
        by_cases hcf : w'.conf.isSome
        · rw [if_pos hcf]
          refine ⟨f1, by rw [f2], f3, by rw [f2], f4, ?_, fun hr => by cases hr⟩
          simp only [Bool.false_eq_true, false_iff]
          intro e; rw [e] at hcf; cases hcf
        · rw [if_neg hcf]
          have hcn : w'.conf = none := by cases e : w'.conf; · rfl
                                          · rw [e] at hcf; exact absurd rfl hcf
          obtain ⟨r1, r2, r3, r4, r5, r6, r7⟩ := ih (n + 1) w' f1 hcn (by rw [f2]; simp) (by rw [f2]; exact h0) (by omega) (by omega)
            (by rw [f2]; exact hd) (by
              intro i h1 h2
              rw [f2]
              by_cases e : i = n
              · subst e; right; have := f5 hcn; rwa [h.lits] at this
              · exact (hdone i h1 (by omega)).imp id fun ⟨l, hl⟩ => ⟨l, f4 _ _ hl⟩)
          refine ⟨r1, by rw [r2, f2], by rw [r3, f3], by rw [r4, f2], fun x l hx => r5 _ _ (f4 _ _ hx), r6, fun hr => ⟨by have := (r7 hr).1; omega, (r7 hr).2⟩⟩
    · rw [if_neg hb]
      rw [h.lits] at hb
      exact ⟨h, rfl, rfl, rfl, fun _ _ h => h, by simp [hc], fun _ => ⟨Nat.le_refl _, by dsimp only; omega, fun _ => by dsimp only; omega, hdone⟩⟩

theorem Inv.check {q : Par} {c : Side} {w : Wd} (hq : q.OK) (h : Inv q (some c) w) (hc : w.conf = none) (hen : q.en c = true)
    (hb : isTrue w.tr (sub q.lits 0 c) = false) (ha : w.con.active ≠ some (!c)) (hn : (0, c) ∈ w.con.stack → 0 ≤ w.con.bound c)
    (hact : w.con.active = some c → q.en (!c) = false ∨ (0, c) ∈ w.con.stack)
    (htop : ∃ u ∈ w.con.stack, Lv w.tr (sub q.lits u.1 u.2).neg w.dl) : Inv q none (WC.check w c) := by
  have hnot : ∀ l, ¬ Lv w.tr (sub q.lits 0 c) l := by
    intro l' hl'; rw [isTrue_iff.2 ⟨l', hl'⟩] at hb; cases hb
  have hseen : w.con.seen 0 = true ↔ (0, c) ∈ w.con.stack := by
    rw [h.seen 0]
    constructor
    · rintro ⟨c', hm⟩
      by_cases hcc : c' = c
      · subst hcc; exact hm
      · have : c' = !c := by cases c <;> cases c' <;> simp_all
        subst this
        obtain ⟨_, _, l, hl⟩ := h.stk _ hm
        dsimp only at hl
        rw [sub_not, Lit.neg_neg] at hl
        exact absurd hl (hnot l)
    · exact fun hm => ⟨c, hm⟩
  unfold WC.check
  split
  · rename_i hcond
    dsimp only
    by_cases hs : w.con.seen 0 = true
    · rw [if_pos hs]
      have h0 := hseen.1 hs
      have hbp1 : 1 ≤ w.con.bp ∧ w.con.bp ≤ q.lits.length := by
        have := hq.ne
        rcases h.bp with e | ⟨_, e1, e2, _⟩ <;> omega
      have hdone : ∀ i, 1 ≤ i → i < w.con.bp → (∃ c', (i, c') ∈ w.con.stack) ∨ ∃ l, Lv w.tr (sub q.lits i c) l := by
        intro i h1 h2
        rcases h.bp with e | ⟨_, e1, e2, c', e3, u, _, l, _, e4⟩
        · omega
        · obtain rfl := h.side e3 h0
          exact (e4 i h1 h2).imp id fun ⟨l', _, hl'⟩ => ⟨l', hl'⟩
      have hbw := Inv.backward (d := if w.con.isW then some w.con.stack.length else none) (w.con.lits.length - w.con.bp) w.con.bp w h hc ha h0
        hbp1.1 (by rw [h.lits]; omega) rfl hdone
      generalize WC.backward c (if w.con.isW then some w.con.stack.length else none) (w.con.lits.length - w.con.bp) w.con.bp w = r at hbw
      dsimp only at hbw
      obtain ⟨r1, r2, r3, r4, r5, r6, r7⟩ := hbw
      have h0' : (0, c) ∈ r.1.con.stack := by rw [r2]; exact h0
      have hcl : ∀ m, r.1.con.lits = q.lits → (r.2.2 = false → m = r.1.con.bp) → (r.2.2 = true → (q.isW = true → m = r.2.1) ∧ (q.isW = false → m = r.1.con.bp)) →
          Inv q none { r.1 with con := { r.1.con with bp := m } } := by
        intro m _ hm1 hm2
        have hbpI : (m = 1 ∨ q.isW = true ∧ 1 < m ∧ m ≤ q.lits.length ∧ ∃ c, (0, c) ∈ r.1.con.stack ∧ ∃ u ∈ r.1.con.stack, ∃ l,
            Lv r.1.tr (sub q.lits u.1 u.2).neg l ∧ ∀ i, 1 ≤ i → i < m → (∃ c', (i, c') ∈ r.1.con.stack) ∨ At r.1.tr (sub q.lits i c) l) := by
          by_cases hr : r.2.2 = true
          · by_cases hw : q.isW = true
            · rw [(hm2 hr).1 hw]
              obtain ⟨s1, s2, s3, s4⟩ := r7 hr
              obtain ⟨u, hu, hlu⟩ := htop
              by_cases hone : r.2.1 = 1
              · exact .inl hone
              · refine .inr ⟨hw, by omega, s2, c, h0', u, by rw [r2]; exact hu, w.dl, r5 _ _ hlu, fun i a b => (s4 i a b).imp id ?_⟩
                rintro ⟨l, hl⟩; rw [← r3]; exact r1.atdl hl
            · rw [(hm2 hr).2 (by simpa using hw)]; exact r1.bp
          · rw [hm1 (by simpa using hr)]; exact r1.bp
        have hI : Inv q (some c) { r.1 with con := { r.1.con with bp := m } } :=
          { lits := r1.lits, isW := r1.isW, nod := r1.nod, lev := r1.lev, pendA := r1.pendA, pendN := r1.pendN, pendS := r1.pendS, stk := r1.stk,
            stkN := r1.stkN, stkO := r1.stkO, seen := r1.seen, bnd := r1.bnd, und := r1.und, on0 := r1.on0, wat := r1.wat, prp := r1.prp, bp := hbpI
            act := r1.act, proc := r1.proc, rsn := r1.rsn, cnf := r1.cnf }
        refine hI.close (fun _ => .inr (.inl h0')) fun hcn _ => ?_
        have hr := r6.2 hcn
        obtain ⟨s1, s2, s3, s4⟩ := r7 hr
        have hbd : r.1.con.bound c = w.con.bound c := by rw [r1.bnd, h.bnd, r2]
        refine ⟨fun hx => absurd ⟨h0', r1.stkdl h0'⟩ hx, fun _ => ?_⟩
        rw [hI.left_dl]
        dsimp only
        refine ⟨by rw [hbd]; exact hn h0, fun i a1 a2 a3 => ?_⟩
        rcases Nat.lt_or_ge i r.2.1 with hlt | hge
        · rcases s4 i a1 hlt with ⟨c', hm⟩ | ⟨l, hl⟩
          · by_cases hcc : c' = c
            · subst hcc; exact .inl ⟨hm, r1.stkdl hm⟩
            · have : c' = !c := by cases c <;> cases c' <;> simp_all
              subst this
              right
              have := r1.stkdl hm
              dsimp only at this
              rw [sub_not, Lit.neg_neg] at this
              exact this
          · exact .inr (r1.atdl hl)
        · exfalso
          have h1 := s3 (by omega)
          have h2 := hq.sorted r.2.1 i (by omega) hge a2
          omega
      have hlits := r1.lits
      split
      · rename_i hh
        exact hcl _ hlits (fun e => by rw [e] at hh; exact absurd hh.1 (by simp)) fun _ => ⟨fun _ => rfl, fun e => by rw [← h.isW, hh.2] at e; cases e⟩
      · rename_i hh
        have := hcl r.1.con.bp hlits (fun _ => rfl) fun hr => ⟨fun hw => absurd ⟨hr, by rw [h.isW]; exact hw⟩ hh, fun _ => rfl⟩
        exact this
    · rw [if_neg hs]
      have h0 : (0, c) ∉ w.con.stack := fun hm => hs (hseen.2 hm)
      have h0' : ∀ c', (0, c') ∉ w.con.stack := fun c' hm => hs ((h.seen 0).2 ⟨c', hm⟩)
      have hle : w.con.bound c ≤ 0 := by
        rcases hcond with e | e
        · exact e
        · exact absurd e.2 hs
      have h1 := h.setAct ha
      have hf := h1.force (p := sub w.con.lits 0 c) (d := if w.con.isW then some w.con.stack.length else none) hc (by
          intro _
          exact h1.rsnStack hen rfl (.inl ⟨by rw [h.lits], h0', hle⟩))
      obtain ⟨f1, f2, f3, f4, f5, f6, f7⟩ := hf
      generalize hg : WC.force { w with con := { w.con with active := some c } } (sub w.con.lits 0 c) _ = w' at *
      obtain ⟨u, hu, hlu⟩ := htop
      have hu' : u ∈ w'.con.stack := by rw [f2]; exact hu
      have hlv : w'.conf = none → Lv w'.tr (sub q.lits 0 c) w.dl := by
        intro hcn
        rw [h.lits] at f7; exact f7 hb hcn
      refine f1.close (fun _ => ?_) fun hcn _ => ⟨fun _ _ => ?_, fun hx => ?_⟩
      · right; right
        by_cases hcn : w'.conf = none
        · left
          refine ⟨w.dl, hlv hcn, fun u hu => ?_, ⟨u, hu', f4 _ _ hlu⟩, by rw [f2]; exact hle, by rw [f2]; exact h0'⟩
          rw [← f3]; exact f1.stkdl hu
        · right
          refine ⟨by cases e : w'.conf; · exact absurd e hcn
                     · rfl, by have := f6 hcn; rwa [h.lits] at this, u, hu', by rw [f3]; exact f4 _ _ hlu⟩
      · exact f1.atdl (hlv hcn)
      · rw [f2] at hx; exact absurd hx.1 (h0' c)
  · rename_i hcond
    simp only [not_or, Int.not_le, not_and] at hcond
    refine h.close (fun e => (hact e).imp id .inl) fun _ _ => ⟨fun _ hl => ?_, fun hx => ?_⟩
    · rw [h.left_dl] at hl; omega
    · rw [h.left_dl]
      refine ⟨by omega, fun i _ hi hlt => ?_⟩
      have hw : q.isW = false := by
        cases e : q.isW
        · rfl
        · exact absurd (hseen.2 hx.1) (hcond.2 (by rw [h.isW, e]))
      rw [hq.card hw i hi] at hlt
      omega

end Clasp.WC
