/- C22: notifications, decisions and backtracking preserve the invariant of weight constraint propagation. -/
import Verif.Weight.PropStep
namespace Clasp.WC
open Core Weight

theorem not_eq {c c' : Bool} (h : c' ≠ c) : c' = !c := by cases c <;> cases c' <;> simp_all

theorem Inv.sideOf {q : Par} {X : Option Side} {w : Wd} (h : Inv q X w) {i : Nat} (hi : i ∈ w.pend) :
    Lv w.tr (sub q.lits i (isTrue w.tr (litOf w.con.lits i))).neg w.dl := by
  obtain ⟨_, c, hl⟩ := h.pendA i hi
  rw [h.lits]
  cases e : isTrue w.tr (litOf q.lits i)
  · cases c
    · have : sub q.lits i false = litOf q.lits i := rfl
      rw [this] at hl
      rw [isTrue_iff.2 ⟨_, hl⟩] at e; cases e
    · rw [← sub_not]; exact hl
  · obtain ⟨l, hl'⟩ := isTrue_iff.1 e
    cases c
    · rw [← sub_not]; exact hl
    · exact absurd hl fun hl => h.nod.neg hl' hl

theorem Inv.notify {q : Par} {w : Wd} {i : Nat} {r : Bool} (hq : q.OK) (h : Inv q none w) (hc : w.conf = none) (hi : i ∈ w.pend) :
    Inv q none (WC.notify w i r) := by
  have hl := h.sideOf hi
  unfold WC.notify
  dsimp only
  generalize isTrue w.tr (litOf w.con.lits i) = c at hl ⊢
  have hone : ∀ c', Lv w.tr (sub q.lits i c').neg w.dl → c' = c := by
    intro c' hx
    by_contra hne
    rw [not_eq hne, sub_not, Lit.neg_neg] at hx
    exact h.nod.neg hx hl
  by_cases hon : (if i = 0 then w.con.on0 c else w.con.on c) = true
  · rw [if_pos hon]
    have hen : q.en c = true := by
      split at hon
      · rw [← h.on0]; exact hon
      · rcases h.wat with ⟨_, h1⟩ | ⟨_, h1⟩ | ⟨_, _, _, _, _, h1⟩
        · rw [← h1]; exact hon
        · exact (h1 c).2
        · exact h1 c
    unfold propagate
    dsimp only
    rw [h.lits]
    by_cases hg : w.con.active = some (!c) ∨ isTrue w.tr (sub q.lits 0 c) = true
    · rw [if_pos hg]
      refine h.skip hi fun c' hen' hx => ?_
      obtain rfl := hone c' hx
      rcases hg with hg | hg
      · rcases h.act _ hg with h1 | h1 | h1 | ⟨l, h1, _⟩ | ⟨h1, _⟩
        · cases h1
        · rw [Bool.not_not, hen'] at h1; cases h1
        · left
          have := h.stkdl h1
          dsimp only at this
          rwa [sub_not, Lit.neg_neg] at this
        · right
          rw [sub_not] at h1
          exact ⟨h.atdl h1, hg⟩
        · rw [hc] at h1; cases h1
      · left
        obtain ⟨l, hl'⟩ := isTrue_iff.1 hg
        exact h.atdl hl'
    · rw [if_neg hg]
      simp only [not_or, Bool.not_eq_true] at hg
      have := h.upd hq (r := r) hc hi hl hen hg.2 hg.1
      obtain ⟨e1, e2, e3, e4, e5, e6, e7, e8, _⟩ := upd_proj w i c r
      obtain ⟨u1, u2, u3⟩ := this
      have := u1.check hq (by rw [e4, hc]) hen (by rw [e1]; exact hg.2) (by rw [e7]; exact hg.1) u2
        (by rw [e7, e8]; exact fun h => (u3 h).imp id (List.mem_cons_of_mem _)) ⟨(i, c), by rw [e8]; exact .head _, by rw [e1, e2]; exact hl⟩
      unfold WC.upd at this
      rw [h.lits] at this
      exact this
  · rw [if_neg hon]
    refine h.skip hi fun c' hen' hx => ?_
    obtain rfl := hone c' hx
    split at hon
    · rw [h.on0, hen'] at hon; exact absurd rfl hon
    · rcases h.wat with ⟨_, h1⟩ | ⟨_, h1⟩ | ⟨c2, _, h1, h2, h3, _⟩
      · rw [h1, hen'] at hon; exact absurd rfl hon
      · exact absurd (h1 c').1 hon
      · left
        have : c' = !c2 := not_eq fun e => by rw [e] at hon; exact hon h3
        subst this
        have := h.stkdl h1
        dsimp only at this
        rwa [sub_not]

theorem Inv.nextLevel {q : Par} {w : Wd} (h : Inv q none w) (hc : w.conf = none) (hp : w.pend = []) : Inv q none { w with dl := w.dl + 1 } :=
  { lits := h.lits, isW := h.isW, nod := h.nod, lev := fun e he => Nat.le_succ_of_le (h.lev e he)
    pendA := by rw [hp]; simp
    pendN := h.pendN, pendS := h.pendS, stk := h.stk, stkN := h.stkN, stkO := h.stkO, seen := h.seen, bnd := h.bnd, und := h.und
    on0 := h.on0, wat := h.wat, proc := h.proc, bp := h.bp, rsn := h.rsn
    act := by
      intro c hcx
      rcases h.act c hcx with h1 | h1 | h1 | h1 | ⟨h1, _⟩
      · exact .inl h1
      · exact .inr (.inl h1)
      · exact .inr (.inr (.inl h1))
      · exact .inr (.inr (.inr (.inl h1)))
      · rw [hc] at h1; cases h1
    prp := by
      intro c hen l hl _
      rcases Nat.lt_or_ge w.dl l with hlt | hge
      · have hp := h.prp c hen w.dl (Nat.le_refl _) (.inr ⟨hc, by simp⟩)
        have e : ∀ p, At w.tr p l ↔ At w.tr p w.dl := fun p => ⟨fun ⟨l', _, hl'⟩ => h.atdl hl', fun h => h.mono (by omega)⟩
        have e2 : left q w.tr w.con.stack c l = left q w.tr w.con.stack c w.dl := by
          unfold left; rw [sumI_congr fun i _ _ => ?_]
          rw [e]
        refine ⟨?_, ?_⟩
        · dsimp only; rw [e, e2, e]; exact hp.fwd
        · dsimp only; rw [e, e2]; intro hx
          refine ⟨(hp.bwd hx).1, fun i a b d => ?_⟩
          rw [e, e]; exact (hp.bwd hx).2 i a b d
      · exact h.prp c hen l hge (.inr ⟨hc, by simp⟩)
    cnf := by
      intro p d e
      have : w.conf = some (p, d) := e
      rw [hc] at this; cases this }

/-! ### Backtracking -/

theorem lv_filter {tr : List Entry} {dl : Nat} {p : Lit} {l : Nat} : Lv (tr.filter fun e => e.lev < dl) p l ↔ Lv tr p l ∧ l < dl := by
  unfold Lv
  simp only [List.mem_filter, decide_eq_true_eq]
  constructor
  · rintro ⟨e, ⟨h1, h2⟩, h3, rfl⟩; exact ⟨⟨e, h1, h3, rfl⟩, h2⟩
  · rintro ⟨⟨e, h1, h3, rfl⟩, h2⟩; exact ⟨e, ⟨h1, h2⟩, h3, rfl⟩

theorem at_filter {tr : List Entry} {dl : Nat} {p : Lit} {l : Nat} (hl : l < dl) : At (tr.filter fun e => e.lev < dl) p l ↔ At tr p l := by
  constructor
  · rintro ⟨l', h1, h2⟩; exact ⟨l', h1, (lv_filter.1 h2).1⟩
  · rintro ⟨l', h1, h2⟩; exact ⟨l', h1, lv_filter.2 ⟨h2, by omega⟩⟩

theorem at_filter' {tr : List Entry} {dl : Nat} {p : Lit} {l : Nat} (h : At (tr.filter fun e => e.lev < dl) p l) :
    ∃ l', l' ≤ l ∧ l' < dl ∧ Lv tr p l' := by
  obtain ⟨l', h1, h2⟩ := h; obtain ⟨h2, h3⟩ := lv_filter.1 h2; exact ⟨l', h1, h3, h2⟩

/-- What is left of the constraint after backtracking. -/
structure Undone (q : Par) (w : Wd) (con : Con) : Prop where
  suf : con.stack <:+ w.con.stack
  mem : ∀ u ∈ w.con.stack, u ∈ con.stack ↔ ∃ l < w.dl, Lv w.tr (sub q.lits u.1 u.2).neg l
  seen : ∀ i, con.seen i = true ↔ ∃ c, (i, c) ∈ con.stack
  bnd : ∀ c, con.bound c = q.b c - sumI (fun i => (i, c) ∈ con.stack) q.lits 0
  lits : con.lits = q.lits
  isW : con.isW = q.isW
  on0 : con.on0 = w.con.on0
  same : w.undo w.dl = false → con = w.con
  bp : w.undo w.dl = true → con.bp = 1
  act : w.undo w.dl = true → con.active = if con.seen 0 then w.con.active else none
  wat : w.undo w.dl = true → (con.watched = w.con.watched ∧ con.on = w.con.on ∧ (con.seen 0 = true ∨ 2 ≤ w.con.watched)) ∨
    (con.seen 0 = false ∧ w.con.watched < 2 ∧ con.watched = 3 ∧ con.on = Function.update w.con.on (!(w.con.watched == 1)) true)

theorem dropWhile_mem {α : Type} {f : α → Bool} {R : α → α → Prop} (hR : ∀ a b, R a b → f b = true → f a = true) {s : List α} (h : s.Pairwise R) :
    ∀ u ∈ s, (u ∈ s.dropWhile f ↔ f u = false) := by
  induction s with
  | nil => intro u hu; simp at hu
  | cons a s ih =>
    rw [List.pairwise_cons] at h
    intro u hu
    by_cases ha : f a = true
    · rw [List.dropWhile_cons_of_pos ha]
      rcases List.mem_cons.1 hu with rfl | hu
      · constructor
        · intro hm
          exact (ih h.2 u ((List.dropWhile_sublist f).mem hm)).1 hm
        · intro hf; rw [hf] at ha; cases ha
      · exact ih h.2 u hu
    · rw [List.dropWhile_cons_of_neg ha]
      refine ⟨fun _ => ?_, fun _ => hu⟩
      rcases List.mem_cons.1 hu with rfl | hu
      · simpa using ha
      · cases hf : f u
        · rfl
        · exact absurd (hR _ _ (h.1 u hu) hf) ha

theorem Inv.undone {q : Par} {X : Option Side} {w : Wd} (h : Inv q X w) (hdl : 0 < w.dl) : Undone q w (WC.undo w).con := by
  have hexact : ∀ u ∈ w.con.stack, ∀ l, Lv w.tr (sub q.lits u.1 u.2).neg l → ((∃ l < w.dl, Lv w.tr (sub q.lits u.1 u.2).neg l) ↔ l < w.dl) := by
    intro u _ l hl
    constructor
    · rintro ⟨l', h1, h2⟩; rwa [(h.nod.lv hl h2 rfl).2]
    · exact fun h => ⟨l, h, hl⟩
  cases hu : w.undo w.dl with
  | false =>
    have e : (WC.undo w).con = w.con := by unfold WC.undo; simp [hu]
    rw [e]
    refine ⟨List.suffix_rfl, fun u hm => ?_, h.seen, h.bnd, h.lits, h.isW, rfl, fun _ => rfl, by simp [hu], by simp [hu], by simp [hu]⟩
    obtain ⟨_, _, l, hl⟩ := h.stk u hm
    refine ⟨fun _ => (hexact u hm l hl).2 ?_, fun _ => hm⟩
    have h1 := h.lvle hl
    rcases Nat.lt_or_ge l w.dl with h2 | h2
    · exact h2
    · exfalso
      have e : l = w.dl := by omega
      subst e
      have hne : ¬ (w.dl ≠ 0 ∧ ∃ u ∈ w.con.stack, Lv w.tr (sub q.lits u.1 u.2).neg w.dl) := by
        rw [← h.und]; simp [hu]
      exact hne ⟨by omega, u, hm, hl⟩
  | true =>
    have e : (WC.undo w).con = undoLevel (w.tr.filter fun e => e.lev < w.dl) w.con := by unfold WC.undo; simp [hu]
    rw [e]
    have hpf := popFree_spec (tr := w.tr.filter fun e => e.lev < w.dl) (lits := q.lits) (b := q.b) w.con.stack
      { w.con with bp := if w.con.isW then 1 else w.con.bp } h.lits h.seen h.bnd h.stkN (fun u hu => (h.stk u hu).1)
    dsimp only at hpf
    have hmem : ∀ u ∈ w.con.stack, assigned (w.tr.filter fun e => e.lev < w.dl) (litOf q.lits u.1).var = true ↔
        ∃ l < w.dl, Lv w.tr (sub q.lits u.1 u.2).neg l := by
      intro u hu
      obtain ⟨_, _, l, hl⟩ := h.stk u hu
      rw [assigned_iff]
      constructor
      · rintro ⟨p, l', hp, hl'⟩
        obtain ⟨h1, h2⟩ := lv_filter.1 hl'
        obtain ⟨rfl, rfl⟩ := h.nod.lv h1 hl (by rw [hp, Lit.neg_var, sub_var])
        exact ⟨l', h2, hl⟩
      · rintro ⟨l', h1, h2⟩
        exact ⟨_, l', by rw [Lit.neg_var, sub_var], lv_filter.2 ⟨h2, h1⟩⟩
    have hdw := dropWhile_mem (f := fun u : Nat × Side => !assigned (w.tr.filter fun e => e.lev < w.dl) (litOf q.lits u.1).var)
      (R := fun a b => (∀ l, At w.tr (sub q.lits a.1 a.2).neg l → At w.tr (sub q.lits b.1 b.2).neg l) ∧ a ∈ w.con.stack ∧ b ∈ w.con.stack) (by
        rintro a b ⟨hab, ha, hb⟩ hf
        simp only [Bool.not_eq_true', ← Bool.not_eq_true] at hf ⊢
        rw [hmem a ha]; rw [hmem b hb] at hf
        rintro ⟨l, h1, h2⟩
        obtain ⟨l', h3, h4⟩ := hab l ⟨l, Nat.le_refl _, h2⟩
        exact hf ⟨l', by omega, h4⟩) (h.stkO.imp_of_mem fun ha hb hab => ⟨hab, ha, hb⟩)
    have hbp : (if w.con.isW = true then 1 else w.con.bp) = 1 := by
      split
      · rfl
      · rename_i hw
        rw [h.isW] at hw
        rcases h.bp with e | ⟨e, _⟩
        · exact e
        · exact absurd e hw
    rw [hbp] at hpf
    unfold undoLevel
    rw [hbp]
    dsimp only
    generalize popFree (w.tr.filter fun e => e.lev < w.dl) { w.con with bp := 1 } w.con.stack = con at hpf ⊢
    obtain ⟨p1, p2, p3, p4, p5, p6, p7, p8, p9, p10⟩ := hpf
    have hsuf : con.stack <:+ w.con.stack := by rw [p1]; exact List.dropWhile_suffix _
    have hm : ∀ u ∈ w.con.stack, u ∈ con.stack ↔ ∃ l < w.dl, Lv w.tr (sub q.lits u.1 u.2).neg l := by
      intro u hu
      rw [p1, hdw u hu, ← hmem u hu]; simp
    by_cases hs : con.seen 0 = true
    · rw [if_pos hs]
      exact ⟨hsuf, hm, p2, p3, p4, by rw [p5, h.isW], p9, fun e => absurd (hu.symm.trans e) (by simp), fun _ => p8, fun _ => by rw [if_pos hs, p6], fun _ => .inl ⟨p7, p10, .inl hs⟩⟩
    · rw [if_neg hs]
      by_cases hw : con.watched < 2
      · rw [if_pos hw]
        exact ⟨hsuf, hm, p2, p3, p4, by dsimp only; rw [p5, h.isW], p9, fun e => absurd (hu.symm.trans e) (by simp), fun _ => p8, fun _ => by rw [if_neg hs],
          fun _ => .inr ⟨by simpa using hs, by rw [← p7]; exact hw, rfl, by rw [← p7, ← p10]⟩⟩
      · rw [if_neg hw]
        exact ⟨hsuf, hm, p2, p3, p4, by dsimp only; rw [p5, h.isW], p9, fun e => absurd (hu.symm.trans e) (by simp), fun _ => p8, fun _ => by rw [if_neg hs],
          fun _ => .inl ⟨p7, p10, .inr (by rw [← p7]; omega)⟩⟩

theorem suffix_of_all {α : Type} {a b s : List α} (hn : s.Nodup) (ha : a <:+ s) (hb : b <:+ s) (h : ∀ u ∈ a, u ∈ b) : a <:+ b := by
  rcases List.suffix_or_suffix_of_suffix ha hb with h1 | ⟨t, rfl⟩
  · exact h1
  · have hn' := ha.sublist.nodup hn
    cases t with
    | nil => exact List.suffix_rfl
    | cons x t =>
      exfalso
      rw [List.cons_append, List.nodup_cons] at hn'
      exact hn'.1 (List.mem_append.2 (.inr (h x (by simp))))

theorem Inv.undo {q : Par} {w : Wd} (h : Inv q none w) (hdl : 0 < w.dl) : Inv q none (WC.undo w) := by
  have U := h.undone hdl
  have htr : (WC.undo w).tr = w.tr.filter fun e => e.lev < w.dl := rfl
  have hd : (WC.undo w).dl = w.dl - 1 := rfl
  have hlv : ∀ {p l}, Lv (WC.undo w).tr p l ↔ Lv w.tr p l ∧ l < w.dl := lv_filter
  have hat : ∀ {p l}, l < w.dl → (At (WC.undo w).tr p l ↔ At w.tr p l) := fun hl => at_filter hl
  have hex : ∀ u ∈ w.con.stack, ∀ l, Lv w.tr (sub q.lits u.1 u.2).neg l → l < w.dl → u ∈ (WC.undo w).con.stack :=
    fun u hu l hl hlt => (U.mem u hu).2 ⟨l, hlt, hl⟩
  have hle : ∀ u ∈ (WC.undo w).con.stack, ∀ l, Lv w.tr (sub q.lits u.1 u.2).neg l → l < w.dl := by
    intro u hu l hl
    obtain ⟨l', h1, h2⟩ := (U.mem u (U.suf.mem hu)).1 hu
    rwa [(h.nod.lv hl h2 rfl).2]
  have hund : w.undo w.dl = true ↔ ∃ u ∈ w.con.stack, Lv w.tr (sub q.lits u.1 u.2).neg w.dl := by
    rw [h.und]; exact ⟨fun h => h.2, fun h => ⟨by omega, h⟩⟩
  have hns : w.con.stack.Nodup := List.Nodup.of_map _ h.stkN
  have hcalled : ∀ l < w.dl, (∀ u ∈ w.con.stack, At w.tr (sub q.lits u.1 u.2).neg l) → w.undo w.dl = false := by
    intro l hl hall
    cases hu : w.undo w.dl
    · rfl
    · obtain ⟨u, hm, hx⟩ := hund.1 hu
      obtain ⟨l', h1, h2⟩ := hall u hm
      have := (h.nod.lv hx h2 rfl).2
      omega
  exact {
    lits := U.lits
    isW := U.isW
    nod := (List.filter_sublist.map _).nodup h.nod
    lev := by
      intro e he
      rw [htr, List.mem_filter] at he
      have := he.2
      simp only [decide_eq_true_eq] at this
      rw [hd]; omega
    pendA := by intro i hi; cases hi
    pendN := List.nodup_nil
    pendS := by intro i hi; cases hi
    stk := by
      intro u hu
      obtain ⟨h1, h2, l, hl⟩ := h.stk u (U.suf.mem hu)
      exact ⟨h1, h2, l, hlv.2 ⟨hl, hle u hu l hl⟩⟩
    stkN := (U.suf.sublist.map _).nodup h.stkN
    stkO := by
      refine (h.stkO.sublist U.suf.sublist).imp_of_mem ?_
      intro a b ha hb hab l hl
      obtain ⟨l', h1, h2, h3⟩ := at_filter' hl
      exact ((hat h2).2 (hab l' ⟨l', Nat.le_refl _, h3⟩)).mono h1
    seen := U.seen
    bnd := U.bnd
    und := by
      intro l
      show Function.update w.undo w.dl false l = true ↔ _
      by_cases hll : l = w.dl
      · subst hll
        simp only [Function.update_self, Bool.false_eq_true, false_iff, not_and, not_exists]
        intro _ u _ hx
        have := (hlv.1 hx).2; omega
      · rw [Function.update_of_ne hll, h.und]
        refine and_congr_right fun _ => ⟨?_, ?_⟩
        · rintro ⟨u, hu, hx⟩
          have := h.lvle hx
          exact ⟨u, hex u hu l hx (by omega), hlv.2 ⟨hx, by omega⟩⟩
        · rintro ⟨u, hu, hx⟩; exact ⟨u, U.suf.mem hu, (hlv.1 hx).1⟩
    on0 := by rw [U.on0]; exact h.on0
    wat := by
      cases hu : w.undo w.dl
      · rw [U.same hu]; exact h.wat
      · rcases U.wat hu with ⟨a1, a2, a3⟩ | ⟨a1, a2, a3, a4⟩
        · rw [a1, a2]
          rcases h.wat with b | b | ⟨c, b1, b2, b3⟩
          · exact .inl b
          · exact .inr (.inl b)
          · refine .inr (.inr ⟨c, b1, ?_, b3⟩)
            rcases a3 with a3 | a3
            · obtain ⟨c', hm⟩ := (U.seen 0).1 a3
              rw [h.side b2 (U.suf.mem hm)]; exact hm
            · rw [b1] at a3; cases c <;> simp at a3
        · rcases h.wat with ⟨b, _⟩ | ⟨b, _⟩ | ⟨c, b1, b2, b3, b4, b5⟩
          · omega
          · omega
          · refine .inr (.inl ⟨a3, fun c' => ⟨?_, b5 c'⟩⟩)
            have e : (w.con.watched == 1) = c := by rw [b1]; cases c <;> rfl
            rw [a4, e]
            by_cases hcc : c' = c
            · subst hcc; rw [Function.update_of_ne (by simp)]; exact b4
            · rw [not_eq hcc, Function.update_self]
    act := by
      intro c hc
      right
      cases hu : w.undo w.dl
      · rw [U.same hu] at hc ⊢
        have hno : ∀ u ∈ w.con.stack, ∀ l, Lv w.tr (sub q.lits u.1 u.2).neg l → l < w.dl := by
          intro u hm l hl
          have := h.lvle hl
          rcases Nat.lt_or_ge l w.dl with h2 | h2
          · exact h2
          · exfalso
            rw [hund.2 ⟨u, hm, by rw [show w.dl = l by omega]; exact hl⟩] at hu; cases hu
        rcases h.act c hc with h1 | h1 | h1 | ⟨l, h1, h2, ⟨u, h3, h3'⟩, h4⟩ | ⟨_, _, u, h2, h3⟩
        · cases h1
        · exact .inl h1
        · exact .inr (.inl h1)
        · have hlt := hno u h3 l h3'
          exact .inr (.inr (.inl ⟨l, hlv.2 ⟨h1, hlt⟩, fun u hu => (hat hlt).2 (h2 u hu), ⟨u, h3, hlv.2 ⟨h3', hlt⟩⟩, h4⟩))
        · have := hno u h2 _ h3; omega
      · rw [U.act hu] at hc
        split at hc
        · rename_i hs
          obtain ⟨c', hm⟩ := (U.seen 0).1 hs
          right; left
          by_cases hcc : c' = c
          · rw [← hcc]; exact hm
          · exfalso
            have hmo := U.suf.mem hm
            have e := not_eq hcc
            rcases h.act c hc with h1 | h1 | h1 | ⟨l, h1, h2, _, _, h4⟩ | ⟨_, ⟨l, h1⟩, _⟩
            · cases h1
            · have := (h.stk _ hmo).2.1
              dsimp only at this
              rw [e, h1] at this; cases this
            · exact hcc (h.side hmo h1)
            · exact h4 _ hmo
            · obtain ⟨_, _, l', hl'⟩ := h.stk _ hmo
              dsimp only at hl'
              rw [e, sub_not, Lit.neg_neg] at hl'
              exact h.nod.neg hl' h1
        · cases hc
    proc := by
      intro c hen i hi l hl
      obtain ⟨l', h1, h2, h3⟩ := at_filter' hl
      rcases h.proc c hen i hi l' ⟨l', Nat.le_refl _, h3⟩ with a | a | a | ⟨a, b⟩
      · exfalso
        obtain ⟨_, c', hx⟩ := h.pendA i a
        have := (h.nod.lv h3 hx (by rw [Lit.neg_var, sub_var, sub_var])).2
        omega
      · exact .inr (.inl (hex _ a l' h3 h2))
      · exact .inr (.inr (.inl (((hat h2).2 a).mono h1)))
      · refine .inr (.inr (.inr ⟨((hat h2).2 a).mono h1, ?_⟩))
        obtain ⟨l2, hl2, hlv2⟩ := a
        rcases h.act _ b with b1 | b1 | b1 | ⟨l3, b1, b2, _⟩ | ⟨_, ⟨l3, b1⟩, _⟩
        · cases b1
        · rw [Bool.not_not, hen] at b1; cases b1
        · exfalso
          obtain ⟨_, _, l', hl'⟩ := h.stk _ b1
          dsimp only at hl'
          rw [sub_not, Lit.neg_neg] at hl'
          exact h.nod.neg hl' hlv2
        · rw [sub_not] at b1
          obtain ⟨_, rfl⟩ := h.nod.lv hlv2 b1 rfl
          rw [U.same (hcalled l2 (by omega) b2)]; exact b
        · exfalso
          rw [sub_not, Lit.neg_neg] at b1
          exact h.nod.neg b1 hlv2
    prp := by
      intro c hen l hl _
      rw [hd] at hl
      have hlt : l < w.dl := by omega
      have hp := h.prp c hen l (by omega) (.inl hlt)
      have e : ∀ i, ((i, c) ∈ (WC.undo w).con.stack ∧ At (WC.undo w).tr (sub q.lits i c).neg l) ↔ ((i, c) ∈ w.con.stack ∧ At w.tr (sub q.lits i c).neg l) := by
        intro i
        rw [hat hlt]
        constructor
        · rintro ⟨a, b⟩; exact ⟨U.suf.mem a, b⟩
        · rintro ⟨a, b⟩
          obtain ⟨l', b1, b2⟩ := b
          exact ⟨hex _ a l' b2 (by omega), l', b1, b2⟩
      have e2 : left q (WC.undo w).tr (WC.undo w).con.stack c l = left q w.tr w.con.stack c l := by
        unfold left; rw [sumI_congr fun i _ _ => e i]
      refine ⟨?_, ?_⟩
      · rw [e, e2, hat hlt]; exact hp.fwd
      · rw [e, e2]; intro hx
        refine ⟨(hp.bwd hx).1, fun i a b d => ?_⟩
        rw [e, hat hlt]; exact (hp.bwd hx).2 i a b d
    bp := by
      cases hu : w.undo w.dl
      · rw [U.same hu]
        rcases h.bp with h1 | ⟨h1, h2, h3, c, h4, u, h5, l, h6, h7⟩
        · exact .inl h1
        · have hlt : l < w.dl := by
            have := h.lvle h6
            rcases Nat.lt_or_ge l w.dl with h2 | h2
            · exact h2
            · exfalso
              rw [hund.2 ⟨u, h5, by rw [show w.dl = l by omega]; exact h6⟩] at hu; cases hu
          exact .inr ⟨h1, h2, h3, c, h4, u, h5, l, hlv.2 ⟨h6, hlt⟩, fun i a b => (h7 i a b).imp id (hat hlt).2⟩
      · exact .inl (U.bp hu)
    rsn := by
      intro pre e post d he hd
      obtain ⟨l₁, l₂, e1, e2, e3⟩ := List.filter_eq_append_iff.1 (htr ▸ he)
      obtain ⟨m₁, m₂, f1, f2, f3, f4⟩ := List.filter_eq_cons_iff.1 e3
      simp only [decide_eq_true_eq] at f3
      have hsp : w.tr = (l₁ ++ m₁) ++ e :: m₂ := by rw [e1, f1, List.append_assoc]
      obtain ⟨c, s, a1, a2, a3, a4, a5, a6⟩ := h.rsn _ e m₂ d hsp hd
      have hpost : ∀ u ∈ s, At post (sub q.lits u.1 u.2).neg e.lev := by
        intro u hu
        rw [← f4]; exact (at_filter f3).2 (a5 u hu)
      have hstay : ∀ u ∈ s, u ∈ (WC.undo w).con.stack := by
        intro u hu
        obtain ⟨l, h1, e', h2, h3, h4⟩ := a5 u hu
        exact hex u (a2.mem hu) l ⟨e', by rw [hsp]; exact List.mem_append.2 (.inr (.tail _ h2)), h3, h4⟩ (by omega)
      have hsuf := suffix_of_all hns a2 U.suf hstay
      have hact : (WC.undo w).con.active = some c := by
        rcases a6 with ⟨_, _, _, p4⟩ | ⟨p1, _⟩
        · rw [U.same (hcalled e.lev f3 p4)]; exact a1
        · cases hu : w.undo w.dl
          · rw [U.same hu]; exact a1
          · rw [U.act hu, if_pos ((U.seen 0).2 ⟨c, hstay _ p1⟩)]; exact a1
      refine ⟨c, s, hact, hsuf, a3, fun hw => ⟨(a4 hw).1, ?_⟩, hpost, ?_⟩
      · have := (a4 hw).2
        subst this
        exact hsuf.sublist.antisymm U.suf.sublist
      · rcases a6 with ⟨p1, p2, p3, p4⟩ | hx
        · exact .inl ⟨p1, fun c' hm => p2 c' (U.suf.mem hm), p3, fun u hu => (hat f3).2 (p4 u (U.suf.mem hu))⟩
        · exact .inr hx
    cnf := by intro p d hx; cases hx }

end Clasp.WC
