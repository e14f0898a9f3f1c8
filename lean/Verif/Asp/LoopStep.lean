/- C36: assigning, backtracking and propagation preserve the invariant of loop formulas. No code is modelled in this file. -/
import Verif.Asp.LoopInv
namespace Clasp.Loop
open Core

/-! ### New literals on the trail -/

theorem Trl.push {tr : List Entry} {dl : Nat} {pd : List Lit} (h : Trl tr dl pd) {p : Lit} (hp : isFree tr p = true) (rs : Bool) :
    Trl (⟨p, dl, rs⟩ :: tr) dl (p :: pd) := by
  have hv := free_var hp
  refine ⟨?_, ?_, ?_, ?_⟩
  · rw [List.map_cons]
    rw [List.mem_cons, not_or] at hv
    rw [List.nodup_cons, List.mem_cons, not_or, List.nodup_cons]
    have h1 := List.nodup_cons.1 h.vars
    exact ⟨⟨fun e => hv.1 e.symm, h1.1⟩, hv.2, h1.2⟩
  · intro e he
    rcases List.mem_cons.1 he with rfl | he
    · exact Nat.le_refl _
    · exact h.lev e he
  · exact List.pairwise_cons.2 ⟨fun e he => h.lev e he, h.ord⟩
  · intro q hq
    rcases List.mem_cons.1 hq with rfl | hq
    · exact ⟨_, List.mem_cons_self .., rfl, rfl⟩
    · obtain ⟨e, h1, h2⟩ := h.pend q hq; exact ⟨e, List.mem_cons_of_mem _ h1, h2⟩

theorem at_cons {tr : List Entry} {p x : Lit} {dl l : Nat} {rs : Bool} : At (⟨p, dl, rs⟩ :: tr) x l ↔ (x = p ∧ dl ≤ l) ∨ At tr x l := by
  unfold At
  constructor
  · rintro ⟨e, h1, h2, h3⟩
    rcases List.mem_cons.1 h1 with rfl | h1
    · exact Or.inl ⟨h2.symm, h3⟩
    · exact Or.inr ⟨e, h1, h2, h3⟩
  · rintro (⟨rfl, h⟩ | ⟨e, h1, h2⟩)
    · exact ⟨_, List.mem_cons_self .., rfl, h⟩
    · exact ⟨e, List.mem_cons_of_mem _ h1, h2⟩

theorem Why.cons {c : Con} {tr post : List Entry} {p : Lit} {l : Nat} {ex ex' : Prop} (h : Why c tr post p l ex) {N : List Entry} (hx : ex → ex') :
    Why c (N ++ tr) post p l ex' := by
  rcases h with h | ⟨h1, h2, h3, h4, h5⟩
  · exact Or.inl h
  · exact Or.inr ⟨h1, h2, h3, h4.imp (fun h a ha => (h a ha).app) hx, h5⟩

theorem Why.post {c : Con} {tr post post' : List Entry} {p : Lit} {l : Nat} {ex : Prop} (h : Why c tr post p l ex) (hs : ∀ e ∈ post, e ∈ post') :
    Why c tr post' p l ex := by
  rcases h with ⟨h1, h2, h3⟩ | ⟨h1, h2, h3, h4, h5⟩
  · refine Or.inl ⟨h1, h2, fun i a1 a2 a3 => ?_⟩
    obtain ⟨f, f1, f2⟩ := h3 i a1 a2 a3
    exact ⟨f, hs f f1, f2⟩
  · refine Or.inr ⟨h1, h2, h3, h4, fun b hb => ?_⟩
    obtain ⟨f, f1, f2⟩ := h5 b hb
    exact ⟨f, hs f f1, f2⟩

/-- another constraint assigns a literal -/
theorem Inv.push {w : Wd} (h : Inv w) (hc : w.conf = none) {p : Lit} (hp : isFree w.tr p = true) : Inv (push w p false) := by
  have hn : ∀ {x l}, At (Loop.push w p false).tr x l ↔ (x = p ∧ w.dl ≤ l) ∨ At w.tr x l := at_cons
  refine ⟨h.lay, h.flags, h.wat, h.trl.push hp false, h.oth, ?_, ?_, ?_, ?_⟩
  · intro i a1 a2 a3 l hl
    rcases hn.1 hl with ⟨e, _⟩ | hl
    · exact Or.inl (e ▸ List.mem_cons_self ..)
    · rcases h.p i a1 a2 a3 l hl with h1 | h1 | h1 | h1
      · exact Or.inl (List.mem_cons_of_mem _ h1)
      · exact Or.inr (Or.inl (h1.app (N := [_])))
      · exact Or.inr (Or.inr (Or.inl (h1.app (N := [_]))))
      · exact Or.inr (Or.inr (Or.inr h1))
  · intro hx a ha l hl
    rcases hn.1 hl with ⟨e, _⟩ | hl
    · exact Or.inl (e ▸ List.mem_cons_self ..)
    · rcases h.q hx a ha l hl with h1 | h1 | h1 | h1
      · exact Or.inl (List.mem_cons_of_mem _ h1)
      · exact Or.inr (Or.inl (h1.app (N := [_])))
      · exact Or.inr (Or.inr (Or.inl (h1.app (N := [_]))))
      · exact Or.inr (Or.inr (Or.inr h1))
  · intro pre e post he hr
    cases pre with
    | nil =>
      have := (List.cons.inj he).1
      subst this; cases hr
    | cons x pre =>
      exact (h.r pre e post (List.cons.inj he).2 hr).cons (N := [_]) (fun h => h)
  · intro q hq
    change w.conf = some q at hq
    rw [hc] at hq; cases hq

theorem Inv.level {w : Wd} (h : Inv w) (hc : w.conf = none) (hp : w.pend = []) : Inv { w with dl := w.dl + 1 } := by
  refine ⟨h.lay, h.flags, h.wat, ⟨h.trl.vars, fun e he => Nat.le_succ_of_le (h.trl.lev e he), h.trl.ord, fun p hp' => ?_⟩, h.oth, ?_, ?_, ?_, ?_⟩
  · change p ∈ w.pend at hp'; rw [hp] at hp'; cases hp'
  · intro i a1 a2 a3 l hl
    rcases h.p i a1 a2 a3 l hl with h1 | h1 | h1 | h1
    · exact Or.inl h1
    · exact Or.inr (Or.inl h1)
    · exact Or.inr (Or.inr (Or.inl h1))
    · rw [hc] at h1; simp at h1
  · intro hx a ha l hl
    rcases h.q hx a ha l hl with h1 | h1 | h1 | h1
    · exact Or.inl h1
    · exact Or.inr (Or.inl h1)
    · exact Or.inr (Or.inr (Or.inl h1))
    · rw [hc] at h1; simp at h1
  · intro pre e post he hr
    rcases h.r pre e post he hr with h1 | ⟨h1, h2, h3, h4, h5⟩
    · exact Or.inl h1
    · refine Or.inr ⟨h1, h2, h3, h4.imp id fun h => ?_, h5⟩
      rw [hc] at h; simp at h
  · intro p hq
    change w.conf = some p at hq
    rw [hc] at hq; cases hq

/-! ### Backtracking -/

theorem at_undo {tr : List Entry} {dl : Nat} (h0 : 0 < dl) {x : Lit} {l : Nat} :
    At (tr.filter fun e => decide (e.lev < dl)) x l ↔ At tr x (min l (dl - 1)) := by
  unfold At
  simp only [List.mem_filter, decide_eq_true_eq]
  constructor
  · rintro ⟨e, ⟨h1, h2⟩, h3, h4⟩; exact ⟨e, h1, h3, by omega⟩
  · rintro ⟨e, h1, h3, h4⟩; exact ⟨e, ⟨h1, by omega⟩, h3, by omega⟩

theorem split_filter {α : Type} {q : α → Bool} {l : List α} {pre : List α} {e : α} {post : List α} (h : l.filter q = pre ++ e :: post) :
    ∃ pre' post', l = pre' ++ e :: post' ∧ post = post'.filter q := by
  obtain ⟨l1, l2, rfl, h1, h2⟩ := List.filter_eq_append_iff.1 h
  obtain ⟨l3, l4, rfl, h3, h4, h5⟩ := List.filter_eq_cons_iff.1 h2
  exact ⟨l1 ++ l3, l4, by simp, h5.symm⟩

theorem Inv.undo {w : Wd} (h : Inv w) (h0 : 0 < w.dl) : Inv (undo w) := by
  have hn : ∀ {x l}, At (Loop.undo w).tr x l ↔ At w.tr x (min l (w.dl - 1)) := at_undo h0
  have hS : ∀ l, Sat w.con w.tr (min l (w.dl - 1)) → Sat w.con (Loop.undo w).tr l := fun l ⟨b, h1, h2⟩ => ⟨b, h1, hn.2 h2⟩
  have hA : ∀ l, SatA w.con w.tr (min l (w.dl - 1)) → SatA w.con (Loop.undo w).tr l := fun l h => ⟨h.1, fun a ha => hn.2 (h.2 a ha)⟩
  have hP : ∀ x l, x ∈ w.pend → At w.tr x (min l (w.dl - 1)) → False := by
    intro x l hx hl
    have := h.trl.level hx hl; omega
  refine ⟨h.lay, h.flags, h.wat, ⟨?_, ?_, ?_, ?_⟩, h.oth, ?_, ?_, ?_, ?_⟩
  · refine h.trl.vars.sublist (List.Sublist.cons_cons _ (List.Sublist.map _ List.filter_sublist))
  · intro e he
    have h2 : e ∈ w.tr.filter (fun e => decide (e.lev < w.dl)) := he
    rw [List.mem_filter, decide_eq_true_eq] at h2
    show e.lev ≤ w.dl - 1
    omega
  · exact h.trl.ord.sublist List.filter_sublist
  · intro p hp; cases hp
  · intro i a1 a2 a3 l hl
    rcases h.p i a1 a2 a3 _ (hn.1 hl) with h1 | h1 | h1 | h1
    · exact (hP _ _ h1 (hn.1 hl)).elim
    · exact Or.inr (Or.inl (hS l h1))
    · exact Or.inr (Or.inr (Or.inl (hA l h1)))
    · omega
  · intro hx a ha l hl
    rcases h.q hx a ha _ (hn.1 hl) with h1 | h1 | h1 | h1
    · exact (hP _ _ h1 (hn.1 hl)).elim
    · exact Or.inr (Or.inl (hS l h1))
    · exact Or.inr (Or.inr (Or.inl (hn.2 h1)))
    · omega
  · intro pre e post he hr
    have he' : w.tr.filter (fun e => decide (e.lev < w.dl)) = pre ++ e :: post := he
    have hl : e.lev < w.dl := by
      have : e ∈ w.tr.filter (fun e => decide (e.lev < w.dl)) := by rw [he']; simp
      rw [List.mem_filter, decide_eq_true_eq] at this
      exact this.2
    obtain ⟨pre', post', e1, e2⟩ := split_filter he'
    have ho : ∀ f ∈ post', f.lev ≤ e.lev := by
      have := h.trl.ord
      rw [e1, List.pairwise_append] at this
      exact (List.pairwise_cons.1 this.2.1).1
    have hf : ∀ f ∈ post', f ∈ post := by
      intro f hf
      rw [e2, List.mem_filter]
      have := ho f hf
      exact ⟨hf, by simp; omega⟩
    rcases h.r pre' e post' e1 hr with ⟨h1, h2, h3⟩ | ⟨h1, h2, h3, h4, h5⟩
    · refine Or.inl ⟨h1, h2, fun i a1 a2 a3 => ?_⟩
      obtain ⟨f, f1, f2⟩ := h3 i a1 a2 a3
      exact ⟨f, hf f f1, f2⟩
    · refine Or.inr ⟨h1, h2, h3, Or.inl fun a ha => ?_, fun b hb => ?_⟩
      · rcases h4 with h4 | h4
        · exact hn.2 ((h4 a ha).mono (by omega))
        · omega
      · obtain ⟨f, f1, f2⟩ := h5 b hb
        exact ⟨f, hf f f1, f2⟩
  · intro p hp; cases hp

/-! ### `otherIsSat` -/

theorem exists_split {α : Type} {l : List α} {a : α} (h : a ∈ l) : ∃ pre post, l = pre ++ a :: post := List.append_of_mem h

theorem true_of_mem {tr : List Entry} {e : Entry} {x : Lit} (h : e ∈ tr) (hx : e.lit = x) : isTrue tr x = true := isTrue_iff.2 (Or.inr ⟨e, h, hx⟩)

/-- as long as the formula is the antecedent of a literal, it is known to be satisfied -/
theorem Inv.sat_of_rs {w : Wd} (h : Inv w) (hc : w.conf = none) {e : Entry} (he : e ∈ w.tr) (hr : e.rs = true) : otherIsSat w.tr w.con = (true, w.con) := by
  obtain ⟨pre, post, hs⟩ := exists_split he
  rcases h.r pre e post hs hr with ⟨h1, h2, _⟩ | ⟨h1, h2, h3, h4, _⟩
  · unfold otherIsSat
    rw [if_pos h1, ← h2, true_of_mem he rfl]
  · have hall : ∀ a ∈ w.con.xs, isTrue w.tr a = true := by
      intro a ha
      rcases h4 with h4 | h4
      · obtain ⟨f, f1, f2, _⟩ := h4 a ha
        exact true_of_mem f1 f2
      · rw [hc] at h4; simp at h4
    unfold otherIsSat
    rw [if_neg (by rw [h1]; exact fun h => h rfl), if_neg]
    · have : w.con.xs.find? (fun a => !isTrue w.tr a) = none := by
        rw [List.find?_eq_none]
        intro a ha
        rw [hall a ha]; decide
      rw [this]
    · rw [h1, h2, hall _ (h.lay.slot h2)]; decide

theorem Inv.fin1 {w : Wd} (h : Inv w) : 1 + 1 < w.con.fin := by
  obtain ⟨f, g, h1, h2, h3, h4, h5, _⟩ := h.flags; omega

/-- what `otherIsSat` finds out -/
theorem Inv.other_true {w : Wd} (h : Inv w) (hs : (otherIsSat w.tr w.con).1 = true) :
    (otherIsSat w.tr w.con).2 = w.con ∧ (Sat w.con w.tr w.dl ∨ SatA w.con w.tr w.dl) := by
  revert hs
  unfold otherIsSat
  split
  · rename_i h1
    intro hs
    refine ⟨rfl, Or.inl ⟨w.con.lit w.con.other, mem_bodies.2 ⟨w.con.other, ?_, h.oth.2, rfl⟩, ?_⟩⟩
    · rcases h.lay.x with hx | hx <;> have := h.oth.1 <;> omega
    · exact (isTrue_at h.trl (h.lay.avar h.oth.1 h.oth.2)).1 hs
  · rename_i h1
    split
    · intro hs; cases hs
    · split
      · intro hs; cases hs
      · rename_i h3
        intro _
        rw [List.find?_eq_none] at h3
        have h1' : w.con.other = w.con.xPos := by
          by_contra hne; exact h1 hne
        have hx : w.con.xPos = 1 := by rcases h.lay.x with hx | hx <;> have := h.oth.1 <;> omega
        refine ⟨rfl, Or.inr ⟨hx, fun a ha => ?_⟩⟩
        have := h3 a ha
        exact (isTrue_at h.trl (h.lay.xvar a ha)).1 (by simpa using this)

/-- the atom of the active clause may be exchanged -/
theorem Inv.setSlot {w : Wd} (h : Inv w) (hc : w.conf = none) (hx : w.con.xPos = 1) {a : Lit} (ha : a ∈ w.con.xs) (hr : ∀ e ∈ w.tr, e.rs = false)
    (hs : w.con.flag 1 = true → ∀ l, At w.tr a.neg l → a.neg ∈ w.pend ∨ Sat w.con w.tr l)
    (hq : ∀ b ∈ w.con.xs, ∀ l, At w.tr b.neg l → b.neg ∈ w.pend ∨ Sat w.con w.tr l ∨ At w.tr a.neg l) :
    Inv { w with con := { w.con with lit := Function.update w.con.lit 1 a } } := by
  have hf := h.fin1
  have e1 := xs_update (c := w.con) (i := 1) (a := a) (by omega)
  have e2 := bodies_update (c := w.con) (a := a) hx
  have eS : ∀ l, Sat { w.con with lit := Function.update w.con.lit 1 a } w.tr l ↔ Sat w.con w.tr l := by
    intro l; unfold Sat; rw [e2]
  have eA : ∀ l, SatA { w.con with lit := Function.update w.con.lit 1 a } w.tr l ↔ SatA w.con w.tr l := by
    intro l; unfold SatA; rw [e1]
  have eL : ∀ i, i ≠ 1 → Function.update w.con.lit 1 a i = w.con.lit i := fun i hi => Function.update_of_ne hi _ _
  have e11 : Function.update w.con.lit 1 a 1 = a := Function.update_self ..
  refine ⟨h.lay.set (by omega) hx ha, h.flags, ⟨h.wat.nod, fun e he => ?_, fun b hb => ?_, fun i a1 a2 a3 => ?_⟩, h.trl, h.oth, ?_, ?_, ?_, ?_⟩
  · rcases h.wat.ok e he with h1 | ⟨h1, h2, h3, h4⟩
    · left; rw [e1]; exact h1
    · right
      refine ⟨h1, h2, h3, ?_⟩
      show e.lit = Function.update w.con.lit 1 a e.idx
      rw [eL _ (by omega)]; exact h4
  · rw [e1] at hb; exact h.wat.atom b hb
  · obtain ⟨e, h1, h2⟩ := h.wat.body i a1 a2 a3
    refine ⟨e, h1, ?_⟩
    change 1 + w.con.xPos ≤ i at a1
    show e.lit = Function.update w.con.lit 1 a i
    rw [eL _ (by omega)]; exact h2
  · intro i a1 a2 a3 l hl
    change At w.tr (Function.update w.con.lit 1 a i).neg l at hl
    show (Function.update w.con.lit 1 a i).neg ∈ w.pend ∨ _
    rw [eS, eA]
    by_cases hi : i = 1
    · subst hi
      rw [e11] at hl ⊢
      rcases hs a3 l hl with h1 | h1
      · exact Or.inl h1
      · exact Or.inr (Or.inl h1)
    · rw [eL _ hi] at hl ⊢
      exact h.p i a1 a2 a3 l hl
  · intro _ b hb l hl
    rw [e1] at hb
    rw [eS]
    show _ ∨ _ ∨ At w.tr (Function.update w.con.lit 1 a 1).neg l ∨ _
    rw [e11]
    rcases hq b hb l hl with h1 | h1 | h1
    · exact Or.inl h1
    · exact Or.inr (Or.inl h1)
    · exact Or.inr (Or.inr (Or.inl h1))
  · intro pre e post he hr'
    have := hr e (by change w.tr = _ at he; rw [he]; simp)
    rw [this] at hr'; cases hr'
  · intro p hp
    change w.conf = some p at hp
    rw [hc] at hp; cases hp

/-- after `otherIsSat` has failed: the invariant holds, nothing was forced by the formula, and a true atom is not in the active clause if it
is asked for -/
theorem Inv.other_false {w : Wd} (h : Inv w) (hc : w.conf = none) (hs : (otherIsSat w.tr w.con).1 = false) :
    Inv { w with con := (otherIsSat w.tr w.con).2 } ∧ (∀ e ∈ w.tr, e.rs = false) ∧
    (otherIsSat w.tr w.con).2.xPos = w.con.xPos ∧ (otherIsSat w.tr w.con).2.other = w.con.other ∧
    (otherIsSat w.tr w.con).2.flag = w.con.flag ∧ (otherIsSat w.tr w.con).2.wat = w.con.wat ∧ (otherIsSat w.tr w.con).2.fin = w.con.fin ∧
    (otherIsSat w.tr w.con).2.bodies = w.con.bodies ∧ (otherIsSat w.tr w.con).2.xs = w.con.xs ∧
    (w.con.other = w.con.xPos → isTrue w.tr ((otherIsSat w.tr w.con).2.lit w.con.xPos) = false) ∧
    (∀ i, i ≠ 1 ∨ w.con.xPos = 0 → (otherIsSat w.tr w.con).2.lit i = w.con.lit i) := by
  have hr : ∀ e ∈ w.tr, e.rs = false := by
    intro e he
    by_contra hne
    rw [h.sat_of_rs hc he (by simpa using hne)] at hs; cases hs
  revert hs
  unfold otherIsSat
  split
  · rename_i h1
    intro hs
    exact ⟨h, hr, rfl, rfl, rfl, rfl, rfl, rfl, rfl, fun e => absurd e h1, fun _ _ => rfl⟩
  · rename_i h1
    have h1' : w.con.other = w.con.xPos := by
      by_contra hne; exact h1 hne
    split
    · rename_i h2
      intro _
      exact ⟨h, hr, rfl, rfl, rfl, rfl, rfl, rfl, rfl, fun _ => h1' ▸ h2, fun _ _ => rfl⟩
    · rename_i h2
      split
      · rename_i a h3
        intro _
        have ha := List.mem_of_find?_eq_some h3
        have hna : isTrue w.tr a = false := by
          have := List.find?_some h3
          simpa using this
        have hx : w.con.xPos = 1 := by rcases h.lay.x with hx | hx <;> have := h.oth.1 <;> omega
        have hst : At w.tr (w.con.lit 1) w.dl := by
          have : isTrue w.tr (w.con.lit 1) = true := by
            rw [h1', hx] at h2; simpa using h2
          exact (isTrue_at h.trl (h.lay.xvar _ (h.lay.slot hx))).1 this
        have hQ : ∀ b ∈ w.con.xs, ∀ l, At w.tr b.neg l → b.neg ∈ w.pend ∨ Sat w.con w.tr l := by
          intro b hb l hl
          rcases h.q hx b hb l hl with k | k | k | k
          · exact Or.inl k
          · exact Or.inr k
          · exact (h.trl.not_both hst k).elim
          · rw [hc] at k; simp at k
        have hf := h.fin1
        have hu : Function.update w.con.lit w.con.xPos a = Function.update w.con.lit 1 a := by rw [hx]
        rw [hu]
        refine ⟨h.setSlot hc hx ha hr (fun _ => hQ a ha) (fun b hb l hl => (hQ b hb l hl).imp id Or.inl), hr, rfl, rfl, rfl, rfl, rfl,
          bodies_update hx, xs_update (by omega), fun _ => ?_, fun i hi => ?_⟩
        · show isTrue w.tr (Function.update w.con.lit 1 a w.con.xPos) = false
          rw [hx, Function.update_self]; exact hna
        · rcases hi with hi | hi
          · exact Function.update_of_ne hi _ _
          · omega
      · intro hs; cases hs

end Clasp.Loop
