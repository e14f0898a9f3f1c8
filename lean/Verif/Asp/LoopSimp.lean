/- C36: loop formulas: creation, `isOpen`, and simplification keep the invariant. No code is modelled in this file. -/
import Verif.Asp.LoopProp
namespace Clasp.Loop
open Core

theorem nodup_of_map {α β : Type} {f : α → β} {l : List α} (h : (l.map f).Nodup) : l.Nodup := by
  induction l with
  | nil => exact List.nodup_nil
  | cons a l ih =>
    rw [List.map_cons, List.nodup_cons] at h
    exact List.nodup_cons.2 ⟨fun hm => h.1 (List.mem_map.2 ⟨a, hm, rfl⟩), ih h.2⟩

/-! ### Watches -/

theorem rem_nodup {wat : List Watch} {p : Lit} (hn : (wat.map Watch.lit).Nodup) : ((rem wat p).map Watch.lit).Nodup :=
  List.Nodup.sublist (List.Sublist.map _ (List.eraseP_sublist ..)) hn

theorem rem_mem {wat : List Watch} {p : Lit} (hn : (wat.map Watch.lit).Nodup) {e : Watch} : e ∈ rem wat p ↔ e ∈ wat ∧ e.lit ≠ p := by
  induction wat with
  | nil => simp [rem]
  | cons a wat ih =>
    rw [List.map_cons, List.nodup_cons] at hn
    have ih := ih hn.2
    unfold rem at ih ⊢
    rw [List.eraseP_cons]
    by_cases h : a.lit = p
    · simp only [h, decide_true, cond_true, List.mem_cons]
      constructor
      · intro he
        refine ⟨Or.inr he, fun hp => hn.1 ?_⟩
        rw [h, ← hp]; exact List.mem_map.2 ⟨e, he, rfl⟩
      · rintro ⟨rfl | he, hp⟩
        · exact absurd h hp
        · exact he
    · simp only [h, decide_false, cond_false, List.mem_cons]
      rw [ih]
      constructor
      · rintro (rfl | ⟨h1, h2⟩)
        · exact ⟨Or.inl rfl, h⟩
        · exact ⟨Or.inr h1, h2⟩
      · rintro ⟨rfl | h1, h2⟩
        · exact Or.inl rfl
        · exact Or.inr ⟨h1, h2⟩

theorem foldl_rem {α : Type} {key : α → Lit} {sel : α → Bool} : ∀ {xs : List α} {wat : List Watch}, (wat.map Watch.lit).Nodup →
    ((xs.foldl (fun wat q => if sel q then rem wat (key q) else wat) wat).map Watch.lit).Nodup ∧
    ∀ e, e ∈ xs.foldl (fun wat q => if sel q then rem wat (key q) else wat) wat ↔ e ∈ wat ∧ ∀ q ∈ xs, sel q = true → e.lit ≠ key q := by
  intro xs
  induction xs with
  | nil => intro wat hn; exact ⟨hn, fun e => by simp⟩
  | cons a xs ih =>
    intro wat hn
    rw [List.foldl_cons]
    by_cases hs : sel a = true
    · rw [if_pos hs]
      obtain ⟨h1, h2⟩ := ih (rem_nodup (p := key a) hn)
      refine ⟨h1, fun e => ?_⟩
      rw [h2, rem_mem hn]
      constructor
      · rintro ⟨⟨h3, h4⟩, h5⟩
        refine ⟨h3, fun q hq => ?_⟩
        rcases List.mem_cons.1 hq with rfl | hq
        · exact fun _ => h4
        · exact h5 q hq
      · rintro ⟨h3, h4⟩
        exact ⟨⟨h3, h4 a (List.mem_cons_self ..) hs⟩, fun q hq => h4 q (List.mem_cons_of_mem _ hq)⟩
    · rw [if_neg hs]
      obtain ⟨h1, h2⟩ := ih hn
      refine ⟨h1, fun e => ?_⟩
      rw [h2]
      constructor
      · rintro ⟨h3, h4⟩
        refine ⟨h3, fun q hq => ?_⟩
        rcases List.mem_cons.1 hq with rfl | hq
        · exact fun k => absurd k hs
        · exact h4 q hq
      · rintro ⟨h3, h4⟩
        exact ⟨h3, fun q hq => h4 q (List.mem_cons_of_mem _ hq)⟩

theorem move_lit {wat : List Watch} {p : Lit} {j : Nat} : (move wat p j).map Watch.lit = wat.map Watch.lit := by
  unfold move
  rw [List.map_map]
  apply List.map_congr_left
  intro e _
  show (if e.lit = p then { e with idx := j } else e : Watch).lit = e.lit
  split <;> rfl

theorem foldl_move {α : Type} {key : α → Lit} {pos : α → Nat} {sel : α → Bool} : ∀ {L : List α} {wat : List Watch},
    (L.foldl (fun wat q => if sel q then move wat (key q) (pos q) else wat) wat).map Watch.lit = wat.map Watch.lit ∧
    ∀ e ∈ L.foldl (fun wat q => if sel q then move wat (key q) (pos q) else wat) wat, ∃ f ∈ wat, e.lit = f.lit ∧
      ((e.idx = f.idx ∧ ∀ q ∈ L, sel q = true → key q ≠ f.lit) ∨ ∃ q ∈ L, sel q = true ∧ key q = f.lit ∧ e.idx = pos q) := by
  intro L
  induction L with
  | nil => intro wat; exact ⟨rfl, fun e he => ⟨e, he, rfl, Or.inl ⟨rfl, by simp⟩⟩⟩
  | cons a L ih =>
    intro wat
    rw [List.foldl_cons]
    by_cases hs : sel a = true
    · rw [if_pos hs]
      obtain ⟨h1, h2⟩ := ih (wat := move wat (key a) (pos a))
      refine ⟨h1.trans move_lit, fun e he => ?_⟩
      obtain ⟨f, f1, f2, f3⟩ := h2 e he
      obtain ⟨g, g1, g2⟩ := List.mem_map.1 f1
      have hgl : f.lit = g.lit := by rw [← g2]; split <;> rfl
      refine ⟨g, g1, f2.trans hgl, ?_⟩
      rw [hgl] at f3
      rcases f3 with ⟨f3, f4⟩ | ⟨q, q1, q2⟩
      · by_cases hk : g.lit = key a
        · right
          refine ⟨a, List.mem_cons_self .., hs, hk.symm, ?_⟩
          rw [f3, ← g2, if_pos hk]
        · left
          rw [if_neg hk] at g2
          refine ⟨by rw [f3, ← g2], fun q hq => ?_⟩
          rcases List.mem_cons.1 hq with rfl | hq
          · exact fun _ h => hk h.symm
          · exact f4 q hq
      · exact Or.inr ⟨q, List.mem_cons_of_mem _ q1, q2⟩
    · rw [if_neg hs]
      obtain ⟨h1, h2⟩ := ih (wat := wat)
      refine ⟨h1, fun e he => ?_⟩
      obtain ⟨f, f1, f2, f3⟩ := h2 e he
      refine ⟨f, f1, f2, ?_⟩
      rcases f3 with ⟨f3, f4⟩ | ⟨q, q1, q2⟩
      · refine Or.inl ⟨f3, fun q hq => ?_⟩
        rcases List.mem_cons.1 hq with rfl | hq
        · exact fun k => absurd k hs
        · exact f4 q hq
      · exact Or.inr ⟨q, List.mem_cons_of_mem _ q1, q2⟩

/-! ### Layout -/

section layout
variable {act : List (Lit × Bool)} {xs : List Lit} {x o : Nat} {wat : List Watch}

theorem layout_lit {i : Nat} (h : i < act.length) : (Con.layout act xs x o wat).lit (i + 1) = act[i].1 := by
  show (if i + 1 = 0 then litTrue else if i + 1 ≤ act.length then (act.getD (i + 1 - 1) (litTrue, false)).1 else _) = _
  rw [if_neg (by omega), if_pos (by omega), Nat.add_sub_cancel, List.getD_eq_getElem?_getD, List.getElem?_eq_getElem h]; rfl

theorem layout_flag {i : Nat} (h : i < act.length) : (Con.layout act xs x o wat).flag (i + 1) = act[i].2 := by
  show (if i + 1 = 0 then false else if i + 1 ≤ act.length then (act.getD (i + 1 - 1) (litTrue, false)).2 else false) = _
  rw [if_neg (by omega), if_pos (by omega), Nat.add_sub_cancel, List.getD_eq_getElem?_getD, List.getElem?_eq_getElem h]; rfl

theorem layout_flag_ge {i : Nat} (h : act.length < i) : (Con.layout act xs x o wat).flag i = false := by
  show (if i = 0 then false else if i ≤ act.length then _ else false) = false
  rw [if_neg (by omega), if_neg (by omega)]

theorem layout_xs : (Con.layout act xs x o wat).xs = xs := by
  unfold Con.xs
  show (List.range' (act.length + 1 + 1) (act.length + 2 + xs.length - (act.length + 1 + 1))).map (Con.layout act xs x o wat).lit = xs
  apply List.ext_getElem
  · rw [List.length_map, List.length_range']; omega
  · intro i h1 h2
    rw [List.getElem_map, List.getElem_range']
    show (if _ = 0 then litTrue else if _ ≤ act.length then _ else if _ = act.length + 1 then litTrue else xs.getD _ litTrue) = _
    rw [if_neg (by omega), if_neg (by omega), if_neg (by omega)]
    have : act.length + 1 + 1 + 1 * i - (act.length + 2) = i := by omega
    rw [this, List.getD_eq_getElem?_getD, List.getElem?_eq_getElem h2]; rfl

theorem layout_bodies : (Con.layout act xs x o wat).bodies = (act.drop x).map Prod.fst := by
  unfold Con.bodies
  show (List.range' (1 + x) (act.length + 1 - (1 + x))).map (Con.layout act xs x o wat).lit = _
  apply List.ext_getElem
  · simp; omega
  · intro i h1 h2
    simp only [List.length_map, List.length_drop] at h2
    rw [List.getElem_map, List.getElem_range', List.getElem_map, List.getElem_drop]
    have : 1 + x + 1 * i = (x + i) + 1 := by omega
    rw [this, layout_lit (by omega)]

theorem layout_lay (hx : x = 0 ∨ x = 1) (hv : ∀ q ∈ act, q.1.var ≠ 0) (hxv : ∀ a ∈ xs, a.var ≠ 0) (hn : ((act.drop x).map fun q => q.1.var).Nodup)
    (hab : ∀ a ∈ xs, ∀ q ∈ act.drop x, a.var ≠ q.1.var) (hai : ∀ a ∈ xs, ∀ b ∈ xs, a.var = b.var → a = b)
    (hs : x = 1 → ∃ q t, act = q :: t ∧ q.1 ∈ xs) (h0 : x = 0 → xs = []) : Lay (Con.layout act xs x o wat) := by
  refine ⟨rfl, ?_, hx, ?_, ?_, ?_, ?_, ?_, ?_, ?_, ?_⟩
  · show (if act.length + 1 = 0 then litTrue else if act.length + 1 ≤ act.length then _ else if act.length + 1 = act.length + 1 then litTrue else _) = litTrue
    rw [if_neg (by omega), if_neg (by omega), if_pos rfl]
  · show act.length + 1 + 1 ≤ act.length + 2 + xs.length; omega
  · rw [layout_bodies]
    intro b hb
    obtain ⟨q, q1, rfl⟩ := List.mem_map.1 hb
    exact hv q (List.mem_of_mem_drop q1)
  · rw [layout_xs]; exact hxv
  · intro i j i1 i2 j1 j2 he
    change 1 + x ≤ i at i1
    change 1 + x ≤ j at j1
    change i < act.length + 1 at i2
    change j < act.length + 1 at j2
    obtain ⟨i, rfl⟩ : ∃ k, i = k + 1 := ⟨i - 1, by omega⟩
    obtain ⟨j, rfl⟩ : ∃ k, j = k + 1 := ⟨j - 1, by omega⟩
    rw [layout_lit (by omega), layout_lit (by omega)] at he
    have h1 : ((act.drop x).map fun q => q.1.var)[i - x]'(by simp; omega) = ((act.drop x).map fun q => q.1.var)[j - x]'(by simp; omega) := by
      simp only [List.getElem_map, List.getElem_drop]
      have e1 : x + (i - x) = i := by omega
      have e2 : x + (j - x) = j := by omega
      simp only [e1, e2]; exact he
    have := (List.getElem_inj hn).1 h1
    omega
  · rw [layout_xs, layout_bodies]
    intro a ha b hb
    obtain ⟨q, q1, rfl⟩ := List.mem_map.1 hb
    exact hab a ha q q1
  · rw [layout_xs]; exact hai
  · intro h1
    obtain ⟨q, t, rfl, h2⟩ := hs h1
    rw [layout_xs]; exact h2
  · intro h1; rw [layout_xs]; exact h0 h1

end layout

/-! ### The active clause -/

theorem active_eq {c : Con} (h : Lay c) {s : Nat} (h1 : 1 ≤ s) (h2 : s ≤ c.fin) : c.active s = (List.range' s (c.fin - s)).map fun i => (i, c.lit i, c.flag i) := by
  unfold Con.active
  have hsz := h.size
  have hr : List.range' s (c.size - s) = List.range' s (c.fin - s) ++ c.fin :: List.range' (c.fin + 1) (c.size - c.fin - 1) := by
    have e1 : c.size - s = (c.fin - s) + ((c.size - c.fin - 1) + 1) := by omega
    rw [e1, ← List.range'_append_1]
    congr 1
    have e2 : s + (c.fin - s) = c.fin := by omega
    rw [e2, List.range'_succ]
  rw [hr, List.map_append, List.takeWhile_append_of_pos, List.map_cons, List.takeWhile_cons_of_neg, List.append_nil]
  · simp [h.s1]
  · intro q hq
    obtain ⟨i, hi, rfl⟩ := List.mem_map.1 hq
    rw [List.mem_range'_1] at hi
    have := h.avar (i := i) (by omega) (by omega)
    simp only [decide_eq_true_eq]
    intro he
    rw [he] at this
    exact this rfl

theorem mem_active {c : Con} (h : Lay c) {s : Nat} (h1 : 1 ≤ s) (h2 : s ≤ c.fin) {q : Nat × Lit × Bool} :
    q ∈ c.active s ↔ s ≤ q.1 ∧ q.1 < c.fin ∧ q.2 = (c.lit q.1, c.flag q.1) := by
  rw [active_eq h h1 h2, List.mem_map]
  constructor
  · rintro ⟨i, hi, rfl⟩
    rw [List.mem_range'_1] at hi
    exact ⟨hi.1, by show i < c.fin; omega, rfl⟩
  · rintro ⟨a1, a2, a3⟩
    exact ⟨q.1, List.mem_range'_1.2 ⟨a1, by omega⟩, by rw [← a3]⟩

/-- `detach` leaves no watch -/
theorem detach_nil {c : Con} (hn : (c.wat.map Watch.lit).Nodup)
    (hw : ∀ e ∈ c.wat, e.lit ∈ c.xs ∨ ∃ q ∈ c.active (1 + c.xPos), q.2.2 = true ∧ e.lit = q.2.1) : detach c = [] := by
  unfold detach
  have h1 := foldl_rem (key := fun q : Nat × Lit × Bool => q.2.1) (sel := fun q => q.2.2) (xs := c.active (1 + c.xPos)) hn
  generalize ((c.active (1 + c.xPos)).foldl (fun wat q => if q.2.2 = true then rem wat q.2.1 else wat) c.wat) = W at *
  have h2 := foldl_rem (key := fun q : Lit => q) (sel := fun _ => true) (xs := c.xs) h1.1
  simp only [if_true] at h2
  rw [List.eq_nil_iff_forall_not_mem]
  intro e he
  obtain ⟨e1, e2⟩ := (h2.2 e).1 he
  obtain ⟨e3, e4⟩ := (h1.2 e).1 e1
  rcases hw e e3 with k | ⟨q, q1, q2, q3⟩
  · exact e2 _ k trivial rfl
  · exact e4 q q1 q2 q3

theorem Wat.detach {c : Con} (hl : Lay c) (hw : Wat c c.wat) (hf : 1 + 1 < c.fin) : detach c = [] := by
  refine detach_nil hw.nod fun e he => ?_
  rcases hw.ok e he with ⟨_, k, _⟩ | ⟨k1, k2, k3, k4⟩
  · exact Or.inl k
  · exact Or.inr ⟨(e.idx, c.lit e.idx, c.flag e.idx),
      (mem_active hl (by omega) (by rcases hl.x with k | k <;> omega)).2 ⟨k1, k2, rfl⟩, k3, k4⟩

/-! ### Opening, creation -/

theorem Inv.setOther {w : Wd} (h : Inv w) (hc : w.conf = none) (hr : ∀ e ∈ w.tr, e.rs = false) {o : Nat} (ho : 1 ≤ o ∧ o < w.con.fin) :
    Inv { w with con := { w.con with other := o } } := by
  refine ⟨⟨h.lay.s0, h.lay.s1, h.lay.x, h.lay.size, h.lay.bvar, h.lay.xvar, h.lay.binj, h.lay.ab, h.lay.ai, h.lay.slot, h.lay.none⟩, h.flags,
    ⟨h.wat.nod, h.wat.ok, h.wat.atom, h.wat.body⟩, h.trl, ho, h.p, h.q, ?_, ?_⟩
  · intro pre f post hf hfr
    change w.tr = _ at hf
    have := hr f (by rw [hf]; simp)
    rw [hfr] at this; cases this
  · intro q hq
    change w.conf = some q at hq
    rw [hc] at hq; cases hq

theorem Inv.isOpen {w : Wd} (h : Inv w) (hc : w.conf = none) : Inv { w with con := isOpen w.tr w.con } := by
  unfold Loop.isOpen
  dsimp only
  cases hs : (otherIsSat w.tr w.con).1 with
  | true =>
    rw [if_pos rfl, (h.other_true hs).1]; exact h
  | false =>
    rw [if_neg (by simp)]
    obtain ⟨hI, hr, x1, x2, x3, x4, x5, x6, x7, x8, x9⟩ := h.other_false hc hs
    generalize (otherIsSat w.tr w.con).2 = c at *
    split
    · rename_i q hq
      have hm := List.mem_of_find?_eq_some hq
      have hf := hI.fin1
      change 1 + 1 < c.fin at hf
      have := (mem_active hI.lay (by omega) (by rcases hI.lay.x with k | k <;> (change c.xPos = _ at k; show 1 + c.xPos ≤ c.fin; omega))).1 hm
      exact Inv.setOther hI hc hr ⟨by omega, this.2.1⟩
    · exact hI

theorem Inv.start {bodies atoms : List Lit} {w : Wd} (h : Start bodies atoms w) : Inv w := by
  have htl : Trl w.tr w.dl w.pend := ⟨h.vars, h.lev, h.ord, h.pend⟩
  obtain ⟨b, bs, rfl⟩ : ∃ b bs, bodies = b :: bs := by
    cases hb : bodies with
    | nil => exact absurd hb h.ne.1
    | cons b bs => exact ⟨b, bs, rfl⟩
  obtain ⟨a, as, rfl⟩ : ∃ a as, atoms = a :: as := by
    cases ha : atoms with
    | nil => have := h.ne.2; rw [ha] at this; simp at this
    | cons a as => exact ⟨a, as, rfl⟩
  have hd := h.dist
  unfold Distinct at hd
  rw [List.nodup_cons, List.map_append, List.nodup_append] at hd
  obtain ⟨d0, d1, d2, d3⟩ := hd
  have hcon : w.con = Con.layout ((a, true) :: (b, true) :: bs.map fun x => (x, false)) (a :: as) 1 1
      (⟨b, 2, true⟩ :: (a :: as).map fun a => ⟨a, 1, true⟩) := by
    rw [h.con]
    unfold Con.new
    have : (b :: bs).mapIdx (fun i b => (b, i == 0)) = (b, true) :: bs.map fun x => (x, false) := by
      rw [List.mapIdx_cons]
      congr 1
      apply List.ext_getElem
      · simp
      · intro i _ _; simp
    rw [this]; rfl
  have hbod : ((((a, true) :: (b, true) :: bs.map fun x => (x, false)).drop 1).map Prod.fst : List Lit) = b :: bs := by
    simp [List.map_map, Function.comp_def]
  have hv0 : ∀ x ∈ (b :: bs) ++ (a :: as), x.var ≠ 0 := by
    intro x hx he
    refine d0 ?_
    rw [← List.map_append]
    exact List.mem_map.2 ⟨x, hx, he⟩
  have hlay : Lay w.con := by
    rw [hcon]
    refine layout_lay (Or.inr rfl) ?_ (fun x hx => hv0 x (List.mem_append_right _ hx)) ?_ ?_ ?_ (fun _ => ⟨_, _, rfl, List.mem_cons_self ..⟩) (by simp)
    · intro q hq
      rcases List.mem_cons.1 hq with rfl | hq
      · exact hv0 _ (by simp)
      · refine hv0 _ (List.mem_append_left _ ?_)
        rw [← hbod]
        exact List.mem_map.2 ⟨q, hq, rfl⟩
    · have : (((a, true) :: (b, true) :: bs.map fun x => (x, false)).drop 1).map (fun q : Lit × Bool => q.1.var) = (b :: bs).map Lit.var := by
        rw [← hbod, List.map_map]; rfl
      rw [this]; exact d1
    · intro x hx q hq he
      have : q.1 ∈ b :: bs := by rw [← hbod]; exact List.mem_map.2 ⟨q, hq, rfl⟩
      exact d3 _ (List.mem_map.2 ⟨q.1, this, rfl⟩) _ (List.mem_map.2 ⟨x, hx, rfl⟩) he.symm
    · intro x hx y hy he
      exact inj_of_nodup d2 hx hy he
  have hx1 : w.con.xPos = 1 := by rw [hcon]; rfl
  have hxs : w.con.xs = a :: as := by rw [hcon]; exact layout_xs
  have hbs : w.con.bodies = b :: bs := by rw [hcon, layout_bodies]; exact hbod
  have hfin : w.con.fin = bs.length + 3 := by rw [hcon]; show (_ : List (Lit × Bool)).length + 1 = _; simp
  have hl1 : w.con.lit 1 = a := by rw [hcon]; rfl
  have hl2 : w.con.lit 2 = b := by rw [hcon]; rfl
  have hfl : ∀ i, w.con.flag i = true ↔ i = 1 ∨ i = 2 := by
    intro i
    rw [hcon]
    by_cases h0 : i = 0
    · subst h0; simp [Con.layout]
    by_cases h1 : i = 1
    · subst h1; simp [Con.layout]
    by_cases h2 : i = 2
    · subst h2; simp [Con.layout]
    · simp only [h1, h2, or_self, iff_false, Bool.not_eq_true]
      by_cases h3 : i ≤ bs.length + 2
      · obtain ⟨k, rfl⟩ : ∃ k, i = k + 2 + 1 := ⟨i - 3, by omega⟩
        rw [layout_flag (by simp; omega)]
        simp
      · exact layout_flag_ge (by simp; omega)
  have hall : ∀ x ∈ a :: as, ∃ e ∈ w.tr, e.lit = x := h.tru
  obtain ⟨t, t1, t2, t3⟩ := h.top
  change t.lit = b.neg at t2
  refine ⟨hlay, ⟨1, 2, by omega, by omega, by omega, by omega, by omega, hfl⟩, ?_, htl, ?_, ?_, ?_, ?_, ?_⟩
  · have hwat : w.con.wat = ⟨b, 2, true⟩ :: (a :: as).map fun a => ⟨a, 1, true⟩ := by rw [hcon]; rfl
    rw [hwat]
    refine ⟨?_, ?_, ?_, ?_⟩
    · rw [List.map_cons, List.map_map, List.nodup_cons]
      have : (Watch.lit ∘ fun a : Lit => (⟨a, 1, true⟩ : Watch)) = fun a => a := rfl
      rw [this, List.map_id']
      refine ⟨fun hm => d3 _ (List.mem_map.2 ⟨b, List.mem_cons_self .., rfl⟩) _ (List.mem_map.2 ⟨b, hm, rfl⟩) rfl, ?_⟩
      exact nodup_of_map d2
    · intro e he
      rcases List.mem_cons.1 he with rfl | he
      · right
        refine ⟨?_, ?_, ?_, hl2.symm⟩
        · rw [hx1]; show 1 + 1 ≤ 2; omega
        · rw [hfin]; show 2 < _; omega
        · exact (hfl 2).2 (Or.inr rfl)
      · obtain ⟨x, x1, rfl⟩ := List.mem_map.1 he
        exact Or.inl ⟨hx1, hxs ▸ x1, rfl⟩
    · intro x hx
      rw [hxs] at hx
      exact ⟨_, List.mem_cons_of_mem _ (List.mem_map.2 ⟨x, hx, rfl⟩), rfl⟩
    · intro i i1 i2 i3
      rw [hx1] at i1
      have : i = 2 := by have := (hfl i).1 i3; omega
      subst this
      exact ⟨_, List.mem_cons_self .., hl2.symm⟩
  · have : w.con.other = 1 := by rw [hcon]; rfl
    rw [this, hfin]; omega
  · intro i i1 i2 i3 l hl
    rcases (hfl i).1 i3 with rfl | rfl
    · exfalso
      rw [hl1] at hl
      obtain ⟨e, e1, e2⟩ := hall a (List.mem_cons_self ..)
      exact htl.not_both ⟨e, e1, e2, h.lev e e1⟩ hl
    · right; right; left
      rw [hl2] at hl
      obtain ⟨e, e1, e2, e3⟩ := hl
      have : e = t := htl.uniq e1 t1 (by rw [e2, t2])
      subst this
      refine ⟨hx1, fun x hx => ?_⟩
      obtain ⟨f, f1, f2⟩ := hall x (hxs ▸ hx)
      exact ⟨f, f1, f2, by have := h.lev f f1; omega⟩
  · intro _ x hx l hl
    exfalso
    obtain ⟨e, e1, e2⟩ := hall x (hxs ▸ hx)
    exact htl.not_both ⟨e, e1, e2, h.lev e e1⟩ hl
  · intro pre e post hs he
    right
    have hb := h.before pre e post hs he
    have helev : e.lev = w.dl := by
      obtain ⟨f, f1, f2⟩ := hb b (List.mem_cons_self ..)
      have hft : f ∈ w.tr := by rw [hs]; simp [f1]
      have : f = t := htl.uniq hft t1 (by rw [f2, t2])
      subst this
      have ho := h.ord
      rw [hs, List.pairwise_append, List.pairwise_cons] at ho
      have h1 := ho.2.1.1 f f1
      have h2 := h.lev e (by rw [hs]; simp)
      omega
    refine ⟨by rw [hcon]; rfl, hx1, hxs ▸ (h.rs e (by rw [hs]; simp)).1 he, Or.inl fun x hx => ?_, fun x hx => ?_⟩
    · obtain ⟨f, f1, f2⟩ := hall x (hxs ▸ hx)
      exact ⟨f, f1, f2, by have := h.lev f f1; omega⟩
    · exact hb x (hbs ▸ hx)
  · intro p hp
    rw [h.conf] at hp; cases hp

end Clasp.Loop
