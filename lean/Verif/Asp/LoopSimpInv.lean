/- C36: loop formulas: the formula that results from simplification. No code is modelled in this file. -/
import Verif.Asp.LoopSimp
namespace Clasp.Loop
open Core

/-- Specification: `new` stands for `old`, given what is assigned on level 0: every old clause is satisfied or contains a new one, and every new clause
is an old one without literals that are false. -/
def Rel (tr : List Entry) (old new : List (List Lit)) : Prop :=
  (∀ C ∈ old, (∃ l ∈ C, At tr l 0) ∨ ∃ D ∈ new, ∀ l ∈ D, l ∈ C) ∧ (∀ D ∈ new, ∃ C ∈ old, ∀ l ∈ C, l ∈ D ∨ At tr l.neg 0)

theorem Rel.refl {tr : List Entry} {o : List (List Lit)} : Rel tr o o :=
  ⟨fun C hC => Or.inr ⟨C, hC, fun _ h => h⟩, fun D hD => ⟨D, hD, fun _ h => Or.inl h⟩⟩

theorem Rel.trans {tr : List Entry} {a b c : List (List Lit)} (h : Rel tr a b) (h' : Rel tr b c) : Rel tr a c := by
  refine ⟨fun C hC => ?_, fun D hD => ?_⟩
  · rcases h.1 C hC with k | ⟨D, d1, d2⟩
    · exact Or.inl k
    · rcases h'.1 D d1 with ⟨l, l1, l2⟩ | ⟨E, e1, e2⟩
      · exact Or.inl ⟨l, d2 l l1, l2⟩
      · exact Or.inr ⟨E, e1, fun l hl => d2 l (e2 l hl)⟩
  · obtain ⟨C, c1, c2⟩ := h'.2 D hD
    obtain ⟨B, b1, b2⟩ := h.2 C c1
    refine ⟨B, b1, fun l hl => ?_⟩
    rcases b2 l hl with k | k
    · exact c2 l k
    · exact Or.inr k

theorem Rel.mono {tr tr' : List Entry} {a b : List (List Lit)} (h : Rel tr a b) (hs : ∀ x, At tr x 0 → At tr' x 0) : Rel tr' a b := by
  refine ⟨fun C hC => ?_, fun D hD => ?_⟩
  · rcases h.1 C hC with ⟨l, l1, l2⟩ | k
    · exact Or.inl ⟨l, l1, hs _ l2⟩
    · exact Or.inr k
  · obtain ⟨C, c1, c2⟩ := h.2 D hD
    exact ⟨C, c1, fun l hl => (c2 l hl).imp_right (hs _)⟩

/-- What simplification relies on. -/
structure Pre (tr : List Entry) (c : Con) : Prop where
  lay : Lay c
  flags : Flags c
  wat : Wat c c.wat
  trl : Trl tr 0 []
  nt : ∀ i, 1 ≤ i → i < c.fin → isTrue tr (c.lit i) = false
  p : ∀ i, 1 ≤ i → i < c.fin → c.flag i = true → isFalse tr (c.lit i) = false
  q : c.xPos = 1 → ∀ a ∈ c.xs, isFalse tr a = true → isFalse tr (c.lit 1) = true

section
variable {tr : List Entry} {c : Con}

theorem Pre.fin2 (h : Pre tr c) : 1 + 1 < c.fin := by
  obtain ⟨f, g, h1, h2, h3, h4, h5, _⟩ := h.flags; omega

/-- The literals that are kept. -/
def kept (tr : List Entry) (c : Con) : List (Nat × Lit × Bool) := (c.active 1).filter fun q => isFree tr q.2.1
/-- The number of literals that are not moved. -/
def stay (tr : List Entry) (c : Con) : Nat := ((c.active 1).takeWhile fun q => isFree tr q.2.1).length

theorem filter_takeWhile {α : Type} {p : α → Bool} : ∀ {l : List α}, l.takeWhile p ++ (l.dropWhile p).filter p = l.filter p := by
  intro l
  induction l with
  | nil => rfl
  | cons a l ih =>
    cases h : p a with
    | true => rw [List.takeWhile_cons_of_pos h, List.dropWhile_cons_of_pos h, List.filter_cons_of_pos h, List.cons_append, ih]
    | false =>
      have h' : ¬ p a = true := by rw [h]; simp
      rw [List.takeWhile_cons_of_neg h', List.dropWhile_cons_of_neg h']; rfl

theorem mem_kept (h : Pre tr c) {q : Nat × Lit × Bool} : q ∈ kept tr c ↔ (1 ≤ q.1 ∧ q.1 < c.fin ∧ q.2 = (c.lit q.1, c.flag q.1)) ∧ isFree tr (c.lit q.1) = true := by
  unfold kept
  rw [List.mem_filter, mem_active h.lay (Nat.le_refl _) (by have := h.fin2; omega)]
  constructor
  · rintro ⟨h1, h2⟩
    refine ⟨h1, ?_⟩
    rw [h1.2.2] at h2; exact h2
  · rintro ⟨h1, h2⟩
    refine ⟨h1, ?_⟩
    rw [h1.2.2]; exact h2

theorem kept_nodup (h : Pre tr c) : ((kept tr c).map Prod.fst).Nodup := by
  unfold kept
  refine List.Nodup.sublist (List.Sublist.map _ List.filter_sublist) ?_
  rw [active_eq h.lay (Nat.le_refl _) (by have := h.fin2; omega), List.map_map]
  have : (Prod.fst ∘ fun i => (i, c.lit i, c.flag i)) = fun i => i := rfl
  rw [this, List.map_id']
  exact List.nodup_range' ..

theorem kept_stay (h : Pre tr c) {j : Nat} (hj : j < stay tr c) : ∃ hj' : j < (kept tr c).length, (kept tr c)[j].1 = j + 1 := by
  have h1 : kept tr c = (c.active 1).takeWhile (fun q => isFree tr q.2.1) ++ ((c.active 1).dropWhile fun q => isFree tr q.2.1).filter fun q => isFree tr q.2.1 :=
    filter_takeWhile.symm
  have h2 : j < (kept tr c).length := by rw [h1, List.length_append]; unfold stay at hj; omega
  refine ⟨h2, ?_⟩
  unfold stay at hj
  have h3 : (kept tr c)[j] = ((c.active 1).takeWhile fun q => isFree tr q.2.1)[j] := by
    simp only [h1]
    exact List.getElem_append_left hj
  rw [h3]
  have h4 := List.IsPrefix.getElem (List.takeWhile_prefix (l := c.active 1) fun q => isFree tr q.2.1) hj
  rw [h4]
  have h5 := active_eq h.lay (Nat.le_refl 1) (by have := h.fin2; omega)
  simp only [h5, List.getElem_map, List.getElem_range']
  omega

/-- the positions of the kept literals, the rest of the formula -/
theorem simp_eq (h : Pre tr c) : (simpActive tr c).1 = (kept tr c).map Prod.snd ∧
    ((c.xPos = 1 ∧ isFree tr (c.lit 1) = true → (simpActive tr c).2.1 = 1 ∧ 1 ≤ stay tr c) ∧ (¬ (c.xPos = 1 ∧ isFree tr (c.lit 1) = true) → (simpActive tr c).2.1 = 0)) ∧
    (simpActive tr c).2.2 = ((kept tr c).mapIdx fun j q => (j + 1, q)).foldl
      (fun wat q => if q.2.2.2 && decide (stay tr c < q.1) then move wat q.2.2.1 q.1 else wat) c.wat := by
  have hA : c.active 1 = (1, c.lit 1, c.flag 1) :: c.active 2 := by
    have := h.fin2
    rw [active_eq h.lay (Nat.le_refl _) (by omega), active_eq h.lay (by omega) (by omega)]
    have e : c.fin - 1 = (c.fin - 2) + 1 := by omega
    rw [e, List.range'_succ]; rfl
  refine ⟨?_, ⟨?_, ?_⟩, ?_⟩
  · unfold simpActive kept
    dsimp only
    rw [filter_takeWhile]
  · rintro ⟨h1, h2⟩
    have hs : 1 ≤ stay tr c := by
      unfold stay
      rw [hA, List.takeWhile_cons_of_pos (p := fun q : Nat × Lit × Bool => isFree tr q.2.1) h2, List.length_cons]; omega
    refine ⟨?_, hs⟩
    unfold simpActive
    dsimp only
    split
    · exact h1
    · rename_i q t hq
      rw [if_neg]
      · exact h1
      · intro he
        have := List.head_dropWhile_not (fun q : Nat × Lit × Bool => isFree tr q.2.1) (l := c.active 1) (by rw [hq]; simp)
        simp only [hq, List.head_cons] at this
        rw [he, h1, h2] at this; cases this
  · intro hn
    by_cases h1 : c.xPos = 1
    · have h2 : ¬ isFree tr (c.lit 1) = true := fun k => hn ⟨h1, k⟩
      unfold simpActive
      dsimp only
      rw [hA, List.dropWhile_cons_of_neg (p := fun q : Nat × Lit × Bool => isFree tr q.2.1) h2]
      dsimp only
      rw [h1, if_pos rfl]
    · have h0 : c.xPos = 0 := h.lay.x.resolve_right h1
      unfold simpActive
      dsimp only
      rw [h0]
      split
      · rfl
      · split <;> rfl
  · unfold simpActive kept stay
    dsimp only
    rw [filter_takeWhile]

theorem kept_get (h : Pre tr c) {j : Nat} (hj : j < (kept tr c).length) : 1 ≤ (kept tr c)[j].1 ∧ (kept tr c)[j].1 < c.fin ∧
    (kept tr c)[j].2 = (c.lit (kept tr c)[j].1, c.flag (kept tr c)[j].1) ∧ isFree tr (c.lit (kept tr c)[j].1) = true := by
  obtain ⟨⟨h1, h2, h3⟩, h4⟩ := (mem_kept h).1 (List.getElem_mem hj)
  exact ⟨h1, h2, h3, h4⟩

theorem kept_inj (h : Pre tr c) {i j : Nat} (hi : i < (kept tr c).length) (hj : j < (kept tr c).length) (he : (kept tr c)[i].1 = (kept tr c)[j].1) : i = j := by
  have h1 : ((kept tr c).map Prod.fst)[i]'(by rw [List.length_map]; exact hi) = ((kept tr c).map Prod.fst)[j]'(by rw [List.length_map]; exact hj) := by
    rw [List.getElem_map, List.getElem_map]; exact he
  exact (List.getElem_inj (kept_nodup h)).1 h1

theorem kept_of (h : Pre tr c) {i : Nat} (h1 : 1 ≤ i) (h2 : i < c.fin) (h3 : isFree tr (c.lit i) = true) : ∃ j, ∃ hj : j < (kept tr c).length, (kept tr c)[j].1 = i := by
  have : (i, c.lit i, c.flag i) ∈ kept tr c := (mem_kept h).2 ⟨⟨h1, h2, rfl⟩, h3⟩
  obtain ⟨j, hj, he⟩ := List.getElem_of_mem this
  exact ⟨j, hj, by rw [he]⟩

theorem Pre.free (h : Pre tr c) {i : Nat} (h1 : 1 ≤ i) (h2 : i < c.fin) (h3 : c.flag i = true) : isFree tr (c.lit i) = true :=
  isFree_iff.2 ⟨h.nt i h1 h2, h.p i h1 h2 h3⟩

theorem kept_vars (h : Pre tr c) : ((kept tr c).map fun q => q.2.1.var).Nodup := by
  have h1 := kept_nodup h
  unfold List.Nodup at h1 ⊢
  rw [List.pairwise_map] at h1 ⊢
  refine List.Pairwise.imp_of_mem ?_ h1
  intro a b ha hb hne he
  obtain ⟨⟨a1, a2, a3⟩, _⟩ := (mem_kept h).1 ha
  obtain ⟨⟨b1, b2, b3⟩, _⟩ := (mem_kept h).1 hb
  rw [a3, b3] at he
  exact hne (h.lay.inj a1 a2 b1 b2 he)

/-- the watches after the literals were moved -/
theorem simp_wat (h : Pre tr c) : (simpActive tr c).2.2.map Watch.lit = c.wat.map Watch.lit ∧ ∀ e ∈ (simpActive tr c).2.2,
    (c.xPos = 1 ∧ e.lit ∈ c.xs ∧ (isFree tr (c.lit 1) = true → e.idx = 1)) ∨
    ∃ j, ∃ hj : j < (kept tr c).length, 1 + c.xPos ≤ (kept tr c)[j].1 ∧ c.flag (kept tr c)[j].1 = true ∧ e.lit = c.lit (kept tr c)[j].1 ∧ e.idx = j + 1 := by
  obtain ⟨_, hX, hw⟩ := simp_eq h
  rw [hw]
  have hm := foldl_move (key := fun q : Nat × Nat × Lit × Bool => q.2.2.1) (pos := fun q => q.1) (sel := fun q => q.2.2.2 && decide (stay tr c < q.1))
    (L := (kept tr c).mapIdx fun j q => (j + 1, q)) (wat := c.wat)
  refine ⟨hm.1, fun e he => ?_⟩
  obtain ⟨f, f1, f2, f3⟩ := hm.2 e he
  have hL : ∀ q, q ∈ ((kept tr c).mapIdx fun j q => (j + 1, q)) → (q.2.2.2 && decide (stay tr c < q.1)) = true → q.2.2.1 = f.lit →
      ∃ j, ∃ hj : j < (kept tr c).length, q.1 = j + 1 ∧ stay tr c < j + 1 ∧ c.flag (kept tr c)[j].1 = true ∧ f.lit = c.lit (kept tr c)[j].1 := by
    intro q hq hs hk
    obtain ⟨j, hj, rfl⟩ := List.mem_mapIdx.1 hq
    rw [Bool.and_eq_true, decide_eq_true_eq] at hs
    obtain ⟨k1, k2, k3, k4⟩ := kept_get h hj
    dsimp only at hs hk
    rw [k3] at hs hk
    exact ⟨j, hj, rfl, hs.2, hs.1, hk.symm⟩
  have hfin := h.fin2
  rcases h.wat.ok f f1 with ⟨k1, k2, k3⟩ | ⟨k1, k2, k3, k4⟩
  · left
    refine ⟨k1, by rw [f2]; exact k2, fun hs => ?_⟩
    rcases f3 with ⟨f3, _⟩ | ⟨q, q1, q2, q3, q4⟩
    · omega
    · exfalso
      obtain ⟨j, hj, j1, j2, j3, j4⟩ := hL q q1 q2 q3
      obtain ⟨g1, g2, g3, g4⟩ := kept_get h hj
      have hp1 : (kept tr c)[j].1 = 1 := by
        by_contra hne
        exact h.lay.ab _ k2 _ (mem_bodies.2 ⟨(kept tr c)[j].1, by omega, g2, rfl⟩) (by rw [j4])
      obtain ⟨_, hst⟩ := hX.1 ⟨k1, hs⟩
      obtain ⟨h0, h0'⟩ := kept_stay h (j := 0) (by omega)
      have := kept_inj h hj h0 (by rw [hp1, h0'])
      omega
  · right
    rcases f3 with ⟨f3, f4⟩ | ⟨q, q1, q2, q3, q4⟩
    · obtain ⟨j, hj, hj'⟩ := kept_of h (i := f.idx) (by omega) k2 (h.free (by omega) k2 k3)
      refine ⟨j, hj, by omega, by rw [hj']; exact k3, by rw [hj', f2]; exact k4, ?_⟩
      rw [f3]
      by_cases hst : j < stay tr c
      · obtain ⟨_, h0⟩ := kept_stay h hst
        omega
      · exfalso
        obtain ⟨g1, g2, g3, g4⟩ := kept_get h hj
        refine f4 (j + 1, (kept tr c)[j]) (List.mem_mapIdx.2 ⟨j, hj, rfl⟩) ?_ ?_
        · show (((kept tr c)[j].2).2 && decide (stay tr c < j + 1)) = true
          rw [g3, Bool.and_eq_true, decide_eq_true_eq]
          exact ⟨by rw [hj']; exact k3, by omega⟩
        · show (kept tr c)[j].2.1 = f.lit
          rw [g3, hj']; exact k4.symm
    · obtain ⟨j, hj, j1, j2, j3, j4⟩ := hL q q1 q2 q3
      obtain ⟨g1, g2, g3, g4⟩ := kept_get h hj
      have : (kept tr c)[j].1 = f.idx := h.lay.inj g1 g2 (by omega) k2 (by rw [← j4, k4])
      exact ⟨j, hj, by omega, j3, by rw [f2]; exact j4, by rw [q4, j1]⟩

theorem kept_flags (h : Pre tr c) : ∃ f g, f ≠ g ∧ f < (kept tr c).length ∧ g < (kept tr c).length ∧
    ∀ j, ∀ hj : j < (kept tr c).length, c.flag (kept tr c)[j].1 = true ↔ j = f ∨ j = g := by
  obtain ⟨f, g, f1, f2, f3, f4, f5, f6⟩ := h.flags
  obtain ⟨jf, hf, hf'⟩ := kept_of h f2 f3 (h.free f2 f3 ((f6 f).2 (Or.inl rfl)))
  obtain ⟨jg, hg, hg'⟩ := kept_of h f4 f5 (h.free f4 f5 ((f6 g).2 (Or.inr rfl)))
  refine ⟨jf, jg, ?_, hf, hg, fun j hj => ?_⟩
  · rintro rfl; exact f1 (hf'.symm.trans hg')
  · rw [f6]
    constructor
    · rintro (k | k)
      · exact Or.inl (kept_inj h hj hf (by rw [k, hf']))
      · exact Or.inr (kept_inj h hj hg (by rw [k, hg']))
    · rintro (rfl | rfl)
      · exact Or.inl hf'
      · exact Or.inr hg'

/-- What is proved about the formula after simplification. -/
structure Post (tr : List Entry) (c n : Con) : Prop where
  lay : Lay n
  flags : Flags n
  wat : Wat n n.wat
  other : n.other = n.xPos + 1
  free : ∀ i, 1 ≤ i → i < n.fin → isFree tr (n.lit i) = true
  xfree : ∀ a ∈ n.xs, isFree tr a = true
  rel : Rel tr c.clauses n.clauses
  cls : n.clauses = if n.xPos = 0 then [(simpActive tr c).1.map Prod.fst] else n.xs.map fun x => x :: ((simpActive tr c).1.map Prod.fst).tail

theorem layout_flags (h : Pre tr c) {xs : List Lit} {x o : Nat} {wat : List Watch} : Flags (Con.layout ((kept tr c).map Prod.snd) xs x o wat) := by
  obtain ⟨f, g, f1, f2, f3, f4⟩ := kept_flags h
  refine ⟨f + 1, g + 1, by omega, by omega, ?_, by omega, ?_, fun i => ?_⟩
  · show f + 1 < ((kept tr c).map Prod.snd).length + 1; rw [List.length_map]; omega
  · show g + 1 < ((kept tr c).map Prod.snd).length + 1; rw [List.length_map]; omega
  · cases i with
    | zero =>
      constructor
      · intro h; cases h
      · intro h; omega
    | succ i =>
      by_cases hi : i < (kept tr c).length
      · rw [layout_flag (by rw [List.length_map]; exact hi), List.getElem_map, (kept_get h hi).2.2.1]
        have := f4 i hi
        dsimp only
        rw [this]
        omega
      · rw [layout_flag_ge (by rw [List.length_map]; omega)]
        constructor
        · intro h; cases h
        · intro h; omega

theorem layout_free (h : Pre tr c) {xs : List Lit} {x o : Nat} {wat : List Watch} : ∀ i, 1 ≤ i → i < (Con.layout ((kept tr c).map Prod.snd) xs x o wat).fin →
    isFree tr ((Con.layout ((kept tr c).map Prod.snd) xs x o wat).lit i) = true := by
  intro i i1 i2
  change i < ((kept tr c).map Prod.snd).length + 1 at i2
  rw [List.length_map] at i2
  obtain ⟨j, rfl⟩ : ∃ j, i = j + 1 := ⟨i - 1, by omega⟩
  rw [layout_lit (by rw [List.length_map]; omega), List.getElem_map]
  obtain ⟨_, _, k3, k4⟩ := kept_get h (j := j) (by omega)
  rw [k3]; exact k4

theorem kept_var (h : Pre tr c) : ∀ q ∈ (kept tr c).map Prod.snd, q.1.var ≠ 0 := by
  intro q hq
  obtain ⟨r, r1, rfl⟩ := List.mem_map.1 hq
  obtain ⟨⟨a1, a2, a3⟩, _⟩ := (mem_kept h).1 r1
  rw [a3]; exact h.lay.avar a1 a2

/-- a literal of the formula is kept unless it is false -/
theorem kept_lit (h : Pre tr c) {i : Nat} (h1 : 1 ≤ i) (h2 : i < c.fin) : c.lit i ∈ ((kept tr c).map Prod.snd).map Prod.fst ∨ At tr (c.lit i).neg 0 := by
  cases hf : isFree tr (c.lit i) with
  | true =>
    left
    rw [List.map_map]
    exact List.mem_map.2 ⟨(i, c.lit i, c.flag i), (mem_kept h).2 ⟨⟨h1, h2, rfl⟩, hf⟩, rfl⟩
  | false =>
    right
    have := h.nt i h1 h2
    refine (isFalse_at h.trl (h.lay.avar h1 h2)).1 ?_
    cases hff : isFalse tr (c.lit i) with
    | true => rfl
    | false => rw [isFree_iff.2 ⟨this, hff⟩] at hf; cases hf

theorem kept_old (h : Pre tr c) {l : Lit} (hl : l ∈ ((kept tr c).map Prod.snd).map Prod.fst) : ∃ i, 1 ≤ i ∧ i < c.fin ∧ c.lit i = l ∧ isFree tr l = true := by
  rw [List.map_map] at hl
  obtain ⟨q, q1, rfl⟩ := List.mem_map.1 hl
  obtain ⟨⟨a1, a2, a3⟩, a4⟩ := (mem_kept h).1 q1
  refine ⟨q.1, a1, a2, ?_, ?_⟩
  · show _ = q.2.1
    rw [a3]
  · show isFree tr q.2.1 = true
    rw [a3]; exact a4

/-- the formula after simplification -/
theorem Pre.post (h : Pre tr c) : Post tr c (simpNew tr c) := by
  obtain ⟨e1, ⟨e2, e3⟩, _⟩ := simp_eq h
  obtain ⟨w1, w2⟩ := simp_wat h
  have hfin := h.fin2
  have hnod : ((simpActive tr c).2.2.map Watch.lit).Nodup := by rw [w1]; exact h.wat.nod
  have hwin : ∀ e ∈ c.wat, ∃ e' ∈ (simpActive tr c).2.2, e'.lit = e.lit := by
    intro e he
    have : e.lit ∈ (simpActive tr c).2.2.map Watch.lit := by rw [w1]; exact List.mem_map.2 ⟨e, he, rfl⟩
    obtain ⟨e', a, b⟩ := List.mem_map.1 this
    exact ⟨e', a, b⟩
  by_cases hX : c.xPos = 1 ∧ isFree tr (c.lit 1) = true
  · -- the atoms are kept
    obtain ⟨x1, x2⟩ := e2 hX
    obtain ⟨h0, h0'⟩ := kept_stay h (j := 0) (by omega)
    obtain ⟨q0, t, hqt⟩ : ∃ q0 t, kept tr c = q0 :: t := by
      cases hk : kept tr c with
      | nil => rw [hk] at h0; simp at h0
      | cons q t => exact ⟨q, t, rfl⟩
    have hq0 : q0 = (1, c.lit 1, c.flag 1) := by
      have h1 : (kept tr c)[0] = q0 := by simp only [hqt]; rfl
      obtain ⟨_, _, k3, _⟩ := kept_get h h0
      rw [h1] at k3 h0'
      rw [h0'] at k3
      exact Prod.ext h0' k3
    have htail : ∀ q ∈ t, 2 ≤ q.1 ∧ q.1 < c.fin ∧ q.2 = (c.lit q.1, c.flag q.1) ∧ isFree tr (c.lit q.1) = true := by
      intro q hq
      have hm : q ∈ kept tr c := by rw [hqt]; exact List.mem_cons_of_mem _ hq
      obtain ⟨⟨a1, a2, a3⟩, a4⟩ := (mem_kept h).1 hm
      have hn := kept_nodup h
      rw [hqt, List.map_cons, List.nodup_cons, hq0] at hn
      have : q.1 ≠ 1 := fun k => hn.1 (List.mem_map.2 ⟨q, hq, k⟩)
      exact ⟨by omega, a2, a3, a4⟩
    have hxfalse : ∀ a ∈ c.xs, isFalse tr a = false := by
      intro a ha
      cases hf : isFalse tr a with
      | false => rfl
      | true =>
        have := h.q hX.1 a ha hf
        rw [(isFree_iff.1 hX.2).2] at this; cases this
    have hslot := h.lay.slot hX.1
    have hxtrue : ∀ a ∈ c.xs, isFree tr a = false → At tr a 0 := by
      intro a ha hf
      refine (isTrue_at h.trl (h.lay.xvar a ha)).1 ?_
      cases ht : isTrue tr a with
      | true => rfl
      | false => rw [isFree_iff.2 ⟨ht, hxfalse a ha⟩] at hf; cases hf
    have hys : (c.xs.filter fun q => isFree tr q && decide ((simpActive tr c).2.1 ≠ 0)) = c.xs.filter fun q => isFree tr q := by
      apply List.filter_congr
      intro a _
      rw [x1]; simp
    have hwf := foldl_rem (key := fun q : Lit => q) (sel := fun q => !isFree tr q) (xs := c.xs) hnod
    have hwat : c.xs.foldl (fun wat q => if (isFree tr q && decide ((simpActive tr c).2.1 ≠ 0)) = true then wat else rem wat q) (simpActive tr c).2.2 =
        c.xs.foldl (fun wat q => if (!isFree tr q) = true then rem wat q else wat) (simpActive tr c).2.2 := by
      congr 1
      funext wat q
      rw [x1]
      cases isFree tr q <;> simp
    have hold : c.clauses = c.xs.map fun a => a :: c.bodies := by unfold Con.clauses; rw [if_neg (by omega)]
    have hbod : ∀ l ∈ c.bodies, l ∈ (t.map Prod.snd).map Prod.fst ∨ At tr l.neg 0 := by
      intro l hl
      obtain ⟨i, i1, i2, rfl⟩ := mem_bodies.1 hl
      rcases kept_lit h (i := i) (by omega) i2 with k | k
      · rw [hqt, List.map_cons, List.map_cons, List.mem_cons] at k
        rcases k with k | k
        · exfalso
          rw [hq0] at k
          have := h.lay.inj (i := i) (j := 1) (by omega) i2 (by omega) (by omega) (by rw [k])
          omega
        · exact Or.inl k
      · exact Or.inr k
    have htb : ∀ l ∈ (t.map Prod.snd).map Prod.fst, l ∈ c.bodies := by
      intro l hl
      rw [List.map_map] at hl
      obtain ⟨q, q1, rfl⟩ := List.mem_map.1 hl
      obtain ⟨a1, a2, a3, _⟩ := htail q q1
      refine mem_bodies.2 ⟨q.1, by omega, a2, ?_⟩
      show _ = q.2.1
      rw [a3]
    unfold simpNew
    dsimp only
    rw [hys, hwat, e1, x1]
    generalize hW : c.xs.foldl (fun wat q => if (!isFree tr q) = true then rem wat q else wat) (simpActive tr c).2.2 = W at *
    have hWb : ∀ e ∈ W, (e.lit ∈ c.xs ∧ isFree tr e.lit = true ∧ e.idx = 1) ∨
        ∃ j, ∃ hj : j < (kept tr c).length, 1 ≤ j ∧ c.flag (kept tr c)[j].1 = true ∧ e.lit = c.lit (kept tr c)[j].1 ∧ e.idx = j + 1 := by
      intro e he
      obtain ⟨a1, a2⟩ := (hwf.2 e).1 he
      rcases w2 e a1 with ⟨_, k2, k3⟩ | ⟨j, hj, j1, j2, j3, j4⟩
      · refine Or.inl ⟨k2, ?_, k3 hX.2⟩
        cases hf : isFree tr e.lit with
        | true => rfl
        | false => exact absurd rfl (a2 e.lit k2 (by simp [hf]))
      · refine Or.inr ⟨j, hj, ?_, j2, j3, j4⟩
        by_contra hj0
        have : j = 0 := by omega
        subst this
        omega
    have hWin : ∀ i, 2 ≤ i → i < c.fin → c.flag i = true → ∃ e ∈ W, e.lit = c.lit i := by
      intro i i1 i2 i3
      obtain ⟨e, a1, a2⟩ := h.wat.body i (by omega) i2 i3
      obtain ⟨e', b1, b2⟩ := hwin e a1
      refine ⟨e', (hwf.2 e').2 ⟨b1, fun q hq _ hne => ?_⟩, b2.trans a2⟩
      exact h.lay.ab q hq (c.lit i) (mem_bodies.2 ⟨i, by omega, i2, rfl⟩) (by rw [← hne, b2, a2])
    have hWx : ∀ a ∈ c.xs, isFree tr a = true → ∃ e ∈ W, e.lit = a := by
      intro a ha hf
      obtain ⟨e, a1, a2⟩ := h.wat.atom a ha
      obtain ⟨e', b1, b2⟩ := hwin e a1
      refine ⟨e', (hwf.2 e').2 ⟨b1, fun q hq hs hne => ?_⟩, b2.trans a2⟩
      rw [← hne, b2, a2, hf] at hs; cases hs
    by_cases hone : ((c.xs.filter fun q => isFree tr q).length == 1) = true
    · -- only one atom is left
      rw [hone]
      simp only [if_true, true_and]
      have honly : ∀ a ∈ c.xs, isFree tr a = true → a = c.lit 1 := by
        intro a ha hf
        rw [beq_iff_eq, List.length_eq_one_iff] at hone
        obtain ⟨z, hz⟩ := hone
        have h1 : a ∈ c.xs.filter fun q => isFree tr q := List.mem_filter.2 ⟨ha, hf⟩
        have h2 : c.lit 1 ∈ c.xs.filter fun q => isFree tr q := List.mem_filter.2 ⟨hslot, hX.2⟩
        rw [hz, List.mem_singleton] at h1 h2
        rw [h1, h2]
      have hhd : ((kept tr c).map Prod.snd).headD (litTrue, false) = (c.lit 1, c.flag 1) := by rw [hqt, hq0]; rfl
      rw [hhd]
      have hclause : (Con.layout ((kept tr c).map Prod.snd) [] 0 (0 + 1) (if c.flag 1 = false then rem W (c.lit 1) else W)).clauses =
          [((kept tr c).map Prod.snd).map Prod.fst] := by
        unfold Con.clauses
        rw [layout_bodies, List.drop_zero]; rfl
      refine ⟨?_, layout_flags h, ?_, rfl, layout_free h, by rw [layout_xs]; simp, ?_, ?_⟩
      · refine layout_lay (Or.inl rfl) (kept_var h) (by simp) ?_ (by simp) (by simp) (by simp) (fun _ => rfl)
        rw [List.drop_zero, List.map_map]
        exact kept_vars h
      · show Wat _ (if c.flag 1 = false then rem W (c.lit 1) else W)
        have hmem : ∀ e, e ∈ (if c.flag 1 = false then rem W (c.lit 1) else W) ↔ e ∈ W ∧ (c.flag 1 = false → e.lit ≠ c.lit 1) := by
          intro e
          split
          · rename_i hfl
            rw [rem_mem hwf.1]; simp [hfl]
          · rename_i hfl
            simp [hfl]
        refine ⟨?_, fun e he => Or.inr ?_, by rw [layout_xs]; simp, fun i i1 i2 i3 => ?_⟩
        · split
          · exact rem_nodup hwf.1
          · exact hwf.1
        · obtain ⟨a1, a2⟩ := (hmem e).1 he
          have hpos : ∃ j, ∃ hj : j < (kept tr c).length, c.flag (kept tr c)[j].1 = true ∧ e.lit = c.lit (kept tr c)[j].1 ∧ e.idx = j + 1 := by
            rcases hWb e a1 with ⟨k1, k2, k3⟩ | ⟨j, hj, _, j2⟩
            · have hel := honly _ k1 k2
              refine ⟨0, h0, ?_, by rw [h0']; exact hel, by omega⟩
              rw [h0']
              cases hfl : c.flag 1 with
              | true => simp [hfl]
              | false => exact absurd hel (a2 hfl)
            · exact ⟨j, hj, j2⟩
          obtain ⟨j, hj, j2, j3, j4⟩ := hpos
          refine ⟨?_, ?_, ?_, ?_⟩
          · show 1 + 0 ≤ e.idx; omega
          · show e.idx < ((kept tr c).map Prod.snd).length + 1; rw [List.length_map]; omega
          · rw [j4, layout_flag (by rw [List.length_map]; exact hj), List.getElem_map, (kept_get h hj).2.2.1]; exact j2
          · rw [j4, layout_lit (by rw [List.length_map]; exact hj), List.getElem_map, (kept_get h hj).2.2.1]; exact j3
        · change 1 + 0 ≤ i at i1
          change i < ((kept tr c).map Prod.snd).length + 1 at i2
          rw [List.length_map] at i2
          obtain ⟨j, rfl⟩ : ∃ j, i = j + 1 := ⟨i - 1, by omega⟩
          have hj : j < (kept tr c).length := by omega
          rw [layout_flag (by rw [List.length_map]; exact hj), List.getElem_map, (kept_get h hj).2.2.1] at i3
          rw [layout_lit (by rw [List.length_map]; exact hj), List.getElem_map, (kept_get h hj).2.2.1]
          obtain ⟨g1, g2, _, _⟩ := kept_get h hj
          dsimp only at i3 ⊢
          by_cases hj1 : (kept tr c)[j].1 = 1
          · rw [hj1] at i3 ⊢
            obtain ⟨e, a1, a2⟩ := hWx _ hslot hX.2
            exact ⟨e, (hmem e).2 ⟨a1, fun k => by rw [k] at i3; cases i3⟩, a2⟩
          · obtain ⟨e, a1, a2⟩ := hWin _ (by omega) g2 i3
            refine ⟨e, (hmem e).2 ⟨a1, fun _ k => hj1 ?_⟩, a2⟩
            exact h.lay.inj g1 g2 (by omega) (by omega) (by rw [← a2, k])
      · rw [hclause, hold]
        refine ⟨fun C hC => ?_, fun D hD => ?_⟩
        · obtain ⟨a, a1, rfl⟩ := List.mem_map.1 hC
          cases hf : isFree tr a with
          | false => exact Or.inl ⟨a, List.mem_cons_self .., hxtrue a a1 hf⟩
          | true =>
            right
            refine ⟨_, List.mem_singleton.2 rfl, fun l hl => ?_⟩
            rw [hqt, List.map_cons, List.map_cons, List.mem_cons] at hl
            rcases hl with hl | hl
            · rw [hl, hq0, honly a a1 hf]; exact List.mem_cons_self ..
            · exact List.mem_cons_of_mem _ (htb l hl)
        · rw [List.mem_singleton] at hD
          subst hD
          refine ⟨_, List.mem_map.2 ⟨c.lit 1, hslot, rfl⟩, fun l hl => ?_⟩
          rw [hqt, List.map_cons, List.map_cons, List.mem_cons]
          rcases List.mem_cons.1 hl with rfl | hl
          · left; left; rw [hq0]
          · rcases hbod l hl with k | k
            · exact Or.inl (Or.inr k)
            · exact Or.inr k
      · rw [hclause, e1]
        rfl
    · -- several atoms are left
      rw [if_neg hone, if_neg hone, if_neg (fun k => hone k.1)]
      have hxs' : (Con.layout ((kept tr c).map Prod.snd) (c.xs.filter fun q => isFree tr q) 1 (1 + 1) W).xs = c.xs.filter fun q => isFree tr q := layout_xs
      have hbd : (Con.layout ((kept tr c).map Prod.snd) (c.xs.filter fun q => isFree tr q) 1 (1 + 1) W).bodies = (t.map Prod.snd).map Prod.fst := by
        rw [layout_bodies, hqt]; rfl
      have hclause : (Con.layout ((kept tr c).map Prod.snd) (c.xs.filter fun q => isFree tr q) 1 (1 + 1) W).clauses =
          (c.xs.filter fun q => isFree tr q).map fun a => a :: (t.map Prod.snd).map Prod.fst := by
        unfold Con.clauses
        rw [hxs', hbd]; rfl
      refine ⟨?_, layout_flags h, ?_, rfl, layout_free h, by rw [hxs']; intro a ha; exact (List.mem_filter.1 ha).2, ?_, ?_⟩
      · refine layout_lay (Or.inr rfl) (kept_var h) (fun a ha => h.lay.xvar a (List.mem_filter.1 ha).1) ?_ ?_ ?_ ?_ (by simp)
        · have := kept_vars h
          rw [hqt, List.map_cons, List.nodup_cons] at this
          rw [hqt, List.map_cons, List.drop_succ_cons, List.drop_zero, List.map_map]
          exact this.2
        · intro a ha q hq
          rw [hqt, List.map_cons, List.drop_succ_cons, List.drop_zero] at hq
          exact h.lay.ab a (List.mem_filter.1 ha).1 _ (htb _ (List.mem_map.2 ⟨q, hq, rfl⟩))
        · exact fun a ha b hb => h.lay.ai a (List.mem_filter.1 ha).1 b (List.mem_filter.1 hb).1
        · intro _
          refine ⟨_, _, by rw [hqt]; rfl, ?_⟩
          rw [hq0]
          exact List.mem_filter.2 ⟨hslot, hX.2⟩
      · show Wat _ W
        refine ⟨hwf.1, fun e he => ?_, fun a ha => ?_, fun i i1 i2 i3 => ?_⟩
        · rcases hWb e he with ⟨k1, k2, k3⟩ | ⟨j, hj, j1, j2, j3, j4⟩
          · exact Or.inl ⟨rfl, hxs'.symm ▸ List.mem_filter.2 ⟨k1, k2⟩, k3⟩
          · refine Or.inr ⟨?_, ?_, ?_, ?_⟩
            · show 1 + 1 ≤ e.idx; omega
            · show e.idx < ((kept tr c).map Prod.snd).length + 1; rw [List.length_map]; omega
            · rw [j4, layout_flag (by rw [List.length_map]; exact hj), List.getElem_map, (kept_get h hj).2.2.1]; exact j2
            · rw [j4, layout_lit (by rw [List.length_map]; exact hj), List.getElem_map, (kept_get h hj).2.2.1]; exact j3
        · rw [hxs'] at ha
          obtain ⟨a1, a2⟩ := List.mem_filter.1 ha
          exact hWx a a1 a2
        · change 1 + 1 ≤ i at i1
          change i < ((kept tr c).map Prod.snd).length + 1 at i2
          rw [List.length_map] at i2
          obtain ⟨j, rfl⟩ : ∃ j, i = j + 1 := ⟨i - 1, by omega⟩
          have hj : j < (kept tr c).length := by omega
          rw [layout_flag (by rw [List.length_map]; exact hj), List.getElem_map, (kept_get h hj).2.2.1] at i3
          rw [layout_lit (by rw [List.length_map]; exact hj), List.getElem_map, (kept_get h hj).2.2.1]
          obtain ⟨g1, g2, _, _⟩ := kept_get h hj
          have hj1 : (kept tr c)[j].1 ≠ 1 := fun k => by have := kept_inj h hj h0 (by rw [k, h0']); omega
          exact hWin _ (by omega) g2 i3
      · rw [hclause, hold]
        refine ⟨fun C hC => ?_, fun D hD => ?_⟩
        · obtain ⟨a, a1, rfl⟩ := List.mem_map.1 hC
          cases hf : isFree tr a with
          | false => exact Or.inl ⟨a, List.mem_cons_self .., hxtrue a a1 hf⟩
          | true =>
            right
            refine ⟨_, List.mem_map.2 ⟨a, List.mem_filter.2 ⟨a1, hf⟩, rfl⟩, fun l hl => ?_⟩
            rcases List.mem_cons.1 hl with rfl | hl
            · exact List.mem_cons_self ..
            · exact List.mem_cons_of_mem _ (htb l hl)
        · obtain ⟨a, a1, rfl⟩ := List.mem_map.1 hD
          refine ⟨_, List.mem_map.2 ⟨a, (List.mem_filter.1 a1).1, rfl⟩, fun l hl => ?_⟩
          rcases List.mem_cons.1 hl with rfl | hl
          · exact Or.inl (List.mem_cons_self ..)
          · rcases hbod l hl with k | k
            · exact Or.inl (List.mem_cons_of_mem _ k)
            · exact Or.inr k
      · rw [hclause, hxs', e1, hqt]
        rfl
  · -- the atoms are dropped
    have x0 := e3 hX
    have hys : (c.xs.filter fun q => isFree tr q && decide ((simpActive tr c).2.1 ≠ 0)) = [] := by
      rw [x0]
      simp
    have hwf := foldl_rem (key := fun q : Lit => q) (sel := fun _ => true) (xs := c.xs) hnod
    have hwat : c.xs.foldl (fun wat q => if (isFree tr q && decide ((simpActive tr c).2.1 ≠ 0)) = true then wat else rem wat q) (simpActive tr c).2.2 =
        c.xs.foldl (fun wat q => if true = true then rem wat q else wat) (simpActive tr c).2.2 := by
      congr 1
      funext wat q
      rw [x0]
      simp
    unfold simpNew
    dsimp only
    rw [hys, hwat, e1, x0]
    generalize hW : c.xs.foldl (fun wat q => if true = true then rem wat q else wat) (simpActive tr c).2.2 = W at *
    have hslotf : c.xPos = 1 → isFalse tr (c.lit 1) = true := by
      intro h1
      cases hf : isFalse tr (c.lit 1) with
      | true => rfl
      | false => exact absurd ⟨h1, isFree_iff.2 ⟨h.nt 1 (by omega) (by omega), hf⟩⟩ hX
    have hge : ∀ i, 1 ≤ i → i < c.fin → isFree tr (c.lit i) = true → 1 + c.xPos ≤ i := by
      intro i i1 i2 i3
      rcases h.lay.x with k | k
      · omega
      · by_contra hlt
        have : i = 1 := by omega
        subst this
        exact hX ⟨k, i3⟩
    simp only [List.length_nil, Nat.reduceBEq, Bool.false_eq_true, if_false, false_and]
    have hclause : (Con.layout ((kept tr c).map Prod.snd) [] 0 (0 + 1) W).clauses = [((kept tr c).map Prod.snd).map Prod.fst] := by
      unfold Con.clauses
      rw [layout_bodies, List.drop_zero]; rfl
    refine ⟨?_, layout_flags h, ?_, rfl, layout_free h, by rw [layout_xs]; simp, ?_, ?_⟩
    · refine layout_lay (Or.inl rfl) (kept_var h) (by simp) ?_ (by simp) (by simp) (by simp) (fun _ => rfl)
      rw [List.drop_zero, List.map_map]
      exact kept_vars h
    · show Wat _ W
      refine ⟨hwf.1, fun e he => Or.inr ?_, by rw [layout_xs]; simp, fun i i1 i2 i3 => ?_⟩
      · obtain ⟨a1, a2⟩ := (hwf.2 e).1 he
        rcases w2 e a1 with ⟨_, k2, _⟩ | ⟨j, hj, j1, j2, j3, j4⟩
        · exact absurd rfl (a2 _ k2 rfl)
        · refine ⟨?_, ?_, ?_, ?_⟩
          · show 1 + 0 ≤ e.idx; omega
          · show e.idx < ((kept tr c).map Prod.snd).length + 1; rw [List.length_map]; omega
          · rw [j4, layout_flag (by rw [List.length_map]; exact hj), List.getElem_map, (kept_get h hj).2.2.1]; exact j2
          · rw [j4, layout_lit (by rw [List.length_map]; exact hj), List.getElem_map, (kept_get h hj).2.2.1]; exact j3
      · change 1 + 0 ≤ i at i1
        change i < ((kept tr c).map Prod.snd).length + 1 at i2
        rw [List.length_map] at i2
        obtain ⟨j, rfl⟩ : ∃ j, i = j + 1 := ⟨i - 1, by omega⟩
        have hj : j < (kept tr c).length := by omega
        rw [layout_flag (by rw [List.length_map]; exact hj), List.getElem_map, (kept_get h hj).2.2.1] at i3
        rw [layout_lit (by rw [List.length_map]; exact hj), List.getElem_map, (kept_get h hj).2.2.1]
        obtain ⟨g1, g2, _, g4⟩ := kept_get h hj
        have hg := hge _ g1 g2 g4
        obtain ⟨e, a1, a2⟩ := h.wat.body _ hg g2 i3
        obtain ⟨e', b1, b2⟩ := hwin e a1
        refine ⟨e', (hwf.2 e').2 ⟨b1, fun q hq _ hne => ?_⟩, b2.trans a2⟩
        exact h.lay.ab q hq _ (mem_bodies.2 ⟨_, hg, g2, rfl⟩) (by rw [← hne, b2, a2])
    · rw [hclause]
      have hsub : ∀ l ∈ ((kept tr c).map Prod.snd).map Prod.fst, l ∈ c.bodies := by
        intro l hl
        obtain ⟨i, i1, i2, i3, i4⟩ := kept_old h hl
        exact mem_bodies.2 ⟨i, hge i i1 i2 (by rw [i3]; exact i4), i2, i3⟩
      have hbod : ∀ l ∈ c.bodies, l ∈ ((kept tr c).map Prod.snd).map Prod.fst ∨ At tr l.neg 0 := by
        intro l hl
        obtain ⟨i, i1, i2, rfl⟩ := mem_bodies.1 hl
        exact kept_lit h (by omega) i2
      unfold Con.clauses
      refine ⟨fun C hC => Or.inr ⟨_, List.mem_singleton.2 rfl, ?_⟩, fun D hD => ?_⟩
      · split at hC
        · rw [List.mem_singleton] at hC; subst hC; exact hsub
        · obtain ⟨a, a1, rfl⟩ := List.mem_map.1 hC
          exact fun l hl => List.mem_cons_of_mem _ (hsub l hl)
      · rw [List.mem_singleton] at hD
        subst hD
        split
        · exact ⟨_, List.mem_singleton.2 rfl, hbod⟩
        · rename_i hx
          have hx1 := h.lay.x.resolve_left hx
          refine ⟨_, List.mem_map.2 ⟨c.lit 1, h.lay.slot hx1, rfl⟩, fun l hl => ?_⟩
          rcases List.mem_cons.1 hl with rfl | hl
          · exact Or.inr ((isFalse_at h.trl (h.lay.avar (by omega) (by omega))).1 (hslotf hx1))
          · exact hbod l hl
    · rw [hclause, e1]
      rfl

end

end Clasp.Loop
