/- C36: the invariant of loop formulas. No code is modelled in this file. -/
import Verif.Asp.Loop
namespace Clasp.Loop
open Core

/-- Specification: `x` is true on a level up to `l`. -/
def At (tr : List Entry) (x : Lit) (l : Nat) : Prop := ∃ e ∈ tr, e.lit = x ∧ e.lev ≤ l

/-- Specification: the bodies of the formula (all literals of the active clause if there are no atoms). -/
def Con.bodies (c : Con) : List Lit := (List.range' (1 + c.xPos) (c.fin - (1 + c.xPos))).map c.lit

/-- Specification: the clauses the formula stands for. -/
def Con.clauses (c : Con) : List (List Lit) := if c.xPos = 0 then [c.bodies] else c.xs.map fun a => a :: c.bodies

/-- Specification: some body is true on a level up to `l`. -/
def Sat (c : Con) (tr : List Entry) (l : Nat) : Prop := ∃ b ∈ c.bodies, At tr b l
/-- Specification: all atoms are true on a level up to `l`. -/
def SatA (c : Con) (tr : List Entry) (l : Nat) : Prop := c.xPos = 1 ∧ ∀ a ∈ c.xs, At tr a l

/-- Specification: the layout of the array. -/
structure Lay (c : Con) : Prop where
  s0 : c.lit 0 = litTrue
  s1 : c.lit c.fin = litTrue
  x : c.xPos = 0 ∨ c.xPos = 1
  size : c.fin + 1 ≤ c.size
  bvar : ∀ b ∈ c.bodies, b.var ≠ 0
  xvar : ∀ a ∈ c.xs, a.var ≠ 0
  binj : ∀ i j, 1 + c.xPos ≤ i → i < c.fin → 1 + c.xPos ≤ j → j < c.fin → (c.lit i).var = (c.lit j).var → i = j
  ab : ∀ a ∈ c.xs, ∀ b ∈ c.bodies, a.var ≠ b.var
  ai : ∀ a ∈ c.xs, ∀ b ∈ c.xs, a.var = b.var → a = b
  slot : c.xPos = 1 → c.lit 1 ∈ c.xs
  none : c.xPos = 0 → c.xs = []

/-- Specification: two positions of the active clause are watched. -/
def Flags (c : Con) : Prop := ∃ f g, f ≠ g ∧ 1 ≤ f ∧ f < c.fin ∧ 1 ≤ g ∧ g < c.fin ∧ ∀ i, c.flag i = true ↔ i = f ∨ i = g

/-- Specification: the watches in the lists of the solver are those of all atoms and of the watched bodies. -/
structure Wat (c : Con) (wat : List Watch) : Prop where
  nod : (wat.map Watch.lit).Nodup
  ok : ∀ e ∈ wat, (c.xPos = 1 ∧ e.lit ∈ c.xs ∧ e.idx = 1) ∨ (1 + c.xPos ≤ e.idx ∧ e.idx < c.fin ∧ c.flag e.idx = true ∧ e.lit = c.lit e.idx)
  atom : ∀ a ∈ c.xs, ∃ e ∈ wat, e.lit = a
  body : ∀ i, 1 + c.xPos ≤ i → i < c.fin → c.flag i = true → ∃ e ∈ wat, e.lit = c.lit i

/-- Specification: the trail. -/
structure Trl (tr : List Entry) (dl : Nat) (pend : List Lit) : Prop where
  vars : (0 :: tr.map fun e => e.lit.var).Nodup
  lev : ∀ e ∈ tr, e.lev ≤ dl
  ord : tr.Pairwise fun e f => f.lev ≤ e.lev
  pend : ∀ p ∈ pend, ∃ e ∈ tr, e.lit = p ∧ e.lev = dl

/-- Specification: why a literal was forced by the formula. -/
def Why (c : Con) (tr post : List Entry) (p : Lit) (l : Nat) (ex : Prop) : Prop :=
  (c.other ≠ c.xPos ∧ p = c.lit c.other ∧ ∀ i, 1 ≤ i → i < c.fin → i ≠ c.other → ∃ f ∈ post, f.lit = (c.lit i).neg) ∨
  (c.other = c.xPos ∧ c.xPos = 1 ∧ p ∈ c.xs ∧ ((∀ a ∈ c.xs, At tr a l) ∨ ex) ∧ ∀ b ∈ c.bodies, ∃ f ∈ post, f.lit = b.neg)

/-- Specification: the invariant. -/
structure Inv (w : Wd) : Prop where
  lay : Lay w.con
  flags : Flags w.con
  wat : Wat w.con w.con.wat
  trl : Trl w.tr w.dl w.pend
  oth : 1 ≤ w.con.other ∧ w.con.other < w.con.fin
  p : ∀ i, 1 ≤ i → i < w.con.fin → w.con.flag i = true → ∀ l, At w.tr (w.con.lit i).neg l →
    (w.con.lit i).neg ∈ w.pend ∨ Sat w.con w.tr l ∨ SatA w.con w.tr l ∨ (w.conf.isSome ∧ w.dl ≤ l)
  q : w.con.xPos = 1 → ∀ a ∈ w.con.xs, ∀ l, At w.tr a.neg l →
    a.neg ∈ w.pend ∨ Sat w.con w.tr l ∨ At w.tr (w.con.lit 1).neg l ∨ (w.conf.isSome ∧ w.dl ≤ l)
  r : ∀ pre e post, w.tr = pre ++ e :: post → e.rs = true → Why w.con w.tr post e.lit e.lev (w.conf.isSome ∧ e.lev = w.dl)
  c : ∀ p, w.conf = some p → (∃ e ∈ w.tr, e.lit = p.neg) ∧ Why w.con w.tr w.tr p w.dl True

/-! ### Trail -/

section trail
variable {tr : List Entry} {x y : Lit} {l : Nat}

theorem At.mono {l' : Nat} (h : At tr x l) (hl : l ≤ l') : At tr x l' := by
  obtain ⟨e, h1, h2, h3⟩ := h; exact ⟨e, h1, h2, by omega⟩

theorem At.cons {e : Entry} (h : At tr x l) : At (e :: tr) x l := by
  obtain ⟨f, h1, h2⟩ := h; exact ⟨f, List.mem_cons_of_mem _ h1, h2⟩

theorem At.app {N : List Entry} (h : At tr x l) : At (N ++ tr) x l := by
  obtain ⟨f, h1, h2⟩ := h; exact ⟨f, List.mem_append_right _ h1, h2⟩

theorem isTrue_iff : isTrue tr x = true ↔ x = litTrue ∨ ∃ e ∈ tr, e.lit = x := by simp [isTrue]

theorem isTrue_at {dl : Nat} {pd : List Lit} (ht : Trl tr dl pd) (hx : x.var ≠ 0) : isTrue tr x = true ↔ At tr x dl := by
  rw [isTrue_iff]
  constructor
  · rintro (rfl | ⟨e, h1, h2⟩)
    · exact absurd rfl hx
    · exact ⟨e, h1, h2, ht.lev e h1⟩
  · rintro ⟨e, h1, h2, _⟩; exact Or.inr ⟨e, h1, h2⟩

theorem isFalse_at {dl : Nat} {pd : List Lit} (ht : Trl tr dl pd) (hx : x.var ≠ 0) : isFalse tr x = true ↔ At tr x.neg dl :=
  isTrue_at ht (by simpa [Lit.neg] using hx)

theorem inj_of_nodup {α β : Type} {f : α → β} {l : List α} (h : (l.map f).Nodup) {a b : α} (ha : a ∈ l) (hb : b ∈ l) (he : f a = f b) : a = b := by
  induction l with
  | nil => cases ha
  | cons x l ih =>
    rw [List.map_cons, List.nodup_cons] at h
    rcases List.mem_cons.1 ha with h1 | h1 <;> rcases List.mem_cons.1 hb with h2 | h2
    · rw [h1, h2]
    · subst h1; exact absurd (List.mem_map.2 ⟨b, h2, he.symm⟩) h.1
    · subst h2; exact absurd (List.mem_map.2 ⟨a, h1, he⟩) h.1
    · exact ih h.2 h1 h2

theorem Trl.uniq {dl : Nat} {pd : List Lit} (ht : Trl tr dl pd) {e f : Entry} (he : e ∈ tr) (hf : f ∈ tr) (h : e.lit.var = f.lit.var) : e = f := by
  have h1 := (List.nodup_cons.1 ht.vars).2
  exact inj_of_nodup h1 he hf h

theorem Trl.var0 {dl : Nat} {pd : List Lit} (ht : Trl tr dl pd) {e : Entry} (he : e ∈ tr) : e.lit.var ≠ 0 := by
  have h1 := (List.nodup_cons.1 ht.vars).1
  intro h
  exact h1 (List.mem_map.2 ⟨e, he, h⟩)

theorem neg_ne (x : Lit) : x ≠ x.neg := by
  cases x with | mk v s => cases s <;> simp [Lit.neg]

@[simp] theorem neg_var (x : Lit) : x.neg.var = x.var := rfl
@[simp] theorem neg_neg' (x : Lit) : x.neg.neg = x := by cases x with | mk v s => cases s <;> simp [Lit.neg]

theorem Trl.not_both {dl : Nat} {pd : List Lit} (ht : Trl tr dl pd) {l l' : Nat} (h : At tr x l) (h' : At tr x.neg l') : False := by
  obtain ⟨e, h1, h2, _⟩ := h
  obtain ⟨f, h3, h4, _⟩ := h'
  have := ht.uniq h1 h3 (by rw [h2, h4]; rfl)
  subst this
  rw [h2] at h4
  exact neg_ne x h4

theorem Trl.level {dl : Nat} {pd : List Lit} (ht : Trl tr dl pd) (hp : x ∈ pd) (h : At tr x l) : dl ≤ l := by
  obtain ⟨e, h1, h2, h3⟩ := ht.pend x hp
  obtain ⟨f, h4, h5, h6⟩ := h
  have := ht.uniq h1 h4 (by rw [h2, h5])
  subst this; omega

theorem isFree_iff : isFree tr x = true ↔ isTrue tr x = false ∧ isFalse tr x = false := by
  unfold isFree; cases isTrue tr x <;> cases isFalse tr x <;> simp

theorem free_var (h : isFree tr x = true) : x.var ∉ 0 :: tr.map fun e => e.lit.var := by
  obtain ⟨h1, h2⟩ := isFree_iff.1 h
  rw [← Bool.not_eq_true] at h1 h2
  rw [isTrue_iff] at h1
  unfold isFalse at h2
  rw [isTrue_iff] at h2
  intro hm
  rcases List.mem_cons.1 hm with h0 | hm
  · rcases Lit.eq_or_neg (p := x) (q := litTrue) h0 with e | e
    · exact h1 (Or.inl e)
    · exact h2 (Or.inl (by rw [e]; rfl))
  · obtain ⟨e, h3, h4⟩ := List.mem_map.1 hm
    rcases Lit.eq_or_neg (p := e.lit) (q := x) h4 with e' | e'
    · exact h1 (Or.inr ⟨e, h3, e'⟩)
    · exact h2 (Or.inr ⟨e, h3, e'⟩)

end trail

/-! ### Layout -/

theorem mem_bodies {c : Con} {b : Lit} : b ∈ c.bodies ↔ ∃ i, 1 + c.xPos ≤ i ∧ i < c.fin ∧ c.lit i = b := by
  unfold Con.bodies
  simp only [List.mem_map, List.mem_range'_1]
  constructor
  · rintro ⟨i, ⟨h1, h2⟩, h3⟩; exact ⟨i, h1, by omega, h3⟩
  · rintro ⟨i, h1, h2, h3⟩; exact ⟨i, ⟨h1, by omega⟩, h3⟩

theorem mem_xs {c : Con} {a : Lit} : a ∈ c.xs ↔ ∃ i, c.fin + 1 ≤ i ∧ i < c.size ∧ c.lit i = a := by
  unfold Con.xs
  simp only [List.mem_map, List.mem_range'_1]
  constructor
  · rintro ⟨i, ⟨h1, h2⟩, h3⟩; exact ⟨i, h1, by omega, h3⟩
  · rintro ⟨i, h1, h2, h3⟩; exact ⟨i, ⟨h1, by omega⟩, h3⟩

theorem Lay.avar {c : Con} (h : Lay c) {i : Nat} (h1 : 1 ≤ i) (h2 : i < c.fin) : (c.lit i).var ≠ 0 := by
  by_cases hi : 1 + c.xPos ≤ i
  · exact h.bvar _ (mem_bodies.2 ⟨i, hi, h2, rfl⟩)
  · have hx : c.xPos = 1 := by rcases h.x with hx | hx <;> omega
    have : i = 1 := by omega
    subst this
    exact h.xvar _ (h.slot hx)

theorem Lay.inj {c : Con} (h : Lay c) {i j : Nat} (h1 : 1 ≤ i) (h2 : i < c.fin) (h3 : 1 ≤ j) (h4 : j < c.fin)
    (he : (c.lit i).var = (c.lit j).var) : i = j := by
  by_cases hi : 1 + c.xPos ≤ i
  · by_cases hj : 1 + c.xPos ≤ j
    · exact h.binj i j hi h2 hj h4 he
    · have hx : c.xPos = 1 := by rcases h.x with hx | hx <;> omega
      have : j = 1 := by omega
      subst this
      exact absurd he.symm (h.ab _ (h.slot hx) _ (mem_bodies.2 ⟨i, hi, h2, rfl⟩))
  · have hx : c.xPos = 1 := by rcases h.x with hx | hx <;> omega
    have : i = 1 := by omega
    subst this
    by_cases hj : 1 + c.xPos ≤ j
    · exact absurd he (h.ab _ (h.slot hx) _ (mem_bodies.2 ⟨j, hj, h4, rfl⟩))
    · omega

theorem xs_update {c : Con} {i : Nat} {a : Lit} (h : i ≤ c.fin) : ({ c with lit := Function.update c.lit i a } : Con).xs = c.xs := by
  unfold Con.xs
  apply List.map_congr_left
  intro j hj
  have := (List.mem_range'_1.1 hj).1
  change c.fin + 1 ≤ j at this
  exact Function.update_of_ne (by omega) _ _

theorem bodies_update {c : Con} {a : Lit} (hx : c.xPos = 1) : ({ c with lit := Function.update c.lit 1 a } : Con).bodies = c.bodies := by
  unfold Con.bodies
  apply List.map_congr_left
  intro j hj
  have := (List.mem_range'_1.1 hj).1
  change 1 + c.xPos ≤ j at this
  exact Function.update_of_ne (by omega) _ _

/-- the atom of the active clause is exchanged -/
theorem Lay.set {c : Con} (h : Lay c) (hf : 1 < c.fin) (hx : c.xPos = 1) {a : Lit} (ha : a ∈ c.xs) : Lay { c with lit := Function.update c.lit 1 a } := by
  have e1 := xs_update (c := c) (i := 1) (a := a) (by omega)
  have e2 := bodies_update (c := c) (a := a) hx
  refine ⟨?_, ?_, h.x, h.size, ?_, ?_, ?_, ?_, ?_, ?_, ?_⟩
  · show Function.update c.lit 1 a 0 = _
    rw [Function.update_of_ne (by omega)]; exact h.s0
  · show Function.update c.lit 1 a c.fin = _
    rw [Function.update_of_ne (by omega)]; exact h.s1
  · rw [e2]; exact h.bvar
  · rw [e1]; exact h.xvar
  · intro i j a1 a2 a3 a4
    change 1 + c.xPos ≤ i at a1
    change 1 + c.xPos ≤ j at a3
    show (Function.update c.lit 1 a i).var = (Function.update c.lit 1 a j).var → _
    rw [Function.update_of_ne (by omega), Function.update_of_ne (by omega)]
    exact h.binj i j a1 a2 a3 a4
  · rw [e1, e2]; exact h.ab
  · rw [e1]; exact h.ai
  · intro _
    rw [e1]
    show Function.update c.lit 1 a 1 ∈ _
    rw [Function.update_self]; exact ha
  · intro h0; exact absurd (hx.symm.trans h0) (by decide)

theorem Wat.perm {c : Con} {w w' : List Watch} (h : Wat c w) (hp : w.Perm w') : Wat c w' :=
  ⟨(hp.map _).nodup_iff.1 h.nod, fun e he => h.ok e (hp.mem_iff.2 he), fun a ha => by
    obtain ⟨e, h1, h2⟩ := h.atom a ha; exact ⟨e, hp.mem_iff.1 h1, h2⟩, fun i a1 a2 a3 => by
    obtain ⟨e, h1, h2⟩ := h.body i a1 a2 a3; exact ⟨e, hp.mem_iff.1 h1, h2⟩⟩

theorem Sat.mono {c : Con} {tr : List Entry} {l l' : Nat} (h : Sat c tr l) (hl : l ≤ l') : Sat c tr l' := by
  obtain ⟨b, h1, h2⟩ := h; exact ⟨b, h1, h2.mono hl⟩
theorem SatA.mono {c : Con} {tr : List Entry} {l l' : Nat} (h : SatA c tr l) (hl : l ≤ l') : SatA c tr l' :=
  ⟨h.1, fun a ha => (h.2 a ha).mono hl⟩
theorem Sat.app {c : Con} {tr N : List Entry} {l : Nat} (h : Sat c tr l) : Sat c (N ++ tr) l := by
  obtain ⟨b, h1, h2⟩ := h; exact ⟨b, h1, h2.app⟩
theorem SatA.app {c : Con} {tr N : List Entry} {l : Nat} (h : SatA c tr l) : SatA c (N ++ tr) l := ⟨h.1, fun a ha => (h.2 a ha).app⟩

end Clasp.Loop
