import Verif.Ext.AcycLem
/-!
# The invariant of the acyclicity checker
-/

namespace Clasp.Acyc
open Clasp.Core (Lit)
open Clasp.DepGraph (Arc Inv Gr fwdOf invOf GInv)

/-- Specification: the literal is true since level `k`. -/
def Tr (σ : St) (p : Lit) (k : Nat) : Prop := ∃ e ∈ σ.trail, e.lit = p ∧ e.lev = k

/-- Proof device: the variable of the literal is assigned on level 0. -/
def Z (σ : St) (p : Lit) : Prop := ∃ e ∈ σ.trail, e.lit.var = p.var ∧ e.lev = 0

theorem isTrue_iff {σ : St} {p : Lit} : isTrue σ p = true ↔ ∃ k, Tr σ p k := by
  simp [isTrue, Tr]

theorem isFree_iff {σ : St} {p : Lit} : isFree σ p = true ↔ ∀ e ∈ σ.trail, e.lit.var ≠ p.var := by
  simp [isFree]

theorem lit_ext {p q : Lit} (h : p.var = q.var) (hs : p.sign = q.sign) : p = q := by cases p; cases q; simp_all

theorem lit_cases {p q : Lit} (h : p.var = q.var) : p = q ∨ p = q.neg := by
  cases p with | mk v s => cases q with | mk w t => cases s <;> cases t <;> simp_all [Lit.neg]

theorem Tr.isTrue {σ : St} {p : Lit} {k : Nat} (h : Tr σ p k) : isTrue σ p = true := isTrue_iff.2 ⟨k, h⟩

/-- Proof device: the part of the invariant that does not concern the constraint. -/
structure Base (σ : St) : Prop where
  vars : (σ.trail.map fun e => e.lit.var).Nodup
  levs : ∀ e ∈ σ.trail, e.lev ≤ σ.dl
  mono : σ.trail.Pairwise fun a b => b.lev ≤ a.lev
  qlev : ∀ p ∈ σ.queue ++ σ.stopq.getD [], Tr σ p σ.dl
  stopC : σ.stopq ≠ none → σ.confl ≠ none
  clr : σ.confl ≠ none → σ.queue = [] ∧ σ.todo = [] ∧ σ.phase = none
  nr : σ.ready = false → σ.dl = 0 ∧ σ.phase = none
  gr : ∃ hist, GInv σ.g hist
  frz : σ.g.frozen = true ∨ σ.g = Gr.start
  rdy : σ.ready = true → σ.att = σ.g.fwd ∧ σ.g.frozen = true ∧ σ.tags.length = σ.g.maxNode ∧ σ.parent.length = σ.g.maxNode
  gidA : σ.gid.2 = σ.att.length
  gid1 : σ.gid.1 ≤ σ.g.gen
  same : σ.gid.1 = σ.g.gen → σ.att <+: σ.g.fwd ∧ ∀ a ∈ σ.g.fwd.drop σ.att.length, ∀ b ∈ σ.att, a.head ≠ b.tail
  attm : ∀ a ∈ σ.att, a ∈ σ.g.fwd
  attp : ∃ l : List Arc, l.Perm σ.att ∧ l.Sublist σ.g.fwd
  tagle : ∀ t ∈ σ.tags, t ≤ σ.tagCnt
  taglt : σ.tagCnt < 2 ^ 32

theorem nodup_var {l : List Ent} (h : (l.map fun e => e.lit.var).Nodup) {a b : Ent} (ha : a ∈ l) (hb : b ∈ l) (hv : a.lit.var = b.lit.var) : a = b := by
  induction l with
  | nil => simp at ha
  | cons x l ih =>
    simp only [List.map_cons, List.nodup_cons, List.mem_map, not_exists, not_and] at h
    rcases List.mem_cons.1 ha with h1 | h1 <;> rcases List.mem_cons.1 hb with h2 | h2
    · rw [h1, h2]
    · rw [h1] at hv; exact absurd hv.symm (h.1 b h2)
    · rw [h2] at hv; exact absurd hv (h.1 a h1)
    · exact ih h.2 h1 h2

theorem Base.attl {σ : St} (h : Base σ) : σ.att.length ≤ σ.g.fwd.length := by
  obtain ⟨l, h1, h2⟩ := h.attp
  rw [← h1.length_eq]; exact h2.length_le

theorem Base.uniq {σ : St} (h : Base σ) {p : Lit} {j k : Nat} (h1 : Tr σ p j) (h2 : Tr σ p k) : j = k := by
  obtain ⟨a, ha, h3, h4⟩ := h1
  obtain ⟨b, hb, h5, h6⟩ := h2
  have := nodup_var h.vars ha hb (by rw [h3, h5])
  rw [← h4, ← h6, this]

theorem Base.excl {σ : St} (h : Base σ) {p : Lit} {j k : Nat} (h1 : Tr σ p j) (h2 : Tr σ p.neg k) : False := by
  obtain ⟨a, ha, h3, h4⟩ := h1
  obtain ⟨b, hb, h5, h6⟩ := h2
  have := nodup_var h.vars ha hb (by rw [h3, h5]; rfl)
  rw [this, h5] at h3
  exact Lit.neg_ne p h3

theorem Base.free_not {σ : St} {p : Lit} (hf : isFree σ p = true) {k : Nat} (h1 : Tr σ p k) : False := by
  obtain ⟨a, ha, h3, _⟩ := h1
  exact isFree_iff.1 hf a ha (by rw [h3])

theorem cases3 (σ : St) (p : Lit) : isFree σ p = true ∨ isTrue σ p = true ∨ isTrue σ p.neg = true := by
  by_cases h : isFree σ p = true
  · exact Or.inl h
  · rw [isFree_iff] at h
    have h' : ∃ e ∈ σ.trail, e.lit.var = p.var := by
      by_contra hc
      exact h fun e he hv => hc ⟨e, he, hv⟩
    obtain ⟨e, he, hv⟩ := h'
    rcases lit_cases hv with h1 | h1
    · exact Or.inr (Or.inl (isTrue_iff.2 ⟨e.lev, e, he, h1, rfl⟩))
    · exact Or.inr (Or.inr (isTrue_iff.2 ⟨e.lev, e, he, h1, rfl⟩))

theorem neg_free {σ : St} {p : Lit} : isFree σ p.neg = isFree σ p := rfl

/-- Proof device: a conflict on level 0 that is not a stop conflict: nothing happens any more. -/
def Dead (σ : St) : Prop := σ.confl ≠ none ∧ σ.stopq = none ∧ σ.dl = 0

/-- Proof device: watches of literals that can still become true, or wait for propagation, refer to an arc of the literal. -/
def WatchOk (σ : St) : Prop :=
  ∀ w ∈ σ.watch, (¬ Z σ w.1 ∨ w.1 ∈ σ.queue ++ σ.stopq.getD []) → ∃ e, σ.att[w.2]? = some e ∧ e.lit = w.1 ∧ e.tail ≠ e.head

/-- Proof device: different watches refer to different arcs. -/
def WatchNd (σ : St) : Prop := σ.watch.Pairwise fun a b => ¬ Z σ a.1 → ¬ Z σ b.1 → a.2 ≠ b.2

/-- Specification: the arcs with literals `p.neg`, those in `r` and those that are true on level 0 contain a cycle. -/
def Just (σ : St) (p : Lit) (r : List Lit) : Prop :=
  ∃ L u, L ≠ [] ∧ IsPath u u L ∧ ∀ a ∈ L, a ∈ σ.g.fwd ∧ (a.lit = p.neg ∨ a.lit ∈ r ∨ Tr σ a.lit 0)

/-- Proof device: the state of a backward search. -/
structure SB (σ : St) (b : Bwd) : Prop where
  root : b.root ∈ σ.g.fwd ∧ Tr σ b.root.lit σ.dl ∧ b.root.tail ≠ b.root.head
  tag : b.tag = σ.tagCnt ∧ 1 ≤ b.tag
  hd : σ.tags[b.root.head]? = some (b.tag - 1)
  tl : σ.tags[b.root.tail]? = some b.tag
  tf : Tree (EF σ) σ.tags σ.parent (b.tag - 1) b.root.head
  tb : Tree (EB σ) σ.tags σ.parent b.tag b.root.tail
  stk : ∀ v ∈ b.stack, σ.tags[v]? = some b.tag
  node : σ.tags[b.node]? = some b.tag
  rest : ∀ v ∈ b.rest, (⟨v.lit, v.tail, b.node⟩ : Arc) ∈ σ.g.fwd

/-- Proof device: the part of the invariant for the correctness of inferences, except for stored reasons. -/
structure Snd (σ : St) : Prop where
  todo : σ.ready = true → ∀ x ∈ σ.todo, x ∈ σ.g.fwd ∧ Tr σ x.lit σ.dl ∧ x.tail ≠ x.head
  val : Dead σ ∨ (WatchOk σ ∧ WatchNd σ)
  learnt : ∀ c ∈ σ.learnt, ∃ p r, c = p :: r.map Lit.neg ∧ Just σ p r
  confl : ∀ n, σ.confl = some (.own n) → (∀ p ∈ n, isTrue σ p = true) ∧ ∃ p r, n = p :: r ∧ Just σ p.neg r
  srch : ∀ b, σ.phase = some b → SB σ b

/-- Proof device: stored reasons. -/
structure Own (σ : St) : Prop where
  ok : ∀ T1 e T2, σ.trail = T1 ++ e :: T2 → e.own = true → ∃ r, (σ.nogoods.find? fun n => n.1 == e.lit.var) = some (e.lit.var, r) ∧
    (∀ r', σ.reason = e.lit :: r' → r' = r) ∧ (∀ q ∈ r, ∃ e' ∈ T2, e'.lit = q) ∧ Just σ e.lit r
  mode : σ.mode = .full → ∀ e ∈ σ.trail, e.own = false

/-- Proof device: the arc is on the list of work (or, while post propagators are disabled, something is on it). -/
def PendT (σ : St) (e : Arc) : Prop := if σ.ready = true then e ∈ σ.todo else σ.todo ≠ []

/-- Proof device: the arc was assigned on the current level and is still to be looked at. -/
def Pend (σ : St) (e : Arc) : Prop :=
  Tr σ e.lit σ.dl ∧ match σ.stopq with
    | some q => σ.drop = true ∨ e.lit ∈ q
    | none => σ.confl ≠ none ∨ PendT σ e ∨ e.lit ∈ σ.queue ∨ ∃ b, σ.phase = some b ∧ b.root = e

/-- Proof device: every cycle of true arcs contains an arc that is still to be looked at. -/
def Inv1 (σ : St) : Prop := ∀ L, L ≠ [] → ∀ u, IsPath u u L → (∀ e ∈ L, e ∈ σ.att ∧ isTrue σ e.lit = true) → ∃ e ∈ L, Pend σ e

/-- Proof device: an arc that would close a cycle of true arcs is false, or the cycle contains an arc that is still to be looked at. -/
def Inv2 (σ : St) : Prop :=
  ∀ a ∈ σ.att, ∀ L, L ≠ [] → IsPath a.head a.tail L → ∀ k, (∀ e ∈ L, e ∈ σ.att ∧ ∃ j, j ≤ k ∧ Tr σ e.lit j) → (∃ e ∈ L, Pend σ e) ∨ ∃ j, j ≤ k ∧ Tr σ a.lit.neg j

/-- Proof device: the backward search has explored what is needed. -/
structure SC (σ : St) (b : Bwd) : Prop where
  fwd : ∀ e ∈ σ.g.fwd, isTrue σ e.lit = true → σ.tags[e.tail]? = some (b.tag - 1) → σ.tags[e.head]? = some (b.tag - 1) ∨ e ∈ σ.todo ∨ e.lit ∈ σ.queue
  bwd : ∀ e ∈ σ.g.fwd, σ.tags[e.head]? = some b.tag → e.head ∈ b.stack ∨ (e.head = b.node ∧ ∃ v ∈ b.rest, v.lit = e.lit ∧ v.tail = e.tail) ∨
    ((σ.tags[e.tail]? = some (b.tag - 1) → isTrue σ e.lit.neg = true) ∧ (isTrue σ e.lit = true → σ.tags[e.tail]? = some b.tag ∨ e ∈ σ.todo ∨ e.lit ∈ σ.queue))

/-- Proof device: the part of the invariant for completeness. -/
structure Cmp (σ : St) : Prop where
  loop : ∀ a ∈ σ.att, a.tail = a.head → Tr σ a.lit.neg 0
  watched : ∀ e ∈ σ.att, e.tail ≠ e.head → (∃ i, (e.lit, i) ∈ σ.watch ∧ σ.att[i]? = some e) ∨
    (Z σ e.lit ∧ (e.lit ∈ σ.queue → PendT σ e) ∧ (e.lit ∈ σ.stopq.getD [] → σ.drop = true))
  inv1 : Inv1 σ
  inv2 : σ.mode ≠ .fwd → Inv2 σ
  srch : ∀ b, σ.phase = some b → SC σ b

/-- Proof device: the invariant. -/
structure AInv (σ : St) : Prop where
  base : Base σ
  snd : Snd σ
  own : Own σ
  cmp : σ.lost = false → Dead σ ∨ Cmp σ

theorem AInv.start (m : Mode) : AInv (St.start m) where
  base :=
    { vars := by simp [St.start]
      levs := by simp [St.start]
      mono := by simp [St.start]
      qlev := by simp [St.start]
      stopC := by simp [St.start]
      clr := by simp [St.start]
      nr := by simp [St.start]
      gr := ⟨[], GInv.start⟩
      frz := Or.inr rfl
      rdy := by simp [St.start]
      gidA := rfl
      gid1 := Nat.le_refl _
      same := fun _ => ⟨List.prefix_refl _, by simp [St.start]⟩
      attm := by simp [St.start]
      attp := ⟨[], List.Perm.refl _, List.Sublist.refl _⟩
      tagle := by simp [St.start]
      taglt := by simp [St.start] }
  snd :=
    { todo := by simp [St.start]
      val := Or.inr ⟨by intro w hw; simp [St.start] at hw, by simp [WatchNd, St.start]⟩
      learnt := by simp [St.start]
      confl := by simp [St.start]
      srch := by simp [St.start] }
  own := ⟨by intro T1 e T2 h; simp [St.start] at h, by simp [St.start]⟩
  cmp := fun _ => Or.inr
    { loop := by simp [St.start]
      watched := by simp [St.start]
      inv1 := by
        intro L hL u _ h
        cases L with
        | nil => exact absurd rfl hL
        | cons a L => have := (h a (by simp)).1; simp [St.start] at this
      inv2 := by
        intro _ a ha
        simp [St.start] at ha
      srch := by simp [St.start] }

/-! ## Assigning a literal -/

theorem Tr_assign {σ : St} {p q : Lit} {o : Bool} {k : Nat} : Tr (assign σ p o) q k ↔ (q = p ∧ k = σ.dl) ∨ Tr σ q k := by
  simp only [Tr, assign, List.mem_cons, exists_eq_or_imp]
  constructor
  · rintro (⟨h1, h2⟩ | h)
    · exact Or.inl ⟨h1.symm, h2.symm⟩
    · exact Or.inr h
  · rintro (⟨h1, h2⟩ | h)
    · exact Or.inl ⟨h1.symm, h2.symm⟩
    · exact Or.inr h

theorem isTrue_assign {σ : St} {p q : Lit} {o : Bool} : isTrue (assign σ p o) q = true ↔ q = p ∨ isTrue σ q = true := by
  rw [isTrue_iff, isTrue_iff]
  constructor
  · rintro ⟨k, h⟩
    rcases Tr_assign.1 h with h | h
    · exact Or.inl h.1
    · exact Or.inr ⟨k, h⟩
  · rintro (rfl | ⟨k, h⟩)
    · exact ⟨σ.dl, Tr_assign.2 (Or.inl ⟨rfl, rfl⟩)⟩
    · exact ⟨k, Tr_assign.2 (Or.inr h)⟩

theorem Z_assign {σ : St} {p q : Lit} {o : Bool} (h : Z σ q) : Z (assign σ p o) q := by
  obtain ⟨e, he, h1⟩ := h
  exact ⟨e, by simp [assign, he], h1⟩

theorem Just.mono {σ τ : St} {p : Lit} {r : List Lit} (h : Just σ p r) (hg : ∀ a ∈ σ.g.fwd, a ∈ τ.g.fwd) (ht : ∀ q, Tr σ q 0 → Tr τ q 0) : Just τ p r := by
  obtain ⟨L, u, h1, h2, h3⟩ := h
  refine ⟨L, u, h1, h2, fun a ha => ⟨hg a (h3 a ha).1, ?_⟩⟩
  rcases (h3 a ha).2 with h4 | h4 | h4
  · exact Or.inl h4
  · exact Or.inr (Or.inl h4)
  · exact Or.inr (Or.inr (ht _ h4))

theorem EF.mono {σ τ : St} (hg : ∀ a ∈ σ.g.fwd, a ∈ τ.g.fwd) (ht : ∀ q, isTrue σ q = true → isTrue τ q = true) (l : Lit) (u v : Nat) (h : EF σ l u v) : EF τ l u v :=
  ⟨hg _ h.1, ht _ h.2⟩

theorem EB.mono {σ τ : St} (hg : ∀ a ∈ σ.g.fwd, a ∈ τ.g.fwd) (ht : ∀ q, isTrue σ q = true → isTrue τ q = true) (l : Lit) (u v : Nat) (h : EB σ l u v) : EB τ l u v :=
  ⟨hg _ h.1, ht _ h.2⟩

theorem Base.assign {σ : St} (h : Base σ) (hc : σ.confl = none) {p : Lit} (hf : isFree σ p = true) (o : Bool) : Base (assign σ p o) where
  vars := by
    simp only [Acyc.assign, List.map_cons, List.nodup_cons, List.mem_map, not_exists, not_and]
    exact ⟨fun e he => isFree_iff.1 hf e he, h.vars⟩
  levs := by
    intro e he
    rcases List.mem_cons.1 he with rfl | he
    · exact Nat.le_refl _
    · exact h.levs e he
  mono := List.pairwise_cons.2 ⟨fun e he => h.levs e he, h.mono⟩
  qlev := by
    intro q hq
    simp only [Acyc.assign, List.append_assoc, List.mem_append, List.mem_singleton] at hq
    rcases hq with hq | rfl | hq
    · exact Tr_assign.2 (Or.inr (h.qlev q (by simp [hq])))
    · exact Tr_assign.2 (Or.inl ⟨rfl, rfl⟩)
    · exact Tr_assign.2 (Or.inr (h.qlev q (by simp [hq])))
  stopC := h.stopC
  clr := fun hn => absurd hc hn
  nr := h.nr
  gr := h.gr
  frz := h.frz
  rdy := h.rdy
  gidA := h.gidA
  gid1 := h.gid1
  same := h.same
  attm := h.attm
  attp := h.attp
  tagle := h.tagle
  taglt := h.taglt

theorem SB.assign {σ : St} {b : Bwd} (h : SB σ b) (p : Lit) (o : Bool) : SB (assign σ p o) b :=
  { h with
    root := ⟨h.root.1, Tr_assign.2 (Or.inr h.root.2.1), h.root.2.2⟩
    tf := h.tf.mono (EF.mono (fun _ ha => ha) (fun _ hq => isTrue_assign.2 (Or.inr hq)))
    tb := h.tb.mono (EB.mono (fun _ ha => ha) (fun _ hq => isTrue_assign.2 (Or.inr hq))) }

theorem Snd.assign {σ : St} (h : Snd σ) (hc : σ.confl = none) {p : Lit} (hf : isFree σ p = true) (o : Bool) : Snd (assign σ p o) where
  todo := fun hr x hx => ⟨(h.todo hr x hx).1, Tr_assign.2 (Or.inr (h.todo hr x hx).2.1), (h.todo hr x hx).2.2⟩
  val := by
    rcases h.val with h1 | ⟨h1, h2⟩
    · exact absurd hc h1.1
    · refine Or.inr ⟨?_, h2.imp (fun hab h3 h4 => hab (fun hz => h3 (Z_assign hz)) (fun hz => h4 (Z_assign hz)))⟩
      intro w hw hl
      refine h1 w hw ?_
      by_cases hz : Z σ w.1
      · rcases hl with hl | hl
        · exact absurd (Z_assign hz) hl
        · simp only [Acyc.assign, List.append_assoc, List.mem_append, List.mem_singleton] at hl
          right
          rcases hl with hl | hl | hl
          · simp [hl]
          · obtain ⟨e, he, hv, _⟩ := hz
            rw [hl] at hv
            exact absurd hv (isFree_iff.1 hf e he)
          · simp [hl]
      · exact Or.inl hz
  learnt := fun c hc' => by
    obtain ⟨q, r, h1, h2⟩ := h.learnt c hc'
    exact ⟨q, r, h1, h2.mono (fun _ ha => ha) (fun q hq => Tr_assign.2 (Or.inr hq))⟩
  confl := fun n hn => by
    have : σ.confl = some (.own n) := hn
    rw [hc] at this; exact nomatch this
  srch := fun b hb' => (h.srch b hb').assign p o

theorem Own.assign {σ : St} (h : Own σ) (p : Lit) : Own (assign σ p false) where
  ok := by
    intro T1 e T2 ht ho
    cases T1 with
    | nil =>
      simp only [Acyc.assign, List.nil_append, List.cons.injEq] at ht
      rw [← ht.1] at ho; exact absurd ho (by simp)
    | cons x T1 =>
      simp only [Acyc.assign, List.cons_append, List.cons.injEq] at ht
      obtain ⟨r, h1, h2, h3, h4⟩ := h.ok T1 e T2 ht.2 ho
      exact ⟨r, h1, h2, h3, h4.mono (fun _ ha => ha) (fun q hq => Tr_assign.2 (Or.inr hq))⟩
  mode := by
    intro hm e he
    rcases List.mem_cons.1 he with rfl | he
    · rfl
    · exact h.mode hm e he

theorem PendT.assign {σ : St} {e : Arc} (p : Lit) (o : Bool) : PendT (assign σ p o) e ↔ PendT σ e := Iff.rfl

theorem Pend.assign {σ : St} {e : Arc} (h : Pend σ e) (p : Lit) (o : Bool) : Pend (assign σ p o) e := by
  refine ⟨Tr_assign.2 (Or.inr h.1), ?_⟩
  have h2 := h.2
  show match σ.stopq with
    | some q => σ.drop = true ∨ e.lit ∈ q
    | none => σ.confl ≠ none ∨ PendT σ e ∨ e.lit ∈ σ.queue ++ [p] ∨ ∃ b, σ.phase = some b ∧ b.root = e
  cases hs : σ.stopq with
  | some q => rw [hs] at h2; exact h2
  | none =>
    rw [hs] at h2
    rcases h2 with h2 | h2 | h2 | h2
    · exact Or.inl h2
    · exact Or.inr (Or.inl h2)
    · exact Or.inr (Or.inr (Or.inl (by simp [h2])))
    · exact Or.inr (Or.inr (Or.inr h2))

theorem Pend.new {σ : St} {e : Arc} {p : Lit} (o : Bool) (hs : σ.stopq = none) (he : e.lit = p) : Pend (Acyc.assign σ p o) e := by
  refine ⟨Tr_assign.2 (Or.inl ⟨he, rfl⟩), ?_⟩
  show match σ.stopq with
    | some q => σ.drop = true ∨ e.lit ∈ q
    | none => σ.confl ≠ none ∨ PendT σ e ∨ e.lit ∈ σ.queue ++ [p] ∨ ∃ b, σ.phase = some b ∧ b.root = e
  rw [hs]
  exact Or.inr (Or.inr (Or.inl (by simp [he])))

theorem Inv1.assign {σ : St} (h : Inv1 σ) (hs : σ.stopq = none) (p : Lit) (o : Bool) : Inv1 (assign σ p o) := by
  intro L hL u hp he
  by_cases hn : ∃ e ∈ L, e.lit = p
  · obtain ⟨e, he', hl⟩ := hn
    exact ⟨e, he', Pend.new o hs hl⟩
  · obtain ⟨e, he', hl⟩ := h L hL u hp (fun e he' => ⟨(he e he').1, (isTrue_assign.1 (he e he').2).resolve_left (fun hl => hn ⟨e, he', hl⟩)⟩)
    exact ⟨e, he', hl.assign p o⟩

theorem Inv2.assign {σ : St} (h : Inv2 σ) (hs : σ.stopq = none) (p : Lit) (o : Bool) : Inv2 (assign σ p o) := by
  intro a ha L hL hp k he
  by_cases hn : ∃ e ∈ L, e.lit = p
  · obtain ⟨e, he', hl⟩ := hn
    exact Or.inl ⟨e, he', Pend.new o hs hl⟩
  · rcases h a ha L hL hp k (fun e he' => by
      obtain ⟨h1, j, h2, h3⟩ := he e he'
      exact ⟨h1, j, h2, (Tr_assign.1 h3).resolve_left (fun hl => hn ⟨e, he', hl.1⟩)⟩) with ⟨e, he', hl⟩ | ⟨j, h1, h2⟩
    · exact Or.inl ⟨e, he', hl.assign p o⟩
    · exact Or.inr ⟨j, h1, Tr_assign.2 (Or.inr h2)⟩

theorem SC.assign {σ : St} {b : Bwd} (h : SC σ b) (p : Lit) (o : Bool) : SC (assign σ p o) b where
  fwd := by
    intro e he ht hg
    rcases isTrue_assign.1 ht with hp | ht
    · exact Or.inr (Or.inr (by simp [Acyc.assign, hp]))
    · rcases h.fwd e he ht hg with h1 | h1 | h1
      · exact Or.inl h1
      · exact Or.inr (Or.inl h1)
      · exact Or.inr (Or.inr (by simp [Acyc.assign, h1]))
  bwd := by
    intro e he hg
    rcases h.bwd e he hg with h1 | h1 | h1
    · exact Or.inl h1
    · exact Or.inr (Or.inl h1)
    · refine Or.inr (Or.inr ⟨fun h2 => isTrue_assign.2 (Or.inr (h1.1 h2)), fun ht => ?_⟩)
      rcases isTrue_assign.1 ht with hp | ht
      · exact Or.inr (Or.inr (by simp [Acyc.assign, hp]))
      · rcases h1.2 ht with h3 | h3 | h3
        · exact Or.inl h3
        · exact Or.inr (Or.inl h3)
        · exact Or.inr (Or.inr (by simp [Acyc.assign, h3]))

theorem Cmp.assign {σ : St} (h : Cmp σ) (hs : σ.stopq = none) {p : Lit} (hf : isFree σ p = true) (o : Bool) : Cmp (assign σ p o) where
  loop := fun a ha hl => Tr_assign.2 (Or.inr (h.loop a ha hl))
  watched := by
    intro e he hn
    rcases h.watched e he hn with h1 | ⟨h1, h2, h3⟩
    · exact Or.inl h1
    · refine Or.inr ⟨Z_assign h1, fun hq => ?_, h3⟩
      rcases List.mem_append.1 hq with hq | hq
      · exact h2 hq
      · simp at hq
        obtain ⟨x, hx, hv, _⟩ := h1
        rw [hq] at hv
        exact absurd hv (isFree_iff.1 hf x hx)
  inv1 := h.inv1.assign hs p o
  inv2 := fun hm => (h.inv2 hm).assign hs p o
  srch := fun b hb => (h.srch b hb).assign p o

theorem Base.stopq {σ : St} (h : Base σ) (hc : σ.confl = none) : σ.stopq = none := by
  by_contra hn
  exact h.stopC hn hc

theorem AInv.asg {σ : St} (h : AInv σ) (hc : σ.confl = none) {p : Lit} (hf : isFree σ p = true) : AInv (assign σ p false) where
  base := h.base.assign hc hf false
  snd := h.snd.assign hc hf false
  own := h.own.assign p
  cmp := fun hl => by
    rcases h.cmp hl with h1 | h1
    · exact absurd hc h1.1
    · exact Or.inr (h1.assign (h.base.stopq hc) hf false)

end Clasp.Acyc
