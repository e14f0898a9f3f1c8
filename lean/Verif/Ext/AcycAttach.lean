import Verif.Ext.AcycSearch
import Mathlib.Data.List.Perm.Subperm
/-!
# The invariant of the acyclicity checker: growth of the graph and attaching
-/

namespace Clasp.DepGraph
open Clasp.Core (Lit)

theorem step_gen {g g' : Gr} {o : Op} (h : step g o = some g') : g.gen ≤ g'.gen := by
  cases o with
  | edge a =>
    simp only [step, addEdge] at h
    split_ifs at h <;> cases h <;> simp
  | fin =>
    simp only [step, finalize] at h
    split_ifs at h
    · cases h; exact Nat.le_refl _
    · split at h
      · cases h; exact Nat.le_refl _
      · exact nomatch h
  | upd => cases h; exact Nat.le_refl _

theorem run_gen : ∀ {os : List Op} {g g' : Gr}, run g os = some g' → g.gen ≤ g'.gen
  | [], _, _, h => by cases h; exact Nat.le_refl _
  | o :: os, g, g', h => by
    unfold run at h
    cases hs : step g o with
    | none => rw [hs] at h; exact nomatch h
    | some g1 => rw [hs] at h; exact Nat.le_trans (step_gen hs) (run_gen h)

/-- Proof device: the arcs `A` are the first ones, and later arcs do not touch the nodes below `n`. -/
structure Sep (A : List Arc) (n : Nat) (g : Gr) : Prop where
  pre : A <+: g.fwd
  com : A.length ≤ g.com
  new : ∀ a ∈ g.fwd.drop A.length, n ≤ a.head
  fo : n ≤ g.fo.length

theorem Sep.step {A : List Arc} {n : Nat} {g g' : Gr} {o : Op} {hist : List Arc} (h : Sep A n g) (hi : GInv g hist) (hA : A ≠ []) (hs : step g o = some g') (hg : g'.gen = g.gen) : Sep A n g' := by
  have hAl : 0 < A.length := List.length_pos_iff.2 hA
  have hAf := h.pre.length_le
  cases o with
  | edge a =>
    simp only [DepGraph.step, addEdge] at hs
    split_ifs at hs with h1 h2
    · cases hs; simp at hg
    · cases hs
      have hc := h.com
      have hf := h.fo
      have h3 : g.fo.length ≤ min a.tail a.head := by
        by_contra hc'
        exact h2 ⟨by omega, by omega⟩
      refine ⟨h.pre.trans (List.prefix_append _ _), h.com, fun b hb => ?_, h.fo⟩
      simp only at hb
      rw [List.drop_append_of_le_length hAf] at hb
      rcases List.mem_append.1 hb with hb | hb
      · exact h.new b hb
      · simp at hb; subst hb; omega
  | fin =>
    obtain ⟨g2, h1, h2, h3⟩ := hi.finalize
    have hs' : finalize g = some g' := hs
    rw [h1] at hs'; cases hs'
    have hfull := (h2.full h3).2
    have hmx : g'.maxNode = g.maxNode := by
      unfold finalize at h1
      split_ifs at h1
      · cases h1; rfl
      · simp only at h1
        split at h1
        · cases h1; rfl
        · exact nomatch h1
    have hfo : n ≤ g'.fo.length := by
      rw [hfull, hmx]
      exact Nat.le_trans h.fo hi.lenM
    unfold finalize at h1
    split_ifs at h1 with hz
    · cases h1; exact h
    · simp only at h1
      split at h1
      · cases h1
        have hc := hi.comLe
        have hc2 := h.com
        have htl : (g.fwd.take g.com).length = g.com := by simp; omega
        refine ⟨?_, Nat.le_trans hc2 hc, fun b hb => ?_, hfo⟩
        · refine List.IsPrefix.trans ?_ (List.prefix_append _ _)
          obtain ⟨t, ht⟩ := h.pre
          rw [← ht, List.take_append]
          rw [List.take_of_length_le hc2]
          exact List.prefix_append _ _
        · simp only at hb
          rw [List.drop_append_of_le_length (by omega)] at hb
          rcases List.mem_append.1 hb with hb | hb
          · refine h.new b ?_
            rw [← List.take_append_drop g.com g.fwd, List.drop_append_of_le_length (by omega)]
            exact List.mem_append_left _ hb
          · refine h.new b ?_
            have hb' : b ∈ g.fwd.drop g.com := (DepGraph.sortBy_perm _ _).mem_iff.1 ((DepGraph.sortBy_perm _ _).mem_iff.1 hb)
            rw [← List.take_append_drop g.com g.fwd, List.drop_append_of_le_length (by omega)]
            exact List.mem_append_right _ hb'
      · exact nomatch h1
  | upd => cases hs; exact ⟨h.pre, h.com, h.new, h.fo⟩

theorem Sep.run {A : List Arc} {n : Nat} (hA : A ≠ []) : ∀ {os : List Op} {g g' : Gr} {hist : List Arc}, Sep A n g → GInv g hist → run g os = some g' → g'.gen = g.gen → Sep A n g'
  | [], _, _, _, h, _, hr, _ => by cases hr; exact h
  | o :: os, g, g', hist, h, hi, hr, hg => by
    unfold DepGraph.run at hr
    cases hs : DepGraph.step g o with
    | none => rw [hs] at hr; exact nomatch hr
    | some g1 =>
      rw [hs] at hr
      have h1 := step_gen hs
      have h2 := run_gen hr
      have hi1 := run_inv [o] g hist hi g1 (by simp only [DepGraph.run, hs])
      exact Sep.run hA (h.step hi hA hs (by omega)) hi1 hr (by omega)

/-- As long as the generation stays the same, the arcs of a finalized graph keep their positions and new arcs do not touch old nodes. -/
theorem run_sep {g g' : Gr} {hist : List Arc} {os : List Op} (hi : GInv g hist) (hf : g.frozen = true) (hr : run g os = some g') (hg : g'.gen = g.gen) :
    g.fwd <+: g'.fwd ∧ ∀ a ∈ g'.fwd.drop g.fwd.length, ∀ b ∈ g.fwd, a.head ≠ b.tail := by
  by_cases hA : g.fwd = []
  · rw [hA]; exact ⟨List.nil_prefix, by simp⟩
  · have hc := hi.full hf
    have := Sep.run (A := g.fwd) (n := g.maxNode) hA (os := os) ⟨List.prefix_refl _, by omega, by simp, by omega⟩ hi hr hg
    refine ⟨this.pre, fun a ha b hb => ?_⟩
    have h1 := this.new a ha
    have h2 := hi.bnd b (hi.perm.mem_iff.1 hb)
    omega

end Clasp.DepGraph

namespace Clasp.Acyc
open Clasp.Core (Lit)
open Clasp.DepGraph (Arc Inv Gr fwdOf invOf GInv)

theorem AInv.grow {σ : St} (h : AInv σ) {os : List DepGraph.Op} {g' : Gr} (hd : σ.dl = 0) (hc : σ.confl = none) (hp : σ.phase = none) (hr : DepGraph.run σ.g os = some g')
    (hf : g'.frozen = true) : AInv { σ with g := g', ready := false } := by
  obtain ⟨hist, hg⟩ := h.base.gr
  have hg' := DepGraph.run_inv os _ _ hg g' hr
  have hsub : ∀ a ∈ σ.g.fwd, a ∈ g'.fwd := fun a ha => by
    rw [hg'.perm.mem_iff, List.mem_append]
    exact Or.inl (hg.perm.mem_iff.1 ha)
  have hgen := DepGraph.run_gen hr
  refine ⟨?_, ?_, ?_, fun hl => ?_⟩
  · refine { h.base with nr := fun _ => ⟨hd, hp⟩, gr := ⟨_, hg'⟩, frz := Or.inl hf, rdy := (fun hn => nomatch hn), gid1 := Nat.le_trans h.base.gid1 hgen, same := ?_, attm := fun a ha => hsub a (h.base.attm a ha), attp := ?_ }
    · intro hs
      have hs' : σ.gid.1 = g'.gen := hs
      have h1 := h.base.gid1
      have h2 := h.base.same (by omega)
      show σ.att <+: g'.fwd ∧ ∀ a ∈ g'.fwd.drop σ.att.length, ∀ b ∈ σ.att, a.head ≠ b.tail
      rcases h.base.frz with hz | hz
      · obtain ⟨h3, h4⟩ := DepGraph.run_sep hg hz hr (by omega)
        refine ⟨h2.1.trans h3, fun a ha b hb => ?_⟩
        obtain ⟨t, ht⟩ := h3
        rw [← ht, List.drop_append_of_le_length h2.1.length_le] at ha
        rcases List.mem_append.1 ha with ha | ha
        · exact h2.2 a ha b hb
        · exact h4 a (by rw [← ht]; simpa using ha) b (h.base.attm b hb)
      · have h3 := h2.1
        rw [hz] at h3
        have h4 : σ.att = [] := List.prefix_nil.1 h3
        rw [h4]
        exact ⟨List.nil_prefix, by simp⟩
    · obtain ⟨l, h1, h2⟩ := h.base.attp
      have h3 : l.Subperm g'.fwd := by
        refine (h2.subperm).trans ?_
        refine ((hg.perm.subperm).trans ?_).trans hg'.perm.symm.subperm
        exact (List.sublist_append_left hist (DepGraph.edges os)).subperm
      obtain ⟨l', h4, h5⟩ := h3
      exact ⟨l', h4.trans h1, h5⟩
  · refine ⟨(fun hn => nomatch hn), h.snd.val, fun c hc' => ?_, fun n hn => ?_, fun b hb => ?_⟩
    · obtain ⟨p, r, h1, h2⟩ := h.snd.learnt c hc'
      exact ⟨p, r, h1, h2.mono hsub (fun _ hq => hq)⟩
    · rw [show σ.confl = some (.own n) from hn] at hc; exact nomatch hc
    · rw [show σ.phase = some b from hb] at hp; exact nomatch hp
  · refine ⟨fun T1 e T2 h1 h2 => ?_, h.own.mode⟩
    obtain ⟨r, h3, h4, h5, h6⟩ := h.own.ok T1 e T2 h1 h2
    exact ⟨r, h3, h4, h5, h6.mono hsub (fun _ hq => hq)⟩
  · rcases h.cmp hl with h1 | h1
    · exact absurd hc h1.1
    · right
      have hT : ∀ e, PendT σ e → PendT { σ with g := g', ready := false } e := by
        intro e h2
        simp only [PendT] at h2 ⊢
        split_ifs at h2
        · simpa using List.ne_nil_of_mem h2
        · simpa using h2
      have hP : ∀ e ∈ σ.att, isTrue σ e.lit = true → Pend σ e → Pend { σ with g := g', ready := false } e := by
        intro e _ _ h2
        have h3 := h2.2
        rw [h.base.stopq hc] at h3
        refine Pend.intro (h.base.stopq hc) h2.1 ?_
        rcases h3 with h3 | h3 | h3 | h3
        · exact Or.inl h3
        · exact Or.inr (Or.inl (hT e h3))
        · exact Or.inr (Or.inr (Or.inl h3))
        · exact Or.inr (Or.inr (Or.inr h3))
      refine { loop := h1.loop, watched := ?_, inv1 := h1.inv1.imp rfl rfl hP, inv2 := fun hm => (h1.inv2 hm).imp rfl rfl hP, srch := fun b hb => ?_ }
      · intro e he hn
        rcases h1.watched e he hn with h2 | ⟨h2, h3, h4⟩
        · exact Or.inl h2
        · exact Or.inr ⟨h2, fun hx => hT e (h3 hx), h4⟩
      · rw [show σ.phase = some b from hb] at hp; exact nomatch hp

/-! ## Attaching -/

/-- Proof device: what the loop of `attach` keeps; `σ` is the state before it. -/
structure LI (σ ρ : St) : Prop where
  g : ρ.g = σ.g
  dl : ρ.dl = 0
  att : ρ.att = σ.att
  learnt : ρ.learnt = σ.learnt
  tags : ρ.tags = σ.tags
  parent : ρ.parent = σ.parent
  lost : ρ.lost = σ.lost
  mode : ρ.mode = σ.mode
  stopq : ρ.stopq = none
  phase : ρ.phase = none
  confl : ρ.confl = none ∨ ρ.confl = some .other
  base : Base ρ
  own : Own ρ
  trm : ∀ q k, Tr σ q k → Tr ρ q k
  todo : ∀ x ∈ ρ.todo, x ∈ σ.g.fwd ∧ Tr ρ x.lit 0 ∧ x.tail ≠ x.head

theorem Base.lev0 {σ : St} (h : Base σ) (hd : σ.dl = 0) {p : Lit} (ht : isTrue σ p = true) : Tr σ p 0 := by
  obtain ⟨k, e, he, h1, h2⟩ := isTrue_iff.1 ht
  have := h.levs e he
  exact ⟨e, he, h1, by omega⟩

theorem Tr.z {σ : St} {p : Lit} (h : Tr σ p 0) : Z σ p := by
  obtain ⟨e, he, h1, h2⟩ := h
  exact ⟨e, he, by rw [h1], h2⟩

theorem Tr.zneg {σ : St} {p : Lit} (h : Tr σ p.neg 0) : Z σ p := by
  obtain ⟨e, he, h1, h2⟩ := h
  exact ⟨e, he, by rw [h1]; rfl, h2⟩

theorem isFree_notZ {σ : St} {p : Lit} (h : isFree σ p = true) : ¬ Z σ p := by
  rintro ⟨e, he, h1, _⟩
  exact isFree_iff.1 h e he h1

theorem LI.watchSet {σ ρ : St} (h : LI σ ρ) (W : List (Lit × Nat)) : LI σ { ρ with watch := W } :=
  { h with base := { h.base with }, own := { h.own with } }

theorem LI.attachArc {σ ρ : St} (h : LI σ ρ) (hc : ρ.confl = none) (u i : Nat) {a : Arc} (ha : a ∈ σ.g.fwd) : LI σ (Acyc.attachArc ρ u i a).1 := by
  unfold Acyc.attachArc
  split_ifs with h1 h2 h3 h4 h5 h6
  · exact h.watchSet _
  · exact h.watchSet _
  · refine { h with base := { h.base with clr := fun hn => absurd hc hn }, own := { h.own with }, todo := ?_ }
    intro x hx
    rcases List.mem_append.1 hx with hx | hx
    · exact h.todo x hx
    · simp at hx; subst hx
      exact ⟨ha, h.base.lev0 h.dl h4, Ne.symm h1⟩
  · exact h
  · exact h
  · rw [← neg_free] at h6
    exact { h with
      confl := h.confl
      base := h.base.assign hc h6 false
      own := h.own.assign _
      trm := fun q k hq => Tr_assign.2 (Or.inr (h.trm q k hq))
      todo := fun x hx => ⟨(h.todo x hx).1, Tr_assign.2 (Or.inr (h.todo x hx).2.1), (h.todo x hx).2.2⟩ }
  · have hA := h.base
    refine { h with confl := Or.inr rfl, phase := rfl, base := ?_, own := ?_, todo := fun x hx => by simp [setConfl] at hx }
    · refine { hA with qlev := ?_, stopC := fun _ => by simp [setConfl], clr := fun _ => ⟨rfl, rfl, rfl⟩, nr := fun hr => ⟨(hA.nr hr).1, rfl⟩ }
      intro x hx
      rw [show (setConfl ρ .other).stopq = none from h.stopq] at hx
      simp [setConfl] at hx
    · refine ⟨fun T1 e T2 h7 h8 => ?_, h.own.mode⟩
      obtain ⟨r, h9, _, h10⟩ := h.own.ok T1 e T2 h7 h8
      exact ⟨r, h9, fun r' hr => by simp [setConfl] at hr, h10⟩

theorem attachLoop_ind {σ : St} (P : St → Nat → Nat → Prop)
    (hstep : ∀ ρ u i a, σ.g.fwd[i]? = some a → ρ.confl = none → LI σ ρ → P ρ u i → (attachArc ρ u i a).1.confl ≠ none ∨ P (attachArc ρ u i a).1 (attachArc ρ u i a).2 (i + 1)) :
    ∀ (rem : List Arc) (ρ : St) (u i : Nat), rem = σ.g.fwd.drop i → LI σ ρ → ρ.confl ≠ none ∨ P ρ u i →
    LI σ (attachLoop ρ u i rem) ∧ ((attachLoop ρ u i rem).confl ≠ none ∨ ∃ u' j, σ.g.fwd.length ≤ j ∧ P (attachLoop ρ u i rem) u' j)
  | [], ρ, u, i, hrem, h, hP => by
    have : σ.g.fwd.length ≤ i := List.drop_eq_nil_iff.1 hrem.symm
    refine ⟨h, ?_⟩
    rcases hP with hP | hP
    · exact Or.inl hP
    · exact Or.inr ⟨u, i, this, hP⟩
  | a :: as, ρ, u, i, hrem, h, hP => by
    have hi : σ.g.fwd[i]? = some a := by
      have := congrArg (fun l => l[0]?) hrem
      simp at this
      exact this.symm
    have has : as = σ.g.fwd.drop (i + 1) := by
      have := congrArg List.tail hrem
      simpa using this
    unfold attachLoop
    split_ifs with hc
    · exact ⟨h, Or.inl (by rw [Option.isSome_iff_ne_none] at hc; exact hc)⟩
    · have hc' : ρ.confl = none := by simpa using hc
      rcases hP with hP | hP
      · exact absurd hc' hP
      · exact attachLoop_ind P hstep as _ _ _ has (h.attachArc hc' u i (List.mem_of_getElem? hi)) (hstep ρ u i a hi hc' h hP)

theorem mem_take_succ {l : List Arc} {i : Nat} {a e : Arc} (h : l[i]? = some a) : e ∈ l.take (i + 1) ↔ e ∈ l.take i ∨ e = a := by
  rw [List.take_add_one, h]
  simp

/-- Proof device: completeness during the loop of `attach`; arcs from position `s` on are new. -/
structure LC (σ ρ : St) (s i : Nat) : Prop where
  loop : ∀ a ∈ σ.g.fwd.take i, a.tail = a.head → Tr ρ a.lit.neg 0
  watched : ∀ e ∈ σ.g.fwd.take i, e.tail ≠ e.head → (∃ j, (e.lit, j) ∈ ρ.watch ∧ σ.g.fwd[j]? = some e) ∨ (Z ρ e.lit ∧ (e.lit ∈ ρ.queue → e ∈ ρ.todo))
  neu : ∀ p, isTrue ρ p = true → isTrue σ p = true ∨ p ∈ ρ.queue
  que : ∀ p ∈ σ.queue, p ∈ ρ.queue
  todo : ∀ j e, s ≤ j → j < i → σ.g.fwd[j]? = some e → isTrue ρ e.lit = true → e ∈ ρ.todo ∨ e.lit ∈ ρ.queue

theorem LC.watch {σ ρ : St} {s i : Nat} (h : LC σ ρ s i) {a : Arc} (hi : σ.g.fwd[i]? = some a) (hn : a.tail ≠ a.head) (hf : isFree ρ a.lit = true) {W : List (Lit × Nat)}
    (h1 : (a.lit, i) ∈ W) (h2 : ∀ e ∈ σ.g.fwd.take i, ∀ j, (e.lit, j) ∈ ρ.watch → σ.g.fwd[j]? = some e → (e.lit, j) ∈ W) : LC σ { ρ with watch := W } s (i + 1) where
  loop := fun e he hl => by
    rcases (mem_take_succ hi).1 he with he | rfl
    · exact h.loop e he hl
    · exact absurd hl hn
  watched := fun e he hne => by
    rcases (mem_take_succ hi).1 he with he | rfl
    · rcases h.watched e he hne with ⟨j, h3, h4⟩ | h3
      · exact Or.inl ⟨j, h2 e he j h3 h4, h4⟩
      · exact Or.inr h3
    · exact Or.inl ⟨i, h1, hi⟩
  neu := h.neu
  que := h.que
  todo := fun j e hj hji he ht => by
    by_cases hji' : j = i
    · subst hji'
      rw [hi] at he; cases he
      obtain ⟨k, hk⟩ := isTrue_iff.1 ht
      exact (Base.free_not hf hk).elim
    · exact h.todo j e hj (by omega) he ht

theorem LC.other {σ ρ : St} {s i : Nat} (hL : LI σ ρ) (h : LC σ ρ s i) (hc : ρ.confl = none) {a : Arc} (hi : σ.g.fwd[i]? = some a) (u : Nat) (hnw : ¬ (a.tail ≠ a.head ∧ isFree ρ a.lit = true)) :
    (attachArc ρ u i a).1.confl ≠ none ∨ LC σ (attachArc ρ u i a).1 s (i + 1) := by
  unfold attachArc
  split_ifs with h1 h2 h3 h4 h5 h6
  · exact absurd ⟨Ne.symm h1, h2⟩ hnw
  · exact absurd ⟨Ne.symm h1, h2⟩ hnw
  · right
    exact
      { loop := fun e he hl => by
          rcases (mem_take_succ hi).1 he with he | rfl
          · exact h.loop e he hl
          · exact absurd hl.symm h1
        watched := fun e he hne => by
          rcases (mem_take_succ hi).1 he with he | rfl
          · rcases h.watched e he hne with h7 | ⟨h7, h8⟩
            · exact Or.inl h7
            · exact Or.inr ⟨h7, fun hx => List.mem_append_left _ (h8 hx)⟩
          · exact Or.inr ⟨(hL.base.lev0 hL.dl h4).z, fun _ => by simp⟩
        neu := h.neu
        que := h.que
        todo := fun j e hj hji he ht => by
          by_cases hji' : j = i
          · subst hji'
            rw [hi] at he; cases he
            exact Or.inl (by simp)
          · rcases h.todo j e hj (by omega) he ht with h7 | h7
            · exact Or.inl (List.mem_append_left _ h7)
            · exact Or.inr h7 }
  · right
    have hneg : isTrue ρ a.lit.neg = true := by
      rcases cases3 ρ a.lit with h7 | h7 | h7
      · exact absurd h7 h2
      · exact absurd h7 h4
      · exact h7
    have h0 := hL.base.lev0 hL.dl hneg
    exact { h with
      loop := fun e he hl => by
        rcases (mem_take_succ hi).1 he with he | rfl
        · exact h.loop e he hl
        · exact absurd hl.symm h1
      watched := fun e he hne => by
        rcases (mem_take_succ hi).1 he with he | rfl
        · exact h.watched e he hne
        · refine Or.inr ⟨h0.zneg, fun hx => ?_⟩
          exact (hL.base.excl (hL.base.qlev e.lit (by simp [hx])) h0).elim
      todo := fun j e hj hji he ht => by
        by_cases hji' : j = i
        · subst hji'
          rw [hi] at he; cases he
          exact absurd ht h4
        · exact h.todo j e hj (by omega) he ht }
  · right
    have h0 := hL.base.lev0 hL.dl h5
    have hlp : a.tail = a.head := by
      by_contra hx
      exact h1 (Ne.symm hx)
    exact { h with
      loop := fun e he hl => by
        rcases (mem_take_succ hi).1 he with he | rfl
        · exact h.loop e he hl
        · exact h0
      watched := fun e he hne => by
        rcases (mem_take_succ hi).1 he with he | rfl
        · exact h.watched e he hne
        · exact absurd hlp hne
      todo := fun j e hj hji he ht => by
        by_cases hji' : j = i
        · subst hji'
          rw [hi] at he; cases he
          obtain ⟨k, hk⟩ := isTrue_iff.1 ht
          exact (hL.base.excl hk h0).elim
        · exact h.todo j e hj (by omega) he ht }
  · right
    have hlp : a.tail = a.head := by
      by_contra hx
      exact h1 (Ne.symm hx)
    rw [← neg_free] at h6
    have hbb := hL.base.assign hc h6 false
    exact
      { loop := fun e he hl => by
          rcases (mem_take_succ hi).1 he with he | rfl
          · exact Tr_assign.2 (Or.inr (h.loop e he hl))
          · exact Tr_assign.2 (Or.inl ⟨rfl, hL.dl.symm⟩)
        watched := fun e he hne => by
          rcases (mem_take_succ hi).1 he with he | rfl
          · rcases h.watched e he hne with h7 | ⟨h7, h8⟩
            · exact Or.inl h7
            · refine Or.inr ⟨Z_assign h7, fun hx => ?_⟩
              rcases List.mem_append.1 hx with hx | hx
              · exact h8 hx
              · simp at hx
                rw [hx] at h7
                exact absurd h7 (isFree_notZ h6)
          · exact absurd hlp hne
        neu := fun p hp => by
          rcases isTrue_assign.1 hp with hp | hp
          · exact Or.inr (by simp [Acyc.assign, hp])
          · rcases h.neu p hp with h7 | h7
            · exact Or.inl h7
            · exact Or.inr (by simp [Acyc.assign, h7])
        que := fun p hp => by simp [Acyc.assign, h.que p hp]
        todo := fun j e hj hji he ht => by
          rcases isTrue_assign.1 ht with ht | ht
          · exact Or.inr (by simp [Acyc.assign, ht])
          · by_cases hji' : j = i
            · subst hji'
              rw [hi] at he; cases he
              obtain ⟨k, hk⟩ := isTrue_iff.1 ht
              exact (hbb.excl (Tr_assign.2 (Or.inr hk)) (Tr_assign.2 (Or.inl ⟨rfl, rfl⟩))).elim
            · rcases h.todo j e hj (by omega) he ht with h7 | h7
              · exact Or.inl h7
              · exact Or.inr (by simp [Acyc.assign, h7]) }
  · left
    simp [setConfl]

end Clasp.Acyc
