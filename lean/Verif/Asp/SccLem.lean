import Verif.Asp.Scc
import Mathlib.Logic.Relation
import Mathlib.Data.List.Chain
import Mathlib.Data.List.Nodup
import Mathlib.Tactic.Tauto

/-! Invariant of the component computation (C28). No code is modelled in this file. -/

namespace Clasp.Scc
open Relation

variable (P : Prg)

/-- Specification: positive dependency between nodes that take part in the computation. -/
def Edge (u v : Node) : Prop := P.vis u = true ∧ P.vis v = true ∧ some v ∈ P.succ u

/-- Specification: `v` depends on `u`, possibly in several steps, or is `u`. -/
def Reach : Node → Node → Prop := ReflTransGen (Edge P)

/-- Specification: `u` and `v` depend on each other. -/
def Mut (u v : Node) : Prop := Reach P u v ∧ Reach P v u

/-- nodes whose component is known -/
def Done (s : St) (u : Node) : Prop := s.seen u = true ∧ u ∉ s.nodes

/-- The results so far are right. -/
structure Res (start : Nat) (s : St) : Prop where
  triv : ∀ u, Done s u → u.isAtom = true → (∀ w, Mut P u w → w = u) → s.scc u = noScc ∧ u ∉ s.out
  non : ∀ u w, Done s u → u.isAtom = true → Mut P u w → w ≠ u → start ≤ s.scc u ∧ s.scc u < s.sccs ∧ u ∈ s.out
  same : ∀ u w, Done s u → u.isAtom = true → Done s w → w.isAtom = true → u ∈ s.out → w ∈ s.out → (s.scc u = s.scc w ↔ Mut P u w)
  out : ∀ u ∈ s.out, Done s u ∧ u.isAtom = true
  nodup : s.out.Nodup
  start : start ≤ s.sccs
  topo : ∀ u w, u ∈ s.out → w ∈ s.out → Reach P u w → s.scc w ≤ s.scc u

/-- The invariant. `F` are the calls of nodes in progress, `exc` is the child the top call has just come back from. -/
structure Core (start : Nat) (s : St) (num : Node → Nat) (F : List Call) (exc : Option Node) : Prop where
  nd : s.nodes.Pairwise fun a b => num b < num a
  lt : ∀ v ∈ s.nodes, num v < s.count
  ok : ∀ v ∈ s.nodes, P.vis v = true ∧ s.seen v = true
  sv : ∀ v, s.seen v = true → P.vis v = true
  cn : s.count ≤ noNode
  dcl : ∀ u w, Done s u → Edge P u w → Done s w
  did : ∀ u, Done s u → s.id u = noNode
  gn : ∀ f ∈ F, f.node ∈ s.nodes ∧ s.id f.node = num f.node ∧ f.min ≤ num f.node
  gord : F.Pairwise fun f g => num g.node < num f.node
  path : F.IsChain fun f g => (P.succ g.node)[g.next]? = some (some f.node)
  reach : ∀ f ∈ F, ∀ x ∈ s.nodes, num f.node ≤ num x → Reach P f.node x
  blk : ∀ x ∈ s.nodes, (∀ f ∈ F, f.node ≠ x) → s.id x < num x ∧ (∃ y ∈ s.nodes, num y = s.id x ∧ Reach P x y) ∧
    ∀ w, Edge P x w → Done s w ∨ (w ∈ s.nodes ∧ s.id x ≤ num w)
  expl : ∀ f ∈ F, (∀ j < f.next, ∀ w, (P.succ f.node)[j]? = some (some w) → P.vis w = true →
    Done s w ∨ (w ∈ s.nodes ∧ f.min ≤ num w)) ∧ ∃ y ∈ s.nodes, num y = f.min ∧ Reach P f.node y
  own : ∀ f ∈ F, ∀ x ∈ s.nodes, (∀ g ∈ F, g.node ≠ x) → num f.node < num x →
    (∀ g ∈ F, num g.node < num x → num g.node ≤ num f.node) →
    f.min ≤ s.id x ∨ (F.head? = some f ∧ ∃ u, exc = some u ∧ u ∈ s.nodes ∧ s.id u ≤ s.id x)
  res : Res P start s

variable {P}

theorem Mut.symm {u v : Node} (h : Mut P u v) : Mut P v u := ⟨h.2, h.1⟩
theorem Mut.refl (u : Node) : Mut P u u := ⟨.refl, .refl⟩
theorem Mut.trans {u v w : Node} (h : Mut P u v) (h' : Mut P v w) : Mut P u w :=
  ⟨h.1.trans h'.1, h'.2.trans h.2⟩

variable {start : Nat} {s : St} {num : Node → Nat} {F : List Call} {exc : Option Node}

theorem Core.inj (h : Core P start s num F exc) {a b : Node} (ha : a ∈ s.nodes) (hb : b ∈ s.nodes) (e : num a = num b) : a = b := by
  by_contra hne
  have : ∀ (l : List Node), l.Pairwise (fun a b => num b < num a) → a ∈ l → b ∈ l → False := by
    intro l
    induction l with
    | nil => intro _ h; cases h
    | cons x l ih =>
      intro hp ha hb
      obtain ⟨h1, h2⟩ := List.pairwise_cons.1 hp
      rcases List.mem_cons.1 ha with rfl | ha' <;> rcases List.mem_cons.1 hb with rfl | hb'
      · exact hne rfl
      · have := h1 b hb'; omega
      · have := h1 a ha'; omega
      · exact ih h2 ha' hb'
  exact this _ h.nd ha hb

theorem Core.id_le (h : Core P start s num F exc) {x : Node} (hx : x ∈ s.nodes) : s.id x ≤ num x := by
  by_cases hg : ∀ f ∈ F, f.node ≠ x
  · exact (h.blk x hx hg).1.le
  · push Not at hg
    obtain ⟨f, hf, rfl⟩ := hg
    exact (h.gn f hf).2.1.le

/-- every id on the stack is the number of a node on the stack that can be reached -/
theorem Core.id_reach (h : Core P start s num F exc) {x : Node} (hx : x ∈ s.nodes) :
    ∃ y ∈ s.nodes, num y = s.id x ∧ Reach P x y := by
  by_cases hg : ∀ f ∈ F, f.node ≠ x
  · exact (h.blk x hx hg).2.1
  · push Not at hg
    obtain ⟨f, hf, rfl⟩ := hg
    exact ⟨f.node, hx, (h.gn f hf).2.1.symm, .refl⟩

theorem Core.seen_cases (_h : Core P start s num F exc) {w : Node} (hw : s.seen w = true) : Done s w ∨ w ∈ s.nodes := by
  by_cases hn : w ∈ s.nodes
  · exact Or.inr hn
  · exact Or.inl ⟨hw, hn⟩

theorem Done.reach (h : Core P start s num F exc) {u w : Node} (hu : Done s u) (hr : Reach P u w) : Done s w := by
  induction hr with
  | refl => exact hu
  | tail _ he ih => exact h.dcl _ _ ih he

/-! ### A fresh node is entered -/

/-- the state after entering `v` -/
def entered (s : St) (v : Node) : St :=
  ⟨Function.update s.seen v true, Function.update s.id v s.count, s.scc, s.calls, v :: s.nodes, s.count + 1, s.sccs, s.out⟩

theorem en1 {v : Node} : (entered s v).nodes = v :: s.nodes := rfl
theorem en2 {v : Node} : (entered s v).id = Function.update s.id v s.count := rfl
theorem en3 {v : Node} : (entered s v).seen = Function.update s.seen v true := rfl
theorem en4 {v : Node} : (entered s v).count = s.count + 1 := rfl

theorem Core.enter {v : Node} (h : Core P start s num F none) (hs : s.seen v = false) (hv : P.vis v = true)
    (hp : ∀ f, F.head? = some f → (P.succ f.node)[f.next]? = some (some v)) (hc : s.count < noNode) :
    Core P start (entered s v)
      (Function.update num v s.count) (⟨v, s.count, 0⟩ :: F) none := by
  have hvn : v ∉ s.nodes := fun hm => by have := (h.ok v hm).2; rw [hs] at this; cases this
  have hne : ∀ x ∈ s.nodes, x ≠ v := fun x hx e => hvn (e ▸ hx)
  have hnum : ∀ x ∈ s.nodes, Function.update num v s.count x = num x := fun x hx => Function.update_of_ne (hne x hx) _ _
  have hid : ∀ x ∈ s.nodes, Function.update s.id v s.count x = s.id x := fun x hx => Function.update_of_ne (hne x hx) _ _
  have hnv : Function.update num v s.count v = s.count := Function.update_self _ _ _
  have hdone : ∀ u, Done (entered s v) u ↔ Done s u := by
    intro u
    unfold Done entered
    dsimp only
    by_cases e : u = v
    · subst e; simp [hs]
    · rw [Function.update_of_ne e]; simp [e]
  have hgn : ∀ f ∈ F, f.node ∈ s.nodes := fun f hf => (h.gn f hf).1
  refine ⟨?_, ?_, ?_, ?_, ?_, ?_, ?_, ?_, ?_, ?_, ?_, ?_, ?_, ?_, ?_⟩ <;> try simp only [en1, en2, en3, en4]
  · rw [List.pairwise_cons]
    refine ⟨fun x hx => by rw [hnv, hnum x hx]; exact h.lt x hx, ?_⟩
    exact h.nd.imp_of_mem fun {a b} ha hb hab => by rw [hnum a ha, hnum b hb]; exact hab
  · intro x hx
    rcases List.mem_cons.1 hx with rfl | hx
    · rw [hnv]; omega
    · rw [hnum x hx]; have := h.lt x hx; omega
  · intro x hx
    rcases List.mem_cons.1 hx with rfl | hx
    · exact ⟨hv, Function.update_self _ _ _⟩
    · refine ⟨(h.ok x hx).1, ?_⟩
      rw [Function.update_of_ne (hne x hx)]; exact (h.ok x hx).2
  · intro x hx
    by_cases e : x = v
    · rw [e]; exact hv
    · rw [Function.update_of_ne e] at hx; exact h.sv x hx
  · omega
  · intro u w hu he
    rw [hdone] at hu ⊢
    exact h.dcl u w hu he
  · intro u hu
    have hu' := (hdone u).1 hu
    have : u ≠ v := by rintro rfl; rw [hu'.1] at hs; cases hs
    rw [Function.update_of_ne this]; exact h.did u hu'
  · intro f hf
    rcases List.mem_cons.1 hf with rfl | hf
    · dsimp only; exact ⟨by simp, by rw [hnv, Function.update_self], by rw [hnv]⟩
    · have hm := hgn f hf
      rw [hid _ hm, hnum _ hm]
      exact ⟨List.mem_cons_of_mem _ hm, (h.gn f hf).2⟩
  · rw [List.pairwise_cons]
    refine ⟨fun f hf => ?_, h.gord.imp_of_mem fun {a b} ha hb hab => ?_⟩
    · dsimp only; rw [hnv, hnum _ (hgn f hf)]; exact h.lt _ (hgn f hf)
    · rw [hnum _ (hgn a ha), hnum _ (hgn b hb)]; exact hab
  · refine List.isChain_cons.2 ⟨?_, h.path⟩
    intro f hf
    exact hp f (by simpa using hf)
  · intro f hf x hx hle
    rcases List.mem_cons.1 hf with rfl | hF
    · rcases List.mem_cons.1 hx with rfl | hx
      · exact .refl
      · dsimp only at hle; rw [hnv, hnum x hx] at hle; have := h.lt x hx; omega
    · rcases List.mem_cons.1 hx with rfl | hx
      · -- through the top call
        cases F with
        | nil => cases hF
        | cons t F =>
          have htop : Reach P t.node x := by
            have hm := List.mem_of_getElem? (hp t rfl)
            exact .single ⟨(h.ok _ (hgn t (by simp))).1, hv, hm⟩
          have hft : num f.node ≤ num t.node := by
            rcases List.mem_cons.1 hF with rfl | hf'
            · exact Nat.le_refl _
            · exact ((List.pairwise_cons.1 h.gord).1 f hf').le
          exact (h.reach f hF t.node (hgn t (by simp)) hft).trans htop
      · rw [hnum x hx, hnum _ (hgn f hF)] at hle
        exact h.reach f hF x hx hle
  · intro x hx hb
    rcases List.mem_cons.1 hx with rfl | hx
    · exact absurd rfl (hb ⟨x, s.count, 0⟩ (by simp))
    · have hb' : ∀ f ∈ F, f.node ≠ x := fun f hf => hb f (List.mem_cons_of_mem _ hf)
      obtain ⟨h1, ⟨y, hy, h2, h3⟩, h4⟩ := h.blk x hx hb'
      rw [hid x hx, hnum x hx]
      refine ⟨h1, ⟨y, List.mem_cons_of_mem _ hy, by rw [hnum y hy]; exact h2, h3⟩, fun w hw => ?_⟩
      rw [hdone]
      rcases h4 w hw with h4 | ⟨h4, h5⟩
      · exact Or.inl h4
      · exact Or.inr ⟨List.mem_cons_of_mem _ h4, by rw [hnum w h4]; exact h5⟩
  · intro f hf
    rcases List.mem_cons.1 hf with rfl | hf
    · refine ⟨fun j hj => absurd hj (Nat.not_lt_zero _), v, by simp, hnv, .refl⟩
    · obtain ⟨h1, y, hy, h2, h3⟩ := h.expl f hf
      refine ⟨fun j hj w hw hvw => ?_, y, List.mem_cons_of_mem _ hy, by rw [hnum y hy]; exact h2, h3⟩
      rw [hdone]
      rcases h1 j hj w hw hvw with h4 | ⟨h4, h5⟩
      · exact Or.inl h4
      · exact Or.inr ⟨List.mem_cons_of_mem _ h4, by rw [hnum w h4]; exact h5⟩
  · intro f hf x hx hb hlt hmax
    rcases List.mem_cons.1 hx with rfl | hx
    · exact absurd rfl (hb ⟨x, s.count, 0⟩ (by simp))
    · rcases List.mem_cons.1 hf with rfl | hf
      · dsimp only at hlt; rw [hnv, hnum x hx] at hlt; have := h.lt x hx; omega
      · left
        rw [hid x hx]
        rw [hnum x hx, hnum _ (hgn f hf)] at hlt
        rcases h.own f hf x hx (fun g hg => hb g (List.mem_cons_of_mem _ hg)) hlt (fun g hg hgx => by
          have := hmax g (List.mem_cons_of_mem _ hg)
          rw [hnum x hx, hnum _ (hgn f hf), hnum _ (hgn g hg)] at this
          exact this hgx) with h1 | ⟨_, u, hu, _⟩
        · exact h1
        · cases hu
  · obtain ⟨r1, r2, r3, r4, r5, r6, r7⟩ := h.res
    exact ⟨fun u hu => r1 u ((hdone u).1 hu), fun u w hu => r2 u w ((hdone u).1 hu),
      fun u w hu ha hw => r3 u w ((hdone u).1 hu) ha ((hdone w).1 hw), fun u hu => ⟨(hdone u).2 (r4 u hu).1, (r4 u hu).2⟩, r5, r6, r7⟩

/-! ### One successor is looked at -/

theorem Core.scan1 {c : Call} (h : Core P start s num (c :: F) exc) (he : exc = none ∨ (P.succ c.node)[c.next]? = some exc)
    (m : Nat)
    (hm : (∃ w, (P.succ c.node)[c.next]? = some (some w) ∧ P.vis w = true ∧ s.seen w = true ∧ m = if s.id w < c.min then s.id w else c.min) ∨
      ((∀ w, (P.succ c.node)[c.next]? = some (some w) → P.vis w = false) ∧ m = c.min)) :
    Core P start s num (⟨c.node, m, c.next + 1⟩ :: F) none := by
  have hcn := h.gn c (by simp)
  have hmle : m ≤ c.min := by
    rcases hm with ⟨w, _, _, _, rfl⟩ | ⟨_, rfl⟩
    · split <;> omega
    · exact Nat.le_refl _
  have hblack : ∀ x, (∀ f ∈ (⟨c.node, m, c.next + 1⟩ :: F : List Call), f.node ≠ x) ↔ ∀ f ∈ c :: F, f.node ≠ x := by
    intro x; simp
  have hexc : ∀ u, exc = some u → u ∈ s.nodes → m ≤ s.id u := by
    intro u hu hun
    rcases he with he | he
    · rw [he] at hu; cases hu
    · rw [hu] at he
      rcases hm with ⟨w, hw, _, _, rfl⟩ | ⟨hw, _⟩
      · rw [hw] at he
        have : w = u := by injection he with he; injection he
        subst this
        split <;> omega
      · have := hw u he
        rw [(h.ok u hun).1] at this; cases this
  refine ⟨h.nd, h.lt, h.ok, h.sv, h.cn, h.dcl, h.did, ?_, ?_, ?_, ?_, ?_, ?_, ?_, h.res⟩
  · intro f hf
    rcases List.mem_cons.1 hf with rfl | hf
    · exact ⟨hcn.1, hcn.2.1, hmle.trans hcn.2.2⟩
    · exact h.gn f (List.mem_cons_of_mem _ hf)
  · obtain ⟨h1, h2⟩ := List.pairwise_cons.1 h.gord
    exact List.pairwise_cons.2 ⟨h1, h2⟩
  · obtain ⟨h1, h2⟩ := List.isChain_cons.1 h.path
    exact List.isChain_cons.2 ⟨h1, h2⟩
  · intro f hf
    rcases List.mem_cons.1 hf with rfl | hf
    · exact h.reach c (by simp)
    · exact h.reach f (List.mem_cons_of_mem _ hf)
  · intro x hx hb
    exact h.blk x hx ((hblack x).1 hb)
  · intro f hf
    rcases List.mem_cons.1 hf with rfl | hf
    · obtain ⟨h1, y, hy, h2, h3⟩ := h.expl c (by simp)
      dsimp only
      constructor
      · intro j hj w hw hv
        by_cases hj' : j < c.next
        · rcases h1 j hj' w hw hv with h4 | ⟨h4, h5⟩
          · exact Or.inl h4
          · exact Or.inr ⟨h4, hmle.trans h5⟩
        · have : j = c.next := by omega
          subst this
          rcases hm with ⟨w', hw', _, hs', rfl⟩ | ⟨hw', _⟩
          · rw [hw'] at hw
            have : w' = w := by injection hw with hw; injection hw
            subst this
            rcases h.seen_cases hs' with h4 | h4
            · exact Or.inl h4
            · refine Or.inr ⟨h4, ?_⟩
              have := h.id_le h4
              split <;> omega
          · have := hw' w hw
            rw [hv] at this; cases this
      · rcases hm with ⟨w, hw, hv, hs', rfl⟩ | ⟨_, rfl⟩
        · by_cases hlt : s.id w < c.min
          · rw [if_pos hlt]
            rcases h.seen_cases hs' with h4 | h4
            · have h5 := h.did w h4
              have := h.lt _ hcn.1
              have := h.cn
              omega
            · obtain ⟨y, hy, h5, h6⟩ := h.id_reach h4
              refine ⟨y, hy, h5, ?_⟩
              exact (ReflTransGen.single ⟨(h.ok _ hcn.1).1, hv, List.mem_of_getElem? hw⟩).trans h6
          · rw [if_neg hlt]; exact ⟨y, hy, h2, h3⟩
        · exact ⟨y, hy, h2, h3⟩
    · exact h.expl f (List.mem_cons_of_mem _ hf)
  · intro f hf x hx hb hlt hmax
    left
    have hmax' : ∀ g ∈ c :: F, num g.node < num x → num g.node ≤ num f.node := by
      intro g hg hgx
      rcases List.mem_cons.1 hg with rfl | hg
      · exact hmax ⟨g.node, m, g.next + 1⟩ (by simp) hgx
      · exact hmax g (List.mem_cons_of_mem _ hg) hgx
    rcases List.mem_cons.1 hf with rfl | hf
    · rcases h.own c (by simp) x hx ((hblack x).1 hb) hlt hmax' with h1 | ⟨_, u, hu, hun, h1⟩
      · exact hmle.trans h1
      · exact (hexc u hu hun).trans h1
    · rcases h.own f (List.mem_cons_of_mem _ hf) x hx ((hblack x).1 hb) hlt hmax' with h1 | ⟨hh, _⟩
      · exact h1
      · -- f would be the top
        have : c = f := by simpa using hh
        have := (List.pairwise_cons.1 h.gord).1 f hf
        subst_vars
        omega

/-- what the scan of the remaining successors gives -/
theorem scan_spec {v : Node} : ∀ (l : List (Option Node)) (i m : Nat) (exc : Option Node), (P.succ v).drop i = l →
    Core P start s num (⟨v, m, i⟩ :: F) exc → (exc = none ∨ (P.succ v)[i]? = some exc) →
    (∀ u, exc = some u → s.seen u = true) →
    let r := scan P s l i m
    (∀ w, r.2.2 = some w → P.vis w = true ∧ s.seen w = false ∧ (P.succ v)[r.2.1]? = some (some w) ∧
      Core P start s num (⟨v, r.1, r.2.1⟩ :: F) none) ∧
    (r.2.2 = none → ∃ j, (P.succ v).length ≤ j ∧ Core P start s num (⟨v, r.1, j⟩ :: F) none) := by
  intro l
  induction l with
  | nil =>
    intro i m exc hl h he hs
    simp only [scan]
    refine ⟨by simp, fun _ => ⟨i, ?_, ?_⟩⟩
    · exact List.drop_eq_nil_iff.1 hl
    · have : exc = none := by
        rcases he with he | he
        · exact he
        · rw [List.getElem?_eq_none (List.drop_eq_nil_iff.1 hl)] at he; cases he
      rw [this] at h; exact h
  | cons x l ih =>
    intro i m exc hl h he hs
    have hx : (P.succ v)[i]? = some x := by
      have := congrArg (fun l => l[0]?) hl
      simpa using this
    have hl' : (P.succ v).drop (i + 1) = l := by
      rw [← List.drop_drop, hl]; rfl
    cases x with
    | none =>
      simp only [scan]
      refine ih (i + 1) m none hl' (h.scan1 he m (Or.inr ⟨?_, rfl⟩)) (Or.inl rfl) (by simp)
      intro w hw
      rw [hx] at hw; cases hw
    | some w =>
      by_cases hv : P.vis w = true
      · by_cases hw : s.seen w = true
        · simp only [scan, hv, hw, if_true, Bool.not_true, Bool.false_eq_true, if_false]
          exact ih (i + 1) _ none hl' (h.scan1 he _ (Or.inl ⟨w, hx, hv, hw, rfl⟩)) (Or.inl rfl) (by simp)
        · simp only [scan, hv, hw, if_true, Bool.not_false]
          rw [Bool.not_eq_true] at hw
          refine ⟨fun w' hw' => ?_, by simp⟩
          have : w = w' := by simpa using hw'
          subst this
          have : exc = none := by
            rcases he with he | he
            · exact he
            · rw [hx] at he
              cases exc with
              | none => rfl
              | some u =>
                have hu : w = u := by injection he with he; injection he
                subst hu
                rw [hs w rfl] at hw; cases hw
          rw [this] at h
          exact ⟨hv, hw, hx, h⟩
      · simp only [scan, hv, if_false, Bool.false_eq_true]
        refine ih (i + 1) m none hl' (h.scan1 he m (Or.inr ⟨?_, rfl⟩)) (Or.inl rfl) (by simp)
        intro w' hw'
        rw [hx] at hw'
        have : w = w' := by injection hw' with hw'; injection hw'
        subst this; simpa using hv

end Clasp.Scc
