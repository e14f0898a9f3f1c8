import Verif.Ext.Acyc
import Verif.Ext.DepGraphProps
import Mathlib.Tactic.SplitIfs
import Mathlib.Tactic.Tauto
/-!
# Lemmas about the searches of the acyclicity checker
-/

namespace Clasp.Acyc
open Clasp.Core (Lit)
open Clasp.DepGraph (Arc Inv Gr fwdOf invOf)

/-- Specification: the arcs lead from `u` to `v`. -/
def IsPath : Nat → Nat → List Arc → Prop
  | u, v, [] => u = v
  | u, v, a :: L => a.tail = u ∧ IsPath a.head v L

theorem IsPath.append : ∀ {u v w : Nat} {L M : List Arc}, IsPath u v L → IsPath v w M → IsPath u w (L ++ M)
  | _, _, _, [], _, h, h' => by cases h; exact h'
  | _, _, _, _ :: _, _, h, h' => ⟨h.1, IsPath.append h.2 h'⟩

theorem IsPath.split : ∀ {u w : Nat} {L M : List Arc}, IsPath u w (L ++ M) → ∃ v, IsPath u v L ∧ IsPath v w M
  | u, _, [], _, h => ⟨u, rfl, h⟩
  | _, _, a :: L, M, h => by
    obtain ⟨v, h1, h2⟩ := IsPath.split (L := L) (M := M) h.2
    exact ⟨v, ⟨h.1, h1⟩, h2⟩

/-- Proof device: the tags and parents form a tree below `r`; `E l u v` says that `v` was found from `u` over `l`. -/
def Tree (E : Lit → Nat → Nat → Prop) (tags : List Nat) (par : List (Lit × Nat)) (tag r : Nat) : Prop :=
  ∃ rank : Nat → Nat, ∀ v, tags[v]? = some tag → rank v < tags.countP (· == tag) ∧
    (v ≠ r → ∃ l u, par[v]? = some (l, u) ∧ E l u v ∧ tags[u]? = some tag ∧ rank u < rank v)

theorem countP_set_self {tags : List Nat} {n tag : Nat} (hn : n < tags.length) (ht : tags[n]? ≠ some tag) : (tags.set n tag).countP (· == tag) = tags.countP (· == tag) + 1 := by
  rw [List.countP_set hn]
  have : tags[n] ≠ tag := fun h => ht (by rw [← h]; simp [hn])
  simp [this]

theorem countP_set_other {tags : List Nat} {n t tag : Nat} (hn : n < tags.length) (ht : tags[n]? ≠ some tag) (h : t ≠ tag) : (tags.set n t).countP (· == tag) = tags.countP (· == tag) := by
  rw [List.countP_set hn]
  have : tags[n] ≠ tag := fun h => ht (by rw [← h]; simp [hn])
  simp [this, h]

theorem get_set_iff {α : Type} {l : List α} {n v : Nat} {x y : α} (hn : n < l.length) : (l.set n x)[v]? = some y ↔ (v = n ∧ x = y) ∨ (v ≠ n ∧ l[v]? = some y) := by
  by_cases h : v = n
  · subst h; simp [hn]
  · rw [List.getElem?_set_ne (Ne.symm h)]; simp [h]

theorem Tree.root (E : Lit → Nat → Nat → Prop) {tags : List Nat} (par : List (Lit × Nat)) {tag r : Nat} (hr : r < tags.length) (ht : ∀ v : Nat, tags[v]? ≠ some tag) :
    Tree E (tags.set r tag) par tag r := by
  refine ⟨fun _ => 0, fun v hv => ?_⟩
  rw [countP_set_self hr (ht r)]
  refine ⟨Nat.succ_pos _, fun hne => ?_⟩
  rcases (get_set_iff hr).1 hv with h | h
  · exact absurd h.1 hne
  · exact absurd h.2 (ht v)

theorem Tree.visit {E : Lit → Nat → Nat → Prop} {tags : List Nat} {par : List (Lit × Nat)} {tag r : Nat} (h : Tree E tags par tag r) {n u : Nat} {l : Lit} (hn : n < tags.length)
    (hp : n < par.length) (ht : tags[n]? ≠ some tag) (hu : tags[u]? = some tag) (hE : E l u n) : Tree E (tags.set n tag) (par.set n (l, u)) tag r := by
  obtain ⟨rank, h⟩ := h
  refine ⟨fun v => if v = n then rank u + 1 else rank v, fun v hv => ?_⟩
  rw [countP_set_self hn ht]
  have hun : u ≠ n := fun he => ht (he ▸ hu)
  rcases (get_set_iff hn).1 hv with ⟨h1, _⟩ | ⟨h1, h2⟩
  · subst h1
    have := (h u hu).1
    refine ⟨by simp; omega, fun _ => ⟨l, u, by simp [hp], hE, (get_set_iff hn).2 (Or.inr ⟨hun, hu⟩), by simp [hun]⟩⟩
  · have h3 := h v h2
    refine ⟨by simp [h1]; omega, fun hne => ?_⟩
    obtain ⟨l', u', h4, h5, h6, h7⟩ := h3.2 hne
    have hun' : u' ≠ n := fun he => ht (he ▸ h6)
    exact ⟨l', u', by rw [List.getElem?_set_ne (Ne.symm h1)]; exact h4, h5, (get_set_iff hn).2 (Or.inr ⟨hun', h6⟩), by simp [h1, hun']; exact h7⟩

theorem Tree.other {E : Lit → Nat → Nat → Prop} {tags : List Nat} {par : List (Lit × Nat)} {tag r : Nat} (h : Tree E tags par tag r) {n t : Nat} {x : Lit × Nat} (hn : n < tags.length)
    (ht : tags[n]? ≠ some tag) (hne : t ≠ tag) : Tree E (tags.set n t) (par.set n x) tag r := by
  obtain ⟨rank, h⟩ := h
  refine ⟨rank, fun v hv => ?_⟩
  rw [countP_set_other hn ht hne]
  rcases (get_set_iff hn).1 hv with ⟨_, h1⟩ | ⟨h1, h2⟩
  · exact absurd h1 hne
  · refine ⟨(h v h2).1, fun hr => ?_⟩
    obtain ⟨l', u', h4, h5, h6, h7⟩ := (h v h2).2 hr
    have hun' : u' ≠ n := fun he => ht (he ▸ h6)
    exact ⟨l', u', by rw [List.getElem?_set_ne (Ne.symm h1)]; exact h4, h5, (get_set_iff hn).2 (Or.inr ⟨hun', h6⟩), h7⟩

theorem Tree.other' {E : Lit → Nat → Nat → Prop} {tags : List Nat} {par : List (Lit × Nat)} {tag r : Nat} (h : Tree E tags par tag r) {n t : Nat} (hn : n < tags.length)
    (ht : tags[n]? ≠ some tag) (hne : t ≠ tag) : Tree E (tags.set n t) par tag r := by
  obtain ⟨rank, h⟩ := h
  refine ⟨rank, fun v hv => ?_⟩
  rw [countP_set_other hn ht hne]
  rcases (get_set_iff hn).1 hv with ⟨_, h1⟩ | ⟨h1, h2⟩
  · exact absurd h1 hne
  · refine ⟨(h v h2).1, fun hr => ?_⟩
    obtain ⟨l', u', h4, h5, h6, h7⟩ := (h v h2).2 hr
    have hun' : u' ≠ n := fun he => ht (he ▸ h6)
    exact ⟨l', u', h4, h5, (get_set_iff hn).2 (Or.inr ⟨hun', h6⟩), h7⟩

theorem Tree.parent {E : Lit → Nat → Nat → Prop} {tags : List Nat} {par : List (Lit × Nat)} {tag r : Nat} (h : Tree E tags par tag r) {n : Nat} {x : Lit × Nat}
    (ht : tags[n]? ≠ some tag) : Tree E tags (par.set n x) tag r := by
  obtain ⟨rank, h⟩ := h
  refine ⟨rank, fun v hv => ⟨(h v hv).1, fun hr => ?_⟩⟩
  obtain ⟨l', u', h4, h5⟩ := (h v hv).2 hr
  have hvn : v ≠ n := fun he => ht (he ▸ hv)
  exact ⟨l', u', by rw [List.getElem?_set_ne (Ne.symm hvn)]; exact h4, h5⟩

theorem Tree.mono {E E' : Lit → Nat → Nat → Prop} {tags : List Nat} {par : List (Lit × Nat)} {tag r : Nat} (h : Tree E tags par tag r) (hE : ∀ l u v, E l u v → E' l u v) :
    Tree E' tags par tag r := by
  obtain ⟨rank, h⟩ := h
  refine ⟨rank, fun v hv => ⟨(h v hv).1, fun hr => ?_⟩⟩
  obtain ⟨l', u', h4, h5, h6⟩ := (h v hv).2 hr
  exact ⟨l', u', h4, hE _ _ _ h5, h6⟩

/-- Proof device: what `startSearch` guarantees. -/
structure Fresh (tags tags' : List Nat) (cnt cnt' : Nat) : Prop where
  len : tags'.length = tags.length
  new : ∀ v : Nat, tags'[v]? ≠ some cnt'
  old : ∀ v : Nat, tags'[v]? = some (cnt' - 1) ↔ tags[v]? = some cnt
  num : tags'.countP (· == cnt' - 1) = tags.countP (· == cnt)
  le : ∀ t ∈ tags', t ≤ cnt'
  pos : 1 ≤ cnt'
  lt : cnt' < 2 ^ 32

theorem startSearch_fresh {tags : List Nat} {cnt : Nat} (h : ∀ t ∈ tags, t ≤ cnt) (hc : cnt < 2 ^ 32) : Fresh tags (startSearch tags cnt).1 cnt (startSearch tags cnt).2 := by
  unfold startSearch
  split_ifs with hm
  · refine ⟨by simp, fun v hv => ?_, fun v => ?_, ?_, ?_, by simp, by simp⟩
    · simp only [List.getElem?_map, Option.map_eq_some_iff] at hv
      obtain ⟨t, _, h2⟩ := hv
      split_ifs at h2 <;> omega
    · simp only [List.getElem?_map, Option.map_eq_some_iff]
      constructor
      · rintro ⟨t, h1, h2⟩
        split_ifs at h2 with h3
        · rw [h1, h3]
      · intro h1; exact ⟨cnt, h1, by simp⟩
    · simp only
      rw [List.countP_map]
      apply List.countP_congr
      intro t _
      simp only [Function.comp, beq_iff_eq]
      split_ifs with h3 <;> simp [h3]
    · intro t ht
      simp only [List.mem_map] at ht
      obtain ⟨x, _, hx⟩ := ht
      split_ifs at hx <;> omega
  · refine ⟨rfl, fun v hv => ?_, fun v => by simp, by simp, fun t ht => ?_, by simp, by simp only; omega⟩
    · have := h _ (List.mem_of_getElem? hv)
      simp only at this; omega
    · have := h t ht
      simp only; omega

theorem Tree.retag {E : Lit → Nat → Nat → Prop} {tags tags' : List Nat} {par : List (Lit × Nat)} {cnt cnt' r : Nat} (h : Tree E tags par cnt r) (hf : Fresh tags tags' cnt cnt') :
    Tree E tags' par (cnt' - 1) r := by
  obtain ⟨rank, h⟩ := h
  refine ⟨rank, fun v hv => ?_⟩
  rw [hf.num]
  have h1 := h v ((hf.old v).1 hv)
  refine ⟨h1.1, fun hr => ?_⟩
  obtain ⟨l', u', h4, h5, h6, h7⟩ := h1.2 hr
  exact ⟨l', u', h4, h5, (hf.old u').2 h6, h7⟩

theorem Tree.path {E : Lit → Nat → Nat → Prop} {tags : List Nat} {par : List (Lit × Nat)} {tag r : Nat} (h : Tree E tags par tag r) (Q : Nat → List Lit → Prop) (h0 : Q r [])
    (hs : ∀ l u v ls, E l u v → Q u ls → Q v (l :: ls)) {v : Nat} (hv : tags[v]? = some tag) {k : Nat} (hk : tags.length ≤ k) : ∃ ls, path par r k v = some ls ∧ Q v ls := by
  obtain ⟨rank, h⟩ := h
  have main : ∀ (k v : Nat), tags[v]? = some tag → rank v ≤ k → ∃ ls, Acyc.path par r k v = some ls ∧ Q v ls := by
    intro k
    induction k with
    | zero =>
      intro v hv hk
      by_cases hr : v = r
      · subst hr; exact ⟨[], by simp [Acyc.path], h0⟩
      · obtain ⟨l, u, _, _, _, h7⟩ := (h v hv).2 hr; omega
    | succ k ih =>
      intro v hv hk
      by_cases hr : v = r
      · subst hr; exact ⟨[], by simp [Acyc.path], h0⟩
      · obtain ⟨l, u, h4, h5, h6, h7⟩ := (h v hv).2 hr
        obtain ⟨ls, h8, h9⟩ := ih u h6 (by omega)
        exact ⟨l :: ls, by simp [Acyc.path, hr, h4, h8], hs l u v ls h5 h9⟩
  exact main k v hv (by have := (h v hv).1; have := List.countP_le_length (p := (· == tag)) (l := tags); omega)

/-- Proof device: an arc of the graph with a true literal, followed forward. -/
def EF (σ : St) (l : Lit) (u v : Nat) : Prop := (⟨l, u, v⟩ : Arc) ∈ σ.g.fwd ∧ isTrue σ l = true

/-- Proof device: an arc of the graph with a true literal, followed backward. -/
def EB (σ : St) (l : Lit) (u v : Nat) : Prop := (⟨l, v, u⟩ : Arc) ∈ σ.g.fwd ∧ isTrue σ l = true

/-- Proof device: the literals `ls` are true and contain those of a path. -/
def PathBy (σ : St) (u v : Nat) (ls : List Lit) : Prop :=
  (∀ p ∈ ls, isTrue σ p = true) ∧ ∃ L, IsPath u v L ∧ ∀ a ∈ L, a ∈ σ.g.fwd ∧ a.lit ∈ ls

theorem Tree.fwdPath {σ : St} {tags : List Nat} {par : List (Lit × Nat)} {tag r : Nat} (h : Tree (EF σ) tags par tag r) {v : Nat} (hv : tags[v]? = some tag) {k : Nat} (hk : tags.length ≤ k) :
    ∃ ls, Acyc.path par r k v = some ls ∧ PathBy σ r v ls := by
  refine h.path (fun v ls => PathBy σ r v ls) ⟨by simp, [], rfl, by simp⟩ ?_ hv hk
  rintro l u v ls ⟨h1, h2⟩ ⟨h3, L, h4, h5⟩
  refine ⟨by simp [h2]; exact h3, L ++ [⟨l, u, v⟩], h4.append (show IsPath u v [⟨l, u, v⟩] from ⟨rfl, rfl⟩), ?_⟩
  intro a ha
  rcases List.mem_append.1 ha with ha | ha
  · exact ⟨(h5 a ha).1, by simp [(h5 a ha).2]⟩
  · simp at ha; subst ha; exact ⟨h1, by simp⟩

theorem Tree.bwdPath {σ : St} {tags : List Nat} {par : List (Lit × Nat)} {tag r : Nat} (h : Tree (EB σ) tags par tag r) {v : Nat} (hv : tags[v]? = some tag) {k : Nat} (hk : tags.length ≤ k) :
    ∃ ls, Acyc.path par r k v = some ls ∧ PathBy σ v r ls := by
  refine h.path (fun v ls => PathBy σ v r ls) ⟨by simp, [], rfl, by simp⟩ ?_ hv hk
  rintro l u v ls ⟨h1, h2⟩ ⟨h3, L, h4, h5⟩
  refine ⟨by simp [h2]; exact h3, ⟨l, v, u⟩ :: L, ⟨rfl, h4⟩, ?_⟩
  intro a ha
  rcases List.mem_cons.1 ha with ha | ha
  · subst ha; exact ⟨h1, by simp⟩
  · exact ⟨(h5 a ha).1, by simp [(h5 a ha).2]⟩

/-- Proof device: the invariant of the forward search. -/
structure FI (σ : St) (root : Arc) (tag N : Nat) (s : Sr) : Prop where
  len : s.tags.length = N
  plen : s.parent.length = N
  hd : s.tags[root.head]? = some tag
  tl : s.tags[root.tail]? ≠ some tag
  stk : ∀ v ∈ s.stack, s.tags[v]? = some tag
  tree : Tree (EF σ) s.tags s.parent tag root.head
  le : ∀ t ∈ s.tags, t ≤ tag

/-- Proof device: the result of scanning the arcs of a node. -/
structure Scan (σ : St) (root : Arc) (tag : Nat) (as : List Arc) (s s' : Sr) : Prop where
  keep : ∀ v : Nat, s.tags[v]? = some tag → s'.tags[v]? = some tag
  stk : ∀ v ∈ s.stack, v ∈ s'.stack
  new : ∀ v : Nat, s'.tags[v]? = some tag → s.tags[v]? = some tag ∨ v ∈ s'.stack
  done : ∀ a ∈ as, isTrue σ a.lit = true → s'.tags[a.head]? = some tag
  meas : s'.stack.length + s.tags.countP (· == tag) = s.stack.length + s'.tags.countP (· == tag)

theorem fwdScan_ok {σ : St} {root : Arc} {tag node N : Nat} : ∀ (as : List Arc) (s : Sr), FI σ root tag N s → s.tags[node]? = some tag →
    (∀ a ∈ as, a ∈ σ.g.fwd ∧ a.tail = node ∧ a.head < N) →
    (∃ s', fwdScan σ root tag node as s = (s', false) ∧ FI σ root tag N s' ∧ Scan σ root tag as s s') ∨
    (∃ s' l, fwdScan σ root tag node as s = (s', true) ∧ (s'.tags = s.tags ∨ ∃ s'' , s'.tags = s''.tags ∧ FI σ root tag N s'') ∧ s'.tags.length = N ∧ s'.tags[root.tail]? ≠ some tag ∧ (∀ t ∈ s'.tags, t ≤ tag) ∧
      s'.parent.length = N ∧ Tree (EF σ) s'.tags s'.parent tag root.head ∧ s'.parent[root.tail]? = some (l, node) ∧ s'.tags[node]? = some tag ∧ EF σ l node root.tail)
  | [], s, h, hn, _ => Or.inl ⟨s, rfl, h, ⟨fun _ hv => hv, fun _ hv => hv, fun _ hv => Or.inl hv, by simp, rfl⟩⟩
  | a :: as, s, h, hn, ha => by
    have ha1 := ha a (by simp)
    have has := fun b hb => ha b (List.mem_cons_of_mem _ hb)
    unfold fwdScan
    split_ifs with h1 h2 h3
    · right
      refine ⟨_, a.lit, rfl, Or.inl rfl, h.len, h.tl, h.le, by simp [h.plen], h.tree.parent (by rw [h2]; exact h.tl), ?_, hn, ?_⟩
      · rw [h2]; simp [h.plen, ← h2, ha1.2.2]
      · exact ⟨by rw [← h2, ← ha1.2.1]; exact ha1.1, h1⟩
    · rcases fwdScan_ok as s h hn has with ⟨s', e1, e2, e3⟩ | h'
      · left
        refine ⟨s', e1, e2, e3.keep, e3.stk, e3.new, ?_, e3.meas⟩
        intro b hb hbt
        rcases List.mem_cons.1 hb with rfl | hb
        · exact e3.keep _ h3
        · exact e3.done b hb hbt
      · exact Or.inr h'
    · have hlt : a.head < s.tags.length := by rw [h.len]; exact ha1.2.2
      have hlp : a.head < s.parent.length := by rw [h.plen]; exact ha1.2.2
      have hFI : FI σ root tag N (s.visit a.head tag (a.lit, node)) :=
        { len := by simp [Sr.visit, h.len]
          plen := by simp [Sr.visit, h.plen]
          hd := by
            simp only [Sr.visit]
            rw [get_set_iff hlt]
            by_cases he : root.head = a.head
            · exact Or.inl ⟨he, rfl⟩
            · exact Or.inr ⟨he, h.hd⟩
          tl := by
            simp only [Sr.visit]
            rw [Ne, get_set_iff hlt]
            rintro (⟨he, _⟩ | ⟨_, he⟩)
            · exact h2 he.symm
            · exact h.tl he
          stk := by
            simp only [Sr.visit]
            intro v hv
            rw [get_set_iff hlt]
            by_cases he : v = a.head
            · exact Or.inl ⟨he, rfl⟩
            · rcases List.mem_cons.1 hv with hv | hv
              · exact absurd hv he
              · exact Or.inr ⟨he, h.stk v hv⟩
          tree := by
            have hE : EF σ a.lit node a.head := ⟨by rw [← ha1.2.1]; exact ha1.1, h1⟩
            exact h.tree.visit hlt hlp h3 hn hE
          le := by
            simp only [Sr.visit]
            intro t ht
            rcases List.mem_or_eq_of_mem_set ht with ht | ht
            · exact h.le t ht
            · omega }
      have hkeep : ∀ v : Nat, s.tags[v]? = some tag → (s.visit a.head tag (a.lit, node)).tags[v]? = some tag := by
        intro v hv
        simp only [Sr.visit]
        rw [get_set_iff hlt]
        by_cases he : v = a.head
        · exact Or.inl ⟨he, rfl⟩
        · exact Or.inr ⟨he, hv⟩
      rcases fwdScan_ok as _ hFI (hkeep _ hn) has with ⟨s', e1, e2, e3⟩ | ⟨s', l, e1, e2, e3⟩
      · left
        refine ⟨s', e1, e2, fun v hv => e3.keep v (hkeep v hv), fun v hv => e3.stk v (by simp [Sr.visit, hv]), ?_, ?_, ?_⟩
        · intro v hv
          rcases e3.new v hv with hv | hv
          · simp only [Sr.visit] at hv
            rcases (get_set_iff hlt).1 hv with ⟨he, _⟩ | ⟨_, he⟩
            · exact Or.inr (e3.stk v (by simp [Sr.visit, he]))
            · exact Or.inl he
          · exact Or.inr hv
        · intro b hb hbt
          rcases List.mem_cons.1 hb with rfl | hb
          · refine e3.keep _ ?_
            simp only [Sr.visit]
            rw [get_set_iff hlt]
            exact Or.inl ⟨rfl, rfl⟩
          · exact e3.done b hb hbt
        · have := e3.meas
          simp only [Sr.visit] at this
          rw [countP_set_self hlt h3] at this
          simp at this
          omega
      · right
        refine ⟨s', l, e1, ?_, e3⟩
        rcases e2 with e2 | e2
        · exact Or.inr ⟨_, e2, hFI⟩
        · exact Or.inr e2
    · rcases fwdScan_ok as s h hn has with ⟨s', e1, e2, e3⟩ | h'
      · left
        refine ⟨s', e1, e2, e3.keep, e3.stk, e3.new, ?_, e3.meas⟩
        intro b hb hbt
        rcases List.mem_cons.1 hb with rfl | hb
        · exact absurd hbt h1
        · exact e3.done b hb hbt
      · exact Or.inr h'

/-- Proof device: all arcs of visited nodes that are not on the stack are explored. -/
def Explored (σ : St) (tag : Nat) (s : Sr) : Prop :=
  ∀ e ∈ σ.g.fwd, isTrue σ e.lit = true → s.tags[e.tail]? = some tag → e.tail ∈ s.stack ∨ s.tags[e.head]? = some tag

/-- Proof device: what the forward search found. -/
def FwdRes (σ : St) (root : Arc) (tag N : Nat) (s : Sr) : Bool → Prop
  | false => FI σ root tag N s ∧ (∀ e ∈ σ.g.fwd, isTrue σ e.lit = true → s.tags[e.tail]? = some tag → s.tags[e.head]? = some tag)
  | true => s.tags.length = N ∧ s.parent.length = N ∧ (∀ t ∈ s.tags, t ≤ tag) ∧ ∃ ls, path s.parent root.head (N + 1) root.tail = some ls ∧ PathBy σ root.head root.tail ls

theorem fwdLoop_ok {σ : St} {root : Arc} {tag N : Nat} (hg : ∀ n a, a ∈ fwdOf σ.g n ↔ a ∈ σ.g.fwd ∧ a.tail = n) (hb : ∀ a ∈ σ.g.fwd, a.head < N) (hne : root.tail ≠ root.head) :
    ∀ (k : Nat) (s : Sr), FI σ root tag N s → Explored σ tag s → s.stack.length + N ≤ k + s.tags.countP (· == tag) →
    ∃ s' f, fwdLoop σ root tag k s = some (s', f) ∧ FwdRes σ root tag N s' f := by
  intro k
  induction k with
  | zero =>
    intro s h he hm
    have hc : s.tags.countP (· == tag) ≤ N := by rw [← h.len]; exact List.countP_le_length
    have : s.stack = [] := List.length_eq_zero_iff.1 (by omega)
    refine ⟨s, false, by simp [fwdLoop, this], h, fun e h1 h2 h3 => ?_⟩
    rcases he e h1 h2 h3 with h4 | h4
    · rw [this] at h4; simp at h4
    · exact h4
  | succ k ih =>
    intro s h he hm
    unfold fwdLoop
    cases hst : s.stack with
    | nil =>
      refine ⟨s, false, rfl, h, fun e h1 h2 h3 => ?_⟩
      rcases he e h1 h2 h3 with h4 | h4
      · rw [hst] at h4; simp at h4
      · exact h4
    | cons n st =>
      have hn : s.tags[n]? = some tag := h.stk n (by rw [hst]; simp)
      have h' : FI σ root tag N ⟨st, s.tags, s.parent⟩ := { h with stk := fun v hv => h.stk v (by rw [hst]; simp [show v ∈ st from hv]) }
      simp only
      rcases fwdScan_ok (fwdOf σ.g n) ⟨st, s.tags, s.parent⟩ h' hn (fun a ha => by
          have := (hg n a).1 ha; exact ⟨this.1, this.2, hb a this.1⟩) with ⟨s', e1, e2, e3⟩ | ⟨s', l, e1, _, e2, e3, e4, e5, e6, e7, e8, e9⟩
      · rw [e1]
        refine ih s' e2 ?_ ?_
        · intro e h1 h2 h3
          rcases e3.new _ h3 with h4 | h4
          · by_cases hen : e.tail = n
            · exact Or.inr (e3.done e ((hg n e).2 ⟨h1, hen⟩) h2)
            · rcases he e h1 h2 h4 with h5 | h5
              · rw [hst] at h5
                rcases List.mem_cons.1 h5 with h5 | h5
                · exact absurd h5 hen
                · exact Or.inl (e3.stk _ h5)
              · exact Or.inr (e3.keep _ h5)
          · exact Or.inl h4
        · have := e3.meas
          rw [hst] at hm
          simp at hm this
          omega
      · rw [e1]
        refine ⟨s', true, rfl, e2, e5, e4, ?_⟩
        obtain ⟨ls, h1, h2, L, h3, h4⟩ := e6.fwdPath e8 (k := N) (by omega)
        refine ⟨l :: ls, ?_, ?_, L ++ [⟨l, n, root.tail⟩], h3.append (show IsPath n root.tail [⟨l, n, root.tail⟩] from ⟨rfl, rfl⟩), ?_⟩
        · simp [path, hne, e7, h1]
        · intro p hp
          rcases List.mem_cons.1 hp with rfl | hp
          · exact e9.2
          · exact h2 p hp
        · intro a ha
          rcases List.mem_append.1 ha with ha | ha
          · exact ⟨(h4 a ha).1, by simp [(h4 a ha).2]⟩
          · simp at ha; subst ha; exact ⟨e9.1, by simp⟩

/-- Proof device: what `dfsForward` needs of the state. -/
structure FPre (σ : St) : Prop where
  fwd : ∀ n a, a ∈ fwdOf σ.g n ↔ a ∈ σ.g.fwd ∧ a.tail = n
  bnd : ∀ a ∈ σ.g.fwd, a.tail < σ.tags.length ∧ a.head < σ.tags.length
  plen : σ.parent.length = σ.tags.length
  le : ∀ t ∈ σ.tags, t ≤ σ.tagCnt
  lt : σ.tagCnt < 2 ^ 32

/-- Proof device: the forward search did not find a cycle; `s`, `cnt` are the new tags, parents and counter. -/
structure FNo (σ : St) (root : Arc) (tags : List Nat) (par : List (Lit × Nat)) (cnt : Nat) : Prop where
  len : tags.length = σ.tags.length
  plen : par.length = σ.tags.length
  hd : tags[root.head]? = some cnt
  tl : tags[root.tail]? ≠ some cnt
  tree : Tree (EF σ) tags par cnt root.head
  le : ∀ t ∈ tags, t ≤ cnt
  lt : cnt < 2 ^ 32
  pos : 1 ≤ cnt
  closed : ∀ e ∈ σ.g.fwd, isTrue σ e.lit = true → tags[e.tail]? = some cnt → tags[e.head]? = some cnt

theorem dfsForward_ok {σ : St} {root : Arc} (h : FPre σ) (hr : root ∈ σ.g.fwd) (hne : root.tail ≠ root.head) :
    (∃ tags par cnt, dfsForward σ root = some { σ with tags := tags, tagCnt := cnt, parent := par } ∧ FNo σ root tags par cnt) ∨
    (∃ tags par cnt ls, dfsForward σ root = some (closeFwd { σ with tags := tags, tagCnt := cnt, parent := par } root ls) ∧ PathBy σ root.head root.tail ls ∧
      tags.length = σ.tags.length ∧ par.length = σ.tags.length ∧ (∀ t ∈ tags, t ≤ cnt) ∧ cnt < 2 ^ 32) := by
  have hf := startSearch_fresh h.le h.lt
  unfold dfsForward
  obtain ⟨t, ht⟩ : ∃ t, startSearch σ.tags σ.tagCnt = t := ⟨_, rfl⟩
  rw [ht] at hf ⊢
  simp only
  have hlt : root.head < t.1.length := by rw [hf.len]; exact (h.bnd root hr).2
  have hFI : FI σ root t.2 σ.tags.length ⟨[root.head], t.1.set root.head t.2, σ.parent⟩ :=
    { len := by simp [hf.len]
      plen := h.plen
      hd := by simp [hlt]
      tl := by
        simp only
        rw [List.getElem?_set_ne (Ne.symm hne)]
        exact hf.new _
      stk := by simp [hlt]
      tree := Tree.root _ _ hlt hf.new
      le := by
        intro x hx
        rcases List.mem_or_eq_of_mem_set hx with hx | hx
        · exact hf.le x hx
        · omega }
  have hE : Explored σ t.2 ⟨[root.head], t.1.set root.head t.2, σ.parent⟩ := by
    intro e _ _ h3
    simp only at h3 ⊢
    rcases (get_set_iff hlt).1 h3 with h4 | h4
    · left; simp [h4.1]
    · exact absurd h4.2 (hf.new _)
  obtain ⟨s', f, h1, h2⟩ := fwdLoop_ok h.fwd (fun a ha => (h.bnd a ha).2) hne (σ.tags.length + 1) _ hFI hE (by simp only [List.length_singleton]; omega)
  rw [h1]
  cases f with
  | false =>
    left
    refine ⟨s'.tags, s'.parent, t.2, rfl, h2.1.len, h2.1.plen, h2.1.hd, h2.1.tl, h2.1.tree, h2.1.le, hf.lt, hf.pos, h2.2⟩
  | true =>
    right
    obtain ⟨e1, e2, e3, ls, h3, h4⟩ := h2
    refine ⟨s'.tags, s'.parent, t.2, ls, ?_, h4, e1, e2, e3, hf.lt⟩
    simp only [h3]

end Clasp.Acyc
