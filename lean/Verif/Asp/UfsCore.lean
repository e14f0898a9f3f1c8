import Verif.Asp.Ufs
import Mathlib.Tactic.Push
import Mathlib.Tactic.ByContra
import Mathlib.Data.List.Basic
import Mathlib.Data.List.Nodup

/-! The invariant behind the source pointers of the unfounded set checker (C29). No code is modelled in
this file; it contains proof devices only. -/

namespace Clasp.Ufs
open Clasp.Core

/-- Proof device: the subgoals of a body from its own component. -/
def UGraph.pre (g : UGraph) (b : Nat) : List Nat := (g.body b).preds.map Prod.fst
/-- Proof device: the subgoal at a position. -/
def UGraph.pr (g : UGraph) (b i : Nat) : Option Nat := (g.body b).preds[i]?.map Prod.fst
/-- Specification: the weight of the literals at the positions in `f`. -/
def UGraph.wsSum (g : UGraph) (b : Nat) (f : Nat → Bool) : Int :=
  ((List.range (g.subs b).length).map fun i => if f i then g.weight b i else 0).sum

/-- Specification: the graph is consistent: edges are stored at both ends, heads and subgoals from the
same component are where they are expected, weights are not negative. -/
structure GWf (g : UGraph) : Prop where
  pre : ∀ b ∈ g.bodies, ∀ p ∈ g.pre b, p ∈ g.atoms ∧ (g.atom p).scc = (g.body b).scc
  preNd : ∀ b ∈ g.bodies, (g.pre b).Nodup
  succ : ∀ a ∈ g.atoms, ∀ b ∈ (g.atom a).succs, b ∈ g.bodies ∧ (g.body b).ext = false ∧ a ∈ g.pre b
  esucc : ∀ a ∈ g.atoms, ∀ b i, (b, i) ∈ (g.atom a).extSuccs → b ∈ g.bodies ∧ (g.body b).ext = true ∧ g.pr b i = some a
  succ' : ∀ b ∈ g.bodies, (g.body b).ext = false → ∀ a ∈ g.pre b, b ∈ (g.atom a).succs
  esucc' : ∀ b ∈ g.bodies, (g.body b).ext = true → ∀ a i, g.pr b i = some a → (b, i) ∈ (g.atom a).extSuccs
  sNd : ∀ a ∈ g.atoms, ((g.atom a).succs ++ (g.atom a).extSuccs.map Prod.fst).Nodup
  heads : ∀ b ∈ g.bodies, ∀ a ∈ (g.body b).heads, a ∈ g.atoms ∧ b ∈ (g.atom a).bodies
  bods : ∀ a ∈ g.atoms, ∀ b ∈ (g.atom a).bodies, b ∈ g.bodies ∧ a ∈ (g.body b).heads
  order : ∀ b ∈ g.bodies, ∃ l1 l2, (g.body b).heads = l1 ++ l2 ∧ (∀ a ∈ l1, (g.atom a).scc = (g.body b).scc) ∧
    ∀ a ∈ l2, (g.atom a).scc ≠ (g.body b).scc
  wpos : ∀ b ∈ g.bodies, ∀ x ∈ g.subs b, 0 ≤ x.2
  wone : ∀ b ∈ g.bodies, (g.body b).ext = false → ∀ p ∈ (g.body b).preds, p.2 = 1
  atomsNd : g.atoms.Nodup
  bodiesNd : g.bodies.Nodup

/-- Proof device: the part of the state the invariant speaks about. -/
@[ext] structure Vw where
  V : Nat → Bool
  W : Nat → Option Nat
  L : Nat → Int
  ws : Nat → Nat → Bool
  wt : Nat → Nat

/-- Proof device. -/
def St.vw (s : St) : Vw :=
  ⟨fun a => (s.atoms a).valid, fun a => (s.atoms a).source, fun b => (s.bodies b).lower, fun b => (s.bodies b).ws, fun b => (s.bodies b).watches⟩

/-- Proof device: `k b p`: the counters of body `b` regard `p` as sourced; `rank` orders the atoms such that
an atom comes after those its (last) source depends on; `G b` are the literals that made `b` a
valid source the last time it was one. -/
structure Gh where
  k : Nat → Nat → Bool
  rank : Nat → Nat
  N : Nat
  G : Nat → Nat → Bool

/-- Proof device: `p` is needed for `b` to be a source. -/
def dep (g : UGraph) (G : Nat → Nat → Bool) (b p : Nat) : Prop :=
  ∃ i, g.pr b i = some p ∧ ((g.body b).ext = true → G b i = true)

/-- Proof device: the invariant of the source pointers; `Ex` are bodies that may have heads with an
outdated source. -/
structure Core (g : UGraph) (v : Vw) (h : Gh) (Ex : Nat → Prop) : Prop where
  cntN : ∀ b ∈ g.bodies, (g.body b).ext = false → v.L b = ((g.pre b).filter fun p => !h.k b p).length
  cntE : ∀ b ∈ g.bodies, (g.body b).ext = true → v.L b = (g.body b).bound - g.wsSum b (v.ws b)
  wsk : ∀ b ∈ g.bodies, (g.body b).ext = true → ∀ i, v.ws b i = true → i < (g.subs b).length ∧ ∀ p, g.pr b i = some p → h.k b p = true
  wat : ∀ b ∈ g.bodies, v.wt b = (g.atoms.filter fun a => v.W a == some b).length
  hd : ∀ a ∈ g.atoms, ∀ b, v.W a = some b → b ∈ g.bodies ∧ a ∈ (g.body b).heads
  src : ∀ a ∈ g.atoms, v.V a = true → ∃ b, v.W a = some b
  just : ∀ a ∈ g.atoms, ∀ b, v.V a = true → v.W a = some b → (g.body b).scc = (g.atom a).scc → v.L b ≤ 0 ∨ Ex b
  rk : ∀ a ∈ g.atoms, ∀ b, v.W a = some b → (g.body b).scc = (g.atom a).scc → ∀ p, dep g h.G b p → h.rank p < h.rank a
  rkN : ∀ a, h.rank a < h.N
  gws : ∀ b ∈ g.bodies, (g.body b).ext = true → v.L b ≤ 0 → ∀ i, h.G b i = v.ws b i
  gsum : ∀ a ∈ g.atoms, ∀ b, v.W a = some b → (g.body b).scc = (g.atom a).scc → (g.body b).ext = true →
    (g.body b).bound ≤ g.wsSum b (h.G b)

variable {g : UGraph} {v : Vw} {h : Gh} {Ex : Nat → Prop}

theorem pr_pre {b i p : Nat} (hp : g.pr b i = some p) : p ∈ g.pre b := by
  unfold UGraph.pr at hp
  unfold UGraph.pre
  cases he : (g.body b).preds[i]? with
  | none => rw [he] at hp; cases hp
  | some x =>
    rw [he] at hp
    exact List.mem_map.2 ⟨x, List.mem_of_getElem? he, by simpa using hp⟩

theorem pre_pr {b p : Nat} (hp : p ∈ g.pre b) : ∃ i, g.pr b i = some p := by
  obtain ⟨x, hx, rfl⟩ := List.mem_map.1 hp
  obtain ⟨i, hi⟩ := List.mem_iff_getElem?.1 hx
  exact ⟨i, by unfold UGraph.pr; rw [hi]; rfl⟩

theorem pr_lt {b i p : Nat} (hp : g.pr b i = some p) : i < (g.body b).preds.length := by
  unfold UGraph.pr at hp
  by_contra hc
  rw [List.getElem?_eq_none (by omega)] at hp
  cases hp

theorem pr_inj (hg : GWf g) {b i j p : Nat} (hb : b ∈ g.bodies) (hi : g.pr b i = some p) (hj : g.pr b j = some p) : i = j := by
  have hi' : (g.pre b)[i]? = some p := by unfold UGraph.pre; rw [List.getElem?_map]; exact hi
  have hj' : (g.pre b)[j]? = some p := by unfold UGraph.pre; rw [List.getElem?_map]; exact hj
  have hl : i < (g.pre b).length := by
    by_contra hc
    rw [List.getElem?_eq_none (by omega)] at hi'; cases hi'
  exact (List.getElem?_inj hl (hg.preNd b hb)).1 (by rw [hi', hj'])

theorem preds_len_le (g : UGraph) (b : Nat) : (g.body b).preds.length ≤ (g.subs b).length := by
  unfold UGraph.subs; simp

theorem pr_lt' {b i p : Nat} (hp : g.pr b i = some p) : i < (g.subs b).length := Nat.lt_of_lt_of_le (pr_lt hp) (preds_len_le g b)

theorem slit_pr {b i p : Nat} (hp : g.pr b i = some p) : g.slit b i = (g.atom p).lit := by
  have hl := pr_lt hp
  unfold UGraph.slit UGraph.subs
  rw [List.getElem?_append_left (by simpa using hl), List.getElem?_map]
  unfold UGraph.pr at hp
  cases he : (g.body b).preds[i]? with
  | none => rw [he] at hp; cases hp
  | some x => rw [he] at hp; simp at hp; subst hp; rfl

theorem weight_nonneg (hg : GWf g) {b : Nat} (hb : b ∈ g.bodies) (i : Nat) : 0 ≤ g.weight b i := by
  unfold UGraph.weight
  cases he : (g.subs b)[i]? with
  | none => simp
  | some x => exact hg.wpos b hb x (List.mem_of_getElem? he)

theorem sum_update (f : Nat → Bool) (w : Nat → Int) (i : Nat) (t : Bool) : ∀ l : List Nat, l.Nodup →
    (l.map fun j => if Function.update f i t j then w j else 0).sum =
    (l.map fun j => if f j then w j else 0).sum + (if i ∈ l then (if t then w i else 0) - (if f i then w i else 0) else 0)
  | [], _ => by simp
  | j :: l, hnd => by
    have hn := List.nodup_cons.1 hnd
    have ih := sum_update f w i t l hn.2
    simp only [List.map_cons, List.sum_cons, List.mem_cons]
    rw [ih]
    by_cases e : i = j
    · subst e
      rw [Function.update_self, if_neg hn.1, if_pos (Or.inl rfl)]
      omega
    · rw [Function.update_of_ne (fun h => e h.symm)]
      by_cases hm : i ∈ l
      · rw [if_pos hm, if_pos (Or.inr hm)]; omega
      · have hn' : ¬ (i = j ∨ i ∈ l) := fun h => h.elim e hm
        rw [if_neg hm, if_neg hn']; omega

theorem wsSum_add (b : Nat) (f : Nat → Bool) {i : Nat} (hi : i < (g.subs b).length) (hf : f i = false) :
    g.wsSum b (Function.update f i true) = g.wsSum b f + g.weight b i := by
  unfold UGraph.wsSum
  rw [sum_update f _ i true _ List.nodup_range, if_pos (List.mem_range.2 hi)]
  simp [hf]

theorem wsSum_del (b : Nat) (f : Nat → Bool) {i : Nat} (hi : i < (g.subs b).length) (hf : f i = true) :
    g.wsSum b (Function.update f i false) = g.wsSum b f - g.weight b i := by
  unfold UGraph.wsSum
  rw [sum_update f _ i false _ List.nodup_range, if_pos (List.mem_range.2 hi)]
  simp [hf]; omega

/-- a valid source needs only subgoals that the counters regard as sourced -/
theorem Core.dep_k (hc : Core g v h Ex) {b p : Nat} (hb : b ∈ g.bodies) (hL : v.L b ≤ 0) (hd : dep g h.G b p) : h.k b p = true := by
  obtain ⟨i, hi, hG⟩ := hd
  cases he : (g.body b).ext with
  | false =>
    have h1 := hc.cntN b hb he
    have h2 : ((g.pre b).filter fun p => !h.k b p).length = 0 := by omega
    have h3 := List.length_eq_zero_iff.1 h2
    cases hk : h.k b p with
    | true => rfl
    | false =>
      have : p ∈ (g.pre b).filter fun p => !h.k b p := List.mem_filter.2 ⟨pr_pre hi, by simp [hk]⟩
      rw [h3] at this; cases this
  | true =>
    have h1 := hG he
    rw [hc.gws b hb he hL] at h1
    exact (hc.wsk b hb he i h1).2 p hi

/-- removing a source -/
theorem Core.inval (hc : Core g v h Ex) (a : Nat) : Core g { v with V := Function.update v.V a false } h Ex where
  cntN := hc.cntN
  cntE := hc.cntE
  wsk := hc.wsk
  wat := hc.wat
  hd := hc.hd
  src a' ha' hV := hc.src a' ha' (by
    by_cases e : a' = a
    · subst e; simp at hV
    · simpa [Function.update_of_ne e] using hV)
  just a' ha' b hV := hc.just a' ha' b (by
    by_cases e : a' = a
    · subst e; simp at hV
    · simpa [Function.update_of_ne e] using hV)
  rk := hc.rk
  rkN := hc.rkN
  gws := hc.gws
  gsum := hc.gsum

/-- Proof device: the effect of `updateSource`. -/
def Vw.setSrc (v : Vw) (a b : Nat) : Vw :=
  { v with
    V := Function.update v.V a true
    W := Function.update v.W a (some b)
    wt := fun c => v.wt c - (if v.W a = some c then 1 else 0) + (if c = b then 1 else 0) }

theorem filter_len_update (l : List Nat) (hnd : l.Nodup) (W : Nat → Option Nat) (a b c : Nat) (ha : a ∈ l) :
    (l.filter fun x => Function.update W a (some b) x == some c).length =
    (l.filter fun x => W x == some c).length - (if W a = some c then 1 else 0) + (if c = b then 1 else 0) := by
  induction l with
  | nil => cases ha
  | cons x l ih =>
    have hn := List.nodup_cons.1 hnd
    by_cases e : x = a
    · subst e
      have : (l.filter fun y => Function.update W x (some b) y == some c) = l.filter fun y => W y == some c :=
        List.filter_congr fun y hy => by
          have hne : y ≠ x := fun h => hn.1 (h ▸ hy)
          rw [Function.update_of_ne hne]
      simp only [List.filter_cons, Function.update_self, this]
      by_cases h1 : W x = some c <;> by_cases h2 : c = b
      · subst h2; simp [h1]
      · have : ¬ b = c := fun h => h2 h.symm
        simp [h1, h2, this]
      · subst h2; simp [h1]
      · have : ¬ b = c := fun h => h2 h.symm
        simp [h1, h2, this]
    · have ha' : a ∈ l := by
        rcases List.mem_cons.1 ha with h | h
        · exact absurd h.symm e
        · exact h
      have ih := ih hn.2 ha'
      simp only [List.filter_cons, Function.update_of_ne e]
      by_cases h1 : (W x == some c) = true
      · rw [if_pos h1, if_pos h1]
        simp only [List.length_cons]
        rw [ih]
        by_cases h2 : W a = some c
        · have : 0 < (l.filter fun x => W x == some c).length := List.length_pos_of_mem (List.mem_filter.2 ⟨ha', by simp [h2]⟩)
          rw [if_pos h2]; omega
        · rw [if_neg h2]; omega
      · rw [if_neg h1, if_neg h1, ih]

/-- setting a source -/
theorem Core.setSrc (hg : GWf g) (hc : Core g v h fun _ => False)
    (hkV : ∀ b ∈ g.bodies, ∀ p ∈ g.pre b, h.k b p = true → v.V p = true)
    {a b : Nat} (ha : a ∈ g.atoms) (hV : v.V a = false) (hb : b ∈ g.bodies) (hab : a ∈ (g.body b).heads)
    (hok : (g.body b).scc = (g.atom a).scc → v.L b ≤ 0) :
    ∃ h', h'.k = h.k ∧ h'.G = h.G ∧ Core g (v.setSrc a b) h' fun _ => False := by
  have hdepV : ∀ c ∈ g.bodies, v.L c ≤ 0 → ∀ p, dep g h.G c p → v.V p = true := fun c hcb hL p hd =>
    hkV c hcb p (by obtain ⟨i, hi, _⟩ := hd; exact pr_pre hi) (hc.dep_k hcb hL hd)
  refine ⟨⟨h.k, fun x => if x = a then h.N else if v.V x then h.rank x else h.rank x + h.N + 1, 2 * h.N + 2, h.G⟩, rfl, rfl, ?_⟩
  have hWa : (v.setSrc a b).W a = some b := by simp [Vw.setSrc]
  have hWne : ∀ x, x ≠ a → (v.setSrc a b).W x = v.W x := fun x hx => by simp [Vw.setSrc, Function.update_of_ne hx]
  have hVne : ∀ x, x ≠ a → (v.setSrc a b).V x = v.V x := fun x hx => by simp [Vw.setSrc, Function.update_of_ne hx]
  constructor
  · exact hc.cntN
  · exact hc.cntE
  · exact hc.wsk
  · intro c hcb
    show v.wt c - _ + _ = _
    rw [hc.wat c hcb]
    exact (filter_len_update g.atoms hg.atomsNd v.W a b c ha).symm
  · intro x hx c hW
    by_cases e : x = a
    · subst e; rw [hWa] at hW; cases hW; exact ⟨hb, hab⟩
    · rw [hWne x e] at hW; exact hc.hd x hx c hW
  · intro x hx hVx
    by_cases e : x = a
    · subst e; exact ⟨b, hWa⟩
    · rw [hWne x e]; rw [hVne x e] at hVx; exact hc.src x hx hVx
  · intro x hx c hVx hW hs
    by_cases e : x = a
    · subst e; rw [hWa] at hW; cases hW; exact Or.inl (hok hs)
    · rw [hWne x e] at hW; rw [hVne x e] at hVx; exact hc.just x hx c hVx hW hs
  · intro x hx c hW hs p hd
    dsimp only
    by_cases e : x = a
    · subst e
      rw [hWa] at hW; cases hW
      have hVp := hdepV b hb (hok hs) p hd
      have : p ≠ x := fun he => by rw [he, hV] at hVp; cases hVp
      rw [if_neg this, if_pos hVp, if_pos rfl]
      exact hc.rkN p
    · rw [hWne x e] at hW
      have hcb := (hc.hd x hx c hW).1
      have hr := hc.rk x hx c hW hs p hd
      have hpN := hc.rkN p
      rw [if_neg e]
      cases hVx : v.V x with
      | true =>
        have hL : v.L c ≤ 0 := by
          rcases hc.just x hx c hVx hW hs with h1 | h1
          · exact h1
          · exact h1.elim
        have hVp := hdepV c hcb hL p hd
        have : p ≠ a := fun he => by rw [he, hV] at hVp; cases hVp
        rw [if_neg this, if_pos hVp, if_pos rfl]
        exact hr
      | false =>
        have e1 : (if false = true then h.rank x else h.rank x + h.N + 1) = h.rank x + h.N + 1 := rfl
        rw [e1]
        split
        · omega
        · split <;> omega
  · intro x
    have := hc.rkN x
    dsimp only
    split
    · omega
    · split <;> omega
  · exact hc.gws
  · intro x hx c hW hs he
    by_cases e : x = a
    · subst e
      rw [hWa] at hW; cases hW
      have hL := hok hs
      have h1 := hc.cntE b hb he
      have h2 : h.G b = v.ws b := funext (hc.gws b hb he hL)
      show (g.body b).bound ≤ g.wsSum b (h.G b)
      rw [h2]; omega
    · rw [hWne x e] at hW
      exact hc.gsum x hx c hW hs he

theorem filter_k (l : List Nat) (hnd : l.Nodup) (k : Nat → Bool) {p : Nat} (hp : p ∈ l) (t : Bool) (hk : k p = !t) :
    ((l.filter fun x => !Function.update k p t x).length : Int) = (l.filter fun x => !k x).length + (if t then -1 else 1) := by
  induction l with
  | nil => cases hp
  | cons x l ih =>
    have hn := List.nodup_cons.1 hnd
    by_cases e : x = p
    · subst e
      have : (l.filter fun y => !Function.update k x t y) = l.filter fun y => !k y :=
        List.filter_congr fun y hy => by
          have hne : y ≠ x := fun h => hn.1 (h ▸ hy)
          rw [Function.update_of_ne hne]
      simp only [List.filter_cons, Function.update_self, this, hk]
      cases t <;> simp; omega
    · have hp' : p ∈ l := by
        rcases List.mem_cons.1 hp with h | h
        · exact absurd h.symm e
        · exact h
      have ih := ih hn.2 hp'
      simp only [List.filter_cons, Function.update_of_ne e]
      split
      · simp only [List.length_cons]; omega
      · exact ih

/-- Proof device: change what the counters of `b` know about `p`. -/
def Gh.setK (h : Gh) (b p : Nat) (t : Bool) : Gh := { h with k := Function.update h.k b (Function.update (h.k b) p t) }

theorem Gh.setK_self (h : Gh) (b p : Nat) (t : Bool) : (h.setK b p t).k b p = t := by simp [Gh.setK]
theorem Gh.setK_ne (h : Gh) {b p : Nat} (t : Bool) {b' p' : Nat} (hne : ¬ (b' = b ∧ p' = p)) : (h.setK b p t).k b' p' = h.k b' p' := by
  unfold Gh.setK
  by_cases e : b' = b
  · subst e
    have : p' ≠ p := fun e => hne ⟨rfl, e⟩
    simp [Function.update_of_ne this]
  · simp [Function.update_of_ne e]

/-- counting for normal bodies -/
theorem Core.cntStep (hg : GWf g) (hc : Core g v h Ex) {b p : Nat} (hb : b ∈ g.bodies) (he : (g.body b).ext = false)
    (hp : p ∈ g.pre b) (t : Bool) (hk : h.k b p = !t) :
    Core g { v with L := Function.update v.L b (v.L b + if t then -1 else 1) } (h.setK b p t)
      fun c => Ex c ∨ (t = false ∧ c = b) where
  cntN c hcb hce := by
    by_cases e : c = b
    · subst e
      have := filter_k (g.pre c) (hg.preNd c hb) (h.k c) hp t hk
      simp only [Function.update_self, Gh.setK]
      rw [this, hc.cntN c hb he]
    · simp only [Function.update_of_ne e, Gh.setK]
      exact hc.cntN c hcb hce
  cntE c hcb hce := by
    have e : c ≠ b := fun e => by rw [e, he] at hce; cases hce
    simp only [Function.update_of_ne e]
    exact hc.cntE c hcb hce
  wsk c hcb hce := by
    have e : c ≠ b := fun e => by rw [e, he] at hce; cases hce
    simp only [Function.update_of_ne e, Gh.setK]
    exact hc.wsk c hcb hce
  wat := hc.wat
  hd := hc.hd
  src := hc.src
  just a ha c hV hW hs := by
    rcases hc.just a ha c hV hW hs with h1 | h1
    · by_cases e : c = b
      · subst e
        cases t with
        | false => exact Or.inr (Or.inr ⟨rfl, rfl⟩)
        | true => left; simp only [Function.update_self, if_true]; omega
      · left; simp only [Function.update_of_ne e]; exact h1
    · exact Or.inr (Or.inl h1)
  rk := hc.rk
  rkN := hc.rkN
  gws c hcb hce := by
    have e : c ≠ b := fun e => by rw [e, he] at hce; cases hce
    simp only [Function.update_of_ne e]
    exact hc.gws c hcb hce
  gsum := hc.gsum

/-- the counters of an extended body learn something without a change of the watch set -/
theorem Core.kStep (hc : Core g v h Ex) {b p : Nat} (he : (g.body b).ext = true) (t : Bool)
    (hk : t = false → ∀ i, g.pr b i = some p → v.ws b i = false) :
    Core g v (h.setK b p t) Ex where
  cntN c hcb hce := by
    have e : c ≠ b := fun e => by rw [e, he] at hce; cases hce
    simp only [Gh.setK, Function.update_of_ne e]
    exact hc.cntN c hcb hce
  cntE := hc.cntE
  wsk c hcb hce i hi := by
    obtain ⟨h1, h2⟩ := hc.wsk c hcb hce i hi
    refine ⟨h1, fun q hq => ?_⟩
    by_cases e : c = b ∧ q = p
    · obtain ⟨rfl, rfl⟩ := e
      rw [Gh.setK_self]
      cases t with
      | true => rfl
      | false => rw [hk rfl i hq] at hi; cases hi
    · rw [Gh.setK_ne h t e]; exact h2 q hq
  wat := hc.wat
  hd := hc.hd
  src := hc.src
  just := hc.just
  rk := hc.rk
  rkN := hc.rkN
  gws := hc.gws
  gsum := hc.gsum

/-- Proof device: the watch set of `b` after position `i` was set to `t`. -/
def Vw.setWs (v : Vw) (b i : Nat) (t : Bool) (l : Int) : Vw :=
  { v with ws := Function.update v.ws b (Function.update (v.ws b) i t), L := Function.update v.L b l }

/-- Proof device: the new value of `G b`. -/
def newG (h : Gh) (b : Nat) (ws : Nat → Bool) (l : Int) : Nat → Nat → Bool :=
  if l ≤ 0 then Function.update h.G b ws else h.G

theorem Core.noWatch (hc : Core g v h Ex) {b : Nat} (hb : b ∈ g.bodies) (h0 : v.wt b = 0) : ∀ a ∈ g.atoms, v.W a ≠ some b := by
  intro a ha hW
  rw [hc.wat b hb] at h0
  have := List.length_eq_zero_iff.1 h0
  have hm : a ∈ g.atoms.filter fun a => v.W a == some b := List.mem_filter.2 ⟨ha, by simp [hW]⟩
  rw [this] at hm; cases hm

theorem Core.unsourced (hc : Core g v h fun _ => False) {b : Nat} (hb : b ∈ g.bodies) (hL : 0 < v.L b ∨ v.wt b = 0) :
    ∀ a ∈ g.atoms, v.W a = some b → (g.body b).scc = (g.atom a).scc → v.V a = false := by
  intro a ha hW hs
  rcases hL with h0 | h0
  · cases hV : v.V a with
    | false => rfl
    | true =>
      rcases hc.just a ha b hV hW hs with h1 | h1
      · omega
      · exact h1.elim
  · exact absurd hW (hc.noWatch hb h0 a ha)

/-- adding to the watch set of an extended body -/
theorem Core.wsAdd (hg : GWf g) (hc : Core g v h fun _ => False)
    (hkV : ∀ b ∈ g.bodies, ∀ p ∈ g.pre b, h.k b p = true → v.V p = true)
    {b i : Nat} (hb : b ∈ g.bodies) (he : (g.body b).ext = true) (hi : i < (g.subs b).length) (hws : v.ws b i = false)
    (hk : ∀ p, g.pr b i = some p → h.k b p = true)
    (hnV : ∀ a ∈ g.atoms, v.W a = some b → (g.body b).scc = (g.atom a).scc → v.V a = false) :
    ∃ h', h'.k = h.k ∧ h'.G = newG h b (Function.update (v.ws b) i true) (v.L b - g.weight b i) ∧
      Core g (v.setWs b i true (v.L b - g.weight b i)) h' fun _ => False := by
  have hw := weight_nonneg hg hb i
  have hdepV : ∀ c ∈ g.bodies, v.L c ≤ 0 → ∀ p, dep g h.G c p → v.V p = true := fun c hcb hL p hd =>
    hkV c hcb p (by obtain ⟨i, hi, _⟩ := hd; exact pr_pre hi) (hc.dep_k hcb hL hd)
  have hws' : ∀ j, Function.update (v.ws b) i true j = true → j < (g.subs b).length ∧ ∀ p, g.pr b j = some p → h.k b p = true := by
    intro j hj
    by_cases e : j = i
    · subst e; exact ⟨hi, hk⟩
    · rw [Function.update_of_ne e] at hj; exact hc.wsk b hb he j hj
  refine ⟨⟨h.k, fun x => if v.V x then h.rank x else h.rank x + h.N, 2 * h.N, newG h b (Function.update (v.ws b) i true) (v.L b - g.weight b i)⟩, rfl, rfl, ?_⟩
  have hGne : ∀ c, c ≠ b → newG h b (Function.update (v.ws b) i true) (v.L b - g.weight b i) c = h.G c := by
    intro c e
    unfold newG
    split
    · rw [Function.update_of_ne e]
    · rfl
  constructor
  · intro c hcb hce
    have e : c ≠ b := fun e => by rw [e, he] at hce; cases hce
    simp only [Vw.setWs, Function.update_of_ne e]
    exact hc.cntN c hcb hce
  · intro c hcb hce
    by_cases e : c = b
    · subst e
      simp only [Vw.setWs, Function.update_self]
      rw [wsSum_add c _ hi hws, hc.cntE c hb he]; omega
    · simp only [Vw.setWs, Function.update_of_ne e]
      exact hc.cntE c hcb hce
  · intro c hcb hce j hj
    by_cases e : c = b
    · subst e
      simp only [Vw.setWs, Function.update_self] at hj
      exact hws' j hj
    · simp only [Vw.setWs, Function.update_of_ne e] at hj
      exact hc.wsk c hcb hce j hj
  · exact hc.wat
  · exact hc.hd
  · exact hc.src
  · intro a ha c hV hW hs
    left
    by_cases e : c = b
    · subst e
      simp only [Vw.setWs, Function.update_self]
      rcases hc.just a ha c hV hW hs with h1 | h1
      · omega
      · exact h1.elim
    · simp only [Vw.setWs, Function.update_of_ne e]
      rcases hc.just a ha c hV hW hs with h1 | h1
      · exact h1
      · exact h1.elim
  · intro a ha c hW hs p hd
    have hcb := (hc.hd a ha c hW).1
    dsimp only
    have hpN := hc.rkN p
    by_cases e : c = b ∧ v.L b - g.weight b i ≤ 0
    · obtain ⟨rfl, hle⟩ := e
      have hVa := hnV a ha hW hs
      obtain ⟨j, hj, hG⟩ := hd
      have hG := hG he
      dsimp only at hG
      unfold newG at hG
      rw [if_pos hle, Function.update_self] at hG
      have hVp := hkV c hb p (pr_pre hj) ((hws' j hG).2 p hj)
      have e1 : (if false = true then h.rank a else h.rank a + h.N) = h.rank a + h.N := rfl
      rw [hVa, if_pos hVp, e1]; omega
    · have hd' : dep g h.G c p := by
        obtain ⟨j, hj, hG⟩ := hd
        refine ⟨j, hj, fun hce => ?_⟩
        have := hG hce
        dsimp only at this
        by_cases e' : c = b
        · subst e'
          unfold newG at this
          rw [if_neg (fun hle => e ⟨rfl, hle⟩)] at this
          exact this
        · rw [hGne c e'] at this; exact this
      have hr := hc.rk a ha c hW hs p hd'
      cases hVa : v.V a with
      | false =>
        have e1 : (if false = true then h.rank a else h.rank a + h.N) = h.rank a + h.N := rfl
        rw [e1]
        split <;> omega
      | true =>
        have hLc : v.L c ≤ 0 := by
          rcases hc.just a ha c hVa hW hs with h1 | h1
          · exact h1
          · exact h1.elim
        rw [if_pos (hdepV c hcb hLc p hd'), if_pos rfl]
        exact hr
  · intro a
    have := hc.rkN a
    dsimp only
    split <;> omega
  · intro c hcb hce hle j
    by_cases e : c = b
    · subst e
      simp only [Vw.setWs, Function.update_self] at hle ⊢
      unfold newG
      rw [if_pos hle, Function.update_self]
    · simp only [Vw.setWs, Function.update_of_ne e] at hle ⊢
      rw [hGne c e]
      exact hc.gws c hcb hce hle j
  · intro a ha c hW hs hce
    by_cases e : c = b
    · subst e
      show _ ≤ g.wsSum c (newG h c _ _ c)
      unfold newG
      split
      · rename_i hle
        rw [Function.update_self, wsSum_add c _ hi hws]
        have := hc.cntE c hb he
        omega
      · exact hc.gsum a ha c hW hs hce
    · show _ ≤ g.wsSum c (newG h b _ _ c)
      rw [hGne c e]
      exact hc.gsum a ha c hW hs hce

/-- removing from the watch set of an extended body -/
theorem Core.wsDel (hg : GWf g) (hc : Core g v h Ex) {b i : Nat} (hb : b ∈ g.bodies) (he : (g.body b).ext = true) (hws : v.ws b i = true) :
    Core g (v.setWs b i false (v.L b + g.weight b i)) { h with G := newG h b (Function.update (v.ws b) i false) (v.L b + g.weight b i) }
      fun c => Ex c ∨ (c = b ∧ 0 < v.L b + g.weight b i) := by
  have hw := weight_nonneg hg hb i
  have hi := (hc.wsk b hb he i hws).1
  have hGne : ∀ c, c ≠ b → newG h b (Function.update (v.ws b) i false) (v.L b + g.weight b i) c = h.G c := by
    intro c e
    unfold newG
    split
    · rw [Function.update_of_ne e]
    · rfl
  constructor
  · intro c hcb hce
    have e : c ≠ b := fun e => by rw [e, he] at hce; cases hce
    simp only [Vw.setWs, Function.update_of_ne e]
    exact hc.cntN c hcb hce
  · intro c hcb hce
    by_cases e : c = b
    · subst e
      simp only [Vw.setWs, Function.update_self]
      rw [wsSum_del c _ hi hws, hc.cntE c hb he]; omega
    · simp only [Vw.setWs, Function.update_of_ne e]
      exact hc.cntE c hcb hce
  · intro c hcb hce j hj
    by_cases e : c = b
    · subst e
      simp only [Vw.setWs, Function.update_self] at hj
      by_cases e : j = i
      · subst e; simp at hj
      · rw [Function.update_of_ne e] at hj; exact hc.wsk c hcb hce j hj
    · simp only [Vw.setWs, Function.update_of_ne e] at hj
      exact hc.wsk c hcb hce j hj
  · exact hc.wat
  · exact hc.hd
  · exact hc.src
  · intro a ha c hV hW hs
    by_cases e : c = b
    · subst e
      simp only [Vw.setWs, Function.update_self]
      by_cases h0 : v.L c + g.weight c i ≤ 0
      · exact Or.inl h0
      · exact Or.inr (Or.inr ⟨True.intro, by omega⟩)
    · simp only [Vw.setWs, Function.update_of_ne e]
      rcases hc.just a ha c hV hW hs with h1 | h1
      · exact Or.inl h1
      · exact Or.inr (Or.inl h1)
  · intro a ha c hW hs p hd
    refine hc.rk a ha c hW hs p ?_
    obtain ⟨j, hj, hG⟩ := hd
    refine ⟨j, hj, fun hce => ?_⟩
    have hG := hG hce
    dsimp only at hG
    by_cases e : c = b
    · subst e
      unfold newG at hG
      split at hG
      · rename_i hle
        rw [Function.update_self] at hG
        rw [hc.gws c hb he (by omega)]
        by_cases e : j = i
        · subst e; exact hws
        · rw [Function.update_of_ne e] at hG; exact hG
      · exact hG
    · rw [hGne c e] at hG; exact hG
  · exact hc.rkN
  · intro c hcb hce hle j
    by_cases e : c = b
    · subst e
      simp only [Vw.setWs, Function.update_self] at hle ⊢
      unfold newG
      rw [if_pos hle, Function.update_self]
    · simp only [Vw.setWs, Function.update_of_ne e] at hle ⊢
      rw [hGne c e]
      exact hc.gws c hcb hce hle j
  · intro a ha c hW hs hce
    by_cases e : c = b
    · subst e
      show _ ≤ g.wsSum c (newG h c _ _ c)
      unfold newG
      split
      · rename_i hle
        rw [Function.update_self, wsSum_del c _ hi hws]
        have := hc.cntE c hb he
        omega
      · exact hc.gsum a ha c hW hs hce
    · show _ ≤ g.wsSum c (newG h b _ _ c)
      rw [hGne c e]
      exact hc.gsum a ha c hW hs hce

/-- an exception is not needed once no head has the body as source any more -/
theorem Core.drop (hc : Core g v h Ex) {Ex' : Nat → Prop}
    (hd : ∀ a ∈ g.atoms, ∀ b, v.V a = true → v.W a = some b → (g.body b).scc = (g.atom a).scc → Ex b → v.L b ≤ 0 ∨ Ex' b) : Core g v h Ex' :=
  { hc with just := fun a ha b hV hW hs => (hc.just a ha b hV hW hs).elim Or.inl (hd a ha b hV hW hs) }

end Clasp.Ufs
