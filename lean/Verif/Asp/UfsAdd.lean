import Verif.Asp.UfsCore
import Mathlib.Data.List.Perm.Subperm

/-! Propagating new source pointers (C29). No code is modelled in this file; it contains proof devices only. -/

namespace Clasp.Ufs
open Clasp.Core

variable {g : UGraph} {isF : Lit → Bool} {Req : (Lit → Bool) → Nat → Prop} {s : St} {h : Gh} {cur : Nat} {R : List Nat}

/-- Proof device: what adding sources leaves alone, and how the number of unsourced atoms bounds the queue. -/
structure Frame (g : UGraph) (s s' : St) : Prop where
  td : ∀ a, (s'.atoms a).todo = (s.atoms a).todo
  uf : ∀ a, (s'.atoms a).ufs = (s.atoms a).ufs
  todo : s'.todo = s.todo
  ufs : s'.ufs = s.ufs
  ufsDone : s'.ufsDone = s.ufsDone
  inv : s'.invalidQ = s.invalidQ
  pick : ∀ b, (s'.bodies b).picked = (s.bodies b).picked
  slack : ∀ b, (s'.bodies b).slack = (s.bodies b).slack
  mono : ∀ a, s.vw.V a = true → s'.vw.V a = true
  meas : s'.sourceQ.length + (g.atoms.filter fun a => !s'.vw.V a).length ≤ s.sourceQ.length + (g.atoms.filter fun a => !s.vw.V a).length

theorem Frame.refl (g : UGraph) (s : St) : Frame g s s := ⟨fun _ => rfl, fun _ => rfl, rfl, rfl, rfl, rfl, fun _ => rfl, fun _ => rfl, fun _ h => h, Nat.le_refl _⟩

theorem Frame.trans {s t u : St} (h1 : Frame g s t) (h2 : Frame g t u) : Frame g s u where
  td a := (h2.td a).trans (h1.td a)
  uf a := (h2.uf a).trans (h1.uf a)
  todo := h2.todo.trans h1.todo
  ufs := h2.ufs.trans h1.ufs
  ufsDone := h2.ufsDone.trans h1.ufsDone
  inv := h2.inv.trans h1.inv
  pick b := (h2.pick b).trans (h1.pick b)
  slack b := (h2.slack b).trans (h1.slack b)
  mono a h := h2.mono a (h1.mono a h)
  meas := Nat.le_trans h2.meas h1.meas

/-- Specification: under the assignment `f`, the source of `a` is not false and the literals that made it a valid source
are not false. -/
def Good (g : UGraph) (G : Nat → Nat → Bool) (v : Vw) (f : Lit → Bool) (a : Nat) : Prop :=
  ∃ b, v.W a = some b ∧ f (g.body b).lit = false ∧
    ((g.body b).scc = (g.atom a).scc → (g.body b).ext = true → ∀ i, G b i = true → f (g.slit b i) = false)

/-- Proof device: the invariant while sources are added. `cur` is the atom whose successors are visited, `R`
those not yet visited. -/
structure Add (g : UGraph) (isF : Lit → Bool) (Req : (Lit → Bool) → Nat → Prop) (s : St) (h : Gh) (cur : Nat) (R : List Nat) : Prop where
  core : Core g s.vw h fun _ => False
  kV : ∀ b ∈ g.bodies, ∀ p ∈ g.pre b, h.k b p = true → s.vw.V p = true
  pend : ∀ b ∈ g.bodies, ∀ p ∈ g.pre b, s.vw.V p = true → h.k b p = true ∨ p ∈ s.sourceQ ∨ (p = cur ∧ b ∈ R)
  qV : ∀ a ∈ s.sourceQ, a ∈ g.atoms ∧ s.vw.V a = true ∧ isF (g.atom a).lit = false
  qnd : s.sourceQ.Nodup
  qk : ∀ a ∈ s.sourceQ, ∀ b ∈ g.bodies, a ∈ g.pre b → h.k b a = false
  ck : ∀ b ∈ R, h.k b cur = false
  cV : R ≠ [] → s.vw.V cur = true ∧ isF (g.atom cur).lit = false ∧ cur ∉ s.sourceQ
  wsF : ∀ b ∈ g.bodies, (g.body b).ext = true → ∀ i, s.vw.ws b i = true → isF (g.slit b i) = false
  srcF : ∀ a ∈ g.atoms, ∀ b, s.vw.V a = true → s.vw.W a = some b → isF (g.body b).lit = false
  good : ∀ f a, Req f a → Good g h.G s.vw f a

theorem vw_updateSource (s : St) (a b : Nat) : (s.updateSource a b).vw = s.vw.setSrc a b := by
  unfold St.updateSource
  cases he : (s.atoms a).source with
  | none =>
    ext x
    · by_cases e : x = a <;> simp [St.vw, Vw.setSrc, St.setA, St.setB, Function.update_apply, e]
    · by_cases e : x = a <;> simp [St.vw, Vw.setSrc, St.setA, St.setB, Function.update_apply, e]
    · by_cases e : x = b <;> simp [St.vw, Vw.setSrc, St.setA, St.setB, Function.update_apply, e]
    · by_cases e : x = b <;> simp [St.vw, Vw.setSrc, St.setA, St.setB, Function.update_apply, e]
    · by_cases e : x = b <;> simp [St.vw, Vw.setSrc, St.setA, St.setB, Function.update_apply, e, he]
  | some c =>
    ext x
    · by_cases e : x = a <;> simp [St.vw, Vw.setSrc, St.setA, St.setB, Function.update_apply, e]
    · by_cases e : x = a <;> simp [St.vw, Vw.setSrc, St.setA, St.setB, Function.update_apply, e]
    · by_cases e : x = b <;> by_cases e2 : b = c <;> by_cases e3 : x = c <;> simp_all [St.vw, Vw.setSrc, St.setA, St.setB, Function.update_apply]
    · by_cases e : x = b <;> by_cases e2 : b = c <;> by_cases e3 : x = c <;> simp_all [St.vw, Vw.setSrc, St.setA, St.setB, Function.update_apply]
    · simp only [St.vw, Vw.setSrc, St.setA, St.setB, Function.update_apply, he, Option.some.injEq]
      by_cases e : x = b <;> by_cases e2 : b = c <;> by_cases e3 : x = c <;> grind

theorem vw_setB_lower (s : St) (b : Nat) (l : Int) : (s.setB b { s.bodies b with lower := l }).vw = { s.vw with L := Function.update s.vw.L b l } := by
  ext x <;> by_cases e : x = b <;> simp [St.vw, St.setB, Function.update_apply, e]

theorem vw_addToWs (s : St) (b i : Nat) : (s.addToWs g b i).vw = s.vw.setWs b i true (s.vw.L b - g.weight b i) := by
  ext x <;> by_cases e : x = b <;> simp [St.vw, St.addToWs, Vw.setWs, St.setB, Function.update_apply, e]

/-- the number of unsourced atoms drops when one gets a source -/
theorem unsourced_lt (l : List Nat) (hnd : l.Nodup) (V : Nat → Bool) {a : Nat} (ha : a ∈ l) (hV : V a = false) :
    (l.filter fun x => !Function.update V a true x).length + 1 = (l.filter fun x => !V x).length := by
  induction l with
  | nil => cases ha
  | cons x l ih =>
    have hn := List.nodup_cons.1 hnd
    by_cases e : x = a
    · subst e
      have : (l.filter fun y => !Function.update V x true y) = l.filter fun y => !V y :=
        List.filter_congr fun y hy => by
          have hne : y ≠ x := fun h => hn.1 (h ▸ hy)
          rw [Function.update_of_ne hne]
      simp only [List.filter_cons, Function.update_self, this, hV]
      simp
    · have ha' : a ∈ l := by
        rcases List.mem_cons.1 ha with h | h
        · exact absurd h.symm e
        · exact h
      have ih := ih hn.2 ha'
      simp only [List.filter_cons, Function.update_of_ne e]
      split
      · simp only [List.length_cons]; omega
      · exact ih

theorem updateSource_frame (s : St) (a b : Nat) :
    (∀ x, ((s.updateSource a b).atoms x).todo = (s.atoms x).todo) ∧ (∀ x, ((s.updateSource a b).atoms x).ufs = (s.atoms x).ufs) ∧
    (s.updateSource a b).todo = s.todo ∧ (s.updateSource a b).ufs = s.ufs ∧ (s.updateSource a b).ufsDone = s.ufsDone ∧
    (s.updateSource a b).invalidQ = s.invalidQ ∧ (s.updateSource a b).sourceQ = s.sourceQ ∧
    (∀ x, ((s.updateSource a b).bodies x).picked = (s.bodies x).picked) ∧ (∀ x, ((s.updateSource a b).bodies x).slack = (s.bodies x).slack) := by
  unfold St.updateSource
  cases he : (s.atoms a).source with
  | none =>
    refine ⟨fun x => ?_, fun x => ?_, rfl, rfl, rfl, rfl, rfl, fun x => ?_, fun x => ?_⟩
    · by_cases e : x = a <;> simp [St.setA, St.setB, Function.update_apply, e]
    · by_cases e : x = a <;> simp [St.setA, St.setB, Function.update_apply, e]
    · by_cases e : x = b <;> simp [St.setA, St.setB, Function.update_apply, e]
    · by_cases e : x = b <;> simp [St.setA, St.setB, Function.update_apply, e]
  | some c =>
    refine ⟨fun x => ?_, fun x => ?_, rfl, rfl, rfl, rfl, rfl, fun x => ?_, fun x => ?_⟩
    · by_cases e : x = a <;> simp [St.setA, St.setB, Function.update_apply, e]
    · by_cases e : x = a <;> simp [St.setA, St.setB, Function.update_apply, e]
    · by_cases e : x = b <;> by_cases e2 : b = c <;> by_cases e3 : x = c <;> simp_all [St.setA, St.setB, Function.update_apply]
    · by_cases e : x = b <;> by_cases e2 : b = c <;> by_cases e3 : x = c <;> simp_all [St.setA, St.setB, Function.update_apply]

theorem setSource_frame (hg : GWf g) {a b : Nat} (ha : a ∈ g.atoms) : Frame g s (setSource g isF s a b) := by
  unfold setSource
  split
  · rename_i hc
    have hV : s.vw.V a = false := by simp at hc; exact hc.1
    obtain ⟨h1, h2, h3, h4, h5, h6, h7, h8, h9⟩ := updateSource_frame s a b
    refine ⟨h1, h2, h3, h4, h5, h6, h8, h9, ?_, ?_⟩
    · intro x hx
      show (s.updateSource a b).vw.V x = true
      rw [vw_updateSource]
      by_cases e : x = a
      · subst e; simp [Vw.setSrc]
      · simp [Vw.setSrc, Function.update_of_ne e]; exact hx
    · show ((s.updateSource a b).sourceQ ++ [a]).length + (g.atoms.filter fun x => !(s.updateSource a b).vw.V x).length ≤ _
      rw [h7, vw_updateSource, List.length_append]
      have := unsourced_lt g.atoms hg.atomsNd s.vw.V ha hV
      show _ + (g.atoms.filter fun x => !Function.update s.vw.V a true x).length ≤ _
      simp only [List.length_singleton]
      omega
  · exact Frame.refl g s

theorem setSource_LW (s : St) (a b : Nat) : (setSource g isF s a b).vw.L = s.vw.L ∧ (setSource g isF s a b).vw.ws = s.vw.ws := by
  unfold setSource
  split
  · show (s.updateSource a b).vw.L = _ ∧ (s.updateSource a b).vw.ws = _
    rw [vw_updateSource]; exact ⟨rfl, rfl⟩
  · exact ⟨rfl, rfl⟩

theorem setSource_V {a b : Nat} (hf : isF (g.atom a).lit = false) : (setSource g isF s a b).vw.V a = true := by
  unfold setSource
  split
  · show (s.updateSource a b).vw.V a = true
    rw [vw_updateSource]; simp [Vw.setSrc]
  · rename_i hc
    simp [hf] at hc
    exact hc

theorem Add.setSource (hg : GWf g) (hR : ∀ f a, Req f a → ∀ p, f p = true → isF p = true) (H : Add g isF Req s h cur R)
    {a b : Nat} (hb : b ∈ g.bodies) (hab : a ∈ (g.body b).heads) (hbF : isF (g.body b).lit = false)
    (hok : (g.body b).scc = (g.atom a).scc → s.vw.L b ≤ 0) :
    ∃ h', h'.k = h.k ∧ h'.G = h.G ∧ Add g isF Req (Ufs.setSource g isF s a b) h' cur R := by
  have ha := (hg.heads b hb a hab).1
  unfold Ufs.setSource
  split
  · rename_i hc0
    have hV : s.vw.V a = false := by simp at hc0; exact hc0.1
    have hF : isF (g.atom a).lit = false := by simp at hc0; exact hc0.2
    obtain ⟨_, _, _, _, _, _, hq, _, _⟩ := updateSource_frame s a b
    obtain ⟨h', hk, hG, hcore⟩ := H.core.setSrc hg H.kV ha hV hb hab hok
    refine ⟨h', hk, hG, ?_⟩
    have hvw : ({ s.updateSource a b with sourceQ := (s.updateSource a b).sourceQ ++ [a] } : St).vw = s.vw.setSrc a b := vw_updateSource s a b
    have hVne : ∀ x, x ≠ a → (s.vw.setSrc a b).V x = s.vw.V x := fun x hx => by simp [Vw.setSrc, Function.update_of_ne hx]
    have hVa : (s.vw.setSrc a b).V a = true := by simp [Vw.setSrc]
    have hVm : ∀ x, s.vw.V x = true → (s.vw.setSrc a b).V x = true := fun x hx => by
      by_cases e : x = a
      · rw [e]; exact hVa
      · rw [hVne x e]; exact hx
    have haq : a ∉ s.sourceQ := fun hm => by rw [(H.qV a hm).2.1] at hV; cases hV
    have hQ : ∀ x, x ∈ ({ s.updateSource a b with sourceQ := (s.updateSource a b).sourceQ ++ [a] } : St).sourceQ ↔ x ∈ s.sourceQ ∨ x = a := by
      intro x
      show x ∈ (s.updateSource a b).sourceQ ++ [a] ↔ _
      rw [hq]; simp
    have hka : ∀ c ∈ g.bodies, a ∈ g.pre c → h.k c a = false := by
      intro c hc hp
      cases hkc : h.k c a with
      | false => rfl
      | true => rw [H.kV c hc a hp hkc] at hV; cases hV
    constructor
    · rw [hvw]; exact hcore
    · intro c hc p hp hkp
      rw [hvw]; rw [hk] at hkp
      exact hVm p (H.kV c hc p hp hkp)
    · intro c hc p hp hVp
      rw [hvw] at hVp
      rw [hk, hQ]
      by_cases e : p = a
      · exact Or.inr (Or.inl (Or.inr e))
      · rw [hVne p e] at hVp
        rcases H.pend c hc p hp hVp with h1 | h1 | h1
        · exact Or.inl h1
        · exact Or.inr (Or.inl (Or.inl h1))
        · exact Or.inr (Or.inr h1)
    · intro x hx
      rw [hvw]
      rcases (hQ x).1 hx with h1 | rfl
      · obtain ⟨h2, h3, h4⟩ := H.qV x h1
        exact ⟨h2, hVm x h3, h4⟩
      · exact ⟨ha, hVa, hF⟩
    · show ((s.updateSource a b).sourceQ ++ [a]).Nodup
      rw [hq]
      exact List.Nodup.append H.qnd (List.nodup_singleton a) (by simpa using haq)
    · intro x hx c hc hp
      rw [hk]
      rcases (hQ x).1 hx with h1 | rfl
      · exact H.qk x h1 c hc hp
      · exact hka c hc hp
    · rw [hk]; exact H.ck
    · intro hne
      obtain ⟨h1, h2, h3⟩ := H.cV hne
      rw [hvw, hQ]
      exact ⟨hVm cur h1, h2, fun hm => by
        rcases hm with h4 | rfl
        · exact h3 h4
        · rw [h1] at hV; cases hV⟩
    · rw [hvw]; exact H.wsF
    · rw [hvw]
      intro x hx c hVx hW
      by_cases e : x = a
      · subst e
        simp [Vw.setSrc] at hW
        subst hW; exact hbF
      · rw [hVne x e] at hVx
        simp [Vw.setSrc, Function.update_of_ne e] at hW
        exact H.srcF x hx c hVx hW
    · rw [hvw, hG]
      intro f x hr
      by_cases e : x = a
      · subst e
        refine ⟨b, by simp [Vw.setSrc], ?_, ?_⟩
        · cases hfb : f (g.body b).lit with
          | false => rfl
          | true => rw [hR f x hr _ hfb] at hbF; cases hbF
        · intro hs he i hGi
          rw [H.core.gws b hb he (hok hs)] at hGi
          have := H.wsF b hb he i hGi
          cases hfb : f (g.slit b i) with
          | false => rfl
          | true => rw [hR f x hr _ hfb] at this; cases this
      · obtain ⟨c, h1, h2, h3⟩ := H.good f x hr
        exact ⟨c, by simp [Vw.setSrc, Function.update_of_ne e]; exact h1, h2, h3⟩
  · exact ⟨h, rfl, rfl, H⟩

/-- `forwardSource` -/
theorem Add.forwardSource (hg : GWf g) (hR : ∀ f a, Req f a → ∀ p, f p = true → isF p = true) (H : Add g isF Req s h cur R)
    {b : Nat} (hb : b ∈ g.bodies) (hbF : isF (g.body b).lit = false) (hok : s.vw.L b ≤ 0) :
    (∃ h', h'.k = h.k ∧ h'.G = h.G ∧ Add g isF Req (Ufs.forwardSource g isF s b) h' cur R) ∧ Frame g s (Ufs.forwardSource g isF s b) ∧
    (Ufs.forwardSource g isF s b).vw.L = s.vw.L ∧ (Ufs.forwardSource g isF s b).vw.ws = s.vw.ws ∧
    ∀ a ∈ (g.body b).heads, isF (g.atom a).lit = false → (Ufs.forwardSource g isF s b).vw.V a = true := by
  unfold Ufs.forwardSource
  suffices hs : ∀ l : List Nat, (∀ a ∈ l, a ∈ (g.body b).heads) → ∀ (s : St) (h : Gh), Add g isF Req s h cur R → s.vw.L b ≤ 0 →
      (∃ h', h'.k = h.k ∧ h'.G = h.G ∧ Add g isF Req (l.foldl (fun s a => Ufs.setSource g isF s a b) s) h' cur R) ∧
      Frame g s (l.foldl (fun s a => Ufs.setSource g isF s a b) s) ∧
      (l.foldl (fun s a => Ufs.setSource g isF s a b) s).vw.L = s.vw.L ∧ (l.foldl (fun s a => Ufs.setSource g isF s a b) s).vw.ws = s.vw.ws ∧
      ∀ a ∈ l, isF (g.atom a).lit = false → (l.foldl (fun s a => Ufs.setSource g isF s a b) s).vw.V a = true from
    hs _ (fun _ h => h) s h H hok
  intro l
  induction l with
  | nil => exact fun _ s h H _ => ⟨⟨h, rfl, rfl, H⟩, Frame.refl g s, rfl, rfl, fun a ha => by cases ha⟩
  | cons a l ih =>
    intro hl s h H hok
    have hab := hl a (by simp)
    obtain ⟨h1, hk1, hG1, H1⟩ := H.setSource hg hR hb hab hbF (fun _ => hok)
    obtain ⟨hL1, hw1⟩ := setSource_LW (g := g) (isF := isF) s a b
    have hf1 := setSource_frame (isF := isF) (s := s) (b := b) hg (hg.heads b hb a hab).1
    obtain ⟨⟨h2, hk2, hG2, H2⟩, hf2, hL2, hw2, hv2⟩ := ih (fun x hx => hl x (by simp [hx])) _ h1 H1 (by rw [hL1]; exact hok)
    rw [List.foldl_cons]
    refine ⟨⟨h2, hk2.trans hk1, hG2.trans hG1, H2⟩, hf1.trans hf2, hL2.trans hL1, hw2.trans hw1, ?_⟩
    intro x hx hFx
    rcases List.mem_cons.1 hx with rfl | hx
    · exact hf2.mono x (setSource_V hFx)
    · exact hv2 x hx hFx

/-- Proof device: every non-false literal of an extended body that counts as sourced is in its watch set. -/
def Full (g : UGraph) (isF : Lit → Bool) (k : Nat → Nat → Bool) (v : Vw) (b : Nat) : Prop :=
  (g.body b).ext = true → ∀ i < (g.subs b).length, isF (g.slit b i) = false → (∀ p, g.pr b i = some p → k b p = true) → v.ws b i = true

/-- Proof device: the atoms in `T` have a source, or none of their bodies is one. -/
def Tr (g : UGraph) (isF : Lit → Bool) (T : Nat → Prop) (k : Nat → Nat → Bool) (v : Vw) : Prop :=
  ∀ a, T a → v.V a = true ∨ ∀ b ∈ (g.atom a).bodies, isF (g.body b).lit = true ∨
    ((g.body b).scc = (g.atom a).scc ∧ 0 < v.L b ∧ Full g isF k v b)

variable {T : Nat → Prop}

theorem Tr.heads (hg : GWf g) (hT : ∀ a, T a → a ∈ g.atoms ∧ isF (g.atom a).lit = false) {k k' : Nat → Nat → Bool} {v v' : Vw} (ht : Tr g isF T k v)
    {b : Nat} (hm : ∀ a, v.V a = true → v'.V a = true)
    (hL : ∀ c ∈ g.bodies, c ≠ b → v'.L c = v.L c) (hw : ∀ c ∈ g.bodies, c ≠ b → v'.ws c = v.ws c) (hkk : ∀ c, c ≠ b → k' c = k c)
    (hb : isF (g.body b).lit = true ∨ (∀ a ∈ (g.body b).heads, isF (g.atom a).lit = false → v'.V a = true) ∨ (0 < v.L b → Full g isF k v b → 0 < v'.L b ∧ Full g isF k' v' b)) :
    Tr g isF T k' v' := by
  intro a ha
  obtain ⟨h1, h2⟩ := hT a ha
  by_cases hVa : v'.V a = true
  · exact Or.inl hVa
  right
  intro c hc
  rcases ht a ha with h3 | h3
  · exact absurd (hm a h3) hVa
  rcases h3 c hc with h4 | ⟨h4, h5, h6⟩
  · exact Or.inl h4
  have hcb := (hg.bods a h1 c hc)
  by_cases e : c = b
  · subst e
    rcases hb with hb | hb | hb
    · exact Or.inl hb
    · exact absurd (hb a hcb.2 h2) hVa
    · exact Or.inr ⟨h4, hb h5 h6⟩
  · right
    refine ⟨h4, by rw [hL c hcb.1 e]; exact h5, ?_⟩
    unfold Full at *
    rw [hw c hcb.1 e, hkk c e]; exact h6

/-- `AddSource` for a normal body -/
theorem Add.addN (hg : GWf g) (hR : ∀ f a, Req f a → ∀ p, f p = true → isF p = true) (hT : ∀ a, T a → a ∈ g.atoms ∧ isF (g.atom a).lit = false)
    {b : Nat} (H : Add g isF Req s h cur (b :: R)) (hbR : b ∉ R) (ht : Tr g isF T h.k s.vw)
    (hb : b ∈ g.bodies) (he : (g.body b).ext = false) (hp : cur ∈ g.pre b) :
    (∃ h', Add g isF Req (addSourceN g isF s b) h' cur R ∧ Tr g isF T h'.k (addSourceN g isF s b).vw) ∧ Frame g s (addSourceN g isF s b) := by
  obtain ⟨hcV, hcF, hcq⟩ := H.cV (by simp)
  have hk0 : h.k b cur = !true := H.ck b (by simp)
  let s1 := s.setB b { s.bodies b with lower := (s.bodies b).lower - 1 }
  have hvw : s1.vw = { s.vw with L := Function.update s.vw.L b (s.vw.L b + if true then -1 else 1) } := by
    show (s.setB b { s.bodies b with lower := (s.bodies b).lower - 1 }).vw = _
    rw [vw_setB_lower]; rfl
  have H1 : Add g isF Req s1 (h.setK b cur true) cur R := by
    constructor
    · rw [hvw]
      exact (H.core.cntStep hg hb he hp true hk0).drop fun a ha c hV hW hs hx => by
        rcases hx with hx | hx
        · exact hx.elim
        · cases hx.1
    · rw [hvw]
      intro c hc p hpp hk
      by_cases e : c = b ∧ p = cur
      · rw [e.2]; exact hcV
      · rw [h.setK_ne true e] at hk; exact H.kV c hc p hpp hk
    · rw [hvw]
      intro c hc p hpp hV
      by_cases e : c = b ∧ p = cur
      · left; rw [e.1, e.2, Gh.setK_self]
      · rw [h.setK_ne true e]
        rcases H.pend c hc p hpp hV with h1 | h1 | ⟨h1, h2⟩
        · exact Or.inl h1
        · exact Or.inr (Or.inl h1)
        · right; right
          refine ⟨h1, ?_⟩
          rcases List.mem_cons.1 h2 with h3 | h3
          · exact absurd ⟨h3, h1⟩ e
          · exact h3
    · rw [hvw]; exact H.qV
    · exact H.qnd
    · intro x hx c hc hpp
      have e : ¬ (c = b ∧ x = cur) := fun e => hcq (e.2 ▸ hx)
      rw [h.setK_ne true e]; exact H.qk x hx c hc hpp
    · intro c hc
      have e : ¬ (c = b ∧ cur = cur) := fun e => hbR (e.1 ▸ hc)
      rw [h.setK_ne true e]; exact H.ck c (by simp [hc])
    · intro _; rw [hvw]; exact ⟨hcV, hcF, hcq⟩
    · rw [hvw]; exact H.wsF
    · rw [hvw]; exact H.srcF
    · rw [hvw]; exact H.good
  have hf1 : Frame g s s1 := by
    refine ⟨fun _ => rfl, fun _ => rfl, rfl, rfl, rfl, rfl, fun x => ?_, fun x => ?_, ?_, ?_⟩
    · by_cases e : x = b <;> simp [s1, St.setB, Function.update_apply, e]
    · by_cases e : x = b <;> simp [s1, St.setB, Function.update_apply, e]
    · rw [hvw]; exact fun _ h => h
    · rw [hvw]; exact Nat.le_refl _
  have hkne : ∀ c, c ≠ b → (h.setK b cur true).k c = h.k c := fun c hc => by unfold Gh.setK; simp [Function.update_of_ne hc]
  have hLne : ∀ c, c ≠ b → s1.vw.L c = s.vw.L c := fun c hc => by rw [hvw]; simp [Function.update_of_ne hc]
  have hLb : s1.vw.L b = s.vw.L b - 1 := by rw [hvw]; simp; omega
  have hws1 : s1.vw.ws = s.vw.ws := by rw [hvw]
  have hV1 : s1.vw.V = s.vw.V := by rw [hvw]
  show (∃ h', Add g isF Req (if (s1.bodies b).lower == 0 && !isF (g.body b).lit then Ufs.forwardSource g isF s1 b else s1) h' cur R ∧
      Tr g isF T h'.k (if (s1.bodies b).lower == 0 && !isF (g.body b).lit then Ufs.forwardSource g isF s1 b else s1).vw) ∧
    Frame g s (if (s1.bodies b).lower == 0 && !isF (g.body b).lit then Ufs.forwardSource g isF s1 b else s1)
  by_cases hc : ((s1.bodies b).lower == 0 && !isF (g.body b).lit) = true
  · rw [if_pos hc]
    simp only [Bool.and_eq_true, beq_iff_eq, Bool.not_eq_true'] at hc
    obtain ⟨⟨h2, hk2, hG2, H2⟩, hf2, hL2, hw2, hv2⟩ := H1.forwardSource hg hR hb hc.2 (show s1.vw.L b ≤ 0 by show (s1.bodies b).lower ≤ 0; omega)
    refine ⟨⟨h2, H2, ?_⟩, hf1.trans hf2⟩
    rw [hk2]
    refine ht.heads hg hT (b := b) (fun a hV => hf2.mono a (by rw [hV1]; exact hV)) ?_ ?_ hkne (Or.inr (Or.inl hv2))
    · intro c _ e; rw [hL2, hLne c e]
    · intro c _ e; rw [hw2, hws1]
  · rw [if_neg hc]
    refine ⟨⟨_, H1, ?_⟩, hf1⟩
    refine ht.heads hg hT (b := b) (fun a hV => by rw [hV1]; exact hV) ?_ ?_ hkne ?_
    · intro c _ e; rw [hLne c e]
    · intro c _ e; rw [hws1]
    · cases hbF : isF (g.body b).lit with
      | true => exact Or.inl rfl
      | false =>
        right; right
        intro h0 _
        have : s1.vw.L b ≠ 0 := fun h0 => hc (by
          simp only [Bool.and_eq_true, beq_iff_eq, Bool.not_eq_true']
          exact ⟨h0, hbF⟩)
        refine ⟨by omega, fun hext => ?_⟩
        rw [he] at hext; cases hext

/-- `AddSource` for an extended body -/
theorem Add.addE (hg : GWf g) (hR : ∀ f a, Req f a → ∀ p, f p = true → isF p = true) (hT : ∀ a, T a → a ∈ g.atoms ∧ isF (g.atom a).lit = false)
    {b i : Nat} (H : Add g isF Req s h cur (b :: R)) (hbR : b ∉ R) (ht : Tr g isF T h.k s.vw)
    (hb : b ∈ g.bodies) (he : (g.body b).ext = true) (hp : g.pr b i = some cur) :
    (∃ h', Add g isF Req (addSourceE g isF s b i) h' cur R ∧ Tr g isF T h'.k (addSourceE g isF s b i).vw) ∧ Frame g s (addSourceE g isF s b i) := by
  obtain ⟨hcV, hcF, hcq⟩ := H.cV (by simp)
  have hk0 : h.k b cur = false := H.ck b (by simp)
  have hi := pr_lt' hp
  have hw0 : s.vw.ws b i = false := by
    cases hw : s.vw.ws b i with
    | false => rfl
    | true => rw [(H.core.wsk b hb he i hw).2 cur hp] at hk0; cases hk0
  -- the invariant with the new knowledge
  have hcoreK := H.core.kStep (p := cur) he true (fun e => by cases e)
  have hkV : ∀ c ∈ g.bodies, ∀ p ∈ g.pre c, (h.setK b cur true).k c p = true → s.vw.V p = true := by
    intro c hc p hpp hk
    by_cases e : c = b ∧ p = cur
    · rw [e.2]; exact hcV
    · rw [h.setK_ne true e] at hk; exact H.kV c hc p hpp hk
  have hpend : ∀ c ∈ g.bodies, ∀ p ∈ g.pre c, s.vw.V p = true → (h.setK b cur true).k c p = true ∨ p ∈ s.sourceQ ∨ (p = cur ∧ c ∈ R) := by
    intro c hc p hpp hV
    by_cases e : c = b ∧ p = cur
    · left; rw [e.1, e.2, Gh.setK_self]
    · rw [h.setK_ne true e]
      rcases H.pend c hc p hpp hV with h1 | h1 | ⟨h1, h2⟩
      · exact Or.inl h1
      · exact Or.inr (Or.inl h1)
      · right; right
        refine ⟨h1, ?_⟩
        rcases List.mem_cons.1 h2 with h3 | h3
        · exact absurd ⟨h3, h1⟩ e
        · exact h3
  have hqk : ∀ a ∈ s.sourceQ, ∀ c ∈ g.bodies, a ∈ g.pre c → (h.setK b cur true).k c a = false := by
    intro x hx c hc hpp
    have e : ¬ (c = b ∧ x = cur) := fun e => hcq (e.2 ▸ hx)
    rw [h.setK_ne true e]; exact H.qk x hx c hc hpp
  have hck : ∀ c ∈ R, (h.setK b cur true).k c cur = false := by
    intro c hc
    have e : ¬ (c = b ∧ cur = cur) := fun e => hbR (e.1 ▸ hc)
    rw [h.setK_ne true e]; exact H.ck c (by simp [hc])
  have hkne : ∀ c, c ≠ b → (h.setK b cur true).k c = h.k c := fun c hc => by unfold Gh.setK; simp [Function.update_of_ne hc]
  let s1 := if decide (0 < (s.bodies b).lower) || (s.bodies b).watches == 0 then s.addToWs g b i else s
  have step : ∃ h1, Add g isF Req s1 h1 cur R ∧ h1.k = (h.setK b cur true).k ∧ Frame g s s1 ∧ s1.vw.V = s.vw.V ∧
      (∀ c, c ≠ b → s1.vw.L c = s.vw.L c ∧ s1.vw.ws c = s.vw.ws c) ∧
      (0 < s.vw.L b → Full g isF h.k s.vw b → Full g isF h1.k s1.vw b) := by
    by_cases hc : (decide (0 < (s.bodies b).lower) || (s.bodies b).watches == 0) = true
    · have hs1 : s1 = s.addToWs g b i := if_pos hc
      have hvw : s1.vw = s.vw.setWs b i true (s.vw.L b - g.weight b i) := by rw [hs1, vw_addToWs]
      have hL : 0 < s.vw.L b ∨ s.vw.wt b = 0 := by
        simp only [Bool.or_eq_true, decide_eq_true_eq, beq_iff_eq] at hc
        exact hc
      obtain ⟨h1, hk1, hG1, hcore1⟩ := hcoreK.wsAdd hg hkV hb he hi hw0 (fun p hpp => by
        rw [hp] at hpp; cases hpp; exact Gh.setK_self h b cur true) (hcoreK.unsourced hb hL)
      have hws : ∀ c ∈ g.bodies, (g.body c).ext = true → ∀ j, (s.vw.setWs b i true (s.vw.L b - g.weight b i)).ws c j = true → isF (g.slit c j) = false := by
        intro c hc hce j hj
        by_cases e : c = b ∧ j = i
        · rw [e.1, e.2, slit_pr hp]; exact hcF
        · refine H.wsF c hc hce j ?_
          simp only [Vw.setWs] at hj
          by_cases e1 : c = b
          · subst e1
            have e2 : j ≠ i := fun e2 => e ⟨rfl, e2⟩
            rw [Function.update_self, Function.update_of_ne e2] at hj; exact hj
          · rw [Function.update_of_ne e1] at hj; exact hj
      refine ⟨h1, ?_, hk1, ?_, ?_, ?_, ?_⟩
      · constructor
        · rw [hvw]; exact hcore1
        · rw [hvw, hk1]; exact hkV
        · rw [hvw, hk1, show s1.sourceQ = s.sourceQ by rw [hs1]; rfl]; exact hpend
        · rw [hvw, show s1.sourceQ = s.sourceQ by rw [hs1]; rfl]; exact H.qV
        · rw [show s1.sourceQ = s.sourceQ by rw [hs1]; rfl]; exact H.qnd
        · rw [hk1, show s1.sourceQ = s.sourceQ by rw [hs1]; rfl]; exact hqk
        · rw [hk1]; exact hck
        · rw [hvw, show s1.sourceQ = s.sourceQ by rw [hs1]; rfl]; exact fun _ => ⟨hcV, hcF, hcq⟩
        · rw [hvw]; exact hws
        · rw [hvw]; exact H.srcF
        · rw [hvw, hG1]
          intro f a hr
          obtain ⟨c, h2, h3, h4⟩ := H.good f a hr
          refine ⟨c, h2, h3, fun hs hce j hG => ?_⟩
          by_cases e : c = b ∧ s.vw.L b - g.weight b i ≤ 0
          · obtain ⟨rfl, hle⟩ := e
            unfold newG at hG
            rw [if_pos hle, Function.update_self] at hG
            have := hws c hb he j (by simp only [Vw.setWs, Function.update_self]; exact hG)
            cases hfb : f (g.slit c j) with
            | false => rfl
            | true => rw [hR f a hr _ hfb] at this; cases this
          · refine h4 hs hce j ?_
            unfold newG at hG
            by_cases hle : s.vw.L b - g.weight b i ≤ 0
            · rw [if_pos hle] at hG
              have : c ≠ b := fun e1 => e ⟨e1, hle⟩
              rw [Function.update_of_ne this] at hG; exact hG
            · rw [if_neg hle] at hG; exact hG
      · refine ⟨fun _ => by rw [hs1]; rfl, fun _ => by rw [hs1]; rfl, by rw [hs1]; rfl, by rw [hs1]; rfl, by rw [hs1]; rfl, by rw [hs1]; rfl, fun x => ?_, fun x => ?_, ?_, ?_⟩
        · rw [hs1]; by_cases e : x = b <;> simp [St.addToWs, St.setB, Function.update_apply, e]
        · rw [hs1]; by_cases e : x = b <;> simp [St.addToWs, St.setB, Function.update_apply, e]
        · rw [hvw]; exact fun _ h => h
        · rw [hvw, show s1.sourceQ = s.sourceQ by rw [hs1]; rfl]; exact Nat.le_refl _
      · rw [hvw]; rfl
      · intro c e; rw [hvw]; simp [Vw.setWs, Function.update_of_ne e]
      · intro hL0 hfull hext j hj hjF hjk
        rw [hvw]
        simp only [Vw.setWs, Function.update_self]
        by_cases e : j = i
        · subst e; simp
        · rw [Function.update_of_ne e]
          refine hfull hext j hj hjF fun p hpp => ?_
          have := hjk p hpp
          rw [hk1] at this
          have e2 : ¬ (b = b ∧ p = cur) := fun e2 => e (pr_inj hg hb (e2.2 ▸ hpp) hp)
          rw [h.setK_ne true e2] at this; exact this
    · have hs1 : s1 = s := if_neg hc
      refine ⟨h.setK b cur true, ?_, rfl, by rw [hs1]; exact Frame.refl g s, by rw [hs1], fun c _ => by rw [hs1]; exact ⟨rfl, rfl⟩, ?_⟩
      · rw [hs1]
        exact ⟨hcoreK, hkV, hpend, H.qV, H.qnd, hqk, hck, fun _ => ⟨hcV, hcF, hcq⟩, H.wsF, H.srcF, H.good⟩
      · intro hL0
        simp only [Bool.or_eq_true, decide_eq_true_eq, beq_iff_eq, not_or] at hc
        exact absurd hL0 hc.1
  obtain ⟨h1, H1, hk1, hf1, hV1, hne1, hfull⟩ := step
  show (∃ h', Add g isF Req (if !isF (g.body b).lit && decide ((s1.bodies b).lower ≤ 0) then Ufs.forwardSource g isF s1 b else s1) h' cur R ∧
      Tr g isF T h'.k (if !isF (g.body b).lit && decide ((s1.bodies b).lower ≤ 0) then Ufs.forwardSource g isF s1 b else s1).vw) ∧
    Frame g s (if !isF (g.body b).lit && decide ((s1.bodies b).lower ≤ 0) then Ufs.forwardSource g isF s1 b else s1)
  by_cases hc : (!isF (g.body b).lit && decide ((s1.bodies b).lower ≤ 0)) = true
  · rw [if_pos hc]
    simp only [Bool.and_eq_true, decide_eq_true_eq, Bool.not_eq_true'] at hc
    obtain ⟨⟨h2, hk2, hG2, H2⟩, hf2, hL2, hw2, hv2⟩ := H1.forwardSource hg hR hb hc.1 hc.2
    refine ⟨⟨h2, H2, ?_⟩, hf1.trans hf2⟩
    rw [hk2]
    refine ht.heads hg hT (b := b) (fun a hV => hf2.mono a (by rw [hV1]; exact hV)) ?_ ?_ (fun c e => by rw [hk1, hkne c e]) (Or.inr (Or.inl hv2))
    · intro c _ e; rw [hL2, (hne1 c e).1]
    · intro c _ e; rw [hw2, (hne1 c e).2]
  · rw [if_neg hc]
    refine ⟨⟨_, H1, ?_⟩, hf1⟩
    refine ht.heads hg hT (b := b) (fun a hV => by rw [hV1]; exact hV) ?_ ?_ (fun c e => by rw [hk1, hkne c e]) ?_
    · intro c _ e; rw [(hne1 c e).1]
    · intro c _ e; rw [(hne1 c e).2]
    · cases hbF : isF (g.body b).lit with
      | true => exact Or.inl rfl
      | false =>
        right; right
        intro h0 hfu
        refine ⟨?_, hfull h0 hfu⟩
        have : ¬ s1.vw.L b ≤ 0 := fun h0 => hc (by
          simp only [Bool.and_eq_true, decide_eq_true_eq, Bool.not_eq_true']
          exact ⟨hbF, h0⟩)
        omega

/-- visiting all successors of an atom that got a source -/
theorem Add.visit (hg : GWf g) (hR : ∀ f a, Req f a → ∀ p, f p = true → isF p = true) (hT : ∀ a, T a → a ∈ g.atoms ∧ isF (g.atom a).lit = false)
    {a : Nat} (ha : a ∈ g.atoms) (H : Add g isF Req s h a ((g.atom a).succs ++ (g.atom a).extSuccs.map Prod.fst)) (ht : Tr g isF T h.k s.vw) :
    (∃ h', Add g isF Req (visitAdd g isF s a) h' a [] ∧ Tr g isF T h'.k (visitAdd g isF s a).vw) ∧ Frame g s (visitAdd g isF s a) := by
  have hE : ∀ l : List (Nat × Nat), (∀ x ∈ l, x ∈ (g.atom a).extSuccs) → (l.map Prod.fst).Nodup → ∀ (s : St) (h : Gh),
      Add g isF Req s h a (l.map Prod.fst) → Tr g isF T h.k s.vw →
      (∃ h', Add g isF Req (l.foldl (fun s x => addSourceE g isF s x.1 x.2) s) h' a [] ∧
        Tr g isF T h'.k (l.foldl (fun s x => addSourceE g isF s x.1 x.2) s).vw) ∧ Frame g s (l.foldl (fun s x => addSourceE g isF s x.1 x.2) s) := by
    intro l
    induction l with
    | nil => exact fun _ _ s h H ht => ⟨⟨h, H, ht⟩, Frame.refl g s⟩
    | cons x l ih =>
      intro hl hnd s h H ht
      obtain ⟨h1, h2, h3⟩ := hg.esucc a ha x.1 x.2 (hl x (by simp))
      rw [List.map_cons] at H hnd
      obtain ⟨⟨h', H', ht'⟩, hf⟩ := H.addE hg hR hT (List.nodup_cons.1 hnd).1 ht h1 h2 h3
      obtain ⟨hh, hf'⟩ := ih (fun y hy => hl y (by simp [hy])) (List.nodup_cons.1 hnd).2 _ h' H' ht'
      exact ⟨hh, hf.trans hf'⟩
  have hN : ∀ l : List Nat, (∀ b ∈ l, b ∈ (g.atom a).succs) → (l ++ (g.atom a).extSuccs.map Prod.fst).Nodup → ∀ (s : St) (h : Gh),
      Add g isF Req s h a (l ++ (g.atom a).extSuccs.map Prod.fst) → Tr g isF T h.k s.vw →
      (∃ h', Add g isF Req (l.foldl (fun s b => addSourceN g isF s b) s) h' a ((g.atom a).extSuccs.map Prod.fst) ∧
        Tr g isF T h'.k (l.foldl (fun s b => addSourceN g isF s b) s).vw) ∧ Frame g s (l.foldl (fun s b => addSourceN g isF s b) s) := by
    intro l
    induction l with
    | nil => exact fun _ _ s h H ht => ⟨⟨h, H, ht⟩, Frame.refl g s⟩
    | cons x l ih =>
      intro hl hnd s h H ht
      obtain ⟨h1, h2, h3⟩ := hg.succ a ha x (hl x (by simp))
      rw [List.cons_append] at H hnd
      obtain ⟨⟨h', H', ht'⟩, hf⟩ := H.addN hg hR hT (List.nodup_cons.1 hnd).1 ht h1 h2 h3
      obtain ⟨hh, hf'⟩ := ih (fun y hy => hl y (by simp [hy])) (List.nodup_cons.1 hnd).2 _ h' H' ht'
      exact ⟨hh, hf.trans hf'⟩
  obtain ⟨⟨h1, H1, ht1⟩, hf1⟩ := hN _ (fun _ h => h) (hg.sNd a ha) s h H ht
  obtain ⟨hh, hf2⟩ := hE _ (fun _ h => h) (List.nodup_append.1 (hg.sNd a ha)).2.1 _ h1 H1 ht1
  exact ⟨hh, hf1.trans hf2⟩

theorem Add.cur_irrel {c : Nat} (H : Add g isF Req s h cur []) : Add g isF Req s h c [] := by
  refine ⟨H.core, H.kV, ?_, H.qV, H.qnd, H.qk, ?_, fun hn => absurd rfl hn, H.wsF, H.srcF, H.good⟩
  · intro b hb p hp hV
    rcases H.pend b hb p hp hV with h1 | h1 | ⟨_, h1⟩
    · exact Or.inl h1
    · exact Or.inr (Or.inl h1)
    · cases h1
  · intro b hb; cases hb

/-- Proof device: the invariant when no source pointer is being propagated. -/
def Quiet (g : UGraph) (isF : Lit → Bool) (Req : (Lit → Bool) → Nat → Prop) (s : St) (h : Gh) : Prop := Add g isF Req s h 0 []

theorem Add.loop (hg : GWf g) (hR : ∀ f a, Req f a → ∀ p, f p = true → isF p = true) (hT : ∀ a, T a → a ∈ g.atoms ∧ isF (g.atom a).lit = false) :
    ∀ (n : Nat) (s : St) (h : Gh), Add g isF Req s h 0 [] → Tr g isF T h.k s.vw →
    s.sourceQ.length + (g.atoms.filter fun a => !s.vw.V a).length ≤ n →
    (∃ h', Add g isF Req (propagateSourceL g isF n s) h' 0 [] ∧ Tr g isF T h'.k (propagateSourceL g isF n s).vw) ∧
    (propagateSourceL g isF n s).sourceQ = [] ∧ Frame g s (propagateSourceL g isF n s) := by
  intro n
  induction n with
  | zero =>
    intro s h H ht hm
    have h0 : s.sourceQ = [] := List.length_eq_zero_iff.1 (by omega)
    exact ⟨⟨h, H, ht⟩, h0, Frame.refl g s⟩
  | succ n ih =>
    intro s h H ht hm
    unfold propagateSourceL
    cases hq : s.sourceQ with
    | nil => exact ⟨⟨h, H, ht⟩, hq, Frame.refl g s⟩
    | cons a r =>
      dsimp only
      have hnd := H.qnd
      rw [hq] at hnd
      have hn := List.nodup_cons.1 hnd
      obtain ⟨ha, hV, hF⟩ := H.qV a (by rw [hq]; simp)
      have hV' : (({ s with sourceQ := r } : St).atoms a).valid = true := hV
      rw [if_pos hV']
      have hsub : ∀ x ∈ r, x ∈ s.sourceQ := fun x hx => by rw [hq]; simp [hx]
      have H1 : Add g isF Req { s with sourceQ := r } h a ((g.atom a).succs ++ (g.atom a).extSuccs.map Prod.fst) := by
        refine ⟨H.core, H.kV, ?_, fun x hx => H.qV x (hsub x hx), hn.2, fun x hx => H.qk x (hsub x hx), ?_, fun _ => ⟨hV, hF, hn.1⟩, H.wsF, H.srcF, H.good⟩
        · intro b hb p hp hVp
          rcases H.pend b hb p hp hVp with h1 | h1 | ⟨_, h1⟩
          · exact Or.inl h1
          · rw [hq] at h1
            rcases List.mem_cons.1 h1 with rfl | h1
            · right; right
              refine ⟨rfl, List.mem_append.2 ?_⟩
              cases he : (g.body b).ext with
              | false => exact Or.inl (hg.succ' b hb he p hp)
              | true =>
                obtain ⟨i, hi⟩ := pre_pr hp
                exact Or.inr (List.mem_map.2 ⟨(b, i), hg.esucc' b hb he p i hi, rfl⟩)
            · exact Or.inr (Or.inl h1)
          · cases h1
        · intro b hb
          have : b ∈ g.bodies ∧ a ∈ g.pre b := by
            rcases List.mem_append.1 hb with h1 | h1
            · obtain ⟨h2, _, h3⟩ := hg.succ a ha b h1
              exact ⟨h2, h3⟩
            · obtain ⟨x, hx, rfl⟩ := List.mem_map.1 h1
              obtain ⟨h2, _, h3⟩ := hg.esucc a ha x.1 x.2 hx
              exact ⟨h2, pr_pre h3⟩
          exact H.qk a (by rw [hq]; simp) b this.1 this.2
      obtain ⟨⟨h2, H2, ht2⟩, hf⟩ := H1.visit hg hR hT ha ht
      have hmeas := hf.meas
      have hlen : s.sourceQ.length = r.length + 1 := by rw [hq]; rfl
      obtain ⟨hh, hqq, hf'⟩ := ih _ h2 H2.cur_irrel ht2 (by
        have : ({ s with sourceQ := r } : St).sourceQ.length = r.length := rfl
        have h5 : (g.atoms.filter fun a => !({ s with sourceQ := r } : St).vw.V a).length = (g.atoms.filter fun a => !s.vw.V a).length := rfl
        omega)
      refine ⟨hh, hqq, ?_⟩
      have hf0 : Frame g s { s with sourceQ := r } :=
        ⟨fun _ => rfl, fun _ => rfl, rfl, rfl, rfl, rfl, fun _ => rfl, fun _ => rfl, fun _ h => h, by
          have h5 : (g.atoms.filter fun a => !({ s with sourceQ := r } : St).vw.V a).length = (g.atoms.filter fun a => !s.vw.V a).length := rfl
          show r.length + _ ≤ _
          omega⟩
      exact (hf0.trans hf).trans hf'

theorem filter_disjoint_len (l q : List Nat) (hl : l.Nodup) (hq : q.Nodup) (P : Nat → Bool) (h : ∀ a ∈ q, a ∈ l ∧ P a = false) :
    q.length + (l.filter P).length ≤ l.length := by
  have h1 : (q ++ l.filter P).Nodup := List.Nodup.append hq (hl.filter _) (by
    intro x hx hx'
    have := (List.mem_filter.1 hx').2
    rw [(h x hx).2] at this; cases this)
  have h2 : (q ++ l.filter P) ⊆ l := by
    intro x hx
    rcases List.mem_append.1 hx with h3 | h3
    · exact (h x h3).1
    · exact (List.mem_filter.1 h3).1
  have := (List.subperm_of_subset h1 h2).length_le
  rw [List.length_append] at this
  exact this

/-- `propagateSource` after sources were added: it comes to an end, and the invariant holds. -/
theorem Add.propagate (hg : GWf g) (hR : ∀ f a, Req f a → ∀ p, f p = true → isF p = true) (hT : ∀ a, T a → a ∈ g.atoms ∧ isF (g.atom a).lit = false)
    (H : Add g isF Req s h 0 []) (ht : Tr g isF T h.k s.vw) :
    (∃ h', Quiet g isF Req (propagateSource g isF s) h' ∧ Tr g isF T h'.k (propagateSource g isF s).vw) ∧
    (propagateSource g isF s).sourceQ = [] ∧ Frame g s (propagateSource g isF s) :=
  Add.loop hg hR hT _ s h H ht (filter_disjoint_len g.atoms s.sourceQ hg.atomsNd H.qnd _ fun a ha =>
    ⟨(H.qV a ha).1, by simp [(H.qV a ha).2.1]⟩)

end Clasp.Ufs
