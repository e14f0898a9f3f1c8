import Verif.Asp.UfsAdd

/-! Removing source pointers (C29). No code is modelled in this file; it contains proof devices only. -/

namespace Clasp.Ufs
open Clasp.Core

variable {g : UGraph} {isF : Lit → Bool} {Lo : List (Lit → Bool)} {s : St} {h : Gh} {Ex : Nat → Prop} {Q : List Ev} {cur : Nat} {R : List Nat}

/-- Proof device: the list of atoms without source and the flags agree. -/
def TodoOk (g : UGraph) (s : St) : Prop := s.todo.Nodup ∧ ∀ a, (a ∈ s.todo ↔ (s.atoms a).todo = true) ∧ (a ∈ s.todo → a ∈ g.atoms)

/-- Proof device: the source of `a` is not false, and neither is anything that made it a valid source, up to the events in `Q`. -/
def Src (g : UGraph) (isF : Lit → Bool) (G : Nat → Nat → Bool) (v : Vw) (Q : List Ev) (a : Nat) : Prop :=
  ∃ b, v.W a = some b ∧ ((isF (g.body b).lit = true ∧ Ev.source b ∈ Q) ∨ (isF (g.body b).lit = false ∧
    ((g.body b).scc = (g.atom a).scc → (g.body b).ext = true → ∀ i, G b i = true → isF (g.slit b i) = true → Ev.sub b i ∈ Q)))

/-- Proof device: the invariant while sources are removed. -/
structure Rem (g : UGraph) (isF : Lit → Bool) (Lo : List (Lit → Bool)) (s : St) (h : Gh) (Ex : Nat → Prop) (Q : List Ev) (cur : Nat) (R : List Nat) : Prop where
  core : Core g s.vw h Ex
  Vk : ∀ b ∈ g.bodies, ∀ p ∈ g.pre b, s.vw.V p = true → h.k b p = true
  pend : ∀ b ∈ g.bodies, ∀ p ∈ g.pre b, h.k b p = true → s.vw.V p = true ∨ p ∈ s.sourceQ ∨ (p = cur ∧ b ∈ R)
  qV : ∀ a ∈ s.sourceQ, a ∈ g.atoms ∧ s.vw.V a = false
  qnd : s.sourceQ.Nodup
  qk : ∀ a ∈ s.sourceQ, ∀ b ∈ g.bodies, a ∈ g.pre b → h.k b a = true
  ck : ∀ b ∈ R, h.k b cur = true
  cV : R ≠ [] → s.vw.V cur = false ∧ cur ∉ s.sourceQ
  lowG : ∀ f ∈ Lo, ∀ a ∈ g.atoms, f (g.atom a).lit = false → Good g h.G s.vw f a
  lowW : ∀ f ∈ Lo, ∀ b ∈ g.bodies, (g.body b).ext = true → ∀ i, s.vw.ws b i = true → f (g.slit b i) = false
  lowS : ∀ f ∈ Lo, ∀ a ∈ g.atoms, ∀ b, s.vw.V a = true → s.vw.W a = some b → f (g.body b).lit = false
  wsQ : ∀ b ∈ g.bodies, (g.body b).ext = true → ∀ i, s.vw.ws b i = true → isF (g.slit b i) = true → Ev.sub b i ∈ Q
  srcQ : ∀ a ∈ g.atoms, ∀ b, s.vw.V a = true → s.vw.W a = some b → isF (g.body b).lit = true → Ev.source b ∈ Q
  obl : ∀ a ∈ g.atoms, isF (g.atom a).lit = false → (s.atoms a).todo = true ∨ (s.atoms a).ufs = true ∨ Src g isF h.G s.vw Q a
  pick : ∀ b, (s.bodies b).picked = true → ∀ a ∈ g.atoms, s.vw.W a = some b → s.vw.V a = false ∧ (s.atoms a).todo = true
  tdo : TodoOk g s

/-- Proof device: what removing sources leaves alone. -/
structure RFrame (g : UGraph) (s s' : St) : Prop where
  W : s'.vw.W = s.vw.W
  anti : ∀ a, s'.vw.V a = true → s.vw.V a = true
  td : ∀ a, (s.atoms a).todo = true → (s'.atoms a).todo = true
  uf : ∀ a, (s'.atoms a).ufs = (s.atoms a).ufs
  ufs : s'.ufs = s.ufs
  ufsDone : s'.ufsDone = s.ufsDone
  inv : s'.invalidQ = s.invalidQ
  slack : ∀ b, (s'.bodies b).slack = (s.bodies b).slack
  pick : ∀ b, (s'.bodies b).picked = (s.bodies b).picked
  wsm : ∀ b i, s'.vw.ws b i = true → s.vw.ws b i = true
  meas : s'.sourceQ.length + (g.atoms.filter fun a => s'.vw.V a).length ≤ s.sourceQ.length + (g.atoms.filter fun a => s.vw.V a).length

theorem RFrame.refl (g : UGraph) (s : St) : RFrame g s s := ⟨rfl, fun _ h => h, fun _ h => h, fun _ => rfl, rfl, rfl, rfl, fun _ => rfl, fun _ => rfl, fun _ _ h => h, Nat.le_refl _⟩

theorem RFrame.trans {s t u : St} (h1 : RFrame g s t) (h2 : RFrame g t u) : RFrame g s u where
  W := h2.W.trans h1.W
  anti a h := h1.anti a (h2.anti a h)
  td a h := h2.td a (h1.td a h)
  uf a := (h2.uf a).trans (h1.uf a)
  ufs := h2.ufs.trans h1.ufs
  ufsDone := h2.ufsDone.trans h1.ufsDone
  inv := h2.inv.trans h1.inv
  slack b := (h2.slack b).trans (h1.slack b)
  pick b := (h2.pick b).trans (h1.pick b)
  wsm b i h := h1.wsm b i (h2.wsm b i h)
  meas := Nat.le_trans h2.meas h1.meas

theorem vw_pushTodo (s : St) (a : Nat) : (s.pushTodo a).vw = s.vw := by
  unfold St.pushTodo
  split
  · rfl
  · ext x <;> (try by_cases e : x = a) <;> simp_all [St.vw, St.setA, Function.update_apply]

theorem pushTodo_flag (s : St) (a x : Nat) : ((s.pushTodo a).atoms x).todo = true ↔ (s.atoms x).todo = true ∨ x = a := by
  unfold St.pushTodo
  split
  · rename_i h
    exact ⟨Or.inl, fun h' => h'.elim id fun e => e ▸ h⟩
  · by_cases e : x = a <;> simp [St.setA, Function.update_apply, e]

theorem pushTodo_rest (s : St) (a : Nat) : (∀ x, ((s.pushTodo a).atoms x).ufs = (s.atoms x).ufs) ∧ (s.pushTodo a).bodies = s.bodies ∧ (s.pushTodo a).ufs = s.ufs ∧
    (s.pushTodo a).ufsDone = s.ufsDone ∧ (s.pushTodo a).invalidQ = s.invalidQ ∧ (s.pushTodo a).sourceQ = s.sourceQ := by
  unfold St.pushTodo
  split
  · exact ⟨fun _ => rfl, rfl, rfl, rfl, rfl, rfl⟩
  · exact ⟨fun x => by by_cases e : x = a <;> simp [St.setA, Function.update_apply, e], rfl, rfl, rfl, rfl, rfl⟩

theorem pushTodo_list (s : St) (a : Nat) : (s.pushTodo a).todo = if (s.atoms a).todo then s.todo else s.todo ++ [a] := by
  unfold St.pushTodo
  split <;> simp_all

theorem TodoOk.push (ht : TodoOk g s) {a : Nat} (ha : a ∈ g.atoms) : TodoOk g (s.pushTodo a) := by
  unfold TodoOk
  by_cases hf : (s.atoms a).todo = true
  · have : s.pushTodo a = s := by unfold St.pushTodo; rw [if_pos hf]
    rw [this]; exact ht
  · rw [pushTodo_list, if_neg hf]
    have hn : a ∉ s.todo := fun hm => hf ((ht.2 a).1.1 hm)
    refine ⟨List.Nodup.append ht.1 (List.nodup_singleton a) (by simpa using hn), fun x => ⟨?_, ?_⟩⟩
    · rw [pushTodo_flag, List.mem_append, (ht.2 x).1]; simp
    · intro hx
      rcases List.mem_append.1 hx with h1 | h1
      · exact (ht.2 x).2 h1
      · rw [List.mem_singleton.1 h1]; exact ha

theorem Rem.pushTodo (H : Rem g isF Lo s h Ex Q cur R) {a : Nat} (ha : a ∈ g.atoms) :
    Rem g isF Lo (s.pushTodo a) h Ex Q cur R ∧ RFrame g s (s.pushTodo a) := by
  have hv := vw_pushTodo s a
  obtain ⟨h1, h2, h3, h4, h5, h6⟩ := pushTodo_rest s a
  constructor
  · constructor
    · rw [hv]; exact H.core
    · rw [hv]; exact H.Vk
    · rw [hv, h6]; exact H.pend
    · rw [hv, h6]; exact H.qV
    · rw [h6]; exact H.qnd
    · rw [h6]; exact H.qk
    · exact H.ck
    · rw [hv, h6]; exact H.cV
    · rw [hv]; exact H.lowG
    · rw [hv]; exact H.lowW
    · rw [hv]; exact H.lowS
    · rw [hv]; exact H.wsQ
    · rw [hv]; exact H.srcQ
    · intro x hx hF
      rw [hv, pushTodo_flag, h1]
      rcases H.obl x hx hF with h | h | h
      · exact Or.inl (Or.inl h)
      · exact Or.inr (Or.inl h)
      · exact Or.inr (Or.inr h)
    · intro b hb x hx hW
      rw [h2] at hb; rw [hv] at hW ⊢
      obtain ⟨h7, h8⟩ := H.pick b hb x hx hW
      exact ⟨h7, (pushTodo_flag s a x).2 (Or.inl h8)⟩
    · exact H.tdo.push ha
  · exact ⟨by rw [hv], fun x => by rw [hv]; exact id, fun x hx => (pushTodo_flag s a x).2 (Or.inl hx), h1, h3, h4, h5,
      fun b => by rw [h2], fun b => by rw [h2], fun b i => by rw [hv]; exact fun h => h, by rw [hv, h6]; exact Nat.le_refl _⟩

theorem vw_setV (s : St) (a : Nat) (t : Bool) : (s.setA a { s.atoms a with valid := t }).vw = { s.vw with V := Function.update s.vw.V a t } := by
  ext x <;> by_cases e : x = a <;> simp [St.vw, St.setA, Function.update_apply, e]

theorem sourced_lt (l : List Nat) (hnd : l.Nodup) (V : Nat → Bool) {a : Nat} (ha : a ∈ l) (hV : V a = true) :
    (l.filter fun x => Function.update V a false x).length + 1 = (l.filter fun x => V x).length := by
  have := unsourced_lt l hnd (fun x => !V x) ha (by simp [hV])
  have e1 : (fun x => !Function.update (fun x => !V x) a true x) = fun x => Function.update V a false x := by
    funext x; by_cases e : x = a
    · subst e; simp
    · simp [Function.update_of_ne e]
  have e2 : (fun x => !(fun x => !V x) x) = fun x => V x := by funext x; simp
  rw [e1, e2] at this
  exact this

/-- an atom loses its source, and is queued (or becomes the atom whose successors are visited) -/
theorem Rem.unset (hg : GWf g) (H : Rem g isF Lo s h Ex Q cur R) {a : Nat} (ha : a ∈ g.atoms) (hV : s.vw.V a = true) :
    Rem g isF Lo (s.invalidate a) h Ex Q cur R ∧ RFrame g s (s.invalidate a) := by
  have hv : (s.invalidate a).vw = { s.vw with V := Function.update s.vw.V a false } := vw_setV s a false
  have hVm : ∀ x, (s.invalidate a).vw.V x = true → s.vw.V x = true := by
    intro x hx
    by_cases e : x = a
    · rw [e]; exact hV
    · rw [hv] at hx; simpa [Function.update_of_ne e] using hx
  have hVa : (s.invalidate a).vw.V a = false := by rw [hv]; simp
  have hVne : ∀ x, x ≠ a → (s.invalidate a).vw.V x = s.vw.V x := fun x e => by rw [hv]; simp [Function.update_of_ne e]
  have hVf : ∀ x, s.vw.V x = false → (s.invalidate a).vw.V x = false := by
    intro x hx
    by_cases e : x = a
    · rw [e]; exact hVa
    · rw [hVne x e]; exact hx
  have hW : (s.invalidate a).vw.W = s.vw.W := by rw [hv]
  have haq : a ∉ s.sourceQ := fun hm => by rw [(H.qV a hm).2] at hV; cases hV
  have htd : ∀ x, ((s.invalidate a).atoms x).todo = (s.atoms x).todo := fun x => by
    by_cases e : x = a <;> simp [St.invalidate, St.setA, Function.update_apply, e]
  have huf : ∀ x, ((s.invalidate a).atoms x).ufs = (s.atoms x).ufs := fun x => by
    by_cases e : x = a <;> simp [St.invalidate, St.setA, Function.update_apply, e]
  have hQ : ∀ x, x ∈ (s.invalidate a).sourceQ ↔ x ∈ s.sourceQ ∨ x = a := fun x => by
    show x ∈ s.sourceQ ++ [a] ↔ _
    simp
  constructor
  · constructor
    · rw [hv]; exact H.core.inval a
    · exact fun b hb p hp hVp => H.Vk b hb p hp (hVm p hVp)
    · intro b hb p hp hk
      rw [hQ]
      by_cases e : p = a
      · exact Or.inr (Or.inl (Or.inr e))
      · rw [hVne p e]
        rcases H.pend b hb p hp hk with h1 | h1 | h1
        · exact Or.inl h1
        · exact Or.inr (Or.inl (Or.inl h1))
        · exact Or.inr (Or.inr h1)
    · intro x hx
      rcases (hQ x).1 hx with h1 | rfl
      · exact ⟨(H.qV x h1).1, hVf x (H.qV x h1).2⟩
      · exact ⟨ha, hVa⟩
    · exact List.Nodup.append H.qnd (List.nodup_singleton a) (by simpa using haq)
    · intro x hx b hb hp
      rcases (hQ x).1 hx with h1 | rfl
      · exact H.qk x h1 b hb hp
      · exact H.Vk b hb x hp hV
    · exact H.ck
    · intro hne
      obtain ⟨h1, h2⟩ := H.cV hne
      refine ⟨hVf cur h1, fun hm => ?_⟩
      rcases (hQ cur).1 hm with h3 | h3
      · exact h2 h3
      · rw [h3, hV] at h1; cases h1
    · rw [hv]; exact H.lowG
    · rw [hv]; exact H.lowW
    · intro f hf x hx b hVx hWx; rw [hW] at hWx; exact H.lowS f hf x hx b (hVm x hVx) hWx
    · rw [hv]; exact H.wsQ
    · intro x hx b hVx hWx; rw [hW] at hWx; exact H.srcQ x hx b (hVm x hVx) hWx
    · intro x hx hF
      rw [htd, huf, hv]; exact H.obl x hx hF
    · intro b hb x hx hWx
      rw [hW] at hWx
      obtain ⟨h1, h2⟩ := H.pick b hb x hx hWx
      exact ⟨hVf x h1, by rw [htd]; exact h2⟩
    · exact ⟨H.tdo.1, fun x => ⟨by rw [htd]; exact (H.tdo.2 x).1, (H.tdo.2 x).2⟩⟩
  · refine ⟨hW, hVm, fun x hx => by rw [htd]; exact hx, huf, rfl, rfl, rfl, fun _ => rfl, fun _ => rfl, fun c i => (by rw [hv]; exact fun h => h), ?_⟩
    show (s.sourceQ ++ [a]).length + _ ≤ _
    rw [hv, List.length_append]
    have := sourced_lt g.atoms hg.atomsNd s.vw.V ha hV
    dsimp only [List.length_singleton]
    omega

/-- one head in `forwardUnsource` -/
theorem Rem.unsource (hg : GWf g) (H : Rem g isF Lo s h Ex Q cur R) {a b : Nat} (add : Bool) (ha : a ∈ g.atoms) :
    Rem g isF Lo (unsource s b add a) h Ex Q cur R ∧ RFrame g s (unsource s b add a) ∧
    (s.vw.W a = some b → (unsource s b add a).vw.V a = false ∧ (add = true → ((unsource s b add a).atoms a).todo = true)) := by
  unfold Ufs.unsource
  let s1 := if (s.atoms a).valid && (s.atoms a).source == some b then s.invalidate a else s
  have step : Rem g isF Lo s1 h Ex Q cur R ∧ RFrame g s s1 ∧ (s.vw.W a = some b → s1.vw.V a = false) := by
    by_cases hc : ((s.atoms a).valid && (s.atoms a).source == some b) = true
    · have e : s1 = s.invalidate a := if_pos hc
      rw [e]
      simp only [Bool.and_eq_true] at hc
      obtain ⟨h1, h2⟩ := H.unset hg ha hc.1
      exact ⟨h1, h2, fun _ => by
        have : (s.invalidate a).vw = { s.vw with V := Function.update s.vw.V a false } := vw_setV s a false
        rw [this]; simp⟩
    · have e : s1 = s := if_neg hc
      rw [e]
      refine ⟨H, RFrame.refl g s, fun hW => ?_⟩
      simp only [Bool.and_eq_true, not_and] at hc
      cases hV : s.vw.V a with
      | false => rfl
      | true => exact absurd (beq_iff_eq.2 hW) (hc hV)
  obtain ⟨h1, h2, h3⟩ := step
  show Rem g isF Lo (if add && (s1.atoms a).source == some b then s1.pushTodo a else s1) h Ex Q cur R ∧
    RFrame g s (if add && (s1.atoms a).source == some b then s1.pushTodo a else s1) ∧
    (s.vw.W a = some b → (if add && (s1.atoms a).source == some b then s1.pushTodo a else s1).vw.V a = false ∧
      (add = true → ((if add && (s1.atoms a).source == some b then s1.pushTodo a else s1).atoms a).todo = true))
  have hW1 : s1.vw.W a = s.vw.W a := by rw [h2.W]
  by_cases hc : (add && (s1.atoms a).source == some b) = true
  · rw [if_pos hc]
    obtain ⟨h4, h5⟩ := h1.pushTodo ha
    refine ⟨h4, h2.trans h5, fun hW => ⟨?_, fun _ => ?_⟩⟩
    · rw [vw_pushTodo]; exact h3 hW
    · rw [pushTodo_flag]; exact Or.inr rfl
  · rw [if_neg hc]
    refine ⟨h1, h2, fun hW => ⟨?_, fun hadd => ?_⟩⟩
    · exact h3 hW
    · refine absurd ?_ hc
      rw [hadd]
      have : (s1.atoms a).source = some b := by rw [← hW, ← hW1]; rfl
      simp [this]

theorem Rem.forwardUnsource (hg : GWf g) (H : Rem g isF Lo s h Ex Q cur R) {b : Nat} (add : Bool) (hb : b ∈ g.bodies) :
    Rem g isF Lo (forwardUnsource g s b add) h Ex Q cur R ∧ RFrame g s (forwardUnsource g s b add) ∧
    ∀ a ∈ g.atoms, s.vw.W a = some b → (g.body b).scc = (g.atom a).scc →
      (forwardUnsource g s b add).vw.V a = false ∧ (add = true → ((forwardUnsource g s b add).atoms a).todo = true) := by
  obtain ⟨l1, l2, hl, hs1, hs2⟩ := hg.order b hb
  have hat : ∀ a ∈ l1, a ∈ g.atoms := fun a ha => (hg.heads b hb a (by rw [hl]; simp [ha])).1
  have stop : ∀ s, forwardUnsourceL g b add l2 s = s := by
    intro s
    cases l2 with
    | nil => rfl
    | cons a r =>
      unfold forwardUnsourceL
      rw [if_pos (hs2 a (by simp))]
  have main : ∀ l, (∀ a ∈ l, a ∈ l1) → ∀ s, Rem g isF Lo s h Ex Q cur R →
      Rem g isF Lo (forwardUnsourceL g b add (l ++ l2) s) h Ex Q cur R ∧ RFrame g s (forwardUnsourceL g b add (l ++ l2) s) ∧
      ∀ a ∈ l, s.vw.W a = some b → (forwardUnsourceL g b add (l ++ l2) s).vw.V a = false ∧
        (add = true → ((forwardUnsourceL g b add (l ++ l2) s).atoms a).todo = true) := by
    intro l
    induction l with
    | nil =>
      intro _ s H
      rw [List.nil_append, stop]
      exact ⟨H, RFrame.refl g s, fun a ha => by cases ha⟩
    | cons x l ih =>
      intro hm s H
      have hx := hm x (by simp)
      obtain ⟨h1, h2, h3⟩ := H.unsource (b := b) hg add (hat x hx)
      obtain ⟨h4, h5, h6⟩ := ih (fun a ha => hm a (by simp [ha])) _ h1
      rw [List.cons_append]
      unfold forwardUnsourceL
      have hn : ¬ (g.atom x).scc ≠ (g.body b).scc := fun hn => hn (hs1 x hx)
      rw [if_neg hn]
      refine ⟨h4, h2.trans h5, fun a ha hW => ?_⟩
      rcases List.mem_cons.1 ha with rfl | ha
      · obtain ⟨h7, h8⟩ := h3 hW
        refine ⟨?_, fun hadd => h5.td a (h8 hadd)⟩
        cases hV : (forwardUnsourceL g b add (l ++ l2) (Ufs.unsource s b add a)).vw.V a with
        | false => rfl
        | true => rw [h5.anti a hV] at h7; cases h7
      · exact h6 a ha (by rw [h2.W]; exact hW)
  unfold Ufs.forwardUnsource
  rw [hl]
  obtain ⟨h1, h2, h3⟩ := main l1 (fun _ h => h) s H
  refine ⟨h1, h2, fun a ha hW hs => h3 a ?_ hW⟩
  have := (H.core.hd a ha b hW).2
  rw [hl] at this
  rcases List.mem_append.1 this with h4 | h4
  · exact h4
  · exact absurd hs.symm (hs2 a h4)

/-- Proof device: drop exceptions. -/
theorem Rem.drop (H : Rem g isF Lo s h Ex Q cur R) {Ex' : Nat → Prop}
    (hd : ∀ a ∈ g.atoms, ∀ b, s.vw.V a = true → s.vw.W a = some b → (g.body b).scc = (g.atom a).scc → Ex b → s.vw.L b ≤ 0 ∨ Ex' b) :
    Rem g isF Lo s h Ex' Q cur R :=
  { H with core := H.core.drop hd }

/-- `RemoveSource` for a normal body -/
theorem Rem.remN (hg : GWf g) {b : Nat} (H : Rem g isF Lo s h Ex Q cur (b :: R)) (add : Bool) (hbR : b ∉ R)
    (hb : b ∈ g.bodies) (he : (g.body b).ext = false) (hp : cur ∈ g.pre b) :
    (∃ h', Rem g isF Lo (removeSourceN g s b add) h' Ex Q cur R) ∧ RFrame g s (removeSourceN g s b add) := by
  obtain ⟨hcV, hcq⟩ := H.cV (by simp)
  have hk0 : h.k b cur = !false := H.ck b (by simp)
  let s1 := s.setB b { s.bodies b with lower := (s.bodies b).lower + 1 }
  have hvw : s1.vw = { s.vw with L := Function.update s.vw.L b (s.vw.L b + if false then -1 else 1) } := by
    show (s.setB b { s.bodies b with lower := (s.bodies b).lower + 1 }).vw = _
    rw [vw_setB_lower]; rfl
  have hpk : ∀ x, (s1.bodies x).picked = (s.bodies x).picked := fun x => by
    by_cases e : x = b <;> simp [s1, St.setB, Function.update_apply, e]
  have H1 : Rem g isF Lo s1 (h.setK b cur false) (fun c => Ex c ∨ (false = false ∧ c = b)) Q cur R := by
    constructor
    · rw [hvw]; exact H.core.cntStep hg hb he hp false hk0
    · rw [hvw]
      intro c hc p hpp hV
      have e : ¬ (c = b ∧ p = cur) := fun e => by rw [e.2] at hV; rw [hcV] at hV; cases hV
      rw [h.setK_ne false e]; exact H.Vk c hc p hpp hV
    · rw [hvw]
      intro c hc p hpp hk
      by_cases e : c = b ∧ p = cur
      · rw [e.1, e.2, Gh.setK_self] at hk; cases hk
      · rw [h.setK_ne false e] at hk
        rcases H.pend c hc p hpp hk with h1 | h1 | ⟨h1, h2⟩
        · exact Or.inl h1
        · exact Or.inr (Or.inl h1)
        · right; right
          refine ⟨h1, ?_⟩
          rcases List.mem_cons.1 h2 with h3 | h3
          · exact absurd ⟨h3, h1⟩ e
          · exact h3
    · rw [hvw]; exact H.qV
    · exact H.qnd
    · intro x hx c hc hpp
      have e : ¬ (c = b ∧ x = cur) := fun e => hcq (e.2 ▸ hx)
      rw [h.setK_ne false e]; exact H.qk x hx c hc hpp
    · intro c hc
      have e : ¬ (c = b ∧ cur = cur) := fun e => hbR (e.1 ▸ hc)
      rw [h.setK_ne false e]; exact H.ck c (by simp [hc])
    · intro _; rw [hvw]; exact ⟨hcV, hcq⟩
    · rw [hvw]; exact H.lowG
    · rw [hvw]; exact H.lowW
    · rw [hvw]; exact H.lowS
    · rw [hvw]; exact H.wsQ
    · rw [hvw]; exact H.srcQ
    · rw [hvw]; exact H.obl
    · intro c hc; rw [hpk] at hc; rw [hvw]; exact H.pick c hc
    · exact H.tdo
  have hf1 : RFrame g s s1 := by
    refine ⟨by rw [hvw], fun x => by rw [hvw]; exact fun h => h, fun _ h => h, fun _ => rfl, rfl, rfl, rfl, fun x => ?_, hpk, fun c i => (by rw [hvw]; exact fun h => h), ?_⟩
    · by_cases e : x = b <;> simp [s1, St.setB, Function.update_apply, e]
    · rw [hvw]; exact Nat.le_refl _
  show (∃ h', Rem g isF Lo (if (s1.bodies b).lower == 1 && (s1.bodies b).watches != 0 then Ufs.forwardUnsource g s1 b add else s1) h' Ex Q cur R) ∧
    RFrame g s (if (s1.bodies b).lower == 1 && (s1.bodies b).watches != 0 then Ufs.forwardUnsource g s1 b add else s1)
  have hLb : s1.vw.L b = s.vw.L b + 1 := by rw [hvw]; simp
  by_cases hc : ((s1.bodies b).lower == 1 && (s1.bodies b).watches != 0) = true
  · rw [if_pos hc]
    obtain ⟨h2, h3, h4⟩ := H1.forwardUnsource hg add hb
    refine ⟨⟨_, h2.drop fun a ha c hV hW hs hx => ?_⟩, hf1.trans h3⟩
    rcases hx with hx | ⟨_, rfl⟩
    · exact Or.inr hx
    · rw [h3.W] at hW
      rw [(h4 a ha hW hs).1] at hV; cases hV
  · rw [if_neg hc]
    refine ⟨⟨_, H1.drop fun a ha c hV hW hs hx => ?_⟩, hf1⟩
    rcases hx with hx | ⟨_, rfl⟩
    · exact Or.inr hx
    · rw [hvw] at hV hW
      rcases H.core.just a ha c hV hW hs with h1 | h1
      · refine absurd ?_ hc
        have h2 := H.core.cntN c hb he
        have h3 : s.vw.L c = 0 := by omega
        simp only [Bool.and_eq_true, beq_iff_eq, bne_iff_ne, ne_eq]
        refine ⟨by show s1.vw.L c = 1; rw [hLb, h3]; rfl, fun h0 => ?_⟩
        exact H1.core.noWatch hb h0 a ha (by rw [hvw]; exact hW)
      · exact Or.inr h1

theorem vw_removeFromWs (s : St) (b i : Nat) (hw : s.vw.ws b i = true) : (s.removeFromWs g b i).vw = s.vw.setWs b i false (s.vw.L b + g.weight b i) := by
  unfold St.removeFromWs
  rw [if_pos (show (s.bodies b).ws i = true from hw)]
  ext x <;> by_cases e : x = b <;> simp [St.vw, Vw.setWs, St.setB, Function.update_apply, e]

/-- a literal leaves a watch set -/
theorem Rem.fromWs (hg : GWf g) (H : Rem g isF Lo s h Ex Q cur R) {b : Nat} (i : Nat) (hb : b ∈ g.bodies) (he : (g.body b).ext = true) :
    ∃ h', h'.k = h.k ∧ Rem g isF Lo (s.removeFromWs g b i) h' (fun c => Ex c ∨ (c = b ∧ 0 < (s.removeFromWs g b i).vw.L b)) Q cur R ∧
      RFrame g s (s.removeFromWs g b i) ∧ (s.removeFromWs g b i).vw.ws b i = false := by
  cases hw : s.vw.ws b i with
  | false =>
    have e : s.removeFromWs g b i = s := by
      unfold St.removeFromWs
      have : ¬ (s.bodies b).ws i = true := fun h => by rw [show (s.bodies b).ws i = s.vw.ws b i from rfl, hw] at h; cases h
      rw [if_neg this]
    rw [e]
    exact ⟨h, rfl, H.drop fun _ _ _ _ _ _ hx => Or.inr (Or.inl hx), RFrame.refl g s, hw⟩
  | true =>
    have hvw := vw_removeFromWs (g := g) s b i hw
    have hLb : (s.removeFromWs g b i).vw.L b = s.vw.L b + g.weight b i := by rw [hvw]; simp [Vw.setWs]
    have hwn := weight_nonneg hg hb i
    have hGle : ∀ c j, newG h b (Function.update (s.vw.ws b) i false) (s.vw.L b + g.weight b i) c j = true → h.G c j = true := by
      intro c j hG
      unfold newG at hG
      split at hG
      · rename_i hle
        by_cases e : c = b
        · subst e
          rw [Function.update_self] at hG
          rw [H.core.gws c hb he (by omega)]
          by_cases e : j = i
          · subst e; exact hw
          · rw [Function.update_of_ne e] at hG; exact hG
        · rw [Function.update_of_ne e] at hG; exact hG
      · exact hG
    have hwsm : ∀ c j, (s.vw.setWs b i false (s.vw.L b + g.weight b i)).ws c j = true → s.vw.ws c j = true := by
      intro c j hj
      by_cases e : c = b
      · subst e
        simp only [Vw.setWs, Function.update_self] at hj
        by_cases e : j = i
        · subst e; simp at hj
        · rw [Function.update_of_ne e] at hj; exact hj
      · simp only [Vw.setWs, Function.update_of_ne e] at hj; exact hj
    have e : s.removeFromWs g b i = s.setB b { s.bodies b with ws := Function.update (s.bodies b).ws i false, lower := (s.bodies b).lower + g.weight b i } := by
      unfold St.removeFromWs
      rw [if_pos (show (s.bodies b).ws i = true from hw)]
    have hat : (s.removeFromWs g b i).atoms = s.atoms := by rw [e]; rfl
    have hpk : ∀ x, ((s.removeFromWs g b i).bodies x).picked = (s.bodies x).picked := fun x => by
      rw [e]; by_cases e : x = b <;> simp [St.setB, Function.update_apply, e]
    have hq : (s.removeFromWs g b i).sourceQ = s.sourceQ := by rw [e]; rfl
    refine ⟨{ h with G := newG h b (Function.update (s.vw.ws b) i false) (s.vw.L b + g.weight b i) }, rfl,
      ⟨?_, ?_, ?_, ?_, ?_, ?_, ?_, ?_, ?_, ?_, ?_, ?_, ?_, ?_, ?_, ?_⟩, ?_, ?_⟩
    · rw [hLb, hvw]; exact H.core.wsDel hg hb he hw
    · rw [hvw]; exact H.Vk
    · rw [hvw, hq]; exact H.pend
    · rw [hvw, hq]; exact H.qV
    · rw [hq]; exact H.qnd
    · rw [hq]; exact H.qk
    · exact H.ck
    · rw [hvw, hq]; exact H.cV
    · rw [hvw]
      intro f hf a ha hF
      obtain ⟨c, h1, h2, h3⟩ := H.lowG f hf a ha hF
      exact ⟨c, h1, h2, fun hs hce j hG => h3 hs hce j (hGle c j hG)⟩
    · rw [hvw]; exact fun f hf c hc hce j hj => H.lowW f hf c hc hce j (hwsm c j hj)
    · rw [hvw]; exact H.lowS
    · rw [hvw]; exact fun c hc hce j hj => H.wsQ c hc hce j (hwsm c j hj)
    · rw [hvw]; exact H.srcQ
    · rw [hvw, hat]
      intro a ha hF
      rcases H.obl a ha hF with h1 | h1 | ⟨c, h1, h2⟩
      · exact Or.inl h1
      · exact Or.inr (Or.inl h1)
      · refine Or.inr (Or.inr ⟨c, h1, ?_⟩)
        rcases h2 with h2 | ⟨h2, h3⟩
        · exact Or.inl h2
        · exact Or.inr ⟨h2, fun hs hce j hG => h3 hs hce j (hGle c j hG)⟩
    · intro c hc; rw [hpk] at hc; rw [hvw, hat]; exact H.pick c hc
    · unfold TodoOk; rw [hat, show (s.removeFromWs g b i).todo = s.todo by rw [e]; rfl]; exact H.tdo
    · refine ⟨by rw [hvw]; rfl, fun x => by rw [hvw]; exact fun h => h, fun x hx => by rw [hat]; exact hx, fun x => by rw [hat], by rw [e]; rfl, by rw [e]; rfl,
        by rw [e]; rfl, fun x => ?_, hpk, fun c j hj => hwsm c j (by rw [← hvw]; exact hj), ?_⟩
      · rw [e]; by_cases e : x = b <;> simp [St.setB, Function.update_apply, e]
      · rw [hvw, hq]; exact Nat.le_refl _
    · rw [hvw]; simp [Vw.setWs]

/-- `RemoveSource` for an extended body -/
theorem Rem.remE (hg : GWf g) {b i : Nat} (H : Rem g isF Lo s h Ex Q cur (b :: R)) (hbR : b ∉ R)
    (hb : b ∈ g.bodies) (he : (g.body b).ext = true) (hp : g.pr b i = some cur) :
    (∃ h', Rem g isF Lo (removeSourceE g s b i) h' Ex Q cur R) ∧ RFrame g s (removeSourceE g s b i) := by
  obtain ⟨h1, hk1, H1, hf1, hw1⟩ := H.fromWs hg i hb he
  generalize hs1 : s.removeFromWs g b i = s1 at *
  obtain ⟨hcV, hcq⟩ := H1.cV (by simp)
  have H2 : Rem g isF Lo s1 (h1.setK b cur false) (fun c => Ex c ∨ (c = b ∧ 0 < s1.vw.L b)) Q cur R := by
    constructor
    · exact H1.core.kStep he false fun _ j hj => by rw [pr_inj hg hb hj hp]; exact hw1
    · intro c hc p hpp hV
      have e : ¬ (c = b ∧ p = cur) := fun e => by rw [e.2] at hV; rw [hcV] at hV; cases hV
      rw [h1.setK_ne false e]; exact H1.Vk c hc p hpp hV
    · intro c hc p hpp hk
      by_cases e : c = b ∧ p = cur
      · rw [e.1, e.2, Gh.setK_self] at hk; cases hk
      · rw [h1.setK_ne false e] at hk
        rcases H1.pend c hc p hpp hk with h1 | h1 | ⟨h1, h2⟩
        · exact Or.inl h1
        · exact Or.inr (Or.inl h1)
        · right; right
          refine ⟨h1, ?_⟩
          rcases List.mem_cons.1 h2 with h3 | h3
          · exact absurd ⟨h3, h1⟩ e
          · exact h3
    · exact H1.qV
    · exact H1.qnd
    · intro x hx c hc hpp
      have e : ¬ (c = b ∧ x = cur) := fun e => hcq (e.2 ▸ hx)
      rw [h1.setK_ne false e]; exact H1.qk x hx c hc hpp
    · intro c hc
      have e : ¬ (c = b ∧ cur = cur) := fun e => hbR (e.1 ▸ hc)
      rw [h1.setK_ne false e]; exact H1.ck c (by simp [hc])
    · exact fun _ => ⟨hcV, hcq⟩
    · exact H1.lowG
    · exact H1.lowW
    · exact H1.lowS
    · exact H1.wsQ
    · exact H1.srcQ
    · exact H1.obl
    · exact H1.pick
    · exact H1.tdo
  unfold removeSourceE
  rw [hs1]
  dsimp only
  by_cases hc : (decide (0 < (s1.bodies b).lower) && (s1.bodies b).watches != 0) = true
  · rw [if_pos hc]
    obtain ⟨h2, h3, h4⟩ := H2.forwardUnsource hg true hb
    refine ⟨⟨_, h2.drop fun a ha c hV hW hs hx => ?_⟩, hf1.trans h3⟩
    rcases hx with hx | ⟨rfl, _⟩
    · exact Or.inr hx
    · rw [h3.W] at hW
      rw [(h4 a ha hW hs).1] at hV; cases hV
  · rw [if_neg hc]
    refine ⟨⟨_, H2.drop fun a ha c hV hW hs hx => ?_⟩, hf1⟩
    rcases hx with hx | ⟨rfl, hx⟩
    · exact Or.inr hx
    · refine absurd ?_ hc
      simp only [Bool.and_eq_true, decide_eq_true_eq, bne_iff_ne, ne_eq]
      exact ⟨hx, fun h0 => H2.core.noWatch hb h0 a ha hW⟩

/-- visiting all successors of an atom that lost its source -/
theorem Rem.visit (hg : GWf g) {a : Nat} (add : Bool) (ha : a ∈ g.atoms) (H : Rem g isF Lo s h Ex Q a ((g.atom a).succs ++ (g.atom a).extSuccs.map Prod.fst)) :
    (∃ h', Rem g isF Lo (visitRemove g s a add) h' Ex Q a []) ∧ RFrame g s (visitRemove g s a add) := by
  have hE : ∀ l : List (Nat × Nat), (∀ x ∈ l, x ∈ (g.atom a).extSuccs) → (l.map Prod.fst).Nodup → ∀ (s : St) (h : Gh),
      Rem g isF Lo s h Ex Q a (l.map Prod.fst) →
      (∃ h', Rem g isF Lo (l.foldl (fun s x => removeSourceE g s x.1 x.2) s) h' Ex Q a []) ∧ RFrame g s (l.foldl (fun s x => removeSourceE g s x.1 x.2) s) := by
    intro l
    induction l with
    | nil => exact fun _ _ s h H => ⟨⟨h, H⟩, RFrame.refl g s⟩
    | cons x l ih =>
      intro hl hnd s h H
      obtain ⟨h1, h2, h3⟩ := hg.esucc a ha x.1 x.2 (hl x (by simp))
      rw [List.map_cons] at H hnd
      obtain ⟨⟨h', H'⟩, hf⟩ := H.remE hg (List.nodup_cons.1 hnd).1 h1 h2 h3
      obtain ⟨hh, hf'⟩ := ih (fun y hy => hl y (by simp [hy])) (List.nodup_cons.1 hnd).2 _ h' H'
      exact ⟨hh, hf.trans hf'⟩
  have hN : ∀ l : List Nat, (∀ b ∈ l, b ∈ (g.atom a).succs) → (l ++ (g.atom a).extSuccs.map Prod.fst).Nodup → ∀ (s : St) (h : Gh),
      Rem g isF Lo s h Ex Q a (l ++ (g.atom a).extSuccs.map Prod.fst) →
      (∃ h', Rem g isF Lo (l.foldl (fun s b => removeSourceN g s b add) s) h' Ex Q a ((g.atom a).extSuccs.map Prod.fst)) ∧
      RFrame g s (l.foldl (fun s b => removeSourceN g s b add) s) := by
    intro l
    induction l with
    | nil => exact fun _ _ s h H => ⟨⟨h, H⟩, RFrame.refl g s⟩
    | cons x l ih =>
      intro hl hnd s h H
      obtain ⟨h1, h2, h3⟩ := hg.succ a ha x (hl x (by simp))
      rw [List.cons_append] at H hnd
      obtain ⟨⟨h', H'⟩, hf⟩ := H.remN hg add (List.nodup_cons.1 hnd).1 h1 h2 h3
      obtain ⟨hh, hf'⟩ := ih (fun y hy => hl y (by simp [hy])) (List.nodup_cons.1 hnd).2 _ h' H'
      exact ⟨hh, hf.trans hf'⟩
  obtain ⟨⟨h1, H1⟩, hf1⟩ := hN _ (fun _ h => h) (hg.sNd a ha) s h H
  obtain ⟨hh, hf2⟩ := hE _ (fun _ h => h) (List.nodup_append.1 (hg.sNd a ha)).2.1 _ h1 H1
  exact ⟨hh, hf1.trans hf2⟩

theorem Rem.cur_irrel {c : Nat} (H : Rem g isF Lo s h Ex Q cur []) : Rem g isF Lo s h Ex Q c [] :=
  { H with
    pend := fun b hb p hp hk => (H.pend b hb p hp hk).elim Or.inl fun h1 => h1.elim (fun h2 => Or.inr (Or.inl h2)) fun h2 => nomatch h2.2
    ck := fun _ hb => nomatch hb
    cV := fun hn => absurd rfl hn }

theorem mem_succs (hg : GWf g) {a b : Nat} (ha : a ∈ g.atoms) (hb : b ∈ (g.atom a).succs ++ (g.atom a).extSuccs.map Prod.fst) : b ∈ g.bodies ∧ a ∈ g.pre b := by
  rcases List.mem_append.1 hb with h1 | h1
  · obtain ⟨h2, _, h3⟩ := hg.succ a ha b h1
    exact ⟨h2, h3⟩
  · obtain ⟨x, hx, rfl⟩ := List.mem_map.1 h1
    obtain ⟨h2, _, h3⟩ := hg.esucc a ha x.1 x.2 hx
    exact ⟨h2, pr_pre h3⟩

theorem succs_mem (hg : GWf g) {a b : Nat} (hb : b ∈ g.bodies) (hp : a ∈ g.pre b) : b ∈ (g.atom a).succs ++ (g.atom a).extSuccs.map Prod.fst := by
  refine List.mem_append.2 ?_
  cases he : (g.body b).ext with
  | false => exact Or.inl (hg.succ' b hb he a hp)
  | true =>
    obtain ⟨i, hi⟩ := pre_pr hp
    exact Or.inr (List.mem_map.2 ⟨(b, i), hg.esucc' b hb he a i hi, rfl⟩)

theorem Rem.loop (hg : GWf g) : ∀ (n : Nat) (s : St) (h : Gh), Rem g isF Lo s h Ex Q 0 [] →
    s.sourceQ.length + (g.atoms.filter fun a => s.vw.V a).length ≤ n →
    (∃ h', Rem g isF Lo (propagateSourceL g isF n s) h' Ex Q 0 []) ∧
    (propagateSourceL g isF n s).sourceQ = [] ∧ RFrame g s (propagateSourceL g isF n s) := by
  intro n
  induction n with
  | zero =>
    intro s h H hm
    have h0 : s.sourceQ = [] := List.length_eq_zero_iff.1 (by omega)
    exact ⟨⟨h, H⟩, h0, RFrame.refl g s⟩
  | succ n ih =>
    intro s h H hm
    unfold propagateSourceL
    cases hq : s.sourceQ with
    | nil => exact ⟨⟨h, H⟩, hq, RFrame.refl g s⟩
    | cons a r =>
      dsimp only
      have hnd := H.qnd
      rw [hq] at hnd
      have hn := List.nodup_cons.1 hnd
      obtain ⟨ha, hV⟩ := H.qV a (by rw [hq]; simp)
      have hV' : ¬ (({ s with sourceQ := r } : St).atoms a).valid = true := fun h => by
        rw [show (({ s with sourceQ := r } : St).atoms a).valid = s.vw.V a from rfl, hV] at h; cases h
      rw [if_neg hV']
      have hsub : ∀ x ∈ r, x ∈ s.sourceQ := fun x hx => by rw [hq]; simp [hx]
      have H1 : Rem g isF Lo { s with sourceQ := r } h Ex Q a ((g.atom a).succs ++ (g.atom a).extSuccs.map Prod.fst) := by
        refine ⟨H.core, H.Vk, ?_, fun x hx => H.qV x (hsub x hx), hn.2, fun x hx => H.qk x (hsub x hx), ?_, fun _ => ⟨hV, hn.1⟩,
          H.lowG, H.lowW, H.lowS, H.wsQ, H.srcQ, H.obl, H.pick, H.tdo⟩
        · intro b hb p hp hk
          rcases H.pend b hb p hp hk with h1 | h1 | ⟨_, h1⟩
          · exact Or.inl h1
          · rw [hq] at h1
            rcases List.mem_cons.1 h1 with rfl | h1
            · exact Or.inr (Or.inr ⟨rfl, succs_mem hg hb hp⟩)
            · exact Or.inr (Or.inl h1)
          · cases h1
        · intro b hb
          have := mem_succs hg ha hb
          exact H.qk a (by rw [hq]; simp) b this.1 this.2
      obtain ⟨⟨h2, H2⟩, hf⟩ := H1.visit hg false ha
      have hmeas := hf.meas
      have hlen : s.sourceQ.length = r.length + 1 := by rw [hq]; rfl
      have h5 : (g.atoms.filter fun a => ({ s with sourceQ := r } : St).vw.V a).length = (g.atoms.filter fun a => s.vw.V a).length := rfl
      have h6 : ({ s with sourceQ := r } : St).sourceQ.length = r.length := rfl
      obtain ⟨hh, hqq, hf'⟩ := ih _ h2 H2.cur_irrel (by omega)
      refine ⟨hh, hqq, ?_⟩
      have hf0 : RFrame g s { s with sourceQ := r } :=
        ⟨rfl, fun _ h => h, fun _ h => h, fun _ => rfl, rfl, rfl, rfl, fun _ => rfl, fun _ => rfl, fun _ _ h => h, by omega⟩
      exact (hf0.trans hf).trans hf'

/-- `propagateSource` after sources were removed: it comes to an end, and the invariant holds. -/
theorem Rem.propagate (hg : GWf g) (H : Rem g isF Lo s h Ex Q 0 []) :
    (∃ h', Rem g isF Lo (propagateSource g isF s) h' Ex Q 0 []) ∧
    (propagateSource g isF s).sourceQ = [] ∧ RFrame g s (propagateSource g isF s) :=
  Rem.loop hg _ s h H (filter_disjoint_len g.atoms s.sourceQ hg.atomsNd H.qnd _ fun a ha => ⟨(H.qV a ha).1, (H.qV a ha).2⟩)

theorem Rem.removeHead (hg : GWf g) (H : Rem g isF Lo s h Ex Q cur R) {a b : Nat} (ha : a ∈ g.atoms) :
    Rem g isF Lo (removeHead s b a) h Ex Q cur R ∧ RFrame g s (removeHead s b a) ∧
    (s.vw.W a = some b → (removeHead s b a).vw.V a = false ∧ ((removeHead s b a).atoms a).todo = true) := by
  unfold Ufs.removeHead
  by_cases hW : ((s.atoms a).source == some b) = true
  · simp only [if_pos hW]
    by_cases hV : (s.atoms a).valid = true
    · simp only [if_pos hV]
      obtain ⟨h1, h2⟩ := H.unset hg ha hV
      obtain ⟨h3, h4⟩ := h1.pushTodo ha
      refine ⟨h3, h2.trans h4, fun _ => ⟨?_, (pushTodo_flag _ _ _).2 (Or.inr rfl)⟩⟩
      rw [vw_pushTodo]
      have : (s.invalidate a).vw = { s.vw with V := Function.update s.vw.V a false } := vw_setV s a false
      rw [this]; simp
    · simp only [if_neg hV]
      obtain ⟨h3, h4⟩ := H.pushTodo ha
      refine ⟨h3, h4, fun _ => ⟨?_, (pushTodo_flag _ _ _).2 (Or.inr rfl)⟩⟩
      rw [vw_pushTodo]
      exact Bool.eq_false_iff.2 hV
  · simp only [if_neg hW]
    exact ⟨H, RFrame.refl g s, fun h => absurd (beq_iff_eq.2 h) hW⟩

/-- `removeSource` -/
theorem Rem.removeSource (hg : GWf g) (H : Rem g isF Lo s h Ex Q 0 []) {b : Nat} (hb : b ∈ g.bodies) :
    (∃ h', Rem g isF Lo (removeSource g isF s b) h' Ex Q 0 []) ∧ (removeSource g isF s b).sourceQ = [] ∧ RFrame g s (removeSource g isF s b) ∧
    ∀ a ∈ g.atoms, s.vw.W a = some b → (removeSource g isF s b).vw.V a = false ∧ ((removeSource g isF s b).atoms a).todo = true := by
  have main : ∀ l : List Nat, (∀ a ∈ l, a ∈ g.atoms) → ∀ s, Rem g isF Lo s h Ex Q 0 [] →
      Rem g isF Lo (l.foldl (fun s a => Ufs.removeHead s b a) s) h Ex Q 0 [] ∧ RFrame g s (l.foldl (fun s a => Ufs.removeHead s b a) s) ∧
      ∀ a ∈ l, s.vw.W a = some b → (l.foldl (fun s a => Ufs.removeHead s b a) s).vw.V a = false ∧ ((l.foldl (fun s a => Ufs.removeHead s b a) s).atoms a).todo = true := by
    intro l
    induction l with
    | nil => exact fun _ s H => ⟨H, RFrame.refl g s, fun a ha => by cases ha⟩
    | cons x l ih =>
      intro hm s H
      obtain ⟨h1, h2, h3⟩ := H.removeHead (b := b) hg (hm x (by simp))
      obtain ⟨h4, h5, h6⟩ := ih (fun a ha => hm a (by simp [ha])) _ h1
      rw [List.foldl_cons]
      refine ⟨h4, h2.trans h5, fun a ha hW => ?_⟩
      rcases List.mem_cons.1 ha with rfl | ha
      · obtain ⟨h7, h8⟩ := h3 hW
        refine ⟨?_, h5.td a h8⟩
        cases hV : (l.foldl (fun s a => Ufs.removeHead s b a) (Ufs.removeHead s b a)).vw.V a with
        | false => rfl
        | true => rw [h5.anti a hV] at h7; cases h7
      · exact h6 a ha (by rw [h2.W]; exact hW)
  obtain ⟨h1, h2, h3⟩ := main (g.body b).heads (fun a ha => (hg.heads b hb a ha).1) s H
  obtain ⟨h4, h5, h6⟩ := h1.propagate hg
  unfold Ufs.removeSource
  refine ⟨h4, h5, h2.trans h6, fun a ha hW => ?_⟩
  obtain ⟨h7, h8⟩ := h3 a (H.core.hd a ha b hW).2 hW
  refine ⟨?_, h6.td a h8⟩
  cases hV : (propagateSource g isF ((g.body b).heads.foldl (fun s a => Ufs.removeHead s b a) s)).vw.V a with
  | false => rfl
  | true => rw [h6.anti a hV] at h7; cases h7

/-- Proof device: an event that `watches` can produce. -/
def EvOk (g : UGraph) : Ev → Prop
  | .source b => b ∈ g.bodies
  | .head a => a ∈ g.atoms
  | .sub b _ => b ∈ g.bodies ∧ (g.body b).ext = true

/-- Proof device: the parts of the state that `updateAssignment` does not change. -/
structure UFrame (s s' : St) : Prop where
  uf : ∀ a, (s'.atoms a).ufs = (s.atoms a).ufs
  ufs : s'.ufs = s.ufs
  ufsDone : s'.ufsDone = s.ufsDone
  slack : ∀ b, (s'.bodies b).slack = (s.bodies b).slack

theorem RFrame.u {s s' : St} (h : RFrame g s s') : UFrame s s' := ⟨h.uf, h.ufs, h.ufsDone, h.slack⟩
theorem UFrame.trans {s t u : St} (h1 : UFrame s t) (h2 : UFrame t u) : UFrame s u :=
  ⟨fun a => (h2.uf a).trans (h1.uf a), h2.ufs.trans h1.ufs, h2.ufsDone.trans h1.ufsDone, fun b => (h2.slack b).trans (h1.slack b)⟩

/-- one event in `updateAssignment` -/
theorem Rem.handle (hg : GWf g) {e : Ev} (H : Rem g isF Lo s h (fun b => isF (g.body b).lit = true) (e :: Q) 0 []) (hq : s.sourceQ = []) (he : EvOk g e) :
    (∃ h', Rem g isF Lo (handleEv g isF s e) h' (fun b => isF (g.body b).lit = true) Q 0 []) ∧ (handleEv g isF s e).sourceQ = [] ∧ UFrame s (handleEv g isF s e) := by
  cases e with
  | source b =>
    obtain ⟨⟨h', H'⟩, hq', hf, hd⟩ := H.removeSource hg he
    unfold handleEv
    dsimp only
    refine ⟨⟨h', { H' with wsQ := ?_, srcQ := ?_, obl := ?_ }⟩, hq', hf.u⟩
    · intro c hc hce i hw hF
      have := H'.wsQ c hc hce i hw hF
      simpa using this
    · intro a ha c hV hW hF
      have := H'.srcQ a ha c hV hW hF
      rcases List.mem_cons.1 this with h1 | h1
      · cases h1
        rw [hf.W] at hW
        rw [(hd a ha hW).1] at hV; cases hV
      · exact h1
    · intro a ha hF
      rcases H'.obl a ha hF with h1 | h1 | ⟨c, h1, h2⟩
      · exact Or.inl h1
      · exact Or.inr (Or.inl h1)
      · rcases h2 with ⟨h2, h3⟩ | ⟨h2, h3⟩
        · rcases List.mem_cons.1 h3 with h4 | h4
          · cases h4
            rw [hf.W] at h1
            exact Or.inl (hd a ha h1).2
          · exact Or.inr (Or.inr ⟨c, h1, Or.inl ⟨h2, h4⟩⟩)
        · refine Or.inr (Or.inr ⟨c, h1, Or.inr ⟨h2, fun hs hce i hG hiF => ?_⟩⟩)
          simpa using h3 hs hce i hG hiF
  | head a =>
    have ha : a ∈ g.atoms := he
    have weak : ∀ {s : St} {h : Gh}, Rem g isF Lo s h (fun b => isF (g.body b).lit = true) (Ev.head a :: Q) 0 [] →
        Rem g isF Lo s h (fun b => isF (g.body b).lit = true) Q 0 [] := by
      intro s h H
      refine { H with wsQ := ?_, srcQ := ?_, obl := ?_ }
      · intro c hc hce i hw hF
        have := H.wsQ c hc hce i hw hF
        simpa using this
      · intro a ha c hV hW hF
        have := H.srcQ a ha c hV hW hF
        simpa using this
      · intro a ha hF
        rcases H.obl a ha hF with h1 | h1 | ⟨c, h1, h2⟩
        · exact Or.inl h1
        · exact Or.inr (Or.inl h1)
        · refine Or.inr (Or.inr ⟨c, h1, ?_⟩)
          simpa using h2
    unfold handleEv
    dsimp only
    cases hW : (s.atoms a).source with
    | none => exact ⟨⟨h, weak H⟩, hq, (RFrame.refl g s).u⟩
    | some b =>
      dsimp only
      split
      · rename_i hc
        simp only [Bool.and_eq_true] at hc
        have hV : s.vw.V a = true := hc.1
        obtain ⟨hi1, hi2⟩ := H.unset hg ha hV
        have hqe : (s.invalidate a).sourceQ = [a] := by show s.sourceQ ++ [a] = [a]; rw [hq]; rfl
        have hs : s.setA a { s.atoms a with valid := false } = { s.invalidate a with sourceQ := [] } := by
          unfold St.invalidate St.setA; rw [← hq]
        rw [← hW, hs]
        have H1 : Rem g isF Lo { s.invalidate a with sourceQ := [] } h (fun b => isF (g.body b).lit = true) (Ev.head a :: Q) a
            ((g.atom a).succs ++ (g.atom a).extSuccs.map Prod.fst) := by
          refine ⟨hi1.core, hi1.Vk, ?_, fun x hx => (by cases hx), List.nodup_nil, fun x hx => (by cases hx), ?_, fun _ => ⟨?_, by simp⟩,
            hi1.lowG, hi1.lowW, hi1.lowS, hi1.wsQ, hi1.srcQ, hi1.obl, hi1.pick, hi1.tdo⟩
          · intro c hc p hp hk
            rcases hi1.pend c hc p hp hk with h1 | h1 | ⟨_, h1⟩
            · exact Or.inl h1
            · rw [hqe] at h1
              rw [List.mem_singleton.1 h1] at hp ⊢
              exact Or.inr (Or.inr ⟨rfl, succs_mem hg hc hp⟩)
            · cases h1
          · intro c hc
            have := mem_succs hg ha hc
            exact hi1.qk a (by rw [hqe]; simp) c this.1 this.2
          · exact (hi1.qV a (by rw [hqe]; simp)).2
        obtain ⟨⟨h2, H2⟩, hf2⟩ := H1.visit hg true ha
        obtain ⟨⟨h3, H3⟩, hq3, hf3⟩ := H2.cur_irrel.propagate hg
        refine ⟨⟨h3, weak H3⟩, hq3, ?_⟩
        have hu0 : UFrame s ({ s.invalidate a with sourceQ := [] } : St) := ⟨hi2.uf, hi2.ufs, hi2.ufsDone, hi2.slack⟩
        exact (hu0.trans hf2.u).trans hf3.u
      · exact ⟨⟨h, weak H⟩, hq, (RFrame.refl g s).u⟩
  | sub b i =>
    obtain ⟨hb, hbe⟩ := he
    obtain ⟨h1, hk1, H1, hf1, hw1⟩ := H.fromWs hg i hb hbe
    unfold handleEv
    dsimp only
    generalize hs1 : s.removeFromWs g b i = s1 at *
    have hq1 : s1.sourceQ = [] := by
      rw [← hs1]; unfold St.removeFromWs
      split
      · exact hq
      · exact hq
    -- with the heads of `b` taken care of, the event is done
    have fin : ∀ {t : St} {h2 : Gh}, Rem g isF Lo t h2 (fun c => isF (g.body c).lit = true ∨ (c = b ∧ 0 < s1.vw.L b)) (Ev.sub b i :: Q) 0 [] →
        t.vw.ws b i = false → (∀ a ∈ g.atoms, t.vw.W a = some b → (t.vw.L b ≤ 0) ∨ isF (g.body b).lit = true ∨ (t.vw.V a = false ∧ (t.atoms a).todo = true)) →
        Rem g isF Lo t h2 (fun c => isF (g.body c).lit = true) Q 0 [] := by
      intro t h2 H2 hw hd
      have H3 := H2.drop (Ex' := fun c => isF (g.body c).lit = true) fun a ha c hV hW hs hx => by
        rcases hx with hx | ⟨rfl, _⟩
        · exact Or.inr hx
        · rcases hd a ha hW with h4 | h4 | ⟨h4, _⟩
          · exact Or.inl h4
          · exact Or.inr h4
          · rw [h4] at hV; cases hV
      refine { H3 with wsQ := ?_, srcQ := ?_, obl := ?_ }
      · intro c hc hce j hwj hF
        rcases List.mem_cons.1 (H2.wsQ c hc hce j hwj hF) with h4 | h4
        · cases h4; rw [hw] at hwj; cases hwj
        · exact h4
      · intro a ha c hV hW hF
        have := H2.srcQ a ha c hV hW hF
        simpa using this
      · intro a ha hF
        rcases H2.obl a ha hF with h4 | h4 | ⟨c, h4, h5⟩
        · exact Or.inl h4
        · exact Or.inr (Or.inl h4)
        · rcases h5 with ⟨h5, h6⟩ | ⟨h5, h6⟩
          · exact Or.inr (Or.inr ⟨c, h4, Or.inl ⟨h5, by simpa using h6⟩⟩)
          · by_cases e : c = b
            · subst e
              rcases hd a ha h4 with h7 | h7 | ⟨_, h7⟩
              · refine Or.inr (Or.inr ⟨c, h4, Or.inr ⟨h5, fun hs hce j hG hjF => ?_⟩⟩)
                rcases List.mem_cons.1 (h6 hs hce j hG hjF) with h8 | h8
                · cases h8
                  rw [H2.core.gws c hb hbe h7, hw] at hG; cases hG
                · exact h8
              · rw [h5] at h7; cases h7
              · exact Or.inl h7
            · refine Or.inr (Or.inr ⟨c, h4, Or.inr ⟨h5, fun hs hce j hG hjF => ?_⟩⟩)
              rcases List.mem_cons.1 (h6 hs hce j hG hjF) with h8 | h8
              · cases h8; exact absurd rfl e
              · exact h8
    by_cases hc : (decide (0 < (s1.bodies b).lower) && (s1.bodies b).watches != 0 && !(s1.bodies b).picked && !isF (g.body b).lit) = true
    · rw [if_pos hc]
      obtain ⟨⟨h2, H2⟩, hq2, hf2, hd2⟩ := H1.removeSource hg hb
      generalize hs2 : Ufs.removeSource g isF s1 b = s2 at *
      -- removing sources never adds to a watch set
      have hw2 : s2.vw.ws b i = false := by
        cases hw : s2.vw.ws b i with
        | false => rfl
        | true =>
          exfalso
          rw [hf2.wsm b i hw] at hw1; cases hw1
      have H3 := fin H2 hw2 fun a ha hW => Or.inr (Or.inr (hd2 a ha (by rw [← hf2.W]; exact hW)))
      have hv : (s2.setB b { s2.bodies b with picked := true }).vw = s2.vw := by
        ext x <;> by_cases e : x = b <;> simp [St.vw, St.setB, Function.update_apply, e]
      refine ⟨⟨h2, ?_⟩, hq2, ?_⟩
      · refine ⟨by rw [hv]; exact H3.core, by rw [hv]; exact H3.Vk, by rw [hv]; exact H3.pend, by rw [hv]; exact H3.qV, H3.qnd, H3.qk, H3.ck,
          by rw [hv]; exact H3.cV, by rw [hv]; exact H3.lowG, by rw [hv]; exact H3.lowW, by rw [hv]; exact H3.lowS, by rw [hv]; exact H3.wsQ,
          by rw [hv]; exact H3.srcQ, by rw [hv]; exact H3.obl, ?_, H3.tdo⟩
        intro c hc a ha hW
        rw [hv] at hW ⊢
        by_cases e : c = b
        · subst e
          exact hd2 a ha (by rw [← hf2.W]; exact hW)
        · refine H3.pick c ?_ a ha hW
          simpa [St.setB, Function.update_of_ne e] using hc
      · have : UFrame s2 (s2.setB b { s2.bodies b with picked := true }) :=
          ⟨fun _ => rfl, rfl, rfl, fun x => by by_cases e : x = b <;> simp [St.setB, Function.update_apply, e]⟩
        exact (hf1.u.trans hf2.u).trans this
    · rw [if_neg hc]
      refine ⟨⟨h1, fin H1 hw1 fun a ha hW => ?_⟩, hq1, hf1.u⟩
      by_cases hL : s1.vw.L b ≤ 0
      · exact Or.inl hL
      right
      cases hbF : isF (g.body b).lit with
      | true => exact Or.inl rfl
      | false =>
        right
        cases hp : (s1.bodies b).picked with
        | true => exact H1.pick b hp a ha hW
        | false =>
          refine absurd ?_ hc
          simp only [Bool.and_eq_true, decide_eq_true_eq, bne_iff_ne, ne_eq, Bool.not_eq_true']
          exact ⟨⟨⟨by show 0 < s1.vw.L b; omega, fun h0 => H1.core.noWatch hb h0 a ha hW⟩, hp⟩, hbF⟩

end Clasp.Ufs
