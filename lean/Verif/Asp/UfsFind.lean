import Verif.Asp.UfsRem

/-! Finding new sources and unfounded sets (C29). No code is modelled in this file; it contains proof devices only. -/

namespace Clasp.Ufs
open Clasp.Core

variable {g : UGraph} {isF : Lit → Bool} {Req : (Lit → Bool) → Nat → Prop} {Lo : List (Lit → Bool)} {s : St} {h : Gh} {T : Nat → Prop}

/-! ### `updateAssignment` -/

theorem Rem.events (hg : GWf g) : ∀ (Q : List Ev) (s : St) (h : Gh), (∀ e ∈ Q, EvOk g e) →
    Rem g isF Lo s h (fun b => isF (g.body b).lit = true) Q 0 [] → s.sourceQ = [] →
    (∃ h', Rem g isF Lo (Q.foldl (fun s e => handleEv g isF s e) s) h' (fun b => isF (g.body b).lit = true) [] 0 []) ∧
    (Q.foldl (fun s e => handleEv g isF s e) s).sourceQ = [] ∧ UFrame s (Q.foldl (fun s e => handleEv g isF s e) s)
  | [], s, h, _, H, hq => ⟨⟨h, H⟩, hq, (RFrame.refl g s).u⟩
  | e :: Q, s, h, he, H, hq => by
    obtain ⟨⟨h1, H1⟩, hq1, hf1⟩ := H.handle hg hq (he e (by simp))
    obtain ⟨h2, h3, h4⟩ := Rem.events hg Q _ h1 (fun x hx => he x (by simp [hx])) H1 hq1
    exact ⟨h2, h3, hf1.trans h4⟩

/-- Proof device: the invariant between the operations of the checker. -/
structure MInv (g : UGraph) (isF : Lit → Bool) (Lo : List (Lit → Bool)) (s : St) (h : Gh) : Prop where
  rem : Rem g isF Lo s h (fun _ => False) s.invalidQ 0 []
  sq : s.sourceQ = []
  pk : ∀ b, (s.bodies b).picked = false
  ev : ∀ e ∈ s.invalidQ, EvOk g e

theorem MInv.update (hg : GWf g) (H : MInv g isF Lo s h) :
    (∃ h', MInv g isF Lo (updateAssignment g isF s) h') ∧ (updateAssignment g isF s).invalidQ = [] ∧ UFrame s (updateAssignment g isF s) := by
  obtain ⟨⟨h1, H1⟩, hq1, hf1⟩ := Rem.events hg s.invalidQ s h H.ev (H.rem.drop fun _ _ _ _ _ _ hx => hx.elim) H.sq
  unfold updateAssignment
  generalize hs1 : s.invalidQ.foldl (fun s e => handleEv g isF s e) s = s1 at *
  have H2 := H1.drop (Ex' := fun _ => False) fun a ha b hV hW _ hx => by
    have := H1.srcQ a ha b hV hW hx
    cases this
  refine ⟨⟨h1, ⟨⟨H2.core, H2.Vk, H2.pend, H2.qV, H2.qnd, H2.qk, H2.ck, H2.cV, H2.lowG, H2.lowW, H2.lowS, H2.wsQ, H2.srcQ, H2.obl, ?_, H2.tdo⟩, hq1, fun _ => rfl, ?_⟩⟩, rfl, ?_⟩
  · intro b hb; cases hb
  · intro e he; cases he
  · exact ⟨hf1.uf, hf1.ufs, hf1.ufsDone, fun b => hf1.slack b⟩

/-! ### Looking for a source -/

theorem Add.congr {s s' : St} (hv : s'.vw = s.vw) (hq : s'.sourceQ = s.sourceQ) {cur : Nat} {R : List Nat} (H : Add g isF Req s h cur R) :
    Add g isF Req s' h cur R := by
  refine ⟨by rw [hv]; exact H.core, by rw [hv]; exact H.kV, by rw [hv, hq]; exact H.pend, by rw [hv, hq]; exact H.qV, by rw [hq]; exact H.qnd,
    by rw [hq]; exact H.qk, H.ck, by rw [hv, hq]; exact H.cV, by rw [hv]; exact H.wsF, by rw [hv]; exact H.srcF, by rw [hv]; exact H.good⟩

/-- an atom with a source has a good one -/
theorem Add.good_V (H : Add g isF Req s h 0 []) {a : Nat} (ha : a ∈ g.atoms) (hV : s.vw.V a = true) : Good g h.G s.vw isF a := by
  obtain ⟨b, hb⟩ := H.core.src a ha hV
  have hbb := (H.core.hd a ha b hb).1
  refine ⟨b, hb, H.srcF a ha b hV hb, fun hs he i hG => ?_⟩
  rcases H.core.just a ha b hV hb hs with h1 | h1
  · rw [H.core.gws b hbb he h1] at hG
    exact H.wsF b hbb he i hG
  · exact h1.elim

/-- filling the watch set of an extended body: one position -/
theorem Add.refill (hg : GWf g) (hR : ∀ f a, Req f a → ∀ p, f p = true → isF p = true) (H : Add g isF Req s h 0 []) (hq : s.sourceQ = [])
    {b i : Nat} (hb : b ∈ g.bodies) (he : (g.body b).ext = true) (hi : i < (g.subs b).length)
    (hnV : ∀ a ∈ g.atoms, s.vw.W a = some b → (g.body b).scc = (g.atom a).scc → s.vw.V a = false) :
    (∃ h', h'.k = h.k ∧ Add g isF Req (refill g isF b s i) h' 0 []) ∧ Frame g s (refill g isF b s i) ∧ (refill g isF b s i).sourceQ = [] ∧
    (refill g isF b s i).vw.V = s.vw.V ∧ (refill g isF b s i).vw.W = s.vw.W ∧
    (∀ c, c ≠ b → (refill g isF b s i).vw.L c = s.vw.L c ∧ (refill g isF b s i).vw.ws c = s.vw.ws c) ∧
    (∀ j, s.vw.ws b j = true → (refill g isF b s i).vw.ws b j = true) ∧
    (isF (g.slit b i) = false → (∀ p, g.pr b i = some p → h.k b p = true) → (refill g isF b s i).vw.ws b i = true) ∧
    (Full g isF h.k s.vw b → refill g isF b s i = s) := by
  have hval : ∀ p, g.pr b i = some p → posValid g s b i = s.vw.V p := by
    intro p hp
    unfold UGraph.pr at hp
    unfold posValid
    cases hx : (g.body b).preds[i]? with
    | none => rw [hx] at hp; cases hp
    | some x => rw [hx] at hp; simp at hp; subst hp; rfl
  have hval' : g.pr b i = none → posValid g s b i = true := by
    intro hp
    unfold UGraph.pr at hp
    unfold posValid
    cases hx : (g.body b).preds[i]? with
    | none => rfl
    | some x => rw [hx] at hp; cases hp
  have hkV : ∀ p, g.pr b i = some p → (h.k b p = true ↔ s.vw.V p = true) := by
    intro p hp
    refine ⟨H.kV b hb p (pr_pre hp), fun hV => ?_⟩
    rcases H.pend b hb p (pr_pre hp) hV with h1 | h1 | ⟨_, h1⟩
    · exact h1
    · rw [hq] at h1; cases h1
    · cases h1
  unfold Ufs.refill
  by_cases hc : (!(s.bodies b).ws i && !isF (g.slit b i) && posValid g s b i) = true
  · rw [if_pos hc]
    simp only [Bool.and_eq_true, Bool.not_eq_true'] at hc
    obtain ⟨⟨hw0, hF⟩, hval1⟩ := hc
    have hw0' : s.vw.ws b i = false := hw0
    have hk : ∀ p, g.pr b i = some p → h.k b p = true := by
      intro p hp
      rw [hval p hp] at hval1
      exact (hkV p hp).2 hval1
    obtain ⟨h1, hk1, hG1, hcore1⟩ := H.core.wsAdd hg H.kV hb he hi hw0' hk hnV
    have hvw := vw_addToWs (g := g) s b i
    have hws : ∀ c ∈ g.bodies, (g.body c).ext = true → ∀ j, (s.vw.setWs b i true (s.vw.L b - g.weight b i)).ws c j = true → isF (g.slit c j) = false := by
      intro c hc hce j hj
      by_cases e : c = b ∧ j = i
      · rw [e.1, e.2]; exact hF
      · refine H.wsF c hc hce j ?_
        simp only [Vw.setWs] at hj
        by_cases e1 : c = b
        · subst e1
          have e2 : j ≠ i := fun e2 => e ⟨rfl, e2⟩
          rw [Function.update_self, Function.update_of_ne e2] at hj; exact hj
        · rw [Function.update_of_ne e1] at hj; exact hj
    refine ⟨⟨h1, hk1, ?_⟩, ?_, hq, by rw [hvw]; rfl, by rw [hvw]; rfl, ?_, ?_, ?_, ?_⟩
    · constructor
      · rw [hvw]; exact hcore1
      · rw [hvw, hk1]; exact H.kV
      · rw [hvw, hk1]; exact H.pend
      · rw [hvw]; exact H.qV
      · exact H.qnd
      · rw [hk1]; exact H.qk
      · exact fun _ hb => (by cases hb)
      · exact fun hn => absurd rfl hn
      · rw [hvw]; exact hws
      · rw [hvw]; exact H.srcF
      · rw [hvw, hG1]
        intro f a hr
        obtain ⟨c, h2, h3, h4⟩ := H.good f a hr
        refine ⟨c, h2, h3, fun hs hce j hG => ?_⟩
        by_cases e : c = b ∧ s.vw.L b - g.weight b i ≤ 0
        · obtain ⟨rfl, hle⟩ := e
          unfold newG at hG
          rw [if_pos hle, Function.update_self] at hG
          have := hws c hb he j (by simp only [Vw.setWs, Function.update_self]; exact hG)
          cases hfb : f (g.slit c j) with
          | false => rfl
          | true => rw [hR f a hr _ hfb] at this; cases this
        · refine h4 hs hce j ?_
          unfold newG at hG
          by_cases hle : s.vw.L b - g.weight b i ≤ 0
          · rw [if_pos hle] at hG
            have : c ≠ b := fun e1 => e ⟨e1, hle⟩
            rw [Function.update_of_ne this] at hG; exact hG
          · rw [if_neg hle] at hG; exact hG
    · refine ⟨fun _ => rfl, fun _ => rfl, rfl, rfl, rfl, rfl, fun x => ?_, fun x => ?_, ?_, ?_⟩
      · by_cases e : x = b <;> simp [St.addToWs, St.setB, Function.update_apply, e]
      · by_cases e : x = b <;> simp [St.addToWs, St.setB, Function.update_apply, e]
      · rw [hvw]; exact fun _ h => h
      · rw [hvw]; exact Nat.le_refl _
    · intro c e; rw [hvw]; simp [Vw.setWs, Function.update_of_ne e]
    · intro j hj
      rw [hvw]
      simp only [Vw.setWs, Function.update_self]
      by_cases e : j = i
      · subst e; simp
      · rw [Function.update_of_ne e]; exact hj
    · intro _ _; rw [hvw]; simp [Vw.setWs]
    · intro hfull
      rw [hfull he i hi hF hk] at hw0'; cases hw0'
  · rw [if_neg hc]
    refine ⟨⟨h, rfl, H⟩, Frame.refl g s, hq, rfl, rfl, fun _ _ => ⟨rfl, rfl⟩, fun _ h => h, ?_, fun _ => rfl⟩
    intro hF hk
    cases hw : s.vw.ws b i with
    | true => rfl
    | false =>
      refine absurd ?_ hc
      simp only [Bool.and_eq_true, Bool.not_eq_true']
      refine ⟨⟨hw, hF⟩, ?_⟩
      cases hp : g.pr b i with
      | none => exact hval' hp
      | some p => rw [hval p hp]; exact (hkV p hp).1 (hk p hp)

theorem Add.refillAll (hg : GWf g) (hR : ∀ f a, Req f a → ∀ p, f p = true → isF p = true)
    {b : Nat} (hb : b ∈ g.bodies) (he : (g.body b).ext = true) : ∀ (l : List Nat) (s : St) (h : Gh), (∀ i ∈ l, i < (g.subs b).length) →
    Add g isF Req s h 0 [] → s.sourceQ = [] →
    (∀ a ∈ g.atoms, s.vw.W a = some b → (g.body b).scc = (g.atom a).scc → s.vw.V a = false) →
    (∃ h', h'.k = h.k ∧ Add g isF Req (l.foldl (Ufs.refill g isF b) s) h' 0 []) ∧ Frame g s (l.foldl (Ufs.refill g isF b) s) ∧ (l.foldl (Ufs.refill g isF b) s).sourceQ = [] ∧
    (l.foldl (Ufs.refill g isF b) s).vw.V = s.vw.V ∧
    (∀ c, c ≠ b → (l.foldl (Ufs.refill g isF b) s).vw.L c = s.vw.L c ∧ (l.foldl (Ufs.refill g isF b) s).vw.ws c = s.vw.ws c) ∧
    (∀ j, s.vw.ws b j = true → (l.foldl (Ufs.refill g isF b) s).vw.ws b j = true) ∧
    (∀ i ∈ l, isF (g.slit b i) = false → (∀ p, g.pr b i = some p → h.k b p = true) → (l.foldl (Ufs.refill g isF b) s).vw.ws b i = true) ∧
    (Full g isF h.k s.vw b → l.foldl (Ufs.refill g isF b) s = s) := by
  intro l
  induction l with
  | nil => exact fun s h _ H hq _ => ⟨⟨h, rfl, H⟩, Frame.refl g s, hq, rfl, fun _ _ => ⟨rfl, rfl⟩, fun _ h => h, fun i hi => (by cases hi), fun _ => rfl⟩
  | cons i l ih =>
    intro s h hl H hq hnV
    obtain ⟨⟨h1, hk1, H1⟩, hf1, hq1, hV1, hW1, hne1, hws1, hin1, hful1⟩ := H.refill hg hR hq hb he (hl i (by simp)) hnV
    obtain ⟨⟨h2, hk2, H2⟩, hf2, hq2, hV2, hne2, hws2, hin2, hful2⟩ := ih _ h1 (fun j hj => hl j (by simp [hj])) H1 hq1
      (fun a ha hW hs => by rw [hV1]; rw [hW1] at hW; exact hnV a ha hW hs)
    rw [List.foldl_cons]
    refine ⟨⟨h2, hk2.trans hk1, H2⟩, hf1.trans hf2, hq2, hV2.trans hV1, fun c e => ⟨(hne2 c e).1.trans (hne1 c e).1, (hne2 c e).2.trans (hne1 c e).2⟩,
      fun j hj => hws2 j (hws1 j hj), ?_, ?_⟩
    · intro j hj hF hk
      rcases List.mem_cons.1 hj with rfl | hj
      · exact hws2 j (hin1 hF hk)
      · exact hin2 j hj hF (by rw [hk1]; exact hk)
    · intro hful
      have e := hful1 hful
      rw [e] at hful2 ⊢
      exact hful2 (by rw [hk1]; exact hful)

/-- `isValidSource` -/
theorem Add.validSource (hg : GWf g) (hR : ∀ f a, Req f a → ∀ p, f p = true → isF p = true) (hT : ∀ a, T a → a ∈ g.atoms ∧ isF (g.atom a).lit = false)
    (H : Add g isF Req s h 0 []) (hq : s.sourceQ = []) (ht : Tr g isF T h.k s.vw) {b : Nat} (hb : b ∈ g.bodies) (hbF : isF (g.body b).lit = false) :
    ∃ ok s', isValidSource g isF s b = (ok, s') ∧ (∃ h', h'.k = h.k ∧ Add g isF Req s' h' 0 []) ∧ Frame g s s' ∧ s'.sourceQ = [] ∧ s'.vw.V = s.vw.V ∧
    Tr g isF T h.k s'.vw ∧ (∀ c, c ≠ b → s'.vw.L c = s.vw.L c ∧ s'.vw.ws c = s.vw.ws c) ∧ (ok = true → s'.vw.L b ≤ 0) ∧
    (ok = false → 0 < s'.vw.L b ∧ Full g isF h.k s'.vw b) ∧ (0 < s.vw.L b → Full g isF h.k s.vw b → s' = s) := by
  unfold isValidSource
  cases he : (g.body b).ext with
  | false =>
    have hc := H.core.cntN b hb he
    refine ⟨_, s, rfl, ⟨h, rfl, H⟩, Frame.refl g s, hq, rfl, ht, fun _ _ => ⟨rfl, rfl⟩, fun hok => ?_, fun hok => ⟨?_, fun hext => ?_⟩, fun _ _ => rfl⟩
    · simp at hok
      show (s.bodies b).lower ≤ 0
      omega
    · simp at hok
      have h1 : s.vw.L b ≠ 0 := hok
      omega
    · rw [he] at hext; cases hext
  | true =>
    have hn : ¬ (!true) = true := by simp
    rw [if_neg hn]
    by_cases hL : 0 < (s.bodies b).lower
    · rw [if_pos hL]
      obtain ⟨⟨h1, hk1, H1⟩, hf1, hq1, hV1, hne1, _, hin1, hful1⟩ := H.refillAll hg hR hb he (List.range (g.subs b).length) s h
        (fun i hi => List.mem_range.1 hi) hq (H.core.unsourced hb (Or.inl hL))
      dsimp only
      generalize (List.range (g.subs b).length).foldl (Ufs.refill g isF b) s = s1 at *
      have hfull : Full g isF h.k s1.vw b := fun _ i hi hF hk => hin1 i (List.mem_range.2 hi) hF hk
      refine ⟨_, s1, rfl, ⟨h1, hk1, H1⟩, hf1, hq1, hV1, ?_, hne1, fun hok => ?_, fun hok => ⟨?_, hfull⟩, fun _ hf => hful1 hf⟩
      · refine ht.heads hg hT (b := b) (fun a hV => by rw [hV1]; exact hV) (fun c _ e => (hne1 c e).1) (fun c _ e => (hne1 c e).2) (fun _ _ => rfl) ?_
        right; right
        intro h0 hf
        rw [hful1 hf]
        exact ⟨h0, hf⟩
      · simp at hok; exact hok
      · simp at hok; exact hok
    · rw [if_neg hL]
      refine ⟨true, s, rfl, ⟨h, rfl, H⟩, Frame.refl g s, hq, rfl, ht, fun _ _ => ⟨rfl, rfl⟩, fun _ => ?_, fun hok => (by cases hok), fun _ _ => rfl⟩
      show (s.bodies b).lower ≤ 0
      omega

theorem vw_setUfs (s : St) (a : Nat) (t : Bool) : (s.setA a { s.atoms a with ufs := t }).vw = s.vw := by
  ext x <;> by_cases e : x = a <;> simp [St.vw, St.setA, Function.update_apply, e]

theorem vw_pushUfs (s : St) (a : Nat) : (s.pushUfs a).vw = s.vw := by
  unfold St.pushUfs
  split
  · rfl
  · exact vw_setUfs s a true

/-- Proof device: what looking for sources leaves alone. -/
structure FFrame (s s' : St) : Prop where
  td : ∀ a, (s'.atoms a).todo = (s.atoms a).todo
  todo : s'.todo = s.todo
  inv : s'.invalidQ = s.invalidQ
  pick : ∀ b, (s'.bodies b).picked = (s.bodies b).picked
  slack : ∀ b, (s'.bodies b).slack = (s.bodies b).slack
  mono : ∀ a, s.vw.V a = true → s'.vw.V a = true

theorem Frame.f {s s' : St} (h : Frame g s s') : FFrame s s' := ⟨h.td, h.todo, h.inv, h.pick, h.slack, h.mono⟩
theorem FFrame.refl (s : St) : FFrame s s := ⟨fun _ => rfl, rfl, rfl, fun _ => rfl, fun _ => rfl, fun _ h => h⟩
theorem FFrame.trans {s t u : St} (h1 : FFrame s t) (h2 : FFrame t u) : FFrame s u :=
  ⟨fun a => (h2.td a).trans (h1.td a), h2.todo.trans h1.todo, h2.inv.trans h1.inv, fun b => (h2.pick b).trans (h1.pick b), fun b => (h2.slack b).trans (h1.slack b),
    fun a h => h2.mono a (h1.mono a h)⟩

/-- Proof device: the queue of `findSource` and its flags. -/
structure FI (g : UGraph) (isF : Lit → Bool) (c : Nat) (s : St) : Prop where
  nd : (s.ufsDone ++ s.ufs).Nodup
  mem : ∀ x ∈ s.ufsDone ++ s.ufs, x ∈ g.atoms ∧ isF (g.atom x).lit = false ∧ (g.atom x).scc = c
  fl : ∀ x, (s.atoms x).ufs = true → x ∈ s.ufsDone ++ s.ufs
  fq : ∀ x ∈ s.ufs, (s.atoms x).ufs = true
  fd : ∀ x ∈ s.ufsDone, (s.atoms x).ufs = true ∨ s.vw.V x = true

theorem FI.frame {c : Nat} {s s' : St} (H : FI g isF c s) (hf : Frame g s s') : FI g isF c s' := by
  refine ⟨by rw [hf.ufs, hf.ufsDone]; exact H.nd, by rw [hf.ufs, hf.ufsDone]; exact H.mem, fun x => by rw [hf.uf, hf.ufs, hf.ufsDone]; exact H.fl x,
    fun x => by rw [hf.uf, hf.ufs]; exact H.fq x, fun x hx => ?_⟩
  rw [hf.ufsDone] at hx; rw [hf.uf]
  exact (H.fd x hx).imp id (hf.mono x)

theorem pushUfs_flag (s : St) (a x : Nat) : ((s.pushUfs a).atoms x).ufs = true ↔ (s.atoms x).ufs = true ∨ x = a := by
  unfold St.pushUfs
  split
  · rename_i h
    exact ⟨Or.inl, fun h' => h'.elim id fun e => e ▸ h⟩
  · by_cases e : x = a <;> simp [St.setA, Function.update_apply, e]

theorem pushUfs_rest (s : St) (a : Nat) : (∀ x, ((s.pushUfs a).atoms x).todo = (s.atoms x).todo) ∧ (s.pushUfs a).bodies = s.bodies ∧ (s.pushUfs a).todo = s.todo ∧
    (s.pushUfs a).ufsDone = s.ufsDone ∧ (s.pushUfs a).invalidQ = s.invalidQ ∧ (s.pushUfs a).sourceQ = s.sourceQ := by
  unfold St.pushUfs
  split
  · exact ⟨fun _ => rfl, rfl, rfl, rfl, rfl, rfl⟩
  · exact ⟨fun x => by by_cases e : x = a <;> simp [St.setA, Function.update_apply, e], rfl, rfl, rfl, rfl, rfl⟩

theorem pushUfs_f (s : St) (a : Nat) : FFrame s (s.pushUfs a) := by
  obtain ⟨h1, h2, h3, _, h5, _⟩ := pushUfs_rest s a
  exact ⟨h1, h3, h5, fun b => by rw [h2], fun b => by rw [h2], fun x h => by rw [vw_pushUfs]; exact h⟩

theorem FI.push {c : Nat} (H : FI g isF c s) {a : Nat} (ha : a ∈ g.atoms) (hF : isF (g.atom a).lit = false) (hc : (g.atom a).scc = c) (hV : s.vw.V a = false) :
    FI g isF c (s.pushUfs a) ∧ (∀ x ∈ s.ufs, x ∈ (s.pushUfs a).ufs) ∧ a ∈ (s.pushUfs a).ufsDone ++ (s.pushUfs a).ufs ∧ ∀ x ∈ (s.pushUfs a).ufs, x ∈ s.ufs ∨ x = a := by
  by_cases hf : (s.atoms a).ufs = true
  · have : s.pushUfs a = s := by unfold St.pushUfs; rw [if_pos hf]
    rw [this]
    exact ⟨H, fun _ h => h, H.fl a hf, fun _ => Or.inl⟩
  · have e : s.pushUfs a = { s.setA a { s.atoms a with ufs := true } with ufs := s.ufs ++ [a] } := by unfold St.pushUfs; rw [if_neg hf]
    have hn : a ∉ s.ufsDone ++ s.ufs := by
      intro hm
      rcases List.mem_append.1 hm with h1 | h1
      · rcases H.fd a h1 with h2 | h2
        · exact hf h2
        · rw [hV] at h2; cases h2
      · exact hf (H.fq a h1)
    have hu : (s.pushUfs a).ufs = s.ufs ++ [a] := by rw [e]
    have hd : (s.pushUfs a).ufsDone = s.ufsDone := by rw [e]; rfl
    refine ⟨⟨?_, ?_, ?_, ?_, ?_⟩, fun x hx => by rw [hu]; simp [hx], by rw [hu]; simp, fun x hx => by rw [hu] at hx; simpa using hx⟩
    · rw [hu, hd, ← List.append_assoc]
      exact List.Nodup.append H.nd (List.nodup_singleton a) (by simpa using hn)
    · rw [hu, hd, ← List.append_assoc]
      intro x hx
      rcases List.mem_append.1 hx with h1 | h1
      · exact H.mem x h1
      · rw [List.mem_singleton.1 h1]; exact ⟨ha, hF, hc⟩
    · intro x hx
      rw [hu, hd, ← List.append_assoc]
      rcases (pushUfs_flag s a x).1 hx with h1 | rfl
      · exact List.mem_append_left _ (H.fl x h1)
      · simp
    · intro x hx
      rw [hu] at hx
      rw [pushUfs_flag]
      rcases List.mem_append.1 hx with h1 | h1
      · exact Or.inl (H.fq x h1)
      · exact Or.inr (List.mem_singleton.1 h1)
    · intro x hx
      rw [hd] at hx
      rw [pushUfs_flag, vw_pushUfs]
      exact (H.fd x hx).imp Or.inl id

/-- `addUnsourced` -/
theorem FI.addUnsourced (hg : GWf g) {c b : Nat} (hb : b ∈ g.bodies) (hc : (g.body b).scc = c) (H : FI g isF c s) :
    FI g isF c (addUnsourced g isF s b) ∧ (addUnsourced g isF s b).vw = s.vw ∧ (addUnsourced g isF s b).sourceQ = s.sourceQ ∧ FFrame s (addUnsourced g isF s b) ∧
    (addUnsourced g isF s b).ufsDone = s.ufsDone ∧ (∀ x ∈ s.ufs, x ∈ (addUnsourced g isF s b).ufs) ∧
    (∀ x ∈ (addUnsourced g isF s b).ufs, x ∈ s.ufs ∨ s.vw.V x = false) ∧
    (∀ x, ((addUnsourced g isF s b).atoms x).ufs = true → (s.atoms x).ufs = true ∨ x ∈ (addUnsourced g isF s b).ufs) ∧
    ∀ p ∈ g.pre b, s.vw.V p = false → isF (g.atom p).lit = false → p ∈ (addUnsourced g isF s b).ufsDone ++ (addUnsourced g isF s b).ufs := by
  let F : St → Nat × Int → St := fun s p => if !(s.atoms p.1).valid && !isF (g.atom p.1).lit then s.pushUfs p.1 else s
  have main : ∀ l : List (Nat × Int), (∀ p ∈ l, p.1 ∈ g.pre b) → ∀ s, FI g isF c s →
      FI g isF c (l.foldl F s) ∧ (l.foldl F s).vw = s.vw ∧ (l.foldl F s).sourceQ = s.sourceQ ∧ FFrame s (l.foldl F s) ∧
      (l.foldl F s).ufsDone = s.ufsDone ∧ (∀ x ∈ s.ufs, x ∈ (l.foldl F s).ufs) ∧ (∀ x ∈ (l.foldl F s).ufs, x ∈ s.ufs ∨ s.vw.V x = false) ∧
      (∀ x, ((l.foldl F s).atoms x).ufs = true → (s.atoms x).ufs = true ∨ x ∈ (l.foldl F s).ufs) ∧
      ∀ p ∈ l, s.vw.V p.1 = false → isF (g.atom p.1).lit = false → p.1 ∈ (l.foldl F s).ufsDone ++ (l.foldl F s).ufs := by
    intro l
    induction l with
    | nil => exact fun _ s H => ⟨H, rfl, rfl, FFrame.refl s, rfl, fun _ h => h, fun _ => Or.inl, fun _ => Or.inl, fun p hp => by cases hp⟩
    | cons p l ih =>
      intro hl s H
      obtain ⟨hpa, hps⟩ := hg.pre b hb p.1 (hl p (by simp))
      have step : FI g isF c (F s p) ∧ (F s p).vw = s.vw ∧ (F s p).sourceQ = s.sourceQ ∧ FFrame s (F s p) ∧ (F s p).ufsDone = s.ufsDone ∧
          (∀ x ∈ s.ufs, x ∈ (F s p).ufs) ∧ (∀ x ∈ (F s p).ufs, x ∈ s.ufs ∨ s.vw.V x = false) ∧
          (∀ x, ((F s p).atoms x).ufs = true → (s.atoms x).ufs = true ∨ x ∈ (F s p).ufs) ∧
          (s.vw.V p.1 = false → isF (g.atom p.1).lit = false → p.1 ∈ (F s p).ufsDone ++ (F s p).ufs) := by
        by_cases hcnd : (!(s.atoms p.1).valid && !isF (g.atom p.1).lit) = true
        · have e : F s p = s.pushUfs p.1 := if_pos hcnd
          rw [e]
          simp only [Bool.and_eq_true, Bool.not_eq_true'] at hcnd
          obtain ⟨h1, h2, h3, h4⟩ := H.push hpa hcnd.2 (hps.trans hc) hcnd.1
          obtain ⟨_, _, _, h5, _, h6⟩ := pushUfs_rest s p.1
          refine ⟨h1, vw_pushUfs s p.1, h6, pushUfs_f s p.1, h5, h2, fun x hx => ?_, fun x hx => ?_, fun _ _ => h3⟩
          · rcases h4 x hx with h7 | rfl
            · exact Or.inl h7
            · exact Or.inr hcnd.1
          · by_cases hfx : (s.atoms x).ufs = true
            · exact Or.inl hfx
            · rcases (pushUfs_flag s p.1 x).1 hx with h7 | rfl
              · exact Or.inl h7
              · right
                unfold St.pushUfs
                rw [if_neg hfx]; simp
        · have e : F s p = s := if_neg hcnd
          rw [e]
          refine ⟨H, rfl, rfl, FFrame.refl s, rfl, fun _ h => h, fun _ => Or.inl, fun _ => Or.inl, fun h1 h2 => absurd ?_ hcnd⟩
          simp only [Bool.and_eq_true, Bool.not_eq_true']
          exact ⟨h1, h2⟩
      obtain ⟨h1, h2, h3, h4, h5, h6, h6', h6f, h7⟩ := step
      obtain ⟨k1, k2, k3, k4, k5, k6, k6', k6f, k7⟩ := ih (fun q hq => hl q (by simp [hq])) _ h1
      rw [List.foldl_cons]
      refine ⟨k1, k2.trans h2, k3.trans h3, h4.trans k4, k5.trans h5, fun x hx => k6 x (h6 x hx), fun x hx => ?_, fun x hx => ?_, fun q hq hV hF => ?_⟩
      · rcases k6' x hx with h | h
        · exact h6' x h
        · rw [h2] at h; exact Or.inr h
      · rcases k6f x hx with h | h
        · rcases h6f x h with h | h
          · exact Or.inl h
          · exact Or.inr (k6 x h)
        · exact Or.inr h
      · rcases List.mem_cons.1 hq with rfl | hq
        · rcases List.mem_append.1 (h7 hV hF) with h8 | h8
          · exact List.mem_append_left _ (by rw [k5]; exact h8)
          · exact List.mem_append_right _ (k6 _ h8)
        · exact k7 q hq (by rw [h2]; exact hV) hF
  obtain ⟨h1, h2, h3, h4, h5, h6, h6', h6f, h7⟩ := main (g.body b).preds (fun p hp => List.mem_map.2 ⟨p, hp, rfl⟩) s H
  refine ⟨h1, h2, h3, h4, h5, h6, h6', h6f, fun p hp => ?_⟩
  obtain ⟨q, hq, rfl⟩ := List.mem_map.1 hp
  exact h7 q hq

/-- Proof device: `a` was visited by `findSource` without success: what its bodies lack is queued. -/
def Cl (g : UGraph) (isF : Lit → Bool) (s : St) (b : Nat) : Prop :=
  isF (g.body b).lit = false → ∀ p ∈ g.pre b, s.vw.V p = false → isF (g.atom p).lit = false → p ∈ s.ufsDone ++ s.ufs

/-- trying the bodies of an atom -/
theorem Add.tryBodies (hg : GWf g) (hR : ∀ f a, Req f a → ∀ p, f p = true → isF p = true) (hT : ∀ a, T a → a ∈ g.atoms ∧ isF (g.atom a).lit = false)
    {a : Nat} (ha : a ∈ g.atoms) (haF : isF (g.atom a).lit = false) : ∀ (l : List Nat) (s : St) (h : Gh), (∀ b ∈ l, b ∈ (g.atom a).bodies) →
    Add g isF Req s h 0 [] → s.sourceQ = [] → Tr g isF T h.k s.vw → FI g isF (g.atom a).scc s → s.vw.V a = false → a ∈ s.ufsDone →
    (∀ b ∈ (g.atom a).bodies, b ∉ l → (isF (g.body b).lit = true ∨ ((g.body b).scc = (g.atom a).scc ∧ 0 < s.vw.L b ∧ Full g isF h.k s.vw b)) ∧ Cl g isF s b) →
    ∃ ok s' h', tryBodies g isF a l s = (ok, s') ∧ Add g isF Req s' h' 0 [] ∧ s'.sourceQ = [] ∧ Tr g isF T h'.k s'.vw ∧ FI g isF (g.atom a).scc s' ∧
      FFrame s s' ∧ s'.ufsDone = s.ufsDone ∧ (∀ x ∈ s.ufs, x ∈ s'.ufs) ∧ (∀ x, (s'.atoms x).ufs = true → (s.atoms x).ufs = true ∨ x ∈ s'.ufs) ∧
      (ok = true → s'.vw.V a = true ∧ (s'.atoms a).ufs = false) ∧
      (ok = false → s'.vw.V = s.vw.V ∧ (∀ x ∈ s'.ufs, x ∈ s.ufs ∨ s.vw.V x = false) ∧ (s'.atoms a).ufs = (s.atoms a).ufs ∧ ∀ b ∈ (g.atom a).bodies,
        (isF (g.body b).lit = true ∨ ((g.body b).scc = (g.atom a).scc ∧ 0 < s'.vw.L b ∧ Full g isF h'.k s'.vw b)) ∧ Cl g isF s' b) := by
  intro l
  induction l with
  | nil =>
    intro s h _ H hq ht hfi hVa had hdone
    exact ⟨false, s, h, rfl, H, hq, ht, hfi, FFrame.refl s, rfl, fun _ h => h, fun _ => Or.inl, fun h => (by cases h), fun _ => ⟨rfl, fun _ => Or.inl, rfl, fun b hb => hdone b hb (by simp)⟩⟩
  | cons b l ih =>
    intro s h hl H hq ht hfi hVa had hdone
    have hbm := hl b (by simp)
    obtain ⟨hb, hah⟩ := hg.bods a ha b hbm
    unfold Ufs.tryBodies
    by_cases hbF : isF (g.body b).lit = true
    · rw [if_pos hbF]
      refine ih s h (fun c hc => hl c (by simp [hc])) H hq ht hfi hVa had fun c hc hcl => ?_
      by_cases e : c = b
      · subst e
        exact ⟨Or.inl hbF, fun h => by rw [hbF] at h; cases h⟩
      · exact hdone c hc (by simp [e, hcl])
    · rw [if_neg hbF]
      have hbF' : isF (g.body b).lit = false := by simpa using hbF
      -- success: the body becomes the source
      have succ : ∀ (s1 : St) (h1 : Gh), Add g isF Req s1 h1 0 [] → s1.sourceQ = [] → Tr g isF T h1.k s1.vw → FI g isF (g.atom a).scc s1 → FFrame s s1 →
          s1.ufsDone = s.ufsDone → (∀ x ∈ s.ufs, x ∈ s1.ufs) → (∀ x, (s1.atoms x).ufs = true → (s.atoms x).ufs = true ∨ x ∈ s1.ufs) → ((g.body b).scc = (g.atom a).scc → s1.vw.L b ≤ 0) →
          ∃ ok s' h', (true, propagateSource g isF (Ufs.setSource g isF (s1.setA a { s1.atoms a with ufs := false }) a b)) = (ok, s') ∧
            Add g isF Req s' h' 0 [] ∧ s'.sourceQ = [] ∧ Tr g isF T h'.k s'.vw ∧ FI g isF (g.atom a).scc s' ∧
            FFrame s s' ∧ s'.ufsDone = s.ufsDone ∧ (∀ x ∈ s.ufs, x ∈ s'.ufs) ∧ (∀ x, (s'.atoms x).ufs = true → (s.atoms x).ufs = true ∨ x ∈ s'.ufs) ∧
      (ok = true → s'.vw.V a = true ∧ (s'.atoms a).ufs = false) ∧
            (ok = false → s'.vw.V = s.vw.V ∧ (∀ x ∈ s'.ufs, x ∈ s.ufs ∨ s.vw.V x = false) ∧ (s'.atoms a).ufs = (s.atoms a).ufs ∧ ∀ b ∈ (g.atom a).bodies,
              (isF (g.body b).lit = true ∨ ((g.body b).scc = (g.atom a).scc ∧ 0 < s'.vw.L b ∧ Full g isF h'.k s'.vw b)) ∧ Cl g isF s' b) := by
        intro s1 h1 H1 hq1 ht1 hfi1 hf1 hd1 hu1 hfl1 hok
        have hv2 := vw_setUfs s1 a false
        generalize hs2 : s1.setA a { s1.atoms a with ufs := false } = s2 at *
        have hq2 : s2.sourceQ = s1.sourceQ := by rw [← hs2]; rfl
        have H2 : Add g isF Req s2 h1 0 [] := H1.congr hv2 hq2
        obtain ⟨h3, hk3, hG3, H3⟩ := H2.setSource hg hR hb hah hbF' (by rw [hv2]; exact hok)
        have hf3 := setSource_frame (isF := isF) (s := s2) (b := b) hg ha
        obtain ⟨hL3, hw3⟩ := setSource_LW (g := g) (isF := isF) s2 a b
        have ht3 : Tr g isF T h3.k (Ufs.setSource g isF s2 a b).vw := by
          rw [hk3]
          refine ht1.heads hg hT (b := b) (fun x hV => hf3.mono x (by rw [hv2]; exact hV)) (fun c _ _ => by rw [hL3, hv2]) (fun c _ _ => by rw [hw3, hv2]) (fun _ _ => rfl) ?_
          right; right
          intro h0 hfu
          rw [hL3, hv2]
          refine ⟨h0, ?_⟩
          unfold Full at hfu ⊢
          rw [hw3, hv2]; exact hfu
        obtain ⟨⟨h4, H4, ht4⟩, hq4, hf4⟩ := H3.propagate hg hR hT ht3
        have hVa : (propagateSource g isF (Ufs.setSource g isF s2 a b)).vw.V a = true := hf4.mono a (setSource_V haF)
        have hf34 := hf3.trans hf4
        have huf2 : ∀ x, x ≠ a → (s2.atoms x).ufs = (s1.atoms x).ufs := fun x e => by rw [← hs2]; simp [St.setA, Function.update_of_ne e]
        have hufa : (s2.atoms a).ufs = false := by rw [← hs2]; simp [St.setA]
        have hufs2 : s2.ufs = s1.ufs := by rw [← hs2]; rfl
        have hufd2 : s2.ufsDone = s1.ufsDone := by rw [← hs2]; rfl
        have had1 : a ∈ s1.ufsDone := by rw [hd1]; exact had
        refine ⟨true, _, h4, rfl, H4, hq4, ht4, ?_, ?_, ?_, ?_, ?_, fun _ => ⟨hVa, by rw [hf34.uf]; exact hufa⟩, fun h => by cases h⟩
        · refine ⟨?_, ?_, ?_, ?_, ?_⟩
          · rw [hf34.ufs, hf34.ufsDone, hufs2, hufd2]; exact hfi1.nd
          · rw [hf34.ufs, hf34.ufsDone, hufs2, hufd2]; exact hfi1.mem
          · intro x hx
            rw [hf34.uf] at hx
            rw [hf34.ufs, hf34.ufsDone, hufs2, hufd2]
            by_cases e : x = a
            · subst e; exact List.mem_append_left _ had1
            · rw [huf2 x e] at hx; exact hfi1.fl x hx
          · intro x hx
            rw [hf34.ufs, hufs2] at hx
            rw [hf34.uf]
            have e : x ≠ a := fun e => by
              have := (List.nodup_append.1 hfi1.nd).2.2 a had1 x hx
              exact this e.symm
            rw [huf2 x e]; exact hfi1.fq x hx
          · intro x hx
            rw [hf34.ufsDone, hufd2] at hx
            by_cases e : x = a
            · subst e; exact Or.inr hVa
            · rw [hf34.uf, huf2 x e]
              refine (hfi1.fd x hx).imp id fun hV => hf34.mono x ?_
              rw [hv2]; exact hV
        · refine hf1.trans (FFrame.trans ?_ hf34.f)
          refine ⟨fun x => ?_, by rw [← hs2]; rfl, by rw [← hs2]; rfl, fun _ => by rw [← hs2]; rfl, fun _ => by rw [← hs2]; rfl, fun x hx => by rw [hv2]; exact hx⟩
          rw [← hs2]; by_cases e : x = a <;> simp [St.setA, Function.update_apply, e]
        · rw [hf34.ufsDone, hufd2, hd1]
        · intro x hx
          rw [hf34.ufs, hufs2]; exact hu1 x hx
        · intro x hx
          rw [hf34.uf] at hx
          rw [hf34.ufs, hufs2]
          by_cases e : x = a
          · rw [e, hufa] at hx; cases hx
          · rw [huf2 x e] at hx; exact hfl1 x hx
      by_cases hsc : (g.body b).scc ≠ (g.atom a).scc
      · rw [if_pos hsc]
        dsimp only
        rw [if_pos rfl]
        exact succ s h H hq ht hfi (FFrame.refl s) rfl (fun _ h => h) (fun _ => Or.inl) fun h => absurd h hsc
      · rw [if_neg hsc]
        have hsc' : (g.body b).scc = (g.atom a).scc := not_not.1 hsc
        obtain ⟨ok, s1, he1, ⟨h1, hk1, H1⟩, hf1, hq1, hV1, ht1, hne1, hok1, hno1, hnop1⟩ := H.validSource hg hR hT hq ht hb hbF'
        rw [he1]
        dsimp only
        have ht1' : Tr g isF T h1.k s1.vw := by rw [hk1]; exact ht1
        have hfi1 := hfi.frame hf1
        cases ok with
        | true =>
          rw [if_pos rfl]
          exact succ s1 h1 H1 hq1 ht1' hfi1 hf1.f hf1.ufsDone (fun x hx => by rw [hf1.ufs]; exact hx) (fun x hx => by rw [hf1.uf] at hx; exact Or.inl hx) fun _ => hok1 rfl
        | false =>
          have hn : ¬ false = true := by simp
          rw [if_neg hn]
          obtain ⟨k1, k2, k3, k4, k5, k6, k6', k6f, k7⟩ := hfi1.addUnsourced hg hb hsc'
          obtain ⟨hL1, hful1⟩ := hno1 rfl
          have H2 : Add g isF Req (Ufs.addUnsourced g isF s1 b) h1 0 [] := H1.congr k2 k3
          obtain ⟨ok', s', h', r0, r1, r2, r3, r4, r5, r6, r7, r7f, r8, r9⟩ := ih (Ufs.addUnsourced g isF s1 b) h1 (fun c hc => hl c (by simp [hc])) H2 (by rw [k3]; exact hq1)
            (by rw [k2]; exact ht1') k1 (by rw [k2, hV1]; exact hVa) (by rw [k5, hf1.ufsDone]; exact had) (by
              intro c hc hcl
              by_cases e : c = b
              · subst e
                refine ⟨Or.inr ⟨hsc', ?_, ?_⟩, fun _ p hp hV hF => ?_⟩
                · rw [k2]; exact hL1
                · rw [k2, hk1]; exact hful1
                · rw [k2] at hV; exact k7 p hp hV hF
              · obtain ⟨h2, h3⟩ := hdone c hc (by simp [e, hcl])
                refine ⟨?_, fun hF p hp hV hpF => ?_⟩
                · rcases h2 with h2 | ⟨h2, h4, h5⟩
                  · exact Or.inl h2
                  · refine Or.inr ⟨h2, ?_, ?_⟩
                    · rw [k2, (hne1 c e).1]; exact h4
                    · unfold Full at h5 ⊢
                      rw [k2, (hne1 c e).2, hk1]; exact h5
                · rw [k2, hV1] at hV
                  have := h3 hF p hp hV hpF
                  rw [k5, hf1.ufsDone]
                  rcases List.mem_append.1 this with h6 | h6
                  · exact List.mem_append_left _ h6
                  · exact List.mem_append_right _ (k6 p (by rw [hf1.ufs]; exact h6)))
          refine ⟨ok', s', h', r0, r1, r2, r3, r4, hf1.f.trans (k4.trans r5), by rw [r6, k5, hf1.ufsDone], fun x hx => r7 x (k6 x (by rw [hf1.ufs]; exact hx)), fun x hx => ?_, r8, fun hok => ?_⟩
          · rcases r7f x hx with h | h
            · rcases k6f x h with h | h
              · rw [hf1.uf] at h; exact Or.inl h
              · exact Or.inr (r7 x h)
            · exact Or.inr h
          obtain ⟨q1, q2, q3, q4⟩ := r9 hok
          refine ⟨by rw [q1, k2, hV1], fun x hx => ?_, ?_, q4⟩
          · rcases q2 x hx with h2 | h2
            · rcases k6' x h2 with h3 | h3
              · exact Or.inl (by rw [← hf1.ufs]; exact h3)
              · exact Or.inr (by rw [← hV1]; exact h3)
            · exact Or.inr (by rw [← hV1, ← k2]; exact h2)
          · have : ((Ufs.addUnsourced g isF s1 b).atoms a).ufs = (s.atoms a).ufs := by
              have h1 : (s.atoms a).ufs = true := (hfi.fd a had).elim id fun h => by rw [hVa] at h; cases h
              have h2 : ((Ufs.addUnsourced g isF s1 b).atoms a).ufs = true := (k1.fd a (by rw [k5, hf1.ufsDone]; exact had)).elim id fun h => by
                rw [k2, hV1, hVa] at h; cases h
              rw [h1, h2]
            rw [q3, this]

end Clasp.Ufs
