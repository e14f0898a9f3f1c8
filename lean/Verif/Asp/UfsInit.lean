import Verif.Asp.UfsLoop

/-! Initialization of the unfounded set checker (C29). No code is modelled in this file; it contains proof devices only. -/

namespace Clasp.Ufs
open Clasp.Core

variable {g : UGraph} {isF : Lit → Bool}

/-- Proof device: the literals put into the watch set of an extended body by `initExtBody`. -/
def ws0 (g : UGraph) (isF : Lit → Bool) (b i : Nat) : Bool :=
  decide (i < (g.subs b).length) && (decide ((g.body b).preds.length ≤ i) && !isF (g.slit b i))

/-- Proof device: the sum of all weights minus the bound. -/
def slack0 (g : UGraph) (b : Nat) : Int := g.wsSum b (fun _ => true) - (g.body b).bound

/-- Proof device: the data of a body after `initBody`. -/
def preset (g : UGraph) (isF : Lit → Bool) (b : Nat) (d : BodyData) : BodyData :=
  if (g.body b).ext = false then { d with lower := ((g.body b).preds.length : Int) }
  else { d with lower := (g.body b).bound - g.wsSum b (ws0 g isF b), slack := slack0 g b, ws := ws0 g isF b }

theorem St.setB_setB (s : St) (b : Nat) (d d' : BodyData) : (s.setB b d).setB b d' = s.setB b d' := by
  unfold St.setB; simp

theorem extLoop_init (s : St) (b : Nat) : ∀ m : Nat, m ≤ (g.subs b).length →
    (List.range m).foldl (fun s i =>
      let s' := s.setB b { s.bodies b with slack := (s.bodies b).slack + g.weight b i }
      if decide ((g.body b).preds.length ≤ i) && !isF (g.slit b i) then s'.addToWs g b i else s')
      (s.setB b { s.bodies b with lower := (g.body b).bound, slack := -(g.body b).bound, ws := fun _ => false }) =
    s.setB b { s.bodies b with
      lower := (g.body b).bound - ((List.range m).map fun i => if ws0 g isF b i then g.weight b i else 0).sum,
      slack := ((List.range m).map fun i => g.weight b i).sum - (g.body b).bound,
      ws := fun i => decide (i < m) && ws0 g isF b i } := by
  intro m
  induction m with
  | zero => intro _; simp
  | succ m ih =>
    intro hm
    rw [List.range_succ, List.foldl_append, ih (by omega)]
    simp only [List.foldl_cons, List.foldl_nil, List.map_append, List.sum_append, List.map_cons, List.map_nil, List.sum_cons, List.sum_nil]
    have hw : ws0 g isF b m = (decide ((g.body b).preds.length ≤ m) && !isF (g.slit b m)) := by
      unfold ws0; simp; omega
    by_cases hc : (decide ((g.body b).preds.length ≤ m) && !isF (g.slit b m)) = true
    · rw [if_pos hc, hw, if_pos hc]
      unfold St.addToWs
      rw [St.setB_setB, St.setB_setB]
      congr 1
      simp only [St.setB, Function.update_self]
      congr 1
      · omega
      · omega
      · funext i
        by_cases e : i = m
        · subst e; simp [hw]; simpa using hc
        · rw [Function.update_of_ne e]
          have : (i < m + 1) ↔ i < m := by omega
          simp [this]
    · rw [if_neg hc, hw, if_neg hc]
      rw [St.setB_setB]
      congr 1
      simp only [St.setB, Function.update_self]
      congr 1
      · omega
      · omega
      · funext i
        by_cases e : i = m
        · subst e
          rw [hw]
          simp at hc ⊢
          exact hc
        · have : (i < m + 1) ↔ i < m := by omega
          simp [this]

theorem initBody_eq (s : St) (b : Nat) : initBody g isF s b = initSuccessors g isF (s.setB b (preset g isF b (s.bodies b))) b := by
  unfold initBody preset
  cases he : (g.body b).ext with
  | false => simp
  | true =>
    simp only [Bool.not_true, Bool.false_eq_true, if_false, Bool.true_eq_false]
    rw [extLoop_init s b _ (Nat.le_refl _)]
    have e : (fun i => decide (i < (g.subs b).length) && ws0 g isF b i) = ws0 g isF b := by
      funext i; unfold ws0; simp
    rw [e]
    congr 3

/-- Proof device: `s` with the bodies in `l` initialized. -/
def St.pre (g : UGraph) (isF : Lit → Bool) (l : List Nat) (s : St) : St :=
  { s with bodies := fun b => if b ∈ l then preset g isF b (s.bodies b) else s.bodies b }

theorem preset_watches (b : Nat) (d : BodyData) (w : Nat) : preset g isF b { d with watches := w } = { preset g isF b d with watches := w } := by
  unfold preset; split <;> rfl

theorem preset_w (b : Nat) (d : BodyData) : (preset g isF b d).watches = d.watches := by
  unfold preset; split <;> rfl

theorem pre_setW (l : List Nat) (s : St) (c w : Nat) :
    (s.pre g isF l).setB c { (s.pre g isF l).bodies c with watches := w } = (s.setB c { s.bodies c with watches := w }).pre g isF l := by
  unfold St.pre St.setB
  congr 1
  funext b
  by_cases e : b = c
  · subst e
    by_cases hm : b ∈ l
    · simp [hm, preset_watches]
    · simp [hm]
  · simp [Function.update_of_ne e]

theorem pre_w (l : List Nat) (s : St) (c : Nat) : ((s.pre g isF l).bodies c).watches = (s.bodies c).watches := by
  unfold St.pre
  dsimp only
  split
  · exact preset_w c _
  · rfl

theorem pre_updateSource (l : List Nat) (s : St) (a b : Nat) : (s.pre g isF l).updateSource a b = (s.updateSource a b).pre g isF l := by
  have h1 : ∀ s1 : St, ((s1.pre g isF l).setA a { (s1.pre g isF l).atoms a with source := some b, valid := true }) =
      (s1.setA a { s1.atoms a with source := some b, valid := true }).pre g isF l := fun _ => rfl
  unfold St.updateSource
  rw [show ((s.pre g isF l).atoms a).source = (s.atoms a).source from rfl]
  cases (s.atoms a).source with
  | none =>
    dsimp only
    rw [h1, pre_w, pre_setW]
  | some c =>
    dsimp only
    rw [pre_w, pre_setW, h1, pre_w, pre_setW]

theorem pre_setSource (l : List Nat) (s : St) (a b : Nat) : setSource g isF (s.pre g isF l) a b = (setSource g isF s a b).pre g isF l := by
  unfold setSource
  rw [show ((s.pre g isF l).atoms a).valid = (s.atoms a).valid from rfl, pre_updateSource]
  split <;> rfl

/-- Proof device: setting the heads of a body in `initSuccessors`. -/
def setHeads (g : UGraph) (isF : Lit → Bool) (b : Nat) (P : Nat → Prop) [DecidablePred P] (l : List Nat) (s : St) : St :=
  l.foldl (fun s' a => if P a then setSource g isF s' a b else s') s

theorem pre_setHeads (l : List Nat) (b : Nat) (P : Nat → Prop) [DecidablePred P] : ∀ (hs : List Nat) (s : St),
    setHeads g isF b P hs (s.pre g isF l) = (setHeads g isF b P hs s).pre g isF l
  | [], _ => rfl
  | a :: hs, s => by
    unfold setHeads
    rw [List.foldl_cons, List.foldl_cons]
    by_cases h : P a
    · rw [if_pos h, if_pos h, pre_setSource]; exact pre_setHeads l b P hs _
    · rw [if_neg h, if_neg h]; exact pre_setHeads l b P hs _

theorem pre_cons {b : Nat} {l : List Nat} (hb : b ∉ l) (s : St) : (s.setB b (preset g isF b (s.bodies b))).pre g isF l = s.pre g isF (b :: l) := by
  unfold St.pre St.setB
  congr 1
  funext c
  by_cases e : c = b
  · subst e; simp [hb]
  · simp [Function.update_of_ne e, e]

theorem pre_init {b : Nat} {l : List Nat} (hb : b ∉ l) (s : St) : (initBody g isF s b).pre g isF l = initSuccessors g isF (s.pre g isF (b :: l)) b := by
  rw [initBody_eq, ← pre_cons hb]
  generalize s.setB b (preset g isF b (s.bodies b)) = s1
  unfold initSuccessors
  have hl : ((s1.pre g isF l).bodies b).lower = (s1.bodies b).lower := by unfold St.pre; simp [hb]
  split
  · rfl
  · rw [hl]
    exact (pre_setHeads l b (fun a => (g.atom a).scc ≠ (g.body b).scc ∨ (s1.bodies b).lower ≤ 0) _ s1).symm

theorem init_fold : ∀ (l : List Nat) (s : St), l.Nodup → l.foldl (initBody g isF) s = l.foldl (initSuccessors g isF) (s.pre g isF l)
  | [], s, _ => by simp [St.pre]
  | b :: l, s, hnd => by
    have hn := List.nodup_cons.1 hnd
    rw [List.foldl_cons, List.foldl_cons, init_fold l _ hn.2, pre_init hn.1]

/-- What holds before the first source is set. -/
theorem init_start (Req : (Lit → Bool) → Nat → Prop) (hR : ∀ f a, ¬ Req f a) :
    ∃ h, (∀ b p, h.k b p = false) ∧ Add g isF Req (St.empty.pre g isF g.bodies) h 0 [] := by
  refine ⟨⟨fun _ _ => false, fun _ => 0, 1, fun b i => ws0 g isF b i⟩, fun _ _ => rfl, ?_⟩
  have hbod : ∀ b ∈ g.bodies, (St.empty.pre g isF g.bodies).bodies b = preset g isF b ⟨0, false, 0, 0, fun _ => false⟩ := fun b hb => by
    unfold St.pre; dsimp only; rw [if_pos hb]; rfl
  have hW : ∀ a, (St.empty.pre g isF g.bodies).vw.W a = none := fun _ => rfl
  have hV : ∀ a, (St.empty.pre g isF g.bodies).vw.V a = false := fun _ => rfl
  have hws : ∀ b ∈ g.bodies, (g.body b).ext = true → (St.empty.pre g isF g.bodies).vw.ws b = ws0 g isF b := fun b hb he => by
    show ((St.empty.pre g isF g.bodies).bodies b).ws = _
    rw [hbod b hb]; unfold preset; rw [he]; simp
  have hL : ∀ b ∈ g.bodies, (St.empty.pre g isF g.bodies).vw.L b = if (g.body b).ext = false then ((g.body b).preds.length : Int) else (g.body b).bound - g.wsSum b (ws0 g isF b) := fun b hb => by
    show ((St.empty.pre g isF g.bodies).bodies b).lower = _
    rw [hbod b hb]; unfold preset; split <;> rfl
  have hwlt : ∀ b i, ws0 g isF b i = true → i < (g.subs b).length ∧ (g.body b).preds.length ≤ i ∧ isF (g.slit b i) = false := fun b i hw => by
    unfold ws0 at hw; simpa using hw
  refine ⟨⟨?_, ?_, ?_, ?_, ?_, ?_, ?_, ?_, fun a => Nat.zero_lt_one, ?_, ?_⟩, ?_, ?_, ?_, List.nodup_nil, ?_, ?_, fun h => absurd rfl h, ?_, ?_, fun f a hr => absurd hr (hR f a)⟩
  · intro b hb he
    rw [hL b hb, if_pos he]
    have : ((g.pre b).filter fun p => !false) = g.pre b := by simp
    rw [this]; simp [UGraph.pre]
  · intro b hb he
    rw [hL b hb, hws b hb he, if_neg (by simp [he])]
  · intro b hb he i hw
    rw [hws b hb he] at hw
    obtain ⟨h1, h2, h3⟩ := hwlt b i hw
    refine ⟨h1, fun p hp => ?_⟩
    have := pr_lt hp
    omega
  · intro b hb
    have : ((St.empty.pre g isF g.bodies).vw.wt b) = 0 := by
      show ((St.empty.pre g isF g.bodies).bodies b).watches = _
      rw [pre_w]; rfl
    rw [this]
    simp [hW]
  · intro a ha b h; rw [hW] at h; cases h
  · intro a ha h; rw [hV] at h; cases h
  · intro a ha b h; rw [hV] at h; cases h
  · intro a ha b h; rw [hW] at h; cases h
  · intro b hb he _ i; rw [hws b hb he]
  · intro a ha b h; rw [hW] at h; cases h
  · intro b hb p hp h; cases h
  · intro b hb p hp h; rw [hV] at h; cases h
  · intro a ha; cases ha
  · intro a ha; cases ha
  · intro b hb; cases hb
  · intro b hb he i hw
    rw [hws b hb he] at hw
    exact (hwlt b i hw).2.2
  · intro a ha b h; rw [hV] at h; cases h

theorem init_heads (hg : GWf g) {Req : (Lit → Bool) → Nat → Prop} (hR : ∀ f a, ¬ Req f a) {b : Nat} (hb : b ∈ g.bodies) (hbF : isF (g.body b).lit = false) {L : Int} : ∀ (l : List Nat) (s : St) (h : Gh),
    (∀ a ∈ l, a ∈ (g.body b).heads) → Add g isF Req s h 0 [] → s.vw.L b = L →
    ∃ h', h'.k = h.k ∧ Add g isF Req (setHeads g isF b (fun a => (g.atom a).scc ≠ (g.body b).scc ∨ L ≤ 0) l s) h' 0 [] ∧
      Frame g s (setHeads g isF b (fun a => (g.atom a).scc ≠ (g.body b).scc ∨ L ≤ 0) l s) ∧
      (setHeads g isF b (fun a => (g.atom a).scc ≠ (g.body b).scc ∨ L ≤ 0) l s).vw.L = s.vw.L ∧
      (setHeads g isF b (fun a => (g.atom a).scc ≠ (g.body b).scc ∨ L ≤ 0) l s).vw.ws = s.vw.ws ∧
      ∀ a ∈ l, isF (g.atom a).lit = false → ((g.atom a).scc ≠ (g.body b).scc ∨ L ≤ 0) → (setHeads g isF b (fun a => (g.atom a).scc ≠ (g.body b).scc ∨ L ≤ 0) l s).vw.V a = true
  | [], s, h, _, H, _ => ⟨h, rfl, H, Frame.refl g s, rfl, rfl, fun a ha => by cases ha⟩
  | a :: l, s, h, hl, H, hL => by
    have hRr : ∀ f a, Req f a → ∀ p, f p = true → isF p = true := fun f a hr => absurd hr (hR f a)
    have hab := hl a (by simp)
    by_cases hP : (g.atom a).scc ≠ (g.body b).scc ∨ L ≤ 0
    · obtain ⟨h1, hk1, hG1, H1⟩ := H.setSource hg hRr hb hab hbF (fun hs => by
        rcases hP with hP | hP
        · exact absurd hs.symm hP
        · rw [hL]; exact hP)
      obtain ⟨hL1, hw1⟩ := setSource_LW (g := g) (isF := isF) s a b
      have hf1 := setSource_frame (isF := isF) (s := s) (b := b) hg (hg.heads b hb a hab).1
      obtain ⟨h2, hk2, H2, hf2, hL2, hw2, hv2⟩ := init_heads (L := L) hg hR hb hbF l _ h1 (fun x hx => hl x (by simp [hx])) H1 (by rw [hL1]; exact hL)
      have e : setHeads g isF b (fun a => (g.atom a).scc ≠ (g.body b).scc ∨ L ≤ 0) (a :: l) s = setHeads g isF b (fun a => (g.atom a).scc ≠ (g.body b).scc ∨ L ≤ 0) l (setSource g isF s a b) := by
        unfold setHeads; rw [List.foldl_cons, if_pos hP]
      rw [e]
      refine ⟨h2, hk2.trans hk1, H2, hf1.trans hf2, hL2.trans hL1, hw2.trans hw1, fun x hx hFx hPx => ?_⟩
      rcases List.mem_cons.1 hx with rfl | hx
      · exact hf2.mono x (setSource_V hFx)
      · exact hv2 x hx hFx hPx
    · obtain ⟨h2, hk2, H2, hf2, hL2, hw2, hv2⟩ := init_heads hg hR hb hbF l s h (fun x hx => hl x (by simp [hx])) H hL
      have e : setHeads g isF b (fun a => (g.atom a).scc ≠ (g.body b).scc ∨ L ≤ 0) (a :: l) s = setHeads g isF b (fun a => (g.atom a).scc ≠ (g.body b).scc ∨ L ≤ 0) l s := by
        unfold setHeads; rw [List.foldl_cons, if_neg hP]
      rw [e]
      refine ⟨h2, hk2, H2, hf2, hL2, hw2, fun x hx hFx hPx => ?_⟩
      rcases List.mem_cons.1 hx with rfl | hx
      · exact absurd hPx hP
      · exact hv2 x hx hFx hPx

theorem init_bodies (hg : GWf g) {Req : (Lit → Bool) → Nat → Prop} (hR : ∀ f a, ¬ Req f a) : ∀ (l : List Nat) (s : St) (h : Gh),
    (∀ b ∈ l, b ∈ g.bodies) → Add g isF Req s h 0 [] →
    ∃ h', h'.k = h.k ∧ Add g isF Req (l.foldl (initSuccessors g isF) s) h' 0 [] ∧ Frame g s (l.foldl (initSuccessors g isF) s) ∧
      (l.foldl (initSuccessors g isF) s).vw.L = s.vw.L ∧ (l.foldl (initSuccessors g isF) s).vw.ws = s.vw.ws ∧
      ∀ b ∈ l, isF (g.body b).lit = false → ∀ a ∈ (g.body b).heads, isF (g.atom a).lit = false → ((g.atom a).scc ≠ (g.body b).scc ∨ s.vw.L b ≤ 0) →
        (l.foldl (initSuccessors g isF) s).vw.V a = true
  | [], s, h, _, H => ⟨h, rfl, H, Frame.refl g s, rfl, rfl, fun a ha => by cases ha⟩
  | b :: l, s, h, hl, H => by
    have hb := hl b (by simp)
    have step : ∃ h', h'.k = h.k ∧ Add g isF Req (initSuccessors g isF s b) h' 0 [] ∧ Frame g s (initSuccessors g isF s b) ∧
        (initSuccessors g isF s b).vw.L = s.vw.L ∧ (initSuccessors g isF s b).vw.ws = s.vw.ws ∧
        (isF (g.body b).lit = false → ∀ a ∈ (g.body b).heads, isF (g.atom a).lit = false → ((g.atom a).scc ≠ (g.body b).scc ∨ s.vw.L b ≤ 0) → (initSuccessors g isF s b).vw.V a = true) := by
      unfold initSuccessors
      split
      · rename_i hF
        exact ⟨h, rfl, H, Frame.refl g s, rfl, rfl, fun h => by rw [hF] at h; cases h⟩
      · rename_i hF
        obtain ⟨h2, hk2, H2, hf2, hL2, hw2, hv2⟩ := init_heads hg hR hb (Bool.eq_false_iff.2 hF) (g.body b).heads s h (fun _ h => h) H rfl
        exact ⟨h2, hk2, H2, hf2, hL2, hw2, fun _ => hv2⟩
    obtain ⟨h1, hk1, H1, hf1, hL1, hw1, hv1⟩ := step
    obtain ⟨h2, hk2, H2, hf2, hL2, hw2, hv2⟩ := init_bodies hg hR l _ h1 (fun x hx => hl x (by simp [hx])) H1
    rw [List.foldl_cons]
    refine ⟨h2, hk2.trans hk1, H2, hf1.trans hf2, hL2.trans hL1, hw2.trans hw1, fun c hc hcF a ha haF hP => ?_⟩
    rcases List.mem_cons.1 hc with rfl | hc
    · exact hf2.mono a (hv1 hcF a ha haF hP)
    · exact hv2 c hc hcF a ha haF (by rw [hL1]; exact hP)

/-- `init`: the invariant holds, and the atoms without source are unfounded. -/
theorem init_spec (hg : GWf g) : ∃ h, Add g isF (Req0 g isF [] fun a => (init g isF).vw.V a = true) (init g isF) h 0 [] ∧ (init g isF).sourceQ = [] ∧
    (∀ a, ((init g isF).atoms a).todo = false ∧ ((init g isF).atoms a).ufs = false) ∧ (init g isF).todo = [] ∧ (init g isF).ufs = [] ∧ (init g isF).ufsDone = [] ∧ (init g isF).invalidQ = [] ∧
    (∀ b, ((init g isF).bodies b).picked = false) ∧ (∀ b ∈ g.bodies, (g.body b).ext = true → ((init g isF).bodies b).slack = slack0 g b) ∧
    UnfSet g isF (g.atoms.filter fun a => !(init g isF).vw.V a && !isF (g.atom a).lit) := by
  have hR : ∀ (f : Lit → Bool) (a : Nat), ¬ (fun (_ : Lit → Bool) (_ : Nat) => False) f a := fun _ _ h => h
  have hRr : ∀ (f : Lit → Bool) (a : Nat), (fun (_ : Lit → Bool) (_ : Nat) => False) f a → ∀ p, f p = true → isF p = true := fun _ _ h => h.elim
  obtain ⟨h0, hk0, H0⟩ := init_start (g := g) (isF := isF) _ hR
  obtain ⟨h1, hk1, H1, hf1, hL1, hw1, hv1⟩ := init_bodies hg hR g.bodies _ h0 (fun _ h => h) H0
  have hinit : init g isF = propagateSource g isF (g.bodies.foldl (initSuccessors g isF) (St.empty.pre g isF g.bodies)) := by
    unfold init; rw [init_fold _ _ hg.bodiesNd]
  generalize hs1 : g.bodies.foldl (initSuccessors g isF) (St.empty.pre g isF g.bodies) = s1 at *
  have hT : Tr g isF (fun a => a ∈ g.atoms ∧ isF (g.atom a).lit = false) h1.k s1.vw := by
    intro a ⟨ha, haF⟩
    cases hV : s1.vw.V a with
    | true => exact Or.inl rfl
    | false =>
      refine Or.inr fun b hb => ?_
      obtain ⟨hbb, hah⟩ := hg.bods a ha b hb
      cases hbF : isF (g.body b).lit with
      | true => exact Or.inl rfl
      | false =>
        right
        have hn : ¬ ((g.atom a).scc ≠ (g.body b).scc ∨ (St.empty.pre g isF g.bodies).vw.L b ≤ 0) := fun hP => by
          have := hv1 b hbb hbF a hah haF hP
          rw [hV] at this; cases this
        rw [not_or] at hn
        refine ⟨(not_not.1 hn.1).symm, by rw [hL1]; omega, fun he i hi hiF hk => ?_⟩
        rw [hw1]
        show ((St.empty.pre g isF g.bodies).bodies b).ws i = true
        have : (St.empty.pre g isF g.bodies).bodies b = preset g isF b ⟨0, false, 0, 0, fun _ => false⟩ := by
          unfold St.pre; dsimp only; rw [if_pos hbb]; rfl
        rw [this]
        unfold preset
        rw [if_neg (by simp [he])]
        unfold ws0
        simp only [Bool.and_eq_true, decide_eq_true_eq, Bool.not_eq_true']
        refine ⟨hi, ?_, hiF⟩
        by_contra hc
        have hlt : i < (g.body b).preds.length := by omega
        have hp : g.pr b i = some ((g.body b).preds[i]).1 := by unfold UGraph.pr; rw [List.getElem?_eq_getElem hlt]; rfl
        have := hk _ hp
        rw [hk1, hk0] at this; cases this
  obtain ⟨⟨h2, H2, hT2⟩, hq2, hf2⟩ := H1.propagate hg hRr (fun a h => h) hT
  rw [← hinit] at H2 hT2 hq2 hf2
  have hf := hf1.trans hf2
  refine ⟨h2, ⟨H2.core, H2.kV, H2.pend, H2.qV, H2.qnd, H2.qk, H2.ck, H2.cV, H2.wsF, H2.srcF, ?_⟩, hq2, fun a => ⟨(hf.td a).trans rfl, (hf.uf a).trans rfl⟩,
    hf.todo, hf.ufs, hf.ufsDone, hf.inv, fun b => ?_, fun b hb he => ?_, ?_⟩
  · intro f a hr
    rcases hr with h3 | ⟨rfl, h4, h5, h6⟩
    · cases h3.1
    · exact H2.good_V h4 h6
  · rw [hf.pick]
    unfold St.pre
    dsimp only
    split
    · unfold preset; split <;> rfl
    · rfl
  · rw [hf.slack]
    have : (St.empty.pre g isF g.bodies).bodies b = preset g isF b ⟨0, false, 0, 0, fun _ => false⟩ := by
      unfold St.pre; dsimp only; rw [if_pos hb]; rfl
    rw [this]; unfold preset
    rw [if_neg (by simp [he])]
  · -- the atoms without source are unfounded
    have hU : ∀ x, x ∈ (g.atoms.filter fun a => !(init g isF).vw.V a && !isF (g.atom a).lit) ↔ x ∈ g.atoms ∧ (init g isF).vw.V x = false ∧ isF (g.atom x).lit = false := fun x => by
      simp [List.mem_filter]
    intro x hx b hb hbF
    obtain ⟨hxA, hxV, hxF⟩ := (hU x).1 hx
    obtain ⟨hbb, _⟩ := hg.bods x hxA b hb
    rcases hT2 x ⟨hxA, hxF⟩ with h3 | h3
    · rw [hxV] at h3; cases h3
    rcases h3 b hb with h4 | ⟨h4, h5, h6⟩
    · rw [hbF] at h4; cases h4
    have hkV : ∀ p ∈ g.pre b, (h2.k b p = true ↔ (init g isF).vw.V p = true) := by
      intro p hp
      refine ⟨H2.kV b hbb p hp, fun hV => ?_⟩
      rcases H2.pend b hbb p hp hV with h1 | h1 | ⟨_, h1⟩
      · exact h1
      · rw [hq2] at h1; cases h1
      · cases h1
    refine ⟨h4, fun he => ?_, fun he => ?_⟩
    · have hc := H2.core.cntN b hbb he
      have hpos : 0 < ((g.pre b).filter fun p => !h2.k b p).length := by omega
      obtain ⟨p, hp⟩ := List.exists_mem_of_length_pos hpos
      obtain ⟨hp1, hp2⟩ := List.mem_filter.1 hp
      refine ⟨p, hp1, ?_⟩
      have hkf : h2.k b p = false := by simpa using hp2
      cases hF : isF (g.atom p).lit with
      | true => exact Or.inr rfl
      | false =>
        refine Or.inl ((hU p).2 ⟨(hg.pre b hbb p hp1).1, ?_, hF⟩)
        cases hV : (init g isF).vw.V p with
        | false => rfl
        | true => rw [(hkV p hp1).2 hV] at hkf; cases hkf
    · have hc := H2.core.cntE b hbb he
      have : g.wsSum b (fun i => !isF (g.slit b i) && !ufsPos g (g.atoms.filter fun a => !(init g isF).vw.V a && !isF (g.atom a).lit) b i) ≤ g.wsSum b ((init g isF).vw.ws b) := by
        refine wsSum_mono hg hbb fun i hi hcond => ?_
        simp only [Bool.and_eq_true, Bool.not_eq_true'] at hcond
        refine h6 he i hi hcond.1 fun p hp => ?_
        have hpm := pr_pre hp
        refine (hkV p hpm).2 ?_
        cases hV : (init g isF).vw.V p with
        | true => rfl
        | false =>
          have hF : isF (g.atom p).lit = false := by rw [← slit_pr hp]; exact hcond.1
          have hpU := (hU p).2 ⟨(hg.pre b hbb p hpm).1, hV, hF⟩
          have : ufsPos g (g.atoms.filter fun a => !(init g isF).vw.V a && !isF (g.atom a).lit) b i = true := by
            unfold ufsPos; rw [hp]; exact List.contains_iff_mem.2 hpU
          rw [this] at hcond; cases hcond.2
      omega

end Clasp.Ufs
