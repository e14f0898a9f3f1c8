import Verif.Asp.UfsFind

/-! Unfounded sets found are unfounded, and nothing is forgotten (C29). No code is modelled in this file; it contains
proof devices only. -/

namespace Clasp.Ufs
open Clasp.Core

variable {g : UGraph} {isF : Lit → Bool} {Req : (Lit → Bool) → Nat → Prop} {Lo : List (Lit → Bool)} {s : St} {h : Gh}

/-- Specification: the literal at position `i` is an atom from `U`. -/
def ufsPos (g : UGraph) (U : List Nat) (b i : Nat) : Bool := match g.pr b i with
  | some p => U.contains p
  | none => false

/-- Specification: the atoms in `U` are not false, and no body can be used to derive them without
using one of them: a body from another component is false; a normal body is false or has a subgoal that is in `U` or false;
an extended body is false or the literals that are neither false nor in `U` do not reach its bound. -/
def UnfSet (g : UGraph) (isF : Lit → Bool) (U : List Nat) : Prop :=
  ∀ x ∈ U, ∀ b ∈ (g.atom x).bodies, isF (g.body b).lit = false → (g.body b).scc = (g.atom x).scc ∧
    ((g.body b).ext = false → ∃ p ∈ g.pre b, p ∈ U ∨ isF (g.atom p).lit = true) ∧
    ((g.body b).ext = true → g.wsSum b (fun i => !isF (g.slit b i) && !ufsPos g U b i) < (g.body b).bound)

theorem wsSum_mono (hg : GWf g) {b : Nat} (hb : b ∈ g.bodies) {f f' : Nat → Bool} (hf : ∀ i < (g.subs b).length, f i = true → f' i = true) : g.wsSum b f ≤ g.wsSum b f' := by
  unfold UGraph.wsSum
  have : ∀ l : List Nat, (∀ i ∈ l, i < (g.subs b).length) → (l.map fun i => if f i then g.weight b i else 0).sum ≤ (l.map fun i => if f' i then g.weight b i else 0).sum := by
    intro l
    induction l with
    | nil => intro _; exact Int.le_refl _
    | cons i l ih =>
      intro hl
      have ih := ih fun j hj => hl j (by simp [hj])
      have hw := weight_nonneg hg hb i
      simp only [List.map_cons, List.sum_cons]
      by_cases h1 : f i = true
      · rw [if_pos h1, if_pos (hf i (hl i (by simp)) h1)]; omega
      · rw [if_neg h1]
        split <;> omega
  exact this _ fun i hi => List.mem_range.1 hi

/-- Proof device: the invariant of the loop in `findSource`. -/
structure FL (g : UGraph) (isF : Lit → Bool) (Req : (Lit → Bool) → Nat → Prop) (c : Nat) (inv : List Nat) (new : Nat) (s : St) (h : Gh) : Prop where
  add : Add g isF Req s h 0 []
  sq : s.sourceQ = []
  tr : Tr g isF (· ∈ inv) h.k s.vw
  fi : FI g isF c s
  ind : inv.Nodup
  isub : ∀ x ∈ inv, x ∈ s.ufsDone
  dn : ∀ x ∈ s.ufsDone, x ∈ inv ∨ s.vw.V x = true
  nf : ∀ x ∈ s.ufsDone, x ∉ inv → (s.atoms x).ufs = false
  cnt : s.ufsDone.length = inv.length + new
  n0 : new = 0 → ∀ x ∈ s.ufsDone ++ s.ufs, s.vw.V x = false
  cl : ∀ x ∈ inv, ∀ b ∈ (g.atom x).bodies, Cl g isF s b

theorem FL.loop (hg : GWf g) (hR : ∀ f a, Req f a → ∀ p, f p = true → isF p = true) {c : Nat} :
    ∀ (n : Nat) (inv : List Nat) (new : Nat) (s : St) (h : Gh), FL g isF Req c inv new s h → g.atoms.length ≤ n + s.ufsDone.length →
    ∃ inv' new' s' h', findLoop g isF n inv new s = (inv', new', s') ∧ FL g isF Req c inv' new' s' h' ∧ s'.ufs = [] ∧ FFrame s s' ∧ (∀ x ∈ s.ufsDone ++ s.ufs, x ∈ s'.ufsDone) := by
  intro n
  induction n with
  | zero =>
    intro inv new s h H hm
    refine ⟨inv, new, s, h, rfl, H, ?_, FFrame.refl s, ?_⟩
    · have := (List.subperm_of_subset H.fi.nd (fun x hx => (H.fi.mem x hx).1)).length_le
      rw [List.length_append] at this
      exact List.length_eq_zero_iff.1 (by omega)
    · have := (List.subperm_of_subset H.fi.nd (fun x hx => (H.fi.mem x hx).1)).length_le
      rw [List.length_append] at this
      have h0 : s.ufs = [] := List.length_eq_zero_iff.1 (by omega)
      rw [h0]; simp
  | succ n ih =>
    intro inv new s h H hm
    unfold findLoop
    cases hu : s.ufs with
    | nil => exact ⟨inv, new, s, h, rfl, H, hu, FFrame.refl s, by simp⟩
    | cons a r =>
      dsimp only
      have hnd := H.fi.nd
      rw [hu] at hnd
      have had : a ∉ s.ufsDone := fun hm => (List.nodup_append.1 hnd).2.2 a hm a (by simp) rfl
      have har : a ∉ r := (List.nodup_cons.1 (List.nodup_append.1 hnd).2.1).1
      obtain ⟨haA, haF, hac⟩ := H.fi.mem a (by rw [hu]; simp)
      have hfa : (s.atoms a).ufs = true := H.fi.fq a (by rw [hu]; simp)
      have hap : s.ufsDone ++ [a] ++ r = s.ufsDone ++ s.ufs := by rw [hu]; simp
      have hainv : a ∉ inv := fun hm => had (H.isub a hm)
      -- the state after taking `a` from the queue
      let s0 : St := { s with ufs := r, ufsDone := s.ufsDone ++ [a] }
      have hfi0 : FI g isF c s0 := by
        refine ⟨by show (s.ufsDone ++ [a] ++ r).Nodup; rw [hap]; exact H.fi.nd, by show ∀ x ∈ s.ufsDone ++ [a] ++ r, _; rw [hap]; exact H.fi.mem,
          by show ∀ x, _ → x ∈ s.ufsDone ++ [a] ++ r; rw [hap]; exact H.fi.fl, fun x hx => H.fi.fq x (by rw [hu]; simp [show x ∈ r from hx]), fun x hx => ?_⟩
        rcases List.mem_append.1 hx with h1 | h1
        · exact H.fi.fd x h1
        · rw [List.mem_singleton.1 h1]; exact Or.inl hfa
      have hadd0 : Add g isF Req s0 h 0 [] := Add.congr (s := s) (s' := s0) rfl rfl H.add
      by_cases hV : (s0.atoms a).valid = true
      · rw [if_pos hV]
        have hv := vw_setUfs s0 a false
        obtain ⟨inv', new', s', h', e1, e2, e3, e4, e5⟩ := ih inv (new + 1) (s0.setA a { s0.atoms a with ufs := false }) h (by
          have huf : ∀ x, x ≠ a → ((s0.setA a { s0.atoms a with ufs := false }).atoms x).ufs = (s.atoms x).ufs := fun x e => by
            simp [s0, St.setA, Function.update_of_ne e]
          have hufa : ((s0.setA a { s0.atoms a with ufs := false }).atoms a).ufs = false := by simp [St.setA]
          refine ⟨hadd0.congr hv rfl, H.sq, by rw [hv]; exact H.tr, ⟨hfi0.nd, hfi0.mem, ?_, ?_, ?_⟩, H.ind, ?_, ?_, ?_, ?_, fun h => by omega, ?_⟩
          · intro x hx
            by_cases e : x = a
            · rw [e, hufa] at hx; cases hx
            · rw [huf x e] at hx; exact hfi0.fl x hx
          · intro x hx
            have e : x ≠ a := fun e => har (e ▸ hx)
            rw [huf x e]; exact hfi0.fq x hx
          · intro x hx
            rw [hv]
            by_cases e : x = a
            · rw [e]; exact Or.inr hV
            · rw [huf x e]; exact hfi0.fd x hx
          · intro x hx; exact List.mem_append_left _ (H.isub x hx)
          · intro x hx
            rw [hv]
            rcases List.mem_append.1 hx with h1 | h1
            · exact H.dn x h1
            · rw [List.mem_singleton.1 h1]; exact Or.inr hV
          · intro x hx hxi
            by_cases e : x = a
            · rw [e]; exact hufa
            · rw [huf x e]
              rcases List.mem_append.1 hx with h1 | h1
              · exact H.nf x h1 hxi
              · exact absurd (List.mem_singleton.1 h1) e
          · show (s.ufsDone ++ [a]).length = _
            rw [List.length_append, H.cnt]; simp; omega
          · intro x hx b hb hbF p hp hVp hpF
            rw [hv] at hVp
            show p ∈ s.ufsDone ++ [a] ++ r
            rw [hap]; exact H.cl x hx b hb hbF p hp hVp hpF) (by
          show _ ≤ n + (s.ufsDone ++ [a]).length
          rw [List.length_append]; simp; omega)
        refine ⟨inv', new', s', h', e1, e2, e3, FFrame.trans ?_ e4, fun x hx => e5 x ?_⟩
        · refine ⟨fun x => ?_, rfl, rfl, fun _ => rfl, fun _ => rfl, fun x hx => by rw [hv]; exact hx⟩
          by_cases e : x = a <;> simp [s0, St.setA, Function.update_apply, e]
        · show x ∈ s.ufsDone ++ [a] ++ r
          simpa using hx
      · rw [if_neg hV]
        have hV' : s.vw.V a = false := Bool.eq_false_iff.2 hV
        obtain ⟨ok, s1, h1, r0, r1, r2, r3, r4, r5, r6, r7, r7f, r8, r9⟩ := Add.tryBodies (T := (· ∈ inv)) hg hR
          (fun x hx => ⟨(H.fi.mem x (List.mem_append_left _ (H.isub x hx))).1, (H.fi.mem x (List.mem_append_left _ (H.isub x hx))).2.1⟩) haA haF
          (g.atom a).bodies s0 h (fun _ h => h) hadd0 H.sq H.tr (by rw [hac]; exact hfi0) hV' (by show a ∈ s.ufsDone ++ [a]; simp)
          (fun b hb hn => absurd hb hn)
        rw [hac] at r4
        have hd1 : s1.ufsDone = s.ufsDone ++ [a] := r6
        have hr1 : ∀ x ∈ r, x ∈ s1.ufs := r7
        have hlen : s1.ufsDone.length = s.ufsDone.length + 1 := by rw [hd1]; simp
        have hold : ∀ x ∈ s.ufsDone ++ s.ufs, x ∈ s1.ufsDone ++ s1.ufs := by
          intro x hx
          rw [← hap, ← hd1] at hx
          rcases List.mem_append.1 hx with h2 | h2
          · exact List.mem_append_left _ h2
          · exact List.mem_append_right _ (hr1 x h2)
        have hff : FFrame s s1 := by
          refine FFrame.trans (t := s0) ⟨fun _ => rfl, rfl, rfl, fun _ => rfl, fun _ => rfl, fun _ h => h⟩ r5
        have hclo : ∀ x ∈ inv, ∀ b ∈ (g.atom x).bodies, Cl g isF s1 b := by
          intro x hx b hb hbF p hp hVp hpF
          refine hold p (H.cl x hx b hb hbF p hp ?_ hpF)
          cases hVs : s.vw.V p with
          | false => rfl
          | true => rw [hff.mono p hVs] at hVp; cases hVp
        have hflag : ∀ x ∈ s1.ufsDone, (s1.atoms x).ufs = true → (s.atoms x).ufs = true := by
          intro x hx hf
          rcases r7f x hf with h2 | h2
          · exact h2
          · exact absurd rfl ((List.nodup_append.1 r4.nd).2.2 x hx x h2)
        rw [r0]
        dsimp only
        have main : ∃ inv1 new1, (if (s1.atoms a).valid = true then inv else inv ++ [a]) = inv1 ∧ (if ok = true then new + 1 else new) = new1 ∧ FL g isF Req c inv1 new1 s1 h1 := by
          cases ok with
          | true =>
            obtain ⟨hVa, hfa1⟩ := r8 rfl
            refine ⟨inv, new + 1, if_pos hVa, rfl, ⟨r1, r2, r3, r4, H.ind, fun x hx => ?_, fun x hx => ?_, fun x hx hxi => ?_, ?_, fun h => by omega, hclo⟩⟩
            · rw [hd1]; exact List.mem_append_left _ (H.isub x hx)
            · rw [hd1] at hx
              rcases List.mem_append.1 hx with h2 | h2
              · exact (H.dn x h2).imp id (hff.mono x)
              · rw [List.mem_singleton.1 h2]; exact Or.inr hVa
            · cases hf : (s1.atoms x).ufs with
              | false => rfl
              | true =>
                have h3 := hflag x hx hf
                rw [hd1] at hx
                rcases List.mem_append.1 hx with h2 | h2
                · rw [H.nf x h2 hxi] at h3; cases h3
                · rw [List.mem_singleton.1 h2, hfa1] at hf; cases hf
            · rw [hlen, H.cnt]; omega
          | false =>
            obtain ⟨q1, q2, q3, q4⟩ := r9 rfl
            have hVa : ¬ (s1.atoms a).valid = true := fun h2 => by
              have : s1.vw.V a = true := h2
              rw [q1] at this
              rw [show s0.vw.V a = s.vw.V a from rfl, hV'] at this; cases this
            refine ⟨inv ++ [a], new, if_neg hVa, rfl, ⟨r1, r2, ?_, r4, ?_, fun x hx => ?_, fun x hx => ?_, fun x hx hxi => ?_, ?_, fun h0 x hx => ?_, ?_⟩⟩
            · intro x hx
              rcases List.mem_append.1 hx with h2 | h2
              · exact r3 x h2
              · rw [List.mem_singleton.1 h2]
                exact Or.inr fun b hb => (q4 b hb).1
            · exact List.Nodup.append H.ind (List.nodup_singleton a) (by simpa using hainv)
            · rw [hd1]
              rcases List.mem_append.1 hx with h2 | h2
              · exact List.mem_append_left _ (H.isub x h2)
              · exact List.mem_append_right _ h2
            · rw [hd1] at hx
              rcases List.mem_append.1 hx with h2 | h2
              · rcases H.dn x h2 with h3 | h3
                · exact Or.inl (List.mem_append_left _ h3)
                · exact Or.inr (hff.mono x h3)
              · exact Or.inl (List.mem_append_right _ h2)
            · cases hf : (s1.atoms x).ufs with
              | false => rfl
              | true =>
                have h3 := hflag x hx hf
                rw [hd1] at hx
                rcases List.mem_append.1 hx with h2 | h2
                · rw [H.nf x h2 (fun h => hxi (List.mem_append_left _ h))] at h3; cases h3
                · exact absurd (List.mem_append_right _ h2) hxi
            · rw [hlen, H.cnt]; simp; omega
            · rw [q1]
              show s.vw.V x = false
              rcases List.mem_append.1 hx with h2 | h2
              · rw [hd1] at h2
                refine H.n0 h0 x ?_
                rw [← hap]; exact List.mem_append_left _ h2
              · rcases q2 x h2 with h3 | h3
                · refine H.n0 h0 x ?_
                  rw [← hap]; exact List.mem_append_right _ h3
                · exact h3
            · intro x hx b hb
              rcases List.mem_append.1 hx with h2 | h2
              · exact hclo x h2 b hb
              · rw [List.mem_singleton.1 h2] at hb; exact (q4 b hb).2
        obtain ⟨inv1, new1, m1, m2, m3⟩ := main
        rw [m1, m2]
        obtain ⟨inv', new', s', h', e1, e2, e3, e4, e5⟩ := ih inv1 new1 s1 h1 m3 (by omega)
        exact ⟨inv', new', s', h', e1, e2, e3, hff.trans e4, fun x hx => e5 x (hold x (by rw [hu]; exact hx))⟩

theorem requeue_spec : ∀ (l : List Nat) (s : St), l.Nodup →
    (l.foldl requeue s).vw = s.vw ∧ (l.foldl requeue s).sourceQ = s.sourceQ ∧ (l.foldl requeue s).ufs = s.ufs ++ l.filter (fun x => !s.vw.V x) ∧
    (l.foldl requeue s).ufsDone = s.ufsDone ∧ FFrame s (l.foldl requeue s) ∧
    ∀ x, ((l.foldl requeue s).atoms x).ufs = if x ∈ l then !s.vw.V x else (s.atoms x).ufs
  | [], s, _ => ⟨rfl, rfl, by simp, rfl, FFrame.refl s, fun x => by simp⟩
  | a :: l, s, hnd => by
    have hn := List.nodup_cons.1 hnd
    have hv1 := vw_setUfs s a (!(s.atoms a).valid)
    have step : (requeue s a).vw = s.vw ∧ (requeue s a).sourceQ = s.sourceQ ∧ (requeue s a).ufs = s.ufs ++ (if s.vw.V a then [] else [a]) ∧
        (requeue s a).ufsDone = s.ufsDone ∧ FFrame s (requeue s a) ∧ ∀ x, ((requeue s a).atoms x).ufs = if x = a then !s.vw.V a else (s.atoms x).ufs := by
      unfold requeue
      by_cases hV : (s.atoms a).valid = true
      · simp only [if_pos hV]
        refine ⟨hv1, rfl, ?_, rfl, ⟨fun x => ?_, rfl, rfl, fun _ => rfl, fun _ => rfl, fun x hx => by rw [hv1]; exact hx⟩, fun x => ?_⟩
        · rw [if_pos (show s.vw.V a = true from hV)]; simp [St.setA]
        · by_cases e : x = a <;> simp [St.setA, Function.update_apply, e]
        · by_cases e : x = a
          · subst e; simp [St.setA]; rfl
          · simp [St.setA, Function.update_of_ne e, e]
      · simp only [if_neg hV]
        refine ⟨hv1, rfl, ?_, rfl, ⟨fun x => ?_, rfl, rfl, fun _ => rfl, fun _ => rfl, fun x hx => ?_⟩, fun x => ?_⟩
        · have hV' : ¬ s.vw.V a = true := hV
          rw [if_neg hV']; simp [St.setA]
        · by_cases e : x = a <;> simp [St.setA, Function.update_apply, e]
        · show (s.setA a { s.atoms a with ufs := !(s.atoms a).valid }).vw.V x = true
          rw [hv1]; exact hx
        · by_cases e : x = a
          · subst e; simp [St.setA]; rfl
          · simp [St.setA, Function.update_of_ne e, e]
    obtain ⟨h1, h2, h3, h4, h5, h6⟩ := step
    obtain ⟨k1, k2, k3, k4, k5, k6⟩ := requeue_spec l (requeue s a) hn.2
    rw [List.foldl_cons]
    refine ⟨k1.trans h1, k2.trans h2, ?_, k4.trans h4, h5.trans k5, fun x => ?_⟩
    · rw [k3, h3, h1, List.filter_cons]
      cases hV : s.vw.V a <;> simp
    · rw [k6, h1, h6]
      by_cases e : x = a
      · subst e; simp [hn.1]
      · simp [e]

/-- Proof device: the unfounded set and its flags agree. -/
structure UfsOk (s : St) : Prop where
  fl : ∀ x, (s.atoms x).ufs = true ↔ x ∈ s.ufs
  nd : s.ufs.Nodup
  dn : s.ufsDone = []

/-- `findSource` -/
theorem Add.findSource (hg : GWf g) (hR : ∀ f a, Req f a → ∀ p, f p = true → isF p = true) (H : Add g isF Req s h 0 []) (hq : s.sourceQ = [])
    (hu : UfsOk s) (hu0 : s.ufs = []) {a : Nat} (ha : a ∈ g.atoms) (haF : isF (g.atom a).lit = false) (haV : s.vw.V a = false) :
    ∃ ok s' h', findSource g isF s a = (ok, s') ∧ Add g isF Req s' h' 0 [] ∧ s'.sourceQ = [] ∧ FFrame s s' ∧ UfsOk s' ∧ (ok = true ↔ s'.ufs = []) ∧
      (a ∈ s'.ufs ∨ s'.vw.V a = true) ∧ UnfSet g isF s'.ufs ∧ (∀ x ∈ s'.ufs, x ∈ g.atoms ∧ isF (g.atom x).lit = false ∧ (g.atom x).scc = (g.atom a).scc) := by
  have hnf : ∀ x, (s.atoms x).ufs = false := fun x => by
    cases hf : (s.atoms x).ufs with
    | false => rfl
    | true => have := (hu.fl x).1 hf; rw [hu0] at this; cases this
  have hfi : FI g isF (g.atom a).scc s := by
    refine ⟨by rw [hu0, hu.dn]; simp, by rw [hu0, hu.dn]; simp, fun x hx => ?_, by rw [hu0]; simp, by rw [hu.dn]; simp⟩
    rw [hnf x] at hx; cases hx
  obtain ⟨p1, p2, p3, p4⟩ := hfi.push ha haF rfl haV
  obtain ⟨_, _, _, p5, _, p6⟩ := pushUfs_rest s a
  have hpu : ∀ x ∈ (s.pushUfs a).ufs, x = a := fun x hx => (p4 x hx).elim (fun h => by rw [hu0] at h; cases h) id
  have hFL : FL g isF Req (g.atom a).scc [] 0 (s.pushUfs a) h := by
    refine ⟨H.congr (vw_pushUfs s a) p6, by rw [p6]; exact hq, fun x hx => (by cases hx), p1, List.nodup_nil, fun x hx => (by cases hx),
      by rw [p5, hu.dn]; simp, by rw [p5, hu.dn]; simp, by rw [p5, hu.dn]; rfl, ?_, fun x hx => (by cases hx)⟩
    intro _ x hx
    rw [p5, hu.dn, List.nil_append] at hx
    rw [hpu x hx, vw_pushUfs]; exact haV
  obtain ⟨inv, new, s1, h1, e1, L, e3, e4, e5⟩ := FL.loop hg hR g.atoms.length [] 0 (s.pushUfs a) h hFL (by omega)
  have had : a ∈ s1.ufsDone := e5 a p3
  have hff := (pushUfs_f s a).trans e4
  -- what holds for the atoms that are still unfounded
  have hunf : ∀ U : List Nat, (∀ x, x ∈ U ↔ x ∈ inv ∧ s1.vw.V x = false) → UnfSet g isF U := by
    intro U hU x hx b hb hbF
    obtain ⟨hxi, hxV⟩ := (hU x).1 hx
    have hxA := L.fi.mem x (List.mem_append_left _ (L.isub x hxi))
    obtain ⟨hbb, hxh⟩ := hg.bods x hxA.1 b hb
    rcases L.tr x hxi with h2 | h2
    · rw [hxV] at h2; cases h2
    rcases h2 b hb with h3 | ⟨h3, h4, h5⟩
    · rw [hbF] at h3; cases h3
    have hkV : ∀ p ∈ g.pre b, (h1.k b p = true ↔ s1.vw.V p = true) := by
      intro p hp
      refine ⟨L.add.kV b hbb p hp, fun hV => ?_⟩
      rcases L.add.pend b hbb p hp hV with h1 | h1 | ⟨_, h1⟩
      · exact h1
      · rw [L.sq] at h1; cases h1
      · cases h1
    have hinU : ∀ p ∈ g.pre b, s1.vw.V p = false → isF (g.atom p).lit = false → p ∈ U := by
      intro p hp hV hF
      have h6 := L.cl x hxi b hb hbF p hp hV hF
      rw [e3, List.append_nil] at h6
      rcases L.dn p h6 with h7 | h7
      · exact (hU p).2 ⟨h7, hV⟩
      · rw [hV] at h7; cases h7
    refine ⟨h3, fun he => ?_, fun he => ?_⟩
    · have hc := L.add.core.cntN b hbb he
      have hpos : 0 < ((g.pre b).filter fun p => !h1.k b p).length := by omega
      obtain ⟨p, hp⟩ := List.exists_mem_of_length_pos hpos
      obtain ⟨hp1, hp2⟩ := List.mem_filter.1 hp
      refine ⟨p, hp1, ?_⟩
      have hkf : h1.k b p = false := by simpa using hp2
      have hVf : s1.vw.V p = false := by
        cases hV : s1.vw.V p with
        | false => rfl
        | true => rw [(hkV p hp1).2 hV] at hkf; cases hkf
      cases hF : isF (g.atom p).lit with
      | true => exact Or.inr rfl
      | false => exact Or.inl (hinU p hp1 hVf hF)
    · have hc := L.add.core.cntE b hbb he
      have : g.wsSum b (fun i => !isF (g.slit b i) && !ufsPos g U b i) ≤ g.wsSum b (s1.vw.ws b) := by
        refine wsSum_mono hg hbb fun i hi hcond => ?_
        simp only [Bool.and_eq_true, Bool.not_eq_true'] at hcond
        refine h5 he i hi hcond.1 fun p hp => ?_
        have hpm := pr_pre hp
        refine (hkV p hpm).2 ?_
        cases hV : s1.vw.V p with
        | true => rfl
        | false =>
          have hF : isF (g.atom p).lit = false := by rw [← slit_pr hp]; exact hcond.1
          have hpU := hinU p hpm hV hF
          have : ufsPos g U b i = true := by unfold ufsPos; rw [hp]; simpa using hpU
          rw [this] at hcond; cases hcond.2
      omega
  have hmem : ∀ U : List Nat, (∀ x, x ∈ U ↔ x ∈ inv ∧ s1.vw.V x = false) → ∀ x ∈ U, x ∈ g.atoms ∧ isF (g.atom x).lit = false ∧ (g.atom x).scc = (g.atom a).scc :=
    fun U hU x hx => L.fi.mem x (List.mem_append_left _ (L.isub x ((hU x).1 hx).1))
  have haU : ∀ U : List Nat, (∀ x, x ∈ U ↔ x ∈ inv ∧ s1.vw.V x = false) → a ∈ U ∨ s1.vw.V a = true := by
    intro U hU
    cases hV : s1.vw.V a with
    | true => exact Or.inr rfl
    | false =>
      left
      refine (hU a).2 ⟨?_, hV⟩
      rcases L.dn a had with h2 | h2
      · exact h2
      · rw [hV] at h2; cases h2
  have heq : ∀ x : Bool × St, Ufs.findSource g isF s a = x ↔
      (let s2 : St := { s1 with ufs := s1.ufsDone ++ s1.ufs, ufsDone := [] }
       let s3 := if new ≠ 0 then (if s2.ufs.length ≠ new then inv.foldl requeue { s2 with ufs := [] } else { s2 with ufs := [] }) else s2
       (s3.ufs.isEmpty, s3)) = x := by
    intro x
    unfold Ufs.findSource
    rw [e1]
  by_cases hn0 : new = 0
  · -- nothing was found
    have hVf := L.n0 hn0
    rw [e3, List.append_nil] at hVf
    have hU : ∀ x, x ∈ s1.ufsDone ↔ x ∈ inv ∧ s1.vw.V x = false := by
      intro x
      refine ⟨fun hx => ⟨?_, hVf x hx⟩, fun hx => L.isub x hx.1⟩
      rcases L.dn x hx with h2 | h2
      · exact h2
      · rw [hVf x hx] at h2; cases h2
    let s2 : St := { s1 with ufs := s1.ufsDone ++ s1.ufs, ufsDone := [] }
    have hs2u : s2.ufs = s1.ufsDone := by show s1.ufsDone ++ s1.ufs = _; rw [e3, List.append_nil]
    refine ⟨s2.ufs.isEmpty, s2, h1, (heq _).2 ?_, Add.congr (s := s1) (s' := s2) rfl rfl L.add, L.sq, ?_, ⟨fun x => ?_, ?_, rfl⟩, List.isEmpty_iff, ?_, ?_, ?_⟩
    · subst hn0; rfl
    · exact hff.trans (u := s2) ⟨fun _ => rfl, rfl, rfl, fun _ => rfl, fun _ => rfl, fun _ h => h⟩
    · rw [hs2u]
      refine ⟨fun hx => ?_, fun hx => ?_⟩
      · have := L.fi.fl x hx
        rw [e3, List.append_nil] at this; exact this
      · rcases L.fi.fd x hx with h2 | h2
        · exact h2
        · rw [hVf x hx] at h2; cases h2
    · rw [hs2u]; exact (List.nodup_append.1 L.fi.nd).1
    · rw [hs2u]; exact haU _ hU
    · rw [hs2u]; exact hunf _ hU
    · rw [hs2u]; exact hmem _ hU
  · let s2 : St := { s1 with ufs := [], ufsDone := [] }
    obtain ⟨k1, k2, k3, k4, k5, k6⟩ := requeue_spec inv s2 L.ind
    have hU : ∀ x, x ∈ inv.filter (fun x => !s1.vw.V x) ↔ x ∈ inv ∧ s1.vw.V x = false := fun x => by simp
    have hs3 : ∃ s3, (if s1.ufsDone.length ≠ new then inv.foldl requeue s2 else s2) = s3 ∧ s3 = inv.foldl requeue s2 := by
      by_cases hc : s1.ufsDone.length = new
      · have : inv = [] := List.length_eq_zero_iff.1 (by have := L.cnt; omega)
        rw [this]
        exact ⟨s2, by rw [if_neg (by simp [hc])], rfl⟩
      · exact ⟨_, if_pos hc, rfl⟩
    obtain ⟨s3, hs3, hs3'⟩ := hs3
    have hku : s3.ufs = inv.filter (fun x => !s1.vw.V x) := by rw [hs3', k3]; rfl
    refine ⟨s3.ufs.isEmpty, s3, h1, (heq _).2 ?_, ?_, ?_, ?_, ⟨fun x => ?_, ?_, ?_⟩, List.isEmpty_iff, ?_, ?_, ?_⟩
    · simp only [e3, List.append_nil, ne_eq, hn0, not_false_eq_true, if_true]
      rw [← hs3]
    · rw [hs3']; exact Add.congr (s := s1) k1 k2 L.add
    · rw [hs3', k2]; exact L.sq
    · rw [hs3']
      exact hff.trans (FFrame.trans (t := s2) ⟨fun _ => rfl, rfl, rfl, fun _ => rfl, fun _ => rfl, fun _ h => h⟩ k5)
    · rw [hku, hs3', k6, hU]
      by_cases hx : x ∈ inv
      · rw [if_pos hx]
        show (!s1.vw.V x) = true ↔ _
        simp [hx]
      · rw [if_neg hx]
        show (s1.atoms x).ufs = true ↔ _
        constructor
        · intro hf
          have := L.fi.fl x hf
          rw [e3, List.append_nil] at this
          rw [L.nf x this hx] at hf; cases hf
        · exact fun h => absurd h.1 hx
    · rw [hku]; exact L.ind.filter _
    · rw [hs3', k4]
    · rw [hku, hs3', k1]; exact haU _ hU
    · rw [hku]; exact hunf _ hU
    · rw [hku]; exact hmem _ hU

/-! ### `findUfs` -/

/-- Proof device: the atoms whose source must be good. -/
def Req0 (g : UGraph) (isF : Lit → Bool) (Lo : List (Lit → Bool)) (D : Nat → Prop) (f : Lit → Bool) (a : Nat) : Prop :=
  (f ∈ Lo ∧ a ∈ g.atoms ∧ f (g.atom a).lit = false) ∨ (f = isF ∧ a ∈ g.atoms ∧ isF (g.atom a).lit = false ∧ D a)

theorem Req0.le {D : Nat → Prop} (hLo : ∀ f ∈ Lo, ∀ p, f p = true → isF p = true) : ∀ f a, Req0 g isF Lo D f a → ∀ p, f p = true → isF p = true := by
  intro f a hr p hp
  rcases hr with h | h
  · exact hLo f h.1 p hp
  · rw [h.1] at hp; exact hp

theorem Add.extend {D D' : Nat → Prop} (H : Add g isF (Req0 g isF Lo D) s h 0 [])
    (hD : ∀ a ∈ g.atoms, isF (g.atom a).lit = false → D' a → D a ∨ s.vw.V a = true) : Add g isF (Req0 g isF Lo D') s h 0 [] :=
  have hgd : ∀ f a, Req0 g isF Lo D' f a → Good g h.G s.vw f a := by
    intro f a hr
    rcases hr with h1 | ⟨rfl, h2, h3, h4⟩
    · exact H.good f a (Or.inl h1)
    · rcases hD a h2 h3 h4 with h5 | h5
      · exact H.good f a (Or.inr ⟨rfl, h2, h3, h5⟩)
      · exact H.good_V h2 h5
  { H with good := hgd }

theorem Rem.toAdd {D : Nat → Prop} (H : Rem g isF Lo s h (fun _ => False) [] 0 []) (hq : s.sourceQ = [])
    (hD : ∀ a, D a → (s.atoms a).todo = false ∧ (s.atoms a).ufs = false) : Add g isF (Req0 g isF Lo D) s h 0 [] := by
  refine ⟨H.core, fun b hb p hp hk => ?_, fun b hb p hp hV => Or.inl (H.Vk b hb p hp hV), by rw [hq]; simp, by rw [hq]; simp, by rw [hq]; simp,
    fun b hb => (by cases hb), fun hn => absurd rfl hn, fun b hb he i hw => ?_, fun a ha b hV hW => ?_, fun f a hr => ?_⟩
  · rcases H.pend b hb p hp hk with h1 | h1 | ⟨_, h1⟩
    · exact h1
    · rw [hq] at h1; cases h1
    · cases h1
  · cases hF : isF (g.slit b i) with
    | false => rfl
    | true => have := H.wsQ b hb he i hw hF; cases this
  · cases hF : isF (g.body b).lit with
    | false => rfl
    | true => have := H.srcQ a ha b hV hW hF; cases this
  · rcases hr with ⟨h1, h2, h3⟩ | ⟨rfl, h2, h3, h4⟩
    · exact H.lowG f h1 a h2 h3
    · obtain ⟨h5, h6⟩ := hD a h4
      rcases H.obl a h2 h3 with h7 | h7 | ⟨b, h7, h8⟩
      · rw [h5] at h7; cases h7
      · rw [h6] at h7; cases h7
      · rcases h8 with ⟨_, h9⟩ | ⟨h8, h9⟩
        · cases h9
        · refine ⟨b, h7, h8, fun hs he i hG => ?_⟩
          cases hF : f (g.slit b i) with
          | false => rfl
          | true => have := h9 hs he i hG hF; cases this

theorem Add.toMInv {D : Nat → Prop} (hLo : ∀ f ∈ Lo, ∀ p, f p = true → isF p = true) (H : Add g isF (Req0 g isF Lo D) s h 0 []) (hq : s.sourceQ = []) (hi : s.invalidQ = [])
    (hpk : ∀ b, (s.bodies b).picked = false) (ht : TodoOk g s) (hD : ∀ a, D a ∨ (s.atoms a).todo = true ∨ (s.atoms a).ufs = true) : MInv g isF Lo s h := by
  have hF : ∀ {f p}, f ∈ Lo → isF p = false → f p = false := by
    intro f p hf hp
    cases hfp : f p with
    | false => rfl
    | true => rw [hLo f hf p hfp] at hp; cases hp
  refine ⟨⟨H.core, fun b hb p hp hV => ?_, fun b hb p hp hk => Or.inl (H.kV b hb p hp hk), by rw [hq]; simp, by rw [hq]; simp, by rw [hq]; simp,
    fun b hb => (by cases hb), fun hn => absurd rfl hn, fun f hf a ha hfa => H.good f a (Or.inl ⟨hf, ha, hfa⟩),
    fun f hf b hb he i hw => hF hf (H.wsF b hb he i hw), fun f hf a ha b hV hW => hF hf (H.srcF a ha b hV hW), fun b hb he i hw hFi => ?_,
    fun a ha b hV hW hFb => ?_, fun a ha hFa => ?_, fun b hb => ?_, ht⟩, hq, hpk, by rw [hi]; simp⟩
  · rcases H.pend b hb p hp hV with h1 | h1 | ⟨_, h1⟩
    · exact h1
    · rw [hq] at h1; cases h1
    · cases h1
  · rw [H.wsF b hb he i hw] at hFi; cases hFi
  · rw [H.srcF a ha b hV hW] at hFb; cases hFb
  · rcases hD a with h1 | h1 | h1
    · obtain ⟨b, h2, h3, h4⟩ := H.good isF a (Or.inr ⟨rfl, ha, hFa, h1⟩)
      refine Or.inr (Or.inr ⟨b, h2, Or.inr ⟨h3, fun hs he i hG hFi => ?_⟩⟩)
      rw [h4 hs he i hG] at hFi; cases hFi
    · exact Or.inl h1
    · exact Or.inr (Or.inl h1)
  · rw [hpk b] at hb; cases hb

theorem vw_setTodo (s : St) (a : Nat) (t : Bool) : (s.setA a { s.atoms a with todo := t }).vw = s.vw := by
  ext x <;> by_cases e : x = a <;> simp [St.vw, St.setA, Function.update_apply, e]

theorem todoLoop_spec (hg : GWf g) (hLo : ∀ f ∈ Lo, ∀ p, f p = true → isF p = true) : ∀ (l : List Nat) (s : St) (h : Gh),
    Add g isF (Req0 g isF Lo fun a => (s.atoms a).todo = false) s h 0 [] → s.sourceQ = [] → s.invalidQ = [] → (∀ b, (s.bodies b).picked = false) → TodoOk g s → s.todo = l →
    UfsOk s → s.ufs = [] →
    ∃ found s' h', todoLoop g isF l s = (found, s') ∧ MInv g isF Lo s' h' ∧ s'.invalidQ = [] ∧ UfsOk s' ∧ (∀ b, (s'.bodies b).slack = (s.bodies b).slack) ∧
      (found = false → s'.todo = [] ∧ s'.ufs = []) ∧ (found = true → s'.ufs ≠ [] ∧ UnfSet g isF s'.ufs ∧
        ∃ c, ∀ x ∈ s'.ufs, x ∈ g.atoms ∧ isF (g.atom x).lit = false ∧ (g.atom x).scc = c) := by
  intro l
  induction l with
  | nil =>
    intro s h H hq hi hpk ht hl hu hu0
    have e : ({ s with todo := [] } : St) = s := by rw [← hl]
    refine ⟨false, s, h, by unfold todoLoop; rw [e], ?_, hi, hu, fun _ => rfl, fun _ => ⟨hl, hu0⟩, fun h => by cases h⟩
    exact H.toMInv hLo hq hi hpk ht fun a => by
      cases hf : (s.atoms a).todo with
      | false => exact Or.inl rfl
      | true => exact Or.inr (Or.inl rfl)
  | cons a l ih =>
    intro s h H hq hi hpk ht hl hu hu0
    unfold todoLoop
    generalize hs1 : ({ s.setA a { s.atoms a with todo := false } with todo := l } : St) = s1
    dsimp only
    have hv1 : s1.vw = s.vw := by rw [← hs1]; exact vw_setTodo s a false
    have hq1 : s1.sourceQ = s.sourceQ := by rw [← hs1]; rfl
    have hi1 : s1.invalidQ = [] := by rw [← hs1]; exact hi
    have hpk1 : ∀ b, (s1.bodies b).picked = false := by rw [← hs1]; exact hpk
    have htd1 : ∀ x, (s1.atoms x).todo = if x = a then false else (s.atoms x).todo := fun x => by
      rw [← hs1]; by_cases e : x = a <;> simp [St.setA, Function.update_apply, e]
    have huf1 : ∀ x, (s1.atoms x).ufs = (s.atoms x).ufs := fun x => by
      rw [← hs1]; by_cases e : x = a <;> simp [St.setA, Function.update_apply, e]
    have hul : s1.ufs = [] := by rw [← hs1]; exact hu0
    have hu1 : UfsOk s1 := ⟨fun x => by rw [huf1, hu.fl, hul, hu0], by rw [hul]; exact List.nodup_nil, by rw [← hs1]; exact hu.dn⟩
    have hnd := ht.1
    rw [hl] at hnd
    have hn := List.nodup_cons.1 hnd
    have hl1 : s1.todo = l := by rw [← hs1]
    have ht1 : TodoOk g s1 := by
      refine ⟨by rw [hl1]; exact hn.2, fun x => ⟨?_, fun hx => (ht.2 x).2 (by rw [hl]; rw [hl1] at hx; simp [hx])⟩⟩
      rw [hl1, htd1]
      by_cases e : x = a
      · subst e; simp [hn.1]
      · rw [if_neg e, ← (ht.2 x).1, hl]; simp [e]
    have haA : a ∈ g.atoms := (ht.2 a).2 (by rw [hl]; simp)
    have hadd1 : Add g isF (Req0 g isF Lo fun x => (s.atoms x).todo = false) s1 h 0 [] := H.congr hv1 hq1
    have hsl1 : ∀ b, (s1.bodies b).slack = (s.bodies b).slack := fun b => by rw [← hs1]; rfl
    by_cases hc : (!(s1.atoms a).valid && !isF (g.atom a).lit) = true
    · rw [if_pos hc]
      simp only [Bool.and_eq_true, Bool.not_eq_true'] at hc
      obtain ⟨ok, s2, h2, r0, r1, r2, r3, r4, r5, r6, r7, r8⟩ := hadd1.findSource hg (Req0.le hLo) (by rw [hq1]; exact hq) hu1 hul haA hc.2 hc.1
      rw [r0]
      dsimp only
      have htd2 : ∀ x, (s2.atoms x).todo = (s1.atoms x).todo := r3.td
      have ht2 : TodoOk g s2 := by unfold TodoOk; rw [r3.todo]; exact ⟨ht1.1, fun x => by rw [htd2]; exact ht1.2 x⟩
      have hpk2 : ∀ b, (s2.bodies b).picked = false := fun b => by rw [r3.pick]; exact hpk1 b
      have hi2 : s2.invalidQ = [] := by rw [r3.inv]; exact hi1
      by_cases hok : ok = true
      · rw [if_pos hok]
        have hu2 := r5.1 hok
        have hVa : s2.vw.V a = true := by
          rcases r6 with h3 | h3
          · rw [hu2] at h3; cases h3
          · exact h3
        obtain ⟨found, s', h', k0, k1, k2, k3, k4, k5, k6⟩ := ih s2 h2 (r1.extend fun x hx hF hD => by
          rw [htd2, htd1] at hD
          by_cases e : x = a
          · rw [e]; exact Or.inr hVa
          · rw [if_neg e] at hD; exact Or.inl hD) r2 hi2 hpk2 ht2 (by rw [r3.todo]; exact hl1) r4 hu2
        exact ⟨found, s', h', k0, k1, k2, k3, fun b => by rw [k4, r3.slack, hsl1], k5, k6⟩
      · rw [if_neg hok]
        have hu2 : s2.ufs ≠ [] := fun h => hok (r5.2 h)
        refine ⟨true, s2, h2, rfl, ?_, hi2, r4, fun b => by rw [r3.slack, hsl1], fun h => (by cases h), fun _ => ⟨hu2, r7, ⟨_, r8⟩⟩⟩
        have H3 : Add g isF (Req0 g isF Lo fun x => (s2.atoms x).todo = false ∧ (s2.atoms x).ufs = false) s2 h2 0 [] := r1.extend fun x hx hF hD => by
          rw [htd2, htd1] at hD
          by_cases e : x = a
          · subst e
            rcases r6 with h3 | h3
            · rw [(r4.fl x).2 h3] at hD; cases hD.2
            · exact Or.inr h3
          · rw [if_neg e] at hD; exact Or.inl hD.1
        refine H3.toMInv hLo r2 hi2 hpk2 ht2 fun x => ?_
        cases h1 : (s2.atoms x).todo with
        | true => exact Or.inr (Or.inl rfl)
        | false => cases h2 : (s2.atoms x).ufs with
          | true => exact Or.inr (Or.inr rfl)
          | false => exact Or.inl ⟨rfl, rfl⟩
    · rw [if_neg hc]
      obtain ⟨found, s', h', k0, k1, k2, k3, k4, k5, k6⟩ := ih s1 h (hadd1.extend fun x hx hF hD => by
        rw [htd1] at hD
        by_cases e : x = a
        · subst e
          right
          cases hV : s1.vw.V x with
          | true => rfl
          | false =>
            refine absurd ?_ hc
            simp only [Bool.and_eq_true, Bool.not_eq_true']
            exact ⟨hV, hF⟩
        · rw [if_neg e] at hD; exact Or.inl hD) (by rw [hq1]; exact hq) hi1 hpk1 ht1 hl1 hu1 hul
      exact ⟨found, s', h', k0, k1, k2, k3, fun b => by rw [k4, hsl1], k5, k6⟩

/-- `findUfs`: what it returns is an unfounded set; if it returns none then nothing is left to do. -/
theorem MInv.findUfs (hg : GWf g) (hLo : ∀ f ∈ Lo, ∀ p, f p = true → isF p = true) (H : MInv g isF Lo s h) (hu : UfsOk s) (hu0 : s.ufs = []) :
    ∃ found s' h', findUfs g isF s = (found, s') ∧ MInv g isF Lo s' h' ∧ s'.invalidQ = [] ∧ UfsOk s' ∧ (∀ b, (s'.bodies b).slack = (s.bodies b).slack) ∧
      (found = false → s'.todo = [] ∧ s'.ufs = []) ∧ (found = true → s'.ufs ≠ [] ∧ UnfSet g isF s'.ufs ∧
        ∃ c, ∀ x ∈ s'.ufs, x ∈ g.atoms ∧ isF (g.atom x).lit = false ∧ (g.atom x).scc = c) := by
  obtain ⟨⟨h1, H1⟩, hi1, hf1⟩ := H.update hg
  unfold Ufs.findUfs
  dsimp only
  generalize updateAssignment g isF s = s1 at *
  have hrem := H1.rem
  rw [hi1] at hrem
  have hu1 : UfsOk s1 := ⟨fun x => by rw [hf1.uf, hf1.ufs]; exact hu.fl x, by rw [hf1.ufs]; exact hu.nd, by rw [hf1.ufsDone]; exact hu.dn⟩
  have hu10 : s1.ufs = [] := by rw [hf1.ufs]; exact hu0
  obtain ⟨found, s', h', k0, k1, k2, k3, k4, k5, k6⟩ := todoLoop_spec hg hLo s1.todo s1 h1 (hrem.toAdd H1.sq fun a ha => ⟨ha, by
    cases hf : (s1.atoms a).ufs with
    | false => rfl
    | true => have := (hu1.fl a).1 hf; rw [hu10] at this; cases this⟩) H1.sq hi1 H1.pk hrem.tdo rfl hu1 hu10
  exact ⟨found, s', h', k0, k1, k2, k3, fun b => by rw [k4, hf1.slack], k5, k6⟩

end Clasp.Ufs
