import Verif.Asp.UfsGraph
import Mathlib.Data.Finset.Card
import Mathlib.Data.Finset.Filter
import Mathlib.Data.Finset.Range

/-! Unfounded sets of the dependency graph and stable models (C29). No code is modelled in this file; it contains
specifications and proof devices only. -/

namespace Clasp.Asp
open Clasp.Core Clasp.Ufs

variable {p : Prg} {scc : Nat → Nat} {hs : Nat → List Nat} {isF : Lit → Bool} {σ : Asg}

/-! ### Sums -/

theorem wsSum_split {g : UGraph} (A : Nat → Bool) (B : Lit → Bool) (b : Nat) {f : Nat → Bool}
    (hf : ∀ i, f i = match g.pr b i with | some q => A q | none => B (g.slit b i)) :
    g.wsSum b f = ((g.body b).preds.map fun x => if A x.1 then x.2 else 0).sum + ((g.body b).lits.map fun x => if B x.1 then x.2 else 0).sum := by
  let T : List (Option Nat × Lit × Int) := (g.body b).preds.map (fun q => (some q.1, litTrue, q.2)) ++ (g.body b).lits.map (fun x => (none, x.1, x.2))
  let F : Option Nat × Lit × Int → Int := fun x => match x.1 with
    | some q => if A q then x.2.2 else 0
    | none => if B x.2.1 then x.2.2 else 0
  have h1 : (T.map F).sum = ((g.body b).preds.map fun x => if A x.1 then x.2 else 0).sum + ((g.body b).lits.map fun x => if B x.1 then x.2 else 0).sum := by
    simp only [T, List.map_append, List.sum_append]
    rw [List.map_map, List.map_map]
    rfl
  rw [← h1, ← range_sum F T]
  have hl : T.length = (g.subs b).length := by simp [T, UGraph.subs]
  unfold UGraph.wsSum
  rw [hl]
  congr 1
  apply List.map_congr_left
  intro i hi
  have hi := List.mem_range.1 hi
  rw [hf i]
  unfold UGraph.pr UGraph.weight UGraph.slit UGraph.subs
  by_cases hlt : i < (g.body b).preds.length
  · have e1 : T[i]? = some (some ((g.body b).preds[i]).1, litTrue, ((g.body b).preds[i]).2) := by
      simp only [T]
      rw [List.getElem?_append_left (by simpa using hlt), List.getElem?_map, List.getElem?_eq_getElem hlt]; rfl
    rw [e1, List.getElem?_append_left (by simpa using hlt)]
    simp only [List.getElem?_map, List.getElem?_eq_getElem hlt, Option.map_some, Option.getD_some]
    rfl
  · have hge : (g.body b).preds.length ≤ i := Nat.le_of_not_lt hlt
    have hlt2 : i - (g.body b).preds.length < (g.body b).lits.length := by
      unfold UGraph.subs at hi; simp at hi; omega
    have e1 : T[i]? = some (none, ((g.body b).lits[i - (g.body b).preds.length]).1, ((g.body b).lits[i - (g.body b).preds.length]).2) := by
      simp only [T]
      rw [List.getElem?_append_right (by simpa using hge)]
      simp only [List.getElem?_map, List.length_map, List.getElem?_eq_getElem hlt2]; rfl
    rw [e1, List.getElem?_append_right (by simpa using hge), List.getElem?_eq_none hge]
    simp only [List.length_map, List.getElem?_eq_getElem hlt2, Option.map_some, Option.getD_some, Option.map_none]
    rfl

theorem sum_filter {α : Type} (P : α → Bool) (F : α → Int) : ∀ l : List α, ((l.filter P).map F).sum = (l.map fun x => if P x then F x else 0).sum
  | [] => rfl
  | x :: l => by
    have ih := sum_filter P F l
    rw [List.filter_cons]
    cases h : P x <;> simp [h, ih]

/-- Proof device: a goal of body `b` that is stored as atom. -/
def Prg.asPred (p : Prg) (scc : Nat → Nat) (hs : Nat → List Nat) (isF : Lit → Bool) (b : Nat) (x : BLit × Int) : Bool :=
  !x.1.neg && (p.relAtom scc isF x.1.atom && decide (scc x.1.atom = p.bscc scc hs b))
/-- Proof device: a goal of body `b` that is stored as literal. -/
def Prg.asLit (p : Prg) (scc : Nat → Nat) (hs : Nat → List Nat) (isF : Lit → Bool) (b : Nat) (x : BLit × Int) : Bool :=
  (x.1.neg || decide (scc x.1.atom ≠ p.bscc scc hs b)) && !isF (p.goal x.1)

/-- the weights in the graph are those of the goals -/
theorem ext_sum (hp : p.GraphOk hs) {b : Nat} (hb : p.relBody isF b = true) (he : p.isExt scc hs b = true) (A : Nat → Bool) (B : Lit → Bool)
    {f : Nat → Bool} (hf : ∀ i, f i = match (p.ufsGraph scc hs isF).pr b i with | some q => A q | none => B ((p.ufsGraph scc hs isF).slit b i)) :
    (p.ufsGraph scc hs isF).wsSum b f = ((p.body b).body.wlits.map fun x =>
      (if p.asPred scc hs isF b x && A x.1.atom then x.2 else 0) + (if p.asLit scc hs isF b x && B (p.goal x.1) then x.2 else 0)).sum := by
  rw [wsSum_split A B b hf]
  obtain ⟨h1, h2, _⟩ := relBody_iff.1 hb
  have hne : p.bscc scc hs b ≠ noScc := by
    unfold Prg.isExt at he
    simp only [Bool.and_eq_true, decide_eq_true_eq] at he
    exact he.1
  have e1 : ((p.ufsGraph scc hs isF).body b).preds = p.ufsPreds scc hs isF b := rfl
  have e2 : ((p.ufsGraph scc hs isF).body b).lits = p.ufsLits scc hs isF b := rfl
  rw [e1, e2]
  unfold Prg.ufsPreds Prg.ufsLits
  rw [if_neg hne, if_pos he, List.map_map, List.map_map, ← hp.front b h1 h2, List.filter_filter, sum_filter, sum_filter]
  generalize (p.body b).body.wlits = l
  induction l with
  | nil => rfl
  | cons x l ih =>
    simp only [List.map_cons, List.sum_cons, Function.comp] at ih ⊢
    have key : ∀ n1 n2 n3 A' B' : Bool, (if (n2 && n1) = true then (if A' = true then x.2 else 0) else (0 : Int)) + (if n3 = true then (if B' = true then x.2 else 0) else 0) =
        (if (n1 && n2 && A') = true then x.2 else 0) + (if (n3 && B') = true then x.2 else 0) := by
      intro n1 n2 n3 A' B'
      cases n1 <;> cases n2 <;> cases n3 <;> simp
    have := key (!x.1.neg) (p.relAtom scc isF x.1.atom && decide (scc x.1.atom = p.bscc scc hs b)) (p.asLit scc hs isF b x) (A x.1.atom) (B (p.goal x.1))
    rw [← ih]
    unfold Prg.asPred
    rw [← this]
    unfold Prg.asLit
    omega

theorem wsum_le {X M : AtomSet} {C D : BLit × Int → Bool} : ∀ ls : List (BLit × Int), (∀ x ∈ ls, 0 ≤ x.2) →
    (∀ x ∈ ls, x.1.holds X M = true → C x = true ∨ D x = true) →
    wsum X M ls ≤ (ls.map fun x => (if C x then x.2 else 0) + (if D x then x.2 else 0)).sum
  | [], _, _ => Int.le_refl _
  | x :: r, hw, h => by
    have ih := wsum_le r (fun y hy => hw y (by simp [hy])) fun y hy => h y (by simp [hy])
    have h0 := hw x (by simp)
    have h1 := h x (by simp)
    obtain ⟨l, w⟩ := x
    simp only [List.map_cons, List.sum_cons, wsum]
    cases hl : l.holds X M
    · cases C (l, w) <;> cases D (l, w) <;> simp <;> simp at h0 <;> omega
    · rcases h1 hl with e | e
      · rw [e]; cases D (l, w) <;> simp <;> simp at h0 <;> omega
      · rw [e]; cases C (l, w) <;> simp <;> simp at h0 <;> omega

theorem wsum_ge {X M : AtomSet} {C D : BLit × Int → Bool} : ∀ ls : List (BLit × Int), (∀ x ∈ ls, 0 ≤ x.2) →
    (∀ x ∈ ls, C x = true ∨ D x = true → x.1.holds X M = true) → (∀ x, C x = true → D x = false) →
    (ls.map fun x => (if C x then x.2 else 0) + (if D x then x.2 else 0)).sum ≤ wsum X M ls
  | [], _, _, _ => Int.le_refl _
  | x :: r, hw, h, hd => by
    have ih := wsum_ge r (fun y hy => hw y (by simp [hy])) (fun y hy => h y (by simp [hy])) hd
    have h0 := hw x (by simp)
    have h1 := h x (by simp)
    have h2 := hd x
    obtain ⟨l, w⟩ := x
    simp only [List.map_cons, List.sum_cons, wsum]
    cases hl : l.holds X M
    · have e1 : C (l, w) = false := by
        cases e : C (l, w) with
        | false => rfl
        | true => rw [h1 (.inl e)] at hl; cases hl
      have e2 : D (l, w) = false := by
        cases e : D (l, w) with
        | false => rfl
        | true => rw [h1 (.inr e)] at hl; cases hl
      rw [e1, e2]; simpa using ih
    · cases e1 : C (l, w) <;> cases e2 : D (l, w) <;> simp <;> simp at h0
      · omega
      · omega
      · omega
      · rw [h2 e1] at e2; cases e2

/-! ### Unfounded sets have no atoms in a stable model -/

/-- Specification: under `σ`, body `b` cannot be used to derive an atom from `U` without using an atom from `U`. -/
def Blocked (g : UGraph) (σ : Asg) (U : List Nat) (b : Nat) : Prop :=
  tval σ (g.body b).lit = false ∨
  ((g.body b).ext = false ∧ ∃ q ∈ g.pre b, q ∈ U ∨ tval σ (g.atom q).lit = false) ∨
  ((g.body b).ext = true ∧ g.wsSum b (fun i => tval σ (g.slit b i) && !ufsPos g U b i) < (g.body b).bound)

theorem mem_lits_iff {b : Body} {l : BLit} : l ∈ b.lits ↔ ∃ w, (l, w) ∈ b.wlits := by
  cases b with
  | conj ls => simp [Body.lits, Body.wlits]
  | sum ls bd => simp [Body.lits, Body.wlits]

theorem pos_lits {b q : Nat} (h : q ∈ p.posAtoms b) : (⟨q, false⟩ : BLit) ∈ (p.body b).body.lits := by
  obtain ⟨x, hx, rfl⟩ := List.mem_map.1 h
  have h1 := front_pos hx
  refine mem_lits_iff.2 ⟨x.2, ?_⟩
  have : ((⟨x.1.atom, false⟩ : BLit), x.2) = x := by
    obtain ⟨⟨a, n⟩, w⟩ := x
    simp at h1; simp [h1]
  rw [this]; exact front_sub hx

theorem lits_pos (hp : p.GraphOk hs) {b q : Nat} (h1 : b < p.nbodies) (h2 : (p.body b).rel = true) (h : (⟨q, false⟩ : BLit) ∈ (p.body b).body.lits) : q ∈ p.posAtoms b := by
  obtain ⟨w, hw⟩ := mem_lits_iff.1 h
  have : ((⟨q, false⟩ : BLit), w) ∈ (p.body b).body.front := by
    rw [← hp.front b h1 h2]
    exact List.mem_filter.2 ⟨hw, rfl⟩
  exact List.mem_map.2 ⟨_, this, rfl⟩

/-- No stable model contains an atom of an unfounded set. -/
theorem blocked_sound (hp : p.GraphOk hs) (h0 : σ 0 = true) (hm : Models σ p.allCons) (hst : Stable p.rules (p.modelOf σ))
    (hF : ∀ q, isF q = true → tval σ q = false) {U : List Nat}
    (hU : ∀ a ∈ U, p.relAtom scc isF a = true ∧ ∀ b ∈ p.ufsBodies scc hs isF a, Blocked (p.ufsGraph scc hs isF) σ U b) :
    ∀ a ∈ U, tval σ (p.atom a).lit = false := by
  obtain ⟨_, hag⟩ := (allCons_spec h0 hp.wf).1 hm
  let X : AtomSet := fun a => p.modelOf σ a && !U.contains a
  have hsub : Sub X (p.modelOf σ) := fun a ha => by
    simp only [X, Bool.and_eq_true] at ha; exact ha.1
  have hclosed : Closed p.rules X (p.modelOf σ) := by
    intro r hr hb
    obtain ⟨a, ha, hrel, e, he, hbr, rfl⟩ := mem_rules.1 hr
    have hbn := hp.wf.sups a ha hrel e he
    have hnn := hp.nonneg _ hbn hbr
    have hbM : (p.body e.body).body.holds (p.modelOf σ) (p.modelOf σ) = true := Body.holds_mono hsub _ hnn hb
    have hlit : tval σ (p.body e.body).lit = true := by rw [hag _ hbn hbr]; exact hbM
    have hok := hst.1 _ hr hbM
    have hnU : a ∉ U := by
      intro haU
      obtain ⟨h1, h2⟩ := hU a haU
      have hbF : p.relBody isF e.body = true := relBody_iff.2 ⟨hbn, hbr, by
        cases hc : isF (p.body e.body).lit with
        | false => rfl
        | true => rw [hF _ hc] at hlit; cases hlit⟩
      rcases h2 e.body (mem_ufsBodies.2 ⟨hbF, e, he, rfl⟩) with h3 | ⟨h3, q, hq, h4⟩ | ⟨h3, h4⟩
      · have h3 : tval σ (p.body e.body).lit = false := h3
        rw [hlit] at h3; cases h3
      · -- a normal body
        obtain ⟨hq1, hq2, hq3, hq4⟩ := graph_pre.1 hq
        have hql := pos_lits hq2
        have hXq : X q = true := by
          have h3 : p.isExt scc hs e.body = false := h3
          have hsum : (p.body e.body).body.isSum = false := by
            unfold Prg.isExt at h3
            simpa [hq1] using h3
          have hb : (p.body e.body).body.holds X (p.modelOf σ) = true := hb
          cases hbd : (p.body e.body).body with
          | sum ls bd => rw [hbd] at hsum; cases hsum
          | conj ls =>
            rw [hbd] at hb hql
            have := List.all_eq_true.1 hb _ hql
            simpa [BLit.holds] using this
        simp only [X, Bool.and_eq_true, Bool.not_eq_true'] at hXq
        rcases h4 with h4 | h4
        · have : U.contains q = true := by simpa using h4
          rw [this] at hXq; cases hXq.2
        · obtain ⟨h5, h6, _⟩ := relAtom_iff.1 hq3
          rw [modelOf_rel h5 h6] at hXq
          have h4 : tval σ (p.atom q).lit = false := h4
          rw [h4] at hXq; cases hXq.1
      · -- an extended body
        have h3 : p.isExt scc hs e.body = true := h3
        have hsum : (p.body e.body).body.isSum = true := by
          unfold Prg.isExt at h3
          rw [Bool.and_eq_true] at h3; exact h3.2
        have hle : (p.ufsGraph scc hs isF).wsSum e.body (fun i => match (p.ufsGraph scc hs isF).pr e.body i with
            | some q => tval σ (p.atom q).lit && !U.contains q
            | none => tval σ ((p.ufsGraph scc hs isF).slit e.body i)) ≤
            (p.ufsGraph scc hs isF).wsSum e.body (fun i => tval σ ((p.ufsGraph scc hs isF).slit e.body i) && !ufsPos (p.ufsGraph scc hs isF) U e.body i) := by
          apply Int.le_of_eq
          congr 1
          funext i
          unfold ufsPos
          cases hpr : (p.ufsGraph scc hs isF).pr e.body i with
          | some q => rw [slit_pr hpr]; rfl
          | none => simp
        rw [ext_sum hp hbF h3 (fun q => tval σ (p.atom q).lit && !U.contains q) (fun q => tval σ q) (fun i => rfl)] at hle
        have h4 : _ < (p.body e.body).body.bnd := Int.lt_of_le_of_lt hle h4
        have hb : (p.body e.body).body.holds X (p.modelOf σ) = true := hb
        have hge := wsum_le (X := X) (M := p.modelOf σ) (C := fun x => p.asPred scc hs isF e.body x && (tval σ (p.atom x.1.atom).lit && !U.contains x.1.atom))
          (D := fun x => p.asLit scc hs isF e.body x && tval σ (p.goal x.1)) (p.body e.body).body.wlits (wlits_nonneg hnn) ?_
        · cases hbd : (p.body e.body).body with
          | conj ls => rw [hbd] at hsum; cases hsum
          | sum ls bd =>
            rw [hbd] at hb h4 hge
            have hb := of_decide_eq_true hb
            have : wsum X (p.modelOf σ) ls < bd := Int.lt_of_le_of_lt hge h4
            omega
        · intro x hx hh
          have hxl : x.1 ∈ (p.body e.body).body.lits := mem_lits_iff.2 ⟨x.2, hx⟩
          obtain ⟨hw1, hw2⟩ := hp.wf.goals _ hbn hbr _ hxl
          have hg : tval σ (p.goal x.1) = true := by
            rw [goal_holds hw1 hw2]; exact x.1.holds_mono hsub hh
          have hgF : isF (p.goal x.1) = false := by
            cases hc : isF (p.goal x.1) with
            | false => rfl
            | true => rw [hF _ hc] at hg; cases hg
          cases hn : x.1.neg with
          | true => right; unfold Prg.asLit; simp [hn, hg, hgF]
          | false =>
            by_cases hs' : scc x.1.atom = p.bscc scc hs e.body
            · left
              have hgl : p.goal x.1 = (p.atom x.1.atom).lit := by unfold Prg.goal; rw [hn]; rfl
              rw [hgl] at hgF hg
              have hne : p.bscc scc hs e.body ≠ noScc := by
                unfold Prg.isExt at h3
                simp only [Bool.and_eq_true, decide_eq_true_eq] at h3
                exact h3.1
              have hrel' : p.relAtom scc isF x.1.atom = true := relAtom_iff.2 ⟨hw1, hw2, by rw [hs']; exact hne, hgF⟩
              have hXx : X x.1.atom = true := by
                unfold BLit.holds at hh
                rw [hn] at hh; simpa using hh
              simp only [X, Bool.and_eq_true] at hXx
              unfold Prg.asPred
              simp only [hn, hrel', hs', hg, Bool.not_false, decide_true, Bool.and_self, Bool.true_and]
              exact hXx.2
            · right; unfold Prg.asLit; simp [hn, hg, hgF, hs']
    have hnU' : U.contains a = false := by simpa using hnU
    have hXM : p.modelOf σ a = true → X a = true := by
      intro h; simp only [X, h, hnU']; rfl
    cases hch : e.choice with
    | true =>
      rw [hch] at hok
      intro b hb hMb
      simp only [if_true, List.mem_singleton] at hb
      rw [hb] at hMb ⊢
      exact hXM hMb
    | false =>
      rw [hch] at hok
      obtain ⟨b, hb, hMb⟩ := hok
      simp only [List.mem_singleton] at hb
      rw [hb] at hMb
      exact ⟨a, by simp, hXM hMb⟩
  have hmin := hst.2 X hsub hclosed
  intro a ha
  cases hc : tval σ (p.atom a).lit with
  | false => rfl
  | true =>
    obtain ⟨h1, h2, _⟩ := relAtom_iff.1 (hU a ha).1
    have := hmin a (by rw [modelOf_rel h1 h2]; exact hc)
    simp only [X, Bool.and_eq_true] at this
    have hcon : U.contains a = true := by simpa using ha
    rw [hcon] at this
    cases this.2

theorem blocked_of_unfSet {g : UGraph} (hg : GWf g) {isF' : Lit → Bool} (hF : ∀ q, isF' q = true → tval σ q = false) {U : List Nat} (h : UnfSet g isF' U)
    (hUa : ∀ a ∈ U, a ∈ g.atoms) : ∀ a ∈ U, ∀ b ∈ (g.atom a).bodies, Blocked g σ U b := by
  intro a ha b hb
  cases hbF : isF' (g.body b).lit with
  | true => exact .inl (hF _ hbF)
  | false =>
    obtain ⟨_, h2, h3⟩ := h a ha b hb hbF
    cases he : (g.body b).ext with
    | false =>
      obtain ⟨q, hq, h4⟩ := h2 he
      exact .inr (.inl ⟨he, q, hq, h4.imp_right (hF _)⟩)
    | true =>
      refine .inr (.inr ⟨he, Int.lt_of_le_of_lt (wsSum_mono hg (hg.bods a (hUa a ha) b hb).1 fun i _ hi => ?_) (h3 he)⟩)
      simp only [Bool.and_eq_true, Bool.not_eq_true'] at hi ⊢
      refine ⟨?_, hi.2⟩
      cases hc : isF' (g.slit b i) with
      | false => rfl
      | true => rw [hF _ hc] at hi; cases hi.1

theorem blocked_of_expl {g : UGraph} (hg : GWf g) {R : List Lit} (hR : ∀ q ∈ R, tval σ q = false) {U : List Nat} {c : Nat} {b : Nat} (hb : b ∈ g.bodies)
    (h : Expl g U c R b) : Blocked g σ U b := by
  rcases h with h | ⟨_, h2, h3⟩
  · exact .inl (hR _ h)
  · cases he : (g.body b).ext with
    | false =>
      obtain ⟨q, hq, h4⟩ := h2 he
      exact .inr (.inl ⟨he, q, hq, .inl h4⟩)
    | true =>
      refine .inr (.inr ⟨he, Int.lt_of_le_of_lt (wsSum_mono hg hb fun i _ hi => ?_) (h3 he)⟩)
      simp only [Bool.and_eq_true, Bool.not_eq_true', List.contains_eq_mem, decide_eq_false_iff_not] at hi ⊢
      refine ⟨fun hm => ?_, hi.2⟩
      rw [hR _ hm] at hi; cases hi.1

end Clasp.Asp
