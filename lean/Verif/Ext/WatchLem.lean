import Verif.Ext.Watch
import Mathlib.Tactic.SplitIfs
import Mathlib.Tactic.Tauto
/-!
# Registration of watches: lemmas
-/

namespace Clasp.Watch

theorem le_iff {a b : Change} : a.le b = true ↔ a.lit.natAbs < b.lit.natAbs ∨ (a.lit.natAbs = b.lit.natAbs ∧ a.lit ≤ b.lit) := by
  simp only [Change.le, Change.lt]
  split_ifs with h <;> simp <;> omega

theorem le_trans' : ∀ a b c : Change, a.le b = true → b.le c = true → a.le c = true := by
  intro a b c h1 h2
  rw [le_iff] at *
  omega

theorem le_total' : ∀ a b : Change, (a.le b || b.le a) = true := by
  intro a b
  rw [Bool.or_eq_true, le_iff, le_iff]
  omega

/-- Sorting is stable: the changes for a literal keep their order. -/
theorem sort_filter (cs : List Change) (p : Int) : (cs.mergeSort Change.le).filter (·.lit = p) = cs.filter (·.lit = p) := by
  have hp : (cs.filter (·.lit = p)).Pairwise (fun a b => Change.le a b = true) := by
    rw [List.pairwise_iff_forall_sublist]
    intro a b hab
    have ha : a ∈ cs.filter (·.lit = p) := hab.subset (by simp)
    have hb : b ∈ cs.filter (·.lit = p) := hab.subset (by simp)
    simp at ha hb
    rw [le_iff, ha.2, hb.2]
    omega
  have h1 := List.sublist_mergeSort le_trans' le_total' hp (List.filter_sublist)
  have h2 := h1.filter (fun c => decide (c.lit = p))
  rw [List.filter_filter] at h2
  simp only [Bool.and_self] at h2
  exact (h2.eq_of_length (((List.mergeSort_perm cs Change.le).filter _).length_eq).symm).symm

/-- Proof device: the effect of a change on whether a solver watches `p`; `f` tells which changes are for the solver. -/
def eff (f : Change → Bool) (p : Int) (b : Bool) (c : Change) : Bool :=
  if c.lit = p ∧ f c = true then (match c.act with | .add => true | .remove => false | .freeze => b) else b

/-- Proof device: the effect of several changes. -/
def effs (f : Change → Bool) (p : Int) (b : Bool) (cs : List Change) : Bool := cs.foldl (eff f p) b

theorem effs_filter (f p) (b : Bool) (cs : List Change) : effs f p b (cs.filter (·.lit = p)) = effs f p b cs := by
  induction cs generalizing b with
  | nil => rfl
  | cons c cs ih =>
    rw [List.filter_cons]
    by_cases hc : c.lit = p
    · rw [if_pos (by simpa using hc)]; exact ih _
    · rw [if_neg (by simpa using hc), ih]
      simp [effs, eff, hc]

theorem effs_sort (f p) (b : Bool) (cs : List Change) : effs f p b (cs.mergeSort Change.le) = effs f p b cs := by
  rw [← effs_filter, sort_filter, effs_filter]

theorem effs_congr {f g : Change → Bool} {cs : List Change} (h : ∀ c ∈ cs, c.act ≠ .freeze → f c = g c) (p) (b : Bool) : effs f p b cs = effs g p b cs := by
  induction cs generalizing b with
  | nil => rfl
  | cons c cs ih =>
    have : eff f p b c = eff g p b c := by
      by_cases ha : c.act = .freeze
      · simp [eff, ha]
      · simp [eff, h c (by simp) ha]
    simp only [effs, List.foldl_cons, this]
    exact ih (fun c hc => h c (List.mem_cons_of_mem _ hc)) _

theorem effs_mine (f p) (b : Bool) (cs : List Change) : effs (fun _ => true) p b (cs.filter f) = effs f p b cs := by
  induction cs generalizing b with
  | nil => rfl
  | cons c cs ih =>
    rw [List.filter_cons]
    by_cases hc : f c = true
    · rw [if_pos hc]
      have : eff (fun _ => true) p b c = eff f p b c := by simp [eff, hc]
      simp only [effs, List.foldl_cons, this]
      exact ih _
    · rw [if_neg hc, ih]
      simp [effs, eff, hc]

theorem effs_last (p) (b : Bool) : ∀ cs : List Change, (∀ c ∈ cs, c.act ≠ .freeze) → effs (fun _ => true) p b (lastOnly cs) = effs (fun _ => true) p b cs
  | [], _ => rfl
  | [c], _ => rfl
  | c :: d :: cs, h => by
    rw [lastOnly]
    split_ifs with hd
    · rw [effs_last p b (d :: cs) (fun c hc => h c (List.mem_cons_of_mem _ hc))]
      have : eff (fun _ => true) p b d = eff (fun _ => true) p (eff (fun _ => true) p b c) d := by
        have h2 := h d (by simp)
        simp only [eff, hd, and_true]
        split_ifs with hp
        · cases ha : d.act <;> simp_all
        · rfl
      simp only [effs, List.foldl_cons, this]
    · simp only [effs, List.foldl_cons]
      exact effs_last p _ (d :: cs) (fun c hc => h c (List.mem_cons_of_mem _ hc))

theorem mem_apply (W : List Int) (c : Change) (p : Int) : (decide (p ∈ c.apply W)) = eff (fun _ => true) p (decide (p ∈ W)) c := by
  rcases c with ⟨q, s, a⟩
  cases a with
  | add =>
    simp only [Change.apply, eff, and_true]
    by_cases h : q = p <;> by_cases hw : q ∈ W <;> simp [h, hw] <;> grind
  | remove =>
    simp only [Change.apply, eff, and_true]
    by_cases h : q = p <;> simp [h] <;> grind
  | freeze =>
    simp only [Change.apply, eff]
    split_ifs <;> rfl

theorem mem_applys (cs : List Change) (W : List Int) (p : Int) : (decide (p ∈ cs.foldl Change.apply W)) = effs (fun _ => true) p (decide (p ∈ W)) cs := by
  induction cs generalizing W with
  | nil => rfl
  | cons c cs ih => rw [List.foldl_cons, ih, mem_apply]; rfl

/-- Proof device: changes made by the interface. -/
def Good (cs : List Change) : Prop := ∀ c ∈ cs, (c.sId = -1 ∨ (0 ≤ c.sId ∧ c.sId < 64)) ∧ c.act ≠ .freeze ∨ (c.sId = 64 ∧ c.act = .freeze)

theorem mem_applyChanges {cs : List Change} (hg : Good cs) {i : Nat} (hi : i < 64) (W : List Int) (p : Int) :
    decide (p ∈ applyChanges cs i W) = effs (forSolver i) p (decide (p ∈ W)) cs := by
  have hnf : ∀ c ∈ cs.filter (forSolver i), c.act ≠ .freeze := by
    intro c hc
    rw [List.mem_filter] at hc
    rcases hg c hc.1 with h | h
    · exact h.2
    · have := hc.2
      simp [forSolver] at this
      omega
  rw [applyChanges, mem_applys, effs_last, ← effs_mine (forSolver i)]
  · split_ifs
    · rfl
    · exact effs_sort _ _ _ _
  · intro c hc
    split_ifs at hc
    · exact hnf c hc
    · exact hnf c ((List.mergeSort_perm _ _).mem_iff.mp hc)

theorem want_effs (i : Nat) (p : Int) (b : Bool) (os : List Op) : want i p b os = effs (forSolver i) p b (os.map Op.change) := by
  induction os generalizing b with
  | nil => rfl
  | cons o os ih =>
    cases o <;> simp only [want, ih, List.map_cons, effs, List.foldl_cons, Op.change, eff, forSolver] <;> congr 1 <;> split_ifs <;> simp_all <;> omega

theorem want_append (i p) (b : Bool) (os ps : List Op) : want i p b (os ++ ps) = want i p (want i p b os) ps := by
  induction os generalizing b with
  | nil => rfl
  | cons o os ih => cases o <;> simp only [List.cons_append, want, ih]

theorem good_ops {os : List Op} (h : ∀ o ∈ os, o.ok = true) : Good (os.map Op.change) := by
  intro c hc
  obtain ⟨o, ho, rfl⟩ := List.mem_map.mp hc
  have := h o ho
  cases o <;> simp [Op.change, Op.ok] at this ⊢ <;> omega

theorem mask_bit {c : Change} (h : c.sId = -1 ∨ (0 ≤ c.sId ∧ c.sId < 64)) {i : Nat} (hi : i < 64) : c.mask.getLsbD i = forSolver i c := by
  simp only [Change.mask, forSolver]
  rcases h with h | h
  · rw [if_neg (by omega), BitVec.getLsbD_allOnes, h]; simp [hi]
  · rw [if_pos (by omega)]
    simp only [BitVec.getLsbD_shiftLeft, BitVec.getLsbD_one]
    rw [Bool.eq_iff_iff]
    simp
    omega

theorem bit_clear {x m : BitVec 64} {i : Nat} (hi : i < 64) : (x &&& ~~~ m).getLsbD i = (x.getLsbD i && !m.getLsbD i) := by
  rw [BitVec.getLsbD_and, BitVec.getLsbD_not, decide_eq_true hi, Bool.true_and]

theorem hist_mask {cs : List Change} (hg : Good cs) {i : Nat} (hi : i < 64) (h : Hist) (p : Int) :
    ((cs.foldl Hist.add h).mask p).getLsbD i = effs (forSolver i) p ((h.mask p).getLsbD i) cs := by
  induction cs generalizing h with
  | nil => rfl
  | cons c cs ih =>
    rw [List.foldl_cons, ih (fun d hd => hg d (List.mem_cons_of_mem _ hd))]
    simp only [effs, List.foldl_cons]
    congr 1
    rcases hg c (by simp) with hc | hc
    · have hm := mask_bit hc.1 hi
      simp only [Hist.add, eff]
      cases ha : c.act with
      | add =>
        by_cases hp : c.lit = p
        · simp [hp, hm]
          cases forSolver i c <;> simp
        · have hp' : ¬ p = c.lit := fun hx => hp hx.symm
          simp [hp, hp']
      | remove =>
        by_cases hp : c.lit = p
        · simp only [hp, if_true, true_and]
          rw [bit_clear hi, hm]
          cases forSolver i c <;> simp
        · have hp' : ¬ p = c.lit := fun hx => hp hx.symm
          simp [hp, hp']
      | freeze => simp
    · simp [Hist.add, eff, hc.2]

theorem hist_keys (cs : List Change) (h : Hist) (hk : ∀ p, h.mask p ≠ 0 → p ∈ h.keys) : ∀ p, (cs.foldl Hist.add h).mask p ≠ 0 → p ∈ (cs.foldl Hist.add h).keys := by
  induction cs generalizing h with
  | nil => exact hk
  | cons c cs ih =>
    rw [List.foldl_cons]
    apply ih
    intro p hp
    simp only [Hist.add] at hp ⊢
    cases ha : c.act with
    | add =>
      rw [ha] at hp
      simp only at hp ⊢
      by_cases hx : p = c.lit
      · simp [hx]
      · rw [if_neg hx] at hp; exact List.mem_cons_of_mem _ (hk p hp)
    | remove =>
      rw [ha] at hp
      simp only at hp ⊢
      by_cases hx : p = c.lit
      · rw [if_pos hx] at hp
        apply hk
        intro h0
        rw [h0] at hp
        simp at hp
      · rw [if_neg hx] at hp; exact hk p hp
    | freeze => rw [ha] at hp; exact hk p hp

/-! ### Freezing -/

theorem group_spec {cs : List Change} (hg : Good cs) {p : Int} (hp : ∀ c ∈ cs, c.lit = p) :
    ((group cs).2 = true ↔ ∃ c ∈ cs, c.act = .freeze) ∧ ∀ i < 64, (group cs).1.getLsbD i = effs (forSolver i) p false cs := by
  let g := fun (x : BitVec 64 × Bool) (c : Change) => match c.act with | .add => (x.1 ||| c.mask, x.2) | .remove => (x.1 &&& ~~~ c.mask, x.2) | .freeze => (x.1, true)
  have key : ∀ (cs : List Change) (x : BitVec 64 × Bool), Good cs → (∀ c ∈ cs, c.lit = p) →
      ((cs.foldl g x).2 = true ↔ x.2 = true ∨ ∃ c ∈ cs, c.act = .freeze) ∧ ∀ i < 64, (cs.foldl g x).1.getLsbD i = effs (forSolver i) p (x.1.getLsbD i) cs := by
    intro cs
    induction cs with
    | nil => intro x _ _; simp [effs]
    | cons c cs ih =>
      intro x hg hp
      obtain ⟨h1, h2⟩ := ih (g x c) (fun d hd => hg d (List.mem_cons_of_mem _ hd)) (fun d hd => hp d (List.mem_cons_of_mem _ hd))
      rw [List.foldl_cons]
      constructor
      · rw [h1]
        simp only [g]
        cases ha : c.act <;> simp [ha]
      · intro i hi
        rw [h2 i hi]
        simp only [effs, List.foldl_cons]
        congr 1
        have hcp := hp c (by simp)
        rcases hg c (by simp) with hc | hc
        · have hm := mask_bit hc.1 hi
          simp only [g, eff]
          cases ha : c.act with
          | add => simp [hcp, hm]; cases forSolver i c <;> simp
          | remove =>
            simp only [hcp, true_and]
            rw [bit_clear hi, hm]
            cases forSolver i c <;> simp
          | freeze => simp
        · simp [g, eff, hc.2]
  have := key cs (0, false) hg hp
  refine ⟨?_, fun i hi => ?_⟩
  · have h1 := this.1
    simp only [Bool.false_eq_true, false_or] at h1
    exact h1
  · have h1 := this.2 i hi
    rw [show (0 : BitVec 64).getLsbD i = false by simp] at h1
    exact h1

theorem effs_skip {f p} {b : Bool} {cs : List Change} (h : ∀ c ∈ cs, c.lit ≠ p) : effs f p b cs = b := by
  rw [← effs_filter]
  have : cs.filter (·.lit = p) = [] := by
    rw [List.filter_eq_nil_iff]
    intro c hc
    simpa using h c hc
  rw [this]; rfl

theorem effs_append (f p) (b : Bool) (cs ds : List Change) : effs f p b (cs ++ ds) = effs f p (effs f p b cs) ds := by
  simp [effs, List.foldl_append]

theorem frozen_spec : ∀ (n : Nat) (cs : List Change), cs.length ≤ n → Good cs → cs.Pairwise (fun a b => Change.le a b = true) → ∀ v,
    v ∈ frozen n cs ↔ ∃ p : Int, p.natAbs = v ∧ ((∃ c ∈ cs, c.lit = p ∧ c.act = .freeze) ∨ ∃ i < 64, effs (forSolver i) p false cs = true) := by
  intro n
  induction n with
  | zero =>
    intro cs hl _ _ v
    have : cs = [] := List.length_eq_zero_iff.mp (by omega)
    subst this
    simp [frozen, effs]
  | succ n ih =>
    intro cs hl hg hs v
    cases cs with
    | nil => simp [frozen, effs]
    | cons c cs =>
      let q : Change → Bool := fun d => d.lit = c.lit
      have hsplit : c :: cs = (c :: cs.takeWhile q) ++ cs.dropWhile q := by simp [List.takeWhile_append_dropWhile]
      generalize hA : c :: cs.takeWhile q = A at hsplit
      generalize hB : cs.dropWhile q = B at hsplit
      have hAp : ∀ d ∈ A, d.lit = c.lit := by
        intro d hd
        rw [← hA] at hd
        rcases List.mem_cons.mp hd with rfl | hd
        · rfl
        · have := List.all_eq_true.mp (List.all_takeWhile (l := cs) (p := q)) d hd
          simpa [q] using this
      have hcA : c ∈ A := by rw [← hA]; simp
      have hBp : ∀ d ∈ B, d.lit ≠ c.lit := by
        cases hB' : B with
        | nil => simp
        | cons x xs =>
          have hx : x.lit ≠ c.lit := by
            have := List.head?_dropWhile_not q cs
            rw [hB, hB'] at this
            simpa [q] using this
          rw [hsplit, hB', List.pairwise_append, List.pairwise_cons] at hs
          have hcx := hs.2.2 c hcA x (by simp)
          intro d hd
          rcases List.mem_cons.mp hd with rfl | hd
          · exact hx
          · intro hdl
            have := hs.2.1.1 d hd
            rw [le_iff] at this hcx
            rw [hdl] at this
            omega
      have hgA : Good A := fun d hd => hg d (by rw [hsplit]; exact List.mem_append_left _ hd)
      have hgB : Good B := fun d hd => hg d (by rw [hsplit]; exact List.mem_append_right _ hd)
      have hsB : B.Pairwise (fun a b => Change.le a b = true) := by rw [hsplit, List.pairwise_append] at hs; exact hs.2.1
      have hlB : B.length ≤ n := by
        have h1 := congrArg List.length hsplit
        rw [List.length_append] at h1
        have h2 : 0 < A.length := List.length_pos_of_mem hcA
        omega
      obtain ⟨g1, g2⟩ := group_spec hgA hAp
      have ihB := ih B hlB hgB hsB v
      have hfz : v ∈ frozen (n + 1) (c :: cs) ↔ (((group A).2 = true ∨ (group A).1 ≠ 0) ∧ v = c.lit.natAbs) ∨ v ∈ frozen n B := by
        simp only [frozen]
        rw [show (c :: cs.takeWhile fun d => decide (d.lit = c.lit)) = A from hA, show (cs.dropWhile fun d => decide (d.lit = c.lit)) = B from hB]
        split_ifs with hc
        · rw [List.mem_cons]; tauto
        · tauto
      have hnz : (group A).1 ≠ 0 ↔ ∃ i < 64, effs (forSolver i) c.lit false A = true := by
        constructor
        · intro hne
          by_contra hcon
          apply hne
          apply BitVec.eq_of_getLsbD_eq
          intro i hi
          rw [g2 i hi]
          simp
          by_contra hx
          exact hcon ⟨i, hi, by simpa using hx⟩
        · rintro ⟨i, hi, he⟩ h0
          rw [← g2 i hi, h0] at he
          simp at he
      rw [hfz, ihB]
      constructor
      · rintro (⟨h1, h2⟩ | ⟨p, h1, h2⟩)
        · refine ⟨c.lit, h2.symm, ?_⟩
          rcases h1 with h1 | h1
          · obtain ⟨d, hd, hda⟩ := g1.mp h1
            exact Or.inl ⟨d, by rw [hsplit]; exact List.mem_append_left _ hd, hAp d hd, hda⟩
          · obtain ⟨i, hi, he⟩ := hnz.mp h1
            exact Or.inr ⟨i, hi, by rw [hsplit, effs_append, effs_skip hBp]; exact he⟩
        · refine ⟨p, h1, ?_⟩
          rcases h2 with ⟨d, hd, hda⟩ | ⟨i, hi, he⟩
          · exact Or.inl ⟨d, by rw [hsplit]; exact List.mem_append_right _ hd, hda⟩
          · refine Or.inr ⟨i, hi, ?_⟩
            have hpc : c.lit ≠ p := by
              rintro rfl
              rw [effs_skip hBp] at he; cases he
            rw [hsplit, effs_append, effs_skip (cs := A) (fun d hd => by rw [hAp d hd]; exact hpc)]
            exact he
      · rintro ⟨p, h1, h2⟩
        by_cases hpc : c.lit = p
        · left
          subst hpc
          refine ⟨?_, h1.symm⟩
          rcases h2 with ⟨d, hd, hda, hdb⟩ | ⟨i, hi, he⟩
          · rw [hsplit] at hd
            rcases List.mem_append.mp hd with hd | hd
            · exact Or.inl (g1.mpr ⟨d, hd, hdb⟩)
            · exact absurd hda (hBp d hd)
          · rw [hsplit, effs_append, effs_skip hBp] at he
            exact Or.inr (hnz.mpr ⟨i, hi, he⟩)
        · right
          refine ⟨p, h1, ?_⟩
          rcases h2 with ⟨d, hd, hda, hdb⟩ | ⟨i, hi, he⟩
          · rw [hsplit] at hd
            rcases List.mem_append.mp hd with hd | hd
            · exact absurd ((hAp d hd).symm.trans hda) hpc
            · exact Or.inl ⟨d, hd, hda, hdb⟩
          · rw [hsplit, effs_append, effs_skip (cs := A) (fun d hd => by rw [hAp d hd]; exact hpc)] at he
            exact Or.inr ⟨i, hi, he⟩

end Clasp.Watch
