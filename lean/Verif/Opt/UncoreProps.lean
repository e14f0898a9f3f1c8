import Verif.Opt.UncoreReach
/-!
# Core-guided optimization: properties

Setting of all theorems: `F` is the problem, a predicate on assignments that depends on the first `n0` variables only; the minimize statements `pr` use these
variables; `σ` is any state reached from the start without a bound (`St.start n0 none`), for any options, any sequence of cores and models and any
sound solver.  Costs are compared lexicographically with `BB.lt` of `Verif.Opt.Bound`.
-/

namespace Clasp.Uncore
open Clasp.Core (Lit Asg)

/-- Specification: optimal models of `F`. -/
def Best (F : Asg → Prop) (pr : Prob) (M : Asg) : Prop := F M ∧ ∀ N, F N → ¬ BB.lt (pr.max + 1) (sums pr N) (sums pr M)

/-- Specification: `F` looks at the first `n0` variables only, and so do the minimize statements. -/
structure Scope (F : Asg → Prop) (n0 : Nat) (pr : Prob) : Prop where
  prob : ∀ M M' : Asg, (∀ v < n0, M' v = M v) → (F M' ↔ F M)
  lits : ∀ e ∈ pr.lits, e.1.var < n0

/-- Proof device. -/
def Scope.env {F n0 pr} (h : Scope F n0 pr) : Env := ⟨F, n0, pr, fun M M' a => h.prob M M' a, h.lits⟩

variable {F : Asg → Prop} {n0 : Nat} {pr : Prob} {p : Opts} {σ : St}

theorem Main.opt_pref {V : Env} {vl} {σ : St} (m : Main V vl σ) {M : Asg} (hM : Opt V M) : (V.ctx vl σ.level σ.up).Q M := by
  have hl := m.lev
  cases hu : σ.up with
  | none => exact ⟨(m.st.unb hu).2 M hM.1, fun u q => by cases q⟩
  | some u =>
    obtain ⟨_, N, hF, hN, hp⟩ := m.st.bnd u hu
    have hpre : Pref V.pr vl σ.level M := by
      intro j
      induction j using Nat.strongRecOn with
      | _ j ih =>
        intro hj
        have h1 := m.st.opt M hM.1 j hj (fun i hi => ih i hi (by omega))
        by_contra hne
        exact hM.2 N hF ⟨j, by omega, fun i hi => by rw [hp i (by omega), ih i hi (by omega)], by rw [hp j hj]; omega⟩
    refine ⟨hpre, fun u' q => ?_⟩
    cases q
    by_contra hlt
    exact hM.2 N hF ⟨σ.level, by omega, fun i hi => by rw [hp i hi, hpre i hi], by rw [hN] at hlt; omega⟩

/-- The lower bound is correct: no model has lower costs on the current level unless it is worse on a more important level than some other
model. -/
theorem C38_lower (hs : Scope F n0 pr) (hg : ∀ n, 1 ≤ p.groups n) (hr : Reach F p pr (St.start n0 none) σ) (hf : σ.fin = false) (hi : σ.init = false)
    {M : Asg} (hM : F M) : σ.lower ≤ sums pr M σ.level ∨ ∃ N, F N ∧ BB.lt σ.level (sums pr N) (sums pr M) := by
  rcases Inv.reach (V := hs.env) hg hr with h | rfl | ⟨_, _, vl, m⟩
  · rw [hf] at h; cases h.1
  · cases hi
  by_cases hp : Pref pr vl σ.level M
  · left
    by_cases hq : ∀ u, σ.up = some u → sums pr M σ.level ≤ u σ.level
    · exact m.good.lower m.wf m.todo hM ⟨hp, hq⟩
    · push Not at hq
      obtain ⟨u, hu, hlt⟩ := hq
      have := m.lower_le hu
      omega
  · right
    cases hu : σ.up with
    | none => exact absurd ((m.st.unb hu).2 M hM) hp
    | some u =>
      obtain ⟨_, N, hF, hN, hpN⟩ := m.st.bnd u hu
      refine ⟨N, hF, ?_⟩
      have : ∃ j, j < σ.level ∧ sums pr M j ≠ vl j := by
        by_contra hne
        push Not at hne
        exact hp hne
      classical
      have hj := Nat.find_spec this
      have hmin := fun i hi => Nat.find_min this (m := i) hi
      generalize Nat.find this = j at hj hmin
      have hpj : Pref pr vl j M := by
        intro i hi
        by_contra hne
        exact hmin i hi ⟨by omega, hne⟩
      have h1 : vl j ≤ sums pr M j := m.st.opt M hM j hj.1 hpj
      have h2 : ∀ i < σ.level, sums pr N i = vl i := hpN
      refine ⟨j, hj.1, fun i hi => ?_, ?_⟩
      · rw [h2 i (by omega), hpj i hi]
      · rw [h2 j hj.1]; have := hj.2; omega

/-- When the search is over, the result is right: without a model there is none, otherwise the last bound belongs to an optimal model. -/
theorem C38_done (hs : Scope F n0 pr) (hg : ∀ n, 1 ≤ p.groups n) (hr : Reach F p pr (St.start n0 none) σ) (hf : σ.fin = true) :
    (σ.up = none → ∀ M, ¬ F M) ∧ ∀ u, σ.up = some u → ∃ N, Best F pr N ∧ u = sums pr N := by
  rcases Inv.reach (V := hs.env) hg hr with ⟨_, h⟩ | rfl | h
  · exact ⟨h.unb, h.bnd⟩
  · cases hf
  · rw [hf] at h; cases h.1

/-- A model is accepted as improvement exactly if it is the first one or better than the last one on all levels together, although the code only
compares from the current level on. -/
theorem C38_model (hs : Scope F n0 pr) (hg : ∀ n, 1 ≤ p.groups n) (hr : Reach F p pr (St.start n0 none) σ) (hf : σ.fin = false) (hi : σ.init = false)
    {M : Asg} (hM : F M) (hc : Sat σ.cons M) : valid pr σ (sums pr M) = true ↔ ∀ u, σ.up = some u → BB.lt (pr.max + 1) (sums pr M) u := by
  rcases Inv.reach (V := hs.env) hg hr with h | rfl | ⟨_, _, vl, m⟩
  · rw [hf] at h; cases h.1
  · cases hi
  unfold valid
  cases hu : σ.up with
  | none => simp
  | some u =>
    obtain ⟨hfd, N, _, hN, hpN⟩ := m.st.bnd u hu
    have hpM : ∀ j < σ.level, sums pr M j = vl j := m.st.pref M hM hc
    have hpu : ∀ j < σ.level, u j = vl j := by rw [hN]; exact hpN
    have hlev : σ.level ≤ pr.max := m.lev
    have key : cmpFrom (sums pr M) u (pr.max + 1 - σ.level) σ.level = .lt ↔ BB.lt (pr.max + 1) (sums pr M) u := by
      constructor
      · intro h
        obtain ⟨i, a, b, c, d⟩ := cmpFrom_lt _ _ h
        refine ⟨i, by omega, fun j hj => ?_, d⟩
        by_cases hjl : j < σ.level
        · rw [hpM j hjl, hpu j hjl]
        · exact c j (by omega) hj
      · rintro ⟨i, a, b, c⟩
        refine cmpFrom_of_lt _ _ i ?_ (by omega) (fun j _ hj => b j hj) c
        by_contra hlt
        rw [hpM i (by omega), hpu i (by omega)] at c
        omega
    simp only [Option.some.injEq, forall_eq', ← key]
    cases cmpFrom (sums pr M) u (pr.max + 1 - σ.level) σ.level <;> simp [hfd]

/-- If all assumptions were pushed and none is held back (neither by stratification nor by disjoint preprocessing), a model has costs equal to the
lower bound of the current level. -/
theorem C38_tight (hs : Scope F n0 pr) (hg : ∀ n, 1 ≤ p.groups n) (hr : Reach F p pr (St.start n0 none) σ) (hf : σ.fin = false) (hi : σ.init = false)
    {M : Asg} (hM : F M) (hc : Sat σ.cons M) (hrd : σ.ready = true) (hn : σ.nextW = 0) (ht : σ.todo = [])
    (ha : ∀ e ∈ σ.asm, (σ.get e.2).assume = true → σ.actW ≤ (σ.get e.2).weight → M.sat e.1) : sums pr M σ.level = σ.lower := by
  rcases Inv.reach (V := hs.env) hg hr with h | rfl | ⟨_, _, vl, m⟩
  · rw [hf] at h; cases h.1
  · cases hi
  have hT : Wf F n0 (fun _ => False) σ := m.wf.weaken (fun i h => by have := h.2; simp [tids, ht] at this)
  have hp0 : pend σ = 0 := by simp [pend, ht]
  have hz : ∀ L : List Dat, (∀ d ∈ L, d.pot M = 0) → pot M L = 0 := by
    intro L
    induction L with
    | nil => intro _; rfl
    | cons d L ih =>
      intro hL
      have e1 := hL d (by simp)
      have e2 := ih (fun d' hd' => hL d' (by simp [hd']))
      unfold pot at e2 ⊢
      rw [List.map_cons, List.sum_cons, e1, e2]; rfl
  have hpot : pot M σ.dat = 0 := by
    apply hz
    intro d hd
    obtain ⟨i, hi⟩ := List.mem_iff_getElem?.1 hd
    have hok := hT.dat i d hi
    unfold Dat.pot
    by_cases hz : d.weight = 0
    · rw [(hok.zero hz).2, hz]; simp
    · have has : d.assume = true := (hok.act hz).resolve_right (fun h => h)
      have hmem := hT.asm2 i d hi has
      have hsat : M.sat d.lit := ha _ hmem (by rw [get_of hi]; exact has) (m.ready hrd hn _ hmem (by rw [get_of hi]; exact has))
      simp only [viol, hsat, if_true, mul_zero, zero_add]
      cases hco : d.core with
      | none => rfl
      | some c =>
        have := (hok.core c hco).link M hM hc hsat
        simp only
        rw [max_eq_left (by omega), mul_zero]
  have h1 : sums pr M σ.level ≤ val σ M + - pend σ := m.good.B M hM hc
  simp only [val, hpot, hp0] at h1
  have h2 : σ.lower ≤ sums pr M σ.level := by
    by_cases hq : ∀ u, σ.up = some u → sums pr M σ.level ≤ u σ.level
    · exact m.good.lower m.wf m.todo hM ⟨m.st.pref M hM hc, hq⟩
    · push Not at hq
      obtain ⟨u, hu, hlt⟩ := hq
      have := m.lower_le hu
      omega
  omega

/-- No optimal model is ever lost: it satisfies, for some values of the auxiliary variables, all constraints that were added. -/
theorem C38_keep (hs : Scope F n0 pr) (hg : ∀ n, 1 ≤ p.groups n) (hr : Reach F p pr (St.start n0 none) σ) {M : Asg} (hM : Best F pr M) :
    ∃ M', (∀ v < n0, M' v = M v) ∧ Sat σ.cons M' := by
  rcases Inv.reach (V := hs.env) hg hr with ⟨_, h⟩ | rfl | ⟨_, _, vl, m⟩
  · exact h.keep M hM
  · exact ⟨M, fun _ _ => rfl, by simp [Sat, St.start]⟩
  · obtain ⟨M', a, b, _⟩ := m.good.A M hM.1 (m.opt_pref hM)
    exact ⟨M', a, b⟩

/-- After the search has shown optimality, exactly the optimal models are left, so that they can be enumerated. -/
theorem C38_enum (hs : Scope F n0 pr) (hg : ∀ n, 1 ≤ p.groups n) (hr : Reach F p pr (St.start n0 none) σ) (hf : σ.fin = true) (hu : σ.up ≠ none) {M : Asg} (hM : F M) :
    (∃ M', (∀ v < n0, M' v = M v) ∧ Sat σ.cons M') ↔ Best F pr M := by
  refine ⟨?_, fun h => C38_keep hs hg hr h⟩
  rintro ⟨M', a, hc⟩
  rcases Inv.reach (V := hs.env) hg hr with ⟨_, h⟩ | rfl | h
  · cases hq : σ.up with
    | none => exact absurd hq hu
    | some u =>
      obtain ⟨N, hN, hNu⟩ := h.bnd u hq
      have hM' : F M' := (hs.prob M M' a).2 hM
      have h1 : ∀ j ≤ pr.max, sums pr M' j = u j := h.enum u hq M' hM' hc
      have h2 : ∀ j, sums pr M' j = sums pr M j := hs.env.sums_congr a
      refine ⟨hM, fun K hK => ?_⟩
      rintro ⟨i, hi, e, l⟩
      refine hN.2 K hK ⟨i, hi, fun j hj => ?_, ?_⟩
      · have : sums pr N j = u j := by rw [hNu]; rfl
        show sums pr K j = sums pr N j
        rw [e j hj, this, ← h1 j (by omega), h2]
      · have : sums pr N i = u i := by rw [hNu]; rfl
        show sums pr K i < sums pr N i
        rw [this, ← h1 i (by omega), h2]; exact l
  · cases hf
  · rw [hf] at h; cases h.1

theorem initLits_level (o : Slv) (pr : Prob) (k : Nat) (σ : St) : (initLits o pr k σ).level = k := by
  unfold initLits
  have : ∀ (L : List (Lit × (Nat → Int))) (τ : St), (L.foldl (initLit o k) τ).level = τ.level := by
    intro L
    induction L with
    | nil => intro τ; rfl
    | cons e L ih =>
      intro τ
      rw [List.foldl_cons, ih]
      unfold initLit
      simp only
      split_ifs <;> rfl
  rw [this]

theorem fixTight_level (o : Slv) (σ : St) : (fixTight o σ).level = σ.level := by rw [fixTight_eq]

theorem levLoop_level (o : Slv) (pr : Prob) (f : Nat) : ∀ k t n (σ : St), σ.level + 1 ≤ k → σ.level ≤ (levLoop o pr f k t n σ).1.level := by
  induction f with
  | zero => intro k t n σ _; exact le_refl _
  | succ f ih =>
    intro k t n σ hk
    have hl := initLits_level o pr k σ
    have hft := fixTight_level o (initLits o pr k σ)
    unfold levLoop
    split
    · exact le_refl _
    · simp only
      split
      · have := ih (k + 1) t n (initLits o pr k σ) (by omega); omega
      · split
        · simp only; omega
        · have := ih (k + 1) false false (initLits o pr k σ) (by omega); omega
        · have := ih (k + 1) (decide ((initLits o pr k σ).found = true ∨ k ≠ pr.max)) (decide ((initLits o pr k σ).found = true ∨ k ≠ pr.max)) (fixTight o (initLits o pr k σ)) (by omega)
          omega

theorem levLoop_adv (o : Slv) (pr : Prob) (f k : Nat) (t n : Bool) (σ : St) (ha : σ.asm = []) : k ≤ (levLoop o pr (f + 1) k t n σ).1.level := by
  have hl := initLits_level o pr k σ
  have hft := fixTight_level o (initLits o pr k σ)
  unfold levLoop
  rw [if_neg (by simpa using ha)]
  simp only
  split
  · have := levLoop_level o pr f (k + 1) t n (initLits o pr k σ) (by omega); omega
  · split
    · simp only; omega
    · have := levLoop_level o pr f (k + 1) false false (initLits o pr k σ) (by omega); omega
    · have := levLoop_level o pr f (k + 1) (decide ((initLits o pr k σ).found = true ∨ k ≠ pr.max)) (decide ((initLits o pr k σ).found = true ∨ k ≠ pr.max)) (fixTight o (initLits o pr k σ)) (by omega)
      omega

theorem initLevel_adv (o : Slv) (p : Opts) (pr : Prob) (σ : St) (hi : σ.init = false) : (initLevel o p pr σ).2 = false ∨ σ.level < (initLevel o p pr σ).1.level := by
  unfold initLevel
  simp only [hi, Bool.false_eq_true, if_false, Bool.not_false]
  split
  · rename_i h; left; simpa using h
  · split
    · left; rfl
    · rename_i h
      cases hf : pr.max + 1 - (σ.level + 1) with
      | zero =>
        left
        simp only [hf, levLoop] at h ⊢
        simpa using h
      | succ f =>
        right
        have := levLoop_adv o pr f (σ.level + 1) true true (fixLevel o { σ with next := false, disj := false, actW := 1, nextW := 0, ready := false }).1 rfl
        simp only [hf]
        simp only [hi] at this
        exact this

/-- Such a model completes the level: the next operation goes on with a later level or ends the search. -/
theorem C38_advance (hs : Scope F n0 pr) (hg : ∀ n, 1 ≤ p.groups n) (hr : Reach F p pr (St.start n0 none) σ) (hf : σ.fin = false) (hi : σ.init = false)
    {M : Asg} (hM : F M) (hc : Sat σ.cons M) (hrd : σ.ready = true) (hn : σ.nextW = 0) (ht : σ.todo = [])
    (ha : ∀ e ∈ σ.asm, (σ.get e.2).assume = true → σ.actW ≤ (σ.get e.2).weight → M.sat e.1) {o : Slv} (ho : o.Sound F) (shr : Bool) :
    (close (addNext o p pr (onModel pr σ M) shr)).fin = true ∨ σ.level < (close (addNext o p pr (onModel pr σ M) shr)).level := by
  have htight := C38_tight hs hg hr hf hi hM hc hrd hn ht ha
  have hval := C38_model hs hg hr hf hi hM hc
  rcases Inv.reach (V := hs.env) hg hr with h | rfl | ⟨_, _, vl, m⟩
  · rw [hf] at h; cases h.1
  · cases hi
  obtain ⟨m', f', i'⟩ := onModel_main m hM hc
  have hlow : (onModel pr σ M).lower = σ.lower ∧ (onModel pr σ M).level = σ.level := by unfold onModel; split <;> exact ⟨rfl, rfl⟩
  have hup : ∃ u, (onModel pr σ M).up = some u ∧ u σ.level = σ.lower ∧ (onModel pr σ M).found = true := by
    by_cases hv : valid pr σ (sums pr M) = true
    · refine ⟨sums pr M, ?_, htight, ?_⟩ <;> simp only [onModel, hv, if_true]
    · have hx := hv
      rw [hval] at hx
      push Not at hx
      obtain ⟨u, hu, hlt⟩ := hx
      have h1 := m.lower_le hu
      refine ⟨u, by simp only [onModel, hv]; simpa using hu, ?_, by simp only [onModel, hv]; simpa using (m.st.bnd u hu).1⟩
      by_contra hne
      obtain ⟨_, N, _, hN, hpN⟩ := m.st.bnd u hu
      have hpM : ∀ j < σ.level, sums pr M j = vl j := m.st.pref M hM hc
      have hpu : ∀ j < σ.level, u j = vl j := by rw [hN]; exact hpN
      have hlev : σ.level ≤ pr.max := m.lev
      exact hlt ⟨σ.level, by omega, fun j hj => by rw [hpM j hj, hpu j hj], by rw [htight]; omega⟩
  obtain ⟨u, hu, hul, hfd⟩ := hup
  have hcmp : cmpUp (onModel pr σ M) = .eq := by
    unfold cmpUp
    rw [hu]
    simp only [Int.compare_eq_eq, hlow.1, hlow.2, hul]
  have h1 := flushTodo_main ho hg m'.unready rfl shr
  have e1 : addNext o p pr (onModel pr σ M) shr = initLevel o p pr (fixLevel o { (flushTodo o p { onModel pr σ M with ready := false } shr).1 with next := false, disj := false }).1 := by
    unfold addNext
    rw [hcmp]
    simp only
    rw [if_pos (Or.inr hfd)]
  have e2 : hs.env.pr = pr := rfl
  rw [e2] at h1 m' f' i'
  generalize flushTodo o p { onModel pr σ M with ready := false } shr = y at h1 e1
  have hy : y.2 = true := by
    by_contra hq
    have := (m'.st.noq (h1.2 (by simpa using hq))).1
    rw [hu] at this; cases this
  obtain ⟨_, s1, _⟩ := h1.1 hy
  have hfl : ∀ τ : St, (fixLevel o τ).1.level = τ.level ∧ (fixLevel o τ).1.init = τ.init := by
    intro τ
    simp only [fixLevel, fixAll_eq]
    exact ⟨rfl, rfl⟩
  rw [e1]
  have h2 := initLevel_adv o p pr (fixLevel o { y.1 with next := false, disj := false }).1 (by rw [(hfl _).2]; exact s1.init.trans (i'.trans hi))
  rw [(hfl _).1] at h2
  have h3 : y.1.level = σ.level := s1.level.trans hlow.2
  rcases h2 with h2 | h2
  · left; exact (close_false h2).1
  · right
    simp only [close]
    rw [← h3]; exact h2

end Clasp.Uncore
