import Verif.Opt.UncoreCore
import Verif.Opt.Bound
/-! Helper lemmas for core-guided optimization: the invariant of the search. No code is modelled here. -/

namespace Clasp.Uncore
open Clasp.Core (Lit Asg)

/-- Proof device: a problem `F` over the first `n0` variables and minimize statements over these variables. -/
structure Env where
  F : Asg → Prop
  n0 : Nat
  pr : Prob
  hF : ∀ M M', Agr n0 M M' → (F M' ↔ F M)
  hl : ∀ e ∈ pr.lits, e.1.var < n0

/-- Proof device: the costs on the first `k` levels are those of `vl`. -/
def Pref (pr : Prob) (vl : Nat → Int) (k : Nat) (M : Asg) : Prop := ∀ j < k, sums pr M j = vl j

theorem Env.sums_congr (V : Env) {M M'} (a : Agr V.n0 M M') (k : Nat) : sums V.pr M' k = sums V.pr M k := by
  unfold sums
  congr 1
  apply List.map_congr_left
  intro e he
  simp only [sat_congr a (V.hl e he)]

theorem Env.pref_congr (V : Env) {M M'} (a : Agr V.n0 M M') (vl k) : Pref V.pr vl k M' ↔ Pref V.pr vl k M := by
  simp only [Pref, V.sums_congr a]

/-- Proof device: the models to be kept while level `k` is optimized: those that are optimal on the levels before and not worse than the
upper bound. -/
def Env.ctx (V : Env) (vl : Nat → Int) (k : Nat) (up : Option (Nat → Int)) : Ctx where
  F := V.F
  n0 := V.n0
  Q M := Pref V.pr vl k M ∧ ∀ u, up = some u → sums V.pr M k ≤ u k
  c M := sums V.pr M k
  hF := V.hF
  hQ M M' a := by simp only [V.pref_congr a, V.sums_congr a]
  hc M M' a := V.sums_congr a k

/-- Proof device: the levels below `k` are done, `vl` are their optimal costs. -/
structure Settled (V : Env) (vl : Nat → Int) (k : Nat) (C : List Con) (up : Option (Nat → Int)) (found : Bool) : Prop where
  pref : ∀ M, V.F M → Sat C M → Pref V.pr vl k M
  opt : ∀ M, V.F M → ∀ j < k, Pref V.pr vl j M → vl j ≤ sums V.pr M j
  unb : up = none → found = false ∧ ∀ M, V.F M → Pref V.pr vl k M
  bnd : ∀ u, up = some u → found = true ∧ ∃ N, V.F N ∧ u = sums V.pr N ∧ Pref V.pr vl k N

/-- Proof device: the cores that wait to be added. -/
structure TodoOk (F : Asg → Prop) (σ : St) : Prop where
  ne : ∀ c ∈ σ.todo, c ≠ []
  nodup : (σ.todo.flatten.map Prod.snd).Nodup
  el : ∀ c ∈ σ.todo, ∀ e ∈ c, ∃ d, σ.dat[e.2]? = some d ∧ d.lit = e.1.neg ∧ 0 < d.weight ∧ d.assume = !σ.disj
  holds : ∀ c ∈ σ.todo, ∀ M, F M → Sat σ.cons M → ∃ e ∈ c, M.sat e.1
  shr : σ.shrink = true → σ.disj = false ∧ ∃ c, σ.todo = [c]
  nshr : σ.shrink = false → σ.disj = false → σ.todo = []

/-- Proof device: the part of the lower bound that belongs to waiting cores. -/
def pend (σ : St) : Int := (σ.todo.map (minW σ.wt)).sum

/-- Proof device: the indices in waiting cores. -/
def tids (σ : St) : List Nat := σ.todo.flatten.map Prod.snd

/-- Proof device: assumptions that are not active although their weight is positive. -/
def tset (σ : St) (i : Nat) : Prop := σ.disj = true ∧ i ∈ tids σ

/-- Proof device: the invariant while a level is optimized. -/
structure Main (V : Env) (vl : Nat → Int) (σ : St) : Prop where
  st : Settled V vl σ.level σ.cons σ.up σ.found
  wf : Wf V.F V.n0 (tset σ) σ
  good : Good (V.ctx vl σ.level σ.up) σ (fun _ => - pend σ)
  todo : TodoOk V.F σ
  ready : σ.ready = true → σ.nextW = 0 → ∀ e ∈ σ.asm, (σ.get e.2).assume = true → σ.actW ≤ (σ.get e.2).weight
  lev : σ.level ≤ V.pr.max

/-- Proof device: optimal models. -/
def Opt (V : Env) (M : Asg) : Prop := V.F M ∧ ∀ N, V.F N → ¬ BB.lt (V.pr.max + 1) (sums V.pr N) (sums V.pr M)

/-- Proof device: the search is over. -/
structure Done (V : Env) (σ : St) : Prop where
  unb : σ.up = none → ∀ M, ¬ V.F M
  bnd : ∀ u, σ.up = some u → ∃ N, Opt V N ∧ u = sums V.pr N
  enum : ∀ u, σ.up = some u → ∀ M, V.F M → Sat σ.cons M → ∀ j ≤ V.pr.max, sums V.pr M j = u j
  keep : ∀ M, Opt V M → ∃ M', Agr V.n0 M M' ∧ Sat σ.cons M'

/-- Proof device: the invariant. -/
def Inv (V : Env) (σ : St) : Prop :=
  (σ.fin = true ∧ Done V σ) ∨ σ = St.start V.n0 none ∨ (σ.fin = false ∧ σ.init = false ∧ ∃ vl, Main V vl σ)

theorem sum_nn {l : List Int} (h : ∀ x ∈ l, 0 ≤ x) : 0 ≤ l.sum := by
  induction l with
  | nil => simp
  | cons a l ih =>
    have := h a (by simp); have := ih (fun x hx => h x (by simp [hx])); simp only [List.sum_cons]; omega

theorem le_sum {l : List Int} (h : ∀ x ∈ l, 0 ≤ x) {a : Int} (ha : a ∈ l) : a ≤ l.sum := by
  induction l with
  | nil => simp at ha
  | cons b l ih =>
    have h1 := h b (by simp); have h2 := sum_nn (fun x hx => h x (List.mem_cons_of_mem b hx))
    simp only [List.sum_cons]
    rcases List.mem_cons.1 ha with rfl | ha
    · omega
    · have := ih (fun x hx => h x (by simp [hx])) ha; omega

theorem pot_ge {F C n T M} (L : List Nat) : ∀ (D : List Dat), (∀ i d, D[i]? = some d → DatOk F C n T i d ∨ d = ⟨d.lit, 0, false, none⟩) → L.Nodup →
    (L.map fun i => ((D.getD i ⟨⟨0, false⟩, 0, false, none⟩).weight * viol M (D.getD i ⟨⟨0, false⟩, 0, false, none⟩).lit)).sum ≤ pot M D := by
  induction L with
  | nil =>
    intro D h _
    simp only [List.map_nil, List.sum_nil, pot]
    apply sum_nn
    intro x hx
    obtain ⟨d, hd, rfl⟩ := List.mem_map.1 hx
    obtain ⟨i, hi⟩ := List.mem_iff_getElem?.1 hd
    rcases h i d hi with h | h
    · have h1 := Dat.pot_nonneg (M := M) h
      have := Int.mul_nonneg h.nn (viol_nonneg M d.lit)
      omega
    · rw [h]; simp [Dat.pot]
  | cons i L ih =>
    intro D h hn
    simp only [List.nodup_cons] at hn
    simp only [List.map_cons, List.sum_cons]
    by_cases hi : i < D.length
    · have hd : D[i]? = some D[i] := by simp [hi]
      have h1 := ih (D.set i ⟨D[i].lit, 0, false, none⟩) (by
        intro j d hj
        rw [List.getElem?_set] at hj
        split at hj
        · rename_i hij; subst hij; simp [hi] at hj; right; rw [← hj]
        · exact h j d hj) hn.2
      rw [pot_set M hd] at h1
      have h2 : (L.map fun j => (((D.set i ⟨D[i].lit, 0, false, none⟩).getD j ⟨⟨0, false⟩, 0, false, none⟩).weight *
          viol M ((D.set i ⟨D[i].lit, 0, false, none⟩).getD j ⟨⟨0, false⟩, 0, false, none⟩).lit)) =
          L.map fun j => ((D.getD j ⟨⟨0, false⟩, 0, false, none⟩).weight * viol M (D.getD j ⟨⟨0, false⟩, 0, false, none⟩).lit) := by
        apply List.map_congr_left
        intro j hj
        have : i ≠ j := fun q => hn.1 (q ▸ hj)
        simp only [List.getD, List.getElem?_set, this, if_false]
      rw [h2] at h1
      have h3 : D[i].weight * viol M D[i].lit ≤ D[i].pot M := by
        rcases h i _ hd with h | h
        · exact Dat.pot_nonneg h
        · rw [h]; simp [Dat.pot]
      have h4 : D.getD i ⟨⟨0, false⟩, 0, false, none⟩ = D[i] := by simp [List.getD, hi]
      rw [h4]
      have h5 : (⟨D[i].lit, 0, false, none⟩ : Dat).pot M = 0 := by simp [Dat.pot]
      rw [h5] at h1
      omega
    · have h4 : D.getD i ⟨⟨0, false⟩, 0, false, none⟩ = ⟨⟨0, false⟩, 0, false, none⟩ := by
        simp [List.getD, List.getElem?_eq_none (Nat.not_lt.1 hi)]
      have := ih D h hn.2
      simp only [h4, zero_mul, zero_add]; exact this

theorem minW_le {f : Nat → Int} {c : List (Lit × Nat)} {e : Lit × Nat} (h : e ∈ c) : minW f c ≤ f e.2 := by
  induction c with
  | nil => simp at h
  | cons a c ih =>
    cases c with
    | nil => simp at h; subst h; simp [minW]
    | cons b c =>
      rcases List.mem_cons.1 h with rfl | h
      · simp only [minW]; exact min_le_left _ _
      · simp only [minW]; exact (min_le_right _ _).trans (ih h)

theorem minW_pos {f : Nat → Int} {c : List (Lit × Nat)} (hc : c ≠ []) (h : ∀ e ∈ c, 0 < f e.2) : 0 < minW f c := by
  induction c with
  | nil => exact absurd rfl hc
  | cons a c ih =>
    cases c with
    | nil => simpa [minW] using h a (by simp)
    | cons b c =>
      simp only [minW]
      exact lt_min (h a (by simp)) (ih (by simp) (fun e he => h e (List.mem_cons_of_mem _ he)))

theorem minW_congr {f g : Nat → Int} {c : List (Lit × Nat)} (h : ∀ e ∈ c, f e.2 = g e.2) : minW f c = minW g c := by
  induction c with
  | nil => rfl
  | cons a c ih =>
    cases c with
    | nil => simpa [minW] using h a (by simp)
    | cons b c =>
      simp only [minW]
      rw [h a (by simp), ih (fun e he => h e (List.mem_cons_of_mem _ he))]

/-- Proof device: waiting cores and a further violated assumption are part of the potential. -/
theorem pot_pend {F n0 T} {σ : St} (W : Wf F n0 T σ) (h : TodoOk F σ) {M : Asg} (hF : F M) (hs : Sat σ.cons M) (L : List Nat) (hL : L.Nodup) (hd : ∀ i ∈ L, i ∉ tids σ) :
    pend σ + (L.map fun i => (σ.get i).weight * viol M (σ.get i).lit).sum ≤ pot M σ.dat := by
  have h1 := pot_ge (F := F) (C := σ.cons) (n := σ.n) (T := T) (M := M) (tids σ ++ L) σ.dat (fun i d hi => Or.inl (W.dat i d hi))
    (List.nodup_append.2 ⟨h.nodup, hL, fun a ha b hb => by rintro rfl; exact hd a hb ha⟩)
  rw [List.map_append, List.sum_append] at h1
  have h2 : pend σ ≤ ((tids σ).map fun i => (σ.get i).weight * viol M (σ.get i).lit).sum := by
    unfold pend tids
    have hel := h.el
    have hh := h.holds
    clear h1 hd
    generalize σ.todo = t at hel hh
    induction t with
    | nil => simp
    | cons c t ih =>
      simp only [List.map_cons, List.sum_cons, List.flatten_cons, List.map_append, List.sum_append]
      have h3 := ih (fun c' hc' => hel c' (by simp [hc'])) (fun c' hc' => hh c' (by simp [hc']))
      have h4 : minW σ.wt c ≤ ((c.map Prod.snd).map fun i => (σ.get i).weight * viol M (σ.get i).lit).sum := by
        obtain ⟨e, he, hse⟩ := hh c (by simp) M hF hs
        obtain ⟨d, hd, hl, hw, _⟩ := hel c (by simp) e he
        have h5 : σ.wt e.2 ≤ ((c.map Prod.snd).map fun i => (σ.get i).weight * viol M (σ.get i).lit).sum := by
          have : σ.wt e.2 = (σ.get e.2).weight * viol M (σ.get e.2).lit := by
            rw [get_of hd, hl, viol_neg, if_pos hse, mul_one, St.wt, get_of hd]
          rw [this]
          refine le_sum ?_ (List.mem_map.2 ⟨e.2, List.mem_map_of_mem he, rfl⟩)
          intro x hx
          obtain ⟨i, hi, rfl⟩ := List.mem_map.1 hx
          obtain ⟨e', he', rfl⟩ := List.mem_map.1 hi
          obtain ⟨d', hd', _, hw', _⟩ := hel c (by simp) e' he'
          rw [get_of hd']
          exact Int.mul_nonneg hw'.le (viol_nonneg _ _)
        exact (minW_le he).trans h5
      omega
  have h3 : ∀ i, σ.get i = σ.dat.getD i ⟨⟨0, false⟩, 0, false, none⟩ := fun _ => rfl
  simp only [h3] at h2 ⊢
  omega

/-- Proof device: an assumption that is not in a waiting core: a model to be kept that violates it costs at least the lower bound plus its weight. -/
theorem harden {X : Ctx} {T} {σ : St} (W : Wf X.F X.n0 T σ) (h : TodoOk X.F σ) {M : Asg} (hF : X.F M)
    (hs : Sat σ.cons M) (he : val σ M + (- pend σ) = X.c M) {i : Nat} (hi : i ∉ tids σ) :
    σ.lower + (σ.get i).weight * viol M (σ.get i).lit ≤ X.c M := by
  have := pot_pend W h hF hs [i] (by simp) (by simpa using hi)
  simp only [List.map_cons, List.map_nil, List.sum_cons, List.sum_nil, add_zero] at this
  simp only [val] at he
  omega

theorem Good.lower {X : Ctx} {T} {σ : St} (g : Good X σ (fun _ => - pend σ)) (W : Wf X.F X.n0 T σ) (h : TodoOk X.F σ) {M : Asg} (hF : X.F M) (hQ : X.Q M) :
    σ.lower ≤ X.c M := by
  obtain ⟨M', a, hs, he⟩ := g.A M hF hQ
  have := pot_pend W h ((X.hF _ _ a).2 hF) hs [] (by simp) (by simp)
  simp only [val] at he
  simp at this
  omega

/-- Proof device: the model the upper bound comes from is kept. -/
theorem Settled.noq {V : Env} {vl k C up found} (h : Settled V vl k C up found) (hn : NoQ (V.ctx vl k up)) : up = none ∧ ∀ M, ¬ V.F M := by
  cases hu : up with
  | none =>
    refine ⟨rfl, fun M hF => hn M hF ⟨(h.unb hu).2 M hF, fun u q => ?_⟩⟩
    rw [hu] at q; cases q
  | some u =>
    exfalso
    obtain ⟨_, N, hF, rfl, hp⟩ := h.bnd u hu
    refine hn N hF ⟨hp, fun u' q => ?_⟩
    rw [hu] at q; cases q; exact le_refl _

theorem Done.of_noq {V : Env} {vl k C up found} {σ : St} (h : Settled V vl k C up found) (hn : NoQ (V.ctx vl k up)) (hu : σ.up = up) : Done V σ := by
  obtain ⟨h1, h2⟩ := h.noq hn
  refine ⟨fun _ => h2, fun u q => ?_, fun u q => ?_, fun M q => absurd q.1 (h2 M)⟩ <;> · rw [hu, h1] at q; cases q

theorem close_true {x : St × Bool} (h : x.2 = true) : close x = x.1 := by
  simp [close, h]

theorem close_false {x : St × Bool} (h : x.2 = false) : (close x).fin = true ∧ (close x).up = x.1.up ∧ (close x).cons = x.1.cons := by
  simp [close, h]

/-- Proof device: changes to assumptions that are in no waiting core. -/
theorem TodoOk.frame {F σ τ} {S : Nat → Prop} (h : TodoOk F σ) (f : Fr S σ τ) (hS : ∀ i ∈ tids σ, ¬ S i) : TodoOk F τ ∧ pend τ = pend σ ∧ tids τ = tids σ ∧ tset τ = tset σ := by
  have e1 := f.misc
  have hd : ∀ c ∈ σ.todo, ∀ e ∈ c, τ.dat[e.2]? = σ.dat[e.2]? := by
    intro c hc e he
    obtain ⟨d, hd, _⟩ := h.el c hc e he
    exact f.dat e.2 (List.getElem?_eq_some_iff.1 hd).1 (hS e.2 (List.mem_map_of_mem (List.mem_flatten.2 ⟨c, hc, he⟩)))
  refine ⟨⟨?_, ?_, ?_, ?_, ?_, ?_⟩, ?_, ?_, ?_⟩
  · rw [e1.1]; exact h.ne
  · rw [e1.1]; exact h.nodup
  · rw [e1.1, e1.2.2.2.2.2.2.1]
    intro c hc e he
    rw [hd c hc e he]; exact h.el c hc e he
  · rw [e1.1]
    exact fun c hc M hF hs => h.holds c hc M hF (fun x hx => hs x (f.cons x hx))
  · rw [e1.1, e1.2.1, e1.2.2.2.2.2.2.1]; exact h.shr
  · rw [e1.1, e1.2.1, e1.2.2.2.2.2.2.1]; exact h.nshr
  · unfold pend
    rw [e1.1]
    congr 1
    apply List.map_congr_left
    intro c hc
    apply minW_congr
    intro e he
    simp only [St.wt, St.get, List.getD, hd c hc e he]
  · unfold tids; rw [e1.1]
  · unfold tset tids; rw [e1.1, e1.2.2.2.2.2.2.1]

theorem Settled.mono {V : Env} {vl k C C' up found} (h : Settled V vl k C up found) (hC : ∀ c ∈ C, c ∈ C') : Settled V vl k C' up found :=
  ⟨fun M hF hs => h.pref M hF (fun c hc => hs c (hC c hc)), h.opt, h.unb, h.bnd⟩

theorem Wf.weaken {F n0 T T' σ} (h : Wf F n0 T σ) (hT : ∀ i, T i → T' i) : Wf F n0 T' σ :=
  ⟨h.n0, h.cons, fun i d hd => let q := h.dat i d hd; ⟨q.var, q.nn, q.zero, fun z => (q.act z).imp id (hT i), q.core⟩, h.asm1, h.asm2⟩

end Clasp.Uncore
