import Verif.Opt.UncoreUp
/-! Helper lemmas for core-guided optimization: cores keep the invariant. No code is modelled here. -/

namespace Clasp.Uncore
open Clasp.Core (Lit Asg)

theorem Good.cast {X σ τ E} (g : Good X σ E) (h1 : τ.cons = σ.cons) (h2 : τ.dat = σ.dat) (h3 : τ.lower = σ.lower) : Good X τ E := by
  have : ∀ M, val τ M = val σ M := fun M => by simp only [val, h2, h3]
  refine ⟨fun M a b => ?_, fun M a b => ?_⟩
  · simp only [this, h1]; exact g.A M a b
  · rw [this]; rw [h1] at b; exact g.B M a b

theorem Wf.cast {F n0 T σ τ} (h : Wf F n0 T σ) (h0 : τ.n = σ.n) (h1 : τ.cons = σ.cons) (h2 : τ.dat = σ.dat) (h3 : τ.asm = σ.asm) : Wf F n0 T τ := by
  refine ⟨h0 ▸ h.n0, ?_, ?_, ?_, ?_⟩
  · rw [h0, h1]; exact h.cons
  · rw [h0, h1, h2]; exact h.dat
  · rw [h2, h3]; exact h.asm1
  · rw [h2, h3]; exact h.asm2

theorem Main.mk0 {V : Env} {vl} {σ : St} (st : Settled V vl σ.level σ.cons σ.up σ.found) (wf : Wf V.F V.n0 (fun _ => False) σ)
    (good : Good (V.ctx vl σ.level σ.up) σ (fun _ => 0)) (ht : σ.todo = []) (hs : σ.shrink = false) (hr : σ.ready = false) (lev : σ.level ≤ V.pr.max) :
    Main V vl σ := by
  refine ⟨st, wf.weaken (fun _ h => h.elim), ?_, ⟨?_, ?_, ?_, ?_, ?_, ?_⟩, ?_, lev⟩
  · simpa [pend, ht] using good
  · simp [ht]
  · simp [ht]
  · simp [ht]
  · simp [ht]
  · simp [hs]
  · exact fun _ _ => ht
  · simp [hr]

/-- Proof device: a core that can be added. -/
structure CoreEl (F : Asg → Prop) (σ : St) (c : List (Lit × Nat)) : Prop where
  ne : c ≠ []
  nodup : (c.map Prod.snd).Nodup
  el : ∀ e ∈ c, ∃ d, σ.dat[e.2]? = some d ∧ d.lit = e.1.neg ∧ 0 < d.weight ∧ (σ.disj = true ∨ d.assume = true)
  holds : ∀ M, F M → Sat σ.cons M → ∃ e ∈ c, M.sat e.1

theorem CoreEl.wpos {F σ c} (h : CoreEl F σ c) : 0 < minW σ.wt c :=
  minW_pos h.ne (fun e he => by obtain ⟨d, hd, _, hw, _⟩ := h.el e he; rw [St.wt, get_of hd]; exact hw)

theorem CoreEl.add {X : Ctx} {o : Slv} (ho : o.Sound X.F) {T} {p : Opts} (hg : ∀ n, 1 ≤ p.groups n) {σ : St} {c} (h : CoreEl X.F σ c) {z : Int}
    (W : Wf X.F X.n0 T σ) (g : Good X σ (fun _ => z)) :
    Post X (fun j => T j ∧ j ∉ c.map Prod.snd) (fun j => j ∈ c.map Prod.snd) σ (addCore o p σ c (minW σ.wt c) false) (fun _ => z + minW σ.wt c) := by
  have := (addCore_post ho hg false (Dep.const _ z) h.wpos h.ne W (fun e he => by
    obtain ⟨d, hd, hl, _, ha⟩ := h.el e he
    refine ⟨d, hd, hl, ?_, ha⟩
    have := minW_le (f := σ.wt) he
    rwa [St.wt, get_of hd] at this) h.nodup (fun M hF hs => by
      obtain ⟨e, he, hs⟩ := h.holds M hF hs
      exact cnt_pos ⟨e.1, List.mem_map_of_mem he, hs⟩) g).1
  simpa using this

theorem addTodo_post {X : Ctx} {o : Slv} (ho : o.Sound X.F) {p : Opts} (hg : ∀ n, 1 ≤ p.groups n) (cs : List (List (Lit × Nat))) :
    ∀ (σ : St) (T : Nat → Prop) (z : Int), (∀ c ∈ cs, CoreEl X.F σ c) → (cs.flatten.map Prod.snd).Nodup → Wf X.F X.n0 T σ → Good X σ (fun _ => z) →
      Post X (fun j => T j ∧ j ∉ cs.flatten.map Prod.snd) (fun j => j ∈ cs.flatten.map Prod.snd) σ (addTodo o p cs σ) (fun _ => z + (cs.map (minW σ.wt)).sum) := by
  induction cs with
  | nil =>
    intro σ T z _ _ W g
    exact ⟨fun _ => ⟨by simpa [addTodo] using g, by simpa [addTodo] using W, Fr.refl _ _⟩, fun q => by simp [addTodo] at q⟩
  | cons c cs ih =>
    intro σ T z hc hn W g
    have h1 := (hc c (by simp)).add ho hg W g
    simp only [List.flatten_cons, List.map_append, List.nodup_append] at hn
    unfold addTodo
    simp only
    refine Post.bind (f := fun τ => addTodo o p cs τ) h1 (fun i hi => by simp only [List.flatten_cons, List.map_append, List.mem_append]; exact Or.inl hi) ?_
    intro τ g1 w1 f1
    have hdis : ∀ c' ∈ cs, ∀ e ∈ c', e.2 ∉ c.map Prod.snd := by
      intro c' hc' e he hmem
      exact hn.2.2 _ hmem _ (List.mem_map_of_mem (List.mem_flatten.2 ⟨c', hc', he⟩)) rfl
    have hdat : ∀ c' ∈ cs, ∀ e ∈ c', τ.dat[e.2]? = σ.dat[e.2]? := by
      intro c' hc' e he
      obtain ⟨d, hd, _⟩ := (hc c' (by simp [hc'])).el e he
      exact f1.dat e.2 (List.getElem?_eq_some_iff.1 hd).1 (hdis c' hc' e he)
    have h2 := ih τ (fun j => T j ∧ j ∉ c.map Prod.snd) (z + minW σ.wt c) (by
      intro c' hc'
      have h := hc c' (by simp [hc'])
      refine ⟨h.ne, h.nodup, ?_, fun M hF hs => h.holds M hF (fun x hx => hs x (f1.cons x hx))⟩
      intro e he
      rw [hdat c' hc' e he, f1.misc.2.2.2.2.2.2.1]; exact h.el e he) hn.2.1 w1 g1
    have hsum : (cs.map (minW τ.wt)).sum = (cs.map (minW σ.wt)).sum := by
      congr 1
      apply List.map_congr_left
      intro c' hc'
      apply minW_congr
      intro e he
      simp only [St.wt, St.get, List.getD, hdat c' hc' e he]
    refine ⟨fun h => ⟨?_, ?_, ?_⟩, h2.2⟩
    · have := (h2.1 h).1
      rw [hsum] at this
      simpa [add_assoc] using this
    · have := (h2.1 h).2.1
      refine this.weaken ?_
      intro i hi
      simp only [List.flatten_cons, List.map_append, List.mem_append, not_or]
      exact ⟨hi.1.1, hi.1.2, hi.2⟩
    · exact (h2.1 h).2.2.mono (fun i hi => by simp only [List.flatten_cons, List.map_append, List.mem_append]; exact Or.inr hi)

/-- Proof device: what a successful operation on the same level guarantees. -/
structure Same (σ τ : St) : Prop where
  fin : τ.fin = σ.fin
  init : τ.init = σ.init
  level : τ.level = σ.level
  found : τ.found = σ.found
  low : σ.lower ≤ τ.lower
  up : τ.up = σ.up

theorem Same.of_fr {S σ τ} (f : Fr S σ τ) : Same σ τ := by
  have := f.misc
  exact ⟨by tauto, by tauto, by tauto, by tauto, f.low, by tauto⟩

theorem resetTrim_main {V : Env} {o : Slv} (ho : o.Sound V.F) {p : Opts} (hg : ∀ n, 1 ≤ p.groups n) {vl} {σ : St} {core : List (Lit × Nat)} (ht : σ.todo = [core])
    (hc : CoreEl V.F σ core) (st : Settled V vl σ.level σ.cons σ.up σ.found) (wf : Wf V.F V.n0 (fun _ => False) σ)
    (good : Good (V.ctx vl σ.level σ.up) σ (fun _ => - minW σ.wt core)) (hr : σ.ready = false) (lev : σ.level ≤ V.pr.max) :
    ((resetTrim o p σ).2 = true → Main V vl (resetTrim o p σ).1 ∧ Same σ (resetTrim o p σ).1 ∧ (resetTrim o p σ).1.todo = [] ∧ (resetTrim o p σ).1.shrink = false) ∧
    ((resetTrim o p σ).2 = false → NoQ (V.ctx vl σ.level σ.up)) := by
  have h1 := CoreEl.add (X := V.ctx vl σ.level σ.up) ho hg hc wf good
  unfold resetTrim
  rw [ht]
  simp only
  generalize addCore o p σ core (minW σ.wt core) false = y at h1
  refine ⟨fun h => ?_, h1.2⟩
  obtain ⟨g1, w1, f1⟩ := h1.1 h
  have e1 := f1.misc
  have sm := Same.of_fr f1
  refine ⟨Main.mk0 ?_ ?_ ?_ rfl rfl ?_ ?_, ⟨sm.fin, sm.init, sm.level, sm.found, sm.low, sm.up⟩, trivial, trivial⟩
  · show Settled V vl y.1.level y.1.cons y.1.up y.1.found
    rw [sm.level, sm.up, sm.found]
    exact st.mono f1.cons
  · exact Wf.cast (w1.weaken (fun _ h => h.1)) rfl rfl rfl rfl
  · show Good (V.ctx vl y.1.level y.1.up) _ _
    rw [sm.level, sm.up]
    have g2 : Good (V.ctx vl σ.level σ.up) y.1 (fun _ => 0) := by simpa using g1
    exact g2.cast rfl rfl rfl
  · show y.1.ready = false
    rw [e1.2.2.2.2.2.2.2.2.2.1, hr]
  · show y.1.level ≤ _
    rw [sm.level]; exact lev

theorem TodoOk.els {F σ} (h : TodoOk F σ) : ∀ c ∈ σ.todo, CoreEl F σ c := by
  intro c hc
  refine ⟨h.ne c hc, ?_, ?_, h.holds c hc⟩
  · have := h.nodup
    rw [List.map_flatten] at this
    exact (List.pairwise_flatten.1 this).1 _ (List.mem_map_of_mem hc)
  · intro e he
    obtain ⟨d, hd, hl, hw, ha⟩ := h.el c hc e he
    refine ⟨d, hd, hl, hw, ?_⟩
    rw [ha]
    cases σ.disj <;> simp

theorem flushTodo_main {V : Env} {o : Slv} (ho : o.Sound V.F) {p : Opts} (hg : ∀ n, 1 ≤ p.groups n) {vl} {σ : St} (m : Main V vl σ) (hr : σ.ready = false) (shr : Bool) :
    ((flushTodo o p σ shr).2 = true → Main V vl (flushTodo o p σ shr).1 ∧ Same σ (flushTodo o p σ shr).1 ∧ (flushTodo o p σ shr).1.ready = false ∧
      ((flushTodo o p σ shr).1.shrink = false → (flushTodo o p σ shr).1.todo = []) ∧
      (cmpUp σ ≠ .lt → (flushTodo o p σ shr).1.todo = [] ∧ (flushTodo o p σ shr).1.shrink = false)) ∧
    ((flushTodo o p σ shr).2 = false → NoQ (V.ctx vl σ.level σ.up)) := by
  unfold flushTodo
  by_cases hd : σ.disj = true
  · have hsh : σ.shrink = false := by
      cases hq : σ.shrink with
      | false => rfl
      | true => have := (m.todo.shr hq).1; rw [hd] at this; cases this
    rw [if_pos hd]
    have h1 := addTodo_post (X := V.ctx vl σ.level σ.up) ho hg σ.todo σ (tset σ) (- pend σ) m.todo.els m.todo.nodup m.wf m.good
    generalize addTodo o p σ.todo σ = y at h1
    refine ⟨fun h => ?_, h1.2⟩
    obtain ⟨g1, w1, f1⟩ := h1.1 h
    have e1 := f1.misc
    have sm := Same.of_fr f1
    have hr' : y.1.ready = false := by rw [e1.2.2.2.2.2.2.2.2.2.1, hr]
    have hs' : y.1.shrink = false := by rw [e1.2.1, hsh]
    refine ⟨Main.mk0 ?_ ?_ ?_ rfl hs' hr' ?_, ⟨sm.fin, sm.init, sm.level, sm.found, sm.low, sm.up⟩, hr', fun _ => rfl, fun _ => ⟨rfl, hs'⟩⟩
    · show Settled V vl y.1.level y.1.cons y.1.up y.1.found
      rw [sm.level, sm.up, sm.found]
      exact m.st.mono f1.cons
    · exact Wf.cast (w1.weaken (fun _ h => h.2 h.1.2)) rfl rfl rfl rfl
    · show Good (V.ctx vl y.1.level y.1.up) _ _
      rw [sm.level, sm.up]
      have g2 : Good (V.ctx vl σ.level σ.up) y.1 (fun _ => 0) := by
        have : - pend σ + (σ.todo.map (minW σ.wt)).sum = 0 := by unfold pend; omega
        simpa only [this] using g1
      exact g2.cast rfl rfl rfl
    · show y.1.level ≤ _
      rw [sm.level]; exact m.lev
  · rw [if_neg hd]
    have hd' : σ.disj = false := by simpa using hd
    have hT : Wf V.F V.n0 (fun _ => False) σ := m.wf.weaken (fun i h => by have := h.1; rw [hd'] at this; cases this)
    by_cases hs : σ.shrink = true
    · obtain ⟨core, hc⟩ := (m.todo.shr hs).2
      by_cases hx : σ.shrink = true ∧ (¬ shr = true ∨ cmpUp σ ≠ .lt)
      · rw [if_pos hx]
        have h1 := resetTrim_main ho hg hc (m.todo.els core (by simp [hc])) m.st hT (by simpa [pend, hc] using m.good) hr m.lev
        refine ⟨fun h => ?_, h1.2⟩
        obtain ⟨a, b, c, d⟩ := h1.1 h
        refine ⟨a, b, ?_, fun _ => c, fun _ => ⟨c, d⟩⟩
        have : (resetTrim o p σ).1.ready = σ.ready := by
          have h2 := CoreEl.add (X := V.ctx vl σ.level σ.up) ho hg (m.todo.els core (by simp [hc])) hT (z := - minW σ.wt core) (by simpa [pend, hc] using m.good)
          unfold resetTrim at h ⊢
          rw [hc] at h ⊢
          exact (h2.1 h).2.2.misc.2.2.2.2.2.2.2.2.2.1
        rw [this, hr]
      · rw [if_neg hx]
        refine ⟨fun _ => ⟨m, ⟨rfl, rfl, rfl, rfl, le_refl _, rfl⟩, hr, ?_, ?_⟩, fun q => by simp at q⟩
        · intro q; rw [hs] at q; cases q
        · intro q; exact absurd ⟨hs, Or.inr q⟩ hx
    · rw [if_neg (fun q => hs q.1)]
      have hs' : σ.shrink = false := by simpa using hs
      have := m.todo.nshr hs' hd'
      exact ⟨fun _ => ⟨m, ⟨rfl, rfl, rfl, rfl, le_refl _, rfl⟩, hr, fun _ => this, fun _ => ⟨this, hs'⟩⟩, fun q => by simp at q⟩

theorem unassume_dat (c : List (Lit × Nat)) : ∀ (σ : St), (∀ e ∈ c, e.2 < σ.dat.length) → ∀ i, (unassume c σ).dat[i]? =
    if i ∈ c.map Prod.snd then σ.dat[i]?.map (fun d => { d with assume := false }) else σ.dat[i]? := by
  induction c with
  | nil => intro σ _ i; simp [unassume]
  | cons e es ih =>
    intro σ h i
    simp only [unassume]
    rw [ih _ (by simp only [St.put, List.length_set]; exact fun e' he' => h e' (by simp [he']))]
    have hl := h e (by simp)
    have hd : σ.dat[e.2]? = some σ.dat[e.2] := by simp [hl]
    simp only [St.put, List.getElem?_set, get_of hd, List.map_cons, List.mem_cons]
    by_cases h1 : e.2 = i
    · subst h1
      simp only [if_true, true_or, hd, Option.map_some, hl]
      split <;> rfl
    · simp only [h1, if_false, Ne.symm h1, false_or]

theorem pot_unassume (M : Asg) (c : List (Lit × Nat)) : ∀ (σ : St), (∀ e ∈ c, e.2 < σ.dat.length) → pot M (unassume c σ).dat = pot M σ.dat := by
  induction c with
  | nil => intro σ _; rfl
  | cons e es ih =>
    intro σ h
    have hl := h e (by simp)
    have hd : σ.dat[e.2]? = some σ.dat[e.2] := by simp [hl]
    simp only [unassume]
    rw [ih _ (by simp only [St.put, List.length_set]; exact fun e' he' => h e' (by simp [he']))]
    simp only [St.put, get_of hd]
    rw [pot_set M hd]
    simp only [Dat.pot]; ring

theorem onCore_main {V : Env} {o : Slv} (ho : o.Sound V.F) {p : Opts} (hg : ∀ n, 1 ≤ p.groups n) {vl} {σ : St} (m : Main V vl σ) {core : List (Lit × Nat)}
    (hc : IsCore V.F σ core) (shr : Bool) :
    ((onCore o p V.pr σ core shr).2 = true → Main V vl (onCore o p V.pr σ core shr).1 ∧ (onCore o p V.pr σ core shr).1.fin = σ.fin ∧ (onCore o p V.pr σ core shr).1.init = σ.init) ∧
    ((onCore o p V.pr σ core shr).2 = false → NoQ (V.ctx vl σ.level σ.up)) := by
  have hel : ∀ e ∈ core, ∃ d, σ.dat[e.2]? = some d ∧ d.lit = e.1.neg ∧ 0 < d.weight ∧ d.assume = true := by
    intro e he
    obtain ⟨h1, h2, h3⟩ := hc.act e he
    have hd : σ.dat[e.2]? = some σ.dat[e.2] := by simp [h1]
    rw [get_of hd] at h2 h3
    refine ⟨_, hd, h2, ?_, h3⟩
    have hok := m.wf.dat _ _ hd
    have := hok.nn
    have : σ.dat[e.2].weight ≠ 0 := fun q => by have := (hok.zero q).1; rw [h3] at this; cases this
    omega
  have hlen : ∀ e ∈ core, e.2 < σ.dat.length := fun e he => (hc.act e he).1
  by_cases hd : σ.disj = true
  · have hsh : σ.shrink = false := by
      cases hq : σ.shrink with
      | false => rfl
      | true => have := (m.todo.shr hq).1; rw [hd] at this; cases this
    -- the new state
    have hun : ∃ nx, onCore o p V.pr σ core shr = ({ σ with ready := false, lower := σ.lower + minW σ.wt core, todo := σ.todo ++ [core], dat := (unassume core σ).dat, next := nx }, true) := by
      have hgen : ∀ (c : List (Lit × Nat)) (τ τ' : St), τ.dat = τ'.dat → (unassume c τ).dat = (unassume c τ').dat := by
        intro c
        induction c with
        | nil => intro τ τ' h; exact h
        | cons e es ih => intro τ τ' h; simp only [unassume]; exact ih _ _ (by simp only [St.put, St.get, h])
      have h1 : dropTrim { σ with ready := false } = { σ with ready := false } := by
        unfold dropTrim; rw [if_neg (by simp [hsh])]
      unfold onCore
      rw [h1]
      simp only
      rw [if_pos hd]
      have h2 := unassume_fields core { σ with ready := false, lower := σ.lower + minW σ.wt core, todo := σ.todo ++ [core] }
      rw [hgen core { σ with ready := false, lower := σ.lower + minW σ.wt core, todo := σ.todo ++ [core] } σ rfl] at h2
      refine ⟨!validLower V.pr (unassume core { σ with ready := false, lower := σ.lower + minW σ.wt core, todo := σ.todo ++ [core] }), Prod.ext ?_ rfl⟩
      show ({ unassume core { σ with ready := false, lower := σ.lower + minW σ.wt core, todo := σ.todo ++ [core] } with
        next := !validLower V.pr (unassume core { σ with ready := false, lower := σ.lower + minW σ.wt core, todo := σ.todo ++ [core] }) } : St) = _
      generalize validLower V.pr (unassume core { σ with ready := false, lower := σ.lower + minW σ.wt core, todo := σ.todo ++ [core] }) = nx
      rw [h2]
    obtain ⟨nx, hun⟩ := hun
    rw [hun]
    have hU := unassume_dat core σ hlen
    have hP := fun M => pot_unassume M core σ hlen
    refine ⟨fun _ => ⟨⟨m.st, ⟨m.wf.n0, m.wf.cons, ?_, ?_, ?_⟩, ?_, ⟨?_, ?_, ?_, ?_, ?_, ?_⟩, by simp, m.lev⟩, rfl, rfl⟩, fun q => by simp at q⟩
    · intro i d' hi
      simp only at hi
      rw [hU] at hi
      by_cases hm : i ∈ core.map Prod.snd
      · rw [if_pos hm] at hi
        obtain ⟨d, hdi, rfl⟩ := Option.map_eq_some_iff.1 hi
        have hok := m.wf.dat i d hdi
        refine ⟨hok.var, hok.nn, fun q => ⟨rfl, (hok.zero q).2⟩, fun _ => Or.inr ⟨hd, ?_⟩, hok.core⟩
        simp only [tids, List.flatten_append, List.map_append, List.mem_append, List.flatten_cons, List.flatten_nil, List.append_nil]
        exact Or.inr hm
      · rw [if_neg hm] at hi
        have hok := m.wf.dat i d' hi
        refine ⟨hok.var, hok.nn, hok.zero, fun q => (hok.act q).imp id (fun h => ⟨hd, ?_⟩), hok.core⟩
        simp only [tids, List.flatten_append, List.map_append, List.mem_append]
        exact Or.inl h.2
    · intro e he
      obtain ⟨d, hd', hl⟩ := m.wf.asm1 e he
      simp only [hU]
      by_cases hm : e.2 ∈ core.map Prod.snd
      · exact ⟨{ d with assume := false }, by rw [if_pos hm, hd']; rfl, hl⟩
      · exact ⟨d, by rw [if_neg hm, hd'], hl⟩
    · intro i d' hi ha
      simp only at hi ⊢
      rw [hU] at hi
      split at hi
      · obtain ⟨d, hdi, rfl⟩ := Option.map_eq_some_iff.1 hi
        simp at ha
      · exact m.wf.asm2 i d' hi ha
    · refine m.good.same m.wf.n0 rfl ?_
      intro M _ _
      have hw : ∀ i : Nat, (σ.dat[i]?.getD (⟨⟨0, false⟩, 0, false, none⟩ : Dat)).weight = ((unassume core σ).dat[i]?.getD (⟨⟨0, false⟩, 0, false, none⟩ : Dat)).weight := by
        intro i; rw [hU]; split
        · cases σ.dat[i]? <;> rfl
        · rfl
      have hwt : St.wt { σ with ready := false, lower := σ.lower + minW σ.wt core, todo := σ.todo ++ [core], dat := (unassume core σ).dat, next := nx } = σ.wt := by
        funext i; simp only [St.wt, St.get, List.getD, hw]
      simp only [val, hP, pend, hwt, List.map_append, List.map_cons, List.map_nil, List.sum_append, List.sum_cons, List.sum_nil]
      ring
    · intro c hc'
      simp only [List.mem_append, List.mem_singleton] at hc'
      rcases hc' with h | rfl
      · exact m.todo.ne c h
      · exact hc.ne
    · simp only [List.flatten_append, List.map_append, List.flatten_cons, List.flatten_nil, List.append_nil]
      refine List.nodup_append.2 ⟨m.todo.nodup, hc.nodup, ?_⟩
      rintro a ha b hb rfl
      obtain ⟨e, he, rfl⟩ := List.mem_map.1 ha
      obtain ⟨c, hc1, hc2⟩ := List.mem_flatten.1 he
      obtain ⟨d, h1, _, _, h2⟩ := m.todo.el c hc1 e hc2
      obtain ⟨e', he', heq⟩ := List.mem_map.1 hb
      obtain ⟨d', h1', _, _, h2'⟩ := hel e' he'
      rw [heq, h1] at h1'
      cases h1'
      rw [h2, hd] at h2'; cases h2'
    · intro c hc' e he
      simp only [List.mem_append, List.mem_singleton] at hc' ⊢
      rw [hU]
      rcases hc' with h | rfl
      · obtain ⟨d, h1, h2, h3, h4⟩ := m.todo.el c h e he
        split
        · exact ⟨{ d with assume := false }, by simp [h1], h2, h3, by simp [hd]⟩
        · exact ⟨d, h1, h2, h3, h4⟩
      · obtain ⟨d, h1, h2, h3, h4⟩ := hel e he
        rw [if_pos (List.mem_map_of_mem he)]
        exact ⟨{ d with assume := false }, by simp [h1], h2, h3, by simp [hd]⟩
    · intro c hc' M hF hs
      simp only [List.mem_append, List.mem_singleton] at hc'
      rcases hc' with h | rfl
      · exact m.todo.holds c h M hF hs
      · exact hc.holds M hF hs
    · intro q; simp only at q; rw [hsh] at q; cases q
    · intro _ q; simp only at q; rw [hd] at q; cases q
  · have hd' : σ.disj = false := by simpa using hd
    have hT : Wf V.F V.n0 (fun _ => False) σ := m.wf.weaken (fun i h => by have := h.1; rw [hd'] at this; cases this)
    -- the state with the core
    have hdr : ∃ s l, dropTrim { σ with ready := false } = { σ with ready := false, lower := l, todo := [], shrink := s } ∧ l = σ.lower - pend σ := by
      unfold dropTrim
      by_cases hs : σ.shrink = true
      · refine ⟨σ.shrink, σ.lower - pend σ, ?_, rfl⟩
        rw [if_pos (show ({ σ with ready := false } : St).shrink = true from hs)]
        rfl
      · have hs' : σ.shrink = false := by simpa using hs
        have := m.todo.nshr hs' hd'
        refine ⟨σ.shrink, σ.lower, ?_, ?_⟩
        · rw [if_neg (show ¬ ({ σ with ready := false } : St).shrink = true by simp [hs']), ← this]
        · simp [pend, this]
    obtain ⟨s, l, e1, e2⟩ := hdr
    have hgood : Good (V.ctx vl σ.level σ.up) σ (fun _ => - pend σ) := m.good
    have hel' : ∀ (τ : St), τ.dat = σ.dat → τ.cons = σ.cons → CoreEl V.F τ core := by
      intro τ h1 h2
      refine ⟨hc.ne, hc.nodup, ?_, ?_⟩
      · intro e he
        obtain ⟨d, a, b, c, f⟩ := hel e he
        exact ⟨d, by rw [h1]; exact a, b, c, Or.inr f⟩
      · rw [h2]; exact hc.holds
    have hg1 : ∀ (τ : St), τ.cons = σ.cons → τ.dat = σ.dat → τ.lower = l + minW σ.wt core → Good (V.ctx vl σ.level σ.up) τ (fun _ => - minW σ.wt core) := by
      intro τ h1 h2 h3
      refine hgood.same m.wf.n0 h1 (fun M _ _ => ?_)
      simp only [val, h2, h3, e2]; ring
    have heq : onCore o p V.pr σ core shr =
        ((if p.trim = true ∧ validLower V.pr { σ with ready := false, lower := l + minW σ.wt core, todo := [core], shrink := s } = true ∧ shr = true then
          (({ σ with ready := false, lower := l + minW σ.wt core, todo := [core], shrink := true } : St), true)
          else resetTrim o p { σ with ready := false, lower := l + minW σ.wt core, todo := [core], shrink := s }).map
          (fun x => { x with next := !validLower V.pr x }) id) := by
      unfold onCore
      rw [e1]
      simp only
      rw [if_neg hd]
      rfl
    rw [heq]
    split
    · refine ⟨fun _ => ⟨⟨m.st, Wf.cast (hT.weaken (fun _ h => h.elim)) rfl rfl rfl rfl, ?_, ⟨?_, ?_, ?_, ?_, ?_, ?_⟩, by simp [Prod.map], m.lev⟩, rfl, rfl⟩, fun q => by simp [Prod.map] at q⟩
      · have : ∀ nx, pend { σ with ready := false, lower := l + minW σ.wt core, todo := [core], shrink := true, next := nx } = minW σ.wt core := by
          intro nx; simp [pend]; rfl
        simp only [Prod.map]
        rw [this]
        exact hg1 _ rfl rfl rfl
      · simp only [Prod.map, List.mem_singleton]; rintro c rfl; exact hc.ne
      · simpa [Prod.map] using hc.nodup
      · simp only [Prod.map, List.mem_singleton]
        rintro c rfl e he
        obtain ⟨d, a, b, c, f⟩ := hel e he
        exact ⟨d, a, b, c, by rw [f, hd']; rfl⟩
      · simp only [Prod.map, List.mem_singleton]; rintro c rfl; exact hc.holds
      · intro _; exact ⟨hd', core, rfl⟩
      · intro q; simp [Prod.map] at q
    · have h1 := resetTrim_main (V := V) (vl := vl) (σ := { σ with ready := false, lower := l + minW σ.wt core, todo := [core], shrink := s }) ho hg rfl
        (hel' _ rfl rfl) m.st (hT.cast rfl rfl rfl rfl) (hg1 _ rfl rfl rfl) rfl m.lev
      generalize resetTrim o p { σ with ready := false, lower := l + minW σ.wt core, todo := [core], shrink := s } = y at h1
      refine ⟨fun h => ?_, fun h => h1.2 h⟩
      obtain ⟨m1, sm, ht, hs⟩ := h1.1 h
      refine ⟨⟨m1.st, m1.wf.cast rfl rfl rfl rfl, m1.good.cast rfl rfl rfl, ⟨m1.todo.ne, m1.todo.nodup, m1.todo.el, m1.todo.holds, m1.todo.shr, m1.todo.nshr⟩, m1.ready, m1.lev⟩, sm.fin, sm.init⟩

end Clasp.Uncore
