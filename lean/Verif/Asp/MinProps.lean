import Verif.Asp.MinReason

/-!
# C47: the minimality check of disjunctive programs is exact

Property theorems; the statements use the model (Min.lean) and the specification (MinSem.lean, Sem.lean) only.
-/

namespace Clasp.Min
open Clasp.Core Clasp.Asp

variable {p : DPrg} {old : Bool} {T0 T : Lit → Bool} {c : Nat}

/-! ### An example -/

/-- Example: `a | b. a :- b. b :- a, y. {y}.` with atoms 0 (a), 1 (b), 2 (y) and bodies 0 (empty), 1 (`b`), 2 (`a, y`). -/
def ex : DPrg where
  natoms := 3
  nbodies := 3
  atom := fun a => if a = 0 then ⟨⟨1, false⟩, 0, true⟩ else if a = 1 then ⟨⟨2, false⟩, 0, true⟩ else ⟨⟨3, false⟩, noScc, true⟩
  body := fun b => if b = 0 then ⟨⟨0, false⟩, .conj [], [.disj [0, 1], .atom 2 true false]⟩
    else if b = 1 then ⟨⟨2, false⟩, .conj [⟨1, false⟩], [.atom 0 false false]⟩ else ⟨⟨4, false⟩, .conj [⟨0, false⟩, ⟨2, false⟩], [.atom 1 false false]⟩

/-- Example: only variable 0 is assigned. -/
def exT0 : Lit → Bool := fun q => decide (q = ⟨0, false⟩)

/-- Example: `a` and `b` are true and `y` is false. -/
def exT : Lit → Bool := fun q => decide (q ∈ ([⟨0, false⟩, ⟨1, false⟩, ⟨2, false⟩, ⟨3, true⟩, ⟨4, true⟩] : List Lit))

theorem lt3 {b : Nat} (h : b < 3) : b = 0 ∨ b = 1 ∨ b = 2 := by omega

theorem ex_ok : ex.Ok where
  heads b hb h hh a ha := by
    rcases lt3 hb with rfl | rfl | rfl <;> simp [ex] at hh ⊢
    · rcases hh with rfl | rfl <;> simp [PHead.atoms] at ha <;> omega
    · subst hh; simp [PHead.atoms] at ha; omega
    · subst hh; simp [PHead.atoms] at ha; omega
  disj b hb as has a ha o ho := by
    rcases lt3 hb with rfl | rfl | rfl <;> simp [ex] at has
    subst has
    simp at ha ho
    rcases ha with rfl | rfl <;> rcases ho with rfl | rfl <;> rfl
  rel a ha _ := by rcases lt3 ha with rfl | rfl | rfl <;> rfl
  goals b hb x hx := by
    rcases lt3 hb with rfl | rfl | rfl <;> simp [ex, Pos, Body.lits] at hx ⊢ <;> omega
  front b hb x hx := by
    rcases lt3 hb with rfl | rfl | rfl <;> simp [ex, Pos, Body.lits] at hx
    · subst hx; decide
    · rcases hx with rfl | rfl <;> decide
  one b hb h hh a ha x hx e hne h' hh' a' ha' x' hx' e' hne' := by
    have key : ∀ y, (ex.atom y).scc ≠ noScc → (ex.atom y).scc = 0 := by
      intro y hy
      simp only [ex] at hy ⊢
      split_ifs at hy ⊢ <;> first | rfl | exact absurd rfl hy
    rw [key _ hne, key _ hne']
  topo b hb h hh a ha x hx h1 h2 := by
    have key : ∀ y, (ex.atom y).scc ≠ noScc → (ex.atom y).scc = 0 := by
      intro y hy
      simp only [ex] at hy ⊢
      split_ifs at hy ⊢ <;> first | rfl | exact absurd rfl hy
    rw [key _ h1, key _ h2]

/-- Example: the component of `a` and `b` when it has been built. -/
def exK : Comp := (build (ex.graph exT0) false exT0 0).getD ⟨[], [], [], [], true⟩

theorem ex_built : build (ex.graph exT0) false exT0 0 = some exK := by
  have h : (build (ex.graph exT0) false exT0 0).isSome = true := by decide +kernel
  unfold exK
  cases hb : build (ex.graph exT0) false exT0 0 with
  | none => rw [hb] at h; cases h
  | some k => rfl

theorem ex_reach : Reach (ex.graph exT0) false exT0 0 ⟨exK, exT0⟩ := .init _ ex_built fun q hq => by
  unfold exT0 at hq ⊢
  rw [decide_eq_true_eq] at hq
  subst hq; decide

theorem exT_con : ∀ q, exT q = true → exT q.neg = false := by
  intro q hq
  unfold exT at hq ⊢
  rw [decide_eq_true_eq] at hq
  simp only [List.mem_cons, List.not_mem_nil, or_false] at hq
  rcases hq with rfl | rfl | rfl | rfl | rfl <;> decide

theorem exT_sub : ∀ q, exT0 q = true → exT q = true := by
  intro q hq
  unfold exT0 at hq
  rw [decide_eq_true_eq] at hq
  subst hq; decide

/-- Example: the total assignment `exT`. -/
def exσ : Asg := fun v => decide (v ≤ 2)

theorem ex_unf : Unf ex exT 0 (fun a => a = 1) := by
  refine ⟨⟨1, rfl⟩, ?_, ?_⟩
  · rintro a rfl; decide
  · rintro b hb h hh hg a ha rfl
    rcases lt3 hb with rfl | rfl | rfl <;> simp [ex] at hh
    · rcases hh with rfl | rfl
      · exact .inr (.inr ⟨_, rfl, 0, by simp, by simp, by decide⟩)
      · simp [PHead.atoms] at ha
    · subst hh; simp [PHead.atoms] at ha
    · exact .inl (by decide)

/-- Example: `a` is true, `b` and `y` are false. -/
def exσ1 : Asg := fun v => decide (v ≤ 1)

theorem ex_dep {a x : Nat} (h : ex.Dep a x) : (a = 0 ∧ x = 1) ∨ (a = 1 ∧ x = 0) ∨ (a = 1 ∧ x = 2) := by
  obtain ⟨b, hb, h, hh, _, ha, hx⟩ := h
  rcases lt3 hb with rfl | rfl | rfl <;> simp [ex] at hh <;> simp [ex, Pos, Body.lits] at hx
  · subst hh; simp [PHead.atoms] at ha; omega
  · subst hh; simp [PHead.atoms] at ha; omega

theorem ex_comps : ex.Comps := by
  have key : ∀ a b, Relation.TransGen ex.Dep a b → (ex.atom a).scc = 0 := by
    intro a b h
    obtain ⟨c, h1, _⟩ := Relation.TransGen.head'_iff.1 h
    rcases ex_dep h1 with ⟨rfl, _⟩ | ⟨rfl, _⟩ | ⟨rfl, _⟩ <;> rfl
  intro a b h1 h2
  rw [key a b h1, key b a h2]

theorem ex_bodies1 : ex.BodiesOk exσ1 := by
  intro b hb
  rcases lt3 hb with rfl | rfl | rfl <;> decide

theorem ex_bodies : ex.BodiesOk exσ := by
  intro b hb
  rcases lt3 hb with rfl | rfl | rfl <;> decide

theorem ex_nonneg : ex.Nonneg := by
  intro b hb
  rcases lt3 hb with rfl | rfl | rfl <;> trivial

theorem ex_closed1 : Closed ex.rules (ex.model exσ1) (ex.model exσ1) := by
  intro r hr _
  have : r = ⟨.disj [0, 1], .conj []⟩ ∨ r = ⟨.choice [2], .conj []⟩ ∨ r = ⟨.disj [0], .conj [⟨1, false⟩]⟩ ∨ r = ⟨.disj [1], .conj [⟨0, false⟩, ⟨2, false⟩]⟩ := by
    simpa [DPrg.rules, ex, List.range_succ, PHead.gamma, PHead.rule] using hr
  rcases this with rfl | rfl | rfl | rfl
  · exact ⟨0, by simp, by decide⟩
  · exact fun a _ h => h
  · exact ⟨0, by simp, by decide⟩
  · rename_i h; exact absurd h (by decide)

/-- Example: nothing can be removed from `{a}`. -/
theorem ex_no_unf1 : ¬ ∃ U, Unf ex (tval exσ1) 0 U := by
  rintro ⟨U, ⟨a, ha⟩, h2, h3⟩
  have h0 : ∀ a, U a → a = 0 := by
    intro a ha
    obtain ⟨h4, _, h5⟩ := h2 a ha
    rcases lt3 h4 with rfl | rfl | rfl
    · rfl
    · exact absurd h5 (by decide)
    · exact absurd h5 (by decide)
  have hu : U 0 := by rw [← h0 a ha]; exact ha
  rcases h3 0 (by decide) (.disj [0, 1]) (by decide) rfl 0 (by decide) hu with h | ⟨x, ls, h, hx, _⟩ | ⟨as, h, o, ho, hno, hto⟩
  · exact absurd h (by decide)
  · have : ls = [] := by
      have e : (ex.body 0).body = .conj [] := rfl
      rw [e] at h
      injection h with h
      exact h.symm
    subst this; cases hx
  · cases h
    simp at ho
    rcases ho with rfl | rfl
    · exact hno hu
    · exact absurd hto (by decide)

/-! ### Building the component -/

/-- The check program of a component can be built exactly if no sum that defines an atom of the component has a positive goal from the component of one of its heads
(of whatever component). What was false on level 0 does not count. -/
theorem C47_built (hok : p.Ok) (hc : c ≠ noScc) (hcon : ∀ q, T0 q = true → T0 q.neg = false) : (∃ k, build (p.graph T0) old T0 c = some k) ↔
    ∀ b < p.nbodies, T0 (p.body b).lit.neg = false → ∀ h ∈ (p.body b).heads, h.gamma = false → ∀ a ∈ h.atoms, (p.atom a).scc = c → T0 (p.atom a).lit.neg = false →
      (∃ h' ∈ (p.body b).heads, ∃ a' ∈ h'.atoms, ∃ x, Pos (p.body b).body x ∧ (p.atom a').scc = (p.atom x).scc ∧ (p.atom a').scc ≠ noScc) → (p.body b).body.isSum = false := by
  constructor
  · rintro ⟨k, hk⟩ b hb hbf h hh hg a ha hac haf hex
    have hi : Inv p old T0 c ⟨k, T0⟩ := (Reach.init k hk hcon).inv
    have han := hok.heads b hb h hh a ha
    refine conj_of ((bscc_ne hok hb).2 hex) (defined_ext hi.bd (mem_sccBodies.2 ⟨?_, h, hh, hg, a, ha, ?_, hac⟩))
    · unfold DPrg.relBody; rw [Bool.and_eq_true, decide_eq_true_eq, Bool.not_eq_true']; exact ⟨hb, hbf⟩
    · exact relAtom_iff.2 ⟨han, hok.rel a han (by rw [hac]; exact hc), by rw [hac]; exact hc, haf⟩
  · intro h
    have := build_defined (old := old) (T0 := T0) (c := c) hok fun b hb => by
      obtain ⟨h1, hd, hh, hg, a, ha, hra, hac⟩ := mem_sccBodies.1 hb
      unfold DPrg.relBody at h1
      rw [Bool.and_eq_true, decide_eq_true_eq, Bool.not_eq_true'] at h1
      by_cases hs : p.bscc b = noScc
      · simp only [DPrg.graph, DPrg.bodyNode, hs]; simp
      · have := h b h1.1 h1.2 hd hh hg a ha hac (relAtom_iff.1 hra).2.2.2 ((bscc_ne hok h1.1).1 hs)
        simp only [DPrg.graph, DPrg.bodyNode, this]; simp
    exact ⟨_, build_eq.2 ⟨this, rfl⟩⟩

example : ∃ k, build (ex.graph exT0) false exT0 0 = some k ∧ k.cls.length = 11 ∧ k.atoms.length = 2 ∧ k.bodies.length = 2 := ⟨exK, ex_built, by decide +kernel⟩

/-! ### One test -/

/-- In every reachable state of the component and for every later assignment of the generator: the test succeeds exactly if the component has no unfounded set, a set
that it returns is unfounded, and every unfounded set can be returned. -/
theorem C47_test (hok : p.Ok) (hc : c ≠ noScc) {r : Run} (hr : Reach (p.graph T0) old T0 c r) (hsub : ∀ q, r.top q = true → T q = true)
    (hcon : ∀ q, T q = true → T q.neg = false) :
    (TestR (p.graph T0) T r.k none ↔ ¬ ∃ U, Unf p T c U) ∧ (∀ L, TestR (p.graph T0) T r.k (some L) → Unf p T c (· ∈ L)) ∧
    ∀ U, Unf p T c U → ∃ L, TestR (p.graph T0) T r.k (some L) ∧ ∀ a, a ∈ L ↔ U a := by
  have hi := hr.inv
  have h0 : ∀ q, T0 q = true → T q = true := fun q hq => hsub q (hi.sub q hq)
  have hex : ∀ U, Unf p T c U → ∃ L, TestR (p.graph T0) T r.k (some L) ∧ ∀ a, a ∈ L ↔ U a := by
    intro U hU
    obtain ⟨hm, hup⟩ := hU.mod (old := old) hok hc h0 hcon
    cases hd : r.k.dead with
    | true => exact absurd hm (hi.dead hd T hsub hcon _)
    | false =>
      obtain ⟨h1, h2, h3, h4⟩ := (hi.mod hd hsub hcon).1 hm
      exact ⟨_, .sat _ hd h1 h2 h3 h4, fun a => (hi.out hsub hm a).trans (hup a)⟩
  refine ⟨⟨fun ht ⟨U, hU⟩ => ?_, fun hno => ?_⟩, fun L ht => ?_, hex⟩
  · obtain ⟨L, hL, -⟩ := hex U hU
    cases ht with
    | unsat h =>
      cases hL with
      | sat μ hd h1 h2 h3 h4 =>
        rcases h with h | h
        · rw [h] at hd; cases hd
        · exact h ⟨μ, h1, h2, h3, h4⟩
  · refine .unsat ?_
    cases hd : r.k.dead with
    | true => exact .inl rfl
    | false =>
      right
      rintro ⟨μ, h1, h2, h3, h4⟩
      exact hno ⟨_, ((hi.mod hd hsub hcon).2 ⟨h1, h2, h3, h4⟩).unf hok hc hi.bd h0⟩
  · cases ht with
    | sat μ hd h1 h2 h3 h4 =>
      have hm := (hi.mod hd hsub hcon).2 ⟨h1, h2, h3, h4⟩
      have := hm.unf hok hc hi.bd h0
      have e : (fun x => x ∈ mapModel r.k μ) = upSet p old T0 c μ := funext fun a => propext (hi.out hsub hm a)
      rw [e]; exact this

/-- The test finds that `b` is unfounded if `a` and `b` are true and `y` is false. -/
example : ∃ L, TestR (ex.graph exT0) exT exK (some L) ∧ ∀ a, a ∈ L ↔ a = 1 :=
  (C47_test ex_ok (by decide) ex_reach exT_sub exT_con).2.2 _ ex_unf

/-- The atoms that a test returns are false in all answer sets that agree with the assignment of the generator. -/
theorem C47_unfounded (hok : p.Ok) (hc : c ≠ noScc) {r : Run} (hr : Reach (p.graph T0) old T0 c r) (hsub : ∀ q, r.top q = true → T q = true)
    (hcon : ∀ q, T q = true → T q.neg = false) {L : List Nat} (ht : TestR (p.graph T0) T r.k (some L)) :
    L ≠ [] ∧ (∀ a ∈ L, (p.atom a).scc = c ∧ T (p.atom a).lit.neg = false) ∧
    ∀ σ : Asg, (∀ q, T q = true → tval σ q = true) → p.BodiesOk σ → p.Nonneg → Stable p.rules (p.model σ) → ∀ a ∈ L, tval σ (p.atom a).lit = false := by
  have hU := (C47_test hok hc hr hsub hcon).2.1 L ht
  refine ⟨?_, fun a ha => (hU.2.1 a ha).2, fun σ hT hb hn hs a ha => hU.fls hT hok hb hn hs a ha⟩
  obtain ⟨a, ha⟩ := hU.1
  rintro rfl
  cases ha

example : ∃ L, TestR (ex.graph exT0) exT exK (some L) ∧ L ≠ [] := by
  obtain ⟨L, h, _⟩ := (C47_test ex_ok (by decide) ex_reach exT_sub exT_con).2.2 _ ex_unf
  exact ⟨L, h, (C47_unfounded ex_ok (by decide) ex_reach exT_sub exT_con h).1⟩

/-! ### All tests -/

/-- The result of the check: nothing if all tests succeed, otherwise the result of one that fails; it does not matter with which component it starts. -/
theorem C47_find (res : List (Option (List Nat))) (i : Nat) :
    (findUfs res i = none ↔ ∀ x ∈ res, x = none) ∧ ∀ L, findUfs res i = some L → some L ∈ res := by
  have hmem : ∀ x, x ∈ res.drop i ++ res.take i ↔ x ∈ res := by
    intro x
    conv_rhs => rw [← List.take_append_drop i res]
    rw [List.mem_append, List.mem_append, or_comm]
  unfold findUfs
  cases hf : (res.drop i ++ res.take i).find? Option.isSome with
  | none =>
    refine ⟨⟨fun _ x hx => ?_, fun _ => rfl⟩, fun L h => by cases h⟩
    have := List.find?_eq_none.1 hf x ((hmem x).2 hx)
    simpa using this
  | some y =>
    have hy := List.mem_of_find?_eq_some hf
    have hs := List.find?_some hf
    cases y with
    | none => cases hs
    | some L =>
      refine ⟨⟨fun h => (by cases h), fun h => (by cases h _ ((hmem _).1 hy))⟩, fun L' h => ?_⟩
      have : L = L' := by simpa using h
      subst this
      exact (hmem _).1 hy

example : findUfs [none, some [1], none] 2 = some [1] := rfl

/-- A total assignment that satisfies the rules and the definitions of the bodies is an answer set exactly if all tests succeed, provided that nothing can be removed within
the components that are not tested (those are checked without tester: C03, C30). -/
theorem C47_answer_set (hok : p.Ok) (hcomps : p.Comps) (hn : p.Nonneg) {cs : List Nat} {run : Nat → Run} (hcs : ∀ c ∈ cs, c ≠ noScc)
    (hr : ∀ c ∈ cs, Reach (p.graph T0) old T0 c (run c)) {σ : Asg} (hT : ∀ c ∈ cs, ∀ q, (run c).top q = true → tval σ q = true)
    (hb : p.BodiesOk σ) (hm : Closed p.rules (p.model σ) (p.model σ))
    (hrest : ∀ U : Nat → Prop, (∃ a, U a) → (∀ a, U a → p.model σ a = true ∧ (p.atom a).scc ∉ cs) → ¬ Closed p.rules (diff (p.model σ) U) (p.model σ)) :
    (∀ c ∈ cs, TestR (p.graph T0) (tval σ) (run c).k none) ↔ Stable p.rules (p.model σ) := by
  have hcon : ∀ q, tval σ q = true → tval σ q.neg = false := fun q hq => by rw [tval_not, hq]; rfl
  constructor
  · intro hall
    refine ⟨hm, fun X hX hcl => ?_⟩
    by_contra hns
    obtain ⟨U, hne, hUm, hUs, hUc⟩ := one_component hcomps hn hm hX hcl hns
    obtain ⟨a, ha⟩ := hne
    by_cases hac : (p.atom a).scc ∈ cs
    · have hi := (hr _ hac).inv
      refine ((C47_test hok (hcs _ hac) (hr _ hac) (hT _ hac) hcon).1.1 (hall _ hac)) ⟨U, ?_⟩
      exact Unf.of_closed hok hb (fun q hq => hT _ hac q (hi.sub q hq)) (hi.norec hok (hcs _ hac)) ⟨a, ha⟩ (fun x hx => ⟨hUm x hx, hUs x a hx ha⟩) hUc
    · exact hrest U ⟨a, ha⟩ (fun x hx => ⟨hUm x hx, by rw [hUs x a hx ha]; exact hac⟩) hUc
  · intro hs c hc
    refine (C47_test hok (hcs c hc) (hr c hc) (hT c hc) hcon).1.2 ?_
    rintro ⟨U, hU⟩
    obtain ⟨a, ha⟩ := hU.1
    have h1 := hU.fls (fun _ h => h) hok hb hn hs a ha
    have h2 := (hU.2.1 a ha).2.2
    rw [tval_not, h1] at h2; cases h2

/-- `{a}` is an answer set: all tests succeed. -/
example : Stable ex.rules (ex.model exσ1) := by
  refine (C47_answer_set (old := false) (T0 := exT0) (cs := [0]) (run := fun _ => ⟨exK, exT0⟩) ex_ok ex_comps ex_nonneg (by simp [noScc]) ?_ ?_ ex_bodies1 ex_closed1 ?_).1 ?_
  · intro c hc
    have : c = 0 := by simpa using hc
    subst this; exact ex_reach
  · intro c _ q hq
    have hq : exT0 q = true := hq
    unfold exT0 at hq
    rw [decide_eq_true_eq] at hq
    subst hq; decide
  · rintro U ⟨a, ha⟩ hU
    exfalso
    obtain ⟨h1, h2⟩ := hU a ha
    unfold DPrg.model at h1
    rw [Bool.and_eq_true, decide_eq_true_eq] at h1
    rcases lt3 h1.1 with rfl | rfl | rfl
    · exact h2 (by decide)
    · exact h2 (by decide)
    · exact absurd h1.2 (by decide)
  · intro c hc
    have : c = 0 := by simpa using hc
    subst this
    refine (C47_test ex_ok (by decide) ex_reach (T := tval exσ1) ?_ ?_).1.2 ex_no_unf1
    · intro q hq
      have hq : exT0 q = true := hq
      unfold exT0 at hq
      rw [decide_eq_true_eq] at hq
      subst hq; decide
    · intro q hq; rw [tval_not, hq]; rfl

/-! ### Reasons -/

/-- Let a test return a set `L0`, and let the atoms `L` of it still be considered (`s` is the assignment of the generator, in which the other ones have been made false
and in which unit propagation has made conjunctions with a false goal false). Then all literals of the reason are false, and in all answer sets in which the
literals of level 0 hold, an atom of `L` that is not false now is true only if a literal of the reason is. -/
theorem C47_reason (hok : p.Ok) (hc : c ≠ noScc) {r : Run} (hr : Reach (p.graph T0) old T0 c r) (hsub : ∀ q, r.top q = true → T q = true)
    (hcon : ∀ q, T q = true → T q.neg = false) {L0 : List Nat} (ht : TestR (p.graph T0) T r.k (some L0))
    {s : Gen} (hs : ∀ q, T q = true → s.tr q = true) (hsc : ∀ q, s.tr q = true → s.tr q.neg = false) (hT0 : ∀ q, T0 q = true → q ∈ s.headD [])
    {L : List Nat} (hL : ∀ a ∈ L, a ∈ L0) (hrest : ∀ a ∈ L0, a ∈ L ∨ s.tr (p.atom a).lit.neg = true)
    (hprop : ∀ b < p.nbodies, ∀ x ls, (p.body b).body = .conj ls → (⟨x, false⟩ : BLit) ∈ ls → s.tr (p.atom x).lit.neg = true → s.tr (p.body b).lit.neg = true) :
    (∀ q ∈ computeReason (p.graph T0) s L, s.tr q.neg = true) ∧
    ∀ σ : Asg, (∀ q ∈ s.headD [], tval σ q = true) → p.BodiesOk σ → p.Nonneg → Stable p.rules (p.model σ) →
      ∀ a ∈ L, s.tr (p.atom a).lit.neg = false → tval σ (p.atom a).lit = true → ∃ q ∈ computeReason (p.graph T0) s L, tval σ q = true := by
  have hU := (C47_test hok hc hr hsub hcon).2.1 L0 ht
  have hscc : ∀ a ∈ L, ((p.graph T0).atom a).scc = c := fun a ha => (hU.2.1 a (hL a ha)).2.1
  exact ⟨(reason_spec hscc).1, fun σ h0 hb hn hst a ha hna hta =>
    reason_sound hok hc (hr.inv.norec hok hc) hU hs hsc hL hrest hprop hT0 h0 hb hn hst ha hna hta⟩

/-- The reason for `b` being unfounded: `a` is true, and the body `a, y` is false. -/
example : computeReason (ex.graph exT0) [[⟨0, false⟩], [⟨3, true⟩, ⟨4, true⟩], [⟨1, false⟩, ⟨2, false⟩]] [1] = [⟨1, true⟩, ⟨4, false⟩] := by decide +kernel

/-- Example: an assignment of the generator in which `y` was chosen to be false and `a` to be true. -/
def exS : Gen := [[⟨0, false⟩], [⟨3, true⟩, ⟨4, true⟩], [⟨1, false⟩, ⟨2, false⟩]]

theorem exS_tr (q : Lit) : exS.tr q = exT q := by
  unfold exS exT Gen.tr
  simp only [List.any_cons, List.any_nil, Bool.or_false, List.contains_eq_mem]
  rw [Bool.eq_iff_iff]
  simp only [Bool.or_eq_true, decide_eq_true_eq, List.mem_cons, List.not_mem_nil, or_false]
  tauto

/-- In every answer set with `b`, `a` is false or the body `a, y` is true. -/
example {σ : Asg} (h0 : σ 0 = true) (hb : ex.BodiesOk σ) (hst : Stable ex.rules (ex.model σ)) (h : σ 2 = true) : ∃ q ∈ [(⟨1, true⟩ : Lit), ⟨4, false⟩], tval σ q = true := by
  obtain ⟨L, hL, hm⟩ := (C47_test ex_ok (by decide) ex_reach exT_sub exT_con).2.2 _ ex_unf
  have := (C47_reason ex_ok (by decide) ex_reach exT_sub exT_con hL (s := exS) (L := [1]) (fun q hq => by rw [exS_tr]; exact hq)
    (fun q hq => by rw [exS_tr] at hq ⊢; exact exT_con q hq)
    (fun q hq => by
      unfold exT0 at hq
      rw [decide_eq_true_eq] at hq
      subst hq; decide)
    (fun a ha => (hm a).2 (by simpa using ha)) (fun a ha => .inl (by rw [(hm a).1 ha]; simp))
    (fun b hb x ls e hx hf => by
      rw [exS_tr] at hf ⊢
      rcases lt3 hb with rfl | rfl | rfl
      · have e : Body.conj [] = .conj ls := e
        cases e; cases hx
      · have e : Body.conj [⟨1, false⟩] = .conj ls := e
        cases e
        have : x = 1 := by simpa using hx
        subst this
        exact absurd hf (by decide)
      · decide)).2 σ (fun q hq => by
      have : q = ⟨0, false⟩ := by simpa [exS] using hq
      subst this
      simp [tval, Lit.tv, h0]) hb ex_nonneg hst 1 (by simp) (by decide) (by
      have e : (ex.atom 1).lit = ⟨2, false⟩ := rfl
      rw [e]
      simp [tval, Lit.tv, h])
  have e : computeReason (ex.graph exT0) exS [1] = [⟨1, true⟩, ⟨4, false⟩] := by decide +kernel
  rw [e] at this
  exact this

/-- The unfounded atoms are falsified in an order that starts with a true one of the smallest level, if there is a true one. -/
theorem C47_order (g : DGraph) (s : Gen) (L : List Nat) : (order g s L).Perm L ∧
    ((∃ a ∈ L, s.tr (g.atom a).lit = true) → ∃ a, (order g s L).head? = some a ∧ s.tr (g.atom a).lit = true ∧
      ∀ b ∈ L, s.tr (g.atom b).lit = true → s.level (g.atom a).lit.var ≤ s.level (g.atom b).lit.var) := by
  unfold order
  rcases minPos_ok (g := g) s L L 0 0 none rfl (by simp) rfl with ⟨h1, h2⟩ | ⟨a, h1, h2, h3⟩
  · rw [h1]
    refine ⟨?_, fun ⟨a, ha, hta⟩ => by rw [h2 a ha] at hta; cases hta⟩
    cases L with
    | nil => exact .refl _
    | cons x l => exact .refl _
  · obtain ⟨h4, h5⟩ := swap_front h1
    exact ⟨h4, fun _ => ⟨a, h5, h2, h3⟩⟩

example : order (ex.graph exT0) [[⟨0, false⟩], [⟨2, false⟩], [⟨1, false⟩]] [0, 1] = [1, 0] := by decide +kernel

/-! ### A component that is simplified -/

/-- Example: the literals true on level 0 after `y` became false. -/
def exT1 : Lit → Bool := fun q => decide (q ∈ ([⟨0, false⟩, ⟨3, true⟩, ⟨4, true⟩] : List Lit))

/-- The state after the component was simplified is reachable; the body `a, y` is no longer in the mapping, and the tester knows that it is false. -/
example : Reach (ex.graph exT0) false exT0 0 ⟨simplify (ex.graph exT0) exT1 true exK, exT1⟩ ∧ (simplify (ex.graph exT0) exT1 true exK).bodies.length = 1 ∧
    (simplify (ex.graph exT0) exT1 true exK).top = [⟨8, false⟩] := by
  refine ⟨.step _ _ (.step _ _ ex_reach (.fact _ exT1 ?_ ?_)) (.simp _ true (by decide +kernel)), by decide +kernel, by decide +kernel⟩
  · intro q hq
    have hq : exT0 q = true := hq
    unfold exT0 at hq
    rw [decide_eq_true_eq] at hq
    subst hq; decide
  · intro q hq
    unfold exT1 at hq ⊢
    rw [decide_eq_true_eq] at hq
    simp only [List.mem_cons, List.not_mem_nil, or_false] at hq
    rcases hq with rfl | rfl | rfl <;> decide

/-! ### A program for which the check cannot be built -/

/-- Example: `a | b. a :- b. b :- a. {y}. {z}. x :- 2 {w, y, z}. w :- x. a :- 2 {w, y, z}.` with atoms 0 (a), 1 (b), 2 (x), 3 (w), 4 (y), 5 (z). The components are
`{a, b}` (number 0) and `{x, w}` (number 1). -/
def exAgg : DPrg where
  natoms := 6
  nbodies := 5
  atom := fun a => if a ≤ 1 then ⟨⟨a + 1, false⟩, 0, true⟩ else if a ≤ 3 then ⟨⟨a + 1, false⟩, 1, true⟩ else ⟨⟨a + 1, false⟩, noScc, true⟩
  body := fun b => if b = 0 then ⟨⟨0, false⟩, .conj [], [.disj [0, 1], .atom 4 true false, .atom 5 true false]⟩
    else if b = 1 then ⟨⟨2, false⟩, .conj [⟨1, false⟩], [.atom 0 false false]⟩
    else if b = 2 then ⟨⟨1, false⟩, .conj [⟨0, false⟩], [.atom 1 false false]⟩
    else if b = 3 then ⟨⟨3, false⟩, .conj [⟨2, false⟩], [.atom 3 false false]⟩
    else ⟨⟨7, false⟩, .sum [(⟨3, false⟩, 1), (⟨4, false⟩, 1), (⟨5, false⟩, 1)] 2, [.atom 2 false false, .atom 0 false false]⟩

theorem lt5 {b : Nat} (h : b < 5) : b = 0 ∨ b = 1 ∨ b = 2 ∨ b = 3 ∨ b = 4 := by omega

theorem exAgg_pos {b x : Nat} (hb : b < 5) (hx : Pos (exAgg.body b).body x) :
    (b = 1 ∧ x = 1) ∨ (b = 2 ∧ x = 0) ∨ (b = 3 ∧ x = 2) ∨ (b = 4 ∧ (x = 3 ∨ x = 4 ∨ x = 5)) := by
  rcases lt5 hb with rfl | rfl | rfl | rfl | rfl <;> simp [exAgg, Pos, Body.lits] at hx <;> omega

theorem exAgg_head {b a : Nat} {h : PHead} (hb : b < 5) (hh : h ∈ (exAgg.body b).heads) (ha : a ∈ h.atoms) :
    (b = 0 ∧ (a = 0 ∨ a = 1 ∨ a = 4 ∨ a = 5)) ∨ (b = 1 ∧ a = 0) ∨ (b = 2 ∧ a = 1) ∨ (b = 3 ∧ a = 3) ∨ (b = 4 ∧ (a = 2 ∨ a = 0)) := by
  rcases lt5 hb with rfl | rfl | rfl | rfl | rfl <;> simp [exAgg] at hh
  · rcases hh with rfl | rfl | rfl <;> simp [PHead.atoms] at ha <;> omega
  · subst hh; simp [PHead.atoms] at ha; omega
  · subst hh; simp [PHead.atoms] at ha; omega
  · subst hh; simp [PHead.atoms] at ha; omega
  · rcases hh with rfl | rfl <;> simp [PHead.atoms] at ha <;> omega

/-- The positive goal and the head of a body that are from the same component. -/
theorem exAgg_same {b a x : Nat} {h : PHead} (hb : b < 5) (hh : h ∈ (exAgg.body b).heads) (ha : a ∈ h.atoms) (hx : Pos (exAgg.body b).body x)
    (e : (exAgg.atom a).scc = (exAgg.atom x).scc) : (b = 1 ∧ a = 0) ∨ (b = 2 ∧ a = 1) ∨ (b = 3 ∧ a = 3) ∨ (b = 4 ∧ a = 2) := by
  rcases exAgg_pos hb hx with ⟨rfl, rfl⟩ | ⟨rfl, rfl⟩ | ⟨rfl, rfl⟩ | ⟨rfl, hx'⟩ <;> rcases exAgg_head hb hh ha with h | h | h | h | h
  all_goals first | omega | skip
  rcases hx' with rfl | rfl | rfl <;> rcases h.2 with rfl | rfl <;> first | omega | (exfalso; revert e; decide)

theorem exAgg_ok : exAgg.Ok where
  heads b hb h hh a ha := by
    have := exAgg_head hb hh ha
    have e : exAgg.natoms = 6 := rfl
    omega
  disj b hb as has a ha o ho := by
    rcases lt5 hb with rfl | rfl | rfl | rfl | rfl <;> simp [exAgg] at has
    subst has
    simp at ha ho
    rcases ha with rfl | rfl <;> rcases ho with rfl | rfl <;> rfl
  rel a _ _ := by unfold exAgg; dsimp only; split_ifs <;> rfl
  goals b hb x hx := by
    have := exAgg_pos hb hx
    have e : exAgg.natoms = 6 := rfl
    omega
  front b hb x hx := by
    rcases exAgg_pos hb hx with ⟨rfl, rfl⟩ | ⟨rfl, rfl⟩ | ⟨rfl, rfl⟩ | ⟨rfl, rfl | rfl | rfl⟩ <;> decide
  one b hb h hh a ha x hx e hne h' hh' a' ha' x' hx' e' hne' := by
    have h1 := exAgg_same hb hh ha hx e
    have h2 := exAgg_same hb hh' ha' hx' e'
    have : a = a' := by omega
    rw [this]
  topo b hb h hh a ha x hx h1 h2 := by
    rcases exAgg_pos hb hx with ⟨rfl, rfl⟩ | ⟨rfl, rfl⟩ | ⟨rfl, rfl⟩ | ⟨rfl, rfl | rfl | rfl⟩ <;>
      rcases exAgg_head hb hh ha with ⟨h, h3⟩ | ⟨h, h3⟩ | ⟨h, h3⟩ | ⟨h, h3⟩ | ⟨h, h3⟩ <;> first | omega | skip
    all_goals (try subst h3)
    all_goals first | decide | (rcases h3 with rfl | rfl <;> first | decide | exact absurd rfl h2)

/-- A program without an aggregate that is recursive through a component with a disjunction: the aggregate is recursive through `{x, w}`, which has none. Nevertheless the
check of `{a, b}` cannot be built; the constructor throws "Extended bodies not supported". -/
theorem C47_aggregate_fails : exAgg.Ok ∧ exAgg.NoRecSum exT0 0 ∧ (∀ b < exAgg.nbodies, ∀ as, .disj as ∈ (exAgg.body b).heads → ∀ a ∈ as, (exAgg.atom a).scc = 0) ∧
    build (exAgg.graph exT0) false exT0 0 = none := by
  refine ⟨exAgg_ok, ?_, ?_, by decide +kernel⟩
  · intro b hb _ h hh _ a ha hac _ x hx hxc
    rcases exAgg_same hb hh ha hx (by rw [hac, hxc]) with ⟨rfl, rfl⟩ | ⟨rfl, rfl⟩ | ⟨rfl, rfl⟩ | ⟨rfl, rfl⟩ <;> first | rfl | exact absurd hac (by decide)
  · intro b hb as has a ha
    rcases lt5 hb with rfl | rfl | rfl | rfl | rfl <;> simp [exAgg] at has
    subst has
    simp at ha
    rcases ha with rfl | rfl <;> rfl

end Clasp.Min
