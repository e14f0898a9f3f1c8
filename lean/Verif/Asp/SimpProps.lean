import Verif.Asp.SimpRule

/-!
# C27: simplification of rules preserves the meaning of a program

Two programs have the same pairs `(X, M)`, `X ⊆ M`, with `M` a model and `X` a model of the reduct with respect to `M`, exactly if they are strongly equivalent, i.e. have the
same stable models whatever else is added. All theorems are about such pairs, so they hold in every context.
-/

namespace Clasp.Asp.Simp

/-- Specification: `M` is a model of `P`, and `X ⊆ M` is a model of the reduct. -/
def HT (P : List Rule) (X M : AtomSet) : Prop := Sub X M ∧ Closed P M M ∧ Closed P X M

/-- Specification: the values and flags of atoms are consequences of the program: `true` atoms and facts are in all models of reducts (they are founded), `false` atoms in no
model, `weakly true` atoms in all models. -/
def Follows (P : List Rule) (k : Known) : Prop := ∀ X M, HT P X M →
  (∀ a, k.val a = .tru → X a = true) ∧ (∀ a, k.val a = .weak → M a = true) ∧ (∀ a, k.val a = .fals → M a = false) ∧
  (∀ a, k.fact a = true → X a = true) ∧ (∀ a, k.fals a = true → M a = false) ∧ (∀ a, k.ign a = true → M a = true → X a = true)

variable {P Q A B : List Rule} {k : Known} {m : Marks} {X M : AtomSet}

theorem Follows.K (h : Follows P k) (hh : HT P X M) : K k X M := by
  obtain ⟨a, b, c, d, e, f⟩ := h X M hh
  exact ⟨hh.1, a, b, c, d, e, f⟩

theorem HT.total (h : HT P X M) : HT P M M := ⟨fun _ h => h, h.2.1, h.2.1⟩

theorem HT.append : HT (P ++ Q) X M ↔ HT P X M ∧ HT Q X M := by
  simp only [HT, closed_append]
  exact ⟨fun ⟨a, b, c⟩ => ⟨⟨a, b.1, c.1⟩, a, b.2, c.2⟩, fun ⟨⟨a, b, c⟩, _, d, e⟩ => ⟨a, ⟨b, d⟩, c, e⟩⟩

theorem HT.congr (h : ∀ r, r ∈ P ↔ r ∈ Q) : HT P X M ↔ HT Q X M := by
  simp only [HT, Closed, h]

theorem HT.single {r : Rule} : HT [r] X M ↔ Sub X M ∧ r.ok M M ∧ r.ok X M := by
  simp only [HT, closed_single]

/-- Programs with the same pairs have the same stable models. -/
theorem stable_of_HT (h : ∀ X M, HT A X M ↔ HT B X M) (M : AtomSet) : Stable A M ↔ Stable B M := by
  have key : ∀ {A B : List Rule}, (∀ X M, HT A X M ↔ HT B X M) → Stable A M → Stable B M := by
    intro A B h ⟨h1, h2⟩
    have hm : HT B M M := (h M M).1 ⟨fun _ h => h, h1, h1⟩
    exact ⟨hm.2.1, fun X hX hc => h2 X hX ((h X M).2 ⟨hX, hm.2.1, hc⟩).2.2⟩
  exact ⟨key h, key fun X M => (h X M).symm⟩

theorem simplifyRule_spec {r : Rule} (hm : Clean m) (hw : r.body.nonneg) {ro m'} (he : simplifyRule k m r = .ok (ro, m')) :
    Clean m' ∧ (∀ r', ro = some r' → HeadOk k r.head r'.head ∧ r'.body.simple k r.body.lits) ∧ ∀ X M, K k X M → (r.ok X M ↔ ∀ r', ro = some r' → r'.ok X M) := by
  obtain ⟨h, b⟩ := r
  unfold simplifyRule at he
  cases b with
  | conj ls =>
    simp only [Except.ok.injEq] at he
    refine ⟨(simplifyNormal_spec (X := fun _ => false) (M := fun _ => false) hm he).1, fun r' hr => ?_, fun X M => (simplifyNormal_spec hm he).2.2⟩
    obtain ⟨h1, out, h2, h3⟩ := (simplifyNormal_spec (X := fun _ => false) (M := fun _ => false) hm he).2.1 r' hr
    exact ⟨h1, by rw [h2]; exact h3⟩
  | sum ls b =>
    refine ⟨(simplifySum_spec (X := fun _ => false) (M := fun _ => false) hm hw he).1, (simplifySum_spec (X := fun _ => false) (M := fun _ => false) hm hw he).2.1, fun X M => (simplifySum_spec hm hw he).2.2⟩

theorem simplify_HT {r : Rule} (hm : Clean m) (hk : Follows P k) (hw : r.body.nonneg) {ro m'} (he : simplifyRule k m r = .ok (ro, m')) (X M : AtomSet) :
    HT (P ++ [r]) X M ↔ HT (P ++ ro.toList) X M := by
  obtain ⟨_, _, g⟩ := simplifyRule_spec hm hw he
  rw [HT.append, HT.append]
  refine and_congr_right fun hP => ?_
  have e1 := g X M (hk.K hP)
  have e2 := g M M (hk.K hP.total)
  rw [HT.single]
  cases ro with
  | none =>
    have h1 : r.ok M M := e2.2 fun _ h => by cases h
    have h2 : r.ok X M := e1.2 fun _ h => by cases h
    simp only [Option.toList, HT, Closed, List.not_mem_nil, false_implies, implies_true, and_true]
    exact ⟨fun h => h.1, fun h => ⟨h, h1, h2⟩⟩
  | some r' =>
    simp only [Option.toList, HT.single, Option.some.injEq, forall_eq'] at *
    rw [e1, e2]

/-- Simplifying a rule does not change the stable models, in any program from which the values used for the simplification follow. -/
theorem C27_rule {r : Rule} (hm : Clean m) (hk : Follows P k) (hw : r.body.nonneg) {ro m'} (he : simplifyRule k m r = .ok (ro, m')) (Q : List Rule) (M : AtomSet) :
    Stable (P ++ [r] ++ Q) M ↔ Stable (P ++ ro.toList ++ Q) M := by
  refine stable_of_HT (fun X M => ?_) M
  rw [HT.append, HT.append (P := P ++ ro.toList), simplify_HT hm hk hw he]

/-- The documented form of the result: no literal twice, none with a known value, no complementary literals in a conjunction, weights between 1 and the bound, a satisfiable sum;
no head atom twice and none that is known to be true or false; only atoms and literals of the rule. -/
theorem C27_form {r r' : Rule} (hm : Clean m) (hw : r.body.nonneg) {m'} (he : simplifyRule k m r = .ok (some r', m')) :
    r'.body.simple k r.body.lits ∧ r'.head.atoms.Nodup ∧ ∀ a ∈ r'.head.atoms, a ∈ r.head.atoms ∧ k.fact a = false ∧ k.fals a = false := by
  obtain ⟨_, g, _⟩ := simplifyRule_spec hm hw he
  obtain ⟨h1, h2⟩ := g r' rfl
  exact ⟨h2, h1.nodup, h1.sub⟩

/-- Specification: the range of `weight_t`. -/
abbrev InRange (x : Int) : Prop := -2147483648 ≤ x ∧ x ≤ 2147483647

/-- The simplification has no undefined behaviour (no signed overflow, no failed assertion), for all weights and bounds of the type `weight_t`, negative ones included; it succeeds if no
weight is negative and the sum of the weights is in range; and no flag of the rule is left behind. -/
theorem C27_defined {r : Rule} (hm : Clean m) (hr : match r.body with | .conj _ => True | .sum ls b => InRange b ∧ ∀ x ∈ ls, InRange x.2) :
    simplifyRule k m r ≠ .error .ub ∧
    ((match r.body with | .conj _ => True | .sum ls _ => (∀ x ∈ ls, 0 ≤ x.2) ∧ InRange (ls.map Prod.snd).sum) → ∃ ro m', simplifyRule k m r = .ok (ro, m') ∧ Clean m') := by
  obtain ⟨h, b⟩ := r
  unfold simplifyRule
  cases b with
  | conj ls =>
    refine ⟨by simp, fun _ => ?_⟩
    cases he : simplifyNormal k m h ls with
    | mk ro m' => exact ⟨ro, m', by simp only [he], (simplifyNormal_spec (X := fun _ => false) (M := fun _ => false) hm he).1⟩
  | sum ls b =>
    obtain ⟨h1, h2⟩ := hr
    refine ⟨simplifySum_ub hm (fun x hx => (h2 x hx).2) h1.2, fun ⟨h3, h4⟩ => ?_⟩
    obtain ⟨⟨ro, m'⟩, e⟩ := simplifySum_total (k := k) (h := h) hm h3 h4.2 h1.2
    exact ⟨ro, m', e, (simplifySum_spec (X := fun _ => false) (M := fun _ => false) hm h3 e).1⟩

/-! ### Whole programs -/

/-- Proof device: the program that is represented. -/
def Prg.prog (s : Prg) : List Rule := s.rules ++ s.vals

/-- Specification: the rules represented by values are facts of true atoms, constraints on false atoms and constraints on true or weakly true atoms. -/
def Prg.Repr (s : Prg) : Prop := ∀ v ∈ s.vals, ∃ a, (v = ⟨.disj [a], .conj []⟩ ∧ s.k.val a = .tru) ∨ (v = ⟨.disj [], .conj [⟨a, false⟩]⟩ ∧ s.k.val a = .fals) ∨
  (v = ⟨.disj [], .conj [⟨a, true⟩]⟩ ∧ (s.k.val a = .weak ∨ s.k.val a = .tru))

/-- Proof device: invariant of adding rules, `A` are the rules added so far. -/
structure PInv (A : List Rule) (s : Prg) : Prop where
  clean : Clean s.m
  cf : s.conflict = true → ∀ M, ¬ Closed A M M
  se : s.conflict = false → (∀ X M, HT A X M ↔ HT s.prog X M) ∧ Follows s.prog s.k ∧ s.Repr

theorem Follows.mono (h : Follows P k) : Follows (P ++ Q) k := fun X M hh => h X M (HT.append.1 hh).1

theorem Follows.congr (h : Follows P k) (e : ∀ r, r ∈ P ↔ r ∈ Q) : Follows Q k := fun X M hh => h X M ((HT.congr e).2 hh)

/-- Proof device: the value follows. -/
def ValOk (P : List Rule) (a : Nat) (v : Val) : Prop := ∀ X M, HT P X M → match v with
  | .tru => X a = true
  | .weak => M a = true
  | .fals => M a = false
  | .free => True

theorem Follows.valOk (h : Follows P k) (a : Nat) : ValOk P a (k.val a) := by
  intro X M hh
  have := h.K hh
  cases hv : k.val a with
  | free => trivial
  | tru => exact this.tru a hv
  | fals => exact this.vfals a hv
  | weak => exact this.weak a hv

theorem assign_spec {s : Prg} {a : Nat} {v : Val} {b0 : Bool} (hv0 : v ≠ .free) (hk : Follows P s.k) (hv : ValOk P a v) :
    (s.assign a v b0).m = s.m ∧ (s.assign a v b0).rules = s.rules ∧ (s.assign a v b0).vals = s.vals ∧
    (((s.assign a v b0).conflict = true ∧ ∀ M, ¬ Closed P M M) ∨
     ((s.assign a v b0).conflict = s.conflict ∧ Follows P (s.assign a v b0).k ∧ (∀ b, b ≠ a → (s.assign a v b0).k.val b = s.k.val b) ∧
       (s.k.val a = .tru → (s.assign a v b0).k.val a = .tru) ∧ (s.k.val a = .fals → (s.assign a v b0).k.val a = .fals) ∧ (s.k.val a = .weak → (s.assign a v b0).k.val a = .weak ∨ (s.assign a v b0).k.val a = .tru) ∧
       (v = .tru → (s.assign a v b0).k.val a = .tru) ∧ (v = .fals → (s.assign a v b0).k.val a = .fals) ∧ (v = .weak → (s.assign a v b0).k.val a = .weak ∨ (s.assign a v b0).k.val a = .tru))) := by
  unfold Prg.assign
  cases e : assignVal (s.k.ign a) (s.k.val a) v with
  | none =>
    refine ⟨rfl, rfl, rfl, .inl ⟨rfl, fun M hM => ?_⟩⟩
    have hh : HT P M M := ⟨fun _ h => h, hM, hM⟩
    have h1 := hk.valOk a M M hh
    have h2 := hv M M hh
    unfold assignVal at e
    cases hx : s.k.val a <;> cases hy : v <;> cases hz : s.k.ign a <;> simp_all
  | some v' =>
    have hv' : ValOk P a v' := by
      intro X M hh
      have h1 := hk.valOk a X M hh
      have h2 := hv X M hh
      have h3 := (hk.K hh).ign a
      unfold assignVal at e
      cases hx : s.k.val a <;> cases hy : v <;> cases hz : s.k.ign a <;> simp_all <;> (subst e; simp_all)
    refine ⟨rfl, rfl, rfl, .inr ⟨rfl, fun X M hh => ?_, fun b hb => ?_, ?_⟩⟩
    · have hK := hk.K hh
      have hw := hv' X M hh
      have hv2 := hv X M hh
      refine ⟨fun b hb => ?_, fun b hb => ?_, fun b hb => ?_, fun b hb => ?_, fun b hb => ?_, hK.ign⟩
      · simp only [] at hb
        split at hb
        · next h => subst hb; rw [h]; exact hw
        · exact hK.tru b hb
      · simp only [] at hb
        split at hb
        · next h => subst hb; rw [h]; exact hw
        · exact hK.weak b hb
      · simp only [] at hb
        split at hb
        · next h => subst hb; rw [h]; exact hw
        · exact hK.vfals b hb
      · simp only [] at hb
        split at hb
        · next h => obtain ⟨h1, h2, _⟩ := h; subst h2; rw [h1]; exact hv2
        · exact hK.fact b hb
      · simp only [] at hb
        split at hb
        · next h => obtain ⟨h1, h2⟩ := h; subst h2; rw [h1]; exact hv2
        · exact hK.fals b hb
    · simp only [hb, if_false]
    · simp only [if_true]
      unfold assignVal at e
      cases hx : s.k.val a <;> cases hy : v <;> cases hz : s.k.ign a <;> simp_all

theorem append_spec {s : Prg} {r : Rule} (hm : Clean s.m) (hc : s.conflict = false) (hk : Follows s.prog s.k) (hr : s.Repr) : PInv (s.prog ++ [r]) { s with rules := s.rules ++ [r] } := by
  have hmem : ∀ q, q ∈ s.prog ++ [r] ↔ q ∈ ({ s with rules := s.rules ++ [r] } : Prg).prog := by
    intro q
    simp only [Prg.prog, List.mem_append, List.mem_singleton]
    tauto
  exact ⟨hm, fun h => (by simp only [hc] at h; cases h), fun _ => ⟨fun X M => HT.congr hmem, (hk.mono (Q := [r])).congr hmem, hr⟩⟩

theorem value_spec {s s1 : Prg} {r : Rule} {a : Nat} {v : Val} {b0 : Bool} (hm : Clean s.m) (hc : s.conflict = false) (hr : s.Repr) (h1 : s1.m = s.m) (h2 : s1.rules = s.rules) (h3 : s1.vals = s.vals ++ [r])
    (h4 : s1.conflict = s.conflict) (h5 : s1.k.val = s.k.val) (hk1 : Follows (s.prog ++ [r]) s1.k) (hv0 : v ≠ .free) (hv : ValOk (s.prog ++ [r]) a v)
    (hrr : (r = ⟨.disj [a], .conj []⟩ ∧ v = .tru) ∨ (r = ⟨.disj [], .conj [⟨a, false⟩]⟩ ∧ v = .fals) ∨ (r = ⟨.disj [], .conj [⟨a, true⟩]⟩ ∧ v = .weak)) :
    PInv (s.prog ++ [r]) (s1.assign a v b0) := by
  obtain ⟨e1, e2, e3, e4⟩ := assign_spec (b0 := b0) hv0 hk1 hv
  have hprog : (s1.assign a v b0).prog = s.prog ++ [r] := by simp [Prg.prog, e2, e3, h2, h3]
  refine ⟨by rw [e1, h1]; exact hm, fun h => ?_, fun h => ?_⟩
  · rcases e4 with e4 | e4
    · exact e4.2
    · rw [e4.1, h4, hc] at h; cases h
  · rcases e4 with e4 | ⟨_, g1, g2, g3, g4, g5, g6, g7, g8⟩
    · rw [e4.1] at h; cases h
    · rw [hprog]
      refine ⟨fun _ _ => Iff.rfl, g1, fun w hw => ?_⟩
      rw [e3, h3] at hw
      rcases List.mem_append.1 hw with hw | hw
      · obtain ⟨b, hb⟩ := hr w hw
        refine ⟨b, ?_⟩
        by_cases hba : b = a
        · subst hba
          rw [h5] at g3 g4 g5
          rcases hb with ⟨p1, p2⟩ | ⟨p1, p2⟩ | ⟨p1, p2 | p2⟩
          · exact .inl ⟨p1, g3 p2⟩
          · exact .inr (.inl ⟨p1, g4 p2⟩)
          · exact .inr (.inr ⟨p1, g5 p2⟩)
          · exact .inr (.inr ⟨p1, .inr (g3 p2)⟩)
        · rw [g2 b hba, h5]; exact hb
      · rw [List.mem_singleton.1 hw]
        refine ⟨a, ?_⟩
        rcases hrr with ⟨p1, p2⟩ | ⟨p1, p2⟩ | ⟨p1, p2⟩
        · exact .inl ⟨p1, g6 p2⟩
        · exact .inr (.inl ⟨p1, g7 p2⟩)
        · exact .inr (.inr ⟨p1, g8 p2⟩)

theorem fact_spec {s : Prg} {a : Nat} (hm : Clean s.m) (hc : s.conflict = false) (hk : Follows s.prog s.k) (hr : s.Repr) :
    PInv (s.prog ++ [⟨.disj [a], .conj []⟩]) (s.addFact a) := by
  have hok : ∀ {X M}, HT (s.prog ++ [⟨.disj [a], .conj []⟩]) X M → X a = true := by
    intro X M h
    have := (HT.single.1 (HT.append.1 h).2).2.2
    simpa [Rule.ok, Body.holds] using this
  unfold Prg.addFact
  split
  · next hf =>
    refine ⟨hm, fun h => (by rw [hc] at h; cases h), fun _ => ⟨fun X M => ?_, hk, hr⟩⟩
    refine ⟨fun h => (HT.append.1 h).1, fun h => HT.append.2 ⟨h, HT.single.2 ⟨h.1, ?_, ?_⟩⟩⟩
    · exact fun _ => ⟨a, by simp, (hk.K h.total).fact a hf⟩
    · exact fun _ => ⟨a, by simp, (hk.K h).fact a hf⟩
  · refine value_spec (s := s) hm hc hr rfl rfl rfl rfl rfl (fun X M hh => ?_) (by decide) (fun X M hh => hok hh) (.inl ⟨rfl, rfl⟩)
    have hK := hk.K (HT.append.1 hh).1
    refine ⟨hK.tru, hK.weak, hK.vfals, fun b hb => ?_, hK.fals, fun b hb hM => ?_⟩
    · simp only [] at hb
      split at hb
      · next e => rw [e]; exact hok hh
      · exact hK.fact b hb
    · simp only [] at hb
      split at hb
      · next e => rw [e]; exact hok hh
      · exact hK.ign b hb hM

theorem integrity_spec {s : Prg} {b : Body} (hm : Clean s.m) (hc : s.conflict = false) (hk : Follows s.prog s.k) (hr : s.Repr) :
    PInv (s.prog ++ [⟨.disj [], b⟩]) (s.addIntegrity b) := by
  unfold Prg.addIntegrity
  split
  · refine ⟨hm, fun _ M h => ?_, fun h => (by cases h)⟩
    obtain ⟨_, h, _⟩ := (closed_single.1 (closed_append.1 h).2) (by simp [Body.holds])
    cases h
  · next l =>
    split
    · exact append_spec hm hc hk hr
    · have hno : ∀ {X M}, HT (s.prog ++ [⟨.disj [], .conj [l]⟩]) X M → ¬ l.holds M M = true := by
        intro X M h h'
        have := (HT.single.1 (HT.append.1 h).2).2.1 (by simp [Body.holds, h'])
        obtain ⟨_, h, _⟩ := this
        cases h
      obtain ⟨a, n⟩ := l
      refine value_spec (s := s) hm hc hr rfl rfl rfl rfl rfl hk.mono (by cases n <;> simp) (fun X M hh => ?_) ?_
      · have := hno hh
        cases n
        · simp only [BLit.holds] at this
          simpa using this
        · simp only [BLit.holds] at this
          simpa using this
      · cases n
        · exact .inr (.inl ⟨rfl, rfl⟩)
        · exact .inr (.inr ⟨rfl, rfl⟩)
  · exact append_spec hm hc hk hr

theorem native_spec {s : Prg} {r : Rule} (hm : Clean s.m) (hc : s.conflict = false) (hk : Follows s.prog s.k) (hr : s.Repr) :
    PInv (s.prog ++ [r]) (s.addNative r) := by
  unfold Prg.addNative
  split
  · exact integrity_spec hm hc hk hr
  · exact fact_spec hm hc hk hr
  · exact append_spec hm hc hk hr
  · next as =>
    obtain ⟨g1, g2, g3⟩ := append_spec (r := ⟨.choice as, .conj []⟩) hm hc hk hr
    refine ⟨g1, fun h => (by simp only [hc] at h; cases h), fun h => ?_⟩
    obtain ⟨e1, e2, e3⟩ := g3 hc
    refine ⟨e1, fun X M hh => ?_, e3⟩
    have hK := e2.K hh
    refine ⟨hK.tru, hK.weak, hK.vfals, hK.fact, hK.fals, fun b hb hM => ?_⟩
    simp only [] at hb
    split at hb
    · next hin =>
      have := (HT.single.1 (HT.append.1 ((e1 X M).2 hh)).2).2.2 (by simp [Body.holds])
      exact this b hin hM
    · exact hK.ign b hb hM
  · exact append_spec hm hc hk hr

theorem conflict_mono {s : Prg} {r : Rule} (h : s.conflict = true) : (s.addNative r).conflict = true ∧ (s.addNative r).m = s.m := by
  have ha : ∀ (s : Prg) a v b, s.conflict = true → (s.assign a v b).conflict = true ∧ (s.assign a v b).m = s.m := by
    intro s a v b h
    unfold Prg.assign
    split
    · exact ⟨rfl, rfl⟩
    · exact ⟨h, rfl⟩
  unfold Prg.addNative
  split
  · unfold Prg.addIntegrity
    split
    · exact ⟨rfl, rfl⟩
    · split
      · exact ⟨h, rfl⟩
      · exact ha _ _ _ _ h
    · exact ⟨h, rfl⟩
  · unfold Prg.addFact
    split
    · exact ⟨h, rfl⟩
    · exact ha _ _ _ _ h
  · exact ⟨h, rfl⟩
  · exact ⟨h, rfl⟩
  · exact ⟨h, rfl⟩

theorem add_spec {s s' : Prg} {r : Rule} (hi : PInv A s) (hw : r.body.nonneg) (he : s.add r = .ok s') : PInv (A ++ [r]) s' := by
  unfold Prg.add at he
  cases hs : simplifyRule s.k s.m r with
  | error e => rw [hs] at he; cases he
  | ok x =>
    obtain ⟨ro, m'⟩ := x
    rw [hs] at he
    obtain ⟨hcl, _, _⟩ := simplifyRule_spec hi.clean hw hs
    cases hc : s.conflict with
    | true =>
      have hcf : ∀ M, ¬ Closed (A ++ [r]) M M := fun M h => hi.cf hc M (closed_append.1 h).1
      cases ro with
      | none => cases he; exact ⟨hcl, fun _ => hcf, fun h => (by simp only [hc] at h; cases h)⟩
      | some r' =>
        cases he
        obtain ⟨e1, e2⟩ := conflict_mono (s := { s with m := m' }) (r := r') hc
        exact ⟨by rw [e2]; exact hcl, fun _ => hcf, fun h => (by rw [e1] at h; cases h)⟩
    | false =>
      obtain ⟨h1, h2, h3⟩ := hi.se hc
      have hse : ∀ X M, HT (A ++ [r]) X M ↔ HT (s.prog ++ ro.toList) X M := by
        intro X M
        rw [HT.append, h1, ← HT.append]
        exact simplify_HT hi.clean h2 hw hs X M
      cases ro with
      | none =>
        cases he
        refine ⟨hcl, fun h => (by simp only [hc] at h; cases h), fun _ => ⟨fun X M => (hse X M).trans ?_, h2, h3⟩⟩
        simp [Prg.prog]
      | some r' =>
        cases he
        obtain ⟨g1, g2, g3⟩ := native_spec (s := { s with m := m' }) (r := r') hcl hc h2 h3
        refine ⟨g1, fun h M hM => g2 h M ?_, fun h => ⟨fun X M => (hse X M).trans ((g3 h).1 X M), (g3 h).2⟩⟩
        exact ((hse M M).1 ⟨fun _ h => h, hM, hM⟩).2.1

theorem addAll_spec : ∀ {rs A : List Rule} {s s' : Prg}, PInv A s → (∀ r ∈ rs, r.body.nonneg) → s.addAll rs = .ok s' → PInv (A ++ rs) s'
  | [], A, s, s', hi, _, he => by cases he; simpa using hi
  | r :: rs, A, s, s', hi, hw, he => by
    unfold Prg.addAll at he
    cases h : s.add r with
    | error e => rw [h] at he; cases he
    | ok s1 =>
      rw [h] at he
      have := addAll_spec (add_spec hi (hw r (by simp)) h) (fun q hq => hw q (by simp [hq])) he
      simpa using this

theorem init_spec : PInv [] Prg.init :=
  ⟨clean_none, fun h => (by cases h), fun _ => ⟨fun _ _ => Iff.rfl, fun X M _ => ⟨fun a h => (by cases h), fun a h => (by cases h), fun a h => (by cases h), fun a h => (by cases h), fun a h => (by cases h),
    fun a h => (by cases h)⟩, fun v hv => by cases hv⟩⟩

/-- Adding the rules of a program one after the other: if a conflict is found then the program has no stable model; otherwise the rules kept and the facts and
constraints stored as values have the same stable models as the rules added, whatever else is added. -/
theorem C27_program {rs : List Rule} {s : Prg} (hw : ∀ r ∈ rs, r.body.nonneg) (he : Prg.init.addAll rs = .ok s) :
    (s.conflict = true → ∀ Q M, ¬ Stable (rs ++ Q) M) ∧
    (s.conflict = false → (∀ Q M, Stable (rs ++ Q) M ↔ Stable (s.rules ++ s.vals ++ Q) M) ∧ s.Repr) := by
  have hi := addAll_spec init_spec hw he
  simp only [List.nil_append] at hi
  refine ⟨fun h Q M hs => hi.cf h M (closed_append.1 hs.1).1, fun h => ?_⟩
  obtain ⟨h1, h2, h3⟩ := hi.se h
  refine ⟨fun Q M => stable_of_HT (fun X M => ?_) M, h3⟩
  rw [HT.append, h1, ← HT.append]; rfl

/-- Values and flags that were set while adding rules follow from the rules: a fact is in every model of a reduct, a false atom in no model. -/
theorem C27_values {rs : List Rule} {s : Prg} (hw : ∀ r ∈ rs, r.body.nonneg) (he : Prg.init.addAll rs = .ok s) (hc : s.conflict = false) : Follows rs s.k := by
  have hi := addAll_spec init_spec hw he
  simp only [List.nil_append] at hi
  obtain ⟨h1, h2, _⟩ := hi.se hc
  exact fun X M hh => h2 X M ((h1 X M).1 hh)

/-! ### Examples -/

namespace SimpEx

/-- Example: the literal of an atom. -/
def p (a : Nat) : BLit := ⟨a, false⟩
/-- Example: a negative literal. -/
def n (a : Nat) : BLit := ⟨a, true⟩

/-- Example: a fact, a false atom, a weakly true atom, and rules that are simplified in all ways. -/
def rs : List Rule := [
  ⟨.disj [1], .conj []⟩,
  ⟨.disj [], .conj [p 2]⟩,
  ⟨.disj [], .conj [n 3]⟩,
  ⟨.choice [3, 4, 5, 6], .conj []⟩,
  ⟨.disj [7], .conj [p 1, p 4, p 4, n 2]⟩,
  ⟨.disj [8], .conj [p 4, n 4]⟩,
  ⟨.disj [9, 2, 9], .sum [(p 4, 3), (p 5, 1), (p 4, 1), (p 1, 2), (n 6, 0), (n 5, 7)] 6⟩,
  ⟨.disj [10], .sum [(p 4, 2), (p 5, 2), (p 6, 2), (p 2, 9)] 3⟩,
  ⟨.disj [11], .sum [(p 4, 2), (p 5, 1), (n 4, 2)] 4⟩,
  ⟨.disj [12], .sum [(p 4, 2), (p 5, 2), (p 6, 1)] 5⟩,
  ⟨.disj [13], .sum [(p 13, 3), (p 5, 1), (p 6, 1)] 3⟩]

/-- what is kept -/
example : (Prg.init.addAll rs).toOption.map (fun s => (s.rules, s.conflict)) = some ([
    ⟨.choice [3, 4, 5, 6], .conj []⟩,
    ⟨.disj [7], .conj [p 4]⟩,
    ⟨.disj [9], .sum [(p 4, 4), (p 5, 1), (n 5, 4)] 4⟩,
    ⟨.disj [10], .sum [(p 4, 1), (p 5, 1), (p 6, 1)] 2⟩,
    ⟨.disj [12], .conj [p 4, p 5, p 6]⟩], false) := by decide +kernel

theorem rs_nonneg : ∀ r ∈ rs, r.body.nonneg := by
  intro r hr
  simp only [rs, List.mem_cons, List.not_mem_nil, or_false] at hr
  rcases hr with rfl | rfl | rfl | rfl | rfl | rfl | rfl | rfl | rfl | rfl | rfl <;> first | trivial | exact (show ∀ x ∈ _, _ from by decide)

example : ∃ s, Prg.init.addAll rs = .ok s ∧ (∀ Q M, Stable (rs ++ Q) M ↔ Stable (s.rules ++ s.vals ++ Q) M) ∧ Follows rs s.k := by
  cases h : Prg.init.addAll rs with
  | error e =>
    have : (Prg.init.addAll rs).toOption.isSome = true := by decide +kernel
    rw [h] at this; cases this
  | ok s =>
    have hc : s.conflict = false := by
      have : (Prg.init.addAll rs).toOption.map (·.conflict) = some false := by decide +kernel
      rw [h] at this
      simpa [Except.toOption] using this
    exact ⟨s, rfl, ((C27_program rs_nonneg h).2 hc).1, C27_values rs_nonneg h hc⟩

/-- Example: a contradictory program: `1. :- 3. 3 | 4 :- 1, not 5. 3 :- 1.` -/
def bad : List Rule := [⟨.disj [1], .conj []⟩, ⟨.disj [], .conj [p 3]⟩, ⟨.disj [3, 4], .conj [p 1, n 5]⟩, ⟨.disj [3], .conj [p 1]⟩]

example : ∀ M, ¬ Stable (bad ++ []) M := by
  cases h : Prg.init.addAll bad with
  | error e =>
    have : (Prg.init.addAll bad).toOption.isSome = true := by decide +kernel
    rw [h] at this; cases this
  | ok s =>
    have hc : s.conflict = true := by
      have : (Prg.init.addAll bad).toOption.map (·.conflict) = some true := by decide +kernel
      rw [h] at this
      simpa [Except.toOption] using this
    refine (C27_program (fun r hr => ?_) h).1 hc []
    simp only [bad, List.mem_cons, List.not_mem_nil, or_false] at hr
    rcases hr with rfl | rfl | rfl | rfl <;> trivial

/-- the values of the examples for single rules: 1 is true, 2 is false -/
def k0 : Known := ⟨fun a => if a = 1 then .tru else if a = 2 then .fals else .free, fun a => a = 1, fun a => a = 2, fun _ => false⟩
/-- Example: a program with these values. -/
def P0 : List Rule := [⟨.disj [1], .conj []⟩, ⟨.disj [], .conj [p 2]⟩]

theorem follows0 : Follows P0 k0 := by
  intro X M h
  obtain ⟨_, h1, h2⟩ := h
  simp only [P0, Closed, List.mem_cons, List.not_mem_nil, or_false, forall_eq_or_imp, forall_eq, Rule.ok, Body.holds, BLit.holds, p, List.all_nil, List.all_cons] at h1 h2
  simp at h1 h2
  refine ⟨fun a ha => ?_, fun a ha => ?_, fun a ha => ?_, fun a ha => ?_, fun a ha => ?_, fun a ha => ?_⟩
  · simp only [k0] at ha; split at ha
    · next e => rw [e]; exact h2.1
    · split at ha <;> cases ha
  · simp only [k0] at ha; split at ha
    · cases ha
    · split at ha <;> cases ha
  · simp only [k0] at ha; split at ha
    · cases ha
    · split at ha
      · next e => rw [e]; exact h1.2
      · cases ha
  · simp [k0] at ha; rw [ha]; exact h2.1
  · simp [k0] at ha; rw [ha]; exact h1.2
  · cases ha

theorem ex_nonneg : (⟨.disj [9, 2], .sum [(p 4, 3), (p 5, 1), (p 4, 1), (p 1, 2), (n 5, 7)] 6⟩ : Rule).body.nonneg := show ∀ x ∈ _, _ from by decide

example : ∃ ro m', simplifyRule k0 Marks.none ⟨.disj [9, 2], .sum [(p 4, 3), (p 5, 1), (p 4, 1), (p 1, 2), (n 5, 7)] 6⟩ = .ok (ro, m') ∧
    ro = some ⟨.disj [9], .sum [(p 4, 4), (p 5, 1), (n 5, 4)] 4⟩ ∧
    ∀ Q M, Stable (P0 ++ [⟨.disj [9, 2], .sum [(p 4, 3), (p 5, 1), (p 4, 1), (p 1, 2), (n 5, 7)] 6⟩] ++ Q) M ↔ Stable (P0 ++ ro.toList ++ Q) M :=
  ⟨_, _, rfl, by decide +kernel, C27_rule clean_none follows0 ex_nonneg rfl⟩

example : ∃ ro m', simplifyRule k0 Marks.none ⟨.disj [9, 2], .sum [(p 4, 3), (n 5, -7)] 6⟩ ≠ .error .ub ∧
    simplifyRule k0 Marks.none ⟨.choice [9, 2], .sum [(p 4, 3), (n 5, 7)] 6⟩ = .ok (ro, m') ∧ Clean m' := by
  have h1 := C27_defined (k := k0) (r := ⟨.disj [9, 2], .sum [(p 4, 3), (n 5, -7)] 6⟩) clean_none ⟨by decide +kernel, by decide +kernel⟩
  have h2 := C27_defined (k := k0) (r := ⟨.choice [9, 2], .sum [(p 4, 3), (n 5, 7)] 6⟩) clean_none ⟨by decide +kernel, by decide +kernel⟩
  obtain ⟨ro, m', e, c⟩ := h2.2 ⟨by decide, by decide +kernel⟩
  exact ⟨ro, m', h1.1, e, c⟩

example : (⟨.disj [9], .sum [(p 4, 4), (p 5, 1), (n 5, 4)] 4⟩ : Rule).body.simple k0 [p 4, p 5, p 4, p 1, n 5] :=
  (C27_form (k := k0) (r := ⟨.disj [9, 2], .sum [(p 4, 3), (p 5, 1), (p 4, 1), (p 1, 2), (n 5, 7)] 6⟩) (r' := ⟨.disj [9], .sum [(p 4, 4), (p 5, 1), (n 5, 4)] 4⟩)
    clean_none (show ∀ x ∈ _, _ from by decide) rfl).1

end SimpEx

end Clasp.Asp.Simp
