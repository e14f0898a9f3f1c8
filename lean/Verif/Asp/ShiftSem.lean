import Verif.Asp.ShiftLem
import Verif.Asp.MinSem

/-! Component shifting preserves stable models (C48): specification of the input, and the argument with components. No code is modelled in this file. -/

namespace Clasp.Shift
open Clasp.Asp Relation
open Clasp.Min (diff mem_diff diff_sub exists_sink)

variable {n : Nat} {R : List Rule} {e : Env} {ds : List Disj}

/-- Specification: the rules of a disjunction, one for each of its supports. -/
def Disj.rules (e : Env) (d : Disj) : List Rule := d.sups.map fun s => ⟨.disj (d.atoms.map e.root), s.body⟩

/-- Specification: the rules of all disjunctions. -/
def disjRules (e : Env) (ds : List Disj) : List Rule := ds.flatMap (Disj.rules e)

/-- Specification: the atom has a support that is always true; such atoms are not looked at when components are computed (`setIgnoreScc`, src/asp_preprocessor.cpp 254-258). -/
def Given (R : List Rule) (a : Nat) : Prop := ∃ r ∈ R, r.body = .conj [] ∧ (r.head = .disj [a] ∨ ∃ as, r.head = .choice as ∧ a ∈ as)

/-- Specification: `a` is a head and `x` a positive goal of a rule; of the disjunctions, the parts that were dropped do not count. -/
def Dep (e : Env) (R : List Rule) (ds : List Disj) (a x : Nat) : Prop := ¬ Given R a ∧ ¬ Given R x ∧
  ((∃ r ∈ R, a ∈ r.head.atoms ∧ (⟨x, false⟩ : BLit) ∈ r.body.lits) ∨
   ∃ d ∈ ds, d.upper = true ∧ (∀ o ∈ d.atoms, e.fact (e.root o) = false) ∧ (∃ o ∈ d.atoms, e.root o = a ∧ e.upper a = true) ∧
     ∃ s ∈ d.sups, s.live = true ∧ (⟨x, false⟩ : BLit) ∈ s.body.lits)

/-- Specification: what is known about a program when disjunctions are replaced. `R` are its other rules. Facts are facts of the program; atoms that are not in upper are false, as are bodies that
are not live and the bodies of disjunctions that are not in upper; a disjunction that is in upper has an atom in upper; atoms that depend on each other are in one component. -/
structure InOk (e : Env) (n : Nat) (R : List Rule) (ds : List Disj) : Prop where
  below : ∀ r ∈ R, r.below n
  nonneg : ∀ r ∈ R, r.body.nonneg
  disj : ∀ d ∈ ds, d.Ok e n
  fact : ∀ d ∈ ds, ∀ a ∈ d.atoms, e.fact (e.root a) = true → (⟨.disj [e.root a], .conj []⟩ : Rule) ∈ R
  upper : ∀ d ∈ ds, ∀ a ∈ d.atoms, e.upper (e.root a) = false → (⟨.disj [], .conj [⟨e.root a, false⟩]⟩ : Rule) ∈ R
  dead : ∀ d ∈ ds, ∀ s ∈ d.sups, d.upper = false ∨ s.live = false → ∀ M, Closed R M M → s.body.holds M M = false
  some : ∀ d ∈ ds, d.upper = true → ∃ a ∈ d.atoms, e.upper (e.root a) = true
  comps : ∀ a b, a ≠ b → TransGen (Dep e R ds) a b → TransGen (Dep e R ds) b a → e.scc a ≠ noScc ∧ e.scc b = e.scc a

/-- Proof device: what the shifted program says. -/
def KAll (e : Env) (R : List Rule) (ds : List Disj) (X M : AtomSet) : Prop := Closed R X M ∧ ∀ d ∈ ds, KD e d X M

/-- A model of the reduct that is smaller than the model differs from it by atoms that depend on each other and can be removed on their own. `S` are the rules of the reduct, `G` are atoms that
cannot be removed. -/
theorem one_comp {S : List Nat → Body → Prop} {G : Nat → Prop} {M X : AtomSet} {n : Nat} (hn : ∀ hd B, S hd B → B.nonneg) (hM : ∀ a, M a = true → a < n)
    (hcM : ∀ hd B, S hd B → B.holds M M = true → ∃ h ∈ hd, M h = true) (hX : Sub X M) (hcX : ∀ hd B, S hd B → B.holds X M = true → ∃ h ∈ hd, X h = true) (hG : ∀ a, G a → M a = true → X a = true)
    (hne : ¬ Sub M X) :
    ∃ (a : Nat) (U : Nat → Prop), U a ∧ (∀ x, U x → M x = true) ∧
      (∀ x, U x → x = a ∨ (TransGen (fun a x => ¬ G a ∧ ¬ G x ∧ ∃ hd B, S hd B ∧ a ∈ hd ∧ (⟨x, false⟩ : BLit) ∈ B.lits) a x ∧
        TransGen (fun a x => ¬ G a ∧ ¬ G x ∧ ∃ hd B, S hd B ∧ a ∈ hd ∧ (⟨x, false⟩ : BLit) ∈ B.lits) x a)) ∧
      ∀ hd B, S hd B → B.holds (diff M U) M = true → ∃ h ∈ hd, diff M U h = true := by
  obtain ⟨D, hD⟩ : ∃ D, (fun a x => ¬ G a ∧ ¬ G x ∧ ∃ hd B, S hd B ∧ a ∈ hd ∧ (⟨x, false⟩ : BLit) ∈ B.lits) = D := ⟨_, rfl⟩
  rw [hD]
  let L := (List.range n).filter fun a => M a && !X a
  have hL : ∀ a, a ∈ L ↔ M a = true ∧ X a = false := by
    intro a
    simp only [L, List.mem_filter, List.mem_range, Bool.and_eq_true, Bool.not_eq_true']
    exact ⟨fun h => h.2, fun h => ⟨hM a h.1, h⟩⟩
  have hLne : L ≠ [] := by
    intro h0
    apply hne
    intro a ha
    cases hx : X a with
    | true => rfl
    | false => have := (hL a).2 ⟨ha, hx⟩; rw [h0] at this; cases this
  have hLG : ∀ a ∈ L, ¬ G a := fun a ha hg => by
    have := (hL a).1 ha
    rw [hG a hg this.1] at this; cases this.2
  obtain ⟨a, ha, hsink⟩ := exists_sink (R := TransGen D) (fun _ _ _ h1 h2 => h1.trans h2) L hLne
  refine ⟨a, fun x => x ∈ L ∧ (x = a ∨ TransGen D a x), ⟨ha, .inl rfl⟩, fun x hx => ((hL x).1 hx.1).1, ?_, ?_⟩
  · rintro x ⟨hx, rfl | h⟩
    · exact .inl rfl
    · exact .inr ⟨h, hsink x hx h⟩
  · intro hd B hS hB
    obtain ⟨h, hh, hMh⟩ := hcM hd B hS (Body.holds_mono diff_sub _ (hn _ _ hS) hB)
    by_cases hu : h ∈ L ∧ (h = a ∨ TransGen D a h)
    · have hXB : B.holds X M = true := by
        have hsub : Sub (fun x => diff M (fun x => x ∈ L ∧ (x = a ∨ TransGen D a x)) x && (!decide (x ∈ L))) X := by
          intro x hx
          rw [Bool.and_eq_true] at hx
          have h1 := (mem_diff.1 hx.1).1
          cases hv : X x with
          | true => rfl
          | false => have := (hL x).2 ⟨h1, hv⟩; simp [this] at hx
        refine Body.holds_mono hsub _ (hn _ _ hS) ?_
        rw [← hB]
        apply Body.holds_congr
        rintro ⟨x, s⟩ hl
        cases s with
        | true => rfl
        | false =>
          simp only [BLit.holds, Bool.false_eq_true, if_false]
          cases hd' : diff M (fun x => x ∈ L ∧ (x = a ∨ TransGen D a x)) x with
          | false => rfl
          | true =>
            have : x ∉ L := by
              intro hx
              apply (mem_diff.1 hd').2
              refine ⟨hx, .inr ?_⟩
              have hdep : D h x := by rw [← hD]; exact ⟨hLG h hu.1, hLG x hx, hd, B, hS, hh, hl⟩
              rcases hu.2 with rfl | h2
              · exact .single hdep
              · exact h2.tail hdep
            simp [this]
      obtain ⟨o, ho, hx⟩ := hcX hd B hS hXB
      refine ⟨o, ho, mem_diff.2 ⟨hX o hx, fun hu => ?_⟩⟩
      have := ((hL o).1 hu.1).2
      rw [hx] at this; cases this
    · exact ⟨h, hh, mem_diff.2 ⟨hMh, hu⟩⟩

/-- Proof device: the rules of the reduct of the shifted program. -/
def Red (e : Env) (R : List Rule) (ds : List Disj) (M : AtomSet) (hd : List Nat) (B : Body) : Prop :=
  (∃ r ∈ R, r.head = .disj hd ∧ r.body = B) ∨ (∃ r ∈ R, ∃ as, r.head = .choice as ∧ ∃ a ∈ as, M a = true ∧ hd = [a] ∧ r.body = B) ∨
  ∃ d ∈ ds, d.used e = true ∧ B ∈ d.bodies ∧ ∃ h ∈ d.head e, (∀ o ∈ d.head e, ¬ Mate e h o → M o = false) ∧ (∀ o, o ∈ hd ↔ o ∈ d.head e ∧ Mate e h o)

theorem kall_red {X M : AtomSet} : KAll e R ds X M ↔ ∀ hd B, Red e R ds M hd B → B.holds X M = true → ∃ h ∈ hd, X h = true := by
  constructor
  · rintro ⟨hc, hk⟩ hd B (⟨r, hr, hh, rfl⟩ | ⟨r, hr, as, hh, a, ha, hma, rfl, rfl⟩ | ⟨d, hd', hu, hB, h, hh, hm, hhd⟩) hb
    · have := hc r hr hb; rw [hh] at this; exact this
    · have := hc r hr hb; rw [hh] at this; exact ⟨a, by simp, this a ha hma⟩
    · obtain ⟨o, ho, hmo, hx⟩ := hk d hd' hu h hh ⟨B, hB, hb⟩ hm
      exact ⟨o, (hhd o).2 ⟨ho, hmo⟩, hx⟩
  · intro h
    refine ⟨fun r hr hb => ?_, fun d hd hu o ho => ?_⟩
    · cases hh : r.head with
      | disj as => exact h as r.body (.inl ⟨r, hr, hh, rfl⟩) hb
      | choice as =>
        intro a ha hma
        obtain ⟨o, ho, hx⟩ := h [a] r.body (.inr (.inl ⟨r, hr, as, hh, a, ha, hma, rfl, rfl⟩)) hb
        have : o = a := by simpa using ho
        rw [← this]; exact hx
    · rintro ⟨B, hB, hb⟩ hm
      obtain ⟨k, hk, hx⟩ := h (@List.filter _ (fun k => @decide (Mate e o k) (Classical.propDecidable _)) (d.head e)) B (.inr (.inr ⟨d, hd, hu, hB, o, ho, hm, fun k => by
        rw [List.mem_filter, @decide_eq_true_eq _ (Classical.propDecidable _)]⟩)) hb
      rw [List.mem_filter, @decide_eq_true_eq _ (Classical.propDecidable _)] at hk
      exact ⟨k, hk.1, hk.2, hx⟩

theorem mem_disjRules {r : Rule} : r ∈ disjRules e ds ↔ ∃ d ∈ ds, ∃ s ∈ d.sups, r = ⟨.disj (d.atoms.map e.root), s.body⟩ := by
  unfold disjRules Disj.rules
  simp only [List.mem_flatMap, List.mem_map]
  constructor <;> rintro ⟨d, hd, s, hs, h⟩ <;> exact ⟨d, hd, s, hs, h.symm⟩

theorem used_iff {d : Disj} : d.used e = true ↔ d.upper = true ∧ ∀ o ∈ d.atoms, e.fact (e.root o) = false := by
  unfold Disj.used
  simp [List.all_eq_true]

theorem mem_head {d : Disj} {a : Nat} : a ∈ d.head e ↔ (∃ o ∈ d.atoms, e.root o = a) ∧ e.upper a = true := by
  unfold Disj.head
  simp [List.mem_filter, List.mem_map]

section
variable (ok : InOk e n R ds)
include ok

theorem upper_of {M : AtomSet} (hM : Closed R M M) {d : Disj} (hd : d ∈ ds) {o : Nat} (ho : o ∈ d.atoms) (h : M (e.root o) = true) : e.upper (e.root o) = true := by
  cases hu : e.upper (e.root o) with
  | true => rfl
  | false =>
    obtain ⟨a, ha, _⟩ := hM _ (ok.upper d hd o ho hu) (by simp [Body.holds, BLit.holds, h])
    cases ha

/-- The rules of the disjunctions imply the shifted ones. -/
theorem kall_of_closed {X M : AtomSet} (hM : Closed R M M) (hX : Sub X M) (hc : Closed (R ++ disjRules e ds) X M) : KAll e R ds X M := by
  obtain ⟨h1, h2⟩ := closed_append.1 hc
  refine ⟨h1, fun d hd hu h hh hB hm => ?_⟩
  obtain ⟨B, hB, hb⟩ := hB
  obtain ⟨s, hs, rfl⟩ := List.mem_map.1 hB
  obtain ⟨o, ho, hx⟩ := h2 _ (mem_disjRules.2 ⟨d, hd, s, (List.mem_filter.1 hs).1, rfl⟩) hb
  obtain ⟨o', ho', rfl⟩ := List.mem_map.1 ho
  have hmo := hX _ hx
  have hin : e.root o' ∈ d.head e := mem_head.2 ⟨⟨o', ho', rfl⟩, upper_of ok hM hd ho' hmo⟩
  refine ⟨_, hin, ?_, hx⟩
  by_contra hn
  rw [hm _ hin hn] at hmo; cases hmo

theorem closed_of_kall {M : AtomSet} (hk : KAll e R ds M M) : Closed (R ++ disjRules e ds) M M := by
  obtain ⟨h1, h2⟩ := hk
  refine closed_append.2 ⟨h1, fun r hr => ?_⟩
  obtain ⟨d, hd, s, hs, rfl⟩ := mem_disjRules.1 hr
  intro hb
  by_cases hl : d.upper = false ∨ s.live = false
  · have := ok.dead d hd s hs hl M h1
    rw [this] at hb; cases hb
  · rw [not_or, Bool.not_eq_false, Bool.not_eq_false] at hl
    by_cases hf : ∃ o ∈ d.atoms, e.fact (e.root o) = true
    · obtain ⟨o, ho, hf⟩ := hf
      obtain ⟨a, ha, hx⟩ := h1 _ (ok.fact d hd o ho hf) (by simp [Body.holds])
      have : a = e.root o := by simpa using ha
      exact ⟨e.root o, List.mem_map.2 ⟨o, ho, rfl⟩, by rw [← this]; exact hx⟩
    · have hu : d.used e = true := used_iff.2 ⟨hl.1, fun o ho => by
        cases h : e.fact (e.root o) with
        | false => rfl
        | true => exact absurd ⟨o, ho, h⟩ hf⟩
      obtain ⟨o, ho, huo⟩ := ok.some d hd hl.1
      by_contra hn
      have hno : ∀ a ∈ d.head e, M a = false := fun a ha => by
        cases hm : M a with
        | false => rfl
        | true =>
          obtain ⟨o', ho', rfl⟩ := (mem_head.1 ha).1
          exact absurd ⟨_, List.mem_map.2 ⟨o', ho', rfl⟩, hm⟩ hn
      obtain ⟨k, hk, _, hx⟩ := h2 d hd hu (e.root o) (mem_head.2 ⟨⟨o, ho, rfl⟩, huo⟩) ⟨s.body, List.mem_map.2 ⟨s, List.mem_filter.2 ⟨hs, hl.2⟩, rfl⟩, hb⟩ fun a ha _ => hno a ha
      rw [hno k hk] at hx; cases hx

theorem rules_below : ∀ r ∈ R ++ disjRules e ds, r.below n := by
  intro r hr
  rcases List.mem_append.1 hr with hr | hr
  · exact ok.below r hr
  · obtain ⟨d, hd, s, hs, rfl⟩ := mem_disjRules.1 hr
    exact ⟨fun a ha => by
      obtain ⟨o, ho, rfl⟩ := List.mem_map.1 ha
      exact (ok.disj d hd).atoms o ho, ((ok.disj d hd).sups s hs).1⟩

/-- The stable models of the program are those of the shifted one. -/
theorem stable_iff {M : AtomSet} : Stable (R ++ disjRules e ds) M ↔ StableK n (KAll e R ds) M := by
  constructor
  · intro hs
    have hlt := stable_below (rules_below ok) hs
    have hMR := (closed_append.1 hs.1).1
    have hkM := kall_of_closed ok hMR (fun _ h => h) hs.1
    refine ⟨hlt, hkM, fun X hX hk => ?_⟩
    by_contra hne
    have hgiv : ∀ a, Given R a → M a = true → X a = true := by
      rintro a ⟨r, hr, hb, hh⟩ hma
      have := hk.1 r hr (by rw [hb]; simp [Body.holds])
      rcases hh with hh | ⟨as, hh, ha⟩
      · rw [hh] at this
        obtain ⟨o, ho, hx⟩ := this
        have : o = a := by simpa using ho
        rw [← this]; exact hx
      · rw [hh] at this
        exact this a ha hma
    have hdep : ∀ a x, (¬ Given R a ∧ ¬ Given R x ∧ ∃ hd B, Red e R ds M hd B ∧ a ∈ hd ∧ (⟨x, false⟩ : BLit) ∈ B.lits) → Dep e R ds a x := by
      rintro a x ⟨g1, g2, hd, B, hS, ha, hx⟩
      refine ⟨g1, g2, ?_⟩
      rcases hS with ⟨r, hr, hh, rfl⟩ | ⟨r, hr, as, hh, b, hb, _, rfl, rfl⟩ | ⟨d, hd', hu, hB, h, hh, _, hhd⟩
      · exact .inl ⟨r, hr, by rw [hh]; exact ha, hx⟩
      · have : a = b := by simpa using ha
        exact .inl ⟨r, hr, by rw [hh, this]; exact hb, hx⟩
      · obtain ⟨s, hs, rfl⟩ := List.mem_map.1 hB
        rw [List.mem_filter] at hs
        obtain ⟨⟨o, ho, rfl⟩, hup⟩ := mem_head.1 ((hhd a).1 ha).1
        exact .inr ⟨d, hd', (used_iff.1 hu).1, (used_iff.1 hu).2, ⟨o, ho, rfl, hup⟩, s, hs.1, hs.2, hx⟩
    obtain ⟨a, U, hUa, hUM, hUU, hcl⟩ := one_comp (S := Red e R ds M) (G := Given R) (fun hd B hS => by
      rcases hS with ⟨r, hr, _, rfl⟩ | ⟨r, hr, _, _, _, _, _, _, rfl⟩ | ⟨d, hd', _, hB, _⟩
      · exact ok.nonneg r hr
      · exact ok.nonneg r hr
      · obtain ⟨s, hs, rfl⟩ := List.mem_map.1 hB
        exact ((ok.disj d hd').sups s (List.mem_filter.1 hs).1).2.1) hlt (kall_red.1 hkM) hX (kall_red.1 hk) hgiv hne
    have hmate : ∀ x y, U x → U y → Mate e x y := by
      have key : ∀ x, U x → Mate e a x := by
        intro x hx
        rcases hUU x hx with rfl | ⟨h1, h2⟩
        · exact .inl rfl
        · by_cases hxa : x = a
          · exact .inl hxa.symm
          · exact .inr (ok.comps a x (fun h => hxa h.symm) (h1.lift id hdep) (h2.lift id hdep))
      exact fun x y hx hy => (key x hx).symm.trans (key y hy)
    have hkU : KAll e R ds (diff M U) M := kall_red.2 hcl
    have hcU : Closed (R ++ disjRules e ds) (diff M U) M := by
      refine closed_append.2 ⟨hkU.1, fun r hr => ?_⟩
      obtain ⟨d, hd, s, hs', rfl⟩ := mem_disjRules.1 hr
      intro hb
      have hbM : s.body.holds M M = true := Body.holds_mono diff_sub _ ((ok.disj d hd).sups s hs').2.1 hb
      obtain ⟨k, hk', hMk⟩ := (closed_append.1 hs.1).2 _ hr hbM
      by_contra hn
      have hall : ∀ o ∈ d.atoms, M (e.root o) = true → U (e.root o) := fun o ho hm => by
        by_contra hu
        exact hn ⟨_, List.mem_map.2 ⟨o, ho, rfl⟩, mem_diff.2 ⟨hm, hu⟩⟩
      obtain ⟨o, ho, rfl⟩ := List.mem_map.1 hk'
      have hl : d.upper = true ∧ s.live = true := by
        by_contra hc
        have : d.upper = false ∨ s.live = false := by
          rw [not_and_or, Bool.not_eq_true, Bool.not_eq_true] at hc; exact hc
        have := ok.dead d hd s hs' this M hMR
        rw [this] at hbM; cases hbM
      have hu : d.used e = true := used_iff.2 ⟨hl.1, fun o ho => by
        cases hf : e.fact (e.root o) with
        | false => rfl
        | true =>
          exfalso
          obtain ⟨b, hb', hx⟩ := hkU.1 _ (ok.fact d hd o ho hf) (by simp [Body.holds])
          have : b = e.root o := by simpa using hb'
          subst this
          exact hn ⟨_, List.mem_map.2 ⟨o, ho, rfl⟩, hx⟩⟩
      obtain ⟨p, hp, _, hx⟩ := hkU.2 d hd hu (e.root o) (mem_head.2 ⟨⟨o, ho, rfl⟩, upper_of ok hMR hd ho hMk⟩) ⟨s.body, List.mem_map.2 ⟨s, List.mem_filter.2 ⟨hs', hl.2⟩, rfl⟩, hb⟩ fun q hq hnm => by
        cases hMq : M q with
        | false => rfl
        | true =>
          obtain ⟨q', hq', rfl⟩ := (mem_head.1 hq).1
          exact absurd (hmate _ _ (hall o ho hMk) (hall q' hq' hMq)) hnm
      obtain ⟨p', hp', rfl⟩ := (mem_head.1 hp).1
      exact hn ⟨_, List.mem_map.2 ⟨p', hp', rfl⟩, hx⟩
    have := hs.2 _ diff_sub hcU a (hUM a hUa)
    exact (mem_diff.1 this).2 hUa
  · rintro ⟨hlt, hk, hmin⟩
    have hc := closed_of_kall ok hk
    exact ⟨hc, fun X hX hcX => hmin X hX (kall_of_closed ok (closed_append.1 hc).1 hX hcX)⟩

end

end Clasp.Shift
