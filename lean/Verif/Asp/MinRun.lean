import Verif.Asp.MinExact

/-! Components over time (C47). No code is modelled in this file; it contains proof devices only. -/

namespace Clasp.Min
open Clasp.Core Clasp.Asp

variable {p : DPrg} {old : Bool} {T0 T T' : Lit → Bool} {c : Nat} {g : DGraph} {μ : Asg}

theorem all_append {a b : List Lit} : μ.all (a ++ b) ↔ μ.all a ∧ μ.all b := by
  unfold Asg.all
  simp only [List.mem_append, or_imp, forall_and]

theorem all_cons {q : Lit} {b : List Lit} : μ.all (q :: b) ↔ μ.sat q ∧ μ.all b := by
  unfold Asg.all
  simp only [List.mem_cons, forall_eq_or_imp]

theorem all_nil : μ.all [] := by unfold Asg.all; simp

theorem force_some {top t : List Lit} {q : Lit} (h : force top q = some t) : μ.all t ↔ μ.all top ∧ μ.sat q := by
  unfold force at h
  split at h
  · cases h
  · rw [Option.some.injEq] at h
    split at h
    · next hq => subst h; exact ⟨fun h => ⟨h, h q hq⟩, fun h => h.1⟩
    · subst h
      rw [all_append, all_cons]
      exact ⟨fun h => ⟨h.1, h.2.1⟩, fun h => ⟨h.1, h.2, all_nil⟩⟩

theorem force_none {top : List Lit} {q : Lit} (h : force top q = none) : ¬ (μ.all top ∧ μ.sat q) := by
  unfold force at h
  split at h
  · next hq =>
    rintro ⟨h1, h2⟩
    exact (Asg.sat_neg _ _).1 (h1 _ hq) h2
  · cases h

theorem forceAll_some : ∀ {L top t : List Lit}, forceAll L top = some t → (μ.all t ↔ μ.all top ∧ μ.all L)
  | [], top, t, h => by
    have : top = t := by simpa [forceAll] using h
    subst this
    exact ⟨fun h => ⟨h, all_nil⟩, fun h => h.1⟩
  | q :: L, top, t, h => by
    unfold forceAll at h
    cases hf : force top q with
    | none => rw [hf] at h; cases h
    | some t' =>
      rw [hf] at h
      rw [forceAll_some h, force_some hf, all_cons, and_assoc]

theorem forceAll_none : ∀ {L top : List Lit}, forceAll L top = none → ¬ (μ.all top ∧ μ.all L)
  | [], top, h => by simp [forceAll] at h
  | q :: L, top, h => by
    rw [all_cons]
    unfold forceAll at h
    cases hf : force top q with
    | none =>
      rintro ⟨h1, h2, -⟩
      exact force_none hf ⟨h1, h2⟩
    | some t' =>
      rw [hf] at h
      rintro ⟨h1, h2, h3⟩
      exact forceAll_none h ⟨(force_some hf).2 ⟨h1, h2⟩, h3⟩

/-- What is forced for an assigned atom is what is assumed for it. -/
theorem forced_iff (hsub : ∀ q, T q = true → T' q = true) (hcon : ∀ q, T' q = true → T' q.neg = false) {m : Mapping}
    (hv : T (g.atom m.node).lit = true ∨ T (g.atom m.node).lit.neg = true) : μ.all (atomForced g T m) ↔ μ.all (atomAssume g T' m) := by
  by_cases hn : T (g.atom m.node).lit.neg = true
  · have h1 := hsub _ hn
    have h2 : T' (g.atom m.node).lit = false := by
      have := hcon _ h1
      rwa [Lit.neg_neg] at this
    unfold atomForced atomAssume
    simp only [hn, h1, h2, Bool.not_true, Bool.false_eq_true, if_false, if_true]
    by_cases ht : m.hasTp = true
    · simp only [ht, if_true, all_cons, all_append, all_nil, and_true]
      exact and_comm
    · simp only [ht, all_cons, all_append, all_nil, and_true, true_and, if_false, Bool.false_eq_true]
  · have h1 := hsub _ (hv.resolve_right hn)
    have h2 := hcon _ h1
    unfold atomForced atomAssume
    simp only [hn, h1, h2, Bool.not_false, Bool.false_eq_true, if_false, if_true]
    by_cases ht : m.hasTp = true
    · simp only [ht, if_true, all_cons, all_append, all_nil, and_true]
    · simp only [ht, all_append, all_nil, if_false, Bool.false_eq_true, and_true]

theorem bforced_iff (hsub : ∀ q, T q = true → T' q = true) (hcon : ∀ q, T' q = true → T' q.neg = false) {m : Mapping}
    (hv : T (g.body m.node).lit = true ∨ T (g.body m.node).lit.neg = true) : bodyAssume g T m = bodyAssume g T' m := by
  unfold bodyAssume
  by_cases hn : T (g.body m.node).lit.neg = true
  · rw [if_pos hn, if_pos (hsub _ hn)]
  · have h2 := hcon _ (hsub _ (hv.resolve_right hn))
    rw [if_neg hn, if_neg (by rw [h2]; simp)]

theorem simpAtoms_some (hsub : ∀ q, T q = true → T' q = true) (hcon : ∀ q, T' q = true → T' q.neg = false) {rem : Bool} :
    ∀ {L : List Mapping} {top : List Lit} {x : List Mapping × List Lit}, simpAtoms g T rem L top = some x →
      (μ.all x.2 ∧ μ.all (x.1.flatMap (atomAssume g T')) ↔ μ.all top ∧ μ.all (L.flatMap (atomAssume g T')))
  | [], top, x, h => by
    have : ([], top) = x := by simpa [simpAtoms] using h
    subst this; exact Iff.rfl
  | m :: L, top, x, h => by
    unfold simpAtoms at h
    split at h
    · next hv =>
      obtain ⟨y, hy, rfl⟩ := Option.map_eq_some_iff.1 h
      have ih := simpAtoms_some hsub hcon hy
      dsimp only
      rw [List.flatMap_cons, List.flatMap_cons, all_append, all_append]
      constructor
      · rintro ⟨h1, h2, h3⟩
        obtain ⟨h4, h5⟩ := ih.1 ⟨h1, h3⟩
        exact ⟨h4, h2, h5⟩
      · rintro ⟨h1, h2, h3⟩
        obtain ⟨h4, h5⟩ := ih.2 ⟨h1, h3⟩
        exact ⟨h4, h2, h5⟩
    · next hv =>
      have hv : T (g.atom m.node).lit = true ∨ T (g.atom m.node).lit.neg = true := by
        by_contra hc
        push Not at hc
        apply hv
        simp only [ne_eq, Bool.not_eq_true] at hc
        rw [hc.1, hc.2]; rfl
      cases hf : forceAll (atomForced g T m) top with
      | none => rw [hf] at h; cases h
      | some t =>
        rw [hf] at h
        obtain ⟨y, hy, rfl⟩ := Option.map_eq_some_iff.1 h
        have ih := simpAtoms_some hsub hcon hy
        have e := forceAll_some (μ := μ) hf
        have e2 := forced_iff (μ := μ) (g := g) hsub hcon hv
        dsimp only
        rw [List.flatMap_cons, all_append]
        constructor
        · rintro ⟨h1, h2⟩
          have h3 : μ.all (y.1.flatMap (atomAssume g T')) := by
            split at h2
            · exact h2
            · rw [List.flatMap_cons, all_append] at h2; exact h2.2
          obtain ⟨h4, h5⟩ := ih.1 ⟨h1, h3⟩
          obtain ⟨h6, h7⟩ := e.1 h4
          exact ⟨h6, e2.1 h7, h5⟩
        · rintro ⟨h1, h2, h3⟩
          obtain ⟨h4, h5⟩ := ih.2 ⟨e.2 ⟨h1, e2.2 h2⟩, h3⟩
          refine ⟨h4, ?_⟩
          split
          · exact h5
          · rw [List.flatMap_cons, all_append]; exact ⟨h2, h5⟩

theorem simpAtoms_none (hsub : ∀ q, T q = true → T' q = true) (hcon : ∀ q, T' q = true → T' q.neg = false) {rem : Bool} :
    ∀ {L : List Mapping} {top : List Lit}, simpAtoms g T rem L top = none → ¬ (μ.all top ∧ μ.all (L.flatMap (atomAssume g T')))
  | [], top, h => by simp [simpAtoms] at h
  | m :: L, top, h => by
    rw [List.flatMap_cons, all_append]
    unfold simpAtoms at h
    split at h
    · rintro ⟨h1, h2, h3⟩
      exact simpAtoms_none hsub hcon (Option.map_eq_none_iff.1 h) ⟨h1, h3⟩
    · next hv =>
      have hv : T (g.atom m.node).lit = true ∨ T (g.atom m.node).lit.neg = true := by
        by_contra hc
        push Not at hc
        apply hv
        simp only [ne_eq, Bool.not_eq_true] at hc
        rw [hc.1, hc.2]; rfl
      have e2 := forced_iff (μ := μ) (g := g) hsub hcon hv
      rintro ⟨h1, h2, h3⟩
      cases hf : forceAll (atomForced g T m) top with
      | none => exact forceAll_none hf ⟨h1, e2.2 h2⟩
      | some t =>
        rw [hf] at h
        exact simpAtoms_none hsub hcon (Option.map_eq_none_iff.1 h) ⟨(forceAll_some hf).2 ⟨h1, e2.2 h2⟩, h3⟩

theorem simpAtoms_mem {rem : Bool} : ∀ {L : List Mapping} {top : List Lit} {x : List Mapping × List Lit}, simpAtoms g T rem L top = some x →
      (∀ m ∈ x.1, m ∈ L) ∧ (∀ m ∈ L, m ∈ x.1 ∨ T (g.atom m.node).lit.neg = true)
  | [], top, x, h => by
    have : ([], top) = x := by simpa [simpAtoms] using h
    subst this; simp
  | m :: L, top, x, h => by
    unfold simpAtoms at h
    split at h
    · obtain ⟨y, hy, rfl⟩ := Option.map_eq_some_iff.1 h
      obtain ⟨h1, h2⟩ := simpAtoms_mem hy
      dsimp only
      refine ⟨fun z hz => ?_, fun z hz => ?_⟩
      · rcases List.mem_cons.1 hz with rfl | hz
        · simp
        · exact List.mem_cons_of_mem _ (h1 z hz)
      · rcases List.mem_cons.1 hz with rfl | hz
        · simp
        · exact (h2 z hz).imp (List.mem_cons_of_mem _) id
    · cases hf : forceAll (atomForced g T m) top with
      | none => rw [hf] at h; cases h
      | some t =>
        rw [hf] at h
        obtain ⟨y, hy, rfl⟩ := Option.map_eq_some_iff.1 h
        obtain ⟨h1, h2⟩ := simpAtoms_mem hy
        dsimp only
        split
        · next hr =>
          rw [Bool.and_eq_true] at hr
          refine ⟨fun z hz => List.mem_cons_of_mem _ (h1 z hz), fun z hz => ?_⟩
          rcases List.mem_cons.1 hz with rfl | hz
          · exact .inr hr.1
          · exact h2 z hz
        · refine ⟨fun z hz => ?_, fun z hz => ?_⟩
          · rcases List.mem_cons.1 hz with rfl | hz
            · simp
            · exact List.mem_cons_of_mem _ (h1 z hz)
          · rcases List.mem_cons.1 hz with rfl | hz
            · simp
            · exact (h2 z hz).imp (List.mem_cons_of_mem _) id

theorem simpBodies_some (hsub : ∀ q, T q = true → T' q = true) (hcon : ∀ q, T' q = true → T' q.neg = false) {rem : Bool} :
    ∀ {L : List Mapping} {top : List Lit} {x : List Mapping × List Lit}, simpBodies g T rem L top = some x →
      (μ.all x.2 ∧ μ.all (x.1.map (bodyAssume g T')) ↔ μ.all top ∧ μ.all (L.map (bodyAssume g T')))
  | [], top, x, h => by
    have : ([], top) = x := by simpa [simpBodies] using h
    subst this; exact Iff.rfl
  | m :: L, top, x, h => by
    unfold simpBodies at h
    split at h
    · next hv =>
      obtain ⟨y, hy, rfl⟩ := Option.map_eq_some_iff.1 h
      have ih := simpBodies_some hsub hcon hy
      dsimp only
      rw [List.map_cons, List.map_cons, all_cons, all_cons]
      constructor
      · rintro ⟨h1, h2, h3⟩
        obtain ⟨h4, h5⟩ := ih.1 ⟨h1, h3⟩
        exact ⟨h4, h2, h5⟩
      · rintro ⟨h1, h2, h3⟩
        obtain ⟨h4, h5⟩ := ih.2 ⟨h1, h3⟩
        exact ⟨h4, h2, h5⟩
    · next hv =>
      have hv : T (g.body m.node).lit = true ∨ T (g.body m.node).lit.neg = true := by
        by_contra hc
        push Not at hc
        apply hv
        simp only [ne_eq, Bool.not_eq_true] at hc
        rw [hc.1, hc.2]; rfl
      cases hf : force top (bodyAssume g T m) with
      | none => rw [hf] at h; cases h
      | some t =>
        rw [hf] at h
        obtain ⟨y, hy, rfl⟩ := Option.map_eq_some_iff.1 h
        have ih := simpBodies_some hsub hcon hy
        have e := force_some (μ := μ) hf
        have e2 := bforced_iff (g := g) hsub hcon hv
        rw [e2] at e
        dsimp only
        rw [List.map_cons, all_cons]
        constructor
        · rintro ⟨h1, h2⟩
          have h3 : μ.all (y.1.map (bodyAssume g T')) := by
            split at h2
            · exact h2
            · rw [List.map_cons, all_cons] at h2; exact h2.2
          obtain ⟨h4, h5⟩ := ih.1 ⟨h1, h3⟩
          obtain ⟨h6, h7⟩ := e.1 h4
          exact ⟨h6, h7, h5⟩
        · rintro ⟨h1, h2, h3⟩
          obtain ⟨h4, h5⟩ := ih.2 ⟨e.2 ⟨h1, h2⟩, h3⟩
          refine ⟨h4, ?_⟩
          split
          · exact h5
          · rw [List.map_cons, all_cons]; exact ⟨h2, h5⟩

theorem simpBodies_none (hsub : ∀ q, T q = true → T' q = true) (hcon : ∀ q, T' q = true → T' q.neg = false) {rem : Bool} :
    ∀ {L : List Mapping} {top : List Lit}, simpBodies g T rem L top = none → ¬ (μ.all top ∧ μ.all (L.map (bodyAssume g T')))
  | [], top, h => by simp [simpBodies] at h
  | m :: L, top, h => by
    rw [List.map_cons, all_cons]
    unfold simpBodies at h
    split at h
    · rintro ⟨h1, h2, h3⟩
      exact simpBodies_none hsub hcon (Option.map_eq_none_iff.1 h) ⟨h1, h3⟩
    · next hv =>
      have hv : T (g.body m.node).lit = true ∨ T (g.body m.node).lit.neg = true := by
        by_contra hc
        push Not at hc
        apply hv
        simp only [ne_eq, Bool.not_eq_true] at hc
        rw [hc.1, hc.2]; rfl
      have e2 := bforced_iff (g := g) hsub hcon hv
      rintro ⟨h1, h2, h3⟩
      cases hf : force top (bodyAssume g T m) with
      | none => rw [e2] at hf; exact force_none hf ⟨h1, h2⟩
      | some t =>
        rw [hf] at h
        exact simpBodies_none hsub hcon (Option.map_eq_none_iff.1 h) ⟨(force_some hf).2 ⟨h1, by rw [e2]; exact h2⟩, h3⟩

/-- Proof device: the tester, its facts and the assumptions still say what they said when the component was built. -/
structure Inv (p : DPrg) (old : Bool) (T0 : Lit → Bool) (c : Nat) (r : Run) : Prop where
  bd : buildDefined (p.graph T0) T0 c (as0 p old T0 c) (ms0 p old T0 c) = true
  cls : r.k.cls = cls0 p old T0 c
  sub : ∀ q, T0 q = true → r.top q = true
  con : ∀ q, r.top q = true → r.top q.neg = false
  atoms : (∀ m ∈ r.k.atoms, m ∈ as0 p old T0 c) ∧ ∀ m ∈ as0 p old T0 c, m ∈ r.k.atoms ∨ r.top (p.atom m.node).lit.neg = true
  live : r.k.dead = false → ∀ T, (∀ q, r.top q = true → T q = true) → (∀ q, T q = true → T q.neg = false) → ∀ μ : Asg, μ 0 = true →
    (∀ cl ∈ cls0 p old T0 c, μ.satC cl) → (μ.all r.k.top ∧ μ.all (assume (p.graph T0) T r.k) ↔ μ.all (asm0 p old T0 c T))
  dead : r.k.dead = true → ∀ T, (∀ q, r.top q = true → T q = true) → (∀ q, T q = true → T q.neg = false) → ∀ μ : Asg, ¬ Mod p old T0 c T μ

theorem Reach.inv {r : Run} (h : Reach (p.graph T0) old T0 c r) : Inv p old T0 c r := by
  induction h with
  | init k hk hcon =>
    obtain ⟨h1, rfl⟩ := build_eq.1 hk
    refine ⟨h1, rfl, fun _ h => h, hcon, ⟨fun _ h => h, fun _ h => .inl h⟩, fun _ T hs hc μ h0 hcl => ?_, fun h => by cases h⟩
    dsimp only
    exact ⟨fun h => h.2, fun h => ⟨all_nil, h⟩⟩
  | step r r' _ hs ih =>
    cases hs with
    | fact _ hsub hcon =>
      exact ⟨ih.bd, ih.cls, fun q hq => hsub q (ih.sub q hq), hcon, ⟨ih.atoms.1, fun m hm => (ih.atoms.2 m hm).imp id (hsub _)⟩,
        fun hd T hs => ih.live hd T fun q hq => hs q (hsub q hq), fun hd T hs => ih.dead hd T fun q hq => hs q (hsub q hq)⟩
    | derive q hq =>
      refine ⟨ih.bd, ih.cls, ih.sub, ih.con, ih.atoms, fun hd T hs hc μ h0 hcl => ?_, ih.dead⟩
      have := ih.live hd T hs hc μ h0 hcl
      dsimp only at this ⊢
      rw [all_append, all_cons]
      constructor
      · rintro ⟨⟨h1, -⟩, h2⟩
        exact this.1 ⟨h1, h2⟩
      · intro h1
        obtain ⟨h2, h3⟩ := this.2 h1
        exact ⟨⟨h2, hq μ h0 (by rw [ih.cls]; exact hcl) h2, all_nil⟩, h3⟩
    | conflict hno =>
      refine ⟨ih.bd, ih.cls, ih.sub, ih.con, ih.atoms, fun hd => (by cases hd), fun _ T hs hc μ hm => ?_⟩
      cases hdd : r.k.dead with
      | true => exact ih.dead hdd T hs hc μ hm
      | false =>
        obtain ⟨h0, h1, h2⟩ := mod_iff.1 hm
        exact hno ⟨μ, h0, by rw [ih.cls]; exact h1, ((ih.live hdd T hs hc μ h0 h1).2 h2).1⟩
    | simp rem hd =>
      unfold simplify
      -- the assignment extended by what is assumed for atoms and bodies
      cases hx : simpAtoms (p.graph T0) r.top rem r.k.atoms r.k.top with
      | none =>
        refine ⟨ih.bd, ih.cls, ih.sub, ih.con, ih.atoms, fun h => (by cases h), fun _ T hs hc μ hm => ?_⟩
        obtain ⟨h0, h1, h2⟩ := mod_iff.1 hm
        obtain ⟨h3, h4⟩ := (ih.live hd T hs hc μ h0 h1).2 h2
        unfold assume at h4
        rw [all_append] at h4
        exact simpAtoms_none hs hc hx ⟨h3, h4.1⟩
      | some x =>
        dsimp only
        cases hy : simpBodies (p.graph T0) r.top rem r.k.bodies x.2 with
        | none =>
          refine ⟨ih.bd, ih.cls, ih.sub, ih.con, ih.atoms, fun h => (by cases h), fun _ T hs hc μ hm => ?_⟩
          obtain ⟨h0, h1, h2⟩ := mod_iff.1 hm
          obtain ⟨h3, h4⟩ := (ih.live hd T hs hc μ h0 h1).2 h2
          unfold assume at h4
          rw [all_append] at h4
          exact simpBodies_none hs hc hy ⟨((simpAtoms_some hs hc hx).2 ⟨h3, h4.1⟩).1, h4.2⟩
        | some y =>
          obtain ⟨h5, h6⟩ := simpAtoms_mem hx
          refine ⟨ih.bd, ih.cls, ih.sub, ih.con, ⟨fun m hm => ih.atoms.1 m (h5 m hm), fun m hm => ?_⟩, fun _ T hs hc μ h0 hcl => ?_,
            fun h => by have h : r.k.dead = true := h; rw [hd] at h; cases h⟩
          · rcases ih.atoms.2 m hm with h | h
            · exact h6 m h
            · exact .inr h
          · have h1 := ih.live hd T hs hc μ h0 hcl
            have h2 := simpAtoms_some (μ := μ) hs hc hx
            have h3 := simpBodies_some (μ := μ) hs hc hy
            rw [← h1]
            unfold assume
            dsimp only
            rw [all_append, all_append]
            constructor
            · rintro ⟨h7, h8, h9⟩
              obtain ⟨h10, h11⟩ := h3.1 ⟨h7, h9⟩
              obtain ⟨h12, h13⟩ := h2.1 ⟨h10, h8⟩
              exact ⟨h12, h13, h11⟩
            · rintro ⟨h7, h8, h9⟩
              obtain ⟨h10, h11⟩ := h2.2 ⟨h7, h8⟩
              obtain ⟨h12, h13⟩ := h3.2 ⟨h10, h9⟩
              exact ⟨h12, h11, h13⟩

theorem Inv.mod {r : Run} (h : Inv p old T0 c r) (hd : r.k.dead = false) (hs : ∀ q, r.top q = true → T q = true) (hc : ∀ q, T q = true → T q.neg = false) :
    Mod p old T0 c T μ ↔ μ 0 = true ∧ (∀ cl ∈ r.k.cls, μ.satC cl) ∧ μ.all r.k.top ∧ μ.all (assume (p.graph T0) T r.k) := by
  rw [mod_iff, h.cls]
  constructor
  · rintro ⟨h0, h1, h2⟩; exact ⟨h0, h1, (h.live hd T hs hc μ h0 h1).2 h2⟩
  · rintro ⟨h0, h1, h2⟩; exact ⟨h0, h1, (h.live hd T hs hc μ h0 h1).1 h2⟩

theorem Inv.out {r : Run} (h : Inv p old T0 c r) (hs : ∀ q, r.top q = true → T q = true) (hm : Mod p old T0 c T μ) (a : Nat) :
    a ∈ mapModel r.k μ ↔ upSet p old T0 c μ a := by
  unfold mapModel upSet
  simp only [List.mem_map, List.mem_filter, decide_eq_true_eq]
  constructor
  · rintro ⟨m, ⟨h1, h2⟩, rfl⟩; exact ⟨m, h.atoms.1 m h1, rfl, h2⟩
  · rintro ⟨m, h1, rfl, h2⟩
    rcases h.atoms.2 m h1 with h3 | h3
    · exact ⟨m, ⟨h3, h2⟩, rfl⟩
    · exact absurd h2 (hm.up m h1 (hs _ h3))

/-! ### When the component can be built -/

theorem build_defined (hok : p.Ok) (hext : ∀ b ∈ sccBodies (p.graph T0) c, ((p.graph T0).body b).ext = false) :
    buildDefined (p.graph T0) T0 c (as0 p old T0 c) (ms0 p old T0 c) = true := by
  have hA := a_ok (p := p) (old := old) (T0 := T0) (c := c)
  obtain ⟨⟨n', hB⟩, hbm, hmb⟩ := b_spec (p := p) (old := old) (T0 := T0) (c := c)
  have hlook : ∀ a, p.relAtom T0 a = true → (p.atom a).scc = c → (lookup (as0 p old T0 c) a).isSome = true := by
    intro a h1 h2
    obtain ⟨m, hm, rfl⟩ := a_ex (old := old) h1 h2
    rw [lookup_eq a_sorted hm]; rfl
  unfold buildDefined
  rw [List.all_eq_true]
  intro m hm
  rw [hext _ (hmb m hm)]
  simp only [Bool.not_false, Bool.true_and, Bool.or_eq_true, List.all_eq_true]
  right
  intro h hh
  obtain ⟨hrb, _⟩ := mem_sccBodies.1 (hmb m hm)
  have hbl : m.node < p.nbodies := by
    unfold DPrg.relBody at hrb
    rw [Bool.and_eq_true, decide_eq_true_eq] at hrb; exact hrb.1
  have hpr : (decide (((p.graph T0).body m.node).scc ≠ c) || ((p.graph T0).body m.node).preds.all fun x => (lookup (as0 p old T0 c) x).isSome) = true := by
    by_cases hsc : ((p.graph T0).body m.node).scc = c
    · rw [Bool.or_eq_true]
      right
      rw [List.all_eq_true]
      intro x hx
      obtain ⟨_, _, h3, h4⟩ := mem_preds.1 hx
      have hsc : p.bscc m.node = c := hsc
      exact hlook x h3 (by rw [h4, hsc])
    · rw [Bool.or_eq_true]; exact .inl (decide_eq_true hsc)
  rcases mem_heads.1 hh with ⟨a, ch, h1, hra, rfl⟩ | ⟨as, h1, rfl⟩
  · simp only [headDefined]
    rw [hpr, Bool.and_true, Bool.or_eq_true]
    by_cases hsc : (p.atom a).scc = c
    · exact .inr (hlook a hra hsc)
    · exact .inl (decide_eq_true hsc)
  · simp only [headDefined]
    rw [hpr, Bool.and_true, Bool.or_eq_true]
    by_cases hsc : disjScc (p.graph T0) (as.filter (p.relAtom T0)) = c
    · right
      rw [List.all_eq_true]
      intro a ha
      obtain ⟨ha', hra⟩ := List.mem_filter.1 ha
      have hac : (p.atom a).scc = c := by
        cases hf : as.filter (p.relAtom T0) with
        | nil => rw [hf] at ha; cases ha
        | cons y ys =>
          rw [hf] at hsc
          have hy : y ∈ as := (List.mem_filter.1 (show y ∈ as.filter (p.relAtom T0) by rw [hf]; simp)).1
          rw [hok.disj _ hbl as h1 a ha' y hy]; exact hsc
      rw [hlook a hra hac, Bool.true_and, Bool.or_eq_true]
      right
      obtain ⟨hf1, hf2⟩ := find_as (old := old) hra hac
      unfold Mapping.disj
      refine decide_eq_true (hA.dis _ hf1 ?_)
      rw [hf2, graph_disj hbl h1 ha']; simp
    · exact .inl (decide_eq_true hsc)

/-- The body has a component iff it has a goal from the component of a head. -/
theorem bscc_ne (hok : p.Ok) {b : Nat} (hb : b < p.nbodies) : p.bscc b ≠ noScc ↔
    ∃ h ∈ (p.body b).heads, ∃ a ∈ h.atoms, ∃ x, Pos (p.body b).body x ∧ (p.atom a).scc = (p.atom x).scc ∧ (p.atom a).scc ≠ noScc := by
  constructor
  · intro hne
    unfold DPrg.bscc bodyScc at hne
    dsimp only at hne
    split at hne
    · next y hf =>
      have hy := List.mem_of_find?_eq_some hf
      have hyp := List.find?_some hf
      simp only [Bool.and_eq_true, decide_eq_true_eq, Bool.or_eq_true, Bool.not_eq_true', List.contains_iff_mem] at hyp
      obtain ⟨⟨hyn, hym⟩, hyl⟩ := hyp
      obtain ⟨h', hh', hy⟩ := List.mem_flatMap.1 hy
      refine ⟨h', hh', y, hy, ?_⟩
      rcases hyl with hyl | hyl
      · obtain ⟨k, hk, hke⟩ := List.mem_map.1 hym
        obtain ⟨hk1, hkn⟩ := List.mem_filter.1 hk
        obtain ⟨z, hz, rfl⟩ := List.mem_map.1 hk1
        have hle := hok.topo b hb h' hh' y hy z (front_pos hz) hyn (by simpa using hkn)
        have h63 := List.any_eq_false.1 hyl _ hk
        have h63 : ¬ 63 < (p.atom z).scc := fun h => h63 (by simpa using h)
        exact ⟨z, front_pos hz, by omega, hyn⟩
      · obtain ⟨z, hz, hze⟩ := List.mem_map.1 hyl
        exact ⟨z, front_pos hz, hze.symm, hyn⟩
    · exact absurd rfl hne
  · rintro ⟨h, hh, a, ha, x, hx, e, hne⟩
    rw [bscc_eq hok hb hh ha hx hne e]; exact hne

theorem Inv.norec {r : Run} (hok : p.Ok) (hc : c ≠ noScc) (h : Inv p old T0 c r) : p.NoRecSum T0 c := by
  intro b hb hbf hd hh hg a ha hac haf x hx hxc
  have han := hok.heads b hb hd hh a ha
  have hb' : b ∈ sccBodies (p.graph T0) c := by
    refine mem_sccBodies.2 ⟨?_, ?_⟩
    · unfold DPrg.relBody; rw [Bool.and_eq_true, decide_eq_true_eq, Bool.not_eq_true']; exact ⟨hb, hbf⟩
    · exact ⟨hd, hh, hg, a, ha, relAtom_iff.2 ⟨han, hok.rel a han (by rw [hac]; exact hc), by rw [hac]; exact hc, haf⟩, hac⟩
  refine conj_of ?_ (defined_ext h.bd hb')
  rw [bscc_ne hok hb]
  exact ⟨hd, hh, a, ha, x, hx, by rw [hac, hxc], by rw [hac]; exact hc⟩

end Clasp.Min
