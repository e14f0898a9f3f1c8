import Verif.Asp.ShiftSem

/-! Components of the shifted program (C48): specification and proofs. No code is modelled in this file. -/

namespace Clasp.Shift
open Clasp.Asp Relation

variable {n : Nat} {R : List Rule} {e : Env} {ds : List Disj}

/-- Specification: component numbers are exact: atoms have the same number iff they depend on each other, atoms on no cycle and atoms that are always supported have none;
positive goals come first in a body. -/
structure CompsOk (e : Env) (R : List Rule) (ds : List Disj) : Prop where
  cyc : ∀ a, TransGen (Dep e R ds) a a → e.scc a ≠ noScc
  same : ∀ a b, a ≠ b → e.scc a ≠ noScc → e.scc b = e.scc a → TransGen (Dep e R ds) a b
  given : ∀ a, Given R a → e.scc a = noScc
  front : ∀ d ∈ ds, ∀ s ∈ d.sups, ∀ x, (⟨x, false⟩ : BLit) ∈ s.body.lits → (⟨x, false⟩ : BLit) ∈ s.body.lits.takeWhile fun l => !l.neg

/-- Specification: `a` is a head and `x` a positive goal of a rule of the shifted program; redundant rules do not count. -/
def Dep' (R : List Rule) (st : St) (a x : Nat) : Prop := ¬ Given R a ∧ ¬ Given R x ∧ ∃ r ∈ R ++ st.rules, a ∈ r.head.atoms ∧ (⟨x, false⟩ : BLit) ∈ r.body.lits

/-- Proof device: where the rules come from. `T` are the atoms that stand for the supports of a disjunction. -/
structure Tr (e : Env) (n : Nat) (ds : List Disj) (st : St) (T : List (Nat × Disj)) : Prop where
  le : n ≤ st.next
  keys : ∀ p ∈ T, n ≤ p.1 ∧ p.1 < st.next ∧ p.2 ∈ ds ∧ p.2.used e = true ∧ sccOf e st.aux p.1 = auxScc e (seen0 e (p.2.head e)) p.2.bodies
  fn : ∀ p ∈ T, ∀ q ∈ T, p.1 = q.1 → p.2 = q.2
  aux : ∀ x ∈ st.aux, n ≤ x.1 ∧ x.1 < st.next
  rules : ∀ r ∈ st.rules, (∃ p ∈ T, ∃ B ∈ p.2.bodies, r = ⟨.disj [p.1], B⟩) ∨
    ∃ d ∈ ds, d.used e = true ∧ (∀ x, (⟨x, false⟩ : BLit) ∈ r.body.lits → (x, d) ∈ T ∨ ∃ B ∈ d.bodies, (⟨x, false⟩ : BLit) ∈ B.lits) ∧
      ((∀ a ∈ r.head.atoms, a ∈ d.head e) ∨ ∃ y, r.head = .disj [y] ∧ n ≤ y ∧ y < st.next ∧ ∀ p ∈ T, p.1 ≠ y)

theorem sccOf_append {aux : List (Nat × Nat)} {x c a : Nat} (h : a ≠ x) : sccOf e (aux ++ [(x, c)]) a = sccOf e aux a := by
  unfold sccOf
  rw [List.find?_append]
  have : List.find? (fun y => y.1 == a) [(x, c)] = none := by
    rw [List.find?_eq_none]; intro y hy
    rw [List.mem_singleton] at hy; subst hy
    simp; exact fun h' => h h'.symm
  rw [this]; simp

theorem sccOf_new {aux : List (Nat × Nat)} {x c : Nat} (h : ∀ y ∈ aux, y.1 ≠ x) : sccOf e (aux ++ [(x, c)]) x = c := by
  unfold sccOf
  rw [List.find?_append]
  have : List.find? (fun y => y.1 == x) aux = none := by
    rw [List.find?_eq_none]; intro y hy; simp [h y hy]
  rw [this]; simp

section
variable {st : St} {T : List (Nat × Disj)} {d : Disj} {sup : Sup}

theorem Tr.addRule (ht : Tr e n ds st T) {r : Rule} (h : (∃ p ∈ T, ∃ B ∈ p.2.bodies, r = ⟨.disj [p.1], B⟩) ∨
    ∃ d ∈ ds, d.used e = true ∧ (∀ x, (⟨x, false⟩ : BLit) ∈ r.body.lits → (x, d) ∈ T ∨ ∃ B ∈ d.bodies, (⟨x, false⟩ : BLit) ∈ B.lits) ∧
      ((∀ a ∈ r.head.atoms, a ∈ d.head e) ∨ ∃ y, r.head = .disj [y] ∧ n ≤ y ∧ y < st.next ∧ ∀ p ∈ T, p.1 ≠ y)) (g : List Rule) (k : List Nat) :
    Tr e n ds { st with rules := st.rules ++ [r], gammas := g, nonHcf := k } T where
  le := ht.le
  keys := ht.keys
  fn := ht.fn
  aux := ht.aux
  rules := fun r' hr => by
    rcases List.mem_append.1 hr with hr | hr
    · exact ht.rules r' hr
    · rw [List.mem_singleton] at hr; subst hr; exact h

theorem Tr.newAtom (ht : Tr e n ds st T) {c : Nat} (g : List Rule) (k : List Nat) :
    Tr e n ds { st with next := st.next + 1, gammas := g, nonHcf := k, aux := st.aux ++ [(st.next, c)] } T where
  le := Nat.le_succ_of_le ht.le
  keys := fun p hp => by
    obtain ⟨h1, h2, h3, h4, h5⟩ := ht.keys p hp
    exact ⟨h1, Nat.lt_succ_of_lt h2, h3, h4, by rw [← h5]; exact sccOf_append (by omega)⟩
  fn := ht.fn
  aux := fun x hx => by
    rcases List.mem_append.1 hx with hx | hx
    · exact ⟨(ht.aux x hx).1, Nat.lt_succ_of_lt (ht.aux x hx).2⟩
    · rw [List.mem_singleton] at hx; subst hx; exact ⟨ht.le, Nat.lt_succ_self _⟩
  rules := fun r hr => by
    rcases ht.rules r hr with h | ⟨d, h1, h2, h3, h4⟩
    · exact .inl h
    · refine .inr ⟨d, h1, h2, h3, ?_⟩
      rcases h4 with h4 | ⟨y, k1, k2, k3, k4⟩
      · exact .inl h4
      · exact .inr ⟨y, k1, k2, Nat.lt_succ_of_lt k3, k4⟩

theorem emit_tr (ht : Tr e n ds st T) (hd : d ∈ ds) (hu : d.used e = true) {c : Nat} {rh : List Nat} {rb : List BLit} (hrh : ∀ a ∈ rh, a ∈ d.head e)
    (hrb : ∀ x, (⟨x, false⟩ : BLit) ∈ rb → (x, d) ∈ T ∨ ∃ B ∈ d.bodies, (⟨x, false⟩ : BLit) ∈ B.lits) : Tr e n ds (emit e c rh rb st) T := by
  have h1 : ∀ k, Tr e n ds { st with rules := st.rules ++ [⟨.disj rh, .conj rb⟩], nonHcf := k } T := fun k =>
    ht.addRule (r := ⟨.disj rh, .conj rb⟩) (.inr ⟨d, hd, hu, hrb, .inl hrh⟩) st.gammas k
  by_cases hl : rh.length ≤ 1
  · simp only [emit, hl, if_true]; exact h1 _
  · by_cases hg : e.noGamma = true
    · simp only [emit, hl, if_false, hg, if_true]; exact h1 _
    · by_cases h4 : 4 ≤ rb.length
      · simp only [emit, hl, if_false, hg, h4, if_true]
        refine ((h1 (if c ∈ st.nonHcf then st.nonHcf else st.nonHcf ++ [c])).newAtom st.gammas (if c ∈ st.nonHcf then st.nonHcf else st.nonHcf ++ [c])).addRule (r := ⟨.disj [st.next], .conj rb⟩)
          (.inr ⟨d, hd, hu, hrb, .inr ⟨st.next, rfl, ht.le, Nat.lt_succ_self _, fun p hp => ?_⟩⟩) _ _
        have := (ht.keys p hp).2.1; omega
      · simp only [emit, hl, if_false, hg, h4]
        have := h1 (if c ∈ st.nonHcf then st.nonHcf else st.nonHcf ++ [c])
        exact ⟨this.le, this.keys, this.fn, this.aux, this.rules⟩

theorem shiftLoop_tr (hd : d ∈ ds) (hu : d.used e = true) (hs : ∀ x, (⟨x, false⟩ : BLit) ∈ sup.lits → (x, d) ∈ T ∨ ∃ B ∈ d.bodies, (⟨x, false⟩ : BLit) ∈ B.lits) :
    ∀ (rest pre : List Nat) (seen : Nat → Bool) (st : St), (∀ a ∈ pre ++ rest, a ∈ d.head e) → Tr e n ds st T → Tr e n ds (shiftLoop e sup pre rest seen st) T
  | [], _, _, _, _, ht => ht
  | h :: t, pre, seen, st, hh, ht => by
    have hh' : ∀ a ∈ (pre ++ [h]) ++ t, a ∈ d.head e := fun a ha => hh a (by simpa using ha)
    simp only [shiftLoop]
    split_ifs
    · exact shiftLoop_tr hd hu hs t _ _ _ hh' ht
    · refine shiftLoop_tr hd hu hs t _ _ _ hh' (emit_tr ht hd hu (fun a ha => ?_) fun x hx => ?_)
      · rw [List.mem_cons, List.mem_filter] at ha
        refine hh a ?_
        simp only [List.mem_append, List.mem_cons] at ha ⊢; tauto
      · rcases List.mem_append.1 hx with hx | hx
        · exact hs x hx
        · obtain ⟨o, _, ho⟩ := List.mem_map.1 hx
          cases ho
    · exact shiftLoop_tr hd hu hs t _ _ _ hh' ht

end

theorem step_eq {st : St} {d : Disj} : step e st d = if d.bodies.isEmpty || !d.used e then st else
    shiftLoop e (eqAtomLit e true d.same d.bodies (seen0 e (d.head e)) st).1 [] (d.head e) (seen0 e (d.head e)) (eqAtomLit e true d.same d.bodies (seen0 e (d.head e)) st).2 := by
  have hdx : (headLoop e d.atoms d.upper []).2 = d.used e := by
    unfold Disj.used
    cases hu : d.upper with
    | false => rw [headLoop_false]; rfl
    | true => rw [(headLoop_eq d.atoms []).1]; simp
  split_ifs with h
  · unfold step
    have : eqAtomLit e (headLoop e d.atoms d.upper []).2 d.same ((d.sups.filter (·.live)).map (·.body)) (seen0 e (headLoop e d.atoms d.upper []).1) st = (.fls, st) := by
      unfold eqAtomLit
      rw [if_pos ?_]
      rw [hdx]; exact h
    simp only [this]
    exact shiftLoop_fls _ _ _ _
  · have hu : d.used e = true := by
      cases hu : d.used e with
      | true => rfl
      | false => simp [hu] at h
    have hhd : (headLoop e d.atoms d.upper []).1 = d.head e := by
      have h' := hu
      unfold Disj.used at h'
      rw [Bool.and_eq_true] at h'
      rw [h'.1]
      have := (headLoop_eq (e := e) d.atoms []).2 (by rw [(headLoop_eq d.atoms []).1]; exact h'.2)
      rw [this]; rfl
    unfold step
    rw [show headLoop e d.atoms d.upper [] = (d.head e, d.used e) from Prod.ext hhd hdx, hu]
    rfl

theorem step_tr {st : St} {T : List (Nat × Disj)} {d : Disj} (hd : d ∈ ds) (ht : Tr e n ds st T) : ∃ T', Tr e n ds (step e st d) T' := by
  rw [step_eq]
  split_ifs with h
  · exact ⟨T, ht⟩
  · have hb : d.bodies ≠ [] := fun hb => h (by simp [hb])
    have hu : d.used e = true := by
      cases hu : d.used e with
      | true => rfl
      | false => simp [hu] at h
    by_cases h1 : d.bodies.length = 1 ∧ (d.bodies.headD (.conj [])).lits.length < 2 ∧ d.same = true
    · refine ⟨T, ?_⟩
      have key : (eqAtomLit e true d.same d.bodies (seen0 e (d.head e)) st).2 = st ∧
          ∀ x, (⟨x, false⟩ : BLit) ∈ (eqAtomLit e true d.same d.bodies (seen0 e (d.head e)) st).1.lits → ∃ B ∈ d.bodies, (⟨x, false⟩ : BLit) ∈ B.lits := by
        unfold eqAtomLit
        rw [if_neg (by simp [hb]), if_pos h1]
        obtain ⟨B, hB⟩ := List.length_eq_one_iff.1 h1.1
        rw [hB, List.headD_cons]
        cases hl : B.lits with
        | nil => simp [Sup.lits]
        | cons l ls =>
          refine ⟨rfl, fun x hx => ⟨B, by simp, ?_⟩⟩
          have : (⟨x, false⟩ : BLit) = l := by simpa [Sup.lits] using hx
          rw [hl, ← this]; simp
      rw [key.1]
      exact shiftLoop_tr hd hu (fun x hx => .inr (key.2 x hx)) _ _ _ _ (by simp) ht
    · refine ⟨T ++ [(st.next, d)], ?_⟩
      unfold eqAtomLit
      rw [if_neg (by simp [hb]), if_neg h1]
      refine shiftLoop_tr hd hu (fun x hx => .inl ?_) _ _ _ _ (by simp) ?_
      · have : x = st.next := by simpa [Sup.lits] using hx
        subst this; simp
      · have h2 := ht.newAtom (c := auxScc e (seen0 e (d.head e)) d.bodies) st.gammas st.nonHcf
        refine ⟨h2.le, fun p hp => ?_, fun p hp q hq he => ?_, h2.aux, fun r hr => ?_⟩
        · rcases List.mem_append.1 hp with hp | hp
          · exact h2.keys p hp
          · rw [List.mem_singleton] at hp; subst hp
            exact ⟨ht.le, Nat.lt_succ_self _, hd, hu, sccOf_new fun y hy => by have := (ht.aux y hy).2; omega⟩
        · rcases List.mem_append.1 hp with hp | hp <;> rcases List.mem_append.1 hq with hq | hq
          · exact ht.fn p hp q hq he
          · rw [List.mem_singleton] at hq; subst hq
            have := (ht.keys p hp).2.1
            have he : p.1 = st.next := he
            omega
          · rw [List.mem_singleton] at hp; subst hp
            have := (ht.keys q hq).2.1
            have he : st.next = q.1 := he
            omega
          · rw [List.mem_singleton] at hp hq; rw [hp, hq]
        · rcases List.mem_append.1 hr with hr | hr
          · rcases ht.rules r hr with ⟨p, hp, B, hB, rfl⟩ | ⟨d', k1, k2, k3, k4⟩
            · exact .inl ⟨p, List.mem_append_left _ hp, B, hB, rfl⟩
            · refine .inr ⟨d', k1, k2, fun x hx => (k3 x hx).imp (List.mem_append_left _) id, ?_⟩
              rcases k4 with k4 | ⟨y, q1, q2, q3, q4⟩
              · exact .inl k4
              · refine .inr ⟨y, q1, q2, Nat.lt_succ_of_lt q3, fun p hp => ?_⟩
                rcases List.mem_append.1 hp with hp | hp
                · exact q4 p hp
                · rw [List.mem_singleton] at hp; subst hp
                  show st.next ≠ y; omega
          · obtain ⟨B, hB, rfl⟩ := List.mem_map.1 hr
            exact .inl ⟨(st.next, d), by simp, B, hB, rfl⟩

theorem foldl_tr : ∀ (l : List Disj) (st : St) (T : List (Nat × Disj)), (∀ d ∈ l, d ∈ ds) → Tr e n ds st T → ∃ T', Tr e n ds (l.foldl (step e) st) T'
  | [], _, T, _, ht => ⟨T, ht⟩
  | d :: l, st, T, hl, ht => by
    obtain ⟨T1, h1⟩ := step_tr (hl d (by simp)) ht
    exact foldl_tr l _ T1 (fun x hx => hl x (List.mem_cons_of_mem _ hx)) h1

theorem finalize_tr : ∃ T, Tr e n ds (finalize e n ds) T :=
  foldl_tr ds _ [] (fun _ h => h) ⟨Nat.le_refl _, by simp, by simp, by simp, by simp⟩

/-! ### Paths -/

section
variable {st : St} {T : List (Nat × Disj)} (ok : InOk e n R ds) (hc : CompsOk e R ds) (ht : Tr e n ds st T)
include ok

theorem goal_lt {d : Disj} (hd : d ∈ ds) {B : Body} (hB : B ∈ d.bodies) {l : BLit} (hl : l ∈ B.lits) : l.atom < n := by
  obtain ⟨s, hs, rfl⟩ := List.mem_map.1 hB
  exact ((ok.disj d hd).sups s (List.mem_filter.1 hs).1).1 l hl

theorem head_lt {d : Disj} (hd : d ∈ ds) {a : Nat} (h : a ∈ d.head e) : a < n := by
  obtain ⟨o, ho, rfl⟩ := (mem_head.1 h).1
  exact (ok.disj d hd).atoms o ho

omit ok in
theorem dep_disj {d : Disj} (hd : d ∈ ds) (hu : d.used e = true) {a x : Nat} (ha : a ∈ d.head e) (ga : ¬ Given R a) (gx : ¬ Given R x) {B : Body} (hB : B ∈ d.bodies)
    (hx : (⟨x, false⟩ : BLit) ∈ B.lits) : Dep e R ds a x := by
  obtain ⟨⟨o, ho, rfl⟩, hup⟩ := mem_head.1 ha
  obtain ⟨s, hs, rfl⟩ := List.mem_map.1 hB
  rw [List.mem_filter] at hs
  exact ⟨ga, gx, .inr ⟨d, hd, (used_iff.1 hu).1, (used_iff.1 hu).2, ⟨o, ho, rfl, hup⟩, s, hs.1, hs.2, hx⟩⟩

include ht

/-- One step in the shifted program. -/
theorem dep'_cases {a x : Nat} (h : Dep' R st a x) :
    (x < n ∨ ∃ d, (x, d) ∈ T) ∧ (a < n → (x < n → Dep e R ds a x) ∧ ∀ d, (x, d) ∈ T → a ∈ d.head e ∧ ¬ Given R a) ∧
    (∀ d, (a, d) ∈ T → x < n ∧ ¬ Given R x ∧ ∃ B ∈ d.bodies, (⟨x, false⟩ : BLit) ∈ B.lits) := by
  obtain ⟨ga, gx, r, hr, ha, hx⟩ := h
  rcases List.mem_append.1 hr with hr | hr
  · have h1 := (ok.below r hr).1 a ha
    have h2 : x < n := (ok.below r hr).2 _ hx
    refine ⟨.inl h2, fun _ => ⟨fun _ => ⟨ga, gx, .inl ⟨r, hr, ha, hx⟩⟩, fun d hd => ?_⟩, fun d hd => ?_⟩
    · have : n ≤ x := (ht.keys _ hd).1
      omega
    · have : n ≤ a := (ht.keys _ hd).1
      omega
  · rcases ht.rules r hr with ⟨p, hp, B, hB, rfl⟩ | ⟨d, hd, hu, hpos, hh⟩
    · have hap : a = p.1 := by simpa [Head.atoms] using ha
      obtain ⟨k1, k2, k3, k4, k5⟩ := ht.keys p hp
      have hxn : x < n := goal_lt ok k3 hB hx
      refine ⟨.inl hxn, fun h => by omega, fun d hd => ⟨hxn, gx, B, ?_, hx⟩⟩
      have : p.2 = d := ht.fn p hp _ hd hap.symm
      rw [← this]; exact hB
    · refine ⟨?_, fun han => ?_, fun d' hd' => ?_⟩
      · rcases hpos x hx with h | ⟨B, hB, hl⟩
        · exact .inr ⟨d, h⟩
        · exact .inl (goal_lt ok hd hB hl)
      · have hah : a ∈ d.head e := by
          rcases hh with hh | ⟨y, k1, k2, _⟩
          · exact hh a ha
          · rw [k1] at ha
            have : a = y := by simpa [Head.atoms] using ha
            omega
        refine ⟨fun hxn => ?_, fun d' hd' => ?_⟩
        · rcases hpos x hx with h | ⟨B, hB, hl⟩
          · have : n ≤ x := (ht.keys _ h).1
            omega
          · exact dep_disj hd hu hah ga gx hB hl
        · rcases hpos x hx with h | ⟨B, hB, hl⟩
          · have := ht.fn _ h _ hd' rfl
            have : d = d' := this
            subst this; exact ⟨hah, ga⟩
          · have h1 : x < n := goal_lt ok hd hB hl
            have : n ≤ x := (ht.keys _ hd').1
            omega
      · exfalso
        have hn : n ≤ a := (ht.keys _ hd').1
        rcases hh with hh | ⟨y, k1, k2, k3, k4⟩
        · have := head_lt ok hd (hh a ha); omega
        · rw [k1] at ha
          have : a = y := by simpa [Head.atoms] using ha
          exact k4 _ hd' this

/-- Paths from an old atom. -/
theorem path_old {a b : Nat} (h : TransGen (Dep' R st) a b) (han : a < n) :
    (b < n → TransGen (Dep e R ds) a b) ∧ ∀ d, (b, d) ∈ T → ∃ k ∈ d.head e, ¬ Given R k ∧ ReflTransGen (Dep e R ds) a k := by
  induction h with
  | single h =>
    obtain ⟨_, h2, _⟩ := dep'_cases ok ht h
    exact ⟨fun hb => .single ((h2 han).1 hb), fun d hd => ⟨a, ((h2 han).2 d hd).1, ((h2 han).2 d hd).2, .refl⟩⟩
  | tail h1 h2 ih =>
    rename_i c b
    have hc : c < n ∨ ∃ d, (c, d) ∈ T := by
      cases h1 with
      | single h => exact (dep'_cases ok ht h).1
      | tail _ h => exact (dep'_cases ok ht h).1
    obtain ⟨_, g2, g3⟩ := dep'_cases ok ht h2
    rcases hc with hcn | ⟨d, hd⟩
    · have hac := ih.1 hcn
      exact ⟨fun hb => hac.tail ((g2 hcn).1 hb), fun d hd => ⟨c, ((g2 hcn).2 d hd).1, ((g2 hcn).2 d hd).2, hac.to_reflTransGen⟩⟩
    · obtain ⟨k, hk, gk, hak⟩ := ih.2 d hd
      obtain ⟨hbn, gb, B, hB, hl⟩ := g3 d hd
      obtain ⟨-, -, k3, k4, -⟩ := ht.keys _ hd
      refine ⟨fun _ => TransGen.tail' hak (dep_disj k3 k4 hk gk gb hB hl), fun d' hd' => ?_⟩
      have : n ≤ b := (ht.keys _ hd').1
      omega

include hc

omit ht in
theorem scc_mutual {a b : Nat} (h1 : TransGen (Dep e R ds) a b) (h2 : ReflTransGen (Dep e R ds) b a) : e.scc a ≠ noScc ∧ e.scc b = e.scc a := by
  rcases h2.cases_head with rfl | ⟨_, _, _⟩
  · exact ⟨hc.cyc _ h1, rfl⟩
  · by_cases hab : a = b
    · subst hab; exact ⟨hc.cyc _ h1, rfl⟩
    · have : TransGen (Dep e R ds) b a := (reflTransGen_iff_eq_or_transGen.1 h2).resolve_left fun h => hab h
      exact ok.comps a b hab h1 this

omit ht in
theorem auxScc_eq {d : Disj} (hd : d ∈ ds) (hu : d.used e = true) {k g : Nat} (hk : k ∈ d.head e) (gk : ¬ Given R k) {B : Body} (hB : B ∈ d.bodies) (hg : (⟨g, false⟩ : BLit) ∈ B.lits)
    (gg : ¬ Given R g) (hgk : ReflTransGen (Dep e R ds) g k) : auxScc e (seen0 e (d.head e)) d.bodies = e.scc k := by
  have hkg := dep_disj hd hu hk gk gg hB hg
  obtain ⟨hkn, hgs⟩ := scc_mutual ok hc (.single hkg) hgk
  -- every component that is found is the one of `k`
  have hall : ∀ B' ∈ d.bodies, goalScc e (seen0 e (d.head e)) B' = noScc ∨ goalScc e (seen0 e (d.head e)) B' = e.scc k := by
    intro B' hB'
    unfold goalScc
    cases hf : List.find? (fun c => decide (c ≠ noScc) && seen0 e (d.head e) c) ((B'.lits.takeWhile fun l => !l.neg).map fun l => e.scc l.atom) with
    | none => exact .inl rfl
    | some c =>
      right
      show c = e.scc k
      have hp := List.find?_some hf
      have hm := List.mem_of_find?_eq_some hf
      obtain ⟨l, hl, rfl⟩ := List.mem_map.1 hm
      have hneg : l.neg = false := by simpa using List.all_eq_true.1 (List.all_takeWhile (l := B'.lits) (p := fun l => !l.neg)) l hl
      have hl' : (⟨l.atom, false⟩ : BLit) ∈ B'.lits := by
        have := List.takeWhile_subset _ hl
        cases l with | mk x s => cases hneg; exact this
      rw [Bool.and_eq_true, decide_eq_true_eq] at hp
      unfold seen0 at hp
      rw [Bool.and_eq_true, List.any_eq_true] at hp
      obtain ⟨hln, -, h', hh', hs⟩ := hp
      have hs : e.scc h' = e.scc l.atom := by simpa using hs
      have gl : ¬ Given R l.atom := fun hgi => hln (hc.given _ hgi)
      have gh' : ¬ Given R h' := fun hgi => hln (by rw [← hs]; exact hc.given _ hgi)
      have h1 : Dep e R ds k l.atom := dep_disj hd hu hk gk gl hB' hl'
      have h2 : ReflTransGen (Dep e R ds) l.atom h' := by
        by_cases hlh : l.atom = h'
        · rw [hlh]
        · exact (hc.same _ _ hlh hln hs).to_reflTransGen
      have h3 : Dep e R ds h' g := dep_disj hd hu hh' gh' gg hB hg
      exact (scc_mutual ok hc (.single h1) ((h2.tail h3).trans hgk)).2
  have hex : goalScc e (seen0 e (d.head e)) B ≠ noScc := by
    unfold goalScc
    cases hf : List.find? (fun c => decide (c ≠ noScc) && seen0 e (d.head e) c) ((B.lits.takeWhile fun l => !l.neg).map fun l => e.scc l.atom) with
    | none =>
      exfalso
      rw [List.find?_eq_none] at hf
      obtain ⟨s, hs, rfl⟩ := List.mem_map.1 hB
      have := hf (e.scc g) (List.mem_map.2 ⟨⟨g, false⟩, hc.front d hd s (List.mem_filter.1 hs).1 g hg, rfl⟩)
      apply this
      have hgn : e.scc g ≠ noScc := by rw [hgs]; exact hkn
      rw [Bool.and_eq_true, decide_eq_true_eq]
      refine ⟨hgn, ?_⟩
      unfold seen0
      rw [Bool.and_eq_true, decide_eq_true_eq, List.any_eq_true]
      exact ⟨hgn, k, hk, by simp [hgs]⟩
    | some c =>
      have := List.find?_some hf
      rw [Bool.and_eq_true, decide_eq_true_eq] at this
      exact this.1
  have key : ∀ Bs : List Body, (∀ B' ∈ Bs, B' ∈ d.bodies) → B ∈ Bs → auxScc e (seen0 e (d.head e)) Bs = e.scc k := by
    intro Bs
    induction Bs with
    | nil => intro _ h; cases h
    | cons B' Bs ih =>
      intro hs hb
      unfold auxScc
      split_ifs with h0
      · exact (hall B' (hs B' (by simp))).resolve_left h0
      · rcases List.mem_cons.1 hb with rfl | hb
        · exact absurd hex h0
        · exact ih (fun x hx => hs x (List.mem_cons_of_mem _ hx)) hb
  exact key d.bodies (fun _ h => h) hB

omit ok hc in
theorem sccOf_old {a : Nat} (ha : a < n) : sccOf e st.aux a = e.scc a := by
  unfold sccOf
  have : List.find? (fun y => y.1 == a) st.aux = none := by
    rw [List.find?_eq_none]; intro y hy
    have := (ht.aux y hy).1
    simp; omega
  rw [this]; rfl

theorem new_old {x b : Nat} {d : Disj} (hx : (x, d) ∈ T) (hb : b < n) (h1 : TransGen (Dep' R st) x b) (h2 : TransGen (Dep' R st) b x) :
    sccOf e st.aux x ≠ noScc ∧ sccOf e st.aux x = e.scc b := by
  obtain ⟨-, -, k3, k4, k5⟩ := ht.keys _ hx
  obtain ⟨k, hk, gk, hbk⟩ := (path_old ok ht h2 hb).2 d hx
  obtain ⟨g, hxg, hgb⟩ := TransGen.head'_iff.1 h1
  obtain ⟨hgn, gg, B, hB, hl⟩ := (dep'_cases ok ht hxg).2.2 d hx
  have hgb' : ReflTransGen (Dep e R ds) g b := by
    rcases reflTransGen_iff_eq_or_transGen.1 hgb with rfl | h
    · exact .refl
    · exact ((path_old ok ht h hgn).1 hb).to_reflTransGen
  have hkg := dep_disj k3 k4 hk gk gg hB hl
  obtain ⟨hkn, hgs⟩ := scc_mutual ok hc (.single hkg) (hgb'.trans hbk)
  have e1 := auxScc_eq ok hc k3 k4 hk gk hB hl gg (hgb'.trans hbk)
  have e2 := (scc_mutual ok hc (TransGen.head' hkg hgb') hbk).2
  show sccOf e st.aux x ≠ noScc ∧ _
  rw [show sccOf e st.aux x = _ from k5, e1]
  exact ⟨hkn, e2.symm⟩

/-- Atoms of the shifted program that depend on each other are in the same component. -/
theorem comps' {a b : Nat} (hab : a ≠ b) (h1 : TransGen (Dep' R st) a b) (h2 : TransGen (Dep' R st) b a) : sccOf e st.aux a ≠ noScc ∧ sccOf e st.aux b = sccOf e st.aux a := by
  have target : ∀ {x y}, TransGen (Dep' R st) x y → y < n ∨ ∃ d, (y, d) ∈ T := fun h => by
    cases h with
    | single h => exact (dep'_cases ok ht h).1
    | tail _ h => exact (dep'_cases ok ht h).1
  rcases target h2 with ha | ⟨d, hd⟩
  · rcases target h1 with hb | ⟨d, hd⟩
    · rw [sccOf_old ht ha, sccOf_old ht hb]
      exact ok.comps a b hab ((path_old ok ht h1 ha).1 hb) ((path_old ok ht h2 hb).1 ha)
    · have := new_old ok hc ht hd ha h2 h1
      rw [sccOf_old ht ha, ← this.2]; exact ⟨this.1, rfl⟩
  · rcases target h1 with hb | ⟨d', hd'⟩
    · have := new_old ok hc ht hd hb h1 h2
      rw [sccOf_old ht hb]
      exact ⟨this.1, this.2.symm⟩
    · obtain ⟨g, hag, hgb⟩ := TransGen.head'_iff.1 h1
      have hgn := ((dep'_cases ok ht hag).2.2 d hd).1
      have hga : TransGen (Dep' R st) g a := TransGen.trans_right hgb h2
      have hgb' : TransGen (Dep' R st) g b := by
        rcases reflTransGen_iff_eq_or_transGen.1 hgb with rfl | h
        · have : n ≤ b := (ht.keys _ hd').1
          omega
        · exact h
      have ha := new_old ok hc ht hd hgn (.single hag) hga
      have hb := new_old ok hc ht hd' hgn (h2.tail hag) hgb'
      exact ⟨ha.1, by rw [ha.2, hb.2]⟩

end

/-! ### Disjunctions that remain -/

/-- Proof device: `c` is the component of the disjunction. -/
def InComp (e : Env) (as : List Nat) (c : Nat) : Prop := c ≠ noScc ∧ ∀ a ∈ as, e.scc a = c

/-- Proof device: the components that are not head cycle free are those of the remaining disjunctions. -/
def Hcf (e : Env) (st : St) : Prop := (∀ c ∈ st.nonHcf, ∃ r ∈ st.rules, ∃ as, r.head = .disj as ∧ 2 ≤ as.length ∧ InComp e as c) ∧
  (∀ r ∈ st.rules, ∃ as, r.head = .disj as ∧ as ≠ [] ∧ (2 ≤ as.length → ∃ c ∈ st.nonHcf, InComp e as c)) ∧
  ∀ r ∈ st.gammas, ∃ a, r.head = .disj [a]

theorem Hcf.simple {st : St} (h : Hcf e st) {rs : List Rule} (hr : ∀ r ∈ rs, ∃ a, r.head = .disj [a]) {gs : List Rule} (hg : ∀ r ∈ gs, ∃ a, r.head = .disj [a]) (m : Nat) (x : List (Nat × Nat)) :
    Hcf e { st with rules := st.rules ++ rs, gammas := st.gammas ++ gs, next := m, aux := x } := by
  obtain ⟨h1, h2, h3⟩ := h
  refine ⟨fun c hc => ?_, fun r hr' => ?_, fun r hr' => ?_⟩
  · obtain ⟨r, hr, g⟩ := h1 c hc
    exact ⟨r, List.mem_append_left _ hr, g⟩
  · rcases List.mem_append.1 hr' with hr' | hr'
    · exact h2 r hr'
    · obtain ⟨a, ha⟩ := hr r hr'
      exact ⟨[a], ha, by simp, fun h => by simp at h⟩
  · rcases List.mem_append.1 hr' with hr' | hr'
    · exact h3 r hr'
    · exact hg r hr'

theorem emit_hcf {st : St} (h : Hcf e st) {c : Nat} {rh : List Nat} {rb : List BLit} (hne : rh ≠ []) (hrh : 2 ≤ rh.length → InComp e rh c) : Hcf e (emit e c rh rb st) := by
  have hsh : ∀ lits, ∀ r ∈ shiftAll lits [] rh, ∃ a, r.head = .disj [a] := fun lits r hr => by
    obtain ⟨a, _, _, rfl, _⟩ := mem_shiftAll hr
    exact ⟨a, rfl⟩
  by_cases hl : rh.length ≤ 1
  · simp only [emit, hl, if_true]
    obtain ⟨a, rfl⟩ : ∃ a, rh = [a] := by
      match rh, hne, hl with
      | [a], _, _ => exact ⟨a, rfl⟩
      | _ :: _ :: _, _, hl => simp at hl
    have := h.simple (rs := [⟨.disj [a], .conj rb⟩]) (by simp) (gs := []) (by simp) st.next st.aux
    simpa using this
  · have hl2 : 2 ≤ rh.length := by omega
    have h1 : Hcf e { st with rules := st.rules ++ [⟨.disj rh, .conj rb⟩], nonHcf := if c ∈ st.nonHcf then st.nonHcf else st.nonHcf ++ [c] } := by
      have hin : c ∈ (if c ∈ st.nonHcf then st.nonHcf else st.nonHcf ++ [c]) := by
        split_ifs with hc
        · exact hc
        · simp
      have hsub : ∀ x ∈ st.nonHcf, x ∈ (if c ∈ st.nonHcf then st.nonHcf else st.nonHcf ++ [c]) := by
        intro x hx
        split_ifs
        · exact hx
        · exact List.mem_append_left _ hx
      obtain ⟨g1, g2, g3⟩ := h
      refine ⟨fun x hx => ?_, fun r hr => ?_, g3⟩
      · have : x ∈ st.nonHcf ∨ x = c := by
          have hx : x ∈ (if c ∈ st.nonHcf then st.nonHcf else st.nonHcf ++ [c]) := hx
          split_ifs at hx with hc
          · exact .inl hx
          · simpa using hx
        rcases this with hx | rfl
        · obtain ⟨r, hr, g⟩ := g1 x hx
          exact ⟨r, List.mem_append_left _ hr, g⟩
        · exact ⟨⟨.disj rh, .conj rb⟩, by simp, rh, rfl, hl2, hrh hl2⟩
      · rcases List.mem_append.1 hr with hr | hr
        · obtain ⟨as, q1, q2, q3⟩ := g2 r hr
          refine ⟨as, q1, q2, fun h => ?_⟩
          obtain ⟨x, hx, hxc⟩ := q3 h
          exact ⟨x, hsub x hx, hxc⟩
        · rw [List.mem_singleton] at hr; subst hr
          exact ⟨rh, rfl, hne, fun h => ⟨c, hin, hrh h⟩⟩
    by_cases hg : e.noGamma = true
    · simp only [emit, hl, if_false, hg, if_true]; exact h1
    · by_cases h4 : 4 ≤ rb.length
      · simp only [emit, hl, if_false, hg, h4, if_true]
        exact h1.simple (rs := [⟨.disj [st.next], .conj rb⟩]) (by simp) (hsh _) _ _
      · simp only [emit, hl, if_false, hg, h4]
        have := h1.simple (rs := []) (by simp) (hsh rb) st.next st.aux
        simpa using this

theorem shiftLoop_hcf {sup : Sup} : ∀ (rest pre : List Nat) (seen : Nat → Bool) (st : St), Hcf e st → Hcf e (shiftLoop e sup pre rest seen st)
  | [], _, _, _, h => h
  | x :: t, pre, seen, st, h => by
    simp only [shiftLoop]
    split_ifs
    · exact shiftLoop_hcf t _ _ _ h
    · refine shiftLoop_hcf t _ _ _ (emit_hcf h (by simp) fun hl => ?_)
      have hm : ∀ o ∈ (pre ++ t).filter (mate e (e.scc x)), e.scc x ≠ noScc ∧ e.scc o = e.scc x := fun o ho => by
        have := (List.mem_filter.1 ho).2
        unfold mate at this
        rw [Bool.and_eq_true, decide_eq_true_eq, beq_iff_eq] at this
        exact this
      obtain ⟨o, ho⟩ : ∃ o, o ∈ (pre ++ t).filter (mate e (e.scc x)) := by
        cases hq : (pre ++ t).filter (mate e (e.scc x)) with
        | nil => rw [hq] at hl; simp at hl
        | cons o _ => exact ⟨o, by simp⟩
      refine ⟨(hm o ho).1, fun a ha => ?_⟩
      rcases List.mem_cons.1 ha with rfl | ha
      · rfl
      · exact (hm a ha).2
    · exact shiftLoop_hcf t _ _ _ h

theorem step_hcf {st : St} {d : Disj} (h : Hcf e st) : Hcf e (step e st d) := by
  rw [step_eq]
  split_ifs
  · exact h
  · refine shiftLoop_hcf _ _ _ _ ?_
    unfold eqAtomLit
    split_ifs
    · exact h
    · split <;> exact h
    · have := h.simple (rs := d.bodies.map fun B => ⟨.disj [st.next], B⟩) (fun r hr => by
        obtain ⟨B, _, rfl⟩ := List.mem_map.1 hr
        exact ⟨_, rfl⟩) (gs := []) (by simp) (st.next + 1) (st.aux ++ [(st.next, auxScc e (seen0 e (d.head e)) d.bodies)])
      simpa using this

theorem finalize_hcf : Hcf e (finalize e n ds) := by
  have : ∀ (l : List Disj) (st : St), Hcf e st → Hcf e (l.foldl (step e) st) := by
    intro l
    induction l with
    | nil => exact fun _ h => h
    | cons d l ih => exact fun st h => ih _ (step_hcf h)
  exact this ds _ ⟨by simp, by simp, by simp⟩

end Clasp.Shift
