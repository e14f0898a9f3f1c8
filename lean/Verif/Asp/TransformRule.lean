import Verif.Asp.TransformSplit

/-! Every transformation of one rule is right (C26). No code is modelled in this file; it contains specifications and proof devices only. -/

namespace Clasp.Asp

/-- Specification: the weights are not negative after weights above the bound were replaced by the bound, and their sum is small enough. -/
def Rule.valid (r : Rule) : Prop := match r.body with
  | .conj _ => True
  | .sum ls b => (∀ x ∈ ls, 0 ≤ min x.2 b) ∧ (ls.map fun x => min x.2 b).sum ≤ maxWeight

/-- Specification: a disjunction of at least two atoms with a conjunction as body. -/
def Rule.properDisj (r : Rule) : Prop := match r.head, r.body with
  | .disj as, .conj _ => 2 ≤ as.length
  | _, _ => False

/-- Proof device: what is left for the next transformation. -/
def TRes.Fine (t : TRes) (next : Nat) : Prop := next ≤ t.next ∧ (∀ a ∈ t.aux, a = 0) ∧ ∀ r ∈ t.rules, r.below t.next

theorem clamp_error {b : Int} : ∀ {ls : List (BLit × Int)} {e : TFail}, clamp b ls = .error e → e = .invalid
  | [], e, h => by simp [clamp] at h
  | x :: r, e, h => by
    unfold clamp at h
    split at h
    · next hr => cases h; exact clamp_error hr
    · split at h
      · cases h
      · cases h; rfl

theorem tot_map {ls : List (BLit × Int)} {b : Int} : tot (ls.map fun x => (x.1, min x.2 b)) = (ls.map fun x => min x.2 b).sum := by
  unfold tot; rw [List.map_map]; rfl

theorem sortW_perm (ls : List (BLit × Int)) : (sortW ls).Perm ls := Clasp.Mini.ssort_perm ls

theorem gen_below {n h : Nat} (hh : h < n) : ∀ {agg : List (BLit × Int)} {b : Int}, (∀ x ∈ agg, x.1.atom < n) → ∀ B ∈ gen agg b, ∀ l ∈ B, l.atom < n
  | [], b, _, B, hB => by
    unfold gen at hB
    split at hB <;> simp at hB
    subst hB; simp
  | (l, w) :: r, b, hn, B, hB => by
    unfold gen at hB
    split at hB
    · simp at hB; subst hB; simp
    · rcases List.mem_append.1 hB with hB | hB
      · obtain ⟨C, hC, rfl⟩ := List.mem_map.1 hB
        intro q hq
        rcases List.mem_cons.1 hq with rfl | hq
        · exact hn (q, w) (by simp)
        · exact gen_below hh (fun x hx => hn x (by simp [hx])) C hC q hq
      · exact gen_below hh (fun x hx => hn x (by simp [hx])) B hB

/-- A sum as body. -/
theorem transformSum_spec {n next h : Nat} {s : Strategy} {bound : Int} {ls : List (BLit × Int)} {aux : List Nat} (hnext : next ≠ 0) (hn : ∀ x ∈ ls, x.1.atom < n)
    (hnb : n ≤ next) (hh : h < next) (haux : ∀ a ∈ aux, a = 0) (hv1 : ∀ x ∈ ls, 0 ≤ min x.2 bound) (hv2 : (ls.map fun x => min x.2 bound).sum ≤ maxWeight) :
    ∃ t D, transformSum s h bound ls aux next = .ok t ∧ t.Fine next ∧ (∀ r ∈ t.rules, ∃ h b, r = mkRule h b) ∧ Sim n next t.next (fun X M => bound ≤ wsum X M ls) h t.rules D := by
  have hperm := sortW_perm ls
  have hc := clamp_total (b := bound) (ls := sortW ls) (fun x hx => hv1 x (hperm.mem_iff.1 hx))
    (by rw [tot_perm (hperm.map _), tot_map]; exact hv2)
  obtain ⟨-, h0, -⟩ := clamp_ok hc
  have hS : ∀ X M, bound ≤ wsum X M ((sortW ls).map fun x => (x.1, min x.2 bound)) ↔ bound ≤ wsum X M ls := by
    intro X M
    rw [clamp_wsum fun x hx => hv1 x (hperm.mem_iff.1 hx), wsum_perm hperm]
  have hlast : ∀ l, ((sortW ls).map fun x => (x.1, min x.2 bound)).getLast? = some l → _ := fun l hl => sortW_last hl
  have hna : ∀ x ∈ (sortW ls).map fun x => (x.1, min x.2 bound), x.1.atom < n := by
    intro x hx
    obtain ⟨y, hy, rfl⟩ := List.mem_map.1 hx
    exact hn y (hperm.mem_iff.1 hy)
  have hSe : (fun X M => bound ≤ wsum X M ls) = fun X M => bound ≤ wsum X M ((sortW ls).map fun x => (x.1, min x.2 bound)) := by
    funext X M; exact propext (hS X M).symm
  rw [hSe]
  unfold transformSum
  rw [hc]
  simp only []
  generalize (sortW ls).map (fun x => (x.1, min x.2 bound)) = agg at *
  rw [sumR_head]
  split
  · next hlt =>
    refine ⟨_, _, rfl, ⟨Nat.le_refl _, haux, by simp⟩, by simp, Sim.plain hna h0 fun X M => ?_⟩
    have := wsum_le_tot (X := X) (M := M) h0
    exact ⟨fun _ h => by omega, fun _ r hr => by cases hr⟩
  · split
    · next hle =>
      refine ⟨_, _, rfl, ⟨Nat.le_refl _, haux, fun r hr => ?_⟩, fun r hr => ⟨_, _, List.mem_singleton.1 hr⟩, Sim.plain hna h0 fun X M => ?_⟩
      · rw [List.mem_singleton.1 hr]; exact mkRule_below hh (by simp)
      · have := wsum_nonneg (X := X) (M := M) h0
        rw [closed_single, mkRule_got]
        simp only [List.all_nil]
        exact ⟨fun h _ => h trivial, fun h _ => h (by omega)⟩
    · cases hl : agg.getLast? with
      | none =>
        rw [List.getLast?_eq_none_iff] at hl
        subst hl
        simp only [tot_nil] at *
        omega
      | some l =>
        simp only []
        split
        · next hall =>
          refine ⟨_, _, rfl, ⟨Nat.le_refl _, haux, fun r hr => ?_⟩, fun r hr => ⟨_, _, List.mem_singleton.1 hr⟩, Sim.plain hna h0 fun X M => ?_⟩
          · rw [List.mem_singleton.1 hr]
            refine mkRule_below hh fun q hq => ?_
            obtain ⟨y, hy, rfl⟩ := List.mem_map.1 hq
            exact Nat.lt_of_lt_of_le (hna y hy) hnb
          · rw [closed_single, mkRule_got, all_needed h0 (hlast l hl) hall (by omega)]
        · split
          · rw [select_spec h0 (by omega)]
            refine ⟨_, _, rfl, ⟨Nat.le_refl _, by simp, fun r hr => ?_⟩, fun r hr => ?_, Sim.plain hna h0 fun X M => gen_closed h0⟩
            all_goals obtain ⟨B, hB, rfl⟩ := List.mem_map.1 hr
            · exact mkRule_below hh (gen_below hh (fun x hx => Nat.lt_of_lt_of_le (hna x hx) hnb) B hB)
            · exact ⟨_, _, rfl⟩
          · obtain ⟨sp, D, e, g1, g2, g4, g3⟩ := split_spec (h := h) (base := next) (bound := bound) hnext h0 hl (hlast l hl) (by omega) (by omega) hna hnb hh haux
            rw [e]
            exact ⟨_, D, rfl, ⟨g3.le, g1, g2⟩, g4, g3⟩

theorem transformSum_invalid {next h : Nat} {s : Strategy} {bound : Int} {ls : List (BLit × Int)} {aux : List Nat}
    (hv : ¬ ((∀ x ∈ ls, 0 ≤ min x.2 bound) ∧ (ls.map fun x => min x.2 bound).sum ≤ maxWeight)) : transformSum s h bound ls aux next = .error .invalid := by
  unfold transformSum
  have hperm := sortW_perm ls
  cases hc : clamp bound (sortW ls) with
  | error e => rw [clamp_error hc]
  | ok agg =>
    exfalso
    obtain ⟨e, h1, h2⟩ := clamp_ok hc
    refine hv ⟨fun x hx => ?_, ?_⟩
    · exact h1 (x.1, min x.2 bound) (by rw [e]; exact List.mem_map.2 ⟨x, hperm.mem_iff.2 hx, rfl⟩)
    · rw [e, tot_perm (hperm.map _), tot_map] at h2; exact h2

theorem choice_below {lits : List BLit} {as : List Nat} {next : Nat} (h1 : ∀ a ∈ as, a < next) (h2 : ∀ l ∈ lits, l.atom < next + as.length) :
    ∀ r ∈ (transformChoice lits as next).1, r.below (next + as.length) := by
  intro r hr
  obtain ⟨i, a, hi, h⟩ := (choice_mem lits as next r).1 hr
  have hlt := (List.getElem?_eq_some_iff.1 hi).1
  have ha := h1 a (List.mem_of_getElem? hi)
  rcases h with rfl | rfl
  · refine mkRule_below (by omega) fun l hl => ?_
    rcases List.mem_append.1 hl with hl | hl
    · exact h2 l hl
    · rw [List.mem_singleton.1 hl]; simp only []; omega
  · refine mkRule_below (by omega) fun l hl => ?_
    rw [List.mem_singleton.1 hl]; simp only []; omega

theorem transform_choice {s : Strategy} {cond : List BLit} {a : Nat} {b aux : List Nat} {next : Nat} : transform s ⟨.choice (a :: b), .conj cond⟩ aux next =
    if (decide (1 < cond.length) && decide (1 < (a :: b).length) && decide (s ≠ .noAux)) = true then
      .ok ⟨mkRule next cond :: (transformChoice [⟨next, false⟩] (a :: b) (next + 1)).1, (transformChoice [⟨next, false⟩] (a :: b) (next + 1)).2, aux⟩
    else .ok ⟨(transformChoice cond (a :: b) next).1, (transformChoice cond (a :: b) next).2, aux⟩ := by
  unfold transform
  simp only [Head.atoms]
  cases s <;> by_cases h1 : 1 < cond.length <;> cases b <;> simp [h1]

/-- Specification: a rule with at most one head atom and a conjunction as body. -/
def Rule.plain (r : Rule) : Prop := (∃ as, r.head = .disj as ∧ as.length ≤ 1) ∧ ∃ ls, r.body = .conj ls

theorem mkRule_plain {h : Nat} {b : List BLit} : (mkRule h b).plain := by
  refine ⟨⟨_, rfl, ?_⟩, _, rfl⟩
  split <;> simp

theorem choice_plain {lits : List BLit} {as : List Nat} {next : Nat} : ∀ q ∈ (transformChoice lits as next).1, q.plain := by
  intro q hq
  obtain ⟨i, a, hi, h⟩ := (choice_mem lits as next q).1 hq
  rcases h with rfl | rfl <;> exact mkRule_plain

/-- The transformation of one rule. -/
theorem transform_spec {s : Strategy} {r : Rule} {aux : List Nat} {next : Nat} (hnext : next ≠ 0) (hr : r.below next) (h0 : ∀ a ∈ r.head.atoms, a ≠ 0)
    (haux : ∀ a ∈ aux, a = 0) (hv : r.valid) (hd : ¬ r.properDisj) :
    ∃ t, transform s r aux next = .ok t ∧ t.Fine next ∧ (∀ q ∈ t.rules, q.plain ∨ (q.head = r.head ∧ ∃ ls, q.body = .conj ls)) ∧
      ((∃ E, Ext next r t.rules E) ∨ t.rules = [r]) := by
  obtain ⟨hd1, hd2⟩ := hr
  obtain ⟨hd', body⟩ := r
  unfold transform
  cases body with
  | sum ls bound =>
    simp only []
    obtain ⟨v1, v2⟩ := hv
    have hls : ∀ x ∈ ls, x.1.atom < next := fun x hx => hd2 x.1 (List.mem_map.2 ⟨x, hx, rfl⟩)
    have direct : ∀ h, h < next → hd' = headOf h → ∃ t, transformSum s h bound ls aux next = .ok t ∧ t.Fine next ∧
        (∀ q ∈ t.rules, q.plain ∨ (q.head = hd' ∧ ∃ ls, q.body = .conj ls)) ∧ ((∃ E, Ext next ⟨hd', .sum ls bound⟩ t.rules E) ∨ t.rules = [⟨hd', .sum ls bound⟩]) := by
      intro h hh he
      obtain ⟨t, D, e, g1, g3, g2⟩ := transformSum_spec (s := s) hnext hls (Nat.le_refl _) hh haux v1 v2
      refine ⟨t, e, g1, fun q hq => .inl (by obtain ⟨_, _, rfl⟩ := g3 q hq; exact mkRule_plain), .inl ⟨glue next D, ?_⟩⟩
      rw [he]
      exact g2.ext hh
    have viaAux : ∃ t, (match transformSum s next bound ls aux (next + 1) with
        | .error e => .error e
        | .ok t => .ok { t with rules := ⟨hd', .conj [⟨next, false⟩]⟩ :: t.rules } : Except TFail TRes) = .ok t ∧ t.Fine next ∧
        (∀ q ∈ t.rules, q.plain ∨ (q.head = hd' ∧ ∃ ls, q.body = .conj ls)) ∧ ((∃ E, Ext next ⟨hd', .sum ls bound⟩ t.rules E) ∨ t.rules = [⟨hd', .sum ls bound⟩]) := by
      obtain ⟨t, D, e, g1, g3, g2⟩ := transformSum_spec (s := s) (h := next) (next := next + 1) (by omega) hls (by omega) (by omega) haux v1 v2
      rw [e]
      refine ⟨_, rfl, ⟨by have := g1.1; simp only []; omega, g1.2.1, fun r hr => ?_⟩, fun q hq => ?_, .inl ⟨_, g2.extAux hnext hd1⟩⟩
      rotate_left
      · rcases List.mem_cons.1 hq with rfl | hq
        · exact .inr ⟨rfl, _, rfl⟩
        · left; obtain ⟨_, _, rfl⟩ := g3 q hq; exact mkRule_plain
      rcases List.mem_cons.1 hr with rfl | hr
      · have := g1.1
        refine Rule.below.mono (n := next + 1) ⟨fun a ha => ?_, fun l hl => ?_⟩ this
        · have := hd1 a ha; omega
        · simp only [Body.lits, List.mem_singleton] at hl; rw [hl]; simp
      · exact g1.2.2 r hr
    cases hd' with
    | choice as => exact viaAux
    | disj as => match as, hd1, h0, direct, viaAux with
      | [], _, _, direct, _ => exact direct 0 (by omega) rfl
      | [h], hd1, h0, direct, _ =>
        have hne : h ≠ 0 := h0 h (by simp [Head.atoms])
        exact direct h (hd1 h (by simp [Head.atoms])) (by simp [headOf, hne])
      | a :: b :: c, _, _, _, viaAux => exact viaAux
  | conj cond =>
    simp only []
    have keep : ∃ t, (Except.ok ⟨[⟨hd', .conj cond⟩], next, aux⟩ : Except TFail TRes) = .ok t ∧ t.Fine next ∧
        (∀ q ∈ t.rules, q.plain ∨ (q.head = hd' ∧ ∃ ls, q.body = .conj ls)) ∧ ((∃ E, Ext next ⟨hd', .conj cond⟩ t.rules E) ∨ t.rules = [⟨hd', .conj cond⟩]) := by
      refine ⟨_, rfl, ⟨Nat.le_refl _, haux, fun r hr => ?_⟩, fun q hq => .inr ⟨by rw [List.mem_singleton.1 hq], cond, by rw [List.mem_singleton.1 hq]⟩, .inr rfl⟩
      rw [List.mem_singleton.1 hr]; exact ⟨hd1, hd2⟩
    cases hd' with
    | disj as => match as, hd, keep with
      | [], _, keep => exact keep
      | [h], _, keep => exact keep
      | a :: b :: c, hd, _ => exact absurd (by simp [Rule.properDisj]) hd
    | choice as => match as, hd1, h0, keep with
      | [], _, _, keep => exact keep
      | a :: b, hd1, h0, _ =>
        show ∃ t, transform s ⟨.choice (a :: b), .conj cond⟩ aux next = .ok t ∧ _
        rw [transform_choice]
        split
        · refine ⟨_, rfl, ⟨?_, haux, fun r hr => ?_⟩, fun q hq => .inl ?_, .inl ⟨_, choice_extAux h0 hnext hd1 hd2⟩⟩
          · simp only [choice_next]; omega
          · simp only [choice_next] at hr ⊢
            rcases List.mem_cons.1 hr with rfl | hr
            · exact mkRule_below (by omega) fun l hl => by have := hd2 l hl; omega
            · exact choice_below (fun a ha => by have := hd1 a ha; omega) (fun l hl => by rw [List.mem_singleton.1 hl]; simp only []; omega) r hr
          · rcases List.mem_cons.1 hq with rfl | hq
            · exact mkRule_plain
            · exact choice_plain q hq
        · refine ⟨_, rfl, ⟨?_, haux, fun r hr => ?_⟩, fun q hq => .inl (choice_plain q hq), .inl ⟨_, choice_ext h0 hnext hd1 hd2⟩⟩
          · simp only [choice_next]; omega
          · simp only [choice_next] at hr ⊢
            exact choice_below hd1 (fun l hl => by have := hd2 l hl; omega) r hr

end Clasp.Asp
