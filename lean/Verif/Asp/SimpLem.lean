import Verif.Asp.Simp
import Verif.Asp.TransformSim
import Verif.Asp.TransformSelect
import Mathlib.Data.List.Perm.Subperm

/-! Lemmas for C27. -/

namespace Clasp.Asp.Simp

variable {k : Known} {m : Marks} {X M : AtomSet}

/-- Proof device: what is known is true in the pair `X ⊆ M`. -/
structure K (k : Known) (X M : AtomSet) : Prop where
  sub : Sub X M
  tru : ∀ a, k.val a = .tru → X a = true
  weak : ∀ a, k.val a = .weak → M a = true
  vfals : ∀ a, k.val a = .fals → M a = false
  fact : ∀ a, k.fact a = true → X a = true
  fals : ∀ a, k.fals a = true → M a = false
  ign : ∀ a, k.ign a = true → M a = true → X a = true

theorem K.litVal (h : K k X M) {p : BLit} {b : Bool} (hv : litVal (k.val p.atom) (!p.neg) = some b) : p.holds X M = b := by
  obtain ⟨a, n⟩ := p
  simp only [BLit.holds] at *
  cases hx : k.val a with
  | free => simp [hx, Simp.litVal] at hv
  | fals =>
    have h1 := h.vfals a hx
    have h2 : X a = false := by
      cases h3 : X a with
      | false => rfl
      | true => rw [h.sub a h3] at h1; cases h1
    cases n <;> simp_all [Simp.litVal]
  | tru =>
    have h1 := h.tru a hx
    have h2 := h.sub a h1
    cases n <;> simp_all [Simp.litVal]
  | weak =>
    have h1 := h.weak a hx
    cases n <;> simp_all [Simp.litVal]

theorem compl_holds (h : Sub X M) {p : BLit} (h1 : p.holds X M = true) : p.compl.holds X M = false := by
  obtain ⟨a, n⟩ := p
  cases n
  · simp only [BLit.holds, BLit.compl] at *
    have := h a (by simpa using h1)
    simp [this]
  · simp only [BLit.holds, BLit.compl] at *
    cases hx : X a with
    | false => simp
    | true => have := h a hx; simp_all

theorem compl_compl {p : BLit} : p.compl.compl = p := by cases p; simp [BLit.compl]

/-! ### Marks -/

theorem clearAll_body {as : List Nat} : ∀ {m : Marks} {q : BLit}, ((m.clearAll as).body q = true) ↔ (m.body q = true ∧ q.atom ∉ as) := by
  induction as with
  | nil => intro m q; simp [Marks.clearAll]
  | cons a as ih =>
    intro m q
    rw [Marks.clearAll, ih]
    simp only [Marks.clearRule, List.mem_cons, not_or]
    by_cases h : q.atom = a
    · simp [h]
    · simp [h]

theorem clearAll_head {as : List Nat} : ∀ {m : Marks} {b : Nat}, ((m.clearAll as).head b = true) ↔ (m.head b = true ∧ b ∉ as) := by
  induction as with
  | nil => intro m q; simp [Marks.clearAll]
  | cons a as ih =>
    intro m q
    rw [Marks.clearAll, ih]
    simp only [Marks.clearRule, List.mem_cons, not_or]
    by_cases h : q = a
    · simp [h]
    · simp [h]

/-- Proof device: no mark is set. -/
def Clean (m : Marks) : Prop := (∀ q, m.body q = false) ∧ ∀ a, m.head a = false

theorem clean_none : Clean Marks.none := ⟨fun _ => rfl, fun _ => rfl⟩

/-! ### The body of a normal rule -/

theorem normLoop_spec : ∀ {ls : List BLit} {m : Marks} {out : List BLit}, (∀ q, m.body q = true ↔ q ∈ out) →
    ∀ {ok m' out'}, normLoop k ls m out = (ok, m', out') →
      (∀ q, m'.body q = true ↔ q ∈ out') ∧ m'.head = m.head ∧ (∃ l, out' = out ++ l ∧ ∀ q ∈ l, q ∈ ls ∧ litVal (k.val q.atom) (!q.neg) = none) ∧
      (out.Nodup → out'.Nodup) ∧ ((∀ q ∈ out, q.compl ∉ out) → ∀ q ∈ out', q.compl ∉ out') ∧
      ∀ X M, K k X M → (ok = true → (out'.all (·.holds X M) = true ↔ out.all (·.holds X M) = true ∧ ls.all (·.holds X M) = true)) ∧
        (ok = false → ¬ (out.all (·.holds X M) = true ∧ ls.all (·.holds X M) = true))
  | [], m, out, hm, ok, m', out', h => by
    simp only [normLoop, Prod.mk.injEq] at h
    obtain ⟨rfl, rfl, rfl⟩ := h
    exact ⟨hm, rfl, ⟨[], by simp, by simp⟩, fun h => h, fun h => h, fun X M _ => ⟨fun _ => by simp, fun h => by cases h⟩⟩
  | p :: ls, m, out, hm, ok, m', out', h => by
    unfold normLoop at h
    split at h
    · next hc =>
      simp only [Prod.mk.injEq] at h
      obtain ⟨rfl, rfl, rfl⟩ := h
      refine ⟨hm, rfl, ⟨[], by simp, by simp⟩, fun h => h, fun h => h, fun X M hK => ⟨fun h => (by cases h), fun _ hh => ?_⟩⟩
      have h2 := hh.2
      rw [List.all_cons, Bool.and_eq_true] at h2
      rcases hc with hc | hc
      · rw [hK.litVal hc] at h2; cases h2.1
      · have := List.all_eq_true.1 hh.1 _ ((hm _).1 hc)
        rw [compl_holds hK.sub h2.1] at this; cases this
    · next hc =>
      push Not at hc
      split at h
      · next hd =>
        have hp : p ∉ out := fun hin => by rw [(hm p).2 hin] at hd; cases hd.2
        have hm2 : ∀ q, (m.addToBody p).body q = true ↔ q ∈ out ++ [p] := by
          intro q
          simp only [Marks.addToBody, List.mem_append, List.mem_singleton]
          by_cases hq : q = p
          · simp [hq]
          · simp [hq, hm q]
        obtain ⟨g1, g2, ⟨l, g3, g4⟩, g5, g6, g7⟩ := normLoop_spec hm2 h
        refine ⟨g1, g2, ⟨p :: l, by simp [g3], fun q hq => ?_⟩, fun hn => g5 ?_, fun hn => g6 ?_, fun X M hK => ?_⟩
        · rcases List.mem_cons.1 hq with rfl | hq
          · refine ⟨by simp, ?_⟩
            cases hv : litVal (k.val q.atom) (!q.neg) with
            | none => rfl
            | some b => cases b
                        · exact absurd hv hc.1
                        · exact absurd hv hd.1
          · exact ⟨by simp [(g4 q hq).1], (g4 q hq).2⟩
        · rw [List.nodup_append]
          exact ⟨hn, by simp, fun a ha b hb e => by simp at hb; rw [← hb, ← e] at hp; exact hp ha⟩
        · intro q hq
          have hpc : p.compl ∉ out := fun hin => hc.2 ((hm _).2 hin)
          have hne : ∀ p : BLit, p.compl ≠ p := fun p e => by have := congrArg BLit.neg e; cases p; simp [BLit.compl] at this
          simp only [List.mem_append, List.mem_singleton] at hq ⊢
          rintro (h1 | h1)
          · rcases hq with hq | rfl
            · exact hn q hq h1
            · exact hpc h1
          · rcases hq with hq | rfl
            · rw [← h1, compl_compl] at hpc; exact hpc hq
            · exact hne _ h1
        · have := g7 X M hK
          simp only [List.all_append, List.all_cons, List.all_nil, Bool.and_true, Bool.and_eq_true] at this ⊢
          simp only [and_assoc] at this
          exact this
      · next hd =>
        obtain ⟨g1, g2, ⟨l, g3, g4⟩, g5, g6, g7⟩ := normLoop_spec hm h
        refine ⟨g1, g2, ⟨l, g3, fun q hq => ⟨by simp [(g4 q hq).1], (g4 q hq).2⟩⟩, g5, g6, fun X M hK => ?_⟩
        have hp : out.all (·.holds X M) = true → p.holds X M = true := by
          intro ho
          by_cases hv : litVal (k.val p.atom) (!p.neg) = some true
          · exact hK.litVal hv
          · have : m.body p = true := by
              cases hb : m.body p with
              | true => rfl
              | false => exact absurd ⟨hv, hb⟩ hd
            exact List.all_eq_true.1 ho _ ((hm p).1 this)
        obtain ⟨e1, e2⟩ := g7 X M hK
        simp only [List.all_cons, Bool.and_eq_true]
        exact ⟨fun ho => by rw [e1 ho]; exact ⟨fun h => ⟨h.1, hp h.1, h.2⟩, fun h => ⟨h.1, h.2.2⟩⟩, fun ho h => e2 ho ⟨h.1, h.2.2⟩⟩

/-! ### The head -/

section
variable {wt : BLit → Int} {slack : Int}

theorem headLoop_marks : ∀ {as : List Nat} {m : Marks} {hs : List Nat} {sat : Bool}, (∀ a, m.head a = true ↔ a ∈ hs) →
    ∀ {hs' sat' m'}, headLoop k wt slack as m hs sat = (hs', sat', m') → m'.body = m.body ∧ (∀ a, m'.head a = true ↔ a ∈ hs') ∧
      (hs.Nodup → hs'.Nodup) ∧ ∃ l, hs' = hs ++ l ∧ ∀ a ∈ l, a ∈ as ∧ k.fact a = false ∧ k.fals a = false
  | [], m, hs, sat, hm, hs', sat', m', h => by
    simp only [headLoop, Prod.mk.injEq] at h
    obtain ⟨rfl, rfl, rfl⟩ := h
    exact ⟨rfl, hm, fun h => h, [], by simp, by simp⟩
  | a :: as, m, hs, sat, hm, hs', sat', m', h => by
    have hadd : ∀ sat, m.head a = false → k.fact a = false → k.fals a = false → headLoop k wt slack as (m.addToHead a) (hs ++ [a]) sat = (hs', sat', m') → m'.body = m.body ∧ (∀ a, m'.head a = true ↔ a ∈ hs') ∧
        (hs.Nodup → hs'.Nodup) ∧ ∃ l, hs' = hs ++ l ∧ ∀ b ∈ l, b ∈ a :: as ∧ k.fact b = false ∧ k.fals b = false := by
      intro sat hna hf1 hf2 h
      have hm2 : ∀ b, (m.addToHead a).head b = true ↔ b ∈ hs ++ [a] := by
        intro b
        simp only [Marks.addToHead, List.mem_append, List.mem_singleton]
        by_cases hq : b = a
        · simp [hq]
        · simp [hq, hm b]
      obtain ⟨g1, g2, g3, l, g4, g5⟩ := headLoop_marks hm2 h
      refine ⟨g1, g2, fun hn => g3 ?_, a :: l, by simp [g4], fun b hb => ?_⟩
      · rw [List.nodup_append]
        refine ⟨hn, by simp, fun x hx b hb e => ?_⟩
        simp at hb
        rw [e, hb] at hx
        rw [(hm a).2 hx] at hna; cases hna
      · rcases List.mem_cons.1 hb with rfl | hb
        · exact ⟨by simp, hf1, hf2⟩
        · exact ⟨by simp [(g5 b hb).1], (g5 b hb).2⟩
    have hskip : ∀ sat, headLoop k wt slack as m hs sat = (hs', sat', m') → m'.body = m.body ∧ (∀ a, m'.head a = true ↔ a ∈ hs') ∧
        (hs.Nodup → hs'.Nodup) ∧ ∃ l, hs' = hs ++ l ∧ ∀ b ∈ l, b ∈ a :: as ∧ k.fact b = false ∧ k.fals b = false := by
      intro sat h
      obtain ⟨g1, g2, g3, l, g4, g5⟩ := headLoop_marks hm h
      exact ⟨g1, g2, g3, l, g4, fun b hb => ⟨by simp [(g5 b hb).1], (g5 b hb).2⟩⟩
    unfold headLoop at h
    split at h
    · next hc => exact hadd _ hc.2.2.1 hc.2.2.2.1 hc.2.2.2.2 h
    · split at h
      · next hc =>
        split at h
        · exact hskip _ h
        · next hd =>
          push Not at hd
          split at h
          · exact hadd _ hc.2 (by simpa using hd.1) hc.1 h
          · exact hskip _ h
      · exact hskip _ h

theorem headLoop_sem (hK : K k X M) (hslack : 0 ≤ slack) : ∀ {as : List Nat} {m : Marks} {hs : List Nat} {sat : Bool}, (∀ a, m.head a = true ↔ a ∈ hs) →
    (∀ a, m.body ⟨a, false⟩ = true → wt ⟨a, false⟩ > slack → X a = true) → (∀ a, m.body ⟨a, true⟩ = true → wt ⟨a, true⟩ > slack → M a = false) →
    ∀ {hs' sat' m'}, headLoop k wt slack as m hs sat = (hs', sat', m') →
      ((sat' = true ∨ ∃ b ∈ hs', X b = true) ↔ (sat = true ∨ (∃ b ∈ hs, X b = true) ∨ ∃ b ∈ as, X b = true)) ∧
      ((∀ b ∈ hs', M b = true → X b = true) ↔ (∀ b ∈ hs, M b = true → X b = true) ∧ ∀ b ∈ as, M b = true → X b = true)
  | [], m, hs, sat, hm, hp, hn, hs', sat', m', h => by
    simp only [headLoop, Prod.mk.injEq] at h
    obtain ⟨rfl, rfl, rfl⟩ := h
    simp
  | a :: as, m, hs, sat, hm, hp, hn, hs', sat', m', h => by
    have hMX : M a = false → X a = false := fun h1 => by
      cases hx : X a with
      | false => rfl
      | true => rw [hK.sub a hx] at h1; cases h1
    have hadd : headLoop k wt slack as (m.addToHead a) (hs ++ [a]) sat = (hs', sat', m') → _ := fun h => by
      have hm2 : ∀ b, (m.addToHead a).head b = true ↔ b ∈ hs ++ [a] := by
        intro b
        simp only [Marks.addToHead, List.mem_append, List.mem_singleton]
        by_cases hq : b = a
        · simp [hq]
        · simp [hq, hm b]
      exact headLoop_sem hK hslack hm2 hp hn h
    have hadd' : headLoop k wt slack as (m.addToHead a) (hs ++ [a]) sat = (hs', sat', m') →
        ((sat' = true ∨ ∃ b ∈ hs', X b = true) ↔ (sat = true ∨ (∃ b ∈ hs, X b = true) ∨ ∃ b ∈ a :: as, X b = true)) ∧
      ((∀ b ∈ hs', M b = true → X b = true) ↔ (∀ b ∈ hs, M b = true → X b = true) ∧ ∀ b ∈ a :: as, M b = true → X b = true) := by
      intro h
      obtain ⟨g1, g2⟩ := hadd h
      refine ⟨g1.trans ?_, g2.trans ?_⟩
      · simp only [List.mem_append, List.mem_cons, List.not_mem_nil, or_false, or_and_right, exists_or, exists_eq_left, or_assoc]
      · simp only [List.mem_append, List.mem_cons, List.not_mem_nil, or_false, or_imp, forall_and, forall_eq, and_assoc]
    have hskip : ∀ sat0, ((sat0 = true ∨ (∃ b ∈ hs, X b = true)) ↔ (sat = true ∨ (∃ b ∈ hs, X b = true) ∨ X a = true)) → ((∀ b ∈ hs, M b = true → X b = true) → M a = true → X a = true) →
        headLoop k wt slack as m hs sat0 = (hs', sat', m') →
        ((sat' = true ∨ ∃ b ∈ hs', X b = true) ↔ (sat = true ∨ (∃ b ∈ hs, X b = true) ∨ ∃ b ∈ a :: as, X b = true)) ∧
      ((∀ b ∈ hs', M b = true → X b = true) ↔ (∀ b ∈ hs, M b = true → X b = true) ∧ ∀ b ∈ a :: as, M b = true → X b = true) := by
      intro sat0 e1 e2 h
      obtain ⟨g1, g2⟩ := headLoop_sem hK hslack hm hp hn h
      refine ⟨g1.trans ?_, g2.trans ?_⟩
      · rw [← or_assoc, e1]
        simp only [List.mem_cons, or_and_right, exists_or, exists_eq_left, or_assoc]
      · simp only [List.mem_cons, or_imp, forall_and, forall_eq]
        exact ⟨fun h => ⟨h.1, e2 h.1, h.2⟩, fun h => ⟨h.1, h.2.2⟩⟩
    unfold headLoop at h
    split at h
    · exact hadd' h
    · split at h
      · next hc =>
        split at h
        · next hd =>
          have hx : X a = true := by
            rcases hd with hd | hd
            · exact hK.fact a hd
            · unfold wIn at hd
              split at hd
              · next hb => exact hp a hb hd
              · omega
          exact hskip true (by simp [hx]) (fun _ _ => hx) h
        · next hd =>
          split at h
          · exact hadd' h
          · next he =>
            have hMa : M a = false := by
              unfold wIn at he
              split at he
              · next hb => exact hn a hb (by omega)
              · omega
            refine hskip sat ?_ ?_ h
            · simp [hMX hMa]
            · intro _ h; rw [hMa] at h; cases h
      · next hc =>
        by_cases hf : k.fals a = true
        · have hMa := hK.fals a hf
          refine hskip sat ?_ ?_ h
          · simp [hMX hMa]
          · intro _ h; rw [hMa] at h; cases h
        · have hin : a ∈ hs := (hm a).1 (by
            cases hb : m.head a with
            | true => rfl
            | false => exact absurd ⟨by simpa using hf, hb⟩ hc)
          refine hskip sat ⟨fun h => h.elim .inl fun h => .inr (.inl h), fun h => ?_⟩ (fun h => h a hin) h
          rcases h with h | h | h
          · exact .inl h
          · exact .inr h
          · exact .inr ⟨a, hin, h⟩

theorem ok_sat {r : Rule} : r.ok X M ↔ (r.body.holds X M = true → r.head.sat X M) := by
  obtain ⟨h, b⟩ := r
  cases h <;> rfl

/-- Proof device: what is required of the head of a rule after simplification. -/
structure HeadOk (k : Known) (h h' : Head) : Prop where
  kind : h'.isChoice = h.isChoice
  nodup : h'.atoms.Nodup
  sub : ∀ a ∈ h'.atoms, a ∈ h.atoms ∧ k.fact a = false ∧ k.fals a = false

theorem pushHead_spec {h : Head} (hm : ∀ a, m.head a = false) {keep h' m'} (he : pushHead k m h wt slack = (keep, h', m')) :
    (∀ a, m'.head a = false) ∧ (∀ q, m'.body q = true → m.body q = true) ∧ HeadOk k h h' ∧
    (K k X M → 0 ≤ slack → (∀ a, m.body ⟨a, false⟩ = true → wt ⟨a, false⟩ > slack → X a = true) → (∀ a, m.body ⟨a, true⟩ = true → wt ⟨a, true⟩ > slack → M a = false) →
      (h.sat X M ↔ (keep = true → h'.sat X M))) := by
  unfold pushHead at he
  cases hl : headLoop k wt slack h.atoms m [] false with
  | mk hs x =>
    obtain ⟨sat, m1⟩ := x
    rw [hl] at he
    simp only [Prod.mk.injEq] at he
    obtain ⟨rfl, rfl, rfl⟩ := he
    have hm0 : ∀ a, m.head a = true ↔ a ∈ ([] : List Nat) := fun a => by simp [hm a]
    obtain ⟨g1, g2, g3, l, g4, g5⟩ := headLoop_marks hm0 hl
    have ha : (h.like hs).atoms = hs := by cases h <;> rfl
    refine ⟨fun a => ?_, fun q hq => ?_, ⟨by cases h <;> rfl, by rw [ha]; exact g3 (by simp), fun a haa => ?_⟩, fun hK hs0 hp hn => ?_⟩
    · cases hx : (m1.clearAll hs).head a with
      | false => rfl
      | true =>
        rw [clearAll_head, g2] at hx
        exact absurd hx.1 hx.2
    · rw [clearAll_body, g1] at hq; exact hq.1
    · rw [ha, g4] at haa
      exact g5 a (by simpa using haa)
    · obtain ⟨e1, e2⟩ := headLoop_sem hK hs0 hm0 hp hn hl
      cases h with
      | disj as =>
        simp only [Head.sat, Head.like, Head.isChoice, Head.atoms, Bool.false_and, Bool.or_false, List.not_mem_nil, false_and, exists_false, false_or, Bool.false_eq_true] at *
        rw [← e1]
        cases sat <;> simp
      | choice as =>
        simp only [Head.sat, Head.like, Head.isChoice, Head.atoms, Bool.true_and, List.not_mem_nil, false_implies, implies_true, true_and] at *
        rw [← e2]
        constructor
        · exact fun h _ => h
        · intro h
          by_cases hh : hs = []
          · simp [hh]
          · exact h (by simp [hh])

end

/-! ### Normal rules -/

theorem simplifyNormal_spec {h : Head} {ls : List BLit} (hm : Clean m) {ro m'} (he : simplifyNormal k m h ls = (ro, m')) :
    Clean m' ∧ (∀ r, ro = some r → HeadOk k h r.head ∧ ∃ out, r.body = .conj out ∧ out.Nodup ∧ (∀ q ∈ out, q.compl ∉ out) ∧ ∀ q ∈ out, q ∈ ls ∧ litVal (k.val q.atom) (!q.neg) = none) ∧
    (K k X M → ((⟨h, .conj ls⟩ : Rule).ok X M ↔ ∀ r, ro = some r → r.ok X M)) := by
  unfold simplifyNormal at he
  cases hl : normLoop k ls m [] with
  | mk ok x =>
    obtain ⟨m1, out⟩ := x
    rw [hl] at he
    simp only [] at he
    obtain ⟨g1, g2, ⟨l, g3, g4⟩, g5, g6, g7⟩ := normLoop_spec (fun q => by simp [hm.1 q]) hl
    simp only [List.nil_append] at g3
    subst g3
    have hm1 : ∀ a, m1.head a = false := fun a => by rw [g2]; exact hm.2 a
    have hclean : ∀ m2 : Marks, (∀ a, m2.head a = false) → (∀ q, m2.body q = true → m1.body q = true) → Clean (m2.clearAll (out.map BLit.atom)) := by
      intro m2 h1 h2
      refine ⟨fun q => ?_, fun a => ?_⟩
      · cases hx : (m2.clearAll (out.map BLit.atom)).body q with
        | false => rfl
        | true =>
          rw [clearAll_body] at hx
          exact absurd (List.mem_map.2 ⟨q, (g1 q).1 (h2 q hx.1), rfl⟩) hx.2
      · cases hx : (m2.clearAll (out.map BLit.atom)).head a with
        | false => rfl
        | true => rw [clearAll_head, h1 a] at hx; cases hx.1
    cases ok with
    | false =>
      simp only [Bool.false_eq_true, if_false, Prod.mk.injEq] at he
      obtain ⟨rfl, rfl⟩ := he
      refine ⟨hclean m1 hm1 (fun _ h => h), fun r h => (by cases h), fun hK => ?_⟩
      have := (g7 X M hK).2 rfl
      simp only [List.all_nil, true_and] at this
      exact ⟨fun _ r h => (by cases h), fun _ hb => absurd hb this⟩
    | true =>
      cases hph : pushHead k m1 h (fun _ => 1) 0 with
      | mk keep y =>
        obtain ⟨h', m2⟩ := y
        rw [hph] at he
        simp only [if_true, Prod.mk.injEq] at he
        obtain ⟨rfl, rfl⟩ := he
        obtain ⟨p1, p2, p3, p4⟩ := pushHead_spec (X := X) (M := M) hm1 hph
        refine ⟨hclean m2 p1 p2, fun r hr => ?_, fun hK => ?_⟩
        · split at hr <;> cases hr
          exact ⟨p3, out, rfl, g5 (by simp), g6 (by simp), g4⟩
        · have e1 := (g7 X M hK).1 rfl
          simp only [List.all_nil, true_and] at e1
          rw [ok_sat]
          simp only [Body.holds]
          rw [← e1]
          have key : out.all (·.holds X M) = true → (h.sat X M ↔ (keep = true → h'.sat X M)) := by
            intro ho
            refine p4 hK (by omega) (fun a ha _ => ?_) fun a ha _ => ?_
            · have := List.all_eq_true.1 ho _ ((g1 _).1 ha)
              simpa [BLit.holds] using this
            · have := List.all_eq_true.1 ho _ ((g1 _).1 ha)
              simpa [BLit.holds] using this
          constructor
          · intro h1 r hr
            split at hr <;> cases hr
            next hk =>
            rw [ok_sat]
            exact fun ho => (key ho).1 (h1 ho) hk
          · intro h1 ho
            refine (key ho).2 fun hk => ?_
            have := h1 _ (by rw [if_pos hk])
            rw [ok_sat] at this
            exact this ho

end Clasp.Asp.Simp
