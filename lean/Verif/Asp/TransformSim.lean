import Verif.Asp.TransformLem

/-! Rules that define an atom by a condition, and the rules for a choice (C26). No code is modelled in this file; it contains proof devices only. -/

namespace Clasp.Asp

/-- Proof device: the rules `R` derive `h` exactly if `S` holds; the new atoms are those from `m` on, before `m'`, and get the values `D`. -/
structure Sim (n m m' : Nat) (S : AtomSet → AtomSet → Prop) (h : Nat) (R : List Rule) (D : AtomSet → AtomSet → AtomSet) : Prop where
  le : m ≤ m'
  rng : ∀ X M a, D X M a = true → m ≤ a ∧ a < m'
  cong : ∀ X Y M N, (∀ a < n, X a = Y a) → (∀ a < n, M a = N a) → D X M = D Y N
  scong : ∀ X Y M N, (∀ a < n, X a = Y a) → (∀ a < n, M a = N a) → (S X M ↔ S Y N)
  mono : ∀ X Y M, Sub X Y → Sub (D X M) (D Y M)
  smono : ∀ X Y M, Sub X Y → S X M → S Y M
  sound : ∀ X M, Closed R X M → Sub (D X M) X ∧ (S X M → Got X h)
  complete : ∀ X M, (∀ a, m ≤ a → a < m' → X a = D X M a) → (S X M → Got X h) → Closed R X M

variable {n m m' h : Nat} {S : AtomSet → AtomSet → Prop} {R : List Rule} {D : AtomSet → AtomSet → AtomSet}

/-- Proof device: the atoms below `n` from `X`, the new ones from `D`. -/
def glue (n : Nat) (D : AtomSet → AtomSet → AtomSet) (X M : AtomSet) : AtomSet := fun a => if a < n then X a else D X M a

theorem glue_lt {X M : AtomSet} {a : Nat} (h : a < n) : glue n D X M a = X a := by simp [glue, h]
theorem glue_ge {X M : AtomSet} {a : Nat} (h : n ≤ a) : glue n D X M a = D X M a := by simp [glue, Nat.not_lt.2 h]

theorem glue_cong (hD : ∀ X Y M N, (∀ a < n, X a = Y a) → (∀ a < n, M a = N a) → D X M = D Y N) (X Y M N : AtomSet) (h1 : ∀ a < n, X a = Y a)
    (h2 : ∀ a < n, M a = N a) : glue n D X M = glue n D Y N := by
  funext a
  unfold glue
  split
  · exact h1 a ‹_›
  · rw [hD X Y M N h1 h2]

theorem Got.congr {X Y : AtomSet} (hh : h < n) (hX : ∀ a < n, X a = Y a) (hg : Got X h) : Got Y h := ⟨hg.1, by rw [← hX h hh]; exact hg.2⟩

/-- A sum rule whose head is an atom below `n`, or which has no head. -/
theorem Sim.ext {ls : List (BLit × Int)} {bound : Int} (hs : Sim n n m' (fun X M => bound ≤ wsum X M ls) h R D) (hh : h < n) :
    Ext n ⟨headOf h, .sum ls bound⟩ R (glue n D) := by
  refine ⟨fun X M a ha => glue_lt ha, glue_cong hs.cong, fun M hc => ?_, fun X M hX hc => ?_, fun X M hX => ⟨fun a ha => ?_, fun hok => ?_⟩⟩
  · obtain ⟨h1, h2⟩ := hs.sound M M hc
    refine ⟨fun a ha => ?_, hs.complete _ _ (fun a ha _ => ?_) fun hS => ?_⟩
    · by_cases hn : a < n
      · rwa [glue_lt hn] at ha
      · rw [glue_ge (Nat.not_lt.1 hn)] at ha; exact h1 a ha
    · rw [glue_ge ha, hs.cong (glue n D M M) M M M (fun a ha => glue_lt ha) fun _ _ => rfl]
    · exact (h2 ((hs.scong (glue n D M M) M M M (fun a ha => glue_lt ha) fun _ _ => rfl).1 hS)).congr hh fun a ha => (glue_lt ha).symm
  · have hlow : ∀ a < n, glue n D M M a = M a := fun a ha => glue_lt ha
    obtain ⟨h1, h2⟩ := hs.sound X _ hc
    refine ⟨fun a ha => ?_, head_ok.2 fun hb => h2 ((hs.scong X X _ M (fun _ _ => rfl) hlow).2 hb)⟩
    by_cases hn : a < n
    · rwa [glue_lt hn] at ha
    · rw [glue_ge (Nat.not_lt.1 hn), ← hs.cong X X (glue n D M M) M (fun _ _ => rfl) hlow] at ha
      exact h1 a ha
  · by_cases hn : a < n
    · rw [glue_lt hn] at ha ⊢; exact hX a ha
    · rw [glue_ge (Nat.not_lt.1 hn)] at ha ⊢; exact hs.mono X M M hX a ha
  · rw [head_ok] at hok
    refine hs.complete _ _ (fun a ha _ => ?_) fun hS => ?_
    · rw [glue_ge ha, hs.cong (glue n D X M) X (glue n D M M) M (fun a ha => glue_lt ha) fun a ha => glue_lt ha]
    · exact (hok ((hs.scong (glue n D X M) X (glue n D M M) M (fun a ha => glue_lt ha) fun a ha => glue_lt ha).1 hS)).congr hh fun a ha => (glue_lt ha).symm

/-- Proof device: the values of the new atoms if the body gets the new atom `n`. -/
def addAux (n : Nat) (S : AtomSet → AtomSet → Bool) (D : AtomSet → AtomSet → AtomSet) (X M : AtomSet) : AtomSet := fun a => if a = n then S X M else D X M a

theorem addAux_self {S : AtomSet → AtomSet → Bool} {X M : AtomSet} : addAux n S D X M n = S X M := by simp [addAux]
theorem addAux_ne {S : AtomSet → AtomSet → Bool} {X M : AtomSet} {a : Nat} (h : a ≠ n) : addAux n S D X M a = D X M a := by simp [addAux, h]

/-- Proof device: the head of a rule is satisfied. -/
def Head.sat (X M : AtomSet) : Head → Prop
  | .disj as => ∃ a ∈ as, X a = true
  | .choice as => ∀ a ∈ as, M a = true → X a = true

/-- A rule with a sum as body and a choice or disjunction as head: the sum gets a new atom. -/
theorem Sim.extAux {hd : Head} {ls : List (BLit × Int)} {bound : Int} (hs : Sim n (n + 1) m' (fun X M => bound ≤ wsum X M ls) n R D) (hn0 : n ≠ 0) (hh : ∀ a ∈ hd.atoms, a < n) :
    Ext n ⟨hd, .sum ls bound⟩ (⟨hd, .conj [⟨n, false⟩]⟩ :: R) (glue n (addAux n (fun X M => decide (bound ≤ wsum X M ls)) D)) := by
  generalize hE : glue n (addAux n (fun X M => decide (bound ≤ wsum X M ls)) D) = E
  have low : ∀ X M a, a < n → E X M a = X a := by intro X M a ha; rw [← hE, glue_lt ha]
  have mid : ∀ X M, E X M n = decide (bound ≤ wsum X M ls) := by intro X M; rw [← hE, glue_ge (Nat.le_refl n), addAux_self]
  have high : ∀ X M a, n + 1 ≤ a → E X M a = D X M a := by
    intro X M a ha; rw [← hE, glue_ge (Nat.le_of_succ_le ha), addAux_ne (by omega)]
  have cases3 : ∀ a, a < n ∨ a = n ∨ n + 1 ≤ a := by omega
  have hcl : ∀ X M, Closed (⟨hd, .conj [⟨n, false⟩]⟩ :: R) X M ↔ (X n = true → hd.sat X M) ∧ Closed R X M := by
    intro X M
    rw [show (⟨hd, .conj [⟨n, false⟩]⟩ :: R : List Rule) = [⟨hd, .conj [⟨n, false⟩]⟩] ++ R from rfl, closed_append, closed_single]
    cases hd <;> simp [Rule.ok, Body.holds, BLit.holds, Head.sat]
  have hcomp : ∀ X M N, Sub X M → (∀ a < n, N a = M a) → Closed R (E X M) N := by
    intro X M N hX hN
    refine hs.complete _ _ (fun a ha _ => ?_) fun hS => ⟨?_, ?_⟩
    · rw [high _ _ _ ha, hs.cong (E X M) X N M (fun a ha => low _ _ _ ha) hN]
    · exact hn0
    · rw [mid]; exact decide_eq_true ((hs.scong (E X M) X N M (fun a ha => low _ _ _ ha) hN).1 hS)
  refine ⟨low, ?_, fun M hc => ?_, fun X M hX hc => ?_, fun X M hX => ⟨fun a ha => ?_, fun hok => ?_⟩⟩
  · intro X Y M N h1 h2
    rw [← hE]
    refine glue_cong (fun X Y M N h1 h2 => ?_) X Y M N h1 h2
    funext a
    unfold addAux
    rw [hs.cong X Y M N h1 h2]
    have := hs.scong X Y M N h1 h2
    simp only [this]
  · rw [hcl] at hc
    obtain ⟨h1, h2⟩ := hs.sound M M hc.2
    refine ⟨fun a ha => ?_, (hcl _ _).2 ⟨fun hn => ?_, hcomp M M M (fun _ h => h) fun _ _ => rfl⟩⟩
    · rcases cases3 a with hn | hn | hn
      · rwa [low _ _ _ hn] at ha
      · subst hn; rw [mid] at ha; exact (h2 (of_decide_eq_true ha)).2
      · rw [high _ _ _ hn] at ha; exact h1 a ha
    · rw [mid] at hn
      have := hc.1 (h2 (of_decide_eq_true hn)).2
      cases hd with
      | disj as => obtain ⟨a, ha, hm⟩ := this; exact ⟨a, ha, by rw [low _ _ _ (hh a ha)]; exact hm⟩
      | choice as => intro a ha hm; rw [low _ _ _ (hh a ha)]; exact hm
  · rw [hcl] at hc
    have hlow : ∀ a < n, E M M a = M a := fun a ha => low _ _ _ ha
    obtain ⟨h1, h2⟩ := hs.sound X _ hc.2
    have h3 : bound ≤ wsum X M ls → X n = true := fun hb => (h2 ((hs.scong X X _ M (fun _ _ => rfl) hlow).2 hb)).2
    refine ⟨fun a ha => ?_, fun hb => ?_⟩
    · rcases cases3 a with hn | hn | hn
      · rwa [low _ _ _ hn] at ha
      · subst hn; rw [mid] at ha; exact h3 (of_decide_eq_true ha)
      · rw [high _ _ _ hn, ← hs.cong X X (E M M) M (fun _ _ => rfl) hlow] at ha; exact h1 a ha
    · have := hc.1 (h3 (of_decide_eq_true hb))
      cases hd with
      | disj as => exact this
      | choice as => intro a ha hm; exact this a ha (by rw [hlow a (hh a ha)]; exact hm)
  · rcases cases3 a with hn | hn | hn
    · rw [low _ _ _ hn] at ha ⊢; exact hX a ha
    · subst hn; rw [mid] at ha ⊢; exact decide_eq_true (hs.smono X M M hX (of_decide_eq_true ha))
    · rw [high _ _ _ hn] at ha ⊢; exact hs.mono X M M hX a ha
  · refine (hcl _ _).2 ⟨fun hn => ?_, hcomp X M _ hX fun a ha => low _ _ _ ha⟩
    rw [mid] at hn
    have := hok (by simpa [Body.holds] using of_decide_eq_true hn)
    cases hd with
    | disj as => obtain ⟨a, ha, hm⟩ := this; exact ⟨a, ha, by rw [low _ _ _ (hh a ha)]; exact hm⟩
    | choice as =>
      intro a ha hm
      rw [low _ _ _ (hh a ha)] at hm ⊢
      exact this a ha hm

/-! ### Choice rules -/

theorem choice_next (lits : List BLit) : ∀ (as : List Nat) (next : Nat), (transformChoice lits as next).2 = next + as.length
  | [], _ => rfl
  | a :: as, next => by
    unfold transformChoice
    simp only [List.length_cons]
    rw [choice_next lits as (next + 1)]; omega

theorem choice_mem (lits : List BLit) : ∀ (as : List Nat) (next : Nat) (r : Rule), r ∈ (transformChoice lits as next).1 ↔
    ∃ i a, as[i]? = some a ∧ (r = mkRule a (lits ++ [⟨next + i, true⟩]) ∨ r = mkRule (next + i) [⟨a, true⟩])
  | [], _, _ => by simp [transformChoice]
  | a :: as, next, r => by
    unfold transformChoice
    simp only [List.mem_cons]
    rw [choice_mem lits as (next + 1) r]
    constructor
    · rintro (h | h | ⟨i, b, h1, h2⟩)
      · exact ⟨0, a, rfl, .inl h⟩
      · exact ⟨0, a, rfl, .inr h⟩
      · refine ⟨i + 1, b, h1, ?_⟩
        rw [show next + (i + 1) = next + 1 + i from by omega]; exact h2
    · rintro ⟨i, b, h1, h2⟩
      cases i with
      | zero =>
        simp only [List.getElem?_cons_zero, Option.some.injEq] at h1
        subst h1
        exact h2.elim .inl fun h => .inr (.inl h)
      | succ i =>
        refine .inr (.inr ⟨i, b, h1, ?_⟩)
        rw [show next + 1 + i = next + (i + 1) from by omega]; exact h2

/-- Proof device: what the new atoms for the head atoms mean. -/
def choiceD (as : List Nat) (next : Nat) (M : AtomSet) : AtomSet := fun a => match as[a - next]? with
  | some h => decide (next ≤ a) && !M h
  | none => false

theorem choiceD_at {as : List Nat} {next i a : Nat} {M : AtomSet} (h : as[i]? = some a) : choiceD as next M (next + i) = !M a := by
  simp [choiceD, h]

theorem choiceD_inv {as : List Nat} {next b : Nat} {M : AtomSet} (h : choiceD as next M b = true) : ∃ i a, as[i]? = some a ∧ b = next + i ∧ M a = false := by
  unfold choiceD at h
  split at h
  · next a ha =>
    simp only [Bool.and_eq_true, decide_eq_true_eq, Bool.not_eq_true'] at h
    exact ⟨b - next, a, ha, by omega, h.2⟩
  · cases h

theorem choiceD_cong {as : List Nat} {next : Nat} {M N : AtomSet} (hn : ∀ a ∈ as, a < n) (h : ∀ a < n, M a = N a) : choiceD as next M = choiceD as next N := by
  funext b
  unfold choiceD
  split
  · next a ha => rw [h a (hn a (List.mem_of_getElem? ha))]
  · rfl

/-- Rules for a choice whose literals `lits` stand for the condition of the rule. -/
theorem choice_closed {lits : List BLit} {as : List Nat} {next : Nat} {X M : AtomSet} (h0 : ∀ a ∈ as, a ≠ 0) (hn : next ≠ 0) :
    Closed (transformChoice lits as next).1 X M ↔ ∀ i a, as[i]? = some a →
      ((lits.all (·.holds X M) = true → M (next + i) = false → X a = true) ∧ (M a = false → X (next + i) = true)) := by
  unfold Closed
  constructor
  · intro h i a hi
    have h1 := h _ ((choice_mem lits as next _).2 ⟨i, a, hi, .inl rfl⟩)
    have h2 := h _ ((choice_mem lits as next _).2 ⟨i, a, hi, .inr rfl⟩)
    rw [mkRule_ok (h0 a (List.mem_of_getElem? hi))] at h1
    rw [mkRule_ok (by omega)] at h2
    simp only [List.all_append, List.all_cons, List.all_nil, BLit.holds, Bool.and_eq_true, if_true, Bool.not_eq_true', Bool.and_true] at h1 h2
    exact ⟨fun g1 g2 => h1 ⟨g1, g2⟩, h2⟩
  · intro h r hr
    obtain ⟨i, a, hi, hr⟩ := (choice_mem lits as next _).1 hr
    obtain ⟨h1, h2⟩ := h i a hi
    rcases hr with rfl | rfl
    · rw [mkRule_ok (h0 a (List.mem_of_getElem? hi))]
      simp only [List.all_append, List.all_cons, List.all_nil, BLit.holds, Bool.and_eq_true, if_true, Bool.not_eq_true', Bool.and_true]
      exact fun g => h1 g.1 g.2
    · rw [mkRule_ok (by omega)]
      simp only [List.all_cons, List.all_nil, BLit.holds, if_true, Bool.not_eq_true', Bool.and_true]
      exact h2

theorem choice_ok {as : List Nat} {cond : List BLit} {X M : AtomSet} :
    (Rule.mk (.choice as) (.conj cond)).ok X M ↔ (cond.all (·.holds X M) = true → ∀ i a : Nat, as[i]? = some a → M a = true → X a = true) := by
  unfold Rule.ok Body.holds
  refine forall_congr' fun _ => ⟨fun h i a hi => h a (List.mem_of_getElem? hi), fun h a ha => ?_⟩
  obtain ⟨i, hi⟩ := List.mem_iff_getElem?.1 ha
  exact h i a hi

/-- A choice rule without new atom for the body. -/
theorem choice_ext {as : List Nat} {cond : List BLit} (h0 : ∀ a ∈ as, a ≠ 0) (hn : n ≠ 0) (has : ∀ a ∈ as, a < n) (hc : ∀ l ∈ cond, l.atom < n) :
    Ext n ⟨.choice as, .conj cond⟩ (transformChoice cond as n).1 (glue n fun _ M => choiceD as n M) := by
  have hall : ∀ {X Y M N : AtomSet}, (∀ a < n, X a = Y a) → (∀ a < n, M a = N a) → cond.all (·.holds X M) = cond.all (·.holds Y N) := by
    intro X Y M N h1 h2
    exact body_below (b := .conj cond) hc h1 h2
  have low : ∀ X M a, a < n → glue n (fun _ M => choiceD as n M) X M a = X a := fun X M a ha => glue_lt ha
  have high : ∀ (X M : AtomSet) (i a : Nat), as[i]? = some a → glue n (fun _ M => choiceD as n M) X M (n + i) = !M a := by
    intro X M i a hi; rw [glue_ge (by omega), choiceD_at hi]
  have lt : ∀ {i a : Nat}, as[i]? = some a → a < n := fun hi => has _ (List.mem_of_getElem? hi)
  refine ⟨low, glue_cong fun _ _ M N _ h => choiceD_cong has h, fun M h => ?_, fun X M hX h => ?_, fun X M hX => ⟨fun a ha => ?_, fun hok => ?_⟩⟩
  · rw [choice_closed h0 hn] at h
    refine ⟨fun a ha => ?_, (choice_closed h0 hn).2 fun i a hi => ⟨fun g1 g2 => ?_, fun g => ?_⟩⟩
    · by_cases hlt : a < n
      · rwa [low _ _ _ hlt] at ha
      · rw [glue_ge (Nat.not_lt.1 hlt)] at ha
        obtain ⟨i, b, hi, rfl, hm⟩ := choiceD_inv ha
        exact (h i b hi).2 hm
    · rw [low _ _ _ (lt hi)]
      rw [hall (fun a ha => low M M a ha) fun _ _ => rfl] at g1
      exact (h i a hi).1 g1 g2
    · rw [high _ _ _ _ hi, g]; rfl
  · rw [choice_closed h0 hn] at h
    refine ⟨fun a ha => ?_, choice_ok.2 fun g i a hi hm => (h i a hi).1 ?_ ?_⟩
    · by_cases hlt : a < n
      · rwa [low _ _ _ hlt] at ha
      · rw [glue_ge (Nat.not_lt.1 hlt)] at ha
        obtain ⟨i, b, hi, rfl, hm⟩ := choiceD_inv ha
        exact (h i b hi).2 (by rw [low _ _ _ (lt hi)]; exact hm)
    · rw [hall (fun _ _ => rfl) fun a ha => low M M a ha]; exact g
    · rw [high _ _ _ _ hi, hm]; rfl
  · by_cases hlt : a < n
    · rw [low _ _ _ hlt] at ha ⊢; exact hX a ha
    · rw [glue_ge (Nat.not_lt.1 hlt)] at ha ⊢; exact ha
  · rw [choice_ok] at hok
    refine (choice_closed h0 hn).2 fun i a hi => ⟨fun g1 g2 => ?_, fun g => ?_⟩
    · rw [hall (fun a ha => low X M a ha) fun a ha => low M M a ha] at g1
      rw [high _ _ _ _ hi] at g2
      rw [low _ _ _ (lt hi)]
      exact hok g1 i a hi (by simpa using g2)
    · rw [low _ _ _ (lt hi)] at g
      rw [high _ _ _ _ hi, g]; rfl

/-- A choice rule with a new atom for the body. -/
theorem choice_extAux {as : List Nat} {cond : List BLit} (h0 : ∀ a ∈ as, a ≠ 0) (hn : n ≠ 0) (has : ∀ a ∈ as, a < n) (hc : ∀ l ∈ cond, l.atom < n) :
    Ext n ⟨.choice as, .conj cond⟩ (mkRule n cond :: (transformChoice [⟨n, false⟩] as (n + 1)).1)
      (glue n (addAux n (fun X M => cond.all (·.holds X M)) fun _ M => choiceD as (n + 1) M)) := by
  have hall : ∀ {X Y M N : AtomSet}, (∀ a < n, X a = Y a) → (∀ a < n, M a = N a) → cond.all (·.holds X M) = cond.all (·.holds Y N) := by
    intro X Y M N h1 h2
    exact body_below (b := .conj cond) hc h1 h2
  generalize hE : glue n (addAux n (fun X M => cond.all (·.holds X M)) fun _ M => choiceD as (n + 1) M) = E
  have low : ∀ X M a, a < n → E X M a = X a := by intro X M a ha; rw [← hE, glue_lt ha]
  have mid : ∀ X M, E X M n = cond.all (·.holds X M) := by intro X M; rw [← hE, glue_ge (Nat.le_refl n), addAux_self]
  have high' : ∀ X M a, n + 1 ≤ a → E X M a = choiceD as (n + 1) M a := by
    intro X M a ha; rw [← hE, glue_ge (Nat.le_of_succ_le ha), addAux_ne (by omega)]
  have high : ∀ (X M : AtomSet) (i a : Nat), as[i]? = some a → E X M (n + 1 + i) = !M a := by
    intro X M i a hi; rw [high' _ _ _ (by omega), choiceD_at hi]
  have lt : ∀ {i a : Nat}, as[i]? = some a → a < n := fun hi => has _ (List.mem_of_getElem? hi)
  have cases3 : ∀ a, a < n ∨ a = n ∨ n + 1 ≤ a := by omega
  have hcl : ∀ X M, Closed (mkRule n cond :: (transformChoice [⟨n, false⟩] as (n + 1)).1) X M ↔ (cond.all (·.holds X M) = true → X n = true) ∧
      ∀ i a, as[i]? = some a → ((X n = true → M (n + 1 + i) = false → X a = true) ∧ (M a = false → X (n + 1 + i) = true)) := by
    intro X M
    rw [show (mkRule n cond :: (transformChoice [⟨n, false⟩] as (n + 1)).1) = [mkRule n cond] ++ (transformChoice [⟨n, false⟩] as (n + 1)).1 from rfl,
      closed_append, closed_single, mkRule_ok hn, choice_closed h0 (by omega)]
    simp [BLit.holds]
  refine ⟨low, ?_, fun M h => ?_, fun X M hX h => ?_, fun X M hX => ⟨fun a ha => ?_, fun hok => ?_⟩⟩
  · intro X Y M N h1 h2
    rw [← hE]
    refine glue_cong (fun X Y M N h1 h2 => ?_) X Y M N h1 h2
    funext a
    unfold addAux
    simp only []
    rw [hall h1 h2, choiceD_cong has h2]
  · rw [hcl] at h
    obtain ⟨h1, h⟩ := h
    refine ⟨fun a ha => ?_, (hcl _ _).2 ⟨fun g => ?_, fun i a hi => ⟨fun g1 g2 => ?_, fun g => ?_⟩⟩⟩
    · rcases cases3 a with hlt | hlt | hlt
      · rwa [low _ _ _ hlt] at ha
      · subst hlt; rw [mid] at ha; exact h1 ha
      · rw [high' _ _ _ hlt] at ha
        obtain ⟨i, b, hi, rfl, hm⟩ := choiceD_inv ha
        exact (h i b hi).2 hm
    · rw [mid, ← hall (fun a ha => low M M a ha) fun _ _ => rfl]; exact g
    · rw [low _ _ _ (lt hi)]
      rw [mid] at g1
      exact (h i a hi).1 (h1 g1) g2
    · rw [high _ _ _ _ hi, g]; rfl
  · rw [hcl] at h
    obtain ⟨h1, h⟩ := h
    rw [hall (fun _ _ => rfl) fun a ha => low M M a ha] at h1
    refine ⟨fun a ha => ?_, choice_ok.2 fun g i a hi hm => (h i a hi).1 (h1 g) ?_⟩
    · rcases cases3 a with hlt | hlt | hlt
      · rwa [low _ _ _ hlt] at ha
      · subst hlt; rw [mid] at ha; exact h1 ha
      · rw [high' _ _ _ hlt] at ha
        obtain ⟨i, b, hi, rfl, hm⟩ := choiceD_inv ha
        exact (h i b hi).2 (by rw [low _ _ _ (lt hi)]; exact hm)
    · rw [high _ _ _ _ hi, hm]; rfl
  · rcases cases3 a with hlt | hlt | hlt
    · rw [low _ _ _ hlt] at ha ⊢; exact hX a ha
    · subst hlt; rw [mid] at ha ⊢
      exact (Body.conj cond).holds_mono hX trivial ha
    · rw [high' _ _ _ hlt] at ha ⊢; exact ha
  · rw [choice_ok] at hok
    refine (hcl _ _).2 ⟨fun g => ?_, fun i a hi => ⟨fun g1 g2 => ?_, fun g => ?_⟩⟩
    · rw [mid, ← hall (fun a ha => low X M a ha) fun a ha => low M M a ha]; exact g
    · rw [mid] at g1
      rw [high _ _ _ _ hi] at g2
      rw [low _ _ _ (lt hi)]
      exact hok g1 i a hi (by simpa using g2)
    · rw [low _ _ _ (lt hi)] at g
      rw [high _ _ _ _ hi, g]; rfl

end Clasp.Asp
