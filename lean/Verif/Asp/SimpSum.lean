import Verif.Asp.SimpLem
import Verif.Asp.TransformRule

/-! Lemmas for C27: sums. -/

namespace Clasp.Asp.Simp

variable {k : Known} {m : Marks} {X M : AtomSet}

/-- Proof device: the literals of a sum. -/
def keys (out : List (BLit × Int)) : List BLit := out.map Prod.fst

theorem findW_none {p : BLit} : ∀ {out : List (BLit × Int)}, findW p out = none ↔ p ∉ keys out
  | [] => by simp [findW, keys]
  | x :: r => by
    unfold findW
    by_cases h : x.1 = p
    · simp [h, keys]
    · rw [if_neg h, findW_none]
      simp [keys, Ne.symm h]

theorem findW_mem {p : BLit} {w : Int} : ∀ {out : List (BLit × Int)}, findW p out = some w → (p, w) ∈ out
  | [], h => by cases h
  | x :: r, h => by
    unfold findW at h
    split at h
    · next e => cases h; rw [← e]; simp
    · exact List.mem_cons_of_mem _ (findW_mem h)

theorem findW_of_mem {p : BLit} {w : Int} : ∀ {out : List (BLit × Int)}, (keys out).Nodup → (p, w) ∈ out → findW p out = some w
  | x :: r, hn, h => by
    unfold findW
    rcases List.mem_cons.1 h with rfl | h
    · simp
    · have : x.1 ≠ p := fun e => by
        simp only [keys, List.map_cons, List.nodup_cons] at hn
        exact hn.1 (List.mem_map.2 ⟨(p, w), h, e.symm⟩)
      rw [if_neg this]
      exact findW_of_mem (by simp only [keys, List.map_cons, List.nodup_cons] at hn; exact hn.2) h

theorem addW_keys {p : BLit} {w : Int} : ∀ {out : List (BLit × Int)}, keys (addW p w out) = keys out
  | [] => rfl
  | x :: r => by
    unfold addW
    split
    · rfl
    · simp only [keys, List.map_cons]
      have := addW_keys (p := p) (w := w) (out := r)
      simp only [keys] at this
      rw [this]

theorem addW_wsum {p : BLit} {w : Int} : ∀ {out : List (BLit × Int)}, p ∈ keys out → wsum X M (addW p w out) = wsum X M out + if p.holds X M then w else 0
  | [], h => by simp [keys] at h
  | (q, v) :: r, h => by
    unfold addW
    by_cases e : q = p
    · subst e
      simp only [if_true, wsum]
      split <;> omega
    · simp only [e, if_false, wsum]
      have := addW_wsum (w := w) (out := r) (p := p) (by
        simp only [keys, List.map_cons, List.mem_cons] at h
        exact h.resolve_left (fun e' => e e'.symm))
      omega

theorem addW_tot {p : BLit} {w : Int} : ∀ {out : List (BLit × Int)}, p ∈ keys out → tot (addW p w out) = tot out + w
  | [], h => by simp [keys] at h
  | (q, v) :: r, h => by
    unfold addW
    by_cases e : q = p
    · subst e
      simp only [if_true, tot_cons]
      omega
    · simp only [e, if_false, tot_cons]
      have := addW_tot (w := w) (out := r) (p := p) (by
        simp only [keys, List.map_cons, List.mem_cons] at h
        exact h.resolve_left (fun e' => e e'.symm))
      omega

theorem addW_mem {p : BLit} {w : Int} : ∀ {out : List (BLit × Int)} {y : BLit × Int}, y ∈ addW p w out → y ∈ out ∨ ∃ w', findW p out = some w' ∧ y = (p, w' + w)
  | [], y, h => by cases h
  | (q, v) :: r, y, h => by
    unfold addW at h
    by_cases e : q = p
    · subst e
      simp only [if_true, List.mem_cons] at h
      rcases h with rfl | h
      · right; exact ⟨v, by simp [findW], rfl⟩
      · left; simp [h]
    · simp only [e, if_false, List.mem_cons] at h
      rcases h with rfl | h
      · left; simp
      · rcases addW_mem h with h | ⟨w', h1, h2⟩
        · left; simp [h]
        · right; exact ⟨w', by simp [findW, e, h1], h2⟩

theorem wt_le_tot : ∀ {out : List (BLit × Int)}, (∀ x ∈ out, 0 ≤ x.2) → ∀ x ∈ out, x.2 ≤ tot out
  | y :: r, h, x, hx => by
    have h0 : 0 ≤ tot r := by
      have := wsum_le_tot (X := fun _ => false) (M := fun _ => false) (ls := r) fun x hx => h x (by simp [hx])
      have := wsum_nonneg (X := fun _ => false) (M := fun _ => false) (ls := r) fun x hx => h x (by simp [hx])
      omega
    have hy := h y (by simp)
    rw [tot_cons]
    rcases List.mem_cons.1 hx with rfl | hx
    · omega
    · have := wt_le_tot (out := r) (fun x hx => h x (by simp [hx])) x hx
      omega

theorem tot_nonneg {out : List (BLit × Int)} (h : ∀ x ∈ out, 0 ≤ x.2) : 0 ≤ tot out := by
  have h1 := wsum_le_tot (X := fun _ => false) (M := fun _ => false) (ls := out) h
  have h2 := wsum_nonneg (X := fun _ => false) (M := fun _ => false) (ls := out) h
  omega

theorem tot_append {a b : List (BLit × Int)} : tot (a ++ b) = tot a + tot b := by
  induction a with
  | nil => simp
  | cons x r ih => simp only [List.cons_append, tot_cons, ih]; omega

theorem wsum_append {a b : List (BLit × Int)} : wsum X M (a ++ b) = wsum X M a + wsum X M b := by
  induction a with
  | nil => simp [wsum]
  | cons x r ih => obtain ⟨p, w⟩ := x; simp only [List.cons_append, wsum, ih]; omega

/-! ### The first loop -/

/-- Proof device: invariant of the first loop. -/
structure SInv (k : Known) (s : SumSt) : Prop where
  nodup : (keys s.out).Nodup
  pos : ∀ x ∈ s.out, 1 ≤ x.2
  marks : ∀ q, s.m.body q = true ↔ q ∈ keys s.out
  hd : ∀ a, s.m.head a = false
  sum : s.sumW = tot s.out
  le : s.sumW ≤ wMax
  max : ∀ x ∈ s.out, x.2 ≤ s.maxW
  min : ∀ x ∈ s.out, s.minW ≤ x.2
  max1 : 1 ≤ s.maxW
  min1 : 1 ≤ s.minW ∧ s.minW ≤ wMax
  free : ∀ q ∈ keys s.out, litVal (k.val q.atom) (!q.neg) = none
  clean : s.dirty = 0 → ∀ q ∈ keys s.out, q.compl ∉ keys s.out

theorem sumFree_spec {p : BLit} {w : Int} {s : SumSt} (hs : SInv k s) (hw : 1 ≤ w) (hf : litVal (k.val p.atom) (!p.neg) = none) :
    (wMax < s.sumW + w ∧ sumFree p w s = .error .overflow) ∨
    (s.sumW + w ≤ wMax ∧ ∃ s', sumFree p w s = .ok s' ∧ SInv k s' ∧ s'.bound = s.bound ∧ s'.sumW = s.sumW + w ∧ (∀ q ∈ keys s'.out, q ∈ keys s.out ∨ q = p) ∧
      ∀ X M, wsum X M s'.out = wsum X M s.out + if p.holds X M then w else 0) := by
  obtain ⟨h1, h2, h3, h4, h5, h6, h7, h8, h9, h10, h11, h12⟩ := hs
  unfold sumFree
  by_cases ho : wMax - s.sumW < w
  · left; rw [if_pos ho]; exact ⟨by omega, rfl⟩
  · right
    rw [if_neg ho]
    refine ⟨by omega, ?_⟩
    have hne : p.compl ≠ p := fun e => by have := congrArg BLit.neg e; simp [BLit.compl] at this
    by_cases hb : s.m.body p = false
    · rw [if_pos hb]
      have hp : p ∉ keys s.out := fun h => by rw [(h3 p).2 h] at hb; cases hb
      have hk : keys (s.out ++ [(p, w)]) = keys s.out ++ [p] := by simp [keys]
      refine ⟨_, rfl, ⟨?_, ?_, ?_, h4, ?_, ?_, ?_, ?_, ?_, ?_, ?_, ?_⟩, rfl, rfl, ?_, ?_⟩
      · simp only [hk, List.nodup_append]
        exact ⟨h1, by simp, fun a ha b hb e => by simp at hb; rw [← hb, ← e] at hp; exact hp ha⟩
      · intro x hx
        rcases List.mem_append.1 hx with hx | hx
        · exact h2 x hx
        · simp at hx; rw [hx]; exact hw
      · intro q
        simp only [hk, Marks.addToBody, List.mem_append, List.mem_singleton]
        by_cases hq : q = p
        · simp [hq]
        · simp [hq, h3 q]
      · simp only [tot_append, tot_cons, tot_nil]; omega
      · simp only []; omega
      · intro x hx
        rcases List.mem_append.1 hx with hx | hx
        · have := h7 x hx; simp only []; omega
        · simp at hx; rw [hx]; simp only []; omega
      · intro x hx
        rcases List.mem_append.1 hx with hx | hx
        · have := h8 x hx; simp only []; omega
        · simp at hx; rw [hx]; simp only []; omega
      · simp only []; omega
      · simp only []; omega
      · intro q hq
        simp only [hk, List.mem_append, List.mem_singleton] at hq
        rcases hq with hq | rfl
        · exact h11 q hq
        · exact hf
      · intro hd q hq
        simp only [hk, List.mem_append, List.mem_singleton] at hq ⊢
        have hd1 : s.dirty = 0 := by simp only [] at hd; omega
        have hd2 : ¬ s.m.body p.compl = true := fun h => by simp only [] at hd; rw [if_pos h] at hd; omega
        rw [h3] at hd2
        rintro (g | g)
        · rcases hq with hq | rfl
          · exact h12 hd1 q hq g
          · exact hd2 g
        · rcases hq with hq | rfl
          · rw [← g, compl_compl] at hd2; exact hd2 hq
          · exact hne g
      · intro q hq
        simp only [hk, List.mem_append, List.mem_singleton] at hq
        exact hq
      · intro X M
        simp only [wsum_append, wsum]; omega
    · rw [if_neg hb]
      have hp : p ∈ keys s.out := (h3 p).1 (by simpa using hb)
      cases hfw : findW p s.out with
      | none => exact absurd hp (findW_none.1 hfw)
      | some w' =>
        have hmem := findW_mem hfw
        have hw' := h2 _ hmem
        have hle := wt_le_tot (out := s.out) (fun x hx => by have := h2 x hx; omega) _ hmem
        simp only [] at hw' hle
        refine ⟨_, rfl, ⟨?_, ?_, ?_, h4, ?_, ?_, ?_, ?_, ?_, ?_, ?_, ?_⟩, rfl, rfl, ?_, ?_⟩
        · simp only [addW_keys]; exact h1
        · intro x hx
          rcases addW_mem hx with hx | ⟨w2, e1, e2⟩
          · exact h2 x hx
          · rw [hfw] at e1; cases e1; rw [e2]; simp only []; omega
        · intro q; simp only [addW_keys]; exact h3 q
        · simp only [addW_tot hp]; omega
        · simp only []; omega
        · intro x hx
          rcases addW_mem hx with hx | ⟨w2, e1, e2⟩
          · have := h7 x hx; simp only []; omega
          · rw [hfw] at e1; cases e1; rw [e2]; simp only []; omega
        · intro x hx
          rcases addW_mem hx with hx | ⟨w2, e1, e2⟩
          · have := h8 x hx; simp only []; omega
          · rw [hfw] at e1; cases e1; rw [e2]; simp only []; omega
        · simp only []; omega
        · simp only []; omega
        · intro q hq; simp only [addW_keys] at hq; exact h11 q hq
        · intro hd; simp only [] at hd; omega
        · intro q hq; simp only [addW_keys] at hq; exact .inl hq
        · intro X M; exact addW_wsum hp

theorem chk_ok {x y : Int} (h : chk x = .ok y) : y = x := by
  unfold chk at h; split at h <;> cases h; rfl

theorem chk_of {x : Int} (h1 : -wMax - 1 ≤ x) (h2 : x ≤ wMax) : chk x = .ok x := if_pos ⟨h1, h2⟩

theorem sumLoop_spec : ∀ {ls : List (BLit × Int)} {s : SumSt}, SInv k s → (∀ x ∈ ls, 0 ≤ x.2) → ∀ {s'}, sumLoop k ls s = .ok s' →
    SInv k s' ∧ s'.bound ≤ s.bound ∧ (∀ q ∈ keys s'.out, q ∈ keys s.out ∨ q ∈ keys ls) ∧ ∀ X M, K k X M →
      (s'.bound ≤ 0 → s.bound ≤ wsum X M s.out + wsum X M ls) ∧
      (0 < s'.bound → s.bound - wsum X M s.out - wsum X M ls = s'.bound - wsum X M s'.out)
  | [], s, hs, _, s', h => by
    cases h
    refine ⟨hs, Int.le_refl _, fun q hq => .inl hq, fun X M _ => ⟨fun h => ?_, fun _ => by simp [wsum]⟩⟩
    have := wsum_nonneg (X := X) (M := M) (ls := s.out) fun x hx => by have := hs.pos x hx; omega
    simp only [wsum]; omega
  | (p, w) :: ls, s, hs, hw, s', h => by
    have hw' : ∀ x ∈ ls, 0 ≤ x.2 := fun x hx => hw x (by simp [hx])
    unfold sumLoop at h
    split at h
    · next hb =>
      cases h
      refine ⟨hs, Int.le_refl _, fun q hq => .inl hq, fun X M _ => ⟨fun _ => ?_, fun h => by omega⟩⟩
      have h1 := wsum_nonneg (X := X) (M := M) (ls := s.out) fun x hx => by have := hs.pos x hx; omega
      have h2 := wsum_nonneg (X := X) (M := M) hw
      omega
    · next hb =>
      split at h
      · cases h
      · split at h
        · next hw0 =>
          obtain ⟨g1, g2, g3, g4⟩ := sumLoop_spec hs hw' h
          refine ⟨g1, g2, fun q hq => (g3 q hq).imp id fun h => by simp [keys] at h ⊢; exact .inr h, fun X M hK => ?_⟩
          have := g4 X M hK
          simp only [wsum, hw0, ite_self, Int.zero_add]
          exact this
        · next hwn hw0 =>
          cases hv : litVal (k.val p.atom) (!p.neg) with
          | none =>
            rw [hv] at h
            simp only [] at h
            rcases sumFree_spec hs (p := p) (w := w) (by omega) hv with ⟨_, e⟩ | ⟨_, s1, e, i1, i2, i3, i4, i5⟩
            · rw [e] at h; cases h
            · rw [e] at h
              simp only [] at h
              obtain ⟨g1, g2, g3, g4⟩ := sumLoop_spec i1 hw' h
              refine ⟨g1, by omega, fun q hq => ?_, fun X M hK => ?_⟩
              · rcases g3 q hq with h | h
                · rcases i4 q h with h | rfl
                  · exact .inl h
                  · right; simp [keys]
                · right; simp [keys] at h ⊢; exact .inr h
              · have := g4 X M hK
                rw [i2, i5] at this
                simp only [wsum]
                constructor
                · intro h; have := this.1 h; omega
                · intro h; have := this.2 h; omega
          | some b =>
            rw [hv] at h
            cases b with
            | false =>
              simp only [] at h
              obtain ⟨g1, g2, g3, g4⟩ := sumLoop_spec hs hw' h
              refine ⟨g1, g2, fun q hq => (g3 q hq).imp id fun h => by simp [keys] at h ⊢; exact .inr h, fun X M hK => ?_⟩
              have := g4 X M hK
              simp only [wsum, hK.litVal hv, Bool.false_eq_true, if_false, Int.zero_add]
              exact this
            | true =>
              simp only [] at h
              cases hc : chk (s.bound - w) with
              | error e => rw [hc] at h; cases h
              | ok b =>
                rw [hc] at h
                simp only [] at h
                have hb' := chk_ok hc
                subst hb'
                obtain ⟨g1, g2, g3, g4⟩ := sumLoop_spec (s := { s with bound := s.bound - w }) ⟨hs.1, hs.2, hs.3, hs.4, hs.5, hs.6, hs.7, hs.8, hs.9, hs.10, hs.11, hs.12⟩ hw' h
                simp only [] at g2 g3 g4
                refine ⟨g1, by omega, fun q hq => (g3 q hq).imp id fun h => by simp [keys] at h ⊢; exact .inr h, fun X M hK => ?_⟩
                have := g4 X M hK
                simp only [wsum, hK.litVal hv, if_true]
                constructor
                · intro h; have := this.1 h; omega
                · intro h; have := this.2 h; omega

/-- the first loop does not fail if the weights are not negative and their sum is in range -/
theorem sumLoop_total : ∀ {ls : List (BLit × Int)} {s : SumSt}, SInv k s → (∀ x ∈ ls, 0 ≤ x.2) → s.sumW + tot ls ≤ wMax → s.bound ≤ wMax → ∃ s', sumLoop k ls s = .ok s'
  | [], s, hs, _, _, _ => ⟨_, rfl⟩
  | (p, w) :: ls, s, hs, hw, ht, hbd => by
    have hw' : ∀ x ∈ ls, 0 ≤ x.2 := fun x hx => hw x (by simp [hx])
    have h0 : 0 ≤ w := hw (p, w) (by simp)
    have ht' := tot_nonneg hw'
    have hsum : 0 ≤ s.sumW := by rw [hs.sum]; exact tot_nonneg fun x hx => by have := hs.pos x hx; omega
    simp only [tot_cons] at ht
    unfold sumLoop
    split
    · exact ⟨_, rfl⟩
    · split
      · omega
      · split
        · exact sumLoop_total hs hw' (by omega) hbd
        · cases hv : litVal (k.val p.atom) (!p.neg) with
          | none =>
            simp only []
            rcases sumFree_spec hs (p := p) (w := w) (by omega) hv with ⟨e, _⟩ | ⟨_, s1, e, i1, i2, i3, i4, i5⟩
            · omega
            · rw [e]
              exact sumLoop_total i1 hw' (by omega) (by omega)
          | some b =>
            cases b with
            | false => exact sumLoop_total hs hw' (by omega) hbd
            | true =>
              simp only []
              rw [chk_of (by omega) (by omega)]
              exact sumLoop_total (s := { s with bound := s.bound - w }) ⟨hs.1, hs.2, hs.3, hs.4, hs.5, hs.6, hs.7, hs.8, hs.9, hs.10, hs.11, hs.12⟩ hw' (by simp only []; omega)
                (by simp only []; omega)

/-- the first loop never does anything undefined -/
theorem sumLoop_ub : ∀ {ls : List (BLit × Int)} {s : SumSt}, SInv k s → (∀ x ∈ ls, x.2 ≤ wMax) → s.bound ≤ wMax → sumLoop k ls s ≠ .error .ub
  | [], s, hs, _, _ => by simp [sumLoop]
  | (p, w) :: ls, s, hs, hw, hbd => by
    have hw' : ∀ x ∈ ls, x.2 ≤ wMax := fun x hx => hw x (by simp [hx])
    have h0 : w ≤ wMax := hw (p, w) (by simp)
    unfold sumLoop
    split
    · simp
    · split
      · simp
      · split
        · exact sumLoop_ub hs hw' hbd
        · cases hv : litVal (k.val p.atom) (!p.neg) with
          | none =>
            simp only []
            rcases sumFree_spec hs (p := p) (w := w) (by omega) hv with ⟨_, e⟩ | ⟨_, s1, e, i1, i2, i3, i4, i5⟩
            · rw [e]; simp
            · rw [e]
              exact sumLoop_ub i1 hw' (by omega)
          | some b =>
            cases b with
            | false => exact sumLoop_ub hs hw' hbd
            | true =>
              simp only []
              rw [chk_of (by omega) (by omega)]
              exact sumLoop_ub (s := { s with bound := s.bound - w }) ⟨hs.1, hs.2, hs.3, hs.4, hs.5, hs.6, hs.7, hs.8, hs.9, hs.10, hs.11, hs.12⟩ hw' (by simp only []; omega)

/-! ### The second loop -/

/-- Proof device: the clamped sum. -/
def clampAll (b : Int) (out : List (BLit × Int)) : List (BLit × Int) := out.map fun x => (x.1, min x.2 b)

/-- Proof device: what is subtracted for an element. -/
def dd (F : List (BLit × Int)) (x : BLit × Int) : Int := if x.1.neg = true ∧ x.1.compl ∈ keys F then min x.2 ((findW x.1.compl F).getD 0) else 0

theorem findW_clamp {b : Int} {p : BLit} : ∀ {out : List (BLit × Int)}, findW p (clampAll b out) = (findW p out).map (min · b)
  | [] => rfl
  | x :: r => by
    simp only [clampAll, List.map_cons, findW]
    split
    · rfl
    · exact findW_clamp

theorem keys_clamp {b : Int} {out : List (BLit × Int)} : keys (clampAll b out) = keys out := by simp [keys, clampAll]

theorem clampAll_id {b : Int} : ∀ {out : List (BLit × Int)}, (∀ x ∈ out, x.2 ≤ b) → clampAll b out = out
  | [], _ => rfl
  | x :: r, h => by
    have := clampAll_id (out := r) fun y hy => h y (by simp [hy])
    have h1 := h x (by simp)
    simp only [clampAll, List.map_cons] at this ⊢
    rw [this, Int.min_eq_left h1]

theorem clampLoop_spec {bound : Int} {F : List (BLit × Int)} (hm : ∀ q, m.body q = true ↔ q ∈ keys F) (hb : 0 < bound) (hF : tot F ≤ wMax) (hpos : ∀ x ∈ F, 1 ≤ x.2) :
    ∀ {ls pre : List (BLit × Int)} {c : ClampSt}, (∀ x ∈ pre, x.2 ≤ bound) → F = pre ++ clampAll bound ls → c.sumR ≤ tot pre → 0 ≤ c.sumR →
    ∃ c', clampLoop m bound pre ls c = .ok (F, c') ∧ c'.sumW = c.sumW - (tot ls - tot (clampAll bound ls)) ∧
      c'.sumR = c.sumR + ((clampAll bound ls).map fun x => x.2 - dd F x).sum ∧ (∀ x ∈ clampAll bound ls, c'.minW ≤ x.2) ∧ c'.minW ≤ c.minW ∧
      (1 ≤ c.minW → 1 ≤ c'.minW) ∧ ((∀ x ∈ ls, x.2 ≤ c.maxW) → ∀ x ∈ clampAll bound ls, x.2 ≤ c'.maxW) ∧ (c'.maxW = c.maxW ∨ c'.maxW = bound)
  | [], pre, c, hp, e, _, _ => by
    simp only [clampAll, List.map_nil, List.append_nil] at e
    subst e
    exact ⟨c, rfl, by simp [clampAll], by simp [clampAll], by simp [clampAll], Int.le_refl _, fun h => h, by simp [clampAll], .inl rfl⟩
  | (p, w0) :: ls, pre, c, hp, e, hR, hR0 => by
    have e' : F = (pre ++ [(p, min w0 bound)]) ++ clampAll bound ls := by rw [e]; simp [clampAll]
    have hp' : ∀ x ∈ pre ++ [(p, min w0 bound)], x.2 ≤ bound := by
      intro x hx
      rcases List.mem_append.1 hx with hx | hx
      · exact hp x hx
      · simp at hx; rw [hx]; simp only []; omega
    have hFc : F = clampAll bound (pre ++ (p, min w0 bound) :: ls) := by
      rw [e]
      simp only [clampAll, List.map_append, List.map_cons]
      have := clampAll_id hp
      simp only [clampAll] at this
      rw [this, Int.min_eq_left (Int.min_le_right w0 bound)]
    have hmem : (p, min w0 bound) ∈ F := by rw [e']; simp
    have hw1 : 1 ≤ min w0 bound := hpos _ hmem
    have hboth : both m p (min w0 bound) (pre ++ (p, min w0 bound) :: ls) = .ok (dd F (p, min w0 bound)) := by
      unfold both dd
      by_cases hc : p.neg = true ∧ m.body p.compl = true
      · rw [if_pos hc]
        have hin : p.compl ∈ keys F := (hm _).1 hc.2
        rw [if_pos ⟨hc.1, hin⟩]
        have hfc : findW p.compl F = (findW p.compl (pre ++ (p, min w0 bound) :: ls)).map (min · bound) := by rw [hFc]; exact findW_clamp
        cases hf : findW p.compl (pre ++ (p, min w0 bound) :: ls) with
        | none => rw [hf] at hfc; exact absurd hin (findW_none.1 hfc)
        | some w' =>
          rw [hf] at hfc
          simp only [hfc, Option.map_some, Option.getD_some]
          have : min (min w0 bound) w' = min (min w0 bound) (min w' bound) := by omega
          rw [this]
      · rw [if_neg hc]
        have : ¬ (p.neg = true ∧ p.compl ∈ keys F) := fun h => hc ⟨h.1, (hm _).2 h.2⟩
        rw [if_neg this]
    have hdd0 : 0 ≤ dd F (p, min w0 bound) ∧ dd F (p, min w0 bound) ≤ min w0 bound := by
      unfold dd
      split
      · next hc =>
        cases hf : findW p.compl F with
        | none => exact absurd hc.2 (findW_none.1 hf)
        | some w' =>
          have := hpos _ (findW_mem hf)
          simp only [hf, Option.getD_some] at this ⊢
          omega
      · omega
    have htot : tot pre + min w0 bound ≤ wMax := by
      have h1 : tot F = tot pre + min w0 bound + tot (clampAll bound ls) := by rw [e', tot_append, tot_append]; simp
      have h2 : 0 ≤ tot (clampAll bound ls) := tot_nonneg fun x hx => by
        have := hpos x (by rw [e']; simp [hx]); omega
      omega
    have hw : -wMax - 1 ≤ c.sumR + min w0 bound := by unfold wMax; omega
    unfold clampLoop
    simp only [hboth]
    rw [chk_of hw (by omega)]
    simp only []
    obtain ⟨c', g1, g2, g3, g4, g5, g6, g7, g8⟩ := clampLoop_spec hm hb hF hpos (ls := ls) (pre := pre ++ [(p, min w0 bound)])
      (c := ⟨if w0 > bound then bound else c.maxW, min c.minW (min w0 bound), if w0 > bound then c.sumW - (w0 - bound) else c.sumW, c.sumR + min w0 bound - dd F (p, min w0 bound)⟩)
      hp' e' (by simp only [tot_append, tot_cons, tot_nil]; omega) (by simp only []; omega)
    have hcons : clampAll bound ((p, w0) :: ls) = (p, min w0 bound) :: clampAll bound ls := rfl
    refine ⟨c', g1, ?_, ?_, ?_, ?_, ?_, ?_, ?_⟩
    · rw [g2, hcons, tot_cons, tot_cons]
      simp only []
      split <;> omega
    · rw [g3, hcons, List.map_cons, List.sum_cons]
      simp only []; omega
    · intro x hx
      rw [hcons] at hx
      rcases List.mem_cons.1 hx with rfl | hx
      · simp only [] at g5 ⊢; omega
      · exact g4 x hx
    · simp only [] at g5; omega
    · intro h; exact g6 (by simp only []; omega)
    · intro h x hx
      rw [hcons] at hx
      have hmx : ∀ x ∈ clampAll bound ls, x.2 ≤ c'.maxW := by
        by_cases hgt : w0 > bound
        · intro y hy
          have hyb : y.2 ≤ bound := by
            obtain ⟨z, _, rfl⟩ := List.mem_map.1 hy
            simp only []; omega
          rcases g8 with g8 | g8
          · simp only [hgt, if_true] at g8; omega
          · omega
        · refine g7 fun y hy => ?_
          simp only [hgt, if_false]
          exact h y (by simp [hy])
      rcases List.mem_cons.1 hx with rfl | hx
      · have h0 := h (p, w0) (by simp)
        simp only [] at h0 g8 ⊢
        rcases g8 with g8 | g8
        · split at g8 <;> omega
        · omega
      · exact hmx x hx
    · rcases g8 with g8 | g8
      · simp only [] at g8
        split at g8
        · exact .inr g8
        · exact .inl g8
      · exact .inr g8

/-! ### A literal and its complement are not both counted -/

theorem sum_sublist {α : Type} {h : α → Int} (h0 : ∀ x, 0 ≤ h x) {l l' : List α} (hs : l.Sublist l') : (l.map h).sum ≤ (l'.map h).sum := by
  induction hs with
  | slnil => simp
  | cons a _ ih => have := h0 a; simp only [List.map_cons, List.sum_cons]; omega
  | cons_cons a _ ih => simp only [List.map_cons, List.sum_cons]; omega

theorem sum_subset {α : Type} [DecidableEq α] {h : α → Int} (h0 : ∀ x, 0 ≤ h x) {l l' : List α} (hn : l.Nodup) (hs : l ⊆ l') : (l.map h).sum ≤ (l'.map h).sum := by
  obtain ⟨l2, p, s⟩ := hn.subperm hs
  rw [← (p.map h).sum_eq]
  exact sum_sublist h0 s

theorem sum_add {α : Type} {f g : α → Int} (l : List α) : (l.map fun x => f x + g x).sum = (l.map f).sum + (l.map g).sum := by
  induction l with
  | nil => rfl
  | cons a l ih => simp only [List.map_cons, List.sum_cons, ih]; omega

theorem sum_le {α : Type} {f g : α → Int} {l : List α} (h : ∀ x ∈ l, f x ≤ g x) : (l.map f).sum ≤ (l.map g).sum := by
  induction l with
  | nil => simp
  | cons a l ih =>
    have := ih fun x hx => h x (by simp [hx])
    have := h a (by simp)
    simp only [List.map_cons, List.sum_cons]; omega

theorem sum_filter {α : Type} {f : α → Int} {q : α → Bool} (l : List α) : ((l.filter q).map f).sum = (l.map fun x => if q x then f x else 0).sum := by
  induction l with
  | nil => rfl
  | cons a l ih =>
    simp only [List.filter_cons, List.map_cons, List.sum_cons]
    by_cases h : q a = true
    · simp only [h, if_true, List.map_cons, List.sum_cons, ih]
    · simp [h, ih]

/-- Proof device: the weight of a literal that does not hold. -/
def lost (X M : AtomSet) (x : BLit × Int) : Int := if x.1.holds X M then 0 else max 0 x.2

theorem wsum_lost {F : List (BLit × Int)} (hpos : ∀ x ∈ F, 0 ≤ x.2) : wsum X M F = tot F - (F.map (lost X M)).sum := by
  induction F with
  | nil => rfl
  | cons x r ih =>
    obtain ⟨p, w⟩ := x
    have := ih fun x hx => hpos x (by simp [hx])
    have h0 : 0 ≤ w := hpos (p, w) (by simp)
    simp only [wsum, tot_cons, List.map_cons, List.sum_cons, this, lost]
    split <;> omega

theorem pairs (hsub : Sub X M) {F : List (BLit × Int)} (hn : (keys F).Nodup) (hpos : ∀ x ∈ F, 1 ≤ x.2) : wsum X M F ≤ (F.map fun x => x.2 - dd F x).sum := by
  have hpos0 : ∀ x ∈ F, 0 ≤ x.2 := fun x hx => by have := hpos x hx; omega
  rw [wsum_lost hpos0]
  have e1 : (F.map fun x => x.2 - dd F x).sum = tot F - (F.map (dd F)).sum := by
    have : ∀ l : List (BLit × Int), (l.map fun x => x.2 - dd F x).sum = tot l - (l.map (dd F)).sum := by
      intro l
      induction l with
      | nil => rfl
      | cons a l ih => simp only [List.map_cons, List.sum_cons, tot_cons, ih]; omega
    exact this F
  rw [e1]
  suffices (F.map (dd F)).sum ≤ (F.map (lost X M)).sum by omega
  -- the negative literals with complement
  let N := F.filter fun x => x.1.neg && decide (x.1.compl ∈ keys F)
  let cp : BLit × Int → BLit × Int := fun x => (x.1.compl, (findW x.1.compl F).getD 0)
  have h1 : (F.map (dd F)).sum ≤ (N.map fun x => lost X M x + lost X M (cp x)).sum := by
    rw [sum_filter]
    refine sum_le fun x hx => ?_
    unfold dd
    by_cases hc : x.1.neg = true ∧ x.1.compl ∈ keys F
    · rw [if_pos hc, if_pos (by simp [hc])]
      have hx1 := hpos x hx
      by_cases hh : x.1.holds X M = true
      · have := compl_holds hsub hh
        simp only [lost, hh, if_true, cp, this, Bool.false_eq_true, if_false]
        omega
      · have : lost X M x = x.2 := by simp only [lost, hh]; simp; omega
        have : 0 ≤ lost X M (cp x) := by simp only [lost]; split <;> omega
        omega
    · rw [if_neg hc, if_neg (by simpa using hc)]
  have h2 : (N.map fun x => lost X M x + lost X M (cp x)).sum = (N.map (lost X M)).sum + ((N.map cp).map (lost X M)).sum := by
    rw [sum_add, List.map_map]; rfl
  have h3 : ((N.map cp).map (lost X M)).sum ≤ ((F.filter fun x => !x.1.neg).map (lost X M)).sum := by
    refine sum_subset (fun x => by simp only [lost]; split <;> omega) ?_ fun y hy => ?_
    · refine List.Nodup.of_map Prod.fst ?_
      have : (N.map cp).map Prod.fst = (keys N).map BLit.compl := by simp [keys, cp, Function.comp_def]
      rw [this]
      refine List.Nodup.map (fun a b e => by have := congrArg BLit.compl e; rwa [compl_compl, compl_compl] at this) ?_
      exact (List.Sublist.map _ List.filter_sublist).nodup hn
    · obtain ⟨x, hx, rfl⟩ := List.mem_map.1 hy
      obtain ⟨hx1, hx2⟩ := List.mem_filter.1 hx
      simp only [Bool.and_eq_true, decide_eq_true_eq] at hx2
      cases hf : findW x.1.compl F with
      | none => exact absurd hx2.2 (findW_none.1 hf)
      | some w' =>
        refine List.mem_filter.2 ⟨?_, ?_⟩
        · simp only [cp, hf, Option.getD_some]; exact findW_mem hf
        · simp [cp, BLit.compl, hx2.1]
  have h4 : (N.map (lost X M)).sum ≤ ((F.filter fun x => x.1.neg).map (lost X M)).sum := by
    rw [sum_filter, sum_filter]
    refine sum_le fun x _ => ?_
    have : 0 ≤ lost X M x := by simp only [lost]; split <;> omega
    cases x.1.neg <;> simp
    split <;> omega
  have h5 : ((F.filter fun x => x.1.neg).map (lost X M)).sum + ((F.filter fun x => !x.1.neg).map (lost X M)).sum = (F.map (lost X M)).sum := by
    rw [sum_filter, sum_filter, ← sum_add]
    congr 1
    refine List.map_congr_left fun x _ => ?_
    cases x.1.neg <;> simp
  omega

end Clasp.Asp.Simp
