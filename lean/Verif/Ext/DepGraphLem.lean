import Verif.Ext.DepGraph
import Mathlib.Tactic.SplitIfs
import Mathlib.Tactic.Tauto
/-!
# Lemmas about the stored graph
-/

namespace Clasp.DepGraph
open Clasp.Core (Lit)

theorem setOffs_ok (key : Arc → Nat) (com : Nat) : ∀ (S : List Arc) (prev : Option Nat) (k : Nat) (off : List (Option Nat)),
    S.Pairwise (fun a b => key a ≤ key b) → (∀ p, prev = some p → ∀ a ∈ S, p ≤ key a) → (∀ a ∈ S, key a < off.length) →
    (com ≠ 0 → ∀ a ∈ S, prev ≠ some (key a) → off[key a]? = some none) →
    ∃ off', setOffs key com S prev k off = some off' ∧ off'.length = off.length ∧
      ∀ n, off'[n]? = if prev = some n then off[n]? else
        match S.findIdx? (fun a => key a == n) with
        | some i => some (some (k + i))
        | none => off[n]? := by
  intro S
  induction S with
  | nil => intro prev k off _ _ _ _; exact ⟨off, rfl, rfl, fun n => by simp⟩
  | cons a as ih =>
    intro prev k off hs hp hl hc
    have hs' := (List.pairwise_cons.1 hs).2
    have hle := (List.pairwise_cons.1 hs).1
    unfold setOffs
    by_cases h : prev = some (key a)
    · rw [if_pos h]
      obtain ⟨off', h1, h2, h3⟩ := ih (some (key a)) (k + 1) off hs' (fun p hp' b hb => by cases hp'; exact hle b hb) (fun b hb => hl b (by simp [hb]))
        (fun hcom b hb hne => hc hcom b (by simp [hb]) (by rw [h]; exact hne))
      refine ⟨off', h1, h2, fun n => ?_⟩
      rw [h3 n, h]
      by_cases hn : key a = n
      · simp [hn]
      · simp only [Option.some.injEq, hn, if_false, List.findIdx?_cons, beq_iff_eq]
        cases as.findIdx? (fun a => key a == n) <;> simp; omega
    · rw [if_neg h]
      have hla := hl a (by simp)
      have hoa : off[key a]? = some off[key a] := by simp [hla]
      rw [hoa]
      simp only
      rw [if_neg (by
        rintro ⟨hcom, ho⟩
        have := hc hcom a (by simp) h
        rw [hoa] at this
        simp only [Option.some.injEq] at this
        rw [this] at ho
        simp at ho)]
      obtain ⟨off', h1, h2, h3⟩ := ih (some (key a)) (k + 1) (off.set (key a) (some k)) hs' (fun p hp' b hb => by cases hp'; exact hle b hb)
        (fun b hb => by rw [List.length_set]; exact hl b (by simp [hb]))
        (fun hcom b hb hne => by
          have hne' : key a ≠ key b := fun he => hne (by rw [he])
          rw [List.getElem?_set_ne hne']
          refine hc hcom b (by simp [hb]) (fun hpb => ?_)
          have h1 := hp _ hpb a (by simp)
          have h2 := hle b hb
          omega)
      refine ⟨off', h1, by rw [h2, List.length_set], fun n => ?_⟩
      rw [h3 n]
      by_cases hn : key a = n
      · subst hn
        rw [if_pos rfl, if_neg h]
        simp [List.findIdx?_cons, hla]
      · simp only [Option.some.injEq, hn, if_false, List.findIdx?_cons, beq_iff_eq, List.getElem?_set_ne hn]
        by_cases hpn : prev = some n
        · rw [if_pos hpn]
          have : as.findIdx? (fun a => key a == n) = none := by
            rw [List.findIdx?_eq_none_iff]
            intro b hb
            have h1 := hp n hpn a (by simp)
            have h2 := hle b hb
            simp only [beq_eq_false_iff_ne, ne_eq]
            omega
          rw [this]
        · rw [if_neg hpn]
          cases as.findIdx? (fun a => key a == n) <;> simp; omega

theorem fwdFrom_sorted : ∀ (L : List Arc) (a : Arc), (a :: L).Pairwise (fun a b => a.tail ≤ b.tail) →
    fwdFrom (a :: L) = (a :: L).filter (fun b => b.tail == a.tail)
  | [], a, _ => by simp [fwdFrom]
  | b :: L, a, h => by
    have h2 := (List.pairwise_cons.1 h).2
    have h1 := (List.pairwise_cons.1 h).1
    unfold fwdFrom
    have ih := fwdFrom_sorted L b h2
    split_ifs with he
    · rw [ih, he]; simp [he]
    · have hlt : a.tail < b.tail := by have := h1 b (by simp); omega
      have : (b :: L).filter (fun b => b.tail == a.tail) = [] := by
        rw [List.filter_eq_nil_iff]
        intro c hc
        have : b.tail ≤ c.tail := by
          rcases List.mem_cons.1 hc with rfl | hc
          · exact Nat.le_refl _
          · exact (List.pairwise_cons.1 h2).1 c hc
        simp; omega
      rw [List.filter_cons, this]; simp

theorem filter_drop_findIdx (p : Arc → Bool) : ∀ (L : List Arc) (k : Nat), L.findIdx? p = some k → L.filter p = (L.drop k).filter p ∧ ∃ a r, L.drop k = a :: r ∧ p a = true
  | [], k, h => by simp at h
  | a :: L, k, h => by
    rw [List.findIdx?_cons] at h
    split_ifs at h with hp
    · cases h; exact ⟨rfl, a, L, rfl, hp⟩
    · cases hf : L.findIdx? p with
      | none => rw [hf] at h; simp at h
      | some j =>
        rw [hf] at h; cases h
        obtain ⟨h1, h2⟩ := filter_drop_findIdx p L j hf
        refine ⟨?_, ?_⟩
        · simp only [List.drop_succ_cons]
          rw [← h1]; simp [hp]
        · simpa using h2

theorem fwdFrom_drop (L : List Arc) (n k : Nat) (hs : L.Pairwise (fun a b => a.tail ≤ b.tail)) (h : L.findIdx? (fun a => a.tail == n) = some k) :
    fwdFrom (L.drop k) = L.filter (fun a => a.tail == n) := by
  obtain ⟨h1, a, r, h2, h3⟩ := filter_drop_findIdx _ L k h
  have hs' : (L.drop k).Pairwise (fun a b => a.tail ≤ b.tail) := hs.sublist (List.drop_sublist _ _)
  rw [h1, h2] at *
  rw [fwdFrom_sorted r a hs']
  simp at h3
  rw [h3]

theorem invMake_drop : ∀ (L : List Arc) (k : Nat), (invMake L).drop k = invMake (L.drop k)
  | [], k => by simp [invMake]
  | [a], 0 => rfl
  | [a], k+1 => by simp [invMake]
  | a :: b :: L, 0 => rfl
  | a :: b :: L, k+1 => by
    rw [invMake, List.drop_succ_cons, List.drop_succ_cons, invMake_drop (b :: L) k]

theorem invMake_length : ∀ (L : List Arc), (invMake L).length = L.length
  | [] => rfl
  | [_] => rfl
  | a :: b :: L => by rw [invMake, List.length_cons, invMake_length (b :: L)]; rfl

theorem invMake_append : ∀ (L M : List Arc), (∀ a ∈ L, ∀ b ∈ M, a.head ≠ b.head) → invMake (L ++ M) = invMake L ++ invMake M
  | [], M, _ => by simp [invMake]
  | [a], [], _ => by simp [invMake]
  | [a], b :: M, h => by
    have := h a (by simp) b (by simp)
    simp [invMake, Ne.symm this]
  | a :: b :: L, M, h => by
    have ih := invMake_append (b :: L) M (fun x hx y hy => h x (by simp at hx ⊢; tauto) y hy)
    simp only [List.cons_append] at ih ⊢
    rw [invMake, ih, invMake]; rfl

/-- Proof device: an arc as element of `invArcs_` without the group bit. -/
def ends (a : Arc) : Lit × Nat := (a.lit, a.tail)

theorem invFrom_sorted : ∀ (L : List Arc) (a : Arc), (a :: L).Pairwise (fun a b => a.head ≤ b.head) →
    (invFrom (invMake (a :: L))).map (fun v => (v.lit, v.tail)) = ((a :: L).filter (fun b => b.head == a.head)).map ends
  | [], a, _ => by simp [invMake, invFrom, ends]
  | b :: L, a, h => by
    have h2 := (List.pairwise_cons.1 h).2
    have h1 := (List.pairwise_cons.1 h).1
    rw [invMake, invFrom]
    have ih := invFrom_sorted L b h2
    by_cases he : b.head = a.head
    · simp only [he, beq_self_eq_true, if_true, List.map_cons]
      rw [ih, he]
      simp [ends, he]
    · have hlt : a.head < b.head := by have := h1 b (by simp); omega
      have : (b :: L).filter (fun b => b.head == a.head) = [] := by
        rw [List.filter_eq_nil_iff]
        intro c hc
        have : b.head ≤ c.head := by
          rcases List.mem_cons.1 hc with rfl | hc
          · exact Nat.le_refl _
          · exact (List.pairwise_cons.1 h2).1 c hc
        simp; omega
      rw [List.filter_cons, this]; simp [he, ends]

theorem invFrom_drop (L : List Arc) (n k : Nat) (hs : L.Pairwise (fun a b => a.head ≤ b.head)) (h : L.findIdx? (fun a => a.head == n) = some k) :
    (invFrom ((invMake L).drop k)).map (fun v => (v.lit, v.tail)) = (L.filter (fun a => a.head == n)).map ends := by
  obtain ⟨h1, a, r, h2, h3⟩ := filter_drop_findIdx _ L k h
  have hs' : (L.drop k).Pairwise (fun a b => a.head ≤ b.head) := hs.sublist (List.drop_sublist _ _)
  rw [invMake_drop, h1]
  rw [h2] at *
  rw [invFrom_sorted r a hs']
  simp at h3
  rw [h3]

theorem resize_length (l : List (Option Nat)) (n : Nat) (h : l.length ≤ n) : (resize l n).length = n := by
  simp [resize]; omega

theorem resize_get (l : List (Option Nat)) (n i : Nat) (h : l.length ≤ n) : (resize l n)[i]? = if i < l.length then l[i]? else if i < n then some none else none := by
  unfold resize
  rw [List.take_of_length_le h]
  split_ifs with h1 h2
  · rw [List.getElem?_append_left h1]
  · rw [List.getElem?_append_right (by omega), List.getElem?_replicate, if_pos (by omega)]
  · rw [List.getElem?_eq_none_iff]; simp; omega

theorem le0_trans (a b c : Arc) (h1 : le0 a b = true) (h2 : le0 b c = true) : le0 a c = true := by
  simp [le0] at *; omega
theorem le0_total (a b : Arc) : (le0 a b || le0 b a) = true := by
  simp [le0]; omega
theorem le1_trans (a b c : Arc) (h1 : le1 a b = true) (h2 : le1 b c = true) : le1 a c = true := by
  simp [le1] at *; omega
theorem le1_total (a b : Arc) : (le1 a b || le1 b a) = true := by
  simp [le1]; omega

theorem insertBy_perm (le : Arc → Arc → Bool) (a : Arc) : ∀ l : List Arc, (insertBy le a l).Perm (a :: l)
  | [] => List.Perm.refl _
  | b :: l => by
    unfold insertBy
    split_ifs
    · exact List.Perm.refl _
    · exact ((insertBy_perm le a l).cons b).trans (List.Perm.swap a b l)

theorem sortBy_perm (le : Arc → Arc → Bool) : ∀ l : List Arc, (sortBy le l).Perm l
  | [] => List.Perm.refl _
  | a :: l => (insertBy_perm le a _).trans ((sortBy_perm le l).cons a)

theorem insertBy_pairwise {le : Arc → Arc → Bool} (ht : ∀ a b c, le a b = true → le b c = true → le a c = true) (htot : ∀ a b, (le a b || le b a) = true) (a : Arc) :
    ∀ l : List Arc, l.Pairwise (fun x y => le x y = true) → (insertBy le a l).Pairwise (fun x y => le x y = true)
  | [], _ => by simp [insertBy]
  | b :: l, h => by
    unfold insertBy
    split_ifs with hab
    · refine List.pairwise_cons.2 ⟨fun c hc => ?_, h⟩
      rcases List.mem_cons.1 hc with rfl | hc
      · exact hab
      · exact ht _ _ _ hab ((List.pairwise_cons.1 h).1 c hc)
    · refine List.pairwise_cons.2 ⟨fun c hc => ?_, insertBy_pairwise ht htot a l (List.pairwise_cons.1 h).2⟩
      rcases List.mem_cons.1 ((insertBy_perm le a l).mem_iff.1 hc) with rfl | hc
      · have := htot c b
        simpa [hab] using this
      · exact (List.pairwise_cons.1 h).1 c hc

theorem sortBy_pairwise {le : Arc → Arc → Bool} (ht : ∀ a b c, le a b = true → le b c = true → le a c = true) (htot : ∀ a b, (le a b || le b a) = true) :
    ∀ l : List Arc, (sortBy le l).Pairwise (fun x y => le x y = true)
  | [] => List.Pairwise.nil
  | a :: l => insertBy_pairwise ht htot a _ (sortBy_pairwise ht htot l)

theorem sort0 (L : List Arc) : (sortBy le0 L).Pairwise (fun a b => a.tail ≤ b.tail) :=
  (sortBy_pairwise le0_trans le0_total L).imp (fun h => by simp [le0] at h; omega)
theorem sort1 (L : List Arc) : (sortBy le1 L).Pairwise (fun a b => a.head ≤ b.head) :=
  (sortBy_pairwise le1_trans le1_total L).imp (fun h => by simp [le1] at h; omega)

/-- Proof device: the invariant of the graph; `hist` are the edges added so far. -/
structure GInv (g : Gr) (hist : List Arc) : Prop where
  perm : g.fwd.Perm hist
  bnd : ∀ a ∈ hist, a.tail < g.maxNode ∧ a.head < g.maxNode
  lens : g.fo.length = g.io.length
  lenM : g.fo.length ≤ g.maxNode
  comLe : g.com ≤ g.fwd.length
  full : g.frozen = true → g.com = g.fwd.length ∧ g.fo.length = g.maxNode
  old : ∀ a ∈ g.fwd.take g.com, a.tail < g.fo.length ∧ a.head < g.fo.length
  new : g.com ≠ 0 → ∀ a ∈ g.fwd.drop g.com, g.fo.length ≤ a.tail ∧ g.fo.length ≤ a.head
  sorted : (g.fwd.take g.com).Pairwise (fun a b => a.tail ≤ b.tail)
  fo : g.com ≠ 0 ∨ g.frozen = true → ∀ n, n < g.fo.length → g.fo[n]? = some ((g.fwd.take g.com).findIdx? (fun a => a.tail == n))
  io : ∃ D : List Arc, D.Perm (g.fwd.take g.com) ∧ D.Pairwise (fun a b => a.head ≤ b.head) ∧ g.inv = invMake D ∧
    (g.com ≠ 0 ∨ g.frozen = true → ∀ n, n < g.io.length → g.io[n]? = some (D.findIdx? (fun a => a.head == n)))
  foS : ∀ n k, g.fo[n]? = some (some k) → ∃ a ∈ hist, a.tail = n
  ioS : ∀ n k, g.io[n]? = some (some k) → ∃ a ∈ hist, a.head = n
  frz : ∀ a ∈ g.fwd.take g.com, a.lit.var ∈ g.frz

theorem GInv.start : GInv Gr.start [] where
  perm := List.Perm.refl _
  bnd := by simp
  lens := rfl
  lenM := Nat.le_refl _
  comLe := Nat.le_refl _
  full := by simp [Gr.start]
  old := by simp [Gr.start]
  new := by simp [Gr.start]
  sorted := by simp [Gr.start]
  fo := by simp [Gr.start]
  io := ⟨[], by simp [Gr.start], by simp, rfl, by simp [Gr.start]⟩
  foS := by simp [Gr.start]
  ioS := by simp [Gr.start]
  frz := by simp [Gr.start]

theorem GInv.update {g : Gr} {hist : List Arc} (h : GInv g hist) : GInv (update g) hist where
  perm := h.perm
  bnd := h.bnd
  lens := h.lens
  lenM := h.lenM
  comLe := h.comLe
  full := by simp [DepGraph.update]
  old := h.old
  new := h.new
  sorted := h.sorted
  fo := fun hc => h.fo (Or.inl (hc.resolve_right (by simp [DepGraph.update])))
  io := by
    obtain ⟨D, h1, h2, h3, h4⟩ := h.io
    exact ⟨D, h1, h2, h3, fun hc => h4 (Or.inl (hc.resolve_right (by simp [DepGraph.update])))⟩
  foS := h.foS
  ioS := h.ioS
  frz := h.frz

theorem GInv.addEdge {g g' : Gr} {hist : List Arc} {a : Arc} (h : GInv g hist) (he : addEdge g a = some g') : GInv g' (hist ++ [a]) := by
  unfold DepGraph.addEdge at he
  split_ifs at he with hf hc
  · cases he
    exact
    { perm := h.perm.append (List.Perm.refl _)
      bnd := by
        intro b hb
        rcases List.mem_append.1 hb with hb | hb
        · have := h.bnd b hb; simp only; omega
        · simp at hb; subst hb; simp only; omega
      lens := h.lens
      lenM := by have := h.lenM; simp only; omega
      comLe := Nat.zero_le _
      full := by simp only [hf]; simp
      old := by simp
      new := by simp
      sorted := by simp
      fo := by simp only [hf]; simp
      io := ⟨[], by simp, by simp, rfl, by simp only [hf]; simp⟩
      foS := fun n k hk => by obtain ⟨b, hb, h2⟩ := h.foS n k hk; exact ⟨b, by simp [hb], h2⟩
      ioS := fun n k hk => by obtain ⟨b, hb, h2⟩ := h.ioS n k hk; exact ⟨b, by simp [hb], h2⟩
      frz := by simp }
  · cases he
    have ht : (g.fwd ++ [a]).take g.com = g.fwd.take g.com := List.take_append_of_le_length h.comLe
    have hd : (g.fwd ++ [a]).drop g.com = g.fwd.drop g.com ++ [a] := List.drop_append_of_le_length h.comLe
    exact
    { perm := h.perm.append (List.Perm.refl _)
      bnd := by
        intro b hb
        rcases List.mem_append.1 hb with hb | hb
        · have := h.bnd b hb; simp only; omega
        · simp at hb; subst hb; simp only; omega
      lens := h.lens
      lenM := by have := h.lenM; simp only; omega
      comLe := by have := h.comLe; simp only [List.length_append]; omega
      full := by simp only [hf]; simp
      old := by simp only [ht]; exact h.old
      new := by
        simp only [hd]
        intro hcom b hb
        rcases List.mem_append.1 hb with hb | hb
        · exact h.new hcom b hb
        · simp at hb; subst hb
          have : ¬ min b.tail b.head < g.fo.length := fun hlt => hc ⟨hcom, hlt⟩
          omega
      sorted := by simp only [ht]; exact h.sorted
      fo := by simp only [ht]; exact h.fo
      io := by simp only [ht]; exact h.io
      foS := fun n k hk => by obtain ⟨b, hb, h2⟩ := h.foS n k hk; exact ⟨b, by simp [hb], h2⟩
      ioS := fun n k hk => by obtain ⟨b, hb, h2⟩ := h.ioS n k hk; exact ⟨b, by simp [hb], h2⟩
      frz := by simp only [ht]; exact h.frz }

theorem findIdx?_append_none {p : Arc → Bool} (L M : List Arc) (h : L.findIdx? p = none) : (L ++ M).findIdx? p = (M.findIdx? p).map (L.length + ·) := by
  rw [List.findIdx?_append, h]
  cases M.findIdx? p <;> simp [Nat.add_comm]

theorem findIdx?_append_some {p : Arc → Bool} (L M : List Arc) {k : Nat} (h : L.findIdx? p = some k) : (L ++ M).findIdx? p = some k := by
  rw [List.findIdx?_append, h]; rfl

/-- Proof device: the offsets of one direction after `finalize`. -/
theorem offs_fin (key : Arc → Nat) (com m : Nat) (off : List (Option Nat)) (C P : List Arc) (hlen : off.length ≤ m)
    (hb : ∀ a ∈ P, key a < m) (hs : P.Pairwise (fun a b => key a ≤ key b))
    (hold : ∀ a ∈ C, key a < off.length) (hnew : com ≠ 0 → ∀ a ∈ P, off.length ≤ key a) (hC : com = 0 → C = [])
    (hoff : com ≠ 0 → ∀ n, n < off.length → off[n]? = some (C.findIdx? (fun a => key a == n)))
    (hstale : com = 0 → ∀ n k, off[n]? = some (some k) → ∃ a ∈ P, key a = n) :
    ∃ off', setOffs key com P none C.length (resize off m) = some off' ∧ off'.length = m ∧
      ∀ n, n < m → off'[n]? = some ((C ++ P).findIdx? (fun a => key a == n)) := by
  obtain ⟨off', h1, h2, h3⟩ := setOffs_ok key com P none C.length (resize off m) hs (by simp) (fun a ha => by rw [resize_length _ _ hlen]; exact hb a ha)
    (fun hcom a ha _ => by
      rw [resize_get _ _ _ hlen, if_neg (by have := hnew hcom a ha; omega), if_pos (hb a ha)])
  refine ⟨off', h1, by rw [h2, resize_length _ _ hlen], fun n hn => ?_⟩
  rw [h3 n, if_neg (by simp)]
  by_cases hcom : com = 0
  · rw [hC hcom]
    simp only [List.nil_append, List.length_nil, Nat.zero_add]
    cases hf : P.findIdx? (fun a => key a == n) with
    | some i => rfl
    | none =>
      simp only
      rw [resize_get _ _ _ hlen]
      rw [List.findIdx?_eq_none_iff] at hf
      split_ifs with hl
      · cases ho : off[n]? with
        | none => simp [hl] at ho
        | some o =>
          cases o with
          | none => rfl
          | some k =>
            obtain ⟨a, ha, hk⟩ := hstale hcom n k ho
            have := hf a ha
            simp [hk] at this
      · rfl
  · by_cases hl : n < off.length
    · have hP : P.findIdx? (fun a => key a == n) = none := by
        rw [List.findIdx?_eq_none_iff]
        intro a ha
        have := hnew hcom a ha
        simp; omega
      rw [hP]
      simp only
      rw [resize_get _ _ _ hlen, if_pos hl, hoff hcom n hl]
      cases hf : C.findIdx? (fun a => key a == n) with
      | some k => rw [findIdx?_append_some C P hf]
      | none => rw [findIdx?_append_none C P hf, hP]; rfl
    · have hf : C.findIdx? (fun a => key a == n) = none := by
        rw [List.findIdx?_eq_none_iff]
        intro a ha
        have := hold a ha
        simp; omega
      rw [findIdx?_append_none C P hf]
      cases hP : P.findIdx? (fun a => key a == n) with
      | some k => rfl
      | none => simp only; rw [resize_get _ _ _ hlen, if_neg hl, if_pos hn]; rfl

theorem GInv.finalize {g : Gr} {hist : List Arc} (h : GInv g hist) : ∃ g', finalize g = some g' ∧ GInv g' hist ∧ g'.frozen = true := by
  unfold DepGraph.finalize
  by_cases hf : g.frozen = true
  · rw [if_pos hf]; exact ⟨g, rfl, h, hf⟩
  rw [if_neg hf]
  obtain ⟨D, hD1, hD2, hD3, hD4⟩ := h.io
  obtain ⟨bh, hbh⟩ : ∃ x, x = sortBy le1 (g.fwd.drop g.com) := ⟨_, rfl⟩
  obtain ⟨bt, hbt⟩ : ∃ x, x = sortBy le0 bh := ⟨_, rfl⟩
  have hpb : bh.Perm (g.fwd.drop g.com) := by rw [hbh]; exact sortBy_perm _ _
  have hpt : bt.Perm (g.fwd.drop g.com) := by rw [hbt]; exact (sortBy_perm _ _).trans hpb
  have hsb : bh.Pairwise (fun a b => a.head ≤ b.head) := by rw [hbh]; exact sort1 _
  have hst : bt.Pairwise (fun a b => a.tail ≤ b.tail) := by rw [hbt]; exact sort0 _
  have hDl : g.inv.length = D.length := by rw [hD3, invMake_length]
  have hCl : g.com = (g.fwd.take g.com).length := by rw [List.length_take]; have := h.comLe; omega
  have hP : ∀ a ∈ g.fwd.drop g.com, a ∈ hist := fun a ha => h.perm.mem_iff.1 (List.mem_of_mem_drop ha)
  have hz : g.com = 0 → ∀ a ∈ hist, a ∈ g.fwd.drop g.com := fun hc a ha => by rw [hc, List.drop_zero]; exact h.perm.mem_iff.2 ha
  obtain ⟨io', hi1, hi2, hi3⟩ := offs_fin Arc.head g.com g.maxNode g.io D bh (by rw [← h.lens]; exact h.lenM)
    (fun a ha => (h.bnd a (hP a (hpb.mem_iff.1 ha))).2) hsb (fun a ha => by rw [← h.lens]; exact (h.old a (hD1.mem_iff.1 ha)).2)
    (fun hc a ha => by rw [← h.lens]; exact (h.new hc a (hpb.mem_iff.1 ha)).2)
    (fun hc => by rw [hc] at hD1; exact hD1.eq_nil) (fun hc n hn => hD4 (Or.inl hc) n hn)
    (fun hc n k hk => by obtain ⟨a, ha, h2⟩ := h.ioS n k hk; exact ⟨a, hpb.mem_iff.2 (hz hc a ha), h2⟩)
  obtain ⟨fo', hf1, hf2, hf3⟩ := offs_fin Arc.tail g.com g.maxNode g.fo (g.fwd.take g.com) bt h.lenM
    (fun a ha => (h.bnd a (hP a (hpt.mem_iff.1 ha))).1) hst (fun a ha => (h.old a ha).1)
    (fun hc a ha => (h.new hc a (hpt.mem_iff.1 ha)).1)
    (fun hc => by rw [hc]; rfl) (fun hc n hn => h.fo (Or.inl hc) n hn)
    (fun hc n k hk => by obtain ⟨a, ha, h2⟩ := h.foS n k hk; exact ⟨a, hpt.mem_iff.2 (hz hc a ha), h2⟩)
  rw [← hCl] at hf1
  rw [← hDl] at hi1
  simp only
  rw [← hbh, ← hbt, hi1, hf1]
  refine ⟨_, rfl, ?_, rfl⟩
  have hfull : (g.fwd.take g.com ++ bt).length = g.fwd.length := by
    rw [List.length_append, hpt.length_eq, ← List.length_append, List.take_append_drop]
  have htk : (g.fwd.take g.com ++ bt).take g.fwd.length = g.fwd.take g.com ++ bt := List.take_of_length_le (by omega)
  have hperm : (g.fwd.take g.com ++ bt).Perm g.fwd := by
    conv_rhs => rw [← List.take_append_drop g.com g.fwd]
    exact hpt.append_left _
  have hcn : ∀ a ∈ g.fwd.take g.com, g.com ≠ 0 := fun a ha hc => by rw [hc] at ha; simp at ha
  exact
  { perm := hperm.trans h.perm
    bnd := h.bnd
    lens := by simp only; rw [hf2, hi2]
    lenM := by simp only; omega
    comLe := by simp only; omega
    full := fun _ => by simp only; omega
    old := by
      simp only [htk, hf2]
      intro a ha
      exact h.bnd a (h.perm.mem_iff.1 (hperm.mem_iff.1 ha))
    new := by
      intro _ a ha
      simp only at ha
      rw [List.drop_of_length_le (by omega)] at ha
      simp at ha
    sorted := by
      simp only [htk]
      rw [List.pairwise_append]
      refine ⟨h.sorted, hst, fun a ha b hb => ?_⟩
      have h1 := h.old a ha
      have h2 := h.new (hcn a ha) b (hpt.mem_iff.1 hb)
      omega
    fo := by
      simp only [htk, hf2]
      exact fun _ n hn => hf3 n hn
    io := by
      refine ⟨D ++ bh, ?_, ?_, ?_, ?_⟩
      · simp only [htk]; exact hD1.append (hpb.trans hpt.symm)
      · rw [List.pairwise_append]
        refine ⟨hD2, hsb, fun a ha b hb => ?_⟩
        have ha' := hD1.mem_iff.1 ha
        have h1 := h.old a ha'
        have h2 := h.new (hcn a ha') b (hpb.mem_iff.1 hb)
        omega
      · simp only
        rw [invMake_append, hD3]
        intro a ha b hb
        have ha' := hD1.mem_iff.1 ha
        have h1 := h.old a ha'
        have h2 := h.new (hcn a ha') b (hpb.mem_iff.1 hb)
        omega
      · simp only [hi2]
        exact fun _ n hn => hi3 n hn
    foS := by
      simp only
      intro n k hk
      have hn : n < g.maxNode := by
        rw [← hf2]; exact (List.getElem?_eq_some_iff.1 hk).1
      rw [hf3 n hn] at hk
      simp only [Option.some.injEq] at hk
      obtain ⟨_, a, r, h2, h3⟩ := filter_drop_findIdx _ _ k hk
      have : a ∈ g.fwd.take g.com ++ bt := List.mem_of_mem_drop (by rw [h2]; simp)
      exact ⟨a, h.perm.mem_iff.1 (hperm.mem_iff.1 this), by simpa using h3⟩
    ioS := by
      simp only
      intro n k hk
      have hn : n < g.maxNode := by
        rw [← hi2]; exact (List.getElem?_eq_some_iff.1 hk).1
      rw [hi3 n hn] at hk
      simp only [Option.some.injEq] at hk
      obtain ⟨_, a, r, h2, h3⟩ := filter_drop_findIdx _ _ k hk
      have : a ∈ D ++ bh := List.mem_of_mem_drop (by rw [h2]; simp)
      have : a ∈ g.fwd.take g.com ++ bt := (hD1.append (hpb.trans hpt.symm)).mem_iff.1 this
      exact ⟨a, h.perm.mem_iff.1 (hperm.mem_iff.1 this), by simpa using h3⟩
    frz := by
      simp only [htk]
      intro a ha
      rcases List.mem_append.1 ha with ha | ha
      · exact List.mem_append_left _ (h.frz a ha)
      · exact List.mem_append_right _ (List.mem_map.2 ⟨a, (hpb.trans hpt.symm).mem_iff.2 ha, rfl⟩) }

theorem GInv.fwdOf {g : Gr} {hist : List Arc} (h : GInv g hist) (hf : g.frozen = true) (n : Nat) : (fwdOf g n).Perm (hist.filter (fun a => a.tail == n)) := by
  obtain ⟨hc, hl⟩ := h.full hf
  have hfo := h.fo (Or.inr hf)
  have hs := h.sorted
  rw [hc, List.take_length] at hfo hs
  unfold DepGraph.fwdOf
  by_cases hn : n < g.fo.length
  · rw [hfo n hn]
    cases hk : g.fwd.findIdx? (fun a => a.tail == n) with
    | some k =>
      simp only
      rw [fwdFrom_drop _ _ _ hs hk]
      exact h.perm.filter _
    | none =>
      simp only
      rw [List.findIdx?_eq_none_iff] at hk
      rw [List.filter_eq_nil_iff.2 (fun a ha => by rw [hk a (h.perm.mem_iff.2 ha)]; simp)]
  · rw [List.getElem?_eq_none (by omega)]
    simp only
    rw [List.filter_eq_nil_iff.2 (fun a ha => by have := h.bnd a ha; simp; omega)]

theorem GInv.invOf {g : Gr} {hist : List Arc} (h : GInv g hist) (hf : g.frozen = true) (n : Nat) :
    ((invOf g n).map (fun v => (v.lit, v.tail))).Perm ((hist.filter (fun a => a.head == n)).map ends) := by
  obtain ⟨hc, hl⟩ := h.full hf
  obtain ⟨D, hD1, hD2, hD3, hD4⟩ := h.io
  have hio := hD4 (Or.inr hf)
  rw [hc, List.take_length] at hD1
  have hp := hD1.trans h.perm
  unfold DepGraph.invOf
  by_cases hn : n < g.io.length
  · rw [hio n hn]
    cases hk : D.findIdx? (fun a => a.head == n) with
    | some k =>
      simp only
      rw [hD3, invFrom_drop _ _ _ hD2 hk]
      exact (hp.filter _).map _
    | none =>
      simp only
      rw [List.findIdx?_eq_none_iff] at hk
      rw [List.filter_eq_nil_iff.2 (fun a ha => by rw [hk a (hp.mem_iff.2 ha)]; simp)]
      simp
  · rw [List.getElem?_eq_none (by omega)]
    simp only
    rw [List.filter_eq_nil_iff.2 (fun a ha => by have := h.bnd a ha; have := h.lens; simp; omega)]
    simp

end Clasp.DepGraph
