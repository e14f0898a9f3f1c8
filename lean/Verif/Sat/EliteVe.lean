/- Variable elimination and blocked clause elimination. No code is modelled here. -/
import Verif.Sat.EliteAdd
namespace Clasp.Elite
open Clasp.Core Function

/-! ### bringing a literal to the front -/

theorem findIdx_split {v : Nat} : ∀ {t : Cl}, (∃ l ∈ t, l.var = v) →
    ∃ pre b post, t = pre ++ b :: post ∧ t.findIdx (fun l => l.var = v) = pre.length ∧ b.var = v
  | [], h => by obtain ⟨l, hl, _⟩ := h; cases hl
  | a :: t, h => by
    by_cases ha : a.var = v
    · exact ⟨[], a, t, rfl, by simp [List.findIdx_cons, ha], ha⟩
    · obtain ⟨pre, b, post, h1, h2, h3⟩ := findIdx_split (t := t) (by
        obtain ⟨l, hl, hv⟩ := h
        rcases List.mem_cons.mp hl with rfl | hl
        · exact absurd hv ha
        · exact ⟨l, hl, hv⟩)
      refine ⟨a :: pre, b, post, by rw [h1]; rfl, ?_, h3⟩
      rw [List.findIdx_cons]; simp [ha, h2]

theorem front_perm (v : Nat) (c : Cl) : (front v c).Perm c := swap0_perm _ _

theorem front_head {v : Nat} {c : Cl} (h : ∃ l ∈ c, l.var = v) : ∃ x D, front v c = x :: D ∧ x.var = v := by
  cases c with
  | nil => obtain ⟨l, hl, _⟩ := h; cases hl
  | cons a t =>
    by_cases ha : a.var = v
    · exact ⟨a, t, by simp [front, posOf, List.findIdx_cons, ha, swap0], ha⟩
    · obtain ⟨pre, b, post, h1, h2, h3⟩ := findIdx_split (t := t) (by
        obtain ⟨l, hl, hv⟩ := h
        rcases List.mem_cons.mp hl with rfl | hl
        · exact absurd hv ha
        · exact ⟨l, hl, hv⟩)
      refine ⟨b, pre ++ a :: post, ?_, h3⟩
      unfold front posOf
      rw [List.findIdx_cons]
      simp only [ha, decide_false, cond_false, h2]
      subst h1
      simp [swap0]

/-- a clause with a literal over `v` in the order it has on the stack -/
theorem front_ok {v : Nat} {sg : Bool} {c : Cl} (hn : (c.map Lit.var).Nodup) (h : (⟨v, sg⟩ : Lit) ∈ c) :
    ∃ D, front v c = ⟨v, sg⟩ :: D ∧ (⟨v, sg⟩ :: D : Cl).Perm c ∧ (∀ y ∈ D, y.var ≠ v) ∧ (D.map Lit.var).Nodup := by
  obtain ⟨x, D, h1, h2⟩ := front_head ⟨_, h, rfl⟩
  have hp := front_perm v c
  rw [h1] at hp
  have hx : x = ⟨v, sg⟩ := lit_eq_of_var hn (hp.mem_iff.mp (by simp)) h h2
  subst hx
  have hnd := (hp.map Lit.var).nodup_iff.mpr hn
  simp only [List.map_cons, List.nodup_cons] at hnd
  exact ⟨D, h1, hp, fun y hy e => hnd.1 (e ▸ List.mem_map_of_mem hy), hnd.2⟩

/-! ### testing all pairs -/

/-- Proof device: `trivialResolvent` for the clauses `i` and `j`. -/
def Tr (s : St) (v i j : Nat) : Prop := trivialResolvent (markAll s.mark ((s.cls i).getD [])) ((s.cls j).getD []) v = true

/-- Specification: the two clauses contain complementary literals over a variable other than `v`. -/
def Taut (v : Nat) (c d : Cl) : Prop := ∃ y ∈ d, y.var ≠ v ∧ y.neg ∈ c

theorem Taut.symm {v c d} (h : Taut v c d) : Taut v d c := by
  obtain ⟨y, hy, hv, hn⟩ := h
  exact ⟨y.neg, hn, by simpa using hv, by rw [Lit.neg_neg]; exact hy⟩

theorem markAll_mem : ∀ {c : Cl} {mk : Marks} {l : Lit}, (c.map Lit.var).Nodup → l ∈ c → markAll mk c l.var = some l.sign
  | [], _, _, _, h => by cases h
  | a :: c, mk, l, hn, h => by
    simp only [List.map_cons, List.nodup_cons] at hn
    rw [markAll]
    rcases List.mem_cons.mp h with rfl | h
    · have key : ∀ (c : Cl) (mk : Marks) (v : Nat), v ∉ c.map Lit.var → markAll mk c v = mk v := by
        intro c
        induction c with
        | nil => intro mk v _; rfl
        | cons b c ih =>
          intro mk v hv
          simp only [List.map_cons, List.mem_cons, not_or] at hv
          rw [markAll, ih _ _ hv.2, update_of_ne hv.1]
      rw [key c _ _ hn.1, update_self]
    · exact markAll_mem hn.2 h

theorem Tr_iff {cx s v i j c d} (h : Wf cx s) (hm : MkOk [] s) (hc : s.cls i = some c) (hd : s.cls j = some d) :
    Tr s v i j ↔ Taut v c d := by
  unfold Tr trivialResolvent Taut
  rw [hc, hd]
  simp only [Option.getD_some, List.any_eq_true, Bool.and_eq_true, decide_eq_true_eq, marked]
  constructor
  · rintro ⟨y, hy, h1, h2⟩
    refine ⟨y, hy, h2, ?_⟩
    rcases markAll_some h1 with h3 | h3
    · rw [Lit.neg_var, no_mark h hm hd y hy] at h3; cases h3
    · exact h3
  · rintro ⟨y, hy, h1, h2⟩
    exact ⟨y, hy, markAll_mem (h.nd hc) h2, h1⟩

theorem filter_upd {neg : List Nat} (hn : neg.Nodup) {f : Nat → Bool} {j : Nat} (hj : j ∈ neg) :
    (neg.filter (update f j false)).length = (neg.filter f).length - (if f j then 1 else 0) := by
  induction neg with
  | nil => cases hj
  | cons a t ih =>
    simp only [List.nodup_cons] at hn
    by_cases ha : a = j
    · subst ha
      have : t.filter (update f a false) = t.filter f := List.filter_congr (fun x hx => by
        rw [update_of_ne (fun e : x = a => hn.1 (e ▸ hx))])
      cases hf : f a <;> simp [this, hf]
    · have hjt : j ∈ t := by
        rcases List.mem_cons.mp hj with rfl | h
        · exact absurd rfl ha
        · exact h
      have := ih hn.2 hjt
      have hpos : f j = true → 0 < (t.filter f).length := fun hf =>
        List.length_pos_of_mem (List.mem_filter.mpr ⟨hjt, hf⟩)
      cases hf : f a
      · simp [update_of_ne ha, hf, this]
      · simp only [List.filter_cons, update_of_ne ha, hf, if_true, List.length_cons, this]
        split
        · next h => have := hpos h; omega
        · omega

/-- Proof device: `markMax` is the number of marked clauses of `neg`. -/
def KInv (bce : Nat) (neg : List Nat) (a : Acc) : Prop :=
  a.markMax = (neg.filter a.negM).length ∧ (bce = 0 → ∀ j, a.negM j = false) ∧ (a.stop = true → bce = 0)

theorem testRow_ok {s : St} {mk : Marks} {v bce maxCnt i : Nat} {neg : List Nat} (hn : neg.Nodup) :
    ∀ (js : List Nat) (lm : Bool) (a : Acc), (∀ j ∈ js, j ∈ neg) →
    let r := testRow s mk v bce maxCnt i js lm a
    let T := fun j => trivialResolvent mk ((s.cls j).getD []) v
    a.cnt ≤ r.2.cnt ∧ r.2.blocked = a.blocked ∧ (r.1 = true → ∀ j ∈ js, T j = true) ∧
    (r.2.cnt ≤ maxCnt → r.2.cands.length + a.cnt = a.cands.length + r.2.cnt ∧ r.2.stop = a.stop ∧
      ∀ p, p ∈ r.2.cands ↔ p ∈ a.cands ∨ (p.1 = i ∧ p.2 ∈ js ∧ T p.2 = false)) ∧
    (KInv bce neg a → KInv bce neg r.2 ∧ ∀ j ∈ neg, r.2.negM j = true → a.negM j = true ∧ (j ∈ js → T j = true))
  | [], lm, a, _ => ⟨Nat.le_refl _, rfl, by simp [testRow], fun _ => ⟨by simp [testRow], rfl, by simp [testRow]⟩,
      fun h => ⟨h, fun j _ hj => ⟨hj, by simp⟩⟩⟩
  | j :: js, lm, a, hs => by
    have hs' : ∀ j ∈ js, j ∈ neg := fun x hx => hs x (List.mem_cons_of_mem _ hx)
    simp only []
    unfold testRow
    split
    · next ht =>
      obtain ⟨h1, h2, h3, h4, h5⟩ := testRow_ok (s := s) (mk := mk) (v := v) (bce := bce) (maxCnt := maxCnt) (i := i) hn js lm a hs'
      refine ⟨h1, h2, fun e x hx => ?_, fun hc => ⟨(h4 hc).1, (h4 hc).2.1, fun p => ?_⟩, fun hk => ⟨(h5 hk).1, fun x hx hm => ⟨((h5 hk).2 x hx hm).1, fun hx' => ?_⟩⟩⟩
      · rcases List.mem_cons.mp hx with rfl | hx
        · exact ht
        · exact h3 e x hx
      · rw [(h4 hc).2.2 p]
        refine or_congr_right ⟨fun ⟨a, b, c⟩ => ⟨a, List.mem_cons_of_mem _ b, c⟩, fun ⟨a, b, c⟩ => ⟨a, ?_, c⟩⟩
        rcases List.mem_cons.mp b with hb | hb
        · rw [hb, ht] at c; cases c
        · exact hb
      · rcases List.mem_cons.mp hx' with rfl | hx'
        · exact ht
        · exact ((h5 hk).2 x hx hm).2 hx'
    · next ht =>
      simp only [Bool.not_eq_true] at ht
      -- the invariant after the mark of `j` is removed
      have hK : KInv bce neg a → KInv bce neg { a with markMax := a.markMax - (if a.negM j then 1 else 0), negM := update a.negM j false, cnt := a.cnt + 1 } := by
        rintro ⟨k1, k2, k3⟩
        refine ⟨?_, fun h0 x => ?_, k3⟩
        · show _ = (neg.filter (update a.negM j false)).length
          rw [filter_upd hn (hs j (by simp)), k1]
        · show update a.negM j false x = false
          by_cases hx : x = j
          · subst hx; simp
          · rw [update_of_ne hx]; exact k2 h0 x
      have hU : ∀ x, update a.negM j false x = true → x ≠ j ∧ a.negM x = true := fun x hx => by
        by_cases hxj : x = j
        · subst hxj; simp at hx
        · rw [update_of_ne hxj] at hx; exact ⟨hxj, hx⟩
      simp only []
      generalize hm' : a.markMax - (if a.negM j then 1 else 0) = m' at hK
      split
      · next hcnt =>
        obtain ⟨h1, h2, h3, h4, h5⟩ := testRow_ok (s := s) (mk := mk) (v := v) (bce := bce) (maxCnt := maxCnt) (i := i) hn js false
          { a with markMax := m', negM := update a.negM j false, cnt := a.cnt + 1, cands := a.cands ++ [(i, j)] } hs'
        refine ⟨Nat.le_trans (Nat.le_succ _) h1, h2, fun e => ?_, fun hc => ⟨?_, (h4 hc).2.1, fun p => ?_⟩, fun hk => ?_⟩
        · exfalso
          exact testRow_false s mk v bce maxCnt i js _ e
        · have := (h4 hc).1
          simp only [List.length_append, List.length_cons, List.length_nil] at this
          omega
        · rw [(h4 hc).2.2 p]
          simp only [List.mem_append, List.mem_cons, List.not_mem_nil, or_false]
          constructor
          · rintro ((h | h) | ⟨h6, h7, h8⟩)
            · exact Or.inl h
            · have h : p = (i, j) := h
              subst h; exact Or.inr ⟨rfl, Or.inl rfl, ht⟩
            · exact Or.inr ⟨h6, Or.inr h7, h8⟩
          · rintro (h | ⟨h6, h7 | h7, h8⟩)
            · exact Or.inl (Or.inl h)
            · exact Or.inl (Or.inr (Prod.ext h6 h7))
            · exact Or.inr ⟨h6, h7, h8⟩
        · have hk' := h5 (hK hk)
          refine ⟨hk'.1, fun x hx hm => ?_⟩
          obtain ⟨e1, e2⟩ := hk'.2 x hx hm
          obtain ⟨e3, e4⟩ := hU x e1
          exact ⟨e4, fun hx' => by
            rcases List.mem_cons.mp hx' with h | h
            · exact absurd h e3
            · exact e2 h⟩
      · next hcnt =>
        split
        · next h0 =>
          refine ⟨Nat.le_succ _, rfl, fun e => (nomatch e), fun hc => absurd hc hcnt, fun hk => ?_⟩
          obtain ⟨k1, k2, k3⟩ := hK hk
          refine ⟨⟨k1, k2, fun e => by simpa using e⟩, fun x hx hm => ?_⟩
          replace k1 : m' = (neg.filter (update a.negM j false)).length := k1
          rw [h0] at k1
          have : x ∈ neg.filter (update a.negM j false) := List.mem_filter.mpr ⟨hx, hm⟩
          rw [List.length_eq_zero_iff.mp k1.symm] at this
          cases this
        · obtain ⟨h1, h2, h3, h4, h5⟩ := testRow_ok (s := s) (mk := mk) (v := v) (bce := bce) (maxCnt := maxCnt) (i := i) hn js false
            { a with markMax := m', negM := update a.negM j false, cnt := a.cnt + 1 } hs'
          refine ⟨Nat.le_trans (Nat.le_succ _) h1, h2, fun e => ?_, fun hc => absurd (Nat.le_trans h1 hc) hcnt, fun hk => ?_⟩
          · exfalso
            exact testRow_false s mk v bce maxCnt i js _ e
          · have hk' := h5 (hK hk)
            refine ⟨hk'.1, fun x hx hm => ?_⟩
            obtain ⟨e1, e2⟩ := hk'.2 x hx hm
            obtain ⟨e3, e4⟩ := hU x e1
            exact ⟨e4, fun hx' => by
              rcases List.mem_cons.mp hx' with h | h
              · exact absurd h e3
              · exact e2 h⟩
where
  testRow_false (s : St) (mk : Marks) (v bce maxCnt i : Nat) : ∀ (js : List Nat) (a : Acc),
      ¬ (testRow s mk v bce maxCnt i js false a).1 = true
    | [], _ => by simp [testRow]
    | j :: js, a => by
      unfold testRow
      split
      · exact testRow_false s mk v bce maxCnt i js a
      · simp only []
        split
        · exact testRow_false s mk v bce maxCnt i js _
        · generalize a.markMax - (if a.negM j then 1 else 0) = m'
          split
          · simp
          · exact testRow_false s mk v bce maxCnt i js _

theorem testRows_ok {s : St} {v bce maxCnt : Nat} {neg : List Nat} (hn : neg.Nodup) : ∀ (is : List Nat) (a : Acc),
    let b := testRows s v bce maxCnt neg is a
    a.cnt ≤ b.cnt ∧ (∀ i ∈ b.blocked, i ∈ a.blocked ∨ (i ∈ is ∧ ∀ j ∈ neg, Tr s v i j)) ∧
    (b.cnt ≤ maxCnt → a.stop = false → b.cands.length + a.cnt = a.cands.length + b.cnt ∧
      ∀ p, p ∈ b.cands ↔ p ∈ a.cands ∨ (p.1 ∈ is ∧ p.2 ∈ neg ∧ ¬ Tr s v p.1 p.2)) ∧
    (KInv bce neg a → KInv bce neg b ∧ ∀ j ∈ neg, b.negM j = true → a.negM j = true ∧ ∀ i ∈ is, Tr s v i j)
  | [], a => ⟨Nat.le_refl _, fun i hi => Or.inl hi, fun _ _ => ⟨rfl, by simp [testRows]⟩, fun h => ⟨h, fun j _ hj => ⟨hj, by simp⟩⟩⟩
  | i :: is, a => by
    simp only []
    unfold testRows
    split
    · next hst =>
      refine ⟨Nat.le_refl _, fun i hi => Or.inl hi, fun _ h => (by rw [hst] at h; cases h), fun h => ⟨h, fun j hj hm => ?_⟩⟩
      rw [h.2.1 (h.2.2 hst) j] at hm; cases hm
    · next hst =>
      simp only []
      obtain ⟨r1, r2, r3, r4, r5⟩ := testRow_ok (s := s) (mk := markAll s.mark ((s.cls i).getD [])) (v := v) (bce := bce)
        (maxCnt := maxCnt) (i := i) hn neg (decide (bce ≠ 0)) a (fun _ h => h)
      generalize testRow s (markAll s.mark ((s.cls i).getD [])) v bce maxCnt i neg (decide (bce ≠ 0)) a = r at r1 r2 r3 r4 r5
      have hq : ∃ q : Acc, (if r.1 then { r.2 with blocked := r.2.blocked ++ [i] } else r.2) = q ∧ q.cnt = r.2.cnt ∧ q.cands = r.2.cands ∧
          q.stop = r.2.stop ∧ q.negM = r.2.negM ∧ q.markMax = r.2.markMax ∧
          (∀ x ∈ q.blocked, x ∈ a.blocked ∨ (x = i ∧ ∀ j ∈ neg, Tr s v i j)) := by
        split
        · next hr =>
          refine ⟨_, rfl, rfl, rfl, rfl, rfl, rfl, fun x hx => ?_⟩
          rcases List.mem_append.mp hx with hx | hx
          · rw [r2] at hx; exact Or.inl hx
          · rw [List.mem_singleton] at hx; exact Or.inr ⟨hx, r3 hr⟩
        · exact ⟨_, rfl, rfl, rfl, rfl, rfl, rfl, fun x hx => by rw [r2] at hx; exact Or.inl hx⟩
      obtain ⟨q, hqe, q1, q2, q3, q4, q5, q6⟩ := hq
      rw [hqe]
      obtain ⟨t1, t2, t3, t4⟩ := testRows_ok (s := s) (v := v) (bce := bce) (maxCnt := maxCnt) hn is q
      generalize testRows s v bce maxCnt neg is q = b at t1 t2 t3 t4
      rw [q1] at t1
      refine ⟨Nat.le_trans r1 t1, fun x hx => ?_, fun hc hs => ?_, fun hk => ?_⟩
      · rcases t2 x hx with h | ⟨h, h'⟩
        · rcases q6 x h with h | ⟨rfl, h⟩
          · exact Or.inl h
          · exact Or.inr ⟨by simp, h⟩
        · exact Or.inr ⟨List.mem_cons_of_mem _ h, h'⟩
      · obtain ⟨u1, u2, u3⟩ := r4 (Nat.le_trans t1 hc)
        obtain ⟨w1, w2⟩ := t3 hc (by rw [q3, u2]; exact hs)
        rw [q1, q2] at w1
        refine ⟨by omega, fun p => ?_⟩
        rw [w2 p, q2, u3 p]
        simp only [List.mem_cons, Tr, Bool.not_eq_true]
        constructor
        · rintro ((h | ⟨h1, h2, h3⟩) | ⟨h1, h2, h3⟩)
          · exact Or.inl h
          · exact Or.inr ⟨Or.inl h1, h2, by rw [h1]; exact h3⟩
          · exact Or.inr ⟨Or.inr h1, h2, h3⟩
        · rintro (h | ⟨h1 | h1, h2, h3⟩)
          · exact Or.inl (Or.inl h)
          · exact Or.inl (Or.inr ⟨h1, h2, by rw [h1] at h3; exact h3⟩)
          · exact Or.inr ⟨h1, h2, h3⟩
      · obtain ⟨u1, u2⟩ := r5 hk
        have hkq : KInv bce neg q := by unfold KInv; rw [q5, q4, q3]; exact u1
        obtain ⟨w1, w2⟩ := t4 hkq
        refine ⟨w1, fun j hj hm => ?_⟩
        obtain ⟨e1, e2⟩ := w2 j hj hm
        rw [q4] at e1
        obtain ⟨e3, e4⟩ := u2 j hj e1
        exact ⟨e3, fun x hx => by
          rcases List.mem_cons.mp hx with rfl | hx
          · exact e4 hj
          · exact e2 x hx⟩

/-! ### removing a clause -/

theorem eraseOcc_sub (id v : Nat) : ∀ (c : Cl) (occ : Nat → List (Nat × Bool)) (w : Nat), (eraseOcc id v c occ w).Sublist (occ w)
  | [], _, _ => List.Sublist.refl _
  | l :: c, occ, w => by
    rw [eraseOcc]
    refine (eraseOcc_sub id v c _ w).trans ?_
    split
    · exact List.Sublist.refl _
    · by_cases hw : w = l.var
      · subst hw; rw [update_self]; exact List.erase_sublist
      · rw [update_of_ne hw]

theorem eraseOcc_keep {id v : Nat} : ∀ {c : Cl} {occ : Nat → List (Nat × Bool)} {w : Nat} {e}, e.1 ≠ id → e ∈ occ w →
    e ∈ eraseOcc id v c occ w
  | [], _, _, _, _, h => h
  | l :: c, occ, w, e, hne, h => by
    rw [eraseOcc]
    apply eraseOcc_keep hne
    split
    · exact h
    · by_cases hw : w = l.var
      · subst hw; rw [update_self]
        exact (List.mem_erase_of_ne (fun e' => hne (by rw [e']))).mpr h
      · rw [update_of_ne hw]; exact h

theorem eraseOcc_gone {id v : Nat} : ∀ {c : Cl} {occ : Nat → List (Nat × Bool)} {l : Lit}, l ∈ c → l.var ≠ v → (occ l.var).Nodup →
    (id, l.sign) ∉ eraseOcc id v c occ l.var
  | [], _, _, h, _, _ => by cases h
  | a :: c, occ, l, h, hv, hn => by
    rw [eraseOcc]
    rcases List.mem_cons.mp h with rfl | h
    · rw [if_neg hv]
      intro hm
      have := (eraseOcc_sub id v c _ _).subset hm
      rw [update_self] at this
      exact hn.not_mem_erase this
    · apply eraseOcc_gone h hv
      split
      · exact hn
      · by_cases hw : l.var = a.var
        · rw [hw, update_self, ← hw]; exact hn.erase _
        · rw [update_of_ne hw]; exact hn

theorem bceVeRemove_eq {s : St} {id x t} (fr : Bool) (v : Nat) (b : Bool) (hc : s.cls id = some (x :: t)) :
    bceVeRemove id fr v b s = { detach id s with
      occ := if fr then eraseOcc id v (x :: t) s.occ else s.occ, elim := ⟨front v (x :: t), b⟩ :: s.elim } := by
  rw [detach_eq hc]; simp [bceVeRemove, hc, removeWatch]

theorem Wf.setOccs {cx s} (h : Wf cx s) (o : Nat → List (Nat × Bool)) (hs : ∀ v, (o v).Sublist (s.occ v))
    (hk : ∀ id c l, s.cls id = some c → l ∈ c → (id, l.sign) ∈ o l.var) : Wf cx { s with occ := o } :=
  { h with
    occC := fun {id c l} hc hl => hk id c l hc hl
    occS := fun he hc => h.occS ((hs _).subset he) hc
    occN := fun v => (h.occN v).sublist ((hs v).map _) }

theorem bceVeRemove_ok {cx s id c} (fr : Bool) (v : Nat) (b : Bool) (h : Wf cx s) (hc : s.cls id = some c) :
    let s' := bceVeRemove id fr v b s
    Wf cx s' ∧ s'.cls = update s.cls id none ∧ s'.elim = ⟨front v c, b⟩ :: s.elim ∧ s'.mark = s.mark ∧ s'.trail = s.trail ∧
    s'.facts = s.facts ∧ s'.elimd = s.elimd ∧ (∀ w, (s'.occ w).Sublist (s.occ w)) ∧
    (fr = true → ∀ w sg, w ≠ v → (id, sg) ∉ s'.occ w) := by
  obtain ⟨x, t, rfl⟩ := h.pos hc
  have hd := h.detach hc
  have hcls := detach_cls h hc
  have hmk := detach_mark h hc
  have hocc : (detach id s).occ = s.occ := by rw [detach_eq hc]
  have hels : (detach id s).elimd = s.elimd := by rw [detach_eq hc]
  rw [bceVeRemove_eq fr v b hc]
  have hsub : ∀ w, ((if fr then eraseOcc id v (x :: t) s.occ else s.occ) w).Sublist (s.occ w) := fun w => by
    split
    · exact eraseOcc_sub _ _ _ _ _
    · exact List.Sublist.refl _
  have hw := hd.setOccs (if fr then eraseOcc id v (x :: t) s.occ else s.occ) (fun w => by rw [hocc]; exact hsub w) (fun j d l hj hl => by
    rw [hcls] at hj
    obtain ⟨hji, hj⟩ := cls_update_none hj
    have := h.occC hj hl
    split
    · exact eraseOcc_keep hji this
    · exact this)
  refine ⟨{ hw with }, hcls, rfl, hmk.1, hmk.2.1, hmk.2.2.1, hels, hsub, fun hfr w sg hwv hm => ?_⟩
  subst hfr
  replace hm : (id, sg) ∈ eraseOcc id v (x :: t) s.occ w := hm
  have hin := h.occS ((eraseOcc_sub _ _ _ _ _).subset hm) hc
  exact eraseOcc_gone hin hwv (List.Nodup.of_map _ (h.occN w)) hm

theorem removeAll_ok {cx} (v : Nat) : ∀ (xs : List (Nat × Bool)) (n : Nat) (s : St), Wf cx s → (xs.map Prod.fst).Nodup →
    (∀ e ∈ xs, s.cls e.1 ≠ none) →
    let s' := removeAll v xs n s
    Wf cx s' ∧ (∀ id, s'.cls id = if id ∈ xs.map Prod.fst then none else s.cls id) ∧
    s'.elim = xs.reverse.map (fun e => ⟨candOf s v e.1, false⟩) ++ s.elim ∧ s'.mark = s.mark ∧ s'.trail = s.trail ∧
    s'.facts = s.facts ∧ s'.elimd = s.elimd ∧ (∀ w, (s'.occ w).Sublist (s.occ w)) ∧
    (∀ e ∈ xs.take n, ∀ w sg, w ≠ v → (e.1, sg) ∉ s'.occ w)
  | [], n, s, h, _, _ => by
    refine ⟨h, fun id => by simp [removeAll], by simp [removeAll], rfl, rfl, rfl, rfl, fun w => List.Sublist.refl _, by simp⟩
  | (id, sg) :: xs, n, s, h, hn, hl => by
    simp only [List.map_cons, List.nodup_cons] at hn
    simp only [removeAll]
    obtain ⟨c, hc⟩ := Option.ne_none_iff_exists'.mp (hl (id, sg) (by simp))
    simp only at hc
    obtain ⟨a1, a2, a3, a4, a5, a6, a7, a8, a9⟩ := bceVeRemove_ok (decide (0 < n)) v false h hc
    generalize bceVeRemove id (decide (0 < n)) v false s = s1 at a1 a2 a3 a4 a5 a6 a7 a8 a9
    have hne : ∀ e ∈ xs, e.1 ≠ id := fun e he e' => hn.1 (e' ▸ List.mem_map_of_mem he)
    obtain ⟨b1, b2, b3, b4, b5, b6, b7, b8, b9⟩ := removeAll_ok v xs (n - 1) s1 a1 hn.2 (fun e he => by
      rw [a2, update_of_ne (hne e he)]; exact hl e (List.mem_cons_of_mem _ he))
    generalize removeAll v xs (n - 1) s1 = s2 at b1 b2 b3 b4 b5 b6 b7 b8 b9
    refine ⟨b1, fun j => ?_, ?_, b4.trans a4, b5.trans a5, b6.trans a6, b7.trans a7, fun w => (b8 w).trans (a8 w), fun e he w sg' hw => ?_⟩
    · rw [b2 j, a2]
      by_cases hj : j = id
      · subst hj; simp
      · simp only [List.map_cons, List.mem_cons, hj, false_or, update_of_ne hj]
    · rw [b3, a3]
      have hcand : ∀ e ∈ xs.reverse, (⟨candOf s1 v e.1, false⟩ : ECl) = ⟨candOf s v e.1, false⟩ := fun e he => by
        unfold candOf; rw [a2, update_of_ne (hne e (List.mem_reverse.mp he))]
      rw [List.map_congr_left hcand]
      simp [candOf, hc]
    · cases n with
      | zero => simp at he
      | succ n =>
        simp only [List.take_succ_cons, List.mem_cons] at he
        rcases he with rfl | he
        · intro hm
          exact a9 (by simp) w sg' hw ((b8 w).subset hm)
        · exact b9 e he w sg' hw

end Clasp.Elite
