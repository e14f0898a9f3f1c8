import Verif.Opt.UncorePmr
/-! Helper lemmas for core-guided optimization: the algorithms `one` and `k`. No code is modelled here. -/

namespace Clasp.Uncore
open Clasp.Core (Lit Asg)

/-- Proof device: each of the variables `v, ..., v + n - 1` implies the next one. -/
def chain (M : Asg) : Option Lit → Nat → Nat → Prop
  | _, _, 0 => True
  | b, v, n + 1 => (∀ a, b = some a → M.sat a → M.sat ⟨v, false⟩) ∧ chain M (some ⟨v, false⟩) (v + 1) n

/-- Proof device: the assumptions for the variables `v, ..., v + n - 1`. -/
def outs (w : Int) : Nat → Nat → List Dat
  | _, 0 => []
  | v, n + 1 => ⟨⟨v, false⟩, w, true, none⟩ :: outs w (v + 1) n

/-- Proof device: the number of true variables among `v, ..., v + n - 1`. -/
def gcnt (M : Asg) : Nat → Nat → Int
  | _, 0 => 0
  | v, n + 1 => (if M.sat ⟨v, false⟩ then 1 else 0) + gcnt M (v + 1) n

theorem gcnt_le (M v n) : gcnt M v n ≤ n := by
  induction n generalizing v with
  | zero => simp [gcnt]
  | succ n ih => have := ih (v + 1); simp only [gcnt]; push_cast; split <;> omega

theorem pot_outs (M : Asg) (w v n) : pot M (outs w v n) = w * (n - gcnt M v n) := by
  induction n generalizing v with
  | zero => simp [outs, gcnt, pot]
  | succ n ih =>
    have := ih (v + 1)
    simp only [outs, gcnt]
    rw [show (⟨⟨v, false⟩, w, true, none⟩ :: outs w (v + 1) n : List Dat) = [⟨⟨v, false⟩, w, true, none⟩] ++ outs w (v + 1) n from rfl,
      pot_append, pot_single, this]
    simp only [Dat.pot, viol]; push_cast
    split <;> ring

theorem outs_mem {w v n} {d : Dat} (h : d ∈ outs w v n) : d.lit.var < v + n ∧ d.weight = w ∧ d.assume = true ∧ d.core = none := by
  induction n generalizing v with
  | zero => simp [outs] at h
  | succ n ih =>
    simp only [outs, List.mem_cons] at h
    rcases h with rfl | h
    · simp
    · have := ih h; refine ⟨by omega, this.2⟩

theorem chain_all {M : Asg} {a v n} (h : chain M (some a) v n) (ha : M.sat a) : gcnt M v n = n := by
  induction n generalizing v a with
  | zero => simp [gcnt]
  | succ n ih =>
    have h1 := h.1 a rfl ha
    simp only [gcnt, h1, if_true, ih h.2 h1]; push_cast; ring

/-- Proof device: outputs sorted by a threshold. -/
def sorted (M : Asg) (t : Int) (n : Nat) : Asg := fun v => if v < n then M v else decide (t ≤ v)

theorem sorted_agr (M t n) : Agr n M (sorted M t n) := fun v hv => by simp [sorted, hv]

theorem sorted_sat (M : Asg) (t : Int) {n v : Nat} (h : n ≤ v) : Asg.sat (sorted M t n) ⟨v, false⟩ ↔ t ≤ v := by
  simp [Asg.sat, sorted, Lit.tv, Nat.not_lt.2 h]

theorem sorted_chain (M : Asg) (t : Int) {n v : Nat} (h : n ≤ v) (m : Nat) (b : Option Lit) (hb : ∀ a, b = some a → ∃ u, a = ⟨u, false⟩ ∧ n ≤ u ∧ u ≤ v) :
    chain (sorted M t n) b v m := by
  induction m generalizing v b with
  | zero => trivial
  | succ m ih =>
    refine ⟨?_, ih (by omega) _ ?_⟩
    · intro a ha hs
      obtain ⟨u, rfl, h1, h2⟩ := hb a ha
      rw [sorted_sat _ _ h1] at hs
      rw [sorted_sat _ _ h]; omega
    · rintro a ⟨⟩
      exact ⟨v, rfl, h, by omega⟩

theorem sorted_gcnt (M : Asg) (t : Int) {n v : Nat} (h : n ≤ v) (m : Nat) : gcnt (sorted M t n) v m = min (m : Int) (max 0 ((v : Int) + m - t)) := by
  induction m generalizing v with
  | zero => simp [gcnt]
  | succ m ih =>
    have := ih (v := v + 1) (by omega)
    simp only [gcnt, this, sorted_sat M t h]
    push_cast
    split <;> omega

theorem kOuts_spec {F : Asg → Prop} {o : Slv} (ho : o.Sound F) (w : Int) (σ : St) (n : Nat) :
    ∀ k cs ds nw c b, NwOk σ nw → ∃ cs' nw' c', NwOk σ nw' ∧
      kOuts o w n (grow σ k cs ds nw) c b = (grow σ (k + n) cs' (ds ++ outs w (σ.n + k) n) nw', c') ∧
      (∀ M, Sat cs' M ↔ Sat cs M ∧ chain M b (σ.n + k) n) ∧
      (∀ M, F M → Sat cs' M → Sat σ.cons M → cnt M c'.lits - c'.bound = cnt M c.lits - c.bound + (n - gcnt M (σ.n + k) n)) ∧
      ((∀ p ∈ c.lits, p.var < σ.n + k) → ∀ p ∈ c'.lits, p.var < σ.n + (k + n)) ∧
      ((∀ x ∈ cs, Con.below (σ.n + k) x) → (∀ a, b = some a → a.var < σ.n + k) → ∀ x ∈ cs', Con.below (σ.n + (k + n)) x) := by
  induction n with
  | zero =>
    intro k cs ds nw c b h
    exact ⟨cs, nw, c, h, by simp [kOuts, outs], by simp [chain], by simp [gcnt], by simp, by simp; exact fun q _ => q⟩
  | succ n ih =>
    intro k cs ds nw c b h
    obtain ⟨nw1, hnw1, h1⟩ := newAssumption_grow (k := k + 1) (cs := cs) (ds := ds) h ⟨σ.n + k, false⟩ w
    have hsat0 : ∃ cs1 : List Con, kLink o (grow σ (k + 1) cs (ds ++ [⟨⟨σ.n + k, false⟩, w, true, none⟩]) nw1) b ⟨σ.n + k, false⟩ =
        grow σ (k + 1) cs1 (ds ++ [⟨⟨σ.n + k, false⟩, w, true, none⟩]) nw1 ∧
        (∀ M, Sat cs1 M ↔ Sat cs M ∧ ∀ a, b = some a → M.sat a → M.sat ⟨σ.n + k, false⟩) ∧
        ((∀ x ∈ cs, Con.below (σ.n + k) x) → (∀ a, b = some a → a.var < σ.n + k) → ∀ x ∈ cs1, Con.below (σ.n + (k + 1)) x) := by
      cases b with
      | none => exact ⟨cs, rfl, by simp, fun q _ x hx => (q x hx).mono (by omega)⟩
      | some a =>
        refine ⟨.clause [a.neg, ⟨σ.n + k, false⟩] :: cs, by simp [kLink, addImplication, addCon_grow], ?_, ?_⟩
        · intro M
          simp only [Sat_cons, Con.sat, List.mem_cons, List.not_mem_nil, or_false, exists_eq_or_imp, exists_eq_left, Clasp.Core.Asg.sat_neg, Option.some.injEq]
          constructor
          · rintro ⟨q1, q2⟩; exact ⟨q2, fun a' ha hs => by subst ha; tauto⟩
          · rintro ⟨q1, q2⟩; exact ⟨by have := q2 a rfl; tauto, q1⟩
        · intro q1 q2 x hx
          rcases List.mem_cons.1 hx with rfl | hx
          · have := q2 a rfl
            simp [Con.below]; omega
          · exact (q1 x hx).mono (by omega)
    obtain ⟨cs1, e1, e2, e3⟩ := hsat0
    obtain ⟨cs', nw', c', r1, r2, r3, r4, r5, r6⟩ := ih (k + 1) cs1 (ds ++ [⟨⟨σ.n + k, false⟩, w, true, none⟩]) nw1
      (WC.add (o.top (grow σ (k + 1) cs (ds ++ [⟨⟨σ.n + k, false⟩, w, true, none⟩]) nw1).cons) c (Lit.neg ⟨σ.n + k, false⟩)) (some ⟨σ.n + k, false⟩) hnw1
    refine ⟨cs', nw', c', r1, ?_, ?_, ?_, ?_, ?_⟩
    · simp only [kOuts, newLit_grow, h1]
      rw [e1, r2]
      simp only [outs, List.append_assoc, List.singleton_append, Nat.add_assoc, Nat.add_comm 1]
    · intro M; rw [r3, e2]; simp only [chain, Nat.add_assoc]; tauto
    · intro M hF hs hs2
      have hs1 := ((e2 M).1 ((r3 M).1 hs).1).1
      rw [r4 M hF hs hs2, WC.add_spec ho hF (by simp only [grow, Sat_append]; exact ⟨hs1, hs2⟩)]
      simp only [cnt, gcnt, Clasp.Core.Asg.sat_neg, Nat.add_assoc]
      push_cast
      split_ifs <;> first | ring | tauto
    · intro q p hp
      have := r5 (fun p hp => by
        rcases WC.add_mem hp with h | h
        · have := q p h; omega
        · rw [h]; show σ.n + k < σ.n + (k + 1); omega) p hp
      omega
    · intro q1 q2 x hx
      have := r6 (e3 q1 q2) (by rintro a ⟨⟩; show σ.n + k < σ.n + (k + 1); omega) x hx
      rwa [show σ.n + (k + 1 + n) = σ.n + (k + (n + 1)) by omega] at this

theorem kGroup_post {X : Ctx} {o : Slv} (ho : o.Sound X.F) {T S : Nat → Prop} {σ : St} {cp : Lit} {xs rest : List Lit} {w : Int} {E : Asg → Int} (connect : Bool)
    (hE : Dep σ.n E) (hw : 0 < w) (hcp : cp.var < σ.n) (hl : ∀ p ∈ xs, p.var < σ.n) (hr : ∀ p ∈ rest, p.var < σ.n) (W : Wf X.F X.n0 T σ)
    (hcon : connect = false → rest = []) (hh : Holds X σ (cp.neg :: (xs ++ rest)))
    (g : Good X σ (fun M => E M + w * (viol M cp + cnt M (xs ++ rest) - 1))) :
    Post X T S σ ((kGroup o w σ cp xs connect).1, (kGroup o w σ cp xs connect).2.2)
      (fun M => if connect then E M + w * (viol M (kGroup o w σ cp xs connect).2.1 + cnt M rest - 1) else E M) ∧
    (connect = true → (kGroup o w σ cp xs connect).2.2 = true →
      (kGroup o w σ cp xs connect).2.1.var < (kGroup o w σ cp xs connect).1.n ∧
      Holds X (kGroup o w σ cp xs connect).1 ((kGroup o w σ cp xs connect).2.1.neg :: rest)) := by
  -- the input
  have hin : ∀ M, X.F M → Sat σ.cons M →
      cnt M (WC.addAll (o.top σ.cons) ⟨xs.length + (if connect then 1 else 0), []⟩ (cp :: xs.map Lit.neg)).lits -
      (WC.addAll (o.top σ.cons) ⟨xs.length + (if connect then 1 else 0), []⟩ (cp :: xs.map Lit.neg)).bound =
      1 - viol M cp - cnt M xs - (if connect then 1 else 0) := by
    intro M hF hs
    rw [WC.addAll_spec ho hF hs]
    simp only [cnt, cnt_neg, viol]
    push_cast
    split <;> split <;> ring
  have hmem : ∀ p ∈ (WC.addAll (o.top σ.cons) ⟨xs.length + (if connect then 1 else 0), []⟩ (cp :: xs.map Lit.neg)).lits, p.var < σ.n := by
    intro p hp
    rcases WC.addAll_mem hp with h | h
    · simp at h
    · rcases List.mem_cons.1 h with rfl | h
      · exact hcp
      · obtain ⟨q, hq, rfl⟩ := List.mem_map.1 h
        exact hl q hq
  -- the outputs
  have hn : NwOk σ σ.nextW := ⟨le_refl _, id⟩
  have h0 : newLit σ = (⟨σ.n, false⟩, grow σ 1 [] [] σ.nextW) := by
    have := newLit_grow σ 0 [] [] σ.nextW
    rwa [grow_zero] at this
  have hex : ∃ (cs : List Con) (nw : Int) (c' : WC), NwOk σ nw ∧
      kGroup o w σ cp xs connect =
        (grow σ (xs.length + (if connect then 1 else 0)) (.card c'.lits c'.bound :: cs) (outs w (σ.n + (if connect then 1 else 0)) xs.length) nw,
          if connect then ⟨σ.n, false⟩ else cp, !o.bad (.card c'.lits c'.bound :: (cs ++ σ.cons))) ∧
      (∀ M, Sat cs M ↔ chain M none σ.n (xs.length + (if connect then 1 else 0))) ∧
      (∀ M, X.F M → Sat cs M → Sat σ.cons M → cnt M c'.lits - c'.bound =
        1 - viol M cp - cnt M xs + xs.length - gcnt M σ.n (xs.length + (if connect then 1 else 0))) ∧
      (∀ p ∈ c'.lits, p.var < σ.n + (xs.length + (if connect then 1 else 0))) ∧
      (∀ x ∈ cs, Con.below (σ.n + (xs.length + (if connect then 1 else 0))) x) := by
    generalize hc : WC.addAll (o.top σ.cons) ⟨xs.length + (if connect then 1 else 0), []⟩ (cp :: xs.map Lit.neg) = c at hin hmem
    cases connect with
    | false =>
      simp only [Bool.false_eq_true, if_false, add_zero, sub_zero] at hc hin ⊢
      obtain ⟨cs', nw', c', r1, r2, r3, r4, r5, r6⟩ := kOuts_spec ho w σ xs.length 0 [] [] σ.nextW c none hn
      refine ⟨cs', nw', c', r1, ?_, ?_, ?_, ?_, ?_⟩
      · simp only [grow_zero] at r2
        simp only [kGroup, Bool.false_eq_true, if_false, add_zero]
        rw [hc, r2, addCon_grow]
        simp
      · intro M; rw [r3]; simp [Sat]
      · intro M hF hs hs2
        rw [r4 M hF hs hs2, hin M hF hs2]; simp; ring
      · simpa using r5 (by simpa using hmem)
      · simpa using r6 (by simp) (by simp)
    | true =>
      simp only [if_true] at hc hin ⊢
      obtain ⟨cs', nw', c', r1, r2, r3, r4, r5, r6⟩ := kOuts_spec ho w σ xs.length 1 [] [] σ.nextW
        (WC.add (o.top σ.cons) c (Lit.neg ⟨σ.n, false⟩)) (some ⟨σ.n, false⟩) hn
      refine ⟨cs', nw', c', r1, ?_, ?_, ?_, ?_, ?_⟩
      · simp only [kGroup, hc, if_true, h0]
        rw [show (grow σ 1 [] [] σ.nextW).cons = σ.cons by simp [grow], r2, addCon_grow]
        simp [Nat.add_comm]
      · intro M; rw [r3]; simp [Sat, chain]
      · intro M hF hs hs2
        rw [r4 M hF hs hs2, WC.add_spec ho hF hs2, hin M hF hs2]
        simp only [cnt, gcnt, Clasp.Core.Asg.sat_neg]
        split_ifs <;> first | ring | tauto
      · have := r5 (fun p hp => by
          rcases WC.add_mem hp with h | h
          · have := hmem p h; omega
          · rw [h]; show σ.n < σ.n + 1; omega)
        simpa [Nat.add_comm] using this
      · have := r6 (by simp) (by rintro a ⟨⟩; simp)
        simpa [Nat.add_comm] using this
  obtain ⟨cs, nw, c', e1, e2, e3, e4, e5, e6⟩ := hex
  rw [e2]
  clear e2 hin hmem
  have hgall : ∀ M, pot M (outs w (σ.n + (if connect then 1 else 0)) xs.length) + (if connect then w * viol M ⟨σ.n, false⟩ else 0) =
      w * (xs.length + (if connect then 1 else 0) - gcnt M σ.n (xs.length + (if connect then 1 else 0))) := by
    intro M
    rw [pot_outs]
    cases connect
    · simp
    · simp only [if_true, gcnt, viol]
      split <;> ring
  have hcard : ∀ M, X.F M → Sat cs M → Sat σ.cons M → ((Con.card c'.lits c'.bound).sat M ↔
      gcnt M σ.n (xs.length + (if connect then 1 else 0)) ≤ 1 - viol M cp - cnt M xs + xs.length) := by
    intro M hF hs hs2
    have := e4 M hF hs hs2
    simp only [Con.sat]; omega
  have hlast : ∀ M, X.F M → Sat σ.cons M → connect = false → 1 ≤ viol M cp + cnt M xs := by
    intro M hF hs hc
    have := hh M hF hs
    rw [hcon hc, List.append_nil] at this
    simp only [cnt, Clasp.Core.Asg.sat_neg] at this
    unfold viol
    split at this <;> split <;> first | omega | tauto
  have hexM : ∀ M, X.F M → Sat σ.cons M → ∃ M', Agr σ.n M M' ∧ Sat (.card c'.lits c'.bound :: cs) M' ∧
      gcnt M' σ.n (xs.length + (if connect then 1 else 0)) = 1 - viol M cp - cnt M xs + xs.length := by
    intro M hF hs
    let G : Int := 1 - viol M cp - cnt M xs + xs.length
    let N : Nat := xs.length + (if connect then 1 else 0)
    refine ⟨sorted M (σ.n + N - G) σ.n, sorted_agr _ _ _, ?_⟩
    have ha := sorted_agr M (σ.n + N - G) σ.n
    have hG : gcnt (sorted M (σ.n + N - G) σ.n) σ.n N = G := by
      rw [sorted_gcnt _ _ (le_refl _)]
      have h1 := cnt_nonneg M xs
      have h2 := cnt_le M xs
      have h3 := viol_nonneg M cp
      have h4 := viol_le M cp
      have h5 := hlast M hF hs
      have : G ≤ N := by
        simp only [G, N]
        cases connect
        · have := h5 rfl; simp; omega
        · simp; omega
      have : 0 ≤ G := by simp only [G]; omega
      omega
    have hcs : Sat cs (sorted M (σ.n + N - G) σ.n) := (e3 _).2 (sorted_chain _ _ (le_refl _) _ _ (by simp))
    refine ⟨Sat_cons.2 ⟨?_, hcs⟩, hG⟩
    rw [hcard _ ((X.hF _ _ (ha.mono W.n0)).2 hF) hcs ((Sat_congr ha W.cons).2 hs), viol_congr ha hcp, cnt_congr ha hl]
    exact hG.le
  refine ⟨⟨fun hok => ⟨g.grow W ?_ ?_, W.grow nw ?_ ?_, Fr.grow _ _ _ _ _ e1⟩, fun hok => ?_⟩, fun hc hok => ⟨?_, ?_⟩⟩
  · intro M hF hs
    obtain ⟨M', ha, hs', hg⟩ := hexM M hF hs
    refine ⟨M', ha, hs', ?_⟩
    have h1 := hgall M'
    rw [hg] at h1
    rw [hE _ _ ha, cnt_congr ha hr, cnt_append]
    cases connect
    · have := hcon rfl; subst this
      simp only [Bool.false_eq_true, if_false, cnt] at h1 ⊢
      have h2 : pot M' (outs w (σ.n + 0) xs.length) = w * (viol M cp + cnt M xs - 1) := by
        rw [add_zero] at h1; rw [h1]; push_cast; ring
      rw [h2]; ring
    · simp only [if_true] at h1 ⊢
      have h2 : pot M' (outs w (σ.n + 1) xs.length) = w * (viol M cp + cnt M xs) - w * viol M' ⟨σ.n, false⟩ := by
        rw [eq_sub_iff_add_eq, h1]; push_cast; ring
      rw [h2]; ring
  · intro M hF hs hs2
    have h1 := hgall M
    have h2 := Sat_cons.1 hs2
    have h3 := (hcard M hF h2.2 hs).1 h2.1
    have h4 := mul_le_mul_of_nonneg_left h3 hw.le
    rw [cnt_append]
    cases connect
    · have := hcon rfl; subst this
      simp only [Bool.false_eq_true, if_false, cnt] at h1 h4 ⊢
      push_cast at h1 h4
      linarith
    · simp only [if_true] at h1 h4 ⊢
      push_cast at h1 h4
      linarith
  · intro x hx
    rcases List.mem_cons.1 hx with rfl | hx
    · exact e5
    · exact e6 x hx
  · intro j d hd
    obtain ⟨h1, h2, h3, h4⟩ := outs_mem (List.mem_of_getElem? hd)
    exact ⟨h3, by omega, by omega, fun q => by omega, fun _ => Or.inl h3, fun c q => by rw [h4] at q; cases q⟩
  · simp only [Bool.not_eq_false'] at hok
    refine NoQ.of_bad (cs := .card c'.lits c'.bound :: cs) g W ho ?_ ?_ hok
    · intro M hF hs
      obtain ⟨M', ha, hs', _⟩ := hexM M hF hs
      exact ⟨M', ha, hs'⟩
    · intro c hc; simp only [List.mem_cons, List.mem_append] at hc ⊢; tauto
  · simp only [hc, if_true, grow]; omega
  · intro M hF hs
    have h1 := Sat_append.1 hs
    have h2 := Sat_cons.1 h1.1
    have h3 := (hcard M hF h2.2 h1.2).1 h2.1
    have h4 := (e3 M).1 h2.2
    have h5 := hh M hF h1.2
    subst hc
    simp only [if_true] at h3 h4 ⊢
    simp only [cnt, cnt_append, Clasp.Core.Asg.sat_neg] at h5 ⊢
    have h6 := cnt_nonneg M rest
    have h7 := cnt_nonneg M xs
    by_cases hsat : M.sat ⟨σ.n, false⟩
    · have h8 := chain_all h4.2 hsat
      simp only [gcnt, hsat, if_true, h8] at h3
      simp only [hsat, not_true, if_false]
      unfold viol at h3
      split at h3 <;> split at h5 <;> first | omega | tauto
    · simp only [hsat, not_false_iff, if_true]; omega

theorem kLoop_post {X : Ctx} {o : Slv} (ho : o.Sound X.F) {T S : Nat → Prop} {w : Int} (hw : 0 < w) {k : Nat} (hk : 1 ≤ k) {E : Asg → Int} (fuel : Nat) :
    ∀ (σ : St) (cp : Lit) (xs : List Lit), xs ≠ [] → xs.length ≤ fuel → Dep σ.n E → cp.var < σ.n → (∀ p ∈ xs, p.var < σ.n) → Wf X.F X.n0 T σ →
      Holds X σ (cp.neg :: xs) → Good X σ (fun M => E M + w * (viol M cp + cnt M xs - 1)) →
      Post X T S σ (kLoop o w k fuel σ cp xs) E := by
  induction fuel with
  | zero => intro σ cp xs h1 h2; simp at h2; exact absurd h2 h1
  | succ fuel ih =>
    intro σ cp xs hne hlen hE hcp hl W hh g
    unfold kLoop
    by_cases hc : k < xs.length
    · have hx : xs.take k ++ xs.drop k = xs := List.take_append_drop k xs
      have hg := kGroup_post (S := S) ho (xs := xs.take k) (rest := xs.drop k) true hE hw hcp (fun p hp => hl p (List.mem_of_mem_take hp))
        (fun p hp => hl p (List.mem_of_mem_drop hp)) W (by simp) (by rw [hx]; exact hh) (by rw [hx]; exact g)
      simp only [hc, decide_true, if_true]
      generalize kGroup o w σ cp (xs.take k) true = y at hg
      by_cases hy : y.2.2 = true
      · simp only [hy, not_true, if_false]
        obtain ⟨g1, w1, f1⟩ := hg.1.1 hy
        obtain ⟨v1, v2⟩ := hg.2 rfl hy
        simp only [if_true] at g1 f1 w1
        have := ih y.1 y.2.1 (xs.drop k) (by simp; omega) (by simp; omega) (hE.mono f1.n) v1
          (fun p hp => by have := hl p (List.mem_of_mem_drop hp); have := f1.n; omega) w1 v2 g1
        exact ⟨fun h => ⟨(this.1 h).1, (this.1 h).2.1, f1.trans (this.1 h).2.2⟩, this.2⟩
      · simp only [hy]
        exact ⟨fun q => by simp at q, fun _ => hg.1.2 (by simpa using hy)⟩
    · have hg := kGroup_post (S := S) ho (xs := xs) (rest := []) false hE hw hcp hl (by simp) W (by simp) (by simpa using hh) (by simpa using g)
      simp only [hc, decide_false]
      simp only [Bool.false_eq_true, if_false] at hg ⊢
      generalize kGroup o w σ cp xs false = y at hg
      by_cases hy : y.2.2 = true
      · simp only [hy, not_true, if_false]
        obtain ⟨g1, w1, f1⟩ := hg.1.1 hy
        exact ⟨fun _ => ⟨g1, w1, f1⟩, fun q => by simp at q⟩
      · simp only [hy]
        exact ⟨fun q => by simp at q, fun _ => hg.1.2 (by simpa using hy)⟩

theorem kSize_pos (g : Nat → Nat) (k size : Nat) (hs : 2 ≤ size) (hg : 1 ≤ g size) : 1 ≤ kSize g k size := by
  unfold kSize
  have h : 1 ≤ (if k ≠ 0 then (size + (k - 1)) / k else if size ≤ 8 then 1 else g size) := by
    split
    · rename_i h; rw [Nat.one_le_div_iff (by omega)]; omega
    · split
      · omega
      · exact hg
  generalize (if k ≠ 0 then (size + (k - 1)) / k else if size ≤ 8 then 1 else g size) = x at h
  simp only
  rw [Nat.one_le_div_iff (by omega)]; omega

theorem addK_post {X : Ctx} {o : Slv} (ho : o.Sound X.F) {T S : Nat → Prop} {p : Opts} {σ : St} {ls : List Lit} {w : Int} {E : Asg → Int} (k : Nat)
    (hE : Dep σ.n E) (hw : 0 < w) (hlen : 2 ≤ ls.length) (hg : 1 ≤ p.groups ls.length) (hl : ∀ p ∈ ls, p.var < σ.n) (W : Wf X.F X.n0 T σ) (hh : Holds X σ ls)
    (g : Good X σ (fun M => E M + w * (cnt M ls - 1))) : Post X T S σ (addK o p σ k ls w) E := by
  unfold addK
  cases ls with
  | nil => simp at hlen
  | cons l xs =>
    have h1 := kLoop_post (S := S) ho hw (kSize_pos p.groups k _ hlen hg) (E := E) xs.length σ l.neg xs (by rintro rfl; simp at hlen) (le_refl _) hE
      (by simpa using hl l (by simp)) (fun p hp => hl p (by simp [hp])) W (by simpa using hh)
      (by
        have : ∀ M, viol M l.neg + cnt M xs - 1 = cnt M (l :: xs) - 1 := fun M => by simp only [cnt, viol_neg]
        simpa only [this] using g)
    simp only
    generalize kLoop o w (kSize p.groups k (l :: xs).length) xs.length σ l.neg xs = y at h1
    refine h1.bind (fun i h => h) (f := fun τ => if ¬ p.succinct = true ∧ ¬ o.bad τ.cons = true then addCon o τ (.clause (l :: xs)) else (τ, !o.bad τ.cons)) ?_
    intro τ g1 w1 f1
    split
    · refine strengthen ho S g1 w1 ?_ ?_
      · intro q hq; have := hl q hq; have := f1.n; omega
      · intro M hF _ hs _
        exact cnt_pos_iff.1 (hh M hF (fun c hc => hs c (f1.cons c hc)))
    · exact ⟨fun _ => ⟨g1, w1, Fr.refl _ _⟩, fun h => g1.nosat (ho.bad _ (by simpa using h))⟩

end Clasp.Uncore
