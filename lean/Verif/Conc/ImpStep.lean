import Verif.Conc.ImpInv
/-!
# Learnt short clauses shared by threads: the steps keep the invariant

Helper lemmas for `Verif/Conc/ImpProps.lean`.
-/

namespace Clasp.Imp

theorem alone {s : St} (h : Inv s) {i x : Nat} (hi : hold (s.th i) = some x) : ∀ j, j ≠ i → hold (s.th j) = none := by
  intro j hj
  cases hh : hold (s.th j) with
  | none => rfl
  | some y => exact absurd (h.one j i y x hh hi) hj

theorem head_get {s : St} (h : Inv s) {x : Nat} (hx : s.head = some x) : x + 1 = s.blk.length := by
  have := h.blk.hd
  rw [hx] at this
  by_cases h0 : s.blk.length = 0
  · rw [if_pos h0] at this; cases this
  · rw [if_neg h0] at this
    injection this with this
    omega

theorem head_none {s : St} (h : Inv s) (hx : s.head = none) : s.blk = [] := by
  have := h.blk.hd
  rw [hx] at this
  by_cases h0 : s.blk.length = 0
  · exact List.eq_nil_of_length_eq_zero h0
  · rw [if_neg h0] at this; cases this

theorem next_inv {s s' : St} (h : Inv s) (i : Nat) (hs : next s i = some s') : Inv s' := by
  have hti := h.ti i
  unfold next at hs
  cases hp : s.th i with
  | idle => rw [hp] at hs; cases hs
  | load c =>
    rw [hp] at hs
    simp only at hs
    cases hh : s.head with
    | some x =>
      rw [hh] at hs
      injection hs with hs; rw [← hs]
      have := head_get h hh
      exact h.move (by simp only [TI]; omega) (by rw [hp]; rfl) rfl
    | none =>
      rw [hh] at hs
      injection hs with hs; rw [← hs]
      exact h.move trivial (by rw [hp]; rfl) rfl
  | lockb c x =>
    rw [hp] at hs hti
    simp only [TI] at hti
    simp only at hs
    rw [List.getElem?_eq_getElem hti] at hs
    have hb := List.getElem?_eq_getElem hti
    obtain ⟨b, hbe⟩ : ∃ b, s.blk[x] = b := ⟨_, rfl⟩
    rw [hbe] at hs hb
    simp only at hs
    by_cases hl : b.lock = true
    · rw [if_pos hl] at hs
      injection hs with hs; rw [← hs]
      exact h.move trivial (by rw [hp]; rfl) rfl
    · rw [if_neg hl] at hs
      have hx : x + 1 = s.blk.length := by
        by_cases hlt : x + 1 < s.blk.length
        · exact absurd (h.blk.lk x b hb hlt) hl
        · omega
      have hno : ∀ j, hold (s.th j) = none := by
        intro j
        cases hh : hold (s.th j) with
        | none => rfl
        | some y =>
          have hy := h.last j y hh
          have hyx : y = x := by omega
          subst hyx
          have := h.ti j
          cases hq : s.th j with
          | copy c y' n j' =>
            rw [hq] at this hh
            injection hh with hh; subst hh
            obtain ⟨d, hd, hd2, _⟩ := this
            rw [hb] at hd; injection hd with hd; rw [hd] at hl; exact absurd hd2 hl
          | store c y' n =>
            rw [hq] at this hh
            injection hh with hh; subst hh
            obtain ⟨d, hd, hd2, _⟩ := this
            rw [hb] at hd; injection hd with hd; rw [hd] at hl; exact absurd hd2 hl
          | pub c y' =>
            rw [hq] at this hh
            injection hh with hh; subst hh
            obtain ⟨d, hd, hd2⟩ := this
            rw [hb] at hd; injection hd with hd; rw [hd] at hl; exact absurd hd2 hl
          | _ => rw [hq] at hh; cases hh
      have hB : BI s.cap (s.blk.set x { b with lock := true }) s.head s.added := h.blk.set hb hx rfl (h.blk.dt x b hb) (fun c => rfl)
      have hE : Ext s.blk (s.blk.set x { b with lock := true }) := Ext.set hb (List.prefix_refl _)
      have hself : (s.blk.set x { b with lock := true })[x]? = some { b with lock := true } := List.getElem?_set_self hti
      by_cases hfit : b.size + (enc c).length ≤ s.cap
      · rw [if_pos hfit] at hs
        injection hs with hs; rw [← hs]
        refine h.upd (i := i) (p := .copy c x b.size 0) rfl h.bad rfl hE hB
          ⟨_, hself, rfl, rfl, hfit, by have := enc_len c; omega, fun t ht => by omega⟩ (Or.inr fun j _ => hno j) ?_ ?_
        · intro y hy
          injection hy with hy
          exact ⟨by simp only [St.go, List.length_set]; omega, fun j _ => hno j⟩
        · intro _ _ _
          exact Or.inl (by simp [hold])
      · rw [if_neg hfit] at hs
        injection hs with hs; rw [← hs]
        refine h.upd (i := i) (p := .pub c x) rfl h.bad rfl hE hB ⟨_, hself, rfl⟩ (Or.inr fun j _ => hno j) ?_ ?_
        · intro y hy
          injection hy with hy
          exact ⟨by simp only [St.go, List.length_set]; omega, fun j _ => hno j⟩
        · intro _ _ _
          exact Or.inl (by simp [hold])
  | copy c x n j =>
    rw [hp] at hs hti
    obtain ⟨b, hb, h1, h2, h3, h4, h5⟩ := hti
    have hho : hold (s.th i) = some x := by rw [hp]; rfl
    have hx := h.last i x hho
    simp only [hb, List.getElem?_eq_getElem h4] at hs
    rw [if_pos (by omega)] at hs
    obtain ⟨w, hw⟩ : ∃ w, (enc c)[j] = w := ⟨_, rfl⟩
    rw [hw] at hs
    have hdi := h.blk.dt x b hb
    have hDI : DI s.cap (b.put (n + j) w) := by
      refine ⟨hdi.1, hdi.2.1, fun k hk => ?_⟩
      have hk' : k < b.size := hk
      have hne : ¬ k = n + j := by omega
      simp only [Blk.put]
      rw [if_neg hne]
      exact hdi.2.2 k hk'
    have hB : BI s.cap (s.blk.set x (b.put (n + j) w)) s.head s.added := h.blk.set hb hx rfl hDI (fun c => rfl)
    have hE : Ext s.blk (s.blk.set x (b.put (n + j) w)) := Ext.set hb (List.prefix_refl _)
    have hself : (s.blk.set x (b.put (n + j) w))[x]? = some (b.put (n + j) w) := List.getElem?_set_self (by omega)
    have hall : ∀ t, t < j + 1 → (enc c)[t]? = some ((b.put (n + j) w).data (n + t)) := by
      intro t ht
      simp only [Blk.put]
      by_cases htj : t = j
      · subst htj
        rw [if_pos rfl, List.getElem?_eq_getElem h4, hw]
      · rw [if_neg (by omega)]
        exact h5 t (by omega)
    by_cases hend : j + 1 = (enc c).length
    · rw [if_pos hend] at hs
      injection hs with hs; rw [← hs]
      refine h.upd (i := i) (p := .store c x n) rfl h.bad rfl hE hB ⟨_, hself, h1, h2, h3, fun t ht => hall t (by omega)⟩ (Or.inr (alone h hho)) ?_ ?_
      · intro y hy
        injection hy with hy
        exact ⟨by simp only [St.go, List.length_set]; omega, alone h hho⟩
      · intro _ _ _
        exact Or.inl (by simp [hold])
    · rw [if_neg hend] at hs
      injection hs with hs; rw [← hs]
      refine h.upd (i := i) (p := .copy c x n (j + 1)) rfl h.bad rfl hE hB ⟨_, hself, h1, h2, h3, by omega, hall⟩ (Or.inr (alone h hho)) ?_ ?_
      · intro y hy
        injection hy with hy
        exact ⟨by simp only [St.go, List.length_set]; omega, alone h hho⟩
      · intro _ _ _
        exact Or.inl (by simp [hold])
  | store c x n =>
    rw [hp] at hs hti
    obtain ⟨b, hb, h1, h2, h3, h5⟩ := hti
    have hho : hold (s.th i) = some x := by rw [hp]; rfl
    have hx := h.last i x hho
    simp only [hb] at hs
    injection hs with hs; rw [← hs]
    have hdi := h.blk.dt x b hb
    have hDI : DI s.cap { b with size := n + (enc c).length, lock := false, ent := b.ent ++ [c] } := by
      refine ⟨?_, h3, fun k hk => ?_⟩
      · simp only [wl_append, wl_cons]
        have := hdi.1
        simp [wl] at this ⊢
        omega
      · simp only at hk ⊢
        rw [List.flatMap_append]
        have hbl : (b.ent.flatMap enc).length = n := by rw [← h2, hdi.1]; rfl
        by_cases hkn : k < n
        · rw [List.getElem?_append_left (by omega)]
          exact hdi.2.2 k (by omega)
        · rw [List.getElem?_append_right (by omega), hbl]
          have := h5 (k - n) (by omega)
          rw [show n + (k - n) = k by omega] at this
          simpa using this
    have hB := h.blk.set (added' := s.added ++ [c]) hb hx (b' := { b with size := n + (enc c).length, lock := false, ent := b.ent ++ [c] }) rfl hDI (by
      intro d
      simp only [List.count_append]
      omega)
    refine h.upd (i := i) (p := .idle) rfl h.bad rfl (Ext.set hb (List.prefix_append _ _)) hB trivial (Or.inr (alone h hho)) (fun y hy => by cases hy) ?_
    intro d hd1 hd2
    simp only [St.go, List.length_set] at hd1
    rw [show s.blk.length - 1 = x by omega, List.getElem?_set_self (by omega)] at hd1
    injection hd1 with hd1
    rw [← hd1] at hd2
    cases hd2
  | pub c x =>
    rw [hp] at hs hti
    obtain ⟨b, hb, h1⟩ := hti
    have hho : hold (s.th i) = some x := by rw [hp]; rfl
    have hx := h.last i x hho
    simp only at hs
    injection hs with hs; rw [← hs]
    have hall : ∀ (k : Nat) (d : Blk), s.blk[k]? = some d → d.lock = true := by
      intro k d hk
      by_cases hkl : k + 1 < s.blk.length
      · exact h.blk.lk k d hk hkl
      · obtain ⟨hk1, _⟩ := List.getElem?_eq_some_iff.1 hk
        have : k = x := by omega
        rw [this, hb] at hk
        injection hk with hk
        rw [← hk]; exact h1
    have hDI : DI s.cap (Blk.full c x) := by
      have hl := enc_len c
      have hcap := h.cap
      refine ⟨by simp [Blk.full, wl], by simp only [Blk.full]; omega, fun k hk => ?_⟩
      simp only [Blk.full] at hk ⊢
      simp [List.getElem?_eq_getElem hk]
    have hB := h.blk.push (added' := s.added ++ [c]) (b' := Blk.full c x) hall (by
      rw [if_neg (by omega)]
      simp only [Blk.full]
      congr 1; omega) hDI (by intro d; simp [Blk.full, List.count_append])
    refine h.upd (i := i) (p := .idle) rfl h.bad rfl (Ext.append _ _) hB trivial (Or.inr (alone h hho)) (fun y hy => by cases hy) ?_
    intro d hd1 hd2
    simp [St.go] at hd1
    rw [← hd1] at hd2
    cases hd2
  | cas c =>
    rw [hp] at hs
    simp only at hs
    cases hh : s.head with
    | some x =>
      rw [hh] at hs
      injection hs with hs; rw [← hs]
      exact h.move trivial (by rw [hp]; rfl) rfl
    | none =>
      rw [hh] at hs
      injection hs with hs; rw [← hs]
      have h0 := head_none h hh
      have hno : ∀ j, hold (s.th j) = none := by
        intro j
        cases hq : hold (s.th j) with
        | none => rfl
        | some y =>
          have := h.last j y hq
          rw [h0] at this
          simp at this
      have hB := h.blk.push (added' := s.added) (b' := Blk.new) (by intro k d hk; rw [h0] at hk; simp at hk) (by rw [h0]; rfl)
        ⟨rfl, Nat.zero_le _, fun k hk => by simp [Blk.new] at hk⟩ (fun c => rfl)
      refine h.upd (i := i) (p := .load c) rfl h.bad rfl (Ext.append _ _) hB trivial (Or.inr fun j _ => hno j) (fun y hy => by cases hy) ?_
      intro d hd1 hd2
      simp [St.go] at hd1
      rw [← hd1] at hd2
      cases hd2
  | rhead =>
    rw [hp] at hs
    simp only at hs
    cases hh : s.head with
    | some x =>
      rw [hh] at hs
      injection hs with hs; rw [← hs]
      have hx := head_get h hh
      refine h.move ⟨by omega, fun c => ?_⟩ (by rw [hp]; rfl) rfl
      rw [hx, List.take_length, h.blk.ct c]
      simp
    | none =>
      rw [hh] at hs
      injection hs with hs; rw [← hs]
      have h0 := head_none h hh
      refine h.move (fun c => ?_) (by rw [hp]; rfl) rfl
      rw [h.blk.ct c, h0]
      simp [cnt]
  | rsize x snap acc =>
    rw [hp] at hs hti
    obtain ⟨t1, t2⟩ := hti
    simp only [List.getElem?_eq_getElem t1] at hs
    injection hs with hs; rw [← hs]
    have hb := List.getElem?_eq_getElem t1
    have hdi := h.blk.dt x _ hb
    refine h.move ⟨_, hb, acc, [], s.blk[x].ent, [], by simp, by simp, rfl, by simpa using hdi.1, fun c => ?_⟩ (by rw [hp]; rfl) rfl
    have := t2 c
    rw [cnt_take hb c] at this
    simp only [List.nil_append]
    omega
  | rword x e k snap acc =>
    rw [hp] at hs hti
    obtain ⟨b, hb, a0, es, fs, rest, e1, e2, e3, e4, e5⟩ := hti
    simp only at hs
    cases fs with
    | nil =>
      have hke : k = e := by rw [e3, e4]; simp
      rw [if_pos hke] at hs
      injection hs with hs; rw [← hs]
      obtain ⟨hxl, _⟩ := List.getElem?_eq_some_iff.1 hb
      refine h.move ⟨hxl, fun c => ?_⟩ (by rw [hp]; rfl) rfl
      have := e5 c
      rw [cnt_drop hb c, e2, e1]
      simp only [List.count_append, List.append_nil] at this ⊢
      omega
    | cons d fs =>
      have hl := enc_len d
      have hke : ¬ k = e := by
        rw [e3, e4, wl_append, wl_cons]; omega
      rw [if_neg hke, hb] at hs
      have hent : b.ent = es ++ d :: (fs ++ rest) := by rw [e1]; simp
      obtain ⟨w1, w2⟩ := word_at (h.blk.dt x b hb) hent (t := 0) (by omega)
      simp only [Nat.add_zero] at w1 w2
      rw [← e3] at w1 w2
      simp only at hs
      rw [if_pos w1] at hs
      obtain ⟨p, q⟩ := d
      cases q with
      | none =>
        simp only [enc, List.getElem?_cons_zero, Option.some.injEq] at w2
        rw [← w2] at hs
        simp only [if_true] at hs
        injection hs with hs; rw [← hs]
        refine h.move ⟨b, hb, a0, es ++ [(p, none)], fs, rest, by rw [e1]; simp, by rw [e2]; simp, ?_, by rw [e4]; simp, fun c => ?_⟩ (by rw [hp]; rfl) rfl
        · rw [e3, wl_append, wl_cons]; simp [wl, enc]
        · have := e5 c
          simpa using this
      | some q =>
        simp only [enc, List.getElem?_cons_zero, Option.some.injEq] at w2
        rw [← w2] at hs
        simp only [Bool.false_eq_true, if_false] at hs
        injection hs with hs; rw [← hs]
        exact h.move ⟨b, hb, a0, es, p, q, fs, rest, e1, rfl, e2, e3, e4, e5⟩ (by rw [hp]; rfl) rfl
  | rsnd x e k w snap acc =>
    rw [hp] at hs hti
    obtain ⟨b, hb, a0, es, p, q, fs, rest, e1, e0, e2, e3, e4, e5⟩ := hti
    simp only [hb] at hs
    have hent : b.ent = es ++ (p, some q) :: (fs ++ rest) := by rw [e1]; simp
    obtain ⟨w1, w2⟩ := word_at (h.blk.dt x b hb) hent (t := 1) (by simp [enc])
    rw [← e3] at w1 w2
    rw [if_pos w1] at hs
    simp only [enc, List.getElem?_cons_succ, List.getElem?_cons_zero, Option.some.injEq] at w2
    rw [← w2, e0] at hs
    injection hs with hs; rw [← hs]
    refine h.move ⟨b, hb, a0, es ++ [(p, some q)], fs, rest, by rw [e1]; simp, by rw [e2]; simp, ?_, by rw [e4]; simp, fun c => ?_⟩ (by rw [hp]; rfl) rfl
    · rw [e3, wl_append, wl_cons]; simp [wl, enc]
    · have := e5 c
      simpa using this
  | rnext x snap acc =>
    rw [hp] at hs hti
    obtain ⟨t1, t2⟩ := hti
    simp only [List.getElem?_eq_getElem t1] at hs
    have hb := List.getElem?_eq_getElem t1
    rw [h.blk.nx x _ hb] at hs
    by_cases hx : x = 0
    · rw [if_pos hx] at hs
      injection hs with hs; rw [← hs]
      refine h.move (fun c => ?_) (by rw [hp]; rfl) rfl
      have := t2 c
      rw [hx] at this
      simpa [cnt] using this
    · rw [if_neg hx] at hs
      injection hs with hs; rw [← hs]
      refine h.move ⟨by omega, fun c => ?_⟩ (by rw [hp]; rfl) rfl
      have := t2 c
      rw [show x - 1 + 1 = x by omega]
      exact this
  | rdone snap acc => rw [hp] at hs; cases hs

theorem reach_inv {cap : Nat} (hc : 2 ≤ cap) {s : St} (h : Reach cap s) : Inv s := by
  induction h with
  | new =>
    refine ⟨hc, rfl, ⟨rfl, ?_, ?_, ?_, fun c => rfl⟩, fun i => trivial, (fun i x hx => by cases hx), (fun i j x y hx => by cases hx), ?_⟩
    · intro k b hb; simp [St.new] at hb
    · intro k b hb; simp [St.new] at hb
    · intro k b hb; simp [St.new] at hb
    · intro b hb; simp [St.new] at hb
  | step _ hs ih =>
    cases hs with
    | add i c hi => exact ih.move trivial (by rw [hi]; rfl) rfl
    | read i hi => exact ih.move trivial (by rw [hi]; rfl) rfl
    | fin i snap acc hi => exact ih.move trivial (by rw [hi]; rfl) rfl
    | next i hn => exact next_inv ih i hn

end Clasp.Imp
