import Verif.Conc.ParProps

/-!
# Parallel solving: nothing is searched twice

C50, second part: with splitting, without global restarts and failures, each point is searched at most once.
-/

namespace Clasp.Par

/-- Proof device: the points that belong to a thread. -/
def cell (t : Th) : List Nat :=
  match t.pc with
  | .run => t.sp
  | .req (some a) => a.2
  | .got a => a.2
  | .sync (some a) _ => a.2
  | .fin (some a) => a.2
  | _ => []

/-- Proof device: the parts are disjoint. -/
structure U (s : St) : Prop where
  lt : ∀ i, (s.th i).pc ≠ .left → i < s.n
  mode : s.mode = true
  allow : s.allow = true
  restart : s.restart = false
  sub : ∀ i, (s.th i).pc ≠ .sub
  fin : ∀ i, (s.th i).pc.isFin = true → s.sync = true ∧ ∀ j, j ≠ i → (s.th j).pc.isFin = false
  v : s.sync = true → s.iv = 0 ∧ s.queue = [] ∧ s.done = [] ∧ ∀ i, ¬ act (s.th i)
  w : s.iv ≠ 0 → s.queue = [] ∧ s.done = [] ∧ ∀ i, ¬ act (s.th i)
  nd : s.done.Nodup
  td : ∀ i, ∀ x ∈ cell (s.th i), x ∉ s.done
  qd : ∀ q ∈ s.queue, ∀ x ∈ q.2, x ∉ s.done
  tt : ∀ i j, i ≠ j → ∀ x ∈ cell (s.th i), x ∉ cell (s.th j)
  tq : ∀ i, ∀ q ∈ s.queue, ∀ x ∈ cell (s.th i), x ∉ q.2
  qq : s.queue.Pairwise fun p q => ∀ x ∈ p.2, x ∉ q.2

theorem cell_nil {t : Th} (h : ¬ act t) : cell t = [] := by
  unfold cell
  unfold act at h
  split <;> simp_all [Pc.hold]

theorem U.gen {s s' : St} {i : Nat} {t : Th} (h : U s) (hth : s'.th = Function.update s.th i t) (hn : s'.n = s.n)
    (hmo : s'.mode = s.mode) (hal : s'.allow = true) (hre : s'.restart = s.restart) (hsy : s'.sync = s.sync)
    (hiv : s'.iv = s.iv ∨ s'.iv = 0) (hqu : s'.queue = s.queue) (hdo : s'.done = s.done)
    (hl : (s.th i).pc ≠ .left) (hsub : t.pc ≠ .sub)
    (hf : t.pc.isFin = true → s.sync = true ∧ ∀ j, j ≠ i → (s.th j).pc.isFin = false)
    (hfo : t.pc.isFin = false ∨ (s.th i).pc.isFin = true ∨ ∀ j, j ≠ i → (s.th j).pc.isFin = false)
    (ha : act t → act (s.th i)) (hc : ∀ x ∈ cell t, x ∈ cell (s.th i)) : U s' := by
  have hput : ∀ j, s'.th j = if j = i then t else s.th j := by
    intro j; rw [hth, Function.update_apply]
  have hcell : ∀ j, ∀ x ∈ cell (s'.th j), x ∈ cell (s.th j) := by
    intro j x hx
    rw [hput] at hx
    by_cases hj : j = i
    · rw [if_pos hj] at hx; rw [hj]; exact hc x hx
    · rw [if_neg hj] at hx; exact hx
  have hact : ∀ j, act (s'.th j) → act (s.th j) := by
    intro j hx
    rw [hput] at hx
    by_cases hj : j = i
    · rw [if_pos hj] at hx; rw [hj]; exact ha hx
    · rw [if_neg hj] at hx; exact hx
  refine ⟨?_, by rw [hmo]; exact h.mode, hal, by rw [hre]; exact h.restart, ?_, ?_, ?_, ?_, by rw [hdo]; exact h.nd, ?_,
    by rw [hqu, hdo]; exact h.qd, ?_, ?_, by rw [hqu]; exact h.qq⟩
  · intro j hj
    rw [hn]
    rw [hput] at hj
    by_cases hji : j = i
    · rw [hji]; exact h.lt i hl
    · rw [if_neg hji] at hj; exact h.lt j hj
  · intro j
    rw [hput]
    by_cases hji : j = i
    · rw [if_pos hji]; exact hsub
    · rw [if_neg hji]; exact h.sub j
  · intro j hj
    rw [hput] at hj
    rw [hsy]
    by_cases hji : j = i
    · rw [if_pos hji] at hj
      refine ⟨(hf hj).1, fun k hk => ?_⟩
      rw [hput, if_neg (by rw [← hji]; exact hk)]
      exact (hf hj).2 k (by rw [← hji]; exact hk)
    · rw [if_neg hji] at hj
      refine ⟨(h.fin j hj).1, fun k hk => ?_⟩
      rw [hput]
      by_cases hki : k = i
      · rw [if_pos hki]
        rcases hfo with h1 | h1 | h1
        · exact h1
        · have := (h.fin i h1).2 j hji
          rw [hj] at this; cases this
        · have := h1 j hji
          rw [hj] at this; cases this
      · rw [if_neg hki]; exact (h.fin j hj).2 k hk
  · rw [hsy, hqu, hdo]
    intro h1
    obtain ⟨a, b, c, d⟩ := h.v h1
    refine ⟨?_, b, c, fun j hj => d j (hact j hj)⟩
    rcases hiv with h2 | h2
    · rw [h2]; exact a
    · exact h2
  · intro h1
    rw [hqu, hdo]
    rcases hiv with h2 | h2
    · rw [h2] at h1
      obtain ⟨b, c, d⟩ := h.w h1
      exact ⟨b, c, fun j hj => d j (hact j hj)⟩
    · exact absurd h2 h1
  · intro j x hx; rw [hdo]; exact h.td j x (hcell j x hx)
  · intro j k hjk x hx hx'; exact h.tt j k hjk x (hcell j x hx) (hcell k x hx')
  · intro j q hq x hx; rw [hqu] at hq; exact h.tq j q hq x (hcell j x hx)

theorem last_idle' {s : St} {i : Nat} (h : U s) (hl : s.last i = true) (j : Nat) (hj : j ≠ i) :
    (s.th j).pc.idle = true := by
  by_cases hn : j < s.n
  · have := List.all_eq_true.1 hl j (List.mem_range.2 hn)
    simpa [hj] using this
  · by_contra hc
    apply hn
    apply h.lt j
    intro he
    simp [he, Pc.idle] at hc

/-- A step by which the parts of the threads only shrink. -/
local macro "shr" h:ident hp:ident al:term : tactic => `(tactic|
  (refine ($h).gen rfl rfl rfl $al rfl rfl ?_ rfl rfl ?_ ?_ ?_ ?_ ?_ ?_
   · first | exact Or.inl rfl | exact Or.inr rfl
   · simp [$hp:ident]
   · simp [*]
   · simp [*, Pc.isFin]
   · simp [*, Pc.isFin]
   · simp [*, act, Pc.hold]
   · simp [*, cell]))

theorem U.step {s s' : St} {ev : Ev} (h : U s) (hpl : ev.plain = true) (hst : Par.step s ev = some s') : U s' := by
  have al := h.allow
  cases ev <;> simp only [Par.step] at hst
  case post => cases hpl
  case fail => cases hpl
  case interrupt =>
    cases hst
    exact ⟨h.lt, h.mode, h.allow, h.restart, h.sub, h.fin, h.v, h.w, h.nd, h.td, h.qd, h.tt, h.tq, h.qq⟩
  case leave i =>
    unfold leave at hst
    split at hst
    · rename_i a hp; split at hst <;> cases hst; shr h hp al
    · cases hst
  case conflict i =>
    unfold conflict at hst
    split at hst
    · rename_i a hp; split at hst <;> cases hst; shr h hp al
    · cases hst
  case enter i =>
    unfold enter at hst
    split at hst
    · split at hst
      · rename_i a hp; cases hst; cases a <;> shr h hp al
      · rename_i a hp; cases hst; shr h hp al
      · rename_i hp; cases hst; shr h hp al
      · cases hst
    · cases hst
  case go i =>
    unfold go at hst
    split at hst
    · rename_i a hp
      split at hst
      · cases hst
      · split at hst
        · cases hst; shr h hp al
        · cases hst; shr h hp al
    · cases hst
  case sub i v =>
    unfold Par.sub at hst
    split at hst
    · rename_i hp; exact absurd hp (h.sub i)
    · cases hst
  case skip i =>
    unfold skip at hst
    split at hst
    · rename_i hp; split at hst <;> cases hst; shr h hp al
    · cases hst
  case lock0 i =>
    unfold lock0 at hst
    split at hst
    · rename_i hp; rw [al] at hst; cases hst; shr h hp al
    · cases hst
  case wake i =>
    unfold wake at hst
    split at hst
    · rename_i hp; cases hst; shr h hp al
    · rename_i a hp; cases hst; cases a <;> shr h hp al
    · cases hst
  case none i =>
    unfold noWork at hst
    split at hst
    · rename_i c hp
      split at hst
      · cases hst; shr h hp al
      · cases hst; shr h hp al
    · cases hst
  case term i =>
    unfold Par.term at hst
    split at hst
    · rename_i c hp; cases hst; cases ht : s.term <;> shr h hp al
    · rename_i c hp; cases hst; cases c <;> shr h hp al
    · rename_i hp; cases hst; shr h hp al
    · cases hst
  case simp i ok =>
    unfold Par.simp at hst
    split at hst
    · rename_i a hp
      split at hst
      · cases hst; shr h hp al
      · cases hst; shr h hp al
    · cases hst
  case finish i c =>
    unfold finish at hst
    split at hst
    · rename_i hp
      split at hst
      · cases hst; cases hb : (c && (s.th i).fixed) <;> shr h hp al
      · cases hst
    · cases hst
  case limit i =>
    unfold limit at hst
    split at hst
    · rename_i hp; cases hst; shr h hp al
    · cases hst
  case stop i =>
    unfold stop at hst
    split at hst
    · rename_i hp; split at hst <;> cases hst; shr h hp al
    · cases hst
  case want i =>
    unfold want at hst
    split at hst
    · rename_i hp; split at hst <;> cases hst; shr h hp al
    · cases hst
  case model1 i =>
    unfold model1 at hst
    split at hst
    · rename_i hp
      split at hst
      · cases hst
        have al : true = true := rfl
        shr h hp al
      · cases hst
    · cases hst
  case model2 =>
    unfold model2 at hst
    split at hst
    · cases hst
      exact ⟨h.lt, h.mode, h.allow, h.restart, h.sub, h.fin, fun a => ⟨rfl, (h.v a).2⟩, fun a => absurd rfl a, h.nd, h.td,
        h.qd, h.tt, h.tq, h.qq⟩
    · cases hst
  case update i =>
    unfold update at hst
    split at hst
    · rename_i hp; split at hst <;> cases hst; shr h hp al
    · cases hst
  case wsync i =>
    unfold wsync at hst
    split at hst
    · rename_i a hp
      split at hst
      · rename_i hsy
        cases hst
        by_cases hl : s.last i = true
        · rw [if_pos hl]
          have hnf : ∀ j, j ≠ i → (s.th j).pc.isFin = false := by
            intro j hj
            have := last_idle' h hl j hj
            cases hpj : (s.th j).pc <;> simp_all [Pc.idle, Pc.isFin]
          refine h.gen rfl rfl rfl al rfl rfl (Or.inl rfl) rfl rfl ?_ ?_ ?_ ?_ ?_ ?_
          · simp [hp]
          · simp
          · exact fun _ => ⟨hsy, hnf⟩
          · exact Or.inr (Or.inr hnf)
          · simp [hp, act, Pc.hold]
          · cases a <;> simp [hp, cell]
        · rw [if_neg hl]
          cases a <;> shr h hp al
      · cases hst; cases a <;> shr h hp al
    · cases hst
  case take i =>
    unfold take at hst
    split at hst
    case h_2 => cases hst
    case h_1 hp =>
    split at hst
    case isFalse => cases hst
    case isTrue hb =>
    have hiv : s.iv ≠ 0 := by intro hh; rw [hh] at hb; simp at hb
    obtain ⟨w1, w2, w3⟩ := h.w hiv
    have hsy : s.sync = false := by
      by_contra hc; exact hiv (h.v (by simpa using hc)).1
    cases hst
    have hcell : ∀ j, j ≠ i → cell (({ s with iv := 0 }.put i
        { s.th i with pc := .got (true, s.X), ptr := some (true, s.X) }).th j) = [] := by
      intro j hj; rw [put_th, if_neg hj]; exact cell_nil (w3 j)
    refine ⟨?_, h.mode, al, h.restart, ?_, ?_, ?_, fun hh => absurd rfl hh, h.nd, ?_, h.qd, ?_, ?_, h.qq⟩
    · intro j hj
      rw [put_th] at hj
      by_cases hji : j = i
      · rw [hji]; exact h.lt i (by simp [hp])
      · rw [if_neg hji] at hj; exact h.lt j hj
    · intro j
      rw [put_th]
      by_cases hji : j = i
      · rw [if_pos hji]; simp
      · rw [if_neg hji]; exact h.sub j
    · intro j hj
      rw [put_th] at hj
      by_cases hji : j = i
      · rw [if_pos hji] at hj; simp [Pc.isFin] at hj
      · rw [if_neg hji] at hj
        have := (h.fin j hj).1
        rw [hsy] at this; cases this
    · intro hh
      have hh : s.sync = true := hh
      rw [hsy] at hh; cases hh
    · intro j x _ hx
      have hx : x ∈ s.done := hx
      rw [w2] at hx; cases hx
    · intro j k hjk x hx hx'
      by_cases hji : j = i
      · rw [hcell k (by rw [← hji]; exact hjk.symm)] at hx'; cases hx'
      · rw [hcell j hji] at hx; cases hx
    · intro j q hq
      have hq : q ∈ s.queue := hq
      rw [w1] at hq; cases hq
  case lock i =>
    unfold lock at hst
    split at hst
    case h_2 => cases hst
    case h_1 hp =>
    split at hst
    case isTrue => cases hst; shr h hp al
    case isFalse hc =>
    simp only [Bool.or_eq_true, not_or, Bool.not_eq_true] at hc
    split at hst
    case h_2 hq =>
      cases hst; cases hl : s.last i <;> shr h hp al
    case h_1 p q hq =>
    cases hst
    have hcp : ∀ j, ∀ x ∈ cell (({ s with queue := q }.put i { s.th i with pc := .got p, ptr := some p }).th j),
        (j = i ∧ x ∈ p.2) ∨ (j ≠ i ∧ x ∈ cell (s.th j)) := by
      intro j x hx
      rw [put_th] at hx
      by_cases hji : j = i
      · rw [if_pos hji] at hx; exact Or.inl ⟨hji, hx⟩
      · rw [if_neg hji] at hx; exact Or.inr ⟨hji, hx⟩
    have hqq := h.qq
    rw [hq, List.pairwise_cons] at hqq
    refine ⟨?_, h.mode, al, h.restart, ?_, ?_, ?_, ?_, h.nd, ?_, ?_, ?_, ?_, hqq.2⟩
    · intro j hj
      rw [put_th] at hj
      by_cases hji : j = i
      · rw [hji]; exact h.lt i (by simp [hp])
      · rw [if_neg hji] at hj; exact h.lt j hj
    · intro j
      rw [put_th]
      by_cases hji : j = i
      · rw [if_pos hji]; simp
      · rw [if_neg hji]; exact h.sub j
    · intro j hj
      rw [put_th] at hj
      by_cases hji : j = i
      · rw [if_pos hji] at hj; simp [Pc.isFin] at hj
      · rw [if_neg hji] at hj
        have := (h.fin j hj).1
        rw [hc.2] at this; cases this
    · intro hh
      have hh : s.sync = true := hh
      rw [hc.2] at hh; cases hh
    · intro hh
      have := (h.w hh).1
      rw [hq] at this; cases this
    · intro j x hx
      rcases hcp j x hx with h1 | h1
      · exact h.qd p (by simp [hq]) x h1.2
      · exact h.td j x h1.2
    · intro r hr; exact h.qd r (by rw [hq]; exact List.mem_cons_of_mem _ hr)
    · intro j k hjk x hx hx'
      rcases hcp j x hx with h1 | h1 <;> rcases hcp k x hx' with h2 | h2
      · exact hjk (h1.1.trans h2.1.symm)
      · exact h.tq k p (by simp [hq]) x h2.2 h1.2
      · exact h.tq j p (by simp [hq]) x h1.2 h2.2
      · exact h.tt j k hjk x h1.2 h2.2
    · intro j r hr x hx hx'
      rcases hcp j x hx with h1 | h1
      · exact hqq.1 r hr x h1.2 hx'
      · exact h.tq j r (by rw [hq]; exact List.mem_cons_of_mem _ hr) x h1.2 hx'
  case fin i =>
    unfold Par.fin at hst
    split at hst
    case h_2 => cases hst
    case h_1 a hp =>
    simp only [h.restart, Bool.false_and, Bool.and_false] at hst
    obtain ⟨f1, f2⟩ := h.fin i (by simp [hp, Pc.isFin])
    obtain ⟨v1, v2, v3, v4⟩ := h.v f1
    have ha : a = Option.none := by
      have := v4 i
      simp only [act, hp, Pc.hold, not_or] at this
      cases a with
      | none => rfl
      | some a => simp at this
    subst ha
    have hna : ∀ (s1 : St), s1.th = s.th → ∀ j, ¬ act ((s1.put i { s.th i with pc := .req Option.none }).th j) := by
      intro s1 h1 j
      rw [put_th, h1]
      by_cases hji : j = i
      · rw [if_pos hji]; simp [act, Pc.hold]
      · rw [if_neg hji]; exact v4 j
    have hce : ∀ j x, x ∈ cell (Function.update s.th i { s.th i with pc := .req Option.none } j) → False := by
      intro j x hx
      rw [Function.update_apply] at hx
      by_cases hji : j = i
      · rw [if_pos hji] at hx; simp [cell] at hx
      · rw [if_neg hji, cell_nil (v4 j)] at hx; cases hx
    cases hst
    refine ⟨?_, h.mode, al, rfl, ?_, ?_, fun hh => (by cases hh), fun _ => ⟨rfl, v3, hna _ rfl⟩, h.nd, ?_, ?_, ?_, ?_, List.Pairwise.nil⟩
    · intro j hj
      rw [put_th] at hj
      by_cases hji : j = i
      · rw [hji]; exact h.lt i (by simp [hp])
      · rw [if_neg hji] at hj; exact h.lt j hj
    · intro j
      rw [put_th]
      by_cases hji : j = i
      · rw [if_pos hji]; simp
      · rw [if_neg hji]; exact h.sub j
    · intro j hj
      rw [put_th] at hj
      by_cases hji : j = i
      · rw [if_pos hji] at hj; simp [Pc.isFin] at hj
      · rw [if_neg hji] at hj
        have := f2 j hji
        rw [hj] at this; cases this
    · intro j x hx; exact absurd (hce j x hx) id
    · intro q hq; cases hq
    · intro j k _ x hx; exact absurd (hce j x hx) id
    · intro j q hq; cases hq
  case search i x =>
    unfold search at hst
    split at hst
    case h_2 => cases hst
    case h_1 hp =>
    split at hst
    case isFalse => cases hst
    case isTrue hx =>
    cases hst
    have hact : act (s.th i) := Or.inr hp
    have hxc : x ∈ cell (s.th i) := by simp only [cell, hp]; exact hx
    have hcp : ∀ j, ∀ y ∈ cell (({ s with done := x :: s.done }.put i { s.th i with sp := (s.th i).sp.filter (· ≠ x) }).th j),
        y ∈ cell (s.th j) ∧ y ≠ x := by
      intro j y hy
      rw [put_th] at hy
      by_cases hji : j = i
      · rw [if_pos hji] at hy
        simp only [cell, hp, List.mem_filter, decide_eq_true_eq] at hy
        rw [hji]
        exact ⟨by simp only [cell, hp]; exact hy.1, hy.2⟩
      · rw [if_neg hji] at hy
        exact ⟨hy, fun hh => h.tt j i hji y hy (by rw [hh]; exact hxc)⟩
    refine ⟨?_, h.mode, al, h.restart, ?_, ?_, ?_, ?_, ?_, ?_, ?_, ?_, ?_, h.qq⟩
    · intro j hj
      rw [put_th] at hj
      by_cases hji : j = i
      · rw [hji]; exact h.lt i (by simp [hp])
      · rw [if_neg hji] at hj; exact h.lt j hj
    · intro j
      rw [put_th]
      by_cases hji : j = i
      · rw [if_pos hji]; simp [hp]
      · rw [if_neg hji]; exact h.sub j
    · intro j hj
      rw [put_th] at hj
      by_cases hji : j = i
      · rw [if_pos hji] at hj; simp [hp, Pc.isFin] at hj
      · rw [if_neg hji] at hj
        exact absurd hact ((h.v (h.fin j hj).1).2.2.2 i)
    · intro hh; exact absurd hact ((h.v hh).2.2.2 i)
    · intro hh; exact absurd hact ((h.w hh).2.2 i)
    · exact List.nodup_cons.2 ⟨h.td i x hxc, h.nd⟩
    · intro j y hy hd
      have := hcp j y hy
      rcases List.mem_cons.1 hd with h1 | h1
      · exact this.2 h1
      · exact h.td j y this.1 h1
    · intro q hq y hy hd
      rcases List.mem_cons.1 hd with h1 | h1
      · exact h.tq i q hq x hxc (by rw [← h1]; exact hy)
      · exact h.qd q hq y hy h1
    · intro j k hjk y hy hy'; exact h.tt j k hjk y (hcp j y hy).1 (hcp k y hy').1
    · intro j q hq y hy; exact h.tq j q hq y (hcp j y hy).1
  case split i A =>
    unfold split at hst
    split at hst
    case h_2 => cases hst
    case h_1 hp =>
    split at hst
    case isFalse => cases hst
    case isTrue hc =>
    simp only [Bool.and_eq_true, Bool.not_eq_true', List.all_eq_true, decide_eq_true_eq] at hc
    have hA : ∀ x ∈ A, x ∈ cell (s.th i) := by
      intro x hx; simp only [cell, hp]; exact hc.2 x hx
    cases hst
    have hact : act (s.th i) := Or.inr hp
    have hcp : ∀ j, ∀ y ∈ cell (({ s with queue := s.queue ++ [(false, A)] }.put i { s.th i with
          sp := (s.th i).sp.filter (· ∉ A)
          disj := true }).th j), y ∈ cell (s.th j) ∧ y ∉ A := by
      intro j y hy
      rw [put_th] at hy
      by_cases hji : j = i
      · rw [if_pos hji] at hy
        simp only [cell, hp, List.mem_filter, decide_eq_true_eq] at hy
        rw [hji]
        exact ⟨by simp only [cell, hp]; exact hy.1, hy.2⟩
      · rw [if_neg hji] at hy
        exact ⟨hy, fun hh => h.tt j i hji y hy (hA y hh)⟩
    refine ⟨?_, h.mode, al, h.restart, ?_, ?_, ?_, ?_, h.nd, ?_, ?_, ?_, ?_, ?_⟩
    · intro j hj
      rw [put_th] at hj
      by_cases hji : j = i
      · rw [hji]; exact h.lt i (by simp [hp])
      · rw [if_neg hji] at hj; exact h.lt j hj
    · intro j
      rw [put_th]
      by_cases hji : j = i
      · rw [if_pos hji]; simp [hp]
      · rw [if_neg hji]; exact h.sub j
    · intro j hj
      rw [put_th] at hj
      by_cases hji : j = i
      · rw [if_pos hji] at hj; simp [hp, Pc.isFin] at hj
      · rw [if_neg hji] at hj
        exact absurd hact ((h.v (h.fin j hj).1).2.2.2 i)
    · intro hh; exact absurd hact ((h.v hh).2.2.2 i)
    · intro hh; exact absurd hact ((h.w hh).2.2 i)
    · intro j y hy; exact h.td j y (hcp j y hy).1
    · intro q hq y hy
      rcases List.mem_append.1 hq with h1 | h1
      · exact h.qd q h1 y hy
      · rw [List.mem_singleton] at h1
        rw [h1] at hy
        exact h.td i y (hA y hy)
    · intro j k hjk y hy hy'; exact h.tt j k hjk y (hcp j y hy).1 (hcp k y hy').1
    · intro j q hq y hy hy'
      rcases List.mem_append.1 hq with h1 | h1
      · exact h.tq j q h1 y (hcp j y hy).1 hy'
      · rw [List.mem_singleton] at h1
        rw [h1] at hy'
        exact (hcp j y hy).2 hy'
    · refine List.pairwise_append.2 ⟨h.qq, List.pairwise_singleton _ _, fun p hp' q hq y hy hy' => ?_⟩
      rw [List.mem_singleton] at hq
      rw [hq] at hy'
      exact h.tq i p hp' y (hA y hy') hy

theorem U.init (n : Nat) (X : List Nat) (bt : Bool) : U (St.init n X bt true) := by
  have hpc : ∀ i, ((St.init n X bt true).th i).pc = if i < n then .req Option.none else .left := fun _ => rfl
  have hna : ∀ i, ¬ act ((St.init n X bt true).th i) := by
    intro i
    unfold act
    rw [hpc]
    by_cases hi : i < n <;> simp [hi, Pc.hold]
  refine ⟨?_, rfl, rfl, rfl, ?_, ?_, fun _ => ⟨rfl, rfl, rfl, hna⟩, fun hh => absurd rfl hh, List.nodup_nil, ?_, ?_, ?_, ?_, List.Pairwise.nil⟩
  · intro i hi
    rw [hpc] at hi
    by_contra hc
    have hc : ¬ i < n := hc
    simp [hc] at hi
  · intro i
    rw [hpc]
    by_cases hi : i < n <;> simp [hi]
  · intro i hi
    rw [hpc] at hi
    by_cases hl : i < n <;> simp [hl, Pc.isFin] at hi
  · intro i x hx; rw [cell_nil (hna i)] at hx; cases hx
  · intro q hq; cases hq
  · intro i j _ x hx; rw [cell_nil (hna i)] at hx; cases hx
  · intro i q hq; cases hq

theorem exec_U {s s' : St} {l : List Ev} (h : U s) (hp : ∀ ev ∈ l, ev.plain = true) (he : exec s l = some s') : U s' := by
  induction l generalizing s with
  | nil => cases he; exact h
  | cons ev l ih =>
    simp only [exec, Option.bind_eq_some_iff] at he
    obtain ⟨s1, h1, h2⟩ := he
    exact ih (h.step (hp ev (by simp)) h1) (fun e he => hp e (by simp [he])) h2

/-- **C50**, second part: with splitting, without global restarts and failures, no point is searched twice, for any number of threads. -/
theorem C50_once {n : Nat} {X : List Nat} {bt : Bool} {s : St} {l : List Ev} (hp : ∀ ev ∈ l, ev.plain = true)
    (he : exec (St.init n X bt true) l = some s) : s.done.Nodup :=
  (exec_U (U.init n X bt) hp he).nd

/-- A run with a split meets the hypotheses (`Ex.good`). -/
example : (exec (St.init 2 [1, 2] true true) Ex.good).isSome = true ∧ ∀ ev ∈ Ex.good, ev.plain = true := by
  decide +kernel

/-- Example: after a restart, thread 0 searches a point again. -/
def Ex.again : List Ev :=
  Ex.start ++ [.search 0 1, .want 0, .post 0, .enter 1, .enter 0, .wsync 0, .wsync 1, .fin 1, .wake 0, .wsync 0, .go 0, .take 0,
    .simp 0 true, .search 0 1]

/-- The restriction is necessary: points are searched again after a restart. -/
theorem C50_once_needs_plain : ∃ s, Reach 2 [1, 2] false true s ∧ ¬ s.done.Nodup := by
  have h : (exec (St.init 2 [1, 2] false true) Ex.again).map (·.done) = some [1, 1] := by decide +kernel
  obtain ⟨s, h1, h2⟩ := Option.map_eq_some_iff.1 h
  exact ⟨s, exec_reach .init h1, by rw [h2]; simp⟩

end Clasp.Par
