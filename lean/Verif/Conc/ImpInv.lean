import Verif.Conc.Imp
/-!
# Learnt short clauses shared by threads: the invariant

Helper lemmas for `Verif/Conc/ImpProps.lean`.
-/

namespace Clasp.Imp

/-- Proof device: the number of words of some clauses. -/
def wl (l : List Cl) : Nat := (l.flatMap enc).length

/-- Proof device: how often a clause is stored in some blocks. -/
def cnt (l : List Blk) (c : Cl) : Nat := (l.flatMap (·.ent)).count c

/-- Proof device: blocks only get more clauses, and new blocks are added at the end. -/
inductive Ext : List Blk → List Blk → Prop
  | nil (l : List Blk) : Ext [] l
  | cons {b b' : Blk} {l l' : List Blk} : b.ent <+: b'.ent → Ext l l' → Ext (b :: l) (b' :: l')

theorem Ext.refl (l : List Blk) : Ext l l := by
  induction l with
  | nil => exact .nil _
  | cons b l ih => exact .cons (List.prefix_refl _) ih

theorem Ext.append (l t : List Blk) : Ext l (l ++ t) := by
  induction l with
  | nil => exact .nil _
  | cons b l ih => exact .cons (List.prefix_refl _) ih

theorem Ext.set {l : List Blk} {x : Nat} {b b' : Blk} (h : l[x]? = some b) (hp : b.ent <+: b'.ent) : Ext l (l.set x b') := by
  induction l generalizing x with
  | nil => exact .nil _
  | cons a l ih =>
    cases x with
    | zero =>
      simp only [List.getElem?_cons_zero, Option.some.injEq] at h
      subst h
      exact .cons hp (Ext.refl _)
    | succ x => exact .cons (List.prefix_refl _) (ih (by simpa using h))

theorem Ext.take {l l' : List Blk} (h : Ext l l') (k : Nat) : Ext (l.take k) (l'.take k) := by
  induction h generalizing k with
  | nil l => simpa using Ext.nil _
  | cons hp _ ih =>
    cases k with
    | zero => exact .nil _
    | succ k => exact .cons hp (ih k)

theorem Ext.drop {l l' : List Blk} (h : Ext l l') (k : Nat) : Ext (l.drop k) (l'.drop k) := by
  induction h generalizing k with
  | nil l => simpa using Ext.nil _
  | cons hp h ih =>
    cases k with
    | zero => exact .cons hp h
    | succ k => exact ih k

theorem cnt_cons (b : Blk) (l : List Blk) (c : Cl) : cnt (b :: l) c = b.ent.count c + cnt l c := by
  simp [cnt, List.count_append]

theorem cnt_append (l t : List Blk) (c : Cl) : cnt (l ++ t) c = cnt l c + cnt t c := by
  simp [cnt, List.count_append]

theorem Ext.cnt {l l' : List Blk} (h : Ext l l') (c : Cl) : cnt l c ≤ cnt l' c := by
  induction h with
  | nil l => exact Nat.zero_le _
  | cons hp _ ih =>
    rw [cnt_cons, cnt_cons]
    have := hp.sublist.count_le c
    omega

theorem Ext.get {l l' : List Blk} (h : Ext l l') {k : Nat} {b : Blk} (hb : l[k]? = some b) : ∃ b', l'[k]? = some b' ∧ b.ent <+: b'.ent := by
  induction h generalizing k with
  | nil l => simp at hb
  | @cons a a' l l' hp _ ih =>
    cases k with
    | zero =>
      simp only [List.getElem?_cons_zero, Option.some.injEq] at hb
      subst hb
      exact ⟨a', rfl, hp⟩
    | succ k => simpa using ih (by simpa using hb)

theorem Ext.length {l l' : List Blk} (h : Ext l l') : l.length ≤ l'.length := by
  induction h with
  | nil l => exact Nat.zero_le _
  | cons _ _ ih => simp only [List.length_cons]; omega

theorem cnt_take {l : List Blk} {x : Nat} {b : Blk} (h : l[x]? = some b) (c : Cl) : cnt (l.take (x + 1)) c = cnt (l.take x) c + b.ent.count c := by
  rw [List.take_add_one, h, cnt_append]
  simp [cnt]

theorem cnt_drop {l : List Blk} {x : Nat} {b : Blk} (h : l[x]? = some b) (c : Cl) : cnt (l.drop x) c = b.ent.count c + cnt (l.drop (x + 1)) c := by
  obtain ⟨hx, rfl⟩ := List.getElem?_eq_some_iff.1 h
  rw [List.drop_eq_getElem_cons hx, cnt_cons]

theorem cnt_split (l : List Blk) (x : Nat) (c : Cl) : cnt l c = cnt (l.take x) c + cnt (l.drop x) c := by
  rw [← cnt_append, List.take_append_drop]

theorem cnt_set {l : List Blk} {x : Nat} {b b' : Blk} (h : l[x]? = some b) (c : Cl) : cnt (l.set x b') c + b.ent.count c = cnt l c + b'.ent.count c := by
  induction l generalizing x with
  | nil => simp at h
  | cons a l ih =>
    cases x with
    | zero =>
      simp only [List.getElem?_cons_zero, Option.some.injEq] at h
      subst h
      rw [List.set_cons_zero, cnt_cons, cnt_cons]; omega
    | succ x =>
      have := ih (x := x) (by simpa using h)
      rw [List.set_cons_succ, cnt_cons, cnt_cons]; omega

/-- Proof device: the block a thread has locked. -/
def hold : Pc → Option Nat
  | .copy _ x _ _ => some x
  | .store _ x _ => some x
  | .pub _ x => some x
  | _ => none

/-- Proof device: what is known about a thread. -/
def TI (blk : List Blk) (cap : Nat) : Pc → Prop
  | .lockb _ x => x < blk.length
  | .copy c x n j => ∃ b, blk[x]? = some b ∧ b.lock = true ∧ b.size = n ∧ n + (enc c).length ≤ cap ∧ j < (enc c).length ∧
      ∀ t, t < j → (enc c)[t]? = some (b.data (n + t))
  | .store c x n => ∃ b, blk[x]? = some b ∧ b.lock = true ∧ b.size = n ∧ n + (enc c).length ≤ cap ∧
      ∀ t, t < (enc c).length → (enc c)[t]? = some (b.data (n + t))
  | .pub _ x => ∃ b, blk[x]? = some b ∧ b.lock = true
  | .rsize x snap acc => x < blk.length ∧ ∀ c, snap.count c ≤ acc.count c + cnt (blk.take (x + 1)) c ∧ acc.count c ≤ cnt (blk.drop (x + 1)) c
  | .rword x e k snap acc => ∃ b, blk[x]? = some b ∧ ∃ a0 es fs rest, b.ent = es ++ fs ++ rest ∧ acc = a0 ++ es ∧ k = wl es ∧ e = wl (es ++ fs) ∧
      ∀ c, snap.count c ≤ a0.count c + cnt (blk.take x) c + (es ++ fs).count c ∧ a0.count c ≤ cnt (blk.drop (x + 1)) c
  | .rsnd x e k w snap acc => ∃ b, blk[x]? = some b ∧ ∃ a0 es p q fs rest, b.ent = es ++ ((p, some q) :: fs) ++ rest ∧ w = ⟨p, false⟩ ∧ acc = a0 ++ es ∧
      k = wl es ∧ e = wl (es ++ (p, some q) :: fs) ∧
      ∀ c, snap.count c ≤ a0.count c + cnt (blk.take x) c + (es ++ (p, some q) :: fs).count c ∧ a0.count c ≤ cnt (blk.drop (x + 1)) c
  | .rnext x snap acc => x < blk.length ∧ ∀ c, snap.count c ≤ acc.count c + cnt (blk.take x) c ∧ acc.count c ≤ cnt (blk.drop x) c
  | .rdone snap acc => ∀ c, snap.count c ≤ acc.count c ∧ acc.count c ≤ cnt blk c
  | _ => True

theorem TI.mono {l l' : List Blk} (h : Ext l l') {cap : Nat} {p : Pc} (hp : TI l cap p) (hh : hold p = none) : TI l' cap p := by
  have hlen := h.length
  cases p with
  | idle => trivial
  | load c => trivial
  | cas c => trivial
  | rhead => trivial
  | copy => cases hh
  | store => cases hh
  | pub => cases hh
  | lockb c x => simp only [TI] at hp ⊢; omega
  | rsize x snap acc =>
    refine ⟨by have := hp.1; omega, fun c => ?_⟩
    have h1 := hp.2 c
    have h2 := (h.take (x + 1)).cnt c
    have h3 := (h.drop (x + 1)).cnt c
    omega
  | rword x e k snap acc =>
    obtain ⟨b, hb, a0, es, fs, rest, e1, e2, e3, e4, e5⟩ := hp
    obtain ⟨b', hb', t, ht⟩ := h.get hb
    refine ⟨b', hb', a0, es, fs, rest ++ t, ?_, e2, e3, e4, fun c => ?_⟩
    · rw [← ht, e1, List.append_assoc _ rest t]
    · have h1 := e5 c
      have h2 := (h.take x).cnt c
      have h3 := (h.drop (x + 1)).cnt c
      omega
  | rsnd x e k w snap acc =>
    obtain ⟨b, hb, a0, es, p, q, fs, rest, e1, e0, e2, e3, e4, e5⟩ := hp
    obtain ⟨b', hb', t, ht⟩ := h.get hb
    refine ⟨b', hb', a0, es, p, q, fs, rest ++ t, ?_, e0, e2, e3, e4, fun c => ?_⟩
    · rw [← ht, e1, List.append_assoc _ rest t]
    · have h1 := e5 c
      have h2 := (h.take x).cnt c
      have h3 := (h.drop (x + 1)).cnt c
      omega
  | rnext x snap acc =>
    refine ⟨by have := hp.1; omega, fun c => ?_⟩
    have h1 := hp.2 c
    have h2 := (h.take x).cnt c
    have h3 := (h.drop x).cnt c
    omega
  | rdone snap acc =>
    intro c
    have h1 := hp c
    have h2 := h.cnt c
    omega

/-- Proof device: a block stores its clauses. -/
def DI (cap : Nat) (b : Blk) : Prop :=
  b.size = wl b.ent ∧ b.size ≤ cap ∧ ∀ i, i < b.size → (b.ent.flatMap enc)[i]? = some (b.data i)

/-- Proof device: what is known about the blocks. -/
structure BI (cap : Nat) (blk : List Blk) (head : Option Nat) (added : List Cl) : Prop where
  hd : head = if blk.length = 0 then none else some (blk.length - 1)
  nx : ∀ (k : Nat) (b : Blk), blk[k]? = some b → b.next = if k = 0 then none else some (k - 1)
  dt : ∀ (k : Nat) (b : Blk), blk[k]? = some b → DI cap b
  lk : ∀ (k : Nat) (b : Blk), blk[k]? = some b → k + 1 < blk.length → b.lock = true
  ct : ∀ c, added.count c = cnt blk c

/-- Proof device: the invariant. -/
structure Inv (s : St) : Prop where
  cap : 2 ≤ s.cap
  bad : s.bad = false
  blk : BI s.cap s.blk s.head s.added
  ti : ∀ i, TI s.blk s.cap (s.th i)
  last : ∀ i x, hold (s.th i) = some x → x + 1 = s.blk.length
  one : ∀ i j x y, hold (s.th i) = some x → hold (s.th j) = some y → i = j
  free : ∀ b, s.blk[s.blk.length - 1]? = some b → b.lock = true → ∃ i, hold (s.th i) ≠ none

/-- The common part of all steps. -/
theorem Inv.upd {s s' : St} (h : Inv s) {i : Nat} {p : Pc} (hc : s'.cap = s.cap) (hbad : s'.bad = false) (hth : s'.th = fun j => if j = i then p else s.th j)
    (he : Ext s.blk s'.blk) (hb : BI s.cap s'.blk s'.head s'.added) (ht : TI s'.blk s.cap p)
    (ho : s'.blk = s.blk ∨ ∀ j, j ≠ i → hold (s.th j) = none)
    (hn : ∀ x, hold p = some x → x + 1 = s'.blk.length ∧ ∀ j, j ≠ i → hold (s.th j) = none)
    (hf : ∀ b, s'.blk[s'.blk.length - 1]? = some b → b.lock = true → hold p ≠ none ∨ ∃ j, j ≠ i ∧ hold (s.th j) ≠ none) : Inv s' := by
  refine ⟨by rw [hc]; exact h.cap, hbad, by rw [hc]; exact hb, ?_, ?_, ?_, ?_⟩
  · intro j
    rw [hc, hth]
    simp only
    by_cases hj : j = i
    · rw [if_pos hj]; exact ht
    · rw [if_neg hj]
      rcases ho with ho | ho
      · rw [ho]; exact h.ti j
      · exact (h.ti j).mono he (ho j hj)
  · intro j x hx
    rw [hth] at hx
    simp only at hx
    by_cases hj : j = i
    · rw [if_pos hj] at hx; exact (hn x hx).1
    · rw [if_neg hj] at hx
      rcases ho with ho | ho
      · rw [ho]; exact h.last j x hx
      · rw [ho j hj] at hx; cases hx
  · intro j k x y hx hy
    rw [hth] at hx hy
    simp only at hx hy
    by_cases hj : j = i
    · by_cases hk : k = i
      · rw [hj, hk]
      · rw [if_pos hj] at hx
        rw [if_neg hk, (hn x hx).2 k hk] at hy; cases hy
    · by_cases hk : k = i
      · rw [if_pos hk] at hy
        rw [if_neg hj, (hn y hy).2 j hj] at hx; cases hx
      · rw [if_neg hj] at hx
        rw [if_neg hk] at hy
        exact h.one j k x y hx hy
  · intro b hb1 hb2
    rw [hth]
    rcases hf b hb1 hb2 with h1 | ⟨j, h1, h2⟩
    · exact ⟨i, by simpa using h1⟩
    · exact ⟨j, by simpa [h1] using h2⟩

/-- A step that changes no block. -/
theorem Inv.move {s : St} (h : Inv s) {i : Nat} {p : Pc} (ht : TI s.blk s.cap p) (h0 : hold (s.th i) = none) (h1 : hold p = none) : Inv (s.go i p) := by
  refine h.upd (s' := s.go i p) (i := i) (p := p) rfl h.bad rfl (Ext.refl _) h.blk ht (Or.inl rfl) (fun x hx => by rw [h1] at hx; cases hx) ?_
  intro b hb1 hb2
  obtain ⟨j, hj⟩ := h.free b hb1 hb2
  refine Or.inr ⟨j, ?_, hj⟩
  intro hji
  rw [hji] at hj
  exact hj h0

theorem enc_len (c : Cl) : 1 ≤ (enc c).length ∧ (enc c).length ≤ 2 := by
  obtain ⟨p, q⟩ := c
  cases q <;> simp [enc]

theorem wl_append (a b : List Cl) : wl (a ++ b) = wl a + wl b := by simp [wl]

theorem wl_cons (c : Cl) (l : List Cl) : wl (c :: l) = (enc c).length + wl l := by simp [wl]

theorem BI.set {cap : Nat} {blk : List Blk} {head : Option Nat} {added added' : List Cl} (h : BI cap blk head added) {x : Nat} {b b' : Blk}
    (hb : blk[x]? = some b) (hx : x + 1 = blk.length) (hn : b'.next = b.next) (hd : DI cap b')
    (hc : ∀ c, added'.count c + b.ent.count c = added.count c + b'.ent.count c) : BI cap (blk.set x b') head added' := by
  have hxl : x < blk.length := by omega
  have hget : ∀ (k : Nat) (d : Blk), (blk.set x b')[k]? = some d → (k = x ∧ d = b') ∨ (k ≠ x ∧ blk[k]? = some d) := by
    intro k d hk
    by_cases hkx : k = x
    · subst hkx
      rw [List.getElem?_set_self hxl] at hk
      injection hk with hk
      exact Or.inl ⟨rfl, hk.symm⟩
    · rw [List.getElem?_set_ne (Ne.symm hkx)] at hk
      exact Or.inr ⟨hkx, hk⟩
  refine ⟨by rw [List.length_set]; exact h.hd, ?_, ?_, ?_, ?_⟩
  · intro k d hk
    rcases hget k d hk with ⟨h1, h2⟩ | ⟨_, h2⟩
    · rw [h2, hn, h1]; exact h.nx x b hb
    · exact h.nx k d h2
  · intro k d hk
    rcases hget k d hk with ⟨h1, h2⟩ | ⟨_, h2⟩
    · rw [h2]; exact hd
    · exact h.dt k d h2
  · intro k d hk hl
    rw [List.length_set] at hl
    rcases hget k d hk with ⟨h1, h2⟩ | ⟨_, h2⟩
    · omega
    · exact h.lk k d h2 hl
  · intro c
    have h1 := hc c
    have h2 := cnt_set (b' := b') hb c
    have h3 := h.ct c
    omega

theorem BI.push {cap : Nat} {blk : List Blk} {head : Option Nat} {added added' : List Cl} (h : BI cap blk head added) {b' : Blk}
    (hl : ∀ (k : Nat) (b : Blk), blk[k]? = some b → b.lock = true) (hn : b'.next = if blk.length = 0 then none else some (blk.length - 1)) (hd : DI cap b')
    (hc : ∀ c, added'.count c = added.count c + b'.ent.count c) : BI cap (blk ++ [b']) (some blk.length) added' := by
  have hget : ∀ (k : Nat) (d : Blk), (blk ++ [b'])[k]? = some d → (k = blk.length ∧ d = b') ∨ (k < blk.length ∧ blk[k]? = some d) := by
    intro k d hk
    by_cases hkl : k < blk.length
    · rw [List.getElem?_append_left hkl] at hk
      exact Or.inr ⟨hkl, hk⟩
    · rw [List.getElem?_append_right (by omega)] at hk
      have : k - blk.length = 0 := by
        by_cases h0 : k - blk.length = 0
        · exact h0
        · rw [List.getElem?_eq_none (by simp; omega)] at hk; cases hk
      rw [this] at hk
      simp only [List.getElem?_cons_zero, Option.some.injEq] at hk
      exact Or.inl ⟨by omega, hk.symm⟩
  refine ⟨by simp, ?_, ?_, ?_, ?_⟩
  · intro k d hk
    rcases hget k d hk with ⟨h1, h2⟩ | ⟨_, h2⟩
    · rw [h2, hn, h1]
    · exact h.nx k d h2
  · intro k d hk
    rcases hget k d hk with ⟨h1, h2⟩ | ⟨_, h2⟩
    · rw [h2]; exact hd
    · exact h.dt k d h2
  · intro k d hk hl'
    rw [List.length_append, List.length_singleton] at hl'
    rcases hget k d hk with ⟨h1, h2⟩ | ⟨_, h2⟩
    · omega
    · exact hl k d h2
  · intro c
    rw [cnt_append, hc c, h.ct c]
    simp [cnt]

/-- The word at the end of some clauses is the first one of the next clause. -/
theorem word_at {b : Blk} {cap : Nat} (h : DI cap b) {es rest : List Cl} {c : Cl} (he : b.ent = es ++ c :: rest) {t : Nat} (ht : t < (enc c).length) :
    wl es + t < cap ∧ (enc c)[t]? = some (b.data (wl es + t)) := by
  obtain ⟨h1, h2, h3⟩ := h
  have hw : wl b.ent = wl es + ((enc c).length + wl rest) := by rw [he, wl_append, wl_cons]
  have hlt : wl es + t < b.size := by omega
  refine ⟨by omega, ?_⟩
  rw [← h3 _ hlt, he, List.flatMap_append, List.flatMap_cons]
  rw [List.getElem?_append_right (by simp [wl])]
  rw [List.getElem?_append_left (by simp only [wl]; omega)]
  simp [wl]

end Clasp.Imp
