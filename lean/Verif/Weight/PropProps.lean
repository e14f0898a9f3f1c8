/- C22: propagation of weight constraints is sound, explained, complete and undone by backtracking. -/
import Verif.Weight.PropReach
namespace Clasp.WC
open Core Weight

/-! ### Specification -/

/-- Specification: sum of the weights of the literals selected by `f`. -/
def wsum (f : Lit → Bool) (ls : List WL) : Int := (ls.map fun l => if f l.lit then l.w else 0).sum

/-- Specification: one direction of `W == (sum(lits) >= bound)`; `true`: if the sum is reached then `W`, `false`: if `W` then the sum is
reached. -/
def sideHolds (M : Asg) (W : Lit) (r : Rep) (c : Side) : Prop :=
  if c then holds M r.lits r.bound → M.sat W else M.sat W → holds M r.lits r.bound

/-- Specification: the rules a sub-constraint stands for, in terms of the literals assigned in `tr`. -/
structure Closed (W : Lit) (r : Rep) (tr : List Entry) (c : Side) : Prop where
  /-- enough literals are true: `W` is true -/
  ftb : c = true → r.bound ≤ wsum (isTrue tr) r.lits → isTrue tr W = true
  /-- `W` is false: the bound is not reached, and a literal that would reach it is assigned (so it is false) -/
  bfb : c = true → isTrue tr W.neg = true → wsum (isTrue tr) r.lits < r.bound ∧
    ∀ l ∈ r.lits, r.bound ≤ wsum (isTrue tr) r.lits + l.w → assigned tr l.lit.var = true
  /-- the literals that are not false do not suffice: `W` is false -/
  ffb : c = false → total r.lits - wsum (fun p => isTrue tr p.neg) r.lits < r.bound → isTrue tr W.neg = true
  /-- `W` is true: the bound can be reached, and a literal that is needed for that is assigned (so it is true) -/
  btb : c = false → isTrue tr W = true → r.bound ≤ total r.lits - wsum (fun p => isTrue tr p.neg) r.lits ∧
    ∀ l ∈ r.lits, total r.lits - wsum (fun p => isTrue tr p.neg) r.lits - l.w < r.bound → assigned tr l.lit.var = true

/-- Specification: the states of an excursion to levels above that of `w0`. -/
inductive Exc (w0 : Wd) : Wd → Prop
  | start (p : Lit) : w0.conf = none → w0.pend = [] → assigned w0.tr p.var = false → Exc w0 (push { w0 with dl := w0.dl + 1 } p none)
  | step {w w' : Wd} : Exc w0 w → Step w w' → w0.dl < w'.dl → Exc w0 w'

/-! ### Lemmas -/

theorem wsum_eq {f : Lit → Bool} {ls : List WL} {k : Nat} : wsum f ls = sumI (fun i => f (litOf ls (i - k)) = true) ls k := by
  induction ls generalizing k with
  | nil => rfl
  | cons l r ih =>
    have : sumI (fun i => f (litOf (l :: r) (i - k)) = true) r (k + 1) = sumI (fun i => f (litOf r (i - (k + 1))) = true) r (k + 1) :=
      sumI_congr fun i h1 h2 => by
        rw [show i - k = (i - (k + 1)) + 1 by omega, litOf_cons]
    simp only [sumI]
    rw [this, ← ih]
    unfold wsum
    simp only [List.map_cons, List.sum_cons, Nat.sub_self, litOf, List.getD_cons_zero]

section sem
variable {W : Lit} {r : Rep} {act : Option Side} {tr : List Entry}

theorem par_lits : (parOf W r act tr).lits = ⟨W.neg, 1⟩ :: r.lits := rfl
theorem par_b (hs : Start W r tr) (c : Side) : (parOf W r act tr).b c = if c then r.bound else total r.lits - r.bound + 1 := by
  rw [← hs.reach]; rfl

theorem sub_zero (c : Side) : sub (parOf W r act tr).lits 0 c = if c then W else W.neg := by
  cases c <;> simp [sub, par_lits, litOf]

theorem sub_succ (c : Side) {i : Nat} (hi : 1 ≤ i) : sub (parOf W r act tr).lits i c = if c then (litOf r.lits (i - 1)).neg else litOf r.lits (i - 1) := by
  obtain ⟨i, rfl⟩ : ∃ k, i = k + 1 := ⟨i - 1, by omega⟩
  simp [sub, par_lits, litOf_cons]

/-- The part of `c`'s bound a total assignment uses up. -/
theorem sideHolds_iff (hs : Start W r tr) (M : Asg) (c : Side) : sideHolds M W r c ↔
    ((parOf W r act tr).b c ≤ sumI (fun i => M.sat (sub (parOf W r act tr).lits i c).neg) r.lits 1 → M.sat (sub (parOf W r act tr).lits 0 c)) := by
  rw [par_b hs, sub_zero]
  unfold sideHolds holds
  rw [val_eq (k := 1)]
  cases c
  · have := sumI_compl (P := fun i => M.sat (litOf r.lits (i - 1))) (Q := fun i => M.sat (sub (parOf W r act tr).lits i false).neg)
      (ls := r.lits) (k := 1) (fun i h1 _ => by rw [sub_succ false h1]; simp)
    simp only [Bool.false_eq_true, if_false, Asg.sat_neg] at this ⊢
    constructor
    · intro h1 h2 h3; have := h1 h3; omega
    · intro h1 h2; by_contra h3; exact h1 (by omega) h2
  · have := sumI_congr (P := fun i => M.sat (litOf r.lits (i - 1))) (Q := fun i => M.sat (sub (parOf W r act tr).lits i true).neg)
      (ls := r.lits) (k := 1) (fun i h1 _ => by rw [sub_succ true h1]; simp)
    simp only [if_true] at this ⊢
    rw [this]

/-- Reason data and reason. -/
theorem mem_reason {q : Par} {con : Con} {d : Option Nat} {c : Side} {s : List (Nat × Side)}
    (hl : con.lits = q.lits) (ha : con.active = some c) (h1 : s <:+ con.stack) (h2 : q.isW = true → d = some s.length)
    (h3 : q.isW = false → d = none ∧ s = con.stack) (x : Lit) :
    x ∈ reason con d ↔ ∃ i, (i, c) ∈ s ∧ x = (sub q.lits i c).neg := by
  have e : reason con d = (s.filter fun u => some u.2 = con.active).map fun u => (sub con.lits u.1 u.2).neg := by
    unfold reason
    rcases Bool.eq_false_or_eq_true q.isW with hw | hw
    · rw [h2 hw]; dsimp only; rw [← List.suffix_iff_eq_drop.1 h1]
    · obtain ⟨rfl, rfl⟩ := h3 hw; rfl
  rw [e, ha, hl]
  simp only [List.mem_map, List.mem_filter, decide_eq_true_eq, Option.some.injEq]
  constructor
  · rintro ⟨⟨i, c'⟩, ⟨hm, rfl⟩, rfl⟩; exact ⟨i, hm, rfl⟩
  · rintro ⟨i, hm, rfl⟩; exact ⟨(i, c), ⟨hm, rfl⟩, rfl⟩

theorem Rsn.sound (hs : Start W r tr) {con : Con} {tr' post : List Entry} {l : Nat} {p : Lit} {d : Option Nat}
    (hl : con.lits = (parOf W r act tr).lits) (hen : ∀ u ∈ con.stack, u.1 < (parOf W r act tr).lits.length ∧ (parOf W r act tr).en u.2 = true)
    (h : Rsn (parOf W r act tr) con tr' post l p d) :
    (∀ x ∈ reason con d, ∃ e ∈ post, e.lit = x ∧ e.lev ≤ l) ∧
    ∀ M : Asg, (∀ c, Used W act tr c → sideHolds M W r c) → (∀ x ∈ reason con d, M.sat x) → M.sat p := by
  obtain ⟨c, s, a1, a2, a3, a4, a5, a6⟩ := h
  have hr := mem_reason hl a1 a2 a3 a4
  have hok := par_ok (act := act) hs
  refine ⟨?_, ?_⟩
  · intro x hx
    obtain ⟨i, hi, rfl⟩ := (hr x).1 hx
    obtain ⟨l', h1, e, h2, h3, h4⟩ := a5 _ hi
    exact ⟨e, h2, h3, by omega⟩
  · intro M hM hall
    have hall' : ∀ i, (i, c) ∈ s → M.sat (sub (parOf W r act tr).lits i c).neg := fun i hi => hall _ ((hr _).2 ⟨i, hi, rfl⟩)
    have hpos : ∀ e ∈ r.lits, 0 < e.w := hs.pos
    rcases a6 with ⟨⟨b1, hcen⟩, b2, b3, _⟩ | ⟨b1, j, b2, b3, b4, b5, b6⟩
    · -- forward
      have hsd := (sideHolds_iff (act := act) hs M c).1 (hM c ((en_iff hs c).1 hcen))
      rw [b1]
      apply hsd
      have h1 : sumI (fun i => (i, c) ∈ s) (parOf W r act tr).lits 0 ≤ sumI (fun i => M.sat (sub (parOf W r act tr).lits i c).neg) r.lits 1 := by
        rw [par_lits]
        simp only [sumI]
        rw [if_neg (fun h => b2 c (a2.mem h)), Int.zero_add]
        exact sumI_mono hpos fun i _ _ hi => hall' i hi
      omega
    · have hcen := (hen _ (a2.mem b1)).2
      have hsd := (sideHolds_iff (act := act) hs M c).1 (hM c ((en_iff hs c).1 hcen))
      rw [b4]
      by_contra hno
      have hno' : M.sat (sub (parOf W r act tr).lits j c).neg := by rw [Asg.sat_neg]; exact hno
      have h0 := hall' 0 b1
      rw [Asg.sat_neg] at h0
      apply h0
      apply hsd
      have h1 : sumI (fun i => (i, c) ∈ s) (parOf W r act tr).lits 0 + wOf (parOf W r act tr).lits j ≤
          1 + sumI (fun i => M.sat (sub (parOf W r act tr).lits i c).neg) r.lits 1 := by
        have hins := sumI_insert (P := fun i => (i, c) ∈ s) (Q := fun i => i = j ∨ (i, c) ∈ s) (ls := (parOf W r act tr).lits) (k := 0) (j := j)
          (Nat.zero_le _) (by omega) (b5 c) (fun i => Iff.rfl)
        rw [Nat.sub_zero] at hins
        rw [← hins]
        conv_lhs => rw [par_lits]
        simp only [sumI, Nat.zero_add]
        rw [if_pos (.inr b1)]
        have := sumI_mono (P := fun i => i = j ∨ (i, c) ∈ s) (Q := fun i => M.sat (sub (parOf W r act tr).lits i c).neg) (k := 1) hpos (by
          rintro i _ _ (rfl | hi)
          · exact hno'
          · exact hall' i hi)
        omega
      omega


/-- The literals of `c` that are false, as a sum over the trail. -/
theorem sum_trail (c : Side) : sumI (fun i => ∃ l, Lv tr (sub (parOf W r act tr).lits i c).neg l) r.lits 1 =
    if c then wsum (isTrue tr) r.lits else wsum (fun p => isTrue tr p.neg) r.lits := by
  cases c
  · rw [if_neg (by decide), wsum_eq (k := 1)]
    exact sumI_congr fun i h1 _ => by rw [sub_succ false h1, isTrue_iff]; simp
  · rw [if_pos rfl, wsum_eq (k := 1)]
    exact sumI_congr fun i h1 _ => by rw [sub_succ true h1, isTrue_iff]; simp

end sem

/-- Specification: `w` arises from `w0` by assigning literals on the current level. -/
def Grow (w0 w : Wd) : Prop := (∃ new, w.tr = new ++ w0.tr ∧ ∀ e ∈ new, e.lev = w0.dl) ∧ w.dl = w0.dl ∧
  w.con.stack = w0.con.stack ∧ w.con.on = w0.con.on

theorem Grow.rfl' {w : Wd} : Grow w w := ⟨⟨[], rfl, by simp⟩, rfl, rfl, rfl⟩
theorem Grow.trans {a b c : Wd} (h1 : Grow a b) (h2 : Grow b c) : Grow a c := by
  obtain ⟨⟨n1, e1, l1⟩, d1, s1, o1⟩ := h1
  obtain ⟨⟨n2, e2, l2⟩, d2, s2, o2⟩ := h2
  refine ⟨⟨n2 ++ n1, by rw [e2, e1, List.append_assoc], ?_⟩, d2.trans d1, s2.trans s1, o2.trans o1⟩
  intro e he
  rcases List.mem_append.1 he with he | he
  · rw [l2 e he, d1]
  · exact l1 e he

theorem grow_force (w : Wd) (p : Lit) (d : Option Nat) : Grow w (force w p d) := by
  unfold force
  split
  · exact Grow.rfl'
  · split
    · exact ⟨⟨[], rfl, by simp⟩, rfl, rfl, rfl⟩
    · exact ⟨⟨[⟨p, w.dl, some d⟩], rfl, by simp⟩, rfl, rfl, rfl⟩

theorem grow_act (w : Wd) (a : Option Side) : Grow w { w with con := { w.con with active := a } } := ⟨⟨[], rfl, by simp⟩, rfl, rfl, rfl⟩

theorem grow_backward (c : Side) (d : Option Nat) (k : Nat) : ∀ n w, Grow w (backward c d k n w).1 := by
  induction k with
  | zero => intro n w; exact Grow.rfl'
  | succ k ih =>
    intro n w
    unfold backward
    by_cases h1 : w.con.bound c - wOf w.con.lits n < 0
    · rw [if_pos h1]
      by_cases h2 : w.con.seen n = true
      · rw [if_pos h2]; exact ih _ _
      · rw [if_neg h2]
        dsimp only
        have hg := (grow_act w (some c)).trans (grow_force { w with con := { w.con with active := some c } } (sub w.con.lits n c) d)
        split
        · exact hg
        · exact hg.trans (ih _ _)
    · rw [if_neg h1]; exact Grow.rfl'

theorem grow_check (w : Wd) (c : Side) : Grow w (check w c) := by
  unfold check
  generalize (if w.con.isW then some w.con.stack.length else none) = d
  by_cases h1 : w.con.bound c ≤ 0 ∨ (w.con.isW = true ∧ w.con.seen 0 = true)
  · rw [if_pos h1]
    dsimp only
    by_cases h2 : w.con.seen 0 = true
    · rw [if_pos h2]
      have hb := grow_backward c d (w.con.lits.length - w.con.bp) w.con.bp w
      generalize backward c d (w.con.lits.length - w.con.bp) w.con.bp w = x at *
      split
      · exact hb.trans ⟨⟨[], rfl, by simp⟩, rfl, rfl, rfl⟩
      · exact hb
    · rw [if_neg h2]; exact (grow_act w (some c)).trans (grow_force _ _ _)
  · rw [if_neg h1]; exact Grow.rfl'

theorem notify_spec (w : Wd) (i : Nat) (r : Bool) :
    (∃ new, (notify w i r).tr = new ++ w.tr ∧ ∀ e ∈ new, e.lev = w.dl) ∧ (notify w i r).dl = w.dl ∧
    ((notify w i r).con.stack = w.con.stack ∨ ∃ c, (notify w i r).con.stack = (i, c) :: w.con.stack) ∧
    (i ≠ 0 → (notify w i r).con.on = w.con.on) := by
  unfold notify
  dsimp only
  generalize isTrue w.tr (litOf w.con.lits i) = c
  have h0 : ∀ b : Bool, (if b then propagate { w with pend := w.pend.erase i } i c r else { w with pend := w.pend.erase i }) =
      { w with pend := w.pend.erase i } ∨
      (if b then propagate { w with pend := w.pend.erase i } i c r else { w with pend := w.pend.erase i }) = check (upd w i c r) c := by
    intro b
    cases b
    · exact .inl rfl
    · rw [if_pos rfl]
      unfold propagate
      split
      · exact .inl rfl
      · exact .inr rfl
  generalize (if i = 0 then w.con.on0 c else w.con.on c) = b
  rcases h0 b with h | h
  · rw [h]; exact ⟨⟨[], rfl, by simp⟩, rfl, .inl rfl, fun _ => rfl⟩
  · rw [h]
    obtain ⟨⟨new, g1, g2⟩, g3, g4, g5⟩ := grow_check (upd w i c r) c
    obtain ⟨u1, u2, _, _, _, _, _, u8, _⟩ := upd_proj w i c r
    refine ⟨⟨new, by rw [g1, u1], fun e he => by rw [g2 e he, u2]⟩, by rw [g3, u2], .inr ⟨c, by rw [g4, u8]⟩, ?_⟩
    intro hi
    rw [g5]
    unfold upd update unwatch
    rw [if_neg (fun h => hi h.1)]

/-- Specification: what an excursion leaves alone. -/
structure Keep (q : Par) (w0 w : Wd) : Prop where
  tr : w.tr.filter (fun e => e.lev ≤ w0.dl) = w0.tr
  suf : w0.con.stack <:+ w.con.stack
  mem : ∀ u ∈ w.con.stack, At w.tr (sub q.lits u.1 u.2).neg w0.dl → u ∈ w0.con.stack
  dl : w0.dl < w.dl
  on : (∃ c, (0, c) ∈ w0.con.stack) → w.con.on = w0.con.on

theorem keep_push {w0 w : Wd} {p : Lit} {rs : Option (Option Nat)} {d : Nat}
    (h : w.tr.filter (fun e => e.lev ≤ w0.dl) = w0.tr) (hd : w0.dl < d) :
    (⟨p, d, rs⟩ :: w.tr).filter (fun e => e.lev ≤ w0.dl) = w0.tr := by
  rw [List.filter_cons_of_neg (by simpa using hd)]; exact h

theorem keep_exc {q : Par} {w0 w : Wd} (hq : q.OK) (h0 : Inv q none w0) (h : Exc w0 w) : Inv q none w ∧ Keep q w0 w := by
  induction h with
  | start p hc hp ha =>
    refine ⟨(h0.nextLevel hc hp).push hc ha (by intro d hd; cases hd), ?_, List.suffix_rfl, fun u hu _ => hu, Nat.lt_succ_self _, fun _ => rfl⟩
    refine keep_push (w := w0) ?_ (Nat.lt_succ_self _)
    exact List.filter_eq_self.2 fun e he => by simpa using h0.lev e he
  | @step w w' _ hs hd ih =>
    obtain ⟨hi, k⟩ := ih
    have hi' := inv_step hq hi hs
    refine ⟨hi', ?_⟩
    cases hs with
    | assign p hc hp =>
      refine ⟨keep_push k.tr k.dl, k.suf, fun u hu ha => k.mem u hu ((at_push_lt k.dl).1 ha), k.dl, k.on⟩
    | decide p hc hpd hp =>
      refine ⟨keep_push k.tr (Nat.lt_succ_of_lt k.dl), k.suf, fun u hu ha => k.mem u hu ((at_push_lt (Nat.lt_succ_of_lt k.dl)).1 ha), Nat.lt_succ_of_lt k.dl, k.on⟩
    | notify i r hc hip =>
      obtain ⟨⟨new, n1, n2⟩, n3, n4, n5⟩ := notify_spec w i r
      have hat : ∀ {x}, At (notify w i r).tr x w0.dl → At w.tr x w0.dl := by
        rintro x ⟨l, h1, e, h2, h3, h4⟩
        rw [n1] at h2
        rcases List.mem_append.1 h2 with h2 | h2
        · have := n2 e h2; have := k.dl; omega
        · exact ⟨l, h1, e, h2, h3, h4⟩
      refine ⟨?_, ?_, ?_, by rw [n3]; exact k.dl, ?_⟩
      · rw [n1, List.filter_append, k.tr, List.filter_eq_nil_iff.2, List.nil_append]
        intro e he
        have := n2 e he; have := k.dl
        simp; omega
      · rcases n4 with n4 | ⟨c, n4⟩
        · rw [n4]; exact k.suf
        · rw [n4]; exact k.suf.trans (List.suffix_cons _ _)
      · intro u hu ha
        rcases n4 with n4 | ⟨c, n4⟩
        · rw [n4] at hu; exact k.mem u hu (hat ha)
        · rw [n4] at hu
          rcases List.mem_cons.1 hu with rfl | hu
          · exfalso
            obtain ⟨l, h1, h2⟩ := hat ha
            obtain ⟨_, c', h3⟩ := hi.pendA i hip
            have := (hi.nod.lv h2 h3 (by rw [Lit.neg_var, sub_var, sub_var])).2
            have := k.dl; omega
          · exact k.mem u hu (hat ha)
      · rintro ⟨c, hm⟩
        rw [n5 (fun h => by subst h; exact hi.pendS 0 hip c (k.suf.mem hm))]
        exact k.on ⟨c, hm⟩
    | undo hdl =>
      have U := hi.undone hdl
      have hd' : w0.dl < w.dl - 1 := hd
      have hns : w.con.stack.Nodup := List.Nodup.of_map _ hi.stkN
      have hsuf : w0.con.stack <:+ (WC.undo w).con.stack := by
        refine suffix_of_all hns k.suf U.suf fun u hu => (U.mem u (k.suf.mem hu)).2 ?_
        obtain ⟨_, _, l, e, he, h1, h2⟩ := h0.stk u hu
        have h3 := h0.lev e he
        rw [← k.tr] at he
        exact ⟨l, by omega, e, (List.mem_filter.1 he).1, h1, h2⟩
      refine ⟨?_, hsuf, fun u hu ha => k.mem u (U.suf.mem hu) ((at_filter (by omega)).1 ha), hd, ?_⟩
      · show (w.tr.filter fun e => decide (e.lev < w.dl)).filter _ = _
        rw [List.filter_filter, ← k.tr]
        apply List.filter_congr
        intro e _
        rw [Bool.eq_iff_iff]; simp; omega
      · intro hc
        have hk := k.on hc
        obtain ⟨c, hm⟩ := hc
        cases hu : w.undo w.dl
        · rw [U.same hu]; exact hk
        · rcases U.wat hu with ⟨_, a, _⟩ | ⟨a, _⟩
          · rw [a]; exact hk
          · rw [(U.seen 0).2 ⟨c, hsuf.mem hm⟩] at a; cases a

/-! ### The property -/

section props
variable {W : Lit} {r : Rep} {act : Option Side} {frz : Bool} {tr : List Entry} {w : Wd}

/-- C22 (sound and explained): for a literal the constraint has forced, the literals given as reason were assigned before it, on levels up to
its level, and in every assignment that satisfies the directions in use they imply it. -/
theorem C22_reason (hs : Start W r tr) (h : Reach W r act frz tr w) {pre post : List Entry} {e : Entry} {d : Option Nat}
    (he : w.tr = pre ++ e :: post) (hd : e.rs = some d) :
    (∀ x ∈ reason w.con d, ∃ e' ∈ post, e'.lit = x ∧ e'.lev ≤ e.lev) ∧
    ∀ M : Asg, (∀ c, Used W act tr c → sideHolds M W r c) → (∀ x ∈ reason w.con d, M.sat x) → M.sat e.lit := by
  have hi := inv_reach hs h
  exact (hi.rsn pre e post d he hd).sound hs hi.lits fun u hu => ⟨(hi.stk u hu).1, (hi.stk u hu).2.1⟩

/-- C22 (conflicts): if a literal could not be forced then it is false, the literals given as reason are true, and they imply it. -/
theorem C22_conflict (hs : Start W r tr) (h : Reach W r act frz tr w) {p : Lit} {d : Option Nat} (hc : w.conf = some (p, d)) :
    isTrue w.tr p.neg = true ∧ (∀ x ∈ reason w.con d, isTrue w.tr x = true) ∧
    ∀ M : Asg, (∀ c, Used W act tr c → sideHolds M W r c) → (∀ x ∈ reason w.con d, M.sat x) → M.sat p := by
  have hi := inv_reach hs h
  obtain ⟨h1, h2⟩ := hi.cnf p d hc
  obtain ⟨h3, h4⟩ := h2.sound hs hi.lits fun u hu => ⟨(hi.stk u hu).1, (hi.stk u hu).2.1⟩
  refine ⟨isTrue_iff.2 h1, fun x hx => ?_, h4⟩
  obtain ⟨e, he, e1, _⟩ := h3 x hx
  exact isTrue_iff.2 ⟨e.lev, e, he, e1, rfl⟩

/-- C22 (complete): once all notifications are delivered without conflict, the rules of all directions in use have been applied. -/
theorem C22_complete (hs : Start W r tr) (h : Reach W r act frz tr w) (hp : w.pend = []) (hc : w.conf = none) {c : Side}
    (hu : Used W act tr c) : Closed W r w.tr c := by
  have hi := inv_reach hs h
  have hen := (en_iff hs c).2 hu
  have hok := par_ok (act := act) hs
  have hpos : ∀ e ∈ r.lits, 0 < e.w := hs.pos
  have hlen : (parOf W r act tr).lits.length = r.lits.length + 1 := rfl
  have htot : (parOf W r act tr).b c + (parOf W r act tr).b (!c) = total r.lits + 1 := by
    rw [par_b hs, par_b hs]; cases c <;> simp <;> omega
  have hsum := sum_trail (W := W) (r := r) (act := act) (tr := w.tr) c
  have key : (((parOf W r act tr).b c ≤ sumI (fun i => ∃ l, Lv w.tr (sub (parOf W r act tr).lits i c).neg l) r.lits 1) →
        ∃ l, Lv w.tr (sub (parOf W r act tr).lits 0 c) l) ∧
      ((∃ l, Lv w.tr (sub (parOf W r act tr).lits 0 c).neg l) →
        sumI (fun i => ∃ l, Lv w.tr (sub (parOf W r act tr).lits i c).neg l) r.lits 1 < (parOf W r act tr).b c ∧
        ∀ i, 1 ≤ i → i < r.lits.length + 1 →
          (parOf W r act tr).b c ≤ sumI (fun i => ∃ l, Lv w.tr (sub (parOf W r act tr).lits i c).neg l) r.lits 1 + wOf (parOf W r act tr).lits i →
          assigned w.tr (litOf (parOf W r act tr).lits i).var = true) := by
    by_cases hA : ∃ l, Lv w.tr (sub (parOf W r act tr).lits 0 c) l
    · refine ⟨fun _ => hA, ?_⟩
      rintro ⟨l, hl⟩
      obtain ⟨l', hl'⟩ := hA
      exact (hi.nod.neg hl' hl).elim
    by_cases hB : (∃ l, Lv w.tr (sub (parOf W r act tr).lits 0 c).neg l) ∧ w.con.active = some (!c)
    · obtain ⟨⟨l, hl⟩, hact⟩ := hB
      have hb : w.con.bound (!c) ≤ 0 ∧ ∀ c', (0, c') ∉ w.con.stack := by
        rcases hi.act _ hact with b1 | b1 | b1 | ⟨l3, b1, b2, _, b4⟩ | ⟨b1, _⟩
        · cases b1
        · rw [Bool.not_not, hen] at b1; cases b1
        · exfalso
          obtain ⟨_, _, l', hl'⟩ := hi.stk _ b1
          dsimp only at hl'
          rw [sub_not, Lit.neg_neg] at hl'
          exact hA ⟨l', hl'⟩
        · exact b4
        · rw [hc] at b1; cases b1
      obtain ⟨hb, hb0⟩ := hb
      rw [hi.bnd] at hb
      have h1 : sumI (fun i => (i, !c) ∈ w.con.stack) (parOf W r act tr).lits 0 ≤ sumI (fun i => ∃ l, Lv w.tr (sub (parOf W r act tr).lits i (!c)).neg l) r.lits 1 := by
        conv_lhs => rw [par_lits]
        simp only [sumI, Nat.zero_add]
        rw [if_neg (hb0 _), Int.zero_add]
        exact sumI_mono hpos fun i _ _ hx => (hi.stk _ hx).2.2
      have hdisj : ∀ i, (∃ l, Lv w.tr (sub (parOf W r act tr).lits i c).neg l) → ¬ ∃ l, Lv w.tr (sub (parOf W r act tr).lits i (!c)).neg l := by
        rintro i ⟨l, h1⟩ ⟨l', h2⟩
        rw [sub_not, Lit.neg_neg] at h2
        exact hi.nod.neg h2 h1
      have h2 := sumI_disj (k := 1) hpos fun i _ => hdisj i
      refine ⟨fun h3 => by omega, fun _ => ⟨by omega, fun i i1 i2 i3 => ?_⟩⟩
      by_contra hna
      rw [assigned_iff] at hna
      have hnc : ∀ c, ¬ ∃ l, Lv w.tr (sub (parOf W r act tr).lits i c).neg l := by
        rintro c ⟨l, hl⟩; exact hna ⟨_, l, by rw [Lit.neg_var, sub_var], hl⟩
      have hins := sumI_insert (P := fun i => ∃ l, Lv w.tr (sub (parOf W r act tr).lits i c).neg l)
        (Q := fun x => x = i ∨ ∃ l, Lv w.tr (sub (parOf W r act tr).lits x c).neg l) (ls := r.lits) (k := 1) i1 (by omega) (hnc c) (fun x => Iff.rfl)
      have h4 := sumI_disj (P := fun x => x = i ∨ ∃ l, Lv w.tr (sub (parOf W r act tr).lits x c).neg l)
        (Q := fun x => ∃ l, Lv w.tr (sub (parOf W r act tr).lits x (!c)).neg l) (k := 1) hpos (by
          rintro x _ (rfl | hx)
          · exact hnc _
          · exact hdisj x hx)
      have h5 : wOf (parOf W r act tr).lits i = wOf r.lits (i - 1) := by
        obtain ⟨i, rfl⟩ : ∃ k, i = k + 1 := ⟨i - 1, by omega⟩
        rw [par_lits, wOf_cons]; rfl
      omega
    · have hiff : ∀ i < (parOf W r act tr).lits.length, ((i, c) ∈ w.con.stack ↔ ∃ l, Lv w.tr (sub (parOf W r act tr).lits i c).neg l) := by
        intro i hil
        refine ⟨fun h => (hi.stk _ h).2.2, ?_⟩
        rintro ⟨l, hl⟩
        rcases hi.proc c hen i hil l ⟨l, Nat.le_refl _, hl⟩ with a | a | ⟨l', _, a⟩ | ⟨⟨l', _, a⟩, b⟩
        · rw [hp] at a; cases a
        · exact a
        · exact absurd ⟨l', a⟩ hA
        · exact absurd ⟨⟨l', a⟩, b⟩ hB
      have hprp := hi.prp c hen w.dl (Nat.le_refl _) (.inr ⟨hc, by simp⟩)
      have hle := hi.left_dl c
      have hbnd := hi.bnd c
      have hs1 : sumI (fun i => (i, c) ∈ w.con.stack) (parOf W r act tr).lits 0 =
          (open Classical in if (0, c) ∈ w.con.stack then 1 else 0) + sumI (fun i => ∃ l, Lv w.tr (sub (parOf W r act tr).lits i c).neg l) r.lits 1 := by
        conv_lhs => rw [par_lits]
        simp only [sumI, Nat.zero_add]
        rw [sumI_congr fun i h1 h2 => hiff i (by rw [hlen]; omega)]
      by_cases h0 : (0, c) ∈ w.con.stack
      · rw [if_pos h0] at hs1
        have hb := hprp.bwd ⟨h0, hi.stkdl h0⟩
        refine ⟨fun h => ?_, fun _ => ⟨by omega, fun i i1 i2 i3 => ?_⟩⟩
        · omega
        · rcases hb.2 i i1 i2 (by omega) with ⟨_, l, _, hx⟩ | ⟨l, _, hx⟩
          · exact assigned_iff.2 ⟨_, l, by rw [Lit.neg_var, sub_var], hx⟩
          · exact assigned_iff.2 ⟨_, l, by rw [sub_var], hx⟩
      · rw [if_neg h0] at hs1
        refine ⟨fun h => ?_, fun hx => absurd ((hiff 0 hok.ne).2 hx) h0⟩
        obtain ⟨l, _, hl⟩ := hprp.fwd (fun h => h0 h.1) (by omega)
        exact ⟨l, hl⟩
  have hlit : ∀ l ∈ r.lits, ∃ i, 1 ≤ i ∧ i < r.lits.length + 1 ∧ wOf (parOf W r act tr).lits i = l.w ∧ litOf (parOf W r act tr).lits i = l.lit := by
    intro l hl
    obtain ⟨i, hil, rfl⟩ := List.mem_iff_getElem.1 hl
    exact ⟨i + 1, by omega, by omega, by rw [par_lits, wOf_cons, wOf_get hil], by rw [par_lits, litOf_cons, litOf_get hil]⟩
  have hsum' : sumI (fun i => ∃ l, Lv w.tr (sub (parOf W r act tr).lits i c).neg l) r.lits 1 = _ := hsum
  rw [hsum', par_b hs, sub_zero] at key
  cases c
  · simp only [Bool.false_eq_true, if_false, Lit.neg_neg, ← isTrue_iff] at key
    refine ⟨fun h => (by cases h), fun h => (by cases h), fun _ h => key.1 (by omega), fun _ h => ⟨by have := (key.2 h).1; omega, fun l hl h2 => ?_⟩⟩
    obtain ⟨i, i1, i2, i3, i4⟩ := hlit l hl
    have := (key.2 h).2 i i1 i2 (by rw [i3]; omega)
    rwa [i4] at this
  · simp only [if_true, ← isTrue_iff] at key
    refine ⟨fun _ h => key.1 h, fun _ h => ⟨(key.2 h).1, fun l hl h2 => ?_⟩, fun h => (by cases h), fun h => (by cases h)⟩
    obtain ⟨i, i1, i2, i3, i4⟩ := hlit l hl
    have := (key.2 h).2 i i1 i2 (by rw [i3]; omega)
    rwa [i4] at this

/-- C22 (backtracking): an excursion to higher levels leaves the constraint as it was: literals processed, bounds, flags, watches. -/
theorem C22_undo (hs : Start W r tr) {w0 : Wd} (h : Reach W r act frz tr w0) (he : Exc w0 w) (hd : w.dl = w0.dl + 1) :
    (undo w).tr = w0.tr ∧ (undo w).dl = w0.dl ∧ (undo w).con.stack = w0.con.stack ∧ (undo w).con.bound = w0.con.bound ∧
    (undo w).con.seen = w0.con.seen ∧ (undo w).con.on = w0.con.on ∧ (undo w).con.on0 = w0.con.on0 ∧ (undo w).undo = w0.undo := by
  have hi0 := inv_reach hs h
  obtain ⟨hi, k⟩ := keep_exc (par_ok hs) hi0 he
  have hi' := hi.undo (by omega)
  have U := hi.undone (by omega)
  have htr : (undo w).tr = w0.tr := by
    show w.tr.filter (fun e => decide (e.lev < w.dl)) = _
    rw [← k.tr]
    apply List.filter_congr
    intro e _
    rw [hd, Bool.eq_iff_iff]; simp; omega
  have hns : w.con.stack.Nodup := List.Nodup.of_map _ hi.stkN
  have hst : (undo w).con.stack = w0.con.stack := by
    have h1 : (undo w).con.stack <:+ w0.con.stack := suffix_of_all hns U.suf k.suf fun u hu => by
      obtain ⟨l, h1, h2⟩ := (U.mem u (U.suf.mem hu)).1 hu
      exact k.mem u (U.suf.mem hu) ⟨l, by omega, h2⟩
    have h2 : w0.con.stack <:+ (undo w).con.stack := suffix_of_all hns k.suf U.suf fun u hu => (U.mem u (k.suf.mem hu)).2 (by
      obtain ⟨_, _, l, e, he, h1, h2⟩ := hi0.stk u hu
      have h3 := hi0.lev e he
      rw [← k.tr] at he
      exact ⟨l, by omega, e, (List.mem_filter.1 he).1, h1, h2⟩)
    exact h1.sublist.antisymm h2.sublist
  refine ⟨htr, by show w.dl - 1 = _; omega, hst, ?_, ?_, ?_, ?_, ?_⟩
  · funext c; rw [hi'.bnd, hi0.bnd, hst]
  · funext i; rw [Bool.eq_iff_iff, hi'.seen, hi0.seen, hst]
  · by_cases hc : ∃ c, (0, c) ∈ w0.con.stack
    · have hk := k.on hc
      cases hu : w.undo w.dl
      · rw [U.same hu]; exact hk
      · rcases U.wat hu with ⟨_, a, _⟩ | ⟨a, _⟩
        · rw [a]; exact hk
        · rw [hi'.seen 0 |>.2 (by rw [hst]; exact hc)] at a; cases a
    · have key : ∀ {x : Wd}, Inv (parOf W r act tr) none x → (¬ ∃ c, (0, c) ∈ x.con.stack) → ∀ c, x.con.on c = (parOf W r act tr).en c := by
        intro x hx hn c
        rcases hx.wat with ⟨_, h2⟩ | ⟨_, h2⟩ | ⟨c', _, h2, _⟩
        · exact h2 c
        · rw [(h2 c).1, (h2 c).2]
        · exact absurd ⟨c', h2⟩ hn
      funext c
      rw [key hi' (by rw [hst]; exact hc), key hi0 hc]
  · funext c; rw [hi'.on0, hi0.on0]
  · funext l; rw [Bool.eq_iff_iff, hi'.und, hi0.und, hst, htr]

/-- The two directions together are the constraint. -/
theorem sides_iff (M : Asg) : (∀ c, sideHolds M W r c) ↔ iffHolds M W r.lits r.bound := by
  unfold sideHolds iffHolds
  exact ⟨fun h => ⟨h false, h true⟩, fun h c => by cases c; · exact h.1
                                                   · exact h.2⟩

/-- C22 for the usual case: created for both directions with `W` free, what is forced follows from `W == (sum(lits) >= bound)`. -/
theorem C22_forced (hs : Start W r tr) (h : Reach W r none frz tr w) {e : Entry} (he : e ∈ w.tr)
    {M : Asg} (hM : iffHolds M W r.lits r.bound) (ha : ∀ e' ∈ w.tr, e'.lev ≤ e.lev → e'.rs = none → M.sat e'.lit) : M.sat e.lit := by
  have key : ∀ t pre, w.tr = pre ++ t → ∀ x ∈ t, x.lev ≤ e.lev → M.sat x.lit := by
    intro t
    induction t with
    | nil => intro _ _ x hx; cases hx
    | cons y t ih =>
      intro pre hp x hx hl
      have ih' := ih (pre ++ [y]) (by rw [hp]; simp)
      rcases List.mem_cons.1 hx with rfl | hx
      · cases hr : x.rs with
        | none => exact ha x (by rw [hp]; simp) hl hr
        | some d' =>
          obtain ⟨h1, h2⟩ := C22_reason hs h hp hr
          refine h2 M (fun c _ => (sides_iff M).2 hM c) fun z hz => ?_
          obtain ⟨e', he', rfl, hl'⟩ := h1 z hz
          exact ih' e' he' (by omega)
      · exact ih' x hx hl
  exact key w.tr [] rfl e he (Nat.le_refl _)

/-- C22 (assertions): a literal is processed once; level 0 is never undone; whenever a reason is asked for, a sub-constraint is active and the
recorded stack size is within the stack; the index for backward propagation is in range. -/
theorem C22_defined (hs : Start W r tr) (h : Reach W r act frz tr w) :
    (∀ i ∈ w.pend, i < w.con.lits.length ∧ w.con.seen i = false) ∧ w.undo 0 = false ∧ (w.con.bp = 1 ∨ w.con.bp ≤ w.con.lits.length) ∧
    (∀ e ∈ w.tr, ∀ d, e.rs = some d → w.con.active ≠ none ∧ ∀ k, d = some k → k ≤ w.con.stack.length) ∧
    ∀ p d, w.conf = some (p, d) → w.con.active ≠ none ∧ ∀ k, d = some k → k ≤ w.con.stack.length := by
  have hi := inv_reach hs h
  have hR : ∀ {tr' post l p d}, Rsn (parOf W r act tr) w.con tr' post l p d → w.con.active ≠ none ∧ ∀ k, d = some k → k ≤ w.con.stack.length := by
    rintro tr' post l p d ⟨c, s, a1, a2, a3, a4, _⟩
    refine ⟨by rw [a1]; simp, fun k hk => ?_⟩
    rcases Bool.eq_false_or_eq_true (parOf W r act tr).isW with hw | hw
    · rw [a3 hw] at hk; cases hk; exact a2.length_le
    · rw [(a4 hw).1] at hk; cases hk
  refine ⟨fun i hp => ⟨by rw [hi.lits]; exact (hi.pendA i hp).1, ?_⟩, ?_, ?_, ?_, ?_⟩
  · rw [← Bool.not_eq_true, hi.seen]; rintro ⟨c, hm⟩; exact hi.pendS i hp c hm
  · rw [← Bool.not_eq_true, hi.und]; exact fun h => h.1 rfl
  · rcases hi.bp with h1 | ⟨_, _, h1, _⟩
    · exact .inl h1
    · exact .inr (by rw [hi.lits]; exact h1)
  · intro e he d hd
    obtain ⟨pre, post, hsp⟩ := List.append_of_mem he
    exact hR (hi.rsn pre e post d hsp hd)
  · intro p d hp; exact hR (hi.cnf p d hp).2

end props
end Clasp.WC
