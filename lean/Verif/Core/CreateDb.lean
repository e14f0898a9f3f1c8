/-
Adding a clause keeps the invariant of the clause database. No code is modelled in this file.
-/
import Verif.Core.GraphLem
import Verif.Core.CreateProps
namespace Clasp.Core
open St

/-! ### The state -/
section
variable {learn : Bool} {F : Th} {s t : St}

/-- `b` is not a better watch than `a`, and the others are no better than `b`. -/
structure Best (s : St) (a b : Lit) (rest : List Lit) : Prop where
  ab : s.watchOrder b ≤ s.watchOrder a
  r : ∀ c ∈ rest, s.watchOrder c ≤ s.watchOrder b

/-- The watches `a`, `b` of a new clause are in order. -/
structure New (t : St) (a b : Lit) : Prop where
  na : t.Done a.neg → Db.Held t a b (t.level a.var)
  nb : t.Done b.neg → Db.Held t b a (t.level b.var)

theorem order_false (hl : s.LvOk) {p q : Lit} (hq : s.isFalse q = true) (h : s.watchOrder p ≤ s.watchOrder q) :
    s.isFalse p = true ∧ s.level p.var ≤ s.level q.var := by
  have hd := hl.dl
  have hu := umax_val
  have hvm := varMax_val
  rcases hl.order q with ⟨hv, ho⟩ | ⟨hv, hlv, ho⟩ | ⟨hv, hlv, ho⟩
  · exact absurd hv (false_free hq)
  · rw [true_false hv] at hq; simp at hq
  · rcases hl.order p with ⟨hv', ho'⟩ | ⟨hv', hlv', ho'⟩ | ⟨hv', hlv', ho'⟩
    · omega
    · omega
    · exact ⟨hv', by omega⟩

/-- Forcing the first literal of a clause whose other literals are false. -/
theorem forceAt_new (h : s.Inv learn F) (hc : s.conflict = []) (hl : s.LvOk) {a b : Lit} {rest r : List Lit} (hb : Best s a b rest)
    (hbf : s.isFalse b = true) (hr : ∀ q ∈ r, q = litTrue ∨ ∃ x ∈ b :: rest, q = x.neg) (hbr : b.neg ∈ r)
    (hF : ∀ M, F M → M.all r → M.sat a) :
    (s.forceAt learn a (s.level b.var) (some r)).1.Inv learn F ∧ Down s (s.forceAt learn a (s.level b.var) (some r)).1 ∧
    (s.forceAt learn a (s.level b.var) (some r)).1.root = s.root ∧ (s.forceAt learn a (s.level b.var) (some r)).1.flip = s.flip ∧
    (s.forceAt learn a (s.level b.var) (some r)).1.mode = s.mode ∧
    ((s.forceAt learn a (s.level b.var) (some r)).2 = true → (s.forceAt learn a (s.level b.var) (some r)).1.conflict = [] ∧
      (s.forceAt learn a (s.level b.var) (some r)).1.tl a ∧ (s.forceAt learn a (s.level b.var) (some r)).1.Fine a (s.level b.var)) ∧
    ((s.forceAt learn a (s.level b.var) (some r)).2 = false → (s.forceAt learn a (s.level b.var) (some r)).1.conflict ≠ []) ∧
    New (s.forceAt learn a (s.level b.var) (some r)).1 a b := by
  have hbase := h.base
  have hbn : s.tl b.neg := (hbase.isFalse_iff b).1 hbf
  have hbl : s.level b.var ≤ s.dl := by have := hbase.level_le hbn; rwa [Lit.neg_var] at this
  have hrest : ∀ x ∈ b :: rest, s.isFalse x = true ∧ s.level x.var ≤ s.level b.var := by
    intro x hx
    rcases List.mem_cons.1 hx with rfl | hx
    · exact ⟨hbf, Nat.le_refl _⟩
    · exact order_false hl hbf (hb.r x hx)
  have hrt : ∀ q ∈ r, s.tl q ∧ s.level q.var ≤ s.level b.var := by
    intro q hq
    rcases hr q hq with rfl | ⟨x, hx, rfl⟩
    · exact ⟨Or.inl rfl, by have : s.level litTrue.var = 0 := hl.tt.2; omega⟩
    · exact ⟨(hbase.isFalse_iff x).1 (hrest x hx).1, (hrest x hx).2⟩
  -- if `a` was false, its level is at least the one of `b`
  have hal : s.isFalse a = true → s.level b.var ≤ s.level a.var := fun ha => (order_false hl ha hb.ab).2
  unfold forceAt
  by_cases hlv : s.level b.var = s.dl
  · rw [if_pos hlv]
    have htop : s.isFalse a = true → s.dl ≠ s.flip → ∃ q ∈ a.neg :: r, q ∈ s.trail ∧ s.level q.var = s.dl := by
      intro _ hd
      refine ⟨b.neg, List.mem_cons_of_mem _ hbr, tl_var_ne hbase ?_ hbn, hlv⟩
      have := hbase.wf.fd
      rw [Lit.neg_var, hlv]; omega
    have i1 := h.force hc (p := a) (r := r) (fun q hq => (hrt q hq).1) hF htop
    have i2 := force_ext (learn := learn) (s := s) a (some r)
    have i3 := force_res (learn := learn) hbase a (some r)
    have i4 := i2.down hbase i1.base (force_keeps hbase a (some r)) (force_flp _ _)
    generalize s.force learn a (some r) = g at *
    obtain ⟨t, ok⟩ := g
    dsimp only at *
    have hfine : ok = true → t.tl a ∧ t.Fine a (s.level b.var) := fun hok => by
      have := (i3.1 hok hc).2
      refine ⟨this, Or.inl ⟨this, ?_⟩⟩
      have := i1.base.level_le this
      rw [i2.dl] at this; omega
    have hlb := i2.level hbase hbn
    rw [Lit.neg_var] at hlb
    refine ⟨i1, i4, i2.root, i2.flip, i2.mode, fun hok => ⟨(i3.1 hok hc).1, (hfine hok).1, (hfine hok).2⟩, i3.2, ⟨fun hd => ?_, fun hd => ?_⟩⟩
    · cases ok with
      | true => exact absurd (Or.inr hd.mem) (i1.base.not_both (hfine rfl).1)
      | false =>
        exfalso
        have h1 := (hd.level_le i1.base).2 (i3.2 rfl)
        obtain ⟨m1, m2, _⟩ := i4.mono _ hd
        have m3 := i4.mono.level hd
        rw [Lit.neg_var] at m3 h1
        have := hal ((hbase.isFalse_iff a).2 (Or.inr m1.mem))
        rw [m3, i2.dl] at h1
        omega
    · cases ok with
      | true => rw [hlb]; exact Or.inl (hfine rfl).2
      | false =>
        exfalso
        have h1 := (hd.level_le i1.base).2 (i3.2 rfl)
        rw [Lit.neg_var, hlb, i2.dl] at h1; omega
  · rw [if_neg hlv]
    have hlt : s.level b.var < s.dl := by omega
    obtain ⟨i1, i2, i3, i4, i5, i6, i7⟩ := forceImplied_spec h hc hrt hF hlt (Or.inr ⟨b.neg, hbr, rfl⟩)
    generalize s.forceImplied learn ⟨a, s.level b.var, some r⟩ = g at *
    obtain ⟨t, ok⟩ := g
    dsimp only at *
    have hfine : s.level b.var < t.dl ∨ ok = true → t.Fine a (s.level b.var) := by
      intro hx
      cases ok with
      | true => exact (i6 rfl).2.2
      | false => exact (i7 rfl).2 (by simpa using hx)
    refine ⟨i1, i2, i3, i4, i5, i6, fun hn => (i7 hn).1, ⟨fun hd => ?_, fun hd => ?_⟩⟩
    · obtain ⟨m1, m2, _⟩ := i2.mono _ hd
      have m3 := i2.mono.level hd
      rw [Lit.neg_var] at m3
      have hge := hal ((hbase.isFalse_iff a).2 (Or.inr m1.mem))
      rw [m3]
      refine Or.inr ((hfine ?_).mono hge)
      cases ok with
      | true => exact Or.inr rfl
      | false =>
        have h1 := (hd.level_le i1.base).2 (i7 rfl).1
        rw [Lit.neg_var, m3] at h1
        exact Or.inl (by omega)
    · have m3 := i2.mono.level hd
      rw [Lit.neg_var] at m3
      rw [m3]
      refine Or.inl (hfine ?_)
      cases ok with
      | true => exact Or.inr rfl
      | false =>
        have h1 := (hd.level_le i1.base).2 (i7 rfl).1
        rw [Lit.neg_var, m3] at h1
        exact Or.inl (by omega)

/-- Forcing a unit clause. -/
theorem forceAt_unit (h : s.Inv learn F) (hc : s.conflict = []) {a : Lit} (hF : ∀ M, F M → M.sat a) :
    (s.forceAt learn a 0 (some [litTrue])).1.Inv learn F ∧ Down s (s.forceAt learn a 0 (some [litTrue])).1 ∧
    (s.forceAt learn a 0 (some [litTrue])).1.root = s.root ∧ (s.forceAt learn a 0 (some [litTrue])).1.flip = s.flip ∧
    (s.forceAt learn a 0 (some [litTrue])).1.mode = s.mode ∧
    ((s.forceAt learn a 0 (some [litTrue])).2 = true → (s.forceAt learn a 0 (some [litTrue])).1.conflict = [] ∧
      (s.forceAt learn a 0 (some [litTrue])).1.tl a) ∧
    ((s.forceAt learn a 0 (some [litTrue])).2 = false → (s.forceAt learn a 0 (some [litTrue])).1.conflict ≠ []) ∧
    ((s.forceAt learn a 0 (some [litTrue])).1.D0 ∨ (s.forceAt learn a 0 (some [litTrue])).1.Fine a 0) := by
  have hbase := h.base
  have hl0 : s.level litTrue.var = 0 := by unfold level; rw [litTrue_var, hbase.c0]
  unfold forceAt
  by_cases hlv : 0 = s.dl
  · rw [if_pos hlv]
    have hfl := hbase.wf.fd
    have i1 := h.force hc (p := a) (r := [litTrue]) (fun q hq => Or.inl (by simpa using hq)) (fun M hM _ => hF M hM) (fun _ hn => by omega)
    have i2 := force_ext (learn := learn) (s := s) a (some [litTrue])
    have i3 := force_res (learn := learn) hbase a (some [litTrue])
    have i4 := i2.down hbase i1.base (force_keeps hbase a (some [litTrue])) (force_flp _ _)
    generalize s.force learn a (some [litTrue]) = g at *
    obtain ⟨t, ok⟩ := g
    dsimp only at *
    refine ⟨i1, i4, i2.root, i2.flip, i2.mode, fun hok => i3.1 hok hc, i3.2, ?_⟩
    cases ok with
    | true =>
      right; left
      have := (i3.1 rfl hc).2
      refine ⟨this, ?_⟩
      have := i1.base.level_le this
      rw [i2.dl] at this; omega
    | false => left; exact ⟨i3.2 rfl, by rw [i2.dl]; exact hlv.symm⟩
  · rw [if_neg hlv]
    obtain ⟨i1, i2, i3, i4, i5, i6, i7⟩ := forceImplied_spec h hc (p := a) (lv := 0) (r := [litTrue])
      (fun q hq => by rw [List.mem_singleton.1 hq]; exact ⟨Or.inl rfl, by omega⟩) (fun M hM _ => hF M hM) (by omega) (Or.inl rfl)
    generalize s.forceImplied learn ⟨a, 0, some [litTrue]⟩ = g at *
    obtain ⟨t, ok⟩ := g
    dsimp only at *
    refine ⟨i1, i2, i3, i4, i5, fun hok => ⟨(i6 hok).1, (i6 hok).2.1⟩, fun hn => (i7 hn).1, ?_⟩
    cases ok with
    | true => exact Or.inr (i6 rfl).2.2
    | false =>
      by_cases hd : 0 < t.dl
      · exact Or.inr ((i7 rfl).2 hd)
      · exact Or.inl ⟨(i7 rfl).1, by omega⟩

end

/-! ### The database -/
namespace Db
variable {learn : Bool} {F : Th} {d : Db}

theorem attach_watch {id : Nat} {c : Cl} (h01 : c.h0 ≠ c.h1) (p : Lit) : (d.attach id c).watch p =
    if p = c.h0.neg ∨ p = c.h1.neg then d.watch p ++ [id] else d.watch p := by
  have hne : c.h1.neg ≠ c.h0.neg := fun e => h01 (Graph.Lit.neg_inj'.1 e).symm
  unfold attach addWatch
  dsimp only
  rw [Function.update_of_ne hne]
  by_cases h1 : p = c.h1.neg
  · subst h1; rw [Function.update_self, if_pos (Or.inr rfl)]
  · rw [Function.update_of_ne h1]
    by_cases h0 : p = c.h0.neg
    · subst h0; rw [Function.update_self, if_pos (Or.inl rfl)]
    · rw [Function.update_of_ne h0, if_neg (by tauto)]

theorem Ok.attach (h : Ok learn F d) {id : Nat} {c : Cl} (hid : id ∉ d.ids) (hn : (c.lits.filter (· ≠ litFalse)).Nodup)
    (hz : ∀ w, c.watch w ≠ litFalse) (hF : ∀ M, F M → M.satC c.lits) (hnew : New d.st c.h0 c.h1) : Ok learn F (d.attach id c) := by
  have h01 : c.h0 ≠ c.h1 := (distinct hn false (hz _) (hz _)).1
  have hcls : ∀ i ∈ d.ids, (d.attach id c).cls i = d.cls i := fun i hi => by
    show Function.update d.cls id c i = _
    rw [Function.update_of_ne]; rintro rfl; exact hid hi
  have hself : (d.attach id c).cls id = c := by
    show Function.update d.cls id c id = _
    rw [Function.update_self]
  have hids : (d.attach id c).ids = id :: d.ids := rfl
  have hst : (d.attach id c).st = d.st := rfl
  have hg : (d.attach id c).graph = d.graph := rfl
  have hnw : ∀ p, id ∉ d.watch p := fun p hp => hid ((h.wok.wat p id).1 hp).1
  refine ⟨h.inv, ⟨?_, ?_, ?_, ?_⟩, ?_, h.sym, h.gmods, ?_, ⟨h.good23.g2, h.good23.g3⟩, h.marked⟩
  · intro p i
    rw [attach_watch h01, hids]
    by_cases hi : i = id
    · subst hi
      rw [hself]
      by_cases hp : p = c.h0.neg ∨ p = c.h1.neg
      · rw [if_pos hp]; simp [hp]
      · rw [if_neg hp]; simp [hp, hnw p]
    · have : i ∈ (if p = c.h0.neg ∨ p = c.h1.neg then d.watch p ++ [id] else d.watch p) ↔ i ∈ d.watch p := by
        split
        · simp [hi]
        · rfl
      rw [this, h.wok.wat p i]
      constructor
      · rintro ⟨h1, h2⟩; rw [hcls i h1]; exact ⟨List.mem_cons_of_mem _ h1, h2⟩
      · rintro ⟨h1, h2⟩
        have h1 : i ∈ d.ids := by simpa [hi] using h1
        rw [hcls i h1] at h2; exact ⟨h1, h2⟩
  · intro p
    rw [attach_watch h01]
    split
    · rw [List.nodup_append]
      refine ⟨h.wok.wnd p, by simp, fun x hx y hy e => ?_⟩
      rw [List.mem_singleton] at hy
      rw [e, hy] at hx; exact hnw p hx
    · exact h.wok.wnd p
  · intro i hi
    rcases List.mem_cons.1 hi with rfl | hi
    · rw [hself]; exact hn
    · rw [hcls i hi]; exact h.wok.nod i hi
  · intro i hi
    rcases List.mem_cons.1 hi with rfl | hi
    · rw [hself]; exact hz
    · rw [hcls i hi]; exact h.wok.nz i hi
  · intro i hi
    rcases List.mem_cons.1 hi with rfl | hi
    · rw [hself]; exact hF
    · rw [hcls i hi]; exact h.mods i hi
  · intro i hi w
    rcases List.mem_cons.1 hi with rfl | hi
    · rw [hself]
      cases w with
      | false => exact hnew.na
      | true => exact hnew.nb
    · rw [hcls i hi]; exact h.good i hi w

theorem Ok.addShort (h : Ok learn F d) {l : List Lit} (shared lr : Bool) (hF : ∀ M, F M → M.satC l)
    (hnew : ∀ a b rest, l = a :: b :: rest → New d.st a b) : Ok learn F (d.addShort shared lr l) := by
  have up : ∀ {x y z : Lit} {k k' : Nat}, k ≤ k' → Held d.st x y k → (d.st.Fine x k' ∨ d.st.Fine y k') := by
    intro x y z k k' hk hh
    rcases hh with hh | hh
    · exact Or.inr (hh.mono hk)
    · exact Or.inl (hh.mono hk)
  match l, hF, hnew with
  | [], _, _ => exact h
  | [_], _, _ => exact h
  | [a, b], hF, hnew =>
    have hn := hnew a b [] rfl
    refine ⟨h.inv, ⟨h.wok.wat, h.wok.wnd, h.wok.nod, h.wok.nz⟩, h.mods, h.sym.add2 _ _ _ _, h.gmods.add2 (fun M hM => ?_), h.good, ⟨?_, ?_⟩, h.marked⟩
    · simpa [Asg.satC] using hF M hM
    · intro x y hxy hd
      rcases (Graph.add2_has2 shared lr d.graph a b x y).1 hxy with h1 | ⟨_, ⟨rfl, rfl⟩ | ⟨rfl, rfl⟩⟩
      · exact h.good23.g2 x y h1 hd
      · exact hn.na hd
      · exact hn.nb hd
    · intro x y z hxyz
      exact h.good23.g3 x y z ((Graph.add2_has3 shared lr d.graph a b x y z).1 hxyz)
  | [a, b, c], hF, hnew =>
    have hn := hnew a b [c] rfl
    refine ⟨h.inv, ⟨h.wok.wat, h.wok.wnd, h.wok.nod, h.wok.nz⟩, h.mods, h.sym.add3 _ _ _ _ _, h.gmods.add3 (fun M hM => ?_), h.good, ⟨?_, ?_⟩, h.marked⟩
    · simpa [Asg.satC] using hF M hM
    · intro x y hxy
      exact h.good23.g2 x y ((Graph.add3_has2 shared lr d.graph a b c x y).1 hxy)
    · intro x y z hxyz hdx hdy
      rcases (Graph.add3_has3 shared lr d.graph a b c x y z).1 hxyz with h1 | ⟨_, h1⟩
      · exact h.good23.g3 x y z h1 hdx hdy
      · show Held d.st x z (max (d.st.level x.var) (d.st.level y.var)) ∨ d.st.Fine y (max (d.st.level x.var) (d.st.level y.var))
        have hdx : d.st.Done x.neg := hdx
        have hdy : d.st.Done y.neg := hdy
        have l1 : d.st.level x.var ≤ max (d.st.level x.var) (d.st.level y.var) := Nat.le_max_left _ _
        have l2 : d.st.level y.var ≤ max (d.st.level x.var) (d.st.level y.var) := Nat.le_max_right _ _
        unfold Held
        have na : ∀ {k}, d.st.Done a.neg → d.st.level a.var ≤ k → d.st.Fine a k ∨ d.st.Fine b k := fun hd hk => up (z := c) hk (hn.na hd)
        have nb : ∀ {k}, d.st.Done b.neg → d.st.level b.var ≤ k → d.st.Fine b k ∨ d.st.Fine a k := fun hd hk => up (z := c) hk (hn.nb hd)
        unfold Graph.same3 at h1
        rcases h1 with ⟨rfl, ⟨rfl, rfl⟩ | ⟨rfl, rfl⟩⟩ | ⟨rfl, ⟨rfl, rfl⟩ | ⟨rfl, rfl⟩⟩ | ⟨rfl, ⟨rfl, rfl⟩ | ⟨rfl, rfl⟩⟩
        · have := na hdx l1; tauto
        · have := na hdx l1; tauto
        · have := na hdy l2; tauto
        · have := nb hdx l1; tauto
        · have := na hdy l2; tauto
        · have := nb hdy l2; tauto
  | _ :: _ :: _ :: _ :: _, _, _ => exact h

theorem Ok.detach (h : Ok learn F d) (id : Nat) (hnd : d.ids.Nodup) : Ok learn F (d.detach id) := by
  have hsub : ∀ i ∈ (d.detach id).ids, i ∈ d.ids := fun i hi => List.mem_of_mem_erase hi
  have hw : ∀ p, (d.detach id).watch p = if p = (d.cls id).h0.neg ∨ p = (d.cls id).h1.neg then (d.watch p).erase id else d.watch p := by
    intro p
    unfold Db.detach
    dsimp only
    by_cases h1 : p = (d.cls id).h1.neg
    · rw [h1, Function.update_self, if_pos (Or.inr rfl)]
      by_cases h0 : (d.cls id).h1.neg = (d.cls id).h0.neg
      · rw [h0, Function.update_self]
        refine List.erase_of_not_mem (fun hm => ?_)
        have := (h.wok.wnd (d.cls id).h0.neg).mem_erase_iff.1 hm
        exact this.1 rfl
      · rw [Function.update_of_ne h0]
    · rw [Function.update_of_ne h1]
      by_cases h0 : p = (d.cls id).h0.neg
      · rw [h0, Function.update_self, if_pos (Or.inl rfl)]
      · rw [Function.update_of_ne h0, if_neg (by tauto)]
  refine ⟨h.inv, ⟨?_, ?_, fun i hi => h.wok.nod i (hsub i hi), fun i hi => h.wok.nz i (hsub i hi)⟩, fun i hi => h.mods i (hsub i hi),
    h.sym, h.gmods, fun i hi => h.good i (hsub i hi), ⟨h.good23.g2, h.good23.g3⟩, h.marked⟩
  · intro p i
    rw [hw]
    show _ ↔ i ∈ d.ids.erase id ∧ (p = (d.cls i).h0.neg ∨ p = (d.cls i).h1.neg)
    rw [hnd.mem_erase_iff]
    split
    · rename_i hp
      rw [(h.wok.wnd p).mem_erase_iff, h.wok.wat p i]; tauto
    · rename_i hp
      rw [h.wok.wat p i]
      constructor
      · rintro ⟨h1, h2⟩
        refine ⟨⟨?_, h1⟩, h2⟩
        rintro rfl; exact hp h2
      · tauto
  · intro p
    rw [hw]
    split
    · exact (h.wok.wnd p).erase _
    · exact h.wok.wnd p


/-! ### Creating a clause -/

theorem litFalse_filter {l : List Lit} (h : ∀ p ∈ l, p ≠ litFalse) : l.filter (· ≠ litFalse) = l := by
  rw [List.filter_eq_self]; intro p hp; simpa using h p hp

theorem ofLits_lits {l : List Lit} (h2 : 2 ≤ l.length) (h : ∀ p ∈ l, p ≠ litFalse) :
    (Cl.ofLits l).lits.filter (· ≠ litFalse) = l ∧ (∀ x ∈ (Cl.ofLits l).lits, x = litFalse ∨ x ∈ l) ∧ (∀ x ∈ l, x ∈ (Cl.ofLits l).lits) ∧
    (Cl.ofLits l).h0 = l.getD 0 litFalse ∧ (Cl.ofLits l).h1 = l.getD 1 litFalse := by
  match l, h2, h with
  | [a, b], _, h => simp_all [Cl.ofLits, Cl.lits]
  | [a, b, c], _, h => simp_all [Cl.ofLits, Cl.lits]
  | [a, b, c, e], _, h => simp_all [Cl.ofLits, Cl.lits]
  | [a, b, c, e, f], _, h => simp_all [Cl.ofLits, Cl.lits]
  | a :: b :: c :: e :: f :: g :: r, _, h =>
    have hr := litFalse_filter (l := r) (fun p hp => h p (by simp [hp]))
    have : (a :: b :: c :: e :: f :: g :: r).length > 5 := by simp
    unfold Cl.ofLits
    rw [if_pos this]
    have e : (⟨(a :: b :: c :: e :: f :: g :: r).getD 0 litFalse, (a :: b :: c :: e :: f :: g :: r).getD 1 litFalse,
      (a :: b :: c :: e :: f :: g :: r).getD 2 litFalse, (a :: b :: c :: e :: f :: g :: r).drop 3, 0, false⟩ : Cl).lits =
      a :: b :: c :: e :: f :: g :: r := by simp [Cl.lits]
    rw [e]
    exact ⟨litFalse_filter h, fun x hx => Or.inr hx, fun x hx => hx, rfl, rfl⟩

theorem ofLits_reason {l : List Lit} (h2 : 2 ≤ l.length) : ∀ q ∈ (Cl.ofLits l).reason true, q = litTrue ∨ ∃ x ∈ l.drop 1, q = x.neg := by
  have ht : litFalse.neg = litTrue := rfl
  match l, h2 with
  | [a, b], _ => simp [Cl.ofLits, Cl.reason, Cl.watch, ht]
  | [a, b, c], _ => simp [Cl.ofLits, Cl.reason, Cl.watch, ht]
  | [a, b, c, e], _ => simp [Cl.ofLits, Cl.reason, Cl.watch, ht]
  | [a, b, c, e, f], _ => simp [Cl.ofLits, Cl.reason, Cl.watch]
  | a :: b :: c :: e :: f :: g :: r, _ =>
    intro q hq
    right
    have : (a :: b :: c :: e :: f :: g :: r).length > 5 := by simp
    unfold Cl.ofLits at hq
    rw [if_pos this] at hq
    have hq : q ∈ (b :: c :: e :: f :: g :: r).map Lit.neg := hq
    obtain ⟨x, hx, e⟩ := List.mem_map.1 hq
    exact ⟨x, hx, e.symm⟩

theorem ofLits_reason_mem {a b : Lit} {rest : List Lit} : b.neg ∈ (Cl.ofLits (a :: b :: rest)).reason true := by
  have h1 : (Cl.ofLits (a :: b :: rest)).h1 = b := by unfold Cl.ofLits; split <;> rfl
  have : (Cl.ofLits (a :: b :: rest)).h1.neg ∈ (Cl.ofLits (a :: b :: rest)).reason true := by simp [Cl.reason, Cl.watch]
  rwa [h1] at this

/-- The database after adding the clause `l` (with `id` for a new clause object). -/
structure Created (learn : Bool) (F : Th) (d d' : Db) (l : List Lit) (id : Nat) : Prop where
  ok : Ok learn F d'
  down : Down d.st d'.st
  root : d'.st.root = d.st.root
  flip : d'.st.flip = d.st.flip
  mode : d'.st.mode = d.st.mode
  ids : d'.ids = d.ids ∨ (d'.ids = id :: d.ids ∧ ∀ x ∈ (d'.cls id).lits, x = litFalse ∨ x ∈ l)
  cls : ∀ i ∈ d.ids, d'.cls i = d.cls i
  g2 : ∀ a b, d.graph.has2 a b → d'.graph.has2 a b
  g3 : ∀ a b c, d.graph.has3 a b c → d'.graph.has3 a b c

/-- The clause `C` is in the database: as a clause object, as a short clause, or because one of its literals holds on
level 0. -/
def Has (P : Nat → Prop) (d : Db) (C : List Lit) : Prop :=
  (∃ i ∈ d.ids, P i ∧ ∀ x ∈ (d.cls i).lits, x = litFalse ∨ x ∈ C) ∨ (∃ a ∈ C, ∃ b ∈ C, ([a, b].Nodup ∧ ∀ x ∈ [a, b], x ≠ litFalse) ∧ d.graph.has2 a b) ∨
  (∃ a ∈ C, ∃ b ∈ C, ∃ c ∈ C, ([a, b, c].Nodup ∧ ∀ x ∈ [a, b, c], x ≠ litFalse) ∧ d.graph.has3 a b c) ∨ (∃ p, (p ∈ C ∨ p = litFalse) ∧ (d.st.D0 ∨ d.st.Fine p 0))

theorem addShort_graph (shared lr : Bool) (l : List Lit) : (∀ a b, d.graph.has2 a b → (d.addShort shared lr l).graph.has2 a b) ∧
    (∀ a b c, d.graph.has3 a b c → (d.addShort shared lr l).graph.has3 a b c) ∧ (d.addShort shared lr l).st = d.st ∧
    (d.addShort shared lr l).ids = d.ids ∧ (d.addShort shared lr l).cls = d.cls := by
  match l with
  | [] => exact ⟨fun _ _ h => h, fun _ _ _ h => h, rfl, rfl, rfl⟩
  | [_] => exact ⟨fun _ _ h => h, fun _ _ _ h => h, rfl, rfl, rfl⟩
  | [a, b] => exact ⟨fun x y h => (Graph.add2_has2 ..).2 (Or.inl h), fun x y z h => (Graph.add2_has3 ..).2 h, rfl, rfl, rfl⟩
  | [a, b, c] => exact ⟨fun x y h => (Graph.add3_has2 ..).2 h, fun x y z h => (Graph.add3_has3 ..).2 (Or.inl h), rfl, rfl, rfl⟩
  | _ :: _ :: _ :: _ :: _ => exact ⟨fun _ _ h => h, fun _ _ _ h => h, rfl, rfl, rfl⟩

theorem Ok.setSt (h : Ok learn F d) {t : St} (ht : t.Inv learn F) (hd : Down d.st t) : Ok learn F { d with st := t } :=
  ⟨ht, ⟨h.wok.wat, h.wok.wnd, h.wok.nod, h.wok.nz⟩, h.mods, h.sym, h.gmods, h.good.mono hd.mono, h.good23.mono hd.mono,
   Marked.mono h.inv h.marked hd.mono ht.base⟩

theorem satC_ofLits {M : Asg} {l : List Lit} (h2 : 2 ≤ l.length) (hz : ∀ p ∈ l, p ≠ litFalse) (h : M.satC l) : M.satC (Cl.ofLits l).lits := by
  obtain ⟨p, hp, hs⟩ := h
  exact ⟨p, (ofLits_lits h2 hz).2.2.1 p hp, hs⟩

/-- The clause object or the short clause is added after the state is settled. -/
theorem Ok.add (h : Ok learn F d) {l : List Lit} {id : Nat} {expl shared lr : Bool} (h2 : 2 ≤ l.length) (hid : id ∉ d.ids)
    (hnd : l.Nodup) (hz : ∀ p ∈ l, p ≠ litFalse) (hF : ∀ M, F M → M.satC l) (hnew : ∀ a b rest, l = a :: b :: rest → New d.st a b) :
    Ok learn F (if expl then d.attach id (Cl.ofLits l) else d.addShort shared lr l) := by
  split
  · obtain ⟨o1, o2, o3, o4, o5⟩ := ofLits_lits h2 hz
    match l, h2 with
    | a :: b :: rest, h2 =>
      simp only [List.getD_cons_zero, List.getD_cons_succ] at o4 o5
      refine h.attach hid (by rw [o1]; exact hnd) ?_ (fun M hM => satC_ofLits h2 hz (hF M hM)) ?_
      · intro w
        cases w
        · show (Cl.ofLits _).h0 ≠ _
          rw [o4]; exact hz a (by simp)
        · show (Cl.ofLits _).h1 ≠ _
          rw [o5]; exact hz b (by simp)
      · rw [o4, o5]; exact hnew a b rest rfl
  · exact h.addShort shared lr hF hnew

theorem created_add {t : St} (l : List Lit) (id : Nat) (expl shared lr : Bool) (h2 : 2 ≤ l.length) (hid : id ∉ d.ids) (hz : ∀ p ∈ l, p ≠ litFalse)
    (ho : Ok learn F (if expl then ({ d with st := t } : Db).attach id (Cl.ofLits l) else ({ d with st := t } : Db).addShort shared lr l))
    (hd : Down d.st t) (h3 : t.root = d.st.root) (h4 : t.flip = d.st.flip) (h5 : t.mode = d.st.mode) :
    Created learn F d (if expl then ({ d with st := t } : Db).attach id (Cl.ofLits l) else ({ d with st := t } : Db).addShort shared lr l) l id := by
  obtain ⟨g1, g2, g3, g4, g5⟩ := addShort_graph (d := { d with st := t }) shared lr l
  cases expl with
  | true =>
    simp only [if_true] at ho ⊢
    refine ⟨ho, hd, h3, h4, h5, Or.inr ⟨rfl, ?_⟩, fun i hi => ?_, fun _ _ h => h, fun _ _ _ h => h⟩
    · intro x hx
      have : x ∈ (Function.update d.cls id (Cl.ofLits l) id).lits := hx
      rw [Function.update_self] at this
      exact (ofLits_lits h2 hz).2.1 x this
    · show Function.update d.cls id _ i = _
      rw [Function.update_of_ne]; rintro rfl; exact hid hi
  | false =>
    simp only [Bool.false_eq_true, if_false] at ho ⊢
    refine ⟨ho, by rw [g3]; exact hd, by rw [g3]; exact h3, by rw [g3]; exact h4, by rw [g3]; exact h5, Or.inl g4, fun i _ => by rw [g5], g1, g2⟩

theorem set_comm (t : St) (l : List Lit) (id : Nat) (expl shared lr : Bool) :
    ({ (if expl then d.attach id (Cl.ofLits l) else d.addShort shared lr l) with st := t } : Db) =
    (if expl then ({ d with st := t } : Db).attach id (Cl.ofLits l) else ({ d with st := t } : Db).addShort shared lr l) := by
  cases expl with
  | true => rfl
  | false =>
    simp only [Bool.false_eq_true, if_false]
    match l with
    | [] => rfl
    | [_] => rfl
    | [a, b] => rfl
    | [a, b, c] => rfl
    | _ :: _ :: _ :: _ :: _ => rfl

theorem st_comm (l : List Lit) (id : Nat) (expl shared lr : Bool) :
    (if expl then d.attach id (Cl.ofLits l) else d.addShort shared lr l).st = d.st := by
  cases expl with
  | true => rfl
  | false => exact (addShort_graph shared lr l).2.2.1

/-- Adding a clause that is implied by the models keeps the database in order. -/
theorem createPrepared_spec (h : Ok learn F d) (hc : d.st.conflict = []) (hl : d.st.LvOk) {l : List Lit} {id : Nat} {shared lr implicit : Bool}
    {f : CFlags} (hid : id ∉ d.ids) (hnd : l.Nodup) (hz : ∀ p ∈ l, p ≠ litFalse) (hF : ∀ M, F M → M.satC l)
    (hb : ∀ a b rest, l = a :: b :: rest → Best d.st a b rest) :
    Created learn F d (createPrepared learn d l id shared lr implicit f).1 l id := by
  have hu := umax_val
  have hvm := varMax_val
  have hdl := hl.dl
  unfold createPrepared
  dsimp only
  split
  · exact ⟨h, Down.refl _, rfl, rfl, rfl, Or.inl rfl, fun _ _ => rfl, fun _ _ h => h, fun _ _ _ h => h⟩
  rename_i hig
  split
  · rename_i h2
    have h2 : 2 ≤ l.length := h2
    generalize hex : (decide (l.length > 3) || f.explicit || !implicit) = expl
    match l, h2, hnd, hz, hF, hb, hig, hex with
    | a :: b :: rest, h2, hnd, hz, hF, hb, hig, hex =>
    simp only [List.getD_cons_zero, List.getD_cons_succ] at hig ⊢
    have hbest := hb a b rest rfl
    have hn0 : (a :: b :: rest).length ≠ 0 := by simp
    have h1 : (a :: b :: rest).length > 1 := by simp
    have haum : d.st.watchOrder a ≠ umax := by
      intro e
      apply hig
      have : d.st.status (a :: b :: rest).length a b = stSubsumed := by unfold St.status; simp [e]
      rw [this]; rfl
    split
    · rename_i h6
      -- the other literals are false
      have hbf : d.st.isFalse b = true := by
        have hsb : d.st.watchOrder b ≤ d.st.dl → d.st.isFalse b = true := by
          intro hle
          rcases hl.order b with ⟨hv, ho⟩ | ⟨hv, hlv, ho⟩ | ⟨hv, hlv, ho⟩
          · omega
          · omega
          · exact hv
        by_cases ha0 : d.st.watchOrder a = 0
        · exact hsb (by have := hbest.ab; omega)
        · rw [status_val hl hn0 haum ha0] at h6
          simp only [h1, forall_const] at h6
          rcases hl.order a with ⟨hv, ho⟩ | ⟨hv, hlv, ho⟩ | ⟨hv, hlv, ho⟩
          · rw [free_true hv, free_false hv] at h6
            simp only [Bool.false_eq_true, if_false] at h6
            by_cases hx : d.st.watchOrder b ≤ d.st.dl
            · exact hsb hx
            · rw [if_neg hx] at h6; simp at h6
          · rw [hv] at h6
            simp only [if_true] at h6
            by_cases hx : d.st.watchOrder b ≤ d.st.dl ∧ d.st.watchOrder b < d.st.level a.var
            · exact hsb hx.1
            · rw [if_neg hx] at h6; simp at h6
          · exact hsb (by have := hbest.ab; omega)
      rw [st_comm, set_comm]
      have hreason : ∀ q ∈ (if expl then (Cl.ofLits (a :: b :: rest)).reason true else ((a :: b :: rest).drop 1).map Lit.neg), q = litTrue ∨ ∃ x ∈ b :: rest, q = x.neg := by
        intro q hq
        split at hq
        · exact ofLits_reason h2 q hq
        · obtain ⟨x, hx, e⟩ := List.mem_map.1 hq
          exact Or.inr ⟨x, hx, e.symm⟩
      have hbr : b.neg ∈ (if expl then (Cl.ofLits (a :: b :: rest)).reason true else ((a :: b :: rest).drop 1).map Lit.neg) := by
        split
        · exact ofLits_reason_mem
        · simp
      have hFr : ∀ M, F M → M.all (if expl then (Cl.ofLits (a :: b :: rest)).reason true else ((a :: b :: rest).drop 1).map Lit.neg) → M.sat a := by
        intro M hM hall
        split at hall
        · have e4 := (ofLits_lits h2 hz).2.2.2.1
          have := clause_unit (satC_ofLits h2 hz (hF M hM)) hall
          have e : (Cl.ofLits (a :: b :: rest)).watch (!true) = a := e4
          rw [e] at this; exact this
        · obtain ⟨p, hp, hs⟩ := hF M hM
          rcases List.mem_cons.1 hp with rfl | hp
          · exact hs
          · exact absurd hs ((Asg.sat_neg M p).1 (hall p.neg (List.mem_map.2 ⟨p, by simpa using hp, rfl⟩)))
      generalize (if expl then (Cl.ofLits (a :: b :: rest)).reason true else ((a :: b :: rest).drop 1).map Lit.neg) = r at *
      obtain ⟨i1, i2, i3, i4, i5, i6, i7, i8⟩ := forceAt_new h.inv hc hl hbest hbf hreason hbr hFr
      generalize d.st.forceAt learn a (d.st.level b.var) (some r) = g at *
      refine created_add _ id expl shared lr h2 hid hz ?_ i2 i3 i4 i5
      refine (h.setSt i1 i2).add h2 hid hnd hz hF ?_
      intro a' b' rest' e
      simp only [List.cons.injEq] at e
      obtain ⟨rfl, rfl, rfl⟩ := e
      exact i8
    · rename_i h6
      have hnew : New d.st a b := by
        by_cases ha0 : d.st.watchOrder a = 0
        · exfalso
          apply h6
          have hb0 : d.st.watchOrder b = 0 := by have := hbest.ab; omega
          have : d.st.status (a :: b :: rest).length a b = 10 := by
            unfold St.status; simp [ha0, hb0, umax_val, varMax_val, stEmpty]
          rw [this]; decide
        · rw [status_val hl hn0 haum ha0] at h6
          simp only [h1, forall_const] at h6
          have hnb : d.st.Done b.neg → d.st.isFalse b = true := fun hd => (h.inv.base.isFalse_iff _).2 (Or.inr hd.mem)
          have hna : d.st.Done a.neg → d.st.isFalse a = true := fun hd => (h.inv.base.isFalse_iff _).2 (Or.inr hd.mem)
          rcases hl.order a with ⟨hv, ho⟩ | ⟨hv, hlv, ho⟩ | ⟨hv, hlv, ho⟩
          · rw [free_true hv, free_false hv] at h6
            simp only [Bool.false_eq_true, if_false] at h6
            by_cases hx : d.st.watchOrder b ≤ d.st.dl
            · rw [if_pos hx] at h6; simp at h6
            · refine ⟨fun hd => absurd hv (false_free (hna hd)), fun hd => ?_⟩
              exfalso
              rcases hl.order b with ⟨hv', ho'⟩ | ⟨hv', hlv', ho'⟩ | ⟨hv', hlv', ho'⟩
              · exact false_free (hnb hd) hv'
              · have := hnb hd; rw [true_false hv'] at this; simp at this
              · omega
          · rw [hv] at h6
            simp only [if_true] at h6
            refine ⟨fun hd => by have := hna hd; rw [true_false hv] at this; simp at this, fun hd => ?_⟩
            by_cases hx : d.st.watchOrder b ≤ d.st.dl ∧ d.st.watchOrder b < d.st.level a.var
            · rw [if_pos hx] at h6; simp at h6
            · left; left
              refine ⟨(h.inv.base.isTrue_iff a).1 hv, ?_⟩
              rcases hl.order b with ⟨hv', ho'⟩ | ⟨hv', hlv', ho'⟩ | ⟨hv', hlv', ho'⟩
              · exact absurd hv' (false_free (hnb hd))
              · have := hnb hd; rw [true_false hv'] at this; simp at this
              · by_contra hn; exact hx ⟨by omega, by omega⟩
          · exfalso
            apply h6
            rw [false_true hv, hv]
            simp only [Bool.false_eq_true, if_false, if_true]
            split <;> decide
      have := created_add (learn := learn) (F := F) (d := d) (t := d.st) (a :: b :: rest) id expl shared lr h2 hid hz ?_ (Down.refl _) rfl rfl rfl
      · exact this
      · refine Ok.add (d := d) h h2 hid hnd hz hF ?_
        intro a' b' rest' e
        simp only [List.cons.injEq] at e
        obtain ⟨rfl, rfl, rfl⟩ := e
        exact hnew
  · rename_i h2
    have hFa : ∀ M, F M → M.sat (l.getD 0 litFalse) := by
      intro M hM
      obtain ⟨p, hp, hs⟩ := hF M hM
      match l, h2, hp with
      | [x], _, hp => rw [List.mem_singleton.1 hp] at hs; exact hs
      | _ :: _ :: _, h2, _ => simp at h2
    obtain ⟨i1, i2, i3, i4, i5, i6, i7, i8⟩ := forceAt_unit h.inv hc hFa
    exact ⟨h.setSt i1 i2, i2, i3, i4, i5, Or.inl rfl, fun _ _ => rfl, fun _ _ h => h, fun _ _ _ h => h⟩


theorem Has.sub {P : Nat → Prop} {C D : List Lit} (h : Has P d C) (hs : ∀ p ∈ C, p ∈ D) : Has P d D := by
  rcases h with ⟨i, h1, h2, h3⟩ | ⟨a, ha, b, hb, h⟩ | ⟨a, ha, b, hb, c, hc, h⟩ | ⟨p, hp, h⟩
  · exact Or.inl ⟨i, h1, h2, fun x hx => (h3 x hx).imp id (hs x)⟩
  · exact Or.inr (Or.inl ⟨a, hs a ha, b, hs b hb, h⟩)
  · exact Or.inr (Or.inr (Or.inl ⟨a, hs a ha, b, hs b hb, c, hs c hc, h⟩))
  · exact Or.inr (Or.inr (Or.inr ⟨p, hp.imp (hs p) id, h⟩))

theorem Has.mono {P Q : Nat → Prop} {d' : Db} {C : List Lit} (h : Has P d C) (hd : ∀ p, d.st.D0 ∨ d.st.Fine p 0 → d'.st.D0 ∨ d'.st.Fine p 0)
    (hi : ∀ i ∈ d.ids, P i → Q i ∧ i ∈ d'.ids ∧ ∀ x ∈ (d'.cls i).lits, x ∈ (d.cls i).lits) (g2 : ∀ a b, d.graph.has2 a b → d'.graph.has2 a b)
    (g3 : ∀ a b c, d.graph.has3 a b c → d'.graph.has3 a b c) : Has Q d' C := by
  rcases h with ⟨i, h1, h2, h3⟩ | ⟨a, ha, b, hb, h⟩ | ⟨a, ha, b, hb, c, hc, h⟩ | ⟨p, hp, h⟩
  · obtain ⟨q1, q2, q3⟩ := hi i h1 h2
    exact Or.inl ⟨i, q2, q1, fun x hx => h3 x (q3 x hx)⟩
  · exact Or.inr (Or.inl ⟨a, ha, b, hb, h.1, g2 a b h.2⟩)
  · exact Or.inr (Or.inr (Or.inl ⟨a, ha, b, hb, c, hc, h.1, g3 a b c h.2⟩))
  · exact Or.inr (Or.inr (Or.inr ⟨p, hp, hd p h⟩))

theorem Has.created {P Q : Nat → Prop} {d' : Db} {l C : List Lit} {id : Nat} (hc : Created learn F d d' l id) (h : Has P d C)
    (hpq : ∀ i ∈ d.ids, P i → Q i) : Has Q d' C := by
  refine h.mono hc.down.zero (fun i hi hp => ⟨hpq i hi hp, ?_, fun x hx => by rw [hc.cls i hi] at hx; exact hx⟩) hc.g2 hc.g3
  rcases hc.ids with e | ⟨e, _⟩
  · rw [e]; exact hi
  · rw [e]; exact List.mem_cons_of_mem _ hi

/-- A clause added without flags is in the database. -/
theorem createPrepared_has {P : Nat → Prop} (h : Ok learn F d) (hc : d.st.conflict = []) (hl : d.st.LvOk) {l : List Lit} {id : Nat} {lr implicit : Bool}
    (hP : P id) (hid : id ∉ d.ids) (hnd : l.Nodup) (hz : ∀ p ∈ l, p ≠ litFalse) (hF : ∀ M, F M → M.satC l)
    (hb : ∀ a b rest, l = a :: b :: rest → Best d.st a b rest) :
    Has P (createPrepared learn d l id false lr implicit {}).1 l := by
  have hcr := createPrepared_spec h hc hl (shared := false) (lr := lr) (implicit := implicit) (f := {}) hid hnd hz hF hb
  generalize hd' : (createPrepared learn d l id false lr implicit {}).1 = d' at hcr
  have hget : (l.getD 0 litFalse ∈ l ∨ l.getD 0 litFalse = litFalse) := by cases l <;> simp
  unfold createPrepared at hd'
  dsimp only at hd'
  split at hd'
  · rename_i hig
    subst hd'
    right; right; right
    refine ⟨_, hget, Or.inr ?_⟩
    generalize l.getD 0 litFalse = a at *
    generalize l.getD 1 litFalse = b at *
    have hst : d.st.watchOrder a = umax := by
      by_contra hn
      unfold ignoreClause at hig
      dsimp only at hig
      split at hig
      · simp at hig
      · split at hig
        · simp at hig
        · simp at hig
          unfold St.status at hig
          have : ∀ x ∈ [stEmpty, stOpen, stSat, stUnsat, stEmpty ||| stUnit, stOpen ||| stUnit, stSat ||| stUnit, stUnsat ||| stUnit], x ≠ stSubsumed := by decide
          revert hig
          simp only [imp_false]
          (repeat' split) <;> first | exact absurd (by assumption) (show ¬ (0 = umax) by decide) | exact this _ (by simp)
    have hu := umax_val
    have hvm := varMax_val
    have hdl := hl.dl
    rcases hl.order a with ⟨hv, ho⟩ | ⟨hv, hlv, ho⟩ | ⟨hv, hlv, ho⟩
    · omega
    · exact Or.inl ⟨(h.inv.base.isTrue_iff a).1 hv, by show d.st.level a.var ≤ 0; omega⟩
    · omega
  · split at hd'
    · rename_i h2
      have h2 : 2 ≤ l.length := h2
      have key : ∀ t : St, ∀ expl : Bool, expl = (decide (l.length > 3) || ({} : CFlags).explicit || !implicit) →
          d' = { (if expl then d.attach id (Cl.ofLits l) else d.addShort false lr l) with st := t } → Has P d' l := by
        intro t expl he hd'
        cases expl with
        | true =>
          left
          subst hd'
          refine ⟨id, List.mem_cons_self, hP, fun x hx => ?_⟩
          have : x ∈ (Function.update d.cls id (Cl.ofLits l) id).lits := hx
          rw [Function.update_self] at this
          exact (ofLits_lits h2 hz).2.1 x this
        | false =>
          right
          subst hd'
          have h3 : l.length ≤ 3 := by
            by_contra hn
            rw [decide_eq_true (by omega)] at he; simp at he
          match l, h2, h3, hz, hnd with
          | [a, b], _, _, hz, hnd =>
            left
            exact ⟨a, by simp, b, by simp, ⟨hnd, hz⟩, (Graph.add2_has2 ..).2 (Or.inr ⟨rfl, Or.inl ⟨rfl, rfl⟩⟩)⟩
          | [a, b, c], _, _, hz, hnd =>
            right; left
            exact ⟨a, by simp, b, by simp, c, by simp, ⟨hnd, hz⟩, (Graph.add3_has3 ..).2 (Or.inr ⟨rfl, Or.inl ⟨rfl, Or.inl ⟨rfl, rfl⟩⟩⟩)⟩
      generalize hexx : (decide (l.length > 3) || ({} : CFlags).explicit || !implicit) = expl at *
      split at hd'
      · exact key _ expl rfl hd'.symm
      · exact key _ expl rfl (by rw [← hd'])
    · rename_i h2
      subst hd'
      have hFa : ∀ M, F M → M.sat (l.getD 0 litFalse) := by
        intro M hM
        obtain ⟨p, hp, hs⟩ := hF M hM
        match l, h2, hp with
        | [x], _, hp => rw [List.mem_singleton.1 hp] at hs; exact hs
        | _ :: _ :: _, h2, _ => simp at h2
      obtain ⟨i1, i2, i3, i4, i5, i6, i7, i8⟩ := forceAt_unit h.inv hc hFa
      right; right; right
      exact ⟨_, hget, i8⟩

end Db
end Clasp.Core
