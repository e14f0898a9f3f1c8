/-
The propagation loop keeps the invariant of the clause database and ends in a fixpoint. No code is modelled in this file.
-/
import Verif.Core.Watch
namespace Clasp.Core
open St

namespace Db

/-- The invariant of the clause database without the marks of level 0. -/
structure Ok0 (learn : Bool) (F : Th) (d : Db) : Prop where
  inv : d.st.Inv learn F
  wok : WOk d
  mods : Models F d
  sym : d.graph.Sym
  gmods : d.graph.Models F
  good : Good d
  good23 : Good23 d

theorem Ok.toOk0 {learn : Bool} {F : Th} {d : Db} (h : Ok learn F d) : Ok0 learn F d :=
  ⟨h.inv, h.wok, h.mods, h.sym, h.gmods, h.good, h.good23⟩

/-- taking the next literal from the queue -/
theorem pop_split {s : St} (h : s.front < s.trail.length) : ∃ t1 t2, s.trail = t1 ++ (s.trail.reverse[s.front]?).getD litFalse :: t2 ∧
    t2.length = s.front := by
  have hl : s.front < s.trail.reverse.length := by simpa using h
  obtain ⟨a, b, hab, hlen⟩ : ∃ a b, s.trail.reverse = a ++ s.trail.reverse[s.front] :: b ∧ a.length = s.front :=
    ⟨s.trail.reverse.take s.front, s.trail.reverse.drop (s.front + 1),
      by rw [List.getElem_cons_drop, List.take_append_drop], by simp; omega⟩
  rw [List.getElem?_eq_getElem hl]
  refine ⟨b.reverse, a.reverse, ?_, by simpa using hlen⟩
  have := congrArg List.reverse hab
  rw [List.reverse_reverse] at this
  rw [Option.getD_some]
  simpa using this

theorem Inv.pop {learn : Bool} {F : Th} {s : St} (h : s.Inv learn F) (hf : s.front < s.trail.length) :
    ({ s with front := s.front + 1 } : St).Inv learn F := by
  have hb := h.base
  exact ⟨⟨⟨hb.wf.congr rfl rfl rfl hf hb.wf.rf hb.wf.fd, hb.c0, hb.toff, hb.asg,
      fun t1 p t2 ht hl => hb.qlev t1 p t2 ht (by have hl : s.front + 1 ≤ t2.length := hl; omega)⟩,
    ⟨h.sound.tt, h.sound.reason, h.sound.impl, h.sound.null⟩, h.stop, h.mode, h.dead, h.conf, h.confF, h.confTop, h.m1, h.m2⟩,
    ⟨h.imp.snd, h.imp.nul, h.imp.fr, h.imp.low, h.imp.asg, h.imp.rt, h.imp.lvl⟩⟩

theorem done_pop {s : St} {t1 t2 : List Lit} {p q : Lit} (ht : s.trail = t1 ++ p :: t2) (hl : t2.length = s.front) (hc : s.conflict = [])
    (hd : ({ s with front := s.front + 1 } : St).Done q) : s.Done q ∨ q = p := by
  unfold Done at hd ⊢
  rw [if_pos hc] at hd ⊢
  obtain ⟨u1, u2, hu, hlt⟩ := hd
  have hu : s.trail = u1 ++ q :: u2 := hu
  have hlt : u2.length < s.front + 1 := hlt
  by_cases h : u2.length < s.front
  · exact Or.inl ⟨u1, u2, hu, h⟩
  · right
    rw [ht] at hu
    have h1 : u2.length = t2.length := by omega
    have h2 : (p :: t2).length = (q :: u2).length := by simp [h1]
    have := (List.append_inj' hu h2).2
    exact (List.cons.inj this).1.symm

/-- `GoodX` after more literals were forced. -/
theorem GoodX.mono {d : Db} {t : St} {p : Lit} {l : List Nat} (h : GoodX d p l) (hm : Mono d.st t) : GoodX { d with st := t } p l := by
  intro id hid w hex hd
  obtain ⟨m1, _, m3⟩ := hm _ hd
  have m2 := hm.level hd
  rw [Lit.neg_var] at m2 m3
  show Held t _ _ (t.level _)
  rw [m2]
  exact (h id hid w hex m1).imp (m3 _) (m3 _)

theorem keeps_of_imp {s t : St} (e : Ext s t) (hb : s.Base) (h : t.imp = s.imp) : Keeps s t := fun q k _ _ hq =>
  e.fine hb (fun x hx => by rw [h]; exact hx) hq

/-- short clauses, except those that contain the complement of `p` -/
structure Good23X (d : Db) (p : Lit) : Prop where
  g2 : ∀ a b, d.graph.has2 a b → a.neg ≠ p → d.st.Done a.neg → Held d.st a b (d.st.level a.var)
  g3 : ∀ a b c, d.graph.has3 a b c → a.neg ≠ p → b.neg ≠ p → d.st.Done a.neg → d.st.Done b.neg →
    Held d.st a c (max (d.st.level a.var) (d.st.level b.var)) ∨ d.st.Fine b (max (d.st.level a.var) (d.st.level b.var))

theorem Good23X.mono {d : Db} {t : St} {p : Lit} (h : Good23X d p) (hm : Mono d.st t) : Good23X { d with st := t } p := by
  refine ⟨fun a b hab hp hd => ?_, fun a b c habc hp1 hp2 hd1 hd2 => ?_⟩
  · obtain ⟨m1, _, m3⟩ := hm _ hd
    have m2 := hm.level hd
    rw [Lit.neg_var] at m2 m3
    show Held t _ _ (t.level _)
    rw [m2]
    exact (h.g2 a b hab hp m1).imp (m3 _) (m3 _)
  · obtain ⟨m1, _, m3⟩ := hm _ hd1
    have m2 := hm.level hd1
    obtain ⟨n1, _, n3⟩ := hm _ hd2
    have n2 := hm.level hd2
    rw [Lit.neg_var] at m2 m3 n2 n3
    show Held t _ _ (max (t.level _) (t.level _)) ∨ t.Fine _ (max (t.level _) (t.level _))
    rw [m2, n2]
    have := h.g3 a b c habc hp1 hp2 m1 n1
    rcases Nat.le_total (d.st.level a.var) (d.st.level b.var) with hl | hl
    · rw [Nat.max_eq_right hl] at this ⊢; exact this.imp (fun h => h.imp (n3 _) (n3 _)) (n3 _)
    · rw [Nat.max_eq_left hl] at this ⊢; exact this.imp (fun h => h.imp (m3 _) (m3 _)) (m3 _)

/-- The literals occurring in the clauses and the graph. -/
def Occurs (d : Db) (q : Lit) : Prop := (∃ id ∈ d.ids, q ∈ (d.cls id).lits) ∨ (∃ p i, i ∈ d.graph.items p ∧ (q = i.1 ∨ some q = i.2))

theorem force_trail {learn : Bool} {s : St} (p : Lit) (a : Ante) {q : Lit} (h : q ∈ (s.force learn p a).1.trail) : q ∈ s.trail ∨ q = p := by
  rcases s.value_cases p with hv | hv | hv
  · rw [force_free hv] at h
    rcases List.mem_cons.1 h with h | h
    · exact Or.inr h
    · exact Or.inl h
  · rw [force_true hv] at h; exact Or.inl h
  · rw [force_false hv] at h; exact Or.inl h

theorem propItems_trail {learn : Bool} {p q : Lit} : ∀ (l : List (Lit × Option Lit)) (s : St), q ∈ (Graph.propItems learn s p l).1.trail →
    q ∈ s.trail ∨ ∃ i ∈ l, q = i.1 ∨ some q = i.2 := by
  intro l
  induction l with
  | nil => intro s h; exact Or.inl h
  | cons i r ih =>
    intro s h
    have hv : ∀ q, q ∈ (Graph.visit learn s p i).1.trail → q ∈ s.trail ∨ (q = i.1 ∨ some q = i.2) := by
      intro q h
      obtain ⟨x, y⟩ := i
      cases y with
      | none =>
        unfold Graph.visit Graph.unary at h
        dsimp only at h
        split at h
        · exact Or.inl h
        · rcases force_trail _ _ h with h | h
          · exact Or.inl h
          · exact Or.inr (Or.inl h)
      | some y =>
        unfold Graph.visit Graph.binary at h
        dsimp only at h
        split at h
        · split at h
          · rcases force_trail _ _ h with h | h
            · exact Or.inl h
            · exact Or.inr (Or.inr (by rw [h]))
          · rcases force_trail _ _ h with h | h
            · exact Or.inl h
            · exact Or.inr (Or.inl h)
        · exact Or.inl h
    unfold Graph.propItems at h
    generalize Graph.visit learn s p i = g at *
    obtain ⟨t, ok⟩ := g
    cases ok with
    | false =>
      rcases hv q h with h | h
      · exact Or.inl h
      · exact Or.inr ⟨i, by simp, h⟩
    | true =>
      rcases ih t h with h | ⟨j, hj, h⟩
      · rcases hv q h with h | h
        · exact Or.inl h
        · exact Or.inr ⟨i, by simp, h⟩
      · exact Or.inr ⟨j, List.mem_cons_of_mem _ hj, h⟩

theorem propagate_trail {learn : Bool} {s : St} {c : Cl} {p q : Lit} (h : q ∈ (c.propagate learn s p).st.trail) : q ∈ s.trail ∨ q ∈ c.lits := by
  unfold Cl.propagate at h
  dsimp only at h
  generalize decide (c.h1 = p.neg) = w at h
  have hw : c.watch (!w) ∈ c.lits := by cases w <;> simp [Cl.watch, Cl.lits]
  split at h
  · exact Or.inl h
  · split at h
    · exact Or.inl h
    · split at h
      · exact Or.inl h
      · rcases force_trail _ _ h with h | h
        · exact Or.inl h
        · exact Or.inr (by rw [h]; exact hw)

theorem propagate_lits {learn : Bool} {s : St} {c : Cl} {p q : Lit} (h : q ∈ (c.propagate learn s p).cl.lits) : q ∈ c.lits ∨ q = p.neg := by
  unfold Cl.propagate at h
  dsimp only at h
  generalize decide (c.h1 = p.neg) = w at h
  split at h
  · exact Or.inl h
  · split at h
    · cases w <;> simp [Cl.lits, Cl.setWatch] at h <;> simp [Cl.lits] <;> tauto
    · split at h
      · rename_i c' hc
        exact Or.inl ((Cl.updateWatch_some hc).perm.mem_iff.1 h)
      · exact Or.inl h

theorem propClauses_trail {learn : Bool} {p q : Lit} : ∀ (l kept : List Nat) (d : Db), q ∈ (propClauses learn p l kept d).1.st.trail →
    q ∈ d.st.trail ∨ q = p.neg ∨ ∃ id ∈ l, q ∈ (d.cls id).lits := by
  intro l
  induction l with
  | nil => intro kept d h; exact Or.inl h
  | cons id r ih =>
    intro kept d h
    unfold propClauses at h
    dsimp only at h
    have h1 : ∀ q, q ∈ ((d.cls id).propagate learn d.st p).st.trail → q ∈ d.st.trail ∨ q = p.neg ∨ ∃ id' ∈ id :: r, q ∈ (d.cls id').lits := by
      intro q hq
      rcases propagate_trail hq with h | h
      · exact Or.inl h
      · exact Or.inr (Or.inr ⟨id, by simp, h⟩)
    have h2 : ∀ (d' : Db), d'.cls = Function.update d.cls id ((d.cls id).propagate learn d.st p).cl → 
        (q ∈ d'.st.trail ∨ q = p.neg ∨ ∃ id' ∈ r, q ∈ (d'.cls id').lits) → d'.st = ((d.cls id).propagate learn d.st p).st →
        q ∈ d.st.trail ∨ q = p.neg ∨ ∃ id' ∈ id :: r, q ∈ (d.cls id').lits := by
      intro d' hd' hq hs
      rcases hq with hq | hq | ⟨id', hid', hq⟩
      · rw [hs] at hq; exact h1 q hq
      · exact Or.inr (Or.inl hq)
      · rw [hd'] at hq
        by_cases hx : id' = id
        · subst hx
          rw [Function.update_self] at hq
          rcases propagate_lits hq with h | h
          · exact Or.inr (Or.inr ⟨id', by simp, h⟩)
          · exact Or.inr (Or.inl h)
        · rw [Function.update_of_ne hx] at hq
          exact Or.inr (Or.inr ⟨id', List.mem_cons_of_mem _ hid', hq⟩)
    split at h
    · split at h
      · exact h2 _ rfl (ih _ _ h) rfl
      · exact h2 _ rfl (ih _ _ h) rfl
    · split at h
      · exact h1 q h
      · exact h1 q h

/-- What propagation does to the assignment: the trail grows, nothing that was assigned changes. -/
structure Grow (d d' : Db) : Prop where
  trail : ∃ e, d'.st.trail = e ++ d.st.trail ∧ ∀ q ∈ e, d'.st.level q.var = d.st.dl ∧ d.st.value q.var = none
  lv : d'.st.lv = d.st.lv
  keep : ∀ v, d.st.value v ≠ none → d'.st.value v = d.st.value v ∧ d'.st.level v = d.st.level v ∧ d'.st.reason v = d.st.reason v
  root : d'.st.root = d.st.root
  flip : d'.st.flip = d.st.flip
  mode : d'.st.mode = d.st.mode
  imp : d'.st.imp = d.st.imp
  graph : d'.graph = d.graph
  ids : d'.ids = d.ids
  perm : ∀ id, (d'.cls id).lits.Perm (d.cls id).lits

theorem Grow.refl (d : Db) : Grow d d :=
  ⟨⟨[], rfl, by simp⟩, rfl, fun _ _ => ⟨rfl, rfl, rfl⟩, rfl, rfl, rfl, rfl, rfl, rfl, fun _ => List.Perm.refl _⟩

theorem value_of_mem {s : St} (hb : s.Base) {q : Lit} (h : q ∈ s.trail) : s.value q.var ≠ none := tl_value hb (Or.inr h)

theorem Grow.trans {a b c : Db} (h : Grow a b) (hb : b.st.Base) (h' : Grow b c) : Grow a c := by
  obtain ⟨e, he, hq⟩ := h.trail
  obtain ⟨e', he', hq'⟩ := h'.trail
  have hdl : b.st.dl = a.st.dl := by unfold St.dl; rw [h.lv]
  refine ⟨⟨e' ++ e, by rw [he', he, List.append_assoc], fun q hm => ?_⟩, h'.lv.trans h.lv, fun v hv => ?_, h'.root.trans h.root,
    h'.flip.trans h.flip, h'.mode.trans h.mode, h'.imp.trans h.imp, h'.graph.trans h.graph, h'.ids.trans h.ids,
    fun id => (h'.perm id).trans (h.perm id)⟩
  · rcases List.mem_append.1 hm with hm | hm
    · obtain ⟨h1, h2⟩ := hq' q hm
      refine ⟨h1.trans hdl, ?_⟩
      by_contra hne
      exact absurd (by rw [(h.keep _ hne).1] at h2; exact h2) hne
    · obtain ⟨h1, h2⟩ := hq q hm
      exact ⟨by rw [(h'.keep _ (value_of_mem hb (by rw [he]; simp [hm]))).2.1]; exact h1, h2⟩
  · obtain ⟨k1, k2, k3⟩ := h.keep v hv
    obtain ⟨l1, l2, l3⟩ := h'.keep v (by rw [k1]; exact hv)
    exact ⟨l1.trans k1, l2.trans k2, l3.trans k3⟩

theorem Grow.of_ext {d d' : Db} (e : Ext d.st d'.st) (hi : d'.st.imp = d.st.imp) (hg : d'.graph = d.graph) (hids : d'.ids = d.ids)
    (hp : ∀ id, (d'.cls id).lits.Perm (d.cls id).lits) : Grow d d' := by
  obtain ⟨x, hx, hq⟩ := e.trail
  refine ⟨⟨x, hx, fun q hm => ⟨(hq q hm).1, (hq q hm).2.1⟩⟩, e.lv, fun v hv => ?_, e.root, e.flip, e.mode, hi, hg, hids, hp⟩
  obtain ⟨h1, h2⟩ := e.keep v hv
  exact ⟨by unfold St.value; rw [h1], by unfold St.level; rw [h1], h2⟩

/-- The graph part of a propagation step. -/
theorem graph_step {learn : Bool} {F : Th} {d : Db} {p : Lit} (hi : d.st.Inv learn F) (hs : d.graph.Sym) (hgm : d.graph.Models F)
    (hc : d.st.conflict = []) (hp : p ∈ d.st.trail) (hpl : d.st.level p.var = d.st.dl) (hx : Good23X d p) :
    (d.graph.propagate learn d.st p).1.Inv learn F ∧ Ext d.st (d.graph.propagate learn d.st p).1 ∧
    (d.graph.propagate learn d.st p).1.imp = d.st.imp ∧
    ((d.graph.propagate learn d.st p).2 = true → (d.graph.propagate learn d.st p).1.conflict = []) ∧
    ((d.graph.propagate learn d.st p).2 = false → (d.graph.propagate learn d.st p).1.conflict ≠ []) ∧
    Good23 { d with st := (d.graph.propagate learn d.st p).1 } := by
  have hmod : ∀ i ∈ d.graph.items p, Graph.ItemMod F p i := by
    rintro ⟨x, y⟩ hi
    cases y with
    | none =>
      intro M hM hMp
      have h2 : d.graph.has2 p.neg x := by unfold Graph.has2; rw [Lit.neg_neg]; exact hi
      rcases hgm.m2 _ _ h2 M hM with h | h
      · exact absurd hMp (by rw [Asg.sat_neg] at h; exact h)
      · exact h
    | some y =>
      intro M hM hMp
      have h2 : d.graph.has3 p.neg x y := by unfold Graph.has3; rw [Lit.neg_neg]; exact Or.inl hi
      rcases hgm.m3 _ _ _ h2 M hM with h | h
      · exact absurd hMp (by rw [Asg.sat_neg] at h; exact h)
      · exact h
  obtain ⟨h1, h2, h3, h4, h5⟩ := Graph.propItems_spec (d.graph.items p) d.st hi hc hp hpl hmod
  unfold Graph.propagate
  generalize Graph.propItems learn d.st p (d.graph.items p) = g at *
  obtain ⟨t, ok⟩ := g
  dsimp only at *
  refine ⟨h1, h2, h3, fun h => (h4 h).1, h5, ?_⟩
  have hm : Mono d.st t := (h2.down hi.base h1.base (keeps_of_imp h2 hi.base h3) (.of_imp h3)).mono
  have hx' := hx.mono hm
  have hpt : t.level p.var = t.dl := by rw [h2.level hi.base (Or.inr hp), hpl, h2.dl]
  have hle : ∀ q, t.tl q → t.level q.var ≤ t.level p.var := by
    intro q hq; rw [hpt]; exact h1.base.level_le hq
  have hnd : ok = false → ¬ t.Done p := by
    intro hk hd
    have := (hd.level_le h1.base).2 (h5 hk)
    rw [hpt] at this; omega
  cases ok with
  | false =>
    have hnd := hnd rfl
    refine ⟨fun a b hab hd => ?_, fun a b c habc hd1 hd2 => ?_⟩
    · exact hx'.g2 a b hab (fun e => hnd (by rw [← e]; exact hd)) hd
    · exact hx'.g3 a b c habc (fun e => hnd (by rw [← e]; exact hd1)) (fun e => hnd (by rw [← e]; exact hd2)) hd1 hd2
  | true =>
    obtain ⟨h41, h42⟩ := h4 rfl
    have key : ∀ a b c, d.graph.has3 a b c → a.neg = p → t.Done b.neg → t.tl c := by
      intro a b c habc e hd
      rcases habc with h | h
      · rw [e] at h; exact (h42 _ h).1 hd
      · rw [e] at h; exact (h42 _ h).2 hd
    have hav : ∀ a : Lit, a.neg = p → a.var = p.var := by intro a e; rw [← e, Lit.neg_var]
    refine ⟨fun a b hab hd => ?_, fun a b c habc hd1 hd2 => ?_⟩
    · by_cases e : a.neg = p
      · have hab : (b, none) ∈ d.graph.items a.neg := hab
        rw [e] at hab
        have ht : t.tl b := h42 _ hab
        refine Or.inl (Or.inl ⟨ht, ?_⟩)
        show t.level b.var ≤ t.level a.var
        rw [hav a e]; exact hle b ht
      · exact hx'.g2 a b hab e hd
    · by_cases e : a.neg = p
      · have ht := key a b c habc e hd2
        refine Or.inl (Or.inl (Or.inl ⟨ht, ?_⟩))
        show t.level c.var ≤ max (t.level a.var) (t.level b.var)
        rw [hav a e]; exact Nat.le_trans (hle c ht) (Nat.le_max_left _ _)
      · by_cases e' : b.neg = p
        · have ht := key b a c (hs.s3 _ _ _ habc) e' hd1
          refine Or.inl (Or.inl (Or.inl ⟨ht, ?_⟩))
          show t.level c.var ≤ max (t.level a.var) (t.level b.var)
          rw [hav b e']; exact Nat.le_trans (hle c ht) (Nat.le_max_right _ _)
        · exact hx'.g3 a b c habc e e' hd1 hd2

/-- Changing only marks at level 0. -/
theorem Inv.mark {learn : Bool} {F : Th} {s : St} (h : s.Inv learn F) (h0 : s.dl = 0) (c : Nat → Cell)
    (hv : ∀ v, (c v).val = (s.cell v).val) (hl : ∀ v, (c v).lev = (s.cell v).lev)
    (hf : ∀ v, (s.cell v).val = none → c v = s.cell v) (hz : c 0 = s.cell 0) : ({ s with cell := c } : St).Inv learn F := by
  have hb := h.base
  have hlev : ∀ v, ({ s with cell := c } : St).level v = s.level v := hl
  refine ⟨⟨⟨⟨hb.wf.nodup, fun p hp => (hv _).trans (hb.wf.val p hp), fun v hn => ?_, hb.wf.lvs,
      fun i p hp => (hl _).trans (hb.wf.lev i p hp), hb.wf.front, hb.wf.rf, hb.wf.fd⟩, hz.trans hb.c0, hb.toff,
      fun v hn => hb.asg v (by unfold value at hn ⊢; rw [← hv]; exact hn), fun t1 p t2 ht hlt => (hlev _).trans (hb.qlev t1 p t2 ht hlt)⟩,
    ⟨h.sound.tt, h.sound.reason, fun q hq M hM hp => h.sound.impl q hq M hM (by rw [hlev] at hp; exact hp),
      fun q hq hn hfl => by rw [hlev] at hfl ⊢; exact h.sound.null q hq hn hfl⟩, h.stop, h.mode, h.dead, h.conf, h.confF, ?_, ?_, ?_⟩, ?_⟩
  · have hn : (c v).val = none := hn
    rw [hv] at hn
    show c v = _
    rw [hf v hn, hb.wf.free v hn]
  · intro a b e
    obtain ⟨q, h1, h2, h3⟩ := h.confTop a b e
    exact ⟨q, h1, h2, (hlev _).trans h3⟩
  · intro q hq _
    rw [hlev]
    have := hb.level_le (Or.inr hq)
    omega
  · intro hd
    have hd : 0 < s.dl := hd
    omega
  · exact ⟨fun x hx r hr => ⟨fun q hq => by rw [hlev]; exact (h.imp.snd x hx r hr).1 q hq, (h.imp.snd x hx r hr).2⟩,
      fun x hx hn => by rw [hlev]; exact h.imp.nul x hx hn, h.imp.fr, fun x hx ht => by rw [hlev]; exact h.imp.low x hx ht,
      fun x hx => by rw [hlev]; exact h.imp.asg x hx, fun x hx => by rw [hlev]; exact h.imp.rt x hx,
      fun x hx => by rw [hlev]; exact h.imp.lvl x hx⟩

/-- the state with marks for the variables of level 0 -/
theorem markUnits_spec {learn : Bool} {F : Th} {d : Db} (h : Ok0 learn F d) (h0 : d.st.dl = 0) :
    Ok learn F d.markUnits ∧ Grow d d.markUnits ∧ d.markUnits.st.trail = d.st.trail ∧ d.markUnits.st.front = d.st.front ∧
    d.markUnits.st.conflict = d.st.conflict := by
  have hb := h.inv.base
  have hval : ∀ v, (d.markUnits.st.cell v).val = (d.st.cell v).val := by
    intro v; unfold markUnits; dsimp only; split <;> rfl
  have hlev : ∀ v, (d.markUnits.st.cell v).lev = (d.st.cell v).lev := by
    intro v; unfold markUnits; dsimp only; split <;> rfl
  have hl : ∀ v, d.markUnits.st.level v = d.st.level v := hlev
  have hi : d.markUnits.st.Inv learn F := by
    refine Inv.mark h.inv h0 _ hval hlev (fun v hn => ?_) ?_
    · rw [if_neg]
      intro hm
      have hm : v ∈ d.st.trail.map Lit.var := by simpa using hm
      obtain ⟨q, hq, rfl⟩ := List.mem_map.1 hm
      rw [hb.wf.val q hq] at hn; cases hn
    · rw [if_neg]
      intro hm
      have hm : 0 ∈ d.st.trail.map Lit.var := by simpa using hm
      obtain ⟨q, hq, hq0⟩ := List.mem_map.1 hm
      exact hb.toff q hq hq0
  have hd : ∀ q, d.markUnits.st.Done q ↔ d.st.Done q := by
    intro q; unfold Done; rw [hl]; exact Iff.rfl
  have hfn : ∀ q k, d.markUnits.st.Fine q k ↔ d.st.Fine q k := by
    intro q k; unfold Fine; rw [hl]; exact Iff.rfl
  refine ⟨⟨hi, ⟨h.wok.wat, h.wok.wnd, h.wok.nod, h.wok.nz⟩, h.mods, h.sym, h.gmods, ?_, ?_, ?_⟩,
    ⟨⟨[], rfl, by simp⟩, rfl, fun v _ => ⟨hval v, hlev v, rfl⟩, rfl, rfl, rfl, rfl, rfl, rfl, fun _ => List.Perm.refl _⟩, rfl, rfl, rfl⟩
  · intro id hid w hdn
    unfold Held; rw [hfn, hfn, hl]
    exact h.good id hid w ((hd _).1 hdn)
  · refine ⟨fun a b hab hda => ?_, fun a b c habc hda hdb => ?_⟩
    · unfold Held; rw [hfn, hfn, hl]; exact h.good23.g2 a b hab ((hd _).1 hda)
    · unfold Held; rw [hfn, hfn, hfn, hl, hl]; exact h.good23.g3 a b c habc ((hd _).1 hda) ((hd _).1 hdb)
  · intro _ _ t1 q t2 ht _
    have hm : q.var ∈ d.st.trail.map Lit.var := List.mem_map_of_mem (by
      have ht : d.st.trail = t1 ++ q :: t2 := ht
      rw [ht]; simp)
    show (d.markUnits.st.seen q.var) = true
    unfold seen markUnits
    dsimp only
    rw [if_pos (by simpa using hm)]
    rfl

theorem unit_step {learn : Bool} {fuel : Nat} {d : Db} (hf : d.st.front < d.st.trail.length) (d1 : Db)
    (h1 : d1 = { d with st := { d.st with front := d.st.front + 1 } }) (p : Lit) (hp : p = (d.st.trail.reverse[d.st.front]?).getD litFalse) :
    unitPropagate learn (fuel + 1) d = match d1.graph.propagate learn d1.st p with
      | (s, false) => some ({ d1 with st := s }, false)
      | (s, true) => match propClauses learn p (({ d1 with st := s } : Db).watch p) [] { d1 with st := s } with
        | (d, false) => some (d, false)
        | (d, true) => unitPropagate learn fuel d := by
  subst h1 hp
  rw [unitPropagate, if_pos hf]
  dsimp only
  generalize Graph.propagate _ learn _ _ = g
  obtain ⟨s, k⟩ := g
  cases k <;> rfl

/-- One round of the propagation loop. -/
theorem unit_round {learn : Bool} {F : Th} {d : Db} (hok : Ok0 learn F d) (hc : d.st.conflict = [])
    (hf : d.st.front < d.st.trail.length) : ∃ d2 k, (∀ fuel, unitPropagate learn (fuel + 1) d = bif k then unitPropagate learn fuel d2 else some (d2, false)) ∧
    Ok0 learn F d2 ∧ Grow d d2 ∧ (k = true → d2.st.conflict = [] ∧ d2.st.front = d.st.front + 1) ∧ (k = false → d2.st.conflict ≠ []) ∧
    ∀ q ∈ d2.st.trail, q ∈ d.st.trail ∨ d.Occurs q := by
  have hb := hok.inv.base
  obtain ⟨t1, t2, ht, hlen⟩ := pop_split hf
  obtain ⟨p, hpe⟩ : ∃ p, p = (d.st.trail.reverse[d.st.front]?).getD litFalse := ⟨_, rfl⟩
  have h := fun fuel => unit_step (learn := learn) (fuel := fuel) hf _ rfl p hpe
  rw [← hpe] at ht
  have hpl : d.st.level p.var = d.st.dl := hb.qlev t1 p t2 ht (by omega)
  have hpm : p ∈ d.st.trail := by rw [ht]; simp
  have hi1 : ({ d with st := { d.st with front := d.st.front + 1 } } : Db).st.Inv learn F := Inv.pop hok.inv hf
  have hw1 : WOk { d with st := { d.st with front := d.st.front + 1 } } := ⟨hok.wok.wat, hok.wok.wnd, hok.wok.nod, hok.wok.nz⟩
  have hg1 : GoodX { d with st := { d.st with front := d.st.front + 1 } } p (d.watch p) := by
    intro id hid w hex hd
    rcases done_pop ht hlen hc hd with hd | hd
    · exact hok.good id hid w hd
    · exfalso
      refine hex ⟨by rw [← hd, Lit.neg_neg], (hok.wok.wat p id).2 ⟨hid, ?_⟩⟩
      have e : p = ((d.cls id).watch w).neg := hd.symm
      cases w
      · exact Or.inl e
      · exact Or.inr e
  have hx1 : Good23X { d with st := { d.st with front := d.st.front + 1 } } p := by
    refine ⟨fun a b hab hp hd => ?_, fun a b c habc hp1 hp2 hd1 hd2 => ?_⟩
    · rcases done_pop ht hlen hc hd with hd | hd
      · exact hok.good23.g2 a b hab hd
      · exact absurd hd hp
    · rcases done_pop ht hlen hc hd1 with hd1 | hd1
      · rcases done_pop ht hlen hc hd2 with hd2 | hd2
        · exact hok.good23.g3 a b c habc hd1 hd2
        · exact absurd hd2 hp2
      · exact absurd hd1 hp1
  have hgr1 : Grow d { d with st := { d.st with front := d.st.front + 1 } } :=
    ⟨⟨[], rfl, by simp⟩, rfl, fun v _ => ⟨rfl, rfl, rfl⟩, rfl, rfl, rfl, rfl, rfl, rfl, fun _ => List.Perm.refl _⟩
  have hm1 : Models F { d with st := { d.st with front := d.st.front + 1 } } := hok.mods
  have hs1 : ({ d with st := { d.st with front := d.st.front + 1 } } : Db).graph.Sym := hok.sym
  have hgm1 : ({ d with st := { d.st with front := d.st.front + 1 } } : Db).graph.Models F := hok.gmods
  have hc1 : ({ d with st := { d.st with front := d.st.front + 1 } } : Db).st.conflict = [] := hc
  have hpm1 : p ∈ ({ d with st := { d.st with front := d.st.front + 1 } } : Db).st.trail := hpm
  have hpl1 : ({ d with st := { d.st with front := d.st.front + 1 } } : Db).st.level p.var =
    ({ d with st := { d.st with front := d.st.front + 1 } } : Db).st.dl := hpl
  have hwe : d.watch p = ({ d with st := { d.st with front := d.st.front + 1 } } : Db).watch p := rfl
  rw [hwe] at hg1
  have ht1 : ({ d with st := { d.st with front := d.st.front + 1 } } : Db).st.trail = d.st.trail := rfl
  have hf1 : ({ d with st := { d.st with front := d.st.front + 1 } } : Db).st.front = d.st.front + 1 := rfl
  have ho1 : ∀ q, ({ d with st := { d.st with front := d.st.front + 1 } } : Db).Occurs q → d.Occurs q := fun _ h => h
  generalize ({ d with st := { d.st with front := d.st.front + 1 } } : Db) = d1 at *
  obtain ⟨a1, a2, a3, a4, a5, a6⟩ := graph_step hi1 hs1 hgm1 hc1 hpm1 hpl1 hx1
  have hT1 : ∀ q ∈ (d1.graph.propagate learn d1.st p).1.trail, q ∈ d.st.trail ∨ d.Occurs q := by
    intro q hq
    rcases propItems_trail _ _ hq with hq | ⟨i, hi, hq⟩
    · rw [ht1] at hq; exact Or.inl hq
    · exact Or.inr (ho1 q (Or.inr ⟨p, i, hi, hq⟩))
  generalize d1.graph.propagate learn d1.st p = g at *
  obtain ⟨s, k⟩ := g
  dsimp only at a1 a2 a3 a4 a5 a6 hT1
  have hb1 := hi1.base
  have hmono : Mono d1.st s := (a2.down hb1 a1.base (keeps_of_imp a2 hb1 a3) (.of_imp a3)).mono
  have hg2 : GoodX { d1 with st := s } p (d1.watch p) := hg1.mono hmono
  have hgr2 : Grow d1 { d1 with st := s } := Grow.of_ext a2 a3 rfl rfl (fun _ => List.Perm.refl _)
  have hgr12 := hgr1.trans hb1 hgr2
  have hps : s.level p.var = s.dl := by rw [a2.level hb1 (Or.inr hpm1), a2.dl]; exact hpl1
  have hpsm : p ∈ s.trail := a2.mem (Or.inr hpm1)
  cases k with
  | false =>
    have hcs := a5 rfl
    refine ⟨{ d1 with st := s }, false, h, ⟨a1, ⟨hw1.wat, hw1.wnd, hw1.nod, hw1.nz⟩, hm1, hs1, hgm1, ?_, a6⟩, hgr12, (fun h => by cases h),
      fun _ => hcs, hT1⟩
    intro id hid w hd
    refine hg2 id hid w (fun hx => ?_) hd
    have := (hd.level_le a1.base).2 hcs
    rw [Lit.neg_var] at this
    have e : (d1.cls id).watch w = p.neg := hx.1
    have e2 : (({ d1 with st := s } : Db).cls id).watch w = p.neg := hx.1
    rw [e2, Lit.neg_var] at this
    have hps' : ({ d1 with st := s } : Db).st.level p.var = ({ d1 with st := s } : Db).st.dl := hps
    omega
  | true =>
    have hcs := a4 rfl
    have hw2 : WOk { ({ d1 with st := s } : Db) with watch := Function.update ({ d1 with st := s } : Db).watch p (([] : List Nat).reverse ++ ({ d1 with st := s } : Db).watch p) } := by
      have : Function.update ({ d1 with st := s } : Db).watch p (([] : List Nat).reverse ++ ({ d1 with st := s } : Db).watch p) = d1.watch := by
        funext q; by_cases e : q = p
        · subst e; simp
        · simp [Function.update_of_ne e]
      rw [this]
      exact ⟨hw1.wat, hw1.wnd, hw1.nod, hw1.nz⟩
    obtain ⟨b1, b2, b3, b4⟩ := propClauses_spec p (({ d1 with st := s } : Db).watch p) [] { d1 with st := s } a1 hcs hpsm hps hw2 hg2 hm1
    have hT2 : ∀ q ∈ (propClauses learn p (({ d1 with st := s } : Db).watch p) [] { d1 with st := s }).1.st.trail, q ∈ d.st.trail ∨ d.Occurs q := by
      intro q hq'
      rcases propClauses_trail _ _ _ hq' with hq | hq | ⟨id, hid, hq⟩
      · exact hT1 q hq
      · exfalso
        have h1 := b1.inv.base.wf.val p (b1.ext.mem (Or.inr hpsm))
        have hv := b1.inv.base.wf.val q hq'
        rw [hq, Lit.neg_var, h1] at hv
        cases hs : p.sign <;> simp [Lit.neg, Lit.tv, hs] at hv
      · exact Or.inr (ho1 q (Or.inl ⟨id, ((hw1.wat p id).1 hid).1, hq⟩))
    have h : ∀ fuel, unitPropagate learn (fuel + 1) d = match propClauses learn p (({ d1 with st := s } : Db).watch p) [] { d1 with st := s } with
      | (d, false) => some (d, false)
      | (d, true) => unitPropagate learn fuel d := h
    generalize propClauses learn p (({ d1 with st := s } : Db).watch p) [] { d1 with st := s } = g at *
    obtain ⟨d2, k⟩ := g
    dsimp only at b1 b2 b3 b4 hT2
    have hm2 : Mono s d2.st := (b1.ext.down a1.base b1.inv.base (keeps_of_imp b1.ext a1.base b1.imp) (.of_imp b1.imp)).mono
    have hgr3 : Grow { d1 with st := s } d2 := Grow.of_ext b1.ext b1.imp b1.graph b1.ids b1.perm
    have hgr := hgr12.trans a1.base hgr3
    have h23 : Good23 d2 := by
      have := a6.mono (t := d2.st) hm2
      have hge : d2.graph = d1.graph := b1.graph
      exact ⟨fun a b hab => this.g2 a b (by rw [hge] at hab; exact hab), fun a b c habc => this.g3 a b c (by rw [hge] at habc; exact habc)⟩
    have hge : d2.graph = d1.graph := b1.graph
    have hok2 : Ok0 learn F d2 := ⟨b1.inv, b1.wok, b1.mods, by rw [hge]; exact hs1, by rw [hge]; exact hgm1, b2, h23⟩
    refine ⟨d2, k, ?_, hok2, hgr, fun hk => ⟨b3 hk, ?_⟩, b4, hT2⟩
    · intro fuel; rw [h fuel]; cases k <;> rfl
    · rw [b1.ext.front]; show s.front = _; rw [a2.front, hf1]

theorem unitPropagate_spec {learn : Bool} {F : Th} : ∀ (fuel : Nat) (d d' : Db) (ok : Bool), Ok0 learn F d → d.st.conflict = [] →
    unitPropagate learn fuel d = some (d', ok) → Ok learn F d' ∧ Grow d d' ∧
    (ok = true → d'.st.conflict = [] ∧ d'.st.front = d'.st.trail.length) ∧ (ok = false → d'.st.conflict ≠ []) := by
  intro fuel
  induction fuel with
  | zero => intro d d' ok _ _ h; simp [unitPropagate] at h
  | succ fuel ih =>
    intro d d' ok hok hc h
    have hb := hok.inv.base
    by_cases hf : d.st.front < d.st.trail.length
    · obtain ⟨d2, k, h1, h2, h3, h4, h5, _⟩ := unit_round hok hc hf
      rw [h1] at h
      cases k with
      | false =>
        simp only [cond_false, Option.some.injEq, Prod.mk.injEq] at h
        obtain ⟨e1, e2⟩ := h
        subst e1 e2
        have hcs := h5 rfl
        exact ⟨⟨h2.inv, h2.wok, h2.mods, h2.sym, h2.gmods, h2.good, h2.good23, fun _ hc => absurd hc hcs⟩, h3, (fun h => by cases h), fun _ => hcs⟩
      | true =>
        obtain ⟨c1, c2, c3, c4⟩ := ih d2 d' ok h2 (h4 rfl).1 h
        exact ⟨c1, h3.trans h2.inv.base c2, c3, c4⟩
    · rw [unitPropagate, if_neg hf] at h
      have hfe : d.st.front = d.st.trail.length := by have := hb.wf.front; omega
      simp only [Option.some.injEq, Prod.mk.injEq] at h
      obtain ⟨h1, h2⟩ := h
      subst h2
      by_cases h0 : d.st.dl = 0
      · rw [if_pos h0] at h1
        obtain ⟨m1, m2, m3, m4, m5⟩ := markUnits_spec hok h0
        subst h1
        exact ⟨m1, m2, fun _ => ⟨m5.trans hc, by rw [m4, m3]; exact hfe⟩, fun h => by cases h⟩
      · rw [if_neg h0] at h1
        subst h1
        exact ⟨⟨hok.inv, hok.wok, hok.mods, hok.sym, hok.gmods, hok.good, hok.good23, fun h => absurd h h0⟩, Grow.refl _,
          fun _ => ⟨hc, hfe⟩, fun h => by cases h⟩

/-- the variables of the clauses and of the trail are at most `n` -/
structure Bounded (n : Nat) (d : Db) : Prop where
  trail : ∀ q ∈ d.st.trail, q.var ≤ n
  cls : ∀ id ∈ d.ids, ∀ q ∈ (d.cls id).lits, q.var ≤ n
  graph : ∀ p i, i ∈ d.graph.items p → i.1.var ≤ n ∧ ∀ y, i.2 = some y → y.var ≤ n

theorem trail_le {s : St} (hb : s.Base) {n : Nat} (h : ∀ q ∈ s.trail, q.var ≤ n) : s.trail.length ≤ n := by
  have h1 : (s.trail.map Lit.var).length ≤ (List.range' 1 n).length := by
    refine hb.wf.nodup.length_le_of_subset ?_
    intro v hv
    obtain ⟨q, hq, rfl⟩ := List.mem_map.1 hv
    have h0 := hb.toff q hq
    have hn := h q hq
    rw [List.mem_range'_1]; omega
  simpa using h1

theorem unitPropagate_isSome {learn : Bool} {F : Th} {n : Nat} : ∀ (fuel : Nat) (d : Db), Ok0 learn F d → d.st.conflict = [] →
    Bounded n d → n < fuel + d.st.front → (unitPropagate learn fuel d).isSome := by
  intro fuel
  induction fuel with
  | zero =>
    intro d hok hc hbd hn
    have := trail_le hok.inv.base hbd.trail
    have := hok.inv.base.wf.front
    omega
  | succ fuel ih =>
    intro d hok hc hbd hn
    by_cases hf : d.st.front < d.st.trail.length
    · obtain ⟨d2, k, h1, h2, h3, h4, _, h6⟩ := unit_round hok hc hf
      rw [h1]
      cases k with
      | false => rfl
      | true =>
        obtain ⟨h41, h42⟩ := h4 rfl
        refine ih d2 h2 h41 ⟨fun q hq => ?_, fun id hid q hq => ?_, ?_⟩ (by omega)
        · rcases h6 q hq with hq | hq
          · exact hbd.trail q hq
          · rcases hq with ⟨id, hid, hq⟩ | ⟨p, i, hi, hq⟩
            · exact hbd.cls id hid q hq
            · rcases hq with hq | hq
              · rw [hq]; exact (hbd.graph p i hi).1
              · exact (hbd.graph p i hi).2 q hq.symm
        · rw [h3.ids] at hid
          exact hbd.cls id hid q ((h3.perm id).mem_iff.1 hq)
        · rw [h3.graph]; exact hbd.graph
    · rw [unitPropagate, if_neg hf]; rfl

end Db
end Clasp.Core
