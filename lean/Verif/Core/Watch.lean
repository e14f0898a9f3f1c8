/-
Invariant of the watch lists and of the short implication graph, and its preservation by unit propagation. No code is
modelled in this file.
-/
import Verif.Core.StateBack
import Mathlib.Data.List.Perm.Basic
import Mathlib.Data.List.Nodup
namespace Clasp.Core
open St

/-! ### One clause -/
namespace Cl

theorem scan_some {s : St} {l : List Lit} {k : Nat} (h : scan s l = some k) : ∃ hk : k < l.length, s.isFalse l[k] = false := by
  unfold scan at h
  rw [List.findIdx?_eq_some_iff_getElem] at h
  obtain ⟨hk, h1, _⟩ := h
  exact ⟨hk, by simpa using h1⟩

theorem scan_none {s : St} {l : List Lit} (h : scan s l = none) : ∀ q ∈ l, s.isFalse q = true := by
  unfold scan at h
  rw [List.findIdx?_eq_none_iff] at h
  intro q hq
  have := h q hq
  simpa using this

theorem perm_set {α} (a : α) (l : List α) {i : Nat} (hi : i < l.length) : (l[i] :: l.set i a).Perm (a :: l) := by
  induction l generalizing i with
  | nil => simp at hi
  | cons b l ih =>
    cases i with
    | zero => exact List.Perm.swap _ _ _
    | succ i =>
      simp only [List.getElem_cons_succ, List.set_cons_succ]
      have := ih (i := i) (by simpa using hi)
      exact (List.Perm.swap _ _ _).trans ((this.cons _).trans (List.Perm.swap _ _ _))

/-- Result of a successful search for another watch. -/
structure Moved (s : St) (c c' : Cl) (w : Bool) : Prop where
  perm : c'.lits.Perm c.lits
  other : c'.watch (!w) = c.watch (!w)
  free : s.isFalse (c'.watch w) = false
  rest : c'.watch w ∈ c.h2 :: c.tail

theorem moved_swap {s : St} {c : Cl} {w : Bool} {i idx : Nat} (hi : i < c.tail.length) (hf : s.isFalse c.tail[i] = false) :
    Moved s c { c.setWatch w (c.tail.getD i litFalse) with tail := c.tail.set i (c.watch w), idx := idx } w := by
  have hg : c.tail.getD i litFalse = c.tail[i] := by simp [List.getD, hi]
  rw [hg]
  cases w with
  | false =>
    refine ⟨?_, rfl, hf, by simp [watch, setWatch]⟩
    show (c.tail[i] :: c.h1 :: c.h2 :: c.tail.set i c.h0).Perm (c.h0 :: c.h1 :: c.h2 :: c.tail)
    have := perm_set c.h0 c.tail hi
    calc (c.tail[i] :: c.h1 :: c.h2 :: c.tail.set i c.h0).Perm (c.h1 :: c.h2 :: c.tail[i] :: c.tail.set i c.h0) :=
          (List.Perm.swap _ _ _).trans ((List.Perm.swap _ _ _).cons _)
      _ |>.Perm (c.h1 :: c.h2 :: c.h0 :: c.tail) := (this.cons _).cons _
      _ |>.Perm (c.h0 :: c.h1 :: c.h2 :: c.tail) := ((List.Perm.swap _ _ _).cons _).trans (List.Perm.swap _ _ _)
  | true =>
    refine ⟨?_, rfl, hf, by simp [watch, setWatch]⟩
    show (c.h0 :: c.tail[i] :: c.h2 :: c.tail.set i c.h1).Perm (c.h0 :: c.h1 :: c.h2 :: c.tail)
    refine List.Perm.cons _ ?_
    have := perm_set c.h1 c.tail hi
    exact (List.Perm.swap _ _ _).trans ((this.cons _).trans (List.Perm.swap _ _ _))

theorem updateWatch_some {s : St} {c c' : Cl} {w : Bool} (h : c.updateWatch s w = some c') : Moved s c c' w := by
  unfold updateWatch at h
  dsimp only at h
  split at h
  · split at h
    · rename_i k hk
      obtain ⟨h1, h2⟩ := scan_some hk
      cases h
      rw [List.length_drop] at h1
      rw [List.getElem_drop] at h2
      exact moved_swap (by omega) h2
    · split at h
      · rename_i k hk
        obtain ⟨h1, h2⟩ := scan_some hk
        cases h
        rw [List.length_take] at h1
        rw [List.getElem_take] at h2
        exact moved_swap (by omega) h2
      · simp at h
  · split at h
    · rename_i k hk
      obtain ⟨h1, h2⟩ := scan_some hk
      cases h
      exact moved_swap h1 h2
    · simp at h

theorem updateWatch_none {s : St} {c : Cl} {w : Bool} (h : c.updateWatch s w = none) : ∀ q ∈ c.tail, s.isFalse q = true := by
  unfold updateWatch at h
  dsimp only at h
  split at h
  · split at h
    · simp at h
    · rename_i hd
      split at h
      · simp at h
      · rename_i ht
        intro q hq
        rw [← List.take_append_drop c.idx c.tail] at hq
        rcases List.mem_append.1 hq with hq | hq
        · exact scan_none ht q hq
        · exact scan_none hd q hq
  · split at h
    · simp at h
    · rename_i ht
      exact scan_none ht

/-- The three outcomes of `ClauseHead::propagate`. -/
theorem propagate_cases (learn : Bool) (s : St) (c : Cl) (p : Lit) (w : Bool) (hw : w = decide (c.h1 = p.neg)) (hp : c.watch w = p.neg) :
    (c.propagate learn s p = ⟨c, s, true, true⟩ ∧ s.isTrue (c.watch !w) = true) ∨
    (∃ c', c.propagate learn s p = ⟨c', s, true, false⟩ ∧ Moved s c c' w) ∨
    (c.propagate learn s p = ⟨c, (s.force learn (c.watch !w) (some (c.reason w))).1, (s.force learn (c.watch !w) (some (c.reason w))).2, true⟩ ∧
      s.isTrue (c.watch !w) = false ∧ ∀ q ∈ c.h2 :: c.tail, s.isFalse q = true) := by
  unfold propagate
  dsimp only
  rw [← hw]
  by_cases h1 : s.isTrue (c.watch !w) = true
  · rw [if_pos h1]; exact Or.inl ⟨rfl, h1⟩
  · rw [if_neg h1]
    by_cases h2 : s.isFalse c.h2 = true
    · rw [if_neg (by simp [h2])]
      cases hu : c.updateWatch s w with
      | some c' => exact Or.inr (Or.inl ⟨c', rfl, updateWatch_some hu⟩)
      | none =>
        refine Or.inr (Or.inr ⟨rfl, by simpa using h1, ?_⟩)
        intro q hq
        rcases List.mem_cons.1 hq with rfl | hq
        · exact h2
        · exact updateWatch_none hu q hq
    · rw [if_pos (by simpa using h2)]
      refine Or.inr (Or.inl ⟨_, rfl, ?_⟩)
      cases w with
      | false =>
        have hp : c.h0 = p.neg := hp
        refine ⟨?_, rfl, by simpa [watch, setWatch] using h2, by simp [watch, setWatch]⟩
        show (c.h2 :: c.h1 :: p.neg :: c.tail).Perm (c.h0 :: c.h1 :: c.h2 :: c.tail)
        rw [hp]
        exact (List.Perm.swap _ _ _).trans (((List.Perm.swap _ _ _).cons _).trans (List.Perm.swap _ _ _))
      | true =>
        have hp : c.h1 = p.neg := hp
        refine ⟨?_, rfl, by simpa [watch, setWatch] using h2, by simp [watch, setWatch]⟩
        show (c.h0 :: c.h2 :: p.neg :: c.tail).Perm (c.h0 :: c.h1 :: c.h2 :: c.tail)
        rw [hp]
        exact (List.Perm.swap _ _ _).cons _

theorem watch_cases (c : Cl) (w : Bool) (q : Lit) : (q = c.h0.neg ∨ q = c.h1.neg) ↔ (q = (c.watch w).neg ∨ q = (c.watch !w).neg) := by
  cases w <;> simp [watch]
  tauto

theorem lits_watch (c : Cl) (w : Bool) : c.lits.Perm (c.watch w :: c.watch (!w) :: c.h2 :: c.tail) := by
  cases w
  · exact List.Perm.refl _
  · exact List.Perm.swap _ _ _

end Cl

/-! ### Watch lists -/
namespace Db

/-- The watch lists hold exactly the clauses watching the complement; watched literals are proper and distinct. -/
structure WOk (d : Db) : Prop where
  wat : ∀ p id, id ∈ d.watch p ↔ id ∈ d.ids ∧ (p = (d.cls id).h0.neg ∨ p = (d.cls id).h1.neg)
  wnd : ∀ p, (d.watch p).Nodup
  nod : ∀ id ∈ d.ids, ((d.cls id).lits.filter (· ≠ litFalse)).Nodup
  nz : ∀ id ∈ d.ids, ∀ w, (d.cls id).watch w ≠ litFalse

/-- `b` holds on level `k`, or `a` does although it is false: this is the case after a clause with a literal that is implied
on a lower level was added; the conflict is solved by going back further. -/
def Held (s : St) (a b : Lit) (k : Nat) : Prop := s.Fine b k ∨ s.Fine a k

/-- Watches that were falsified and processed have a true partner of a lower level, except for clauses in `r` that watch
the complement of `p`. -/
def GoodX (d : Db) (p : Lit) (r : List Nat) : Prop := ∀ id ∈ d.ids, ∀ w, ¬ ((d.cls id).watch w = p.neg ∧ id ∈ r) →
  d.st.Done ((d.cls id).watch w).neg → Held d.st ((d.cls id).watch w) ((d.cls id).watch !w) (d.st.level ((d.cls id).watch w).var)

def Good (d : Db) : Prop := ∀ id ∈ d.ids, ∀ w,
  d.st.Done ((d.cls id).watch w).neg → Held d.st ((d.cls id).watch w) ((d.cls id).watch !w) (d.st.level ((d.cls id).watch w).var)

/-- The models `F` satisfy the clauses. -/
def Models (F : Th) (d : Db) : Prop := ∀ id ∈ d.ids, ∀ M, F M → M.satC (d.cls id).lits

theorem distinct {c : Cl} (h : (c.lits.filter (· ≠ litFalse)).Nodup) (w : Bool) (hz : c.watch w ≠ litFalse) (hz' : c.watch (!w) ≠ litFalse) :
    c.watch w ≠ c.watch (!w) ∧ ∀ x ∈ c.h2 :: c.tail, x ≠ litFalse → x ≠ c.watch w ∧ x ≠ c.watch (!w) := by
  have hp := (c.lits_watch w).filter (· ≠ litFalse)
  rw [hp.nodup_iff, List.filter_cons_of_pos (by simpa using hz), List.filter_cons_of_pos (by simpa using hz')] at h
  obtain ⟨h1, h2⟩ := List.nodup_cons.1 h
  obtain ⟨h3, _⟩ := List.nodup_cons.1 h2
  refine ⟨fun e => h1 (by rw [e]; simp), fun x hx hxf => ⟨fun e => h1 ?_, fun e => h3 ?_⟩⟩
  · rw [← e]; exact List.mem_cons_of_mem _ (List.mem_filter.2 ⟨hx, by simpa using hxf⟩)
  · rw [← e]; exact List.mem_filter.2 ⟨hx, by simpa using hxf⟩

theorem not_false_ne {s : St} (hb : s.Base) {x : Lit} (h : s.isFalse x = false) : x ≠ litFalse := by
  intro e
  have : s.isFalse litFalse = true := (hb.isFalse_iff _).2 (Or.inl rfl)
  rw [e, this] at h; simp at h

/-- Moving a watch keeps the watch lists consistent. -/
theorem WOk.move {d : Db} {p : Lit} {a b : List Nat} {id : Nat} {c' : Cl} {w : Bool} {s' : St} (hb : d.st.Base)
    (h : WOk { d with watch := Function.update d.watch p (a ++ id :: b) }) (hp : d.st.isFalse p.neg = true)
    (hw : (d.cls id).watch w = p.neg) (hid : id ∈ d.ids) (m : Cl.Moved d.st (d.cls id) c' w) :
    WOk ⟨s', d.graph, Function.update d.cls id c',
      Function.update (Function.update d.watch (c'.watch w).neg (d.watch (c'.watch w).neg ++ [id])) p (a ++ b), d.ids⟩ := by
  set c := d.cls id with hc
  have hnz := h.nz id hid
  have hnod := h.nod id hid
  have hxf := not_false_ne hb m.free
  have hz1 : c.watch w ≠ litFalse := hnz w
  have hz2 : c.watch (!w) ≠ litFalse := hnz (!w)
  obtain ⟨e1, e2⟩ := distinct hnod w hz1 hz2
  obtain ⟨e3, e4⟩ := e2 _ m.rest hxf
  have hpx : (c'.watch w).neg ≠ p := by
    intro e
    rw [hw] at e3
    exact e3 (by rw [← e, Lit.neg_neg])
  have hwat := h.wat
  have hwp := hwat p
  simp only [Function.update_self] at hwp
  have hwq : ∀ q, q ≠ p → ∀ id', id' ∈ d.watch q ↔ id' ∈ d.ids ∧ (q = (d.cls id').h0.neg ∨ q = (d.cls id').h1.neg) := fun q hq id' => by
    have := hwat q id'
    simpa only [Function.update_of_ne hq] using this
  have hndp : (a ++ id :: b).Nodup := by have := h.wnd p; simpa only [Function.update_self] using this
  have hndq : ∀ q, q ≠ p → (d.watch q).Nodup := fun q hq => by
    have := h.wnd q; simpa only [Function.update_of_ne hq] using this
  have hidab : id ∉ a ++ b := (List.nodup_middle.1 hndp |> List.nodup_cons.1).1
  have hcw : ∀ q, (q = c.h0.neg ∨ q = c.h1.neg) ↔ (q = p ∨ q = (c.watch !w).neg) := fun q => by
    rw [c.watch_cases w, hw, Lit.neg_neg]
  have hcw' : ∀ q, (q = c'.h0.neg ∨ q = c'.h1.neg) ↔ (q = (c'.watch w).neg ∨ q = (c.watch !w).neg) := fun q => by
    rw [c'.watch_cases w, m.other]
  have hpo : (c.watch !w).neg ≠ p := by
    intro e
    rw [hw] at e1
    exact e1 (by rw [← e, Lit.neg_neg])
  have hidx : id ∉ d.watch (c'.watch w).neg := by
    rw [hwq _ hpx]
    intro hn
    have := (hcw _).1 hn.2
    rcases this with h1 | h1
    · exact hpx h1
    · have := congrArg Lit.neg h1
      rw [Lit.neg_neg, Lit.neg_neg] at this
      exact e4 this
  refine ⟨?_, ?_, ?_, ?_⟩
  · intro q id'
    show id' ∈ Function.update (Function.update d.watch _ _) p _ q ↔ id' ∈ d.ids ∧ (q = (Function.update d.cls id c' id').h0.neg ∨ q = (Function.update d.cls id c' id').h1.neg)
    by_cases hi : id' = id
    · subst hi
      rw [Function.update_self, hcw' q]
      by_cases hq : q = p
      · subst hq
        rw [Function.update_self]
        refine ⟨fun hn => absurd hn hidab, fun hn => ?_⟩
        rcases hn.2 with h1 | h1
        · exact absurd h1.symm hpx
        · exact absurd h1.symm hpo
      · rw [Function.update_of_ne hq]
        by_cases hqx : q = (c'.watch w).neg
        · subst hqx
          rw [Function.update_self]
          simp [hid]
        · rw [Function.update_of_ne hqx, hwq q hq, hcw q]
          simp [hq, hqx, hid]
    · rw [Function.update_of_ne hi]
      by_cases hq : q = p
      · subst hq
        rw [Function.update_self, ← hwp id']
        simp only [List.mem_append, List.mem_cons]
        tauto
      · rw [Function.update_of_ne hq]
        by_cases hqx : q = (c'.watch w).neg
        · subst hqx
          rw [Function.update_self, ← hwq _ hq]
          simp only [List.mem_append, List.mem_singleton]
          tauto
        · rw [Function.update_of_ne hqx, hwq q hq]
  · intro q
    show (Function.update (Function.update d.watch _ _) p _ q).Nodup
    by_cases hq : q = p
    · subst hq
      rw [Function.update_self]
      exact (List.nodup_cons.1 (List.nodup_middle.1 hndp)).2
    · rw [Function.update_of_ne hq]
      by_cases hqx : q = (c'.watch w).neg
      · subst hqx
        rw [Function.update_self, List.nodup_append]
        exact ⟨hndq _ hq, by simp, fun x hx y hy e => hidx (by rw [List.mem_singleton] at hy; rw [← hy, ← e]; exact hx)⟩
      · rw [Function.update_of_ne hqx]; exact hndq q hq
  · intro id' hid'
    show ((Function.update d.cls id c' id').lits.filter _).Nodup
    by_cases hi : id' = id
    · subst hi
      rw [Function.update_self, (m.perm.filter _).nodup_iff]; exact hnod
    · rw [Function.update_of_ne hi]; exact h.nod id' hid'
  · intro id' hid' w'
    show (Function.update d.cls id c' id').watch w' ≠ litFalse
    by_cases hi : id' = id
    · subst hi
      rw [Function.update_self]
      by_cases hww : w' = w
      · rw [hww]; exact hxf
      · have : w' = !w := by cases w <;> cases w' <;> simp_all
        rw [this, m.other]; exact hz2
    · rw [Function.update_of_ne hi]; exact h.nz id' hid' w'

theorem not_fine {learn : Bool} {F : Th} {s : St} (h : s.Inv learn F) (hc : s.conflict = []) {q : Lit} (hq : s.isFalse q = true) (k : Nat) :
    ¬ s.Fine q k := by
  have hb := h.base
  have hn : ¬ s.tl q := fun ht => hb.not_both ht ((hb.isFalse_iff q).1 hq)
  rintro (h1 | ⟨x, h1, h2, h3⟩)
  · exact hn h1.1
  · rcases h.imp.asg x h1 with h4 | h4
    · rw [h2] at h4; exact hn h4.1
    · exact h4.1 hc

theorem clause_unit {M : Asg} {c : Cl} {w : Bool} (h : M.satC c.lits) (hr : M.all (c.reason w)) : M.sat (c.watch !w) := by
  obtain ⟨q, hq, hs⟩ := h
  rw [(c.lits_watch w).mem_iff] at hq
  simp only [List.mem_cons] at hq
  have hn : ∀ x : Lit, x.neg ∈ c.reason w → ¬ M.sat x := fun x hx => (Asg.sat_neg M x).1 (hr _ hx)
  rcases hq with rfl | rfl | rfl | hq
  · exact absurd hs (hn _ (by simp [Cl.reason]))
  · exact hs
  · exact absurd hs (hn _ (by simp [Cl.reason]))
  · exact absurd hs (hn _ (by simp only [Cl.reason, List.mem_cons, List.mem_map]; exact Or.inr (Or.inr ⟨q, hq, rfl⟩)))

/-- What the propagation of one literal (or more) does to the state. -/
structure Prog (learn : Bool) (F : Th) (d d' : Db) : Prop where
  inv : d'.st.Inv learn F
  wok : WOk d'
  mods : Models F d'
  ext : Ext d.st d'.st
  imp : d'.st.imp = d.st.imp
  graph : d'.graph = d.graph
  ids : d'.ids = d.ids
  perm : ∀ id, (d'.cls id).lits.Perm (d.cls id).lits

theorem propClauses_spec {learn : Bool} {F : Th} (p : Lit) : ∀ (l kept : List Nat) (d : Db), d.st.Inv learn F → d.st.conflict = [] →
    p ∈ d.st.trail → d.st.level p.var = d.st.dl → WOk { d with watch := Function.update d.watch p (kept.reverse ++ l) } →
    GoodX d p l → Models F d →
    Prog learn F d (propClauses learn p l kept d).1 ∧ Good (propClauses learn p l kept d).1 ∧
    ((propClauses learn p l kept d).2 = true → (propClauses learn p l kept d).1.st.conflict = []) ∧
    ((propClauses learn p l kept d).2 = false → (propClauses learn p l kept d).1.st.conflict ≠ []) := by
  intro l
  induction l with
  | nil =>
    intro kept d hi hc hp hpl hw hg hm
    rw [List.append_nil] at hw
    refine ⟨⟨hi, hw, hm, Ext.refl _, rfl, rfl, rfl, fun _ => List.Perm.refl _⟩, ?_, fun _ => hc, fun hn => by simp [propClauses] at hn⟩
    intro id hid w hd
    exact hg id hid w (by simp) hd
  | cons id r ih =>
    intro kept d hi hc hp hpl hw hg hm
    have hb := hi.base
    have hmem : id ∈ d.ids ∧ (p = (d.cls id).h0.neg ∨ p = (d.cls id).h1.neg) := by
      have := (hw.wat p id).1 (by show id ∈ Function.update d.watch p _ p; rw [Function.update_self]; simp)
      exact this
    obtain ⟨hid, hpw⟩ := hmem
    have hpf : d.st.isFalse p.neg = true := by rw [hb.isFalse_iff, Lit.neg_neg]; exact Or.inr hp
    unfold propClauses
    dsimp only
    generalize hwd : decide ((d.cls id).h1 = p.neg) = w
    have hwp : (d.cls id).watch w = p.neg := by
      subst hwd
      by_cases h : (d.cls id).h1 = p.neg
      · simp [Cl.watch, h]
      · rcases hpw with h1 | h1
        · simp [Cl.watch, h]; rw [h1, Lit.neg_neg]
        · exact absurd (by rw [h1, Lit.neg_neg]) h
    obtain ⟨e1, e2⟩ := distinct (hw.nod id hid) w (hw.nz id hid w) (hw.nz id hid (!w))
    have e1 : (d.cls id).watch w ≠ (d.cls id).watch (!w) := e1
    have hww : ∀ w', (d.cls id).watch w' = p.neg → w' = w := by
      intro w' hw'
      by_contra hn
      have : w' = !w := by cases w <;> cases w' <;> simp_all
      rw [this] at hw'
      exact e1 (hwp.trans hw'.symm)
    have hplv : d.st.level ((d.cls id).watch w).var = d.st.dl := by rw [hwp]; exact hpl
    -- the other watch was not processed before
    have hother : ¬ d.st.Done ((d.cls id).watch !w).neg := by
      intro hd
      have := hg id hid (!w) (fun h => e1 (by rw [h.1]; exact hwp)) hd
      rw [Bool.not_not, hwp] at this
      rcases this with this | this
      · exact not_fine hi hc hpf _ this
      · exact not_fine hi hc ((hb.isFalse_iff _).2 (Or.inr hd.mem)) _ this
    have eqd : ({ d with watch := Function.update d.watch p (kept.reverse ++ id :: r) } : Db) =
        ⟨d.st, d.graph, d.cls, Function.update d.watch p (kept.reverse ++ id :: r), d.ids⟩ := rfl
    have hupd : Function.update d.cls id (d.cls id) = d.cls := Function.update_eq_self _ _
    rcases Cl.propagate_cases learn d.st (d.cls id) p w hwd.symm hwp with ⟨h1, h2⟩ | ⟨c', h1, h2⟩ | ⟨h1, h2, h3⟩
    · -- satisfied by the other watch
      rw [h1]
      simp only [if_true]
      have := ih (id :: kept) d hi hc hp hpl (by rw [List.reverse_cons, List.append_assoc]; exact hw) ?_ hm
      · rw [hupd]; exact this
      · intro id' hid' w' hex hd
        by_cases hx : id' = id ∧ w' = w
        · obtain ⟨rfl, rfl⟩ := hx
          have := (hb.isTrue_iff _).1 h2
          exact Or.inl (Or.inl ⟨this, by rw [hplv]; exact hb.level_le this⟩)
        · refine hg id' hid' w' (fun hn => ?_) hd
          rcases List.mem_cons.1 hn.2 with h3 | h3
          · subst h3; exact hx ⟨rfl, hww w' hn.1⟩
          · exact hex ⟨hn.1, h3⟩
    · -- another watch was found
      rw [h1]
      simp only [if_true, Bool.false_eq_true, if_false]
      have hmv := WOk.move (s' := d.st) hb hw hpf hwp hid h2
      have := ih kept (({ d with st := d.st, cls := Function.update d.cls id c' } : Db).addWatch (c'.watch w).neg id) hi hc hp hpl hmv ?_ ?_
      · obtain ⟨i1, i2, i3, i4⟩ := this
        refine ⟨⟨i1.inv, i1.wok, i1.mods, i1.ext, i1.imp, i1.graph, i1.ids, fun id' => ?_⟩, i2, i3, i4⟩
        refine (i1.perm id').trans ?_
        show (Function.update d.cls id c' id').lits.Perm _
        by_cases hx : id' = id
        · subst hx; rw [Function.update_self]; exact h2.perm
        · rw [Function.update_of_ne hx]
      · intro id' hid' w' hex hd
        replace hid' : id' ∈ d.ids := hid'
        show Held d.st ((Function.update d.cls id c' id').watch w') ((Function.update d.cls id c' id').watch !w') (d.st.level ((Function.update d.cls id c' id').watch w').var)
        replace hd : d.st.Done ((Function.update d.cls id c' id').watch w').neg := hd
        replace hex : ¬ ((Function.update d.cls id c' id').watch w' = p.neg ∧ id' ∈ r) := hex
        by_cases hx : id' = id
        · subst hx
          rw [Function.update_self] at hd
          exfalso
          by_cases hw' : w' = w
          · subst hw'
            have := (hb.isFalse_iff _).2 (Or.inr hd.mem)
            rw [h2.free] at this; simp at this
          · have : w' = !w := by cases w <;> cases w' <;> first | rfl | exact absurd rfl hw'
            rw [this, h2.other] at hd
            exact hother hd
        · rw [Function.update_of_ne hx] at hd hex ⊢
          refine hg id' hid' w' (fun hn => ?_) hd
          rcases List.mem_cons.1 hn.2 with h3 | h3
          · exact hx h3
          · exact hex ⟨hn.1, h3⟩
      · intro id' hid' M hM
        show M.satC (Function.update d.cls id c' id').lits
        by_cases hx : id' = id
        · subst hx
          rw [Function.update_self]
          obtain ⟨q, hq, hs⟩ := hm id' hid M hM
          exact ⟨q, h2.perm.mem_iff.2 hq, hs⟩
        · rw [Function.update_of_ne hx]; exact hm id' hid' M hM
    · -- unit or conflicting
      rw [h1]
      simp only [if_true]
      rw [hupd]
      have hrt : ∀ q ∈ (d.cls id).reason w, d.st.tl q := by
        intro q hq
        simp only [Cl.reason, List.mem_cons, List.mem_map] at hq
        rcases hq with rfl | rfl | ⟨x, hx, rfl⟩
        · rw [hwp, Lit.neg_neg]; exact Or.inr hp
        · exact (hb.isFalse_iff _).1 (h3 _ (by simp))
        · exact (hb.isFalse_iff _).1 (h3 _ (by simp [hx]))
      have hfi := hi.force hc hrt (fun M hM hr => clause_unit (hm id hid M hM) hr) (fun _ _ => ⟨p, by
        simp only [Cl.reason, hwp, Lit.neg_neg]; simp, hp, hpl⟩)
      have hfe := force_ext (learn := learn) (s := d.st) ((d.cls id).watch !w) (some ((d.cls id).reason w))
      have hfm := force_imp (learn := learn) (s := d.st) ((d.cls id).watch !w) (some ((d.cls id).reason w))
      have hfr := force_res (learn := learn) hb ((d.cls id).watch !w) (some ((d.cls id).reason w))
      have hfk := force_keeps (learn := learn) hb ((d.cls id).watch !w) (some ((d.cls id).reason w))
      generalize d.st.force learn ((d.cls id).watch !w) (some ((d.cls id).reason w)) = g at *
      obtain ⟨s', ok⟩ := g
      dsimp only at *
      have hdown := hfe.down hb hfi.base hfk (.of_imp hfm.1)
      have hold : ∀ id' ∈ d.ids, ∀ w', ¬ ((d.cls id').watch w' = p.neg ∧ id' ∈ id :: r) → s'.Done ((d.cls id').watch w').neg →
          Held s' ((d.cls id').watch w') ((d.cls id').watch !w') (s'.level ((d.cls id').watch w').var) := by
        intro id' hid' w' hex hd
        obtain ⟨m1, _, m3⟩ := hdown.mono _ hd
        have m2 := hdown.mono.level hd
        rw [Lit.neg_var] at m2 m3
        rw [m2]
        exact (hg id' hid' w' hex m1).imp (m3 _) (m3 _)
      cases ok with
      | true =>
        obtain ⟨r1, r2⟩ := hfr.1 rfl hc
        simp only [if_true]
        have := ih (id :: kept) { d with st := s' } hfi r1 (hfe.mem (Or.inr hp)) ?_ ?_ ?_ hm
        · obtain ⟨i1, i2, i3, i4⟩ := this
          exact ⟨⟨i1.inv, i1.wok, i1.mods, hfe.trans i1.ext, i1.imp.trans hfm.1, i1.graph, i1.ids, i1.perm⟩, i2, i3, i4⟩
        · show s'.level p.var = s'.dl
          rw [hfe.level hb (Or.inr hp), hfe.dl, hpl]
        · rw [List.reverse_cons, List.append_assoc]
          exact ⟨hw.wat, hw.wnd, hw.nod, hw.nz⟩
        · intro id' hid' w' hex hd
          by_cases hx : id' = id ∧ w' = w
          · obtain ⟨rfl, rfl⟩ := hx
            refine Or.inl (Or.inl ⟨r2, ?_⟩)
            show s'.level _ ≤ s'.level ((d.cls id').watch w').var
            rw [hwp, Lit.neg_var, hfe.level hb (Or.inr hp), hpl, ← hfe.dl]
            exact hfi.base.level_le r2
          · refine hold id' hid' w' (fun hn => ?_) hd
            rcases List.mem_cons.1 hn.2 with h3 | h3
            · subst h3; exact hx ⟨rfl, hww w' hn.1⟩
            · exact hex ⟨hn.1, h3⟩
      | false =>
        simp only [Bool.false_eq_true, if_false]
        have hcf := hfr.2 rfl
        refine ⟨⟨hfi, ?_, hm, hfe, hfm.1, rfl, rfl, fun _ => List.Perm.refl _⟩, ?_, fun hn => by simp at hn, fun _ => hcf⟩
        · rw [List.reverse_cons, List.append_assoc]
          exact ⟨hw.wat, hw.wnd, hw.nod, hw.nz⟩
        · intro id' hid' w' hd
          refine hold id' hid' w' (fun hn => ?_) hd
          have hd : s'.Done ((d.cls id').watch w').neg := hd
          rw [hn.1, Lit.neg_neg] at hd
          have := (hd.level_le hfi.base).2 hcf
          rw [hfe.level hb (Or.inr hp), hfe.dl, hpl] at this
          omega

end Db

/-! ### The short implication graph -/
namespace Graph

/-- `{a, b}` is a clause of the graph. -/
def has2 (G : Graph) (a b : Lit) : Prop := (b, none) ∈ G.items a.neg
/-- `{a, b, c}` is a clause of the graph. -/
def has3 (G : Graph) (a b c : Lit) : Prop := (b, some c) ∈ G.items a.neg ∨ (c, some b) ∈ G.items a.neg

/-- Every short clause is found from each of its literals. -/
structure Sym (G : Graph) : Prop where
  s2 : ∀ a b, G.has2 a b → G.has2 b a
  s3 : ∀ a b c, G.has3 a b c → G.has3 b a c

/-- The models `F` satisfy the short clauses. -/
structure Models (F : Th) (G : Graph) : Prop where
  m2 : ∀ a b, G.has2 a b → ∀ M, F M → M.sat a ∨ M.sat b
  m3 : ∀ a b c, G.has3 a b c → ∀ M, F M → M.sat a ∨ M.sat b ∨ M.sat c

theorem has3_swap {G : Graph} {a b c : Lit} (h : G.has3 a b c) : G.has3 a c b := h.symm

/-- what holds for an implication after its visit -/
def ItemOk (s : St) : Lit × Option Lit → Prop
  | (x, none) => s.tl x
  | (x, some y) => (s.Done x.neg → s.tl y) ∧ (s.Done y.neg → s.tl x)

def ItemMod (F : Th) (p : Lit) : Lit × Option Lit → Prop
  | (x, none) => ∀ M, F M → M.sat p → M.sat x
  | (x, some y) => ∀ M, F M → M.sat p → M.sat x ∨ M.sat y

theorem ItemOk.ext {s t : St} (e : Ext s t) (hb : s.Base) (ht : t.Base) {i : Lit × Option Lit} (h : ItemOk s i) : ItemOk t i := by
  obtain ⟨x, y⟩ := i
  cases y with
  | none => exact e.tl h
  | some y => exact ⟨fun hd => e.tl (h.1 (e.done hb ht hd)), fun hd => e.tl (h.2 (e.done hb ht hd))⟩

theorem done_false {s : St} (hb : s.Base) {q : Lit} (h : s.Done q.neg) : s.isFalse q = true := (hb.isFalse_iff q).2 (Or.inr h.mem)

theorem visit_spec {learn : Bool} {F : Th} {s : St} {p : Lit} (hi : s.Inv learn F) (hc : s.conflict = []) (hp : p ∈ s.trail)
    (hpl : s.level p.var = s.dl) (i : Lit × Option Lit) (hm : ItemMod F p i) :
    (visit learn s p i).1.Inv learn F ∧ Ext s (visit learn s p i).1 ∧ (visit learn s p i).1.imp = s.imp ∧
    ((visit learn s p i).2 = true → (visit learn s p i).1.conflict = [] ∧ ItemOk (visit learn s p i).1 i) ∧
    ((visit learn s p i).2 = false → (visit learn s p i).1.conflict ≠ []) := by
  have hb := hi.base
  have hcase : ∀ (z : Lit) (r : List Lit), (∀ q ∈ r, s.tl q) → (∀ M, F M → M.all r → M.sat z) → p ∈ r →
      (∀ t : St, Ext s t → t.Base → t.tl z → ItemOk t i) →
      (s.force learn z (some r)).1.Inv learn F ∧ Ext s (s.force learn z (some r)).1 ∧ (s.force learn z (some r)).1.imp = s.imp ∧
      ((s.force learn z (some r)).2 = true → (s.force learn z (some r)).1.conflict = [] ∧ ItemOk (s.force learn z (some r)).1 i) ∧
      ((s.force learn z (some r)).2 = false → (s.force learn z (some r)).1.conflict ≠ []) := by
    intro z r hr hF hpr hok
    have hfi := hi.force hc hr hF (fun _ _ => ⟨p, by simp [hpr], hp, hpl⟩)
    have hfe := force_ext (learn := learn) (s := s) z (some r)
    have hfr := force_res (learn := learn) hb z (some r)
    exact ⟨hfi, hfe, (force_imp z _).1, fun h => ⟨(hfr.1 h hc).1, hok _ hfe hfi.base (hfr.1 h hc).2⟩, hfr.2⟩
  have hstay : ItemOk s i → s.Inv learn F ∧ Ext s s ∧ s.imp = s.imp ∧ (true = true → s.conflict = [] ∧ ItemOk s i) ∧ (true = false → s.conflict ≠ []) :=
    fun h => ⟨hi, Ext.refl s, rfl, fun _ => ⟨hc, h⟩, fun h => by simp at h⟩
  obtain ⟨x, y⟩ := i
  cases y with
  | none =>
    unfold visit unary
    dsimp only
    by_cases hx : s.isTrue x = true
    · rw [if_pos hx]
      exact hstay ((hb.isTrue_iff x).1 hx)
    · rw [if_neg hx]
      exact hcase x [p] (fun q hq => by rw [List.mem_singleton.1 hq]; exact Or.inr hp) (fun M hM ha => hm M hM (ha p (by simp))) (by simp) (fun t _ _ h => h)
  | some y =>
    unfold visit binary
    dsimp only
    by_cases hx : s.isTrue x = true
    · rw [if_neg (by simp [hx])]
      have := (hb.isTrue_iff x).1 hx
      exact hstay ⟨fun hd => absurd (Or.inr hd.mem) (fun h => hb.not_both this h), fun _ => this⟩
    · by_cases hy : s.isTrue y = true
      · rw [if_neg (by simp [hy])]
        have := (hb.isTrue_iff y).1 hy
        exact hstay ⟨fun _ => this, fun hd => absurd (Or.inr hd.mem) (fun h => hb.not_both this h)⟩
      · by_cases hfr : s.value x.var = none ∧ s.value y.var = none
        · rw [if_neg (fun h => h.2.2 hfr)]
          have nf : ∀ z : Lit, s.value z.var = none → ¬ s.Done z.neg := fun z hz hd =>
            tl_value hb (Or.inr hd.mem) (by rw [Lit.neg_var]; exact hz)
          exact hstay ⟨fun hd => absurd hd (nf x hfr.1), fun hd => absurd hd (nf y hfr.2)⟩
        · rw [if_pos ⟨hx, hy, hfr⟩]
          have fal : ∀ z : Lit, ¬ s.isTrue z = true → s.value z.var ≠ none → s.tl z.neg := fun z h1 h2 => by
            rcases s.value_cases z with h | h | h
            · exact absurd h h2
            · exact absurd h h1
            · exact (hb.isFalse_iff z).1 h
          by_cases hxv : s.value x.var ≠ none
          · rw [if_pos hxv]
            have hxn := fal x hx hxv
            refine hcase y [p, x.neg] ?_ ?_ (by simp) ?_
            · intro q hq
              simp only [List.mem_cons, List.not_mem_nil, or_false] at hq
              rcases hq with rfl | rfl
              · exact Or.inr hp
              · exact hxn
            · intro M hM ha
              rcases hm M hM (ha p (by simp)) with h | h
              · exact absurd h ((Asg.sat_neg M x).1 (ha _ (by simp)))
              · exact h
            · intro t _ htb ht
              exact ⟨fun _ => ht, fun hd => absurd (Or.inr hd.mem) (fun h => htb.not_both ht h)⟩
          · rw [if_neg hxv]
            have hyn := fal y hy (fun h => hfr ⟨by simpa using hxv, h⟩)
            refine hcase x [p, y.neg] ?_ ?_ (by simp) ?_
            · intro q hq
              simp only [List.mem_cons, List.not_mem_nil, or_false] at hq
              rcases hq with rfl | rfl
              · exact Or.inr hp
              · exact hyn
            · intro M hM ha
              rcases hm M hM (ha p (by simp)) with h | h
              · exact h
              · exact absurd h ((Asg.sat_neg M y).1 (ha _ (by simp)))
            · intro t _ htb ht
              exact ⟨fun hd => absurd (Or.inr hd.mem) (fun h => htb.not_both ht h), fun _ => ht⟩

theorem propItems_spec {learn : Bool} {F : Th} {p : Lit} : ∀ (l : List (Lit × Option Lit)) (s : St), s.Inv learn F → s.conflict = [] →
    p ∈ s.trail → s.level p.var = s.dl → (∀ i ∈ l, ItemMod F p i) →
    (propItems learn s p l).1.Inv learn F ∧ Ext s (propItems learn s p l).1 ∧ (propItems learn s p l).1.imp = s.imp ∧
    ((propItems learn s p l).2 = true → (propItems learn s p l).1.conflict = [] ∧ ∀ i ∈ l, ItemOk (propItems learn s p l).1 i) ∧
    ((propItems learn s p l).2 = false → (propItems learn s p l).1.conflict ≠ []) := by
  intro l
  induction l with
  | nil => intro s hi hc _ _ _; exact ⟨hi, Ext.refl s, rfl, fun _ => ⟨hc, by simp⟩, fun h => by simp [propItems] at h⟩
  | cons i r ih =>
    intro s hi hc hp hpl hm
    obtain ⟨h1, h2, h3, h4, h5⟩ := visit_spec hi hc hp hpl i (hm i (by simp))
    unfold propItems
    generalize visit learn s p i = g at *
    obtain ⟨t, ok⟩ := g
    cases ok with
    | false => exact ⟨h1, h2, h3, fun h => by simp at h, fun _ => h5 rfl⟩
    | true =>
      dsimp only at *
      obtain ⟨h6, h7⟩ := h4 rfl
      obtain ⟨i1, i2, i3, i4, i5⟩ := ih t h1 h6 (h2.mem (Or.inr hp)) (by rw [h2.level hi.base (Or.inr hp), h2.dl, hpl])
        (fun j hj => hm j (List.mem_cons_of_mem _ hj))
      refine ⟨i1, h2.trans i2, i3.trans h3, fun h => ⟨(i4 h).1, ?_⟩, i5⟩
      intro j hj
      rcases List.mem_cons.1 hj with rfl | hj
      · exact h7.ext i2 h1.base i1.base
      · exact (i4 h).2 j hj

end Graph

namespace Db

/-- Short clauses with processed false literals are satisfied on the right level. -/
structure Good23 (d : Db) : Prop where
  g2 : ∀ a b, d.graph.has2 a b → d.st.Done a.neg → Held d.st a b (d.st.level a.var)
  g3 : ∀ a b c, d.graph.has3 a b c → d.st.Done a.neg → d.st.Done b.neg →
    Held d.st a c (max (d.st.level a.var) (d.st.level b.var)) ∨ d.st.Fine b (max (d.st.level a.var) (d.st.level b.var))

/-- The whole invariant of the clause database. -/
structure Ok (learn : Bool) (F : Th) (d : Db) : Prop where
  inv : d.st.Inv learn F
  wok : WOk d
  mods : Models F d
  sym : d.graph.Sym
  gmods : d.graph.Models F
  good : Good d
  good23 : Good23 d
  marked : d.st.Marked

theorem Good.mono {d : Db} {t : St} (h : Good d) (hm : Mono d.st t) : Good { d with st := t } := by
  intro id hid w hd
  obtain ⟨m1, _, m3⟩ := hm _ hd
  have m2 := hm.level hd
  rw [Lit.neg_var] at m2 m3
  show Held t _ _ (t.level _)
  rw [m2]
  exact (h id hid w m1).imp (m3 _) (m3 _)

theorem Good23.mono {d : Db} {t : St} (h : Good23 d) (hm : Mono d.st t) : Good23 { d with st := t } := by
  refine ⟨fun a b hab hd => ?_, fun a b c habc hd1 hd2 => ?_⟩
  · obtain ⟨m1, _, m3⟩ := hm _ hd
    have m2 := hm.level hd
    rw [Lit.neg_var] at m2 m3
    show Held t _ _ (t.level _)
    rw [m2]
    exact (h.g2 a b hab m1).imp (m3 _) (m3 _)
  · obtain ⟨m1, _, m3⟩ := hm _ hd1
    have m2 := hm.level hd1
    obtain ⟨n1, _, n3⟩ := hm _ hd2
    have n2 := hm.level hd2
    rw [Lit.neg_var] at m2 m3 n2 n3
    show Held t _ _ (max (t.level _) (t.level _)) ∨ t.Fine _ (max (t.level _) (t.level _))
    rw [m2, n2]
    have := h.g3 a b c habc m1 n1
    rcases Nat.le_total (d.st.level a.var) (d.st.level b.var) with hl | hl
    · rw [Nat.max_eq_right hl] at this ⊢; exact this.imp (fun h => h.imp (n3 _) (n3 _)) (n3 _)
    · rw [Nat.max_eq_left hl] at this ⊢; exact this.imp (fun h => h.imp (m3 _) (m3 _)) (m3 _)

theorem Marked.mono {learn : Bool} {F : Th} {s t : St} (hi : s.Inv learn F) (h : s.Marked) (hm : Mono s t) (hb' : t.Base) : t.Marked := by
  intro h0 hc t1 q t2 ht hlt
  have hd : t.Done q := by unfold St.Done; rw [if_pos hc]; exact ⟨t1, t2, ht, hlt⟩
  have hb := hi.base
  obtain ⟨m1, m2, _⟩ := hm q hd
  have hl : t.level q.var = s.level q.var := hm.level hd
  unfold seen; rw [m2]
  by_cases hd0 : s.dl = 0
  · by_cases hcs : s.conflict = []
    · have m1' := m1
      unfold St.Done at m1'
      rw [if_pos hcs] at m1'
      obtain ⟨u1, u2, hu, hult⟩ := m1'
      exact h hd0 hcs u1 q u2 hu hult
    · have := (m1.level_le hb).2 hcs
      omega
  · refine hi.m2 (by omega) q m1.mem ?_
    rw [← hl]
    have := hb'.level_le (Or.inr hd.mem)
    omega

end Db
end Clasp.Core
