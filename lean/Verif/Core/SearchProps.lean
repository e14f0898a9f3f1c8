/-
Properties of the search: completeness of propagation (C10), verdicts (C15), enumeration by backtracking (C16) and by
recording (C17).
-/
import Verif.Core.SearchModel
namespace Clasp.Core
open St

/-! ### Specification -/

/-- `C` is neither falsified nor unit under the assignment of `s`: some literal is not false, and if only one literal is not
false it is true. -/
def Closed (s : St) (C : List Lit) : Prop :=
  (∃ q ∈ C, s.isFalse q = false) ∧ ∀ p ∈ C, (∀ q ∈ C, q ≠ p → s.isFalse q = true) → s.isTrue p = true

/-- the assignments to report: models of the problem under the assumptions -/
def Sys.Answer (E : Asg → Prop) (x : Sys) (M : Asg) : Prop :=
  M.sat litTrue ∧ E M ∧ (∀ C ∈ x.orig, M.satC C) ∧ M.all x.asm

namespace Sys
variable {learn : Bool} {n : Nat} {E : Asg → Prop} {P : Nat → Bool} {x : Sys}

/-! ### Watching -/

theorem closed_of {s : St} {C : List Lit} (h : (∃ q ∈ C, s.isTrue q = true) ∨ ∃ a ∈ C, ∃ b ∈ C, a ≠ b ∧ s.isFalse a = false ∧ s.isFalse b = false) :
    Closed s C := by
  rcases h with ⟨q, hq, ht⟩ | ⟨a, ha, b, hb, hne, hfa, hfb⟩
  · refine ⟨⟨q, hq, St.true_false ht⟩, fun p hp hall => ?_⟩
    by_cases he : q = p
    · rw [← he]; exact ht
    · have := hall q hq he
      rw [St.true_false ht] at this; simp at this
  · refine ⟨⟨a, ha, hfa⟩, fun p hp hall => ?_⟩
    by_cases he : a = p
    · have := hall b hb (fun e => hne (he.trans e.symm))
      rw [hfb] at this; simp at this
    · have := hall a ha he
      rw [hfa] at this; simp at this

section
variable {T : Th} {d : Db}

theorem done_of_false (h : d.Ok learn T) (hc : d.st.conflict = []) (hf : d.st.front = d.st.trail.length) {p : Lit} (hp : d.st.isFalse p = true)
    (hn : p ≠ litFalse) : d.st.Done p.neg := by
  rcases (h.inv.base.isFalse_iff p).1 hp with hp | hp
  · exact absurd (by have := congrArg Lit.neg hp; rw [Lit.neg_neg] at this; exact this) hn
  · unfold Done
    rw [if_pos hc]
    obtain ⟨t1, t2, e⟩ := List.append_of_mem hp
    refine ⟨t1, t2, e, ?_⟩
    rw [hf, e]; simp; omega

theorem fine_true (h : d.Ok learn T) (hc : d.st.conflict = []) {q : Lit} {k : Nat} (hq : d.st.Fine q k) : d.st.isTrue q = true :=
  (h.inv.base.isTrue_iff q).2 (fine_tl h.inv hc hq)

theorem closed_cl (h : d.Ok learn T) (hc : d.st.conflict = []) (hf : d.st.front = d.st.trail.length) {id : Nat} (hid : id ∈ d.ids) :
    (∃ w, d.st.isTrue ((d.cls id).watch w) = true) ∨ ((d.cls id).h0 ≠ (d.cls id).h1 ∧ d.st.isFalse (d.cls id).h0 = false ∧ d.st.isFalse (d.cls id).h1 = false) := by
  by_cases h0 : ∃ w, d.st.isFalse ((d.cls id).watch w) = true
  · obtain ⟨w, hw⟩ := h0
    left
    rcases h.good id hid w (done_of_false h hc hf hw (h.wok.nz id hid w)) with h1 | h1
    · exact ⟨!w, fine_true h hc h1⟩
    · exact ⟨w, fine_true h hc h1⟩
  · right
    push Not at h0
    have h1 := Db.distinct (h.wok.nod id hid) false (h.wok.nz id hid false) (h.wok.nz id hid true)
    exact ⟨fun e => h1.1 (by simpa [Cl.watch] using e), by simpa [Cl.watch] using h0 false, by simpa [Cl.watch] using h0 true⟩

theorem short2 (h : d.Ok learn T) (hc : d.st.conflict = []) (hf : d.st.front = d.st.trail.length) {a b : Lit} (hg : d.graph.has2 a b) (ha : d.st.isFalse a = true)
    (hn : a ≠ litFalse) : d.st.isTrue b = true := by
  rcases h.good23.g2 a b hg (done_of_false h hc hf ha hn) with h1 | h1
  · exact fine_true h hc h1
  · have := fine_true h hc h1
    rw [St.true_false this] at ha; simp at ha

theorem short3 (h : d.Ok learn T) (hc : d.st.conflict = []) (hf : d.st.front = d.st.trail.length) {a b c : Lit} (hg : d.graph.has3 a b c)
    (ha : d.st.isFalse a = true) (hb : d.st.isFalse b = true) (hna : a ≠ litFalse) (hnb : b ≠ litFalse) : d.st.isTrue c = true := by
  rcases h.good23.g3 a b c hg (done_of_false h hc hf ha hna) (done_of_false h hc hf hb hnb) with (h1 | h1) | h1
  · exact fine_true h hc h1
  · have := fine_true h hc h1
    rw [St.true_false this] at ha; simp at ha
  · have := fine_true h hc h1
    rw [St.true_false this] at hb; simp at hb

theorem has_closed (h : d.Ok learn T) (hc : d.st.conflict = []) (hf : d.st.front = d.st.trail.length) {Q : Nat → Prop} {C : List Lit}
    (hC : Db.Has Q d C ∨ ∃ p ∈ C, p.neg ∈ C) : Closed d.st C := by
  have hb := h.inv.base
  rcases hC with (⟨i, h1, h2, h3⟩ | ⟨a, ha, b, hb', ⟨hg, hz⟩, hg2⟩ | ⟨a, ha, b, hb', c, hc', ⟨hg, hz⟩, hg3⟩ | ⟨p, hp, hg⟩) | ⟨p, hp, hn⟩
  · have hmem : ∀ w, (d.cls i).watch w ∈ C := fun w => by
      rcases h3 ((d.cls i).watch w) (by cases w <;> simp [Cl.watch, Cl.lits]) with e | e
      · exact absurd e (h.wok.nz i h1 w)
      · exact e
    rcases closed_cl h hc hf h1 with ⟨w, hw⟩ | hw
    · exact closed_of (Or.inl ⟨_, hmem w, hw⟩)
    · exact closed_of (Or.inr ⟨_, hmem false, _, hmem true, hw.1, hw.2⟩)
  · by_cases hfa : d.st.isFalse a = true
    · exact closed_of (Or.inl ⟨b, hb', short2 h hc hf hg2 hfa (hz a (by simp))⟩)
    · by_cases hfb : d.st.isFalse b = true
      · exact closed_of (Or.inl ⟨a, ha, short2 h hc hf (h.sym.s2 a b hg2) hfb (hz b (by simp))⟩)
      · exact closed_of (Or.inr ⟨a, ha, b, hb', by simpa using hg, by simpa using hfa, by simpa using hfb⟩)
  · have hne : a ≠ b ∧ a ≠ c ∧ b ≠ c := by simp at hg; tauto
    by_cases hfa : d.st.isFalse a = true
    · by_cases hfb : d.st.isFalse b = true
      · exact closed_of (Or.inl ⟨c, hc', short3 h hc hf hg3 hfa hfb (hz a (by simp)) (hz b (by simp))⟩)
      · by_cases hfc : d.st.isFalse c = true
        · exact closed_of (Or.inl ⟨b, hb', short3 h hc hf (Graph.has3_swap hg3) hfa hfc (hz a (by simp)) (hz c (by simp))⟩)
        · exact closed_of (Or.inr ⟨b, hb', c, hc', hne.2.2, by simpa using hfb, by simpa using hfc⟩)
    · by_cases hfb : d.st.isFalse b = true
      · by_cases hfc : d.st.isFalse c = true
        · exact closed_of (Or.inl ⟨a, ha, short3 h hc hf (Graph.has3_swap (h.sym.s3 _ _ _ hg3)) hfb hfc (hz b (by simp)) (hz c (by simp))⟩)
        · exact closed_of (Or.inr ⟨a, ha, c, hc', hne.2.1, by simpa using hfa, by simpa using hfc⟩)
      · exact closed_of (Or.inr ⟨a, ha, b, hb', hne.1, by simpa using hfa, by simpa using hfb⟩)
  · rcases hg with hg | hg
    · exact absurd hc hg.1
    · have ht := fine_true h hc hg
      rcases hp with hp | rfl
      · exact closed_of (Or.inl ⟨p, hp, ht⟩)
      · have := (hb.isFalse_iff litFalse).2 (Or.inl rfl)
        rw [St.true_false ht] at this; simp at this
  · rcases d.st.value_cases p with hv | hv | hv
    · refine closed_of (Or.inr ⟨p, hp, p.neg, hn, fun e => absurd (congrArg Lit.sign e) (by simp [Lit.neg]), ?_, ?_⟩)
      · unfold St.isFalse; rw [hv]; rfl
      · unfold St.isFalse; rw [Lit.neg_var, hv]; rfl
    · exact closed_of (Or.inl ⟨p, hp, hv⟩)
    · exact closed_of (Or.inl ⟨p.neg, hn, by rw [← isFalse_eq]; exact hv⟩)
end

/-- **C10.** Whenever a solver has propagated everything without conflict (after any sequence of calls), no clause of the
problem, no recorded nogood and no learnt clause is falsified or unit: some literal of it is not false, and if it has just
one literal that is not false, that literal is true; a clause object has a true literal or two watched literals that are
not false. -/
theorem C10_complete (hn : n < varMax) (h : Reach learn n E P x) (hc : x.st.conflict = []) (hf : x.st.front = x.st.trail.length) :
    (∀ C ∈ x.orig, Closed x.st C) ∧ (∀ r ∈ x.recs, Closed x.st r.1) ∧ (∀ id ∈ x.db.ids, Closed x.st (x.db.cls id).lits ∧ ((∃ q ∈ (x.db.cls id).lits, x.st.isTrue q = true) ∨
      (x.st.isFalse (x.db.cls id).h0 = false ∧ x.st.isFalse (x.db.cls id).h1 = false))) ∧
    (∀ a b, x.db.graph.has2 a b → a ≠ litFalse → x.st.isFalse a = true → x.st.isTrue b = true) ∧
    (∀ a b c, x.db.graph.has3 a b c → a ≠ litFalse → b ≠ litFalse → x.st.isFalse a = true → x.st.isFalse b = true → x.st.isTrue c = true) := by
  have hi := h.inv hn
  refine ⟨fun C hC => has_closed hi.ok hc hf (hi.has C (Or.inl hC)).1, fun r hr => has_closed hi.ok hc hf (hi.has r.1 (Or.inr ⟨r, hr, rfl⟩)).1,
    fun id hid => ?_, fun a b hg hn ha => short2 hi.ok hc hf hg ha hn, fun a b c hg hna hnb ha hb => short3 hi.ok hc hf hg ha hb hna hnb⟩
  rcases closed_cl hi.ok hc hf hid with ⟨w, hw⟩ | hw
  · have hm : (x.db.cls id).watch w ∈ (x.db.cls id).lits := by cases w <;> simp [Cl.watch, Cl.lits]
    exact ⟨closed_of (Or.inl ⟨_, hm, hw⟩), Or.inl ⟨_, hm, hw⟩⟩
  · exact ⟨closed_of (Or.inr ⟨_, by simp [Cl.lits], _, by simp [Cl.lits], hw.1, hw.2⟩), Or.inr hw.2⟩

/-- **C10 (forced literals).** If visiting a clause because its watched literal `¬p` became false changes the solver state or
reports failure, then it is by forcing one literal of the clause, and every other literal of the clause is false; the
reported reason is that all others are false. -/
theorem C10_force (s : St) (c : Cl) (p : Lit) (hp : s.isFalse p.neg = true) (hw : c.h0 = p.neg ∨ c.h1 = p.neg)
    (hch : (c.propagate learn s p).st ≠ s ∨ (c.propagate learn s p).ok = false) :
    ∃ q, ∃ r, c.lits.Perm (q :: r) ∧ (∀ y ∈ r, s.isFalse y = true) ∧ s.isTrue q = false ∧ (c.propagate learn s p).cl = c ∧
      (c.propagate learn s p).st = (s.force learn q (some (r.map Lit.neg))).1 ∧ (c.propagate learn s p).ok = (s.force learn q (some (r.map Lit.neg))).2 := by
  have hpw : c.watch (decide (c.h1 = p.neg)) = p.neg := by
    unfold Cl.watch
    by_cases h1 : c.h1 = p.neg
    · simp [h1]
    · simp [h1]; tauto
  rcases Cl.propagate_cases learn s c p _ rfl hpw with ⟨e, _⟩ | ⟨c', e, _⟩ | ⟨e, h1, h2⟩
  · rw [e] at hch; simp at hch
  · rw [e] at hch; simp at hch
  · generalize decide (c.h1 = p.neg) = w at *
    refine ⟨c.watch !w, c.watch w :: c.h2 :: c.tail, ?_, ?_, h1, ?_, ?_, ?_⟩
    · cases w
      · exact List.Perm.swap _ _ _
      · exact List.Perm.refl _
    · intro y hy
      rcases List.mem_cons.1 hy with rfl | hy
      · rw [hpw]; exact hp
      · exact h2 y hy
    · rw [e]
    · rw [e]; rfl
    · rw [e]; rfl

/-! ### Verdicts -/

theorem answer_iff {M : Asg} : x.Answer E M ↔ x.base E M ∧ M.all x.asm := by
  unfold Answer base; tauto

/-- **C15 (models).** For every sequence of calls (decisions, restarts, deletion, learning, backtracking, external propagation):
a total assignment that was propagated without conflict and is accepted by the constraints that are not clauses satisfies all
clauses of the problem, all recorded nogoods and all assumptions. -/
theorem C15_model (hn : n < varMax) (h : Reach learn n E P x) (ht : x.st.Total n) (hE : E x.st.model) :
    x.Answer E x.st.model ∧ ∀ r ∈ x.recs, x.st.model.satC r.1 := by
  obtain ⟨h1, h2⟩ := (h.inv hn).model ht hE
  exact ⟨answer_iff.2 ⟨h1.1, h2⟩, h1.2⟩

theorem unsat_dead (hn : n < varMax) (h : x.Inv learn n E P) (hu : Unsat learn n E x) : ∀ M, x.todo E n M → ¬ M.all x.asm := by
  have hroot : ∀ u : St, u.Inv learn (x.th E n) → Down x.st u → u.dl = u.root → u.root = x.st.root → (∀ M, (x.th E n).G M → ¬ u.pathSat M u.dl) →
      ∀ M, x.todo E n M → ¬ M.all x.asm := by
    intro u hi hd h1 h2 hdead M hM ha
    refine hdead M ⟨hM, h.zero M hM⟩ fun i j1 j2 => ?_
    rw [hd.dec i j1 j2]
    exact ha _ (h.root i j1 (by omega))
  cases hu with
  | root hc hd => exact hroot x.st h.ok.inv (Down.refl _) hd rfl (h.ok.inv.dead hc)
  | resolve cfg fuel id shared implicit d' hc hid hep harc hr =>
    have hb := h.ok.inv.base
    have hfd := hb.wf.fd
    have hrf := hb.wf.rf
    have hr0 := hr
    unfold Db.resolve at hr
    split at hr
    · split at hr
      · rename_i h1 h2
        obtain ⟨h2, rfl⟩ := h2
        obtain ⟨d1, l, N, e1, _⟩ := Db.resolve_learn h.ok hc (show x.db.st.flip < x.db.st.dl by omega) h.mode
          (fun q hq hl M m => m.2 q hq hl) (Nat.lt_of_le_of_lt h.dl_le hn) cfg hep harc hid shared implicit
        have := Db.resolve_mono (k := N) hr0
        rw [e1 _ (by omega)] at this
        simp at this
      · simp only [Option.some.injEq, Prod.mk.injEq] at hr
        obtain ⟨u, _, b2, b3, b4, b5, b6⟩ := (backtrack_spec h.ok.inv (h.ok.inv.dead hc)).2 hr.2
        exact hroot u b2 b3 b4 b5 b6
    · rename_i h1
      exact hroot x.st h.ok.inv (Down.refl _) (by show x.db.st.dl = x.db.st.root; omega) rfl (h.ok.inv.dead hc)

/-- **C15 (unsatisfiable).** For every sequence of calls that reported no model yet: if the solver reports that there is no
model, then no assignment satisfies the constraints together with the assumptions. -/
theorem C15_unsat (hn : n < varMax) (h : Reach learn n E P x) (hf : x.found = []) (hr : x.recs = []) (hu : Unsat learn n E x) :
    ¬ ∃ M, x.Answer E M := by
  rintro ⟨M, hM⟩
  obtain ⟨h1, h2⟩ := answer_iff.1 hM
  exact unsat_dead hn (h.inv hn) hu M ⟨⟨h1, by rw [hr]; simp⟩, by rw [hf]; simp⟩ h2

/-- **C15 (refused assumptions).** If an assumption is false on the root level (where it is refused), no assignment satisfies
the constraints, the assumptions made so far, and this one. -/
theorem C15_refused (hn : n < varMax) (h : Reach learn n E P x) (hf : x.found = []) (hr : x.recs = []) (hd : x.st.dl = x.st.root) {p : Lit}
    (hp : x.st.isFalse p = true) : ¬ ∃ M, x.Answer E M ∧ M.sat p := by
  rintro ⟨M, hM, hs⟩
  obtain ⟨h1, h2⟩ := answer_iff.1 hM
  have hi := h.inv hn
  have htd : x.todo E n M := ⟨⟨h1, by rw [hr]; simp⟩, by rw [hf]; simp⟩
  have hb := hi.ok.inv.base
  have ht := (hb.isFalse_iff p).1 hp
  have hl : x.db.st.level p.neg.var ≤ x.db.st.dl := by
    rcases ht with e | ht
    · rw [e, litTrue_var]; unfold St.level; rw [hb.c0]; simp
    · exact trail_lev_le hb.wf ht
  have := hi.ok.inv.sound.impl_tl ht (M := M) ⟨htd, hi.zero M htd⟩ hl (fun i j1 j2 => h2 _ (hi.root i j1 (by show i ≤ x.st.root; rw [← hd]; exact j2)))
  exact (Asg.sat_neg M p).1 this hs

/-- **C15 (conflicts).** Every conflict is either resolved, leaving a state without conflict, or reported as unsatisfiable; conflict
analysis never gets stuck. -/
theorem C15_conflict (hn : n < varMax) (h : Reach learn n E P x) (hc : x.st.conflict ≠ []) (cfg : AnaCfg) {id : Nat} (shared implicit : Bool) (hid : id ∉ x.db.ids)
    (hep : ∀ e, cfg.rc = some e → ∀ v, e v ≤ e 0) (harc : ArcOk (x.th E n).F cfg.arc) :
    ∃ N d', (∀ fuel ≥ N, x.db.resolve learn cfg fuel id shared implicit = some (d', true)) ∧ d'.st.conflict = [] ∨
      (∀ fuel ≥ N, x.db.resolve learn cfg fuel id shared implicit = some (d', false)) ∧ Unsat learn n E x := by
  have hi := h.inv hn
  have hfd := hi.ok.inv.base.wf.fd
  by_cases h1 : x.db.st.dl > x.db.st.root
  · by_cases h2 : x.db.st.dl ≠ x.db.st.flip ∧ learn = true
    · obtain ⟨h2, rfl⟩ := h2
      obtain ⟨d1, l, N, e1, e2, e3, _⟩ := Db.resolve_learn hi.ok hc (show x.db.st.flip < x.db.st.dl by omega) hi.mode
        (fun q hq hl M m => m.2 q hq hl) (Nat.lt_of_le_of_lt hi.dl_le hn) cfg hep harc hid shared implicit
      exact ⟨N, d1, Or.inl ⟨e1, e3⟩⟩
    · have he : ∀ fuel, x.db.resolve learn cfg fuel id shared implicit = some ({ x.db with st := (x.db.st.backtrack learn).1 }, (x.db.st.backtrack learn).2) := by
        intro fuel; unfold Db.resolve; rw [if_pos h1, if_neg h2]
      refine ⟨0, { x.db with st := (x.db.st.backtrack learn).1 }, ?_⟩
      cases hb : (x.db.st.backtrack learn).2 with
      | true => exact Or.inl ⟨fun fuel _ => by rw [he, hb], ((backtrack_spec hi.ok.inv (hi.ok.inv.dead hc)).1 hb).2.1⟩
      | false => exact Or.inr ⟨fun fuel _ => by rw [he, hb], .resolve cfg 0 id shared implicit _ hc hid hep harc (by rw [he 0, hb])⟩
  · have he : ∀ fuel, x.db.resolve learn cfg fuel id shared implicit = some (x.db, false) := by
      intro fuel; unfold Db.resolve; rw [if_neg h1]
    exact ⟨0, x.db, Or.inr ⟨fun fuel _ => he fuel, .resolve cfg 0 id shared implicit _ hc hid hep harc (he 0)⟩⟩

/-! ### Enumeration by backtracking -/

/-- The assumptions do not change after the first model. -/
theorem Reach.found_asm (hn : n < varMax) (h : Reach learn n E P x) : ∀ M ∈ x.found, M.all x.asm := by
  induction h with
  | init => intro M hM; simp [Sys.init] at hM
  | step hx hs ih =>
    cases hs with
    | assume p hc hd hf hp hv hfd hr => intro M hM; exact absurd hfd (List.ne_nil_of_mem hM)
    | assumeTrue p hc hd hp hfd hr => intro M hM; exact absurd hfd (List.ne_nil_of_mem hM)
    | split hc hd hfd hr => intro M hM; exact absurd hfd (List.ne_nil_of_mem hM)
    | popRoot k hfd hr => intro M hM; exact absurd hfd (List.ne_nil_of_mem hM)
    | popFail k hfd hr hc hb => intro M hM; exact absurd hfd (List.ne_nil_of_mem hM)
    | modelBt ht hE s' hu =>
      intro M hM
      rcases List.mem_cons.1 hM with rfl | hM
      · exact ((hx.inv hn).model ht hE).2
      · exact ih M hM
    | _ => exact ih

/-- **C16 (each once).** The models reported so far are models under the assumptions, and differ pairwise; a new model differs
from all of them. -/
theorem C16_once (hn : n < varMax) (h : Reach learn n E P x) :
    (∀ M ∈ x.found, x.Answer E M) ∧ (x.found.Pairwise fun M M' => ¬ agreeOn (fun _ => true) n M M') ∧
    ∀ M ∈ x.found, ¬ agreeOn (fun _ => true) n x.st.model M :=
  ⟨fun M hM => answer_iff.2 ⟨((h.inv hn).fnd M hM).1.1, h.found_asm hn M hM⟩, (h.inv hn).fnp, fun _ hM => (h.inv hn).not_found hM⟩

/-- **C16 (all, at a conflict).** When the solver reports that there are no more models, every model under the assumptions was
reported. -/
theorem C16_all (hn : n < varMax) (h : Reach learn n E P x) (hr : x.recs = []) (hu : Unsat learn n E x) :
    ∀ M, x.Answer E M → ∃ M' ∈ x.found, agreeOn (fun _ => true) n M M' := by
  intro M hM
  obtain ⟨h1, h2⟩ := answer_iff.1 hM
  by_contra hn'
  push Not at hn'
  exact unsat_dead hn (h.inv hn) hu M ⟨⟨h1, by rw [hr]; simp⟩, hn'⟩ h2

theorem last_dead (hn : n < varMax) (hi : x.Inv learn n E P) (hr : x.recs = []) (ht : x.st.Total n) (hl : Last learn x) :
    ∀ M, x.Answer E M → agreeOn (fun _ => true) n M x.st.model ∨ ∃ M' ∈ x.found, agreeOn (fun _ => true) n M M' := by
  intro M hM
  obtain ⟨h1, h2⟩ := answer_iff.1 hM
  obtain ⟨s', hl⟩ := hl
  obtain ⟨t, e, hb⟩ := hi.bt_branch hn ht
  obtain ⟨t', e', k1, k2, k3, k4, k5, k6, k7⟩ := hi.bt ht
  obtain rfl : t = t' := e.symm.trans e'
  rw [hb] at hl
  simp only [Option.some.injEq] at hl
  obtain ⟨u, _, b2, b3, b4, b5, b6⟩ := (backtrack_spec (s := t) k1.inv k7).2 (by rw [hl])
  by_contra hn'
  push Not at hn'
  have htd : ({ x.setSt t with found := x.st.model :: x.found } : Sys).todo E n M := by
    refine ⟨⟨h1, ?_⟩, ?_⟩
    · intro r hr'; change r ∈ x.recs at hr'; rw [hr] at hr'; simp at hr'
    · intro M' hM'
      rcases List.mem_cons.1 hM' with rfl | hM'
      · exact hn'.1
      · exact hn'.2 M' hM'
  refine b6 M ⟨htd, k2 M htd⟩ fun i j1 j2 => ?_
  have hdl := b3.dl
  rw [b3.dec i j1 j2, k3.dec i j1 (by omega)]
  exact h2 _ (hi.root i j1 (by omega))

/-- **C16 (all, after a model).** When there is nothing to go back to after a model, every model under the assumptions was
reported or is this one. -/
theorem C16_last (hn : n < varMax) (h : Reach learn n E P x) (hr : x.recs = []) (ht : x.st.Total n) (hl : Last learn x) :
    ∀ M, x.Answer E M → agreeOn (fun _ => true) n M x.st.model ∨ ∃ M' ∈ x.found, agreeOn (fun _ => true) n M M' :=
  last_dead hn (h.inv hn) hr ht hl

/-- **C16 (progress).** After every model, enumeration either continues without conflict, with that model added to the reported
ones, or stops. -/
theorem C16_continue (hn : n < varMax) (h : Reach learn n E P x) (ht : x.st.Total n) (hE : E x.st.model) :
    Last learn x ∨ ∃ y, Step learn n E P x y ∧ y.st.conflict = [] ∧ y.found = x.st.model :: x.found := by
  have hi := h.inv hn
  obtain ⟨t, e, hb⟩ := hi.bt_branch hn ht
  cases hb2 : (t.backtrack learn).2 with
  | false => exact Or.inl ⟨(t.backtrack learn).1, by rw [hb, ← hb2]⟩
  | true =>
    have hu : x.st.btCommit.1.btUpdate learn x.st.btCommit.2 = some ((t.backtrack learn).1, true) := by rw [hb, ← hb2]
    exact Or.inr ⟨_, .modelBt ht hE _ hu, (hi.modelBt hn ht hE hu).2, rfl⟩

/-! ### Enumeration by recording -/

/-- **C17 (each once).** Models reported by recording are models under the assumptions, and their projections differ
pairwise; the projection of a new model differs from all of them. -/
theorem C17_once (hn : n < varMax) (h : Reach learn n E P x) :
    (∀ r ∈ x.recs, x.Answer E r.2) ∧ (x.recs.Pairwise fun r r' => ¬ agreeOn P n r.2 r'.2) ∧
    (x.st.Total n → E x.st.model → ∀ r ∈ x.recs, ¬ agreeOn P n x.st.model r.2) := by
  have hi := h.inv hn
  refine ⟨fun r hr => answer_iff.2 ⟨(hi.rcd r hr).1, (hi.rcd r hr).2.1⟩, hi.rcp, fun ht hE r hr => ?_⟩
  obtain ⟨m1, m2⟩ := hi.model ht hE
  exact (hi.rcd r hr).2.2 _ m1.1.1 m2 (m1.2 r hr)

/-- **C17 (all).** When the solver reports that there are no more models, the projection of every model under the assumptions
was reported. -/
theorem C17_all (hn : n < varMax) (h : Reach learn n E P x) (hf : x.found = []) (hu : Unsat learn n E x) :
    ∀ M, x.Answer E M → ∃ r ∈ x.recs, agreeOn P n M r.2 := by
  intro M hM
  have hi := h.inv hn
  obtain ⟨h1, h2⟩ := answer_iff.1 hM
  rcases hi.cov M h1 h2 with hc | hc
  · exact absurd h2 (unsat_dead hn hi hu M ⟨⟨h1, hc⟩, by rw [hf]; simp⟩)
  · exact hc

/-- **C17 (decision nogood).** The recorded decision nogood is violated by exactly the assignments that make all current decisions
true. -/
theorem C17_decisions (s : St) (M : Asg) : ¬ M.satC s.decisionNogood ↔ ∀ i, 1 ≤ i → i ≤ s.dl → M.sat (s.decision i) := by
  unfold Asg.satC
  constructor
  · intro h i h1 h2
    by_contra hn
    exact h ⟨_, mem_decisionNogood.2 ⟨i, h1, h2, rfl⟩, (Asg.sat_neg M _).2 hn⟩
  · rintro h ⟨p, hp, hs⟩
    obtain ⟨i, h1, h2, rfl⟩ := mem_decisionNogood.1 hp
    exact (Asg.sat_neg M _).1 hs (h i h1 h2)

/-- **C17 (projection nogood).** The recorded projection nogood is violated by exactly the assignments that agree with the model
on the projection variables and satisfy the step literal. -/
theorem C17_projection (s : St) (step : Lit) (M : Asg) : ¬ M.satC (s.projectNogood n P step) ↔ agreeOn P n M s.model ∧ M.sat step := by
  unfold Asg.satC
  constructor
  · intro h
    refine ⟨fun v h1 h2 h3 => ?_, ?_⟩
    · by_contra hn
      exact h ⟨_, mem_projectNogood.2 (Or.inl ⟨v, h1, h2, h3, rfl⟩), (Asg.sat_neg M _).2 (fun hs => hn (sat_trueLit.1 hs))⟩
    · by_contra hn
      exact h ⟨_, mem_projectNogood.2 (Or.inr rfl), (Asg.sat_neg M _).2 hn⟩
  · rintro ⟨ha, hst⟩ ⟨p, hp, hs⟩
    rcases mem_projectNogood.1 hp with ⟨v, h1, h2, h3, rfl⟩ | rfl
    · exact (Asg.sat_neg M _).1 hs (sat_trueLit.2 (ha v h1 h2 h3))
    · exact (Asg.sat_neg M _).1 hs hst


/-! ### Concrete runs -/

namespace Ex
abbrev T : Asg → Prop := fun _ => True
abbrev A : Nat → Bool := fun _ => true
def pos (v : Nat) : Lit := ⟨v, false⟩
def nega (v : Nat) : Lit := ⟨v, true⟩

def next (x : Sys) : Sys := { x with db := ((x.db.propagate true 20).getD (x.db, false)).1 }

theorem reach_next {x : Sys} (h : Reach true 2 T A x) (hc : x.st.conflict = []) (hs : (x.db.propagate true 20).isSome = true) : Reach true 2 T A (next x) := by
  refine h.step ?_
  unfold next
  cases hh : x.db.propagate true 20 with
  | none => rw [hh] at hs; simp at hs
  | some r => exact .propagate 20 r.1 r.2 hc hh

def add (x : Sys) (C : List Lit) (id : Nat) : Sys := { x with
  db := (x.db.createPrepared true (Prep.prepareVec x.st C true) id false false true {}).1, orig := C :: x.orig, prob := id :: x.prob }

theorem reach_add {x : Sys} (h : Reach true 2 T A x) (C : List Lit) (id : Nat) (hc : x.st.conflict = []) (hf : x.found = []) (hr : x.recs = [])
      (hid : id ∉ x.db.ids) (hv : ∀ p ∈ C, p.var ≤ 2) (hlen : C.length < umax) : Reach true 2 T A (add x C id) :=
  h.step (.clause C id true false true hc hf hr hid hv hlen (Or.inl rfl))

def bt (x : Sys) : Sys := { x.setSt ((x.st.btCommit.1.btUpdate true x.st.btCommit.2).getD (x.st, false)).1 with found := x.st.model :: x.found }

theorem reach_bt {x : Sys} (h : Reach true 2 T A x) (ht : x.st.Total 2) (hs : (x.st.btCommit.1.btUpdate true x.st.btCommit.2).map Prod.snd = some true) :
    Reach true 2 T A (bt x) := by
  refine h.step ?_
  unfold bt
  cases hh : x.st.btCommit.1.btUpdate true x.st.btCommit.2 with
  | none => rw [hh] at hs; simp at hs
  | some r =>
    obtain ⟨r1, r2⟩ := r
    rw [hh] at hs
    simp at hs
    subst hs
    exact .modelBt ht trivial _ hh

def record (x : Sys) (id : Nat) : Sys := { x with
  db := (({ x.db with st := x.st.undoUntil true 0 undoDefault } : Db).createPrepared true
    (Prep.prepareVec (x.st.undoUntil true 0 undoDefault) x.st.decisionNogood false) id false false true {}).1
  recs := (x.st.decisionNogood, x.st.model) :: x.recs
  prob := id :: x.prob }

theorem reach_record {x : Sys} (h : Reach true 2 T A x) (id : Nat) (ht : x.st.Total 2) (hfd : x.found = []) (hid : id ∉ x.db.ids)
    (hu : (x.st.undoUntil true 0 undoDefault).conflict = []) (hlen : x.st.decisionNogood.length < umax) : Reach true 2 T A (record x id) :=
  h.step (.modelRec ht trivial 0 id false true _ hfd hid hu hlen (Or.inl ⟨rfl, fun _ => rfl⟩))

theorem total {s : St} (h1 : s.conflict = []) (h2 : s.front = s.trail.length) (h3 : s.value 0 ≠ none ∧ s.value 1 ≠ none ∧ s.value 2 ≠ none) : s.Total 2 :=
  ⟨h1, h2, fun v hv => by
    have : v = 0 ∨ v = 1 ∨ v = 2 := by omega
    rcases this with rfl | rfl | rfl <;> tauto⟩

/-- the clause {1, 2} -/
def x1 : Sys := add init [pos 1, pos 2] 0
/-- decision ¬1 -/
def x2 : Sys := x1.setSt (x1.st.decide' (nega 1))
/-- propagation makes 2 true: the first model -/
def x3 : Sys := next x2
/-- ... is reported; 1 holds now on level 0 -/
def x4 : Sys := bt x3
def x5 : Sys := next x4
/-- decision ¬2: the second model -/
def x6 : Sys := x5.setSt (x5.st.decide' (nega 2))
def x7 : Sys := next x6
def x8 : Sys := bt x7
/-- the third model -/
def x9 : Sys := next x8

theorem r1 : Reach true 2 T A x1 := reach_add .init _ _ (by decide +kernel) rfl rfl (by decide +kernel) (by decide +kernel) (by decide +kernel)
theorem r3 : Reach true 2 T A x3 :=
  reach_next (r1.step (.decide _ (by decide +kernel) (by decide +kernel) (by decide +kernel) (by decide +kernel))) (by decide +kernel) (by decide +kernel)
theorem t3 : x3.st.Total 2 := total (by decide +kernel) (by decide +kernel) (by decide +kernel)
theorem r5 : Reach true 2 T A x5 := reach_next (reach_bt r3 t3 (by decide +kernel)) (by decide +kernel) (by decide +kernel)
theorem r7 : Reach true 2 T A x7 :=
  reach_next (r5.step (.decide _ (by decide +kernel) (by decide +kernel) (by decide +kernel) (by decide +kernel))) (by decide +kernel) (by decide +kernel)
theorem t7 : x7.st.Total 2 := total (by decide +kernel) (by decide +kernel) (by decide +kernel)
theorem r9 : Reach true 2 T A x9 := reach_next (reach_bt r7 t7 (by decide +kernel)) (by decide +kernel) (by decide +kernel)
theorem t9 : x9.st.Total 2 := total (by decide +kernel) (by decide +kernel) (by decide +kernel)
theorem last9 : Last true x9 := by
  have : (x9.st.btCommit.1.btUpdate true x9.st.btCommit.2).map Prod.snd = some false := by decide +kernel
  unfold Last
  cases hh : x9.st.btCommit.1.btUpdate true x9.st.btCommit.2 with
  | none => rw [hh] at this; simp at this
  | some r => obtain ⟨a, b⟩ := r; rw [hh] at this; simp at this; subst this; exact ⟨a, rfl⟩

/-- the same with recording: {1} and {2} are recorded, then the empty clause -/
def y4 : Sys := next (record x3 1)
def y5 : Sys := next (y4.setSt (y4.st.decide' (nega 2)))
def y6 : Sys := next (record y5 2)
def y7 : Sys := record y6 3

theorem s4 : Reach true 2 T A y4 :=
  reach_next (reach_record r3 1 t3 (by decide +kernel) (by decide +kernel) (by decide +kernel) (by decide +kernel)) (by decide +kernel) (by decide +kernel)
theorem s5 : Reach true 2 T A y5 :=
  reach_next (s4.step (.decide _ (by decide +kernel) (by decide +kernel) (by decide +kernel) (by decide +kernel))) (by decide +kernel) (by decide +kernel)
theorem s6 : Reach true 2 T A y6 :=
  reach_next (reach_record s5 2 (total (by decide +kernel) (by decide +kernel) (by decide +kernel)) (by decide +kernel) (by decide +kernel) (by decide +kernel) (by decide +kernel))
    (by decide +kernel) (by decide +kernel)
theorem s7 : Reach true 2 T A y7 :=
  reach_record s6 3 (total (by decide +kernel) (by decide +kernel) (by decide +kernel)) (by decide +kernel) (by decide +kernel) (by decide +kernel) (by decide +kernel)
theorem u7 : Unsat true 2 T y7 := .root (by decide +kernel) (by decide +kernel)

/-- {1, 2}, {1, ¬2}, {¬1, 2}, {¬1, ¬2} -/
def z1 : Sys := add (add (add (add init [pos 1, pos 2] 0) [pos 1, nega 2] 1) [nega 1, pos 2] 2) [nega 1, nega 2] 3
/-- a conflict -/
def z2 : Sys := next (z1.setSt (z1.st.decide' (nega 1)))
def cfg : AnaCfg := { use := fun _ => true, rc := none, arc := fun _ _ _ => none }
/-- resolved by learning {1} -/
def z3 : Sys := { z2 with db := ((z2.db.resolve true cfg 20 7 false true).getD (z2.db, false)).1 }
def z4 : Sys := next z3

theorem q1 : Reach true 2 T A z1 :=
  reach_add (reach_add (reach_add r1 _ _ (by decide +kernel) rfl rfl (by decide +kernel) (by decide +kernel) (by decide +kernel))
    _ _ (by decide +kernel) rfl rfl (by decide +kernel) (by decide +kernel) (by decide +kernel))
    _ _ (by decide +kernel) rfl rfl (by decide +kernel) (by decide +kernel) (by decide +kernel)
theorem q2 : Reach true 2 T A z2 :=
  reach_next (q1.step (.decide _ (by decide +kernel) (by decide +kernel) (by decide +kernel) (by decide +kernel))) (by decide +kernel) (by decide +kernel)
theorem arcOk (F : Asg → Prop) : ArcOk F cfg.arc := fun _ _ _ _ h => by simp [cfg] at h
theorem q3 : Reach true 2 T A z3 := by
  refine q2.step ?_
  have : (z2.db.resolve true cfg 20 7 false true).map Prod.snd = some true := by decide +kernel
  unfold z3
  cases hh : z2.db.resolve true cfg 20 7 false true with
  | none => rw [hh] at this; simp at this
  | some r =>
    obtain ⟨a, b⟩ := r
    rw [hh] at this
    simp at this
    subst this
    exact .resolve cfg 20 7 false true a (by decide +kernel) (by decide +kernel) (by simp [cfg]) (arcOk _) hh
theorem q4 : Reach true 2 T A z4 := reach_next q3 (by decide +kernel) (by decide +kernel)
theorem w4 : Unsat true 2 T z4 := .root (by decide +kernel) (by decide +kernel)

/-- the clause {1, 2} under the assumption ¬1 -/
def a1 : Sys := { x1.setSt ((x1.st.decide' (nega 1)).pushRootLevel 1) with asm := [nega 1] }
def a2 : Sys := next a1
theorem b2 : Reach true 2 T A a2 :=
  reach_next (r1.step (.assume _ (by decide +kernel) (by decide +kernel) (by decide +kernel) (by decide +kernel) (by decide +kernel) rfl rfl))
    (by decide +kernel) (by decide +kernel)

/-- a clause object of four literals that becomes unit: 4 is the last literal that is not false -/
def c : Cl := ⟨pos 1, pos 4, pos 2, [pos 3], 0, true⟩
def sc : St := ((((St.init.decide' (nega 1)).decide' (nega 2)).decide' (nega 3)))
end Ex

open Ex in
example := C10_complete (by decide) r3 (by decide +kernel) (by decide +kernel)
open Ex in
example := C10_complete (by decide) s4 (by decide +kernel) (by decide +kernel)
open Ex in
example := C10_force (learn := true) sc c (nega 1) (by decide +kernel) (by decide +kernel) (Or.inl (fun h => by
  have : (c.propagate true sc (nega 1)).st.trail.length = sc.trail.length := by rw [h]
  revert this; decide +kernel))
open Ex in
example := C15_model (by decide) r3 t3 trivial
open Ex in
example := C15_model (by decide) s5 (total (by decide +kernel) (by decide +kernel) (by decide +kernel)) trivial
open Ex in
example : ¬ ∃ M, z4.Answer T M := C15_unsat (by decide) q4 (by decide +kernel) (by decide +kernel) w4
open Ex in
example : ¬ ∃ M, a2.Answer T M ∧ M.sat (nega 2) := C15_refused (by decide) b2 (by decide +kernel) (by decide +kernel) (by decide +kernel) (by decide +kernel)
open Ex in
example := C15_conflict (by decide) q2 (by decide +kernel) cfg (id := 7) false true (by decide +kernel) (by simp [cfg]) (arcOk _)
open Ex in
example := C15_conflict (by decide) q4 (by decide +kernel) cfg (id := 8) false true (by decide +kernel) (by simp [cfg]) (arcOk _)
open Ex in
example := C16_once (by decide) r9
open Ex in
/-- the problem without variables left to decide: no more models after three -/
example : ∀ M, x9.Answer T M → agreeOn (fun _ => true) 2 M x9.st.model ∨ ∃ M' ∈ x9.found, agreeOn (fun _ => true) 2 M M' :=
  C16_last (by decide) r9 (by decide +kernel) t9 last9
open Ex in
example := C16_all (by decide) q4 (by decide +kernel) w4
open Ex in
example := C16_continue (by decide) r7 t7 trivial
open Ex in
example : y7.recs.length = 3 ∧ ∀ M, y7.Answer T M → ∃ r ∈ y7.recs, agreeOn A 2 M r.2 := ⟨by decide +kernel, C17_all (by decide) s7 (by decide +kernel) u7⟩
open Ex in
example := C17_once (by decide) s7
open Ex in
example : x3.st.decisionNogood = [pos 1] ∧ x3.st.projectNogood 2 (fun v => v == 2) litTrue = [nega 2, litFalse] := by decide +kernel

end Sys
end Clasp.Core
