/- Invariants of SAT preprocessing and their preservation by the primitive operations. No code is modelled here. -/
import Verif.Sat.EliteExt
import Mathlib.Data.List.Nodup
import Mathlib.Tactic.SplitIfs
namespace Clasp.Elite
open Clasp.Core Function

/-- Specification: what is assumed about the rest of the problem, whose models are `O`: propagation returns consequences over
new variables, only variables of other constraints are assigned by it, and those are frozen. -/
structure Cx.Law (cx : Cx) (O : Asg → Prop) : Prop where
  conf : ∀ {tr}, cx.ext tr = none → ∀ M, O M → M.all tr → False
  cons : ∀ {tr ls}, cx.ext tr = some ls → ∀ M, O M → M.all tr → M.all ls
  new : ∀ {tr ls}, cx.ext tr = some ls → (tr.map Lit.var).Nodup → ((tr ++ ls).map Lit.var).Nodup
  frz : ∀ {tr ls}, cx.ext tr = some ls → ∀ l ∈ ls, cx.frozen l.var = true
  sup : ∀ {v}, cx.frozen v = false → ∀ M b, O M → O (update M v b)

/-- Specification: the models of the current problem. -/
def Sem (O : Asg → Prop) (s : St) (M : Asg) : Prop :=
  O M ∧ (∀ id c, s.cls id = some c → M.satC c) ∧ M.all s.trail

/-- The invariant of the tables of the preprocessor. -/
structure Wf (cx : Cx) (s : St) : Prop where
  ne : ∀ {id c}, s.cls id = some c → c ≠ []
  nd : ∀ {id c}, s.cls id = some c → (c.map Lit.var).Nodup
  occC : ∀ {id c l}, s.cls id = some c → l ∈ c → (id, l.sign) ∈ s.occ l.var
  occS : ∀ {id sg v c}, (id, sg) ∈ s.occ v → s.cls id = some c → (⟨v, sg⟩ : Lit) ∈ c
  occN : ∀ v, ((s.occ v).map Prod.fst).Nodup
  watC : ∀ {id x t}, s.cls id = some (x :: t) → id ∈ s.wat x.var
  watS : ∀ {id v}, id ∈ s.wat v → ∃ x t, s.cls id = some (x :: t) ∧ x.var = v
  watN : ∀ v, (s.wat v).Nodup
  proc : ∀ {id c l}, l ∈ s.trail.take s.facts → s.cls id = some c → ∀ y ∈ c, y.var ≠ l.var
  trN : (s.trail.map Lit.var).Nodup
  fle : s.facts ≤ s.trail.length
  elv : ∀ {v id c}, s.elimd v = true → s.cls id = some c → ∀ y ∈ c, y.var ≠ v
  elt : ∀ {v}, s.elimd v = true → ∀ l ∈ s.trail, l.var ≠ v
  elf : ∀ {v}, s.elimd v = true → cx.frozen v = false

/-- Proof device: only literals of `R` and false literals already propagated are marked. -/
def MkOk (R : List Lit) (s : St) : Prop :=
  ∀ v sg, s.mark v = some sg → (⟨v, !sg⟩ : Lit) ∈ s.trail.take s.facts ∨ (⟨v, sg⟩ : Lit) ∈ R

/-- Proof device: what propagation and strengthening leave alone. -/
structure Fr (s s' : St) : Prop where
  occ : ∀ {v e}, e ∈ s'.occ v → e ∈ s.occ v
  dead : ∀ {id}, s.cls id = none → s'.cls id = none
  elim : s'.elim = s.elim
  elimd : s'.elimd = s.elimd
  trail : s.trail <+: s'.trail

theorem Fr.refl (s : St) : Fr s s := ⟨fun h => h, fun h => h, rfl, rfl, List.prefix_rfl⟩
theorem Fr.trans {a b c : St} (h : Fr a b) (h' : Fr b c) : Fr a c :=
  ⟨fun x => h.occ (h'.occ x), fun x => h'.dead (h.dead x), h'.elim.trans h.elim, h'.elimd.trans h.elimd, h.trail.trans h'.trail⟩

/-- Specification: every clause has at least two literals. -/
def Two (s : St) : Prop := ∀ id c, s.cls id = some c → 2 ≤ c.length

/-- Proof device: what an operation delivers: an equivalent problem and the invariants, or the problem has no model. -/
def Post (cx : Cx) (O : Asg → Prop) (R : List Lit) (s : St) : Res St → Prop
  | .ok s' => Wf cx s' ∧ MkOk R s' ∧ Fr s s' ∧ (∀ M, Sem O s M ↔ Sem O s' M) ∧ (Two s → Two s')
  | .unsat => ∀ M, ¬ Sem O s M
  | .undef => ¬ Two s
  | .fuel => True

theorem Post.trans {cx O R s s1 r} (hf : Fr s s1) (hs : ∀ M, Sem O s M ↔ Sem O s1 M) (ht : Two s → Two s1)
    (h : Post cx O R s1 r) : Post cx O R s r := by
  cases r with
  | ok s' => exact ⟨h.1, h.2.1, hf.trans h.2.2.1, fun M => (hs M).trans (h.2.2.2.1 M), fun h1 => h.2.2.2.2 (ht h1)⟩
  | unsat => exact fun M hM => h M ((hs M).mp hM)
  | undef => exact fun h1 => h (ht h1)
  | fuel => trivial

theorem Post.bind {cx O R s r} {f : St → Res St} (h : Post cx O R s r)
    (hf : ∀ s', r = .ok s' → Wf cx s' → MkOk R s' → Fr s s' → Post cx O R s' (f s')) : Post cx O R s (r.bind f) := by
  cases r with
  | ok s' => exact Post.trans h.2.2.1 h.2.2.2.1 h.2.2.2.2 (hf s' rfl h.1 h.2.1 h.2.2.1)
  | unsat => exact h
  | undef => exact h
  | fuel => trivial

theorem Wf.pos {cx s id c} (h : Wf cx s) (hc : s.cls id = some c) : ∃ x t, c = x :: t := by
  cases c with
  | nil => exact absurd rfl (h.ne hc)
  | cons x t => exact ⟨x, t, rfl⟩

/-! ### removal of a clause -/

theorem detach_eq {s : St} {id x t} (hc : s.cls id = some (x :: t)) :
    detach id s = { s with wat := update s.wat x.var ((s.wat x.var).erase id), cls := update s.cls id none } := by
  simp [detach, hc, removeWatch]

theorem cls_update_none {s : St} {id j : Nat} {c : Cl} (h : update s.cls id none j = some c) : j ≠ id ∧ s.cls j = some c := by
  by_cases hj : j = id
  · subst hj; simp at h
  · rw [update_of_ne hj] at h; exact ⟨hj, h⟩

/-- removing a clause and its watch -/
theorem Wf.remove {cx s id x t} (h : Wf cx s) (hc : s.cls id = some (x :: t)) :
    Wf cx { s with wat := update s.wat x.var ((s.wat x.var).erase id), cls := update s.cls id none } where
  ne h1 := h.ne (cls_update_none h1).2
  nd h1 := h.nd (cls_update_none h1).2
  occC h1 := h.occC (cls_update_none h1).2
  occS h1 h2 := h.occS h1 (cls_update_none h2).2
  occN := h.occN
  watC {j y u} h1 := by
    obtain ⟨hj, h2⟩ := cls_update_none h1
    have h3 := h.watC h2
    by_cases hy : y.var = x.var
    · simp only [hy, update_self]; rw [hy] at h3
      exact (List.mem_erase_of_ne hj).mpr h3
    · simp only [update_of_ne hy]; exact h3
  watS {j v} h1 := by
    by_cases hv : v = x.var
    · subst hv; simp only [update_self] at h1
      have hj : j ≠ id := fun e => by subst e; exact (h.watN _).not_mem_erase h1
      obtain ⟨y, u, h2, h3⟩ := h.watS (List.mem_of_mem_erase h1)
      exact ⟨y, u, by simpa [update_of_ne hj] using h2, h3⟩
    · simp only [update_of_ne hv] at h1
      obtain ⟨y, u, h2, h3⟩ := h.watS h1
      have hj : j ≠ id := fun e => by subst e; rw [hc] at h2; cases h2; exact hv h3.symm
      exact ⟨y, u, by simpa [update_of_ne hj] using h2, h3⟩
  watN v := by
    by_cases hv : v = x.var
    · subst hv; simp only [update_self]; exact (h.watN _).erase _
    · simp only [update_of_ne hv]; exact h.watN v
  proc h1 h2 := h.proc h1 (cls_update_none h2).2
  trN := h.trN
  fle := h.fle
  elv h1 h2 := h.elv h1 (cls_update_none h2).2
  elt := h.elt
  elf := h.elf

theorem Wf.detach {cx s id c} (h : Wf cx s) (hc : s.cls id = some c) : Wf cx (detach id s) := by
  obtain ⟨x, t, rfl⟩ := h.pos hc
  rw [detach_eq hc]; exact h.remove hc

theorem detach_fr {cx s id c} (h : Wf cx s) (hc : s.cls id = some c) : Fr s (detach id s) := by
  obtain ⟨x, t, rfl⟩ := h.pos hc
  rw [detach_eq hc]
  refine ⟨fun h => h, fun {j} hj => ?_, rfl, rfl, List.prefix_rfl⟩
  show update s.cls id none j = none
  by_cases hji : j = id
  · subst hji; simp
  · rw [update_of_ne hji]; exact hj

theorem detach_cls {cx s id c} (h : Wf cx s) (hc : s.cls id = some c) : (detach id s).cls = update s.cls id none := by
  obtain ⟨x, t, rfl⟩ := h.pos hc
  rw [detach_eq hc]
theorem detach_mark {cx s id c} (h : Wf cx s) (hc : s.cls id = some c) :
    (detach id s).mark = s.mark ∧ (detach id s).trail = s.trail ∧ (detach id s).facts = s.facts ∧ (detach id s).occ = s.occ := by
  obtain ⟨x, t, rfl⟩ := h.pos hc
  rw [detach_eq hc]; exact ⟨rfl, rfl, rfl, rfl⟩

theorem detach_sem {cx O s id c} (h : Wf cx s) (hc : s.cls id = some c) (hi : ∀ M, Sem O (detach id s) M → M.satC c) (M : Asg) :
    Sem O s M ↔ Sem O (detach id s) M := by
  have h1 := detach_cls h hc
  have h2 := (detach_mark h hc).2.1
  constructor
  · rintro ⟨a, b, d⟩
    refine ⟨a, fun j e hj => ?_, by rw [h2]; exact d⟩
    rw [h1] at hj; exact b j e (cls_update_none hj).2
  · intro hM
    have := hi M hM
    obtain ⟨a, b, d⟩ := hM
    refine ⟨a, fun j e hj => ?_, by rw [h2] at d; exact d⟩
    by_cases hji : j = id
    · subst hji; rw [hc] at hj; cases hj; exact this
    · exact b j e (by rw [h1, update_of_ne hji]; exact hj)

theorem MkOk.of_eq {R s s'} (h : MkOk R s) (hm : s'.mark = s.mark) (ht : s'.trail = s.trail) (hf : s'.facts = s.facts) :
    MkOk R s' := by
  intro v sg hv; rw [hm] at hv; rw [ht, hf]; exact h v sg hv

/-! ### new top-level literals -/

theorem take_prefix {a b : List Lit} {n : Nat} (h : a <+: b) (hn : n ≤ a.length) : b.take n = a.take n := by
  obtain ⟨t, rfl⟩ := h
  rw [List.take_append_of_le_length hn]

theorem addUnit_gen {cx O R s} (hl : cx.Law O) (h : Wf cx s) (hm : MkOk R s) {l : Lit} (he : s.elimd l.var = false) :
    match addUnit cx l s with
    | .ok s' => Wf cx s' ∧ MkOk R s' ∧ Fr s s' ∧ (∀ M, (Sem O s M ∧ M.sat l) ↔ Sem O s' M) ∧
        s' = { s with trail := s'.trail }
    | .unsat => ∀ M, Sem O s M → ¬ M.sat l
    | .undef => False
    | .fuel => False := by
  unfold addUnit
  split_ifs with h1 h2
  · exact ⟨h, hm, Fr.refl s, fun M => ⟨fun h => h.1, fun h => ⟨h, h.2.2 _ h1⟩⟩, rfl⟩
  · intro M hM
    have := hM.2.2 _ h2
    rwa [Asg.sat_neg] at this
  · have hnd : ((s.trail ++ [l]).map Lit.var).Nodup := by
      rw [List.map_append, List.nodup_append]
      refine ⟨h.trN, by simp, fun a ha b hb hab => ?_⟩
      simp only [List.map_cons, List.map_nil, List.mem_singleton] at hb
      obtain ⟨y, hy, rfl⟩ := List.mem_map.mp ha
      rw [hb] at hab
      rcases Lit.eq_or_neg hab with rfl | rfl
      · exact h1 hy
      · exact h2 hy
    cases hx : cx.ext (s.trail ++ [l]) with
    | none =>
      intro M hM hs
      refine hl.conf hx M hM.1 ?_
      intro y hy
      rcases List.mem_append.mp hy with hy | hy
      · exact hM.2.2 y hy
      · simp only [List.mem_singleton] at hy; subst hy; exact hs
    | some ls =>
      have hpre : s.trail <+: s.trail ++ [l] ++ ls := ⟨[l] ++ ls, by simp⟩
      refine ⟨{ h with proc := ?_, trN := ?_, fle := ?_, elt := ?_ }, ?_, ⟨fun h => h, fun h => h, rfl, rfl, hpre⟩, ?_, rfl⟩
      · intro id c y hy
        simp only [take_prefix hpre h.fle] at hy
        exact h.proc hy
      · exact hl.new hx hnd
      · exact Nat.le_trans h.fle hpre.length_le
      · intro v hv y hy hyv
        simp only [List.append_assoc, List.mem_append, List.mem_singleton] at hy
        rcases hy with hy | rfl | hy
        · exact h.elt hv y hy hyv
        · rw [hyv] at he; rw [he] at hv; cases hv
        · have h3 := hl.frz hx y hy
          have h4 := h.elf hv
          rw [hyv, h4] at h3; cases h3
      · intro v sg hv
        simp only [take_prefix hpre h.fle]; exact hm v sg hv
      · intro M
        constructor
        · rintro ⟨⟨a, b, d⟩, hl'⟩
          have hd : M.all (s.trail ++ [l]) := by
            intro y hy
            rcases List.mem_append.mp hy with hy | hy
            · exact d y hy
            · simp only [List.mem_singleton] at hy; subst hy; exact hl'
          refine ⟨a, b, fun y hy => ?_⟩
          rcases List.mem_append.mp hy with hy | hy
          · exact hd y hy
          · exact hl.cons hx M a hd y hy
        · rintro ⟨a, b, d⟩
          exact ⟨⟨a, b, fun y hy => d y (by simp [hy])⟩, d l (by simp)⟩

theorem addUnit_post {cx O R s} (hl : cx.Law O) (h : Wf cx s) (hm : MkOk R s) {l : Lit} (he : s.elimd l.var = false)
    (hi : ∀ M, Sem O s M → M.sat l) : Post cx O R s (addUnit cx l s) := by
  have := addUnit_gen (l := l) hl h hm he
  cases hu : addUnit cx l s <;> rw [hu] at this
  · obtain ⟨a, b, c, d, e⟩ := this
    exact ⟨a, b, c, fun M => ⟨fun h => (d M).mp ⟨h, hi M h⟩, fun h => ((d M).mpr h).1⟩, fun h2 => by rw [e]; exact h2⟩
  · exact fun M hM => this M hM (hi M hM)
  · exact this.elim
  · exact this.elim

end Clasp.Elite
