/- Propagation of facts and backward subsumption keep the invariants and the models. No code is modelled here. -/
import Verif.Sat.EliteStr
namespace Clasp.Elite
open Clasp.Core Function

/-- Proof device: the state with another occurrence list for `v`. -/
def V (s : St) (v : Nat) (xs : List (Nat × Bool)) : St := { s with occ := update s.occ v xs }

theorem Wf.setOcc {cx s v xs} (h : Wf cx s) (hs : xs.Sublist (s.occ v))
    (hk : ∀ id c l, s.cls id = some c → l ∈ c → l.var = v → (id, l.sign) ∈ xs) : Wf cx (V s v xs) := by
  refine { h with occC := ?_, occS := ?_, occN := ?_ }
  · intro id c l hc hl
    show _ ∈ update s.occ v xs l.var
    by_cases hv : l.var = v
    · rw [hv, update_self]; exact hk id c l hc hl hv
    · rw [update_of_ne hv]; exact h.occC hc hl
  · intro id sg w c hc hcl
    replace hc : _ ∈ update s.occ v xs w := hc
    by_cases hv : w = v
    · subst hv; rw [update_self] at hc; exact h.occS (hs.subset hc) hcl
    · rw [update_of_ne hv] at hc; exact h.occS hc hcl
  · intro w
    show ((update s.occ v xs w).map _).Nodup
    by_cases hv : w = v
    · subst hv; rw [update_self]; exact (h.occN w).sublist (hs.map _)
    · rw [update_of_ne hv]; exact h.occN w

@[simp] theorem V_occ (s : St) (v : Nat) (xs) : (V s v xs).occ v = xs := by simp [V]
@[simp] theorem V_V (s : St) (v : Nat) (xs ys) : V (V s v xs) v ys = V s v ys := by simp [V]
theorem V_sem {O s v xs} (M : Asg) : Sem O s M ↔ Sem O (V s v xs) M := Iff.rfl
theorem V_self (s : St) (v : Nat) : V s v (s.occ v) = s := by simp [V]

theorem V_fr {s v xs ys} (h : ∀ e ∈ ys, e ∈ xs) : Fr (V s v xs) (V s v ys) := by
  refine ⟨fun {w e} he => ?_, fun h => h, rfl, rfl, List.prefix_rfl⟩
  show e ∈ update s.occ v xs w
  replace he : e ∈ update s.occ v ys w := he
  by_cases hw : w = v
  · subst hw; rw [update_self] at he ⊢; exact h e he
  · rw [update_of_ne hw] at he ⊢; exact he

/-- dropping the entry of a removed clause -/
theorem Wf.dropDead {cx s v e} {as xs : List (Nat × Bool)} (h : Wf cx (V s v (as ++ e :: xs))) (hd : s.cls e.1 = none) :
    Wf cx (V s v (as ++ xs)) := by
  have := h.setOcc (v := v) (xs := as ++ xs) (by simp) (fun id c l hc hl hv => by
    have h1 := h.occC hc hl
    subst hv
    rw [V_occ] at h1
    simp only [List.mem_append, List.mem_cons] at h1 ⊢
    rcases h1 with h1 | h1 | h1
    · exact Or.inl h1
    · rw [← h1] at hd; rw [show s.cls id = some c from hc] at hd; cases hd
    · exact Or.inr h1)
  simpa using this

theorem Two_detach {cx s id c} (h : Wf cx s) (hc : s.cls id = some c) (h2 : Two s) : Two (detach id s) := by
  intro j e hj
  rw [detach_cls h hc] at hj
  exact h2 j e (cls_update_none hj).2

theorem detach_V (s : St) (id v : Nat) (xs) : detach id (V s v xs) = V (detach id s) v xs := by
  unfold detach V
  simp only []
  split
  · rfl
  · rfl

/-- `strengthen_post` for the state whose list of `v` is `as ++ (id, l.sign) :: xs` -/
theorem strengthen_V {cx O R s id c l} {as xs : List (Nat × Bool)} (hl : cx.Law O) (h : Wf cx (V s l.var (as ++ (id, l.sign) :: xs)))
    (hm : MkOk R s) (hc : s.cls id = some c) (hlc : l ∈ c) (hi : ∀ M, Sem O s M → M.satC (c.erase l)) :
    Post cx O R (V s l.var (as ++ (id, l.sign) :: xs))
      ((strengthenClause cx id l s).bind fun s' => .ok (V s' l.var (as ++ xs))) := by
  have hn : (id, l.sign) ∉ as := by
    have := h.occN l.var
    rw [V_occ, List.map_append, List.nodup_append] at this
    intro hin
    exact this.2.2 id (List.mem_map.mpr ⟨_, hin, rfl⟩) id (by simp) rfl
  have := strengthen_post (s := V s l.var (as ++ (id, l.sign) :: xs)) hl h (hm.of_eq rfl rfl rfl) hc hlc (fun M hM => hi M hM)
  rw [V_occ, List.erase_append_right _ hn, List.erase_cons_head] at this
  unfold V at this
  rw [strengthen_occ] at this
  simp only [update_idem] at this
  unfold V
  cases hst : strengthenClause cx id l s with
  | ok s' =>
    rw [hst] at this
    have hf := strengthen_frame hst
    show Post _ _ _ _ (.ok _)
    rw [hf.1]
    exact this
  | unsat => rw [hst] at this; exact this
  | undef => rw [hst] at this; exact this
  | fuel => rw [hst] at this; exact this

theorem satC_erase_of_true {M : Asg} {c : Cl} {l : Lit} (h : M.satC c) (hl : M.sat l.neg) : M.satC (c.erase l) := by
  obtain ⟨y, hy, hs⟩ := h
  refine ⟨y, (List.mem_erase_of_ne ?_).mpr hy, hs⟩
  rintro rfl
  rw [Asg.sat_neg] at hl; exact hl hs

theorem lit_mk_eq {l : Lit} : (⟨l.var, l.sign⟩ : Lit) = l := rfl
theorem bool_ne {a b : Bool} (h : a ≠ b) : a = !b := by cases a <;> cases b <;> simp_all

theorem factLoop_post {cx O R} (hl : cx.Law O) (l : Lit) : ∀ (xs : List (Nat × Bool)) (s : St),
    Wf cx (V s l.var xs) → MkOk R s → l ∈ s.trail →
    Post cx O R (V s l.var xs) ((factLoop cx l xs s).bind fun s' => .ok (V s' l.var []))
  | [], s, h, hm, _ => ⟨h, hm.of_eq rfl rfl rfl, Fr.refl _, fun _ => Iff.rfl, fun h => h⟩
  | (id, sg) :: xs, s, h, hm, ht => by
    unfold factLoop
    split
    · next hd =>
      have h1 := h.dropDead (as := []) hd
      exact Post.trans (s1 := V s l.var xs) (V_fr (by simp +contextual)) (fun _ => Iff.rfl) (fun h => h) (factLoop_post hl l xs s h1 hm ht)
    · next c hc =>
      have hin : (⟨l.var, sg⟩ : Lit) ∈ c := h.occS (v := l.var) (id := id) (sg := sg) (by simp) hc
      split
      · next hsg =>
        subst hsg
        have hd := h.detach (id := id) hc
        have hfr := detach_fr h (id := id) hc
        have hds := detach_mark h (id := id) hc
        have hsem := detach_sem (O := O) h (id := id) hc (fun M hM => ⟨l, hin, hM.2.2 l (by rw [hds.2.1]; exact ht)⟩)
        have h2 := Two_detach h (id := id) hc
        rw [detach_V] at hd hfr h2 hds
        simp only [detach_V] at hsem
        have hdead : (detach id s).cls id = none := by
          have := detach_cls h (id := id) hc
          rw [detach_V] at this
          show (V (detach id s) l.var ((id, l.sign) :: xs)).cls id = none
          rw [this]; simp
        have h1 := hd.dropDead (as := []) hdead
        refine Post.trans hfr hsem h2 (Post.trans (s1 := V (detach id s) l.var xs) (V_fr (by simp +contextual)) (fun _ => Iff.rfl) (fun h => h)
          (factLoop_post hl l xs _ h1 (hm.of_eq hds.1 hds.2.1 hds.2.2.1) ?_))
        rw [show (detach id s).trail = s.trail from hds.2.1]; exact ht
      · next hsg =>
        have hsg : sg = l.neg.sign := bool_ne hsg
        subst hsg
        have hp := strengthen_V (l := l.neg) (as := []) (R := R) hl h hm hc hin (fun M hM => by
          apply satC_erase_of_true (hM.2.1 id c hc)
          rw [Lit.neg_neg]; exact hM.2.2 l ht)
        cases hst : strengthenClause cx id l.neg s with
        | ok s1 =>
          rw [hst] at hp
          obtain ⟨p1, p2, p3, p4, p5⟩ := hp
          exact Post.trans p3 p4 p5 (factLoop_post hl l xs s1 p1 p2 (p3.trail.subset ht))
        | unsat => rw [hst] at hp; exact hp
        | undef => rw [hst] at hp; exact hp
        | fuel => trivial

theorem factLoop_frame {cx : Cx} {l : Lit} : ∀ (xs : List (Nat × Bool)) (s s' : St), factLoop cx l xs s = .ok s' →
    s'.occ = s.occ ∧ s'.mark = s.mark ∧ s'.facts = s.facts
  | [], s, s', h => by cases h; exact ⟨rfl, rfl, rfl⟩
  | (id, sg) :: xs, s, s', h => by
    have hd : (detach id s).occ = s.occ ∧ (detach id s).mark = s.mark ∧ (detach id s).facts = s.facts := by
      unfold detach; split <;> exact ⟨rfl, rfl, rfl⟩
    unfold factLoop at h
    split at h
    · exact factLoop_frame xs s s' h
    · split at h
      · have := factLoop_frame xs _ s' h
        rw [hd.1, hd.2.1, hd.2.2] at this; exact this
      · cases hst : strengthenClause cx id l.neg s with
        | ok s1 =>
          rw [hst] at h
          have h1 := factLoop_frame xs s1 s' h
          have h2 := strengthen_frame hst
          rw [h2.1, h2.2.1, h2.2.2.1] at h1; exact h1
        | unsat => rw [hst] at h; cases h
        | undef => rw [hst] at h; cases h
        | fuel => rw [hst] at h; cases h

/-- after the clauses of a fact are gone -/
theorem closeFact_post {cx O R s l} (h : Wf cx (V s l.var [])) (hm : MkOk R s) (ht : s.trail[s.facts]? = some l) :
    Post cx O R (V s l.var []) (.ok (closeFact l s)) := by
  have hno : ∀ {id c}, s.cls id = some c → ∀ y ∈ c, y.var ≠ l.var := fun hc y hy hv => by
    have := h.occC hc hy
    rw [hv, V_occ] at this; cases this
  have hwn : s.wat l.var = [] := by
    apply List.eq_nil_iff_forall_not_mem.mpr
    intro id hid
    obtain ⟨x, t, h1, h2⟩ := h.watS (v := l.var) hid
    exact hno h1 x (by simp) h2
  have hw : update s.wat l.var [] = s.wat := by rw [← hwn, update_eq_self]
  have hlt : s.facts < s.trail.length := by
    by_contra hn
    rw [List.getElem?_eq_none (by omega)] at ht; cases ht
  have htk : s.trail.take (s.facts + 1) = s.trail.take s.facts ++ [l] := by
    rw [List.take_add_one, ht]; simp
  refine ⟨?_, ?_, ⟨fun {v e} he => he, fun h => h, rfl, rfl, List.prefix_rfl⟩, fun _ => Iff.rfl, fun h => h⟩
  · have h' : Wf cx { V s l.var [] with mark := update s.mark l.var (some (!l.sign)), facts := s.facts + 1 } := by
      refine { h with proc := ?_, fle := hlt }
      intro id c y hy hc
      simp only [V, htk, List.mem_append, List.mem_singleton] at hy
      rcases hy with hy | rfl
      · exact h.proc hy hc
      · exact hno hc
    unfold closeFact
    rw [hw]
    exact h'
  · intro v sg hv
    show _ ∈ s.trail.take (s.facts + 1) ∨ _
    rw [htk]
    replace hv : update s.mark l.var (some (!l.sign)) v = some sg := hv
    by_cases hvl : v = l.var
    · subst hvl
      rw [update_self] at hv
      cases hv
      left; simp
    · rw [update_of_ne hvl] at hv
      rcases hm v sg hv with h1 | h1
      · left; simp [h1]
      · exact Or.inr h1

theorem propFacts_post {cx O R} (hl : cx.Law O) : ∀ (n : Nat) (s : St), Wf cx s → MkOk R s → Post cx O R s (propFacts cx n s)
  | 0, s, h, hm => by
    unfold propFacts
    split
    · exact ⟨h, hm, Fr.refl s, fun _ => Iff.rfl, fun h => h⟩
    · trivial
  | n + 1, s, h, hm => by
    unfold propFacts
    split
    · exact ⟨h, hm, Fr.refl s, fun _ => Iff.rfl, fun h => h⟩
    · next l hlt =>
      have hp := factLoop_post (R := R) hl l (s.occ l.var) s (by rw [V_self]; exact h) hm (List.mem_of_getElem? hlt)
      rw [V_self] at hp
      cases hf : factLoop cx l (s.occ l.var) s with
      | ok s1 =>
        rw [hf] at hp
        obtain ⟨p1, p2, p3, p4, p5⟩ := hp
        have hfr := factLoop_frame _ _ _ hf
        have ht1 : s1.trail[s1.facts]? = some l := by
          rw [hfr.2.2]
          have h1 := p3.trail
          obtain ⟨t, ht⟩ := h1
          have ht : s.trail ++ t = s1.trail := ht
          rw [← ht, List.getElem?_append_left]
          · exact hlt
          · by_contra hn
            rw [List.getElem?_eq_none (by omega)] at hlt; cases hlt
        have hc := closeFact_post (O := O) (R := R) p1 p2 ht1
        obtain ⟨q1, q2, q3, q4, q5⟩ := hc
        exact Post.trans p3 p4 p5 (Post.trans q3 q4 q5 (propFacts_post hl n _ q1 q2))
      | unsat => rw [hf] at hp; exact hp
      | undef => rw [hf] at hp; exact hp
      | fuel => trivial

/-! ### marks -/

theorem markAll_some : ∀ {c : Cl} {mk : Marks} {v sg}, markAll mk c v = some sg → mk v = some sg ∨ (⟨v, sg⟩ : Lit) ∈ c
  | [], _, _, _, h => Or.inl h
  | l :: c, mk, v, sg, h => by
    rcases markAll_some (c := c) h with h1 | h1
    · by_cases hv : v = l.var
      · subst hv; rw [update_self] at h1; cases h1; exact Or.inr (by simp)
      · rw [update_of_ne hv] at h1; exact Or.inl h1
    · exact Or.inr (List.mem_cons_of_mem _ h1)

theorem unmarkAll_apply : ∀ (c : Cl) (mk : Marks) (v : Nat), unmarkAll mk c v = if v ∈ c.map Lit.var then none else mk v
  | [], _, _ => by simp [unmarkAll]
  | l :: c, mk, v => by
    rw [unmarkAll, unmarkAll_apply c]
    by_cases h1 : v ∈ c.map Lit.var
    · simp only [h1, if_true, List.map_cons, List.mem_cons, or_true]
    · by_cases hv : v = l.var
      · subst hv; simp [h1]
      · simp only [List.map_cons, List.mem_cons, hv, h1, or_self, if_false, update_of_ne hv]

/-! ### `subsumes` -/

/-- Specification of `subsumes` (satelite.cpp:231-236): when it returns `lit_true()` the clause is part of the other clause, when
it returns a literal, that is the only literal not in the other clause, which contains its complement. -/
def SubSpec (other c : Cl) (res : Option Lit) : Sub → Prop
  | .no => True
  | .all => res = none ∧ ∀ l ∈ c, l ∈ other
  | .lit p => (res = none → p ∈ c ∧ p.neg ∈ other) ∧ (∀ r, res = some r → p = r) ∧ ∀ l ∈ c, l ≠ p → l ∈ other

theorem SubSpec.same {other c res l r} (h : SubSpec other c res r) (hl : l ∈ other) : SubSpec other (l :: c) res r := by
  cases r with
  | no => trivial
  | all => exact ⟨h.1, fun y hy => by rcases List.mem_cons.mp hy with rfl | hy; exacts [hl, h.2 y hy]⟩
  | lit p =>
    exact ⟨fun hn => ⟨List.mem_cons_of_mem _ (h.1 hn).1, (h.1 hn).2⟩, h.2.1, fun y hy hne => by
      rcases List.mem_cons.mp hy with rfl | hy
      · exact hl
      · exact h.2.2 y hy hne⟩

theorem SubSpec.opp {other c res l r} (h : SubSpec other c (some l) r) (hl : l.neg ∈ other) (hres : res = none ∨ res = some l) :
    SubSpec other (l :: c) res r := by
  cases r with
  | no => trivial
  | all => exact absurd h.1 (by simp)
  | lit p =>
    have hp := h.2.1 l rfl
    subst hp
    refine ⟨fun _ => ⟨by simp, hl⟩, fun r hr => ?_, fun y hy hne => ?_⟩
    · rcases hres with h1 | h1 <;> rw [h1] at hr <;> cases hr; rfl
    · rcases List.mem_cons.mp hy with rfl | hy
      · exact absurd rfl hne
      · exact h.2.2 y hy hne

theorem SubSpec.nil (other : Cl) (res : Option Lit) : SubSpec other [] res (.of res) := by
  cases res with
  | none => exact ⟨rfl, by simp⟩
  | some l => exact ⟨fun h => (nomatch h), fun r h => Option.some.inj h, by simp⟩

theorem lit_of_sign {q l : Lit} (hv : q.var = l.var) (hs : q.sign = l.sign) : q = l := by
  cases q; cases l; simp_all
theorem lit_of_nsign {q l : Lit} (hv : q.var = l.var) (hs : ¬ q.sign = l.sign) : q = l.neg := by
  rcases Lit.eq_or_neg hv with rfl | rfl
  · exact absurd rfl hs
  · rfl

theorem subShort_spec (other : Cl) : ∀ (c : Cl) (res : Option Lit), SubSpec other c res (subShort other c res)
  | [], res => SubSpec.nil other res
  | l :: c, res => by
    unfold subShort
    split
    · trivial
    · next q hq =>
      have hqm := List.mem_of_find?_eq_some hq
      have hqv : q.var = l.var := by have := List.find?_some hq; simpa using this
      split
      · next hs => exact (subShort_spec other c res).same (lit_of_sign hqv hs ▸ hqm)
      · next hs =>
        have hn : l.neg ∈ other := lit_of_nsign hqv hs ▸ hqm
        split
        · exact (subShort_spec other c _).opp hn (Or.inl rfl)
        · next r =>
          split
          · next hr => subst hr; exact (subShort_spec other c _).opp hn (Or.inr rfl)
          · trivial

theorem subLong_spec (other : Cl) (mk : Marks) : ∀ (c : Cl) (res : Option Lit),
    (∀ l ∈ c, ∀ sg, mk l.var = some sg → (⟨l.var, sg⟩ : Lit) ∈ other) → SubSpec other c res (subLong mk c res)
  | [], res, _ => SubSpec.nil other res
  | l :: c, res, hm => by
    have hm' : ∀ l ∈ c, ∀ sg, mk l.var = some sg → (⟨l.var, sg⟩ : Lit) ∈ other := fun l h => hm l (List.mem_cons_of_mem _ h)
    unfold subLong
    split
    · trivial
    · next sg hq =>
      have hqm := hm l (by simp) sg hq
      split
      · next hs => exact (subLong_spec other mk c res hm').same (by rw [hs] at hqm; exact hqm)
      · next hs =>
        have hn : l.neg ∈ other := lit_of_nsign (q := ⟨l.var, sg⟩) (l := l) rfl hs ▸ hqm
        split
        · exact (subLong_spec other mk c _ hm').opp hn (Or.inl rfl)
        · next r =>
          split
          · next hr => subst hr; exact (subLong_spec other mk c _ hm').opp hn (Or.inr rfl)
          · trivial

theorem subsumes_spec {mk : Marks} {c other : Cl} {res : Option Lit} (hm : ∀ l ∈ c, mk l.var = none) :
    SubSpec other c res (subsumes mk c other res).1 := by
  unfold subsumes
  split
  · trivial
  · split
    · exact subShort_spec other c res
    · refine subLong_spec other _ c res (fun l hl sg h => ?_)
      rcases markAll_some h with h1 | h1
      · rw [hm l hl] at h1; cases h1
      · exact h1

theorem subsumes_mark {mk : Marks} {c other : Cl} {res : Option Lit} {v sg} (h : (subsumes mk c other res).2 v = some sg) :
    mk v = some sg := by
  unfold subsumes at h
  split at h
  · exact h
  · split at h
    · exact h
    · simp only [unmarkAll_apply] at h
      split at h
      · cases h
      · next hn =>
        rcases markAll_some h with h1 | h1
        · exact h1
        · exact absurd (List.mem_map.mpr ⟨_, h1, rfl⟩) hn

/-- no literal of a clause is marked -/
theorem no_mark {cx s id c} (h : Wf cx s) (hm : MkOk [] s) (hc : s.cls id = some c) : ∀ l ∈ c, s.mark l.var = none := by
  intro l hl
  cases hx : s.mark l.var with
  | none => rfl
  | some sg =>
    rcases hm _ _ hx with h1 | h1
    · exact absurd rfl (h.proc h1 hc l hl)
    · cases h1

/-! ### the loop over all clauses containing a variable -/

theorem subLoop_post {cx O} (hl : cx.Law O) (id : Nat) (c : Cl) (best : Lit) (hb : best ∈ c) :
    ∀ (xs acc : List (Nat × Bool)) (s : St), Wf cx (V s best.var (acc ++ xs)) → MkOk [] s → s.cls id = some c →
    Post cx O [] (V s best.var (acc ++ xs)) (subLoop cx id c best xs acc s)
  | [], acc, s, h, hm, _ => by
    simp only [List.append_nil] at h ⊢
    exact ⟨h, hm.of_eq rfl rfl rfl, Fr.refl _, fun _ => Iff.rfl, fun h => h⟩
  | (o, sg) :: xs, acc, s, h, hm, hc => by
    have keep : ∀ s1 : St, Wf cx (V s1 best.var (acc ++ (o, sg) :: xs)) → MkOk [] s1 → s1.cls id = some c →
        Post cx O [] (V s1 best.var (acc ++ (o, sg) :: xs)) (subLoop cx id c best xs (acc ++ [(o, sg)]) s1) := by
      intro s1 h1 h2 h3
      have := subLoop_post hl id c best hb xs (acc ++ [(o, sg)]) s1 (by simpa using h1) h2 h3
      simpa using this
    have drop : ∀ s1 : St, s1.cls o = none → Wf cx (V s1 best.var (acc ++ (o, sg) :: xs)) → MkOk [] s1 → s1.cls id = some c →
        Post cx O [] (V s1 best.var (acc ++ (o, sg) :: xs)) (subLoop cx id c best xs acc s1) := by
      intro s1 h0 h1 h2 h3
      refine Post.trans (s1 := V s1 best.var (acc ++ xs)) (V_fr (fun e he => ?_)) (fun _ => Iff.rfl) (fun h => h)
        (subLoop_post hl id c best hb xs acc s1 (h1.dropDead h0) h2 h3)
      simp only [List.mem_append, List.mem_cons] at he ⊢
      rcases he with he | he
      · exact Or.inl he
      · exact Or.inr (Or.inr he)
    unfold subLoop
    split
    · next hd => exact drop s hd h hm hc
    · next oc hoc =>
      split
      · exact keep s h hm hc
      · next hne =>
        have hin : (⟨best.var, sg⟩ : Lit) ∈ oc := h.occS (v := best.var) (id := o) (sg := sg) (by simp) hoc
        have hspec := subsumes_spec (mk := s.mark) (c := c) (other := oc) (res := if best.sign = sg then none else some best)
          (no_mark (s := V s best.var (acc ++ (o, sg) :: xs)) h (hm.of_eq rfl rfl rfl) (id := id) hc)
        have hmk := fun v sg' => subsumes_mark (mk := s.mark) (c := c) (other := oc)
          (res := if best.sign = sg then none else some best) (v := v) (sg := sg')
        generalize subsumes s.mark c oc (if best.sign = sg then none else some best) = r at hspec hmk
        obtain ⟨r1, mk1⟩ := r
        simp only [] at hspec hmk ⊢
        -- the state with the marks `subsumes` leaves
        have hm1 : MkOk [] { s with mark := mk1 } := fun v sg' hv => hm v sg' (hmk v sg' hv)
        have h1 : Wf cx (V { s with mark := mk1 } best.var (acc ++ (o, sg) :: xs)) := { h with }
        have hc1 : ({ s with mark := mk1 } : St).cls id = some c := hc
        have hoc1 : ({ s with mark := mk1 } : St).cls o = some oc := hoc
        have tr : ∀ {r}, Post cx O [] (V { s with mark := mk1 } best.var (acc ++ (o, sg) :: xs)) r →
            Post cx O [] (V s best.var (acc ++ (o, sg) :: xs)) r := fun hp =>
          Post.trans (s1 := V { s with mark := mk1 } best.var (acc ++ (o, sg) :: xs))
            ⟨fun h => h, fun h => h, rfl, rfl, List.prefix_rfl⟩ (fun _ => Iff.rfl) (fun h => h) hp
        apply tr
        clear tr hmk
        generalize ({ s with mark := mk1 } : St) = s1 at *
        cases r1 with
        | no => exact keep s1 h1 hm1 hc1
        | all =>
          simp only []
          have hd := h1.detach (id := o) hoc1
          have hfr := detach_fr h1 (id := o) hoc1
          have hds := detach_mark h1 (id := o) hoc1
          have hcls := detach_cls h1 (id := o) hoc1
          have hsem := detach_sem (O := O) h1 (id := o) hoc1 (fun M hM => by
            obtain ⟨y, hy, hs⟩ := hM.2.1 id c (by rw [hcls, update_of_ne (Ne.symm hne)]; exact hc1)
            exact ⟨y, hspec.2 y hy, hs⟩)
          have h2 := Two_detach h1 (id := o) hoc1
          simp only [detach_V] at hd hfr h2 hds hsem hcls
          have hcls' : (detach o s1).cls = update s1.cls o none := hcls
          exact Post.trans hfr hsem h2 (drop _ (by rw [hcls']; simp) hd (hm1.of_eq hds.1 hds.2.1 hds.2.2.1)
            (by rw [hcls', update_of_ne (Ne.symm hne)]; exact hc1))
        | lit p =>
          simp only []
          have hp : p ∈ c ∧ p.neg ∈ oc := by
            by_cases hs : best.sign = sg
            · rw [if_pos hs] at hspec; exact hspec.1 rfl
            · rw [if_neg hs] at hspec
              have := hspec.2.1 best rfl
              subst this
              exact ⟨hb, lit_of_nsign (q := ⟨p.var, sg⟩) (l := p) rfl (Ne.symm hs) ▸ hin⟩
          have himp : ∀ M, Sem O s1 M → M.satC (oc.erase p.neg) := by
            intro M hM
            by_cases hps : M.sat p
            · exact satC_erase_of_true (hM.2.1 o oc hoc1) (by rw [Lit.neg_neg]; exact hps)
            · obtain ⟨y, hy, hs⟩ := hM.2.1 id c hc1
              have hyp : y ≠ p := fun e => hps (e ▸ hs)
              refine ⟨y, (List.mem_erase_of_ne ?_).mpr (hspec.2.2 y hy hyp), hs⟩
              intro e
              exact hyp (lit_eq_of_var (h1.nd (id := id) hc1) hy hp.1 (by rw [e]; rfl))
          by_cases hpb : p.var = best.var
          · -- the entry leaves the list
            have hsg : sg = p.neg.sign := by
              have := lit_eq_of_var (h1.nd (id := o) hoc1) hin hp.2 (by simp [hpb])
              rw [← this]
            have hdo : dropOcc best p.neg o s1 = s1 := by unfold dropOcc; rw [if_pos (by simpa using hpb)]
            rw [hdo]
            have hbp : best.var = p.neg.var := by simp [hpb]
            rw [hbp, hsg] at h1 ⊢
            have hpost := strengthen_V (l := p.neg) hl h1 hm1 hoc1 hp.2 himp
            cases hst : strengthenClause cx o p.neg s1 with
            | ok s2 =>
              rw [hst] at hpost
              obtain ⟨p1, p2, p3, p4, p5⟩ := hpost
              have hfrm := strengthen_frame hst
              simp only [Res.bind]
              rw [if_pos (Or.inl (by simp))]
              rw [← hbp] at p1 p2 p3 p4 p5 ⊢
              exact Post.trans p3 p4 p5 (subLoop_post hl id c best hb xs acc s2 p1 p2
                (by rw [hfrm.2.2.2 id (Ne.symm hne)]; exact hc1))
            | unsat => rw [hst] at hpost; exact hpost
            | undef => rw [hst] at hpost; exact hpost
            | fuel => trivial
          · have hdo : dropOcc best p.neg o s1 = { s1 with occ := update s1.occ p.var ((s1.occ p.var).erase (o, p.neg.sign)) } := by
              unfold dropOcc; rw [if_neg (by simpa using hpb)]; rfl
            rw [hdo, strengthen_occ]
            have hpost := strengthen_post (s := V s1 best.var (acc ++ (o, sg) :: xs)) (l := p.neg) (R := []) hl h1
              (hm1.of_eq rfl rfl rfl) hoc1 hp.2 himp
            have hocc : (V s1 best.var (acc ++ (o, sg) :: xs)).occ p.neg.var = s1.occ p.var := by
              show update _ _ _ _ = _
              rw [update_of_ne (by simpa using hpb)]; rfl
            rw [hocc] at hpost
            have hV : strengthenClause cx o p.neg (V s1 best.var (acc ++ (o, sg) :: xs)) =
                (strengthenClause cx o p.neg s1).bind fun s' => .ok { s' with occ := update s1.occ best.var (acc ++ (o, sg) :: xs) } :=
              strengthen_occ _
            rw [hV] at hpost
            cases hst : strengthenClause cx o p.neg s1 with
            | ok s2 =>
              rw [hst] at hpost
              simp only [Res.bind] at hpost ⊢
              have hfrm := strengthen_frame hst
              generalize hys : (s1.occ p.var).erase (o, p.neg.sign) = ys at hpost ⊢
              generalize hzs : acc ++ (o, sg) :: xs = zs at hpost keep drop ⊢
              have heq : ({ s2 with occ := update (V s1 best.var zs).occ p.neg.var ys } : St) =
                  V { s2 with occ := update s1.occ p.var ys } best.var zs := by
                unfold V
                simp only [Lit.neg_var]
                rw [update_comm hpb]
              rw [heq] at hpost
              obtain ⟨p1, p2, p3, p4, p5⟩ := hpost
              have hc3 : s2.cls id = some c := by rw [hfrm.2.2.2 id (Ne.symm hne)]; exact hc1
              refine Post.trans p3 p4 p5 ?_
              split
              · next hor => exact drop { s2 with occ := update s1.occ p.var ys } (hor.resolve_left hpb) p1 p2 hc3
              · exact keep { s2 with occ := update s1.occ p.var ys } p1 p2 hc3
            | unsat => rw [hst] at hpost; exact hpost
            | undef => rw [hst] at hpost; exact hpost
            | fuel => trivial

theorem subsumeWith_post {cx O} (hl : cx.Law O) (fuel id : Nat) (best : Lit) (s : St) (h : Wf cx s) (hm : MkOk [] s) :
    Post cx O [] s (subsumeWith cx fuel id best s) := by
  unfold subsumeWith
  split
  · exact ⟨h, hm, Fr.refl s, fun _ => Iff.rfl, fun h => h⟩
  · next c hc =>
    split
    · next hb =>
      have := subLoop_post hl id c best hb (s.occ best.var) [] s (by simpa [V_self] using h) hm hc
      simp only [List.nil_append, V_self] at this
      exact this.bind (fun s' _ h1 h2 _ => propFacts_post hl fuel s' h1 h2)
    · exact ⟨h, hm, Fr.refl s, fun _ => Iff.rfl, fun h => h⟩

end Clasp.Elite
