/- Strengthening, propagation of facts and backward subsumption keep the invariants and the models. No code is modelled here. -/
import Verif.Sat.EliteInv
namespace Clasp.Elite
open Clasp.Core Function

/-- replacing a clause by a part of it, or reordering it -/
theorem Wf.replace {cx s id x t x' t'} (h : Wf cx s) (hc : s.cls id = some (x :: t)) (W : Nat → List Nat)
    (o : Nat → List (Nat × Bool)) (hnd : ((x' :: t').map Lit.var).Nodup) (hsub : ∀ y ∈ x' :: t', y ∈ x :: t)
    (ho1 : ∀ y ∈ x' :: t', (id, y.sign) ∈ o y.var) (ho2 : ∀ v sg, (id, sg) ∈ o v → (⟨v, sg⟩ : Lit) ∈ x' :: t')
    (ho3 : ∀ v j sg, j ≠ id → ((j, sg) ∈ o v ↔ (j, sg) ∈ s.occ v)) (ho4 : ∀ v, ((o v).map Prod.fst).Nodup)
    (hW : (x'.var = x.var ∧ W = s.wat) ∨ (x'.var ≠ x.var ∧ W x.var = (s.wat x.var).erase id ∧
      W x'.var = s.wat x'.var ++ [id] ∧ ∀ v, v ≠ x.var → v ≠ x'.var → W v = s.wat v)) :
    Wf cx { s with cls := update s.cls id (some (x' :: t')), wat := W, occ := o } := by
  have key : ∀ {j c}, update s.cls id (some (x' :: t')) j = some c → (j = id ∧ c = x' :: t') ∨ (j ≠ id ∧ s.cls j = some c) := by
    intro j c hj
    by_cases hji : j = id
    · subst hji; rw [update_self] at hj; cases hj; exact Or.inl ⟨rfl, rfl⟩
    · rw [update_of_ne hji] at hj; exact Or.inr ⟨hji, hj⟩
  have hid : ∀ v, id ∈ s.wat v → v = x.var := fun v hv => by
    obtain ⟨y, u, h1, h2⟩ := h.watS hv
    rw [hc] at h1; cases h1; exact h2.symm
  refine ⟨?_, ?_, ?_, ?_, ho4, ?_, ?_, ?_, ?_, h.trN, h.fle, ?_, h.elt, h.elf⟩
  · intro j c hj
    rcases key hj with ⟨_, rfl⟩ | ⟨_, h1⟩
    · simp
    · exact h.ne h1
  · intro j c hj
    rcases key hj with ⟨_, rfl⟩ | ⟨_, h1⟩
    · exact hnd
    · exact h.nd h1
  · intro j c l hj hlc
    rcases key hj with ⟨rfl, rfl⟩ | ⟨hji, h1⟩
    · exact ho1 l hlc
    · exact (ho3 _ _ _ hji).mpr (h.occC h1 hlc)
  · intro j sg v c ho hj
    rcases key hj with ⟨rfl, rfl⟩ | ⟨hji, h1⟩
    · exact ho2 v sg ho
    · exact h.occS ((ho3 _ _ _ hji).mp ho) h1
  · intro j y u hj
    rcases key hj with ⟨rfl, hcu⟩ | ⟨hji, h1⟩
    · cases hcu
      rcases hW with ⟨h2, rfl⟩ | ⟨_, _, h3, _⟩
      · show j ∈ s.wat x'.var
        rw [h2]; exact h.watC hc
      · show j ∈ W x'.var
        rw [h3]; simp
    · have h2 := h.watC h1
      show j ∈ W y.var
      rcases hW with ⟨_, rfl⟩ | ⟨h5, h6, h3, h4⟩
      · exact h2
      · by_cases hy : y.var = x.var
        · rw [hy, h6]; rw [hy] at h2; exact (List.mem_erase_of_ne hji).mpr h2
        · by_cases hy' : y.var = x'.var
          · rw [hy', h3]; rw [hy'] at h2; simp [h2]
          · rw [h4 _ hy hy']; exact h2
  · intro j v hj
    replace hj : j ∈ W v := hj
    show ∃ y u, update s.cls id (some (x' :: t')) j = some (y :: u) ∧ y.var = v
    have old : j ∈ s.wat v → j ≠ id → ∃ y u, update s.cls id (some (x' :: t')) j = some (y :: u) ∧ y.var = v := fun hj hji => by
      obtain ⟨y, u, h1, h2⟩ := h.watS hj
      exact ⟨y, u, by rw [update_of_ne hji]; exact h1, h2⟩
    rcases hW with ⟨h2, rfl⟩ | ⟨h5, h6, h3, h4⟩
    · by_cases hji : j = id
      · subst hji
        exact ⟨x', t', by simp, by rw [h2, hid v hj]⟩
      · exact old hj hji
    · by_cases hv : v = x.var
      · subst hv
        rw [h6] at hj
        exact old (List.mem_of_mem_erase hj) (fun e => by subst e; exact (h.watN _).not_mem_erase hj)
      · by_cases hv' : v = x'.var
        · subst hv'
          rw [h3] at hj
          by_cases hji : j = id
          · subst hji; exact ⟨x', t', by simp, rfl⟩
          · exact old (by simpa [hji] using hj) hji
        · rw [h4 v hv hv'] at hj
          exact old hj (fun e => by subst e; exact hv (hid v hj))
  · intro v
    show (W v).Nodup
    rcases hW with ⟨_, rfl⟩ | ⟨h5, h6, h3, h4⟩
    · exact h.watN v
    · by_cases hv : v = x.var
      · subst hv; rw [h6]; exact (h.watN _).erase _
      · by_cases hv' : v = x'.var
        · subst hv'; rw [h3, List.nodup_append]
          refine ⟨h.watN _, by simp, fun a ha b hb hab => ?_⟩
          simp only [List.mem_singleton] at hb; subst hb; subst hab
          exact hv (hid _ ha)
        · rw [h4 v hv hv']; exact h.watN v
  · intro j c l hl hj y hy
    rcases key hj with ⟨rfl, rfl⟩ | ⟨_, h1⟩
    · exact h.proc hl hc y (hsub y hy)
    · exact h.proc hl h1 y hy
  · intro v j c hv hj y hy
    rcases key hj with ⟨rfl, rfl⟩ | ⟨_, h1⟩
    · exact h.elv hv hc y (hsub y hy)
    · exact h.elv hv h1 y hy

theorem nodup_lits {c : Cl} (h : (c.map Lit.var).Nodup) : c.Nodup := List.Nodup.of_map _ h

theorem lit_eq_of_var {c : Cl} (h : (c.map Lit.var).Nodup) {a b : Lit} (ha : a ∈ c) (hb : b ∈ c) (hv : a.var = b.var) : a = b :=
  List.inj_on_of_nodup_map h ha hb hv

/-- the state after the literal was removed -/
theorem strengthen_eq {cx : Cx} {s : St} {id : Nat} {a b l : Lit} {t : Cl} (hc : s.cls id = some (a :: b :: t))
    (hl : l ∈ a :: b :: t) : strengthenClause cx id l s =
      let W := if a = l then update (update s.wat a.var ((s.wat a.var).erase id)) b.var
        ((update s.wat a.var ((s.wat a.var).erase id)) b.var ++ [id]) else s.wat
      afterStrengthen cx id { s with wat := W, cls := update s.cls id (some ((a :: b :: t).erase l)) } ((a :: b :: t).erase l) := by
  unfold strengthenClause
  rw [hc]
  simp only [hl, if_true]
  by_cases h : a = l
  · simp only [h, if_true]
  · simp only [h, if_false]

/-- what strengthening leaves alone -/
theorem strengthen_frame {cx : Cx} {s s' : St} {id : Nat} {l : Lit} (h : strengthenClause cx id l s = .ok s') :
    s'.occ = s.occ ∧ s'.mark = s.mark ∧ s'.facts = s.facts ∧ ∀ j, j ≠ id → s'.cls j = s.cls j := by
  have hu : ∀ (u : Lit) (s0 s1 : St), addUnit cx u s0 = .ok s1 → s1 = { s0 with trail := s1.trail } := by
    intro u s0 s1 h
    unfold addUnit at h
    split at h
    · cases h; rfl
    · split at h
      · cases h
      · split at h <;> cases h; rfl
  have hd : ∀ (s0 : St), (detach id s0).occ = s0.occ ∧ (detach id s0).mark = s0.mark ∧ (detach id s0).facts = s0.facts ∧
      ∀ j, j ≠ id → (detach id s0).cls j = s0.cls j := by
    intro s0
    unfold detach
    split
    · exact ⟨rfl, rfl, rfl, fun j hj => update_of_ne hj ..⟩
    · exact ⟨rfl, rfl, rfl, fun _ _ => rfl⟩
  have ha : ∀ (s0 : St) (c : Cl), afterStrengthen cx id s0 c = .ok s' → s'.occ = s0.occ ∧ s'.mark = s0.mark ∧
      s'.facts = s0.facts ∧ ∀ j, j ≠ id → s'.cls j = s0.cls j := by
    intro s0 c h
    unfold afterStrengthen at h
    split at h
    · rw [hu _ _ _ h]; exact hd s0
    · cases h; exact ⟨rfl, rfl, rfl, fun _ _ => rfl⟩
  unfold strengthenClause at h
  split at h
  · split at h
    · obtain ⟨h1, h2, h3, h4⟩ := ha _ _ h
      rw [h1, h2, h3]
      refine ⟨?_, ?_, ?_, fun j hj => ?_⟩
      · split <;> rfl
      · split <;> rfl
      · split <;> rfl
      · rw [h4 j hj]
        simp only [update_of_ne hj]
        split <;> rfl
    · cases h
  · cases h

/-- strengthening does not depend on the occurrence lists -/
theorem strengthen_occ {cx : Cx} {s : St} {id : Nat} {l : Lit} (o : Nat → List (Nat × Bool)) :
    strengthenClause cx id l { s with occ := o } = (strengthenClause cx id l s).bind fun s' => .ok { s' with occ := o } := by
  have hu : ∀ (u : Lit) (s0 : St), addUnit cx u { s0 with occ := o } = (addUnit cx u s0).bind fun s' => .ok { s' with occ := o } := by
    intro u s0
    unfold addUnit
    simp only []
    split_ifs
    · rfl
    · rfl
    · cases cx.ext (s0.trail ++ [u]) <;> rfl
  have hd : ∀ (s0 : St), detach id { s0 with occ := o } = { detach id s0 with occ := o } := by
    intro s0; unfold detach; simp only []
    split <;> rfl
  have ha : ∀ (s0 : St) (c : Cl), afterStrengthen cx id { s0 with occ := o } c =
      (afterStrengthen cx id s0 c).bind fun s' => .ok { s' with occ := o } := by
    intro s0 c
    unfold afterStrengthen
    split
    · rw [hd, hu]
    · rfl
  unfold strengthenClause
  simp only []
  split
  · split_ifs
    · rw [← ha]
    · rw [← ha]
    · rfl
  · rfl

theorem strengthen_post {cx O R s id c l} (hl : cx.Law O) (h : Wf cx s) (hm : MkOk R s) (hc : s.cls id = some c) (hlc : l ∈ c)
    (hi : ∀ M, Sem O s M → M.satC (c.erase l)) : Post cx O R s
      ((strengthenClause cx id l s).bind fun s' => .ok { s' with occ := update s.occ l.var ((s.occ l.var).erase (id, l.sign)) }) := by
  rw [← strengthen_occ]
  generalize ho : update s.occ l.var ((s.occ l.var).erase (id, l.sign)) = o
  match c, hc, hlc, hi with
  | [], _, hlc, _ => cases hlc
  | [a], hc, _, _ =>
    unfold strengthenClause
    simp only [hc]
    intro h2
    have := h2 id _ hc
    simp at this
  | a :: b :: t, hc, hlc, hi =>
    rw [strengthen_eq (s := { s with occ := o }) hc hlc]
    simp only []
    have hnd := h.nd hc
    have hnl := nodup_lits hnd
    generalize hW : (if a = l then update (update s.wat a.var ((s.wat a.var).erase id)) b.var
        ((update s.wat a.var ((s.wat a.var).erase id)) b.var ++ [id]) else s.wat) = W
    have hab : b.var ≠ a.var := by
      simp only [List.map_cons, List.nodup_cons, List.mem_cons, not_or] at hnd; exact fun e => hnd.1.1 e.symm
    generalize hc' : (a :: b :: t).erase l = c' at hi ⊢
    have hsub : ∀ y ∈ c', y ∈ a :: b :: t := fun y hy => by rw [← hc'] at hy; exact List.mem_of_mem_erase hy
    have hnd' : (c'.map Lit.var).Nodup := by
      rw [← hc']; exact hnd.sublist (List.erase_sublist.map _)
    have hrem : ∀ y ∈ a :: b :: t, y ∉ c' → y = l := fun y hy hn => by
      by_contra hne; exact hn (by rw [← hc']; exact (List.mem_erase_of_ne hne).mpr hy)
    -- the first literal
    obtain ⟨x', t', hx', hWx⟩ : ∃ x' t', c' = x' :: t' ∧ ((x'.var = a.var ∧ W = s.wat) ∨
        (x'.var ≠ a.var ∧ W a.var = (s.wat a.var).erase id ∧ W x'.var = s.wat x'.var ++ [id] ∧
          ∀ v, v ≠ a.var → v ≠ x'.var → W v = s.wat v)) := by
      by_cases hal : a = l
      · subst hal
        rw [if_pos rfl] at hW
        refine ⟨b, t, by rw [← hc']; simp, Or.inr ⟨hab, ?_, ?_, ?_⟩⟩
        · rw [← hW, update_of_ne (Ne.symm hab), update_self]
        · rw [← hW, update_self, update_of_ne hab]
        · intro v hv hv'; rw [← hW, update_of_ne hv', update_of_ne hv]
      · rw [if_neg hal] at hW
        exact ⟨a, (b :: t).erase l, by rw [← hc', List.erase_cons_tail (by simpa using hal)], Or.inl ⟨rfl, hW.symm⟩⟩
    subst hx'
    have hlno : l ∉ x' :: t' := by rw [← hc']; exact hnl.not_mem_erase
    have hoN : (s.occ l.var).Nodup := List.Nodup.of_map _ (h.occN _)
    have hoe : ∀ v e, e ∈ o v → e ∈ s.occ v := fun v e he => by
      rw [← ho] at he
      by_cases hv : v = l.var
      · subst hv; rw [update_self] at he; exact List.mem_of_mem_erase he
      · rwa [update_of_ne hv] at he
    have hoe2 : ∀ v e, e ∈ s.occ v → (v ≠ l.var ∨ e ≠ (id, l.sign)) → e ∈ o v := fun v e he hne => by
      rw [← ho]
      by_cases hv : v = l.var
      · subst hv; rw [update_self]
        exact (List.mem_erase_of_ne (hne.resolve_left (fun h => h rfl))).mpr he
      · rwa [update_of_ne hv]
    have hwf2 : Wf cx { s with cls := update s.cls id (some (x' :: t')), wat := W, occ := o } := by
      refine h.replace hc W o hnd' hsub (fun y hy => ?_) (fun v sg hv => ?_) (fun v j sg hji => ?_) (fun v => ?_) hWx
      · refine hoe2 _ _ (h.occC hc (hsub y hy)) ?_
        by_contra hcon
        have hv : y.var = l.var := by by_contra hv; exact hcon (Or.inl hv)
        have := lit_eq_of_var hnd (hsub y hy) hlc hv
        exact hlno (this ▸ hy)
      · have h1 := h.occS (hoe _ _ hv) hc
        by_contra hn
        have h2 := hrem _ h1 hn
        rw [← ho, ← h2, update_self] at hv
        rw [← h2] at hoN
        exact hoN.not_mem_erase hv
      · exact ⟨hoe _ _, fun h1 => hoe2 _ _ h1 (Or.inr (by simp [hji]))⟩
      · rw [← ho]
        by_cases hv : v = l.var
        · subst hv; rw [update_self]; exact (h.occN _).sublist (List.erase_sublist.map _)
        · rw [update_of_ne hv]; exact h.occN v
    have hfr : Fr s { s with cls := update s.cls id (some (x' :: t')), wat := W, occ := o } := by
      refine ⟨fun h => hoe _ _ h, fun {j} hj => ?_, rfl, rfl, List.prefix_rfl⟩
      show update s.cls id _ j = none
      by_cases hji : j = id
      · subst hji; rw [hc] at hj; cases hj
      · rw [update_of_ne hji]; exact hj
    have hsem : ∀ M, Sem O s M ↔ Sem O { s with cls := update s.cls id (some (x' :: t')), wat := W, occ := o } M := by
      intro M
      constructor
      · intro hM
        refine ⟨hM.1, fun j e hj => ?_, hM.2.2⟩
        by_cases hji : j = id
        · subst hji; simp only [update_self, Option.some.injEq] at hj; subst hj; exact hi M hM
        · simp only [update_of_ne hji] at hj; exact hM.2.1 j e hj
      · intro hM
        refine ⟨hM.1, fun j e hj => ?_, hM.2.2⟩
        by_cases hji : j = id
        · subst hji; rw [hc] at hj; cases hj
          obtain ⟨y, hy, h1⟩ := hM.2.1 j (x' :: t') (by simp)
          exact ⟨y, hsub y hy, h1⟩
        · exact hM.2.1 j e (by simp only [update_of_ne hji]; exact hj)
    have hm2 : MkOk R { s with cls := update s.cls id (some (x' :: t')), wat := W, occ := o } := hm.of_eq rfl rfl rfl
    cases t' with
    | cons y u =>
      refine ⟨hwf2, hm2, hfr, hsem, fun h2 j c hj => ?_⟩
      by_cases hji : j = id
      · subst hji; simp only [update_self, Option.some.injEq] at hj; rw [← hj]; simp
      · simp only [update_of_ne hji] at hj; exact h2 j c hj
    | nil =>
      simp only [afterStrengthen]
      generalize hs2 : ({ s with cls := update s.cls id (some [x']), wat := W, occ := o } : St) = s2 at hwf2 hfr hsem hm2
      have hc2 : s2.cls id = some [x'] := by rw [← hs2]; simp
      have hd := hwf2.detach hc2
      have hd1 := detach_mark hwf2 hc2
      have hmd : MkOk R (detach id s2) := hm2.of_eq hd1.1 hd1.2.1 hd1.2.2.1
      have hfr2 := hfr.trans (detach_fr hwf2 hc2)
      have hel : (detach id s2).elimd x'.var = false := by
        rw [hfr2.elimd]
        by_contra hne
        exact h.elv (by simpa using hne) hc x' (hsub x' (by simp)) rfl
      have hsd : ∀ M, Sem O s2 M ↔ Sem O (detach id s2) M ∧ M.sat x' := by
        intro M
        constructor
        · intro hM
          obtain ⟨y, hy, h1⟩ := hM.2.1 id _ hc2
          simp only [List.mem_singleton] at hy; subst hy
          refine ⟨⟨hM.1, fun j e hj => ?_, by rw [hd1.2.1]; exact hM.2.2⟩, h1⟩
          rw [detach_cls hwf2 hc2] at hj; exact hM.2.1 j e (cls_update_none hj).2
        · rintro ⟨hM, h1⟩
          refine ⟨hM.1, fun j e hj => ?_, by have := hM.2.2; rwa [hd1.2.1] at this⟩
          by_cases hji : j = id
          · subst hji; rw [hc2] at hj; cases hj; exact ⟨x', by simp, h1⟩
          · exact hM.2.1 j e (by rw [detach_cls hwf2 hc2, update_of_ne hji]; exact hj)
      have hpost := addUnit_gen hl hd hmd hel
      cases hu : addUnit cx x' (detach id s2) <;> rw [hu] at hpost
      · obtain ⟨p1, p2, p3, p4, p5⟩ := hpost
        refine ⟨p1, p2, hfr2.trans p3, fun M => by rw [hsem, hsd, p4], fun h2 j c hj => ?_⟩
        rw [p5] at hj
        replace hj : (detach id s2).cls j = some c := hj
        rw [detach_cls hwf2 hc2] at hj
        obtain ⟨h5, h6⟩ := cls_update_none hj
        rw [← hs2] at h6; simp only [update_of_ne h5] at h6
        exact h2 j c h6
      · intro M hM
        rw [hsem, hsd] at hM
        exact hpost M hM.1 hM.2
      · exact hpost.elim
      · exact hpost.elim

end Clasp.Elite
