/- Elimination of a variable and removal of blocked clauses as steps of a `Chain`. No code is modelled here. -/
import Verif.Sat.EliteVe
namespace Clasp.Elite
open Clasp.Core Function

/-- Proof device: the invariant of a run that started with a problem whose models are `F0`. -/
structure Inv (cx : Cx) (O F0 : Asg → Prop) (s : St) : Prop where
  wf : Wf cx s
  mks : MkOk [] s
  ch : Chain F0 s.elim (fun v => s.elimd v = true) (Sem O s)
  hd : ∀ r ∈ s.elim, ∀ x t, r.lits = x :: t → cx.frozen x.var = false

/-- Proof device: the result of an operation in terms of the original problem. -/
def PostI (cx : Cx) (O F0 : Asg → Prop) (s : St) : Res St → Prop
  | .ok s' => Inv cx O F0 s' ∧ (Two s → Two s')
  | .unsat => ∀ M, ¬ F0 M
  | .undef => ¬ Two s
  | .fuel => True

theorem Post.toI {cx O F0 s r} (hi : Inv cx O F0 s) (h : Post cx O [] s r) : PostI cx O F0 s r := by
  cases r with
  | ok s' =>
    obtain ⟨h1, h2, h3, h4, h5⟩ := h
    exact ⟨⟨h1, h2, by rw [h3.elim, h3.elimd]; exact .equiv _ hi.ch h4, by rw [h3.elim]; exact hi.hd⟩, h5⟩
  | unsat => exact fun M hM => h M (hi.ch.imp M hM)
  | undef => exact h
  | fuel => trivial

theorem PostI.bind {cx O F0 s r} {f : St → Res St} (h : PostI cx O F0 s r)
    (hf : ∀ s', Inv cx O F0 s' → PostI cx O F0 s' (f s')) : PostI cx O F0 s (r.bind f) := by
  cases r with
  | ok s' =>
    obtain ⟨h1, h2⟩ := h
    have := hf s' h1
    show PostI cx O F0 s (f s')
    cases hr : f s' with
    | ok s2 => rw [hr] at this; exact ⟨this.1, fun h => this.2 (h2 h)⟩
    | unsat => rw [hr] at this; exact this
    | undef => rw [hr] at this; exact fun h => this (h2 h)
    | fuel => trivial
  | unsat => exact h
  | undef => exact h
  | fuel => trivial

/-- a live entry of an occurrence list -/
theorem live_ok {cx s v e} (h : Wf cx s) (he : e ∈ live s v) : ∃ c D, s.cls e.1 = some c ∧ candOf s v e.1 = ⟨v, e.2⟩ :: D ∧
    (⟨v, e.2⟩ :: D : Cl).Perm c ∧ (∀ y ∈ D, y.var ≠ v) ∧ (D.map Lit.var).Nodup := by
  unfold live at he
  rw [List.mem_filter] at he
  obtain ⟨c, hc⟩ := Option.isSome_iff_exists.mp he.2
  obtain ⟨D, h1, h2, h3, h4⟩ := front_ok (h.nd hc) (h.occS (id := e.1) (sg := e.2) he.1 hc)
  exact ⟨c, D, hc, by simp [candOf, hc, h1], h2, h3, h4⟩

theorem live_of {cx s v id c} {l : Lit} (h : Wf cx s) (hc : s.cls id = some c) (hl : l ∈ c) (hv : l.var = v) : (id, l.sign) ∈ live s v := by
  subst hv
  exact List.mem_filter.mpr ⟨h.occC hc hl, by simp [hc]⟩

theorem live_nodup {cx s v} (h : Wf cx s) : ((live s v).map Prod.fst).Nodup :=
  (h.occN v).sublist (List.filter_sublist.map _)

/-! ### blocked clauses -/

theorem removeBlocked_ok {cx O F0} (hl : cx.Law O) (v : Nat) (hfz : cx.frozen v = false) : ∀ (ids : List Nat) (s : St), Inv cx O F0 s →
    (∀ l ∈ s.trail, l.var ≠ v) →
    (∀ id ∈ ids, ∀ c, s.cls id = some c → ∃ sg, (⟨v, sg⟩ : Lit) ∈ c ∧ ∀ j d, s.cls j = some d → (⟨v, !sg⟩ : Lit) ∈ d → Taut v c d) →
    Inv cx O F0 (removeBlocked v ids s) ∧ (Two s → Two (removeBlocked v ids s))
  | [], s, h, _, _ => ⟨h, fun h => h⟩
  | id :: ids, s, h, htr, hb => by
    unfold removeBlocked
    cases hc : s.cls id with
    | none =>
      have : bceVeRemove id false v true s = s := by simp [bceVeRemove, hc]
      rw [this]
      exact removeBlocked_ok hl v hfz ids s h htr (fun j hj => hb j (List.mem_cons_of_mem _ hj))
    | some c =>
      obtain ⟨sg, hsg, hbl⟩ := hb id (by simp) c hc
      obtain ⟨a1, a2, a3, a4, a5, a6, a7, a8, a9⟩ := bceVeRemove_ok false v true h.wf hc
      generalize bceVeRemove id false v true s = s1 at a1 a2 a3 a4 a5 a6 a7 a8 a9
      have hcls : ∀ j d, s1.cls j = some d → j ≠ id ∧ s.cls j = some d := fun j d hj => by
        rw [a2] at hj; exact cls_update_none hj
      obtain ⟨D, f1, f2, f3, f4⟩ := front_ok (h.wf.nd hc) hsg
      have hsem : ∀ M, Sem O s M ↔ Sem O s1 M ∧ M.satC (⟨v, sg⟩ :: D) := fun M => by
        unfold Sem; rw [a5]
        constructor
        · rintro ⟨h1, h2, h3⟩
          exact ⟨⟨h1, fun j d hj => h2 j d (hcls j d hj).2, h3⟩, (satC_perm f2).mpr (h2 id c hc)⟩
        · rintro ⟨⟨h1, h2, h3⟩, h4⟩
          refine ⟨h1, fun j d hj => ?_, h3⟩
          by_cases hji : j = id
          · subst hji; rw [hc] at hj; cases hj; exact (satC_perm f2).mp h4
          · exact h2 j d (by rw [a2, update_of_ne hji]; exact hj)
      have hel : ∀ y ∈ (⟨v, sg⟩ :: D : Cl), ¬ s.elimd y.var = true := fun y hy he =>
        h.wf.elv he hc y (f2.mem_iff.mp hy) rfl
      have hinv : Inv cx O F0 s1 := by
        refine ⟨a1, h.mks.of_eq a4 a5 a6, ?_, fun r hr x t hx => ?_⟩
        rotate_left
        · rw [a3] at hr
          rcases List.mem_cons.mp hr with rfl | hr
          · simp only [f1] at hx; cases hx; exact hfz
          · exact h.hd r hr x t hx
        rw [a3, a7, f1]
        refine Chain.bce (F := Sem O s) _ _ _ h.ch hsem (fun M hM hn => ?_) (hel _ (by simp))
          (fun y hy => ⟨f3 y hy, hel y (by simp [hy])⟩)
        refine ⟨hl.sup hfz M _ hM.1, fun j d hj => ?_, fun l hl' => ?_⟩
        · obtain ⟨hji, hjs⟩ := hcls j d hj
          by_cases hp : (⟨v, sg⟩ : Lit) ∈ d
          · exact ⟨_, hp, sat_setL M ⟨v, sg⟩⟩
          · by_cases hq : (⟨v, !sg⟩ : Lit) ∈ d
            · obtain ⟨y, hy, hyv, hyn⟩ := hbl j d hjs hq
              refine ⟨y, hy, (sat_update_ne hyv).mpr ?_⟩
              by_contra hns
              apply hn
              have : y.neg ∈ (⟨v, sg⟩ :: D : Cl) := f2.mem_iff.mpr hyn
              exact ⟨y.neg, this, (Asg.sat_neg _ _).mpr hns⟩
            · refine (satC_update_ne (fun y hy e => ?_)).mpr (hM.2.1 j d hj)
              simp only at e
              by_cases hys : y.sign = sg
              · exact hp (by rw [← e, ← hys]; exact hy)
              · exact hq (by rw [← e, ← bool_ne hys]; exact hy)
        · exact (sat_update_ne (htr l (by rw [a5] at hl'; exact hl'))).mpr (hM.2.2 l hl')
      obtain ⟨r1, r2⟩ := removeBlocked_ok hl v hfz ids s1 hinv (by rw [a5]; exact htr) (fun j hj d hd => by
        obtain ⟨sg', g1, g2⟩ := hb j (List.mem_cons_of_mem _ hj) d (hcls j d hd).2
        exact ⟨sg', g1, fun k e hk hke => g2 k e (hcls k e hk).2 hke⟩)
      exact ⟨r1, fun h2 => r2 (fun j d hj => h2 j d (hcls j d hj).2)⟩

/-! ### elimination of a variable -/

theorem removeAll_elimd (v : Nat) (E : Nat → Bool) : ∀ (xs : List (Nat × Bool)) (n : Nat) (s : St),
    removeAll v xs n { s with elimd := E } = { removeAll v xs n s with elimd := E }
  | [], _, _ => rfl
  | (id, sg) :: xs, n, s => by
    simp only [removeAll]
    rw [← removeAll_elimd v E xs (n - 1)]
    congr 1
    unfold bceVeRemove
    simp only []
    split <;> rfl

theorem zip_fst_sub {α β : Type} : ∀ (a : List α) (b : List β), ((a.zip b).map Prod.fst).Sublist a
  | [], _ => by simp
  | a :: l, [] => by simp
  | a :: l, b :: m => by simpa using zip_fst_sub l m

theorem eliminateVar_ok {cx O F0} (hl : cx.Law O) (fuel v : Nat) {s : St} {a : Acc} (h : Inv cx O F0 s) (hfz : cx.frozen v = false)
    (htr : ∀ l ∈ s.trail, l.var ≠ v) (hev : s.elimd v = false) (hlen : a.cands.length = a.cnt) (hcnt : a.cnt ≤ (live s v).length)
    (hcand : ∀ p, p ∈ a.cands ↔ (p.1, false) ∈ live s v ∧ (p.2, true) ∈ live s v ∧ ¬ Tr s v p.1 p.2) :
    PostI cx O F0 s (eliminateVar cx fuel v (live s v) a s) := by
  have hwf := h.wf
  unfold eliminateVar
  rw [removeAll_elimd]
  obtain ⟨a1, a2, a3, a4, a5, a6, a7, a8, a9⟩ := removeAll_ok (cx := cx) v (live s v) a.cnt s hwf (live_nodup hwf)
    (fun e he => by obtain ⟨c, _, hc, _⟩ := live_ok hwf he; rw [hc]; simp)
  generalize removeAll v (live s v) a.cnt s = s1 at a1 a2 a3 a4 a5 a6 a7 a8 a9
  simp only []
  -- clauses left do not contain `v`
  have hcls : ∀ j d, s1.cls j = some d → s.cls j = some d ∧ ∀ y ∈ d, y.var ≠ v := fun j d hj => by
    rw [a2] at hj
    split at hj
    · cases hj
    · next hn => exact ⟨hj, fun y hy e => hn (List.mem_map.mpr ⟨_, live_of hwf hj hy e, rfl⟩)⟩
  have hcls' : ∀ j d, s.cls j = some d → s1.cls j = some d ∨ ∃ e ∈ live s v, e.1 = j := fun j d hj => by
    rw [a2]
    split
    · next hm => obtain ⟨e, he, h1⟩ := List.mem_map.mp hm; exact Or.inr ⟨e, he, h1⟩
    · exact Or.inl hj
  generalize hs2 : clearVar v { s1 with elimd := update s.elimd v true } = s2
  have c1 : s2.cls = s1.cls := by rw [← hs2]; rfl
  have c2 : s2.trail = s.trail := by rw [← hs2]; exact a5
  have c3 : s2.elimd = update s.elimd v true := by rw [← hs2]; rfl
  have c4 : s2.elim = s1.elim := by rw [← hs2]; rfl
  have hw2 : Wf cx s2 := by
    rw [← hs2]
    have hV := a1.setOcc (v := v) (xs := []) (by simp) (fun id c l hc hlc hv => absurd hv ((hcls id c hc).2 l hlc))
    refine { hV with watC := ?_, watS := ?_, watN := ?_, elv := ?_, elt := ?_, elf := ?_ }
    · intro id x t hc
      show id ∈ update s1.wat v [] x.var
      rw [update_of_ne ((hcls id _ hc).2 x (by simp))]; exact a1.watC hc
    · intro id w hw
      replace hw : id ∈ update s1.wat v [] w := hw
      by_cases hwv : w = v
      · subst hwv; simp at hw
      · rw [update_of_ne hwv] at hw; exact a1.watS hw
    · intro w
      show (update s1.wat v [] w).Nodup
      by_cases hwv : w = v
      · subst hwv; simp
      · rw [update_of_ne hwv]; exact a1.watN w
    · intro w id c hw hc y hy
      replace hw : update s.elimd v true w = true := hw
      by_cases hwv : w = v
      · subst hwv; exact (hcls id c hc).2 y hy
      · rw [update_of_ne hwv] at hw; exact hwf.elv hw (hcls id c hc).1 y hy
    · intro w hw l hlt
      replace hw : update s.elimd v true w = true := hw
      replace hlt : l ∈ s1.trail := hlt
      rw [a5] at hlt
      by_cases hwv : w = v
      · subst hwv; exact htr l hlt
      · rw [update_of_ne hwv] at hw; exact hwf.elt hw l hlt
    · intro w hw
      replace hw : update s.elimd v true w = true := hw
      by_cases hwv : w = v
      · subst hwv; exact hfz
      · rw [update_of_ne hwv] at hw; exact hwf.elf hw
  have hm2 : MkOk [] s2 := by
    rw [← hs2]
    intro w sg hw
    replace hw : update s1.mark v none w = some sg := hw
    rw [a4] at hw
    have := h.mks w sg (update_none_mk w sg hw)
    show _ ∈ s1.trail.take s1.facts ∨ _
    rw [a5, a6]; exact this
  have hocc2 : ∀ w e, e ∈ s2.occ w → w ≠ v ∧ e ∈ s1.occ w := fun w e he => by
    rw [← hs2] at he
    replace he : e ∈ update s1.occ v [] w := he
    by_cases hwv : w = v
    · subst hwv; simp at he
    · rw [update_of_ne hwv] at he; exact ⟨hwv, he⟩
  -- the semantics of the pieces
  have hF : ∀ M, Sem O s M ↔ Sem O s2 M ∧ ∀ e ∈ live s v, M.satC (candOf s v e.1) := fun M => by
    unfold Sem; rw [c1, c2]
    constructor
    · rintro ⟨h1, h2, h3⟩
      refine ⟨⟨h1, fun j d hj => h2 j d (hcls j d hj).1, h3⟩, fun e he => ?_⟩
      obtain ⟨c, D, g1, g2, g3, _⟩ := live_ok hwf he
      rw [g2]; exact (satC_perm g3).mpr (h2 _ _ g1)
    · rintro ⟨⟨h1, h2, h3⟩, h4⟩
      refine ⟨h1, fun j d hj => ?_, h3⟩
      rcases hcls' j d hj with h5 | ⟨e, he, rfl⟩
      · exact h2 j d h5
      · obtain ⟨c, D, g1, g2, g3, _⟩ := live_ok hwf he
        have := h4 e he
        rw [g1] at hj; cases hj
        rw [g2] at this; exact (satC_perm g3).mp this
  have hF1 : ∀ M b, Sem O s2 M → Sem O s2 (update M v b) := fun M b hM => by
    refine ⟨hl.sup hfz M b hM.1, fun j d hj => ?_, fun l hlt => ?_⟩
    · have hj' := hj
      rw [c1] at hj'
      exact (satC_update_ne (hcls j d hj').2).mpr (hM.2.1 j d hj)
    · exact (sat_update_ne (htr l (by rw [c2] at hlt; exact hlt))).mpr (hM.2.2 l hlt)
  generalize hjs : ((live s v).zip a.cands).map (fun e => (e.1.1, candOf s v e.2.1, candOf s v e.2.2)) = js
  have hjm : ∀ j ∈ js, ∃ e p, e ∈ (live s v).take a.cnt ∧ p ∈ a.cands ∧ j = (e.1, candOf s v p.1, candOf s v p.2) := fun j hj => by
    rw [← hjs] at hj
    obtain ⟨⟨e, p⟩, hz, rfl⟩ := List.mem_map.mp hj
    refine ⟨e, p, ?_, (List.of_mem_zip hz).2, rfl⟩
    have hz' : (e, p) ∈ ((live s v).take a.cnt).zip a.cands := by
      rw [← hlen]
      have := List.zip_eq_zip_take_min (l₁ := live s v) (l₂ := a.cands)
      rw [this, Nat.min_eq_right (by omega)] at hz
      simpa using hz
    exact (List.of_mem_zip hz').1
  have hjp : ∀ p ∈ a.cands, ∃ j ∈ js, j.2 = (candOf s v p.1, candOf s v p.2) := fun p hp => by
    have hsnd : ((live s v).zip a.cands).map Prod.snd = a.cands := List.map_snd_zip (by omega)
    rw [← hsnd] at hp
    obtain ⟨z, hz, rfl⟩ := List.mem_map.mp hp
    exact ⟨_, by rw [← hjs]; exact List.mem_map_of_mem hz, rfl⟩
  have hjn : (js.map Prod.fst).Nodup := by
    have : js.map Prod.fst = (((live s v).zip a.cands).map Prod.fst).map Prod.fst := by rw [← hjs]; simp [Function.comp_def]
    rw [this]
    have h1 : (((live s v).zip a.cands).map Prod.fst).Sublist (live s v) := zip_fst_sub _ _
    exact (live_nodup hwf).sublist (h1.map _)
  have hjob : ∀ j ∈ js, Job s2 j := fun j hj => by
    obtain ⟨e, p, he, hp, rfl⟩ := hjm j hj
    obtain ⟨p1, p2, p3⟩ := (hcand p).mp hp
    obtain ⟨c, D, g1, g2, g3, g4, g5⟩ := live_ok hwf p1
    obtain ⟨c', D', k1, k2, k3, k4, k5⟩ := live_ok hwf p2
    have hel : s.elimd v = false := hev
    refine ⟨by simp only [g2, List.tail_cons]; exact g5, by simp only [k2, List.tail_cons]; exact k5, fun l hl1 hl2 => ?_,
      fun l hl1 => ?_, ?_, fun w sg hw => ?_⟩
    · simp only [g2, k2, List.tail_cons] at hl1 hl2
      refine p3 ((Tr_iff hwf h.mks g1 k1).mpr ⟨l.neg, k3.mem_iff.mp (by simp [hl2]), by simpa using g4 l hl1, ?_⟩)
      rw [Lit.neg_neg]; exact g3.mem_iff.mp (by simp [hl1])
    · simp only [g2, k2, List.tail_cons, List.mem_append] at hl1
      rw [c3]
      rcases hl1 with hl1 | hl1
      · rw [update_of_ne (g4 l hl1)]
        cases hx : s.elimd l.var with
        | false => rfl
        | true => exact absurd rfl (hwf.elv hx g1 l (g3.mem_iff.mp (by simp [hl1])))
      · rw [update_of_ne (k4 l hl1)]
        cases hx : s.elimd l.var with
        | false => rfl
        | true => exact absurd rfl (hwf.elv hx k1 l (k3.mem_iff.mp (by simp [hl1])))
    · simp only []
      rw [c1, a2, if_pos (List.mem_map_of_mem (List.mem_of_mem_take he))]
    · obtain ⟨hwv, hw1⟩ := hocc2 w _ hw
      exact a9 e he w sg hwv hw1
  -- the resolvents follow
  have hsound : ∀ M, Sem O s M → ∀ j ∈ js, M.satC (j.2.1.tail ++ j.2.2.tail) := fun M hM j hj => by
    obtain ⟨e, p, he, hp, rfl⟩ := hjm j hj
    obtain ⟨p1, p2, p3⟩ := (hcand p).mp hp
    obtain ⟨c, D, g1, g2, g3, g4, g5⟩ := live_ok hwf p1
    obtain ⟨c', D', k1, k2, k3, k4, k5⟩ := live_ok hwf p2
    simp only [g2, k2, List.tail_cons]
    have h1 := (satC_perm g3).mpr (hM.2.1 _ _ g1)
    have h2 := (satC_perm k3).mpr (hM.2.1 _ _ k1)
    rw [satC_cons] at h1 h2
    rcases h1 with h1 | ⟨y, hy, hs⟩
    · rcases h2 with h2 | ⟨y, hy, hs⟩
      · exact absurd h1 ((Asg.sat_neg M ⟨v, false⟩).mp h2)
      · exact ⟨y, by simp [hy], hs⟩
    · exact ⟨y, by simp [hy], hs⟩
  -- and suffice
  have hcompl : ∀ M, Sem O s2 M → (∀ j ∈ js, M.satC (j.2.1.tail ++ j.2.2.tail)) → ∃ b, Sem O s (update M v b) := fun M hM hr => by
    have fin : ∀ sg : Bool, (∀ e ∈ live s v, e.2 ≠ sg → M.satC (candOf s v e.1).tail) →
        Sem O s (update M v (Lit.tv ⟨v, sg⟩)) := fun sg hsg => by
      refine (hF _).mpr ⟨hF1 M _ hM, fun e he => ?_⟩
      obtain ⟨c, D, g1, g2, g3, g4, g5⟩ := live_ok hwf he
      rw [g2]
      by_cases hes : e.2 = sg
      · subst hes; exact satC_cons.mpr (Or.inl (sat_setL M ⟨v, e.2⟩))
      · have := hsg e he hes
        rw [g2, List.tail_cons] at this
        exact satC_cons.mpr (Or.inr ((satC_update_ne g4).mpr this))
    by_cases hall : ∀ e ∈ live s v, e.2 ≠ true → M.satC (candOf s v e.1).tail
    · exact ⟨_, fin true hall⟩
    · push Not at hall
      obtain ⟨e, he, hes, hns⟩ := hall
      simp only [ne_eq, Bool.not_eq_true] at hes
      refine ⟨_, fin false (fun e' he' hes' => ?_)⟩
      simp only [ne_eq, Bool.not_eq_false] at hes'
      obtain ⟨i, sg⟩ := e
      obtain ⟨j, sg'⟩ := e'
      simp only at hes hes' hns ⊢
      subst hes; subst hes'
      obtain ⟨c, D, g1, g2, g3, g4, g5⟩ := live_ok hwf he
      obtain ⟨c', D', k1, k2, k3, k4, k5⟩ := live_ok hwf he'
      simp only at g1 g2 g3 k1 k2 k3
      by_cases ht : Tr s v i j
      · obtain ⟨y, hy, hyv, hyn⟩ := (Tr_iff hwf h.mks g1 k1).mp ht
        have hyD : y ∈ D' := by
          rcases List.mem_cons.mp (k3.mem_iff.mpr hy) with rfl | h1
          · exact absurd rfl hyv
          · exact h1
        have hyD2 : y.neg ∈ D := by
          rcases List.mem_cons.mp (g3.mem_iff.mpr hyn) with h1 | h1
          · exact absurd (congrArg Lit.var h1) (by simpa using hyv)
          · exact h1
        rw [k2, List.tail_cons]
        refine ⟨y, hyD, ?_⟩
        by_contra hny
        rw [g2, List.tail_cons] at hns
        exact hns ⟨y.neg, hyD2, (Asg.sat_neg _ _).mpr hny⟩
      · obtain ⟨q, hq, hqe⟩ := hjp (i, j) ((hcand (i, j)).mpr ⟨he, he', ht⟩)
        have := hr q hq
        rw [hqe] at this
        obtain ⟨y, hy, hs⟩ := this
        rcases List.mem_append.mp hy with h1 | h1
        · exact absurd ⟨y, h1, hs⟩ hns
        · exact ⟨y, h1, hs⟩
  have hadd := addAll_ok (O := O) hl fuel js s2 hw2 hm2 hjn hjob
  have htwo : Two s → Two s2 := fun h2 j d hj => by rw [c1] at hj; exact h2 j d (hcls j d hj).1
  cases hr : addAll cx fuel js s2 with
  | ok s3 =>
    rw [hr] at hadd
    obtain ⟨p1, p2, p3, p4, p5⟩ := hadd
    refine ⟨⟨p1, p2, ?_, fun r hr x t hx => ?_⟩, fun h => p5 (htwo h)⟩
    rotate_left
    · rw [p3.elim, c4, a3] at hr
      rcases List.mem_append.mp hr with hr | hr
      · obtain ⟨e, he, rfl⟩ := List.mem_map.mp hr
        obtain ⟨c, D, g1, g2, _⟩ := live_ok hwf (List.mem_reverse.mp he)
        simp only [g2] at hx; cases hx; exact hfz
      · exact h.hd r hr x t hx
    have hE : (fun w => s3.elimd w = true) = fun w => s.elimd w = true ∨ w = v := by
      funext w; rw [p3.elimd, c3]
      by_cases hwv : w = v
      · subst hwv; simp
      · simp [hwv]
    have hst : s3.elim = ((live s v).reverse.map (fun e => candOf s v e.1)).map (fun c => (⟨c, false⟩ : ECl)) ++ s.elim := by
      rw [p3.elim, c4, a3]; simp [Function.comp_def]
    rw [hE, hst]
    refine Chain.ve (F := Sem O s) _ (Sem O s2) v _ h.ch (fun M => ?_) hF1 (fun M hM => ?_) (fun M hM => ?_) (by rw [hev]; simp) (fun c hc => ?_)
    · rw [hF M]
      refine and_congr_right fun _ => ⟨fun h1 c hc => ?_, fun h1 e he => ?_⟩
      · obtain ⟨e, he, rfl⟩ := List.mem_map.mp hc; exact h1 e (List.mem_reverse.mp he)
      · exact h1 _ (List.mem_map.mpr ⟨e, List.mem_reverse.mpr he, rfl⟩)
    · exact (p4 M).mp ⟨((hF M).mp hM).1, hsound M hM⟩
    · have := (p4 M).mpr hM; exact hcompl M this.1 this.2
    · obtain ⟨e, he, rfl⟩ := List.mem_map.mp hc
      obtain ⟨c, D, g1, g2, g3, g4, g5⟩ := live_ok hwf (List.mem_reverse.mp he)
      exact ⟨_, D, g2, rfl, fun y hy => ⟨g4 y hy, fun hx => hwf.elv hx g1 y (g3.mem_iff.mp (by simp [hy])) rfl⟩⟩
  | unsat =>
    rw [hr] at hadd
    intro M hM
    have := h.ch.imp M hM
    exact hadd M ((hF M).mp this).1 (hsound M this)
  | undef => rw [hr] at hadd; exact fun h => hadd (htwo h)
  | fuel => trivial

/-! ### `bceVe` -/

theorem bceVe_ok {cx O F0} (hl : cx.Law O) (fuel bce v bound : Nat) {s : St} (h : Inv cx O F0 s) :
    PostI cx O F0 s (bceVe cx fuel bce v bound s) := by
  unfold bceVe
  split
  · exact ⟨h, fun h => h⟩
  · next hg =>
    push Not at hg
    obtain ⟨g1, g2, g3, g4⟩ := hg
    simp only [ne_eq, Bool.not_eq_true] at g1 g2
    have htr : ∀ l ∈ s.trail, l.var ≠ v := fun l hl e => by
      obtain ⟨w, sg⟩ := l
      simp only at e; subst e
      cases sg
      · exact g3 hl
      · exact g4 hl
    have hwf := h.wf
    -- the list without stale entries
    have hw1 : Wf cx { s with occ := update s.occ v (live s v) } :=
      hwf.setOcc (v := v) List.filter_sublist (fun id c l hc hlc hv => live_of hwf hc hlc hv)
    have hi1 : Inv cx O F0 { s with occ := update s.occ v (live s v) } := ⟨hw1, h.mks.of_eq rfl rfl rfl, .equiv _ h.ch fun M => Iff.rfl, h.hd⟩
    have hlive : live { s with occ := update s.occ v (live s v) } v = live s v := by
      unfold live; simp
    simp only []
    generalize hs1 : ({ s with occ := update s.occ v (live s v) } : St) = s1 at *
    have htr1 : ∀ l ∈ s1.trail, l.var ≠ v := by rw [← hs1]; exact htr
    have hev1 : s1.elimd v = false := by rw [← hs1]; exact g1
    have two : ∀ {r}, PostI cx O F0 s1 r → PostI cx O F0 s r := fun {r} hp => by
      cases r with
      | ok s' => exact ⟨hp.1, fun h2 => hp.2 (by rw [← hs1]; exact h2)⟩
      | unsat => exact hp
      | undef => exact fun h2 => hp (by rw [← hs1]; exact h2)
      | fuel => trivial
    rw [← hlive]
    have hpos : ∀ i, i ∈ ((live s1 v).filter (fun e => !e.2)).map Prod.fst ↔ (i, false) ∈ live s1 v := fun i => by simp
    have hneg : ∀ i, i ∈ ((live s1 v).filter (fun e => e.2)).map Prod.fst ↔ (i, true) ∈ live s1 v := fun i => by simp
    have hnn : (((live s1 v).filter (fun e => e.2)).map Prod.fst).Nodup := (live_nodup hw1).sublist (List.filter_sublist.map _)
    generalize ((live s1 v).filter (fun e => !e.2)).map Prod.fst = pos at *
    generalize ((live s1 v).filter (fun e => e.2)).map Prod.fst = neg at *
    generalize ha0 : (⟨0, if bce > 1 then neg.length else 0, [], fun j => decide (bce > 1 ∧ j ∈ neg), [], false⟩ : Acc) = a0
    have hk0 : KInv bce neg a0 := by
      rw [← ha0]
      refine ⟨?_, fun h0 j => ?_, fun h0 => (by cases h0)⟩
      · show (if bce > 1 then neg.length else 0) = _
        split
        · next hb =>
          rw [List.filter_eq_self.mpr (fun j hj => by simp [hb, hj])]
        · next hb =>
          have : neg.filter (fun j => decide (bce > 1 ∧ j ∈ neg)) = [] := List.filter_eq_nil_iff.mpr (fun j _ => by simp [hb])
          show 0 = (neg.filter (fun j => decide (bce > 1 ∧ j ∈ neg))).length
          rw [this]; rfl
      · subst h0; simp
    obtain ⟨t1, t2, t3, t4⟩ := testRows_ok (s := s1) (v := v) (bce := bce) (maxCnt := min bound (live s1 v).length) hnn pos a0
    generalize testRows s1 v bce (min bound (live s1 v).length) neg pos a0 = a at t1 t2 t3 t4
    split
    · next hcnt =>
      obtain ⟨u1, u2⟩ := t3 hcnt (by rw [← ha0])
      apply two
      refine eliminateVar_ok hl fuel v hi1 g2 htr1 hev1 ?_ (by omega) (fun p => ?_)
      · rw [← ha0] at u1; simpa using u1
      · rw [u2 p, ← ha0, ← hpos, ← hneg]; simp
    · next hcnt =>
      apply two
      have live_neg : ∀ {id c}, s1.cls id = some c → ∀ sg, (⟨v, sg⟩ : Lit) ∈ c → (id, sg) ∈ live s1 v := fun hc sg hs => live_of hw1 hc hs rfl
      refine removeBlocked_ok hl v g2 _ s1 hi1 htr1 (fun id hid c hc => ?_)
      rcases List.mem_append.mp hid with hid | hid
      · rcases t2 id hid with h1 | ⟨h1, h2⟩
        · rw [← ha0] at h1; cases h1
        · obtain ⟨c', D, k1, k2, k3, _⟩ := live_ok hw1 ((hpos id).mp h1)
          simp only at k1 k3
          rw [hc] at k1; cases k1
          refine ⟨false, k3.mem_iff.mp (by simp), fun j d hj hd => ?_⟩
          exact (Tr_iff hw1 hi1.mks hc hj).mp (h2 j ((hneg j).mpr (live_neg hj true hd)))
      · obtain ⟨h1, h2⟩ := List.mem_filter.mp (List.mem_of_mem_take hid)
        obtain ⟨e1, e2⟩ := (t4 hk0).2 id h1 h2
        obtain ⟨c', D, k1, k2, k3, _⟩ := live_ok hw1 ((hneg id).mp h1)
        simp only at k1 k3
        rw [hc] at k1; cases k1
        refine ⟨true, k3.mem_iff.mp (by simp), fun j d hj hd => ?_⟩
        exact ((Tr_iff hw1 hi1.mks hj hc).mp (e2 j ((hpos j).mpr (live_neg hj false hd)))).symm

end Clasp.Elite
