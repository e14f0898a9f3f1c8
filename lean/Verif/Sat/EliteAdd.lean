/- Adding resolvents keeps the invariants. No code is modelled here. -/
import Verif.Sat.EliteRes
namespace Clasp.Elite
open Clasp.Core Function

/-! ### attaching a clause -/

theorem mem_attachOcc {id : Nat} : ∀ {c : Cl} {occ : Nat → List (Nat × Bool)} {v e},
    e ∈ attachOcc id c occ v ↔ e ∈ occ v ∨ ∃ l ∈ c, l.var = v ∧ e = (id, l.sign)
  | [], _, _, _ => by simp [attachOcc]
  | l :: c, occ, v, e => by
    rw [attachOcc, mem_attachOcc (c := c)]
    by_cases hv : v = l.var
    · subst hv; simp [or_assoc]
    · have hv' : ¬ l.var = v := fun e => hv e.symm
      simp [update_of_ne hv, hv']

theorem nodup_attachOcc {id : Nat} : ∀ {c : Cl} {occ : Nat → List (Nat × Bool)} {v}, (c.map Lit.var).Nodup →
    ((occ v).map Prod.fst).Nodup → (∀ l ∈ c, l.var = v → id ∉ (occ v).map Prod.fst) →
    ((attachOcc id c occ v).map Prod.fst).Nodup
  | [], _, _, _, h, _ => h
  | l :: c, occ, v, hn, h, hi => by
    rw [attachOcc]
    simp only [List.map_cons, List.nodup_cons] at hn
    by_cases hv : v = l.var
    · subst hv
      refine nodup_attachOcc hn.2 ?_ (fun y hy he => absurd (he ▸ List.mem_map_of_mem hy) hn.1)
      simp only [update_self, List.map_append, List.map_cons, List.map_nil]
      rw [List.nodup_append]
      refine ⟨h, by simp, fun a ha b hb hab => ?_⟩
      simp only [List.mem_singleton] at hb
      subst hb; subst hab
      exact hi l (by simp) rfl ha
    · refine nodup_attachOcc hn.2 (by rw [update_of_ne hv]; exact h) (fun y hy he => ?_)
      rw [update_of_ne hv]; exact hi y (List.mem_cons_of_mem _ hy) he

theorem Wf.attach {cx s id x t} (h : Wf cx s) (hf : s.cls id = none) (ho : ∀ v sg, (id, sg) ∉ s.occ v)
    (hnd : ((x :: t).map Lit.var).Nodup) (hp : ∀ l ∈ s.trail.take s.facts, ∀ y ∈ x :: t, y.var ≠ l.var)
    (he : ∀ y ∈ x :: t, s.elimd y.var = false) :
    Wf cx { s with cls := update s.cls id (some (x :: t)), occ := attachOcc id (x :: t) s.occ,
                   wat := update s.wat x.var (s.wat x.var ++ [id]) } := by
  have key : ∀ {j c}, update s.cls id (some (x :: t)) j = some c → (j = id ∧ c = x :: t) ∨ (j ≠ id ∧ s.cls j = some c) := by
    intro j c hj
    by_cases hji : j = id
    · subst hji; rw [update_self] at hj; cases hj; exact Or.inl ⟨rfl, rfl⟩
    · rw [update_of_ne hji] at hj; exact Or.inr ⟨hji, hj⟩
  have hw : ∀ v, id ∉ s.wat v := fun v hv => by
    obtain ⟨_, _, h1, _⟩ := h.watS hv
    rw [hf] at h1; cases h1
  refine ⟨?_, ?_, ?_, ?_, ?_, ?_, ?_, ?_, ?_, h.trN, h.fle, ?_, h.elt, h.elf⟩
  · intro j c hj
    rcases key hj with ⟨_, rfl⟩ | ⟨_, h1⟩
    · simp
    · exact h.ne h1
  · intro j c hj
    rcases key hj with ⟨_, rfl⟩ | ⟨_, h1⟩
    · exact hnd
    · exact h.nd h1
  · intro j c l hj hl
    rw [mem_attachOcc]
    rcases key hj with ⟨rfl, rfl⟩ | ⟨_, h1⟩
    · exact Or.inr ⟨l, hl, rfl, rfl⟩
    · exact Or.inl (h.occC h1 hl)
  · intro j sg v c hj hc
    replace hj := mem_attachOcc.mp hj
    rcases key hc with ⟨rfl, rfl⟩ | ⟨hne, h1⟩
    · rcases hj with hj | ⟨l, hl, rfl, he⟩
      · exact absurd hj (ho _ _)
      · cases he; exact hl
    · rcases hj with hj | ⟨l, hl, rfl, he⟩
      · exact h.occS hj h1
      · cases he; exact absurd rfl hne
  · intro v
    refine nodup_attachOcc hnd (h.occN v) (fun _ _ _ hm => ?_)
    obtain ⟨⟨j, sg⟩, hj, he⟩ := List.mem_map.mp hm
    simp only at he; subst he
    exact ho _ _ hj
  · intro j y u hj
    rcases key hj with ⟨rfl, he⟩ | ⟨_, h1⟩
    · cases he; simp
    · have := h.watC h1
      by_cases hv : y.var = x.var
      · simp only [hv, update_self]; rw [hv] at this; simp [this]
      · simp only [update_of_ne hv]; exact this
  · intro j v hj
    by_cases hv : v = x.var
    · subst hv
      simp only [update_self, List.mem_append, List.mem_singleton] at hj
      rcases hj with hj | rfl
      · obtain ⟨y, u, h1, h2⟩ := h.watS hj
        have hne : j ≠ id := fun e => hw _ (e ▸ hj)
        exact ⟨y, u, by simpa [update_of_ne hne] using h1, h2⟩
      · exact ⟨x, t, by simp, rfl⟩
    · simp only [update_of_ne hv] at hj
      obtain ⟨y, u, h1, h2⟩ := h.watS hj
      have hne : j ≠ id := fun e => hw _ (e ▸ hj)
      exact ⟨y, u, by simpa [update_of_ne hne] using h1, h2⟩
  · intro v
    by_cases hv : v = x.var
    · subst hv
      simp only [update_self]
      rw [List.nodup_append]
      refine ⟨h.watN _, by simp, fun a ha b hb hab => ?_⟩
      simp only [List.mem_singleton] at hb
      subst hb; subst hab
      exact hw _ ha
    · simp only [update_of_ne hv]; exact h.watN v
  · intro j c l hl hj y hy
    rcases key hj with ⟨rfl, rfl⟩ | ⟨_, h1⟩
    · exact hp l hl y hy
    · exact h.proc hl h1 y hy
  · intro v j c hv hj y hy
    rcases key hj with ⟨rfl, rfl⟩ | ⟨_, h1⟩
    · intro e; rw [← e, he y hy] at hv; cases hv
    · exact h.elv hv h1 y hy

/-! ### the literals of a resolvent -/

/-- Proof device: what the loops collecting the literals of a resolvent keep. -/
structure RInv (s : St) (mk : Marks) (acc : List Lit) : Prop where
  nd : (acc.map Lit.var).Nodup
  mrk : ∀ l ∈ acc, mk l.var = some l.sign
  old : ∀ v sg, mk v = some sg → s.mark v = some sg ∨ (⟨v, sg⟩ : Lit) ∈ acc
  free : ∀ l ∈ acc, l ∉ s.trail ∧ l.neg ∉ s.trail

theorem resLits_ok {s : St} (hm : MkOk [] s) : ∀ (ls : List Lit) (mk : Marks) (acc : List Lit), RInv s mk acc →
    (∀ l ∈ ls, l.neg ∉ acc ∧ l.neg ∉ ls) →
    let r := resLits s.trail ls mk acc
    RInv s r.2.1 r.2.2 ∧ (r.1 = true → ∃ l ∈ ls, l ∈ s.trail) ∧ (∀ l ∈ r.2.2, l ∈ acc ∨ l ∈ ls) ∧
    (r.1 = false → (∀ l ∈ acc, l ∈ r.2.2) ∧ ∀ l ∈ ls, l ∈ r.2.2 ∨ l.neg ∈ s.trail)
  | [], mk, acc, h, _ => ⟨h, fun h => (nomatch h), fun l hl => Or.inl hl, fun _ => ⟨fun _ h => h, by simp⟩⟩
  | l :: ls, mk, acc, h, ht => by
    have ht' : ∀ y ∈ ls, y.neg ∉ acc ∧ y.neg ∉ ls := fun y hy =>
      ⟨(ht y (List.mem_cons_of_mem _ hy)).1, fun h1 => (ht y (List.mem_cons_of_mem _ hy)).2 (List.mem_cons_of_mem _ h1)⟩
    simp only []
    unfold resLits
    split
    · next hc =>
      obtain ⟨a, b, c, d⟩ := resLits_ok hm ls mk acc h ht'
      refine ⟨a, fun e => let ⟨y, hy, h1⟩ := b e; ⟨y, List.mem_cons_of_mem _ hy, h1⟩,
        fun y hy => (c y hy).imp_right (List.mem_cons_of_mem _), fun e => ⟨(d e).1, fun y hy => ?_⟩⟩
      rcases List.mem_cons.mp hy with rfl | hy
      · rcases hc with hc | hc
        · exact Or.inr (by simpa [isFalse] using hc)
        · simp only [marked, decide_eq_true_eq] at hc
          rcases h.old _ _ hc with h1 | h1
          · rcases hm _ _ h1 with h2 | h2
            · exact Or.inr (List.mem_of_mem_take h2)
            · cases h2
          · exact Or.inl ((d e).1 _ h1)
      · exact (d e).2 y hy
    · next hc =>
      push Not at hc
      split
      · next htr =>
        exact ⟨h, fun _ => ⟨l, by simp, by simpa [isTrue] using htr⟩, fun y hy => Or.inl hy, fun h => (nomatch h)⟩
      · next htr =>
        have hlt : l ∉ s.trail := by simpa [isTrue] using htr
        have hln : l.neg ∉ s.trail := by simpa [isFalse] using hc.1
        have hlv : l.var ∉ acc.map Lit.var := fun hv => by
          obtain ⟨y, hy, he⟩ := List.mem_map.mp hv
          rcases Lit.eq_or_neg he with rfl | rfl
          · have := h.mrk y hy; exact hc.2 (by simpa [marked] using this)
          · exact (ht l (by simp)).1 hy
        have hinv : RInv s (update mk l.var (some l.sign)) (acc ++ [l]) := by
          refine ⟨?_, ?_, ?_, ?_⟩
          · rw [List.map_append, List.nodup_append]
            refine ⟨h.nd, by simp, fun a ha b hb hab => ?_⟩
            simp only [List.map_cons, List.map_nil, List.mem_singleton] at hb
            exact hlv (by rw [← hb, ← hab]; exact ha)
          · intro y hy
            rcases List.mem_append.mp hy with hy | hy
            · rw [update_of_ne (fun e : y.var = l.var => hlv (e ▸ List.mem_map_of_mem hy))]; exact h.mrk y hy
            · rw [List.mem_singleton] at hy; subst hy; simp
          · intro v sg hv
            by_cases hvl : v = l.var
            · subst hvl; rw [update_self] at hv; cases hv; exact Or.inr (by simp)
            · rw [update_of_ne hvl] at hv
              exact (h.old v sg hv).imp_right (fun h => by simp [h])
          · intro y hy
            rcases List.mem_append.mp hy with hy | hy
            · exact h.free y hy
            · rw [List.mem_singleton] at hy; subst hy; exact ⟨hlt, hln⟩
        obtain ⟨a, b, c, d⟩ := resLits_ok hm ls _ (acc ++ [l]) hinv (fun y hy => ⟨fun h1 => by
          rcases List.mem_append.mp h1 with h1 | h1
          · exact (ht' y hy).1 h1
          · rw [List.mem_singleton] at h1
            exact (ht l (by simp)).2 (List.mem_cons_of_mem _ (by rw [← h1, Lit.neg_neg]; exact hy)), (ht' y hy).2⟩)
        refine ⟨a, fun e => let ⟨y, hy, h1⟩ := b e; ⟨y, List.mem_cons_of_mem _ hy, h1⟩, fun y hy => ?_, fun e => ⟨fun y hy => ?_, fun y hy => ?_⟩⟩
        · rcases c y hy with h1 | h1
          · rcases List.mem_append.mp h1 with h1 | h1
            · exact Or.inl h1
            · rw [List.mem_singleton] at h1; exact Or.inr (by simp [h1])
          · exact Or.inr (List.mem_cons_of_mem _ h1)
        · exact (d e).1 y (by simp [hy])
        · rcases List.mem_cons.mp hy with rfl | hy
          · exact Or.inl ((d e).1 y (by simp))
          · exact (d e).2 y hy

/-! ### adding one resolvent -/

/-- Proof device: what adding resolvents with the given ids leaves alone. -/
structure FrA (ids : List Nat) (s s' : St) : Prop where
  occ : ∀ {v e}, e ∈ s'.occ v → e ∈ s.occ v ∨ e.1 ∈ ids
  dead : ∀ {id}, id ∉ ids → s.cls id = none → s'.cls id = none
  elim : s'.elim = s.elim
  elimd : s'.elimd = s.elimd

theorem Fr.toA {ids s s'} (h : Fr s s') : FrA ids s s' := ⟨fun h1 => Or.inl (h.occ h1), fun _ h1 => h.dead h1, h.elim, h.elimd⟩

/-- Proof device: the result of adding a constraint `C`. -/
def PostA (cx : Cx) (O : Asg → Prop) (C : Asg → Prop) (ids : List Nat) (s : St) : Res St → Prop
  | .ok s' => Wf cx s' ∧ MkOk [] s' ∧ FrA ids s s' ∧ (∀ M, Sem O s M ∧ C M ↔ Sem O s' M) ∧ (Two s → Two s')
  | .unsat => ∀ M, Sem O s M → ¬ C M
  | .undef => ¬ Two s
  | .fuel => True

theorem storeResolvent_ok {cx O} (hl : cx.Law O) (fuel id : Nat) {s : St} {r : List Lit} (h : Wf cx s) (hm : MkOk r s)
    (hnd : (r.map Lit.var).Nodup) (hk : ∀ l ∈ r, s.mark l.var = some l.sign) (hfree : ∀ l ∈ r, l ∉ s.trail ∧ l.neg ∉ s.trail)
    (hel : ∀ l ∈ r, s.elimd l.var = false) (hid : s.cls id = none) (ho : ∀ v sg, (id, sg) ∉ s.occ v) :
    PostA cx O (fun M => M.satC r) [id] s (storeResolvent cx fuel id (subsumed r s) r) := by
  obtain ⟨a, b, c, d⟩ := subsumed_ok (O := O) hnd h hm hk
  generalize subsumed r s = q at a b c d
  obtain ⟨o, s1⟩ := q
  simp only [] at a b c d
  have hm1 : MkOk r s1 := b.mkOk hm
  -- marks left belong to the clause kept
  have hmk : ∀ k : Cl, (∀ l ∈ rem s1.mark r, l ∈ k) → ∀ mk : Marks, (∀ v sg, mk v = some sg → s1.mark v = some sg) →
      (∀ l ∈ k, mk l.var = none) → MkOk [] { s1 with mark := mk } := by
    intro k h1 mk h2 h3 v sg hv
    rcases hm1 v sg (h2 v sg hv) with h4 | h4
    · exact Or.inl h4
    · have := h3 _ (h1 _ (mem_rem.mpr ⟨h4, h2 v sg hv⟩))
      replace hv : mk v = some sg := hv
      simp only [] at this; rw [this] at hv; cases hv
  unfold storeResolvent
  cases o with
  | none =>
    refine ⟨{ a with }, hmk r (fun l hl => (mem_rem.mp hl).1) _ (fun v sg hv => ?_) (fun l hl => ?_), ?_, fun M => ?_, b.two⟩
    · rw [unmarkAll_apply] at hv; split at hv
      · cases hv
      · exact hv
    · rw [unmarkAll_apply, if_pos (List.mem_map_of_mem hl)]
    · have := b.fr; exact ⟨fun h => Or.inl (this.occ h), fun _ h => this.dead h, this.elim, this.elimd⟩
    · exact ⟨fun hM => (b.sem M).mp hM.1, fun hM => ⟨(b.sem M).mpr hM, c rfl M ((b.sem M).mpr hM)⟩⟩
  | some k =>
    obtain ⟨d1, d2, d3⟩ := d k rfl
    have hkn : (k.map Lit.var).Nodup := by
      obtain ⟨k', hp, hs⟩ := d1
      exact (hp.map Lit.var).nodup_iff.mp (hnd.sublist (hs.map _))
    match k, d1, d2, d3, hkn with
    | [], _, _, d3, _ =>
      intro M hM hc
      have := (d3 M hM).mp hc
      obtain ⟨y, hy, _⟩ := this
      cases hy
    | [u], d1, d2, d3, _ =>
      simp only []
      have hu : u ∈ r := d1.subset (by simp)
      have hm2 := hmk [u] d2 (update s1.mark u.var none) update_none_mk (by simp)
      have hw2 : Wf cx { s1 with mark := update s1.mark u.var none } := { a with }
      have := addUnit_gen (O := O) (l := u) hl hw2 hm2 (by rw [show ({ s1 with mark := update s1.mark u.var none } : St).elimd = s1.elimd from rfl, b.elimd]; exact hel u hu)
      cases hau : addUnit cx u { s1 with mark := update s1.mark u.var none } with
      | ok s2 =>
        rw [hau] at this
        obtain ⟨p1, p2, p3, p4, p5⟩ := this
        simp only [Res.bind]
        have s2fr : ∀ {mk : Marks} {z : St}, Fr { s1 with mark := mk } z → Fr s1 z := fun h => ⟨h.occ, h.dead, h.elim, h.elimd, h.trail⟩
        have hp := propFacts_post (O := O) hl fuel s2 p1 p2
        have hfr2 : Fr s s2 := b.fr.trans (s2fr p3)
        have hsem : ∀ M, Sem O s M ∧ M.satC r ↔ Sem O s2 M := fun M => by
          rw [← p4 M]
          constructor
          · rintro ⟨h1, h2⟩
            obtain ⟨y, hy, hs⟩ := (d3 M h1).mp h2
            rw [List.mem_singleton] at hy; subst hy
            exact ⟨(b.sem M).mp h1, hs⟩
          · rintro ⟨h1, h2⟩
            have h1' := (b.sem M).mpr h1
            exact ⟨h1', (d3 M h1').mpr ⟨u, by simp, h2⟩⟩
        have htwo : Two s → Two s2 := fun h2 => by rw [p5]; exact b.two h2
        cases hpf : propFacts cx fuel s2 with
        | ok s3 =>
          rw [hpf] at hp
          obtain ⟨q1, q2, q3, q4, q5⟩ := hp
          exact ⟨q1, q2, (hfr2.trans q3).toA, fun M => (hsem M).trans (q4 M), fun h => q5 (htwo h)⟩
        | unsat => rw [hpf] at hp; exact fun M h1 h2 => hp M ((hsem M).mp ⟨h1, h2⟩)
        | undef => rw [hpf] at hp; exact fun h => hp (htwo h)
        | fuel => trivial
      | unsat =>
        rw [hau] at this
        intro M hM hc
        obtain ⟨y, hy, hs⟩ := (d3 M hM).mp hc
        rw [List.mem_singleton] at hy; subst hy
        exact this M ((b.sem M).mp hM) hs
      | undef => rw [hau] at this; exact this.elim
      | fuel => rw [hau] at this; exact this.elim
    | x :: y :: t, d1, d2, d3, hkn =>
      simp only []
      have hid1 : s1.cls id = none := b.dead hid
      have hw := a.attach (id := id) (x := x) (t := y :: t) hid1 (fun v sg => by rw [b.occ]; exact ho v sg) hkn
        (fun l hl z hz e => by
          rw [b.trail] at hl
          have hf := hfree z (d1.subset hz)
          rcases Lit.eq_or_neg e with rfl | rfl
          · exact hf.1 (List.mem_of_mem_take hl)
          · exact hf.2 (by rw [Lit.neg_neg]; exact List.mem_of_mem_take hl))
        (fun z hz => by rw [b.elimd]; exact hel z (d1.subset hz))
      have heq : attach id { s1 with cls := update s1.cls id (some (x :: y :: t)) } =
          { s1 with cls := update s1.cls id (some (x :: y :: t)), occ := attachOcc id (x :: y :: t) s1.occ,
                    wat := update s1.wat x.var (s1.wat x.var ++ [id]), mark := unmarkAll s1.mark (x :: y :: t) } := by
        unfold Elite.attach
        simp only [update_self]
      rw [heq]
      refine ⟨{ hw with }, ?_, ⟨fun {v e} he => ?_, fun {j} hj hd => ?_, b.elim, b.elimd⟩, fun M => ?_, fun h2 j e hj => ?_⟩
      · have := hmk (x :: y :: t) d2 (unmarkAll s1.mark (x :: y :: t)) (fun v sg hv => ?_) (fun l hl => ?_)
        · exact this
        · rw [unmarkAll_apply] at hv; split at hv
          · cases hv
          · exact hv
        · rw [unmarkAll_apply, if_pos (List.mem_map_of_mem hl)]
      · rcases mem_attachOcc.mp he with h1 | ⟨l, _, _, rfl⟩
        · rw [b.occ] at h1; exact Or.inl h1
        · exact Or.inr (by simp)
      · rw [List.mem_singleton] at hj
        show update s1.cls id _ j = none
        rw [update_of_ne hj]; exact b.dead hd
      · constructor
        · rintro ⟨h1, h2⟩
          have hs1 := (b.sem M).mp h1
          refine ⟨hs1.1, fun j e hj => ?_, hs1.2.2⟩
          replace hj : update s1.cls id (some (x :: y :: t)) j = some e := hj
          by_cases hji : j = id
          · subst hji; rw [update_self] at hj; cases hj; exact (d3 M h1).mp h2
          · rw [update_of_ne hji] at hj; exact hs1.2.1 j e hj
        · rintro ⟨h1, h2, h3⟩
          have hs1 : Sem O s1 M := ⟨h1, fun j e hj => h2 j e (by
            show update s1.cls id _ j = some e
            rw [update_of_ne (fun e' => by subst e'; rw [hid1] at hj; cases hj)]; exact hj), h3⟩
          have hs := (b.sem M).mpr hs1
          exact ⟨hs, (d3 M hs).mpr (h2 id _ (by show update s1.cls id _ id = _; simp))⟩
      · replace hj : update s1.cls id (some (x :: y :: t)) j = some e := hj
        by_cases hji : j = id
        · subst hji; rw [update_self] at hj; cases hj; simp
        · rw [update_of_ne hji] at hj; exact b.two h2 j e hj

theorem addResolvent_ok {cx O} (hl : cx.Law O) (fuel id : Nat) {s : St} {lhs rhs : Cl} (h : Wf cx s) (hm : MkOk [] s)
    (hn1 : (lhs.tail.map Lit.var).Nodup) (hn2 : (rhs.tail.map Lit.var).Nodup) (ht : ∀ l ∈ lhs.tail, l.neg ∉ rhs.tail)
    (hel : ∀ l ∈ lhs.tail ++ rhs.tail, s.elimd l.var = false) (hid : s.cls id = none) (ho : ∀ v sg, (id, sg) ∉ s.occ v) :
    PostA cx O (fun M => M.satC (lhs.tail ++ rhs.tail)) [id] s (addResolvent cx fuel id lhs rhs s) := by
  have self : ∀ c : Cl, (c.map Lit.var).Nodup → ∀ l ∈ c, l.neg ∉ c := fun c hc l h1 h2 => by
    have := lit_eq_of_var hc h1 h2 (by simp)
    exact absurd (congrArg Lit.sign this) (by simp [Lit.neg])
  have h0 : RInv s s.mark [] := ⟨by simp, by simp, fun _ _ h => Or.inl h, by simp⟩
  have h1 := resLits_ok hm lhs.tail s.mark [] h0 (fun l hl => ⟨by simp, self _ hn1 l hl⟩)
  have triv : ∀ mk r, RInv s mk r → (∃ l ∈ lhs.tail ++ rhs.tail, l ∈ s.trail) →
      PostA cx O (fun M => M.satC (lhs.tail ++ rhs.tail)) [id] s (.ok { s with mark := unmarkAll mk r }) := by
    intro mk r hr ⟨l, hl1, hl2⟩
    refine ⟨{ h with }, fun v sg hv => ?_, ⟨fun h => Or.inl h, fun _ h => h, rfl, rfl⟩, fun M => ?_, fun h => h⟩
    · replace hv : unmarkAll mk r v = some sg := hv
      rw [unmarkAll_apply] at hv
      split at hv
      · cases hv
      · next hn =>
        rcases hr.old v sg hv with h2 | h2
        · exact hm v sg h2
        · exact absurd (List.mem_map_of_mem (f := Lit.var) h2) hn
    · exact ⟨fun h => h.1, fun h => ⟨h, l, hl1, h.2.2 l hl2⟩⟩
  unfold addResolvent
  generalize resLits s.trail lhs.tail s.mark [] = q at h1
  obtain ⟨b1, mk1, r1⟩ := q
  obtain ⟨a1, a2, a3, a4⟩ := h1
  simp only [] at a1 a2 a3 a4
  cases b1 with
  | true =>
    obtain ⟨l, hl1, hl2⟩ := a2 rfl
    exact triv mk1 r1 a1 ⟨l, by simp [hl1], hl2⟩
  | false =>
    simp only []
    have hsub1 : ∀ l ∈ r1, l ∈ lhs.tail := fun l hl => (a3 l hl).resolve_left (by simp)
    have h2 := resLits_ok hm rhs.tail mk1 r1 a1 (fun l hl => ⟨fun hr => ht _ (hsub1 _ hr) (by rw [Lit.neg_neg]; exact hl), self _ hn2 l hl⟩)
    generalize resLits s.trail rhs.tail mk1 r1 = q at h2
    obtain ⟨b2, mk2, r2⟩ := q
    obtain ⟨c1, c2, c3, c4⟩ := h2
    simp only [] at c1 c2 c3 c4
    cases b2 with
    | true =>
      obtain ⟨l, hl1, hl2⟩ := c2 rfl
      exact triv mk2 r2 c1 ⟨l, by simp [hl1], hl2⟩
    | false =>
      simp only []
      have hsub : ∀ l ∈ r2, l ∈ lhs.tail ++ rhs.tail := fun l hl => by
        rcases c3 l hl with h1 | h1
        · simp [hsub1 l h1]
        · simp [h1]
      have hst := storeResolvent_ok (O := O) (s := { s with mark := mk2 }) (r := r2) hl fuel id { h with } (fun v sg hv => by
        rcases c1.old v sg hv with h2 | h2
        · rcases hm v sg h2 with h3 | h3
          · exact Or.inl h3
          · cases h3
        · exact Or.inr h2) c1.nd c1.mrk c1.free (fun l hl => hel l (hsub l hl)) hid ho
      have hiff : ∀ M, Sem O s M → (M.satC r2 ↔ M.satC (lhs.tail ++ rhs.tail)) := by
        intro M hM
        constructor
        · rintro ⟨y, hy, hs⟩; exact ⟨y, hsub y hy, hs⟩
        · rintro ⟨y, hy, hs⟩
          have hnf : y.neg ∉ s.trail := fun hn => (Asg.sat_neg _ _).mp (hM.2.2 _ hn) hs
          refine ⟨y, ?_, hs⟩
          rcases List.mem_append.mp hy with h1 | h1
          · exact (c4 rfl).1 y (((a4 rfl).2 y h1).resolve_right hnf)
          · exact ((c4 rfl).2 y h1).resolve_right hnf
      generalize storeResolvent cx fuel id (subsumed r2 { s with mark := mk2 }) r2 = res at hst
      cases res with
      | ok s' =>
        obtain ⟨p1, p2, p3, p4, p5⟩ := hst
        refine ⟨p1, p2, ⟨p3.occ, p3.dead, p3.elim, p3.elimd⟩, fun M => ?_, p5⟩
        rw [← p4 M]
        exact and_congr_right fun hM => (hiff M hM).symm
      | unsat => exact fun M hM hc => hst M hM ((hiff M hM).mpr hc)
      | undef => exact hst
      | fuel => trivial

/-! ### adding all resolvents -/

/-- Proof device: a pair of clauses whose resolvent on their first literal can be added to `s`. -/
structure Job (s : St) (j : Nat × Cl × Cl) : Prop where
  n1 : (j.2.1.tail.map Lit.var).Nodup
  n2 : (j.2.2.tail.map Lit.var).Nodup
  nt : ∀ l ∈ j.2.1.tail, l.neg ∉ j.2.2.tail
  el : ∀ l ∈ j.2.1.tail ++ j.2.2.tail, s.elimd l.var = false
  dead : s.cls j.1 = none
  occ : ∀ v sg, (j.1, sg) ∉ s.occ v

theorem addAll_ok {cx O} (hl : cx.Law O) (fuel : Nat) : ∀ (js : List (Nat × Cl × Cl)) (s : St), Wf cx s → MkOk [] s →
    (js.map Prod.fst).Nodup → (∀ j ∈ js, Job s j) →
    PostA cx O (fun M => ∀ j ∈ js, M.satC (j.2.1.tail ++ j.2.2.tail)) (js.map Prod.fst) s (addAll cx fuel js s)
  | [], s, h, hm, _, _ => ⟨h, hm, (Fr.refl s).toA, fun M => by simp, fun h => h⟩
  | (id, l, r) :: js, s, h, hm, hn, hj => by
    simp only [List.map_cons, List.nodup_cons] at hn
    have h0 := hj (id, l, r) (by simp)
    have h1 := addResolvent_ok (O := O) (lhs := l) (rhs := r) hl fuel id h hm h0.n1 h0.n2 h0.nt h0.el h0.dead h0.occ
    unfold addAll
    cases hr : addResolvent cx fuel id l r s with
    | ok s1 =>
      rw [hr] at h1
      obtain ⟨p1, p2, p3, p4, p5⟩ := h1
      simp only [Res.bind]
      have h2 := addAll_ok (O := O) hl fuel js s1 p1 p2 hn.2 (fun j hjm => by
        have hjn : j.1 ≠ id := fun e => hn.1 (e ▸ List.mem_map_of_mem hjm)
        have hjj := hj j (List.mem_cons_of_mem _ hjm)
        refine ⟨hjj.n1, hjj.n2, hjj.nt, by rw [p3.elimd]; exact hjj.el, p3.dead (by simpa using hjn) hjj.dead, fun v sg hv => ?_⟩
        rcases p3.occ hv with h3 | h3
        · exact hjj.occ v sg h3
        · exact hjn (by simpa using h3))
      cases hr2 : addAll cx fuel js s1 with
      | ok s2 =>
        rw [hr2] at h2
        obtain ⟨q1, q2, q3, q4, q5⟩ := h2
        refine ⟨q1, q2, ⟨fun he => ?_, fun hi hd => ?_, q3.elim.trans p3.elim, q3.elimd.trans p3.elimd⟩, fun M => ?_, fun h => q5 (p5 h)⟩
        · rcases q3.occ he with h3 | h3
          · exact (p3.occ h3).imp_right (fun h => by rw [List.mem_singleton] at h; simp [h])
          · exact Or.inr (by simp only [List.map_cons, List.mem_cons]; exact Or.inr h3)
        · simp only [List.map_cons, List.mem_cons, not_or] at hi
          exact q3.dead hi.2 (p3.dead (by simpa using hi.1) hd)
        · rw [← q4 M, ← p4 M]
          simp only [List.forall_mem_cons, and_assoc]
      | unsat =>
        rw [hr2] at h2
        exact fun M hM hc => h2 M ((p4 M).mp ⟨hM, hc (id, l, r) (by simp)⟩) (fun j hj => hc j (List.mem_cons_of_mem _ hj))
      | undef => rw [hr2] at h2; exact fun h => h2 (p5 h)
      | fuel => trivial
    | unsat => rw [hr] at h1; exact fun M hM hc => h1 M hM (hc (id, l, r) (by simp))
    | undef => rw [hr] at h1; exact h1
    | fuel => trivial

end Clasp.Elite
