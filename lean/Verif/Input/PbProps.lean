/-
C34 for `PBBuilder`: for every sequence of constraints and objectives over products of literals of the variables `1..n`, the problem given
to the solver has the models and costs the input prescribes - up to the exceptions shown at the end.
-/
import Verif.Input.PbLem
namespace Clasp.Input
open Core Weight Function

/-- Nothing is added after a conflict. -/
theorem PInv.dead {n : Nat} {all done : List PCall} {ds : List Defn} {s : Pb} (hi : PInv n all done ds s) (hok : s.db.ok = false) (c : PCall) :
    PInv n all (done ++ [c]) ds s := by
  have hd : ∀ M, ¬ s.db.Models M := fun M hM => by have := hM.1; rw [hok] at this; cases this
  exact ⟨hi.defs, hi.lt, hi.top0, hi.tru, hi.defd, fun M h0 hc => hi.comp M h0 fun c' h => hc c' (List.mem_append_left _ h),
    fun _ M hM => absurd hM (hd M), fun M hM => absurd hM (hd M), hi.prods⟩

/-- What a hard constraint adds. -/
theorem PInv.hard {n : Nat} {all done : List PCall} {ds : List Defn} {s s' : Pb} (hi : PInv n all done ds s) {c : PCall}
    (hs : ∃ d', s' = { s with db := d' }) (hm : s'.db.mini = s.db.mini) (ht : s'.db.top 0 = some true) (hc0 : ∀ M, c.cost M = 0)
    (h1 : ∀ M, s'.db.Models M → s.db.Models M) (h2 : ∀ M, s.db.Models M → c.hard M → s'.db.Models M)
    (h3 : Exact all → ∀ M, s'.db.Models M → c.hard M) : PInv n all (done ++ [c]) ds s' := by
  obtain ⟨d', rfl⟩ := hs
  refine ⟨hi.defs, hi.lt, ht, fun M hM => hi.tru M (h1 M hM), fun M hM => hi.defd M (h1 M hM), fun M h0 hc hf => ?_, fun he M hM c' hc' => ?_, fun M hM => ?_, hi.prods⟩
  · exact h2 M (hi.comp M h0 (fun c' h => hc c' (List.mem_append_left _ h)) hf) (hc c (by simp))
  · rcases List.mem_append.mp hc' with h | h
    · exact hi.sound he M (h1 M hM) c' h
    · rw [List.mem_singleton] at h; subst h; exact h3 he M hM
  · rw [hm, hi.cost M (h1 M hM), pcosts_snoc, hc0, Int.add_zero]

theorem made_mini (d : Db) (r : Option (List Made)) : (d.made r).mini = d.mini := by cases r <;> rfl

theorem softLit_ok {x : WL} {b : Int} {l : Lit} (h : softLit x b = .ok l) (hb : min x.w 0 < b) {M : Asg} (h0 : M 0 = true) :
    M.sat l ↔ ¬ val M [x] ≥ b := by
  have hv : val M [x] = if M.sat x.lit then x.w else 0 := by simp [val]
  have ht : M.sat litTrue := (sat_litTrue M).2 h0
  unfold softLit at h
  by_cases hw : x.w < 0
  · simp only [hw, if_true] at h
    obtain ⟨w, h1, h⟩ := bind_ok.1 h
    obtain ⟨rfl, _⟩ := chk_ok.1 h1
    obtain ⟨b', h2, h⟩ := bind_ok.1 h
    obtain ⟨rfl, _⟩ := chk_ok.1 h2
    simp only [Except.ok.injEq] at h
    subst h
    rw [hv]
    split
    · rw [Lit.neg_neg]; simp only [ht, true_iff]; split <;> omega
    · rw [Lit.neg_neg]; split
      · next h => simp only [h, true_iff]; omega
      · next h => simp only [h, false_iff, not_not]; omega
  · simp only [hw, if_false] at h
    obtain ⟨w, h1, h⟩ := bind_ok.1 h
    cases h1
    obtain ⟨b', h2, h⟩ := bind_ok.1 h
    cases h2
    simp only [Except.ok.injEq] at h
    subst h
    rw [hv]
    split
    · rw [Lit.neg_neg]; simp only [ht, true_iff]; split <;> omega
    · rw [Asg.sat_neg]; split
      · next h => simp only [h, not_true, false_iff, not_not]; omega
      · next h => simp only [h, not_false_eq_true, true_iff]; omega

/-- One call. -/
theorem pcall_inv {n : Nat} {all done : List PCall} {ds : List Defn} {s s' : Pb} {c : PCall} (hi : PInv n all done ds s)
    (hl : ∀ c ∈ done, c.le n) (hle : c.le n) (hsup : c.sup) (hall : ∀ c' ∈ done ++ [c], c' ∈ all) (h : s.call c = .ok s') :
    ∃ ds', PInv n all (done ++ [c]) ds' s' := by
  cases c with
  | bound b =>
    simp only [Pb.call, Except.ok.injEq] at h
    have hdb : s'.db = s.db ∧ s'.prods = s.prods ∧ s'.aux = s.aux := by
      rw [← h]; unfold Pb.setSoftBound; split <;> exact ⟨rfl, rfl, rfl⟩
    obtain ⟨e1, e2, e3⟩ := hdb
    refine ⟨ds, ⟨e3 ▸ hi.defs, e3 ▸ hi.lt, e1 ▸ hi.top0, e1 ▸ hi.tru, e1 ▸ hi.defd, ?_, ?_, ?_, e2 ▸ hi.prods⟩⟩
    · rw [e1]; exact fun M h0 hc => hi.comp M h0 fun c' h => hc c' (List.mem_append_left _ h)
    · rw [e1]; intro he M hM c' hc'
      rcases List.mem_append.mp hc' with h | h
      · exact hi.sound he M hM c' h
      · rw [List.mem_singleton] at h; subst h; trivial
    · rw [e1]; intro M hM; rw [hi.cost M hM, pcosts_snoc]; simp [PCall.cost]
  | obj ts =>
    obtain ⟨⟨s1, ls⟩, h1, h⟩ := bind_ok.1 h
    simp only [Except.ok.injEq] at h; subst h
    obtain ⟨ds1, i1, m1, e1, v1, _⟩ := sum_inv hi hle h1
    have hmod : ∀ M, (s1.addObjective ls).db.Models M ↔ s1.db.Models M := fun M => Iff.rfl
    refine ⟨ds1, ⟨i1.defs, i1.lt, i1.top0, i1.tru, i1.defd, fun M h0 hc => i1.comp M h0 fun c' h => hc c' (List.mem_append_left _ h), fun he M hM c' hc' => ?_, fun M hM => ?_, i1.prods⟩⟩
    · rcases List.mem_append.mp hc' with h | h
      · exact i1.sound he M hM c' h
      · rw [List.mem_singleton] at h; subst h; trivial
    · show val M (s1.db.mini ++ ls) = _
      rw [val_append, i1.cost M hM, v1 M hM, pcosts_snoc]; rfl
  | con ts b eq cw =>
    obtain ⟨⟨s1, ls⟩, h1, h⟩ := bind_ok.1 h
    obtain ⟨ds1, i1, m1, e1, v1, w1⟩ := sum_inv hi hle h1
    dsimp only at h
    unfold Pb.addConstraint at h
    split at h
    · next hok => simp only [Except.ok.injEq] at h; subst h; exact ⟨ds1, i1.dead hok _⟩
    · split at h
      · -- soft
        next hcw =>
        obtain ⟨rfl, hs1⟩ := hsup hcw
        have hnh : ∀ M, PCall.hard M (.con ts b false cw) := fun M h => by omega
        have hrel : ∀ M, relSat M ts false b ↔ psum M ts ≥ b := fun M => by unfold relSat; simp
        have hlen : ls.length = ts.length := by have := congrArg List.length w1; simpa using this
        have hmulti : (∀ x, ls ≠ [x]) → (do let v ← s1.auxVar; (v.1.addMin ⟨⟨v.2, true⟩, cw⟩).create false ⟨v.2, false⟩ ls b : R Pb) = .ok s' →
            ∃ ds', PInv n all (done ++ [.con ts b false cw]) ds' s' := by
          intro _ h
          obtain ⟨⟨s2, v⟩, hv, h⟩ := bind_ok.1 h
          unfold Pb.auxVar at hv
          split at hv
          · simp only [Except.ok.injEq, Prod.mk.injEq] at hv
            obtain ⟨rfl, rfl⟩ := hv
            obtain ⟨m, hm, h⟩ := bind_ok.1 h
            simp only [Except.ok.injEq] at h
            subst h
            have hmod : ∀ M, ((Pb.addMin { s1 with aux := s1.aux + 1 } ⟨⟨s1.aux, true⟩, cw⟩).db.made m).Models M ↔
                s1.db.Models M ∧ (M s1.aux = true ↔ psum M ts ≥ b) := by
              intro M
              have hg := geq_models hm M
              constructor
              · intro hx
                obtain ⟨a, bb⟩ := hg.1 hx
                have a' : s1.db.Models M := a
                refine ⟨a', ?_⟩
                unfold iffHolds holds at bb
                rw [sat_pos, v1 M a'] at bb
                exact bb
              · rintro ⟨a, bb⟩
                refine hg.2 ⟨a, ?_⟩
                unfold iffHolds holds
                rw [sat_pos, v1 M a]
                exact bb
            have hmini : ((Pb.addMin { s1 with aux := s1.aux + 1 } ⟨⟨s1.aux, true⟩, cw⟩).db.made m).mini = s1.db.mini ++ [⟨⟨s1.aux, true⟩, cw⟩] := made_mini _ _
            refine ⟨ds1 ++ [(s1.aux, fun M => psum M ts ≥ b)], ⟨i1.defs.snoc i1.lt _ fun M M' hag => by rw [psum_congr hle hag], ?_, ?_, ?_, ?_, ?_, ?_, ?_, ?_⟩⟩
            · exact Nat.lt_succ_of_lt i1.lt
            · exact made_mono hm i1.top0
            · exact fun M hM => i1.tru M ((hmod M).1 hM).1
            · intro M hM
              obtain ⟨a, bb⟩ := (hmod M).1 hM
              exact follows_snoc.2 ⟨i1.defd M a, bb⟩
            · intro M h0 hc hf
              obtain ⟨a, bb⟩ := follows_snoc.1 hf
              exact (hmod M).2 ⟨i1.comp M h0 (fun c' h => hc c' (List.mem_append_left _ h)) a, bb⟩
            · intro he M hM c' hc'
              rcases List.mem_append.mp hc' with h | h
              · exact i1.sound he M ((hmod M).1 hM).1 c' h
              · rw [List.mem_singleton] at h; subst h; exact hnh M
            · intro M hM
              obtain ⟨a, bb⟩ := (hmod M).1 hM
              show val M ((Pb.addMin { s1 with aux := s1.aux + 1 } ⟨⟨s1.aux, true⟩, cw⟩).db.made m).mini = _
              rw [hmini, val_append, i1.cost M a, pcosts_snoc, PCall.cost]
              congr 1
              have hsat : M.sat ⟨s1.aux, true⟩ ↔ ¬ psum M ts ≥ b := by
                rw [← bb]; unfold Asg.sat Lit.tv; simp
              rw [val_cons, val_nil, Int.add_zero]
              dsimp only
              by_cases hc : psum M ts ≥ b
              · rw [if_neg (fun h => hsat.1 h hc), if_pos (.inr ((hrel M).2 hc))]
              · rw [if_pos (hsat.2 hc), if_neg (fun h => h.elim (by omega) fun h => hc ((hrel M).1 h))]
            · intro p hp
              obtain ⟨a, d, bb, c⟩ := i1.prods p hp
              exact ⟨a, d, List.mem_append_left _ bb, c⟩
          · cases hv
        match ls, hlen, w1, v1, h1, hmulti, h with
        | [], _, _, _, _, hmulti, h => exact hmulti (by simp) h
        | x :: y :: zs, _, _, _, _, hmulti, h => exact hmulti (by simp) h
        | [x], hlen, w1, v1, _, _, h =>
          obtain ⟨l, hsl, h⟩ := bind_ok.1 h
          simp only [Except.ok.injEq] at h
          subst h
          obtain ⟨t, rfl⟩ : ∃ t, ts = [t] := by
            cases ts with
            | nil => simp at hlen
            | cons t ts =>
              cases ts with
              | nil => exact ⟨t, rfl⟩
              | cons => simp at hlen
          have hw : x.w = t.1 := by simpa using w1
          have hb := hs1 t rfl
          rw [← hw] at hb
          refine ⟨ds1, ⟨i1.defs, i1.lt, i1.top0, i1.tru, i1.defd, fun M h0 hc => i1.comp M h0 fun c' h => hc c' (List.mem_append_left _ h), fun he M hM c' hc' => ?_, fun M hM => ?_, i1.prods⟩⟩
          · rcases List.mem_append.mp hc' with h | h
            · exact i1.sound he M hM c' h
            · rw [List.mem_singleton] at h; subst h; exact hnh M
          · show val M (s1.db.mini ++ [⟨l, cw⟩]) = _
            have hM' : s1.db.Models M := hM
            rw [val_append, i1.cost M hM', pcosts_snoc, PCall.cost]
            congr 1
            have hsat := softLit_ok hsl hb (i1.tru M hM')
            rw [v1 M hM'] at hsat
            rw [val_cons, val_nil, Int.add_zero]
            dsimp only
            by_cases hc : psum M [t] ≥ b
            · rw [if_neg (fun h => hsat.1 h hc), if_pos (.inr ((hrel M).2 hc))]
            · rw [if_pos (hsat.2 hc), if_neg (fun h => h.elim (by omega) fun h => hc ((hrel M).1 h))]
      · -- hard
        next hcw =>
        have hcost : ∀ M, PCall.cost M (.con ts b eq cw) = 0 := fun M => by rw [PCall.cost, if_pos (.inl (by omega))]
        have hhard : ∀ M, PCall.hard M (.con ts b eq cw) ↔ relSat M ts eq b := fun M => ⟨fun h => h (by omega), fun h _ => h⟩
        obtain ⟨m, hm, h⟩ := bind_ok.1 h
        simp only [Except.ok.injEq] at h
        subst h
        refine ⟨ds1, i1.hard ⟨_, rfl⟩ (made_mini _ _) (made_mono hm i1.top0) hcost ?_ ?_ ?_⟩
        · intro M hM
          cases eq with
          | false => exact ((geq_models hm M).1 hM).1
          | true => exact (eq_models hm i1.top0 M).1 hM
        · intro M hM hc
          rw [hhard] at hc
          unfold relSat at hc
          rw [← v1 M hM] at hc
          cases eq with
          | false =>
            refine (geq_models hm M).2 ⟨hM, ?_⟩
            have : M.sat litTrue := (sat_litTrue M).2 (i1.tru M hM)
            unfold iffHolds holds
            simpa [this] using hc
          | true => exact (eq_models hm i1.top0 M).2.1 hM (by unfold eqHolds; simpa using hc)
        · intro he M hM
          rw [hhard]
          unfold relSat
          cases eq with
          | false =>
            obtain ⟨a, bb⟩ := (geq_models hm M).1 hM
            have : M.sat litTrue := (sat_litTrue M).2 (i1.tru M a)
            unfold iffHolds holds at bb
            rw [← v1 M a]
            simpa [this] using bb
          | true =>
            have a := (eq_models hm i1.top0 M).1 hM
            rw [if_pos rfl, ← v1 M a]
            refine (eq_models hm i1.top0 M).2.2 ?_ hM
            rcases he with he | ⟨M0, h0, hM0⟩
            · exact absurd ⟨by omega, rfl⟩ (he _ (hall (.con ts b true cw) (by simp)))
            · have hag : ∀ v ≤ n, extend n ds1 M0 v = M0 v := extend_le
              have hmod : s1.db.Models (extend n ds1 M0) := by
                refine i1.comp _ (by rw [hag 0 (by omega)]; exact h0) (fun c' hc' => ?_) (i1.defs.follows M0)
                exact (PCall.congr (hl c' hc') hag).1.2 (hM0 c' (hall c' (List.mem_append_left _ hc')))
              refine ⟨extend n ds1 M0, hmod.2.1, ?_⟩
              have := (hM0 _ (hall (.con ts b true cw) (by simp))) (by omega)
              unfold relSat at this
              unfold eqHolds
              rw [v1 _ hmod, psum_congr hle hag]
              simpa using this

theorem pcalls_inv {n : Nat} {all : List PCall} : ∀ (cs done : List PCall) (ds : List Defn) (s s' : Pb), PInv n all done ds s →
    (∀ c ∈ done ++ cs, c.le n ∧ c.sup ∧ c ∈ all) → Pb.calls cs s = .ok s' → ∃ ds', PInv n all (done ++ cs) ds' s' := by
  intro cs
  induction cs with
  | nil =>
    intro done ds s s' hi _ h
    simp only [Pb.calls, Except.ok.injEq] at h; subst h
    rw [List.append_nil]; exact ⟨ds, hi⟩
  | cons c cs ih =>
    intro done ds s s' hi hall h
    obtain ⟨s1, h1, h⟩ := bind_ok.1 h
    obtain ⟨a1, a2, a3⟩ := hall c (by simp)
    obtain ⟨ds1, i1⟩ := pcall_inv hi (fun c' hc' => (hall c' (List.mem_append_left _ hc')).1) a1 a2 (fun c' hc' => by
      rcases List.mem_append.mp hc' with h | h
      · exact (hall c' (List.mem_append_left _ h)).2.2
      · rw [List.mem_singleton] at h; subst h; exact a3) h1
    have := ih (done ++ [c]) ds1 s1 s' i1 (by simpa using hall) h
    simpa using this

theorem endAux_ok : ∀ (k v : Nat) (d : Db), (endAux k v d).mini = d.mini ∧ ∀ M, (endAux k v d).Models M ↔ d.Models M ∧ ∀ i < k, M (v + i) = false := by
  have hone : ∀ (d : Db) (x : Lit), (d.clause [x]).mini = d.mini := by
    intro d x
    show Db.mini (match force d.top x with | none => { d with ok := false } | some t => { d with top := t }) = _
    cases force d.top x <;> rfl
  intro k
  induction k with
  | zero => intro v d; exact ⟨rfl, fun M => by simp [endAux]⟩
  | succ k ih =>
    intro v d
    have hc : ∀ M : Asg, M.satC [⟨v, true⟩] ↔ M v = false := fun M => by
      unfold Asg.satC Asg.sat Lit.tv; simp
    unfold endAux
    split
    · obtain ⟨a, b⟩ := ih (v + 1) (d.clause [⟨v, true⟩])
      refine ⟨a.trans (hone _ _), fun M => ?_⟩
      rw [b, clause_models, hc]
      constructor
      · rintro ⟨⟨a, b⟩, c⟩
        refine ⟨a, fun i hi => ?_⟩
        cases i with
        | zero => exact b
        | succ i => have := c i (by omega); rwa [show v + (i + 1) = v + 1 + i by omega]
      · rintro ⟨a, b⟩
        refine ⟨⟨a, b 0 (by omega)⟩, fun i hi => ?_⟩
        have := b (i + 1) (by omega)
        rwa [show v + 1 + i = v + (i + 1) by omega]
    · next hok =>
      refine ⟨hone _ _, fun M => ⟨fun h => absurd h.1 hok, fun ⟨h1, h2⟩ => ?_⟩⟩
      exact (clause_models _ _ _).2 ⟨h1, (hc M).2 (h2 0 (by omega))⟩

theorem pdoEnd_ok (s : Pb) : s.doEnd.mini = s.db.mini ∧ ∀ M, s.doEnd.Models M ↔ s.db.Models M ∧ ∀ v, s.aux ≤ v → v < s.endv → M v = false := by
  unfold Pb.doEnd
  split
  · obtain ⟨a, b⟩ := endAux_ok (s.endv - s.aux) s.aux s.db
    refine ⟨a, fun M => ?_⟩
    rw [b]
    refine and_congr_right fun _ => ⟨fun h v h1 h2 => ?_, fun h i hi => h _ (by omega) (by omega)⟩
    have := h (v - s.aux) (by omega)
    rwa [show s.aux + (v - s.aux) = v by omega] at this
  · next hok => exact ⟨rfl, fun M => ⟨fun h => absurd h.1 hok, fun h => absurd h.1.1 hok⟩⟩

/-- Every assignment to the variables of the input that satisfies the hard constraints is a model of the problem given to the solver for
some values of the auxiliary variables, with exactly the costs the input assigns to it. Missing: soft equalities and some soft
constraints over a single term (`PCall.sup`), for which the claim is false (`C34_pb_soft_eq`, `C34_pb_soft_single`). -/
theorem C34_pb_complete_partial {n p q : Nat} {cs : List PCall} {s : Pb} (h : Pb.calls cs (Pb.prepare n p q) = .ok s)
    (hl : ∀ c ∈ cs, c.le n) (hs : ∀ c ∈ cs, c.sup) (M : Asg) (h0 : M 0 = true) (hM : ∀ c ∈ cs, c.hard M) :
    ∃ M' : Asg, (∀ v ≤ n, M' v = M v) ∧ s.doEnd.Models M' ∧ val M' s.doEnd.mini = pcosts cs M := by
  obtain ⟨ds, hi⟩ := pcalls_inv (all := cs) cs [] [] _ s (prepare_inv n p q cs) (fun c hc => ⟨hl c hc, hs c hc, hc⟩) h
  rw [List.nil_append] at hi
  have hag : ∀ v ≤ n, extend n ds M v = M v := extend_le
  have hmod : s.db.Models (extend n ds M) := hi.comp _ (by rw [hag 0 (by omega)]; exact h0)
    (fun c hc => (PCall.congr (hl c hc) hag).1.2 (hM c hc)) (hi.defs.follows M)
  obtain ⟨e1, e2⟩ := pdoEnd_ok s
  refine ⟨extend n ds M, hag, (e2 _).2 ⟨hmod, fun v hv _ => hi.defs.aux M hi.lt hv⟩, ?_⟩
  rw [e1, hi.cost _ hmod]
  unfold pcosts
  congr 1
  exact List.map_congr_left fun c hc => (PCall.congr (hl c hc) hag).2

/-- Every model of the problem given to the solver satisfies the hard constraints, provided that there are no hard equalities or the
input has a solution; its costs are those of the input. Missing: see `C34_pb_complete_partial`; an input without solution but with
equalities may be accepted (`C34_pb_eq`). -/
theorem C34_pb_sound_partial {n p q : Nat} {cs : List PCall} {s : Pb} (h : Pb.calls cs (Pb.prepare n p q) = .ok s)
    (hl : ∀ c ∈ cs, c.le n) (hs : ∀ c ∈ cs, c.sup) (M : Asg) (hM : s.doEnd.Models M) :
    (((∀ c ∈ cs, ¬ c.isEq) ∨ ∃ M : Asg, M 0 = true ∧ ∀ c ∈ cs, c.hard M) → ∀ c ∈ cs, c.hard M) ∧ val M s.doEnd.mini = pcosts cs M := by
  obtain ⟨ds, hi⟩ := pcalls_inv (all := cs) cs [] [] _ s (prepare_inv n p q cs) (fun c hc => ⟨hl c hc, hs c hc, hc⟩) h
  rw [List.nil_append] at hi
  obtain ⟨e1, e2⟩ := pdoEnd_ok s
  have hmod := ((e2 M).1 hM).1
  exact ⟨fun he => hi.sound he M hmod, by rw [e1]; exact hi.cost M hmod⟩

/-! ### Sorting happens at most once -/

theorem prodLoop_sorted {top : Top} {arr : List Lit} : ∀ (xs : List Lit) (last : Lit) (out : List Lit), xs.Pairwise (fun a b => a.var ≤ b.var) →
    (∀ x ∈ xs, last.var ≤ x.var) → ∀ ls, prodLoop top arr xs last out ≠ .redo ls := by
  intro xs
  induction xs with
  | nil => intro last out _ _ ls h; cases h
  | cons x xs ih =>
    intro last out hp hl ls
    rw [List.pairwise_cons] at hp
    have h1 := hl x (by simp)
    unfold prodLoop
    split_ifs with c1 c2 c3
    · simp
    · omega
    · exact ih x _ hp.2 hp.1 ls
    · exact ih last _ hp.2 (fun y hy => hl y (by simp [hy])) ls

/-- The literals of a product are found without any further recursion: the test for sorted literals fails at most once. -/
theorem C34_pb_sort (top : Top) (lits : List Lit) : ∃ ls, productSubsumed top lits = .ok ls := by
  unfold productSubsumed
  cases prodLoop top lits lits litTrue [] with
  | false => exact ⟨_, rfl⟩
  | done out => exact ⟨_, rfl⟩
  | redo ls0 =>
    dsimp only
    have hs : (Clasp.Mini.ssort ltLit ls0).Pairwise (fun a b => a.var ≤ b.var) := by
      refine (Clasp.Mini.ssort_sorted (cmp := ltLit) (S := fun _ => True) ?_ ?_ (l := ls0) (by simp)).imp ?_
      · intro a b _ _ h
        unfold ltLit at *
        by_cases e : a.var = b.var
        · simp [e] at h ⊢; simp [h.1]
        · simp [e] at h; have : ¬ b.var < a.var := by omega
          have e' : ¬ b.var = a.var := fun h => e h.symm
          simp [this, e']
      · intro a b c _ _ _ h1 h2
        unfold ltLit at *
        simp only [Bool.or_eq_false_iff, decide_eq_false_iff_not, Bool.and_eq_false_iff, Bool.not_eq_false'] at *
        refine ⟨by omega, ?_⟩
        by_cases e : c.var = a.var
        · have e1 : b.var = a.var := by omega
          simp only [e, e1, not_true, false_or] at *
          revert h1 h2
          cases a.sign <;> cases b.sign <;> cases c.sign <;> simp
        · exact .inl (.inl e)
      · intro a b h
        unfold ltLit at h
        simp only [Bool.or_eq_false_iff, decide_eq_false_iff_not] at h
        omega
    cases h : prodLoop top (Clasp.Mini.ssort ltLit ls0) (Clasp.Mini.ssort ltLit ls0) litTrue [] with
    | false => exact ⟨_, rfl⟩
    | done out => exact ⟨_, rfl⟩
    | redo ls => exact absurd h (prodLoop_sorted _ _ _ hs (fun x _ => Nat.zero_le _) ls)

/-! ### Examples and exceptions -/

namespace PbEx

/-- Example: literals -/
def x (v : Nat) : Lit := ⟨v, false⟩

/-- Example: `2 x2 x1 + 2 x2 ~x1 >= 2`, soft `[7] 2 x1 x2 + 2 ~x3 >= 4`, `x1 + x3 = 1` and the objective `3 x1 - 2 x2 x3` -/
def cs : List PCall := [.con [(2, [x 2, x 1]), (2, [x 2, (x 1).neg])] 2 false 0, .con [(2, [x 1, x 2]), (2, [(x 3).neg])] 4 false 7,
  .con [(1, [x 1]), (1, [x 3])] 1 true 0, .obj [(3, [x 1]), (-2, [x 2, x 3])]]

/-- Example: `x1, x2` true, `x3` false -/
def asg : Asg := fun v => v == 0 || v == 1 || v == 2

theorem runs : ∃ s, Pb.calls cs (Pb.prepare 3 4 1) = .ok s := by
  have : (Pb.calls cs (Pb.prepare 3 4 1)).toBool = true := by decide +kernel
  cases h : Pb.calls cs (Pb.prepare 3 4 1) with
  | ok s => exact ⟨s, rfl⟩
  | error e => rw [h] at this; cases this

theorem le : ∀ c ∈ cs, c.le 3 := by
  intro c hc; simp [cs] at hc; rcases hc with rfl | rfl | rfl | rfl <;> simp [PCall.le, x, Lit.neg]
theorem sup : ∀ c ∈ cs, c.sup := by
  intro c hc; simp [cs] at hc; rcases hc with rfl | rfl | rfl | rfl <;> simp [PCall.sup]
theorem hard : ∀ c ∈ cs, c.hard asg := by
  intro c hc; simp [cs] at hc
  rcases hc with rfl | rfl | rfl | rfl <;> simp [PCall.hard, relSat, psum, termTrue, x, Lit.neg, Asg.sat, Lit.tv, asg]

/- It is a model with costs 3, and all models satisfy the constraints. -/
example : ∃ s M, Pb.calls cs (Pb.prepare 3 4 1) = .ok s ∧ s.doEnd.Models M ∧ val M s.doEnd.mini = 3 ∧
    ∀ M', s.doEnd.Models M' → ∀ c ∈ cs, c.hard M' := by
  obtain ⟨s, hs⟩ := runs
  obtain ⟨M, h1, h2, h3⟩ := C34_pb_complete_partial hs le sup asg rfl hard
  refine ⟨s, M, hs, h2, ?_, fun M' hM' => (C34_pb_sound_partial hs le sup M' hM').1 (.inr ⟨asg, rfl, hard⟩)⟩
  rw [h3]
  simp [pcosts, cs, PCall.cost, relSat, psum, termTrue, x, Lit.neg, Asg.sat, Lit.tv, asg]

/- Sorting and simplifying the literals of a product -/
example : productSubsumed (fun v => if v = 0 then some true else if v = 3 then some true else none) [x 3, x 5, x 2, x 5, x 1] = .ok [x 1, x 2, x 5] := by
  decide +kernel

end PbEx

open PbEx

/-- The costs of `[5] 1 x1 = 0;` are paid if `x1` is false, that is if the constraint holds (program_builder.cpp:250-254). -/
theorem C34_pb_soft_single : ∃ s, Pb.calls [.con [(1, [x 1])] 0 true 5] (Pb.prepare 1 0 1) = .ok s ∧ ∃ M, s.doEnd.Models M ∧
    pcosts [.con [(1, [x 1])] 0 true 5] M = 0 ∧ val M s.doEnd.mini = 5 := by
  refine ⟨_, rfl, fun v => v == 0, ?_, ?_, ?_⟩
  · refine ⟨rfl, fun v b hv => ?_, fun c hc => (nomatch hc), fun c hc => (nomatch hc)⟩
    have hv : (Function.update (fun v => if v = 0 then some true else none) 2 (some false) : Top) v = some b := hv
    by_cases h2 : v = 2
    · subst h2; rw [Function.update_self] at hv; cases hv; rfl
    · rw [Function.update_of_ne h2] at hv
      split at hv
      · next h => subst h; cases hv; rfl
      · cases hv
  · simp [pcosts, PCall.cost, relSat, psum, termTrue, Asg.sat, Lit.tv, x]
  · show val _ [⟨⟨1, true⟩, 5⟩] = 5
    rw [val_cons, val_nil]; rfl

/-- `[5] 1 x1 1 x2 = 1;` should only cost 5 if both are true, but excludes this. -/
theorem C34_pb_soft_eq : ∃ s, Pb.calls [.con [(1, [x 1]), (1, [x 2])] 1 true 5] (Pb.prepare 2 0 1) = .ok s ∧
    (∀ M, PCall.hard M (.con [(1, [x 1]), (1, [x 2])] 1 true 5)) ∧ ∀ M, s.doEnd.Models M → ¬ (M 1 = true ∧ M 2 = true) := by
  refine ⟨_, rfl, fun M h => by omega, ?_⟩
  rintro M ⟨_, _, _, hm⟩ ⟨h1, h2⟩
  have a := (hm _ (.head _)).2.1
  have b := (hm _ (.tail _ (.head _))).2.1
  have a1 : M.satC [⟨3, true⟩, ⟨1, true⟩, ⟨2, true⟩] := a _ (.tail _ (.tail _ (.head _)))
  have b1 : M.satC [⟨3, false⟩, ⟨1, true⟩] := b _ (.head _)
  rw [satC_cons, satC_cons] at b1
  rw [satC_cons, satC_cons, satC_cons] at a1
  simp [Asg.sat, Lit.tv, h1, h2] at a1 b1
  rw [a1] at b1; cases b1

/-- `2 x1 2 x2 = 3;` has no solution but is accepted with exactly one of `x1`, `x2` true (C35). -/
theorem C34_pb_eq : (∀ M, ¬ PCall.hard M (.con [(2, [x 1]), (2, [x 2])] 3 true 0)) ∧
    ∃ s, Pb.calls [.con [(2, [x 1]), (2, [x 2])] 3 true 0] (Pb.prepare 2 0 0) = .ok s ∧ ∃ M, s.doEnd.Models M := by
  constructor
  · intro M h
    have := h (by omega)
    simp only [relSat, if_true, psum, List.map_cons, List.map_nil, List.sum_cons, List.sum_nil] at this
    split_ifs at this <;> omega
  · refine ⟨_, rfl, fun v => v == 0 || v == 1, rfl, fun v b hv => ?_, fun c hc => (nomatch hc), ?_⟩
    · have hv : (fun v => if v = 0 then some true else none : Top) v = some b := hv
      simp only at hv
      split at hv
      · next h => subst h; cases hv; rfl
      · cases hv
    · intro m hm
      have hext : ext (fun v => v == 0 || v == 1) (fun v => if v = 0 then some true else none) := by
        intro v b hv
        simp only at hv
        split at hv
        · next h => subst h; cases hv; rfl
        · cases hv
      have key : ∀ (cl : List (List Lit)), (∀ c ∈ cl, c.any (fun l => decide ((l.var == 0 || l.var == 1) = l.tv)) = true) →
          Made.models ⟨fun v => if v = 0 then some true else none, cl, none⟩ (fun v => v == 0 || v == 1) := by
        intro cl h
        refine ⟨hext, fun c hc => ?_, fun _ _ h => (nomatch h)⟩
        obtain ⟨l, hl, h2⟩ := List.any_eq_true.mp (h c hc)
        exact ⟨l, hl, of_decide_eq_true h2⟩
      rcases List.mem_cons.mp hm with rfl | hm
      · exact key [[⟨0, false⟩, ⟨1, false⟩], [⟨0, false⟩, ⟨2, false⟩], [⟨0, true⟩, ⟨1, true⟩, ⟨2, true⟩]] (by decide)
      · rcases List.mem_cons.mp hm with rfl | hm
        · exact key [[⟨0, false⟩, ⟨1, true⟩], [⟨0, false⟩, ⟨2, true⟩], [⟨0, true⟩, ⟨1, false⟩, ⟨2, false⟩]] (by decide)
        · cases hm

end Clasp.Input
