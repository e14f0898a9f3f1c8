/- C34: variables eliminated at the end of `SatBuilder::doEndProgram` occur nowhere in the problem. -/
import Verif.Input.Supp
import Verif.Input.SatProps
namespace Clasp.Input
open Core Weight Function

/-- Proof device: a variable that will not be eliminated. -/
def Sat.Marked (s : Sat) (v : Nat) : Prop :=
  v = 0 ∨ s.seen ⟨v, false⟩ = true ∨ s.seen ⟨v, true⟩ = true ∨ s.occ ⟨v, false⟩ = true ∨ s.occ ⟨v, true⟩ = true

/-- Proof device: all variables of the problem are marked. -/
structure OInv (s : Sat) : Prop where
  top : ∀ v, s.db.top v ≠ none → s.Marked v
  cls : ∀ c ∈ s.db.cls, ∀ l ∈ c, s.Marked l.var
  cons : ∀ m ∈ s.db.cons, MadeIn s.Marked m
  mini : ∀ x ∈ s.db.mini, s.Marked x.lit.var

theorem MadeIn.mono {P Q : Nat → Prop} {m : Made} (h : MadeIn P m) (hpq : ∀ v, P v → Q v) : MadeIn Q m :=
  ⟨fun v hv => hpq v (h.top v hv), fun c hc l hl => hpq _ (h.cls c hc l hl),
   fun W r hr => ⟨hpq _ (h.con W r hr).1, fun e he => hpq _ ((h.con W r hr).2 e he)⟩⟩

theorem OInv.mono {s s' : Sat} (h : OInv s) (hdb : s'.db = s.db) (hm : ∀ v, s.Marked v → s'.Marked v) : OInv s' := by
  refine ⟨?_, ?_, ?_, ?_⟩ <;> rw [hdb]
  · exact fun v hv => hm v (h.top v hv)
  · exact fun c hc l hl => hm _ (h.cls c hc l hl)
  · exact fun m hmm => (h.cons m hmm).mono hm
  · exact fun x hx => hm _ (h.mini x hx)

theorem markOcc_mem {c : List Lit} {occ : Lit → Bool} {l : Lit} (h : l ∈ c) : markOcc c occ l = true := by
  unfold markOcc; simp [h]

theorem markOcc_old {c : List Lit} {occ : Lit → Bool} {l : Lit} (h : occ l = true) : markOcc c occ l = true := by
  unfold markOcc; simp [h]

theorem marked_of_occ {s : Sat} {l : Lit} (h : s.occ l = true) : s.Marked l.var := by
  cases l with | mk v sg => cases sg with
  | false => exact .inr (.inr (.inr (.inl h)))
  | true => exact .inr (.inr (.inr (.inr h)))

theorem marked_of_seen {s : Sat} {l : Lit} (h : s.seen l = true) : s.Marked l.var := by
  cases l with | mk v sg => cases sg with
  | false => exact .inr (.inl h)
  | true => exact .inr (.inr (.inl h))

theorem Marked.mono {s s' : Sat} (h1 : ∀ l, s.seen l = true → s'.seen l = true) (h2 : ∀ l, s.occ l = true → s'.occ l = true) (v : Nat)
    (h : s.Marked v) : s'.Marked v := by
  rcases h with h | h | h | h | h
  · exact .inl h
  · exact marked_of_seen (h1 _ h)
  · exact marked_of_seen (h1 _ h)
  · exact marked_of_occ (h2 _ h)
  · exact marked_of_occ (h2 _ h)

theorem markAssigned_occ {pr : Db → Option Top} {s : Sat} (hcls : ∀ c ∈ s.db.cls, ∀ l ∈ c, s.Marked l.var)
    (hcons : ∀ m ∈ s.db.cons, MadeIn s.Marked m) (hmini : ∀ x ∈ s.db.mini, s.Marked x.lit.var) : OInv (s.markAssigned pr) := by
  have hm : ∀ v, s.Marked v → (s.markAssigned pr).Marked v := fun v => Marked.mono (s := s) (s' := s.markAssigned pr)
    (fun l hl => (by show (s.seen l || _) = true; rw [hl]; rfl)) (fun _ h => h) v
  have e1 : (s.markAssigned pr).db.cls = s.db.cls := by show (s.db.prop pr).cls = _; unfold Db.prop; split <;> rfl
  have e2 : (s.markAssigned pr).db.cons = s.db.cons := by show (s.db.prop pr).cons = _; unfold Db.prop; split <;> rfl
  have e3 : (s.markAssigned pr).db.mini = s.db.mini := by show (s.db.prop pr).mini = _; unfold Db.prop; split <;> rfl
  refine ⟨fun v hv => ?_, fun c hc l hl => ?_, fun m hmm => ?_, fun x hx => ?_⟩
  · replace hv : (s.db.prop pr).top v ≠ none := hv
    obtain ⟨b, hb⟩ := Option.ne_none_iff_exists'.mp hv
    have : ∀ l : Lit, l.var = v → (!l.tv) = b → (s.markAssigned pr).Marked v := fun l hl ht => by
      rw [← hl]
      refine marked_of_seen ?_
      show (s.seen l || (s.db.prop pr).top l.var == some (!l.tv)) = true
      rw [hl, hb, ht]; simp
    cases b with
    | true => exact this ⟨v, true⟩ rfl rfl
    | false => exact this ⟨v, false⟩ rfl rfl
  · rw [e1] at hc; exact hm _ (hcls c hc l hl)
  · rw [e2] at hmm; exact (hcons m hmm).mono hm
  · rw [e3] at hx; exact hm _ (hmini x hx)

theorem call_occ {pr : Db → Option Top} {s s' : Sat} {c : Call} (hs : s.SeenOk) (h : OInv s) (hr : s.call pr c = .ok s') : OInv s' := by
  cases c with
  | clause c cw =>
    replace hr : s.addClause pr c cw = .ok s' := hr
    unfold Sat.addClause at hr
    split at hr
    · cases hr; exact h
    · have hsat := satisfied_ok s c hs
      generalize s.satisfied c = r at hsat hr
      obtain ⟨s1, c1, sat⟩ := r
      obtain ⟨e1, e2, e3, e4, e5, e6, e7, e8, e9⟩ := hsat
      have h1 : OInv s1 := h.mono e1 (Marked.mono (fun l hl => by rw [e2]; exact hl) fun l hl => by
        rw [e8]; split
        · exact hl
        · exact markOcc_old hl)
      cases sat with
      | true => cases hr; exact h1
      | false =>
        have hocc : ∀ l ∈ c1, s1.Marked l.var := fun l hl => marked_of_occ (by rw [e8]; exact markOcc_mem hl)
        simp only at hr
        split at hr
        · split at hr
          · cases hr
            refine markAssigned_occ (s := { s1 with db := s1.db.clause c1 }) ?_ ?_ ?_
            · show ∀ c ∈ (s1.db.clause c1).cls, ∀ l ∈ c, s1.Marked l.var
              match c1, hocc with
              | [], _ => exact h1.cls
              | [x], _ =>
                show ∀ c ∈ Db.cls (match force s1.db.top x with | none => { s1.db with ok := false } | some t => { s1.db with top := t }), _
                split <;> exact h1.cls
              | x :: y :: t, hocc =>
                intro c hc
                rcases List.mem_append.mp hc with hc | hc
                · exact h1.cls c hc
                · rw [List.mem_singleton] at hc; subst hc; exact hocc
            · show ∀ m ∈ (s1.db.clause c1).cons, MadeIn s1.Marked m
              match c1 with
              | [] => exact h1.cons
              | [x] =>
                show ∀ c ∈ Db.cons (match force s1.db.top x with | none => { s1.db with ok := false } | some t => { s1.db with top := t }), _
                split <;> exact h1.cons
              | x :: y :: t => exact h1.cons
            · show ∀ x ∈ (s1.db.clause c1).mini, s1.Marked x.lit.var
              match c1 with
              | [] => exact h1.mini
              | [x] =>
                show ∀ c ∈ Db.mini (match force s1.db.top x with | none => { s1.db with ok := false } | some t => { s1.db with top := t }), _
                split <;> exact h1.mini
              | x :: y :: t => exact h1.mini
          · cases hr
            match c1 with
            | [] => exact h1.mono rfl fun _ h => h
            | [x] => exact h1.mono rfl fun _ h => h
            | x :: y :: t => exact h1.mono rfl fun _ h => h
        · cases hr
  | con lits b =>
    replace hr : s.addConstraint lits b = .ok s' := hr
    unfold Sat.addConstraint at hr
    split at hr
    · cases hr; exact h
    · obtain ⟨r, hr1, hr⟩ := bind_ok.1 hr
      obtain ⟨m, hm, hr⟩ := bind_ok.1 hr
      cases hr
      generalize hocc : (if (r.isSat || r.isUnsat) = true then s.occ else markOcc (r.lits.map WL.lit) s.occ) = occ'
      have hmk : ∀ v, s.Marked v → ({ s with occ := occ', db := s.db.made (m.map fun p => [p.1]) } : Sat).Marked v :=
        fun v => Marked.mono (s := s) (s' := { s with occ := occ', db := s.db.made (m.map fun p => [p.1]) }) (fun _ h => h) (fun l hl => by
          show occ' l = true
          rw [← hocc]; split
          · exact hl
          · exact markOcc_old hl) v
      cases m with
      | none => exact ⟨fun v hv => hmk v (h.top v hv), fun c hc l hl => hmk _ (h.cls c hc l hl), fun m hm => (h.cons m hm).mono hmk,
          fun x hx => hmk _ (h.mini x hx)⟩
      | some p =>
        have hin : MadeIn ({ s with occ := occ', db := s.db.made (some [p.1]) } : Sat).Marked p.1 := by
          by_cases hop : (r.isSat || r.isUnsat) = true
          · -- nothing is left behind
            have hprop : ∃ t, propagate s.db.top litTrue r = .ok (some (t, r)) ∧ p.1 = ⟨t, [], none⟩ := by
              unfold doCreate at hm
              obtain ⟨q, hq, hm2⟩ := bind_ok.1 hm
              cases q with
              | none => cases hm2
              | some q =>
                obtain ⟨t, r1⟩ := q
                have hr1 : r1 = r := by
                  unfold propagate at hq
                  by_cases h1 : r.isSat = true
                  · rw [if_pos h1] at hq
                    cases hf : force s.db.top litTrue with
                    | none => rw [hf] at hq; cases hq
                    | some t' => rw [hf] at hq; cases hq; rfl
                  · rw [if_neg h1] at hq
                    have h2 : r.isUnsat = true := by
                      rcases (Bool.or_eq_true _ _).mp hop with h | h
                      · exact absurd h h1
                      · exact h
                    rw [if_pos h2] at hq
                    cases hf : force s.db.top litTrue.neg with
                    | none => rw [hf] at hq; cases hq
                    | some t' => rw [hf] at hq; cases hq; rfl
                subst hr1
                simp only at hm2
                rw [if_pos (by
                  rcases (Bool.or_eq_true _ _).mp hop with h | h
                  · rw [h]; simp
                  · rw [h]; simp)] at hm2
                cases hm2
                exact ⟨t, hq, rfl⟩
            obtain ⟨t, ht, hp⟩ := hprop
            rw [hp]
            refine ⟨fun v hv => hmk v ?_, fun _ h => (nomatch h), fun _ _ h => (nomatch h)⟩
            unfold propagate at ht
            by_cases h1 : r.isSat = true
            · rw [if_pos h1] at ht
              cases hf : force s.db.top litTrue with
              | none => rw [hf] at ht; cases ht
              | some t' => rw [hf] at ht; cases ht; exact force_in hf h.top (.inl rfl) v hv
            · rw [if_neg h1] at ht
              have h2 : r.isUnsat = true := by
                rcases (Bool.or_eq_true _ _).mp hop with h | h
                · exact absurd h h1
                · exact h
              rw [if_pos h2] at ht
              cases hf : force s.db.top litTrue.neg with
              | none => rw [hf] at ht; cases ht
              | some t' => rw [hf] at ht; cases ht; exact force_in hf h.top (.inl rfl) v hv
          · refine doCreate_in (m := p.1) (r' := p.2) hm (fun v hv => hmk v (h.top v hv)) (.inl rfl) (fun e he => ?_)
            refine marked_of_occ (s := { s with occ := occ', db := s.db.made (some [p.1]) }) (l := e.lit) ?_
            show occ' e.lit = true
            rw [← hocc, if_neg hop]
            exact markOcc_mem (List.mem_map.mpr ⟨e, he, rfl⟩)
        refine ⟨hin.top, fun c hc l hl => hmk _ (h.cls c hc l hl), fun m hm => ?_, fun x hx => hmk _ (h.mini x hx)⟩
        rcases List.mem_append.mp hm with hm | hm
        · exact (h.cons m hm).mono hmk
        · rw [List.mem_singleton] at hm; rw [hm]; exact hin
  | obj m =>
    cases hr
    have hmk : ∀ v, s.Marked v → (s.addObjective m).Marked v :=
      fun v => Marked.mono (s := s) (s' := s.addObjective m) (fun _ h => h) (fun l hl => markOcc_old hl) v
    refine ⟨fun v hv => hmk v (h.top v hv), fun c hc l hl => hmk _ (h.cls c hc l hl), fun m hm => (h.cons m hm).mono hmk, fun x hx => ?_⟩
    rcases List.mem_append.mp hx with hx | hx
    · exact hmk _ (h.mini x hx)
    · exact marked_of_occ (s := s.addObjective m) (l := x.lit.neg) (markOcc_mem (List.mem_map.mpr ⟨x, hx, rfl⟩))
  | assume x =>
    cases hr
    exact h.mono rfl (Marked.mono (fun _ h => h) fun l hl => markOcc_old hl)

theorem calls_occ {pr : Db → Option Top} (hp : Prop1.Law pr) {hw n} : ∀ (todo cs : List Call) (s s' : Sat), SInv hw n cs s → OInv s →
    Sat.calls pr todo s = .ok s' → OInv s'
  | [], _, s, s', _, h, hr => by cases hr; exact h
  | c :: todo, cs, s, s', hi, h, hr => by
    obtain ⟨s1, h1, h2⟩ := bind_ok.1 hr
    exact calls_occ hp todo (cs ++ [c]) s1 s' (call_ok hp hi h1) (call_occ hi.seen h h1) h2

/-- A variable eliminated by `doEndProgram` has no influence: every value of it gives a model with the same costs. -/
theorem C34_sat_eliminate {pr : Db → Option Top} (hp : Prop1.Law pr) {n : Nat} {hw : Int} {cs : List Call} {s : Sat} {elim : Bool}
    (h : Sat.calls pr cs (Sat.prepare pr n hw) = .ok s) {v : Nat} (hv : (s.doEnd elim).2 v = true) (M : Asg) (b : Bool)
    (hM : (s.doEnd elim).1.Models M) :
    (s.doEnd elim).1.Models (update M v b) ∧ val (update M v b) (s.doEnd elim).1.mini = val M (s.doEnd elim).1.mini := by
  have ho : OInv s := calls_occ hp cs [] _ s (prepare_ok hp n hw)
    (markAssigned_occ (fun _ h => (nomatch h)) (fun _ h => (nomatch h)) (fun _ h => (nomatch h))) h
  replace hv : ((if s.db.ok = true then endSoft s.soft s.db else s.db).ok && elim && s.soft.isEmpty && decide (1 ≤ v ∧ v ≤ s.n) &&
    !(s.seen ⟨v, false⟩ || s.seen ⟨v, true⟩ || s.occ ⟨v, false⟩ || s.occ ⟨v, true⟩)) = true := hv
  simp only [Bool.and_eq_true, decide_eq_true_eq, Bool.not_eq_true', Bool.or_eq_false_iff, List.isEmpty_iff] at hv
  obtain ⟨⟨⟨_, hsoft⟩, hv1⟩, ⟨⟨n1, n2⟩, n3⟩, n4⟩ := hv
  have hd : (s.doEnd elim).1 = s.db := by
    show (if s.db.ok = true then endSoft s.soft s.db else s.db) = s.db
    rw [hsoft]; split <;> rfl
  rw [hd] at hM ⊢
  have hnm : ¬ s.Marked v := by
    rintro (h | h | h | h | h)
    · omega
    · rw [h] at n1; cases n1
    · rw [h] at n2; cases n2
    · rw [h] at n3; cases n3
    · rw [h] at n4; cases n4
  have hag : ∀ w, s.Marked w → update M v b w = M w := fun w hw => update_of_ne (fun e : w = v => hnm (e ▸ hw)) _ _
  have hsat : ∀ l : Lit, s.Marked l.var → (Asg.sat (update M v b) l ↔ M.sat l) := fun l hl => by unfold Asg.sat; rw [hag _ hl]
  refine ⟨⟨hM.1, fun w x hw => (hag w (ho.top w (by rw [hw]; simp))).trans (hM.2.1 w x hw), fun c hc => ?_, fun m hm => (ho.cons m hm).congr hag (hM.2.2.2 m hm)⟩, ?_⟩
  · obtain ⟨p, hp, hs⟩ := hM.2.2.1 c hc
    exact ⟨p, hp, (hsat p (ho.cls c hc p hp)).2 hs⟩
  · unfold val
    congr 1
    exact List.map_congr_left fun x hx => by simp only [hsat x.lit (ho.mini x hx)]

/- Without the soft clauses variable 4 of the example is eliminated, the others are not. -/
example : ∃ s, Sat.calls SatEx.pr [.clause [SatEx.p 1, SatEx.p 2] 10, .con [⟨SatEx.p 1, 2⟩, ⟨SatEx.p 2, 2⟩, ⟨SatEx.p 3, 2⟩] 3]
    (Sat.prepare SatEx.pr 4 10) = .ok s ∧ (s.doEnd true).2 4 = true ∧ (s.doEnd true).2 1 = false ∧ (s.doEnd true).2 3 = false := by
  have : (match Sat.calls SatEx.pr [.clause [SatEx.p 1, SatEx.p 2] 10, .con [⟨SatEx.p 1, 2⟩, ⟨SatEx.p 2, 2⟩, ⟨SatEx.p 3, 2⟩] 3]
    (Sat.prepare SatEx.pr 4 10) with
    | .ok s => (s.doEnd true).2 4 && !(s.doEnd true).2 1 && !(s.doEnd true).2 3
    | .error _ => false) = true := by decide +kernel
  split at this
  · next s hs => exact ⟨s, hs, by simpa [and_assoc] using this⟩
  · cases this

end Clasp.Input
