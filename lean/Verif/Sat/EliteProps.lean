/-
C23: SAT preprocessing keeps the problem equisatisfiable and models of the result can be extended.

The input is any problem: other constraints with models `O` (any constraints whose propagation is sound and whose variables are
frozen, `Cx.Law`), literals true at the start, unit clauses and clauses without repeated variables. The theorems are about every
sequence of operations: propagation of facts, backward subsumption with any clause and any of its literals, and elimination of
any variable with any bound and any mode of blocked clause elimination.
-/
import Verif.Sat.EliteLoad
namespace Clasp.Elite
open Clasp.Core Function

/-- Specification: an input of the preprocessor (shared_context.cpp:385-396): no clause is empty or has two literals over one
variable, no variable is assigned twice. -/
structure Input (tr : List Lit) (cs : List Cl) : Prop where
  tr : (tr.map Lit.var).Nodup
  cs : ∀ c ∈ cs, c ≠ [] ∧ (c.map Lit.var).Nodup

/-- Specification: the whole preprocessing. -/
def prep (cx : Cx) (tr units : List Lit) (cs : List Cl) (ops : List Op) : Res St := (load cx tr units cs).bind (run cx ops)

theorem prep_ok {cx O tr units cs ops} (hl : cx.Law O) (hi : Input tr cs) :
    match prep cx tr units cs ops with
    | .ok s => Inv cx O (Problem O tr units cs) s
    | .unsat => ∀ M, ¬ Problem O tr units cs M
    | _ => True := by
  have h := load_ok (units := units) hl hi.tr hi.cs
  unfold prep
  cases hr : load cx tr units cs with
  | ok s =>
    rw [hr] at h
    have h2 := run_ok hl ops s h
    simp only [Res.bind]
    cases hr2 : run cx ops s with
    | ok s2 => rw [hr2] at h2; exact h2.1
    | unsat => rw [hr2] at h2; exact h2
    | undef => trivial
    | fuel => trivial
  | unsat => rw [hr] at h; exact h
  | undef => trivial
  | fuel => trivial

/-! ### values that extension of a model leaves alone -/

theorem closeGroup_keep {e : Ext} {v : Nat} (h : e.last ≠ some v) : ((closeGroup e).m v) = e.m v ∧ (closeGroup e).last = e.last := by
  unfold closeGroup
  split
  · exact ⟨rfl, rfl⟩
  · next w hw =>
    split
    · exact ⟨update_of_ne (fun hv => h (by rw [hw, hv])) _ _, rfl⟩
    · exact ⟨rfl, rfl⟩

theorem exLoop_keep {v : Nat} : ∀ (st : List ECl) (e : Ext), (∀ r ∈ st, ∀ x t, r.lits = x :: t → x.var ≠ v) → e.last ≠ some v →
    (∀ w ∈ e.new, w ≠ v) → (exLoop st e).m v = e.m v ∧ ∀ w ∈ (exLoop st e).new, w ≠ v
  | [], e, _, hlast, hn => by
    unfold exLoop
    refine ⟨(closeGroup_keep hlast).1, fun w hw => ?_⟩
    unfold closeGroup at hw
    split at hw
    · exact hn w hw
    · next u hu =>
      split at hw
      · rcases List.mem_append.mp hw with hw | hw
        · exact hn w hw
        · rw [List.mem_singleton] at hw; rw [hw]; exact fun e' => hlast (by rw [hu, e'])
      · exact hn w hw
  | r :: rs, e, h, hlast, hn => by
    have hrs : ∀ r ∈ rs, ∀ x t, r.lits = x :: t → x.var ≠ v := fun r hr => h r (List.mem_cons_of_mem _ hr)
    unfold exLoop
    split
    · exact exLoop_keep rs e hrs hlast hn
    · next x t hx =>
      have hxv := h r (by simp) x t hx
      have hcl : ∀ w ∈ (closeGroup e).new, w ≠ v := fun w hw => by
        unfold closeGroup at hw
        split at hw
        · exact hn w hw
        · next u hu =>
          split at hw
          · rcases List.mem_append.mp hw with hw | hw
            · exact hn w hw
            · rw [List.mem_singleton] at hw; rw [hw]; exact fun e' => hlast (by rw [hu, e'])
          · exact hn w hw
      -- the state at the begin of the clause
      have key : ∃ e', (if e.last = some x.var then e else openGroup r x (closeGroup e)) = e' ∧ e'.m v = e.m v ∧ e'.last = some x.var ∧
          ∀ w ∈ e'.new, w ≠ v := by
        split
        · next hl => exact ⟨e, rfl, rfl, hl, hn⟩
        · refine ⟨_, rfl, ?_, ?_, ?_⟩
          · rw [← (closeGroup_keep hlast).1]
            unfold openGroup
            have hm : (if r.marked then (closeGroup e).m else update (closeGroup e).m x.var ⟨none, true⟩) v = (closeGroup e).m v := by
              split
              · rfl
              · exact update_of_ne (Ne.symm hxv) _ _
            simp only []
            split
            · exact hm
            · split
              · show update _ x.var _ v = _
                rw [update_of_ne (Ne.symm hxv)]; exact hm
              · exact hm
          · unfold openGroup; simp only []
            split
            · rfl
            · split <;> rfl
          · unfold openGroup; simp only []
            split
            · exact hcl
            · split <;> exact hcl
      obtain ⟨e', he', k1, k2, k3⟩ := key
      rw [he']
      have hex : (exClause x t e').m v = e'.m v ∧ (exClause x t e').last = e'.last ∧ (exClause x t e').new = e'.new := by
        unfold exClause
        split
        · split
          · exact ⟨update_of_ne (Ne.symm hxv) _ _, rfl, rfl⟩
          · exact ⟨rfl, rfl, rfl⟩
        · exact ⟨rfl, rfl, rfl⟩
      obtain ⟨r1, r2⟩ := exLoop_keep rs (exClause x t e') hrs (by rw [hex.2.1, k2]; exact fun he => hxv (Option.some.inj he))
        (by rw [hex.2.2]; exact k3)
      exact ⟨r1.trans (hex.1.trans k1), r2⟩

theorem exFinish_keep {v : Nat} : ∀ (vs : List Nat) (m : Nat → VRep) (unc : List Lit), (∀ w ∈ vs, w ≠ v) → (exFinish vs m unc).1 v = m v
  | [], _, _, _ => rfl
  | w :: vs, m, unc, h => by
    have hvs : ∀ w ∈ vs, w ≠ v := fun x hx => h x (List.mem_cons_of_mem _ hx)
    unfold exFinish
    split
    · rw [exFinish_keep vs _ _ hvs, update_of_ne (Ne.symm (h w (by simp)))]
    · exact exFinish_keep vs _ _ hvs

/-! ### the properties -/

/-- `return false` is only returned for problems without model. -/
theorem C23_unsat {cx O tr units cs ops} (hl : cx.Law O) (hi : Input tr cs) (h : prep cx tr units cs ops = .unsat) (M : Asg) :
    ¬ Problem O tr units cs M := by
  have := prep_ok (units := units) (ops := ops) hl hi
  rw [h] at this; exact this M

/-- Every model of the problem is a model of the result: what was removed is implied or about eliminated variables only. -/
theorem C23_sound {cx O tr units cs ops s} (hl : cx.Law O) (hi : Input tr cs) (h : prep cx tr units cs ops = .ok s) (M : Asg)
    (hM : Problem O tr units cs M) : Sem O s M := by
  have := prep_ok (units := units) (ops := ops) hl hi
  rw [h] at this; exact this.ch.imp M hM

/-- `extendModel` turns every model of the result into a model of the problem. -/
theorem C23_extend {cx O tr units cs ops s} (hl : cx.Law O) (hi : Input tr cs) (h : prep cx tr units cs ops = .ok s) (m : Nat → VRep)
    (ht : ∀ v, (m v).val ≠ none) (he : ∀ v, (m v).el = false) (hM : Sem O s (asg m)) :
    Problem O tr units cs (asg (extendModel s.elim m []).1) := by
  have := prep_ok (units := units) (ops := ops) hl hi
  rw [h] at this; exact doExtend_sat this.ch hM ht he

/-- The result has a model if and only if the problem has one. -/
theorem C23_equisat {cx O tr units cs ops s} (hl : cx.Law O) (hi : Input tr cs) (h : prep cx tr units cs ops = .ok s) :
    (∃ M, Problem O tr units cs M) ↔ ∃ M, Sem O s M := by
  refine ⟨fun ⟨M, hM⟩ => ⟨M, C23_sound hl hi h M hM⟩, fun ⟨M, hM⟩ => ⟨_, C23_extend hl hi h (fun v => ⟨some (M v), false⟩) ?_ ?_ ?_⟩⟩
  · intro v hv; cases hv
  · intro v; rfl
  · exact hM

/-- `extendModel` changes no frozen variable and no variable that is not the first literal of a removed clause, whatever it
remembers from earlier calls. -/
theorem C23_frozen {cx O tr units cs ops s} (hl : cx.Law O) (hi : Input tr cs) (h : prep cx tr units cs ops = .ok s) (m : Nat → VRep)
    (unc : List Lit) (v : Nat) (hv : cx.frozen v = true) : (extendModel s.elim m unc).1 v = m v := by
  have hinv := prep_ok (units := units) (ops := ops) hl hi
  rw [h] at hinv
  have hst : ∀ r ∈ s.elim, ∀ x t, r.lits = x :: t → x.var ≠ v := fun r hr x t hx e => by
    have := hinv.hd r hr x t hx
    rw [e, hv] at this; cases this
  show (doExtendModel s.elim m (flipLast unc)).1 v = m v
  generalize s.elim = st at hst
  cases st with
  | nil => rfl
  | cons r rs =>
    show (exFinish _ _ _).1 v = m v
    obtain ⟨h1, h2⟩ := exLoop_keep (v := v) (r :: rs) ⟨m, none, true, flipLast unc, []⟩ hst (fun h => (nomatch h)) (fun _ h => (nomatch h))
    rw [exFinish_keep _ _ _ h2, h1]

/-- In every reachable state the occurrence lists contain exactly the literals of the clauses (next to entries of removed clauses),
the watch lists exactly the first literals, no clause contains an eliminated or assigned and propagated variable. -/
theorem C23_lists {cx O tr units cs ops s} (hl : cx.Law O) (hi : Input tr cs) (h : prep cx tr units cs ops = .ok s) :
    (∀ id c, s.cls id = some c → ∀ l, l ∈ c ↔ (id, l.sign) ∈ s.occ l.var) ∧
    (∀ id v, id ∈ s.wat v ↔ ∃ x t, s.cls id = some (x :: t) ∧ x.var = v) ∧
    (∀ id c l, s.cls id = some c → l ∈ c → s.elimd l.var = false ∧ l ∉ s.trail.take s.facts ∧ l.neg ∉ s.trail.take s.facts) ∧
    (∀ v, s.elimd v = true → cx.frozen v = false) := by
  have hinv := prep_ok (units := units) (ops := ops) hl hi
  rw [h] at hinv
  have hw := hinv.wf
  refine ⟨fun id c hc l => ⟨hw.occC hc, fun hm => hw.occS hm hc⟩, fun id v => ⟨hw.watS, fun ⟨x, t, hc, hx⟩ => hx ▸ hw.watC hc⟩,
    fun id c l hc hlc => ⟨?_, fun hm => hw.proc hm hc l hlc rfl, fun hm => hw.proc hm hc l hlc (by simp)⟩, fun v hv => hw.elf hv⟩
  cases hx : s.elimd l.var with
  | false => rfl
  | true => exact absurd rfl (hw.elv hx hc l hlc)

/-- If all clauses have at least two literals when they are attached, no operation has undefined behaviour. -/
theorem C23_defined {cx O tr units cs ops s} (hl : cx.Law O) (hi : Input tr cs) (h : load cx tr units cs = .ok s)
    (h2 : ∀ id c, s.cls id = some c → 2 ≤ c.length) : prep cx tr units cs ops ≠ .undef := by
  have hlo := load_ok (units := units) hl hi.tr hi.cs
  rw [h] at hlo
  have := run_ok hl ops s hlo
  intro hu
  unfold prep at hu
  rw [h] at hu
  simp only [Res.bind] at hu
  rw [hu] at this
  exact this h2

/-! ### examples -/

namespace EliteEx

/-- Example: no other constraints; variable 9 is frozen -/
def cx : Cx := ⟨fun _ => some [], fun v => v == 9⟩
/-- Example literals -/
def p (v : Nat) : Lit := ⟨v, false⟩
/-- see `p` -/
def n (v : Nat) : Lit := ⟨v, true⟩

theorem law : cx.Law (fun _ => True) :=
  ⟨fun h => (nomatch h), fun h => by cases h; simp [Asg.all], fun h hn => by cases h; simpa using hn,
   fun h => by cases h; simp, fun _ _ _ _ => trivial⟩

/-- Example: a problem with eight clauses -/
def cs : List Cl := [[p 1, p 2], [n 1, p 3], [n 2, n 3, p 4], [p 4, p 5, n 1], [p 9, n 4], [p 6, p 7], [n 6, n 7], [p 6, p 8]]

theorem input : Input [] cs := ⟨by simp, by decide⟩

/-- Example: eliminate 1, remove blocked clauses of 6, subsume, eliminate 4 -/
def ops : List Op := [.prop 9, .bceVe 9 2 1 9, .sub 9 0 (p 2), .bceVe 9 2 6 0, .bceVe 9 2 4 9]

/-- the result is `ok`, variables were eliminated and a clause was blocked -/
example : (match prep cx [] [] cs ops with
    | .ok s => decide (s.elimd 1 = true ∧ s.elimd 9 = false ∧ s.elim.length = 7 ∧ s.elim.any (·.marked))
    | _ => false) = true := by decide +kernel

/-- an unsatisfiable problem is found to be so -/
example : (match prep cx [] [] [[p 1, p 2], [n 1, p 2], [p 1, n 2], [n 1, n 2]] [.prop 9, .bceVe 9 0 1 9] with
    | .unsat => true
    | _ => false) = true := by decide +kernel

/-- the hypothesis of `C23_defined` holds for the example -/
example : ∃ s, load cx [] [] cs = .ok s ∧ ∀ id c, s.cls id = some c → 2 ≤ c.length := by
  refine ⟨_, rfl, fun id c hc => ?_⟩
  have h : ∀ (l : List (Nat × Cl)), (∀ e ∈ l, 2 ≤ e.2.length) → ∀ f : Nat → Option Cl, (∀ id c, f id = some c → 2 ≤ c.length) →
      ∀ id c, (l.foldl (fun (f : Nat → Option Cl) e => update f e.1 (some e.2)) f) id = some c → 2 ≤ c.length := by
    intro l
    induction l with
    | nil => intro _ f hf; exact hf
    | cons e l ih =>
      intro hl f hf
      refine ih (fun x hx => hl x (List.mem_cons_of_mem _ hx)) _ (fun id c h => ?_)
      replace h : update f e.1 (some e.2) id = some c := h
      by_cases hid : id = e.1
      · subst hid; rw [update_self] at h; cases h; exact hl e (by simp)
      · rw [update_of_ne hid] at h; exact hf id c h
  exact h [(0, [p 1, p 2]), (1, [n 1, p 3]), (2, [n 2, n 3, p 4]), (3, [p 4, p 5, n 1]), (4, [p 9, n 4]),
    (5, [p 6, p 7]), (6, [n 6, n 7]), (7, [p 6, p 8])] (by decide) (fun _ => none)
    (fun _ _ h => (nomatch h)) id c hc

end EliteEx

/-- A clause that has one literal when it is attached leads to undefined behaviour: preprocessing of `a∨b`, `¬a∨b` and `¬b` reads the
second literal of a clause with one literal (satelite.cpp:342). -/
theorem C23_size_one : ∃ (cs : List Cl) (units : List Lit), Input [] cs ∧ (∀ c ∈ cs, 2 ≤ c.length) ∧
    prep EliteEx.cx [] units cs [.prop 9, .sub 9 0 ⟨1, false⟩] = .undef := by
  refine ⟨[[⟨1, false⟩, ⟨2, false⟩], [⟨1, true⟩, ⟨2, false⟩]], [⟨2, true⟩], ⟨by simp, by decide⟩, by decide, ?_⟩
  have h : (match prep EliteEx.cx [] [⟨2, true⟩] [[⟨1, false⟩, ⟨2, false⟩], [⟨1, true⟩, ⟨2, false⟩]] [.prop 9, .sub 9 0 ⟨1, false⟩] with
    | .undef => true
    | _ => false) = true := by decide +kernel
  generalize prep EliteEx.cx [] [⟨2, true⟩] [[⟨1, false⟩, ⟨2, false⟩], [⟨1, true⟩, ⟨2, false⟩]] [.prop 9, .sub 9 0 ⟨1, false⟩] = r at h ⊢
  cases r with
  | undef => rfl
  | ok s => cases h
  | unsat => cases h
  | fuel => cases h

namespace EliteEx
/-- Example: the state after a successful run -/
def okSt : Res St → St
  | .ok s => s
  | _ => init []

/-- Example: did the run succeed? -/
def isOk : Res St → Bool
  | .ok _ => true
  | _ => false

theorem isOk_eq {r : Res St} (h : isOk r = true) : r = .ok (okSt r) := by
  cases r <;> first | rfl | cases h

/-- Example: `u∨b`, `¬b∨¬u`, `¬b∨c` -/
def cs2 : List Cl := [[p 1, p 2], [n 2, n 1], [n 2, p 3]]

/-- Example: the second clause is blocked; then the first is removed with `u` -/
def r2 : Res St := prep cx [] [] cs2 [.prop 9, .bceVe 9 2 2 0, .bceVe 9 2 1 9]

/-- Example: everything true -/
def m2 : Nat → VRep := fun _ => ⟨some true, false⟩

theorem r2_cls (k : Nat) : (okSt r2).cls (k + 3) = none := rfl

end EliteEx

/-- A second call of `extendModel`, which gets the values computed by the first and the remembered literals, may return an assignment
that is no model of the problem if blocked clauses were removed. (With variable elimination alone the values of other variables never
change. Enumeration switches blocked clause elimination off, enumerator.cpp:201 and shared_context.cpp:429.) -/
theorem C23_second_call : ∃ (cs : List Cl) (ops : List Op) (s : St) (m : Nat → VRep), Input [] cs ∧
    prep EliteEx.cx [] [] cs ops = .ok s ∧ Sem (fun _ => True) s (asg m) ∧ (extendModel s.elim m []).2 ≠ [] ∧
    ¬ Problem (fun _ => True) [] [] cs (asg (extendModel s.elim (extendModel s.elim m []).1 (extendModel s.elim m []).2).1) := by
  refine ⟨EliteEx.cs2, [.prop 9, .bceVe 9 2 2 0, .bceVe 9 2 1 9], EliteEx.okSt EliteEx.r2, EliteEx.m2, ⟨by simp, by decide⟩,
    EliteEx.isOk_eq (by decide +kernel), ⟨trivial, ?_, ?_⟩, by decide +kernel, ?_⟩
  · intro id c hc
    match id, hc with
    | 0, hc => exact absurd hc (by rw [show (EliteEx.okSt EliteEx.r2).cls 0 = none by decide +kernel]; simp)
    | 1, hc => exact absurd hc (by rw [show (EliteEx.okSt EliteEx.r2).cls 1 = none by decide +kernel]; simp)
    | 2, hc =>
      rw [show (EliteEx.okSt EliteEx.r2).cls 2 = some [⟨2, true⟩, ⟨3, false⟩] by decide +kernel] at hc
      cases hc
      exact ⟨⟨3, false⟩, by simp, rfl⟩
    | k + 3, hc => rw [EliteEx.r2_cls] at hc; cases hc
  · rw [show (EliteEx.okSt EliteEx.r2).trail = [] by decide +kernel]
    intro l hl; cases hl
  · rintro ⟨_, _, _, h⟩
    obtain ⟨l, hl, hs⟩ := h _ (List.mem_cons_self)
    rcases List.mem_cons.mp hl with rfl | hl
    · revert hs; decide +kernel
    · rw [List.mem_singleton] at hl; subst hl; revert hs; decide +kernel

end Clasp.Elite
