/-
C34 for `SatBuilder`: for every sequence of clauses (with weights), constraints and objectives over the variables `1..n`, the problem
given to the solver has the models and the optimal costs the input prescribes.
-/
import Verif.Input.SatLem
namespace Clasp.Input
open Core Weight Function

theorem doEnd_fst {s : Sat} {elim : Bool} {M : Asg} : (s.doEnd elim).1.Models M ↔
    s.db.Models M ∧ ∀ e ∈ s.soft, e.cl ≠ [] → M.sat e.relax ∨ M.satC e.cl := by
  show (if s.db.ok = true then endSoft s.soft s.db else s.db).Models M ↔ _
  split
  · exact endSoft_models _ _ _
  · next h => exact ⟨fun hm => absurd hm.1 h, fun hm => absurd hm.1.1 h⟩

theorem doEnd_mini {s : Sat} {elim : Bool} {M : Asg} (h : (s.doEnd elim).1.Models M) :
    (s.doEnd elim).1.mini = s.db.mini ++ s.soft.map fun e => ⟨e.relax, e.w⟩ := by
  have h1 := h.1
  revert h1
  show (if s.db.ok = true then endSoft s.soft s.db else s.db).ok = true → (if s.db.ok = true then endSoft s.soft s.db else s.db).mini = _
  split
  · exact endSoft_mini _ _
  · next h2 => exact fun h1 => absurd h1 h2

theorem val_relax (M : Asg) (es : List Soft) :
    val M (es.map fun e => (⟨e.relax, e.w⟩ : WL)) = (es.map fun e => if M.sat e.relax then e.w else 0).sum := by
  simp [val, List.map_map, Function.comp_def]

theorem call_congr {n hw : _} {c : Call} {M M' : Asg} (hl : c.le n) (h : ∀ v ≤ n, M' v = M v) :
    (c.hard hw M' ↔ c.hard hw M) ∧ c.cost hw M' = c.cost hw M := by
  have hsat : ∀ l : Lit, l.var ≤ n → (M'.sat l ↔ M.sat l) := fun l hl => by unfold Asg.sat; rw [h _ hl]
  have hval : ∀ ls : List WL, (∀ x ∈ ls, x.lit.var ≤ n) → val M' ls = val M ls := fun ls hls => by
    unfold val
    congr 1
    exact List.map_congr_left fun x hx => by simp only [hsat x.lit (hls x hx)]
  cases c with
  | clause c cw =>
    have hc : M'.satC c ↔ M.satC c := by
      unfold Asg.satC
      exact exists_congr fun p => and_congr_right fun hp => hsat p (hl p hp)
    refine ⟨by simp only [Call.hard, hc], ?_⟩
    show (if cw = hw then 0 else penalty M' c cw) = (if cw = hw then 0 else penalty M c cw)
    unfold penalty
    by_cases hs : M.satC c
    · rw [if_pos hs, if_pos (hc.2 hs)]
    · rw [if_neg hs, if_neg (fun h => hs (hc.1 h))]
  | con lits b => exact ⟨by simp only [Call.hard, holds, hval lits hl], rfl⟩
  | obj m => exact ⟨Iff.rfl, hval m hl⟩
  | assume x => exact ⟨Iff.rfl, rfl⟩

theorem sum_le_sum {α : Type} (l : List α) (f g : α → Int) (h : ∀ x ∈ l, f x ≤ g x) : (l.map f).sum ≤ (l.map g).sum := by
  induction l with
  | nil => simp
  | cons a l ih =>
    simp only [List.map_cons, List.sum_cons]
    have h1 := h a (by simp)
    have h2 := ih fun x hx => h x (List.mem_cons_of_mem _ hx)
    omega

/-- Every model of the problem given to the solver satisfies the hard clauses and constraints, and the costs it has for the solver are at
least those the input assigns to it. In particular there is none after a conflict. -/
theorem C34_sat_sound {pr : Db → Option Top} (hp : Prop1.Law pr) {n : Nat} {hw : Int} {cs : List Call} {s : Sat} {elim : Bool}
    (h : Sat.calls pr cs (Sat.prepare pr n hw) = .ok s) (M : Asg) (hM : (s.doEnd elim).1.Models M) :
    (∀ c ∈ cs, c.hard hw M) ∧ costs hw cs M ≤ val M (s.doEnd elim).1.mini := by
  have hi := calls_ok hp cs [] _ s (prepare_ok hp n hw) h
  rw [List.nil_append] at hi
  obtain ⟨h1, h2⟩ := doEnd_fst.1 hM
  refine ⟨((hi.sem M).1 h1).2, ?_⟩
  rw [hi.cost M h1, doEnd_mini hM, val_append, val_relax]
  have : softSum M s.soft ≤ (s.soft.map fun e => if M.sat e.relax then e.w else 0).sum := by
    refine sum_le_sum _ _ _ fun e he => ?_
    by_cases hc : e.cl = []
    · rw [if_pos hc]
    · rw [if_neg hc]
      unfold penalty
      rcases h2 e he hc with h3 | h3
      · rw [if_pos h3]; split
        · exact hi.pos e he
        · exact Int.le_refl _
      · rw [if_pos h3]; split
        · exact hi.pos e he
        · exact Int.le_refl _
  omega

open Classical in
/-- Proof device: relaxation literals are true iff their clause is violated. -/
noncomputable def relaxed (n : Nat) (es : List Soft) (M : Asg) : Asg :=
  fun v => if v ≤ n then M v else decide (∃ e ∈ es, e.cl ≠ [] ∧ e.relax.var = v ∧ ¬ M.satC e.cl)

/-- Every assignment to the variables of the input that satisfies the hard clauses and constraints is a model of the problem given to
the solver for some values of the auxiliary variables, with exactly the costs the input assigns to it. -/
theorem C34_sat_complete {pr : Db → Option Top} (hp : Prop1.Law pr) {n : Nat} {hw : Int} {cs : List Call} {s : Sat} {elim : Bool}
    (h : Sat.calls pr cs (Sat.prepare pr n hw) = .ok s) (hl : ∀ c ∈ cs, c.le n) (M : Asg) (h0 : M 0 = true)
    (hM : ∀ c ∈ cs, c.hard hw M) :
    ∃ M' : Asg, (∀ v ≤ n, M' v = M v) ∧ (s.doEnd elim).1.Models M' ∧ val M' (s.doEnd elim).1.mini = costs hw cs M := by
  have hi := calls_ok hp cs [] _ s (prepare_ok hp n hw) h
  rw [List.nil_append] at hi
  have hag : ∀ v ≤ n, relaxed n s.soft M v = M v := fun v hv => by unfold relaxed; rw [if_pos hv]
  have hsoft : ∀ e ∈ s.soft, e.cl ≠ [] → ((relaxed n s.soft M).satC e.cl ↔ M.satC e.cl) := fun e he _ => by
    unfold Asg.satC
    exact exists_congr fun p => and_congr_right fun hp => by unfold Asg.sat; rw [hag _ (hi.rng hl e he p hp)]
  have hrel : ∀ e ∈ s.soft, e.cl ≠ [] → ((relaxed n s.soft M).sat e.relax ↔ ¬ (relaxed n s.soft M).satC e.cl) := fun e he hc => by
    rw [hsoft e he hc]
    obtain ⟨r1, r2, r3⟩ := hi.rel e he hc
    have hv : relaxed n s.soft M e.relax.var = true ↔ ∃ e' ∈ s.soft, e'.cl ≠ [] ∧ e'.relax.var = e.relax.var ∧ ¬ M.satC e'.cl := by
      unfold relaxed; rw [if_neg (by omega)]; simp
    have htv : e.relax.tv = true := by unfold Lit.tv; rw [r3]; rfl
    unfold Asg.sat
    rw [htv, hv]
    refine ⟨fun ⟨e', he', hc', hv', hs'⟩ => ?_, fun hs => ⟨e, he, hc, rfl, hs⟩⟩
    have : e' = e := by
      by_contra hne
      have key : ∀ l : List Soft, l.Pairwise (fun a b => a.relax.var ≠ b.relax.var) → e ∈ l → e' ∈ l → False := by
        intro l hl h1 h2
        induction l with
        | nil => cases h1
        | cons a l ih =>
          rw [List.pairwise_cons] at hl
          rcases List.mem_cons.mp h1 with h3 | h3
          · rcases List.mem_cons.mp h2 with h4 | h4
            · exact hne (h4.trans h3.symm)
            · exact hl.1 e' h4 (by rw [← h3]; exact hv'.symm)
          · rcases List.mem_cons.mp h2 with h4 | h4
            · exact hl.1 e h3 (by rw [← h4]; exact hv')
            · exact ih hl.2 h3 h4
      exact key _ hi.dis (List.mem_filter.mpr ⟨he, by simpa using hc⟩) (List.mem_filter.mpr ⟨he', by simpa using hc'⟩)
    exact this ▸ hs'
  have hmod : s.db.Models (relaxed n s.soft M) :=
    (hi.sem _).2 ⟨(hag 0 (Nat.zero_le _)).trans h0, fun c hc => ((call_congr (hl c hc) hag).1).2 (hM c hc)⟩
  have hend : (s.doEnd elim).1.Models (relaxed n s.soft M) := doEnd_fst.2 ⟨hmod, fun e he hc => by
    rw [hrel e he hc]; exact (Classical.em _).symm⟩
  refine ⟨relaxed n s.soft M, hag, hend, ?_⟩
  have hcs : costs hw cs (relaxed n s.soft M) = costs hw cs M := by
    unfold costs
    congr 1
    exact List.map_congr_left fun c hc => (call_congr (hl c hc) hag).2
  rw [← hcs, hi.cost _ hmod, doEnd_mini hend, val_append, val_relax]
  congr 1
  unfold softSum
  congr 1
  refine List.map_congr_left fun e he => ?_
  by_cases hc : e.cl = []
  · rw [if_pos hc]
  · rw [if_neg hc]
    unfold penalty
    by_cases hs : (relaxed n s.soft M).satC e.cl
    · rw [if_pos hs, if_neg (fun h => (hrel e he hc).1 h hs)]
    · rw [if_neg hs, if_pos ((hrel e he hc).2 hs)]

/-! ### Examples: `p wcnf 4 5 10` with hard `1 2 0`, soft `3: -1 0`, `2: -2 3 0`, the constraint `2*x1 + 2*x2 + 2*x3 >= 3` and the
objective `x1 + 4*not x3`; variable 4 does not occur -/

namespace SatEx

/-- Example: propagation that does nothing -/
def pr : Db → Option Top := fun d => some d.top

theorem law : Prop1.Law pr := ⟨fun d _ h => ⟨d.top, rfl, h.2.1⟩, fun d t v b h hv => by cases h; exact hv⟩

/-- Example: literals -/
def p (v : Nat) : Lit := ⟨v, false⟩
/-- Example: literals -/
def m (v : Nat) : Lit := ⟨v, true⟩

/-- Example: the calls -/
def cs : List Call := [.clause [p 1, p 2] 10, .clause [m 1] 3, .clause [m 2, p 3, m 2] 2, .con [⟨p 1, 2⟩, ⟨p 2, 2⟩, ⟨p 3, 2⟩] 3,
  .obj [⟨p 1, 1⟩, ⟨m 3, 4⟩]]

theorem runs : ∃ s, Sat.calls pr cs (Sat.prepare pr 4 10) = .ok s := by
  have : (Sat.calls pr cs (Sat.prepare pr 4 10)).toBool = true := by decide +kernel
  cases h : Sat.calls pr cs (Sat.prepare pr 4 10) with
  | ok s => exact ⟨s, rfl⟩
  | error e => rw [h] at this; cases this

/-- Example: variable 4 is false, the others as given -/
def asg (a b c : Bool) : Asg := fun v => if v = 0 then true else if v = 1 then a else if v = 2 then b else if v = 3 then c else false

/- `x2, x3` satisfies all hard constraints at cost 0 and hence is a model with costs 0; `x1, x2, not x3` costs 3 + 2 + 1 + 4. -/
example : ∃ s M, Sat.calls pr cs (Sat.prepare pr 4 10) = .ok s ∧ (s.doEnd false).1.Models M ∧ val M (s.doEnd false).1.mini = 0 ∧
    M 2 = true ∧ M 3 = true := by
  obtain ⟨s, hs⟩ := runs
  obtain ⟨M, h1, h2, h3⟩ := C34_sat_complete law hs (elim := false) (by intro c hc; simp [cs] at hc; rcases hc with rfl | rfl | rfl | rfl | rfl <;> simp [Call.le, p, m])
    (asg false true true) rfl (by
      intro c hc; simp [cs] at hc
      rcases hc with rfl | rfl | rfl | rfl | rfl <;> simp [Call.hard, Asg.satC, Asg.sat, Lit.tv, p, m, asg, holds, val])
  refine ⟨s, M, hs, h2, ?_, (h1 2 (by omega)).trans rfl, (h1 3 (by omega)).trans rfl⟩
  rw [h3]
  simp [costs, cs, Call.cost, penalty, Asg.satC, Asg.sat, Lit.tv, p, m, asg, val]

example : ∃ s M, Sat.calls pr cs (Sat.prepare pr 4 10) = .ok s ∧ (s.doEnd false).1.Models M ∧ val M (s.doEnd false).1.mini = 10 := by
  obtain ⟨s, hs⟩ := runs
  obtain ⟨M, h1, h2, h3⟩ := C34_sat_complete law hs (elim := false) (by intro c hc; simp [cs] at hc; rcases hc with rfl | rfl | rfl | rfl | rfl <;> simp [Call.le, p, m])
    (asg true true false) rfl (by
      intro c hc; simp [cs] at hc
      rcases hc with rfl | rfl | rfl | rfl | rfl <;> simp [Call.hard, Asg.satC, Asg.sat, Lit.tv, p, m, asg, holds, val])
  refine ⟨s, M, hs, h2, ?_⟩
  rw [h3]
  simp [costs, cs, Call.cost, penalty, Asg.satC, Asg.sat, Lit.tv, p, m, asg, val]

end SatEx

end Clasp.Input
