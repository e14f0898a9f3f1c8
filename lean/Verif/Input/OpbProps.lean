/-
C34 for `OpbReader` and `PBBuilder`: a text of the OPB/WBO format never leads to a syntax error and yields a problem with the solutions and
costs the text prescribes - up to the exceptions listed in `PbProps.lean`.
-/
import Verif.Input.OpbLem
namespace Clasp.Input
open Core Weight

theorem osum_psum (M : Asg) (ts : List (Int × List Int)) : psum M (litTerms ts) = osum M ts := by
  unfold psum osum litTerms
  rw [List.map_map]
  congr 1
  apply List.map_congr_left
  intro t _
  have : termTrue M (t.2.map toLit) ↔ ∀ l ∈ t.2, LitTrue M l := by
    unfold termTrue
    simp only [List.forall_mem_map]
    exact forall₂_congr fun l _ => sat_toLit M l
  simp only [Function.comp]
  by_cases h : ∀ l ∈ t.2, LitTrue M l
  · rw [if_pos h, if_pos (this.2 h)]
  · rw [if_neg h, if_neg (fun h' => h (this.1 h'))]

theorem sat_relSat (M : Asg) (x : OCon) : relSat M (litTerms x.ts) x.eq x.b ↔ x.sat M := by
  unfold relSat OCon.sat
  rw [osum_psum]

/-! ### Texts only mention the variables and costs of the problem line -/

theorem olit_le {n l a} (h : OLit n l a) : (toLit l).var ≤ n := by
  cases h with
  | @pos v a h1 h2 _ => show Int.natAbs (v : Int) ≤ n; omega
  | @neg v a h1 h2 _ => show Int.natAbs (-(v : Int)) ≤ n; omega

theorem oterm_le {n t s} (h : OTerm n t s) : ∀ l ∈ t, (toLit l).var ≤ n := by
  induction h with
  | one h => intro l hl; rw [List.mem_singleton] at hl; subst hl; exact olit_le h
  | cons h _ _ ih => intro l hl; rcases List.mem_cons.mp hl with rfl | hl; exact olit_le h; exact ih l hl
  | star h _ _ _ ih => intro l hl; rcases List.mem_cons.mp hl with rfl | hl; exact olit_le h; exact ih l hl

theorem osum_le {n ts s} (h : OSum n ts s) : ∀ t ∈ litTerms ts, ∀ l ∈ t.2, l.var ≤ n := by
  have : ∀ t ∈ ts, ∀ l ∈ t.2, (toLit l).var ≤ n := by
    induction h with
    | one _ _ _ _ h => intro t ht; rw [List.mem_singleton] at ht; subst ht; exact oterm_le h
    | cons _ _ _ _ h _ _ ih => intro t ht; rcases List.mem_cons.mp ht with rfl | ht; exact oterm_le h; exact ih t ht
  intro t ht l hl
  obtain ⟨t', h1, rfl⟩ := List.mem_map.mp ht
  obtain ⟨l', h2, rfl⟩ := List.mem_map.mp hl
  exact this t' h1 l' h2

theorem conTxt_le {n x s} (h : ConTxt n x s) : ∀ t ∈ litTerms x.ts, ∀ l ∈ t.2, l.var ≤ n := by
  cases h with
  | eq h _ _ _ _ _ _ => exact osum_le h
  | ge h _ _ _ _ _ _ => exact osum_le h

theorem sconTxt_le {n lo hi x s} (h : SConTxt n lo hi x s) : (conCall x).le n ∧ ∀ c, x.cost = some c → 0 < c := by
  cases h with
  | hard h => exact ⟨conTxt_le h, fun c hc => by cases h <;> cases hc⟩
  | @soft x c u a v w s h1 _ _ _ _ _ _ h => exact ⟨fun t ht => conTxt_le h t ht, fun c hc => by cases hc; exact h1⟩

theorem cons_le {n lo hi xs s} (h : Cons n lo hi xs s) : ∀ x ∈ xs, (conCall x).le n ∧ ∀ c, x.cost = some c → 0 < c := by
  induction h with
  | nil _ => intro x hx; cases hx
  | item _ h _ ih => intro x hx; rcases List.mem_cons.mp hx with rfl | hx; exact sconTxt_le h; exact ih x hx

theorem objTxt_le {n o t} (h : ObjTxt n o t) : ∀ c ∈ objCalls o, c.le n := by
  intro c hc
  cases h with
  | empty _ => rw [objCalls, List.mem_singleton] at hc; subst hc; intro t ht; cases ht
  | min _ h _ => rw [objCalls, List.mem_singleton] at hc; subst hc; exact osum_le h
  | soft _ _ _ _ => rw [objCalls, List.mem_singleton] at hc; subst hc; trivial

theorem odoc_le {n p q o xs s} (h : ODoc n p q o xs s) : (∀ c ∈ objCalls o, c.le n) ∧ (∀ x ∈ xs, (conCall x).le n ∧ ∀ c, x.cost = some c → 0 < c) ∧
    ∀ k, o = .soft k → 0 < k := by
  obtain ⟨lo, hi, a, b, _, _, hb⟩ := h
  cases hb with
  | none h => exact ⟨fun c hc => (nomatch hc), cons_le h, fun k hk => (nomatch hk)⟩
  | obj _ h1 h2 => exact ⟨objTxt_le h1, cons_le h2, fun k hk => by subst hk; cases h1; assumption⟩

theorem doc_hard {n p q o xs s} (h : ODoc n p q o xs s) (M : Asg) : (∀ c ∈ objCalls o ++ xs.map conCall, c.hard M) ↔ OHard xs M := by
  obtain ⟨_, hx, _⟩ := odoc_le h
  constructor
  · intro hc x hxm hn
    have := hc (conCall x) (List.mem_append_right _ (List.mem_map_of_mem hxm))
    exact (sat_relSat M x).1 (this (by rw [hn]; exact Int.le_refl _))
  · intro hh c hc
    rcases List.mem_append.mp hc with hc | hc
    · cases o with
      | none => cases hc
      | min ts => rw [objCalls, List.mem_singleton] at hc; subst hc; trivial
      | soft k => rw [objCalls, List.mem_singleton] at hc; subst hc; trivial
    · obtain ⟨x, hxm, rfl⟩ := List.mem_map.mp hc
      intro h0
      apply (sat_relSat M x).2
      apply hh x hxm
      cases hcx : x.cost with
      | none => rfl
      | some c => have := (hx x hxm).2 c hcx; rw [hcx] at h0; exact absurd h0 (by simpa using this)

theorem doc_cost {n p q o xs s} (h : ODoc n p q o xs s) (M : Asg) : pcosts (objCalls o ++ xs.map conCall) M = ocosts o xs M := by
  obtain ⟨_, hx, _⟩ := odoc_le h
  unfold pcosts ocosts
  rw [List.map_append, List.sum_append]
  congr 1
  · cases o with
    | none => rfl
    | min ts => simp [objCalls, PCall.cost, OObj.cost, osum_psum]
    | soft k => simp [objCalls, PCall.cost, OObj.cost]
  · rw [List.map_map]
    congr 1
    apply List.map_congr_left
    intro x hxm
    simp only [Function.comp, conCall, PCall.cost]
    unfold OCon.costs
    have hr := sat_relSat M x
    cases hcx : x.cost with
    | none => simp
    | some c =>
      have := (hx x hxm).2 c hcx
      have h1 : ¬ (c ≤ 0) := by omega
      simp only [Option.getD_some]
      by_cases hs : x.sat M
      · rw [if_pos (.inr (hr.2 hs)), if_pos hs]
      · rw [if_neg (fun h => h.elim h1 fun h => hs (hr.1 h)), if_neg hs]

/-- Specification: the soft constraints of the text that clasp treats as prescribed: inequalities, and over a single product only if they
are violated for some value of it. -/
def OCon.sup (x : OCon) : Prop := x.cost ≠ none → x.eq = false ∧ ∀ t, x.ts = [t] → min t.1 0 < x.b

theorem doc_sup {o : OObj} {xs : List OCon} (h : ∀ x ∈ xs, x.sup) : ∀ c ∈ objCalls o ++ xs.map conCall, c.sup := by
  intro c hc
  rcases List.mem_append.mp hc with hc | hc
  · cases o with
    | none => cases hc
    | min ts => rw [objCalls, List.mem_singleton] at hc; subst hc; trivial
    | soft k => rw [objCalls, List.mem_singleton] at hc; subst hc; trivial
  · obtain ⟨x, hxm, rfl⟩ := List.mem_map.mp hc
    intro h0
    have hne : x.cost ≠ none := fun e => by rw [e] at h0; exact absurd h0 (by simp)
    obtain ⟨h1, h2⟩ := h x hxm hne
    refine ⟨h1, fun t ht => ?_⟩
    unfold litTerms at ht
    match hts : x.ts, ht with
    | [t'], ht => simp only [List.map_cons, List.map_nil, List.cons.injEq, and_true] at ht; rw [← ht]; exact h2 t' hts

theorem doc_le {n p q o xs s} (h : ODoc n p q o xs s) : ∀ c ∈ objCalls o ++ xs.map conCall, c.le n := by
  obtain ⟨h1, h2, _⟩ := odoc_le h
  intro c hc
  rcases List.mem_append.mp hc with hc | hc
  · exact h1 c hc
  · obtain ⟨x, hxm, rfl⟩ := List.mem_map.mp hc
    exact (h2 x hxm).1

/-- The reader accepts every document of the format: it stops only if the builder does. -/
theorem C34_opb_accept {n p q : Nat} {o : OObj} {xs : List OCon} {s : Text} (h : ODoc n p q o xs s) : opb s ≠ .error .syntax := by
  rw [opb_calls h]
  cases Pb.calls (objCalls o ++ xs.map conCall) (Pb.prepare n p q) with
  | error e => intro h; cases h
  | ok y => intro h; cases h

theorem term_weak {p p' : Pb} {t : List Lit} {x : Lit} (h : p.term t = .ok (p', x)) : p'.weak = p.weak := by
  have hprod : p.addProduct t = .ok (p', x) → p'.weak = p.weak := by
    intro h
    unfold Pb.addProduct at h
    split at h
    · cases h; exact rfl
    · obtain ⟨ls, _, h⟩ := bind_ok.1 h
      have hp : ∀ ls, p.product ls = .ok (p', x) → p'.weak = p.weak := by
        intro ls h
        unfold Pb.product at h
        split at h
        · cases h; exact rfl
        · obtain ⟨⟨s1, v⟩, hv, h⟩ := bind_ok.1 h
          unfold Pb.auxVar at hv
          split at hv
          · cases hv; cases h; rfl
          · cases hv
      match ls, h with
      | [], h => cases h
      | [y], h => cases h; exact rfl
      | y :: z :: ls, h => exact hp _ h
  match t with
  | [] => exact hprod h
  | [y] => cases h; exact rfl
  | a :: b :: t => exact hprod h

theorem sum_weak : ∀ {ts : List (Int × List Lit)} {p p' : Pb} {ls : List WL}, Pb.sum ts p = .ok (p', ls) → p'.weak = p.weak := by
  intro ts
  induction ts with
  | nil => intro p p' ls h; cases h; exact rfl
  | cons t ts ih =>
    intro p p' ls h
    obtain ⟨⟨s1, x⟩, h1, h⟩ := bind_ok.1 h
    obtain ⟨⟨s2, r⟩, h2, h⟩ := bind_ok.1 h
    cases h
    exact (ih h2).trans (term_weak h1)

theorem con_weak {p p' : Pb} {ls : List WL} {b : Int} {eq : Bool} {cw : Int} (h : p.addConstraint ls b eq cw = .ok p') : p'.weak = p.weak := by
  have hc : ∀ (q : Pb) W, q.create eq W ls b = .ok p' → p'.weak = q.weak := by
    intro q W h
    obtain ⟨m, _, h⟩ := bind_ok.1 h
    cases h; rfl
  unfold Pb.addConstraint at h
  split at h
  · cases h; exact rfl
  · split at h
    · have hm : (do let v ← p.auxVar; (v.1.addMin ⟨⟨v.2, true⟩, cw⟩).create eq ⟨v.2, false⟩ ls b : R Pb) = .ok p' → p'.weak = p.weak := by
        intro h
        obtain ⟨⟨s1, v⟩, hv, h⟩ := bind_ok.1 h
        unfold Pb.auxVar at hv
        split at hv
        · cases hv
          rw [hc _ _ h]; rfl
        · cases hv
      match ls, h, hm with
      | [], h, hm => exact hm h
      | a :: b :: ls, h, hm => exact hm h
      | [x], h, _ =>
        obtain ⟨l, _, h⟩ := bind_ok.1 h
        cases h; exact rfl
    · exact hc _ _ h

theorem weak_calls : ∀ {cs : List PCall} (_ : ∀ c ∈ cs, ∀ b, c ≠ .bound b) {p p' : Pb}, Pb.calls cs p = .ok p' → p'.weak = p.weak := by
  intro cs
  induction cs with
  | nil => intro _ p p' h; cases h; rfl
  | cons c cs ih =>
    intro hc p p' h
    obtain ⟨q, h1, h⟩ := bind_ok.1 h
    rw [ih (fun c h => hc c (List.mem_cons_of_mem _ h)) h]
    cases c with
    | con ts b eq cw =>
      obtain ⟨⟨s1, ls⟩, h2, h1⟩ := bind_ok.1 h1
      rw [con_weak h1, sum_weak h2]
    | obj ts =>
      obtain ⟨⟨s1, ls⟩, h2, h1⟩ := bind_ok.1 h1
      cases h1
      exact sum_weak (p' := s1) h2
    | bound b => exact absurd rfl (hc _ (List.mem_cons_self ..) b)

/-- Specification: the largest costs allowed by a document: less than the bound after `soft:`. -/
def OObj.limit : OObj → Option Int
  | .soft k => .some (k - 1)
  | _ => Option.none

/-- Whenever a document is accepted, the solutions of the problem given to the solver are those of the document: every assignment that
satisfies the constraints without costs extends to a model, every model satisfies them, and the costs are those of the document. The bound
given with `soft:` is the bound on the costs. Missing: soft equalities and soft constraints over one product that hold for all its values
(`OCon.sup`) as well as documents without solution but with equalities, for which the claim is false (`C34_pb_soft_eq`,
`C34_pb_soft_single`, `C34_pb_eq`). -/
theorem C34_opb_partial {n p q : Nat} {o : OObj} {xs : List OCon} {s : Text} {st : Pb} (h : ODoc n p q o xs s) (hs : opb s = .ok st) (hx : ∀ x ∈ xs, x.sup) :
    (∀ M : Asg, M 0 = true → OHard xs M → ∃ M' : Asg, (∀ v ≤ n, M' v = M v) ∧ st.doEnd.Models M' ∧ val M' st.doEnd.mini = ocosts o xs M) ∧
    (∀ M : Asg, st.doEnd.Models M → val M st.doEnd.mini = ocosts o xs M ∧
      ((∀ x ∈ xs, x.cost = none → x.eq = false) ∨ (∃ M : Asg, M 0 = true ∧ OHard xs M) → OHard xs M)) ∧
    st.weak = o.limit := by
  rw [opb_calls h] at hs
  have hc : Pb.calls (objCalls o ++ xs.map conCall) (Pb.prepare n p q) = .ok st := by
    revert hs
    cases Pb.calls (objCalls o ++ xs.map conCall) (Pb.prepare n p q) with
    | error e => intro hs; cases hs
    | ok y => intro hs; cases hs; rfl
  refine ⟨fun M h0 hM => ?_, fun M hM => ?_, ?_⟩
  · obtain ⟨M', h1, h2, h3⟩ := C34_pb_complete_partial hc (doc_le h) (doc_sup hx) M h0 ((doc_hard h M).2 hM)
    exact ⟨M', h1, h2, by rw [h3, doc_cost h]⟩
  · obtain ⟨h1, h2⟩ := C34_pb_sound_partial hc (doc_le h) (doc_sup hx) M hM
    refine ⟨by rw [h2, doc_cost h], fun he => (doc_hard h M).1 (h1 ?_)⟩
    rcases he with he | ⟨M1, h3, h4⟩
    · left
      intro c hcm
      rcases List.mem_append.mp hcm with hcm | hcm
      · cases o with
        | none => cases hcm
        | min ts => rw [objCalls, List.mem_singleton] at hcm; subst hcm; exact id
        | soft k => rw [objCalls, List.mem_singleton] at hcm; subst hcm; exact id
      · obtain ⟨x, hxm, rfl⟩ := List.mem_map.mp hcm
        rintro ⟨h5, h6⟩
        have hn : x.cost = none := by
          cases hcx : x.cost with
          | none => rfl
          | some c => have := ((odoc_le h).2.1 x hxm).2 c hcx; rw [hcx] at h5; exact absurd h5 (by simpa using this)
        rw [he x hxm hn] at h6; cases h6
    · exact .inr ⟨M1, h3, (doc_hard h M1).2 h4⟩
  · have hcon : ∀ c ∈ xs.map conCall, ∀ b, c ≠ .bound b := by
      intro c hcm b e
      obtain ⟨x, _, rfl⟩ := List.mem_map.mp hcm
      cases e
    have hw0 : (Pb.prepare n p q).weak = none := rfl
    rw [calls_append] at hc
    obtain ⟨p1, h1, h2⟩ := bind_ok.1 hc
    rw [weak_calls hcon h2]
    cases o with
    | none => cases h1; exact hw0
    | min ts =>
      rw [weak_calls (fun c hc b => by rw [objCalls, List.mem_singleton] at hc; subst hc; exact nofun) h1]; exact hw0
    | soft k =>
      have hk := (odoc_le h).2.2 k rfl
      simp only [objCalls, Pb.calls, Pb.call] at h1
      cases h1
      show (Pb.setSoftBound _ k).weak = some (k - 1)
      unfold Pb.setSoftBound
      rw [if_pos hk]

namespace OpbEx

/-- Example: numerals with one digit -/
theorem num1 (d : Nat) (h : d < 10) : Num d [Char.ofNat (48 + d)] := .plain (.one d h)

/-- Example document: two variables, one comment, a bound for the costs, a soft constraint and a hard one with a product:
`soft: 5; [3] 1 x1 1 x2 >= 2; 1 x1 1 ~x1*x2 >= 1;` -/
def head : Text := ['*', ' ', '#', 'v', 'a', 'r', 'i', 'a', 'b', 'l', 'e', '=', ' ', '2', ' ', '#', 'c', 'o', 'n', 's', 't', 'r', 'a', 'i', 'n', 't', '=', ' ', '2', ' ', '#', 'p', 'r', 'o', 'd', 'u', 'c', 't', '=', ' ', '1', ' ', 's', 'i', 'z', 'e', 'p', 'r', 'o', 'd', 'u', 'c', 't', '=', ' ', '2', ' ', '#', 's', 'o', 'f', 't', '=', ' ', '1', ' ', 'm', 'i', 'n', 'c', 'o', 's', 't', '=', ' ', '3', ' ', 'm', 'a', 'x', 'c', 'o', 's', 't', '=', ' ', '3', ' ', 's', 'u', 'm', 'c', 'o', 's', 't', '=', ' ', '4', '\n']
/-- Example: see `head` -/
def bodyT : Text := ['s', 'o', 'f', 't', ':', ' ', '5', ';', '\n', '[', '3', ']', ' ', '1', ' ', 'x', '1', ' ', '1', ' ', 'x', '2', ' ', '>', '=', ' ', '2', ';', '\n', '*', ' ', 'c', '\n', '1', ' ', 'x', '1', ' ', '1', ' ', '~', 'x', '1', '*', 'x', '2', ' ', '>', '=', ' ', '1', ';', '\n']

theorem sp : Ws [' '] := fun c hc => by rw [List.mem_singleton.mp hc]; rfl
theorem nl : Ws ['\n'] := fun c hc => by rw [List.mem_singleton.mp hc]; rfl
theorem sp1 : Ws1 [' '] := ⟨by simp, sp⟩

theorem x1 : OLit 2 1 ['x', '1'] := .pos (v := 1) (by omega) (by omega) (.one 1 (by omega))
theorem x2 : OLit 2 2 ['x', '2'] := .pos (v := 2) (by omega) (by omega) (.one 2 (by omega))
theorem nx1 : OLit 2 (-1) ['~', 'x', '1'] := .neg (v := 1) (by omega) (by omega) (.one 1 (by omega))

/-- Example: the constraints of the document -/
def cons : List OCon := [⟨some 3, [(1, [1]), (1, [2])], false, 2⟩, ⟨none, [(1, [1]), (1, [-1, 2])], false, 1⟩]

theorem maxw : MAXW = 2147483647 := rfl

theorem doc : ODoc 2 1 1 (.soft 5) cons (head ++ bodyT) := by
  refine ⟨3, 3, head, bodyT, rfl, ?_, ?_⟩
  · have := OHead.mk (n := 2) (p := 1) (q := 1) (lo := 3) (hi := 3) (m := 2) (by omega) (by omega) sp (num1 2 (by omega)) sp sp (num1 2 (by omega))
      (.some (p := 1) (z := 2) (by omega) (by omega) sp sp (num1 1 (by omega)) sp sp (num1 2 (by omega)))
      (.some (q := 1) (lo := 3) (hi := 3) (z := (4 : Nat)) (by omega) (by rw [maxw]; omega) (by rw [maxw]; omega) (by omega) sp sp (num1 1 (by omega)) sp sp (num1 3 (by omega)) sp sp (num1 3 (by omega)) sp sp (num1 4 (by omega))) ws_nil
    exact this
  · have c1 : SConTxt 2 3 3 ⟨some 3, [(1, [1]), (1, [2])], false, 2⟩ _ :=
      .soft (x := ⟨none, [(1, [1]), (1, [2])], false, 2⟩) (c := (3 : Nat)) (by omega) (by omega) (by omega) ws_nil (num1 3 (by omega)) ws_nil sp
        (.ge (b := (2 : Nat)) (.cons (c := (1 : Nat)) (by rw [maxw]; omega) (by rw [maxw]; omega) (num1 1 (by omega)) sp (.one x1) sp1
          (.one (c := (1 : Nat)) (by rw [maxw]; omega) (by rw [maxw]; omega) (num1 1 (by omega)) sp (.one x2))) sp sp (by rw [maxw]; omega) (by rw [maxw]; omega) (num1 2 (by omega)) ws_nil)
    have c2 : SConTxt 2 3 3 ⟨none, [(1, [1]), (1, [-1, 2])], false, 1⟩ _ :=
      .hard (.ge (b := (1 : Nat)) (.cons (c := (1 : Nat)) (by rw [maxw]; omega) (by rw [maxw]; omega) (num1 1 (by omega)) sp (.one x1) sp1
          (.one (c := (1 : Nat)) (by rw [maxw]; omega) (by rw [maxw]; omega) (num1 1 (by omega)) sp (.star nx1 ws_nil ws_nil (.one x2)))) sp sp (by rw [maxw]; omega) (by rw [maxw]; omega) (num1 1 (by omega)) ws_nil)
    have hg : Gap ['\n', '*', ' ', 'c', '\n'] := .comment (w := ['\n']) (t := [' ', 'c']) nl (by simp [Line]) (.ws ws_nil)
    have := OBody.obj (.ws ws_nil) (.soft (n := 2) (k := (5 : Nat)) (by omega) sp (num1 5 (by omega)) ws_nil)
      (.item (.ws nl) c1 (.item hg c2 (.nil (.ws nl))))
    exact this

theorem sup : ∀ x ∈ cons, x.sup := by
  intro x hx hn
  simp only [cons, List.mem_cons, List.not_mem_nil, or_false] at hx
  rcases hx with rfl | rfl
  · exact ⟨rfl, fun t ht => by cases ht⟩
  · exact absurd rfl hn

theorem accepted : ∃ st, opb (head ++ bodyT) = .ok st := by
  rw [opb_calls doc]
  exact ⟨_, rfl⟩

/-- The document is accepted with a bound of 4 on the costs. -/
example : ∃ st, opb (head ++ bodyT) = .ok st ∧ st.weak = some 4 := by
  obtain ⟨st, h⟩ := accepted
  exact ⟨st, h, (C34_opb_partial doc h sup).2.2⟩

example : opb (head ++ bodyT) ≠ .error .syntax := C34_opb_accept doc

end OpbEx

end Clasp.Input
