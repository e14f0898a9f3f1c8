/- Helper lemmas for C34: the variables a weight constraint leaves behind. -/
import Verif.Input.SatLem
namespace Clasp.Input
open Core Weight Function

/-- Proof device: all variables of what was made satisfy `P`. -/
structure MadeIn (P : Nat → Prop) (m : Made) : Prop where
  top : ∀ v, m.top v ≠ none → P v
  cls : ∀ c ∈ m.clauses, ∀ l ∈ c, P l.var
  con : ∀ W r, m.con = some (W, r) → P W.var ∧ ∀ e ∈ r.lits, P e.lit.var

theorem force_in {P : Nat → Prop} {top t : Top} {p : Lit} (h : force top p = some t) (ht : ∀ v, top v ≠ none → P v) (hp : P p.var) :
    ∀ v, t v ≠ none → P v := by
  intro v hv
  by_cases he : v = p.var
  · rw [he]; exact hp
  · exact ht v (by rw [← (force_some h).2.1 v he]; exact hv)

theorem backprop_in {P : Nat → Prop} {bt : Bool} {B : Int} : ∀ (ls : List WL) (top : Top) (bound reach : Int) (t : Top) (r : Rep) (d : Bool),
    backprop bt B top ls bound reach = .ok (some (t, r, d)) → (∀ v, top v ≠ none → P v) → (∀ e ∈ ls, P e.lit.var) →
    (∀ v, t v ≠ none → P v) ∧ ∀ e ∈ r.lits, P e.lit.var
  | [], _, _, _, _, _, _, h, _, _ => by simp [backprop] at h
  | l :: ls, top, bound, reach, t, r, d, h, ht, hl => by
    unfold backprop at h
    split at h
    · obtain ⟨re, _, h⟩ := bind_ok.1 h
      split at h
      · cases h
      · next top' hf =>
        have ht' := force_in hf ht (by split <;> exact hl l (by simp))
        have h : ∃ b, (if (bt && decide (b ≤ 0)) = true then Except.ok (some (top', (⟨l :: ls, b, re⟩ : Rep), true))
            else if ls = [] then Except.ok (some (top', (⟨[], b, re⟩ : Rep), true)) else backprop bt B top' ls b re) = (.ok (some (t, r, d)) : R _) := by
          cases bt with
          | false => exact ⟨bound, h⟩
          | true =>
            obtain ⟨b, _, h⟩ := bind_ok.1 h
            exact ⟨b, h⟩
        obtain ⟨b, h⟩ := h
        generalize (bt && decide (b ≤ 0)) = bb at h
        cases bb with
        | true => cases h; exact ⟨ht', hl⟩
        | false =>
          rw [if_neg (by simp)] at h
          split at h
          · cases h; exact ⟨ht', fun _ h => (nomatch h)⟩
          · exact backprop_in ls top' b re t r d h ht' (fun e he => hl e (List.mem_cons_of_mem _ he))
    · cases h; exact ⟨ht, hl⟩

theorem toCard_in {P : Nat → Prop} {B : Int} {r c : Rep} (h : toCard B r = .ok c) (hl : ∀ e ∈ r.lits, P e.lit.var) : ∀ e ∈ c.lits, P e.lit.var := by
  unfold toCard at h
  obtain ⟨_, _, h⟩ := bind_ok.1 h
  obtain ⟨_, _, h⟩ := bind_ok.1 h
  cases h
  intro e he
  obtain ⟨x, hx, rfl⟩ := List.mem_map.mp he
  exact hl x hx

theorem propagate_in {P : Nat → Prop} {top t : Top} {W : Lit} {r r' : Rep} (h : propagate top W r = .ok (some (t, r')))
    (ht : ∀ v, top v ≠ none → P v) (hW : P W.var) (hl : ∀ e ∈ r.lits, P e.lit.var) :
    (∀ v, t v ≠ none → P v) ∧ ∀ e ∈ r'.lits, P e.lit.var := by
  unfold propagate at h
  split at h
  · cases hf : force top W with
    | none => rw [hf] at h; cases h
    | some t' => rw [hf] at h; cases h; exact ⟨force_in hf ht hW, hl⟩
  · split at h
    · cases hf : force top W.neg with
      | none => rw [hf] at h; cases h
      | some t' => rw [hf] at h; cases h; exact ⟨force_in hf ht hW, hl⟩
    · split at h
      · cases h; exact ⟨ht, hl⟩
      · simp only [] at h
        generalize (top W.var == some W.tv) = bt at h
        have fin : ∀ (bt : Bool) (B : Int) (q : Option (Top × Rep × Bool)), backprop bt B top r.lits r.bound r.reach = .ok q →
            (match q with
              | none => .ok none
              | some (top', r', done) =>
                if done = true then .ok (some (top', r'))
                else match r'.lits.head?, r'.lits.getLast? with
                  | some f, some l => if f.w > 1 ∧ f.w = l.w then (do let c ← toCard f.w r'; .ok (some (top', c))) else .ok (some (top', r'))
                  | _, _ => .error .bad : R (Option (Top × Rep))) = .ok (some (t, r')) → (∀ v, t v ≠ none → P v) ∧ ∀ e ∈ r'.lits, P e.lit.var := by
          intro bt B q hq h
          cases q with
          | none => cases h
          | some q =>
            obtain ⟨top', r1, d⟩ := q
            obtain ⟨b1, b2⟩ := backprop_in r.lits top _ _ top' r1 d hq ht hl
            simp only at h
            split at h
            · cases h; exact ⟨b1, b2⟩
            · split at h
              · split at h
                · obtain ⟨c, hc, h⟩ := bind_ok.1 h
                  cases h
                  exact ⟨b1, toCard_in hc b2⟩
                · cases h; exact ⟨b1, b2⟩
              · cases h
        cases bt with
        | false =>
          obtain ⟨B, _, h⟩ := bind_ok.1 h
          obtain ⟨q, hq, h⟩ := bind_ok.1 h
          exact fin _ _ q hq h
        | true =>
          obtain ⟨d, _, h⟩ := bind_ok.1 h
          obtain ⟨B, _, h⟩ := bind_ok.1 h
          obtain ⟨q, hq, h⟩ := bind_ok.1 h
          exact fin _ _ q hq h

theorem asClauses_in {P : Nat → Prop} {disj : Bool} {W : Lit} {ls : List Lit} (hW : P W.var) (hl : ∀ l ∈ ls, P l.var) :
    ∀ c ∈ asClauses disj W ls, ∀ l ∈ c, P l.var := by
  have hneg : ∀ l : Lit, l.neg.var = l.var := fun l => rfl
  have hflip : ∀ (b : Bool) (l : Lit), (if b = true then l.neg else l).var = l.var := fun b l => by split <;> rfl
  -- the loop
  have key : ∀ (ls : List Lit) (st : List Lit × List (List Lit) × Bool), (∀ l ∈ ls, P l.var) →
      (∀ l ∈ st.1, P l.var) → (∀ c ∈ st.2.1, ∀ l ∈ c, P l.var) →
      let r := ls.foldl (fun (st : List Lit × List (List Lit) × Bool) (l : Lit) =>
        if (if disj = true then W.neg else W).neg ≠ (if disj = true then l.neg else l).neg then
          (if (if disj = true then W.neg else W).neg ≠ (if disj = true then l.neg else l) then st.1 ++ [(if disj = true then l.neg else l).neg] else st.1,
            st.2.1 ++ [[(if disj = true then W.neg else W).neg, if disj = true then l.neg else l]], st.2.2)
        else (st.1, st.2.1, true)) st
      (∀ l ∈ r.1, P l.var) ∧ (∀ c ∈ r.2.1, ∀ l ∈ c, P l.var) := by
    intro ls
    induction ls with
    | nil => intro st _ h1 h2; exact ⟨h1, h2⟩
    | cons l ls ih =>
      intro st hls h1 h2
      rw [List.foldl_cons]
      have hls' : ∀ l ∈ ls, P l.var := fun x hx => hls x (List.mem_cons_of_mem _ hx)
      have hPl := hls l (by simp)
      refine ih _ hls' ?_ ?_
      · by_cases hc : (if disj = true then W.neg else W).neg ≠ (if disj = true then l.neg else l).neg
        · rw [if_pos hc]
          dsimp only
          intro x hx
          generalize (if disj = true then W.neg else W).neg = a at hx
          generalize hb : (if disj = true then l.neg else l) = b at hx
          have hbv : P b.neg.var := by rw [← hb, hneg, hflip]; exact hPl
          split at hx
          · rcases List.mem_append.mp hx with hx | hx
            · exact h1 x hx
            · rw [List.mem_singleton] at hx; rw [hx]; exact hbv
          · exact h1 x hx
        · rw [if_neg hc]; exact h1
      · by_cases hc : (if disj = true then W.neg else W).neg ≠ (if disj = true then l.neg else l).neg
        · rw [if_pos hc]
          dsimp only
          intro c hc x hx
          rcases List.mem_append.mp hc with hc | hc
          · exact h2 c hc x hx
          · rw [List.mem_singleton] at hc; subst hc
            simp only [List.mem_cons, List.not_mem_nil, or_false] at hx
            rcases hx with rfl | rfl
            · rw [hneg, hflip]; exact hW
            · rw [hflip]; exact hPl
        · rw [if_neg hc]; exact h2
  obtain ⟨k1, k2⟩ := key ls ([if disj = true then W.neg else W], [], false) hl
    (fun l hl => by rw [List.mem_singleton] at hl; rw [hl, hflip]; exact hW) (fun _ h => (nomatch h))
  intro c hc
  unfold asClauses at hc
  dsimp only at hc k1 k2
  generalize List.foldl _ _ ls = r at k1 k2 hc
  split at hc
  · exact k2 c hc
  · rcases List.mem_append.mp hc with hc | hc
    · exact k2 c hc
    · rw [List.mem_singleton] at hc; subst hc; exact k1

theorem doCreate_in {P : Nat → Prop} {ex ad : Bool} {top : Top} {W : Lit} {r r' : Rep} {m : Made}
    (h : doCreate ex ad top W r = .ok (some (m, r'))) (ht : ∀ v, top v ≠ none → P v) (hW : P W.var) (hl : ∀ e ∈ r.lits, P e.lit.var) :
    MadeIn P m := by
  unfold doCreate at h
  obtain ⟨q, hq, h⟩ := bind_ok.1 h
  cases q with
  | none => cases h
  | some q =>
    obtain ⟨t, r1⟩ := q
    obtain ⟨b1, b2⟩ := propagate_in hq ht hW hl
    simp only at h
    split at h
    · cases h; exact ⟨b1, fun _ h => (nomatch h), fun _ _ h => (nomatch h)⟩
    · split at h
      · cases h
        refine ⟨b1, asClauses_in hW fun l hl => ?_, fun _ _ h => (nomatch h)⟩
        obtain ⟨e, he, rfl⟩ := List.mem_map.mp hl
        exact b2 e he
      · cases h
        refine ⟨b1, fun _ h => (nomatch h), fun W' r' h => ?_⟩
        cases h; exact ⟨hW, b2⟩

/-- models do not depend on a variable that does not occur -/
theorem MadeIn.congr {P : Nat → Prop} {m : Made} (h : MadeIn P m) {M M' : Asg} (hag : ∀ v, P v → M' v = M v) (hm : m.models M) : m.models M' := by
  have hsat : ∀ l : Lit, P l.var → (M'.sat l ↔ M.sat l) := fun l hl => by unfold Asg.sat; rw [hag _ hl]
  refine ⟨fun v b hv => (hag v (h.top v (by rw [hv]; simp))).trans (hm.1 v b hv), fun c hc => ?_, fun W r hr => ?_⟩
  · obtain ⟨p, hp, hs⟩ := hm.2.1 c hc
    exact ⟨p, hp, (hsat p (h.cls c hc p hp)).2 hs⟩
  · obtain ⟨c1, c2⟩ := h.con W r hr
    have := hm.2.2 W r hr
    unfold iffHolds holds at this ⊢
    rw [hsat W c1]
    have hv : val M' r.lits = val M r.lits := by
      unfold val
      congr 1
      exact List.map_congr_left fun x hx => by simp only [hsat x.lit (c2 x hx)]
    rw [hv]; exact this

end Clasp.Input
