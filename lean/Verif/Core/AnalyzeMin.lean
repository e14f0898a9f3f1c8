/- Lemmas for C14: local and recursive minimization. -/
import Verif.Core.Analyze
import Verif.Core.Sem
import Mathlib.Data.Prod.Lex
namespace Clasp.Core

/-- What the minimization needs to know about the trail `T` and the reasons. -/
structure MinPre (reason : Lit → Ante) (seen : Nat → Bool) (T : List Lit) (pos : Nat → Nat) : Prop where
  inj : ∀ x ∈ T, ∀ y ∈ T, x.var = y.var → x = y
  nodup : T.Nodup
  down : ∀ x ∈ T, ∀ r, reason x = some r → ∀ q ∈ r, q = litTrue ∨ (q ∈ T ∧ pos q.var < pos x.var)
  tt : seen 0 = true

/-- `x` is known to be redundant in state `rec`. -/
def Rec.okLit (seen : Nat → Bool) (rec : Rec) (q : Lit) : Prop := seen q.var = true ∨ rec.state q.var = .removable

/-- States marked removable are closed under reasons, states of marked variables are untouched. -/
structure RecOk (reason : Lit → Ante) (seen : Nat → Bool) (T : List Lit) (rec : Rec) : Prop where
  closed : ∀ x ∈ T, rec.state x.var = .removable → ∃ r, reason x = some r ∧ ∀ q ∈ r, rec.okLit seen q
  opn : ∀ x ∈ T, seen x.var = true → rec.state x.var = .opn
  bound : ∀ v, rec.epoch v ≤ rec.opn + 2
  top : rec.epoch 0 = rec.opn + 2

theorem Rec.state_set (rec : Rec) (v : Nat) (b : Bool) (w : Nat) :
    (rec.set v b).state w = if w = v then (if b then .poison else .removable) else rec.state w := by
  unfold Rec.set Rec.state
  by_cases e : w = v
  · subst e; cases b <;> simp
  · simp [e]

/-- Invariant of the stack. -/
structure StackOk (reason : Lit → Ante) (seen : Nat → Bool) (T : List Lit) (pos : Nat → Nat) (p : Lit) (rec : Rec)
    (todo : List (Lit × Bool)) (poison : Bool) : Prop where
  recOk : RecOk reason seen T rec
  mem : ∀ e ∈ todo, e.1 ∈ T
  bottom : ∃ l fl, todo = l ++ [(p, fl)] ∧ (∀ e ∈ l, seen e.1.var = false) ∧ (fl = false → l = [] ∧ poison = false)
  flag : ∀ a x b, todo = a ++ (x, true) :: b → rec.state x.var = .opn ∧ (∀ e ∈ a, pos e.1.var < pos x.var) ∧
    (poison = false → ∃ r, reason x = some r ∧ ∀ q ∈ r, rec.okLit seen q ∨ ∃ fl, (q, fl) ∈ a)

theorem minReason_spec (seen lev : Nat → Bool) (rec : Rec) (r : List Lit) (todo : List (Lit × Bool)) :
    ∃ l, (minReason seen lev (some rec) r todo).2 = l ++ todo ∧ (∀ e ∈ l, e.2 = false ∧ e.1 ∈ r ∧ seen e.1.var = false) ∧
      ((minReason seen lev (some rec) r todo).1 = true → ∀ q ∈ r, rec.okLit seen q ∨ (q, false) ∈ l) := by
  induction r generalizing todo with
  | nil => exact ⟨[], by simp [minReason], by simp, by simp⟩
  | cons q r ih =>
    unfold minReason
    by_cases hs : seen q.var = true
    · obtain ⟨l, h1, h2, h3⟩ := ih todo
      rw [if_pos hs]
      refine ⟨l, h1, fun e he => ⟨(h2 e he).1, by simp [(h2 e he).2.1], (h2 e he).2.2⟩, fun h x hx => ?_⟩
      rcases List.mem_cons.1 hx with e | hx
      · subst e; exact Or.inl (Or.inl hs)
      · exact h3 h x hx
    · rw [if_neg hs]
      have hs : seen q.var = false := by simpa using hs
      dsimp only
      by_cases hl : lev q.var = true
      · rw [if_pos hl]
        cases hst : rec.state q.var with
        | poison => exact ⟨[], by simp, by simp, by simp⟩
        | opn =>
          obtain ⟨l, h1, h2, h3⟩ := ih ((q, false) :: todo)
          refine ⟨l ++ [(q, false)], by simp [h1], fun e he => ?_, fun h x hx => ?_⟩
          · rcases List.mem_append.1 he with he | he
            · exact ⟨(h2 e he).1, by simp [(h2 e he).2.1], (h2 e he).2.2⟩
            · simp only [List.mem_singleton] at he; subst he; exact ⟨rfl, by simp, hs⟩
          · rcases List.mem_cons.1 hx with e | hx
            · subst e; exact Or.inr (by simp)
            · rcases h3 h x hx with h | h
              · exact Or.inl h
              · exact Or.inr (by simp [h])
        | removable =>
          obtain ⟨l, h1, h2, h3⟩ := ih todo
          refine ⟨l, h1, fun e he => ⟨(h2 e he).1, by simp [(h2 e he).2.1], (h2 e he).2.2⟩, fun h x hx => ?_⟩
          rcases List.mem_cons.1 hx with e | hx
          · subst e; exact Or.inl (Or.inr hst)
          · exact h3 h x hx
      · rw [if_neg hl]; exact ⟨[], by simp, by simp, by simp⟩

/-- number of open, unflagged variables -/
def openCount (T : List Lit) (rec : Rec) (todo : List (Lit × Bool)) : Nat :=
  T.countP fun x => decide (rec.state x.var = .opn) && decide ((x, true) ∉ todo)

/-- The result of `rmLoop`. -/
structure RmPost (reason : Lit → Ante) (seen : Nat → Bool) (T : List Lit) (p : Lit) (rec : Rec) (b : Bool) (rec' : Rec) : Prop where
  recOk : RecOk reason seen T rec'
  opn : rec'.opn = rec.opn
  mono : ∀ v, rec.state v = .removable → rec'.state v = .removable
  red : b = true → ∃ r, reason p = some r ∧ ∀ q ∈ r, rec'.okLit seen q

theorem countP_lt_of {T : List Lit} (P Q : Lit → Bool) (hle : ∀ x ∈ T, Q x = true → P x = true) {x : Lit} (hx : x ∈ T)
    (h1 : P x = true) (h2 : Q x = false) : T.countP Q < T.countP P := by
  induction T with
  | nil => simp at hx
  | cons y T ih =>
    simp only [List.countP_cons]
    have hmono : T.countP Q ≤ T.countP P := List.countP_mono_left fun z hz h => hle z (by simp [hz]) h
    rcases List.mem_cons.1 hx with e | hx
    · subst e; simp [h1, h2]; omega
    · have := ih (fun z hz => hle z (by simp [hz])) hx
      have hy := hle y (by simp)
      cases hq : Q y
      · cases hpy : P y <;> simp <;> omega
      · rw [hy hq]; simp; omega

theorem rmLoop_spec {reason : Lit → Ante} {seen : Nat → Bool} (lev : Nat → Bool) {T : List Lit} {pos : Nat → Nat}
    (hm : MinPre reason seen T pos) {p : Lit} (hps : seen p.var = true) :
    ∀ (n m : Nat) (rec : Rec) (todo : List (Lit × Bool)) (poison : Bool), openCount T rec todo = n → todo.length = m →
      StackOk reason seen T pos p rec todo poison →
      ∃ b rec' N, (∀ fuel ≥ N, rmLoop reason seen lev p fuel rec todo poison = some (b, rec')) ∧ RmPost reason seen T p rec b rec' := by
  have key : ∀ (nm : Nat ×ₗ Nat) (rec : Rec) (todo : List (Lit × Bool)) (poison : Bool), toLex (openCount T rec todo, todo.length) = nm →
      StackOk reason seen T pos p rec todo poison →
      ∃ b rec' N, (∀ fuel ≥ N, rmLoop reason seen lev p fuel rec todo poison = some (b, rec')) ∧ RmPost reason seen T p rec b rec' := by
    intro nm
    induction nm using WellFoundedLT.induction with
    | ind nm ih =>
    intro rec todo poison hnm hs
    -- continue with a smaller state
    have cont : ∀ (rec2 : Rec) (todo2 : List (Lit × Bool)) (poison2 : Bool),
        (openCount T rec2 todo2 < openCount T rec todo ∨ (openCount T rec2 todo2 = openCount T rec todo ∧ todo2.length < todo.length)) →
        StackOk reason seen T pos p rec2 todo2 poison2 → rec2.opn = rec.opn → (∀ v, rec.state v = .removable → rec2.state v = .removable) →
        (∀ fuel, rmLoop reason seen lev p (fuel + 1) rec todo poison = rmLoop reason seen lev p fuel rec2 todo2 poison2) →
        ∃ b rec' N, (∀ fuel ≥ N, rmLoop reason seen lev p fuel rec todo poison = some (b, rec')) ∧ RmPost reason seen T p rec b rec' := by
      intro rec2 todo2 poison2 hlt hs2 ho hmono hstep
      obtain ⟨b, rec', N, hN, hpost⟩ := ih (toLex (openCount T rec2 todo2, todo2.length)) (by
        rw [← hnm, Prod.Lex.toLex_lt_toLex]
        exact hlt) rec2 todo2 poison2 rfl hs2
      refine ⟨b, rec', N + 1, fun fuel hf => ?_, ⟨hpost.recOk, by rw [hpost.opn, ho], fun v hv => hpost.mono v (hmono v hv), hpost.red⟩⟩
      obtain ⟨k, rfl⟩ : ∃ k, fuel = k + 1 := ⟨fuel - 1, by omega⟩
      rw [hstep]; exact hN k (by omega)
    obtain ⟨l, fl, htodo, hl, hfl⟩ := hs.bottom
    cases todo with
    | nil => simp at htodo
    | cons e todo =>
    obtain ⟨x, f⟩ := e
    have hxT : x ∈ T := hs.mem (x, f) (by simp)
    cases f with
    | true =>
      have hx := hs.flag [] x todo rfl
      by_cases hxp : x = p
      · -- done
        refine ⟨!poison, rec, 1, fun fuel hf => ?_, ⟨hs.recOk, rfl, fun _ h => h, fun hb => ?_⟩⟩
        · obtain ⟨k, rfl⟩ : ∃ k, fuel = k + 1 := ⟨fuel - 1, by omega⟩
          simp [rmLoop, hxp]
        · obtain ⟨r, hr, hq⟩ := hx.2.2 (by simpa using hb)
          refine ⟨r, hxp ▸ hr, fun q hqr => ?_⟩
          rcases hq q hqr with h | ⟨_, h⟩
          · exact h
          · simp at h
      · have hstate : ∀ w, w ≠ x.var → (rec.set x.var poison).state w = rec.state w := by
          intro w hw; rw [Rec.state_set, if_neg hw]
        have hmono : ∀ v, rec.state v = .removable → (rec.set x.var poison).state v = .removable := by
          intro v hv
          rw [hstate v]
          · exact hv
          · intro e; rw [e, hx.1] at hv; exact absurd hv (by simp)
        have hok : ∀ q, rec.okLit seen q → (rec.set x.var poison).okLit seen q := by
          rintro q (h | h)
          · exact Or.inl h
          · exact Or.inr (hmono _ h)
        have hlne : ∃ l', l = (x, true) :: l' ∧ todo = l' ++ [(p, fl)] := by
          cases l with
          | nil => simp only [List.nil_append, List.cons.injEq, Prod.mk.injEq] at htodo; exact absurd htodo.1.1 hxp
          | cons e l' => simp only [List.cons_append, List.cons.injEq] at htodo; exact ⟨l', by rw [← htodo.1], htodo.2⟩
        obtain ⟨l', hl', htodo'⟩ := hlne
        have hxs : seen x.var = false := hl (x, true) (by simp [hl'])
        refine cont (rec.set x.var poison) todo poison (Or.inr ⟨?_, by simp⟩) ⟨⟨fun y hy hyr => ?_, fun y hy hys => ?_, fun v => ?_, ?_⟩, fun e he => hs.mem e (by simp [he]),
          ⟨l', fl, htodo', fun e he => hl e (by simp [hl', he]), fun h => ?_⟩, fun a y b hab => ?_⟩ rfl hmono ?_
        · -- count
          apply List.countP_congr
          intro y hy
          by_cases e : y.var = x.var
          · have : y = x := hm.inj y hy x hxT e
            subst this
            rw [Rec.state_set, if_pos rfl]
            cases poison <;> simp
          · have hne : y ≠ x := fun h => e (by rw [h])
            rw [hstate _ e]; simp [hne]
        · by_cases e : y.var = x.var
          · have : y = x := hm.inj y hy x hxT e
            subst this
            rw [Rec.state_set, if_pos rfl] at hyr
            have hpf : poison = false := by cases poison <;> simp_all
            obtain ⟨r, hr, hq⟩ := hx.2.2 hpf
            refine ⟨r, hr, fun q hqr => ?_⟩
            rcases hq q hqr with h | ⟨_, h⟩
            · exact hok q h
            · simp at h
          · rw [hstate _ e] at hyr
            obtain ⟨r, hr, hq⟩ := hs.recOk.closed y hy hyr
            exact ⟨r, hr, fun q hqr => hok q (hq q hqr)⟩
        · rw [hstate]
          · exact hs.recOk.opn y hy hys
          · intro e; rw [e, hxs] at hys; exact absurd hys (by simp)
        · show Function.update rec.epoch x.var _ v ≤ rec.opn + 2
          by_cases e : v = x.var
          · subst e; rw [Function.update_self]; split <;> omega
          · rw [Function.update_of_ne e]; exact hs.recOk.bound v
        · show Function.update rec.epoch x.var _ 0 = rec.opn + 2
          rw [Function.update_of_ne]
          · exact hs.recOk.top
          · intro e
            have h1 := hx.1
            rw [← e] at h1
            have h2 := hs.recOk.top
            unfold Rec.state at h1
            rw [h2] at h1
            simp at h1
        · have := hfl h; rw [hl'] at this; simp at this
        · have h1 := hs.flag ((x, true) :: a) y b (by simp [hab])
          have hpos := h1.2.1 (x, true) (by simp)
          have hne : y.var ≠ x.var := fun e => by simp only at hpos; rw [e] at hpos; omega
          refine ⟨by rw [hstate _ hne]; exact h1.1, fun e he => h1.2.1 e (by simp [he]), fun hpf => ?_⟩
          obtain ⟨r, hr, hq⟩ := h1.2.2 hpf
          refine ⟨r, hr, fun q hqr => ?_⟩
          rcases hq q hqr with h | ⟨f, h⟩
          · exact Or.inl (hok q h)
          · rcases List.mem_cons.1 h with h | h
            · simp only [Prod.mk.injEq] at h
              left; right
              rw [h.1, Rec.state_set, if_pos rfl, hpf]; simp
            · exact Or.inr ⟨f, h⟩
        · intro fuel
          simp only [rmLoop, if_true, if_neg hxp]
    | false =>
      -- invariant after dropping the top entry when its literal is settled (or the search is poisoned)
      have drop : ∀ poison2 : Bool, (poison2 = false → poison = false ∧ rec.state x.var = .removable) → (l ≠ [] ) →
          StackOk reason seen T pos p rec todo poison2 := by
        intro poison2 h2 hne
        obtain ⟨l', hl', htodo'⟩ : ∃ l', l = (x, false) :: l' ∧ todo = l' ++ [(p, fl)] := by
          cases l with
          | nil => exact absurd rfl hne
          | cons e l' => simp only [List.cons_append, List.cons.injEq] at htodo; exact ⟨l', by rw [← htodo.1], htodo.2⟩
        refine ⟨hs.recOk, fun e he => hs.mem e (by simp [he]), ⟨l', fl, htodo', fun e he => hl e (by simp [hl', he]), fun h => ?_⟩, fun a y b hab => ?_⟩
        · have := hfl h; rw [hl'] at this; simp at this
        · have h1 := hs.flag ((x, false) :: a) y b (by simp [hab])
          refine ⟨h1.1, fun e he => h1.2.1 e (by simp [he]), fun hpf => ?_⟩
          obtain ⟨hp1, hp2⟩ := h2 hpf
          obtain ⟨r, hr, hq⟩ := h1.2.2 hp1
          refine ⟨r, hr, fun q hqr => ?_⟩
          rcases hq q hqr with h | ⟨f, h⟩
          · exact Or.inl h
          · rcases List.mem_cons.1 h with h | h
            · simp only [Prod.mk.injEq] at h
              left; right; rw [h.1]; exact hp2
            · exact Or.inr ⟨f, h⟩
      have hcnt : openCount T rec todo = openCount T rec ((x, false) :: todo) := by
        apply List.countP_congr
        intro y _
        simp
      have hpseen : x = p → rec.state x.var = .opn := fun e => hs.recOk.opn x hxT (by rw [e]; exact hps)
      by_cases hpo : poison = true
      · subst hpo
        refine cont rec todo true (Or.inr ⟨hcnt, by simp⟩) (drop true (by simp) ?_) rfl (fun _ h => h) (fun fuel => by simp [rmLoop])
        intro e
        rw [e] at htodo
        simp only [List.nil_append, List.cons.injEq, Prod.mk.injEq] at htodo
        have := hfl htodo.1.2.symm
        simp at this
      · have hpo : poison = false := by simpa using hpo
        subst hpo
        cases hst : rec.state x.var with
        | poison =>
          refine cont rec todo true (Or.inr ⟨hcnt, by simp⟩) (drop true (by simp) ?_) rfl (fun _ h => h) (fun fuel => by simp [rmLoop, hst])
          intro e
          rw [e] at htodo
          simp only [List.nil_append, List.cons.injEq, Prod.mk.injEq] at htodo
          rw [hpseen htodo.1.1] at hst; simp at hst
        | removable =>
          refine cont rec todo false (Or.inr ⟨hcnt, by simp⟩) (drop false (fun _ => ⟨rfl, hst⟩) ?_) rfl (fun _ h => h) (fun fuel => by simp [rmLoop, hst])
          intro e
          rw [e] at htodo
          simp only [List.nil_append, List.cons.injEq, Prod.mk.injEq] at htodo
          rw [hpseen htodo.1.1] at hst; simp at hst
        | opn =>
          -- expand
          have hnf : (x, true) ∉ todo := by
            intro hmem
            obtain ⟨a, b, hab⟩ := List.append_of_mem hmem
            have := (hs.flag ((x, false) :: a) x b (by simp [hab])).2.1 (x, false) (by simp)
            simp at this
          have expand : ∀ (l2 : List (Lit × Bool)) (poison2 : Bool), (∀ e ∈ l2, e.2 = false ∧ seen e.1.var = false ∧ e.1 ∈ T ∧ pos e.1.var < pos x.var) →
              (poison2 = false → ∃ r, reason x = some r ∧ ∀ q ∈ r, rec.okLit seen q ∨ (q, false) ∈ l2) →
              StackOk reason seen T pos p rec (l2 ++ (x, true) :: todo) poison2 ∧
                openCount T rec (l2 ++ (x, true) :: todo) < openCount T rec ((x, false) :: todo) := by
            intro l2 poison2 hl2 hr2
            refine ⟨⟨hs.recOk, fun e he => ?_, ?_, fun a y b hab => ?_⟩, ?_⟩
            · rcases List.mem_append.1 he with he | he
              · exact (hl2 e he).2.2.1
              · rcases List.mem_cons.1 he with he | he
                · rw [he]; exact hxT
                · exact hs.mem e (by simp [he])
            · cases l with
              | nil =>
                simp only [List.nil_append, List.cons.injEq, Prod.mk.injEq] at htodo
                obtain ⟨⟨e1, e2⟩, e3⟩ := htodo
                refine ⟨l2, true, by rw [e1, e3], fun e he => (hl2 e he).2.1, by simp⟩
              | cons e l' =>
                simp only [List.cons_append, List.cons.injEq] at htodo
                refine ⟨l2 ++ (x, true) :: l', fl, by rw [htodo.2]; simp, fun e' he' => ?_, fun h => ?_⟩
                · rcases List.mem_append.1 he' with h | h
                  · exact (hl2 e' h).2.1
                  · rcases List.mem_cons.1 h with h | h
                    · rw [h]
                      have := hl e (by simp)
                      rw [← htodo.1] at this; exact this
                    · exact hl e' (by simp [h])
                · have := hfl h; simp at this
            · -- where is the flagged entry?
              rcases List.append_eq_append_iff.1 hab with ⟨c, hc1, hc2⟩ | ⟨c, hc1, hc2⟩
              · -- a = l2 ++ c
                cases c with
                | nil =>
                  simp only [List.nil_append, List.cons.injEq, Prod.mk.injEq, and_true] at hc2
                  obtain ⟨e1, e2⟩ := hc2
                  subst e1
                  simp only [List.append_nil] at hc1
                  subst hc1
                  refine ⟨hst, fun e he => (hl2 e he).2.2.2, fun hpf => ?_⟩
                  obtain ⟨r, hr, hq⟩ := hr2 hpf
                  refine ⟨r, hr, fun q hqr => ?_⟩
                  rcases hq q hqr with h | h
                  · exact Or.inl h
                  · exact Or.inr ⟨false, h⟩
                | cons d c =>
                  simp only [List.cons_append, List.cons.injEq] at hc2
                  obtain ⟨e1, e2⟩ := hc2
                  have h1 := hs.flag ((x, false) :: c) y b (by simp [e2])
                  have hxy := h1.2.1 (x, false) (by simp)
                  simp only at hxy
                  refine ⟨h1.1, fun e he => ?_, fun hpf => ?_⟩
                  · rw [hc1] at he
                    rcases List.mem_append.1 he with he | he
                    · have := (hl2 e he).2.2.2; omega
                    · rcases List.mem_cons.1 he with he | he
                      · rw [he, ← e1]; exact hxy
                      · exact h1.2.1 e (by simp [he])
                  · obtain ⟨r, hr, hq⟩ := h1.2.2 rfl
                    refine ⟨r, hr, fun q hqr => ?_⟩
                    rcases hq q hqr with h | ⟨f, h⟩
                    · exact Or.inl h
                    · right
                      rcases List.mem_cons.1 h with h | h
                      · simp only [Prod.mk.injEq] at h
                        exact ⟨true, by rw [hc1, ← e1, h.1]; simp⟩
                      · exact ⟨f, by rw [hc1]; simp [h]⟩
              · -- l2 = a ++ c: entries of l2 are not flagged, so c = []
                cases c with
                | nil =>
                  simp only [List.nil_append, List.cons.injEq, Prod.mk.injEq, and_true] at hc2
                  obtain ⟨e1, e2⟩ := hc2
                  subst e1
                  simp only [List.append_nil] at hc1
                  subst hc1
                  refine ⟨hst, fun e he => (hl2 e he).2.2.2, fun hpf => ?_⟩
                  obtain ⟨r, hr, hq⟩ := hr2 hpf
                  refine ⟨r, hr, fun q hqr => ?_⟩
                  rcases hq q hqr with h | h
                  · exact Or.inl h
                  · exact Or.inr ⟨false, h⟩
                | cons d c =>
                  simp only [List.cons_append, List.cons.injEq] at hc2
                  have := (hl2 d (by rw [hc1]; simp)).1
                  rw [← hc2.1] at this; simp at this
            · refine countP_lt_of _ _ (fun y hy h => ?_) hxT ?_ ?_
              · simp only [Bool.and_eq_true, decide_eq_true_eq, List.mem_append, List.mem_cons, not_or, Prod.mk.injEq] at h ⊢
                refine ⟨h.1, by simp, h.2.2.2⟩
              · simp [hst, hnf]
              · simp
          cases hr : reason x with
          | none =>
            obtain ⟨h1, h2⟩ := expand [] true (by simp) (by simp)
            exact cont rec ((x, true) :: todo) true (Or.inl h2) h1 rfl (fun _ h => h) (fun fuel => by simp [rmLoop, hst, hr])
          | some r =>
            obtain ⟨l2, g1, g2, g3⟩ := minReason_spec seen lev rec r ((x, true) :: todo)
            obtain ⟨h1, h2⟩ := expand l2 (!(minReason seen lev (some rec) r ((x, true) :: todo)).1) (fun e he => by
              have := g2 e he
              refine ⟨this.1, this.2.2, ?_⟩
              rcases hm.down x hxT r hr e.1 this.2.1 with h | h
              · have h0 := this.2.2
                rw [h] at h0; exact absurd (hm.tt.symm.trans h0) (by simp)
              · exact h) (fun hb => ⟨r, hr, g3 (by simpa using hb)⟩)
            refine cont rec (l2 ++ (x, true) :: todo) _ (Or.inl h2) h1 rfl (fun _ h => h) (fun fuel => ?_)
            simp only [rmLoop, Bool.false_eq_true, if_false, hst, hr, g1]
  intro n m rec todo poison _ _ hs
  exact key _ rec todo poison rfl hs

theorem minReason_local (seen lev : Nat → Bool) (r : List Lit) : (minReason seen lev none r []).1 = true → ∀ q ∈ r, seen q.var = true := by
  induction r with
  | nil => simp
  | cons q r ih =>
    unfold minReason
    by_cases hs : seen q.var = true
    · rw [if_pos hs]
      intro h x hx
      rcases List.mem_cons.1 hx with e | hx
      · subst e; exact hs
      · exact ih h x hx
    · rw [if_neg hs]; simp

/-- `x` is known to be redundant (recursive or local mode). -/
def okLit (seen : Nat → Bool) (rc : Option Rec) (q : Lit) : Prop := seen q.var = true ∨ ∃ rec, rc = some rec ∧ rec.state q.var = .removable

def RcOk (reason : Lit → Ante) (seen : Nat → Bool) (T : List Lit) : Option Rec → Prop
  | none => True
  | some rec => RecOk reason seen T rec

def rcMono : Option Rec → Option Rec → Prop
  | none, none => True
  | some a, some b => b.opn = a.opn ∧ ∀ v, a.state v = .removable → b.state v = .removable
  | _, _ => False

theorem rcMono.refl (rc : Option Rec) : rcMono rc rc := by cases rc <;> simp [rcMono]
theorem rcMono.trans {a b c : Option Rec} (h1 : rcMono a b) (h2 : rcMono b c) : rcMono a c := by
  cases a <;> cases b <;> cases c <;> simp_all [rcMono]
theorem rcMono.ok {a b : Option Rec} (h : rcMono a b) {seen : Nat → Bool} {q : Lit} (hq : okLit seen a q) : okLit seen b q := by
  rcases hq with hq | ⟨rec, rfl, hq⟩
  · exact Or.inl hq
  · cases b with
    | none => simp [rcMono] at h
    | some b => exact Or.inr ⟨b, rfl, h.2 _ hq⟩

theorem ccRemovable_spec {reason : Lit → Ante} {seen : Nat → Bool} (lev : Nat → Bool) {T : List Lit} {pos : Nat → Nat}
    (hm : MinPre reason seen T pos) {p : Lit} (hpT : p ∈ T) (hps : seen p.var = true) (rc : Option Rec) (hrc : RcOk reason seen T rc) :
    ∃ b rc' N, (∀ fuel ≥ N, ccRemovable reason seen lev fuel rc p = some (b, rc')) ∧ RcOk reason seen T rc' ∧ rcMono rc rc' ∧
      (b = true → ∃ r, reason p = some r ∧ ∀ q ∈ r, okLit seen rc' q) := by
  unfold ccRemovable
  cases hr : reason p with
  | none => exact ⟨false, rc, 0, by simp, hrc, rcMono.refl _, by simp⟩
  | some r =>
    cases rc with
    | none =>
      exact ⟨_, none, 0, fun _ _ => rfl, trivial, trivial, fun h => ⟨r, rfl, fun q hq => Or.inl (minReason_local seen lev r h q hq)⟩⟩
    | some rec =>
      obtain ⟨b, rec', N, hN, hpost⟩ := rmLoop_spec lev hm hps _ _ rec [(p, false)] false rfl rfl
        ⟨hrc, by simp [hpT], ⟨[], false, rfl, by simp, by simp⟩, by
          intro a x b hab
          cases a with
          | nil => simp at hab
          | cons e a => simp at hab⟩
      refine ⟨b, some rec', N, fun fuel hf => by simp [hN fuel hf], hpost.recOk, ⟨hpost.opn, hpost.mono⟩, fun hb => ?_⟩
      obtain ⟨r', hr', hq⟩ := hpost.red hb
      rw [hr] at hr'
      refine ⟨r', hr', fun q hqr => ?_⟩
      rcases hq q hqr with h | h
      · exact Or.inl h
      · exact Or.inr ⟨rec', rfl, h⟩

/-- `l` is split into `keep` and `rem`, both in the order of `l`. -/
inductive Split : List Lit → List Lit → List Lit → Prop
  | nil : Split [] [] []
  | keep {l k r} (c) : Split l k r → Split (c :: l) (c :: k) r
  | rem {l k r} (c) : Split l k r → Split (c :: l) k (c :: r)

theorem Split.mem {l k r : List Lit} (h : Split l k r) (c : Lit) : c ∈ l ↔ c ∈ k ∨ c ∈ r := by
  induction h with
  | nil => simp
  | keep d _ ih => simp [ih, or_assoc]
  | rem d _ ih => simp only [List.mem_cons, ih]; tauto

theorem Split.sub {l k r : List Lit} (h : Split l k r) : k.Sublist l ∧ r.Sublist l := by
  induction h with
  | nil => simp
  | keep d _ ih => exact ⟨ih.1.cons_cons d, ih.2.cons d⟩
  | rem d _ ih => exact ⟨ih.1.cons d, ih.2.cons_cons d⟩

theorem Split.disj {l k r : List Lit} (h : Split l k r) (hn : (l.map Lit.var).Nodup) : ∀ c ∈ k, ∀ d ∈ r, c.var ≠ d.var := by
  induction h with
  | nil => simp
  | @keep l k r d hs ih =>
    simp only [List.map_cons, List.nodup_cons] at hn
    intro c hc e he
    rcases List.mem_cons.1 hc with h | hc
    · subst h; intro h; exact hn.1 (h ▸ List.mem_map_of_mem ((hs.mem e).2 (Or.inr he)))
    · exact ih hn.2 c hc e he
  | @rem l k r d hs ih =>
    simp only [List.map_cons, List.nodup_cons] at hn
    intro c hc e he
    rcases List.mem_cons.1 he with h | he
    · subst h; intro h; exact hn.1 (h ▸ List.mem_map_of_mem ((hs.mem c).2 (Or.inl hc)))
    · exact ih hn.2 c hc e he

theorem minLoop_spec {reason : Lit → Ante} {seen : Nat → Bool} (lev : Nat → Bool) {T : List Lit} {pos : Nat → Nat}
    (hm : MinPre reason seen T pos) (cc : List Lit) (hcc : ∀ c ∈ cc, c.neg ∈ T ∧ seen c.var = true) (rc : Option Rec) (hrc : RcOk reason seen T rc) :
    ∃ keep rem rc' N, (∀ fuel ≥ N, minLoop reason seen lev fuel rc cc = some (keep, rem, rc')) ∧ Split cc keep rem ∧
      RcOk reason seen T rc' ∧ rcMono rc rc' ∧ ∀ c ∈ rem, ∃ r, reason c.neg = some r ∧ ∀ q ∈ r, okLit seen rc' q := by
  induction cc generalizing rc with
  | nil => exact ⟨[], [], rc, 0, fun _ _ => rfl, .nil, hrc, rcMono.refl _, by simp⟩
  | cons c cc ih =>
    obtain ⟨b, rc1, N1, h1, h2, h3, h4⟩ := ccRemovable_spec lev hm (hcc c (by simp)).1 (by simpa using (hcc c (by simp)).2) rc hrc
    obtain ⟨keep, rem, rc', N2, g1, g2, g3, g4, g5⟩ := ih (fun d hd => hcc d (by simp [hd])) rc1 h2
    cases b with
    | false =>
      refine ⟨c :: keep, rem, rc', max N1 N2, fun fuel hf => ?_, .keep c g2, g3, h3.trans g4, g5⟩
      simp [minLoop, h1 fuel (by omega), g1 fuel (by omega)]
    | true =>
      refine ⟨keep, c :: rem, rc', max N1 N2, fun fuel hf => ?_, .rem c g2, g3, h3.trans g4, fun d hd => ?_⟩
      · simp [minLoop, h1 fuel (by omega), g1 fuel (by omega)]
      · rcases List.mem_cons.1 hd with e | hd
        · subst e
          obtain ⟨r, hr, hq⟩ := h4 rfl
          exact ⟨r, hr, fun q hqr => g4.ok (hq q hqr)⟩
        · exact g5 d hd

/-- Every literal found redundant is implied by `F` and the negations of the kept literals. -/
theorem redundant {F : Asg → Prop} {reason : Lit → Ante} {seen : Nat → Bool} {T : List Lit} {pos : Nat → Nat}
    (hm : MinPre reason seen T pos) {keep rem : List Lit} {rc : Option Rec} (hrc : RcOk reason seen T rc)
    (hrem : ∀ c ∈ rem, ∃ r, reason c.neg = some r ∧ ∀ q ∈ r, okLit seen rc q)
    (hsem : ∀ x ∈ T, ∀ r, reason x = some r → ∀ M, F M → M.all r → M.sat x)
    (htt : ∀ M, F M → M.sat litTrue)
    (hseen : ∀ x ∈ T, seen x.var = true → (∀ M, F M → M.sat x) ∨ x.neg ∈ keep ∨ x.neg ∈ rem)
    {M : Asg} (hM : F M) (hk : ∀ c ∈ keep, M.sat c.neg) : ∀ n, ∀ x ∈ T, pos x.var = n → okLit seen rc x → M.sat x := by
  intro n
  induction n using Nat.strong_induction_on with
  | _ n ih =>
  intro x hx hpos hok
  -- a literal all of whose reason is redundant is implied
  have step : ∀ r, reason x = some r → (∀ q ∈ r, okLit seen rc q) → M.sat x := by
    intro r hr hq
    refine hsem x hx r hr M hM fun q hqr => ?_
    rcases hm.down x hx r hr q hqr with hs | ⟨hqT, hlt⟩
    · rw [hs]; exact htt M hM
    · exact ih _ (hpos ▸ hlt) q hqT rfl (hq q hqr)
  rcases hok with hs | ⟨rec, rfl, hst⟩
  · rcases hseen x hx hs with h | h | h
    · exact h M hM
    · have := hk _ h; simpa using this
    · obtain ⟨r, hr, hq⟩ := hrem _ h
      simp only [Lit.neg_neg] at hr
      exact step r hr hq
  · obtain ⟨r, hr, hq⟩ := hrc.closed x hx hst
    refine step r hr fun q hqr => ?_
    rcases hq q hqr with h | h
    · exact Or.inl h
    · exact Or.inr ⟨rec, rfl, h⟩

end Clasp.Core
