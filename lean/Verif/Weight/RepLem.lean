/- Auxiliary facts about the normal form of weight constraints (C21). -/
import Verif.Weight.Rep
import Mathlib.Tactic.Linarith
import Mathlib.Tactic.Ring
import Mathlib.Data.List.Nodup
import Mathlib.Algebra.BigOperators.Group.List.Basic
namespace Clasp.Weight
open Core

/-! ### Specification -/

/-- Specification: the sum of the weights of the literals that are true in `M`. -/
def val (M : Asg) (ls : List WL) : Int := (ls.map fun l => if M.sat l.lit then l.w else 0).sum

/-- Specification: `M` agrees with the assignment at level 0. -/
def ext (M : Asg) (top : Top) : Prop := ∀ v b, top v = some b → M v = b

/-! ### Failure monad -/

theorem bind_ok {α β : Type} {x : R α} {f : α → R β} {y : β} : (x >>= f) = .ok y ↔ ∃ a, x = .ok a ∧ f a = .ok y := by
  cases x with
  | error e => simp [bind, Except.bind]
  | ok a => simp [bind, Except.bind]

theorem chk_ok {x y : Int} : chk x = .ok y ↔ y = x ∧ -2 ^ 31 ≤ x ∧ x ≤ MAXW := by
  unfold chk; split
  · rename_i h; constructor
    · intro e; cases e; exact ⟨rfl, h⟩
    · rintro ⟨rfl, _⟩; rfl
  · rename_i h; constructor
    · intro e; cases e
    · rintro ⟨rfl, h'⟩; exact absurd h' h

theorem bind_ne_bad {α β : Type} {x : R α} {f : α → R β} (h : x ≠ .error .bad) (h' : ∀ a, x = .ok a → f a ≠ .error .bad) :
    (x >>= f) ≠ .error .bad := by
  cases x with
  | error e => intro he; apply h; simpa [bind, Except.bind] using he
  | ok a => exact h' a rfl

theorem chk_ne_bad {x : Int} : chk x ≠ .error .bad := by unfold chk; split <;> simp

theorem ok_ne_bad {α : Type} {a : α} : (.ok a : R α) ≠ .error .bad := by simp

@[simp] theorem val_nil (M : Asg) : val M [] = 0 := rfl
@[simp] theorem val_cons (M : Asg) (l : WL) (ls : List WL) :
    val M (l :: ls) = (if M.sat l.lit then l.w else 0) + val M ls := by simp [val]
@[simp] theorem val_append (M : Asg) (a b : List WL) : val M (a ++ b) = val M a + val M b := by simp [val]

theorem val_perm {M : Asg} {a b : List WL} (h : a.Perm b) : val M a = val M b := (h.map _).sum_eq

theorem val_nonneg {M : Asg} {ls : List WL} (h : ∀ l ∈ ls, 0 ≤ l.w) : 0 ≤ val M ls := by
  induction ls with
  | nil => simp
  | cons l ls ih =>
    have := ih (fun x hx => h x (.tail _ hx))
    have := h l (.head _)
    rw [val_cons]; split <;> omega

theorem addAt_spec {x : Lit} {w : Int} : ∀ {ls ls' : List WL}, addAt x w ls = .ok ls' →
    ls'.map WL.lit = ls.map WL.lit ∧ (∀ M, val M ls' = val M ls + if M.sat x then w else 0) ∧
    (0 < w → (∀ e ∈ ls, 0 < e.w) → ∀ e ∈ ls', 0 < e.w) := by
  intro ls
  induction ls with
  | nil => intro ls' h; simp [addAt] at h
  | cons e r ih =>
    intro ls' h
    unfold addAt at h
    split at h
    · rename_i he
      obtain ⟨v, hv, h⟩ := bind_ok.1 h
      obtain ⟨rfl, _⟩ := chk_ok.1 hv
      simp at h; subst h
      refine ⟨by simp, ?_, ?_⟩
      · intro M; simp [he]; split <;> ring
      · intro hw hp e' he'
        simp at he'
        rcases he' with rfl | he'
        · have := hp e (.head _); simp; omega
        · exact hp _ (.tail _ he')
    · obtain ⟨r', hr', h⟩ := bind_ok.1 h
      simp at h; subst h
      obtain ⟨h1, h2, h3⟩ := ih hr'
      refine ⟨by simp [h1], ?_, ?_⟩
      · intro M; simp [h2]; ring
      · intro hw hp e' he'
        simp at he'
        rcases he' with rfl | he'
        · exact hp _ (.head _)
        · exact h3 hw (fun y hy => hp y (.tail _ hy)) _ he'

theorem addAt_ne_bad {x : Lit} {w : Int} : ∀ {ls : List WL}, x ∈ ls.map WL.lit → addAt x w ls ≠ .error .bad := by
  intro ls
  induction ls with
  | nil => simp
  | cons e r ih =>
    intro h
    unfold addAt
    split
    · unfold chk; split <;> simp [bind, Except.bind]
    · rename_i he
      have hx : x ∈ r.map WL.lit := by
        rw [List.map_cons, List.mem_cons] at h; rcases h with h | h
        · exact absurd h.symm he
        · exact h
      have := ih hx
      cases hr : addAt x w r with
      | error f => simp [bind, Except.bind]; rw [hr] at this; simpa using this
      | ok r' => simp [bind, Except.bind]

theorem subAt_mem {x : Lit} {w : Int} : ∀ {r r' : List WL} {d : Int}, subAt x w r = .ok (r', d) → x.neg ∈ r.map WL.lit := by
  intro r
  induction r with
  | nil => intro r' d h; simp [subAt] at h
  | cons a r ih =>
    intro r' d h
    unfold subAt at h
    split at h
    · rename_i ha; simp [ha]
    · obtain ⟨⟨r2, d2⟩, hr2, _⟩ := bind_ok.1 h
      rw [List.map_cons]; exact .tail _ (ih hr2)

theorem subAt_spec {x : Lit} {w : Int} : ∀ {ls ls' : List WL} {d : Int}, subAt x w ls = .ok (ls', d) →
    (ls.map (fun e => e.lit.var)).Nodup →
    (∀ M, val M ls + (if M.sat x then w else 0) = val M ls' + w + if d < 0 then d else 0) ∧
    (ls'.map (fun e => e.lit.var)).Nodup ∧
    (∀ p, p ∈ ls'.map WL.lit ↔ (p ∈ ls.map WL.lit ∧ (p.var ≠ x.var ∨ 0 < d)) ∨ (p = x ∧ d < 0)) ∧
    ((∀ e ∈ ls, 0 < e.w) → ∀ e ∈ ls', 0 < e.w) := by
  intro ls
  induction ls with
  | nil => intro ls' d h; simp [subAt] at h
  | cons e r ih =>
    intro ls' d h hnd
    unfold subAt at h
    rw [List.map_cons, List.nodup_cons] at hnd
    split at h
    · rename_i he
      obtain ⟨v, hv, h⟩ := bind_ok.1 h
      obtain ⟨rfl, _⟩ := chk_ok.1 hv
      have hev : e.lit.var = x.var := by rw [he]; rfl
      have hother : ∀ p ∈ r.map WL.lit, p.var ≠ x.var := by
        intro p hp e1
        obtain ⟨y, hy, rfl⟩ := List.mem_map.1 hp
        apply hnd.1
        rw [hev, ← e1]; exact List.mem_map.2 ⟨y, hy, rfl⟩
      split at h
      · rename_i hd
        obtain ⟨v, hv, h⟩ := bind_ok.1 h
        obtain ⟨rfl, _⟩ := chk_ok.1 hv
        simp only [Except.ok.injEq, Prod.mk.injEq] at h
        obtain ⟨rfl, rfl⟩ := h
        refine ⟨?_, ?_, ?_, ?_⟩
        · intro M; simp only [val_cons, he, Asg.sat_neg, hd, if_true]; by_cases hx : M.sat x <;> simp [hx] <;> ring
        · rw [List.map_cons, List.nodup_cons]; exact ⟨by rw [← hev]; exact hnd.1, hnd.2⟩
        · intro p
          rw [List.map_cons, List.map_cons, List.mem_cons, List.mem_cons]
          constructor
          · rintro (rfl | hp)
            · exact .inr ⟨rfl, hd⟩
            · exact .inl ⟨.inr hp, .inl (hother p hp)⟩
          · rintro (⟨rfl | hp, h2⟩ | ⟨rfl, _⟩)
            · rcases h2 with h2 | h2
              · exact absurd hev h2
              · omega
            · exact .inr hp
            · exact .inl rfl
        · intro hp e' he'
          simp at he'
          rcases he' with rfl | he'
          · simp; omega
          · exact hp _ (.tail _ he')
      · split at h
        · rename_i hd0 hd
          simp only [Except.ok.injEq, Prod.mk.injEq] at h
          obtain ⟨rfl, rfl⟩ := h
          refine ⟨?_, hnd.2, ?_, fun hp e' he' => hp _ (.tail _ he')⟩
          · intro M; simp only [val_cons, he, Asg.sat_neg]
            have : e.w = w := by omega
            by_cases hx : M.sat x <;> simp [hx, this]; ring
          · intro p
            rw [List.map_cons, List.mem_cons]
            constructor
            · intro hp; exact .inl ⟨.inr hp, .inl (hother p hp)⟩
            · rintro (⟨rfl | hp, h2⟩ | ⟨rfl, h2⟩)
              · rcases h2 with h2 | h2
                · exact absurd hev h2
                · omega
              · exact hp
              · omega
        · rename_i hd0 hd
          simp only [Except.ok.injEq, Prod.mk.injEq] at h
          obtain ⟨rfl, rfl⟩ := h
          refine ⟨?_, by rw [List.map_cons, List.nodup_cons]; exact hnd, ?_, ?_⟩
          · intro M; simp only [val_cons, he, Asg.sat_neg, hd0]; by_cases hx : M.sat x <;> simp [hx] <;> ring
          · intro p; simp only [List.map_cons]
            constructor
            · intro hp; exact .inl ⟨hp, .inr (by omega)⟩
            · rintro (⟨hp, _⟩ | ⟨_, h2⟩)
              · exact hp
              · omega
          · intro hp e' he'
            simp at he'
            rcases he' with rfl | he'
            · simp; omega
            · exact hp _ (.tail _ he')
    · rename_i he
      obtain ⟨⟨r', d'⟩, hr', h⟩ := bind_ok.1 h
      simp only [Except.ok.injEq, Prod.mk.injEq] at h
      obtain ⟨rfl, rfl⟩ := h
      obtain ⟨h1, h2, h3, h4⟩ := ih hr' hnd.2
      refine ⟨?_, ?_, ?_, ?_⟩
      · intro M; have := h1 M; simp only [val_cons]; omega
      · rw [List.map_cons, List.nodup_cons]
        refine ⟨?_, h2⟩
        intro hm
        obtain ⟨y, hy, hyv⟩ := List.mem_map.1 hm
        rcases (h3 y.lit).1 (List.mem_map.2 ⟨y, hy, rfl⟩) with ⟨hp, _⟩ | ⟨hx, _⟩
        · obtain ⟨z, hz, hzl⟩ := List.mem_map.1 hp
          apply hnd.1; refine List.mem_map.2 ⟨z, hz, ?_⟩
          rw [hzl]; exact hyv
        · -- x.neg occurs in r
          exfalso
          have hin : x.neg ∈ r.map WL.lit := subAt_mem hr'
          obtain ⟨z, hz, hzl⟩ := List.mem_map.1 hin
          apply hnd.1; refine List.mem_map.2 ⟨z, hz, ?_⟩
          rw [hzl, ← hyv, hx]; rfl
      · intro p
        simp only [List.map_cons, List.mem_cons, h3 p]
        constructor
        · rintro (rfl | ⟨hp, h⟩ | h)
          · left; refine ⟨.inl rfl, ?_⟩
            left
            intro hv
            have hin : x.neg ∈ r.map WL.lit := subAt_mem hr'
            obtain ⟨z, hz, hzl⟩ := List.mem_map.1 hin
            apply hnd.1; refine List.mem_map.2 ⟨z, hz, ?_⟩
            rw [hzl, hv]; rfl
          · exact .inl ⟨.inr hp, h⟩
          · exact .inr h
        · rintro (⟨rfl | hp, h⟩ | h)
          · exact .inl rfl
          · exact .inr (.inl ⟨hp, h⟩)
          · exact .inr (.inr h)
      · intro hp e' he'
        simp at he'
        rcases he' with rfl | he'
        · exact hp _ (.head _)
        · exact h4 (fun y hy => hp y (.tail _ hy)) _ he'

theorem subAt_ne_bad {x : Lit} {w : Int} : ∀ {ls : List WL}, x.neg ∈ ls.map WL.lit → subAt x w ls ≠ .error .bad := by
  intro ls
  induction ls with
  | nil => simp
  | cons e r ih =>
    intro h
    unfold subAt
    split
    · refine bind_ne_bad chk_ne_bad fun d _ => ?_
      split
      · exact bind_ne_bad chk_ne_bad fun _ _ => ok_ne_bad
      · split <;> exact ok_ne_bad
    · rename_i he
      have hx : x.neg ∈ r.map WL.lit := by
        rw [List.map_cons, List.mem_cons] at h; rcases h with h | h
        · exact absurd h.symm he
        · exact h
      have := ih hx
      cases hr : subAt x w r with
      | error f => simp [bind, Except.bind]; rw [hr] at this; simpa using this
      | ok r' => simp [bind, Except.bind]

/-- Invariant of step 1 (proof device). -/
structure AInv (top : Top) (a : Acc) : Prop where
  seen : ∀ p, a.seen p = true ↔ p ∈ a.out.map WL.lit
  nodup : (a.out.map (fun e => e.lit.var)).Nodup
  pos : ∀ e ∈ a.out, 0 < e.w
  free : ∀ e ∈ a.out, top e.lit.var = none

theorem mem_lit {p : Lit} {ls : List WL} : p ∈ ls.map WL.lit ↔ ∃ e ∈ ls, e.lit = p := List.mem_map

theorem AInv.addPos {top : Top} {a a' : Acc} (h : AInv top a) {x : Lit} {w : Int} (hw : 0 < w) (hx : top x.var = none)
    (ha : addPos a x w = .ok a') : AInv top a' ∧
      ∀ M, val M a.out + (if M.sat x then w else 0) - a.bound = val M a'.out - a'.bound := by
  unfold Weight.addPos at ha
  split at ha
  · rename_i hs
    simp at ha; subst ha
    simp only [Bool.not_eq_true', Bool.or_eq_false_iff] at hs
    have hn1 : x ∉ a.out.map WL.lit := by rw [← h.seen, hs.1]; simp
    have hn2 : x.neg ∉ a.out.map WL.lit := by rw [← h.seen, hs.2]; simp
    refine ⟨⟨?_, ?_, ?_, ?_⟩, ?_⟩
    · intro p
      rw [List.map_append, List.mem_append, ← h.seen]
      simp only [mark, List.map_cons, List.map_nil, List.mem_singleton]
      split <;> simp [*]
    · rw [List.map_append, List.nodup_append]
      refine ⟨h.nodup, by simp, ?_⟩
      intro v hv v' hv' e
      simp at hv'; subst hv'; subst e
      obtain ⟨e, he, hev⟩ := List.mem_map.1 hv
      rcases Lit.eq_or_neg hev with h1 | h1
      · exact hn1 (mem_lit.2 ⟨e, he, h1⟩)
      · exact hn2 (mem_lit.2 ⟨e, he, h1⟩)
    · intro e he; simp at he; rcases he with he | rfl
      · exact h.pos e he
      · exact hw
    · intro e he; simp at he; rcases he with he | rfl
      · exact h.free e he
      · exact hx
    · intro M; simp
  · split at ha
    · obtain ⟨out, ho, ha⟩ := bind_ok.1 ha
      simp at ha; subst ha
      obtain ⟨h1, h2, h3⟩ := addAt_spec ho
      have hv : out.map (fun e => e.lit.var) = a.out.map (fun e => e.lit.var) := by
        have := congrArg (List.map Lit.var) h1
        simpa [List.map_map, Function.comp_def] using this
      refine ⟨⟨?_, by rw [hv]; exact h.nodup, h3 hw h.pos, ?_⟩, ?_⟩
      · intro p; rw [h1]; exact h.seen p
      · intro e he
        have : e.lit ∈ a.out.map WL.lit := by rw [← h1]; exact mem_lit.2 ⟨e, he, rfl⟩
        obtain ⟨e', he', hl⟩ := mem_lit.1 this
        rw [← hl]; exact h.free _ he'
      · intro M; simp [h2]
    · obtain ⟨b, hb, ha⟩ := bind_ok.1 ha
      obtain ⟨rfl, _⟩ := chk_ok.1 hb
      obtain ⟨⟨out, d⟩, ho, ha⟩ := bind_ok.1 ha
      obtain ⟨h1, h2, h3, h4⟩ := subAt_spec ho h.nodup
      have hfree : ∀ e ∈ out, top e.lit.var = none := by
        intro e he
        rcases (h3 e.lit).1 (mem_lit.2 ⟨e, he, rfl⟩) with ⟨hp, _⟩ | ⟨hp, _⟩
        · obtain ⟨e', he', hl⟩ := mem_lit.1 hp; rw [← hl]; exact h.free _ he'
        · rw [hp]; exact hx
      simp only at ha
      split at ha
      · rename_i hd
        obtain ⟨b', hb', ha⟩ := bind_ok.1 ha
        obtain ⟨rfl, _⟩ := chk_ok.1 hb'
        simp at ha; subst ha
        refine ⟨⟨?_, h2, h4 h.pos, hfree⟩, ?_⟩
        · intro p; rw [h3 p, ← h.seen p]
          simp only [mark, clear]
          by_cases e1 : p = x
          · subst e1; simp [hd]
          · by_cases e2 : p.var = x.var
            · simp [e1, e2]; intro _; omega
            · simp [e1, e2]
        · intro M; have := h1 M; rw [if_pos hd] at this; simp only; omega
      · split at ha
        · rename_i hd0 hd
          simp at ha; subst ha
          refine ⟨⟨?_, h2, h4 h.pos, hfree⟩, ?_⟩
          · intro p; rw [h3 p, ← h.seen p]
            simp only [clear]
            by_cases e2 : p.var = x.var
            · simp [e2, hd]
            · simp [e2]; intro e1; subst e1; exact absurd rfl e2
          · intro M; have := h1 M; rw [if_neg hd0] at this; simp only; omega
        · rename_i hd0 hd
          simp at ha; subst ha
          refine ⟨⟨?_, h2, h4 h.pos, hfree⟩, ?_⟩
          · intro p; rw [h3 p, ← h.seen p]
            have : 0 < d := by omega
            simp [this, hd0]
          · intro M; have := h1 M; rw [if_neg hd0] at this; simp only; omega

theorem AInv.addPos_ne_bad {top : Top} {a : Acc} (h : AInv top a) {x : Lit} {w : Int} :
    Weight.addPos a x w ≠ .error .bad := by
  unfold Weight.addPos
  split
  · simp
  · rename_i hs
    split
    · rename_i hn
      have hx : x ∈ a.out.map WL.lit := by
        rw [← h.seen]; simp at hs hn; cases hsx : a.seen x
        · simp [hs hsx] at hn
        · rfl
      have := addAt_ne_bad (w := w) hx
      cases hr : addAt x w a.out with
      | error f => simp [bind, Except.bind]; rw [hr] at this; simpa using this
      | ok r' => simp [bind, Except.bind]
    · rename_i hn
      have hx : x.neg ∈ a.out.map WL.lit := by rw [← h.seen]; simpa using hn
      refine bind_ne_bad chk_ne_bad fun b _ => bind_ne_bad (subAt_ne_bad hx) fun q _ => ?_
      dsimp only
      split
      · exact bind_ne_bad chk_ne_bad fun _ _ => ok_ne_bad
      · split <;> exact ok_ne_bad

theorem AInv.step1 {top : Top} {a a' : Acc} (h : AInv top a) {l : WL} (ha : step1 top a l = .ok a') : AInv top a' ∧
    ∀ M, ext M top → val M a.out + (if M.sat l.lit then l.w else 0) - a.bound = val M a'.out - a'.bound := by
  unfold Weight.step1 at ha
  split at ha
  · rename_i hl
    split at ha
    · rename_i hneg
      obtain ⟨w, hw, ha⟩ := bind_ok.1 ha
      obtain ⟨rfl, _⟩ := chk_ok.1 hw
      split at ha
      · obtain ⟨b, hb, ha⟩ := bind_ok.1 ha
        obtain ⟨rfl, _⟩ := chk_ok.1 hb
        have h' : AInv top { a with bound := a.bound + -l.w } := ⟨h.seen, h.nodup, h.pos, h.free⟩
        obtain ⟨h1, h2⟩ := h'.addPos (by omega) (by exact hl.2) ha
        refine ⟨h1, fun M _ => ?_⟩
        rw [← h2 M]; simp only [Asg.sat_neg]; by_cases hs : M.sat l.lit <;> simp [hs] <;> ring
      · cases ha
    · obtain ⟨h1, h2⟩ := h.addPos (by have := hl.1; omega) hl.2 ha
      exact ⟨h1, fun M _ => h2 M⟩
  · rename_i hl
    split at ha
    · rename_i ht
      obtain ⟨b, hb, ha⟩ := bind_ok.1 ha
      obtain ⟨rfl, _⟩ := chk_ok.1 hb
      simp at ha; subst ha
      refine ⟨⟨h.seen, h.nodup, h.pos, h.free⟩, fun M hM => ?_⟩
      have : M.sat l.lit := hM _ _ ht
      simp [this]; ring
    · rename_i ht
      simp at ha; subst ha
      refine ⟨h, fun M hM => ?_⟩
      have hz : (if M.sat l.lit then l.w else 0) = 0 := by
        by_cases hw : l.w = 0
        · simp [hw]
        · have hv : top l.lit.var ≠ none := fun h0 => hl ⟨hw, h0⟩
          obtain ⟨b, hb⟩ := Option.ne_none_iff_exists'.1 hv
          have hM' := hM _ _ hb
          have : ¬ M.sat l.lit := by
            unfold Asg.sat; rw [hM']; intro e; exact ht (by rw [hb, e])
          simp [this]
      rw [hz]; ring

theorem AInv.step1_ne_bad {top : Top} {a : Acc} (h : AInv top a) {l : WL} : Weight.step1 top a l ≠ .error .bad := by
  unfold Weight.step1
  split
  · split
    · refine bind_ne_bad chk_ne_bad fun w _ => ?_
      split
      · exact bind_ne_bad chk_ne_bad fun b _ => AInv.addPos_ne_bad (top := top) (a := { a with bound := b }) ⟨h.seen, h.nodup, h.pos, h.free⟩
      · simp
    · exact h.addPos_ne_bad
  · split
    · unfold chk; split <;> simp [bind, Except.bind]
    · simp

theorem AInv.loop1 {top : Top} : ∀ {ls : List WL} {a a' : Acc}, AInv top a → loop1 top ls a = .ok a' → AInv top a' ∧
    ∀ M, ext M top → val M a.out + val M ls - a.bound = val M a'.out - a'.bound := by
  intro ls
  induction ls with
  | nil => intro a a' h ha; simp [Weight.loop1] at ha; subst ha; exact ⟨h, fun M _ => by simp⟩
  | cons l ls ih =>
    intro a a' h ha
    unfold Weight.loop1 at ha
    obtain ⟨a1, h1, ha⟩ := bind_ok.1 ha
    obtain ⟨h2, h3⟩ := h.step1 h1
    obtain ⟨h4, h5⟩ := ih h2 ha
    refine ⟨h4, fun M hM => ?_⟩
    have := h3 M hM; have := h5 M hM
    rw [val_cons]; omega

theorem AInv.loop1_ne_bad {top : Top} : ∀ {ls : List WL} {a : Acc}, AInv top a → Weight.loop1 top ls a ≠ .error .bad := by
  intro ls
  induction ls with
  | nil => intro a _; simp [Weight.loop1]
  | cons l ls ih =>
    intro a h
    unfold Weight.loop1
    have hb := h.step1_ne_bad (l := l)
    cases hs : Weight.step1 top a l with
    | error f => simp [bind, Except.bind]; rw [hs] at hb; simpa using hb
    | ok a1 => exact ih (h.step1 hs).1

/-! ### Step 2 -/

/-- Clamping weights to the bound does not change which assignments reach it. -/
theorem clamp_iff {M : Asg} {bound B : Int} (hB : bound ≤ B) (hB1 : 0 < B) : ∀ {ls : List WL}, (∀ e ∈ ls, 0 < e.w) → ∀ c : Int, 0 ≤ c →
    (bound ≤ c + val M (ls.map fun l => ⟨l.lit, min l.w B⟩) ↔ bound ≤ c + val M ls) := by
  intro ls
  induction ls with
  | nil => intro _ c _; simp
  | cons l ls ih =>
    intro hp c hc
    have hl := hp l (.head _)
    have hp' : ∀ e ∈ ls, 0 < e.w := fun e he => hp e (.tail _ he)
    simp only [List.map_cons, val_cons]
    by_cases hs : M.sat l.lit
    · simp only [hs, if_true]
      by_cases hle : l.w ≤ B
      · have h1 := ih hp' (c + l.w) (by omega)
        rw [min_eq_left hle]
        constructor
        · intro h; have := h1.1 (by omega); omega
        · intro h; have := h1.2 (by omega); omega
      · have h1 : 0 ≤ val M (ls.map fun l => (⟨l.lit, min l.w B⟩ : WL)) := by
          apply val_nonneg; intro e he; obtain ⟨x, hx, rfl⟩ := List.mem_map.1 he
          have := hp' x hx; simp only; omega
        have h2 : 0 ≤ val M ls := val_nonneg fun e he => le_of_lt (hp' e he)
        rw [min_eq_right (by omega)]
        constructor <;> intro <;> omega
    · simp only [hs, if_false, zero_add]; exact ih hp' c hc

/-- Sum of all weights. -/
def total (ls : List WL) : Int := (ls.map WL.w).sum

@[simp] theorem total_nil : total [] = 0 := rfl
@[simp] theorem total_cons (l : WL) (ls : List WL) : total (l :: ls) = l.w + total ls := by simp [total]

theorem val_le_total {M : Asg} {ls : List WL} (h : ∀ l ∈ ls, 0 ≤ l.w) : val M ls ≤ total ls := by
  induction ls with
  | nil => simp
  | cons l ls ih =>
    have := ih (fun x hx => h x (.tail _ hx))
    have := h l (.head _)
    rw [val_cons, total_cons]; split <;> omega

/-- Some literal has weight `w`. -/
def Attained (ls : List WL) (w : Int) : Prop := ∃ e ∈ ls, e.w = w

theorem loop2_spec {B : Int} (hB : 1 ≤ B) : ∀ {ls ls' : List WL} {a a' : Acc2}, loop2 B ls a = .ok (ls', a') →
    (∀ e ∈ ls, 0 < e.w) → a.mx ≤ B → 1 ≤ a.mx →
    ls' = ls.map (fun l => ⟨l.lit, min l.w B⟩) ∧ a'.sum = a.sum + total ls' ∧ a'.mx ≤ B ∧ a.mx ≤ a'.mx ∧ a'.mn ≤ a.mn ∧
    (a'.mx ≠ a.mx → Attained ls' a'.mx) ∧ (a'.mn ≠ a.mn → Attained ls' a'.mn) ∧
    (∀ e ∈ ls', e.w ≤ a'.mx ∧ a'.mn ≤ e.w) ∧ (ls ≠ [] ∨ a.sum ≤ MAXW → a'.sum ≤ MAXW) := by
  intro ls
  induction ls with
  | nil => intro ls' a a' h _ h1 h2; simp [loop2] at h; obtain ⟨rfl, rfl⟩ := h; simp; exact h1
  | cons l ls ih =>
    intro ls' a a' h hp hmx hmx1
    have hl := hp l (.head _)
    have hw : (if l.w > a.mx then min l.w B else l.w) = min l.w B := by split <;> omega
    unfold loop2 at h
    simp only [hw] at h
    by_cases hr : MAXW - a.sum ≥ min l.w B
    · rw [if_pos hr] at h
      obtain ⟨s, hs, h⟩ := bind_ok.1 h
      obtain ⟨rfl, hs1, hs2⟩ := chk_ok.1 hs
      obtain ⟨⟨r, a2⟩, hr2, h⟩ := bind_ok.1 h
      simp only [Except.ok.injEq, Prod.mk.injEq] at h
      obtain ⟨rfl, rfl⟩ := h
      obtain ⟨h1, h2, h3, h4, h5, h6, h7, h8, h9⟩ := ih hr2 (fun e he => hp e (.tail _ he))
        (by dsimp only; split <;> omega) (by dsimp only; split <;> omega)
      dsimp only at h2 h4 h5 h6 h7 h8 h9
      have h4' : a.mx ≤ a2.mx ∧ min l.w B ≤ a2.mx := by
        clear h6 h7 h5 h2 h8 h9 hr hs1 hs2 hr2 ih hs hw; split at h4 <;> omega
      have h5' : a2.mn ≤ a.mn ∧ a2.mn ≤ min l.w B := by
        clear h6 h7 h4 h2 h8 h9 hr hs1 hs2 hr2 ih hs hw; split at h5 <;> omega
      refine ⟨by simp [h1], by rw [h2, total_cons]; ring, h3, h4'.1, h5'.1, ?_, ?_, ?_, ?_⟩
      · intro hne
        by_cases e1 : a2.mx = min l.w B
        · exact ⟨_, .head _, e1.symm⟩
        · obtain ⟨e, he, h6⟩ := h6 (by split <;> assumption)
          exact ⟨e, .tail _ he, h6⟩
      · intro hne
        by_cases e1 : a2.mn = min l.w B
        · exact ⟨_, .head _, e1.symm⟩
        · obtain ⟨e, he, h7⟩ := h7 (by split <;> assumption)
          exact ⟨e, .tail _ he, h7⟩
      · intro e he
        rcases List.mem_cons.1 he with rfl | he
        · exact ⟨h4'.2, h5'.2⟩
        · exact h8 e he
      · intro _; exact h9 (.inr hs2)
    · rw [if_neg hr] at h; cases h

theorem loop2_ne {B : Int} : ∀ {ls : List WL} {a : Acc2}, loop2 B ls a ≠ .error .bad := by
  intro ls
  induction ls with
  | nil => intro a; simp [loop2]
  | cons l ls ih =>
    intro a
    unfold loop2
    dsimp only
    repeat' split
    all_goals first | exact bind_ne_bad chk_ne_bad fun s _ => bind_ne_bad ih fun q _ => ok_ne_bad | simp

/-! ### Division -/

/-- number of true literals -/
def count (M : Asg) (ls : List WL) : Int := val M (ls.map fun l => ⟨l.lit, 1⟩)

theorem val_const {M : Asg} {B : Int} : ∀ {ls : List WL}, (∀ e ∈ ls, e.w = B) → val M ls = B * count M ls := by
  intro ls
  induction ls with
  | nil => intro _; simp [count]
  | cons l ls ih =>
    intro h
    have h1 := h l (.head _)
    have h2 := ih (fun e he => h e (.tail _ he))
    simp only [count, List.map_cons, val_cons] at h2 ⊢
    rw [h2]; split <;> rw [← h1] <;> ring

theorem total_const {B : Int} : ∀ {ls : List WL}, (∀ e ∈ ls, e.w = B) → total ls = B * ls.length := by
  intro ls
  induction ls with
  | nil => intro _; simp
  | cons l ls ih =>
    intro h
    have h1 := h l (.head _)
    have h2 := ih (fun e he => h e (.tail _ he))
    rw [total_cons, h2, h1]; push_cast [List.length_cons]; ring

theorem ceil_le {B b k : Int} (hB : 0 < B) (hb : 0 ≤ b) : (b + (B - 1)).tdiv B ≤ k ↔ b ≤ B * k := by
  rw [Int.tdiv_eq_ediv_of_nonneg (by omega)]
  constructor
  · intro h
    have h1 := Int.lt_ediv_add_one_mul_self (b + (B - 1)) hB
    have : ((b + (B - 1)) / B + 1) * B ≤ (k + 1) * B := Int.mul_le_mul_of_nonneg_right (by omega) (by omega)
    have e : (k + 1) * B = B * k + B := by ring
    omega
  · intro h
    have : (b + (B - 1)) / B < k + 1 := by
      rw [Int.ediv_lt_iff_lt_mul hB]
      have e : (k + 1) * B = B * k + B := by ring
      omega
    omega

theorem toCard_spec {B : Int} {r r' : Rep} (h : toCard B r = .ok r') (hB : 0 < B) (hb : 0 ≤ r.bound) (hw : ∀ e ∈ r.lits, e.w = B)
    (hr : r.reach = total r.lits) :
    r'.lits = r.lits.map (fun l => ⟨l.lit, 1⟩) ∧ r'.reach = total r'.lits ∧
    (∀ M, r'.bound ≤ val M r'.lits ↔ r.bound ≤ val M r.lits) ∧ (0 < r.bound → 0 < r'.bound) ∧ (r.bound ≤ r.reach → r'.bound ≤ r'.reach) := by
  unfold toCard at h
  obtain ⟨b, hb', h⟩ := bind_ok.1 h
  obtain ⟨rfl, _⟩ := chk_ok.1 hb'
  obtain ⟨s, hs, h⟩ := bind_ok.1 h
  obtain ⟨rfl, _⟩ := chk_ok.1 hs
  simp at h; subst h
  have ht : total (r.lits.map (fun l => (⟨l.lit, 1⟩ : WL))) = r.lits.length := by
    rw [total_const (B := 1)]
    · simp
    · intro e he; obtain ⟨x, _, rfl⟩ := List.mem_map.1 he; rfl
  have hreach : (r.reach + (B - 1)).tdiv B = r.lits.length := by
    have h1 := total_const hw
    have hn : 0 ≤ r.reach := by rw [hr, h1]; positivity
    apply le_antisymm
    · rw [ceil_le hB hn, hr, h1]
    · by_contra hlt
      have : (r.reach + (B - 1)).tdiv B ≤ (r.lits.length : Int) - 1 := by omega
      rw [ceil_le hB hn, hr, h1] at this
      have e : B * ((r.lits.length : Int) - 1) = B * r.lits.length - B := by ring
      omega
  refine ⟨rfl, by simp only; rw [ht, hreach], ?_, ?_, ?_⟩
  · intro M; simp only; rw [ceil_le hB hb, val_const hw]; rfl
  · intro h0; by_contra hle
    have : (r.bound + (B - 1)).tdiv B ≤ 0 := by simpa using hle
    rw [ceil_le hB hb] at this; omega
  · intro h0; simp only; rw [ceil_le hB hb, hreach, ← total_const hw, ← hr]; exact h0

end Clasp.Weight
