/-
C35 for arbitrary weights: if the equality has a solution at all, the two constraints created for it have exactly its solutions; in any
case no solution is lost. (Without a solution the constraints may have models: `C35_division`.)
-/
import Verif.Weight.EqProps
namespace Clasp.Weight
open Core

/-- Proof device: `r` represents `sum(lits) - bound` scaled by `k`, as long as the bound `β` is not reached. -/
structure Scaled (top : Top) (lits : List WL) (bound : Int) (r : Rep) (β k : Int) : Prop where
  k1 : 1 ≤ k
  ceil : ∀ j : Int, r.bound ≤ j ↔ β ≤ k * j
  one : k = 1 ∨ ∀ e ∈ r.lits, e.w = 1
  rel : ∀ M, ext M top → k * val M r.lits < β → val M lits - bound = k * val M r.lits - β

theorem val_card (M : Asg) {B : Int} : ∀ {ls : List WL}, (∀ e ∈ ls, e.w = B) → val M ls = B * val M (ls.map fun l => (⟨l.lit, 1⟩ : WL)) := by
  intro ls
  induction ls with
  | nil => intro _; simp
  | cons l ls ih =>
    intro h
    rw [List.map_cons, val_cons, val_cons, ih fun e he => h e (.tail _ he), Int.mul_add]
    have := h l (.head _)
    congr 1
    dsimp only
    split <;> simp [this]

theorem clamp_eq {M : Asg} {β : Int} {ls : List WL} (hp : ∀ e ∈ ls, 0 < e.w) (h0 : 0 < β)
    (h : val M (ls.map fun l => (⟨l.lit, min l.w β⟩ : WL)) < β) : val M (ls.map fun l => (⟨l.lit, min l.w β⟩ : WL)) = val M ls := by
  induction ls with
  | nil => rfl
  | cons l ls ih =>
    rw [List.map_cons, val_cons, val_cons] at *
    have hnn : 0 ≤ val M (ls.map fun l => (⟨l.lit, min l.w β⟩ : WL)) := val_nonneg fun e he => by
      obtain ⟨x, hx, rfl⟩ := List.mem_map.mp he
      have := hp x (.tail _ hx)
      dsimp only; omega
    have hl := hp l (.head _)
    dsimp only at *
    split at h
    · rename_i hs
      simp only [hs, if_true]
      rw [ih (fun e he => hp e (.tail _ he)) (by omega)]
      omega
    · rename_i hs
      simp only [hs, if_false]
      rw [ih (fun e he => hp e (.tail _ he)) (by omega)]

theorem toCard_scaled {top : Top} {lits : List WL} {bound : Int} {B β : Int} {r r' : Rep} (h : toCard B r = .ok r') (hB : 0 < B)
    (hb : 0 ≤ r.bound) (hw : ∀ e ∈ r.lits, e.w = B) (hs : Scaled top lits bound r β 1) : Scaled top lits bound r' β B := by
  unfold toCard at h
  obtain ⟨b, hb', h⟩ := bind_ok.1 h
  obtain ⟨rfl, _⟩ := chk_ok.1 hb'
  obtain ⟨s, hs', h⟩ := bind_ok.1 h
  simp only [Except.ok.injEq] at h
  subst h
  have hval := fun M => val_card M hw
  refine ⟨hB, fun j => ?_, .inr ?_, fun M hM hv => ?_⟩
  · dsimp only
    rw [ceil_le hB hb, hs.ceil, Int.one_mul]
  · intro e he
    obtain ⟨x, _, rfl⟩ := List.mem_map.mp he
    rfl
  · have := hs.rel M hM
    rw [Int.one_mul, hval M] at this
    exact this hv

theorem create_scaled {top : Top} {lits : List WL} {bound : Int} {r : Rep} (h : create top lits bound = .ok r) (h0 : 0 < r.bound) :
    ∃ β k, 0 < β ∧ Scaled top lits bound r β k := by
  unfold create at h
  obtain ⟨a, h1, h⟩ := bind_ok.1 h
  obtain ⟨⟨ls, m⟩, h2, h⟩ := bind_ok.1 h
  have hi : AInv top ⟨[], fun _ => false, bound⟩ := ⟨by simp, by simp, by simp, by simp⟩
  obtain ⟨ha, hv⟩ := hi.loop1 h1
  obtain ⟨e1, e2, e3, e4, e5, e6, e7, e8, e9⟩ := loop2_spec (by omega) h2 ha.pos (by dsimp only; omega) (by simp)
  have hv' : ∀ M, ext M top → val M a.out - a.bound = val M lits - bound := by
    intro M hM; have := hv M hM; simp at this; omega
  dsimp only at h e8 e4
  by_cases hpos : 0 < a.bound
  · have hmax : max a.bound 1 = a.bound := by omega
    rw [hmax] at e1
    have base : ∀ ls', (∀ M, val M ls' = val M ls) → ∀ s, Scaled top lits bound ⟨ls', a.bound, s⟩ a.bound 1 := by
      intro ls' hp s
      refine ⟨by omega, fun j => by dsimp only; omega, .inl rfl, fun M hM hlt => ?_⟩
      rw [Int.one_mul] at hlt ⊢
      dsimp only at hlt ⊢
      rw [hp M, e1] at hlt ⊢
      rw [clamp_eq ha.pos hpos hlt, hv' M hM]
    split at h
    · simp only [Except.ok.injEq] at h; subst h
      exact ⟨_, _, hpos, base _ (fun M => val_perm (List.mergeSort_perm _ _)) _⟩
    · rename_i hmm
      have hm : m.mx = m.mn := by simpa using hmm
      split at h
      · have hall : ∀ e ∈ ls, e.w = m.mn := fun e he => by have := e8 e he; omega
        exact ⟨_, _, hpos, toCard_scaled h (by omega) (by dsimp only; omega) hall (base ls (fun _ => rfl) _)⟩
      · simp only [Except.ok.injEq] at h; subst h
        exact ⟨_, _, hpos, base _ (fun _ => rfl) _⟩
  · exfalso
    have hmax : max a.bound 1 = 1 := by omega
    rw [hmax] at e3
    split at h
    · simp only [Except.ok.injEq] at h; subst h; exact hpos h0
    · rename_i hmm
      have hm : m.mx = m.mn := by simpa using hmm
      rw [if_neg (by omega)] at h
      simp only [Except.ok.injEq] at h; subst h; exact hpos h0

theorem doCreate_scaled {explicit addSat : Bool} {top : Top} {W : Lit} {lits : List WL} {bound β k : Int} {r r' : Rep} {m : Made}
    (hn : Normal top r) (hW : top W.var = some W.tv) (hb0 : 0 < r.bound) (hs : Scaled top lits bound r β k)
    (h : doCreate explicit addSat top W.neg r = .ok (some (m, r'))) :
    ∃ k', Scaled m.top lits bound r' β k' ∧ Norm0 m.top r' ∧ (∀ e ∈ r'.lits, e.w < r'.bound) ∧
      ∀ M, ext M m.top → ext M top ∧ k' * val M r'.lits = k * val M r.lits := by
  unfold doCreate at h
  obtain ⟨p, hp, h⟩ := bind_ok.1 h
  cases p with
  | none => simp at h
  | some q =>
    obtain ⟨t, r1⟩ := q
    dsimp only at h
    have hmr : m.top = t ∧ r' = r1 := by
      split at h
      · simp only [Except.ok.injEq, Option.some.injEq, Prod.mk.injEq] at h; obtain ⟨rfl, rfl⟩ := h; exact ⟨rfl, rfl⟩
      · split at h
        · simp only [Except.ok.injEq, Option.some.injEq, Prod.mk.injEq] at h; obtain ⟨rfl, rfl⟩ := h; exact ⟨rfl, rfl⟩
        · simp only [Except.ok.injEq, Option.some.injEq, Prod.mk.injEq] at h; obtain ⟨rfl, rfl⟩ := h; exact ⟨rfl, rfl⟩
    obtain ⟨rfl, rfl⟩ := hmr
    clear h
    have hvar : W.neg.var = W.var := rfl
    unfold propagate at hp
    split at hp
    · rename_i hsat; exfalso; simp [Rep.isSat] at hsat; omega
    split at hp
    · rename_i hun
      have hun : r.reach < r.bound := by simpa [Rep.isUnsat] using hun
      have hf : force top W.neg.neg = some top := by
        unfold force; rw [Lit.neg_neg, hW]; simp
      rw [hf] at hp
      simp only [Option.map_some, Except.ok.injEq, Option.some.injEq, Prod.mk.injEq] at hp
      obtain ⟨e1, rfl⟩ := hp
      rw [← e1]
      refine ⟨k, hs, hn.norm0, fun e he => ?_, fun M hM => ⟨hM, rfl⟩⟩
      have := mem_le_total hn.pos he; have := hn.reach; omega
    rename_i hun
    have hbt : (top W.neg.var == some W.neg.tv) = false := by
      rw [hvar, hW, tv_neg]; cases W.tv <;> simp
    rw [if_neg (by rw [hvar, hW]; simp)] at hp
    dsimp only at hp
    rw [hbt] at hp
    simp only [Bool.false_eq_true, if_false] at hp
    have hp : (backprop false r.bound top r.lits r.bound r.reach >>= fun x => match x with
        | none => Except.ok none
        | some (top', r', done) =>
          if done = true then Except.ok (some (top', r'))
          else
            match r'.lits.head?, r'.lits.getLast? with
            | some f, some l =>
              if f.w > 1 ∧ f.w = l.w then do
                let c ← toCard f.w r'
                Except.ok (some (top', c))
              else Except.ok (some (top', r'))
            | _, _ => Except.error Fail.bad) = Except.ok (some (m.top, r')) := hp
    obtain ⟨bp, hbp, hp⟩ := bind_ok.1 hp
    cases bp with
    | none => simp at hp
    | some q =>
      obtain ⟨t1, r2, done⟩ := q
      obtain ⟨i1, i2, i3, i4⟩ := backprop_false_val hbp hn.norm0
      obtain ⟨j1, j2, j3, j4, j5, j6, j7⟩ := backprop_false hbp hn.norm0 hb0
      have hext : ∀ M, ext M t1 → ext M top := fun M hM v b hv => hM v b (i4 v b hv)
      have hs2 : Scaled t1 lits bound r2 β k := by
        refine ⟨hs.k1, fun j => by rw [i1]; exact hs.ceil j, hs.one.imp_right fun h e he => h e (i3 e he), fun M hM hv => ?_⟩
        rw [i2 M hM] at hv ⊢
        exact hs.rel M (hext M hM) hv
      have base : t1 = m.top → r2 = r' → ∃ k', Scaled m.top lits bound r' β k' ∧ Norm0 m.top r' ∧ (∀ e ∈ r'.lits, e.w < r'.bound) ∧
          ∀ M, ext M m.top → ext M top ∧ k' * val M r'.lits = k * val M r.lits := by
        rintro rfl rfl
        exact ⟨k, hs2, j4, fun e he => by rw [i1]; exact j7 e he, fun M hM => ⟨hext M hM, by rw [i2 M hM]⟩⟩
      dsimp only at hp
      split at hp
      · simp only [Except.ok.injEq, Option.some.injEq, Prod.mk.injEq] at hp; exact base hp.1 hp.2
      · split at hp
        · rename_i f l hf hl
          by_cases hc : f.w > 1 ∧ f.w = l.w
          · rw [if_pos hc] at hp
            obtain ⟨c, hcard, hp⟩ := bind_ok.1 hp
            simp only [Except.ok.injEq, Option.some.injEq, Prod.mk.injEq] at hp
            obtain ⟨rfl, rfl⟩ := hp
            have hk : k = 1 := by
              rcases hs.one with h | h
              · exact h
              · have := h f (i3 f (List.mem_of_mem_head? hf)); omega
            subst hk
            have hall : ∀ e ∈ r2.lits, e.w = f.w := const_of_ends j4.sorted hf hl hc.2
            have hcard2 := toCard_scaled hcard (by omega) (by omega) hall hs2
            obtain ⟨c1, c2, c3, c4, c5⟩ := toCard_spec hcard (by omega) (by omega) hall j4.reach
            have hone : ∀ e ∈ c.lits, e.w = 1 := by
              rw [c1]; intro e he; obtain ⟨x, _, rfl⟩ := List.mem_map.mp he; rfl
            refine ⟨f.w, hcard2, ⟨fun e he => by rw [hone e he]; omega, ?_, ?_, ?_, c2⟩, fun e he => ?_, fun M hM => ⟨hext M hM, ?_⟩⟩
            · exact List.Pairwise.imp_of_mem (R := fun _ _ => True) (fun {a b} ha hb _ => by rw [hone a ha, hone b hb]) (List.pairwise_of_forall fun _ _ => trivial)
            · rw [c1, List.map_map]; exact j4.nodup
            · rw [c1]; intro e he; obtain ⟨x, hx, rfl⟩ := List.mem_map.mp he; exact j4.free x hx
            · rw [hone e he]
              by_contra hle
              have h1 := (hcard2.ceil 1).1 (by omega)
              have h2 := (hs2.ceil f.w).2 (by omega)
              have h3 := j7 f (List.mem_of_mem_head? hf)
              rw [i1] at h2
              omega
            · rw [c1, ← val_card M hall, Int.one_mul, i2 M hM]
          · rw [if_neg hc] at hp
            simp only [Except.ok.injEq, Option.some.injEq, Prod.mk.injEq] at hp; exact base hp.1 hp.2
        · simp at hp

/-- C35 (part): an equality over arbitrary weights whose literal `W` is true at the top level. A conflict means that there is no
solution, and every solution satisfies the constraints left behind; if there is a solution at all, the constraints have exactly the
solutions of the equality. Missing: an equality without solutions may be accepted (`C35_division`), and a literal `W` that is not true at
the top level (`C35_soft`). -/
theorem C35_hard_partial {explicit addSat : Bool} {top : Top} {W : Lit} {lits : List WL} {bound : Int}
    {res : Option (List Made)} (h : createCon true explicit addSat top W lits bound = .ok res) (hW : top W.var = some W.tv) :
    (res = none → ∀ M, ext M top → ¬ eqHolds M lits bound) ∧
    ∀ ms, res = some ms → (∀ M, ext M top → eqHolds M lits bound → ∀ m ∈ ms, m.models M) ∧
      ((∃ M, ext M top ∧ eqHolds M lits bound) → ∀ M, (∀ m ∈ ms, m.models M) → ext M top ∧ eqHolds M lits bound) := by
  unfold createCon at h
  obtain ⟨b, hb, h⟩ := bind_ok.1 h
  simp only [if_true] at hb h
  obtain ⟨rfl, _⟩ := chk_ok.1 hb
  obtain ⟨r, hr, h⟩ := bind_ok.1 h
  obtain ⟨hv, hn⟩ := C21_create hr
  obtain ⟨p, hp, h⟩ := bind_ok.1 h
  obtain ⟨c1, c2⟩ := C21_doCreate hn hp
  have hneg : ∀ M, ext M top → ¬ M.sat W.neg := fun M hM => by rw [Asg.sat_neg, not_not]; exact ext_sat hM hW
  have hfst : ∀ M, ext M top → (iffHolds M W.neg r.lits r.bound ↔ val M lits ≤ bound) := by
    intro M hM
    unfold iffHolds
    rw [hv M hM]
    unfold holds
    have h2 := hneg M hM
    simp only [h2, false_iff]; omega
  cases p with
  | none =>
    simp only [Except.ok.injEq] at h; subst h
    exact ⟨fun _ M hM hi => c1 rfl M hM ((hfst M hM).2 (le_of_eq hi)), by simp⟩
  | some q =>
    obtain ⟨m1, r'⟩ := q
    dsimp only at h
    have hb0 : 0 < r.bound := by
      by_contra hle
      unfold doCreate at hp
      obtain ⟨p, hp1, hp⟩ := bind_ok.1 hp
      unfold propagate at hp1
      rw [if_pos (by simp [Rep.isSat]; omega)] at hp1
      have : force top W.neg = none := by
        have hvar : W.neg.var = W.var := rfl
        unfold force; rw [hvar, hW]; dsimp only; rw [if_neg (by rw [tv_neg]; cases W.tv <;> simp)]
      rw [this] at hp1
      simp only [Option.map_none, Except.ok.injEq] at hp1
      subst hp1
      simp at hp
    obtain ⟨β, k, hβ, hs⟩ := create_scaled hr hb0
    obtain ⟨k', hs', hn', hlt, hval⟩ := doCreate_scaled hn hW hb0 hs hp
    obtain ⟨b2, hb2, h⟩ := bind_ok.1 h
    obtain ⟨rfl, _⟩ := chk_ok.1 hb2
    rw [recoef_id (fun e he => by have := hlt e he; omega)] at h
    obtain ⟨⟨ls, s⟩, hls, h⟩ := bind_ok.1 h
    simp only [Except.ok.injEq, Prod.mk.injEq] at hls
    obtain ⟨rfl, rfl⟩ := hls
    obtain ⟨p0, hp0, h⟩ := bind_ok.1 h
    have hn2 : Normal m1.top ⟨r'.lits, r'.bound - 1, r'.reach⟩ :=
      ⟨hn'.pos, hn'.sorted, hn'.nodup, hn'.free, hn'.reach, fun e he => by have := hlt e he; dsimp only; omega⟩
    obtain ⟨k1, k2⟩ := C21_doCreate hn2 hp0
    have hm1 := c2 m1 r' rfl
    -- the difference in terms of the second representation
    have hdiff : ∀ M, ext M m1.top → iffHolds M W.neg r.lits r.bound → val M lits - bound = k' * val M r'.lits - (β - 1) := by
      intro M hM hi
      obtain ⟨g1, g2⟩ := hval M hM
      have hlt : val M r.lits < r.bound := by
        have h2 := hneg M g1
        unfold iffHolds holds at hi
        simp only [h2, false_iff] at hi
        omega
      have hk : k * val M r.lits < β := by
        by_contra hge
        have := (hs.ceil (val M r.lits)).2 (by omega)
        omega
      have := hs'.rel M hM (by rw [g2]; exact hk)
      omega
    have hsnd : ∀ M, ext M m1.top → (iffHolds M W r'.lits (r'.bound - 1) ↔ r'.bound ≤ val M r'.lits + 1) := by
      intro M hM
      have h2 : M.sat W := ext_sat (hval M hM).1 hW
      unfold iffHolds holds
      simp only [h2, true_iff]; omega
    -- solutions satisfy both
    have hsol : ∀ M, ext M top → eqHolds M lits bound → m1.models M ∧ iffHolds M W r'.lits (r'.bound - 1) := by
      intro M hM hi
      have hi1 := (hfst M hM).2 (le_of_eq hi)
      have h1 := (hm1 M).1 ⟨hM, hi1⟩
      refine ⟨h1, (hsnd M h1.1).2 ((hs'.ceil _).2 ?_)⟩
      have := hdiff M h1.1 hi1
      unfold eqHolds at hi
      have hk := hs'.k1
      rw [Int.mul_add]
      omega
    -- and conversely if there is one
    have hconv : (∃ M, ext M top ∧ eqHolds M lits bound) → ∀ M, m1.models M → iffHolds M W r'.lits (r'.bound - 1) → ext M top ∧ eqHolds M lits bound := by
      rintro ⟨M0, hM0, hi0⟩ M h1 h2
      obtain ⟨g1, g2⟩ := (hm1 M).2 h1
      refine ⟨g1, ?_⟩
      have hd := hdiff M h1.1 g2
      obtain ⟨g3, _⟩ := hsol M0 hM0 hi0
      have hd0 := hdiff M0 g3.1 ((hm1 M0).2 g3).2
      have hle : val M lits ≤ bound := (hfst M g1).1 g2
      have h3 := (hs'.ceil _).1 ((hsnd M h1.1).1 h2)
      unfold eqHolds at hi0 ⊢
      have hk := hs'.k1
      have e0 : k' * val M0 r'.lits = β - 1 := by omega
      have h4 : val M0 r'.lits < val M r'.lits + 1 := by
        by_contra hge
        have : k' * (val M r'.lits + 1) ≤ k' * val M0 r'.lits := Int.mul_le_mul_of_nonneg_left (by omega) (by omega)
        omega
      have h5 : k' * val M0 r'.lits ≤ k' * val M r'.lits := Int.mul_le_mul_of_nonneg_left (by omega) (by omega)
      omega
    cases p0 with
    | none =>
      simp only [Except.ok.injEq] at h; subst h
      refine ⟨fun _ M hM hi => ?_, by simp⟩
      obtain ⟨g1, g2⟩ := hsol M hM hi
      exact k1 rfl M g1.1 g2
    | some q0 =>
      obtain ⟨m0, r0⟩ := q0
      simp only [Except.ok.injEq] at h; subst h
      refine ⟨by simp, ?_⟩
      intro ms e
      simp only [Option.some.injEq] at e; subst e
      simp only [List.mem_cons, List.not_mem_nil, or_false, forall_eq_or_imp, forall_eq]
      constructor
      · intro M hM hi
        obtain ⟨g1, g2⟩ := hsol M hM hi
        exact ⟨g1, (k2 m0 r0 rfl M).1 ⟨g1.1, g2⟩⟩
      · rintro hex M ⟨h1, h2⟩
        exact hconv hex M h1 ((k2 m0 r0 rfl M).2 h2).2

/-- Example: `2x + 2y = 2` with a true literal is created, has the solution `x = 1, y = 0`, and hence `C35_hard_partial` says that the two
constraints created have exactly its solutions. -/
example : ∃ ms, createCon true true false EqEx.top0 EqEx.tt [⟨EqEx.x, 2⟩, ⟨EqEx.y, 2⟩] 2 = .ok (some ms) ∧
    ∀ M, (∀ m ∈ ms, m.models M) → eqHolds M [⟨EqEx.x, 2⟩, ⟨EqEx.y, 2⟩] 2 := by
  have h : ∃ ms, createCon true true false EqEx.top0 EqEx.tt [⟨EqEx.x, 2⟩, ⟨EqEx.y, 2⟩] 2 = .ok (some ms) := ⟨_, rfl⟩
  obtain ⟨ms, hms⟩ := h
  refine ⟨ms, hms, fun M hM => (((C35_hard_partial hms rfl).2 ms rfl).2 ⟨fun v => v == 0 || v == 1, ?_, ?_⟩ M hM).2⟩
  · intro v b hv; simp only [EqEx.top0] at hv; split at hv
    · rename_i h; subst h; simpa using hv
    · cases hv
  · unfold eqHolds; decide

end Clasp.Weight
