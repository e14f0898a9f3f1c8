/-
C20: the shared minimize data has the cost of the statements at every level; initial lower bounds.
-/
import Verif.Opt.BuilderLem
import Mathlib.Algebra.Order.BigOperators.Group.List
namespace Clasp.Mini
open Core
open Clasp.Weight (R Fail Top MAXW ext bind_ok chk_ok bind_ne_bad ok_ne_bad)

/-! ## Specification -/

/-- Specification: the cost the shared data assigns to `M` at level `L`. -/
def dataCost (M : Asg) (d : Data) (L : Nat) : Int :=
  (d.lits.map fun x => if M.sat x.1 then weightAt d x L else 0).sum + (d.adjust[L]?).getD 0

/-! ## mergeLevels -/

/-- Order in which `mergeLevels` sees the literals. -/
def lvLt (a b : MLit) : Prop := a.lit.var < b.lit.var ∨ a.lit.var = b.lit.var ∧ a.prio < b.prio

theorem getD_modify {l : List Int} {i L : Nat} {f : Int → Int} (hi : i < l.length) :
    ((l.modify i f)[L]?).getD 0 = if i = L then f ((l[L]?).getD 0) else (l[L]?).getD 0 := by
  rw [List.getElem?_modify]
  by_cases h : i = L
  · subst h; simp [hi]
  · simp [h]

theorem mergeInner_spec {it : MLit} {pre : List LW} : ∀ {es : List MLit} {g : List LW} {adj : List Int},
    GoodVec g → es.Pairwise lvLt → (∀ k ∈ es, k.lit.var = it.lit.var → ∀ w ∈ g, (w.level : Int) < k.prio) →
    (∀ k ∈ es, 0 ≤ k.prio ∧ k.prio.toNat < adj.length ∧ 0 < k.weight) → (∀ w ∈ g, w.level < adj.length) →
    ∃ g' p, (mergeInner it (pre ++ g) adj es).1 = pre ++ g' ∧ (GoodVec g' ∧ ∀ w ∈ g', w.level < adj.length) ∧
      (∀ w, g'.head? = some w → ∃ v, g.head? = some v ∧ w.weight = v.weight) ∧
      es = p ++ (mergeInner it (pre ++ g) adj es).2.2 ∧ (mergeInner it (pre ++ g) adj es).2.1.length = adj.length ∧
      ∀ (M : Asg) (L : Nat), (if M.sat it.lit then at' g' L else 0) + (((mergeInner it (pre ++ g) adj es).2.1)[L]?).getD 0 =
        (if M.sat it.lit then at' g L else 0) + cost M p L + (adj[L]?).getD 0 := by
  intro es
  induction es with
  | nil => intro g adj hg _ _ _ hN; exact ⟨g, [], rfl, ⟨hg, hN⟩, fun w hw => ⟨w, hw, rfl⟩, rfl, rfl, fun M L => by simp [mergeInner]⟩
  | cons k ks ih =>
    intro g adj hg hs hlt hk hN
    obtain ⟨hs1, hs2⟩ := List.pairwise_cons.1 hs
    obtain ⟨hk0, hkl, hkw⟩ := hk k (.head _)
    unfold mergeInner
    split
    · rename_i hv
      have hgne : g ≠ [] := by rintro rfl; exact hg.vec.elim
      have hlev : ∀ w ∈ g, w.level < k.prio.toNat := fun w hw => by
        have := hlt k (.head _) hv w hw; omega
      -- the new vector
      have hnew : ∀ c : Int, c ≠ 0 → GoodVec (pushNext g ⟨k.prio.toNat, false, c⟩) := by
        intro c hc
        refine ⟨isVec_pushNext hg.vec rfl, inc_pushNext hg.inc hlev, fun w hw => ?_⟩
        rcases mem_pushNext hw with ⟨_, h⟩ | ⟨v, hv, _, h⟩
        · rw [h]; exact hc
        · rw [h]; exact hg.nz v hv
      have hlt' : ∀ c : Int, ∀ q ∈ ks, q.lit.var = it.lit.var → ∀ w ∈ pushNext g ⟨k.prio.toNat, false, c⟩, (w.level : Int) < q.prio := by
        intro c q hq hqv w hw
        rcases mem_pushNext hw with ⟨h, _⟩ | ⟨v, hv', h, _⟩
        · rw [h]; dsimp only
          rcases hs1 q hq with h1 | h1 <;> omega
        · rw [h]; exact hlt q (.tail _ hq) hqv v hv'
      have hN' : ∀ c : Int, ∀ w ∈ pushNext g ⟨k.prio.toNat, false, c⟩, w.level < adj.length := by
        intro c w hw
        rcases mem_pushNext hw with ⟨h, _⟩ | ⟨v, hv', h, _⟩
        · rw [h]; exact hkl
        · rw [h]; exact hN v hv'
      have hhead : ∀ c : Int, ∀ v, (pushNext g ⟨k.prio.toNat, false, c⟩).head? = some v → ∃ u, g.head? = some u ∧ v.weight = u.weight := by
        intro c v hv
        cases g with
        | nil => exact absurd rfl hgne
        | cons a as =>
          cases as with
          | nil => simp [pushNext] at hv; subst hv; exact ⟨a, rfl, rfl⟩
          | cons b bs => simp [pushNext] at hv; subst hv; exact ⟨a, rfl, rfl⟩
      have hat : ∀ c : Int, ∀ L, at' (pushNext g ⟨k.prio.toNat, false, c⟩) L = at' g L + if k.prio.toNat = L then c else 0 := by
        intro c L; exact at'_pushNext (fun w hw => by have := hlev w hw; dsimp only; omega) L
      split
      · rename_i hsg
        have he : k.lit = it.lit.neg := eq_neg_of_var hv (by rintro e; rw [e] at hsg; exact hsg rfl)
        rw [pushNext_append hgne]
        obtain ⟨g', p, i1, i2, i3, i4, i5, i6⟩ := ih (g := pushNext g ⟨k.prio.toNat, false, -k.weight⟩)
          (adj := adj.modify k.prio.toNat (· + k.weight)) (hnew _ (by omega)) hs2 (hlt' _)
          (fun q hq => by have := hk q (.tail _ hq); rw [List.length_modify]; exact this)
          (by rw [List.length_modify]; exact hN' _)
        rw [List.length_modify] at i2
        refine ⟨g', k :: p, i1, i2, ?_, by rw [List.cons_append, ← i4], by rw [i5, List.length_modify], ?_⟩
        · intro w hw
          obtain ⟨v, h1, h2⟩ := i3 w hw
          obtain ⟨u, h3, h4⟩ := hhead _ v h1
          exact ⟨u, h3, by rw [h2, h4]⟩
        · intro M L
          rw [i6 M L, getD_modify hkl, hat, cost_cons, he]
          simp only [Asg.sat_neg]
          by_cases hL : k.prio.toNat = L
          · have hL' : k.prio = (L : Int) := by omega
            by_cases hx : M.sat it.lit <;> simp [hx, hL, hL'] <;> ring
          · have hL' : k.prio ≠ (L : Int) := by omega
            by_cases hx : M.sat it.lit <;> simp [hx, hL, hL']
      · rename_i hsg
        have he : k.lit = it.lit := by
          cases hkl : k.lit; cases hil : it.lit; rw [hkl, hil] at hv hsg; simp at hv hsg; rw [hv, hsg]
        rw [pushNext_append hgne]
        obtain ⟨g', p, i1, i2, i3, i4, i5, i6⟩ := ih (g := pushNext g ⟨k.prio.toNat, false, k.weight⟩)
          (adj := adj) (hnew _ (by omega)) hs2 (hlt' _) (fun q hq => hk q (.tail _ hq)) (hN' _)
        refine ⟨g', k :: p, i1, i2, ?_, by rw [List.cons_append, ← i4], i5, ?_⟩
        · intro w hw
          obtain ⟨v, h1, h2⟩ := i3 w hw
          obtain ⟨u, h3, h4⟩ := hhead _ v h1
          exact ⟨u, h3, by rw [h2, h4]⟩
        · intro M L
          rw [i6 M L, hat, cost_cons, he]
          by_cases hL : k.prio.toNat = L
          · have hL' : k.prio = (L : Int) := by omega
            by_cases hx : M.sat it.lit <;> simp [hx, hL, hL'] <;> ring
          · have hL' : k.prio ≠ (L : Int) := by omega
            by_cases hx : M.sat it.lit <;> simp [hx, hL, hL']
    · exact ⟨g, [], rfl, ⟨hg, hN⟩, fun w hw => ⟨w, hw, rfl⟩, rfl, rfl, fun M L => by simp⟩

/-- Positions of consecutive vectors. -/
def offs : Nat → List (Lit × List LW) → List (Lit × Nat)
  | _, [] => []
  | k, (x, g) :: gs => (x, k) :: offs (k + g.length) gs

/-- All vectors in a row. -/
def flat (gs : List (Lit × List LW)) : List LW := (gs.map Prod.snd).flatten

/-- Cost given by literals with their vectors. -/
def gcost (M : Asg) (gs : List (Lit × List LW)) (L : Nat) : Int := (gs.map fun x => if M.sat x.1 then at' x.2 L else 0).sum

/-- Cost given by literals with positions. -/
def rd (M : Asg) (ws : List LW) (xs : List (Lit × Nat)) (L : Nat) : Int :=
  (xs.map fun x => if M.sat x.1 then at' (vec (ws.drop x.2)) L else 0).sum

/-- A well-formed vector over `N` levels whose first weight is positive. -/
structure PVec (N : Nat) (g : List LW) : Prop extends GoodVec g where
  pos : ∀ w, g.head? = some w → 0 < w.weight
  lev : ∀ w ∈ g, w.level < N

theorem rd_offs {M : Asg} {L : Nat} : ∀ {gs : List (Lit × List LW)} {pre post : List LW}, (∀ x ∈ gs, isVec x.2) →
    rd M (pre ++ flat gs ++ post) (offs pre.length gs) L = gcost M gs L := by
  intro gs
  induction gs with
  | nil => intro pre post _; rfl
  | cons a gs ih =>
    intro pre post h
    obtain ⟨x, g⟩ := a
    have h1 := ih (pre := pre ++ g) (post := post) fun y hy => h y (.tail _ hy)
    have h2 : pre ++ flat ((x, g) :: gs) ++ post = pre ++ g ++ flat gs ++ post := by simp [flat]
    rw [h2]
    unfold offs
    unfold rd gcost at *
    simp only [List.map_cons, List.sum_cons]
    rw [List.length_append] at h1
    rw [h1]
    congr 2
    rw [List.append_assoc, List.append_assoc, List.drop_left, vec_append (h _ (.head _))]

theorem mem_offs : ∀ {gs : List (Lit × List LW)} {pre post : List LW} {x : Lit} {i : Nat}, (x, i) ∈ offs pre.length gs →
    ∃ g r, (x, g) ∈ gs ∧ (pre ++ flat gs ++ post).drop i = g ++ r := by
  intro gs
  induction gs with
  | nil => intro pre post x i h; cases h
  | cons a gs ih =>
    intro pre post x i h
    obtain ⟨y, g⟩ := a
    have h2 : pre ++ flat ((y, g) :: gs) ++ post = pre ++ g ++ flat gs ++ post := by simp [flat]
    rw [h2]
    unfold offs at h
    rcases List.mem_cons.1 h with h | h
    · simp only [Prod.mk.injEq] at h; obtain ⟨rfl, rfl⟩ := h
      exact ⟨g, flat gs ++ post, .head _, by rw [List.append_assoc, List.append_assoc, List.drop_left]⟩
    · rw [← List.length_append] at h
      obtain ⟨g', r, h3, h4⟩ := ih (post := post) h
      exact ⟨g', r, .tail _ h3, h4⟩

theorem mergeLoop_spec : ∀ {n : Nat} {es : List MLit} {ws ws' : List LW} {adj adj' : List Int} {xs : List (Lit × Nat)},
    mergeLoop n ws adj es = .ok (xs, ws', adj') → es.Pairwise lvLt →
    (∀ k ∈ es, 0 ≤ k.prio ∧ k.prio.toNat < adj.length ∧ 0 < k.weight) →
    ∃ gs, xs = offs ws.length gs ∧ ws' = ws ++ flat gs ∧ (∀ x ∈ gs, PVec adj.length x.2) ∧ adj'.length = adj.length ∧
      ∀ (M : Asg) (L : Nat), gcost M gs L + (adj'[L]?).getD 0 = cost M es L + (adj[L]?).getD 0 := by
  intro n
  induction n with
  | zero => intro es ws ws' adj adj' xs h; simp [mergeLoop] at h
  | succ n ih =>
    intro es ws ws' adj adj' xs h hs hk
    cases es with
    | nil =>
      simp [mergeLoop] at h; obtain ⟨rfl, rfl, rfl⟩ := h
      exact ⟨[], rfl, by simp [flat], by simp, rfl, by simp [gcost]⟩
    | cons it es =>
      unfold mergeLoop at h
      obtain ⟨r, hr, h⟩ := bind_ok.1 h
      simp only [Except.ok.injEq, Prod.mk.injEq] at h
      obtain ⟨rfl, rfl, rfl⟩ := h
      obtain ⟨hs1, hs2⟩ := List.pairwise_cons.1 hs
      obtain ⟨hk0, hkl, hkw⟩ := hk it (.head _)
      have hg0 : GoodVec [⟨it.prio.toNat, false, it.weight⟩] := ⟨rfl, by simp, by simp; omega⟩
      obtain ⟨g, p, i1, i2, i3, i4, i5, i6⟩ := mergeInner_spec (it := it) (pre := ws) (adj := adj) hg0 hs2
        (fun k hk' hkv w hw => by
          simp at hw; subst hw; dsimp only
          rcases hs1 k hk' with h1 | h1 <;> omega) (fun k hk' => hk k (.tail _ hk')) (by simp; exact hkl)
      generalize mergeInner it (ws ++ [⟨it.prio.toNat, false, it.weight⟩]) adj es = m at *
      have hrest : m.2.2.Pairwise lvLt := by rw [i4] at hs2; exact (List.pairwise_append.1 hs2).2.1
      rw [i1] at hr
      obtain ⟨gs, j1, j2, j3, j4, j5⟩ := ih (xs := r.1) (ws' := r.2.1) (adj' := r.2.2) hr hrest
        (fun k hk' => by have := hk k (.tail _ (by rw [i4]; exact List.mem_append_right _ hk')); rw [i5]; exact this)
      refine ⟨(it.lit, g) :: gs, ?_, ?_, ?_, by rw [j4, i5], ?_⟩
      · rw [j1]; simp [offs]
      · rw [j2]; simp [flat]
      · intro x hx; rcases List.mem_cons.1 hx with rfl | hx
        · exact ⟨i2.1, fun w hw => by
            obtain ⟨v, h1, h2⟩ := i3 w hw; simp at h1; subst h1; rw [h2]; exact hkw, i2.2⟩
        · rw [← i5]; exact j3 x hx
      · intro M L
        have h1 := i6 M L
        have h2 := j5 M L
        rw [cost_cons]
        have h3 : cost M es L = cost M p L + cost M m.2.2 L := by conv_lhs => rw [i4, cost_append]
        have h4 : (if M.sat it.lit then at' [⟨it.prio.toNat, false, it.weight⟩] L else 0) =
            if it.prio = (L : Int) ∧ M.sat it.lit then it.weight else 0 := by
          rw [at'_cons, at'_nil]; dsimp only
          by_cases hL : it.prio.toNat = L
          · have hL' : it.prio = (L : Int) := by omega
            simp [hL, hL']
          · have hL' : it.prio ≠ (L : Int) := by omega
            simp [hL, hL']
        rw [h4] at h1
        unfold gcost at h2 ⊢
        simp only [List.map_cons, List.sum_cons]
        omega

/-! ## Copying weights -/

/-- Literals with positions, one position per run. -/
def goffs : Nat → List (List LW × List Lit) → List (Lit × Nat)
  | _, [] => []
  | k, (g, ls) :: hs => ls.map (·, k) ++ goffs (k + g.length) hs

/-- All vectors of the runs in a row. -/
def gflat (hs : List (List LW × List Lit)) : List LW := (hs.map Prod.fst).flatten

/-- Cost of one run. -/
def rsum (M : Asg) (g : List LW) (ls : List Lit) (L : Nat) : Int := (ls.map fun x => if M.sat x then at' g L else 0).sum

/-- Cost of all runs. -/
def gsum (M : Asg) (hs : List (List LW × List Lit)) (L : Nat) : Int := (hs.map fun h => rsum M h.1 h.2 L).sum

theorem copy_spec {N : Nat} {ws : List LW} : ∀ {xs : List (Lit × Nat)} {o1 g r : List LW} {l : Nat},
    (∀ x ∈ xs, ∃ g r, ws.drop x.2 = g ++ r ∧ PVec N g) → ws.drop l = g ++ r → PVec N g →
    xs.Pairwise (fun x y => cmpVec (ws.drop y.2) (ws.drop x.2) = false) →
    (∀ x ∈ xs, cmpVec (ws.drop x.2) (ws.drop l) = false) →
    ∃ cur hs, (copyLoop ws (some (l, o1.length)) xs (o1 ++ g)).1 = cur.map (·, o1.length) ++ goffs (o1.length + g.length) hs ∧
      (copyLoop ws (some (l, o1.length)) xs (o1 ++ g)).2 = o1 ++ g ++ gflat hs ∧ (∀ h ∈ hs, PVec N h.1 ∧ h.2 ≠ []) ∧
      ∀ M L, rd M ws xs L = rsum M g cur L + gsum M hs L := by
  intro xs
  induction xs with
  | nil => intro o1 g r l _ _ _ _ _; exact ⟨[], [], rfl, by simp [copyLoop, gflat], by simp, by simp [rd, rsum, gsum]⟩
  | cons a xs ih =>
    intro o1 g r l hx hl hg hs hge
    obtain ⟨x, i⟩ := a
    obtain ⟨hs1, hs2⟩ := List.pairwise_cons.1 hs
    obtain ⟨gi, ri, hi, hgi⟩ := hx _ (.head _)
    dsimp only at hi
    unfold copyLoop
    dsimp only
    split
    · rename_i hc
      have hv : vec (ws.drop i) = gi := by rw [hi, vec_append hgi.vec]
      rw [hv]
      obtain ⟨cur, hs', k1, k2, k3, k4⟩ := ih (o1 := o1 ++ g) (g := gi) (r := ri) (l := i) (fun y hy => hx y (.tail _ hy)) hi hgi hs2 hs1
      refine ⟨[], (gi, x :: cur) :: hs', ?_, ?_, ?_, ?_⟩
      · rw [k1]; simp [goffs]
      · rw [k2]; simp [gflat]
      · intro h hh; rcases List.mem_cons.1 hh with rfl | hh
        · exact ⟨hgi, by simp⟩
        · exact k3 h hh
      · intro M L
        have := k4 M L
        unfold rd gsum rsum at *
        simp only [List.map_cons, List.sum_cons, List.map_nil, List.sum_nil]
        rw [this, hv]; ring
    · rename_i hc
      have hc : cmpVec (ws.drop l) (ws.drop i) = false := by simpa using hc
      have hc' := hge _ (.head _)
      dsimp only at hc'
      have heq : gi = g := by
        rw [hl, hi] at hc hc'
        have h1 : ¬ LexGt (at' g) (at' gi) := by rw [← cmpVec_iff r ri hg.toGoodVec hgi.toGoodVec, hc]; simp
        have h2 : ¬ LexGt (at' gi) (at' g) := by rw [← cmpVec_iff ri r hgi.toGoodVec hg.toGoodVec, hc']; simp
        exact hgi.toGoodVec.eq_of_at hg.toGoodVec fun L => LexGt.total h2 h1 L
      subst heq
      obtain ⟨cur, hs', k1, k2, k3, k4⟩ := ih (o1 := o1) (g := gi) (r := r) (l := l) (fun y hy => hx y (.tail _ hy)) hl hg hs2
        (fun y hy => hge y (.tail _ hy))
      refine ⟨x :: cur, hs', ?_, ?_, k3, ?_⟩
      · rw [k1]; simp
      · rw [k2]
      · intro M L
        have := k4 M L
        unfold rd gsum rsum at *
        simp only [List.map_cons, List.sum_cons]
        rw [this, hi, vec_append hgi.vec]; ring

theorem copy_none {N : Nat} {ws : List LW} {xs : List (Lit × Nat)} (hx : ∀ x ∈ xs, ∃ g r, ws.drop x.2 = g ++ r ∧ PVec N g)
    (hs : xs.Pairwise (fun x y => cmpVec (ws.drop y.2) (ws.drop x.2) = false)) :
    ∃ hs, (copyLoop ws none xs []).1 = goffs 0 hs ∧ (copyLoop ws none xs []).2 = gflat hs ∧ (∀ h ∈ hs, PVec N h.1 ∧ h.2 ≠ []) ∧
      ∀ M L, rd M ws xs L = gsum M hs L := by
  cases xs with
  | nil => exact ⟨[], rfl, rfl, by simp, by simp [rd, gsum]⟩
  | cons a xs =>
    obtain ⟨x, i⟩ := a
    obtain ⟨hs1, hs2⟩ := List.pairwise_cons.1 hs
    obtain ⟨gi, ri, hi, hgi⟩ := hx _ (.head _)
    dsimp only at hi
    have hv : vec (ws.drop i) = gi := by rw [hi, vec_append hgi.vec]
    obtain ⟨cur, hs', k1, k2, k3, k4⟩ := copy_spec (ws := ws) (xs := xs) (o1 := []) (g := gi) (r := ri) (l := i)
      (fun y hy => hx y (.tail _ hy)) hi hgi hs2 hs1
    unfold copyLoop
    dsimp only
    rw [hv]
    simp only [List.length_nil, List.nil_append, Nat.zero_add] at k1 k2 ⊢
    refine ⟨(gi, x :: cur) :: hs', ?_, ?_, ?_, ?_⟩
    · rw [k1]; simp [goffs]
    · rw [k2]; simp [gflat]
    · intro h hh; rcases List.mem_cons.1 hh with rfl | hh
      · exact ⟨hgi, by simp⟩
      · exact k3 h hh
    · intro M L
      have := k4 M L
      unfold rd gsum rsum at *
      simp only [List.map_cons, List.sum_cons]
      rw [this, hv]; ring

theorem rd_perm {M : Asg} {ws : List LW} {a b : List (Lit × Nat)} (h : a.Perm b) (L : Nat) : rd M ws a L = rd M ws b L :=
  (h.map _).sum_eq

theorem rd_goffs {M : Asg} {L : Nat} : ∀ {hs : List (List LW × List Lit)} {pre post : List LW}, (∀ h ∈ hs, isVec h.1) →
    rd M (pre ++ gflat hs ++ post) (goffs pre.length hs) L = gsum M hs L := by
  intro hs
  induction hs with
  | nil => intro pre post _; rfl
  | cons a hs ih =>
    intro pre post h
    obtain ⟨g, ls⟩ := a
    have h1 := ih (pre := pre ++ g) (post := post) fun y hy => h y (.tail _ hy)
    have h2 : pre ++ gflat ((g, ls) :: hs) ++ post = pre ++ g ++ gflat hs ++ post := by simp [gflat]
    rw [h2]
    unfold goffs
    unfold rd gsum at *
    simp only [List.map_append, List.sum_append, List.map_cons, List.sum_cons]
    rw [List.length_append] at h1
    rw [h1]
    congr 1
    unfold rsum
    rw [List.map_map]
    congr 1
    apply List.map_congr_left
    intro x _
    simp only [Function.comp_apply]
    rw [List.append_assoc, List.append_assoc, List.drop_left, vec_append (h _ (.head _))]

/-! ## C20 -/

theorem pairwise_strict {l : List MLit} (h : l.Pairwise (fun x y => cmpLit y x = false))
    (hd : l.Pairwise (fun a b => ¬ (a.prio = b.prio ∧ a.lit.var = b.lit.var))) : l.Pairwise lvLt := by
  refine (h.and hd).imp ?_
  rintro a b ⟨h1, h2⟩
  rw [cmpLit_le] at h1; unfold lvLt; omega

theorem prepare_len {top : Top} {lits ls : List MLit} {adj ps : List Int} (h : prepareLevels top lits = .ok (ls, adj, ps)) :
    ps = [] ↔ lits = [] := by
  obtain ⟨_, _, h3, _⟩ := levels_spec h (sorted_prio lits)
  constructor
  · intro e
    by_contra hne
    obtain ⟨x, hx⟩ := List.exists_mem_of_ne_nil _ hne
    have := (h3 x.prio).2 ⟨x, (ssort_perm lits).mem_iff.2 hx, rfl⟩
    rw [e] at this; cases this
  · intro e
    by_contra hne
    obtain ⟨x, hx⟩ := List.exists_mem_of_ne_nil _ hne
    obtain ⟨y, hy, _⟩ := (h3 x).1 hx
    have := (ssort_perm lits).mem_iff.1 hy; rw [e] at this; cases this

/-- What `build` computes, in terms of runs of literals with the same weight vector. -/
theorem build_spec {top : Top} {lits : List MLit} {d : Data} (h : build top lits = .ok d) :
    ∃ (ls : List MLit) (adj ps : List Int), prepareLevels top lits = .ok (ls, adj, ps) ∧
      ((1 < ps.length ∧ d.prios = ps ∧ d.adjust.length = ps.length ∧ ∃ hs, (∀ h ∈ hs, PVec ps.length h.1 ∧ h.2 ≠ []) ∧
        d.lits = (goffs 0 hs).map (fun x => (x.1, (x.2 : Int))) ∧ d.weights = gflat hs ++ [⟨ps.length - 1, false, 0⟩] ∧
        ∀ M L, gsum M hs L + (d.adjust[L]?).getD 0 = cost M ls L + (adj[L]?).getD 0) ∨
      (ps.length ≤ 1 ∧ d.weights = [] ∧ ((lits = [] ∧ d.prios = [0] ∧ d.adjust = [0] ∧ ls = []) ∨ (lits ≠ [] ∧ d.prios = ps ∧ d.adjust = adj)) ∧
        d.lits = (ssort (fun a b => decide (a.weight > b.weight)) ls).map fun e => (e.lit, e.weight))) := by
  unfold build at h
  obtain ⟨⟨ls, adj, ps⟩, h1, h⟩ := bind_ok.1 h
  refine ⟨ls, adj, ps, h1, ?_⟩
  obtain ⟨p1, p2, p3, p4, p5, p6, p7⟩ := levels_spec h1 (sorted_prio lits)
  dsimp only at h
  split at h
  · rename_i hlen
    left
    obtain ⟨⟨xs, ws, adj'⟩, h2, h⟩ := bind_ok.1 h
    simp only [Except.ok.injEq] at h
    have hstrict : (ssort cmpLit ls).Pairwise lvLt := by
      refine pairwise_strict (sorted_lit ls) ?_
      have hd : ls.Pairwise (fun a b => ¬ (a.prio = b.prio ∧ a.lit.var = b.lit.var)) := p7.imp fun h => by omega
      exact hd.perm (ssort_perm ls).symm (fun h1 h2 => h1 ⟨h2.1.symm, h2.2.symm⟩)
    obtain ⟨gs, m1, m2, m3, m4, m5⟩ := mergeLoop_spec h2 hstrict (by
      intro k hk
      have hk := (ssort_perm ls).mem_iff.1 hk
      obtain ⟨i, hi, hi2⟩ := p5 k hk
      exact ⟨by omega, by omega, (p6 k hk).1⟩)
    simp only [List.length_nil, List.nil_append] at m1 m2
    have hx : ∀ x ∈ xs, ∃ g r, ws.drop x.2 = g ++ r ∧ PVec ps.length g := by
      rintro ⟨x, i⟩ hx
      rw [m1] at hx
      obtain ⟨g, r, h3, h4⟩ := mem_offs (pre := []) (post := []) hx
      rw [List.nil_append, List.append_nil, ← m2] at h4
      exact ⟨g, r, h4, p1 ▸ m3 _ h3⟩
    have hsorted : (ssort (fun a b : Lit × Nat => cmpVec (ws.drop a.2) (ws.drop b.2)) xs).Pairwise
        (fun x y => cmpVec (ws.drop y.2) (ws.drop x.2) = false) := by
      refine ssort_sorted (S := fun x => ∃ g r, ws.drop x.2 = g ++ r ∧ PVec ps.length g) ?_ ?_ hx
      · rintro a b ⟨g1, r1, e1, v1⟩ ⟨g2, r2, e2, v2⟩ hc
        rw [e1, e2] at *
        rw [cmpVec_iff _ _ v1.toGoodVec v2.toGoodVec] at hc
        have := hc.asymm
        rw [← cmpVec_iff r2 r1 v2.toGoodVec v1.toGoodVec] at this
        simpa using this
      · rintro a b c ⟨g1, r1, e1, v1⟩ ⟨g2, r2, e2, v2⟩ ⟨g3, r3, e3, v3⟩ h1 h2
        rw [e1, e2] at h1; rw [e3, e2] at h2; rw [e3, e1]
        have h1' : ¬ LexGt (at' g2) (at' g1) := by rw [← cmpVec_iff r2 r1 v2.toGoodVec v1.toGoodVec, h1]; simp
        have h2' : ¬ LexGt (at' g3) (at' g2) := by rw [← cmpVec_iff r3 r2 v3.toGoodVec v2.toGoodVec, h2]; simp
        have := LexGt.not_trans h1' h2'
        rw [← cmpVec_iff r3 r1 v3.toGoodVec v1.toGoodVec] at this
        simpa using this
    obtain ⟨hs, c1, c2, c3, c4⟩ := copy_none (fun x hx' => hx x ((ssort_perm xs).mem_iff.1 hx')) hsorted
    subst h
    refine ⟨hlen, rfl, by dsimp only; omega, hs, c3, by dsimp only; rw [c1], by dsimp only; rw [c2, m4, p1], ?_⟩
    intro M L
    have h3 := m5 M L
    rw [cost_perm (ssort_perm ls)] at h3
    rw [← h3, ← c4 M L, rd_perm (ssort_perm xs)]
    have h4 := rd_offs (M := M) (L := L) (gs := gs) (pre := []) (post := []) (fun x hx => (m3 x hx).vec)
    rw [List.nil_append, List.append_nil, ← m2, List.length_nil, ← m1] at h4
    rw [h4]
  · rename_i hlen
    right
    refine ⟨by omega, ?_⟩
    split at h
    · rename_i he
      simp only [Except.ok.injEq] at h; subst h
      refine ⟨rfl, .inl ⟨(prepare_len h1).1 he, rfl, rfl, ?_⟩, rfl⟩
      cases ls with
      | nil => rfl
      | cons a as => obtain ⟨i, hi, _⟩ := p5 a (.head _); rw [he] at hi; simp at hi
    · rename_i he
      simp only [Except.ok.injEq] at h; subst h
      exact ⟨rfl, .inr ⟨fun e => he ((prepare_len h1).2 e), rfl, rfl⟩, rfl⟩

/-- C20: for every assignment that extends the top-level assignment, the cost of every level is the cost of the statements with the
corresponding priority; the levels are exactly the priorities of the statements in decreasing order. -/
theorem C20_cost {top : Top} {lits : List MLit} {d : Data} (h : build top lits = .ok d) :
    d.prios.Pairwise (· > ·) ∧ d.adjust.length = d.prios.length ∧ (lits ≠ [] → ∀ P, P ∈ d.prios ↔ ∃ e ∈ lits, e.prio = P) ∧
    ∀ M, ext M top → ∀ (L : Nat) (P : Int), d.prios[L]? = some P → dataCost M d L = cost M lits P := by
  obtain ⟨ls, adj, ps, h1, h2⟩ := build_spec h
  obtain ⟨p1, p2, p3, p4, p5, p6, p7⟩ := levels_spec h1 (sorted_prio lits)
  have hmem : ∀ P, P ∈ ps ↔ ∃ e ∈ lits, e.prio = P := by
    intro P; rw [p3]
    constructor
    · rintro ⟨e, he, r⟩; exact ⟨e, (ssort_perm lits).mem_iff.1 he, r⟩
    · rintro ⟨e, he, r⟩; exact ⟨e, (ssort_perm lits).mem_iff.2 he, r⟩
  have hval : ∀ M, ext M top → ∀ (L : Nat) (P : Int), ps[L]? = some P → (adj[L]?).getD 0 + cost M ls L = cost M lits P := by
    intro M hM L P hP
    have hL : L < ps.length := (List.getElem?_eq_some_iff.1 hP).1
    have ha : adj[L]? = some (adj[L]'(by omega)) := List.getElem?_eq_getElem _
    have := p4 L P _ hP ha M hM
    rw [Nat.zero_add, cost_perm (ssort_perm lits)] at this
    rw [ha]; exact this
  rcases h2 with ⟨hlen, e1, e2, hs, e3, e4, e5, e6⟩ | ⟨hlen, e1, e2, e3⟩
  · refine ⟨e1 ▸ p2, by rw [e1, e2], fun _ => e1 ▸ hmem, ?_⟩
    intro M hM L P hP
    rw [e1] at hP
    rw [← hval M hM L P hP, add_comm, ← e6 M L]
    unfold dataCost
    congr 1
    have h3 := rd_goffs (M := M) (L := L) (hs := hs) (pre := []) (post := [⟨ps.length - 1, false, 0⟩]) (fun x hx => (e3 x hx).1.vec)
    rw [← h3, List.nil_append, ← e5, e4, List.map_map]
    unfold rd
    rw [List.length_nil]
    congr 1
    apply List.map_congr_left
    intro x _
    simp only [Function.comp_apply]
    have hw : weightAt d (x.1, (x.2 : Int)) L = at' (vec (d.weights.drop x.2)) L := by
      unfold weightAt; rw [if_neg (by omega)]; rfl
    rw [hw]
  · rcases e2 with ⟨f1, f2, f3, f4⟩ | ⟨f1, f2, f3⟩
    · refine ⟨by rw [f2]; simp, by rw [f2, f3], fun hne => absurd f1 hne, ?_⟩
      intro M hM L P hP
      subst f1
      unfold dataCost
      rw [e3, f4, f3]
      simp [ssort]
      cases L with
      | zero => simp
      | succ L => simp
    · refine ⟨by rw [f2]; exact p2, by rw [f2, f3, p1], fun _ => by rw [f2]; exact hmem, ?_⟩
      intro M hM L P hP
      rw [f2] at hP
      have hL : L < ps.length := (List.getElem?_eq_some_iff.1 hP).1
      rw [← hval M hM L P hP]
      unfold dataCost
      rw [e3, f3, add_comm]
      congr 1
      rw [List.map_map, ← cost_perm (ssort_perm (cmp := fun a b => decide (a.weight > b.weight)) ls)]
      unfold cost
      congr 1
      apply List.map_congr_left
      intro x hx
      have hx := (ssort_perm ls).mem_iff.1 hx
      obtain ⟨i, hi, hi2⟩ := p5 x hx
      have hL0 : L = 0 := by omega
      have hxp : x.prio = ((L : Nat) : Int) := by rw [hi2]; omega
      simp only [Function.comp_apply]
      have hw : weightAt d (x.lit, x.weight) L = x.weight := by
        unfold weightAt; rw [if_pos (by rw [f3]; omega), if_pos hL0]
      rw [hw]
      simp [hxp]

/-! ## Lower bounds -/

/-- Sum of the negative weights at level `L`. -/
def negAt (g : List LW) (L : Nat) : Int := (g.map fun w => if w.weight < 0 ∧ w.level = L then w.weight else 0).sum

theorem lowerVec_spec {wPos : Int} {lits : List (Lit × Int)} {k : Nat}
    (hrun : ((lits.dropWhile (fun x => decide (x.2 ≠ wPos))).takeWhile (fun x => decide (x.2 = wPos))).length = k) :
    ∀ {g : List LW} {low : List Int}, (∀ w ∈ g, w.level < low.length) →
    (lowerVec wPos lits low g).length = low.length ∧
    ∀ L, ((lowerVec wPos lits low g)[L]?).getD 0 = (low[L]?).getD 0 + k * negAt g L := by
  intro g
  induction g with
  | nil => intro low _; exact ⟨rfl, fun L => by simp [lowerVec, negAt]⟩
  | cons w g ih =>
    intro low hl
    unfold lowerVec
    split
    · rename_i hw
      obtain ⟨i1, i2⟩ := ih (low := low.modify w.level (· + (((lits.dropWhile (fun x => decide (x.2 ≠ wPos))).takeWhile
        (fun x => decide (x.2 = wPos))).length : Int) * w.weight)) (fun v hv => by rw [List.length_modify]; exact hl v (.tail _ hv))
      refine ⟨by rw [i1, List.length_modify], fun L => ?_⟩
      rw [i2 L, getD_modify (hl w (.head _)), hrun]
      unfold negAt
      simp only [List.map_cons, List.sum_cons, hw, true_and]
      split <;> ring
    · rename_i hw
      obtain ⟨i1, i2⟩ := ih (low := low) (fun v hv => hl v (.tail _ hv))
      refine ⟨i1, fun L => ?_⟩
      rw [i2 L]
      unfold negAt
      simp [hw]

theorem negAt_eq {g : List LW} (h : GoodVec g) (L : Nat) : negAt g L = min (at' g L) 0 := by
  have key : ∀ {g : List LW}, g.Pairwise (fun a b => a.level < b.level) → negAt g L = min (at' g L) 0 := by
    intro g
    induction g with
    | nil => intro _; simp [negAt]
    | cons w g ih =>
      intro h
      obtain ⟨h1, h2⟩ := List.pairwise_cons.1 h
      have := ih h2
      unfold negAt at *
      simp only [List.map_cons, List.sum_cons]
      rw [this, at'_cons]
      by_cases hL : w.level = L
      · have h0 : at' g L = 0 := at'_not fun v hv => by have := h1 v hv; omega
        rw [h0]; simp only [hL, and_true, if_true]; split <;> omega
      · simp [hL]
  exact key h.inc

theorem negAt_tail {w : LW} {g : List LW} (h : 0 < w.weight) (L : Nat) : negAt g L = negAt (w :: g) L := by
  unfold negAt; simp only [List.map_cons, List.sum_cons]; rw [if_neg (by omega)]; ring

theorem goffs_ge : ∀ {hs : List (List LW × List Lit)} {k : Nat} {x : Lit × Nat}, x ∈ goffs k hs → k ≤ x.2 := by
  intro hs
  induction hs with
  | nil => intro k x h; cases h
  | cons a hs ih =>
    obtain ⟨g, ls⟩ := a
    intro k x h
    unfold goffs at h
    rcases List.mem_append.1 h with h | h
    · obtain ⟨y, _, rfl⟩ := List.mem_map.1 h; exact le_refl _
    · have := ih h; omega

theorem lowerLoop_spec {sent : LW} (hsent : sent.next = false) : ∀ {hs : List (List LW × List Lit)} {n k : Nat} {low : List Int} {lits before : List (Lit × Int)},
    (∀ h ∈ hs, PVec low.length h.1 ∧ h.2 ≠ []) →
    lits = before ++ (goffs k hs).map (fun x => (x.1, (x.2 : Int))) → (∀ x ∈ before, x.2 < (k : Int)) →
    (gflat hs).length + 1 < n →
    ∀ L, ((lowerLoop lits n k low (gflat hs ++ [sent]))[L]?).getD 0 =
      (low[L]?).getD 0 + (hs.map fun h => (h.2.length : Int) * negAt h.1 L).sum := by
  intro hs
  induction hs with
  | nil =>
    intro n k low lits before _ _ _ hn L
    match n with
    | 0 => omega
    | 1 => simp [gflat] at hn
    | n + 2 => simp [gflat, lowerLoop, vec, hsent, lowerVec]
  | cons a hs ih =>
    obtain ⟨g, ls⟩ := a
    intro n k low lits before hg hlits hbef hn L
    obtain ⟨hgv, hls⟩ := hg _ (.head _)
    dsimp only at hgv hls
    have hfl : gflat ((g, ls) :: hs) = g ++ gflat hs := by simp [gflat]
    obtain ⟨w, gt, hgc⟩ : ∃ w gt, g = w :: gt := by
      cases g with
      | nil => exact hgv.vec.elim
      | cons w gt => exact ⟨w, gt, rfl⟩
    · match n with
      | 0 => omega
      | n + 1 =>
        rw [hfl] at hn ⊢
        conv_lhs => rw [hgc]
        have hv : vec (w :: (gt ++ gflat hs ++ [sent])) = w :: gt := by
          have := vec_append hgv.vec (gflat hs ++ [sent])
          rw [hgc] at this; simpa using this
        have hrun : ((lits.dropWhile (fun x => decide (x.2 ≠ (k : Int)))).takeWhile (fun x => decide (x.2 = (k : Int)))).length = ls.length := by
          rw [hlits]
          unfold goffs
          rw [List.dropWhile_append_of_pos (fun x hx => by have := hbef x hx; simp; omega)]
          rw [List.map_append]
          have hd : ∀ (l : List Lit) (r : List (Lit × Int)), l ≠ [] →
              ((l.map (·, k)).map (fun x => (x.1, (x.2 : Int))) ++ r).dropWhile (fun x => decide (x.2 ≠ (k : Int))) =
              (l.map (·, k)).map (fun x => (x.1, (x.2 : Int))) ++ r := by
            intro l r hl; cases l with
            | nil => exact absurd rfl hl
            | cons a as => simp
          rw [hd ls _ hls]
          rw [List.takeWhile_append_of_pos (fun x hx => by
            obtain ⟨y, hy, rfl⟩ := List.mem_map.1 hx; obtain ⟨z, _, rfl⟩ := List.mem_map.1 hy; simp)]
          have ht : List.takeWhile (fun x : Lit × Int => decide (x.2 = (k : Int))) ((goffs (k + g.length) hs).map (fun x => (x.1, (x.2 : Int)))) = [] := by
            cases hh : goffs (k + g.length) hs with
            | nil => rfl
            | cons y ys =>
              have := goffs_ge (hs := hs) (k := k + g.length) (x := y) (by rw [hh]; exact .head _)
              rw [List.map_cons, List.takeWhile_cons_of_neg]
              rw [hgc] at this
              simp only [List.length_cons] at this
              simp; omega
          rw [ht]; simp
        have hpos := hgv.pos w (by rw [hgc]; rfl)
        obtain ⟨l1, l2⟩ := lowerVec_spec (wPos := (k : Int)) (lits := lits) (k := ls.length) hrun (g := gt) (low := low)
          (fun v hv => hgv.lev v (by rw [hgc]; exact .tail _ hv))
        simp only [List.cons_append]
        unfold lowerLoop
        dsimp only
        rw [hv]
        have hdrop : (w :: (gt ++ gflat hs ++ [sent])).drop (w :: gt).length = gflat hs ++ [sent] := by
          rw [List.append_assoc, ← List.cons_append, List.drop_left]
        rw [hdrop]
        have hk : ((k : Int) + ((w :: gt).length : Int)) = ((k + g.length : Nat) : Int) := by rw [hgc]; push_cast; rfl
        rw [hk, List.tail_cons]
        rw [ih (before := before ++ (ls.map (·, k)).map (fun x => (x.1, (x.2 : Int)))) (fun h hh => by rw [l1]; exact hg h (.tail _ hh))
          (by rw [hlits, show goffs k ((g, ls) :: hs) = ls.map (·, k) ++ goffs (k + g.length) hs from rfl]; simp)
          (by
            intro x hx
            rw [hgc]
            rcases List.mem_append.1 hx with hx | hx
            · have := hbef x hx; simp only [List.length_cons]; push_cast; omega
            · obtain ⟨y, hy, rfl⟩ := List.mem_map.1 hx; obtain ⟨z, _, rfl⟩ := List.mem_map.1 hy
              simp only [List.length_cons]; push_cast; omega)
          (by rw [hgc] at hn; simp at hn; omega) L]
        rw [l2 L, negAt_tail hpos L]
        simp only [List.map_cons, List.sum_cons, hgc]
        ring

/-- C20: the initial lower bound of every level is the sum of the negative weights at that level, hence no assignment has a smaller
cost (before the adjustment is added). -/
theorem C20_lower {top : Top} {lits : List MLit} {d : Data} (h : build top lits = .ok d) (L : Nat) (hL : L < d.adjust.length) :
    ((lowerBounds d)[L]?).getD 0 = (d.lits.map fun x => min (weightAt d x L) 0).sum ∧
    ∀ M, ((lowerBounds d)[L]?).getD 0 + (d.adjust[L]?).getD 0 ≤ dataCost M d L := by
  have hfst : ((lowerBounds d)[L]?).getD 0 = (d.lits.map fun x => min (weightAt d x L) 0).sum := by
    obtain ⟨ls, adj, ps, h1, h2⟩ := build_spec h
    obtain ⟨p1, p2, p3, p4, p5, p6, p7⟩ := levels_spec h1 (sorted_prio lits)
    rcases h2 with ⟨hlen, e1, e2, hs, e3, e4, e5, e6⟩ | ⟨hlen, e1, e2, e3⟩
    · have h3 := lowerLoop_spec (sent := ⟨ps.length - 1, false, 0⟩) rfl (hs := hs) (n := d.weights.length + 1) (k := 0)
        (low := List.replicate d.adjust.length 0) (lits := d.lits) (before := []) (by simpa [e2] using e3) (by rw [e4]; rfl) (by simp)
        (by rw [e5]; simp) L
      unfold lowerBounds
      rw [← e5] at h3
      rw [Int.natCast_zero] at h3
      rw [h3]
      have h4 : ((List.replicate d.adjust.length (0 : Int))[L]?).getD 0 = 0 := by simp [List.getElem?_replicate]; split <;> rfl
      rw [h4, zero_add]
      -- compare with the sum over the literals
      have key : ∀ {hs : List (List LW × List Lit)} {pre post : List LW}, (∀ h ∈ hs, PVec ps.length h.1 ∧ h.2 ≠ []) →
          (hs.map fun h => (h.2.length : Int) * negAt h.1 L).sum =
          ((goffs pre.length hs).map fun x => min (at' (vec ((pre ++ gflat hs ++ post).drop x.2)) L) 0).sum := by
        intro hs
        induction hs with
        | nil => intro pre post _; rfl
        | cons a hs ih =>
          obtain ⟨g, xs⟩ := a
          intro pre post hh
          have h5 := ih (pre := pre ++ g) (post := post) fun y hy => hh y (.tail _ hy)
          have h6 : pre ++ gflat ((g, xs) :: hs) ++ post = pre ++ g ++ gflat hs ++ post := by simp [gflat]
          rw [h6]
          unfold goffs
          rw [List.length_append] at h5
          simp only [List.map_append, List.sum_append, List.map_cons, List.sum_cons]
          rw [h5]
          congr 1
          rw [List.map_map]
          have h7 : ∀ x ∈ xs, ((fun x : Lit × Nat => min (at' (vec ((pre ++ g ++ gflat hs ++ post).drop x.2)) L) 0) ∘ fun x => (x, pre.length)) x =
              negAt g L := by
            intro x _
            simp only [Function.comp_apply]
            rw [List.append_assoc, List.append_assoc, List.drop_left, vec_append (hh _ (.head _)).1.vec,
              negAt_eq (hh _ (.head _)).1.toGoodVec]
          rw [List.map_congr_left h7]
          simp
      have h5 := key (hs := hs) (pre := []) (post := [⟨ps.length - 1, false, 0⟩]) e3
      rw [h5, List.nil_append, ← e5, e4, List.map_map, List.length_nil]
      congr 1
      apply List.map_congr_left
      intro x _
      simp only [Function.comp_apply]
      have hw : weightAt d (x.1, (x.2 : Int)) L = at' (vec (d.weights.drop x.2)) L := by
        unfold weightAt; rw [if_neg (by omega)]; rfl
      rw [hw]
    · have hlow : lowerBounds d = List.replicate d.adjust.length 0 := by
        unfold lowerBounds; rw [e1]; rfl
      have hone : d.adjust.length = 1 := by
        rcases e2 with ⟨_, _, f3, _⟩ | ⟨f1, _, f3⟩
        · rw [f3]; rfl
        · have : ps ≠ [] := fun e => f1 ((prepare_len h1).1 e)
          have := List.length_pos_of_ne_nil this
          rw [f3]; omega
      have h4 : ((List.replicate d.adjust.length (0 : Int))[L]?).getD 0 = 0 := by simp [List.getElem?_replicate]; split <;> rfl
      rw [hlow, h4, e3, List.map_map]
      symm
      apply List.sum_eq_zero
      intro y hy
      obtain ⟨x, hx, rfl⟩ := List.mem_map.1 hy
      have hx := (ssort_perm ls).mem_iff.1 hx
      have := (p6 x hx).1
      simp only [Function.comp_apply]
      unfold weightAt
      rw [if_pos hone]
      split <;> simp <;> omega
  refine ⟨hfst, fun M => ?_⟩
  rw [hfst]
  unfold dataCost
  have : (d.lits.map fun x => min (weightAt d x L) 0).sum ≤ (d.lits.map fun x => if M.sat x.1 then weightAt d x L else 0).sum := by
    apply List.sum_le_sum
    intro x _
    split <;> omega
  omega

/-! ## Failures -/

theorem absorb_len {x : Lit} {P w R0 : Int} {ks : List MLit} : (absorb x P w R0 ks).2.2.length ≤ ks.length := by
  induction ks generalizing w R0 with
  | nil => simp [absorb]
  | cons k ks ih =>
    unfold absorb
    split
    · split
      · exact Nat.le_succ_of_le ih
      · exact Nat.le_succ_of_le ih
    · exact le_refl _

theorem absorb_mass {x : Lit} {P : Int} : ∀ {ks : List MLit} {w R0 : Int},
    |(absorb x P w R0 ks).1| + ((absorb x P w R0 ks).2.2.map fun e => |e.weight|).sum ≤ |w| + (ks.map fun e => |e.weight|).sum := by
  intro ks
  induction ks with
  | nil => intro w R0; simp [absorb]
  | cons k ks ih =>
    intro w R0
    unfold absorb
    split
    · split
      · have := ih (w := w + k.weight) (R0 := R0)
        have := abs_add_le w k.weight
        simp only [List.map_cons, List.sum_cons]; omega
      · have := ih (w := w - k.weight) (R0 := R0 + k.weight)
        have := abs_sub w k.weight
        simp only [List.map_cons, List.sum_cons]; omega
    · exact le_refl _

theorem mass_nonneg (l : List MLit) : 0 ≤ (l.map fun e => |e.weight|).sum := by
  induction l with
  | nil => simp
  | cons a l ih => simp only [List.map_cons, List.sum_cons]; have := abs_nonneg a.weight; omega

/-- Every round ends with a result, unless a merged weight is too large. -/
theorem levelLoop_total {top : Top} {P : Int} {L : Nat} : ∀ {n : Nat} {es : List MLit} {R0 : Int}, es.length < n →
    (levelLoop top P L n R0 es ≠ .error .bad) ∧ levelLoop top P L n R0 es ≠ .error .overflow ∧
    ((es.map fun e => |e.weight|).sum ≤ MAXW → levelLoop top P L n R0 es ≠ .error .range) ∧
    ∀ out R' rest, levelLoop top P L n R0 es = .ok (out, R', rest) → rest.length ≤ es.length ∧
      (es.head?.map MLit.prio = some P → rest.length < es.length) ∧
      (rest.map fun e => |e.weight|).sum ≤ (es.map fun e => |e.weight|).sum := by
  intro n
  induction n with
  | zero => intro es R0 h; omega
  | succ n ih =>
    intro es R0 hn
    cases es with
    | nil => simp [levelLoop]; intro out R' rest h1 h2 h3; subst h3; simp
    | cons e es =>
      have hl := absorb_len (x := e.lit) (P := P) (w := e.weight) (R0 := R0) (ks := es)
      have hm := absorb_mass (x := e.lit) (P := P) (w := e.weight) (R0 := R0) (ks := es)
      unfold levelLoop
      split
      · rename_i hP
        generalize absorb e.lit P e.weight R0 es = a at *
        dsimp only
        simp only [List.length_cons] at hn
        have hmn := mass_nonneg a.2.2
        have habs : (if a.1 < 0 then -a.1 else a.1) ≤ |a.1| := by
          have h1 := le_abs_self a.1; have h2 := neg_le_abs a.1
          split <;> omega
        generalize (if a.1 < 0 then a.2.1 + a.1 else a.2.1) = R1
        generalize (if a.1 < 0 then e.lit.neg else e.lit) = x
        generalize (if a.1 < 0 then -a.1 else a.1) = w at *
        split
        · split
          · rename_i hmax
            obtain ⟨i1, i2, i3, i4⟩ := ih (es := a.2.2) (R0 := R1) (by omega)
            generalize levelLoop top P L n R1 a.2.2 = r at *
            cases r with
            | error f =>
              refine ⟨fun h => i1 (by simpa [bind, Except.bind] using h), fun h => i2 (by simpa [bind, Except.bind] using h), fun hle h => i3 ?_ (by simpa [bind, Except.bind] using h), ?_⟩
              · simp only [List.map_cons, List.sum_cons] at hle; have := abs_nonneg a.1; omega
              · intro out R' rest h; simp [bind, Except.bind] at h
            | ok q =>
              obtain ⟨q1, q2, q3⟩ := q
              refine ⟨by simp [bind, Except.bind], by simp [bind, Except.bind], by simp [bind, Except.bind], ?_⟩
              intro out R' rest h
              simp [bind, Except.bind] at h
              obtain ⟨_, _, rfl⟩ := h
              obtain ⟨j1, _, j3⟩ := i4 q1 q2 q3 rfl
              refine ⟨by simp; omega, by simp; omega, ?_⟩
              simp only [List.map_cons, List.sum_cons]; have := abs_nonneg a.1; omega
          · rename_i hmax
            refine ⟨by simp, by simp, fun hle => ?_, by simp⟩
            exfalso; apply hmax
            simp only [List.map_cons, List.sum_cons] at hle
            omega
        · obtain ⟨i1, i2, i3, i4⟩ := ih (es := a.2.2) (R0 := if top x.var = some x.tv then R1 + w else R1) (by omega)
          refine ⟨i1, i2, fun hle => i3 ?_, ?_⟩
          · simp only [List.map_cons, List.sum_cons] at hle; have := abs_nonneg a.1; omega
          · intro out R' rest h
            obtain ⟨j1, _, j3⟩ := i4 out R' rest h
            refine ⟨by simp; omega, by simp; omega, ?_⟩
            simp only [List.map_cons, List.sum_cons]; have := abs_nonneg a.1; omega
      · rename_i hP
        refine ⟨by simp, by simp, by simp, ?_⟩
        intro out R' rest h
        simp at h; obtain ⟨_, _, rfl⟩ := h
        refine ⟨le_refl _, ?_, le_refl _⟩
        intro h; simp at h; exact absurd h hP

theorem levels_total {top : Top} : ∀ {n L : Nat} {es : List MLit}, es.length < n →
    levels top n L es ≠ .error .bad ∧ levels top n L es ≠ .error .overflow ∧
    ((es.map fun e => |e.weight|).sum ≤ MAXW → levels top n L es ≠ .error .range) := by
  intro n
  induction n with
  | zero => intro L es h; omega
  | succ n ih =>
    intro L es hn
    cases es with
    | nil => simp [levels]
    | cons e es =>
      obtain ⟨l1, l2, l3, l4⟩ := levelLoop_total (top := top) (P := e.prio) (L := L) (n := (e :: es).length + 1) (es := e :: es) (R0 := 0) (by omega)
      unfold levels
      generalize levelLoop top e.prio L ((e :: es).length + 1) 0 (e :: es) = r at *
      cases r with
      | error f => exact ⟨fun h => l1 (by simpa [bind, Except.bind] using h), fun h => l2 (by simpa [bind, Except.bind] using h),
          fun hle h => l3 hle (by simpa [bind, Except.bind] using h)⟩
      | ok q =>
        obtain ⟨o, R1, rest⟩ := q
        obtain ⟨k1, k2, k3⟩ := l4 o R1 rest rfl
        have k2 := k2 rfl
        simp only [List.length_cons] at k2 hn
        obtain ⟨i1, i2, i3⟩ := ih (L := L + 1) (es := rest) (by omega)
        dsimp only [bind, Except.bind]
        generalize levels top n (L + 1) rest = r at *
        cases r with
        | error f => exact ⟨fun h => i1 (by simpa using h), fun h => i2 (by simpa using h), fun hle h => i3 (by omega) (by simpa using h)⟩
        | ok q => simp

theorem mergeInner_len {it : MLit} : ∀ {es : List MLit} {ws : List LW} {adj : List Int}, (mergeInner it ws adj es).2.2.length ≤ es.length := by
  intro es
  induction es with
  | nil => intro ws adj; simp [mergeInner]
  | cons k ks ih =>
    intro ws adj
    unfold mergeInner
    split
    · split
      · exact Nat.le_succ_of_le ih
      · exact Nat.le_succ_of_le ih
    · exact le_refl _

theorem mergeLoop_total : ∀ {n : Nat} {es : List MLit} {ws : List LW} {adj : List Int}, es.length < n → ∃ r, mergeLoop n ws adj es = .ok r := by
  intro n
  induction n with
  | zero => intro es ws adj h; omega
  | succ n ih =>
    intro es ws adj hn
    cases es with
    | nil => exact ⟨_, rfl⟩
    | cons e es =>
      have := mergeInner_len (it := e) (es := es) (ws := ws ++ [⟨e.prio.toNat, false, e.weight⟩]) (adj := adj)
      simp only [List.length_cons] at hn
      obtain ⟨r, hr⟩ := ih (es := (mergeInner e (ws ++ [⟨e.prio.toNat, false, e.weight⟩]) adj es).2.2)
        (ws := (mergeInner e (ws ++ [⟨e.prio.toNat, false, e.weight⟩]) adj es).1)
        (adj := (mergeInner e (ws ++ [⟨e.prio.toNat, false, e.weight⟩]) adj es).2.1) (by omega)
      exact ⟨_, by unfold mergeLoop; dsimp only; rw [hr]; rfl⟩

/-- C20: the only failure is the reported error about a merged weight that does not fit into 32 bits, and it cannot happen if the
absolute values of all weights add up to a 32-bit number. -/
theorem C20_defined (top : Top) (lits : List MLit) :
    (∃ d, build top lits = .ok d) ∨ (build top lits = .error .range ∧ ¬ (lits.map fun e => |e.weight|).sum ≤ MAXW) := by
  obtain ⟨h1, h2, h3⟩ := levels_total (top := top) (n := lits.length + 1) (L := 0) (es := ssort cmpPrio lits)
    (by rw [(ssort_perm lits).length_eq]; omega)
  have hm : ((ssort cmpPrio lits).map fun e => |e.weight|).sum = (lits.map fun e => |e.weight|).sum := ((ssort_perm lits).map _).sum_eq
  rw [hm] at h3
  unfold build prepareLevels
  generalize levels top (lits.length + 1) 0 (ssort cmpPrio lits) = r at *
  cases r with
  | error f =>
    right
    cases f with
    | overflow => exact absurd rfl h2
    | bad => exact absurd rfl h1
    | range => exact ⟨rfl, fun h => h3 h rfl⟩
  | ok q =>
    left
    obtain ⟨ls, adj, ps⟩ := q
    dsimp only [bind, Except.bind]
    split
    · obtain ⟨r, hr⟩ := mergeLoop_total (n := ls.length + 1) (es := ssort cmpLit ls) (ws := []) (adj := adj)
        (by rw [(ssort_perm ls).length_eq]; omega)
      unfold mergeLevels
      rw [hr]
      exact ⟨_, rfl⟩
    · split
      · exact ⟨_, rfl⟩
      · exact ⟨_, rfl⟩

/-! ## Copying the data into a new builder -/

theorem goffs_vec {N : Nat} : ∀ {hs : List (List LW × List Lit)} {pre post : List LW}, (∀ h ∈ hs, PVec N h.1 ∧ h.2 ≠ []) →
    ∀ x ∈ goffs pre.length hs, PVec N (vec ((pre ++ gflat hs ++ post).drop x.2)) := by
  intro hs
  induction hs with
  | nil => intro pre post _ x hx; simp [goffs] at hx
  | cons a hs ih =>
    obtain ⟨g, xs⟩ := a
    intro pre post hh x hx
    have h6 : pre ++ gflat ((g, xs) :: hs) ++ post = pre ++ g ++ gflat hs ++ post := by simp [gflat]
    rw [h6]
    unfold goffs at hx
    rcases List.mem_append.1 hx with hx | hx
    · obtain ⟨y, _, rfl⟩ := List.mem_map.1 hx
      dsimp only
      rw [List.append_assoc, List.append_assoc, List.drop_left, vec_append (hh _ (.head _)).1.vec]
      exact (hh _ (.head _)).1
    · refine ih (pre := pre ++ g) (post := post) (fun y hy => hh y (.tail _ hy)) x ?_
      rw [List.length_append]; exact hx

theorem prio_inj {ps : List Int} (hp : ps.Pairwise (· > ·)) {L i : Nat} {P : Int} (hL : ps[L]? = some P) (hi : i < ps.length) :
    (ps[i]?).getD (-(i : Int)) = P ↔ i = L := by
  obtain ⟨hl, e⟩ := List.getElem?_eq_some_iff.1 hL
  rw [List.getElem?_eq_getElem hi, Option.getD_some]
  constructor
  · intro h
    rcases Nat.lt_trichotomy i L with a | a | a
    · have := List.pairwise_iff_getElem.1 hp i L hi hl a; omega
    · exact a
    · have := List.pairwise_iff_getElem.1 hp L i hl hi a; omega
  · rintro rfl; exact e

theorem vec_cost {M : Asg} {ps : List Int} (hp : ps.Pairwise (· > ·)) {L : Nat} {P : Int} (hL : ps[L]? = some P) (x : Lit) :
    ∀ {g : List LW}, g.Pairwise (fun a b => a.level < b.level) → (∀ w ∈ g, w.level < ps.length) →
    cost M (g.map fun w => ⟨x, (ps[w.level]?).getD (-(w.level : Int)), w.weight⟩) P = if M.sat x then at' g L else 0 := by
  intro g
  induction g with
  | nil => intro _ _; simp
  | cons w g ih =>
    intro h1 h2
    rw [List.map_cons, cost_cons, ih (List.pairwise_cons.1 h1).2 fun v hv => h2 v (.tail _ hv), at'_cons]
    simp only [prio_inj hp hL (h2 w (.head _))]
    by_cases hw : w.level = L
    · have : at' g L = 0 := at'_not fun v hv => by have := (List.pairwise_cons.1 h1).1 v hv; omega
      simp only [hw, this, true_and, if_true]
      split <;> simp
    · simp [hw]

theorem adj_cost {M : Asg} {ps : List Int} (h0 : M.sat ⟨0, false⟩) (hp : ps.Pairwise (· > ·)) {L : Nat} {P : Int}
    (hL : ps[L]? = some P) : ∀ {adj : List Int} {k : Nat}, k + adj.length ≤ ps.length →
    cost M (((adj.zipIdx k).filter (fun a => decide (a.1 ≠ 0))).map fun a => ⟨⟨0, false⟩, (ps[a.2]?).getD (-(a.2 : Int)), a.1⟩) P =
      if k ≤ L then (adj[L - k]?).getD 0 else 0 := by
  intro adj
  induction adj with
  | nil => intro k _; simp
  | cons a adj ih =>
    intro k hk
    rw [List.length_cons] at hk
    have h1 := ih (k := k + 1) (by omega)
    rw [List.zipIdx_cons]
    have h2 : cost M ((((a, k) :: adj.zipIdx (k + 1)).filter (fun a => decide (a.1 ≠ 0))).map
        fun a => ⟨⟨0, false⟩, (ps[a.2]?).getD (-(a.2 : Int)), a.1⟩) P =
        (if k = L then a else 0) + if k + 1 ≤ L then (adj[L - (k + 1)]?).getD 0 else 0 := by
      rw [List.filter_cons]
      split
      · rw [List.map_cons, cost_cons, h1]
        simp only [prio_inj hp hL (show k < ps.length by omega), h0, and_true]
      · rename_i hz
        have : a = 0 := by simpa using hz
        rw [h1, this]; simp
    rw [h2]
    by_cases e1 : k = L
    · subst e1; simp
    · by_cases e2 : k ≤ L
      · obtain ⟨j, rfl⟩ : ∃ j, L = k + 1 + j := ⟨L - (k + 1), by omega⟩
        have e3 : k + 1 + j - k = j + 1 := by omega
        simp [e1, e3]; omega
      · simp [e1, e2]; omega

/-- C20: copying the data of one minimize statement into a builder (to merge it with further statements) keeps the cost of every
assignment at every priority, including constant parts, also negative ones. -/
theorem C20_copy {top : Top} {lits : List MLit} {d : Data} (h : build top lits = .ok d) {M : Asg} (h0 : M.sat ⟨0, false⟩)
    {L : Nat} {P : Int} (hL : d.prios[L]? = some P) : cost M (fromData d) P = dataCost M d L := by
  have hprio := (C20_cost h).1
  have hal := (C20_cost h).2.1
  obtain ⟨ls, adj, ps, h1, h2⟩ := build_spec h
  have hadj : cost M ((d.adjust.zipIdx.filter (fun a => decide (a.1 ≠ 0))).map
      fun a => ⟨⟨0, false⟩, (d.prios[a.2]?).getD (-(a.2 : Int)), a.1⟩) P = (d.adjust[L]?).getD 0 := by
    have := adj_cost (M := M) h0 hprio hL (adj := d.adjust) (k := 0) (by omega)
    simpa using this
  have happ : ∀ a b : List MLit, cost M (a ++ b) P = cost M a P + cost M b P := by intro a b; simp [cost]
  unfold fromData dataCost
  rw [happ, hadj]
  congr 1
  rcases h2 with ⟨hlen, e1, e2, hs, e3, e4, e5, e6⟩ | ⟨hlen, e1, e2, e3⟩
  · rw [if_neg (by omega)]
    have hv : ∀ x ∈ d.lits, PVec ps.length (vec (d.weights.drop x.2.toNat)) := by
      intro x hx
      rw [e4] at hx
      obtain ⟨y, hy, rfl⟩ := List.mem_map.1 hx
      have := goffs_vec (pre := []) (post := [⟨ps.length - 1, false, 0⟩]) e3 y hy
      rw [e5]; simpa using this
    have hw : ∀ x : Lit × Int, weightAt d x L = at' (vec (d.weights.drop x.2.toNat)) L := by
      intro x; unfold weightAt; rw [if_neg (by omega)]; rfl
    generalize hd : d.lits = xs at *
    clear e4 hd
    induction xs with
    | nil => rfl
    | cons x xs ih =>
      rw [List.flatMap_cons, happ, ih fun y hy => hv y (.tail _ hy), List.map_cons, List.sum_cons, hw]
      congr 1
      have hx := hv x (.head _)
      exact vec_cost hprio hL x.1 hx.inc (by rw [e1]; exact hx.lev)
  · have hone : d.prios.length = 1 := by
      rcases e2 with ⟨_, f2, f3, _⟩ | ⟨f1, f2, f3⟩
      · rw [f2]; rfl
      · have : ps ≠ [] := fun e => f1 ((prepare_len h1).1 e)
        have := List.length_pos_of_ne_nil this
        rw [f2]; omega
    rw [if_pos (by omega)]
    have hL0 : L = 0 := by have := (List.getElem?_eq_some_iff.1 hL).1; omega
    subst hL0
    have hh : d.prios.headD 0 = P := by
      cases hpr : d.prios with
      | nil => rw [hpr] at hone; simp at hone
      | cons a t => rw [hpr] at hL; simpa using hL
    have hw : ∀ x : Lit × Int, weightAt d x 0 = x.2 := by
      intro x; unfold weightAt; rw [if_pos (by omega)]; rfl
    unfold cost
    rw [List.map_map]
    congr 1
    apply List.map_congr_left
    intro x _
    simp only [Function.comp_apply, hh, hw, true_and]

/-! ## Concrete cases -/

namespace BuilderEx

/-- Specification (test data). -/
def a : Lit := ⟨1, false⟩
def b : Lit := ⟨2, false⟩
def c : Lit := ⟨3, false⟩
def top0 : Top := fun v => if v = 0 then some true else if v = 3 then some false else none

/-- `#minimize {2@1: a, -1@2: b, 3@1: ~b, 4@1: ~a, 5@2: c, 7@1: ~c}` with `c` false at the top level: two levels, the weights of `b` are
`1@2` (on `~b`, with adjustment -1) and `3@1`. -/
def stm : List MLit := [⟨a, 1, 2⟩, ⟨b, 2, -1⟩, ⟨b.neg, 1, 3⟩, ⟨a.neg, 1, 4⟩, ⟨c, 2, 5⟩, ⟨c.neg, 1, 7⟩, ⟨⟨0, false⟩, 2, 10⟩]

example : build top0 stm = .ok ⟨[(b.neg, 0), (a.neg, 2)], [⟨0, true, 1⟩, ⟨1, false, 3⟩, ⟨1, false, 2⟩, ⟨1, false, 0⟩], [9, 9], [2, 1]⟩ := by
  decide +kernel

/-- A complementary literal at a lower level gets a negative weight, which shows in the lower bound. -/
example : (build top0 [⟨a, 2, 1⟩, ⟨a.neg, 1, 3⟩, ⟨b, 2, 1⟩, ⟨b.neg, 1, 3⟩]).toOption.map (fun d => (d.adjust, lowerBounds d)) =
    some ([0, 6], [0, -6]) := by decide +kernel

/-- Copying this statement and building again gives the same costs. -/
example : (build top0 stm).toOption.map fromData = some [⟨b.neg, 2, 1⟩, ⟨b.neg, 1, 3⟩, ⟨a.neg, 1, 2⟩, ⟨⟨0, false⟩, 2, 9⟩, ⟨⟨0, false⟩, 1, 9⟩] := by
  decide +kernel

/-- The error is reachable. -/
example : build top0 [⟨a, 1, 2 ^ 31 - 1⟩, ⟨a, 1, 1⟩] = .error .range := by decide +kernel

end BuilderEx

end Clasp.Mini
