/- C37: the invariant of the minimize constraint. -/
import Verif.Opt.MinLem
import Mathlib.Data.List.Nodup
namespace Clasp.MinC
open Core
open Clasp.Mini (Data LW vec at' isVec at'_cons at'_nil at'_not vec_append)

/-- Specification: well-formed shared data. Literals are sorted by decreasing weight, weights are positive (in the lexicographic order), every variable occurs once,
and the sum on the most important level fits. `build` yields such data (`build_wf`). -/
structure Wf (d : Data) : Prop where
  one : d.weights = [] ↔ rules d = 1
  ge : 1 ≤ rules d
  good : ∀ i, i ≤ d.lits.length → Good d (sec d i)
  sorted : ∀ i j, i < j → j < d.lits.length → V (rules d) (wv d (sec d j)) ≤ V (rules d) (wv d (sec d i))
  lead : ∀ i, i < d.lits.length → 0 < wv d (sec d i) (lvl d (sec d i))
  inj : ∀ i j, i < d.lits.length → j < d.lits.length → (lit d i).var = (lit d j).var → i = j
  var : ∀ i, i < d.lits.length → (lit d i).var ≠ 0
  small : ((List.range d.lits.length).map fun i => wv d (sec d i) 0).sum < MAXB
  last : d.weights ≠ [] → ∃ ws, d.weights = ws ++ [⟨rules d - 1, false, 0⟩]

theorem lvl_lt {d : Data} (hd : Wf d) {i : Nat} (hi : i ≤ d.lits.length) : lvl d (sec d i) < rules d := by
  have := hd.ge
  unfold lvl
  split
  · omega
  · rename_i hw
    obtain ⟨g, r, e, hv⟩ := hd.good i hi hw
    rw [e]
    cases g with
    | nil => exact absurd hv.vec (by simp [isVec])
    | cons w g => exact hv.lev w (.head _)

theorem Wf.pos {d : Data} (hd : Wf d) (i : Nat) (hi : i < d.lits.length) : 0 < V (rules d) (wv d (sec d i)) := by
  rw [← V_zero, V_lt]
  exact ⟨lvl d (sec d i), lvl_lt hd (by omega), fun j hj => (wv_lt (hd.good i (by omega)) hj).symm, hd.lead i hi⟩

theorem Wf.levs {d : Data} (hd : Wf d) {i j : Nat} (h : i ≤ j) (hj : j < d.lits.length) : lvl d (sec d i) ≤ lvl d (sec d j) := by
  rcases Nat.eq_or_lt_of_le h with rfl | h
  · exact Nat.le_refl _
  by_contra hc
  refine not_lt.2 (hd.sorted i j h hj) (V_lt.2 ?_)
  refine ⟨lvl d (sec d j), lvl_lt hd (by omega), fun k hk => ?_, ?_⟩
  · rw [wv_lt (hd.good i (by omega)) (by omega), wv_lt (hd.good j (by omega)) hk]
  · rw [wv_lt (hd.good i (by omega)) (by omega)]; exact hd.lead j hj

/-- Proof device: the weight of a literal as a vector. -/
def W (d : Data) (i : Nat) : G (rules d) := V (rules d) (wv d (sec d i))

/-- Proof device: sum of the weights of processed literals (pairs of index and level). -/
def S (d : Data) (U : List (Nat × Nat)) : G (rules d) := (U.map fun x => W d x.1).sum

/-- Proof device: the same as a function. -/
def sumOf (d : Data) (U : List (Nat × Nat)) : Nat → Int := fun L => (U.map fun x => wv d (sec d x.1) L).sum

theorem V_sumOf (d : Data) (U : List (Nat × Nat)) : V (rules d) (sumOf d U) = S d U := by
  induction U with
  | nil => rfl
  | cons x U ih =>
    have : sumOf d (x :: U) = fun L => wv d (sec d x.1) L + sumOf d U L := by funext L; simp [sumOf]
    rw [this, V_add, ih]; simp [S, W]

/-- Proof device: level of the newest processed literal. -/
def hl : List (Nat × Nat) → Nat
  | [] => 0
  | x :: _ => x.2

/-- Proof device: the stack for the processed literals `U`. -/
def mk : List (Nat × Nat) → List (Nat × Bool)
  | [] => []
  | x :: u => (x.1, decide (hl u ≠ x.2)) :: mk u

/-- Proof device: the levels with an undo watch. -/
def lv : List (Nat × Nat) → List Nat
  | [] => []
  | x :: u => if hl u ≠ x.2 then x.2 :: lv u else lv u

/-- Proof device: the literal with index `i` is false on level `L`, or implied to be false on level `L`. -/
def FalseAt (d : Data) (tr imps : List Entry) (L i : Nat) : Prop :=
  (∃ e ∈ tr, e.lit = (lit d i).neg ∧ e.lev ≤ L) ∨ ∃ e ∈ imps, e.lit = (lit d i).neg ∧ e.lev ≤ L

/-- Proof device: saved positions: every literal before is processed, or false on an earlier level (`F`). -/
def PosOk (F : Nat → Nat → Prop) (root : Nat) : List (Nat × Nat) → List Nat → Prop
  | [], ps => ps = []
  | x :: u, ps => if hl u ≠ x.2 then
      ∃ p ps', ps = p :: ps' ∧ (root < x.2 → ∀ j < p, j ∈ u.map Prod.fst ∨ F (max (hl u) root) j) ∧ PosOk F root u ps'
    else PosOk F root u ps

/-- Proof device: the first `up` processed literals. -/
def pre (U : List (Nat × Nat)) (up : Nat) : List (Nat × Nat) := U.drop (U.length - up)

/-- Proof device: literals up to a level. -/
def upto (U : List (Nat × Nat)) (l : Nat) : List (Nat × Nat) := U.filter fun x => decide (x.2 ≤ l)

/-- Proof device: the antecedent `r` for `p` is sound; `P` says what is known about the literals of the reason. -/
def RsOk (d : Data) (U : List (Nat × Nat)) (P : Nat × Nat → Prop) (p : Lit) (lev : Nat) (r : Rs) : Prop :=
  ∃ i, i < d.lits.length ∧ p = (lit d i).neg ∧ r.up ≤ U.length ∧ (∀ x ∈ pre U r.up, P x ∧ x.2 ≤ lev) ∧
    V (rules d) r.bnd < S d (pre U r.up) + W d i ∧ r.base ≤ lev ∧ i ∉ (pre U r.up).map Prod.fst

/-- Proof device: levels below are complete: if there is a conflict, the current level is not. -/
def top (w : Wd) : Nat := if w.conf = none then w.dl + 1 else w.dl

/-- The part of the invariant about the constraint and the assignment; `I` are the literals implied on earlier levels, levels below `K` are
complete. -/
structure Core0 (d : Data) (w : Wd) (I : List Entry) (U : List (Nat × Nat)) (K : Nat) : Prop where
  trN : (w.tr.map (·.lit.var)).Nodup
  trS : w.tr.Pairwise (fun a b => b.lev ≤ a.lev)
  trL : ∀ e ∈ w.tr, e.lev ≤ w.dl
  und : w.con.undo = mk U
  uw : w.uw = lv U
  psO : PosOk (FalseAt d w.tr I) w.root U w.con.ps
  uN : (U.map Prod.fst).Nodup
  uS : U.Pairwise (fun a b => b.2 ≤ a.2)
  uT : ∀ x ∈ U, x.1 < d.lits.length ∧ ∃ e ∈ w.tr, e.lit = lit d x.1 ∧ e.lev = x.2
  seen : ∀ i, w.con.seen i = true ↔ i ∈ U.map Prod.fst
  sum : w.con.sum = sumOf d U
  act : ∀ j < w.con.act, w.con.sum j = w.con.opt j
  actL : w.con.act < rules d
  pos : max (hl U) w.root < K → ∀ i < w.con.pos, i ∈ U.map Prod.fst ∨ FalseAt d w.tr I (max (hl U) w.root) i
  posL : w.con.pos = 0 ∨ w.root ≤ w.dl
  posN : w.con.pos ≤ d.lits.length
  rs : ∀ a e b r, w.tr = a ++ e :: b → e.rs = some r → RsOk d U (fun x => ∃ y ∈ b, y.lit = lit d x.1) e.lit e.lev r
  rsI : ∀ e ∈ I, e.lev ≤ w.dl → ∀ r, e.rs = some r → RsOk d U (fun _ => True) e.lit e.lev r

/-- Together with pending notifications. -/
structure Core (d : Data) (w : Wd) (U : List (Nat × Nat)) : Prop extends Core0 d w w.imps U (top w) where
  pendT : ∀ i ∈ w.pend, i < d.lits.length ∧ i ∉ U.map Prod.fst ∧ ∃ e ∈ w.tr, e.lit = lit d i ∧ e.lev = w.dl
  pendN : w.pend.Nodup
  pendC : ∀ i < d.lits.length, isTrue w.tr (lit d i) = true → i ∈ U.map Prod.fst ∨ i ∈ w.pend
  imp : ∀ e ∈ w.imps, e.lev < w.dl ∧ (w.conf = none → isTrue w.tr e.lit = true)

/-- Proof device: if the literals up to level `l` imply that `i` is false, then `i` is false on level `l`. -/
def Claim (d : Data) (w : Wd) (U : List (Nat × Nat)) (i l : Nat) : Prop :=
  i ∉ (upto U l).map Prod.fst → V (rules d) w.con.opt < S d (upto U l) + W d i → FalseAt d w.tr w.imps l i

/-- The invariant. -/
structure Inv (d : Data) (w : Wd) (U : List (Nat × Nat)) : Prop extends Core d w U where
  rootL : w.root ≤ w.dl
  baseL : w.base ≤ w.root
  conf : ∀ p r, w.conf = some (p, some r) → RsOk d U (fun x => ∃ y ∈ w.tr, y.lit = lit d x.1) p w.dl r ∧ isTrue w.tr p.neg = true
  claim : ∀ i, i < d.lits.length → (w.stale = false ∨ i < w.con.pos) → ∀ l, w.root ≤ l → l < top w → Claim d w U i l
  bnd : w.stale = false → S d U ≤ V (rules d) w.con.opt
  tgt : ∀ t, w.target = some t → S d (upto U t) ≤ V (rules d) w.con.opt
  stl : ∀ t, w.target = some t → w.stale = true

/-! ### Sums -/

theorem S_nil (d : Data) : S d [] = 0 := rfl
theorem S_cons (d : Data) (x : Nat × Nat) (U : List (Nat × Nat)) : S d (x :: U) = W d x.1 + S d U := by simp [S]
theorem S_append (d : Data) (U U' : List (Nat × Nat)) : S d (U ++ U') = S d U + S d U' := by simp [S]

theorem S_sub {d : Data} (hd : Wf d) {U U' : List (Nat × Nat)} (h : U'.Sublist U) (hU : ∀ x ∈ U, x.1 < d.lits.length) : S d U' ≤ S d U := by
  unfold S
  refine List.Sublist.sum_le_sum (h.map _) ?_
  intro a ha
  obtain ⟨x, hx, rfl⟩ := List.mem_map.1 ha
  exact (hd.pos _ (hU x hx)).le

theorem W_mono {d : Data} (hd : Wf d) {i j : Nat} (h : i ≤ j) (hj : j < d.lits.length) : W d j ≤ W d i := by
  rcases Nat.lt_or_ge i j with h1 | h1
  · exact hd.sorted i j h1 hj
  · rw [Nat.le_antisymm h h1]

theorem levelAt_eq {d : Data} (hd : Wf d) (i : Nat) : levelAt d i = lvl d (sec d i) := by
  unfold levelAt lvl
  by_cases h : rules d = 1
  · rw [if_pos h, if_pos (hd.one.2 h)]
  · rw [if_neg h, if_neg fun e => h (hd.one.1 e)]

/-! ### Stack of processed literals -/

theorem mk_length (U : List (Nat × Nat)) : (mk U).length = U.length := by
  induction U with
  | nil => rfl
  | cons x u ih => simp [mk, ih]

theorem hl_mem {U : List (Nat × Nat)} (h : U ≠ []) : ∃ x ∈ U, x.2 = hl U := by
  cases U with
  | nil => exact absurd rfl h
  | cons x u => exact ⟨x, .head _, rfl⟩

theorem le_hl {U : List (Nat × Nat)} (h : U.Pairwise (fun a b => b.2 ≤ a.2)) : ∀ x ∈ U, x.2 ≤ hl U := by
  cases U with
  | nil => intro x hx; cases hx
  | cons y u =>
    intro x hx
    rcases List.mem_cons.1 hx with rfl | hx
    · exact Nat.le_refl _
    · exact (List.pairwise_cons.1 h).1 x hx

theorem lv_le {U : List (Nat × Nat)} (h : U.Pairwise (fun a b => b.2 ≤ a.2)) : ∀ l ∈ lv U, l ≤ hl U := by
  induction U with
  | nil => intro l hl'; cases hl'
  | cons x u ih =>
    have h1 := List.pairwise_cons.1 h
    have hle : hl u ≤ x.2 := by
      cases u with
      | nil => exact Nat.zero_le _
      | cons y u => exact h1.1 y (.head _)
    intro l hl'
    rw [lv] at hl'
    split at hl'
    · rcases List.mem_cons.1 hl' with rfl | hl'
      · exact Nat.le_refl _
      · have := ih h1.2 l hl'; simp only [hl]; omega
    · have := ih h1.2 l hl'; simp only [hl]; omega

theorem upto_all {U : List (Nat × Nat)} {l : Nat} (h : ∀ x ∈ U, x.2 ≤ l) : upto U l = U := by
  unfold upto; rw [List.filter_eq_self]; intro x hx; simpa using h x hx

theorem upto_upto {U : List (Nat × Nat)} {l m : Nat} (h : l ≤ m) : upto (upto U m) l = upto U l := by
  unfold upto; rw [List.filter_filter]; congr 1; funext x; simp; omega

theorem upto_sub (U : List (Nat × Nat)) (l : Nat) : (upto U l).Sublist U := List.filter_sublist

theorem upto_mono {U : List (Nat × Nat)} {l m : Nat} (h : l ≤ m) : (upto U l).Sublist (upto U m) := by
  rw [← upto_upto h]; exact upto_sub _ _

theorem mem_upto {U : List (Nat × Nat)} {l : Nat} {x : Nat × Nat} : x ∈ upto U l ↔ x ∈ U ∧ x.2 ≤ l := by simp [upto]

/-- The literals up to a level are the oldest ones. -/
theorem upto_drop {U : List (Nat × Nat)} (h : U.Pairwise (fun a b => b.2 ≤ a.2)) (l : Nat) : ∃ a, U = a ++ upto U l ∧ ∀ x ∈ a, l < x.2 := by
  induction U with
  | nil => exact ⟨[], rfl, by simp⟩
  | cons x u ih =>
    have h1 := List.pairwise_cons.1 h
    by_cases hx : x.2 ≤ l
    · refine ⟨[], ?_, by simp⟩
      rw [List.nil_append, upto_all]
      intro y hy
      rcases List.mem_cons.1 hy with rfl | hy
      · exact hx
      · have := h1.1 y hy; omega
    · obtain ⟨a, e, ha⟩ := ih h1.2
      refine ⟨x :: a, ?_, ?_⟩
      · have : upto (x :: u) l = upto u l := by unfold upto; rw [List.filter_cons_of_neg (by simpa using hx)]
        rw [this, List.cons_append, ← e]
      · intro y hy
        rcases List.mem_cons.1 hy with rfl | hy
        · omega
        · exact ha y hy

theorem pre_append {a U : List (Nat × Nat)} {up : Nat} (h : up ≤ U.length) : pre (a ++ U) up = pre U up := by
  unfold pre
  rw [List.drop_append, List.drop_eq_nil_of_le (by simp; omega), List.nil_append]
  congr 1
  simp; omega

/-- If the first `up` literals are on levels up to `l`, they are among the literals up to `l`. -/
theorem pre_upto {U : List (Nat × Nat)} (h : U.Pairwise (fun a b => b.2 ≤ a.2)) {l up : Nat} (hu : up ≤ U.length)
    (hp : ∀ x ∈ pre U up, x.2 ≤ l) : up ≤ (upto U l).length ∧ pre (upto U l) up = pre U up := by
  obtain ⟨a, e, ha⟩ := upto_drop h l
  have hlen : U.length = a.length + (upto U l).length := by rw [← List.length_append, ← e]
  have h1 : up ≤ (upto U l).length := by
    by_contra hc
    have h2 : U.length - up < a.length := by omega
    have h3 : (a[U.length - up]) ∈ pre U up := by
      unfold pre
      rw [List.mem_drop_iff_getElem]
      refine ⟨0, by omega, ?_⟩
      have : U[U.length - up + 0]'(by omega) = (a ++ upto U l)[U.length - up]'(by rw [← e]; omega) := by
        simp only [Nat.add_zero]; congr 1
      rw [this, List.getElem_append_left h2]
    have h4 := hp _ h3
    have h5 := ha _ (List.getElem_mem h2)
    omega
  refine ⟨h1, ?_⟩
  conv_rhs => rw [e]
  exact (pre_append h1).symm

theorem pre_sub (U : List (Nat × Nat)) (up : Nat) : (pre U up).Sublist U := List.drop_sublist _ _

theorem PosOk.mono {F F' : Nat → Nat → Prop} {root M : Nat} : ∀ {U : List (Nat × Nat)} {ps : List Nat}, U.Pairwise (fun a b => b.2 ≤ a.2) →
    (∀ x ∈ U, x.2 ≤ M) → (∀ L, L < M → ∀ i, F L i → F' L i) → PosOk F root U ps → PosOk F' root U ps := by
  intro U
  induction U with
  | nil => intro ps _ _ _ h; exact h
  | cons x u ih =>
    intro ps hs hM hF h
    have h1 := List.pairwise_cons.1 hs
    have hle : hl u ≤ x.2 := by
      cases u with
      | nil => exact Nat.zero_le _
      | cons y u => exact h1.1 y (.head _)
    have hx := hM x (.head _)
    have hM' : ∀ y ∈ u, y.2 ≤ M := fun y hy => hM y (.tail _ hy)
    rw [PosOk] at h ⊢
    split
    · rename_i hne
      rw [if_pos hne] at h
      obtain ⟨p, ps', e, h2, h3⟩ := h
      exact ⟨p, ps', e, fun hr j hj => (h2 hr j hj).imp id fun h => hF _ (by omega) _ h, ih h1.2 hM' hF h3⟩
    · rename_i hne
      rw [if_neg hne] at h
      exact ih h1.2 hM' hF h

/-- A different root level. -/
theorem PosOk.root {F : Nat → Nat → Prop} {r r' : Nat} (hF : ∀ L L' i, L ≤ L' → F L i → F L' i) : ∀ {U : List (Nat × Nat)} {ps : List Nat},
    (r ≤ r' ∨ ∀ x ∈ U, x.2 ≤ r') → PosOk F r U ps → PosOk F r' U ps := by
  intro U
  induction U with
  | nil => intro ps _ h; exact h
  | cons x u ih =>
    intro ps hx h
    rw [PosOk] at h ⊢
    have hx' : r ≤ r' ∨ ∀ y ∈ u, y.2 ≤ r' := hx.imp id fun h y hy => h y (.tail _ hy)
    split
    · rename_i hne
      rw [if_pos hne] at h
      obtain ⟨p, ps', e, h2, h3⟩ := h
      refine ⟨p, ps', e, fun hr j hj => ?_, ih hx' h3⟩
      rcases hx with hx | hx
      · exact (h2 (by omega) j hj).imp id fun h => hF _ _ _ (by omega) h
      · have := hx x (.head _); omega
    · rename_i hne
      rw [if_neg hne] at h
      exact ih hx' h

/-- The newest level with processed literals. -/
theorem seg {F : Nat → Nat → Prop} {root l : Nat} (hl0 : 0 < l) : ∀ {U : List (Nat × Nat)} {ps : List Nat}, U.Pairwise (fun a b => b.2 ≤ a.2) →
    hl U = l → PosOk F root U ps → lv U = l :: lv (upto U (l - 1)) ∧
    ∃ p ps', ps = p :: ps' ∧ (root < l → ∀ j < p, j ∈ (upto U (l - 1)).map Prod.fst ∨ F (max (hl (upto U (l - 1))) root) j) ∧
      PosOk F root (upto U (l - 1)) ps' := by
  intro U
  induction U with
  | nil => intro ps _ h; simp [hl] at h; omega
  | cons x u ih =>
    intro ps hs h hp
    have h1 := List.pairwise_cons.1 hs
    have hx : x.2 = l := h
    have e : upto (x :: u) (l - 1) = upto u (l - 1) := by unfold upto; rw [List.filter_cons_of_neg (by simp; omega)]
    rw [e]
    rw [PosOk] at hp
    rw [lv]
    by_cases hne : hl u ≠ x.2
    · rw [if_pos hne] at hp ⊢
      have hu : upto u (l - 1) = u := upto_all fun y hy => by
        have h2 := le_hl h1.2 y hy
        have h3 : hl u ≤ x.2 := by
          cases u with
          | nil => exact Nat.zero_le _
          | cons y u => exact h1.1 y (.head _)
        omega
      rw [hu]
      obtain ⟨p, ps', e1, h2, h3⟩ := hp
      refine ⟨by rw [hx], p, ps', e1, ?_, h3⟩
      rw [hx] at h2; exact h2
    · rw [if_neg hne] at hp ⊢
      exact ih h1.2 (by omega) hp

theorem act_sub {d : Data} (hd : Wf d) {sum opt : Nat → Int} {act i : Nat} (hi : i < d.lits.length) (ha : ∀ j < act, sum j = opt j)
    (haL : act < rules d) : (∀ j < (sub d sum (sec d i) act).2, (sub d sum (sec d i) act).1 j = opt j) ∧ (sub d sum (sec d i) act).2 ≤ act ∧
      (d.weights ≠ [] → (sub d sum (sec d i) act).2 ≤ lvl d (sec d i)) := by
  rw [sub_eq (hd.good i (by omega))]
  by_cases hw : d.weights = []
  · have : (sub d sum (sec d i) act).2 = act := by unfold sub; rw [if_pos hw]
    rw [this]
    have := hd.one.1 hw
    exact ⟨fun j hj => by omega, Nat.le_refl _, fun h => absurd hw h⟩
  · rw [sub_lev _ _ hw]
    refine ⟨fun j hj => ?_, by omega, fun _ => by omega⟩
    show sum j - wv d (sec d i) j = opt j
    rw [wv_lt (hd.good i (by omega)) (by omega), Int.sub_zero]
    exact ha j (by omega)

theorem popLoop_spec {d : Data} (hd : Wf d) {l : Nat} (hl0 : 0 < l) : ∀ {U : List (Nat × Nat)} {c : Con}, U.Pairwise (fun a b => b.2 ≤ a.2) →
    hl U = l → (U.map Prod.fst).Nodup → (∀ x ∈ U, x.1 < d.lits.length) → (∀ i, c.seen i = true ↔ i ∈ U.map Prod.fst) → c.sum = sumOf d U →
    (∀ j < c.act, c.sum j = c.opt j) → c.act < rules d →
    ∃ c', popLoop d (mk U) c = some c' ∧ c'.undo = mk (upto U (l - 1)) ∧ (∀ i, c'.seen i = true ↔ i ∈ (upto U (l - 1)).map Prod.fst) ∧
      c'.sum = sumOf d (upto U (l - 1)) ∧ (∀ j < c'.act, c'.sum j = c'.opt j) ∧ c'.act < rules d ∧ c'.opt = c.opt ∧ c'.pos = c.pos ∧ c'.ps = c.ps ∧ c'.act ≤ c.act := by
  intro U
  induction U with
  | nil => intro c _ h; simp [hl] at h; omega
  | cons x u ih =>
    intro c hs h hn hN hseen hsum hact hactL
    have h1 := List.pairwise_cons.1 hs
    have hx : x.2 = l := h
    have hxN := hN x (.head _)
    have e : upto (x :: u) (l - 1) = upto u (l - 1) := by unfold upto; rw [List.filter_cons_of_neg (by simp; omega)]
    rw [List.map_cons, List.nodup_cons] at hn
    obtain ⟨a1, a2, a3⟩ := act_sub hd hxN hact hactL
    have hsum' : (sub d c.sum (sec d x.1) c.act).1 = sumOf d u := by
      rw [sub_eq (hd.good x.1 (by omega)), hsum]
      funext L; simp [sumOf]
    have hseen' : ∀ i, Function.update c.seen x.1 false i = true ↔ i ∈ u.map Prod.fst := by
      intro i
      by_cases hi : i = x.1
      · subst hi; rw [Function.update_self]; simp only [Bool.false_eq_true, false_iff]; exact hn.1
      · rw [Function.update_of_ne hi, hseen, List.map_cons, List.mem_cons]
        simp [hi]
    rw [mk, popLoop, e]
    by_cases hne : hl u ≠ x.2
    · rw [decide_eq_true hne, if_pos rfl]
      have hu : upto u (l - 1) = u := upto_all fun y hy => by
        have h2 := le_hl h1.2 y hy
        have h3 : hl u ≤ x.2 := by
          cases u with
          | nil => exact Nat.zero_le _
          | cons y u => exact h1.1 y (.head _)
        omega
      rw [hu]
      exact ⟨_, rfl, rfl, hseen', hsum', a1, by dsimp only; omega, rfl, rfl, rfl, a2⟩
    · rw [decide_eq_false hne, if_neg (by simp)]
      obtain ⟨c', b1, b2, b3, b4, b5, b6, b7, b8, b9, b10⟩ := ih (c := { c with undo := mk u, seen := Function.update c.seen x.1 false, sum := (sub d c.sum (sec d x.1) c.act).1, act := (sub d c.sum (sec d x.1) c.act).2 })
        h1.2 (by omega) hn.2 (fun y hy => hN y (.tail _ hy)) hseen' hsum' a1 (by dsimp only; omega)
      exact ⟨c', b1, b2, b3, b4, b5, b6, b7, b8, b9, Nat.le_trans b10 a2⟩

end Clasp.MinC
