/- Helper lemmas for C34 (PBBuilder). -/
import Verif.Input.Pb
import Verif.Input.SatLem
import Verif.Weight.EqExact
import Verif.Opt.BuilderLem
namespace Clasp.Input
open Core Weight Function

/-! ### Specification -/

/-- Specification: a product is true iff all its literals are. -/
def termTrue (M : Asg) (t : List Lit) : Prop := ∀ l ∈ t, M.sat l

open Classical in
/-- Specification: value of a sum of weighted products. -/
noncomputable def psum (M : Asg) (ts : List (Int × List Lit)) : Int := (ts.map fun t => if termTrue M t.2 then t.1 else 0).sum

/-- Specification: the constraint of a call. -/
def relSat (M : Asg) (ts : List (Int × List Lit)) (eq : Bool) (b : Int) : Prop := if eq then psum M ts = b else psum M ts ≥ b

/-- Specification: what a call requires of `M`. -/
def PCall.hard (M : Asg) : PCall → Prop
  | .con ts b eq cw => cw ≤ 0 → relSat M ts eq b
  | _ => True

open Classical in
/-- Specification: what a call adds to the costs of `M`. -/
noncomputable def PCall.cost (M : Asg) : PCall → Int
  | .con ts b eq cw => if cw ≤ 0 ∨ relSat M ts eq b then 0 else cw
  | .obj ts => psum M ts
  | .bound _ => 0

/-- Specification: costs of `M`. -/
noncomputable def pcosts (cs : List PCall) (M : Asg) : Int := (cs.map (PCall.cost M)).sum

/-- Specification: the literals of a call belong to the variables `0..n`. -/
def PCall.le (n : Nat) : PCall → Prop
  | .con ts _ _ _ => ∀ t ∈ ts, ∀ l ∈ t.2, l.var ≤ n
  | .obj ts => ∀ t ∈ ts, ∀ l ∈ t.2, l.var ≤ n
  | .bound _ => True

/-- Specification: soft constraints that are treated correctly: inequalities, and over a single term only if they can be violated by
making the term as small as possible. -/
def PCall.sup : PCall → Prop
  | .con ts b eq cw => 0 < cw → eq = false ∧ ∀ t, ts = [t] → min t.1 0 < b
  | _ => True

/-- Specification: a hard equality. -/
def PCall.isEq : PCall → Prop
  | .con _ _ eq cw => cw ≤ 0 ∧ eq = true
  | _ => False

/-! ### Products -/

theorem prodLoop_ok {top : Top} {arr : List Lit} : ∀ (xs pre : List Lit) (last : Lit) (out : List Lit), arr = pre ++ xs →
    out.length ≤ pre.length → (last = litTrue ∨ last ∈ out) → (∀ l ∈ out, l ∈ pre) →
    (∀ M : Asg, M.sat litTrue → ext M top → (termTrue M pre ↔ termTrue M out)) →
    match prodLoop top arr xs last out with
    | .false => ∀ M : Asg, M.sat litTrue → ext M top → ¬ termTrue M arr
    | .redo ls => (∀ l ∈ ls, l ∈ arr) ∧ ∀ M : Asg, M.sat litTrue → ext M top → (termTrue M arr ↔ termTrue M ls)
    | .done ls => (∀ l ∈ ls, l ∈ arr) ∧ ∀ M : Asg, M.sat litTrue → ext M top → (termTrue M arr ↔ termTrue M ls) := by
  intro xs
  induction xs with
  | nil =>
    intro pre last out e _ _ h2 h3
    rw [List.append_nil] at e; subst e
    exact ⟨h2, h3⟩
  | cons x xs ih =>
    intro pre last out e hlen h1 h2 h3
    have happ : ∀ (M : Asg) (a b : List Lit), termTrue M (a ++ b) ↔ termTrue M a ∧ termTrue M b := by
      intro M a b; unfold termTrue; simp only [List.mem_append, or_imp, forall_and]
    have hx : x ∈ arr := by rw [e]; simp
    have e' : arr = (pre ++ [x]) ++ xs := by rw [e]; simp
    unfold prodLoop
    split_ifs with c1 c2 c3
    · intro M ht hM hall
      have hxs := hall x hx
      rcases c1 with c1 | c1
      · have := hM _ _ c1
        unfold Asg.sat at hxs
        rw [this] at hxs
        cases x.tv <;> simp at hxs
      · have hl : M.sat last := by
          rcases h1 with rfl | h1
          · exact ht
          · exact hall last (by rw [e]; exact List.mem_append_left _ (h2 _ h1))
        rw [← c1, Asg.sat_neg] at hl
        exact hl hxs
    · refine ⟨fun l hl => ?_, fun M ht hM => ?_⟩
      · rcases List.mem_append.mp hl with hl | hl
        · rw [e]; exact List.mem_append_left _ (h2 l hl)
        · exact List.mem_of_mem_drop hl
      · rw [happ]
        constructor
        · intro h
          refine ⟨(h3 M ht hM).1 fun l hl => h l (by rw [e]; exact List.mem_append_left _ hl), fun l hl => h l (List.mem_of_mem_drop hl)⟩
        · rintro ⟨a, b⟩
          rw [e, happ]
          refine ⟨(h3 M ht hM).2 a, fun l hl => b l ?_⟩
          rw [e, List.drop_append_of_le_length hlen]
          exact List.mem_append_right _ hl
    · refine ih (pre ++ [x]) x (out ++ [x]) e' (by simpa using hlen) (.inr (by simp)) ?_ ?_
      · intro l hl
        rcases List.mem_append.mp hl with hl | hl
        · exact List.mem_append_left _ (h2 l hl)
        · exact List.mem_append_right _ hl
      · intro M ht hM; rw [happ, happ, h3 M ht hM]
    · refine ih (pre ++ [x]) last out e' (by simp; omega) h1 (fun l hl => List.mem_append_left _ (h2 l hl)) ?_
      intro M ht hM
      rw [happ, h3 M ht hM]
      refine ⟨fun h => h.1, fun h => ⟨h, fun l hl => ?_⟩⟩
      rw [List.mem_singleton] at hl; subst hl
      by_cases hl : last = l
      · rcases h1 with rfl | h1
        · rw [← hl]; exact ht
        · rw [← hl]; exact h _ h1
      · have : top l.var = some l.tv := by
          by_contra hc; exact c3 ⟨hc, hl⟩
        exact hM _ _ this

theorem termTrue_end (M : Asg) (h : M.sat litTrue) (ls : List Lit) : termTrue M (prodEnd ls) ↔ termTrue M ls := by
  unfold prodEnd
  split
  · next e => subst e; unfold termTrue; simp [h]
  · rfl

theorem prodEnd_ne (ls : List Lit) : prodEnd ls ≠ [] := by
  unfold prodEnd; split
  · simp
  · assumption

theorem prodEnd_sub {ls arr : List Lit} (h : ∀ l ∈ ls, l ∈ arr) : ∀ l ∈ prodEnd ls, l ∈ arr ∨ l.var = 0 := by
  intro l hl
  unfold prodEnd at hl
  split at hl
  · right; simp at hl; rw [hl]; rfl
  · exact .inl (h l hl)

theorem productSubsumed_ok {top : Top} {lits ls : List Lit} (h : productSubsumed top lits = .ok ls) : ls ≠ [] ∧
    (∀ l ∈ ls, l ∈ lits ∨ l.var = 0) ∧ ∀ M : Asg, M.sat litTrue → ext M top → (termTrue M lits ↔ termTrue M ls) := by
  have hfalse : ∀ M : Asg, M.sat litTrue → ¬ termTrue M [litTrue.neg] := by
    intro M ht hf
    have := hf litTrue.neg (by simp)
    rw [Asg.sat_neg] at this
    exact this ht
  have hfv : ∀ l ∈ [litTrue.neg], l ∈ lits ∨ l.var = 0 := by
    intro l hl; simp at hl; right; rw [hl]; rfl
  unfold productSubsumed at h
  have h1 := prodLoop_ok (top := top) (arr := lits) lits [] litTrue [] rfl (by simp) (.inl rfl) (by simp) (fun _ _ _ => Iff.rfl)
  generalize hg : prodLoop top lits lits litTrue [] = g at h h1
  cases g with
  | false =>
    simp only [Except.ok.injEq] at h; subst h
    exact ⟨by simp, hfv, fun M ht hM => ⟨fun h => absurd h (h1 M ht hM), fun h => absurd h (hfalse M ht)⟩⟩
  | done out =>
    simp only [Except.ok.injEq] at h; subst h
    exact ⟨prodEnd_ne _, prodEnd_sub h1.1, fun M ht hM => (h1.2 M ht hM).trans (termTrue_end M ht _).symm⟩
  | redo ls0 =>
    dsimp only at h h1
    have hp := Clasp.Mini.ssort_perm (cmp := ltLit) ls0
    generalize Clasp.Mini.ssort ltLit ls0 = arr at h hp
    have hperm : ∀ M, termTrue M ls0 ↔ termTrue M arr := fun M => by
      unfold termTrue; exact forall_congr' fun l => by rw [hp.mem_iff]
    have h2 := prodLoop_ok (top := top) (arr := arr) arr [] litTrue [] rfl (by simp) (.inl rfl) (by simp) (fun _ _ _ => Iff.rfl)
    generalize hg : prodLoop top arr arr litTrue [] = g at h h2
    cases g with
    | false =>
      simp only [Except.ok.injEq] at h; subst h
      exact ⟨by simp, hfv, fun M ht hM => ⟨fun h => absurd ((hperm M).1 ((h1.2 M ht hM).1 h)) (h2 M ht hM), fun h => absurd h (hfalse M ht)⟩⟩
    | done out =>
      simp only [Except.ok.injEq] at h; subst h
      exact ⟨prodEnd_ne _, prodEnd_sub fun l hl => h1.1 l (hp.mem_iff.1 (h2.1 l hl)), fun M ht hM =>
        (h1.2 M ht hM).trans ((hperm M).trans ((h2.2 M ht hM).trans (termTrue_end M ht _).symm))⟩
    | redo => simp at h

theorem clause2_ok (d : Db) (a b : Lit) (c : List Lit) : (d.clause (a :: b :: c)).ok = d.ok := rfl

theorem prodBins_ok (eq : Lit) : ∀ (xs : List Lit) (d : Db), d.ok = true → (prodBins eq xs d).ok = true ∧ ((prodBins eq xs d).mini = d.mini ∧ (prodBins eq xs d).top = d.top) ∧
    ∀ M, (prodBins eq xs d).Models M ↔ d.Models M ∧ (M.sat eq → termTrue M xs) := by
  intro xs
  induction xs with
  | nil => intro d h; exact ⟨h, ⟨rfl, rfl⟩, fun M => by simp [prodBins, termTrue]⟩
  | cons x xs ih =>
    intro d h
    rw [prodBins, if_pos h]
    obtain ⟨a, b, c⟩ := ih (d.clause [eq.neg, x]) h
    refine ⟨a, b, fun M => ?_⟩
    rw [c, clause_models]
    have : M.satC [eq.neg, x] ↔ (M.sat eq → M.sat x) := by
      rw [satC_cons, satC_cons, Asg.sat_neg]
      by_cases h : M.sat eq <;> simp [h]
    rw [this]
    unfold termTrue
    simp only [List.forall_mem_cons]
    tauto

theorem prodCons_ok {eq : Lit} {ls : List Lit} {d : Db} (h : d.ok = true) (hne : ls ≠ []) : ((prodCons eq ls d).mini = d.mini ∧ (prodCons eq ls d).top = d.top) ∧
    ∀ M, (prodCons eq ls d).Models M ↔ d.Models M ∧ (M.sat eq ↔ termTrue M ls) := by
  obtain ⟨a, b, c⟩ := prodBins_ok eq ls d h
  unfold prodCons
  dsimp only
  rw [if_pos a]
  constructor
  · cases ls with
    | nil => exact absurd rfl hne
    | cons x xs => cases xs <;> exact b
  · intro M
    rw [clause_models, c]
    have : M.satC (ls.map Lit.neg ++ [eq]) ↔ (termTrue M ls → M.sat eq) := by
      unfold Asg.satC termTrue
      constructor
      · rintro ⟨p, hp, hs⟩ hall
        rcases List.mem_append.mp hp with hp | hp
        · obtain ⟨x, hx, rfl⟩ := List.mem_map.mp hp
          rw [Asg.sat_neg] at hs; exact absurd (hall x hx) hs
        · rw [List.mem_singleton] at hp; rwa [← hp]
      · intro hi
        by_cases hall : ∀ l ∈ ls, M.sat l
        · exact ⟨eq, by simp, hi hall⟩
        · push Not at hall
          obtain ⟨x, hx, hs⟩ := hall
          exact ⟨x.neg, List.mem_append_left _ (List.mem_map_of_mem hx), (Asg.sat_neg M x).2 hs⟩
    rw [this]
    tauto

/-! ### Creating constraints keeps what is assigned -/

theorem force_mono {top top' : Top} {p : Lit} (h : force top p = some top') {v : Nat} {b : Bool} (hv : top v = some b) : top' v = some b := by
  by_cases e : v = p.var
  · subst e
    unfold force at h
    rw [hv] at h
    dsimp only at h
    split at h
    · cases h; exact hv
    · cases h
  · rw [(force_some h).2.1 v e]; exact hv

theorem backprop_mono {bt : Bool} {B : Int} : ∀ {ls : List WL} {top : Top} {bound reach : Int} {t : Top} {r : Rep} {d : Bool},
    backprop bt B top ls bound reach = .ok (some (t, r, d)) → ∀ {v : Nat} {b : Bool}, top v = some b → t v = some b := by
  intro ls
  induction ls with
  | nil => intro top bound reach t r d h; cases h
  | cons l ls ih =>
    intro top bound reach t r d h v b hv
    unfold backprop at h
    split at h
    · obtain ⟨re, _, h⟩ := bind_ok.1 h
      split at h
      · cases h
      · next t1 hf =>
        have h1 := force_mono hf hv
        have key : ∀ bo : Int, (if (bt && decide (bo ≤ 0)) = true then (.ok (some (t1, ⟨l :: ls, bo, re⟩, true)) : R (Option (Top × Rep × Bool)))
            else if ls = [] then .ok (some (t1, ⟨[], bo, re⟩, true)) else backprop bt B t1 ls bo re) = .ok (some (t, r, d)) → t v = some b := by
          intro bo h
          split at h
          · cases h; exact h1
          · split at h
            · cases h; exact h1
            · exact ih h h1
        dsimp only at h
        split at h
        · obtain ⟨bo, _, h⟩ := bind_ok.1 h; exact key _ h
        · obtain ⟨bo, _, h⟩ := bind_ok.1 h; exact key _ h
    · cases h; exact hv

theorem propagate_mono {top : Top} {W : Lit} {r : Rep} {t : Top} {r' : Rep} (h : propagate top W r = .ok (some (t, r'))) {v : Nat} {b : Bool}
    (hv : top v = some b) : t v = some b := by
  unfold propagate at h
  have hf : ∀ p : Lit, (Except.ok ((force top p).map (·, r)) : R (Option (Top × Rep))) = .ok (some (t, r')) → t v = some b := by
    intro p h
    simp only [Except.ok.injEq, Option.map_eq_some_iff] at h
    obtain ⟨t1, h1, h2⟩ := h
    cases h2
    exact force_mono h1 hv
  split at h
  · exact hf _ h
  split at h
  · exact hf _ h
  split at h
  · cases h; exact hv
  have h : ∃ bt B q, backprop bt B top r.lits r.bound r.reach = .ok q ∧ (match q with
        | none => (.ok none : R (Option (Top × Rep)))
        | some (top', r', done) =>
          if done = true then Except.ok (some (top', r'))
          else
            match r'.lits.head?, r'.lits.getLast? with
            | some f, some l =>
              if f.w > 1 ∧ f.w = l.w then do
                let c ← toCard f.w r'
                Except.ok (some (top', c))
              else Except.ok (some (top', r'))
            | _, _ => Except.error Fail.bad) = .ok (some (t, r')) := by
    dsimp only at h
    split at h
    · obtain ⟨d, _, h⟩ := bind_ok.1 h
      obtain ⟨B, _, h⟩ := bind_ok.1 h
      obtain ⟨q, hq, h⟩ := bind_ok.1 h
      exact ⟨_, _, q, hq, h⟩
    · obtain ⟨B, _, h⟩ := bind_ok.1 h
      obtain ⟨q, hq, h⟩ := bind_ok.1 h
      exact ⟨_, _, q, hq, h⟩
  obtain ⟨bt, B, q, hq, h⟩ := h
  cases q with
  | none => cases h
  | some q =>
    obtain ⟨t1, r1, d⟩ := q
    dsimp only at h
    have := backprop_mono hq hv
    split at h
    · cases h; exact this
    · split at h
      · split at h
        · obtain ⟨c, _, h⟩ := bind_ok.1 h
          cases h; exact this
        · cases h; exact this
      · cases h

theorem doCreate_mono {ex ad : Bool} {top : Top} {W : Lit} {r r' : Rep} {m : Made} (h : doCreate ex ad top W r = .ok (some (m, r'))) {v : Nat} {b : Bool}
    (hv : top v = some b) : m.top v = some b := by
  unfold doCreate at h
  obtain ⟨p, hp, h⟩ := bind_ok.1 h
  cases p with
  | none => cases h
  | some q =>
    obtain ⟨t, r1⟩ := q
    have := propagate_mono hp hv
    dsimp only at h
    split at h
    · cases h; exact this
    · split at h <;> (cases h; exact this)

theorem made_mono {d : Db} {eq ex ad : Bool} {W : Lit} {lits : List WL} {bound : Int} {res : Option (List Made)}
    (h : createCon eq ex ad d.top W lits bound = .ok res) {v : Nat} {b : Bool} (hv : d.top v = some b) : (d.made res).top v = some b := by
  cases res with
  | none => exact hv
  | some ms =>
    unfold createCon at h
    obtain ⟨b', hb', h⟩ := bind_ok.1 h
    obtain ⟨r, hr, h⟩ := bind_ok.1 h
    split at h
    · obtain ⟨p, hp, h⟩ := bind_ok.1 h
      cases p with
      | none => cases h
      | some q =>
        dsimp only at h
        obtain ⟨b2, hb2, h⟩ := bind_ok.1 h
        obtain ⟨⟨ls, s⟩, hls, h⟩ := bind_ok.1 h
        obtain ⟨p0, hp0, h⟩ := bind_ok.1 h
        cases p0 with
        | none => cases h
        | some q0 =>
          cases h
          exact doCreate_mono hp0 (doCreate_mono hp hv)
    · obtain ⟨p, hp, h⟩ := bind_ok.1 h
      cases p with
      | none => cases h
      | some q => cases h; exact doCreate_mono hp hv

/-! ### The invariant -/

/-- Proof device: a definition of an auxiliary variable. -/
abbrev Defn := Nat × (Asg → Prop)

/-- Proof device: `M` follows the definitions. -/
def follows (M : Asg) (ds : List Defn) : Prop := ∀ d ∈ ds, (M d.1 = true ↔ d.2 M)

/-- Proof device: every user assignment can be extended. -/
structure Defs (n aux : Nat) (ds : List Defn) : Prop where
  rng : ∀ d ∈ ds, n < d.1 ∧ d.1 < aux
  dis : (ds.map Prod.fst).Nodup
  dep : ∀ d ∈ ds, ∀ M M' : Asg, (∀ v ≤ n, M v = M' v) → (d.2 M ↔ d.2 M')

open Classical in
/-- Proof device: the extension; variables without definition are false. -/
noncomputable def extend (n : Nat) (ds : List Defn) (M : Asg) : Asg :=
  fun v => if v ≤ n then M v else decide (∃ d ∈ ds, d.1 = v ∧ d.2 M)

theorem extend_le {n : Nat} {ds : List Defn} {M : Asg} : ∀ v ≤ n, extend n ds M v = M v := fun v hv => by unfold extend; rw [if_pos hv]

theorem nodup_fst {ds : List Defn} (h : (ds.map Prod.fst).Nodup) {a b : Defn} (ha : a ∈ ds) (hb : b ∈ ds) (he : a.1 = b.1) : a = b := by
  induction ds with
  | nil => cases ha
  | cons x xs ih =>
    rw [List.map_cons, List.nodup_cons] at h
    rcases List.mem_cons.mp ha with rfl | ha
    · rcases List.mem_cons.mp hb with rfl | hb
      · rfl
      · exact absurd (he ▸ List.mem_map_of_mem hb) h.1
    · rcases List.mem_cons.mp hb with rfl | hb
      · exact absurd (he ▸ List.mem_map_of_mem ‹a ∈ xs›) h.1
      · exact ih h.2 ha hb

theorem Defs.follows {n aux : Nat} {ds : List Defn} (h : Defs n aux ds) (M : Asg) : follows (extend n ds M) ds := by
  intro d hd
  have h1 := h.rng d hd
  rw [h.dep d hd (extend n ds M) M extend_le]
  unfold extend
  rw [if_neg (by omega)]
  simp only [decide_eq_true_eq]
  constructor
  · rintro ⟨e, he, hv, hM⟩
    rw [← nodup_fst h.dis he hd hv]; exact hM
  · intro hM; exact ⟨d, hd, rfl, hM⟩

theorem Defs.aux {n aux : Nat} {ds : List Defn} (h : Defs n aux ds) (M : Asg) {v : Nat} (hn : n < aux) (hv : aux ≤ v) : extend n ds M v = false := by
  unfold extend
  rw [if_neg (by omega)]
  simp only [decide_eq_false_iff_not]
  rintro ⟨d, hd, e, _⟩
  have := h.rng d hd
  omega

theorem Defs.snoc {n aux : Nat} {ds : List Defn} (h : Defs n aux ds) (hn : n < aux) (P : Asg → Prop)
    (hP : ∀ M M' : Asg, (∀ v ≤ n, M v = M' v) → (P M ↔ P M')) : Defs n (aux + 1) (ds ++ [(aux, P)]) := by
  refine ⟨fun d hd => ?_, ?_, fun d hd => ?_⟩
  · rcases List.mem_append.mp hd with hd | hd
    · have := h.rng d hd; omega
    · rw [List.mem_singleton] at hd; subst hd; dsimp only; omega
  · rw [List.map_append, List.nodup_append]
    refine ⟨h.dis, by simp, ?_⟩
    intro a ha b hb
    obtain ⟨d, hd, rfl⟩ := List.mem_map.mp ha
    simp only [List.map_cons, List.map_nil, List.mem_singleton] at hb
    have := h.rng d hd
    omega
  · rcases List.mem_append.mp hd with hd | hd
    · exact h.dep d hd
    · rw [List.mem_singleton] at hd; subst hd; exact hP

theorem follows_snoc {M : Asg} {ds : List Defn} {d : Defn} : follows M (ds ++ [d]) ↔ follows M ds ∧ (M d.1 = true ↔ d.2 M) := by
  unfold follows
  simp only [List.mem_append, List.mem_singleton, or_imp, forall_and, forall_eq]

/-- Proof device: equalities can be trusted. -/
def Exact (all : List PCall) : Prop := (∀ c ∈ all, ¬ c.isEq) ∨ ∃ M : Asg, M 0 = true ∧ ∀ c ∈ all, c.hard M

/-- Proof device: what holds after the calls `done` of `all`. -/
structure PInv (n : Nat) (all done : List PCall) (ds : List Defn) (s : Pb) : Prop where
  defs : Defs n s.aux ds
  lt : n < s.aux
  top0 : s.db.top 0 = some true
  tru : ∀ M, s.db.Models M → M 0 = true
  defd : ∀ M, s.db.Models M → follows M ds
  comp : ∀ M : Asg, M 0 = true → (∀ c ∈ done, c.hard M) → follows M ds → s.db.Models M
  sound : Exact all → ∀ M, s.db.Models M → ∀ c ∈ done, c.hard M
  cost : ∀ M, s.db.Models M → val M s.db.mini = pcosts done M
  prods : ∀ p ∈ s.prods, (p.2.sign = false ∧ ∃ d ∈ ds, d.1 = p.2.var ∧ d.2 = fun M => termTrue M p.1)

theorem prepare_inv (n a b : Nat) (all : List PCall) : PInv n all [] [] (Pb.prepare n a b) := by
  have h0 : ∀ M : Asg, M 0 = true → ext M (fun v => if v = 0 then some true else none) := by
    intro M hM v b hv
    simp only at hv
    split at hv
    · next e => subst e; cases hv; exact hM
    · cases hv
  refine ⟨⟨by simp, by simp, by simp⟩, by unfold Pb.prepare; dsimp only; omega, rfl, ?_, fun M _ d hd => (nomatch hd), ?_, fun _ M _ c hc => (nomatch hc), fun M _ => by simp [Pb.prepare, pcosts], fun p hp => nomatch hp⟩
  · intro M hM; exact hM.2.1 0 true rfl
  · intro M hM _ _
    exact ⟨rfl, h0 M hM, fun c hc => (nomatch hc), fun c hc => nomatch hc⟩

theorem termTrue_congr {n : Nat} {t : List Lit} (h : ∀ l ∈ t, l.var ≤ n) {M M' : Asg} (hag : ∀ v ≤ n, M v = M' v) : termTrue M t ↔ termTrue M' t := by
  unfold termTrue
  exact forall_congr' fun l => imp_congr_right fun hl => by unfold Asg.sat; rw [hag _ (h l hl)]

theorem psum_congr {n : Nat} {ts : List (Int × List Lit)} (h : ∀ t ∈ ts, ∀ l ∈ t.2, l.var ≤ n) {M M' : Asg} (hag : ∀ v ≤ n, M v = M' v) : psum M ts = psum M' ts := by
  unfold psum
  congr 1
  refine List.map_congr_left fun t ht => ?_
  have := termTrue_congr (h t ht) hag
  by_cases hc : termTrue M t.2
  · rw [if_pos hc, if_pos (this.1 hc)]
  · rw [if_neg hc, if_neg (fun h' => hc (this.2 h'))]

theorem relSat_congr {n : Nat} {ts : List (Int × List Lit)} (h : ∀ t ∈ ts, ∀ l ∈ t.2, l.var ≤ n) {M M' : Asg} (hag : ∀ v ≤ n, M v = M' v) (eq : Bool) (b : Int) :
    relSat M ts eq b ↔ relSat M' ts eq b := by
  unfold relSat; rw [psum_congr h hag]

theorem PCall.congr {n : Nat} {c : PCall} (h : c.le n) {M M' : Asg} (hag : ∀ v ≤ n, M v = M' v) : (c.hard M ↔ c.hard M') ∧ c.cost M = c.cost M' := by
  cases c with
  | con ts b eq cw =>
    have := relSat_congr h hag eq b
    refine ⟨by simp only [PCall.hard, this], ?_⟩
    rw [PCall.cost, PCall.cost]
    by_cases hc : cw ≤ 0 ∨ relSat M ts eq b
    · rw [if_pos hc, if_pos (hc.imp_right this.1)]
    · rw [if_neg hc, if_neg (fun h' => hc (h'.imp_right this.2))]
  | obj ts => exact ⟨Iff.rfl, psum_congr h hag⟩
  | bound => exact ⟨Iff.rfl, rfl⟩

theorem sat_pos (M : Asg) (v : Nat) : M.sat ⟨v, false⟩ ↔ M v = true := by unfold Asg.sat Lit.tv; simp
theorem sat_litTrue (M : Asg) : M.sat litTrue ↔ M 0 = true := sat_pos M 0

/-- One product. -/
theorem term_inv {n : Nat} {all done : List PCall} {ds : List Defn} {s s' : Pb} {t : List Lit} {x : Lit} (hi : PInv n all done ds s)
    (ht : ∀ l ∈ t, l.var ≤ n) (h : s.term t = .ok (s', x)) :
    ∃ ds', PInv n all done ds' s' ∧ (∀ M, s'.db.Models M → s.db.Models M) ∧ s'.db.mini = s.db.mini ∧
      ∀ M, s'.db.Models M → (M.sat x ↔ termTrue M t) := by
  have hprod : s.addProduct t = .ok (s', x) → ∃ ds', PInv n all done ds' s' ∧ (∀ M, s'.db.Models M → s.db.Models M) ∧ s'.db.mini = s.db.mini ∧
      ∀ M, s'.db.Models M → (M.sat x ↔ termTrue M t) := by
    intro h
    unfold Pb.addProduct at h
    split at h
    · next hok =>
      simp only [Except.ok.injEq, Prod.mk.injEq] at h
      obtain ⟨rfl, rfl⟩ := h
      exact ⟨ds, hi, fun _ h => h, rfl, fun M hM => absurd hM.1 (by rw [hok]; simp)⟩
    · next hok =>
      have hok : s.db.ok = true := by simpa using hok
      obtain ⟨ls, hls, h⟩ := bind_ok.1 h
      obtain ⟨g1, g2, g3⟩ := productSubsumed_ok hls
      have hx0 : ∀ M, s.db.Models M → (termTrue M t ↔ termTrue M ls) := fun M hM => g3 M ((sat_litTrue M).2 (hi.tru M hM)) hM.2.1
      have hls' : ∀ l ∈ ls, l.var ≤ n := fun l hl => (g2 l hl).elim (ht l) fun e => by omega
      have hp : s.product ls = .ok (s', x) → ∃ ds', PInv n all done ds' s' ∧ (∀ M, s'.db.Models M → s.db.Models M) ∧ s'.db.mini = s.db.mini ∧
          ∀ M, s'.db.Models M → (M.sat x ↔ termTrue M t) := by
        intro h
        unfold Pb.product at h
        split at h
        · next p hf =>
          simp only [Except.ok.injEq, Prod.mk.injEq] at h
          obtain ⟨rfl, rfl⟩ := h
          refine ⟨ds, hi, fun _ h => h, rfl, fun M hM => ?_⟩
          obtain ⟨q1, d, q2, q3, q4⟩ := hi.prods p (List.mem_of_find?_eq_some hf)
          have hk : p.1 = ls := by simpa using List.find?_some hf
          have := hi.defd M hM d q2
          rw [q3, q4, hk] at this
          replace this : M p.2.var = true ↔ termTrue M ls := this
          rw [hx0 M hM, ← this]
          have : p.2 = ⟨p.2.var, false⟩ := by cases hp2 : p.2; rw [hp2] at q1; simp at q1; simp [q1]
          rw [this]; exact sat_pos M _
        · next hf =>
          obtain ⟨⟨s1, v⟩, hv, h⟩ := bind_ok.1 h
          unfold Pb.auxVar at hv
          split at hv
          · simp only [Except.ok.injEq, Prod.mk.injEq] at hv
            obtain ⟨rfl, rfl⟩ := hv
            simp only [Except.ok.injEq, Prod.mk.injEq] at h
            obtain ⟨rfl, rfl⟩ := h
            obtain ⟨⟨p1, p3⟩, p2⟩ := prodCons_ok (eq := ⟨s.aux, false⟩) (ls := ls) hok g1
            have p2 : ∀ M, (prodCons ⟨s.aux, false⟩ ls s.db).Models M ↔ s.db.Models M ∧ (M s.aux = true ↔ termTrue M ls) := by
              intro M; rw [p2, sat_pos]
            refine ⟨ds ++ [(s.aux, fun M => termTrue M ls)], ⟨hi.defs.snoc hi.lt _ fun M M' hag => termTrue_congr hls' hag, ?_, ?_, ?_, ?_, ?_, ?_, ?_, ?_⟩,
              fun M hM => ((p2 M).1 hM).1, p1, ?_⟩
            · exact Nat.lt_succ_of_lt hi.lt
            · show (prodCons ⟨s.aux, false⟩ ls s.db).top 0 = _
              rw [p3]; exact hi.top0
            · intro M hM; exact hi.tru M ((p2 M).1 hM).1
            · intro M hM
              obtain ⟨a, b⟩ := (p2 M).1 hM
              exact follows_snoc.2 ⟨hi.defd M a, b⟩
            · intro M h0 hc hf
              obtain ⟨a, b⟩ := follows_snoc.1 hf
              exact (p2 M).2 ⟨hi.comp M h0 hc a, b⟩
            · intro he M hM; exact hi.sound he M ((p2 M).1 hM).1
            · intro M hM
              show val M (prodCons ⟨s.aux, false⟩ ls s.db).mini = _
              rw [p1]; exact hi.cost M ((p2 M).1 hM).1
            · intro p hp
              rcases List.mem_append.mp hp with hp | hp
              · obtain ⟨a, d, b, c⟩ := hi.prods p hp
                exact ⟨a, d, List.mem_append_left _ b, c⟩
              · rw [List.mem_singleton] at hp; subst hp
                exact ⟨rfl, _, List.mem_append_right _ (List.mem_singleton.mpr rfl), rfl, rfl⟩
            · intro M hM
              obtain ⟨a, b⟩ := (p2 M).1 hM
              rw [hx0 M a, ← b]; exact sat_pos M _
          · cases hv
      cases ls with
      | nil => cases h
      | cons y ys =>
        cases ys with
        | cons z zs => exact hp h
        | nil =>
          simp only [Except.ok.injEq, Prod.mk.injEq] at h
          obtain ⟨rfl, rfl⟩ := h
          refine ⟨ds, hi, fun _ h => h, rfl, fun M hM => ?_⟩
          rw [hx0 M hM]; unfold termTrue; simp
  match t with
  | [] => exact hprod h
  | a :: b :: t => exact hprod h
  | [y] =>
    simp only [Pb.term, Except.ok.injEq, Prod.mk.injEq] at h
    obtain ⟨rfl, rfl⟩ := h
    exact ⟨ds, hi, fun _ h => h, rfl, fun M hM => by unfold termTrue; simp⟩

/-- A sum. -/
theorem sum_inv {n : Nat} {all done : List PCall} : ∀ {ts : List (Int × List Lit)} {ds : List Defn} {s s' : Pb} {ls : List WL},
    PInv n all done ds s → (∀ t ∈ ts, ∀ l ∈ t.2, l.var ≤ n) → Pb.sum ts s = .ok (s', ls) →
    ∃ ds', PInv n all done ds' s' ∧ (∀ M, s'.db.Models M → s.db.Models M) ∧ s'.db.mini = s.db.mini ∧
      (∀ M, s'.db.Models M → val M ls = psum M ts) ∧ ls.map WL.w = ts.map Prod.fst := by
  intro ts
  induction ts with
  | nil =>
    intro ds s s' ls hi _ h
    simp only [Pb.sum, Except.ok.injEq, Prod.mk.injEq] at h
    obtain ⟨rfl, rfl⟩ := h
    exact ⟨ds, hi, fun _ h => h, rfl, fun M _ => by simp [psum], rfl⟩
  | cons t ts ih =>
    intro ds s s' ls hi ht h
    obtain ⟨⟨s1, x⟩, h1, h⟩ := bind_ok.1 h
    obtain ⟨⟨s2, r⟩, h2, h⟩ := bind_ok.1 h
    simp only [Except.ok.injEq, Prod.mk.injEq] at h
    obtain ⟨rfl, rfl⟩ := h
    obtain ⟨ds1, i1, m1, e1, v1⟩ := term_inv hi (ht t (by simp)) h1
    obtain ⟨ds2, i2, m2, e2, v2, w2⟩ := ih i1 (fun u hu => ht u (by simp [hu])) h2
    refine ⟨ds2, i2, fun M hM => m1 M (m2 M hM), e2.trans e1, fun M hM => ?_, by simp [w2]⟩
    rw [val_cons, v2 M hM]
    unfold psum
    rw [List.map_cons, List.sum_cons]
    congr 1
    have := v1 M (m2 M hM)
    dsimp only
    by_cases hc : termTrue M t.2
    · rw [if_pos hc, if_pos (this.2 hc)]
    · rw [if_neg hc, if_neg (fun h' => hc (this.1 h'))]

theorem pcosts_snoc (cs : List PCall) (c : PCall) (M : Asg) : pcosts (cs ++ [c]) M = pcosts cs M + c.cost M := by
  unfold pcosts; simp

/-- a hard equality -/
theorem eq_models {d : Db} {W : Lit} {lits : List WL} {bound : Int} {res : Option (List Made)}
    (h : createCon true false false d.top W lits bound = .ok res) (hW : d.top W.var = some W.tv) (M : Asg) :
    ((d.made res).Models M → d.Models M) ∧ (d.Models M → eqHolds M lits bound → (d.made res).Models M) ∧
    ((∃ M, ext M d.top ∧ eqHolds M lits bound) → (d.made res).Models M → eqHolds M lits bound) := by
  obtain ⟨h1, h2⟩ := C35_hard_partial h hW
  have hx : ∀ ms, res = some ms → ms ≠ [] ∧ ((∀ m ∈ ms, m.models M) → ext M d.top) := by
    rintro ms rfl
    unfold createCon at h
    obtain ⟨b', hb', h⟩ := bind_ok.1 h
    obtain ⟨r, hr, h⟩ := bind_ok.1 h
    simp only [if_true] at h
    obtain ⟨p, hp, h⟩ := bind_ok.1 h
    cases p with
    | none => cases h
    | some q =>
      obtain ⟨m1, r1⟩ := q
      dsimp only at h
      obtain ⟨b2, hb2, h⟩ := bind_ok.1 h
      obtain ⟨⟨ls, s⟩, hls, h⟩ := bind_ok.1 h
      obtain ⟨p0, hp0, h⟩ := bind_ok.1 h
      cases p0 with
      | none => cases h
      | some q0 =>
        cases h
        exact ⟨by simp, fun hm => (((C21_doCreate (C21_create hr).2 hp).2 m1 r1 rfl M).2 (hm m1 (by simp))).1⟩
  cases res with
  | none =>
    exact ⟨fun hm => absurd hm (made_none d M), fun hm he => absurd he (h1 rfl M hm.2.1), fun _ hm => absurd hm (made_none d M)⟩
  | some ms =>
    obtain ⟨x1, x2⟩ := hx ms rfl
    obtain ⟨k1, k2⟩ := h2 ms rfl
    rw [made_some]
    refine ⟨fun ⟨a, b, c, e, _⟩ => ⟨a, x2 e, b, c⟩, fun hm he => ⟨hm.1, hm.2.2.1, hm.2.2.2, k1 M hm.2.1 he, fun e => absurd e x1⟩, fun hex hm => (k2 hex M hm.2.2.2.1).2⟩

end Clasp.Input
