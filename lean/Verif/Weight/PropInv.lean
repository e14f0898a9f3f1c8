/- C22: the invariant of weight constraint propagation. -/
import Verif.Weight.PropLem
namespace Clasp.WC
open Core Weight

/-- Specification: the fixed data of a constraint: literals, whether there are weights, initial bounds, sub-constraints in use. -/
structure Par where
  lits : List WL
  isW : Bool
  b : Side → Int
  en : Side → Bool

/-- Specification: what the constructor guarantees. -/
structure Par.OK (q : Par) : Prop where
  pos : ∀ e ∈ q.lits, 0 < e.w
  ne : 0 < q.lits.length
  w0 : wOf q.lits 0 = 1
  sorted : ∀ i j, 1 ≤ i → i ≤ j → j < q.lits.length → wOf q.lits j ≤ wOf q.lits i
  card : q.isW = false → ∀ i < q.lits.length, wOf q.lits i = 1
  tot : q.b true + q.b false = total q.lits
  start : ∀ c, q.en c = true → 1 ≤ q.b c

/-- Specification: the part of the bound of `c` that is left, counting entries of `s` up to level `l`. -/
noncomputable def left (q : Par) (tr : List Entry) (s : List (Nat × Side)) (c : Side) (l : Nat) : Int :=
  q.b c - sumI (fun i => (i, c) ∈ s ∧ At tr (sub q.lits i c).neg l) q.lits 0

/-- Specification: on level `l` nothing is left to be derived by `c`. -/
structure Prp (q : Par) (tr : List Entry) (s : List (Nat × Side)) (c : Side) (l : Nat) : Prop where
  fwd : ¬ ((0, c) ∈ s ∧ At tr (sub q.lits 0 c).neg l) → left q tr s c l ≤ 0 → At tr (sub q.lits 0 c) l
  bwd : (0, c) ∈ s ∧ At tr (sub q.lits 0 c).neg l → 0 ≤ left q tr s c l ∧
    ∀ i, 1 ≤ i → i < q.lits.length → left q tr s c l - wOf q.lits i < 0 →
      ((i, c) ∈ s ∧ At tr (sub q.lits i c).neg l) ∨ At tr (sub q.lits i c) l

/-- Specification: `p` can be explained by the oldest entries of the stack (see `reason`), all of them in `post`, on levels up to `l`. -/
def Rsn (q : Par) (con : Con) (tr post : List Entry) (l : Nat) (p : Lit) (d : Option Nat) : Prop :=
  ∃ c s, con.active = some c ∧ s <:+ con.stack ∧ (q.isW = true → d = some s.length) ∧ (q.isW = false → d = none ∧ s = con.stack) ∧
    (∀ u ∈ s, At post (sub q.lits u.1 u.2).neg l) ∧
    (((p = sub q.lits 0 c ∧ q.en c = true) ∧ (∀ c', (0, c') ∉ con.stack) ∧ q.b c - sumI (fun i => (i, c) ∈ s) q.lits 0 ≤ 0 ∧
        ∀ u ∈ con.stack, At tr (sub q.lits u.1 u.2).neg l) ∨
     ((0, c) ∈ s ∧ ∃ j, 1 ≤ j ∧ j < q.lits.length ∧ p = sub q.lits j c ∧ (∀ c', (j, c') ∉ s) ∧
        q.b c - sumI (fun i => (i, c) ∈ s) q.lits 0 - wOf q.lits j < 0))

/-- Specification: the invariant; the part `prp` may be violated for the sub-constraint `X` on the current level. -/
structure Inv (q : Par) (X : Option Side) (w : Wd) : Prop where
  lits : w.con.lits = q.lits
  isW : w.con.isW = q.isW
  nod : TrN w.tr
  lev : ∀ e ∈ w.tr, e.lev ≤ w.dl
  pendA : ∀ i ∈ w.pend, i < q.lits.length ∧ ∃ c, Lv w.tr (sub q.lits i c) w.dl
  pendN : w.pend.Nodup
  pendS : ∀ i ∈ w.pend, ∀ c, (i, c) ∉ w.con.stack
  stk : ∀ u ∈ w.con.stack, u.1 < q.lits.length ∧ q.en u.2 = true ∧ ∃ l, Lv w.tr (sub q.lits u.1 u.2).neg l
  stkN : (w.con.stack.map Prod.fst).Nodup
  stkO : w.con.stack.Pairwise fun a b => ∀ l, At w.tr (sub q.lits a.1 a.2).neg l → At w.tr (sub q.lits b.1 b.2).neg l
  seen : ∀ i, w.con.seen i = true ↔ ∃ c, (i, c) ∈ w.con.stack
  bnd : ∀ c, w.con.bound c = q.b c - sumI (fun i => (i, c) ∈ w.con.stack) q.lits 0
  und : ∀ l, w.undo l = true ↔ l ≠ 0 ∧ ∃ u ∈ w.con.stack, Lv w.tr (sub q.lits u.1 u.2).neg l
  on0 : ∀ c, w.con.on0 c = q.en c
  wat : (w.con.watched = 2 ∧ ∀ c, w.con.on c = q.en c) ∨ (w.con.watched = 3 ∧ ∀ c, w.con.on c = true ∧ q.en c = true) ∨
    ∃ c, w.con.watched = Bool.toNat c ∧ (0, c) ∈ w.con.stack ∧ w.con.on (!c) = false ∧ w.con.on c = true ∧ ∀ c, q.en c = true
  act : ∀ c, w.con.active = some c → X = some c ∨ q.en (!c) = false ∨ (0, c) ∈ w.con.stack ∨
    (∃ l, Lv w.tr (sub q.lits 0 c) l ∧ (∀ u ∈ w.con.stack, At w.tr (sub q.lits u.1 u.2).neg l) ∧
      (∃ u ∈ w.con.stack, Lv w.tr (sub q.lits u.1 u.2).neg l) ∧ w.con.bound c ≤ 0 ∧ ∀ c', (0, c') ∉ w.con.stack) ∨
    (w.conf.isSome = true ∧ (∃ l, Lv w.tr (sub q.lits 0 c).neg l) ∧ ∃ u ∈ w.con.stack, Lv w.tr (sub q.lits u.1 u.2).neg w.dl)
  proc : ∀ c, q.en c = true → ∀ i < q.lits.length, ∀ l, At w.tr (sub q.lits i c).neg l →
    i ∈ w.pend ∨ (i, c) ∈ w.con.stack ∨ At w.tr (sub q.lits 0 c) l ∨ (At w.tr (sub q.lits 0 c).neg l ∧ w.con.active = some (!c))
  prp : ∀ c, q.en c = true → ∀ l ≤ w.dl, l < w.dl ∨ (w.conf = none ∧ X ≠ some c) → Prp q w.tr w.con.stack c l
  bp : (w.con.bp = 1 ∨ q.isW = true ∧ 1 < w.con.bp ∧ w.con.bp ≤ q.lits.length ∧ ∃ c, (0, c) ∈ w.con.stack ∧ ∃ u ∈ w.con.stack, ∃ l,
    Lv w.tr (sub q.lits u.1 u.2).neg l ∧ ∀ i, 1 ≤ i → i < w.con.bp → (∃ c', (i, c') ∈ w.con.stack) ∨ At w.tr (sub q.lits i c) l)
  rsn : ∀ pre e post d, w.tr = pre ++ e :: post → e.rs = some d → Rsn q w.con w.tr post e.lev e.lit d
  cnf : ∀ p d, w.conf = some (p, d) → (∃ l, Lv w.tr p.neg l) ∧ Rsn q w.con w.tr w.tr w.dl p d

theorem Par.OK.wpos {q : Par} (h : q.OK) {i : Nat} (hi : i < q.lits.length) : 0 < wOf q.lits i := by
  have : wOf q.lits i = (q.lits[i]).w := by simp [wOf, List.getD, hi]
  rw [this]; exact h.pos _ (List.getElem_mem hi)

/-! ### A literal is assigned -/

section push
variable {tr : List Entry} {p : Lit} {dl : Nat} {rs : Option (Option Nat)}

theorem lv_push {x : Lit} {l : Nat} : Lv (⟨p, dl, rs⟩ :: tr) x l ↔ (x = p ∧ l = dl) ∨ Lv tr x l := by
  unfold Lv
  simp only [List.mem_cons, exists_eq_or_imp]
  constructor
  · rintro (⟨h1, h2⟩ | h)
    · exact .inl ⟨h1.symm, h2.symm⟩
    · exact .inr h
  · rintro (⟨h1, h2⟩ | h)
    · exact .inl ⟨h1.symm, h2.symm⟩
    · exact .inr h

theorem at_push_mono {x : Lit} {l : Nat} (h : At tr x l) : At (⟨p, dl, rs⟩ :: tr) x l := by
  obtain ⟨a, h1, h2⟩ := h; exact ⟨a, h1, lv_push.2 (.inr h2)⟩

theorem at_push_of {x : Lit} {l : Nat} (hx : x.var ≠ p.var) : At (⟨p, dl, rs⟩ :: tr) x l ↔ At tr x l := by
  refine ⟨?_, at_push_mono⟩
  rintro ⟨a, h1, h2⟩
  rcases lv_push.1 h2 with ⟨rfl, _⟩ | h
  · exact absurd rfl hx
  · exact ⟨a, h1, h⟩

theorem at_push_lt {x : Lit} {l : Nat} (hl : l < dl) : At (⟨p, dl, rs⟩ :: tr) x l ↔ At tr x l := by
  refine ⟨?_, at_push_mono⟩
  rintro ⟨a, h1, h2⟩
  rcases lv_push.1 h2 with ⟨rfl, rfl⟩ | h
  · omega
  · exact ⟨a, h1, h⟩

theorem ne_var_of {x : Lit} {l : Nat} (hp : assigned tr p.var = false) (hx : Lv tr x l) : x.var ≠ p.var := by
  intro h; rw [← h, assigned_of hx] at hp; cases hp

theorem ne_var_at {x : Lit} {l : Nat} (hp : assigned tr p.var = false) (hx : At tr x l) : x.var ≠ p.var := by
  obtain ⟨_, _, h⟩ := hx; exact ne_var_of hp h

end push

theorem Prp.push {q : Par} {tr : List Entry} {s : List (Nat × Side)} {c : Side} {l dl : Nat} {p : Lit} {rs : Option (Option Nat)}
    (hp : assigned tr p.var = false) (hs : ∀ u ∈ s, ∃ l, Lv tr (sub q.lits u.1 u.2).neg l) (h : Prp q tr s c l) :
    Prp q (⟨p, dl, rs⟩ :: tr) s c l := by
  have e : ∀ i, ((i, c) ∈ s ∧ At (⟨p, dl, rs⟩ :: tr) (sub q.lits i c).neg l) ↔ ((i, c) ∈ s ∧ At tr (sub q.lits i c).neg l) := by
    intro i
    apply and_congr_right
    intro hm
    obtain ⟨l', hl'⟩ := hs _ hm
    exact at_push_of (ne_var_of hp hl')
  have e2 : left q (⟨p, dl, rs⟩ :: tr) s c l = left q tr s c l := by
    unfold left; rw [sumI_congr fun i _ _ => e i]
  refine ⟨?_, ?_⟩
  · rw [e, e2]; intro h1 h2; exact at_push_mono (h.fwd h1 h2)
  · rw [e, e2]; intro h1
    refine ⟨(h.bwd h1).1, fun i a1 a2 a3 => ?_⟩
    rw [e]
    exact ((h.bwd h1).2 i a1 a2 a3).imp id at_push_mono

theorem Rsn.mono {q : Par} {con : Con} {tr tr' post post' : List Entry} {l : Nat} {p : Lit} {d : Option Nat}
    (h : Rsn q con tr post l p d) (h1 : ∀ x l, At tr x l → At tr' x l) (h2 : ∀ x l, At post x l → At post' x l) : Rsn q con tr' post' l p d := by
  obtain ⟨c, s, a1, a2, a3, a4, a5, a6⟩ := h
  refine ⟨c, s, a1, a2, a3, a4, fun u hu => h2 _ _ (a5 u hu), ?_⟩
  rcases a6 with ⟨e1, e2, e3, e4⟩ | h
  · exact .inl ⟨e1, e2, e3, fun u hu => h1 _ _ (e4 u hu)⟩
  · exact .inr h

theorem Inv.push {q : Par} {X : Option Side} {w : Wd} {p : Lit} {rs : Option (Option Nat)} (h : Inv q X w) (hc : w.conf = none)
    (hp : assigned w.tr p.var = false) (hr : ∀ d, rs = some d → Rsn q w.con w.tr w.tr w.dl p d) : Inv q X (WC.push w p rs) := by
  have hlv : ∀ {x l}, Lv (WC.push w p rs).tr x l ↔ (x = p ∧ l = w.dl) ∨ Lv w.tr x l := lv_push
  have hmono : ∀ x l, At w.tr x l → At (WC.push w p rs).tr x l := fun x l h => at_push_mono h
  have hmlv : ∀ x l, Lv w.tr x l → Lv (WC.push w p rs).tr x l := fun x l h => hlv.2 (.inr h)
  have hpo : ∀ i, i ∈ pendOf w.con.lits p → i < q.lits.length ∧ (litOf q.lits i).var = p.var := by
    intro i hi; rw [h.lits] at hi; simpa [pendOf] using hi
  exact {
    lits := h.lits
    isW := h.isW
    nod := by
      refine List.nodup_cons.2 ⟨?_, h.nod⟩
      intro hm
      obtain ⟨e, he, hev⟩ := List.mem_map.1 hm
      have := assigned_of (tr := w.tr) (p := e.lit) ⟨e, he, rfl, rfl⟩
      dsimp only at hev
      rw [hev, hp] at this; cases this
    lev := by
      intro e he
      rcases List.mem_cons.1 he with rfl | he
      · exact Nat.le_refl _
      · exact h.lev e he
    pendA := by
      intro i hi
      rcases List.mem_append.1 hi with hi | hi
      · obtain ⟨h1, c, h2⟩ := h.pendA i hi; exact ⟨h1, c, hmlv _ _ h2⟩
      · obtain ⟨h1, h2⟩ := hpo i hi
        refine ⟨h1, ?_⟩
        rcases sub_cases (lits := q.lits) (i := i) (p := p) true h2.symm with e | e
        · exact ⟨true, hlv.2 (.inl ⟨e.symm, rfl⟩)⟩
        · exact ⟨false, hlv.2 (.inl ⟨by rw [e, ← sub_not]; rfl, rfl⟩)⟩
    pendN := by
      refine List.nodup_append.2 ⟨h.pendN, List.nodup_range.filter _, ?_⟩
      rintro i hi j hj rfl
      obtain ⟨_, c, h2⟩ := h.pendA i hi
      exact ne_var_of hp h2 (by rw [sub_var]; exact (hpo i hj).2)
    pendS := by
      intro i hi c hm
      rcases List.mem_append.1 hi with hi | hi
      · exact h.pendS i hi c hm
      · obtain ⟨_, _, l, hl⟩ := h.stk _ hm
        exact ne_var_of hp hl (by rw [Lit.neg_var, sub_var]; exact (hpo i hi).2)
    stk := by
      intro u hu
      obtain ⟨h1, h2, l, hl⟩ := h.stk u hu
      exact ⟨h1, h2, l, hmlv _ _ hl⟩
    stkN := h.stkN
    stkO := by
      refine h.stkO.imp_of_mem ?_
      intro a b ha hb hab l hl
      obtain ⟨_, _, l', hl'⟩ := h.stk a ha
      exact hmono _ _ (hab l ((at_push_of (ne_var_of hp hl')).1 hl))
    seen := h.seen
    bnd := h.bnd
    und := by
      intro l
      refine (h.und l).trans (and_congr_right fun _ => ⟨?_, ?_⟩)
      · rintro ⟨u, hu, hl⟩; exact ⟨u, hu, hmlv _ _ hl⟩
      · rintro ⟨u, hu, hl⟩
        refine ⟨u, hu, ?_⟩
        rcases hlv.1 hl with ⟨e, _⟩ | hl
        · obtain ⟨_, _, l', hl'⟩ := h.stk u hu
          rw [e] at hl'
          exact absurd rfl (ne_var_of hp hl')
        · exact hl
    on0 := h.on0
    wat := h.wat
    act := by
      intro c ha
      rcases h.act c ha with h0 | h1 | h1 | ⟨l, h1, h2, ⟨u, h3, h3'⟩, h4⟩ | ⟨h1, _⟩
      · exact .inl h0
      · exact .inr (.inl h1)
      · exact .inr (.inr (.inl h1))
      · exact .inr (.inr (.inr (.inl ⟨l, hmlv _ _ h1, fun u hu => hmono _ _ (h2 u hu), ⟨u, h3, hmlv _ _ h3'⟩, h4⟩)))
      · rw [hc] at h1; cases h1
    proc := by
      intro c hen i hi l hl
      obtain ⟨l', hl', hx⟩ := hl
      rcases hlv.1 hx with ⟨e, _⟩ | hx
      · left; refine List.mem_append.2 (.inr ?_)
        unfold pendOf
        rw [h.lits]
        simp only [List.mem_filter, List.mem_range, decide_eq_true_eq]
        refine ⟨hi, ?_⟩
        rw [← e, Lit.neg_var, sub_var]
      · rcases h.proc c hen i hi l ⟨l', hl', hx⟩ with h1 | h1 | h1 | ⟨h1, h2⟩
        · exact .inl (List.mem_append.2 (.inl h1))
        · exact .inr (.inl h1)
        · exact .inr (.inr (.inl (hmono _ _ h1)))
        · exact .inr (.inr (.inr ⟨hmono _ _ h1, h2⟩))
    prp := by
      intro c hen l hl hx
      exact (h.prp c hen l hl hx).push hp fun u hu => (h.stk u hu).2.2
    bp := by
      rcases h.bp with h1 | ⟨h1, h2, h3, c, h4, u, h5, l, h6, h7⟩
      · exact .inl h1
      · refine .inr ⟨h1, h2, h3, c, h4, u, h5, l, hmlv _ _ h6, fun i a b => (h7 i a b).imp id (hmono _ _)⟩
    rsn := by
      intro pre e post d he hd
      cases pre with
      | nil =>
        simp only [WC.push, List.nil_append, List.cons.injEq] at he
        obtain ⟨rfl, rfl⟩ := he
        exact (hr d hd).mono hmono fun _ _ h => h
      | cons a pre =>
        simp only [WC.push, List.cons_append, List.cons.injEq] at he
        obtain ⟨_, he⟩ := he
        exact (h.rsn pre e post d he hd).mono hmono fun _ _ h => h
    cnf := by
      intro x d hx
      have : w.conf = some (x, d) := hx
      rw [hc] at this; cases this }

/-! ### Facts that follow from the invariant -/

section facts
variable {q : Par} {X : Option Side} {w : Wd}

theorem Inv.lvle (h : Inv q X w) {p : Lit} {l : Nat} (hl : Lv w.tr p l) : l ≤ w.dl := by
  obtain ⟨e, he, _, rfl⟩ := hl; exact h.lev e he

theorem Inv.atdl (h : Inv q X w) {p : Lit} {l : Nat} (hl : Lv w.tr p l) : At w.tr p w.dl := ⟨l, h.lvle hl, hl⟩

theorem Inv.stkdl (h : Inv q X w) {u : Nat × Side} (hu : u ∈ w.con.stack) : At w.tr (sub q.lits u.1 u.2).neg w.dl := by
  obtain ⟨_, _, l, hl⟩ := h.stk u hu; exact h.atdl hl

theorem Inv.left_dl (h : Inv q X w) (c : Side) : left q w.tr w.con.stack c w.dl = w.con.bound c := by
  unfold left
  rw [h.bnd c, sumI_congr fun i _ _ => ?_]
  exact ⟨fun hm => hm.1, fun hm => ⟨hm, h.stkdl hm⟩⟩

theorem Inv.side (h : Inv q X w) {i : Nat} {c c' : Side} (h1 : (i, c) ∈ w.con.stack) (h2 : (i, c') ∈ w.con.stack) : c = c' := by
  have := List.inj_on_of_nodup_map h.stkN h1 h2 rfl
  simpa using this

/-- The index of a true literal does not occur for the other side. -/
theorem Inv.noside (h : Inv q X w) {i : Nat} {c : Side} {l : Nat} (h1 : Lv w.tr (sub q.lits i c) l) : (i, c) ∉ w.con.stack := by
  intro hm
  obtain ⟨_, _, l', hl'⟩ := h.stk _ hm
  exact h.nod.neg h1 hl'

end facts

theorem Prp.congr {q : Par} {tr : List Entry} {s s' : List (Nat × Side)} {c : Side} {l : Nat}
    (e : ∀ i, ((i, c) ∈ s' ∧ At tr (sub q.lits i c).neg l) ↔ ((i, c) ∈ s ∧ At tr (sub q.lits i c).neg l)) (h : Prp q tr s c l) :
    Prp q tr s' c l := by
  have e2 : left q tr s' c l = left q tr s c l := by unfold left; rw [sumI_congr fun i _ _ => e i]
  refine ⟨?_, ?_⟩
  · rw [e, e2]; exact h.fwd
  · rw [e, e2]; intro h1
    refine ⟨(h.bwd h1).1, fun i a1 a2 a3 => ?_⟩
    rw [e]
    exact (h.bwd h1).2 i a1 a2 a3

/-! ### A notification that is ignored -/

theorem Inv.skip {q : Par} {w : Wd} {i : Nat} (h : Inv q none w) (hi : i ∈ w.pend)
    (hx : ∀ c, q.en c = true → Lv w.tr (sub q.lits i c).neg w.dl →
      At w.tr (sub q.lits 0 c) w.dl ∨ (At w.tr (sub q.lits 0 c).neg w.dl ∧ w.con.active = some (!c))) :
    Inv q none { w with pend := w.pend.erase i } where
  lits := h.lits
  isW := h.isW
  nod := h.nod
  lev := h.lev
  pendA j hj := h.pendA j (List.mem_of_mem_erase hj)
  pendN := h.pendN.erase _
  pendS j hj := h.pendS j (List.mem_of_mem_erase hj)
  stk := h.stk
  stkN := h.stkN
  stkO := h.stkO
  seen := h.seen
  bnd := h.bnd
  und := h.und
  on0 := h.on0
  wat := h.wat
  act := h.act
  proc := by
    intro c hen j hj l hl
    rcases h.proc c hen j hj l hl with h1 | h1
    · by_cases hij : j = i
      · subst hij
        right; right
        obtain ⟨l', hl', hlv⟩ := hl
        obtain ⟨_, c', hlv'⟩ := h.pendA j hi
        obtain ⟨e1, rfl⟩ := h.nod.lv hlv hlv' (by rw [Lit.neg_var, sub_var, sub_var])
        rcases hx c hen hlv with a | ⟨a, b⟩
        · exact .inl (a.mono hl')
        · exact .inr ⟨a.mono hl', b⟩
      · exact .inl ((List.mem_erase_of_ne hij).2 h1)
    · exact .inr h1
  prp := h.prp
  bp := h.bp
  rsn := h.rsn
  cnf := h.cnf

/-! ### The stack grows -/

/-- The state of `propagate` after `updateConstraint`. -/
def upd (w : Wd) (i : Nat) (c : Side) (atRoot : Bool) : Wd :=
  update (unwatch { w with pend := w.pend.erase i } i c atRoot) (levelOf w.tr (litOf w.con.lits i).var) i c

theorem upd_proj (w : Wd) (i : Nat) (c : Side) (r : Bool) :
    (upd w i c r).tr = w.tr ∧ (upd w i c r).dl = w.dl ∧ (upd w i c r).pend = w.pend.erase i ∧ (upd w i c r).conf = w.conf ∧
    (upd w i c r).con.lits = w.con.lits ∧ (upd w i c r).con.isW = w.con.isW ∧ (upd w i c r).con.active = w.con.active ∧
    (upd w i c r).con.stack = (i, c) :: w.con.stack ∧ (upd w i c r).con.bp = w.con.bp ∧ (upd w i c r).con.on0 = w.con.on0 ∧
    (upd w i c r).con.seen = Function.update w.con.seen i (!w.con.seen i) ∧
    (upd w i c r).con.bound = Function.update w.con.bound c (w.con.bound c - wOf w.con.lits i) ∧
    (upd w i c r).undo = (if highest w = levelOf w.tr (litOf w.con.lits i).var then w.undo else
      Function.update w.undo (levelOf w.tr (litOf w.con.lits i).var) true) ∧
    ((i = 0 ∧ w.con.watched = 3 ∧ (upd w i c r).con.watched = c.toNat ∧ (upd w i c r).con.on = Function.update w.con.on (!c) false) ∨
     ((upd w i c r).con.watched = w.con.watched ∧ (upd w i c r).con.on = w.con.on)) := by
  unfold upd unwatch
  split
  · rename_i hh
    exact ⟨rfl, rfl, rfl, rfl, rfl, rfl, rfl, rfl, rfl, rfl, rfl, rfl, rfl, .inl ⟨hh.1, hh.2.2, rfl, rfl⟩⟩
  · exact ⟨rfl, rfl, rfl, rfl, rfl, rfl, rfl, rfl, rfl, rfl, rfl, rfl, rfl, .inr ⟨rfl, rfl⟩⟩

theorem Inv.room {q : Par} {w : Wd} {i : Nat} {c : Side} (hq : q.OK) (h : Inv q none w) (hc : w.conf = none) (hi : i ∈ w.pend)
    (hl : Lv w.tr (sub q.lits i c).neg w.dl) (hen : q.en c = true) (hb : isTrue w.tr (sub q.lits 0 c) = false)
    (h0 : i = 0 ∨ (0, c) ∈ w.con.stack) : wOf q.lits i ≤ w.con.bound c := by
  have hp := h.prp c hen w.dl (Nat.le_refl _) (.inr ⟨hc, by simp⟩)
  have hnot : ∀ l, ¬ At w.tr (sub q.lits 0 c) l := by
    rintro l ⟨l', _, hl'⟩; rw [isTrue_iff.2 ⟨l', hl'⟩] at hb; cases hb
  obtain ⟨hil, _⟩ := h.pendA i hi
  by_cases hm : (0, c) ∈ w.con.stack
  · have hi0 : i ≠ 0 := by rintro rfl; exact h.pendS _ hi _ hm
    obtain ⟨_, h2⟩ := hp.bwd ⟨hm, h.stkdl hm⟩
    rw [h.left_dl] at h2
    refine Int.not_lt.1 fun hlt => ?_
    rcases h2 i (by omega) hil (by omega) with ⟨h3, _⟩ | ⟨l, _, h3⟩
    · exact h.pendS _ hi _ h3
    · exact h.nod.neg h3 hl
  · obtain rfl : i = 0 := h0.resolve_right hm
    rw [hq.w0]
    have := hp.fwd (fun h => hm h.1)
    rw [h.left_dl] at this
    refine Int.not_lt.1 fun hlt => hnot _ (this (by omega))

theorem Inv.upd {q : Par} {w : Wd} {i : Nat} {c : Side} {r : Bool} (hq : q.OK) (h : Inv q none w) (hc : w.conf = none) (hi : i ∈ w.pend)
    (hl : Lv w.tr (sub q.lits i c).neg w.dl) (hen : q.en c = true) (hb : isTrue w.tr (sub q.lits 0 c) = false)
    (ha : w.con.active ≠ some (!c)) :
    Inv q (some c) (WC.upd w i c r) ∧ ((0, c) ∈ (WC.upd w i c r).con.stack → 0 ≤ (WC.upd w i c r).con.bound c) ∧
    (w.con.active = some c → q.en (!c) = false ∨ (0, c) ∈ w.con.stack) := by
  obtain ⟨e1, e2, e3, e4, e5, e6, e7, e8, e9, e10, e11, e12, e13, e14⟩ := upd_proj w i c r
  obtain ⟨hil, _⟩ := h.pendA i hi
  have hsi : ∀ c', (i, c') ∉ w.con.stack := h.pendS i hi
  have hseen : w.con.seen i = false := by
    cases hs : w.con.seen i
    · rfl
    · obtain ⟨c', hm⟩ := (h.seen i).1 hs; exact absurd hm (hsi c')
  have hnot : ∀ l, ¬ Lv w.tr (sub q.lits 0 c) l := by
    intro l' hl'; rw [isTrue_iff.2 ⟨l', hl'⟩] at hb; cases hb
  have hlvl : levelOf w.tr (litOf w.con.lits i).var = w.dl := by
    rw [h.lits]; exact levelOf_eq h.nod hl (by rw [Lit.neg_var, sub_var])
  rw [hlvl] at e13
  have hw := wOf q.lits i
  have hbc : (WC.upd w i c r).con.bound c = w.con.bound c - wOf q.lits i := by rw [e12, h.lits, Function.update_self]
  refine ⟨?_, ?_, ?_⟩
  · exact {
    lits := by rw [e5, h.lits]
    isW := by rw [e6, h.isW]
    nod := by rw [e1]; exact h.nod
    lev := by rw [e1, e2]; exact h.lev
    pendA := by rw [e1, e2, e3]; exact fun j hj => h.pendA j (List.mem_of_mem_erase hj)
    pendN := by rw [e3]; exact h.pendN.erase _
    pendS := by
      rw [e3, e8]
      intro j hj c' hm
      rcases List.mem_cons.1 hm with e | hm
      · simp only [Prod.mk.injEq] at e
        exact (List.Nodup.mem_erase_iff h.pendN).1 hj |>.1 e.1
      · exact h.pendS j (List.mem_of_mem_erase hj) c' hm
    stk := by
      rw [e8, e1]
      intro u hu
      rcases List.mem_cons.1 hu with rfl | hu
      · exact ⟨hil, hen, _, hl⟩
      · exact h.stk u hu
    stkN := by
      rw [e8]
      refine List.nodup_cons.2 ⟨?_, h.stkN⟩
      intro hm
      obtain ⟨⟨j, c'⟩, hu, rfl⟩ := List.mem_map.1 hm
      exact hsi _ hu
    stkO := by
      rw [e8, e1]
      refine List.pairwise_cons.2 ⟨?_, h.stkO⟩
      rintro u hu l ⟨l', hl', hx⟩
      obtain ⟨_, rfl⟩ := h.nod.lv hx hl rfl
      exact (h.stkdl hu).mono hl'
    seen := by
      rw [e8, e11, hseen]
      intro j
      by_cases hj : j = i
      · subst hj; simp
      · rw [Function.update_of_ne hj, h.seen j]; simp [hj]
    bnd := by
      intro c'
      rw [e8, e12, h.lits]
      by_cases hcc : c' = c
      · subst hcc
        rw [Function.update_self, h.bnd, sumI_insert (Q := fun j => (j, c') ∈ (i, c') :: w.con.stack) (P := fun j => (j, c') ∈ w.con.stack) (j := i)
          (by omega) (by omega) (hsi _) (by intro k; simp)]
        rw [Nat.sub_zero]; omega
      · rw [Function.update_of_ne hcc, h.bnd]
        rw [sumI_congr (Q := fun j => (j, c') ∈ (i, c) :: w.con.stack)]
        intro k _ _; simp [hcc]
    und := by
      intro l
      rw [e13, e8, e1]
      simp only [List.mem_cons, exists_eq_or_imp]
      have hone : Lv w.tr (sub q.lits i c).neg l ↔ l = w.dl := ⟨fun hx => (h.nod.lv hx hl rfl).2, fun e => e ▸ hl⟩
      rw [hone]
      by_cases hh : highest w = w.dl
      · rw [if_pos hh, h.und l]
        refine and_congr_right fun hl0 => ⟨.inr, ?_⟩
        rintro (rfl | h1)
        · unfold highest at hh
          split at hh
          · exact absurd hh.symm hl0
          · rename_i j c' s hs
            have hm : (j, c') ∈ w.con.stack := by rw [hs]; exact .head _
            obtain ⟨_, _, l', hl'⟩ := h.stk _ hm
            rw [h.lits, levelOf_eq h.nod hl' (by rw [Lit.neg_var, sub_var])] at hh
            exact ⟨_, hm, hh ▸ hl'⟩
        · exact h1
      · rw [if_neg hh]
        have hd0 : w.dl ≠ 0 := by
          intro h0
          apply hh
          rw [h0]
          unfold highest
          split
          · rfl
          · rename_i j c' s hs
            have hm : (j, c') ∈ w.con.stack := by rw [hs]; exact .head _
            obtain ⟨_, _, l', hl'⟩ := h.stk _ hm
            rw [h.lits, levelOf_eq h.nod hl' (by rw [Lit.neg_var, sub_var])]
            have := h.lvle hl'; omega
        by_cases hll : l = w.dl
        · subst hll; simp [hd0]
        · rw [Function.update_of_ne hll, h.und l]; simp [hll]
    on0 := by rw [e10]; exact h.on0
    wat := by
      rw [e8]
      rcases e14 with ⟨rfl, a1, a2, a3⟩ | ⟨a1, a2⟩
      · rcases h.wat with ⟨b1, _⟩ | ⟨_, b2⟩ | ⟨c', b1, _⟩
        · omega
        · refine .inr (.inr ⟨c, a2, .head _, ?_, ?_, fun c => (b2 c).2⟩)
          · rw [a3, Function.update_self]
          · rw [a3, Function.update_of_ne (by simp)]; exact (b2 c).1
        · rw [a1] at b1; cases c' <;> simp at b1
      · rw [a1, a2]
        rcases h.wat with b | b | ⟨c', b1, b2, b3⟩
        · exact .inl b
        · exact .inr (.inl b)
        · exact .inr (.inr ⟨c', b1, .tail _ b2, b3⟩)
    act := by
      intro c' hc'
      rw [e7] at hc'
      have hcc : c' = c := by
        cases c <;> cases c' <;> simp_all
      exact .inl (by rw [hcc])
    proc := by
      intro c' hen' j hj l hlj
      rw [e1] at hlj
      rw [e3, e8, e1, e7]
      rcases h.proc c' hen' j hj l hlj with h1 | h1 | h1 | h1
      · by_cases hij : j = i
        · subst hij
          obtain ⟨l', _, hx⟩ := hlj
          have hcc : c' = c := by
            by_contra hne
            have : c' = !c := by cases c <;> cases c' <;> simp_all
            subst this
            rw [sub_not, Lit.neg_neg] at hx
            exact h.nod.neg hx hl
          subst hcc
          exact .inr (.inl (.head _))
        · exact .inl ((List.mem_erase_of_ne hij).2 h1)
      · exact .inr (.inl (.tail _ h1))
      · exact .inr (.inr (.inl h1))
      · exact .inr (.inr (.inr h1))
    prp := by
      rw [e1, e2, e4, e8]
      intro c' hen' l hle hx
      have hx' : l < w.dl ∨ (w.conf = none ∧ (none : Option Side) ≠ some c') := hx.imp id fun h => ⟨h.1, by simp⟩
      refine (h.prp c' hen' l hle hx').congr fun j => ?_
      constructor
      · rintro ⟨hm, hat⟩
        refine ⟨?_, hat⟩
        rcases List.mem_cons.1 hm with e | hm
        · simp only [Prod.mk.injEq] at e
          obtain ⟨rfl, rfl⟩ := e
          exfalso
          obtain ⟨l', hl', hlv⟩ := hat
          obtain ⟨_, rfl⟩ := h.nod.lv hlv hl rfl
          rcases hx with hx | ⟨_, hx⟩
          · omega
          · exact hx rfl
        · exact hm
      · rintro ⟨hm, hat⟩; exact ⟨.tail _ hm, hat⟩
    bp := by
      rw [e9, e8, e1]
      rcases h.bp with h1 | ⟨h1, h2, h3, c', h4, u, h5, l, h6, h7⟩
      · exact .inl h1
      · refine .inr ⟨h1, h2, h3, c', .tail _ h4, u, .tail _ h5, l, h6, fun j a b => (h7 j a b).imp ?_ id⟩
        rintro ⟨c'', hm⟩; exact ⟨c'', .tail _ hm⟩
    rsn := by
      rw [e1]
      intro pre e post d he hd
      obtain ⟨c', s, a1, a2, a3, a4, a5, a6⟩ := h.rsn pre e post d he hd
      have hcc : c' = c := by
        rw [a1] at ha
        cases c <;> cases c' <;> simp_all
      subst hcc
      rcases a6 with ⟨⟨p1, _⟩, _⟩ | ⟨p1, j, p2, p3, p4⟩
      · exfalso
        refine hnot e.lev ⟨e, ?_, p1, rfl⟩
        rw [he]; simp
      · refine ⟨c', s, by rw [e7]; exact a1, by rw [e8]; exact a2.trans (List.suffix_cons _ _), a3, ?_, a5, .inr ⟨p1, j, p2, p3, p4⟩⟩
        intro hw
        exfalso
        obtain ⟨_, rfl⟩ := a4 hw
        have hr := h.room hq hc hi hl hen hb (.inr p1)
        have hb1 := h.bnd c'
        rw [hq.card hw i hil] at hr
        have := hq.card hw j p3
        omega
    cnf := by
      intro p d hp
      rw [e4, hc] at hp; cases hp }
  · intro hm
    rw [hbc]
    rw [e8] at hm
    have : i = 0 ∨ (0, c) ∈ w.con.stack := by
      rcases List.mem_cons.1 hm with e | hm
      · simp only [Prod.mk.injEq] at e; exact .inl e.1.symm
      · exact .inr hm
    have := h.room hq hc hi hl hen hb this
    omega
  · intro hc'
    rcases h.act _ hc' with h1 | h1 | h1 | ⟨l, h1, _⟩ | ⟨h1, _⟩
    · cases h1
    · exact .inl h1
    · exact .inr h1
    · exact absurd h1 (hnot l)
    · rw [hc] at h1; cases h1

end Clasp.WC
