import Verif.Opt.Uncore
import Mathlib.Tactic.Linarith
import Mathlib.Tactic.Ring
/-! Helper lemmas for core-guided optimization: potential of a state and how elementary changes affect it. No code is modelled here. -/

namespace Clasp.Uncore
open Clasp.Core (Lit Asg)

/-- Proof device: two assignments agree on the first `n` variables. -/
def Agr (n : Nat) (M M' : Asg) : Prop := ∀ v < n, M' v = M v

theorem Agr.refl (n M) : Agr n M M := fun _ _ => rfl
theorem Agr.symm {n M M'} (h : Agr n M M') : Agr n M' M := fun v hv => (h v hv).symm
theorem Agr.mono {m n M M'} (h : Agr n M M') (hm : m ≤ n) : Agr m M M' := fun v hv => h v (by omega)
theorem Agr.trans {n M M' M''} (h : Agr n M M') (h' : Agr n M' M'') : Agr n M M'' := fun v hv => (h' v hv).trans (h v hv)

/-- Proof device: the value of a function depends on the first `n` variables only. -/
def Dep (n : Nat) (E : Asg → Int) : Prop := ∀ M M', Agr n M M' → E M' = E M

theorem Dep.mono {m n E} (h : Dep m E) (hm : m ≤ n) : Dep n E := fun M M' a => h M M' (a.mono hm)
theorem Dep.add {n E E'} (h : Dep n E) (h' : Dep n E') : Dep n (fun M => E M + E' M) :=
  fun M M' a => by simp only [h M M' a, h' M M' a]
theorem Dep.const (n) (z : Int) : Dep n (fun _ => z) := fun _ _ _ => rfl

theorem sat_congr {n M M'} (a : Agr n M M') {p : Lit} (hp : p.var < n) : M'.sat p ↔ M.sat p := by
  simp [Asg.sat, a _ hp]

theorem cnt_congr {n M M'} (a : Agr n M M') {ls : List Lit} (h : ∀ p ∈ ls, p.var < n) : cnt M' ls = cnt M ls := by
  induction ls with
  | nil => rfl
  | cons p ps ih => grind [cnt, sat_congr a (h p (by simp))]

/-- Proof device: 1 if the literal is false. -/
def viol (M : Asg) (p : Lit) : Int := if M.sat p then 0 else 1

theorem viol_congr {n M M'} (a : Agr n M M') {p : Lit} (hp : p.var < n) : viol M' p = viol M p := by
  simp [viol, sat_congr a hp]
theorem viol_nonneg (M p) : 0 ≤ viol M p := by unfold viol; split <;> decide
theorem viol_le (M p) : viol M p ≤ 1 := by unfold viol; split <;> decide
theorem viol_neg (M : Asg) (p : Lit) : viol M p.neg = if M.sat p then 1 else 0 := by
  simp only [viol, Clasp.Core.Asg.sat_neg]; split <;> simp_all
theorem cnt_nonneg (M ls) : 0 ≤ cnt M ls := by
  induction ls with
  | nil => simp [cnt]
  | cons p ps ih => simp only [cnt]; split <;> omega
theorem cnt_le (M ls) : cnt M ls ≤ ls.length := by
  induction ls with
  | nil => simp [cnt]
  | cons p ps ih => simp only [cnt, List.length_cons]; split <;> push_cast <;> omega
theorem cnt_append (M) (a b : List Lit) : cnt M (a ++ b) = cnt M a + cnt M b := by
  induction a with
  | nil => simp [cnt]
  | cons p ps ih => simp only [List.cons_append, cnt, ih]; ring
theorem cnt_pos {M} {ls : List Lit} (h : ∃ p ∈ ls, M.sat p) : 1 ≤ cnt M ls := by
  obtain ⟨p, hp, hs⟩ := h
  induction ls with
  | nil => cases hp
  | cons q qs ih =>
    have := cnt_nonneg M qs
    rcases List.mem_cons.1 hp with rfl | hp
    · simp [cnt, hs]; omega
    · have := ih hp; simp only [cnt]; split <;> omega
theorem cnt_pos_iff {M} {ls : List Lit} : 1 ≤ cnt M ls ↔ ∃ p ∈ ls, M.sat p := by
  refine ⟨fun h => ?_, cnt_pos⟩
  induction ls with
  | nil => simp [cnt] at h
  | cons q qs ih =>
    simp only [cnt] at h
    by_cases hq : M.sat q
    · exact ⟨q, by simp, hq⟩
    · simp [hq] at h
      obtain ⟨p, hp, hs⟩ := ih h
      exact ⟨p, by simp [hp], hs⟩
theorem cnt_neg (M) (ls : List Lit) : cnt M (ls.map Lit.neg) = ls.length - cnt M ls := by
  induction ls with
  | nil => simp [cnt]
  | cons p ps ih => simp only [List.map_cons, cnt, ih, Clasp.Core.Asg.sat_neg, List.length_cons]; split <;> simp_all <;> ring

/-- Proof device: the cost that an assumption stands for: its weight if it is false, and what the constraint it belongs to does not yet count. -/
def Dat.pot (M : Asg) (d : Dat) : Int :=
  d.weight * viol M d.lit + match d.core with
    | none => 0
    | some c => c.weight * max 0 (cnt M c.lits - c.bound)

/-- Proof device: sum of `Dat.pot`. -/
def pot (M : Asg) (D : List Dat) : Int := (D.map (Dat.pot M)).sum

theorem pot_append (M) (a b : List Dat) : pot M (a ++ b) = pot M a + pot M b := by simp [pot]
theorem pot_single (M) (d : Dat) : pot M [d] = d.pot M := by simp [pot]

theorem pot_set (M) {D : List Dat} {i : Nat} {d d' : Dat} (h : D[i]? = some d) :
    pot M (D.set i d') = pot M D - d.pot M + d'.pot M := by
  induction D generalizing i with
  | nil => simp at h
  | cons a D ih =>
    cases i with
    | zero => simp at h; subst h; simp [pot]; ring
    | succ i =>
      simp at h
      have := ih h
      simp only [pot, List.set_cons_succ, List.map_cons, List.sum_cons] at this ⊢
      rw [this]; ring

/-- Proof device: the variables of a constraint are below `n`. -/
def Con.below (n : Nat) : Con → Prop
  | .clause c => ∀ p ∈ c, p.var < n
  | .card ls _ => ∀ p ∈ ls, p.var < n
  | .iff W ls _ => W.var < n ∧ ∀ p ∈ ls, p.var < n
  | .imp W ls _ => W.var < n ∧ ∀ p ∈ ls, p.var < n

theorem Con.below.mono {m n c} (h : Con.below m c) (hm : m ≤ n) : Con.below n c := by
  cases c <;> simp only [Con.below] at h ⊢ <;> grind

theorem Con.sat_congr {n M M'} (a : Agr n M M') {c : Con} (h : c.below n) : c.sat M' ↔ c.sat M := by
  cases c with
  | clause c =>
    simp only [Con.below] at h; simp only [Con.sat]
    constructor <;> rintro ⟨p, hp, hs⟩ <;> exact ⟨p, hp, by first | exact (Uncore.sat_congr a (h p hp)).1 hs | exact (Uncore.sat_congr a (h p hp)).2 hs⟩
  | card ls B => simp only [Con.below] at h; simp only [Con.sat, cnt_congr a h]
  | iff W ls B => simp only [Con.below] at h; simp only [Con.sat, cnt_congr a h.2, Uncore.sat_congr a h.1]
  | imp W ls B => simp only [Con.below] at h; simp only [Con.sat, cnt_congr a h.2, Uncore.sat_congr a h.1]

theorem Sat_cons {c C M} : Sat (c :: C) M ↔ c.sat M ∧ Sat C M := by simp [Sat]

theorem Sat_congr {n M M'} (a : Agr n M M') {C : List Con} (h : ∀ c ∈ C, Con.below n c) : Sat C M' ↔ Sat C M := by
  simp only [Sat]
  exact ⟨fun g c hc => (Con.sat_congr a (h c hc)).1 (g c hc), fun g c hc => (Con.sat_congr a (h c hc)).2 (g c hc)⟩

/-- Proof device: an open constraint belongs to an assumption that implies it. -/
structure CoreOk (F : Asg → Prop) (C : List Con) (n : Nat) (p : Lit) (c : Core) : Prop where
  vars : ∀ q ∈ c.lits, q.var < n
  pos : 1 ≤ c.bound
  wpos : 0 < c.weight
  link : ∀ M, F M → Sat C M → M.sat p → cnt M c.lits < c.bound

/-- Proof device: well-formed data of an assumption. -/
structure DatOk (F : Asg → Prop) (C : List Con) (n : Nat) (T : Nat → Prop) (i : Nat) (d : Dat) : Prop where
  var : d.lit.var < n
  nn : 0 ≤ d.weight
  zero : d.weight = 0 → d.assume = false ∧ d.core = none
  act : d.weight ≠ 0 → d.assume = true ∨ T i
  core : ∀ c, d.core = some c → CoreOk F C n d.lit c

theorem CoreOk.mono {F C C' n n' p c} (h : CoreOk F C n p c) (hn : n ≤ n') (hC : ∀ M, Sat C' M → Sat C M) : CoreOk F C' n' p c :=
  ⟨fun q hq => by have := h.vars q hq; omega, h.pos, h.wpos, fun M a b => h.link M a (hC M b)⟩

theorem DatOk.mono {F C C' n n' T i d} (h : DatOk F C n T i d) (hn : n ≤ n') (hC : ∀ M, Sat C' M → Sat C M) :
    DatOk F C' n' T i d :=
  ⟨by have := h.var; omega, h.nn, h.zero, h.act, fun c hc => (h.core c hc).mono hn hC⟩

theorem Dat.pot_congr {F C n T i M M'} (a : Agr n M M') {d : Dat} (h : DatOk F C n T i d) : d.pot M' = d.pot M := by
  simp only [Dat.pot, viol_congr a h.var]
  cases hc : d.core with
  | none => rfl
  | some c => simp only [cnt_congr a (h.core c hc).vars]

theorem Dat.pot_nonneg {F C n T i M} {d : Dat} (h : DatOk F C n T i d) : d.weight * viol M d.lit ≤ d.pot M := by
  simp only [Dat.pot]
  cases hc : d.core with
  | none => simp
  | some c =>
    have := Int.mul_nonneg (h.core c hc).wpos.le (le_max_left 0 (cnt M c.lits - c.bound))
    simp only; linarith

/-- Proof device: well-formed states.  Assumptions with a positive weight that are not active are in `T`. -/
structure Wf (F : Asg → Prop) (n0 : Nat) (T : Nat → Prop) (σ : St) : Prop where
  n0 : n0 ≤ σ.n
  cons : ∀ c ∈ σ.cons, Con.below σ.n c
  dat : ∀ i d, σ.dat[i]? = some d → DatOk F σ.cons σ.n T i d
  asm1 : ∀ e ∈ σ.asm, ∃ d, σ.dat[e.2]? = some d ∧ d.lit = e.1
  asm2 : ∀ i d, σ.dat[i]? = some d → d.assume = true → (d.lit, i) ∈ σ.asm

theorem pot_congr {F n0 T σ M M'} (h : Wf F n0 T σ) (a : Agr σ.n M M') : pot M' σ.dat = pot M σ.dat := by
  unfold pot
  congr 1
  apply List.map_congr_left
  intro d hd
  obtain ⟨i, hi, rfl⟩ := List.getElem_of_mem hd
  exact Dat.pot_congr a (h.dat i _ (by simp [hi]))

/-- Proof device: the lower bound plus the cost the assumptions stand for. -/
def val (σ : St) (M : Asg) : Int := σ.lower + pot M σ.dat

theorem val_congr {F n0 T σ M M'} (h : Wf F n0 T σ) (a : Agr σ.n M M') : val σ M' = val σ M := by
  simp only [val, pot_congr h a]

/-- Proof device: a level under construction.  `F` are the models of the problem (variables below `n0`), `Q` those that have to be kept,
`c` the cost of the level, `E` what is not yet represented in the state. -/
structure Ctx where
  F : Asg → Prop
  n0 : Nat
  Q : Asg → Prop
  c : Asg → Int
  hF : ∀ M M', Agr n0 M M' → (F M' ↔ F M)
  hQ : ∀ M M', Agr n0 M M' → (Q M' ↔ Q M)
  hc : Dep n0 c

/-- Proof device: every model to be kept has an extension that satisfies the constraints and costs exactly what the state says; every
solution of the constraints costs at most what the state says. -/
structure Good (X : Ctx) (σ : St) (E : Asg → Int) : Prop where
  A : ∀ M, X.F M → X.Q M → ∃ M', Agr X.n0 M M' ∧ Sat σ.cons M' ∧ val σ M' + E M' = X.c M
  B : ∀ M, X.F M → Sat σ.cons M → X.c M ≤ val σ M + E M

/-- Proof device: there is no model to be kept. -/
def NoQ (X : Ctx) : Prop := ∀ M, X.F M → X.Q M → False

theorem Good.extend {X : Ctx} {σ σ' : St} {E E' : Asg → Int} (h : Good X σ E) (hn : X.n0 ≤ σ.n)
    (hA : ∀ M, X.F M → X.Q M → Sat σ.cons M → val σ M + E M = X.c M →
      ∃ M', Agr σ.n M M' ∧ Sat σ'.cons M' ∧ val σ' M' + E' M' = val σ M + E M)
    (hB : ∀ M, X.F M → Sat σ'.cons M → Sat σ.cons M ∧ val σ M + E M ≤ val σ' M + E' M) : Good X σ' E' := by
  constructor
  · intro M hF hQ
    obtain ⟨M1, a1, s1, e1⟩ := h.A M hF hQ
    obtain ⟨M2, a2, s2, e2⟩ := hA M1 ((X.hF _ _ a1).2 hF) ((X.hQ _ _ a1).2 hQ) s1 (by rw [e1, X.hc _ _ a1])
    exact ⟨M2, a1.trans (a2.mono hn), s2, by rw [e2, e1]⟩
  · intro M hF hs
    have h2 := hB M hF hs
    exact le_trans (h.B M hF h2.1) h2.2

/-- Proof device: changes of the representation only. -/
theorem Good.same {X : Ctx} {σ σ' : St} {E E' : Asg → Int} (h : Good X σ E) (hn : X.n0 ≤ σ.n) (hC : σ'.cons = σ.cons)
    (hv : ∀ M, X.F M → Sat σ.cons M → val σ' M + E' M = val σ M + E M) : Good X σ' E' :=
  h.extend hn (fun M hF _ hs _ => ⟨M, Agr.refl _ _, by rw [hC]; exact hs, hv M hF hs⟩)
    (fun M hF hs => by rw [hC] at hs; exact ⟨hs, (hv M hF hs).ge⟩)

theorem Good.nosat {X : Ctx} {σ : St} {E} (h : Good X σ E) (hb : ∀ M, X.F M → ¬ Sat σ.cons M) : NoQ X := by
  intro M hF hQ
  obtain ⟨M1, a1, s1, _⟩ := h.A M hF hQ
  exact hb M1 ((X.hF _ _ a1).2 hF) s1

/-- Proof device: what stays the same when cores are processed; `S` are the assumptions that may change. -/
structure Fr (S : Nat → Prop) (σ τ : St) : Prop where
  n : σ.n ≤ τ.n
  cons : ∀ c ∈ σ.cons, c ∈ τ.cons
  len : σ.dat.length ≤ τ.dat.length
  dat : ∀ i < σ.dat.length, ¬ S i → τ.dat[i]? = σ.dat[i]?
  low : σ.lower ≤ τ.lower
  asm : ∃ X, τ.asm = σ.asm ++ X
  nextW : σ.nextW ≤ τ.nextW ∧ (σ.nextW = 0 → τ.nextW = 0)
  misc : τ.todo = σ.todo ∧ τ.shrink = σ.shrink ∧ τ.up = σ.up ∧ τ.found = σ.found ∧ τ.level = σ.level ∧ τ.next = σ.next ∧
    τ.disj = σ.disj ∧ τ.init = σ.init ∧ τ.actW = σ.actW ∧ τ.ready = σ.ready ∧ τ.fin = σ.fin

theorem Fr.refl (S σ) : Fr S σ σ :=
  ⟨le_refl _, fun _ h => h, le_refl _, fun _ _ _ => rfl, le_refl _, ⟨[], by simp⟩, ⟨le_refl _, id⟩, by simp⟩

theorem Fr.trans {S σ τ ρ} (h : Fr S σ τ) (g : Fr S τ ρ) : Fr S σ ρ := by
  refine ⟨h.n.trans g.n, fun c hc => g.cons c (h.cons c hc), h.len.trans g.len, fun i hi hs => ?_, h.low.trans g.low, ?_, ?_, ?_⟩
  · rw [g.dat i (by have := h.len; omega) hs, h.dat i hi hs]
  · obtain ⟨a, ha⟩ := h.asm; obtain ⟨b, hb⟩ := g.asm
    exact ⟨a ++ b, by rw [hb, ha, List.append_assoc]⟩
  · exact ⟨h.nextW.1.trans g.nextW.1, fun z => g.nextW.2 (h.nextW.2 z)⟩
  · have a := h.misc; have b := g.misc
    grind

theorem Fr.mono {S S' σ τ} (h : Fr S σ τ) (hs : ∀ i, S i → S' i) : Fr S' σ τ :=
  ⟨h.n, h.cons, h.len, fun i hi hn => h.dat i hi (fun a => hn (hs i a)), h.low, h.asm, h.nextW, h.misc⟩

/-- Proof device: the result of an operation: without conflict the state is well-formed and good, with a conflict there is no model to be
kept. -/
def Post (X : Ctx) (T S : Nat → Prop) (σ : St) (r : St × Bool) (E : Asg → Int) : Prop :=
  (r.2 = true → Good X r.1 E ∧ Wf X.F X.n0 T r.1 ∧ Fr S σ r.1) ∧ (r.2 = false → NoQ X)

/-- Proof device: adding a constraint with possibly new variables and assumptions. -/
theorem addCon_post {X : Ctx} {o : Slv} (ho : o.Sound X.F) {T S : Nat → Prop} {σ σ1 : St} {c : Con} {E : Asg → Int}
    (g : Good X { σ1 with cons := c :: σ1.cons } E) (w : Wf X.F X.n0 T { σ1 with cons := c :: σ1.cons })
    (f : Fr S σ { σ1 with cons := c :: σ1.cons }) : Post X T S σ (addCon o σ1 c) E := by
  refine ⟨fun _ => ⟨g, w, f⟩, fun h => g.nosat ?_⟩
  simp only [addCon, Bool.not_eq_false'] at h
  exact ho.bad _ h

theorem Wf.addCon {F n0 T σ} (h : Wf F n0 T σ) {c : Con} (hc : Con.below σ.n c) : Wf F n0 T { σ with cons := c :: σ.cons } where
  n0 := h.n0
  cons := by intro d hd; rcases List.mem_cons.1 hd with rfl | hd; exacts [hc, h.cons d hd]
  dat := fun i d hd => (h.dat i d hd).mono (le_refl _) (fun M hs => (Sat_cons.1 hs).2)
  asm1 := h.asm1
  asm2 := h.asm2

theorem Fr.addCon (S) (σ : St) (c : Con) : Fr S σ { σ with cons := c :: σ.cons } :=
  ⟨le_refl _, fun _ h => by simp [h], le_refl _, fun _ _ _ => rfl, le_refl _, ⟨[], by simp⟩, ⟨le_refl _, id⟩, by simp⟩

/-- Proof device: adding a constraint over existing variables that all models to be kept satisfy. -/
theorem strengthen {X : Ctx} {o : Slv} (ho : o.Sound X.F) {T : Nat → Prop} (S : Nat → Prop) {σ : St} {c : Con} {E : Asg → Int} (g : Good X σ E)
    (w : Wf X.F X.n0 T σ) (hc : Con.below σ.n c)
    (hs : ∀ M, X.F M → X.Q M → Sat σ.cons M → val σ M + E M = X.c M → c.sat M) : Post X T S σ (addCon o σ c) E := by
  refine addCon_post ho (g.extend w.n0 ?_ ?_) (w.addCon hc) (Fr.addCon S σ c)
  · intro M hF hQ hS he
    exact ⟨M, Agr.refl _ _, Sat_cons.2 ⟨hs M hF hQ hS he, hS⟩, rfl⟩
  · intro M _ hS
    exact ⟨(Sat_cons.1 hS).2, le_refl _⟩

theorem fixLit_post {X : Ctx} {o : Slv} (ho : o.Sound X.F) {T : Nat → Prop} (S : Nat → Prop) {σ : St} {p : Lit} {E : Asg → Int} (g : Good X σ E)
    (w : Wf X.F X.n0 T σ) (hp : p.var < σ.n)
    (hs : ∀ M, X.F M → X.Q M → Sat σ.cons M → val σ M + E M = X.c M → M.sat p) : Post X T S σ (fixLit o σ p) E :=
  strengthen ho S g w (by simpa [Con.below] using hp) (fun M a b c d => ⟨p, by simp, hs M a b c d⟩)

theorem Post.bind {X : Ctx} {T T' S S' : Nat → Prop} {σ : St} {r : St × Bool} {E E' : Asg → Int} {f : St → St × Bool} (h : Post X T S σ r E)
    (hS : ∀ i, S i → S' i) (hf : ∀ τ, Good X τ E → Wf X.F X.n0 T τ → Fr S σ τ → Post X T' S' τ (f τ) E') :
    Post X T' S' σ (if ¬ r.2 = true then r else f r.1) E' := by
  by_cases h2 : r.2 = true
  · rw [if_neg (by simpa using h2)]
    obtain ⟨g, w, fr⟩ := h.1 h2
    have := hf r.1 g w fr
    exact ⟨fun a => ⟨(this.1 a).1, (this.1 a).2.1, (fr.mono hS).trans (this.1 a).2.2⟩, this.2⟩
  · rw [if_pos h2]
    exact ⟨fun a => absurd a h2, h.2⟩

end Clasp.Uncore
