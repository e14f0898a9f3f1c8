import Verif.Facade.Result

/-!
# C32: specification of the environment and invariants of the search loops

The specification side: `Goal` says when a list of committed models settles a solution
(plain enumeration, optimisation, consequences are instances), `World.Step` says what the
solver, the enumerator and the interrupt counter guarantee for every call, in terms of the set
of solutions that are not yet settled.
-/

namespace Clasp.Facade

/-- Specification: when a list of committed models settles (makes it unnecessary to visit) a
solution. Committing more models settles more, a committed model is settled, and nothing is
settled without a model. -/
structure Goal (M : Type) where
  cov : List M → M → Prop
  mono : ∀ l m x, cov l x → cov (m :: l) x
  self : ∀ l m, cov (m :: l) m
  nil : ∀ x, ¬ cov [] x

/-- Specification: enumeration up to a projection. -/
def Goal.enum {M P : Type} (proj : M → P) : Goal M where
  cov l x := ∃ m ∈ l, proj m = proj x
  mono := fun _ _ _ ⟨m, h, e⟩ => ⟨m, List.mem_cons_of_mem _ h, e⟩
  self := fun _ m => ⟨m, by simp, rfl⟩
  nil := by simp

/-- Specification: optimisation; a solution is settled by a model that is not worse. -/
def Goal.opt {M C : Type} [LE C] (cost : M → C) (refl : ∀ c : C, c ≤ c) : Goal M where
  cov l x := ∃ m ∈ l, cost m ≤ cost x
  mono := fun _ _ _ ⟨m, h, e⟩ => ⟨m, List.mem_cons_of_mem _ h, e⟩
  self := fun _ m => ⟨m, by simp, refl _⟩
  nil := by simp

/-- Specification: cautious consequences; a solution is settled if it contains everything common
to the models found so far. -/
def Goal.cautious {M A : Type} (holds : M → A → Prop) : Goal M where
  cov l x := l ≠ [] ∧ ∀ a, (∀ m ∈ l, holds m a) → holds x a
  mono := fun l m x ⟨_, h⟩ => ⟨by simp, fun a ha => h a fun m' hm' => ha m' (by simp [hm'])⟩
  self := fun l m => ⟨by simp, fun a ha => ha m (by simp)⟩
  nil := by simp

/-- Specification state: what is true of the run so far. `rem` is the set of solutions that can
still be found in the current phase, `coms` the models committed in this phase, `prev` those of
the finished tentative phase (`--opt-mode=optN`), `cur` the model just found, `rep` all models
handed to the model handler, `term` whether the interrupt counter is positive, `post` whether
the interrupt handler is installed, `stop` whether the solver has a stop conflict caused by it. -/
structure World (M : Type) where
  rem : M → Prop
  coms : List M
  prev : List M
  tentative : Bool
  cur : Option M
  rep : List M
  term : Bool
  post : Bool
  stop : Bool

/-- A problem: its solutions (under the assumptions), the two goals - of the tentative phase and
of the final phase - and the relation "strictly worse than the best of these models" that bounds
the final phase. Specification. -/
structure Problem (M : Type) where
  sol : M → Prop
  goal : Goal M
  tgoal : Goal M
  worse : List M → M → Prop
  /-- without a tentative phase nothing is dismissed -/
  worse_nil : ∀ x, ¬ worse [] x

/-- The goal of the current phase. Specification. -/
def Problem.g {M : Type} (P : Problem M) (w : World M) : Goal M :=
  if w.tentative then P.tgoal else P.goal

/-- Everything a call may change without being asked: the interrupt counter may become positive
at any time (signal handler or another thread). Specification. -/
def World.intr {M : Type} (w : World M) (t : Bool) : World M := { w with term := w.term || t }

/-- What is assumed of the calls (specification of the environment).
* an interrupt test answers whether the counter is positive;
* `attach`/`start` without the interrupt handler fail only if there is no solution; with the
  handler installed they may also fail if the counter is positive;
* a model is a solution not settled yet; `value_false` may be caused by the interrupt handler
  only if the counter is positive;
* `commitUnsat` answers false on a conflict not caused by the handler only if nothing is left;
* `update` (and a rejected `commitModel`) dismiss only settled solutions;
* `moreModels` answers false only if the model is the only solution left;
* `commitComplete` answers false exactly in a tentative phase with a model; the following `start`
  opens the final phase with all solutions not worse than the models found. -/
inductive World.Step {M : Type} (P : Problem M) : World M → Ev M → World M → Prop
  | intr (w t) : Step P w (.intr (w.intr t).term) (w.intr t)
  | attach (w t b) : (b = false → ∀ x, ¬ w.rem x) → Step P w (.attach b) (w.intr t)
  | install (w t) : Step P w .install { w.intr t with post := true }
  | start (w t b stop) (rem' : M → Prop) :
      (stop = true → (w.intr t).term = true ∧ w.post = true) →
      (b = false → stop = true ∨ ∀ x, ¬ w.rem x) →
      (∀ x, w.rem x ↔ rem' x) →
      Step P w (.start b) { w.intr t with rem := rem', stop := stop }
  | model (w t m) : w.rem m → Step P w (.solve .tt (some m)) { w.intr t with cur := some m }
  | free (w t) : Step P w (.solve .free none) (w.intr t)
  | conflict (w t stop) : (stop = true → (w.intr t).term = true ∧ w.post = true) →
      Step P w (.solve .ff none) { w.intr t with stop := stop }
  | commit (w t m) : w.cur = some m →
      Step P w (.commitModel true) { w.intr t with coms := m :: w.coms }
  | reject (w t) (rem' : M → Prop) : (∀ x, w.rem x → (P.g w).cov w.coms x ∨ rem' x) →
      (∀ x, rem' x → w.rem x) →
      Step P w (.commitModel false) { w.intr t with rem := rem' }
  | onModel (w t b m) : w.cur = some m →
      Step P w (.onModel b) { w.intr t with rep := m :: w.rep }
  | limit (w t b) : Step P w (.limit b) (w.intr t)
  | symSome (w t m) : w.rem m →
      Step P w (.sym (some m)) { w.intr t with cur := some m, coms := m :: w.coms }
  | symNone (w t) : Step P w (.sym none) (w.intr t)
  | update (w t) (rem' : M → Prop) : (∀ x, w.rem x → (P.g w).cov w.coms x ∨ rem' x) →
      (∀ x, rem' x → w.rem x) →
      Step P w .update { w.intr t with rem := rem' }
  | more (w t b) : (b = false → ∀ x, w.rem x → w.cur = some x) → Step P w (.more b) (w.intr t)
  | unsatMore (w t) : Step P w (.commitUnsat true) (w.intr t)
  | unsatEnd (w t) : (w.stop = false → ∀ x, ¬ w.rem x) → Step P w (.commitUnsat false) (w.intr t)
  | complete (w t) : w.tentative = false ∨ w.coms = [] →
      Step P w (.commitComplete true) (w.intr t)
  | optimal (w t) (rem' : M → Prop) : w.tentative = true → w.coms ≠ [] →
      (∀ x, rem' x ↔ P.sol x ∧ ¬ P.worse w.coms x) →
      Step P w (.commitComplete false)
        { w.intr t with tentative := false, prev := w.coms, coms := [], rem := rem' }

/-- A sequence of calls that behaves as assumed. Specification. -/
inductive World.Steps {M : Type} (P : Problem M) (w₀ : World M) : List (Ev M) → World M → Prop
  | nil : Steps P w₀ [] w₀
  | snoc {es w e w'} : Steps P w₀ es w → World.Step P w e w' → Steps P w₀ (es ++ [e]) w'

/-- The situation when the search is started. Specification. -/
structure World.Init {M : Type} (P : Problem M) (w : World M) : Prop where
  rem : ∀ x, w.rem x ↔ P.sol x
  coms : w.coms = []
  prev : w.prev = []
  rep : w.rep = []
  cur : w.cur = none
  post : w.post = false
  stop : w.stop = false

/-- Every solution has been settled. Specification. -/
def World.Settled {M : Type} (P : Problem M) (w : World M) : Prop :=
  ∀ x, P.sol x → (P.g w).cov w.coms x ∨ P.worse w.prev x

/-- The two windows in which an interrupt is mistaken for exhaustion: it arrives between the
test in `attach` (solve_algorithms.cpp 287) and the one in `doSolve` (475), or makes the restart
after the tentative phase fail (486, 453). Specification. -/
def Race {M : Type} (es : List (Ev M)) : Prop :=
  es = [.intr false, .intr true, .install] ∨ ∃ pre, es = pre ++ [.commitComplete false, .start false]

theorem Pc.run_append {M : Type} (es : List (Ev M)) (e : Ev M) :
    ∀ p : Pc, p.run (es ++ [e]) = (p.run es).bind fun q => q.step e := by
  induction es with
  | nil => intro p; cases h : p.step e <;> simp [Pc.run, h]
  | cons a t ih =>
    intro p
    cases h : p.step a <;> simp [Pc.run, h, ih]

theorem Nc.run_append {M : Type} (es : List (Ev M)) (e : Ev M) :
    ∀ p : Nc, p.run (es ++ [e]) = (p.run es).bind fun q => q.step e := by
  induction es with
  | nil => intro p; cases h : p.step e <;> simp [Nc.run, h]
  | cons a t ih =>
    intro p
    cases h : p.step a <;> simp [Nc.run, h, ih]

/-- What holds at every control point. -/
structure World.Core {M : Type} (P : Problem M) (w : World M) : Prop where
  sound : ∀ x, w.rem x → P.sol x
  cover : ∀ x, P.sol x → w.rem x ∨ (P.g w).cov w.coms x ∨ P.worse w.prev x
  rep : ∀ m ∈ w.rep, P.sol m
  cur : ∀ m, w.cur = some m → P.sol m
  stop : w.stop = true → w.term = true
  prev : w.prev ≠ [] → w.rep ≠ []

/-- What holds at a particular control point of `doSolve`, after the calls `es`. -/
def Pc.Inv {M : Type} (P : Problem M) (ok : Bool) (es : List (Ev M)) (w : World M) : Pc → Prop
  | .attach0 b => b = ok ∧ es = [] ∧ w.coms = [] ∧ w.stop = false ∧ w.post = false
  | .chk => es = [.intr false] ∧ w.coms = [] ∧ w.stop = false ∧ w.post = false
  | .att => w.coms = [] ∧ w.stop = false ∧ w.post = false
  | .start0 => w.coms = [] ∧ w.stop = false ∧ w.post = false
  | .inst b => w.coms = [] ∧ w.stop = false ∧
      (b = false → (∀ x, ¬ w.rem x) ∨ (es = [.intr false, .intr true] ∧ w.term = true))
  | .com => w.cur ≠ none ∧ (w.coms ≠ [] → w.rep ≠ [])
  | .rep => ∃ m l, w.cur = some m ∧ w.coms = m :: l
  | .repLim _ | .repInt | .repSym | .mm => (∃ m l, w.cur = some m ∧ w.coms = m :: l) ∧ w.rep ≠ []
  | .upd | .top | .uchk => w.coms ≠ [] → w.rep ≠ []
  | .cu => (w.coms ≠ [] → w.rep ≠ []) ∧ w.stop = false
  | .cc => (w.coms ≠ [] → w.rep ≠ []) ∧ ∀ x, ¬ w.rem x
  | .restart => w.coms = [] ∧ ∃ pre, es = pre ++ [.commitComplete false]
  | .ret true => True
  | .ret false => (ok = false ∧ es = [.intr true]) ∨ (Race es ∧ w.term = true) ∨
      (w.Settled P ∧ (w.coms ≠ [] → w.rep ≠ []))

theorem World.Core.step {M : Type} {P : Problem M} {w w' : World M} {e : Ev M} (h : w.Core P)
    (hs : World.Step P w e w') (hp : e = .commitComplete false → w.coms ≠ [] → w.rep ≠ []) :
    w'.Core P := by
  obtain ⟨h1, h2, h3, h4, h5, h6⟩ := h
  have ht : ∀ t, w.stop = true → (w.intr t).term = true := by
    intro t a; simp [World.intr, h5 a]
  cases hs with
  | intr t => exact ⟨h1, h2, h3, h4, ht t, h6⟩
  | attach t b _ => exact ⟨h1, h2, h3, h4, ht t, h6⟩
  | install t => exact ⟨h1, h2, h3, h4, ht t, h6⟩
  | start t b stop rem' a b' c =>
    exact ⟨fun x hx => h1 x ((c x).2 hx), fun x hx => (h2 x hx).imp (c x).1 id, h3, h4,
      fun s => (a s).1, h6⟩
  | model t m hm =>
    refine ⟨h1, h2, h3, ?_, ht t, h6⟩
    intro m' hm'; cases hm'; exact h1 _ hm
  | free t => exact ⟨h1, h2, h3, h4, ht t, h6⟩
  | conflict t stop a => exact ⟨h1, h2, h3, h4, fun s => (a s).1, h6⟩
  | commit t m hm =>
    refine ⟨h1, ?_, h3, h4, ht t, h6⟩
    intro x hx
    rcases h2 x hx with a | a | a
    · exact .inl a
    · exact .inr (.inl ((P.g w).mono _ _ _ a))
    · exact .inr (.inr a)
  | reject t rem' a b =>
    refine ⟨fun x hx => h1 x (b x hx), ?_, h3, h4, ht t, h6⟩
    intro x hx
    rcases h2 x hx with c | c
    · rcases a x c with d | d
      · exact .inr (.inl d)
      · exact .inl d
    · exact .inr c
  | onModel t b m hm =>
    refine ⟨h1, h2, ?_, h4, ht t, fun _ => by simp⟩
    intro m' hm'
    rcases List.mem_cons.1 hm' with rfl | a
    · exact h4 _ hm
    · exact h3 _ a
  | limit t b => exact ⟨h1, h2, h3, h4, ht t, h6⟩
  | symSome t m hm =>
    refine ⟨h1, ?_, h3, ?_, ht t, h6⟩
    · intro x hx
      rcases h2 x hx with a | a | a
      · exact .inl a
      · exact .inr (.inl ((P.g w).mono _ _ _ a))
      · exact .inr (.inr a)
    · intro m' hm'; cases hm'; exact h1 _ hm
  | symNone t => exact ⟨h1, h2, h3, h4, ht t, h6⟩
  | update t rem' a b =>
    refine ⟨fun x hx => h1 x (b x hx), ?_, h3, h4, ht t, h6⟩
    intro x hx
    rcases h2 x hx with c | c
    · rcases a x c with d | d
      · exact .inr (.inl d)
      · exact .inl d
    · exact .inr c
  | more t b _ => exact ⟨h1, h2, h3, h4, ht t, h6⟩
  | unsatMore t => exact ⟨h1, h2, h3, h4, ht t, h6⟩
  | unsatEnd t _ => exact ⟨h1, h2, h3, h4, ht t, h6⟩
  | complete t _ => exact ⟨h1, h2, h3, h4, ht t, h6⟩
  | optimal t rem' a b c =>
    refine ⟨fun x hx => ((c x).1 hx).1, ?_, h3, h4, ht t, fun _ => hp rfl b⟩
    intro x hx
    by_cases hw : P.worse w.coms x
    · exact .inr (.inr hw)
    · exact .inl ((c x).2 ⟨hx, hw⟩)

theorem World.Core.settled {M : Type} {P : Problem M} {w w' : World M} (h : w.Core P)
    (he : ∀ x, ¬ w.rem x) (h1 : w'.coms = w.coms) (h2 : w'.prev = w.prev)
    (h3 : w'.tentative = w.tentative) : w'.Settled P := by
  intro x hx
  have := h.cover x hx
  simp only [Problem.g, h1, h2, h3] at *
  rcases this with a | a
  · exact absurd a (he x)
  · exact a

theorem Pc.inv_step {M : Type} {P : Problem M} {ok : Bool} {es : List (Ev M)} {w w' : World M}
    {e : Ev M} {p q : Pc} (hc : w.Core P) (hi : p.Inv P ok es w) (hq : p.step e = some q)
    (hs : World.Step P w e w') : q.Inv P ok (es ++ [e]) w' := by
  cases p <;> cases e <;> simp only [Pc.step, Option.some.injEq, reduceCtorEq] at hq
  case attach0.intr b c =>
    obtain ⟨rfl, rfl, h1, h2, h3⟩ := hi
    subst hq
    cases hs with
    | intr t =>
      cases hb : (w.intr t).term
      · exact ⟨by simp, h1, h2, h3⟩
      · cases b
        · exact .inl ⟨rfl, by simp⟩
        · trivial
  case chk.intr c =>
    obtain ⟨rfl, h1, h2, h3⟩ := hi
    subst hq
    cases hs with
    | intr t =>
      cases hb : (w.intr t).term
      · exact ⟨h1, h2, h3⟩
      · exact ⟨h1, h2, fun _ => .inr ⟨by simp, hb⟩⟩
  case att.attach b =>
    obtain ⟨h1, h2, h3⟩ := hi
    subst hq
    cases hs with
    | attach t b hb =>
      cases b
      · exact ⟨h1, h2, fun _ => .inl (hb rfl)⟩
      · exact ⟨h1, h2, h3⟩
  case start0.start b =>
    obtain ⟨h1, h2, h3⟩ := hi
    subst hq
    cases hs with
    | start t b stop rem' ha hb hr =>
      have hstop : stop = false := by
        cases stop
        · rfl
        · have := (ha rfl).2; simp [h3] at this
      refine ⟨h1, hstop, fun hbf => .inl fun x hx => ?_⟩
      rcases hb hbf with a | a
      · simp [hstop] at a
      · exact a x ((hr x).2 hx)
  case inst.install b =>
    obtain ⟨h1, h2, h3⟩ := hi
    subst hq
    cases hs with
    | install t =>
      cases b
      · rcases h3 rfl with a | a
        · exact .inr (.inr ⟨hc.settled a rfl rfl rfl, fun h => absurd h1 h⟩)
        · exact .inr (.inl ⟨.inl (by simp [a.1]), by simp [World.intr, a.2]⟩)
      · exact fun h => absurd h1 h
  case top.solve r m =>
    cases hs with
    | model t m hm =>
      simp only [Option.some.injEq] at hq; subst hq
      exact ⟨by simp, hi⟩
    | free t => simp only [Option.some.injEq] at hq; subst hq; trivial
    | conflict t stop a => simp only [Option.some.injEq] at hq; subst hq; exact hi
  case com.commitModel b =>
    subst hq
    cases hs with
    | commit t m hm => exact ⟨m, w.coms, hm, rfl⟩
    | reject t rem' a b => exact hi.2
  case rep.onModel b =>
    subst hq
    obtain ⟨m, l, h1, h2⟩ := hi
    cases hs with
    | onModel t b m' hm =>
      cases b <;> exact ⟨⟨m, l, h1, h2⟩, by simp⟩
  case repLim.limit c b =>
    subst hq
    cases hs with
    | limit t b => cases b <;> exact hi
  case repInt.intr b =>
    subst hq
    cases hs with
    | intr t => cases hb : (w.intr t).term <;> exact hi
  case repSym.sym o =>
    cases hs with
    | symSome t m hm =>
      simp only [Option.some.injEq] at hq; subst hq
      exact ⟨m, w.coms, rfl, rfl⟩
    | symNone t =>
      simp only [Option.some.injEq] at hq; subst hq
      exact fun _ => hi.2
  case upd.update =>
    subst hq
    cases hs with
    | update t rem' a b => exact hi
  case mm.more b =>
    subst hq
    cases hs with
    | more t b hb =>
      cases b
      · obtain ⟨⟨m, l, h1, h2⟩, h3⟩ := hi
        refine .inr (.inr ⟨?_, fun _ => h3⟩)
        intro x hx
        rcases hc.cover x hx with a | a
        · have := hb rfl x a
          rw [h1] at this; cases this
          left
          show (P.g w).cov w.coms m
          rw [h2]; exact (P.g w).self _ _
        · exact a
      · trivial
  case uchk.intr b =>
    subst hq
    cases hs with
    | intr t =>
      cases hb : (w.intr t).term
      · refine ⟨hi, ?_⟩
        show w.stop = false
        cases hst : w.stop
        · rfl
        · have := hc.stop hst
          simp [World.intr, this] at hb
      · trivial
  case cu.commitUnsat b =>
    subst hq
    cases hs with
    | unsatMore t => exact hi.1
    | unsatEnd t h => exact ⟨hi.1, h hi.2⟩
  case cc.commitComplete b =>
    subst hq
    cases hs with
    | complete t h => exact .inr (.inr ⟨hc.settled hi.2 rfl rfl rfl, hi.1⟩)
    | optimal t rem' a b c => exact ⟨rfl, es, rfl⟩
  case restart.start b =>
    subst hq
    obtain ⟨h1, pre, rfl⟩ := hi
    cases hs with
    | start t b stop rem' ha hb hr =>
      cases b
      · cases stop
        · have he : ∀ x, ¬ w.rem x := (hb rfl).resolve_left (by simp)
          exact .inr (.inr ⟨hc.settled he rfl rfl rfl, fun h => absurd h1 h⟩)
        · exact .inr (.inl ⟨.inr ⟨pre, by simp⟩, (ha rfl).1⟩)
      · exact fun h => absurd h1 h

theorem Pc.inv_run {M : Type} {P : Problem M} {ok : Bool} {es : List (Ev M)} {w₀ w : World M}
    (h0 : w₀.Init P) (hs : World.Steps P w₀ es w) :
    ∀ p, (Pc.attach0 ok).run es = some p → w.Core P ∧ p.Inv P ok es w := by
  induction hs with
  | nil =>
    intro p hp
    simp only [Pc.run, Option.some.injEq] at hp
    subst hp
    refine ⟨⟨fun x => (h0.rem x).1, fun x hx => .inl ((h0.rem x).2 hx), by simp [h0.rep],
      by simp [h0.cur], by simp [h0.stop], by simp [h0.prev]⟩, rfl, rfl, h0.coms, h0.stop, h0.post⟩
  | @snoc es w e w' _ hst ih =>
    intro p hp
    rw [Pc.run_append] at hp
    cases hq : (Pc.attach0 ok).run es with
    | none => simp [hq] at hp
    | some q =>
      rw [hq] at hp
      simp only [Option.bind_some] at hp
      obtain ⟨hc, hi⟩ := ih q hq
      refine ⟨hc.step hst ?_, Pc.inv_step hc hi hp hst⟩
      rintro rfl
      cases q <;> simp only [Pc.step, Option.some.injEq, reduceCtorEq] at hp
      exact hi.1

theorem rep_length {M : Type} {P : Problem M} {es : List (Ev M)} {w₀ w : World M}
    (hs : World.Steps P w₀ es w) : w.rep.length = w₀.rep.length + numEnum es := by
  have hap : ∀ (es : List (Ev M)) e, numEnum (es ++ [e]) = numEnum es + numEnum [e] := by
    intro es e
    induction es with
    | nil => simp [numEnum]
    | cons a t ih => cases a <;> simp [numEnum, ih] <;> omega
  induction hs with
  | nil => simp [numEnum]
  | snoc _ hst ih =>
    rw [hap]
    cases hst <;> simp_all [numEnum, World.intr] <;> omega

/-- What holds at a particular control point of the iterative interface. -/
def Nc.Inv {M : Type} (P : Problem M) (ok : Bool) (es : List (Ev M)) (w : World M) : Nc → Prop
  | .attach0 b => b = ok ∧ es = [] ∧ w.coms = [] ∧ w.stop = false ∧ w.post = false
  | .start0 => w.coms = [] ∧ w.stop = false ∧ w.post = false
  | .idle none _ => True
  | .idle (some .tt) s => w.rep ≠ [] ∧ s = true
  | .idle (some .free) s => w.coms = [] ∧ (s = false → ∀ x, ¬ w.rem x)
  | .idle (some .ff) _ => False
  | .chk _ s => w.rep ≠ [] ∧ s = true
  | .inst _ | .upd | .top | .uchk => w.coms ≠ [] → w.rep ≠ []
  | .cu => (w.coms ≠ [] → w.rep ≠ []) ∧ w.stop = false
  | .cc => (w.coms ≠ [] → w.rep ≠ []) ∧ ∀ x, ¬ w.rem x
  | .restart => w.coms = [] ∧ ∃ pre, es = pre ++ [.commitComplete false]
  | .com => w.cur ≠ none ∧ (w.coms ≠ [] → w.rep ≠ [])
  | .rep => w.cur ≠ none
  | .repLim | .repInt => w.rep ≠ []
  | .closed .ff => (ok = false ∧ es = [.intr true]) ∨
      ((∃ pre, es = pre ++ [.commitComplete false, .start false]) ∧ w.term = true) ∨
      (w.Settled P ∧ (w.coms ≠ [] → w.rep ≠ []))
  | .closed _ => True

theorem Nc.inv_step {M : Type} {P : Problem M} {ok : Bool} {es : List (Ev M)} {w w' : World M}
    {e : Ev M} {p q : Nc} (hc : w.Core P) (hi : p.Inv P ok es w) (hq : p.step e = some q)
    (hs : World.Step P w e w') : q.Inv P ok (es ++ [e]) w' := by
  cases p
  case closed l => cases e <;> simp [Nc.step] at hq
  all_goals cases e <;> try (simp only [Nc.step, Option.some.injEq, reduceCtorEq] at hq)
  case attach0.intr b c =>
    obtain ⟨rfl, rfl, h1, h2, h3⟩ := hi
    subst hq
    cases hs with
    | intr t =>
      cases hb : (w.intr t).term
      · exact ⟨h1, h2, h3⟩
      · cases b
        · exact .inl ⟨rfl, by simp⟩
        · trivial
  case start0.start b =>
    obtain ⟨h1, h2, h3⟩ := hi
    subst hq
    cases hs with
    | start t b stop rem' ha hb hr =>
      have hstop : stop = false := by
        cases stop
        · rfl
        · have := (ha rfl).2; simp [h3] at this
      refine ⟨h1, fun hbf x hx => ?_⟩
      rcases hb hbf with a | a
      · simp [hstop] at a
      · exact a x ((hr x).2 hx)
  case idle.intr l s b =>
    cases l with
    | none => simp [Nc.step] at hq
    | some l =>
      cases l with
      | tt => simp [Nc.step] at hq
      | ff => exact hi.elim
      | free =>
        obtain ⟨h1, h2⟩ := hi
        simp only [Nc.step, reduceCtorEq, if_false, Option.some.injEq] at hq
        subst hq
        cases hs with
        | intr t =>
          cases s
          · simp only [Bool.not_false, Bool.or_true, if_true]
            exact .inr (.inr ⟨hc.settled (h2 rfl) rfl rfl rfl, fun h => absurd h1 h⟩)
          · cases hb : (w.intr t).term
            · exact fun h => absurd h1 h
            · trivial
  case idle.sym l s o =>
    cases l with
    | none => cases o <;> simp [Nc.step] at hq
    | some l =>
      cases l with
      | ff => exact hi.elim
      | free => cases o <;> simp [Nc.step] at hq
      | tt =>
        cases hs with
        | symSome t m hm =>
          simp only [Nc.step, Option.some.injEq] at hq; subst hq
          exact Option.some_ne_none m
        | symNone t =>
          simp only [Nc.step, Option.some.injEq] at hq; subst hq
          exact hi
  case chk.intr l s b =>
    obtain ⟨h1, rfl⟩ := hi
    subst hq
    cases hs with
    | intr t =>
      cases hb : (w.intr t).term
      · exact fun _ => h1
      · trivial
  case inst.install l =>
    subst hq
    cases hs with
    | install t => cases l <;> exact hi
  case upd.update =>
    subst hq
    cases hs with
    | update t rem' a b => exact hi
  case top.solve r m =>
    cases hs with
    | model t m hm =>
      simp only [Nc.step, Option.some.injEq] at hq; subst hq
      exact ⟨by simp, hi⟩
    | free t => simp only [Nc.step, Option.some.injEq] at hq; subst hq; trivial
    | conflict t stop a => simp only [Nc.step, Option.some.injEq] at hq; subst hq; exact hi
  case uchk.intr b =>
    subst hq
    cases hs with
    | intr t =>
      cases hb : (w.intr t).term
      · refine ⟨hi, ?_⟩
        show w.stop = false
        cases hst : w.stop
        · rfl
        · have := hc.stop hst
          simp [World.intr, this] at hb
      · trivial
  case cu.commitUnsat b =>
    subst hq
    cases hs with
    | unsatMore t => exact hi.1
    | unsatEnd t h => exact ⟨hi.1, h hi.2⟩
  case cc.commitComplete b =>
    subst hq
    cases hs with
    | complete t h => exact .inr (.inr ⟨hc.settled hi.2 rfl rfl rfl, hi.1⟩)
    | optimal t rem' a b c => exact ⟨rfl, es, rfl⟩
  case restart.start b =>
    subst hq
    obtain ⟨h1, pre, rfl⟩ := hi
    cases hs with
    | start t b stop rem' ha hb hr =>
      cases b
      · cases stop
        · have he : ∀ x, ¬ w.rem x := (hb rfl).resolve_left (by simp)
          exact .inr (.inr ⟨hc.settled he rfl rfl rfl, fun h => absurd h1 h⟩)
        · exact .inr (.inl ⟨⟨pre, by simp⟩, (ha rfl).1⟩)
      · exact fun h => absurd h1 h
  case com.commitModel b =>
    subst hq
    cases hs with
    | commit t m hm => exact hi.1
    | reject t rem' a b => exact hi.2
  case rep.onModel b =>
    subst hq
    cases hs with
    | onModel t b m' hm =>
      cases b
      · trivial
      · exact List.cons_ne_nil _ _
  case repLim.limit b =>
    subst hq
    cases hs with
    | limit t b => cases b <;> first | trivial | exact hi
  case repInt.intr b =>
    subst hq
    cases hs with
    | intr t =>
      cases hb : (w.intr t).term
      · exact ⟨hi, rfl⟩
      · trivial
  all_goals simp [Nc.step] at hq

theorem Nc.inv_run {M : Type} {P : Problem M} {ok : Bool} {es : List (Ev M)} {w₀ w : World M}
    (h0 : w₀.Init P) (hs : World.Steps P w₀ es w) :
    ∀ p, (Nc.attach0 ok).run es = some p → w.Core P ∧ p.Inv P ok es w := by
  induction hs with
  | nil =>
    intro p hp
    simp only [Nc.run, Option.some.injEq] at hp
    subst hp
    refine ⟨⟨fun x => (h0.rem x).1, fun x hx => .inl ((h0.rem x).2 hx), by simp [h0.rep],
      by simp [h0.cur], by simp [h0.stop], by simp [h0.prev]⟩, rfl, rfl, h0.coms, h0.stop, h0.post⟩
  | @snoc es w e w' _ hst ih =>
    intro p hp
    rw [Nc.run_append] at hp
    cases hq : (Nc.attach0 ok).run es with
    | none => simp [hq] at hp
    | some q =>
      rw [hq] at hp
      simp only [Option.bind_some] at hp
      obtain ⟨hc, hi⟩ := ih q hq
      refine ⟨hc.step hst ?_, Nc.inv_step hc hi hp hst⟩
      rintro rfl
      cases q with
      | cc => exact hi.1
      | idle l s => rcases l with _ | _ | _ | _ <;> simp [Nc.step] at hp
      | _ => simp [Nc.step] at hp

end Clasp.Facade
