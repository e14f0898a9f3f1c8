import Verif.Asp.UfsInit

/-!
# Runs of the unfounded set checker (C29)

How the solver drives the checker: literals become true and are passed to `propagate`, `propagateFixpoint` looks for unfounded sets and falsifies
their atoms, decisions are made when it has found none, and levels are undone.

Simplifications:
* which literals are assigned between two calls is arbitrary; a literal is passed to the checker in the same step;
* whether the rest of `todo_` and `invalidQ_` survives backtracking is arbitrary (the code clears `todo_` after a conflict, and `invalidQ_` if the level is not 0);
* `reset` without undoing a level (a stop request) is left out.
-/

namespace Clasp.Ufs
open Clasp.Core
open Clasp.Asp (litFalse)

/-- `Solver::isFalse` (clasp/solver.h 502) for the literals assigned on the levels `lv`, topmost level first. -/
def isFal (lv : List (List Lit)) (p : Lit) : Bool := lv.any fun l => l.contains p.neg

/-- Where `propagateFixpoint` is (src/unfounded_check.cpp 227-236): before `findUfs`, in `falsifyUfs`, or after it has returned true. -/
inductive Phase
  | prop
  | falsify
  | settled
  deriving DecidableEq, Repr

/-- The assignment of the solver (clasp/solver.h 881-882 `assign_`, `levels_`), by levels with the topmost level first, and the checker. -/
structure Run where
  lv : List (List Lit)
  st : St
  ph : Phase

/-- The assignment as a predicate on literals (clasp/solver.h 502). -/
def Run.isF (r : Run) : Lit → Bool := isFal r.lv

/-- The literals forced by `init` for the atoms without source (src/unfounded_check.cpp 139-143). -/
def forced (g : UGraph) (top : List Lit) : List Lit :=
  (g.atoms.filter fun a => !((init g (isFal [top])).atoms a).valid && !isFal [top] (g.atom a).lit).map fun a => (g.atom a).lit.neg

/-- After `init` (src/unfounded_check.cpp 104-163) with the top-level assignment `top`, and after its literals were propagated. -/
def start (g : UGraph) (top : List Lit) : Run :=
  ⟨[forced g top ++ top], (forced g top).foldl (St.notify g) (init g (isFal [top])), .prop⟩

/-- Taking the first atom from `ufs_` after it was falsified (src/unfounded_check.cpp 564). -/
def St.popUfs (s : St) : St := match s.ufs with
  | a :: r => { s.setA a { s.atoms a with ufs := false } with ufs := r }
  | [] => s

/-- What is left of the checker's queues when levels are undone: `resetUfs`, `resetTodo` and `reset`
(src/unfounded_check.cpp 231, 238-246, 571, 649-654). -/
def St.cancel (s : St) (keepTodo keepQ : Bool) : St :=
  let s1 := s.resetUfs
  let s2 := if keepTodo then s1 else s1.resetTodo
  if keepQ then s2 else { s2 with invalidQ := [] }

/-- What can happen: the calls of the checker in `Solver` and its own steps (clasp/unfounded_check.h 185-192, src/unfounded_check.cpp 227-246, 439-453,
553-574); the lines are given at each case. -/
inductive Step (g : UGraph) : Run → Run → Prop
  /-- a literal becomes true on the current level, `Solver::force` (clasp/solver.h 676-690), and is propagated -/
  | assign {l lv s ph} (p : Lit) (hF : isFal (l :: lv) p = false) :
      Step g ⟨l :: lv, s, ph⟩ ⟨(p :: l) :: lv, s.notify g p, if ph = .settled then .prop else ph⟩
  /-- the solver makes a decision, `Solver::assume` (src/solver.cpp 687-695), after propagation has come to an end -/
  | decide {lv s} (p : Lit) (hF : isFal lv p = false) : Step g ⟨lv, s, .settled⟩ ⟨[p] :: lv, s.notify g p, .prop⟩
  /-- `findUfs` is called in `propagateFixpoint` (src/unfounded_check.cpp 229) -/
  | check {lv s} : Step g ⟨lv, s, .prop⟩ ⟨lv, (findUfs g (isFal lv) s).2, if (findUfs g (isFal lv) s).1 then .falsify else .settled⟩
  /-- the first atom of the unfounded set is false, `falsifyUfs` (src/unfounded_check.cpp 555-567) -/
  | pop {lv s a r} (hu : s.ufs = a :: r) (hF : isFal lv (g.atom a).lit = true) :
      Step g ⟨lv, s, .falsify⟩ ⟨lv, s.popUfs, if r = [] then .prop else .falsify⟩
  /-- one or more levels are undone, `Solver::undoUntil` (src/solver.cpp 1110-1126) -/
  | undo {lv s ph} (n : Nat) (kt kq : Bool) (h0 : n ≠ 0) (hn : n < lv.length) : Step g ⟨lv, s, ph⟩ ⟨lv.drop n, s.cancel kt kq, .prop⟩

/-- The runs of the checker on a solver whose top-level assignment is `top` when the checker is initialized; `Solver` sets the variable 0 to true
(src/solver.cpp 177-180) and never assigns a false literal. -/
inductive Reach (g : UGraph) (top : List Lit) : Run → Prop
  | start (ht : litTrue ∈ top) (hc : litFalse ∉ forced g top ++ top) : Reach g top (start g top)
  | step {r r'} : Reach g top r → Step g r r' → Reach g top r'

/-! ### The invariant -/

/-- Proof device: the assignments on the levels below. -/
def lows : List (List Lit) → List (Lit → Bool)
  | [] => []
  | _ :: lv => match lv with
    | [] => []
    | l :: t => isFal (l :: t) :: lows (l :: t)

theorem isFal_cons (l : List Lit) (lv : List (List Lit)) (p : Lit) : isFal (l :: lv) p = true ↔ p.neg ∈ l ∨ isFal lv p = true := by
  simp [isFal]

theorem isFal_drop (n : Nat) (lv : List (List Lit)) (p : Lit) (h : isFal (lv.drop n) p = true) : isFal lv p = true := by
  simp only [isFal, List.any_eq_true] at h ⊢
  obtain ⟨l, h1, h2⟩ := h
  exact ⟨l, List.mem_of_mem_drop h1, h2⟩

theorem lows_drop : ∀ (lv : List (List Lit)) (f : Lit → Bool), f ∈ lows lv ↔ ∃ n, n ≠ 0 ∧ n < lv.length ∧ f = isFal (lv.drop n)
  | [], f => by simp [lows]
  | [l], f => by
    simp only [lows, List.not_mem_nil, false_iff]
    rintro ⟨n, h1, h2, _⟩
    simp at h2; omega
  | l :: l' :: t, f => by
    simp only [lows, List.mem_cons]
    rw [lows_drop (l' :: t) f]
    constructor
    · rintro (h | ⟨n, h1, h2, h3⟩)
      · exact ⟨1, by omega, by simp, h⟩
      · exact ⟨n + 1, by omega, by simp at h2 ⊢; omega, h3⟩
    · rintro ⟨n, h1, h2, h3⟩
      match n, h1 with
      | 1, _ => exact Or.inl h3
      | n + 2, _ => exact Or.inr ⟨n + 1, by omega, by simp at h2 ⊢; omega, h3⟩

variable {g : UGraph} {isF isF' : Lit → Bool} {Lo : List (Lit → Bool)} {s : St} {h : Gh}

/-! #### notifying -/

theorem enqueue_frame (s : St) (e : Ev) : (s.enqueue e).atoms = s.atoms ∧ (s.enqueue e).bodies = s.bodies ∧ (s.enqueue e).todo = s.todo ∧ (s.enqueue e).ufs = s.ufs ∧
    (s.enqueue e).ufsDone = s.ufsDone ∧ (s.enqueue e).sourceQ = s.sourceQ := by
  unfold St.enqueue
  cases e with
  | source b =>
    dsimp only
    split <;> exact ⟨rfl, rfl, rfl, rfl, rfl, rfl⟩
  | head a => exact ⟨rfl, rfl, rfl, rfl, rfl, rfl⟩
  | sub b i => exact ⟨rfl, rfl, rfl, rfl, rfl, rfl⟩

theorem enqueue_mem (s : St) (e : Ev) : (∀ x ∈ s.invalidQ, x ∈ (s.enqueue e).invalidQ) ∧ (∀ x ∈ (s.enqueue e).invalidQ, x ∈ s.invalidQ ∨ x = e) ∧
    ((∀ b, e = .source b → (s.bodies b).watches ≠ 0) → e ∈ (s.enqueue e).invalidQ) := by
  unfold St.enqueue
  cases e with
  | source b =>
    dsimp only
    by_cases hw : (s.bodies b).watches ≠ 0
    · rw [if_pos hw]; exact ⟨fun x hx => by simp [hx], fun x hx => by simpa using hx, fun _ => by simp⟩
    · rw [if_neg hw]; exact ⟨fun x hx => hx, fun x hx => Or.inl hx, fun h => absurd (h b rfl) hw⟩
  | head a => exact ⟨fun x hx => by simp [hx], fun x hx => by simpa using hx, fun _ => by simp⟩
  | sub b i => exact ⟨fun x hx => by simp [hx], fun x hx => by simpa using hx, fun _ => by simp⟩

theorem enqueueAll : ∀ (l : List Ev) (s : St), (l.foldl St.enqueue s).atoms = s.atoms ∧ (l.foldl St.enqueue s).bodies = s.bodies ∧ (l.foldl St.enqueue s).todo = s.todo ∧
    (l.foldl St.enqueue s).ufs = s.ufs ∧ (l.foldl St.enqueue s).ufsDone = s.ufsDone ∧ (l.foldl St.enqueue s).sourceQ = s.sourceQ ∧
    (∀ x ∈ s.invalidQ, x ∈ (l.foldl St.enqueue s).invalidQ) ∧ (∀ x ∈ (l.foldl St.enqueue s).invalidQ, x ∈ s.invalidQ ∨ x ∈ l) ∧
    (∀ e ∈ l, (∀ b, e = .source b → (s.bodies b).watches ≠ 0) → e ∈ (l.foldl St.enqueue s).invalidQ)
  | [], s => ⟨rfl, rfl, rfl, rfl, rfl, rfl, fun _ h => h, fun _ h => Or.inl h, fun e he => by cases he⟩
  | e :: l, s => by
    obtain ⟨h1, h2, h3, h4, h5, h6⟩ := enqueue_frame s e
    obtain ⟨m1, m2, m3⟩ := enqueue_mem s e
    obtain ⟨k1, k2, k3, k4, k5, k6, k7, k8, k9⟩ := enqueueAll l (s.enqueue e)
    rw [List.foldl_cons]
    refine ⟨k1.trans h1, k2.trans h2, k3.trans h3, k4.trans h4, k5.trans h5, k6.trans h6, fun x hx => k7 x (m1 x hx), fun x hx => ?_, fun x hx hw => ?_⟩
    · rcases k8 x hx with h | h
      · rcases m2 x h with h | h
        · exact Or.inl h
        · exact Or.inr (by simp [h])
      · exact Or.inr (by simp [h])
    · rcases List.mem_cons.1 hx with rfl | hx
      · exact k7 _ (m3 hw)
      · exact k9 x hx (by rw [h2]; exact hw)

theorem watches_ok (p : Lit) : ∀ e ∈ g.watches p, EvOk g e := by
  intro e he
  unfold UGraph.watches at he
  rcases List.mem_append.1 he with h1 | h1
  · rcases List.mem_append.1 h1 with h2 | h2
    · obtain ⟨b, hb, rfl⟩ := List.mem_map.1 h2
      exact (List.mem_filter.1 hb).1
    · obtain ⟨a, ha, rfl⟩ := List.mem_map.1 h2
      exact (List.mem_filter.1 ha).1
  · obtain ⟨b, hb, h2⟩ := List.mem_flatMap.1 h1
    obtain ⟨i, _, rfl⟩ := List.mem_map.1 h2
    have := List.mem_filter.1 hb
    exact ⟨this.1, this.2⟩

theorem watches_source {p : Lit} {b : Nat} (hb : b ∈ g.bodies) (hp : (g.body b).lit.neg = p) : Ev.source b ∈ g.watches p := by
  unfold UGraph.watches
  refine List.mem_append_left _ (List.mem_append_left _ (List.mem_map.2 ⟨b, List.mem_filter.2 ⟨hb, by simpa using hp⟩, rfl⟩))

theorem watches_sub {p : Lit} {b i : Nat} (hb : b ∈ g.bodies) (he : (g.body b).ext = true) (hi : i < (g.subs b).length) (hp : (g.slit b i).neg = p) : Ev.sub b i ∈ g.watches p := by
  unfold UGraph.watches
  refine List.mem_append_right _ (List.mem_flatMap.2 ⟨b, List.mem_filter.2 ⟨hb, he⟩, List.mem_map.2 ⟨i, List.mem_filter.2 ⟨List.mem_range.2 hi, by simpa using hp⟩, rfl⟩⟩)

theorem slit_ge {b i : Nat} (hi : ¬ i < (g.subs b).length) : g.slit b i = litTrue := by
  unfold UGraph.slit
  rw [List.getElem?_eq_none (by omega)]; rfl

/-- Passing a literal that became true to the checker. -/
theorem MInv.notify (H : MInv g isF Lo s h) {p : Lit} (hF : ∀ q, isF' q = true ↔ isF q = true ∨ q.neg = p) (hT : p ≠ litFalse) : MInv g isF' Lo (s.notify g p) h := by
  obtain ⟨k1, k2, k3, k4, k5, k6, k7, k8, k9⟩ := enqueueAll (g.watches p) s
  unfold St.notify
  generalize (g.watches p).foldl St.enqueue s = s' at *
  have hv : s'.vw = s.vw := by unfold St.vw; rw [k1, k2]
  have hsrc : ∀ a ∈ g.atoms, ∀ b, s.vw.W a = some b → isF' (g.body b).lit = true → isF (g.body b).lit = true ∨ Ev.source b ∈ s'.invalidQ := by
    intro a ha b hW hb'
    rcases (hF _).1 hb' with h1 | h1
    · exact Or.inl h1
    · have hb := (H.rem.core.hd a ha b hW).1
      refine Or.inr (k9 _ (watches_source hb h1) fun c hc => ?_)
      cases hc
      intro h0
      exact H.rem.core.noWatch hb h0 a ha hW
  have hmono : ∀ q, isF' q = false → isF q = false := fun q hq => by
    cases hc : isF q with
    | false => rfl
    | true => rw [(hF q).2 (Or.inl hc)] at hq; cases hq
  have hsub : ∀ b ∈ g.bodies, (g.body b).ext = true → ∀ i, isF' (g.slit b i) = true → isF (g.slit b i) = true ∨ Ev.sub b i ∈ s'.invalidQ := by
    intro b hb he i hi'
    rcases (hF _).1 hi' with h1 | h1
    · exact Or.inl h1
    · by_cases hi : i < (g.subs b).length
      · exact Or.inr (k9 _ (watches_sub hb he hi h1) fun c hc => by cases hc)
      · rw [slit_ge hi] at h1
        exact absurd h1.symm hT
  refine ⟨⟨by rw [hv]; exact H.rem.core, by rw [hv]; exact H.rem.Vk, by rw [hv, k6]; exact H.rem.pend, by rw [hv, k6]; exact H.rem.qV, by rw [k6]; exact H.rem.qnd,
    by rw [k6]; exact H.rem.qk, H.rem.ck, fun hn => absurd rfl hn, by rw [hv]; exact H.rem.lowG, by rw [hv]; exact H.rem.lowW, by rw [hv]; exact H.rem.lowS, ?_, ?_, ?_,
    by rw [hv, k2, k1]; exact H.rem.pick, ?_⟩, by rw [k6]; exact H.sq, by rw [k2]; exact H.pk, ?_⟩
  · intro b hb he i hw hi
    rw [hv] at hw
    rcases hsub b hb he i hi with h1 | h1
    · exact k7 _ (H.rem.wsQ b hb he i hw h1)
    · exact h1
  · intro a ha b hV hW hb
    rw [hv] at hV hW
    rcases hsrc a ha b hW hb with h1 | h1
    · exact k7 _ (H.rem.srcQ a ha b hV hW h1)
    · exact h1
  · intro a ha haF
    rw [k1, hv]
    rcases H.rem.obl a ha (hmono _ haF) with h1 | h1 | ⟨b, hW, h1⟩
    · exact Or.inl h1
    · exact Or.inr (Or.inl h1)
    · refine Or.inr (Or.inr ⟨b, hW, ?_⟩)
      rcases h1 with ⟨h1, h2⟩ | ⟨h1, h2⟩
      · exact Or.inl ⟨(hF _).2 (Or.inl h1), k7 _ h2⟩
      · cases hb : isF' (g.body b).lit with
        | true =>
          rcases hsrc a ha b hW hb with h3 | h3
          · rw [h1] at h3; cases h3
          · exact Or.inl ⟨rfl, h3⟩
        | false =>
          refine Or.inr ⟨rfl, fun hs he i hG hi => ?_⟩
          rcases hsub b (H.rem.core.hd a ha b hW).1 he i hi with h3 | h3
          · exact k7 _ (h2 hs he i hG h3)
          · exact h3
  · unfold TodoOk; rw [k3, k1]; exact H.rem.tdo
  · intro e he
    rcases k8 e he with h1 | h1
    · exact H.ev e h1
    · exact watches_ok p e h1

theorem notify_frame (p : Lit) (s : St) : (s.notify g p).atoms = s.atoms ∧ (s.notify g p).bodies = s.bodies ∧ (s.notify g p).todo = s.todo ∧ (s.notify g p).ufs = s.ufs ∧
    (s.notify g p).ufsDone = s.ufsDone := by
  obtain ⟨k1, k2, k3, k4, k5, _⟩ := enqueueAll (g.watches p) s
  exact ⟨k1, k2, k3, k4, k5⟩

theorem UfsOk.notify (hu : UfsOk s) (p : Lit) : UfsOk (s.notify g p) := by
  obtain ⟨k1, _, _, k4, k5⟩ := notify_frame (g := g) p s
  exact ⟨by rw [k1, k4]; exact hu.fl, by rw [k4]; exact hu.nd, by rw [k5]; exact hu.dn⟩

/-! #### decisions and backtracking -/

/-- Nothing is left to do: the current assignment can become the one on the level below. -/
theorem MInv.settle (H : MInv g isF Lo s h) (hq : s.invalidQ = []) (ht : s.todo = []) (hu : UfsOk s) (hu0 : s.ufs = []) : MInv g isF (isF :: Lo) s h := by
  have hQ := H.rem
  rw [hq] at hQ
  have hobl : ∀ a ∈ g.atoms, isF (g.atom a).lit = false → Good g h.G s.vw isF a := by
    intro a ha haF
    rcases hQ.obl a ha haF with h1 | h1 | ⟨b, hW, h1⟩
    · have := (hQ.tdo.2 a).1.2 h1; rw [ht] at this; cases this
    · have := (hu.fl a).1 h1; rw [hu0] at this; cases this
    · rcases h1 with ⟨_, h2⟩ | ⟨h1, h2⟩
      · cases h2
      · refine ⟨b, hW, h1, fun hs he i hG => ?_⟩
        cases hi : isF (g.slit b i) with
        | false => rfl
        | true => have := h2 hs he i hG hi; cases this
  refine ⟨{ H.rem with lowG := ?_, lowW := ?_, lowS := ?_ }, H.sq, H.pk, H.ev⟩
  · intro f hf
    rcases List.mem_cons.1 hf with rfl | hf
    · exact hobl
    · exact H.rem.lowG f hf
  · intro f hf
    rcases List.mem_cons.1 hf with rfl | hf
    · intro b hb he i hw
      cases hi : f (g.slit b i) with
      | false => rfl
      | true => have := hQ.wsQ b hb he i hw hi; cases this
    · exact H.rem.lowW f hf
  · intro f hf
    rcases List.mem_cons.1 hf with rfl | hf
    · intro a ha b hV hW
      cases hi : f (g.body b).lit with
      | false => rfl
      | true => have := hQ.srcQ a ha b hV hW hi; cases this
    · exact H.rem.lowS f hf

theorem clearU (l : List Nat) : ∀ s : St, (l.foldl (fun s a => s.setA a { s.atoms a with ufs := false }) s).vw = s.vw ∧
    (l.foldl (fun s a => s.setA a { s.atoms a with ufs := false }) s).bodies = s.bodies ∧
    (l.foldl (fun s a => s.setA a { s.atoms a with ufs := false }) s).todo = s.todo ∧
    (l.foldl (fun s a => s.setA a { s.atoms a with ufs := false }) s).invalidQ = s.invalidQ ∧ (l.foldl (fun s a => s.setA a { s.atoms a with ufs := false }) s).sourceQ = s.sourceQ ∧
    ∀ x, ((l.foldl (fun s a => s.setA a { s.atoms a with ufs := false }) s).atoms x).todo = (s.atoms x).todo ∧
      (((l.foldl (fun s a => s.setA a { s.atoms a with ufs := false }) s).atoms x).ufs = true ↔ (s.atoms x).ufs = true ∧ x ∉ l) := by
  induction l with
  | nil => exact fun s => ⟨rfl, rfl, rfl, rfl, rfl, fun x => ⟨rfl, by simp⟩⟩
  | cons a l ih =>
    intro s
    obtain ⟨h1, h2, h3, h4, h5, h6⟩ := ih (s.setA a { s.atoms a with ufs := false })
    rw [List.foldl_cons]
    refine ⟨h1.trans (vw_setUfs s a false), h2, h3, h4, h5, fun x => ⟨(h6 x).1.trans ?_, (h6 x).2.trans ?_⟩⟩
    · by_cases e : x = a <;> simp [St.setA, Function.update_apply, e]
    · by_cases e : x = a <;> simp [St.setA, Function.update_apply, e]

theorem clearT (l : List Nat) : ∀ s : St, (l.foldl (fun s a => s.setA a { s.atoms a with todo := false }) s).vw = s.vw ∧
    (l.foldl (fun s a => s.setA a { s.atoms a with todo := false }) s).bodies = s.bodies ∧
    (l.foldl (fun s a => s.setA a { s.atoms a with todo := false }) s).ufs = s.ufs ∧ (l.foldl (fun s a => s.setA a { s.atoms a with todo := false }) s).ufsDone = s.ufsDone ∧
    (l.foldl (fun s a => s.setA a { s.atoms a with todo := false }) s).invalidQ = s.invalidQ ∧ (l.foldl (fun s a => s.setA a { s.atoms a with todo := false }) s).sourceQ = s.sourceQ ∧
    ∀ x, ((l.foldl (fun s a => s.setA a { s.atoms a with todo := false }) s).atoms x).ufs = (s.atoms x).ufs ∧
      (((l.foldl (fun s a => s.setA a { s.atoms a with todo := false }) s).atoms x).todo = true ↔ (s.atoms x).todo = true ∧ x ∉ l) := by
  induction l with
  | nil => exact fun s => ⟨rfl, rfl, rfl, rfl, rfl, rfl, fun x => ⟨rfl, by simp⟩⟩
  | cons a l ih =>
    intro s
    obtain ⟨h1, h2, h3, h4, h5, h5', h6⟩ := ih (s.setA a { s.atoms a with todo := false })
    rw [List.foldl_cons]
    refine ⟨h1.trans (vw_setTodo s a false), h2, h3, h4, h5, h5', fun x => ⟨(h6 x).1.trans ?_, (h6 x).2.trans ?_⟩⟩
    · by_cases e : x = a <;> simp [St.setA, Function.update_apply, e]
    · by_cases e : x = a <;> simp [St.setA, Function.update_apply, e]

theorem cancel_spec (ht : TodoOk g s) (hu : UfsOk s) (kt kq : Bool) : (s.cancel kt kq).vw = s.vw ∧ (s.cancel kt kq).bodies = s.bodies ∧ (s.cancel kt kq).sourceQ = s.sourceQ ∧
    (∀ e ∈ (s.cancel kt kq).invalidQ, e ∈ s.invalidQ) ∧ TodoOk g (s.cancel kt kq) ∧ UfsOk (s.cancel kt kq) ∧ (s.cancel kt kq).ufs = [] := by
  obtain ⟨h1, h2, h3, h4, h5, h6⟩ := clearU s.ufs s
  have hr : ∃ s1, s.resetUfs = s1 ∧ s1.vw = s.vw ∧ s1.bodies = s.bodies ∧ s1.sourceQ = s.sourceQ ∧ s1.invalidQ = s.invalidQ ∧ s1.todo = s.todo ∧
      (∀ x, (s1.atoms x).todo = (s.atoms x).todo ∧ (s1.atoms x).ufs = false) ∧ s1.ufs = [] ∧ s1.ufsDone = [] := by
    refine ⟨s.resetUfs, rfl, h1, h2, h5, h4, h3, fun x => ⟨(h6 x).1, ?_⟩, rfl, rfl⟩
    cases hc : (s.resetUfs.atoms x).ufs with
    | false => rfl
    | true =>
      have := (h6 x).2.1 hc
      exact absurd ((hu.fl x).1 this.1) this.2
  obtain ⟨s1, e1, r1, r2, r3, r4, r5, r6, r7, r8⟩ := hr
  have ht1 : TodoOk g s1 := by unfold TodoOk; rw [r5]; exact ⟨ht.1, fun x => by rw [(r6 x).1]; exact ht.2 x⟩
  have hr2 : ∃ s2, (if kt then s1 else s1.resetTodo) = s2 ∧ s2.vw = s.vw ∧ s2.bodies = s.bodies ∧ s2.sourceQ = s.sourceQ ∧ s2.invalidQ = s.invalidQ ∧ TodoOk g s2 ∧
      (∀ x, (s2.atoms x).ufs = false) ∧ s2.ufs = [] ∧ s2.ufsDone = [] := by
    cases kt with
    | true => exact ⟨s1, rfl, r1, r2, r3, r4, ht1, fun x => (r6 x).2, r7, r8⟩
    | false =>
      obtain ⟨t1, t2, t3, t4, t5, t6, t7⟩ := clearT s1.todo s1
      refine ⟨s1.resetTodo, rfl, t1.trans r1, t2.trans r2, t6.trans r3, t5.trans r4, ⟨List.nodup_nil, fun x => ⟨?_, fun h => by cases h⟩⟩, fun x => (t7 x).1.trans (r6 x).2, t3.trans r7, t4.trans r8⟩
      constructor
      · intro h; cases h
      · intro hx
        have := (t7 x).2.1 hx
        exact absurd ((ht1.2 x).1.2 this.1) this.2
  obtain ⟨s2, e2, q1, q2, q3, q4, q5, q6, q7, q8⟩ := hr2
  unfold St.cancel
  dsimp only
  rw [e1, e2]
  have hu2 : UfsOk s2 := ⟨fun x => by rw [q6 x, q7]; simp, by rw [q7]; exact List.nodup_nil, q8⟩
  cases kq with
  | true => exact ⟨q1, q2, q3, fun e he => by rw [← q4]; exact he, q5, hu2, q7⟩
  | false => exact ⟨q1, q2, q3, fun e he => (by cases he), q5, ⟨hu2.fl, hu2.nd, hu2.dn⟩, q7⟩

/-- Undoing levels. -/
theorem MInv.cancel (H : MInv g isF Lo s h) (hu : UfsOk s) {f : Lit → Bool} {Lo' : List (Lit → Bool)} (hf : f ∈ Lo) (hL : ∀ x ∈ Lo', x ∈ Lo) (kt kq : Bool) :
    MInv g f Lo' (s.cancel kt kq) h := by
  obtain ⟨k1, k2, k3, k4, k5, k6, k7⟩ := cancel_spec H.rem.tdo hu kt kq
  refine ⟨⟨by rw [k1]; exact H.rem.core, by rw [k1]; exact H.rem.Vk, by rw [k1, k3]; exact H.rem.pend, by rw [k1, k3]; exact H.rem.qV, by rw [k3]; exact H.rem.qnd,
    by rw [k3]; exact H.rem.qk, H.rem.ck, fun hn => absurd rfl hn, by rw [k1]; exact fun x hx => H.rem.lowG x (hL x hx), by rw [k1]; exact fun x hx => H.rem.lowW x (hL x hx),
    by rw [k1]; exact fun x hx => H.rem.lowS x (hL x hx), ?_, ?_, ?_, ?_, k5⟩, by rw [k3]; exact H.sq, by rw [k2]; exact H.pk, fun e he => H.ev e (k4 e he)⟩
  · rw [k1]
    intro b hb he i hw hi
    rw [H.rem.lowW f hf b hb he i hw] at hi; cases hi
  · rw [k1]
    intro a ha b hV hW hb
    rw [H.rem.lowS f hf a ha b hV hW] at hb; cases hb
  · intro a ha haF
    obtain ⟨b, hW, h1, h2⟩ := H.rem.lowG f hf a ha haF
    refine Or.inr (Or.inr ⟨b, by rw [k1]; exact hW, Or.inr ⟨h1, fun hs he i hG hi => ?_⟩⟩)
    rw [h2 hs he i hG] at hi; cases hi
  · intro b hb
    rw [k2, H.pk b] at hb; cases hb

/-- Taking a falsified atom from the unfounded set. -/
theorem MInv.pop (H : MInv g isF Lo s h) (hu : UfsOk s) {a : Nat} {r : List Nat} (he : s.ufs = a :: r) (haF : isF (g.atom a).lit = true) :
    MInv g isF Lo s.popUfs h ∧ UfsOk s.popUfs ∧ s.popUfs.ufs = r ∧ s.popUfs.bodies = s.bodies := by
  unfold St.popUfs
  rw [he]
  dsimp only
  have hv := vw_setUfs s a false
  have htd : ∀ x, ((s.setA a { s.atoms a with ufs := false }).atoms x).todo = (s.atoms x).todo := fun x => by
    by_cases e : x = a <;> simp [St.setA, Function.update_apply, e]
  have huf : ∀ x, x ≠ a → ((s.setA a { s.atoms a with ufs := false }).atoms x).ufs = (s.atoms x).ufs := fun x e => by
    simp [St.setA, Function.update_of_ne e]
  have hufa : ((s.setA a { s.atoms a with ufs := false }).atoms a).ufs = false := by simp [St.setA]
  have hn := List.nodup_cons.1 (he ▸ hu.nd)
  refine ⟨⟨⟨?_, ?_, ?_, ?_, H.rem.qnd, H.rem.qk, H.rem.ck, fun hn => absurd rfl hn, ?_, ?_, ?_, ?_, ?_, ?_, ?_, ?_⟩, H.sq, H.pk, H.ev⟩, ⟨fun x => ?_, hn.2, hu.dn⟩, rfl, rfl⟩
  · exact hv ▸ H.rem.core
  · exact hv ▸ H.rem.Vk
  · exact hv ▸ H.rem.pend
  · exact hv ▸ H.rem.qV
  · exact hv ▸ H.rem.lowG
  · exact hv ▸ H.rem.lowW
  · exact hv ▸ H.rem.lowS
  · exact hv ▸ H.rem.wsQ
  · exact hv ▸ H.rem.srcQ
  · intro x hx hxF
    have e : x ≠ a := fun e => by rw [e, haF] at hxF; cases hxF
    show ((s.setA a { s.atoms a with ufs := false }).atoms x).todo = true ∨ ((s.setA a { s.atoms a with ufs := false }).atoms x).ufs = true ∨ Src g isF h.G (s.setA a { s.atoms a with ufs := false }).vw s.invalidQ x
    rw [htd, huf x e, hv]
    exact H.rem.obl x hx hxF
  · intro b hb
    have : (s.bodies b).picked = true := hb
    rw [H.pk b] at this; cases this
  · refine ⟨H.rem.tdo.1, fun x => ?_⟩
    show (x ∈ s.todo ↔ ((s.setA a { s.atoms a with ufs := false }).atoms x).todo = true) ∧ _
    rw [htd]; exact H.rem.tdo.2 x
  · show ((s.setA a { s.atoms a with ufs := false }).atoms x).ufs = true ↔ x ∈ r
    by_cases e : x = a
    · rw [e, hufa]; simp [hn.1]
    · rw [huf x e, hu.fl, he]; simp [e]

/-! #### unfounded sets under a growing assignment -/

theorem UnfSet.mono (hg : GWf g) {U U' : List Nat} (H : UnfSet g isF U) (hA : ∀ x ∈ U, x ∈ g.atoms) (hF : ∀ p, isF p = true → isF' p = true) (hsub : ∀ x ∈ U', x ∈ U)
    (hU : ∀ x ∈ U, x ∈ U' ∨ isF' (g.atom x).lit = true) : UnfSet g isF' U' := by
  intro x hx b hb hbF
  have hbF0 : isF (g.body b).lit = false := by
    cases hc : isF (g.body b).lit with
    | false => rfl
    | true => rw [hF _ hc] at hbF; cases hbF
  obtain ⟨h1, h2, h3⟩ := H x (hsub x hx) b hb hbF0
  have hbb := (hg.bods x (hA x (hsub x hx)) b hb).1
  refine ⟨h1, fun he => ?_, fun he => ?_⟩
  · obtain ⟨p, hp, h4⟩ := h2 he
    refine ⟨p, hp, ?_⟩
    rcases h4 with h4 | h4
    · exact hU p h4
    · exact Or.inr (hF _ h4)
  · refine Int.lt_of_le_of_lt (wsSum_mono hg hbb fun i hi hc => ?_) (h3 he)
    simp only [Bool.and_eq_true, Bool.not_eq_true'] at hc ⊢
    refine ⟨?_, ?_⟩
    · cases hc' : isF (g.slit b i) with
      | false => rfl
      | true => rw [hF _ hc'] at hc; cases hc.1
    · unfold ufsPos at hc ⊢
      cases hp : g.pr b i with
      | none => rfl
      | some p =>
        rw [hp] at hc
        dsimp only at hc ⊢
        cases hcU : U.contains p with
        | false => rfl
        | true =>
          rcases hU p (by simpa using hcU) with h5 | h5
          · have : U'.contains p = true := by simpa using h5
            rw [this] at hc; cases hc.2
          · rw [slit_pr hp, h5] at hc; cases hc.1

/-! #### The invariant of a run -/

/-- Proof device: the invariant of a run. -/
structure RInv (g : UGraph) (r : Run) : Prop where
  inv : ∃ h, MInv g r.isF (lows r.lv) r.st h
  ufs : UfsOk r.st
  ne : r.lv ≠ []
  tt : isFal r.lv litFalse = true
  ff : isFal r.lv litTrue = false
  slack : ∀ b ∈ g.bodies, (g.body b).ext = true → (r.st.bodies b).slack = slack0 g b
  bot : ∀ n < r.lv.length, litTrue ∈ (r.lv.drop n).flatten
  prop : r.ph ≠ .falsify → r.st.ufs = []
  set : r.ph = .settled → r.st.todo = [] ∧ r.st.invalidQ = []
  fal : r.ph = .falsify → r.st.ufs ≠ [] ∧ UnfSet g r.isF r.st.ufs ∧ ∃ c, ∀ x ∈ r.st.ufs, x ∈ g.atoms ∧ (g.atom x).scc = c

theorem isFal_flatten (lv : List (List Lit)) (p : Lit) : isFal lv p = true ↔ p.neg ∈ lv.flatten := by
  simp [isFal]

theorem lows_mono (lv : List (List Lit)) : ∀ f ∈ lows lv, ∀ p, f p = true → isFal lv p = true := by
  intro f hf p hp
  obtain ⟨n, _, _, rfl⟩ := (lows_drop lv f).1 hf
  exact isFal_drop n lv p hp

theorem lows_head (l l' : List Lit) (lv : List (List Lit)) : lows (l :: lv) = lows (l' :: lv) := by
  cases lv <;> rfl

theorem notifyAll (g : UGraph) : ∀ (fs : List Lit) (s : St) (isF isF' : Lit → Bool) (h : Gh), MInv g isF [] s h → litFalse ∉ fs → (∀ q, isF' q = true ↔ isF q = true ∨ q.neg ∈ fs) →
    MInv g isF' [] (fs.foldl (St.notify g) s) h ∧ (fs.foldl (St.notify g) s).atoms = s.atoms ∧ (fs.foldl (St.notify g) s).bodies = s.bodies ∧
    (fs.foldl (St.notify g) s).ufs = s.ufs ∧ (fs.foldl (St.notify g) s).ufsDone = s.ufsDone
  | [], s, isF, isF', h, H, _, hF => by
    have : isF' = isF := by
      funext q
      rw [Bool.eq_iff_iff, hF q]; simp
    rw [this]; exact ⟨H, rfl, rfl, rfl, rfl⟩
  | p :: fs, s, isF, isF', h, H, hn, hF => by
    rw [List.mem_cons, not_or] at hn
    have H1 := H.notify (p := p) (isF' := fun q => isF q || decide (q.neg = p)) (fun q => by simp) (fun e => hn.1 e.symm)
    obtain ⟨k1, k2, _, k4, k5⟩ := notify_frame (g := g) p s
    obtain ⟨H2, j1, j2, j3, j4⟩ := notifyAll g fs _ _ isF' h H1 hn.2 (fun q => by rw [hF q]; simp [or_assoc])
    rw [List.foldl_cons]
    exact ⟨H2, j1.trans k1, j2.trans k2, j3.trans k4, j4.trans k5⟩

theorem neg_eq_litFalse {p : Lit} : p.neg = litFalse ↔ p = litTrue := by
  constructor
  · intro h
    have : p.neg.neg = litFalse.neg := by rw [h]
    rw [Lit.neg_neg] at this
    exact this
  · rintro rfl; rfl

/-- Proof device: `Add` after `init`, as the invariant of a run once the atoms without source are false. -/
theorem init_MInv (hg : GWf g) {top fs : List Lit} (hfs : ∀ a ∈ g.atoms, ((init g (isFal [top])).atoms a).valid = false → isFal [top] (g.atom a).lit = false → (g.atom a).lit.neg ∈ fs)
    (hn : litFalse ∉ fs) : ∃ h, MInv g (isFal [fs ++ top]) [] (fs.foldl (St.notify g) (init g (isFal [top]))) h := by
  obtain ⟨h, H, hq, hfl, htd, huf, hud, hiq, hpk, hsl, _⟩ := init_spec (isF := isFal [top]) hg
  generalize init g (isFal [top]) = s at *
  -- the obligations only hold once the forced literals are false: mark these atoms as to do for the moment
  have key : ∀ (isF0 : Lit → Bool), (∀ q, isFal [fs ++ top] q = true ↔ isF0 q = true ∨ q.neg ∈ fs) → isF0 = isFal [top] →
      ∃ h, MInv g (isFal [fs ++ top]) [] (fs.foldl (St.notify g) s) h := by
    rintro isF0 hF rfl
    have hT : TodoOk g s := by unfold TodoOk; rw [htd]; exact ⟨List.nodup_nil, fun x => ⟨by rw [(hfl x).1]; simp, fun h => by cases h⟩⟩
    -- a state that differs only in the flags
    let t : St := { s with atoms := fun a => { s.atoms a with ufs := !(s.atoms a).valid } }
    have htv : t.vw = s.vw := rfl
    have Ht : MInv g (isFal [top]) [] t h := by
      refine Add.toMInv (D := fun a => s.vw.V a = true) (by simp) (Add.congr (s := s) (s' := t) rfl rfl H) hq hiq hpk ⟨by rw [show t.todo = [] from htd]; exact List.nodup_nil, fun x => ⟨?_, ?_⟩⟩ fun a => ?_
      · show x ∈ s.todo ↔ (s.atoms x).todo = true
        rw [htd, (hfl x).1]; simp
      · show x ∈ s.todo → _
        rw [htd]; simp
      · cases hV : s.vw.V a with
        | true => exact Or.inl rfl
        | false =>
          refine Or.inr (Or.inr ?_)
          show (!(s.atoms a).valid) = true
          rw [show (s.atoms a).valid = false from hV]; rfl
    obtain ⟨H2, j1, j2, j3, j4⟩ := notifyAll g fs t _ _ h Ht hn hF
    -- the queue does not depend on the flags
    have hcomm : ∀ (l : List Lit) (s : St) (A : Nat → AtomData), l.foldl (St.notify g) { s with atoms := A } = { l.foldl (St.notify g) s with atoms := A } := by
      have h1 : ∀ (l : List Ev) (s : St) (A : Nat → AtomData), l.foldl St.enqueue { s with atoms := A } = { l.foldl St.enqueue s with atoms := A } := by
        intro l
        induction l with
        | nil => intro s A; rfl
        | cons e l ih =>
          intro s A
          rw [List.foldl_cons, List.foldl_cons]
          have : St.enqueue { s with atoms := A } e = { s.enqueue e with atoms := A } := by
            unfold St.enqueue
            cases e with
            | source b => dsimp only; split <;> rfl
            | head a => rfl
            | sub b i => rfl
          rw [this]; exact ih _ A
      intro l
      induction l with
      | nil => intro s A; rfl
      | cons p l ih =>
        intro s A
        rw [List.foldl_cons, List.foldl_cons]
        have : St.notify g { s with atoms := A } p = { s.notify g p with atoms := A } := h1 _ s A
        rw [this]; exact ih _ A
    have e : fs.foldl (St.notify g) t = { fs.foldl (St.notify g) s with atoms := t.atoms } := hcomm fs s t.atoms
    have hat : (fs.foldl (St.notify g) s).atoms = s.atoms := by
      have : ∀ (l : List Lit) (s : St), (l.foldl (St.notify g) s).atoms = s.atoms := by
        intro l
        induction l with
        | nil => intro s; rfl
        | cons p l ih => intro s; rw [List.foldl_cons, ih, (notify_frame p s).1]
      exact this fs s
    generalize hs' : fs.foldl (St.notify g) s = s' at *
    rw [e] at H2
    have hv : ({ s' with atoms := t.atoms } : St).vw = s'.vw := by
      unfold St.vw; simp only [hat]; rfl
    refine ⟨h, ⟨⟨hv ▸ H2.rem.core, hv ▸ H2.rem.Vk, hv ▸ H2.rem.pend, hv ▸ H2.rem.qV, H2.rem.qnd, H2.rem.qk, H2.rem.ck, fun hn => absurd rfl hn,
      (by simp), (by simp), (by simp), hv ▸ H2.rem.wsQ, hv ▸ H2.rem.srcQ, ?_, ?_, ?_⟩, H2.sq, H2.pk, H2.ev⟩⟩
    · intro a ha haF
      have h1 := H2.rem.obl a ha haF
      rw [hv] at h1
      rcases h1 with h1 | h1 | h1
      · have h1 : (s.atoms a).todo = true := h1
        rw [(hfl a).1] at h1; cases h1
      · have h1 : (!(s.atoms a).valid) = true := h1
        exfalso
        have hV : (s.atoms a).valid = false := by simpa using h1
        cases hc : isFal [top] (g.atom a).lit with
        | true => rw [(hF _).2 (Or.inl hc)] at haF; cases haF
        | false => rw [(hF _).2 (Or.inr (hfs a ha hV hc))] at haF; cases haF
      · exact Or.inr (Or.inr h1)
    · intro b hb
      have : (s'.bodies b).picked = true := hb
      rw [H2.pk b] at this; cases this
    · have h1 := H2.rem.tdo
      refine ⟨h1.1, fun x => ⟨?_, (h1.2 x).2⟩⟩
      have h2 := (h1.2 x).1
      show x ∈ s'.todo ↔ (s'.atoms x).todo = true
      rw [hat]; exact h2
  exact key _ (fun q => by simp [isFal, or_comm]) rfl

theorem RInv.start (hg : GWf g) {top : List Lit} (ht : litTrue ∈ top) (hc : litFalse ∉ forced g top ++ top) : RInv g (start g top) := by
  have hn : litFalse ∉ forced g top := fun h => hc (List.mem_append_left _ h)
  have hM := init_MInv (g := g) (top := top) (fs := forced g top) hg (fun a ha hV hF => by
    unfold forced
    refine List.mem_map.2 ⟨a, List.mem_filter.2 ⟨ha, ?_⟩, rfl⟩
    rw [hV, hF]; rfl) hn
  obtain ⟨h0, H, hq, hfl, htd, huf, hud, hiq, hpk, hsl, _⟩ := init_spec (g := g) (isF := isFal [top]) hg
  have hfr : ∀ (l : List Lit) (s : St), (l.foldl (St.notify g) s).atoms = s.atoms ∧ (l.foldl (St.notify g) s).bodies = s.bodies ∧ (l.foldl (St.notify g) s).ufs = s.ufs ∧
      (l.foldl (St.notify g) s).ufsDone = s.ufsDone := by
    intro l
    induction l with
    | nil => intro s; exact ⟨rfl, rfl, rfl, rfl⟩
    | cons p l ih =>
      intro s
      obtain ⟨k1, k2, _, k4, k5⟩ := notify_frame (g := g) p s
      obtain ⟨i1, i2, i3, i4⟩ := ih (s.notify g p)
      rw [List.foldl_cons]
      exact ⟨i1.trans k1, i2.trans k2, i3.trans k4, i4.trans k5⟩
  obtain ⟨f1, f2, f3, f4⟩ := hfr (forced g top) (init g (isFal [top]))
  have hst : (Ufs.start g top).st = (forced g top).foldl (St.notify g) (init g (isFal [top])) := rfl
  refine ⟨hM, ⟨fun x => ?_, ?_, ?_⟩, by simp [Ufs.start], ?_, ?_, fun b hb he => ?_, fun n hn' => ?_, fun _ => ?_, fun h => (by cases h), fun h => (by cases h)⟩
  · rw [hst, f1, f3, huf, (hfl x).2]; simp
  · rw [hst, f3, huf]; exact List.nodup_nil
  · rw [hst, f4]; exact hud
  · rw [isFal_flatten]
    show litFalse.neg ∈ [forced g top ++ top].flatten
    simp only [List.flatten_cons, List.flatten_nil, List.append_nil]
    exact List.mem_append_right _ ht
  · cases hb : isFal (Ufs.start g top).lv litTrue with
    | false => rfl
    | true =>
      rw [isFal_flatten] at hb
      have : litFalse ∈ [forced g top ++ top].flatten := hb
      simp only [List.flatten_cons, List.flatten_nil, List.append_nil] at this
      exact absurd this hc
  · rw [hst, f2]; exact hsl b hb he
  · have : n = 0 := by simp [Ufs.start] at hn'; exact hn'
    subst this
    show litTrue ∈ [forced g top ++ top].flatten
    simp [ht]
  · rw [hst, f3]; exact huf

theorem RInv.step (hg : GWf g) {r r' : Run} (H : RInv g r) (hs : Step g r r') : RInv g r' := by
  obtain ⟨⟨h, HM⟩, hu, hne, htt, hff, hsl, hbot, hprop, hset, hfal⟩ := H
  cases hs with
  | @assign l lv s ph p hF =>
    have hp : p ≠ litFalse := fun e => by rw [e] at hF; rw [show isFal (l :: lv) litFalse = true from htt] at hF; cases hF
    have hF' : ∀ q, isFal ((p :: l) :: lv) q = true ↔ isFal (l :: lv) q = true ∨ q.neg = p := fun q => by
      rw [isFal_cons, isFal_cons, List.mem_cons]
      constructor
      · rintro ((h | h) | h)
        · exact Or.inr h
        · exact Or.inl (Or.inl h)
        · exact Or.inl (Or.inr h)
      · rintro ((h | h) | h)
        · exact Or.inl (Or.inr h)
        · exact Or.inr h
        · exact Or.inl (Or.inl h)
    have HM1 : MInv g (isFal (l :: lv)) (lows ((p :: l) :: lv)) s h := by rw [lows_head (p :: l) l]; exact HM
    obtain ⟨k1, k2, k3, k4, k5⟩ := notify_frame (g := g) p s
    refine ⟨⟨h, HM1.notify hF' hp⟩, hu.notify p, by simp, (hF' _).2 (Or.inl htt), ?_, fun b hb he => ?_, fun n hn => ?_, fun hph => ?_, fun hph => ?_, fun hph => ?_⟩
    · cases hc : isFal ((p :: l) :: lv) litTrue with
      | false => rfl
      | true =>
        rcases (hF' _).1 hc with h1 | h1
        · rw [show isFal (l :: lv) litTrue = false from hff] at h1; cases h1
        · exact absurd h1.symm hp
    · show ((s.notify g p).bodies b).slack = _
      rw [k2]; exact hsl b hb he
    · have := hbot n hn
      cases n with
      | zero => show litTrue ∈ ((p :: l) :: lv).flatten; have h1 : litTrue ∈ (l :: lv).flatten := this; simp at h1 ⊢; exact Or.inr h1
      | succ n => exact this
    · show (s.notify g p).ufs = []
      rw [k4]
      refine hprop fun e => hph ?_
      have e : ph = .falsify := e
      show (if ph = .settled then Phase.prop else ph) = .falsify
      rw [e]; rfl
    · exfalso
      have hph : (if ph = .settled then Phase.prop else ph) = .settled := hph
      by_cases e : ph = .settled
      · rw [if_pos e] at hph; cases hph
      · rw [if_neg e] at hph; exact e hph
    · have e : ph = .falsify := by
        have hph : (if ph = .settled then Phase.prop else ph) = .falsify := hph
        by_cases e : ph = .settled
        · rw [if_pos e] at hph; cases hph
        · rw [if_neg e] at hph; exact hph
      obtain ⟨h1, h2, c, h3⟩ := hfal e
      show (s.notify g p).ufs ≠ [] ∧ UnfSet g (isFal ((p :: l) :: lv)) (s.notify g p).ufs ∧ ∃ c, ∀ x ∈ (s.notify g p).ufs, _
      rw [k4]
      exact ⟨h1, UnfSet.mono hg h2 (fun x hx => (h3 x hx).1) (fun q hq => (hF' q).2 (Or.inl hq)) (fun _ h => h) (fun _ h => Or.inl h), c, h3⟩
  | @decide lv s p hF =>
    have hp : p ≠ litFalse := fun e => by rw [e] at hF; rw [show isFal lv litFalse = true from htt] at hF; cases hF
    have hF' : ∀ q, isFal ([p] :: lv) q = true ↔ isFal lv q = true ∨ q.neg = p := fun q => by
      rw [isFal_cons, List.mem_singleton, or_comm]
    obtain ⟨h1, h2⟩ := hset rfl
    have hu0 : s.ufs = [] := hprop (by simp)
    have HM1 : MInv g (isFal lv) (lows ([p] :: lv)) s h := by
      have := HM.settle h2 h1 hu hu0
      cases lv with
      | nil => exact absurd rfl hne
      | cons l t => exact this
    obtain ⟨k1, k2, k3, k4, k5⟩ := notify_frame (g := g) p s
    refine ⟨⟨h, HM1.notify hF' hp⟩, hu.notify p, by simp, (hF' _).2 (Or.inl htt), ?_, fun b hb he => ?_, fun n hn => ?_, fun hph => ?_, fun hph => (by cases hph), fun hph => (by cases hph)⟩
    · cases hc : isFal ([p] :: lv) litTrue with
      | false => rfl
      | true =>
        rcases (hF' _).1 hc with h1 | h1
        · rw [show isFal lv litTrue = false from hff] at h1; cases h1
        · exact absurd h1.symm hp
    · show ((s.notify g p).bodies b).slack = _
      rw [k2]; exact hsl b hb he
    · cases n with
      | zero =>
        have := hbot 0 (by cases lv with | nil => exact absurd rfl hne | cons l t => simp)
        show litTrue ∈ ([p] :: lv).flatten
        rw [List.flatten_cons]
        exact List.mem_append_right _ this
      | succ n => exact hbot n (by simpa using hn)
    · show (s.notify g p).ufs = []
      rw [k4]; exact hu0
  | @check lv s =>
    have hu0 : s.ufs = [] := hprop (by simp)
    obtain ⟨found, s', h', e1, HM', hq', hu', hsl', hn, hf⟩ := HM.findUfs hg (lows_mono lv) hu hu0
    have e1 : findUfs g (isFal lv) s = (found, s') := e1
    rw [e1]
    refine ⟨⟨h', HM'⟩, hu', hne, htt, hff, fun b hb he => (hsl' b).trans (hsl b hb he), hbot, fun hph => ?_, fun hph => ?_, fun hph => ?_⟩
    · cases found with
      | false => exact (hn rfl).2
      | true => exact absurd rfl hph
    · cases found with
      | false => exact ⟨(hn rfl).1, hq'⟩
      | true => cases hph
    · cases found with
      | false => cases hph
      | true =>
        obtain ⟨h1, h2, c, h3⟩ := hf rfl
        exact ⟨h1, h2, c, fun x hx => ⟨(h3 x hx).1, (h3 x hx).2.2⟩⟩
  | @pop lv s a r hur hF =>
    obtain ⟨HM', hu', e1, e2⟩ := HM.pop hu hur hF
    obtain ⟨h1, h2, c, h3⟩ := hfal rfl
    refine ⟨⟨h, HM'⟩, hu', hne, htt, hff, fun b hb he => ?_, hbot, fun hph => ?_, fun hph => ?_, fun hph => ?_⟩
    · show (s.popUfs.bodies b).slack = _
      rw [e2]; exact hsl b hb he
    · show s.popUfs.ufs = []
      rw [e1]
      by_contra hc
      exact hph (if_neg hc)
    · exfalso
      have hph : (if r = [] then Phase.prop else .falsify) = .settled := hph
      by_cases e : r = []
      · rw [if_pos e] at hph; cases hph
      · rw [if_neg e] at hph; cases hph
    · have hr : r ≠ [] := fun e => by
        have hph : (if r = [] then Phase.prop else .falsify) = .falsify := hph
        rw [if_pos e] at hph; cases hph
      have hm : ∀ x ∈ r, x ∈ s.ufs := fun x hx => by rw [hur]; simp [hx]
      show s.popUfs.ufs ≠ [] ∧ UnfSet g (isFal lv) s.popUfs.ufs ∧ ∃ c, ∀ x ∈ s.popUfs.ufs, _
      rw [e1]
      refine ⟨hr, UnfSet.mono hg h2 (fun x hx => (h3 x hx).1) (fun q hq => hq) hm (fun x hx => ?_), c, fun x hx => h3 x (hm x hx)⟩
      have hx : x ∈ s.ufs := hx
      rw [hur] at hx
      rcases List.mem_cons.1 hx with rfl | hx
      · exact Or.inr hF
      · exact Or.inl hx
  | @undo lv s ph n kt kq h0 hn =>
    have hlow : isFal (lv.drop n) ∈ lows lv := (lows_drop lv _).2 ⟨n, h0, hn, rfl⟩
    have hL : ∀ f ∈ lows (lv.drop n), f ∈ lows lv := by
      intro f hf
      obtain ⟨m, m1, m2, rfl⟩ := (lows_drop _ f).1 hf
      refine (lows_drop lv _).2 ⟨n + m, by omega, by simp at m2; omega, by rw [List.drop_drop]⟩
    obtain ⟨k1, k2, k3, k4, k5, k6, k7⟩ := cancel_spec HM.rem.tdo hu kt kq
    have hdl : (lv.drop n).length = lv.length - n := by simp
    refine ⟨⟨h, HM.cancel hu hlow hL kt kq⟩, k6, ?_, ?_, ?_, fun b hb he => ?_, fun m hm => ?_, fun _ => k7, fun hph => (by cases hph), fun hph => (by cases hph)⟩
    · intro e
      have : (lv.drop n).length = 0 := by rw [show lv.drop n = [] from e]; rfl
      omega
    · rw [isFal_flatten]; exact hbot n hn
    · cases hc : isFal (lv.drop n) litTrue with
      | false => rfl
      | true => have := isFal_drop n lv _ hc; rw [show isFal lv litTrue = false from hff] at this; cases this
    · show ((s.cancel kt kq).bodies b).slack = _
      rw [k2]; exact hsl b hb he
    · show litTrue ∈ ((lv.drop n).drop m).flatten
      rw [List.drop_drop]
      refine hbot (n + m) ?_
      have hm : m < (lv.drop n).length := hm
      show n + m < lv.length
      omega

theorem Reach.inv (hg : GWf g) {top : List Lit} {r : Run} (H : Reach g top r) : RInv g r := by
  induction H with
  | start ht hc => exact RInv.start hg ht hc
  | step _ hs ih => exact ih.step hg hs

end Clasp.Ufs
