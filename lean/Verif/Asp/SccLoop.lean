import Verif.Asp.SccStep

/-! The component computation ends with the right result (C28). No code is modelled in this file. -/

namespace Clasp.Scc
open Relation

variable {P : Prg} {start : Nat} {s : St}

/-- number of nodes not seen yet -/
def unseen (all : List Node) (s : St) : Nat := (all.filter fun u => !s.seen u).length

/-- Between two rounds; `n` bounds the number of rounds to come. -/
def Good (P : Prg) (start : Nat) (all : List Node) (n : Nat) (s : St) : Prop :=
  ∃ num, s.count + unseen all s ≤ all.length ∧
    match s.calls with
    | [] => Core P start s num [] none
    | c :: F =>
      (s.seen c.node = false ∧ c.next = 0 ∧ P.vis c.node = true ∧ Core P start s num F none ∧
        (∀ f, F.head? = some f → (P.succ f.node)[f.next]? = some (some c.node)) ∧ 2 * unseen all s + (F.length + 1) ≤ n + 2) ∨
      (∃ exc, Core P start s num (c :: F) exc ∧ (exc = none ∨ (P.succ c.node)[c.next]? = some exc) ∧
        (∀ u, exc = some u → s.seen u = true) ∧ 2 * unseen all s + (F.length + 1) ≤ n)

theorem unseen_pos {all : List Node} {v : Node} (hv : v ∈ all) (hs : s.seen v = false) : 0 < unseen all s := by
  unfold unseen
  exact List.length_pos_of_mem (List.mem_filter.2 ⟨hv, by simp [hs]⟩)

theorem unseen_enter {all : List Node} (hn : all.Nodup) {v : Node} (hv : v ∈ all) (hs : s.seen v = false) :
    unseen all (entered s v) + 1 = unseen all s := by
  unfold unseen entered
  dsimp only
  induction all with
  | nil => cases hv
  | cons x l ih =>
    obtain ⟨h1, h2⟩ := List.nodup_cons.1 hn
    by_cases e : x = v
    · subst e
      have : (l.filter fun u => !(Function.update s.seen x true u)) = l.filter fun u => !s.seen u := by
        refine List.filter_congr fun u hu => ?_
        have hux : u ≠ x := fun e => h1 (by rw [← e]; exact hu)
        rw [Function.update_of_ne hux]
      simp [hs, this]
    · have hv' : v ∈ l := by simpa [Ne.symm e] using hv
      have := ih h2 hv'
      rw [List.filter_cons, List.filter_cons, Function.update_of_ne e]
      split
      · simp only [List.length_cons]; omega
      · exact this

theorem enter_fresh {c : Call} {l : List Call} (hs : s.seen c.node = false) :
    enter { s with calls := l } c = ({ entered s c.node with calls := l }, { c with min := s.count }) := by
  unfold enter entered; simp [hs]

theorem enter_seen {c : Call} {l : List Call} (hs : s.seen c.node = true) :
    enter { s with calls := l } c = ({ s with calls := l }, c) := by
  unfold enter; simp [hs]

theorem unseen_congr {all : List Node} {t : St} (h : t.seen = s.seen) : unseen all t = unseen all s := by
  unfold unseen; rw [h]

/-- what the rest of a round does after `enter` -/
theorem round {all : List Node} {num : Node → Nat} {F : List Call} {v : Node} {m i : Nat} {exc : Option Node} {n : Nat}
    (hall : ∀ v, P.vis v = true → v ∈ all) (hcalls : s.calls = F) (hcnt : s.count + unseen all s ≤ all.length)
    (h : Core P start s num (⟨v, m, i⟩ :: F) exc) (he : exc = none ∨ (P.succ v)[i]? = some exc)
    (hs : ∀ u, exc = some u → s.seen u = true) (hn : 2 * unseen all s + (F.length + 1) ≤ n + 1) :
    Good P start all n (match scan P s ((P.succ v).drop i) i m with
      | (min, i, some w) => { s with calls := ⟨w, 0, 0⟩ :: ⟨v, min, i⟩ :: F }
      | (min, _, none) => leave s v min) := by
  obtain ⟨h1, h2⟩ := scan_spec (P := P) (start := start) (s := s) (num := num) (F := F) (v := v)
    ((P.succ v).drop i) i m exc rfl h he hs
  rcases hr : scan P s ((P.succ v).drop i) i m with ⟨a, k, w⟩
  rw [hr] at h1 h2
  dsimp only at h1 h2
  cases w with
  | some w =>
    obtain ⟨g1, g2, g3, g4⟩ := h1 w rfl
    refine ⟨num, hcnt, Or.inl ⟨g2, rfl, g1, g4.setCalls _, ?_, ?_⟩⟩
    · intro f hf; cases hf; exact g3
    · have := unseen_pos (hall w g1) g2
      have e : unseen all { s with calls := ⟨w, 0, 0⟩ :: ⟨v, a, k⟩ :: F } = unseen all s := rfl
      rw [e]; simp only [List.length_cons]; omega
  | none =>
    obtain ⟨j, hj, hc⟩ := h2 rfl
    obtain ⟨exc', g1, g2, g3, g4, g5⟩ := hc.leave hj
    have hu := unseen_congr (all := all) g4
    dsimp only
    refine ⟨num, by rw [g5, hu]; exact hcnt, ?_⟩
    rw [g3, hcalls]
    cases F with
    | nil =>
      have : exc' = none ∨ exc' = some v := g2
      rcases this with rfl | rfl
      · exact g1
      · refine ⟨g1.nd, g1.lt, g1.ok, g1.sv, g1.cn, g1.dcl, g1.did, g1.gn, g1.gord, g1.path, g1.reach, g1.blk, g1.expl,
          fun f hf => (by cases hf), g1.res⟩
    | cons f F =>
      refine Or.inr ⟨exc', g1, ?_, ?_, ?_⟩
      · rcases g2 with rfl | rfl
        · exact Or.inl rfl
        · exact Or.inr (List.isChain_cons_cons.1 hc.path).1
      · intro u hu'
        rw [g4]
        rcases g2 with rfl | rfl
        · cases hu'
        · cases hu'; exact (hc.ok _ (hc.gn ⟨v, a, j⟩ (by simp)).1).2
      · rw [hu]; simp only [List.length_cons] at hn; omega

theorem step_good {all : List Node} {n : Nat} (hall : ∀ v, P.vis v = true → v ∈ all) (hnd : all.Nodup) (hlen : all.length ≤ noNode)
    (hc : s.calls ≠ []) (h : Good P start all (n + 1) s) : Good P start all n (step P s) := by
  obtain ⟨num, hcnt, h⟩ := h
  unfold step
  cases hcalls : s.calls with
  | nil => exact absurd hcalls hc
  | cons c F =>
    rw [hcalls] at h
    dsimp only at h ⊢
    rcases h with ⟨h1, h2, h3, h4, h5, h6⟩ | ⟨exc, h1, h2, h3, h4⟩
    · rw [enter_fresh h1]
      dsimp only
      have hv := hall _ h3
      have hu := unseen_enter (s := s) hnd hv h1
      have hE := h4.enter h1 h3 h5 (by omega)
      have e : unseen all { entered s c.node with calls := F } = unseen all (entered s c.node) := rfl
      rw [h2]
      refine round (exc := none) hall rfl ?_ (hE.setCalls F) (Or.inl rfl) (by simp) ?_
      · rw [e]; show s.count + 1 + _ ≤ _; omega
      · rw [e]; omega
    · have hs : s.seen c.node = true := (h1.ok _ (h1.gn c (by simp)).1).2
      rw [enter_seen hs]
      exact round hall rfl hcnt (h1.setCalls F) h2 h3 (by
        show 2 * unseen all s + _ ≤ _; omega)

theorem good_zero {all : List Node} (hall : ∀ v, P.vis v = true → v ∈ all) (h : Good P start all 0 s) : s.calls = [] := by
  obtain ⟨num, _, h⟩ := h
  cases hcalls : s.calls with
  | nil => rfl
  | cons c F =>
    rw [hcalls] at h
    dsimp only at h
    rcases h with ⟨h1, _, h3, _, _, h6⟩ | ⟨exc, _, _, _, h4⟩
    · have := unseen_pos (hall _ h3) h1; omega
    · omega

/-! ### Nodes stay seen -/

theorem leave_seen (s : St) (v : Node) (m : Nat) : (leave s v m).seen = s.seen := by
  unfold leave
  split
  · rfl
  · split
    · rfl
    · have : ∀ (l : List Node) (s : St), (popScc v l s).seen = s.seen := by
        intro l
        induction l with
        | nil => intro s; rfl
        | cons x l ih => intro s; simp only [popScc]; split
                         · rfl
                         · rw [ih]
      exact this _ _

theorem step_seen (P : Prg) (s : St) : (∀ u, s.seen u = true → (step P s).seen u = true) ∧
    ∀ c F, s.calls = c :: F → (step P s).seen c.node = true := by
  have key : ∀ c F, s.calls = c :: F → (step P s).seen = (enter { s with calls := F } c).1.seen := by
    intro c F hc
    unfold step
    rw [hc]
    dsimp only
    split
    · rfl
    · rw [leave_seen]
  constructor
  · intro u hu
    cases hc : s.calls with
    | nil => unfold step; rw [hc]; exact hu
    | cons c F =>
      rw [key c F hc]
      by_cases h : s.seen c.node = true
      · rw [enter_seen h]; exact hu
      · rw [Bool.not_eq_true] at h
        rw [enter_fresh h]
        show Function.update s.seen c.node true u = true
        by_cases e : u = c.node
        · rw [e, Function.update_self]
        · rw [Function.update_of_ne e]; exact hu
  · intro c F hc
    rw [key c F hc]
    by_cases h : s.seen c.node = true
    · rw [enter_seen h]; exact h
    · rw [Bool.not_eq_true] at h
      rw [enter_fresh h]
      exact Function.update_self _ _ _

/-! ### The loop -/

theorem loop_good {all : List Node} (hall : ∀ v, P.vis v = true → v ∈ all) (hnd : all.Nodup) (hlen : all.length ≤ noNode) :
    ∀ (n : Nat) (s : St), Good P start all n s → ∃ t num, loop P n s = some t ∧ t.calls = [] ∧ Core P start t num [] none ∧
      (∀ u, s.seen u = true → t.seen u = true) ∧ (∀ c F, s.calls = c :: F → t.seen c.node = true) := by
  intro n
  induction n with
  | zero =>
    intro s h
    have hc := good_zero hall h
    obtain ⟨num, _, h⟩ := h
    rw [hc] at h
    refine ⟨s, num, by unfold loop; rw [if_pos hc], hc, h, fun _ hu => hu, fun c F hcc => ?_⟩
    rw [hc] at hcc; cases hcc
  | succ n ih =>
    intro s h
    by_cases hc : s.calls = []
    · obtain ⟨num, _, h⟩ := h
      rw [hc] at h
      refine ⟨s, num, by unfold loop; rw [if_pos hc], hc, h, fun _ hu => hu, fun c F hcc => ?_⟩
      rw [hc] at hcc; cases hcc
    · obtain ⟨t, num, h1, h2, h3, h4, h5⟩ := ih _ (step_good hall hnd hlen hc h)
      obtain ⟨g1, g2⟩ := step_seen P s
      exact ⟨t, num, by unfold loop; rw [if_neg hc]; exact h1, h2, h3, fun u hu => h4 u (g1 u hu), fun c F hcc => h4 _ (g2 c F hcc)⟩

/-- nothing is left on the node stack -/
theorem Core.empty {num : Node → Nat} {exc : Option Node} (h : Core P start s num [] exc) : s.nodes = [] := by
  rcases List.eq_nil_or_concat s.nodes with h' | ⟨l, x, h'⟩
  · exact h'
  · exfalso
    have hx : x ∈ s.nodes := by rw [h']; simp
    have : ∀ (n : Nat) (x : Node), num x = n → x ∈ s.nodes → False := by
      intro n
      induction n using Nat.strong_induction_on with
      | _ n ih =>
        intro x hn hx
        obtain ⟨h1, ⟨y, hy, h2, _⟩, _⟩ := h.blk x hx (by simp)
        exact ih (num y) (by omega) y rfl hy
    exact this _ x rfl hx

/-- Between two roots. -/
structure Fin (P : Prg) (start : Nat) (s : St) : Prop where
  nodes : s.nodes = []
  sv : ∀ v, s.seen v = true → P.vis v = true
  closed : ∀ u w, s.seen u = true → Edge P u w → s.seen w = true
  ids : ∀ u, s.seen u = true → s.id u = noNode
  res : Res P start s

theorem Fin.core (h : Fin P start s) (l : List Call) : Core P start { s with calls := l, nodes := [], count := 0 } (fun _ => 0) [] none := by
  have hd : ∀ u, Done { s with calls := l, nodes := [], count := 0 } u ↔ Done s u := by
    intro u; unfold Done; rw [h.nodes]
  have hd' : ∀ u, Done s u ↔ s.seen u = true := by
    intro u; unfold Done; rw [h.nodes]; simp
  refine ⟨List.Pairwise.nil, by simp, by simp, h.sv, Nat.zero_le _, ?_, ?_, by simp, List.Pairwise.nil, List.IsChain.nil, by simp, by simp,
    by simp, by simp, ⟨?_, ?_, ?_, ?_, h.res.nodup, h.res.start, h.res.topo⟩⟩
  · intro u w hu he
    rw [hd, hd'] at hu ⊢
    exact h.closed u w hu he
  · intro u hu
    rw [hd, hd'] at hu
    exact h.ids u hu
  · intro u hu; rw [hd] at hu; exact h.res.triv u hu
  · intro u w hu; rw [hd] at hu; exact h.res.non u w hu
  · intro u w hu ha hw; rw [hd] at hu hw; exact h.res.same u w hu ha hw
  · intro u hu; rw [hd]; exact h.res.out u hu

theorem Core.fin {num : Node → Nat} {exc : Option Node} (h : Core P start s num [] exc) : Fin P start s := by
  have hn := h.empty
  have hd : ∀ u, s.seen u = true → Done s u := fun u hu => ⟨hu, by rw [hn]; simp⟩
  exact ⟨hn, h.sv, fun u w hu he => (h.dcl u w (hd u hu) he).1, fun u hu => h.did u (hd u hu), h.res⟩

theorem visitDfs_spec {all : List Node} (hall : ∀ v, P.vis v = true → v ∈ all) (hnd : all.Nodup) (hlen : all.length ≤ noNode)
    (h : Fin P start s) (v : Node) : ∃ t, visitDfs P (2 * all.length + 1) s v = some t ∧ Fin P start t ∧
      (∀ u, s.seen u = true → t.seen u = true) ∧ (P.vis v = true → t.seen v = true) := by
  unfold visitDfs
  by_cases hv : (P.vis v && !s.seen v) = true
  · rw [if_pos hv]
    simp only [Bool.and_eq_true, Bool.not_eq_true'] at hv
    have hle : unseen all { s with calls := [⟨v, 0, 0⟩], nodes := [], count := 0 } ≤ all.length := List.length_filter_le _ _
    have hg : Good P start all (2 * all.length + 1) { s with calls := [⟨v, 0, 0⟩], nodes := [], count := 0 } := by
      refine ⟨fun _ => 0, ?_, Or.inl ⟨hv.2, rfl, hv.1, h.core _, by simp, ?_⟩⟩
      · show 0 + _ ≤ _; omega
      · simp only [List.length_nil]; omega
    obtain ⟨t, num, h1, _, h3, h4, h5⟩ := loop_good hall hnd hlen _ _ hg
    exact ⟨t, h1, h3.fin, h4, fun _ => h5 _ _ rfl⟩
  · rw [if_neg hv]
    refine ⟨s, rfl, h, fun _ hu => hu, fun hv' => ?_⟩
    simpa [hv'] using hv

theorem check_spec {all : List Node} (hall : ∀ v, P.vis v = true → v ∈ all) (hnd : all.Nodup) (hlen : all.length ≤ noNode) :
    ∀ (roots : List Node) (s : St), Fin P start s → ∃ t, check P (2 * all.length + 1) roots s = some t ∧ Fin P start t ∧
      (∀ u, s.seen u = true → t.seen u = true) ∧ ∀ v ∈ roots, P.vis v = true → t.seen v = true := by
  intro roots
  induction roots with
  | nil => intro s h; exact ⟨s, rfl, h, fun _ hu => hu, by simp⟩
  | cons v r ih =>
    intro s h
    obtain ⟨t, h1, h2, h3, h4⟩ := visitDfs_spec hall hnd hlen h v
    obtain ⟨t', g1, g2, g3, g4⟩ := ih t h2
    refine ⟨t', ?_, g2, fun u hu => g3 u (h3 u hu), ?_⟩
    · unfold check; rw [h1]; exact g1
    · intro w hw hv
      rcases List.mem_cons.1 hw with rfl | hw
      · exact g3 _ (h4 hv)
      · exact g4 w hw hv

theorem init_fin (start : Nat) (ids scc : Node → Nat) : Fin P start (init start ids scc) := by
  have hs : ∀ u, (init start ids scc).seen u ≠ true := fun u => by simp [init]
  exact ⟨rfl, fun v h => absurd h (hs v), fun u _ h => absurd h (hs u), fun u h => absurd h (hs u),
    ⟨fun u h => absurd h.1 (hs u), fun u _ h => absurd h.1 (hs u), fun u _ h => absurd h.1 (hs u),
     fun u h => (by cases h), List.nodup_nil, Nat.le_refl _, fun u _ h => (by cases h)⟩⟩

end Clasp.Scc
