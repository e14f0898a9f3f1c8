import Verif.Asp.SccLem

/-! The invariant of the component computation is preserved (C28). No code is modelled in this file. -/

namespace Clasp.Scc
open Relation

variable {P : Prg} {start : Nat} {s : St} {num : Node → Nat} {F : List Call} {exc : Option Node}

theorem Core.setCalls (h : Core P start s num F exc) (l : List Call) : Core P start { s with calls := l } num F exc :=
  ⟨h.nd, h.lt, h.ok, h.sv, h.cn, h.dcl, h.did, h.gn, h.gord, h.path, h.reach, h.blk, h.expl, h.own,
    ⟨h.res.triv, h.res.non, h.res.same, h.res.out, h.res.nodup, h.res.start, h.res.topo⟩⟩

/-! ### A finished node that stays on the stack -/

theorem Core.stay {v : Node} {m j : Nat} (h : Core P start s num (⟨v, m, j⟩ :: F) none) (hj : (P.succ v).length ≤ j)
    (hm : m < s.id v) : Core P start { s with id := Function.update s.id v m } num F (some v) := by
  have hv := h.gn ⟨v, m, j⟩ (by simp)
  dsimp only at hv
  have hgord := List.pairwise_cons.1 h.gord
  have hFv : ∀ f ∈ F, f.node ≠ v := fun f hf e => by have := hgord.1 f hf; rw [e] at this; exact Nat.lt_irrefl _ this
  have hidF : ∀ f ∈ F, Function.update s.id v m f.node = s.id f.node := fun f hf => Function.update_of_ne (hFv f hf) _ _
  have hle : ∀ x, Function.update s.id v m x ≤ s.id x := fun x => by
    by_cases e : x = v
    · rw [e, Function.update_self]; exact hm.le
    · rw [Function.update_of_ne e]
  have hbv : ∀ x, x ≠ v → (∀ f ∈ F, f.node ≠ x) → ∀ f ∈ (⟨v, m, j⟩ :: F : List Call), f.node ≠ x := by
    intro x hx hb f hf
    rcases List.mem_cons.1 hf with rfl | hf
    · exact fun e => hx e.symm
    · exact hb f hf
  refine ⟨h.nd, h.lt, h.ok, h.sv, h.cn, h.dcl, ?_, ?_, hgord.2, (List.isChain_cons.1 h.path).2,
    fun f hf => h.reach f (List.mem_cons_of_mem _ hf), ?_, fun f hf => h.expl f (List.mem_cons_of_mem _ hf), ?_,
    ⟨h.res.triv, h.res.non, h.res.same, h.res.out, h.res.nodup, h.res.start, h.res.topo⟩⟩
  · intro u hu
    have : u ≠ v := fun e => hu.2 (by rw [e]; exact hv.1)
    show Function.update s.id v m u = _
    rw [Function.update_of_ne this]; exact h.did u hu
  · intro f hf
    show f.node ∈ s.nodes ∧ Function.update s.id v m f.node = _ ∧ _
    rw [hidF f hf]; exact h.gn f (List.mem_cons_of_mem _ hf)
  · intro x hx hb
    show Function.update s.id v m x < _ ∧ (∃ y ∈ s.nodes, num y = Function.update s.id v m x ∧ _) ∧
      ∀ w, _ → Done s w ∨ (w ∈ s.nodes ∧ Function.update s.id v m x ≤ num w)
    by_cases e : x = v
    · subst e
      rw [Function.update_self]
      obtain ⟨h1, h2⟩ := h.expl ⟨x, m, j⟩ (by simp)
      refine ⟨by omega, h2, fun w hw => ?_⟩
      obtain ⟨k, hk⟩ := List.mem_iff_getElem?.1 hw.2.2
      have hk' := (List.getElem?_eq_some_iff.1 hk).1
      exact h1 k (by dsimp only at hk' ⊢; omega) w hk hw.2.1
    · rw [Function.update_of_ne e]
      exact h.blk x hx (hbv x e hb)
  · intro f hf x hx hb hlt hmax
    show f.min ≤ Function.update s.id v m x ∨ (_ ∧ ∃ u, _ ∧ u ∈ s.nodes ∧ Function.update s.id v m u ≤ Function.update s.id v m x)
    by_cases hxv : num v ≤ num x
    · -- `x` belonged to `v` (or is `v`), so `f` is the new top
      right
      constructor
      · cases F with
        | nil => cases hf
        | cons t F =>
          rcases List.mem_cons.1 hf with rfl | hf'
          · rfl
          · have h1 := hmax t (by simp) (by have := hgord.1 t (by simp); dsimp only at this; omega)
            have h2 := (List.pairwise_cons.1 hgord.2).1 f hf'
            omega
      · refine ⟨v, rfl, hv.1, ?_⟩
        rw [Function.update_self]
        by_cases e : x = v
        · rw [e, Function.update_self]
        · rw [Function.update_of_ne e]
          have hne : num v ≠ num x := fun e' => e (h.inj hx hv.1 e'.symm)
          rcases h.own ⟨v, m, j⟩ (by simp) x hx (hbv x e hb) (by dsimp only; omega) (fun g hg _ => by
            rcases List.mem_cons.1 hg with rfl | hg
            · exact Nat.le_refl _
            · exact (hgord.1 g hg).le) with h1 | ⟨_, u, hu, _⟩
          · exact h1
          · cases hu
    · left
      have e : x ≠ v := fun e => hxv (by rw [e])
      rw [Function.update_of_ne e]
      rcases h.own f (List.mem_cons_of_mem _ hf) x hx (hbv x e hb) hlt (fun g hg hgx => by
        rcases List.mem_cons.1 hg with rfl | hg
        · exact absurd hgx (by dsimp only; omega)
        · exact hmax g hg hgx) with h1 | ⟨_, u, hu, _⟩
      · exact h1
      · cases hu

/-! ### A finished node that is the root of a component -/

theorem split_at {v : Node} : ∀ {l : List Node}, v ∈ l → ∃ pre post, l = pre ++ v :: post ∧ v ∉ pre := by
  intro l
  induction l with
  | nil => intro h; cases h
  | cons x l ih =>
    intro h
    by_cases e : x = v
    · exact ⟨[], l, by simp [e], by simp⟩
    · rcases List.mem_cons.1 h with h | h
      · exact absurd h.symm e
      · obtain ⟨a, b, h1, h2⟩ := ih h
        exact ⟨x :: a, b, by simp [h1], by simp [h2, Ne.symm e]⟩

/-- what `popScc` does -/
theorem popScc_spec {v : Node} : ∀ (pre post : List Node) (s : St), v ∉ pre →
    let t := popScc v (pre ++ v :: post) s
    t.seen = s.seen ∧ t.calls = s.calls ∧ t.count = s.count ∧ t.sccs = s.sccs ∧ t.nodes = post ∧
    t.out = s.out ++ (pre ++ [v]).filter Node.isAtom ∧
    (∀ u, t.scc u = if u ∈ pre ++ [v] ∧ u.isAtom = true then s.sccs else s.scc u) ∧
    (∀ u, t.id u = if u ∈ pre ++ [v] then noNode else s.id u) := by
  intro pre
  induction pre with
  | nil =>
    intro post s _
    simp only [List.nil_append, popScc, if_true]
    refine ⟨trivial, trivial, trivial, trivial, trivial, ?_, ?_, ?_⟩
    · by_cases h : v.isAtom = true <;> simp [h]
    · intro u
      by_cases h : v.isAtom = true
      · by_cases e : u = v
        · subst e; simp [h]
        · simp [h, e]
      · by_cases e : u = v
        · subst e; simp [h]
        · simp [h, e]
    · intro u
      by_cases e : u = v
      · subst e; simp
      · simp [e]
  | cons x pre ih =>
    intro post s hx
    have hxv : x ≠ v := fun e => hx (by simp [e])
    have hp : v ∉ pre := fun h => hx (List.mem_cons_of_mem _ h)
    simp only [List.cons_append, popScc, if_neg hxv]
    have h := ih post { s with scc := if x.isAtom then Function.update s.scc x s.sccs else s.scc
                               out := if x.isAtom then s.out ++ [x] else s.out
                               nodes := pre ++ v :: post
                               id := Function.update s.id x noNode } hp
    dsimp only at h
    obtain ⟨h1, h2, h3, h4, h5, h6, h7, h8⟩ := h
    refine ⟨h1, h2, h3, h4, h5, ?_, ?_, ?_⟩
    · rw [h6, List.filter_cons]
      by_cases h : x.isAtom = true <;> simp [h]
    · intro u
      rw [h7 u]
      by_cases h : x.isAtom = true
      · by_cases e : u = x
        · subst e; simp [h]
        · simp [h, e]
      · by_cases e : u = x
        · subst e; simp [h]
        · simp [h, e]
    · intro u
      rw [h8 u]
      by_cases e : u = x
      · subst e; simp
      · simp [e]

section Root
variable {v : Node} {m j : Nat} {pre post : List Node}

theorem Core.members (h : Core P start s num (⟨v, m, j⟩ :: F) none) (hn : s.nodes = pre ++ v :: post) :
    (∀ x ∈ s.nodes, x ∈ pre ++ [v] ↔ num v ≤ num x) ∧ (∀ x ∈ post, num x < num v) := by
  have hp := h.nd
  rw [hn, List.pairwise_append] at hp
  obtain ⟨_, h2, h3⟩ := hp
  have hpost := (List.pairwise_cons.1 h2).1
  refine ⟨fun x hx => ?_, hpost⟩
  rw [hn] at hx
  rcases List.mem_append.1 hx with hx | hx
  · have := h3 x hx v (by simp)
    constructor
    · intro _; omega
    · intro _; simp [hx]
  · rcases List.mem_cons.1 hx with rfl | hx
    · simp
    · have h4 := hpost x hx
      constructor
      · intro hm
        rcases List.mem_append.1 hm with hm | hm
        · have := h3 x hm x (List.mem_cons_of_mem _ hx); omega
        · rw [List.mem_singleton.1 hm]
      · intro _; omega

/-- the nodes popped depend on each other -/
theorem Core.root_reach (h : Core P start s num (⟨v, m, j⟩ :: F) none) (hm : ¬ m < s.id v) :
    ∀ (n : Nat) (x : Node), x ∈ s.nodes → num x = n → num v ≤ num x → Reach P x v := by
  have hv := h.gn ⟨v, m, j⟩ (by simp)
  dsimp only at hv
  have hgord := List.pairwise_cons.1 h.gord
  intro n
  induction n using Nat.strong_induction_on with
  | _ n ih =>
    intro x hx hn hle
    by_cases hb : ∀ f ∈ (⟨v, m, j⟩ :: F : List Call), f.node ≠ x
    · obtain ⟨h1, ⟨y, hy, h2, h3⟩, _⟩ := h.blk x hx hb
      have hxv : x ≠ v := fun e => hb ⟨v, m, j⟩ (by simp) e.symm
      have hne : num v ≠ num x := fun e' => hxv (h.inj hx hv.1 e'.symm)
      rcases h.own ⟨v, m, j⟩ (by simp) x hx hb (by dsimp only; omega) (fun g hg _ => by
        rcases List.mem_cons.1 hg with rfl | hg
        · exact Nat.le_refl _
        · exact (hgord.1 g hg).le) with h4 | ⟨_, u, hu, _⟩
      · dsimp only at h4
        exact h3.trans (ih (num y) (by omega) y hy rfl (by omega))
      · cases hu
    · push Not at hb
      obtain ⟨f, hf, rfl⟩ := hb
      rcases List.mem_cons.1 hf with rfl | hf
      · exact .refl
      · have := hgord.1 f hf; dsimp only at this; omega

/-- the nodes popped lead only to known components or to each other -/
theorem Core.root_closed (h : Core P start s num (⟨v, m, j⟩ :: F) none) (hj : (P.succ v).length ≤ j) (hm : ¬ m < s.id v)
    {x w : Node} (hx : x ∈ s.nodes) (hle : num v ≤ num x) (he : Edge P x w) : Done s w ∨ (w ∈ s.nodes ∧ num v ≤ num w) := by
  have hv := h.gn ⟨v, m, j⟩ (by simp)
  dsimp only at hv
  have hgord := List.pairwise_cons.1 h.gord
  by_cases hb : ∀ f ∈ (⟨v, m, j⟩ :: F : List Call), f.node ≠ x
  · obtain ⟨h1, _, h3⟩ := h.blk x hx hb
    have hxv : x ≠ v := fun e => hb ⟨v, m, j⟩ (by simp) e.symm
    have hne : num v ≠ num x := fun e' => hxv (h.inj hx hv.1 e'.symm)
    rcases h.own ⟨v, m, j⟩ (by simp) x hx hb (by dsimp only; omega) (fun g hg _ => by
      rcases List.mem_cons.1 hg with rfl | hg
      · exact Nat.le_refl _
      · exact (hgord.1 g hg).le) with h4 | ⟨_, u, hu, _⟩
    · dsimp only at h4
      rcases h3 w he with h3 | ⟨h3, h5⟩
      · exact Or.inl h3
      · exact Or.inr ⟨h3, by omega⟩
    · cases hu
  · push Not at hb
    obtain ⟨f, hf, rfl⟩ := hb
    rcases List.mem_cons.1 hf with rfl | hf
    · obtain ⟨k, hk⟩ := List.mem_iff_getElem?.1 he.2.2
      have hk' := (List.getElem?_eq_some_iff.1 hk).1
      rcases (h.expl ⟨v, m, j⟩ (by simp)).1 k (by dsimp only at hk' ⊢; omega) w hk he.2.1 with h3 | ⟨h3, h5⟩
      · exact Or.inl h3
      · exact Or.inr ⟨h3, by dsimp only at h5; omega⟩
    · have := hgord.1 f hf; dsimp only at this; omega

/-- the component is popped: the remaining state -/
theorem Core.popped (h : Core P start s num (⟨v, m, j⟩ :: F) none) (hj : (P.succ v).length ≤ j) (hm : ¬ m < s.id v)
    (hn : s.nodes = pre ++ v :: post) (t : St) (hseen : t.seen = s.seen) (hcount : t.count = s.count) (hnodes : t.nodes = post)
    (hid : ∀ u, t.id u = if u ∈ pre ++ [v] then noNode else s.id u)
    (hres : (∀ u, Done t u ↔ Done s u ∨ u ∈ pre ++ [v]) → (∀ u ∈ pre ++ [v], Mut P v u ∧ ¬ Done s u) →
      (∀ w, Mut P v w → w ∈ pre ++ [v]) → Res P start t) :
    Core P start t num F none := by
  have hv := h.gn ⟨v, m, j⟩ (by simp)
  dsimp only at hv
  have hgord := List.pairwise_cons.1 h.gord
  obtain ⟨hmem, hpost⟩ := h.members hn
  have hsub : ∀ x ∈ post, x ∈ s.nodes := fun x hx => by rw [hn]; simp [hx]
  have hsubL : ∀ x ∈ pre ++ [v], x ∈ s.nodes := fun x hx => by
    rw [hn]; rcases List.mem_append.1 hx with hx | hx
    · simp [hx]
    · rw [List.mem_singleton.1 hx]; simp
  have hnotL : ∀ x ∈ post, x ∉ pre ++ [v] := fun x hx hL => by
    have := (hmem x (hsub x hx)).1 hL; have := hpost x hx; omega
  have hcases : ∀ x ∈ s.nodes, num x < num v → x ∈ post := fun x hx hlt => by
    have hx' := hx
    rw [hn] at hx'
    rcases List.mem_append.1 hx' with h1 | h1
    · have := (hmem x hx).1 (by simp [h1]); omega
    · rcases List.mem_cons.1 h1 with rfl | h1
      · omega
      · exact h1
  have hdone : ∀ u, Done t u ↔ Done s u ∨ u ∈ pre ++ [v] := by
    intro u
    unfold Done
    rw [hseen, hnodes, hn]
    constructor
    · rintro ⟨h1, h2⟩
      by_cases hu : u ∈ pre ++ [v]
      · exact Or.inr hu
      · refine Or.inl ⟨h1, ?_⟩
        intro hu'
        rcases List.mem_append.1 hu' with h3 | h3
        · exact hu (by simp [h3])
        · rcases List.mem_cons.1 h3 with h3 | h3
          · exact hu (by simp [h3])
          · exact h2 h3
    · rintro (⟨h1, h2⟩ | h1)
      · exact ⟨h1, fun h3 => h2 (by simp [h3])⟩
      · exact ⟨(h.ok u (hsubL u h1)).2, fun h3 => hnotL u h3 h1⟩
  have hidp : ∀ x ∈ post, t.id x = s.id x := fun x hx => by rw [hid, if_neg (hnotL x hx)]
  have hgp : ∀ f ∈ F, f.node ∈ post := fun f hf =>
    hcases _ (h.gn f (List.mem_cons_of_mem _ hf)).1 (hgord.1 f hf)
  have hbv : ∀ x ∈ post, (∀ f ∈ F, f.node ≠ x) → ∀ f ∈ (⟨v, m, j⟩ :: F : List Call), f.node ≠ x := by
    intro x hx hb f hf
    rcases List.mem_cons.1 hf with rfl | hf
    · intro e; have := hpost x hx; dsimp only at e; rw [e] at this; omega
    · exact hb f hf
  have hclosed : ∀ u w, (Done s u ∨ u ∈ pre ++ [v]) → Edge P u w → Done s w ∨ w ∈ pre ++ [v] := by
    intro u w hu he
    rcases hu with hu | hu
    · exact Or.inl (h.dcl u w hu he)
    · rcases h.root_closed hj hm (hsubL u hu) ((hmem u (hsubL u hu)).1 hu) he with h1 | ⟨h1, h2⟩
      · exact Or.inl h1
      · exact Or.inr ((hmem w h1).2 h2)
  refine ⟨?_, ?_, ?_, ?_, ?_, ?_, ?_, ?_, hgord.2, (List.isChain_cons.1 h.path).2, ?_, ?_, ?_, ?_, ?_⟩
  · rw [hnodes]
    have := h.nd
    rw [hn, List.pairwise_append] at this
    exact (List.pairwise_cons.1 this.2.1).2
  · rw [hnodes, hcount]; exact fun x hx => h.lt x (hsub x hx)
  · rw [hnodes, hseen]; exact fun x hx => h.ok x (hsub x hx)
  · rw [hseen]; exact h.sv
  · rw [hcount]; exact h.cn
  · intro u w hu he
    rw [hdone] at hu ⊢
    exact hclosed u w hu he
  · intro u hu
    rw [hid]
    rcases (hdone u).1 hu with hu' | hu'
    · by_cases hL : u ∈ pre ++ [v]
      · rw [if_pos hL]
      · rw [if_neg hL]; exact h.did u hu'
    · rw [if_pos hu']
  · intro f hf
    rw [hnodes, hidp _ (hgp f hf)]
    exact ⟨hgp f hf, (h.gn f (List.mem_cons_of_mem _ hf)).2⟩
  · rw [hnodes]
    exact fun f hf x hx => h.reach f (List.mem_cons_of_mem _ hf) x (hsub x hx)
  · rw [hnodes]
    intro x hx hb
    obtain ⟨h1, ⟨y, hy, h2, h3⟩, h4⟩ := h.blk x (hsub x hx) (hbv x hx hb)
    rw [hidp x hx]
    have := hpost x hx
    refine ⟨h1, ⟨y, hcases y hy (by omega), h2, h3⟩, fun w hw => ?_⟩
    rw [hdone]
    rcases h4 w hw with h4 | ⟨h4, h5⟩
    · exact Or.inl (Or.inl h4)
    · by_cases hL : num v ≤ num w
      · exact Or.inl (Or.inr ((hmem w h4).2 hL))
      · exact Or.inr ⟨hcases w h4 (by omega), h5⟩
  · rw [hnodes]
    intro f hf
    obtain ⟨h1, y, hy, h2, h3⟩ := h.expl f (List.mem_cons_of_mem _ hf)
    have hfm := (h.gn f (List.mem_cons_of_mem _ hf)).2.2
    have := hpost _ (hgp f hf)
    refine ⟨fun k hk w hw hvw => ?_, y, hcases y hy (by omega), h2, h3⟩
    rw [hdone]
    rcases h1 k hk w hw hvw with h4 | ⟨h4, h5⟩
    · exact Or.inl (Or.inl h4)
    · by_cases hL : num v ≤ num w
      · exact Or.inl (Or.inr ((hmem w h4).2 hL))
      · exact Or.inr ⟨hcases w h4 (by omega), h5⟩
  · rw [hnodes]
    intro f hf x hx hb hlt hmax
    left
    rw [hidp x hx]
    have := hpost x hx
    rcases h.own f (List.mem_cons_of_mem _ hf) x (hsub x hx) (hbv x hx hb) hlt (fun g hg hgx => by
      rcases List.mem_cons.1 hg with rfl | hg
      · exact absurd hgx (by dsimp only; omega)
      · exact hmax g hg hgx) with h1 | ⟨_, u, hu, _⟩
    · exact h1
    · cases hu
  · refine hres hdone ?_ ?_
    · intro u hu
      have hun := hsubL u hu
      have hle := (hmem u hun).1 hu
      exact ⟨⟨h.reach ⟨v, m, j⟩ (by simp) u hun hle, h.root_reach hm _ u hun rfl hle⟩, fun hd => hd.2 hun⟩
    · intro w hw
      have : Done s w ∨ w ∈ pre ++ [v] := by
        have hr := hw.1
        clear hw
        induction hr with
        | refl => exact Or.inr (by simp)
        | tail _ he ih => exact hclosed _ _ ih he
      rcases this with hd | hL
      · exact absurd hv.1 ((Done.reach h hd hw.2).2)
      · exact hL

/-- `leave` keeps the invariant -/
theorem Core.leave (h : Core P start s num (⟨v, m, j⟩ :: F) none) (hj : (P.succ v).length ≤ j) :
    ∃ exc, Core P start (Scc.leave s v m) num F exc ∧ (exc = none ∨ exc = some v) ∧ (Scc.leave s v m).calls = s.calls ∧
      (Scc.leave s v m).seen = s.seen ∧ (Scc.leave s v m).count = s.count := by
  unfold Scc.leave
  by_cases hm : m < s.id v
  · rw [if_pos hm]
    exact ⟨some v, h.stay hj hm, Or.inr rfl, rfl, rfl, rfl⟩
  · rw [if_neg hm]
    have hv := h.gn ⟨v, m, j⟩ (by simp)
    obtain ⟨pre, post, hn, hpre⟩ := split_at hv.1
    dsimp only at hn hpre
    have hr := h.res
    have outOld : ∀ u ∈ s.out, Done s u := fun u hu => (hr.out u hu).1
    cases pre with
    | nil =>
      rw [if_pos (by rw [hn]; rfl)]
      refine ⟨none, ?_, Or.inl rfl, rfl, rfl, rfl⟩
      refine h.popped hj hm hn _ rfl rfl (by unfold popTrivial; rw [hn]; rfl) ?_ ?_
      · intro u
        show Function.update s.id v noNode u = _
        by_cases e : u = v
        · subst e; simp
        · rw [Function.update_of_ne e, if_neg (by simpa using e)]
      · intro hdone hL hmax
        have hscc : ∀ u, u ≠ v → (popTrivial s v).scc u = s.scc u := fun u hu => by
          unfold popTrivial; dsimp only; split
          · exact Function.update_of_ne hu _ _
          · rfl
        have hnv : ¬ Done s v := (hL v (by simp)).2
        have old : ∀ u, Done s u → u ≠ v := fun u hu e => hnv (e ▸ hu)
        refine ⟨?_, ?_, ?_, ?_, hr.nodup, hr.start, ?_⟩
        · intro u hu ha ht
          rcases (hdone u).1 hu with hu | hu
          · rw [hscc u (old u hu)]; exact hr.triv u hu ha ht
          · have : u = v := by simpa using hu
            subst this
            refine ⟨?_, fun ho => hnv (outOld _ ho)⟩
            unfold popTrivial; dsimp only; rw [if_pos ha, Function.update_self]
        · intro u w hu ha hm' hne
          rcases (hdone u).1 hu with hu | hu
          · rw [hscc u (old u hu)]; exact hr.non u w hu ha hm' hne
          · have : u = v := by simpa using hu
            subst this
            have := hmax w hm'
            exact absurd (by simpa using this) hne
        · intro u w hu ha hw hwa hou how
          have hou' : u ∈ s.out := hou
          have how' : w ∈ s.out := how
          rw [hscc u (old u (outOld _ hou')), hscc w (old w (outOld _ how'))]
          exact hr.same u w (outOld _ hou') ha (outOld _ how') hwa hou how
        · intro u hu
          exact ⟨(hdone u).2 (Or.inl (outOld u hu)), (hr.out u hu).2⟩
        · intro u w hou how hre
          have hou' : u ∈ s.out := hou
          have how' : w ∈ s.out := how
          rw [hscc u (old u (outOld _ hou')), hscc w (old w (outOld _ how'))]
          exact hr.topo u w hou' how' hre
    | cons a pre =>
      have hav : a ≠ v := fun e => hpre (by simp [e])
      rw [if_neg (by rw [hn]; simp [hav])]
      obtain ⟨g1, g2, g3, g4, g5, g6, g7, g8⟩ := popScc_spec (a :: pre) post s hpre
      rw [← hn] at g1 g2 g3 g4 g5 g6 g7 g8
      refine ⟨none, ?_, Or.inl rfl, g2, g1, g3⟩
      refine h.popped hj hm hn _ g1 g3 g5 g8 ?_
      intro hdone hL hmax
      have hsccOld : ∀ u, Done s u → (popScc v s.nodes s).scc u = s.scc u := fun u hu => by
        rw [g7, if_neg (fun hu' => (hL u hu'.1).2 hu)]
      have hsccNew : ∀ u ∈ a :: pre ++ [v], u.isAtom = true → (popScc v s.nodes s).scc u = s.sccs := fun u hu ha => by
        rw [g7, if_pos ⟨hu, ha⟩]
      have hmutL : ∀ u ∈ a :: pre ++ [v], ∀ w ∈ a :: pre ++ [v], Mut P u w := fun u hu w hw =>
        (hL u hu).1.symm.trans (hL w hw).1
      have hnd : (a :: pre ++ [v]).Nodup := by
        have h1 : s.nodes.Nodup := h.nd.imp fun {x y} hxy e => by rw [e] at hxy; omega
        rw [hn] at h1
        exact h1.sublist (by simp)
      have houtMem : ∀ u, u ∈ (popScc v s.nodes s).out ↔ u ∈ s.out ∨ (u ∈ a :: pre ++ [v] ∧ u.isAtom = true) := by
        intro u; rw [g6, List.mem_append, List.mem_filter]
      refine ⟨?_, ?_, ?_, ?_, ?_, ?_, ?_⟩
      · intro u hu ha ht
        rcases (hdone u).1 hu with hu | hu
        · dsimp only; rw [hsccOld u hu, houtMem]
          refine ⟨(hr.triv u hu ha ht).1, ?_⟩
          rintro (h1 | ⟨h1, _⟩)
          · exact (hr.triv u hu ha ht).2 h1
          · exact (hL u h1).2 hu
        · exfalso
          have h1 := ht v (hL u hu).1.symm
          have h2 := ht a (hmutL u hu a (by simp))
          rw [← h2] at h1; exact hav h1.symm
      · intro u w hu ha hm' hne
        dsimp only
        rw [houtMem, g4]
        rcases (hdone u).1 hu with hu | hu
        · rw [hsccOld u hu]
          obtain ⟨h1, h2, h3⟩ := hr.non u w hu ha hm' hne
          exact ⟨h1, by omega, Or.inl h3⟩
        · rw [hsccNew u hu ha]
          exact ⟨hr.start, by omega, Or.inr ⟨hu, ha⟩⟩
      · intro u w hu ha hw hwa hou how
        dsimp only at hou how ⊢
        rw [houtMem] at hou how
        have key : ∀ u w, u ∈ s.out → u.isAtom = true → w ∈ a :: pre ++ [v] → w.isAtom = true →
            (popScc v s.nodes s).scc u ≠ (popScc v s.nodes s).scc w ∧ ¬ Mut P u w := by
          intro u w hu ha hw hwa
          have hd := outOld u hu
          rw [hsccOld u hd, hsccNew w hw hwa]
          constructor
          · have : ∃ w', Mut P u w' ∧ w' ≠ u := by
              by_contra hc
              push Not at hc
              exact (hr.triv u hd ha hc).2 hu
            obtain ⟨w', h1, h2⟩ := this
            have := (hr.non u w' hd ha h1 h2).2.1
            omega
          · intro hm'
            exact (hL w hw).2 (Done.reach h hd hm'.1)
        rcases hou with hou | ⟨hou, _⟩ <;> rcases how with how | ⟨how, _⟩
        · rw [hsccOld u (outOld _ hou), hsccOld w (outOld _ how)]
          exact hr.same u w (outOld _ hou) ha (outOld _ how) hwa hou how
        · obtain ⟨h1, h2⟩ := key u w hou ha how hwa
          exact ⟨fun e => absurd e h1, fun e => absurd e h2⟩
        · obtain ⟨h1, h2⟩ := key w u how hwa hou ha
          exact ⟨fun e => absurd e.symm h1, fun e => absurd e.symm h2⟩
        · rw [hsccNew u hou ha, hsccNew w how hwa]
          exact ⟨fun _ => hmutL u hou w how, fun _ => rfl⟩
      · intro u hu
        have hu' : u ∈ (popScc v s.nodes s).out := hu
        rw [houtMem] at hu'
        rcases hu' with hu' | ⟨hu', ha⟩
        · exact ⟨(hdone u).2 (Or.inl (outOld u hu')), (hr.out u hu').2⟩
        · exact ⟨(hdone u).2 (Or.inr hu'), ha⟩
      · show (popScc v s.nodes s).out.Nodup
        rw [g6]
        refine List.nodup_append.2 ⟨hr.nodup, hnd.filter _, ?_⟩
        intro x hx y hy e
        subst e
        exact (hL x (List.mem_filter.1 hy).1).2 (outOld x hx)
      · show start ≤ (popScc v s.nodes s).sccs + 1
        rw [g4]; have := hr.start; omega
      · intro u w hou how hre
        dsimp only at hou how ⊢
        rw [houtMem] at hou how
        have hlt : ∀ u ∈ s.out, s.scc u < s.sccs := by
          intro u hu
          have hd := outOld u hu
          have : ∃ w', Mut P u w' ∧ w' ≠ u := by
            by_contra hc
            push Not at hc
            exact (hr.triv u hd (hr.out u hu).2 hc).2 hu
          obtain ⟨w', h1, h2⟩ := this
          exact (hr.non u w' hd (hr.out u hu).2 h1 h2).2.1
        rcases hou with hou | ⟨hou, hua⟩ <;> rcases how with how | ⟨how, hwa⟩
        · rw [hsccOld u (outOld _ hou), hsccOld w (outOld _ how)]
          exact hr.topo u w hou how hre
        · exact absurd (Done.reach h (outOld u hou) hre) (hL w how).2
        · rw [hsccNew u hou hua, hsccOld w (outOld _ how)]
          exact Nat.le_of_lt (hlt w how)
        · rw [hsccNew u hou hua, hsccNew w how hwa]

end Root

end Clasp.Scc
