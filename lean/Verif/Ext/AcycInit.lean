import Verif.Ext.AcycAttach
/-!
# The invariant of the acyclicity checker: `init`
-/

namespace Clasp.Acyc
open Clasp.Core (Lit)
open Clasp.DepGraph (Arc Inv Gr fwdOf invOf GInv)

/-- The effect of `attachArc` on an arc that is not to be watched. -/
theorem attach_other {ρ : St} {a : Arc} (u i : Nat) (hnw : ¬ (a.tail ≠ a.head ∧ isFree ρ a.lit = true)) :
    (attachArc ρ u i a).2 = u ∧ (attachArc ρ u i a).1.watch = ρ.watch ∧
    ((attachArc ρ u i a).1.confl ≠ none ∨ ((attachArc ρ u i a).1.trail = ρ.trail ∧ (attachArc ρ u i a).1.queue = ρ.queue) ∨
      ((attachArc ρ u i a).1 = assign ρ a.lit.neg false ∧ isFree ρ a.lit = true ∧ a.tail = a.head)) := by
  unfold attachArc
  split_ifs with h1 h2 h3 h4 h5 h6
  · exact absurd ⟨Ne.symm h1, h2⟩ hnw
  · exact absurd ⟨Ne.symm h1, h2⟩ hnw
  · exact ⟨rfl, rfl, Or.inr (Or.inl ⟨rfl, rfl⟩)⟩
  · exact ⟨rfl, rfl, Or.inr (Or.inl ⟨rfl, rfl⟩)⟩
  · exact ⟨rfl, rfl, Or.inr (Or.inl ⟨rfl, rfl⟩)⟩
  · have hlp : a.tail = a.head := by
      by_contra hx
      exact h1 (Ne.symm hx)
    exact ⟨rfl, rfl, Or.inr (Or.inr ⟨rfl, h6, hlp⟩)⟩
  · exact ⟨rfl, rfl, Or.inl (by simp [setConfl])⟩

/-- Proof device: the index belongs to an arc of the literal. -/
def Good (σ : St) (w : Lit × Nat) : Prop := ∃ e, σ.g.fwd[w.2]? = some e ∧ e.lit = w.1 ∧ e.tail ≠ e.head

/-- Proof device: the watches during `attach` if positions did not change. -/
structure WA (σ ρ : St) (i : Nat) : Prop where
  ok : ∀ w ∈ ρ.watch, (¬ Z ρ w.1 ∨ w.1 ∈ ρ.queue) → w.2 < i ∧ Good σ w
  nd : WatchNd ρ

theorem WA.step {σ ρ : St} {i : Nat} (h : WA σ ρ i) {a : Arc} (hi : σ.g.fwd[i]? = some a) :
    (attachArc ρ 0 i a).2 = 0 ∧ ((attachArc ρ 0 i a).1.confl ≠ none ∨ WA σ (attachArc ρ 0 i a).1 (i + 1)) := by
  by_cases hn : a.tail ≠ a.head ∧ isFree ρ a.lit = true
  · have e : attachArc ρ 0 i a = ({ ρ with watch := ρ.watch ++ [(a.lit, i)] }, 0) := by
      unfold attachArc
      rw [if_pos (Ne.symm hn.1), if_pos hn.2, if_pos (Or.inl rfl)]
    rw [e]
    refine ⟨rfl, Or.inr ⟨fun w hw hl => ?_, ?_⟩⟩
    · rcases List.mem_append.1 hw with hw | hw
      · obtain ⟨h1, h2⟩ := h.ok w hw hl
        exact ⟨Nat.lt_succ_of_lt h1, h2⟩
      · simp at hw; subst hw
        exact ⟨Nat.lt_succ_self _, a, hi, rfl, hn.1⟩
    · refine List.pairwise_append.2 ⟨h.nd, by simp, fun w hw x hx h1 _ => ?_⟩
      simp at hx; subst hx
      exact Nat.ne_of_lt (h.ok w hw (Or.inl h1)).1
  · obtain ⟨h1, h2, h3⟩ := attach_other 0 i hn
    refine ⟨h1, ?_⟩
    rcases h3 with h3 | ⟨h3, h4⟩ | ⟨h3, h4, _⟩
    · exact Or.inl h3
    · have hz : ∀ p, Z (attachArc ρ 0 i a).1 p ↔ Z ρ p := fun p => by simp only [Z, h3]
      refine Or.inr ⟨fun w hw hl => ?_, ?_⟩
      · rw [h2] at hw
        rw [hz, h4] at hl
        obtain ⟨h5, h6⟩ := h.ok w hw hl
        exact ⟨Nat.lt_succ_of_lt h5, h6⟩
      · unfold WatchNd
        simp only [h2, hz]
        exact h.nd
    · rw [h3]
      refine Or.inr ⟨fun w hw hl => ?_, h.nd.imp fun hab h5 h6 => hab (fun hz => h5 (Z_assign hz)) (fun hz => h6 (Z_assign hz))⟩
      have hl' : ¬ Z ρ w.1 ∨ w.1 ∈ ρ.queue := by
        rcases hl with hl | hl
        · exact Or.inl fun hz => hl (Z_assign hz)
        · rcases List.mem_append.1 hl with hl | hl
          · exact Or.inr hl
          · simp at hl
            rw [hl]
            exact Or.inl (isFree_notZ (by rw [neg_free]; exact h4))
      obtain ⟨h5, h6⟩ := h.ok w hw hl'
      exact ⟨Nat.lt_succ_of_lt h5, h6⟩

/-- Proof device: the watches during `attach` if positions changed and each literal belongs to one arc. -/
structure WC (σ ρ : St) (u i : Nat) : Prop where
  ok : ∀ w ∈ ρ.watch, (¬ Z ρ w.1 ∨ w.1 ∈ ρ.queue) → Good σ w ∨
    (w ∈ σ.watch ∧ w.1 ∉ ρ.queue ∧ ∃ j e, i ≤ j ∧ σ.g.fwd[j]? = some e ∧ e.lit = w.1 ∧ e.tail ≠ e.head)
  uq : (ρ.watch.map Prod.fst).Pairwise fun p q => ¬ Z ρ p → ¬ Z ρ q → p ≠ q
  cnt : (σ.g.fwd.drop i).countP (fun e => isFree ρ e.lit && (ρ.watch.map Prod.fst).contains e.lit) ≤ u

theorem nodup_lit {l : List Arc} (h : (l.map Arc.lit).Nodup) {i j : Nat} {a b : Arc} (hi : l[i]? = some a) (hj : l[j]? = some b) (hl : a.lit = b.lit) : i = j := by
  have hi' : i < (l.map Arc.lit).length := by simpa using (List.getElem?_eq_some_iff.1 hi).1
  refine (List.getElem?_inj hi' h).1 ?_
  rw [List.getElem?_map, List.getElem?_map, hi, hj]
  simp [hl]

theorem mem_set_cases {α : Type} {l : List α} {k : Nat} {x y : α} (h : y ∈ l.set k x) : y = x ∨ ∃ m, m ≠ k ∧ l[m]? = some y := by
  obtain ⟨m, hm⟩ := List.mem_iff_getElem?.1 h
  by_cases hmk : m = k
  · subst hmk
    rw [List.getElem?_set] at hm
    simp at hm
    exact Or.inl hm.2.symm
  · rw [List.getElem?_set_ne (Ne.symm hmk)] at hm
    exact Or.inr ⟨m, hmk, hm⟩

theorem pairwise_get {α : Type} {R : α → α → Prop} (hsym : ∀ a b, R a b → R b a) {l : List α} (h : l.Pairwise R) {i j : Nat} {a b : α} (hi : l[i]? = some a) (hj : l[j]? = some b) (hne : i ≠ j) :
    R a b := by
  obtain ⟨h1, h2⟩ := List.getElem?_eq_some_iff.1 hi
  obtain ⟨h3, h4⟩ := List.getElem?_eq_some_iff.1 hj
  rcases Nat.lt_or_gt_of_ne hne with h5 | h5
  · have := List.pairwise_iff_getElem.1 h i j h1 h3 h5
    rw [h2, h4] at this; exact this
  · have := List.pairwise_iff_getElem.1 h j i h3 h1 h5
    rw [h2, h4] at this; exact hsym _ _ this

theorem WC.step {σ ρ : St} {u i : Nat} (hL : LI σ ρ) (hnd : (σ.g.fwd.map Arc.lit).Nodup) (hlp : ∀ w ∈ σ.watch, ∀ a ∈ σ.g.fwd, a.tail = a.head → a.lit.neg ≠ w.1)
    (h : WC σ ρ u i) {a : Arc} (hi : σ.g.fwd[i]? = some a) :
    (attachArc ρ u i a).1.confl ≠ none ∨ WC σ (attachArc ρ u i a).1 (attachArc ρ u i a).2 (i + 1) := by
  have hdrop : σ.g.fwd.drop i = a :: σ.g.fwd.drop (i + 1) := by
    obtain ⟨h1, h2⟩ := List.getElem?_eq_some_iff.1 hi
    rw [List.drop_eq_getElem_cons h1, h2]
  have hlater : ∀ e ∈ σ.g.fwd.drop (i + 1), e.lit ≠ a.lit := by
    intro e he hl
    obtain ⟨k, hk⟩ := List.mem_iff_getElem?.1 he
    rw [List.getElem?_drop] at hk
    have := nodup_lit hnd hk hi hl
    omega
  by_cases hn : a.tail ≠ a.head ∧ isFree ρ a.lit = true
  · right
    have hzf := isFree_notZ hn.2
    by_cases hw : ∃ w ∈ ρ.watch, w.1 = a.lit
    · have hct : (ρ.watch.map Prod.fst).contains a.lit = true := by
        simp only [List.contains_iff_mem, List.mem_map]; exact hw
      have hcnt := h.cnt
      rw [hdrop, List.countP_cons_of_pos (by rw [hn.2, hct]; rfl)] at hcnt
      have hu : u ≠ 0 := by omega
      obtain ⟨k, hk⟩ : ∃ k, ρ.watch.findIdx (fun w => w.1 == a.lit) = k := ⟨_, rfl⟩
      have hex : ∃ w ∈ ρ.watch, (w.1 == a.lit) = true := by
        obtain ⟨w, h1, h2⟩ := hw; exact ⟨w, h1, by simp [h2]⟩
      have hklt : k < ρ.watch.length := by rw [← hk]; exact List.findIdx_lt_length_of_exists hex
      have hkl : ρ.watch[k].1 = a.lit := by
        have := List.findIdx_getElem (xs := ρ.watch) (p := fun w => w.1 == a.lit) (w := by rw [hk]; exact hklt)
        simp only [hk, beq_iff_eq] at this
        exact this
      have e : attachArc ρ u i a = ({ ρ with watch := ρ.watch.set k (a.lit, i) }, u - 1) := by
        unfold attachArc
        rw [if_pos (Ne.symm hn.1), if_pos hn.2, if_neg, hk]
        rw [not_or]
        refine ⟨hu, ?_⟩
        simp only [List.all_eq_true, bne_iff_ne, ne_eq, not_forall]
        obtain ⟨w, h1, h2⟩ := hw
        exact ⟨w, h1, fun hx => hx h2⟩
      rw [e]
      have hmap : (ρ.watch.set k (a.lit, i)).map Prod.fst = ρ.watch.map Prod.fst := by
        rw [List.map_set]
        apply List.ext_getElem?
        intro m
        by_cases hmk : m = k
        · subst hmk
          rw [List.getElem?_set]
          simp [hklt, hkl]
        · rw [List.getElem?_set_ne (Ne.symm hmk)]
      refine ⟨fun w hw' hl => ?_, by simp only [hmap]; exact h.uq, ?_⟩
      · rcases mem_set_cases hw' with rfl | ⟨m, hmk, hm⟩
        · exact Or.inl ⟨a, hi, rfl, hn.1⟩
        · have hwm : w ∈ ρ.watch := List.mem_of_getElem? hm
          rcases h.ok w hwm hl with h1 | ⟨h1, h2, j, e', h3, h4, h5, h6⟩
          · exact Or.inl h1
          · refine Or.inr ⟨h1, h2, j, e', ?_, h4, h5, h6⟩
            by_contra hj
            have hji : j = i := by omega
            subst hji
            rw [hi] at h4; cases h4
            have hlz : ¬ Z ρ w.1 := by rw [← h5]; exact hzf
            have := pairwise_get (R := fun p q => ¬ Z ρ p → ¬ Z ρ q → p ≠ q) (fun p q hpq h1 h2 => Ne.symm (hpq h2 h1)) h.uq (i := m) (j := k) (a := w.1) (b := a.lit) (by
              rw [List.getElem?_map, hm]; rfl) (by rw [List.getElem?_map, List.getElem?_eq_getElem hklt]; simp [hkl]) hmk hlz hzf
            exact this h5.symm
      · simp only [hmap]
        have e2 : (fun e : Arc => isFree { ρ with watch := ρ.watch.set k (a.lit, i) } e.lit && (ρ.watch.map Prod.fst).contains e.lit) =
            (fun e : Arc => isFree ρ e.lit && (ρ.watch.map Prod.fst).contains e.lit) := rfl
        rw [e2]
        omega
    · have hno : ∀ w ∈ ρ.watch, w.1 ≠ a.lit := fun w h1 h2 => hw ⟨w, h1, h2⟩
      have e : attachArc ρ u i a = ({ ρ with watch := ρ.watch ++ [(a.lit, i)] }, u) := by
        unfold attachArc
        rw [if_pos (Ne.symm hn.1), if_pos hn.2, if_pos]
        right
        simp only [List.all_eq_true, bne_iff_ne, ne_eq]
        exact hno
      rw [e]
      refine ⟨fun w hw' hl => ?_, ?_, ?_⟩
      · rcases List.mem_append.1 hw' with hwo | hw'
        · rcases h.ok w hwo hl with h1 | ⟨h1, h2, j, e', h3, h4, h5, h6⟩
          · exact Or.inl h1
          · refine Or.inr ⟨h1, h2, j, e', ?_, h4, h5, h6⟩
            by_contra hj
            have hji : j = i := by omega
            subst hji
            rw [hi] at h4; cases h4
            exact hno w hwo h5.symm
        · simp at hw'; subst hw'
          exact Or.inl ⟨a, hi, rfl, hn.1⟩
      · simp only [List.map_append, List.map_cons, List.map_nil]
        refine List.pairwise_append.2 ⟨h.uq, by simp, fun p hp q hq _ _ => ?_⟩
        simp at hq; subst hq
        obtain ⟨w, hw', rfl⟩ := List.mem_map.1 hp
        exact hno w hw'
      · have hcnt := h.cnt
        rw [hdrop] at hcnt
        refine Nat.le_trans (Nat.le_trans (List.countP_mono_left fun e he hp => ?_) (List.Sublist.countP_le (List.sublist_cons_self a _))) hcnt
        have hp' : isFree ρ e.lit = true ∧ (e.lit ∈ ρ.watch.map Prod.fst ∨ e.lit = a.lit) := by
          simp only [Bool.and_eq_true, List.map_append, List.map_cons, List.map_nil, List.contains_iff_mem, List.mem_append, List.mem_singleton] at hp
          exact hp
        simp only [Bool.and_eq_true, List.contains_iff_mem]
        exact ⟨hp'.1, hp'.2.resolve_right (hlater e he)⟩
  · obtain ⟨h1, h2, h3⟩ := attach_other u i hn
    rw [h1]
    have hcnt := h.cnt
    rw [hdrop] at hcnt
    rcases h3 with h3 | ⟨h3, h4⟩ | ⟨h3, h4, h5⟩
    · exact Or.inl h3
    · right
      have hz : ∀ p, Z (attachArc ρ u i a).1 p ↔ Z ρ p := fun p => by simp only [Z, h3]
      have hfr : ∀ p, isFree (attachArc ρ u i a).1 p = isFree ρ p := fun p => by simp only [isFree, h3]
      refine ⟨fun w hw hl => ?_, by simp only [h2, hz]; exact h.uq, ?_⟩
      · rw [h2] at hw
        rw [hz, h4] at hl
        rcases h.ok w hw hl with h5 | ⟨h5, h6, j, e', h7, h8, h9, h10⟩
        · exact Or.inl h5
        · refine Or.inr ⟨h5, by rw [h4]; exact h6, j, e', ?_, h8, h9, h10⟩
          by_contra hj
          have hji : j = i := by omega
          subst hji
          rw [hi] at h8; cases h8
          have hnf : ¬ isFree ρ a.lit = true := fun hf => hn ⟨h10, hf⟩
          have hza : Z ρ a.lit := by
            rcases cases3 ρ a.lit with h8 | h8 | h8
            · exact absurd h8 hnf
            · exact (hL.base.lev0 hL.dl h8).z
            · exact (hL.base.lev0 hL.dl h8).zneg
          rcases hl with hl | hl
          · rw [← h9] at hl; exact hl hza
          · exact h6 hl
      · simp only [h2, hfr]
        exact Nat.le_trans (List.Sublist.countP_le (List.sublist_cons_self a _)) hcnt
    · right
      rw [h3]
      have h4' : isFree ρ a.lit.neg = true := by rw [neg_free]; exact h4
      refine ⟨fun w hw hl => ?_, h.uq.imp fun hab h5 h6 => hab (fun hz => h5 (Z_assign hz)) (fun hz => h6 (Z_assign hz)), ?_⟩
      · have hl' : ¬ Z ρ w.1 ∨ w.1 ∈ ρ.queue := by
          rcases hl with hl | hl
          · exact Or.inl fun hz => hl (Z_assign hz)
          · rcases List.mem_append.1 hl with hl | hl
            · exact Or.inr hl
            · simp at hl
              rw [hl]
              exact Or.inl (isFree_notZ h4')
        rcases h.ok w hw hl' with h6 | ⟨h6, h7, j, e', h8, h9, h10, h11⟩
        · exact Or.inl h6
        · refine Or.inr ⟨h6, ?_, j, e', ?_, h9, h10, h11⟩
          · simp only [Acyc.assign, List.mem_append, List.mem_singleton, not_or]
            exact ⟨h7, fun hx => hlp w h6 a (List.mem_of_getElem? hi) h5 hx.symm⟩
          · by_contra hj
            have hji : j = i := by omega
            subst hji
            rw [hi] at h9; cases h9
            exact h11 h5
      · refine Nat.le_trans (Nat.le_trans (List.countP_mono_left fun e he hp => ?_) (List.Sublist.countP_le (List.sublist_cons_self a _))) hcnt
        simp only [Bool.and_eq_true] at hp ⊢
        refine ⟨?_, hp.2⟩
        rw [isFree_iff] at hp ⊢
        exact fun x hx => hp.1 x (by simp [Acyc.assign, hx])

/-- The state after `init`. -/
theorem AInv.initEnd {σ ρ : St} (h : AInv σ) (hfz : σ.g.frozen = true) (hc : σ.confl = none) (hp : σ.phase = none) (hL : LI (initSt σ) ρ) {s : Nat}
    (hold : ∀ e ∈ σ.g.fwd, (∃ j, s ≤ j ∧ σ.g.fwd[j]? = some e) ∨ e ∈ σ.att)
    (hsep : ∀ a ∈ σ.g.fwd, a ∉ σ.att → ∀ b ∈ σ.att, (¬ ∃ j, s ≤ j ∧ σ.g.fwd[j]? = some b) → a.head ≠ b.tail)
    (hfin : ρ.confl ≠ none ∨ ((∀ w ∈ ρ.watch, (¬ Z ρ w.1 ∨ w.1 ∈ ρ.queue) → Good σ w) ∧ WatchNd ρ ∧ ((initSt σ).lost = false → ∃ j, σ.g.fwd.length ≤ j ∧ LC (initSt σ) ρ s j))) :
    AInv { ρ with gid := (σ.g.gen, σ.g.com), ready := true, att := σ.g.fwd } := by
  obtain ⟨hist, hg⟩ := h.base.gr
  have hfull := hg.full hfz
  have hgg : ρ.g = σ.g := hL.g
  have hsub : ∀ a ∈ (initSt σ).g.fwd, a ∈ ρ.g.fwd := fun a ha => by rw [hL.g]; exact ha
  have hP : ∀ e : Arc, isTrue ρ e.lit = true → e ∈ ρ.todo ∨ e.lit ∈ ρ.queue → Pend { ρ with gid := (σ.g.gen, σ.g.com), ready := true, att := σ.g.fwd } e := by
    intro e ht he
    refine Pend.intro hL.stopq ?_ ?_
    · show Tr ρ e.lit ρ.dl
      rw [hL.dl]; exact hL.base.lev0 hL.dl ht
    · rcases he with he | he
      · exact Or.inr (Or.inl (by simp only [PendT, if_true]; exact he))
      · exact Or.inr (Or.inr (Or.inl he))
  refine ⟨?_, ?_, ?_, fun hlo => ?_⟩
  · refine { hL.base with
      nr := (fun hn => nomatch hn)
      rdy := fun _ => ⟨by rw [hgg], by rw [hgg]; exact hfz, ?_, ?_⟩
      gidA := hfull.1
      gid1 := by rw [hgg]; exact Nat.le_refl _
      same := fun _ => ⟨by rw [hgg]; exact List.prefix_refl _, by rw [hgg]; simp⟩
      attm := fun a ha => by rw [hgg]; exact ha
      attp := ⟨σ.g.fwd, List.Perm.refl _, by rw [hgg]⟩ }
    · rw [hgg]
      show ρ.tags.length = _
      rw [hL.tags]
      simp [initSt]
    · rw [hgg]
      show ρ.parent.length = _
      rw [hL.parent]
      simp [initSt]
      omega
  · refine ⟨fun _ x hx => ?_, ?_, fun c hc' => ?_, fun n hn => ?_, fun b hb => ?_⟩
    · obtain ⟨h1, h2, h3⟩ := hL.todo x hx
      refine ⟨hsub x h1, ?_, h3⟩
      show Tr ρ x.lit ρ.dl
      rw [hL.dl]; exact h2
    · rcases hfin with h1 | ⟨h1, h2, _⟩
      · exact Or.inl ⟨h1, hL.stopq, hL.dl⟩
      · refine Or.inr ⟨fun w hw hl => ?_, h2⟩
        refine h1 w hw ?_
        rcases hl with hl | hl
        · exact Or.inl hl
        · right
          rw [show ({ ρ with gid := (σ.g.gen, σ.g.com), ready := true, att := σ.g.fwd } : St).stopq = none from hL.stopq] at hl
          simpa using hl
    · rw [show ({ ρ with gid := (σ.g.gen, σ.g.com), ready := true, att := σ.g.fwd } : St).learnt = σ.learnt from hL.learnt] at hc'
      obtain ⟨p, r, h1, h2⟩ := h.snd.learnt c hc'
      exact ⟨p, r, h1, h2.mono hsub (fun q hq => hL.trm q 0 hq)⟩
    · have hn' : ρ.confl = some (.own n) := hn
      rcases hL.confl with h1 | h1 <;> rw [h1] at hn' <;> exact nomatch hn'
    · have hb' : ρ.phase = some b := hb
      rw [hL.phase] at hb'; exact nomatch hb'
  · exact { hL.own with }
  · have hlo' : (initSt σ).lost = false := by rw [← hL.lost]; exact hlo
    rcases hfin with h1 | ⟨_, _, h1⟩
    · exact Or.inl ⟨h1, hL.stopq, hL.dl⟩
    · right
      obtain ⟨j0, hj0, hC⟩ := h1 hlo'
      have hlo2 : σ.lost = false ∧ σ.todo = [] := by
        simp only [initSt, Bool.or_eq_false_iff] at hlo'
        refine ⟨hlo'.1, ?_⟩
        simpa using hlo'.2
      have hcm : Cmp σ := by
        rcases h.cmp hlo2.1 with h2 | h2
        · exact absurd hc h2.1
        · exact h2
      have htk : ∀ e ∈ σ.g.fwd, e ∈ (initSt σ).g.fwd.take j0 := fun e he => by
        show e ∈ σ.g.fwd.take j0
        rw [List.take_of_length_le hj0]; exact he
      have hnew : ∀ e : Arc, (∃ j, s ≤ j ∧ σ.g.fwd[j]? = some e) → isTrue ρ e.lit = true → Pend { ρ with gid := (σ.g.gen, σ.g.com), ready := true, att := σ.g.fwd } e := by
        rintro e ⟨j, h2, h3⟩ ht
        refine hP e ht (hC.todo j e h2 ?_ h3 ht)
        have := (List.getElem?_eq_some_iff.1 h3).1
        omega
      have hq : ∀ e : Arc, isTrue ρ e.lit = true → ¬ isTrue σ e.lit = true → Pend { ρ with gid := (σ.g.gen, σ.g.com), ready := true, att := σ.g.fwd } e := by
        intro e ht hn
        rcases hC.neu e.lit ht with h2 | h2
        · exact absurd h2 hn
        · exact hP e ht (Or.inr h2)
      have hPo : ∀ e : Arc, Pend σ e → Pend { ρ with gid := (σ.g.gen, σ.g.com), ready := true, att := σ.g.fwd } e := by
        intro e h2
        have h3 := h2.2
        rw [h.base.stopq hc] at h3
        have ht : isTrue ρ e.lit = true := (hL.trm _ _ h2.1).isTrue
        rcases h3 with h3 | h3 | h3 | ⟨b, h3, _⟩
        · exact absurd hc h3
        · simp only [PendT, hlo2.2] at h3
          simp at h3
        · exact hP e ht (Or.inr (hC.que _ h3))
        · rw [hp] at h3; exact nomatch h3
      refine ⟨fun a ha hl => hC.loop a (htk a ha) hl, fun e he hn => ?_, ?_, ?_, fun b hb => ?_⟩
      · rcases hC.watched e (htk e he) hn with h2 | ⟨h2, h3⟩
        · exact Or.inl h2
        · refine Or.inr ⟨h2, fun hx => by simp only [PendT, if_true]; exact h3 hx, fun hx => ?_⟩
          rw [show ({ ρ with gid := (σ.g.gen, σ.g.com), ready := true, att := σ.g.fwd } : St).stopq = none from hL.stopq] at hx
          simp at hx
      · intro L hLn u hu he
        by_cases h2 : ∃ e ∈ L, ∃ j, s ≤ j ∧ σ.g.fwd[j]? = some e
        · obtain ⟨e, h3, h4⟩ := h2
          exact ⟨e, h3, hnew e h4 (he e h3).2⟩
        · by_cases h3 : ∃ e ∈ L, ¬ isTrue σ e.lit = true
          · obtain ⟨e, h4, h5⟩ := h3
            exact ⟨e, h4, hq e (he e h4).2 h5⟩
          · obtain ⟨e, h4, h5⟩ := hcm.inv1 L hLn u hu (fun e h4 => ⟨(hold e (he e h4).1).resolve_left (fun h5 => h2 ⟨e, h4, h5⟩), by
              by_contra h5; exact h3 ⟨e, h4, h5⟩⟩)
            exact ⟨e, h4, hPo e h5⟩
      · intro hm a ha L hLn hu k he
        have hm' : σ.mode ≠ .fwd := by rw [← show ρ.mode = σ.mode from hL.mode]; exact hm
        have htr : ∀ e ∈ L, isTrue ρ e.lit = true := fun e h4 => by
          obtain ⟨_, j, _, h5⟩ := he e h4
          exact h5.isTrue
        by_cases h2 : ∃ e ∈ L, ∃ j, s ≤ j ∧ σ.g.fwd[j]? = some e
        · obtain ⟨e, h3, h4⟩ := h2
          exact Or.inl ⟨e, h3, hnew e h4 (htr e h3)⟩
        · by_cases h3 : ∃ e ∈ L, ¬ isTrue σ e.lit = true
          · obtain ⟨e, h4, h5⟩ := h3
            exact Or.inl ⟨e, h4, hq e (htr e h4) h5⟩
          · have hatt : ∀ e ∈ L, e ∈ σ.att := fun e h4 => (hold e (he e h4).1).resolve_left (fun h5 => h2 ⟨e, h4, h5⟩)
            by_cases haa : a ∈ σ.att
            · rcases hcm.inv2 hm' a haa L hLn hu k (fun e h4 => ⟨hatt e h4, by
                obtain ⟨_, j, h5, h6⟩ := he e h4
                have h7 : isTrue σ e.lit = true := by
                  by_contra h7; exact h3 ⟨e, h4, h7⟩
                obtain ⟨j', h8⟩ := isTrue_iff.1 h7
                have := hL.base.uniq h6 (hL.trm _ _ h8)
                exact ⟨j', by omega, h8⟩⟩) with ⟨e, h4, h5⟩ | ⟨j, h4, h5⟩
              · exact Or.inl ⟨e, h4, hPo e h5⟩
              · exact Or.inr ⟨j, h4, hL.trm _ _ h5⟩
            · exfalso
              cases L with
              | nil => exact hLn rfl
              | cons e L => exact hsep a ha haa e (hatt e (by simp)) (fun h5 => h2 ⟨e, by simp, h5⟩) hu.1.symm
      · have hb' : ρ.phase = some b := hb
        rw [hL.phase] at hb'; exact nomatch hb'

theorem LI.start {σ : St} (h : AInv σ) (hd : σ.dl = 0) (hc : σ.confl = none) (hp : σ.phase = none) : LI (initSt σ) (initSt σ) where
  g := rfl
  dl := hd
  att := rfl
  learnt := rfl
  tags := rfl
  parent := rfl
  lost := rfl
  mode := rfl
  stopq := h.base.stopq hc
  phase := hp
  confl := Or.inl hc
  base := { h.base with
    clr := fun hn => absurd hc hn
    nr := fun _ => ⟨hd, hp⟩
    rdy := (fun hn => nomatch hn)
    tagle := fun t ht => by
      simp only [initSt, List.mem_replicate] at ht
      exact Nat.le_of_eq ht.2
    taglt := by simp [initSt] }
  own := { h.own with }
  trm := fun _ _ hq => hq
  todo := fun x hx => by simp [initSt] at hx

theorem AInv.init {σ : St} (h : AInv σ) (hd : σ.dl = 0) (hc : σ.confl = none) (hp : σ.phase = none) (hfz : σ.g.frozen = true) (hst : (Acyc.init σ).stale = false → (initSt σ).stale = false)
    (hns : (Acyc.init σ).stale = false) : AInv (Acyc.init σ) := by
  obtain ⟨hist, hg⟩ := h.base.gr
  have hfull := (hg.full hfz).1
  have hL := LI.start h hd hc hp
  have hs := h.base.stopq hc
  have hnr : risky σ = false := by
    have := hst hns
    simp only [initSt, Bool.or_eq_false_iff] at this
    exact this.2
  obtain ⟨hW, hN⟩ : WatchOk σ ∧ WatchNd σ := by
    rcases h.snd.val with h1 | h1
    · exact absurd hc h1.1
    · exact h1
  have hW' : ∀ w ∈ σ.watch, (¬ Z σ w.1 ∨ w.1 ∈ σ.queue) → ∃ e, σ.att[w.2]? = some e ∧ e.lit = w.1 ∧ e.tail ≠ e.head := fun w hw hl => hW w hw (hl.imp id fun hx => by simp [hx])
  unfold Acyc.init
  rw [show σ.g.fwd.take σ.g.com = σ.g.fwd from by rw [hfull, List.take_length]]
  by_cases hcase : σ.gid.1 ≠ σ.g.gen ∧ σ.gid.2 ≠ 0
  · -- positions changed
    have hfa : firstArc σ = 0 := by simp [firstArc, hcase.1]
    have how : oldWatches σ = σ.att.length := by simp [oldWatches, hcase.1, h.base.gidA]
    rw [hfa, how]
    simp only [risky, Bool.and_eq_false_iff, bne_eq_false_iff_eq, hcase.1, hcase.2, false_or, Bool.not_eq_false', Bool.and_eq_true, decide_eq_true_eq] at hnr
    obtain ⟨⟨hnd, hnq⟩, hlp⟩ := hnr
    have hnq' : ∀ w ∈ σ.watch, w.1 ∉ σ.queue := fun w hw => by
      have := List.all_eq_true.1 hnq w hw
      simpa using this
    have hlp' : ∀ w ∈ (initSt σ).watch, ∀ a ∈ (initSt σ).g.fwd, a.tail = a.head → a.lit.neg ≠ w.1 := fun w hw a ha hl => by
      have := List.all_eq_true.1 (List.all_eq_true.1 hlp w hw) a ha
      simpa [hl] using this
    have hattnd : (σ.att.map Arc.lit).Nodup := by
      obtain ⟨l, h1, h2⟩ := h.base.attp
      exact (h1.map Arc.lit).nodup_iff.1 (hnd.sublist (h2.map Arc.lit))
    have hwc : WC (initSt σ) (initSt σ) σ.att.length 0 := by
      refine ⟨fun w hw hl => ?_, ?_, ?_⟩
      · obtain ⟨e, h1, h2, h3⟩ := hW' w hw hl
        obtain ⟨j, hj⟩ := List.mem_iff_getElem?.1 (h.base.attm e (List.mem_of_getElem? h1))
        exact Or.inr ⟨hw, hnq' w hw, j, e, Nat.zero_le _, hj, h2, h3⟩
      · refine List.pairwise_map.2 (List.Pairwise.imp_of_mem (fun {a b} ha hb hab h1 h2 heq => ?_) hN)
        obtain ⟨e, h3, h4, _⟩ := hW' a ha (Or.inl h1)
        obtain ⟨e', h5, h6, _⟩ := hW' b hb (Or.inl h2)
        exact hab h1 h2 (nodup_lit hattnd h3 h5 (by rw [h4, h6, heq]))
      · rw [List.countP_eq_length_filter]
        refine (List.subperm_of_subset ?_ ?_).length_le
        · exact (List.Pairwise.of_map Arc.lit (fun a b hab heq => hab (by rw [heq])) hnd).sublist (List.filter_sublist.trans (List.drop_sublist _ _))
        · intro e he
          simp only [List.mem_filter, List.drop_zero, Bool.and_eq_true, List.contains_iff_mem, List.mem_map] at he
          obtain ⟨he1, he2, w, hw, hwe⟩ := he
          obtain ⟨e', h1, h2, _⟩ := hW' w hw (Or.inl (by rw [hwe]; exact isFree_notZ he2))
          obtain ⟨i, hi⟩ := List.mem_iff_getElem?.1 he1
          obtain ⟨j, hj⟩ := List.mem_iff_getElem?.1 (h.base.attm e' (List.mem_of_getElem? h1))
          have hij := nodup_lit hnd (i := i) (j := j) hi hj (by rw [h2, hwe])
          subst hij
          have hi' : σ.g.fwd[i]? = some e := hi
          rw [hi'] at hj; cases hj
          exact List.mem_of_getElem? h1
    obtain ⟨hL', hfin⟩ := attachLoop_ind (σ := initSt σ) (fun ρ u i => WC (initSt σ) ρ u i ∧ LC (initSt σ) ρ 0 i) (by
        intro ρ u i a hi hcr hLr ⟨h1, h2⟩
        rcases WC.step hLr hnd hlp' h1 hi with h3 | h3
        · exact Or.inl h3
        · by_cases hn : a.tail ≠ a.head ∧ isFree ρ a.lit = true
          · right
            refine ⟨h3, ?_⟩
            have hne : ∀ e ∈ (initSt σ).g.fwd.take i, e.lit ≠ a.lit := by
              intro e he hl
              obtain ⟨k, hk⟩ := List.mem_iff_getElem?.1 he
              rw [List.getElem?_take] at hk
              split_ifs at hk with hki
              have := nodup_lit hnd hk hi hl
              omega
            unfold attachArc
            rw [if_pos (Ne.symm hn.1), if_pos hn.2]
            split_ifs with h4
            · exact h2.watch hi hn.1 hn.2 (by simp) (fun e _ j h5 _ => by simp [h5])
            · have hex : ∃ w ∈ ρ.watch, (w.1 == a.lit) = true := by
                rw [not_or] at h4
                have := h4.2
                simp only [List.all_eq_true, bne_iff_ne, ne_eq, not_forall] at this
                obtain ⟨w, hw, h6⟩ := this
                exact ⟨w, hw, by simpa using h6⟩
              have hklt := List.findIdx_lt_length_of_exists hex
              refine h2.watch hi hn.1 hn.2 (List.mem_iff_getElem?.2 ⟨_, List.getElem?_set_self hklt⟩) (fun e he j h5 _ => ?_)
              obtain ⟨m, hm⟩ := List.mem_iff_getElem?.1 h5
              refine List.mem_iff_getElem?.2 ⟨m, ?_⟩
              rw [List.getElem?_set_ne]
              · exact hm
              · intro hmk
                rw [← hmk] at hm
                have := List.findIdx_getElem (xs := ρ.watch) (p := fun w => w.1 == a.lit) (w := hklt)
                rw [(List.getElem?_eq_some_iff.1 hm).2] at this
                simp only [beq_iff_eq] at this
                exact hne e he this
          · rcases LC.other hLr h2 hcr hi u hn with h4 | h4
            · exact Or.inl h4
            · exact Or.inr ⟨h3, h4⟩) (σ.g.fwd.drop 0) (initSt σ) σ.att.length 0 rfl hL (Or.inr ⟨hwc, ⟨by simp, by simp, fun p hp => Or.inl hp, fun p hp => hp, fun j e _ hj => by omega⟩⟩)
    refine h.initEnd hfz hc hp hL' (s := 0) (fun e he => ?_) (fun a ha hna b hb hnb => ?_) ?_
    · obtain ⟨j, hj⟩ := List.mem_iff_getElem?.1 he
      exact Or.inl ⟨j, Nat.zero_le _, hj⟩
    · obtain ⟨j, hj⟩ := List.mem_iff_getElem?.1 (h.base.attm b hb)
      exact absurd ⟨j, Nat.zero_le _, hj⟩ hnb
    · rcases hfin with h1 | ⟨u', j, hj, h1, h2⟩
      · exact Or.inl h1
      · have hgood : ∀ w ∈ (attachLoop (initSt σ) σ.att.length 0 (σ.g.fwd.drop 0)).watch, (¬ Z (attachLoop (initSt σ) σ.att.length 0 (σ.g.fwd.drop 0)) w.1 ∨
            w.1 ∈ (attachLoop (initSt σ) σ.att.length 0 (σ.g.fwd.drop 0)).queue) → Good σ w := by
          intro w hw hl
          rcases h1.ok w hw hl with h3 | ⟨_, _, j', e, h3, h4, _⟩
          · exact h3
          · have := (List.getElem?_eq_some_iff.1 h4).1
            have hj' : (initSt σ).g.fwd.length ≤ j := hj
            omega
        refine Or.inr ⟨hgood, ?_, fun _ => ⟨j, hj, h2⟩⟩
        refine List.Pairwise.imp_of_mem (fun {a b} ha hb hab h3 h4 heq => ?_) (List.pairwise_map.1 h1.uq)
        obtain ⟨e, h5, h6, _⟩ := hgood a ha (Or.inl h3)
        obtain ⟨e', h7, h8, _⟩ := hgood b hb (Or.inl h4)
        rw [heq, h7] at h5; cases h5
        exact hab h3 h4 (by rw [← h6, ← h8])
  · -- positions kept
    have hpre : σ.att <+: σ.g.fwd ∧ (∀ a ∈ σ.g.fwd.drop σ.att.length, ∀ b ∈ σ.att, a.head ≠ b.tail) ∧ firstArc σ = σ.att.length ∧ oldWatches σ = 0 := by
      by_cases hgen : σ.gid.1 = σ.g.gen
      · obtain ⟨h1, h2⟩ := h.base.same hgen
        exact ⟨h1, h2, by simp [firstArc, hgen, h.base.gidA], by simp [oldWatches, hgen]⟩
      · have h0 : σ.gid.2 = 0 := by
          by_contra h0; exact hcase ⟨hgen, h0⟩
        have ha : σ.att = [] := List.length_eq_zero_iff.1 (by rw [← h.base.gidA, h0])
        rw [ha]
        exact ⟨List.nil_prefix, by simp, by simp [firstArc, hgen], by simp [oldWatches, hgen, h0]⟩
    obtain ⟨hpf, hsep, hfa, how⟩ := hpre
    rw [hfa, how]
    have htake : σ.g.fwd.take σ.att.length = σ.att := (List.prefix_iff_eq_take.1 hpf).symm
    have hget : ∀ {j : Nat} {e : Arc}, σ.att[j]? = some e → σ.g.fwd[j]? = some e := by
      intro j e hj
      obtain ⟨t, ht⟩ := hpf
      rw [← ht, List.getElem?_append_left (List.getElem?_eq_some_iff.1 hj).1]
      exact hj
    have hwa : WA (initSt σ) (initSt σ) σ.att.length := by
      refine ⟨fun w hw hl => ?_, hN⟩
      obtain ⟨e, h1, h2, h3⟩ := hW' w hw hl
      exact ⟨(List.getElem?_eq_some_iff.1 h1).1, e, hget h1, h2, h3⟩
    have hlc : (initSt σ).lost = false → LC (initSt σ) (initSt σ) σ.att.length σ.att.length := by
      intro hlo
      have hlo2 : σ.lost = false ∧ σ.todo = [] := by
        simp only [initSt, Bool.or_eq_false_iff] at hlo
        refine ⟨hlo.1, ?_⟩
        simpa using hlo.2
      have hcm : Cmp σ := by
        rcases h.cmp hlo2.1 with h2 | h2
        · exact absurd hc h2.1
        · exact h2
      refine ⟨fun a ha hl => ?_, fun e he hn => ?_, fun p hp => Or.inl hp, fun p hp => hp, fun j e h1 h2 => by omega⟩
      · have ha' : a ∈ σ.att := by rw [← htake]; exact ha
        exact hcm.loop a ha' hl
      · have he' : e ∈ σ.att := by rw [← htake]; exact he
        rcases hcm.watched e he' hn with ⟨i, h1, h2⟩ | ⟨h1, h2, _⟩
        · exact Or.inl ⟨i, h1, hget h2⟩
        · refine Or.inr ⟨h1, fun hx => ?_⟩
          have := h2 hx
          simp only [PendT, hlo2.2] at this
          simp at this
    obtain ⟨hL', hfin⟩ := attachLoop_ind (σ := initSt σ) (fun ρ u i => u = 0 ∧ WA (initSt σ) ρ i ∧ ((initSt σ).lost = false → LC (initSt σ) ρ σ.att.length i)) (by
        rintro ρ u i a hi hcr hLr ⟨rfl, h1, h2⟩
        obtain ⟨h3, h4⟩ := h1.step hi
        rw [h3]
        rcases h4 with h4 | h4
        · exact Or.inl h4
        · by_cases hcf : (attachArc ρ 0 i a).1.confl = none
          · refine Or.inr ⟨rfl, h4, fun hlo => ?_⟩
            by_cases hn : a.tail ≠ a.head ∧ isFree ρ a.lit = true
            · unfold attachArc
              rw [if_pos (Ne.symm hn.1), if_pos hn.2, if_pos (Or.inl rfl)]
              exact (h2 hlo).watch hi hn.1 hn.2 (by simp) (fun e _ j h5 _ => by simp [h5])
            · rcases LC.other hLr (h2 hlo) hcr hi 0 hn with h5 | h5
              · exact absurd hcf h5
              · exact h5
          · exact Or.inl hcf) (σ.g.fwd.drop σ.att.length) (initSt σ) 0 σ.att.length rfl hL (Or.inr ⟨rfl, hwa, hlc⟩)
    refine h.initEnd hfz hc hp hL' (s := σ.att.length) (fun e he => ?_) (fun a ha hna b hb _ => ?_) ?_
    · obtain ⟨j, hj⟩ := List.mem_iff_getElem?.1 he
      by_cases hja : σ.att.length ≤ j
      · exact Or.inl ⟨j, hja, hj⟩
      · right
        rw [← htake]
        refine List.mem_iff_getElem?.2 ⟨j, ?_⟩
        rw [List.getElem?_take, if_pos (by omega)]
        exact hj
    · refine hsep a ?_ b hb
      have ha' : a ∈ σ.g.fwd.take σ.att.length ++ σ.g.fwd.drop σ.att.length := by rw [List.take_append_drop]; exact ha
      rcases List.mem_append.1 ha' with h1 | h1
      · rw [htake] at h1; exact absurd h1 hna
      · exact h1
    · rcases hfin with h1 | ⟨u', j, hj, _, h2, h3⟩
      · exact Or.inl h1
      · exact Or.inr ⟨fun w hw hl => (h2.ok w hw hl).2, h2.nd, fun hlo => ⟨j, hj, h3 hlo⟩⟩

/-- `attach` does not change the ghost state. -/
theorem attachArc_stale (ρ : St) (u i : Nat) (a : Arc) : (attachArc ρ u i a).1.stale = ρ.stale := by
  unfold attachArc
  split_ifs <;> rfl

theorem attachLoop_stale : ∀ (rem : List Arc) (ρ : St) (u i : Nat), (attachLoop ρ u i rem).stale = ρ.stale
  | [], _, _, _ => rfl
  | a :: as, ρ, u, i => by
    unfold attachLoop
    split_ifs
    · rfl
    · rw [attachLoop_stale as, attachArc_stale]

theorem init_stale (σ : St) : (Acyc.init σ).stale = (initSt σ).stale := attachLoop_stale _ _ _ _

end Clasp.Acyc
