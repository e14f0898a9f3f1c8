/- Forward subsumption of a resolvent keeps the invariants and the models. No code is modelled here. -/
import Verif.Sat.EliteSub
import Mathlib.Data.List.Perm.Subperm
namespace Clasp.Elite
open Clasp.Core Function

/-- Proof device: the state with another watch list for `v`. -/
def WV (s : St) (v : Nat) (xs : List Nat) : St := { s with wat := update s.wat v xs }

theorem WV_self (s : St) (v : Nat) : WV s v (s.wat v) = s := by simp [WV]

/-- Proof device: the literals of `cl` that are still marked. -/
def rem (mk : Marks) (cl : Cl) : Cl := cl.filter (marked mk)

theorem mem_rem {mk : Marks} {cl : Cl} {l : Lit} : l ∈ rem mk cl ↔ l ∈ cl ∧ mk l.var = some l.sign := by
  simp [rem, marked]

/-- Proof device: what forward subsumption with `cl` changes. -/
structure Mv (O : Asg → Prop) (cl : Cl) (s s' : St) : Prop where
  occ : s'.occ = s.occ
  elim : s'.elim = s.elim
  elimd : s'.elimd = s.elimd
  trail : s'.trail = s.trail
  facts : s'.facts = s.facts
  cls : ∀ id, (s.cls id = none ∧ s'.cls id = none) ∨ ∃ c c', s.cls id = some c ∧ s'.cls id = some c' ∧ c'.Perm c
  mrk : ∀ v sg, s'.mark v = some sg → s.mark v = some sg
  str : ∀ M, Sem O s M → M.satC (rem s.mark cl) → M.satC (rem s'.mark cl)

theorem satC_perm {M : Asg} {c c' : Cl} (h : c'.Perm c) : M.satC c' ↔ M.satC c := by
  simp only [Asg.satC, h.mem_iff]

theorem Mv.sem {O cl s s'} (h : Mv O cl s s') (M : Asg) : Sem O s M ↔ Sem O s' M := by
  unfold Sem
  rw [h.trail]
  refine and_congr_right fun _ => and_congr_left fun _ => ⟨fun h1 id c' hc' => ?_, fun h1 id c hc => ?_⟩
  · rcases h.cls id with ⟨_, h3⟩ | ⟨c, c'', h2, h3, hp⟩
    · rw [h3] at hc'; cases hc'
    · rw [h3] at hc'; cases hc'; exact (satC_perm hp).mpr (h1 id c h2)
  · rcases h.cls id with ⟨h3, _⟩ | ⟨c0, c'', h2, h3, hp⟩
    · rw [h3] at hc; cases hc
    · rw [h2] at hc; cases hc; exact (satC_perm hp).mp (h1 id c'' h3)

theorem Mv.refl {O cl} (s : St) : Mv O cl s s :=
  ⟨rfl, rfl, rfl, rfl, rfl, fun id => by
    cases h : s.cls id with
    | none => exact Or.inl ⟨rfl, rfl⟩
    | some c => exact Or.inr ⟨c, c, rfl, rfl, .refl c⟩, fun _ _ h => h, fun _ _ h => h⟩

theorem Mv.trans {O cl a b c} (h : Mv O cl a b) (h' : Mv O cl b c) : Mv O cl a c := by
  refine ⟨h'.occ.trans h.occ, h'.elim.trans h.elim, h'.elimd.trans h.elimd, h'.trail.trans h.trail, h'.facts.trans h.facts,
    fun id => ?_, fun v sg hv => h.mrk v sg (h'.mrk v sg hv), fun M hM h1 => h'.str M ((h.sem M).mp hM) (h.str M hM h1)⟩
  rcases h.cls id with ⟨h1, h2⟩ | ⟨d, d', h1, h2, hp⟩
  · rcases h'.cls id with ⟨_, h4⟩ | ⟨e, e', h3, h4, hq⟩
    · exact Or.inl ⟨h1, h4⟩
    · rw [h2] at h3; cases h3
  · rcases h'.cls id with ⟨h3, h4⟩ | ⟨e, e', h3, h4, hq⟩
    · rw [h2] at h3; cases h3
    · rw [h2] at h3; cases h3; exact Or.inr ⟨d, e', h1, h4, hq.trans hp⟩

theorem Mv.dead {O cl s s'} (h : Mv O cl s s') {id} (hd : s.cls id = none) : s'.cls id = none := by
  rcases h.cls id with ⟨_, h2⟩ | ⟨_, _, h1, _⟩
  · exact h2
  · rw [hd] at h1; cases h1

theorem Mv.fr {O cl s s'} (h : Mv O cl s s') : Fr s s' :=
  ⟨fun he => by rw [h.occ] at he; exact he, h.dead, h.elim, h.elimd, by rw [h.trail]; exact List.prefix_rfl⟩

theorem Mv.two {O cl s s'} (h : Mv O cl s s') (h2 : Two s) : Two s' := fun id c' hc' => by
  rcases h.cls id with ⟨_, h3⟩ | ⟨c, c'', h4, h3, hp⟩
  · rw [h3] at hc'; cases hc'
  · rw [h3] at hc'; cases hc'; rw [hp.length_eq]; exact h2 id c h4

theorem Mv.mkOk {O cl R s s'} (h : Mv O cl s s') (hm : MkOk R s) : MkOk R s' := fun v sg hv => by
  rw [h.trail, h.facts]; exact hm v sg (h.mrk v sg hv)

theorem Mv.wat {O cl s s'} (h : Mv O cl s s') (w w' : Nat → List Nat) : Mv O cl { s with wat := w } { s' with wat := w' } :=
  ⟨h.occ, h.elim, h.elimd, h.trail, h.facts, h.cls, h.mrk, h.str⟩

/-! ### `swap0`, `findUnmarked` -/

theorem swap0_perm : ∀ (c : Cl) (x : Nat), (swap0 c x).Perm c
  | [], _ => by simp [swap0]
  | a :: t, 0 => by simp [swap0]
  | a :: t, x + 1 => by
    show (match t.drop x with | [] => a :: t | b :: post => b :: (t.take x ++ a :: post)).Perm (a :: t)
    split
    · exact .refl _
    · next b post h =>
      have ht : t = t.take x ++ b :: post := by rw [← h, List.take_append_drop]
      conv_rhs => rw [ht]
      have h1 : (b :: (t.take x ++ a :: post)).Perm (b :: a :: (t.take x ++ post)) := .cons b List.perm_middle
      have h2 : (a :: (t.take x ++ b :: post)).Perm (a :: b :: (t.take x ++ post)) := .cons a List.perm_middle
      exact h1.trans ((List.Perm.swap a b _).trans h2.symm)

theorem takeWhile_len {p : Lit → Bool} : ∀ (c : Cl), (c.takeWhile p).length = c.length ↔ ∀ y ∈ c, p y = true
  | [] => by simp
  | a :: t => by
    cases hp : p a
    · simp [hp]
    · simp [hp, takeWhile_len t]

theorem findUnmarked_eq {mk : Marks} {a : Lit} {t : Cl} : findUnmarked mk (a :: t) 1 = (a :: t).length ↔ ∀ y ∈ t, marked mk y = true := by
  unfold findUnmarked
  rw [← takeWhile_len]
  simp only [List.drop_succ_cons, List.drop_zero, List.length_cons]
  omega

/-- the first unmarked literal -/
theorem findUnmarked_split {mk : Marks} {a : Lit} : ∀ {t : Cl}, ¬ (∀ y ∈ t, marked mk y = true) →
    ∃ pre b post, t = pre ++ b :: post ∧ findUnmarked mk (a :: t) 1 = pre.length + 1 ∧ (∀ y ∈ pre, marked mk y = true) ∧
      marked mk b = false
  | [], h => absurd (by simp) h
  | c :: t, h => by
    cases hc : marked mk c
    · exact ⟨[], c, t, rfl, by simp [findUnmarked, hc], by simp, hc⟩
    · obtain ⟨pre, b, post, h1, h2, h3, h4⟩ := findUnmarked_split (a := a) (t := t) (fun h' => h (by simpa [hc] using h'))
      refine ⟨c :: pre, b, post, by rw [h1]; rfl, ?_, by simpa [hc] using h3, h4⟩
      simp only [findUnmarked, List.drop_succ_cons, List.drop_zero, List.takeWhile_cons, hc, List.length_cons] at h2 ⊢
      simp only [if_true, List.length_cons]; omega

/-! ### one literal -/

/-- a marked literal of a clause is one of `cl` -/
theorem marked_mem {cx cl s id c} (h : Wf cx s) (hm : MkOk cl s) (hc : s.cls id = some c) {y : Lit} (hy : y ∈ c) {sg}
    (hk : s.mark y.var = some sg) : (⟨y.var, sg⟩ : Lit) ∈ rem s.mark cl := by
  rw [mem_rem]
  refine ⟨?_, hk⟩
  rcases hm _ _ hk with h1 | h1
  · exact absurd rfl (h.proc h1 hc y hy)
  · exact h1

/-- removing the mark of a literal whose complement is in a clause with all other literals marked -/
theorem unmark_str {O cl s id c} {l : Lit} (hnd : (cl.map Lit.var).Nodup) (hc : s.cls id = some c)
    (hr : ∀ y ∈ c, y ≠ l.neg → y ∈ rem s.mark cl ∧ y.var ≠ l.var) (hl : l ∈ cl) (M : Asg) (hM : Sem O s M) (h : M.satC (rem s.mark cl)) :
    M.satC (rem (update s.mark l.var none) cl) := by
  have key : ∀ y ∈ rem s.mark cl, y.var ≠ l.var → y ∈ rem (update s.mark l.var none) cl := fun y hy hv => by
    rw [mem_rem] at hy ⊢; rw [update_of_ne hv]; exact hy
  obtain ⟨y, hy, hs⟩ := h
  by_cases hv : y.var = l.var
  · have : y = l := lit_eq_of_var hnd (mem_rem.mp hy).1 hl hv
    subst this
    obtain ⟨z, hz, hzs⟩ := hM.2.1 id c hc
    have hzn : z ≠ y.neg := fun e => by subst e; exact (Asg.sat_neg _ _).mp hzs hs
    exact ⟨z, key z (hr z hz hzn).1 (hr z hz hzn).2, hzs⟩
  · exact ⟨y, key y hy hv, hs⟩

theorem update_none_mk {mk : Marks} {w : Nat} : ∀ v sg, update mk w none v = some sg → mk v = some sg := by
  intro v sg h
  by_cases hv : v = w
  · subst hv; simp at h
  · rw [update_of_ne hv] at h; exact h

theorem moveWatch_ok {cx O cl} {l : Lit} (hnd : (cl.map Lit.var).Nodup) {w : Nat} {t : Cl} {acc ws : List Nat} {s : St} {str : Nat}
    (h : Wf cx (WV s l.var (acc ++ w :: ws))) (hm : MkOk cl s) (hml : s.mark l.var = some l.sign) (hlc : l ∈ cl)
    (hc : s.cls w = some (l :: t)) (hx : ¬ ∀ y ∈ t, marked s.mark y = true) :
    let r := moveWatch w (l :: t) (findUnmarked s.mark (l :: t) 1) s str
    Wf cx (WV r.1 l.var (acc ++ ws)) ∧ Mv O cl s r.1 ∧ r.1.mark l.var = some l.sign := by
  obtain ⟨pre, b, post, ht, hf, hpre, hb⟩ := findUnmarked_split (a := l) hx
  subst ht
  have hsw : swap0 (l :: (pre ++ b :: post)) (pre.length + 1) = b :: (pre ++ l :: post) := by
    simp [swap0]
  have hndc := h.nd (id := w) hc
  have hperm : (b :: (pre ++ l :: post)).Perm (l :: (pre ++ b :: post)) := by rw [← hsw]; exact swap0_perm _ _
  have hbl : b.var ≠ l.var := by
    simp only [List.map_cons, List.map_append, List.nodup_cons, List.mem_append, List.mem_cons, not_or] at hndc
    exact fun e => hndc.1.2.1 e.symm
  have hwN := h.watN l.var
  simp only [WV, update_self] at hwN
  have hrep := h.replace (id := w) (x := l) (t := pre ++ b :: post) (x' := b) (t' := pre ++ l :: post) hc
    (update (update s.wat b.var (s.wat b.var ++ [w])) l.var (acc ++ ws)) s.occ
    ((hperm.map Lit.var).nodup_iff.mpr hndc) (fun y hy => hperm.mem_iff.mp hy)
    (fun y hy => h.occC (id := w) hc (hperm.mem_iff.mp hy)) (fun v sg hv => hperm.mem_iff.mpr (h.occS hv hc))
    (fun _ _ _ _ => Iff.rfl) h.occN (Or.inr ⟨hbl, by
      simp only [WV, update_self]
      have : w ∉ acc := fun hw => by
        rw [List.nodup_append] at hwN; exact hwN.2.2 w hw w (by simp) rfl
      rw [List.erase_append_right _ this]; simp, by
      simp only [WV, update_of_ne hbl, update_self], fun v h1 h2 => by
      simp only [WV, update_of_ne h1, update_of_ne h2]⟩)
  have hcls : ∀ id, (s.cls id = none ∧ update s.cls w (some (b :: (pre ++ l :: post))) id = none) ∨
      ∃ c c', s.cls id = some c ∧ update s.cls w (some (b :: (pre ++ l :: post))) id = some c' ∧ c'.Perm c := by
    intro id
    by_cases hid : id = w
    · subst hid; exact Or.inr ⟨_, _, hc, by simp, hperm⟩
    · rw [update_of_ne hid]
      cases hs : s.cls id with
      | none => exact Or.inl ⟨rfl, rfl⟩
      | some c => exact Or.inr ⟨c, c, rfl, rfl, .refl c⟩
  have hmv : Mv O cl s { s with cls := update s.cls w (some (b :: (pre ++ l :: post))), wat := update s.wat b.var (s.wat b.var ++ [w]) } :=
    ⟨rfl, rfl, rfl, rfl, rfl, hcls, fun _ _ h => h, fun _ _ h => h⟩
  intro r
  have hr : r = moveWatch w (l :: (pre ++ b :: post)) (findUnmarked s.mark (l :: (pre ++ b :: post)) 1) s str := rfl
  clear_value r
  rw [hf] at hr
  unfold moveWatch at hr
  rw [hsw] at hr
  simp only [] at hr
  split at hr
  · next hcond =>
    subst hr
    obtain ⟨hk, hfe⟩ := hcond
    have hpost : ∀ y ∈ post, marked s.mark y = true := by
      have : (findUnmarked s.mark (b :: (pre ++ l :: post)) (pre.length + 1 + 1)) = pre.length + 1 + 1 + (post.takeWhile (marked s.mark)).length := by
        simp [findUnmarked]
      rw [this] at hfe
      rw [← takeWhile_len]
      simp only [List.length_cons, List.length_append] at hfe; omega
    refine ⟨{ hrep with }, ?_, by show update s.mark b.var none l.var = _; rw [update_of_ne (Ne.symm hbl)]; exact hml⟩
    refine ⟨rfl, rfl, rfl, rfl, rfl, hcls, update_none_mk, fun M hM hsat => ?_⟩
    have hbm : s.mark b.var = some (!b.sign) := by
      cases hkb : s.mark b.var with
      | none => exact absurd hkb hk
      | some sg =>
        simp only [marked, hkb, decide_eq_false_iff_not, Option.some.injEq] at hb
        rw [bool_ne hb]
    have hbn : b.neg ∈ rem s.mark cl :=
      marked_mem (s := WV s l.var (acc ++ w :: ws)) h (hm.of_eq rfl rfl rfl) (id := w) hc (y := b) (by simp) hbm
    refine unmark_str (l := b.neg) (id := w) hnd hc (fun y hy hyb => ?_) (mem_rem.mp hbn).1 M hM hsat
    rw [Lit.neg_neg] at hyb
    refine ⟨?_, fun e => hyb (lit_eq_of_var hndc hy (by simp) e)⟩
    have hmy : marked s.mark y = true := by
      simp only [List.mem_cons, List.mem_append] at hy
      rcases hy with rfl | hy | rfl | hy
      · simp [marked, hml]
      · exact hpre y hy
      · exact absurd rfl hyb
      · exact hpost y hy
    simp only [marked, decide_eq_true_eq] at hmy
    exact marked_mem (s := WV s l.var (acc ++ w :: ws)) h (hm.of_eq rfl rfl rfl) (id := w) hc hy hmy
  · subst hr
    exact ⟨{ hrep with }, hmv, hml⟩

/-- Proof device: what the loops of `subsumed` deliver. -/
def WPost (O : Asg → Prop) (cl : Cl) (l : Lit) (s : St) (r : WOut × St × Nat) : Prop :=
  Mv O cl s r.2.1 ∧ (r.1 = .subsumed → ∀ M, Sem O s M → M.satC cl) ∧ (r.1 = .removed → r.2.1.mark l.var = none)

theorem watchLoop_ok {cx O cl} {l : Lit} (hnd : (cl.map Lit.var).Nodup) (hlc : l ∈ cl) : ∀ (ws acc : List Nat) (s : St) (str : Nat),
    Wf cx (WV s l.var (acc ++ ws)) → MkOk cl s → s.mark l.var = some l.sign →
    Wf cx (watchLoop l ws acc s str).2.1 ∧ WPost O cl l s (watchLoop l ws acc s str)
  | [], acc, s, str, h, _, _ => by
    simp only [List.append_nil] at h
    exact ⟨h, (Mv.refl s).wat s.wat _, fun h => (nomatch h), fun h => (nomatch h)⟩
  | w :: ws, acc, s, str, h, hm, hml => by
    have hw : ∃ x t, s.cls w = some (x :: t) ∧ x.var = l.var := h.watS (v := l.var) (id := w) (by simp [WV])
    obtain ⟨a, t, hc, hav⟩ := hw
    have hrem : ∀ y ∈ a :: t, marked s.mark y = true → y ∈ rem s.mark cl := fun y hy hmy => by
      simp only [marked, decide_eq_true_eq] at hmy
      exact marked_mem (s := WV s l.var (acc ++ w :: ws)) h (hm.of_eq rfl rfl rfl) (id := w) hc hy hmy
    unfold watchLoop
    simp only [hc]
    split
    · next hal =>
      subst hal
      split
      · next hf =>
        rw [findUnmarked_eq] at hf
        refine ⟨h, (Mv.refl s).wat s.wat _, fun _ M hM => ?_, fun h => (nomatch h)⟩
        obtain ⟨y, hy, hs⟩ := hM.2.1 w _ hc
        have hmy : marked s.mark y = true := by
          rcases List.mem_cons.mp hy with rfl | hy
          · simp [marked, hml]
          · exact hf y hy
        exact ⟨y, (mem_rem.mp (hrem y hy hmy)).1, hs⟩
      · next hf =>
        rw [findUnmarked_eq] at hf
        obtain ⟨h1, h2, h3⟩ := moveWatch_ok (O := O) (str := str) hnd h hm hml hlc hc hf
        generalize moveWatch w (a :: t) (findUnmarked s.mark (a :: t) 1) s str = r at h1 h2 h3 ⊢
        obtain ⟨h4, h5, h6, h7⟩ := watchLoop_ok (O := O) hnd hlc ws acc r.1 r.2 h1 (h2.mkOk hm) h3
        exact ⟨h4, h2.trans h5, fun he M hM => h6 he M ((h2.sem M).mp hM), h7⟩
    · next hal =>
      split
      · next hf =>
        rw [findUnmarked_eq] at hf
        refine ⟨{ h with }, ⟨rfl, rfl, rfl, rfl, rfl, (Mv.refl (O := O) (cl := cl) s).cls, update_none_mk, fun M hM hsat => ?_⟩,
          fun h => (nomatch h), fun _ => by show update s.mark l.var none l.var = none; simp⟩
        have han : a = l.neg := (Lit.eq_or_neg hav).resolve_left hal
        have hndc := h.nd (id := w) hc
        refine unmark_str (l := l) (id := w) hnd hc (fun y hy hyb => ?_) hlc M hM hsat
        have hyt : y ∈ t := by
          rcases List.mem_cons.mp hy with h1 | h1
          · exact absurd (h1.trans han) hyb
          · exact h1
        refine ⟨hrem y hy (hf y hyt), fun e => ?_⟩
        simp only [List.map_cons, List.nodup_cons] at hndc
        exact hndc.1 (by rw [hav, ← e]; exact List.mem_map_of_mem hyt)
      · have := watchLoop_ok (O := O) hnd hlc ws (acc ++ [w]) s str (by simpa using h) hm hml
        exact this

/-! ### all literals -/

theorem litLoop_ok {cx O cl} (hnd : (cl.map Lit.var).Nodup) : ∀ (ls kept : List Lit) (s : St) (str : Nat),
    Wf cx s → MkOk cl s → (∀ l ∈ cl, ∀ sg, s.mark l.var = some sg → sg = l.sign) → (kept ++ ls).Subperm cl →
    (∀ l ∈ rem s.mark cl, l ∈ kept ++ ls) →
    Wf cx (litLoop ls kept s str).2.1 ∧ Mv O cl s (litLoop ls kept s str).2.1 ∧
    ((litLoop ls kept s str).1 = none → ∀ M, Sem O s M → M.satC cl) ∧
    (∀ k, (litLoop ls kept s str).1 = some k → k.Subperm cl ∧ ∀ l ∈ rem (litLoop ls kept s str).2.1.mark cl, l ∈ k)
  | [], kept, s, str, h, _, _, hs, hr => by
    simp only [List.append_nil] at hs hr
    exact ⟨h, Mv.refl s, fun h => (nomatch h), fun k hk => by cases hk; exact ⟨hs, hr⟩⟩
  | l :: ls, kept, s, str, h, hm, hsg, hs, hr => by
    have hlc : l ∈ cl := hs.subset (by simp)
    have hsub : (kept ++ ls).Subperm cl := List.Subperm.trans (List.Sublist.subperm (by simp)) hs
    have drop : ∀ s1 str1, Wf cx s1 → Mv O cl s s1 → s1.mark l.var = none →
        Wf cx (litLoop ls kept s1 str1).2.1 ∧ Mv O cl s (litLoop ls kept s1 str1).2.1 ∧
        ((litLoop ls kept s1 str1).1 = none → ∀ M, Sem O s M → M.satC cl) ∧
        (∀ k, (litLoop ls kept s1 str1).1 = some k → k.Subperm cl ∧ ∀ l ∈ rem (litLoop ls kept s1 str1).2.1.mark cl, l ∈ k) := by
      intro s1 str1 h1 hmv hn
      obtain ⟨a, b, c, d⟩ := litLoop_ok (O := O) hnd ls kept s1 str1 h1 (hmv.mkOk hm)
        (fun l hl sg hk => hsg l hl sg (hmv.mrk _ _ hk)) hsub (fun y hy => by
          rw [mem_rem] at hy
          have := hr y (mem_rem.mpr ⟨hy.1, hmv.mrk _ _ hy.2⟩)
          simp only [List.mem_append, List.mem_cons] at this ⊢
          rcases this with h2 | h2 | h2
          · exact Or.inl h2
          · subst h2; rw [hn] at hy; exact absurd hy.2 (by simp)
          · exact Or.inr h2)
      exact ⟨a, hmv.trans b, fun he M hM => c he M ((hmv.sem M).mp hM), d⟩
    unfold litLoop
    split
    · next hn => exact drop s _ h (Mv.refl s) hn
    · next sg hk =>
      have hsl := hsg l hlc sg hk
      subst hsl
      have hw := watchLoop_ok (cx := cx) (O := O) hnd hlc (s.wat l.var) [] s str (by simpa [WV_self] using h) hm hk
      generalize watchLoop l (s.wat l.var) [] s str = r at hw
      obtain ⟨o, s1, str1⟩ := r
      obtain ⟨w1, w2, w3, w4⟩ := hw
      cases o with
      | subsumed => exact ⟨w1, w2, fun _ => w3 rfl, fun k hk => (nomatch hk)⟩
      | removed => exact drop s1 str1 w1 w2 (w4 rfl)
      | stays =>
        simp only [] at w1 w2
        obtain ⟨a, b, c, d⟩ := litLoop_ok (O := O) hnd ls (kept ++ [l]) s1 str1 w1 (w2.mkOk hm)
          (fun l hl sg hk => hsg l hl sg (w2.mrk _ _ hk)) (by simpa using hs) (fun y hy => by
            rw [mem_rem] at hy
            have := hr y (mem_rem.mpr ⟨hy.1, w2.mrk _ _ hy.2⟩)
            simpa using this)
        exact ⟨a, w2.trans b, fun he M hM => c he M ((w2.sem M).mp hM), d⟩

theorem dropLast_perm {ls : List Lit} {z : Lit} (h : ls.getLast? = some z) : (z :: ls.dropLast).Perm ls := by
  have : ls = ls.dropLast ++ [z] := by
    obtain ⟨hne, hz⟩ := List.getLast?_eq_some_iff.mp h
    rw [hz]; simp
  conv_rhs => rw [this]
  exact (List.perm_append_singleton z _).symm

theorem clean_ok (mk : Marks) : ∀ (n : Nat) (ls : List Lit) (str : Nat), (clean mk n ls str).Subperm ls ∧
    ∀ l ∈ ls, mk l.var ≠ none → l ∈ clean mk n ls str
  | 0, ls, _ => ⟨List.Subperm.refl ls, fun _ h _ => h⟩
  | _ + 1, [], _ => ⟨List.Subperm.refl [], fun _ h _ => h⟩
  | n + 1, l :: ls, str => by
    unfold clean
    split
    · obtain ⟨h1, h2⟩ := clean_ok mk n ls str
      refine ⟨(List.subperm_cons l).mpr h1, fun y hy hk => ?_⟩
      rcases List.mem_cons.mp hy with rfl | hy
      · simp
      · exact List.mem_cons_of_mem _ (h2 y hy hk)
    · next hn =>
      have hd : ∀ y ∈ l :: ls, mk y.var ≠ none → y ∈ ls := fun y hy hk => by
        rcases List.mem_cons.mp hy with rfl | hy
        · exact absurd hn hk
        · exact hy
      split
      · next hl =>
        rw [List.getLast?_eq_none_iff] at hl
        subst hl
        exact ⟨List.nil_subperm, fun y hy hk => by cases hd y hy hk⟩
      · next z hz =>
        have hp := dropLast_perm hz
        have hs : ls.Subperm (l :: ls) := (List.sublist_cons_self l ls).subperm
        split
        · exact ⟨hp.subperm.trans hs, fun y hy hk => hp.mem_iff.mpr (hd y hy hk)⟩
        · obtain ⟨h1, h2⟩ := clean_ok mk n (z :: ls.dropLast) (decr str)
          exact ⟨h1.trans (hp.subperm.trans hs), fun y hy hk => h2 y (hp.mem_iff.mpr (hd y hy hk)) hk⟩

theorem subsumed_ok {cx O cl s} (hnd : (cl.map Lit.var).Nodup) (h : Wf cx s) (hm : MkOk cl s)
    (hk : ∀ l ∈ cl, s.mark l.var = some l.sign) :
    Wf cx (subsumed cl s).2 ∧ Mv O cl s (subsumed cl s).2 ∧
    ((subsumed cl s).1 = none → ∀ M, Sem O s M → M.satC cl) ∧
    (∀ k, (subsumed cl s).1 = some k → k.Subperm cl ∧ (∀ l ∈ rem (subsumed cl s).2.mark cl, l ∈ k) ∧
      ∀ M, Sem O s M → (M.satC cl ↔ M.satC k)) := by
  have hl := litLoop_ok (cx := cx) (O := O) hnd cl [] s 0 h hm (fun l hl sg h1 => by rw [hk l hl] at h1; cases h1; rfl)
    (by simpa using List.Subperm.refl cl) (fun l hl => by simpa using (mem_rem.mp hl).1)
  unfold subsumed
  generalize litLoop cl [] s 0 = r at hl
  obtain ⟨o, s1, str⟩ := r
  obtain ⟨a, b, c, d⟩ := hl
  have fin : ∀ k : Cl, k.Subperm cl → (∀ l ∈ rem s1.mark cl, l ∈ k) → ∀ M, Sem O s M → (M.satC cl ↔ M.satC k) := by
    intro k h1 h2 M hM
    constructor
    · intro hc
      have : M.satC (rem s.mark cl) := by
        obtain ⟨y, hy, hs⟩ := hc
        exact ⟨y, mem_rem.mpr ⟨hy, hk y hy⟩, hs⟩
      obtain ⟨y, hy, hs⟩ := b.str M hM this
      exact ⟨y, h2 y hy, hs⟩
    · rintro ⟨y, hy, hs⟩
      exact ⟨y, h1.subset hy, hs⟩
  cases o with
  | none => exact ⟨a, b, c, fun k hk => (nomatch hk)⟩
  | some k =>
    simp only []
    obtain ⟨d1, d2⟩ := d k rfl
    refine ⟨a, b, fun h => (nomatch h), fun k' hk' => ?_⟩
    cases hk'
    split
    · obtain ⟨e1, e2⟩ := clean_ok s1.mark k.length k str
      have e3 : ∀ l ∈ rem s1.mark cl, l ∈ clean s1.mark k.length k str := fun l hl =>
        e2 l (d2 l hl) (by rw [(mem_rem.mp hl).2]; simp)
      exact ⟨e1.trans d1, e3, fin _ (e1.trans d1) e3⟩
    · exact ⟨d1, d2, fin _ d1 d2⟩

end Clasp.Elite
