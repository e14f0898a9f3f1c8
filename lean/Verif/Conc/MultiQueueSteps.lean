/-
C08: every atomic step preserves the invariant.
-/
import Verif.Conc.MultiQueueInv
namespace Clasp.MQ
open Function
variable {T : Type} {m : Nat}

section
variable {s : St T m} {t : Fin m} (h : Inv s) (c : Cmd T) (f : Addr)
include h

theorem inv_new {rx x} (hp : s.pc t = .new rx x) (hf : s.st f = .unused) : Inv (step s t c f) := by
  have hl := h.loc t
  rw [hp] at hl
  simp only [step, hp]
  have hnl : ∀ j, s.st f ≠ .linked j := by rw [hf]; simp
  refine Inv.mk1 (t := t) (p := .init1 rx x f) h ?_ rfl rfl rfl rfl rfl ?_ (h.lockOf _ (by rw [hp]; simp [PC.inPub])) h.bad ?_ ?_ ?_ ?_
      h.fsn ?_ h.fst h.nxt h.nxtN ?_ h.refs h.data h.rc1 h.rc2 ?_ ?_ ?_
  · refine ⟨?_, ?_, ?_, ?_, ?_, ⟨[], by simp⟩, Nat.le_refl _, ?_, ?_, ?_, ?_, ?_, ?_, ?_⟩ <;>
      try (intros; first | rfl | exact ⟨rfl, rfl⟩)
    · intro u hu; exact update_of_ne hu _ _
    · intro a
      by_cases ha : a = f
      · subst ha; right; right; left; exact ⟨hf, by simp⟩
      · left; exact update_of_ne ha _ _
    · intros; simp [PC.inPub]
  · simp [hp, PC.swing]
  · show update s.st f _ 0 = _
    rw [update_of_ne (h.head_ne hnl).symm]; exact h.st0
  · intro i hi hN
    show update s.st f _ _ = _
    rw [update_of_ne (h.lnk_ne hi hN hnl)]; exact h.lnk i hi hN
  · intro a ha
    by_cases han : a = f
    · subst han; rfl
    · have ha' : s.st a = .priv t := by simpa [update_of_ne han] using ha
      have := h.own a t ha'
      rw [hp] at this; simp [PC.owned] at this
  · intro a u hu ha
    by_cases han : a = f
    · subst han
      have : t = u := by simpa using ha
      exact absurd this.symm hu
    · simpa [update_of_ne han] using ha
  · intro a ha
    have h1 := h.fsc a ha
    have : a ≠ f := by intro e; subst e; rw [hf] at h1; simp at h1
    show update s.st f _ _ = _
    rw [update_of_ne this]; exact h1
  · intro h0 _ hr; exact h.hdOf (by rw [hp]; rfl) h0 hr
  · have b := h.base t; exact ⟨b.ddpos, b.postp, b.cur⟩
  · exact ⟨hl, by simp⟩
  · intro _ hr; exact h.delOf (by rw [hp]; rfl) hr

/-- Writes to `next` of a node privately held by `t` (or of the head node by the releasing thread). -/
theorem Inv.writeNext {n : Addr} {v : Option Addr} (p : PC T) (hn : s.st n = .priv t)
    (hsw : p.swing = (s.pc t).swing) (hip : p.inPub = (s.pc t).inPub) (hown : p.owned = (s.pc t).owned)
    (hA : p.relA = (s.pc t).relA) (hB : p.relB = (s.pc t).relB)
    (loc : LocalPC { s with next := update s.next n v, pc := update s.pc t p } t p) :
    Inv { s with next := update s.next n v, pc := update s.pc t p } := by
  have hnl : ∀ j, s.st n ≠ .linked j := by rw [hn]; simp
  refine Inv.mk1 (t := t) (p := p) h ?_ rfl rfl rfl rfl rfl hsw (h.lockOf _ (Or.inl hip)) h.bad h.st0 h.lnk ?_
    (fun _ _ _ h => h) h.fsn h.fsc ?_ ?_ ?_ ?_ h.refs h.data h.rc1 h.rc2 ?_ loc ?_
  · refine Frame.keepst rfl ?_ ?_ ?_ ?_ rfl rfl rfl ?_ ?_ ?_ ?_ rfl ?_ <;> try (intros; rfl)
    · intro a ha
      refine update_of_ne ?_ _ _
      intro e; subst e
      rcases ha with ha | ⟨u, hu, ha⟩
      · rw [hn] at ha; simp at ha
      · rw [hn] at ha; exact hu (by simpa using ha.symm)
    · intro a _ h1; rw [hip]; exact h1
  · intro a ha; rw [hown]; exact h.own a t ha
  · refine isStack_congr (fun a ha => update_of_ne ?_ _ _) h.fst
    intro e; subst e; have := h.fsc _ ha; rw [hn] at this; simp at this
  · intro i hi hN
    show update s.next n v _ = _
    rw [update_of_ne (h.lnk_ne hi (by omega) hnl)]; exact h.nxt i hi hN
  · show update s.next n v _ = _
    rw [update_of_ne (h.last_ne t hnl)]; exact h.nxtN
  · intro h0 hpa hr
    show update s.next n v _ = _
    rw [update_of_ne (h.head_ne hnl).symm]; exact h.hdOf (by rw [← hA, hpa]) h0 hr
  · have b := h.base t; exact ⟨b.ddpos, b.postp, b.cur⟩
  · intro hpb hr; exact h.delOf (by rw [← hB, hpb]) hr

theorem inv_init1 {rx x n} (hp : s.pc t = .init1 rx x n) : Inv (step s t c f) := by
  have hl := h.loc t
  rw [hp] at hl
  simp only [step, hp]
  refine h.writeNext (.init2 rx x n) hl.2 ?_ ?_ ?_ ?_ ?_ ⟨hl.1, hl.2, by simp⟩ <;> rw [hp] <;> rfl

theorem inv_push2 {rd n tp} (hp : s.pc t = .push2 rd n tp) : Inv (step s t c f) := by
  have hl := h.loc t
  rw [hp] at hl
  simp only [step, hp]
  refine h.writeNext (.push3 rd n tp) hl.2 ?_ ?_ ?_ ?_ ?_ ⟨hl.1, hl.2, by simp⟩ <;> rw [hp] <;> rfl

theorem inv_init2 {rx x n} (hp : s.pc t = .init2 rx x n) : Inv (step s t c f) := by
  have hl := h.loc t
  rw [hp] at hl
  simp only [step, hp]
  have hn := hl.2.1
  have hnl : ∀ j, s.st n ≠ .linked j := by rw [hn]; simp
  obtain ⟨p, hpe⟩ : ∃ p, p = (if rx then PC.rlxTail x n else PC.pubTail x n) := ⟨_, rfl⟩
  have e1 : p.swing = none := by rw [hpe]; cases rx <;> rfl
  have e2 : p.inPub = some rx := by rw [hpe]; cases rx <;> rfl
  have e3 : p.owned = some n := by rw [hpe]; cases rx <;> rfl
  have e4 : p.relA = false := by rw [hpe]; cases rx <;> rfl
  have e5 : p.relB = false := by rw [hpe]; cases rx <;> rfl
  rw [← hpe]
  refine Inv.mk1 (t := t) (p := p) h ?_ rfl rfl rfl rfl rfl (by rw [hp]; exact e1)
    (h.lockOf _ (Or.inl (by rw [hp]; exact e2))) h.bad h.st0 h.lnk ?_
    (fun _ _ _ h => h) h.fsn h.fsc h.fst h.nxt h.nxtN ?_ ?_ ?_ h.rc1 h.rc2 ?_ ?_ ?_
  · refine Frame.keepst rfl ?_ ?_ ?_ ?_ rfl rfl rfl ?_ ?_ ?_ ?_ rfl ?_ <;> try (intros; rfl)
    · intro a ⟨u, hu, ha⟩
      refine update_of_ne ?_ _ _
      intro e; subst e
      rw [hn] at ha; exact hu (by simpa using ha.symm)
    · intro a ⟨u, hu, ha⟩
      refine update_of_ne ?_ _ _
      intro e; subst e
      rw [hn] at ha; exact hu (by simpa using ha.symm)
    · intros; rw [e2]; simp
  · intro a ha; have := h.own a t ha; rw [hp] at this; rw [e3]; exact this
  · intro h0 _ hr; exact h.hdOf (by rw [hp]; rfl) h0 hr
  · intro i hi hN
    show update s.refs n _ _ = _
    rw [update_of_ne (h.lnk_ne hi hN hnl)]; exact h.refs i hi hN
  · intro i hi hN
    show update s.data n _ _ = _
    rw [update_of_ne (h.lnk_ne hi hN hnl)]; exact h.data i hi hN
  · have b := h.base t; exact ⟨b.ddpos, b.postp, b.cur⟩
  · rw [hpe]
    cases rx
    · exact ⟨hl.1, hn, hl.2.2, by simp, by simp⟩
    · exact ⟨hl.1, hn, hl.2.2, by simp, by simp⟩
  · intro _ hr; exact h.delOf (by rw [hp]; rfl) hr

theorem inv_pubTail {x n} (hp : s.pc t = .pubTail x n) : Inv (step s t c f) := by
  have hl := h.loc t
  rw [hp] at hl
  simp only [step, hp]
  obtain ⟨b1, b2, b3, b4, b5⟩ := h.base' t
  refine h.pcStep (.pubNext x n s.tail) ?_ (h.lockOf _ ?_) ?_ ?_ ?_ ?_ ⟨hl.1, hl.2, s.tp, h.tl, ?_, Nat.le_refl _⟩
  iterate 6 (rw [hp]; simp [PC.swing, PC.inPub, PC.owned, PC.relA, PC.relB])
  show s.dd t ≤ s.tp
  omega

theorem inv_pubNext {x n a} (hp : s.pc t = .pubNext x n a) : Inv (step s t c f) := by
  have hl := h.loc t
  rw [hp] at hl
  simp only [step, hp]
  obtain ⟨l1, l2, k, l3, l4, l5⟩ := hl
  refine h.pcStep (.pubCheck x n a (s.next a)) ?_ (h.lockOf _ ?_) ?_ ?_ ?_ ?_ ⟨l1, l2, k, l3, l4, l5, ?_⟩
  iterate 6 (rw [hp]; simp [PC.swing, PC.inPub, PC.owned, PC.relA, PC.relB])
  intro b hb
  show k < s.log.length ∧ b = nodeAt s.log (k + 1)
  have hN := h.tpN
  by_cases hk : k < s.log.length
  · have := h.next_at hk l4
    rw [← l3, hb] at this
    exact ⟨hk, by simpa using this⟩
  · have : k = s.log.length := by omega
    have h2 := h.nxtN
    rw [← this, ← l3, hb] at h2
    simp at h2

theorem inv_pubCheck {x n a an} (hp : s.pc t = .pubCheck x n a an) : Inv (step s t c f) := by
  have hl := h.loc t
  rw [hp] at hl
  simp only [step, hp]
  obtain ⟨l1, l2, k, l3, l4, l5, l6⟩ := hl
  have key : Inv { s with pc := update s.pc t (.pubCas x n a) } := by
    refine h.pcStep (.pubCas x n a) ?_ (h.lockOf _ ?_) ?_ ?_ ?_ ?_ ⟨l1, l2, k, l3, l4, l5⟩ <;>
    rw [hp] <;> simp [PC.swing, PC.inPub, PC.owned, PC.relA, PC.relB]
  split
  · exact key
  · split
    · rename_i b
      refine h.pcStep (.pubHelp x n a b) ?_ (h.lockOf _ ?_) ?_ ?_ ?_ ?_ ⟨l1, l2, k, l3, l4, l5, l6 b rfl⟩ <;>
        rw [hp] <;> simp [PC.swing, PC.inPub, PC.owned, PC.relA, PC.relB]
    · exact key

theorem inv_rlxTail {x n} (hp : s.pc t = .rlxTail x n) : Inv (step s t c f) := by
  have hl := h.loc t
  rw [hp] at hl
  simp only [step, hp]
  have htp : s.tp = s.log.length := by
    have := h.tpN
    by_contra hne
    obtain ⟨u, hu⟩ := h.lag (by omega)
    by_cases hut : u = t
    · subst hut; rw [hp] at hu; simp [PC.swing] at hu
    · have := h.lock t (by rw [hp]; rfl) u hut
      generalize s.pc u = q at hu this
      cases q <;> simp [PC.swing, PC.inPub] at hu this
  refine h.pcStep (.rlxLink x n s.tail) ?_ (h.lockOf _ ?_) ?_ ?_ ?_ ?_ ⟨hl.1, hl.2, ?_, htp⟩
  iterate 6 (rw [hp]; simp [PC.swing, PC.inPub, PC.owned, PC.relA, PC.relB])
  show s.tail = nodeAt s.log s.log.length
  rw [h.tl, htp]

theorem inv_conTail {rd} (hp : s.pc t = .conTail rd) : Inv (step s t c f) := by
  have hl := h.loc t
  rw [hp] at hl
  simp only [step, hp]
  obtain ⟨b1, b2, b3, b4, b5⟩ := h.base' t
  split
  · refine h.pcStep .idle ?_ (h.lockOf _ ?_) ?_ ?_ ?_ ?_ hl <;>
        rw [hp] <;> simp [PC.swing, PC.inPub, PC.owned, PC.relA, PC.relB]
  · rename_i hne
    refine h.pcStep (.conMove rd) ?_ (h.lockOf _ ?_) ?_ ?_ ?_ ?_ ⟨hl, ?_⟩
    iterate 6 (rw [hp]; simp [PC.swing, PC.inPub, PC.owned, PC.relA, PC.relB])
    show s.pos t < s.tp
    rcases Nat.lt_or_eq_of_le b2 with e | e
    · exact e
    · exact absurd (by rw [b3, e, h.tl]) hne

theorem inv_relNext {rd n} (hp : s.pc t = .relNext rd n) : Inv (step s t c f) := by
  have hl := h.loc t
  rw [hp] at hl
  simp only [step, hp]
  refine h.pcStep (.relHead rd n (s.next n)) ?_ (h.lockOf _ ?_) ?_ ?_ ?_ ?_ ⟨hl.1, hl.2⟩ <;>
        rw [hp] <;> simp [PC.swing, PC.inPub, PC.owned, PC.relA, PC.relB]

theorem inv_push1 {rd n} (hp : s.pc t = .push1 rd n) : Inv (step s t c f) := by
  have hl := h.loc t
  rw [hp] at hl
  simp only [step, hp]
  refine h.pcStep (.push2 rd n s.top) ?_ (h.lockOf _ ?_) ?_ ?_ ?_ ?_ ⟨hl.1, hl.2⟩ <;>
        rw [hp] <;> simp [PC.swing, PC.inPub, PC.owned, PC.relA, PC.relB]

theorem inv_push3 {rd n tp} (hp : s.pc t = .push3 rd n tp) : Inv (step s t c f) := by
  have hl := h.loc t
  rw [hp] at hl
  simp only [step, hp]
  obtain ⟨l1, hn, l3⟩ := hl
  have hnl : ∀ j, s.st n ≠ .linked j := by rw [hn]; simp
  split
  · rename_i htop
    refine Inv.mk1 (t := t) (p := .conRead rd) h ?_ rfl rfl rfl rfl rfl ?_ (h.lockOf _ (by rw [hp]; simp [PC.inPub])) h.bad ?_ ?_ ?_ ?_
      ?_ ?_ ?_ h.nxt h.nxtN ?_ h.refs h.data h.rc1 h.rc2 ?_ l1 ?_
    · refine ⟨?_, ?_, ?_, ?_, ?_, ⟨[], by simp⟩, Nat.le_refl _, ?_, ?_, ?_, ?_, ?_, ?_, ?_⟩ <;>
        try (intros; first | rfl | exact ⟨rfl, rfl⟩)
      · intro u hu; exact update_of_ne hu _ _
      · intro a
        by_cases ha : a = n
        · subst ha; right; right; right; right; right; exact ⟨hn, by rw [hp]; rfl, by simp⟩
        · left; exact update_of_ne ha _ _
      · intro a _ h2; rw [hp] at h2; simp [PC.inPub] at h2
    · simp [hp, PC.swing]
    · show update s.st n _ 0 = _
      rw [update_of_ne (h.head_ne hnl).symm]; exact h.st0
    · intro i hi hN
      show update s.st n _ _ = _
      rw [update_of_ne (h.lnk_ne hi hN hnl)]; exact h.lnk i hi hN
    · intro a ha
      by_cases han : a = n
      · subst han; simp at ha
      · have ha' : s.st a = .priv t := by simpa [update_of_ne han] using ha
        have := h.own a t ha'
        rw [hp] at this; simp [PC.owned] at this; exact absurd this.symm han
    · intro a u hu ha
      by_cases han : a = n
      · subst han; simp at ha
      · simpa [update_of_ne han] using ha
    · refine List.nodup_cons.mpr ⟨fun hin => ?_, h.fsn⟩
      have := h.fsc n hin; rw [hn] at this; simp at this
    · intro a ha
      show update s.st n _ _ = _
      by_cases han : a = n
      · subst han; simp
      · rw [update_of_ne han]
        exact h.fsc a (by simpa [han] using ha)
    · refine ⟨rfl, ?_⟩
      show isStack s.next (s.next n) s.fs
      rw [l3, ← htop]; exact h.fst
    · intro h0 _ hr; exact h.hdOf (by rw [hp]; rfl) h0 hr
    · have b := h.base t; exact ⟨b.ddpos, b.postp, b.cur⟩
    · intro _ hr; exact h.delOf (by rw [hp]; rfl) hr
  · refine h.pcStep (.push1 rd n) ?_ (h.lockOf _ ?_) ?_ ?_ ?_ ?_ ⟨l1, hn⟩ <;>
        rw [hp] <;> simp [PC.swing, PC.inPub, PC.owned, PC.relA, PC.relB]

theorem inv_relHead {rd n nx} (hp : s.pc t = .relHead rd n nx) : Inv (step s t c f) := by
  have hl := h.loc t
  rw [hp] at hl
  simp only [step, hp]
  obtain ⟨r, l2⟩ := hl
  have r0 := r
  obtain ⟨r1, hn, r3, r4, r5, r6, r7⟩ := r
  have hnl : ∀ j, s.st n ≠ .linked j := by rw [hn]; simp
  obtain ⟨b1, b2, b3, b4, b5⟩ := h.base' t
  have hne : ∀ i, s.rc < i → i ≤ s.log.length → nodeAt s.log i ≠ 0 := by
    intro i hi hN e
    have := h.lnk i hi hN
    rw [e, h.st0] at this
    have : 0 = i := by simpa using this
    omega
  refine Inv.mk1 (t := t) (p := .relDel rd n) h ?_ rfl rfl rfl rfl rfl ?_ (h.lockOf _ (by rw [hp]; simp [PC.inPub])) h.bad h.st0 h.lnk ?_
    (fun _ _ _ h => h) h.fsn h.fsc ?_ ?_ ?_ ?_ h.refs h.data h.rc1 h.rc2 ?_ r0 ?_
  · refine Frame.keepst rfl ?_ ?_ ?_ ?_ rfl rfl rfl ?_ ?_ ?_ ?_ rfl ?_ <;> try (intros; rfl)
    · intro a ha
      refine update_of_ne ?_ _ _
      intro e; subst e; rw [h.st0] at ha; simp at ha
    · intro a _ h1; rw [hp] at h1; simp [PC.inPub] at h1
  · simp [hp, PC.swing]
  · intro a ha; have := h.own a t ha; rw [hp] at this; exact this
  · refine isStack_congr (fun a ha => update_of_ne ?_ _ _) h.fst
    intro e; subst e; have := h.fsc _ ha; rw [h.st0] at this; simp at this
  · intro i hi hN
    show update s.next 0 nx _ = _
    rw [update_of_ne (hne i hi (by omega))]; exact h.nxt i hi hN
  · show update s.next 0 nx _ = _
    rw [update_of_ne (hne _ (by omega) (by omega))]; exact h.nxtN
  · intro h0 _ hr
    show update s.next 0 nx 0 = _
    rw [update_self]; exact l2
  · have b := h.base t; exact ⟨b.ddpos, b.postp, b.cur⟩
  · intro hpb; simp [PC.relB] at hpb

theorem inv_relDel {rd n} (hp : s.pc t = .relDel rd n) : Inv (step s t c f) := by
  have hl := h.loc t
  rw [hp] at hl
  simp only [step, hp]
  obtain ⟨r1, hn, r3, r4, r5, r6, r7⟩ := hl
  have hnl : ∀ j, s.st n ≠ .linked j := by rw [hn]; simp
  obtain ⟨b1, b2, b3, b4, b5⟩ := h.base' t
  have hlt : s.rc - 1 < s.log.length := by omega
  rw [List.getElem?_eq_getElem hlt] at r6
  simp only [Option.map_some] at r6
  rw [r6]
  simp only
  refine Inv.mk1 (t := t) (p := .push1 rd n) h ?_ rfl rfl rfl rfl rfl ?_ (h.lockOf _ (by rw [hp]; simp [PC.inPub])) h.bad h.st0 h.lnk ?_
    (fun _ _ _ h => h) h.fsn h.fsc h.fst h.nxt h.nxtN ?_ h.refs ?_ h.rc1 h.rc2 ?_ ⟨r1, hn⟩ ?_
  · refine Frame.keepst rfl ?_ ?_ ?_ ?_ rfl rfl rfl ?_ ?_ ?_ ?_ rfl ?_ <;> try (intros; rfl)
    · intro a ⟨u, hu, ha⟩
      refine update_of_ne ?_ _ _
      intro e; subst e
      rw [hn] at ha; exact hu (by simpa using ha.symm)
    · intro a _ h1; rw [hp] at h1; simp [PC.inPub] at h1
    · intro u hu hb; exact absurd (h.rel_unique hb (by rw [hp]; rfl)) hu
  · simp [hp, PC.swing]
  · intro a ha; have := h.own a t ha; rw [hp] at this; exact this
  · intro h0 _ hr
    exact h.hdOf (by rw [hp]; rfl) h0 hr
  · intro i hi hN
    show update s.data n _ _ = _
    rw [update_of_ne (h.lnk_ne hi hN hnl)]; exact h.data i hi hN
  · have b := h.base t; exact ⟨b.ddpos, b.postp, b.cur⟩
  · intro _ _
    show s.del ++ [_] = _
    rw [r7]
    obtain ⟨k, hk⟩ : ∃ k, s.rc = k + 1 := ⟨s.rc - 1, by omega⟩
    simp only [hk, Nat.add_sub_cancel] at hlt ⊢
    rw [List.take_add_one, List.map_append, List.getElem?_eq_getElem hlt]; rfl

theorem inv_conRead {rd} (hp : s.pc t = .conRead rd) : Inv (step s t c f) := by
  have hl := h.loc t
  rw [hp] at hl
  simp only [step, hp]
  obtain ⟨l1, l2⟩ := hl
  obtain ⟨b1, b2, b3, b4, b5⟩ := h.base' t
  have key : ∀ o, Inv { s with hist := update s.hist t (s.hist t ++ [o]), pc := update s.pc t .idle } := by
    intro o
    refine Inv.mk1 (t := t) (p := .idle) h ?_ rfl rfl rfl rfl rfl ?_ (h.lockOf _ (by rw [hp]; simp [PC.inPub])) h.bad h.st0 h.lnk ?_
      (fun _ _ _ h => h) h.fsn h.fsc h.fst h.nxt h.nxtN ?_ h.refs h.data h.rc1 h.rc2 ?_ ⟨l1, ?_⟩ ?_
    · refine Frame.keepst rfl ?_ ?_ ?_ ?_ rfl rfl rfl ?_ ?_ ?_ ?_ rfl ?_ <;> try (intros; rfl)
      · intro u hu; exact update_of_ne hu _ _
      · intro a _ h1; rw [hp] at h1; simp [PC.inPub] at h1
    · simp [hp, PC.swing]
    · intro a ha; have := h.own a t ha; rw [hp] at this; exact this
    · intro h0 _ hr; exact h.hdOf (by rw [hp]; rfl) h0 hr
    · have b := h.base t; exact ⟨b.ddpos, b.postp, b.cur⟩
    · show (update s.hist t _ t).length = s.pos t
      rw [update_self]; simp; exact l2
    · intro _ hr; exact h.delOf (by rw [hp]; rfl) hr
  cases rd
  · exact key none
  · simp only [if_true]
    have hpos : 1 ≤ s.pos t := by omega
    have hd := h.data (s.pos t) (by rcases h.rc1 t with e | e <;> omega) b5
    rw [← b3, List.getElem?_eq_getElem (by omega)] at hd
    simp only [Option.map_some] at hd
    rw [hd]
    exact key _

theorem inv_conMove {rd} (hp : s.pc t = .conMove rd) : Inv (step s t c f) := by
  have hl := h.loc t
  rw [hp] at hl
  simp only [step, hp]
  obtain ⟨⟨l0, l1⟩, l2⟩ := hl
  obtain ⟨b1, b2, b3, b4, b5⟩ := h.base' t
  have hN := h.tpN
  have hnx := h.next_at (i := s.pos t) (by omega) b1
  rw [← b3] at hnx
  rw [hnx]
  simp only
  refine Inv.mk1 (t := t) (p := .conDec rd (s.cur t)) h ?_ rfl rfl rfl rfl rfl ?_ (h.lockOf _ (by rw [hp]; simp [PC.inPub])) h.bad h.st0 h.lnk ?_
      (fun _ _ _ h => h) h.fsn h.fsc h.fst h.nxt h.nxtN ?_ h.refs h.data h.rc1 h.rc2 ?_ ⟨?_, ?_, ?_⟩ ?_
  · refine Frame.keepst rfl ?_ ?_ ?_ ?_ rfl rfl rfl ?_ ?_ ?_ ?_ rfl ?_ <;> try (intros; rfl)
    · intro u hu; exact update_of_ne hu _ _
    · intro u hu; exact update_of_ne hu _ _
    · intro a _ h1; rw [hp] at h1; simp [PC.inPub] at h1
  · simp [hp, PC.swing]
  · intro a ha; have := h.own a t ha; rw [hp] at this; exact this
  · intro h0 _ hr; exact h.hdOf (by rw [hp]; rfl) h0 hr
  · refine ⟨?_, ?_, ?_⟩
    · show s.dd t ≤ update s.pos t _ t
      rw [update_self]; omega
    · show update s.pos t _ t ≤ s.tp
      rw [update_self]; omega
    · show update s.cur t _ t = nodeAt s.log (update s.pos t _ t)
      rw [update_self, update_self]
  · show s.dd t + 1 = update s.pos t _ t
    rw [update_self]; omega
  · show (s.hist t).length = s.dd t
    omega
  · show s.cur t = nodeAt s.log (s.dd t)
    rw [b3, l0]
  · intro _ hr; exact h.delOf (by rw [hp]; rfl) hr

end

/-! ### reference counting -/

theorem cnt_update {dd : Fin m → Nat} {t : Fin m} (i : Nat) :
    cnt (update dd t (dd t + 1)) i = if i = dd t then cnt dd i - 1 else cnt dd i := by
  unfold cnt
  split
  · rename_i hi
    have : (Finset.univ.filter fun u => update dd t (dd t + 1) u ≤ i) = (Finset.univ.filter fun u => dd u ≤ i).erase t := by
      ext u
      simp only [Finset.mem_filter, Finset.mem_univ, true_and, Finset.mem_erase]
      by_cases hu : u = t
      · subst hu; rw [update_self]; simp; omega
      · rw [update_of_ne hu]; simp [hu]
    rw [this, Finset.card_erase_of_mem]
    simp; omega
  · rename_i hi
    congr 1
    ext u
    simp only [Finset.mem_filter, Finset.mem_univ, true_and]
    by_cases hu : u = t
    · subst hu; rw [update_self]; omega
    · rw [update_of_ne hu]

theorem cnt_pos {dd : Fin m → Nat} {t : Fin m} {i : Nat} (h : dd t ≤ i) : 0 < cnt dd i :=
  Finset.card_pos.mpr ⟨t, by simpa using h⟩

theorem cnt_zero {dd : Fin m → Nat} {i : Nat} : cnt dd i = 0 ↔ ∀ t, i < dd t := by
  unfold cnt
  rw [Finset.card_eq_zero, Finset.filter_eq_empty_iff]
  simp

section
variable {s : St T m} {t : Fin m} (h : Inv s) (c : Cmd T) (f : Addr)
include h

theorem inv_conDec {rd n} (hp : s.pc t = .conDec rd n) : Inv (step s t c f) := by
  have hl := h.loc t
  rw [hp] at hl
  simp only [step, hp]
  obtain ⟨l1, l2, l3⟩ := hl
  obtain ⟨b1, b2, b3, b4, b5⟩ := h.base' t
  have hN := h.tpN
  by_cases hn0 : n = 0
  · -- leaving the embedded head node
    have hd0 : s.dd t = 0 := by
      by_contra hne
      have h1 := h.st_at b4 (Nat.le_refl (s.dd t))
      rw [← l3, hn0, h.st0] at h1
      have : 0 = s.dd t := by simpa using h1
      omega
    have hrc : s.rc = 0 := by rcases h.rc1 t with e | e <;> omega
    rw [if_pos hn0]
    refine Inv.mk1 (t := t) (p := .conRead rd) h ?_ rfl rfl rfl rfl rfl ?_ (h.lockOf _ (by rw [hp]; simp [PC.inPub])) h.bad h.st0 h.lnk ?_
      (fun _ _ _ h => h) h.fsn h.fsc h.fst h.nxt h.nxtN ?_ ?_ h.data ?_ ?_ ?_ ⟨?_, ?_⟩ ?_
    · refine Frame.keepst rfl ?_ ?_ ?_ ?_ rfl rfl rfl ?_ ?_ ?_ ?_ rfl ?_ <;> try (intros; rfl)
      · intro u hu; exact update_of_ne hu _ _
      · intro a _ h1; rw [hp] at h1; simp [PC.inPub] at h1
    · simp [hp, PC.swing]
    · intro a ha; have := h.own a t ha; rw [hp] at this; exact this
    · intro h0 _ hr; exact h.hdOf (by rw [hp]; rfl) h0 hr
    · intro i hi hN
      show s.refs _ = cnt (update s.dd t _) i
      have hi' : s.rc < i := hi
      rw [cnt_update, if_neg (by omega)]; exact h.refs i hi hN
    · intro u; right; exact hrc
    · refine ⟨t, ?_⟩
      show update s.dd t _ t ≤ s.rc + 1
      rw [update_self]; omega
    · refine ⟨?_, b2, b3⟩
      show update s.dd t _ t ≤ s.pos t
      rw [update_self]; omega
    · show update s.dd t _ t = s.pos t
      rw [update_self]; omega
    · show (s.hist t).length + 1 = s.pos t
      omega
    · intro _ hr; exact h.delOf (by rw [hp]; rfl) hr
  · rw [if_neg hn0]
    have hdpos : 1 ≤ s.dd t := by
      by_contra hne
      have : s.dd t = 0 := by omega
      rw [this] at l3; exact hn0 l3
    have hrc : s.rc < s.dd t := by rcases h.rc1 t with e | e <;> omega
    have hrefs := h.refs _ hrc b4
    rw [← l3] at hrefs
    have hcp := cnt_pos (Nat.le_refl (s.dd t))
    have hnst : s.st n = .linked (s.dd t) := by rw [l3]; exact h.lnk _ hrc b4
    have hinj : ∀ i, s.rc < i → i ≤ s.log.length → i ≠ s.dd t → nodeAt s.log i ≠ n := by
      intro i hi hN hne e
      have := h.lnk i hi hN
      rw [e, hnst] at this
      exact hne (by simpa using this.symm)
    by_cases hz : s.refs n - 1 = 0
    · -- last one to leave
      rw [if_pos hz]
      have hc0 : cnt (update s.dd t (s.dd t + 1)) (s.dd t) = 0 := by
        rw [cnt_update, if_pos rfl]; omega
      rw [cnt_zero] at hc0
      have hrc1 : s.dd t = s.rc + 1 := by
        obtain ⟨u, hu⟩ := h.rc2
        by_cases hut : u = t
        · subst hut; omega
        · have := hc0 u; rw [update_of_ne hut] at this; omega
      have hnorel : ∀ u, u ≠ t → (s.pc u).relB = false := by
        intro u hu
        cases hb : (s.pc u).relB with
        | false => rfl
        | true =>
          obtain ⟨_, _, r⟩ := (h.loc u).rel hb
          have := hc0 u; rw [update_of_ne hu] at this
          have := r.2.2.2.1; omega
      have hdel := h.delOf (t := t) (by rw [hp]; rfl) hnorel
      refine Inv.mk1 (t := t) (p := .relNext rd n) h ?_ rfl rfl rfl rfl rfl ?_ (h.lockOf _ (by rw [hp]; simp [PC.inPub])) h.bad ?_ ?_ ?_ ?_
        h.fsn ?_ h.fst ?_ h.nxtN ?_ ?_ ?_ ?_ ?_ ?_ ⟨⟨⟨?_, ?_⟩, ?_, ?_, ?_, ?_, ?_, ?_⟩, ?_⟩ ?_
      · refine ⟨?_, ?_, ?_, ?_, ?_, ⟨[], by simp⟩, Nat.le_refl _, ?_, ?_, ?_, ?_, ?_, ?_, ?_⟩ <;>
          try (intros; first | rfl | exact ⟨rfl, rfl⟩)
        · intro u hu; exact update_of_ne hu _ _
        · intro u hu; exact update_of_ne hu _ _
        · intro a ⟨u, hu, ha⟩
          refine update_of_ne ?_ _ _
          intro e; subst e; rw [hnst] at ha; simp at ha
        · intro a
          by_cases ha : a = n
          · subst ha; right; right; right; right; left; exact ⟨s.dd t, hnst, by simp, hc0⟩
          · left; exact update_of_ne ha _ _
        · intro a _ h2; rw [hp] at h2; simp [PC.inPub] at h2
        · intro u hu hb; rw [hnorel u hu] at hb; simp at hb
      · simp [hp, PC.swing]
      · show update s.st n _ 0 = _
        rw [update_of_ne (Ne.symm hn0)]; exact h.st0
      · intro i hi hN
        show update s.st n _ _ = _
        have hi' : s.rc + 1 < i := hi
        rw [update_of_ne (hinj i (by omega) hN (by omega))]; exact h.lnk i (by omega) hN
      · intro a ha
        by_cases han : a = n
        · subst han; rfl
        · have ha' : s.st a = .priv t := by simpa [update_of_ne han] using ha
          have := h.own a t ha'
          rw [hp] at this; simp [PC.owned] at this
      · intro a u hu ha
        by_cases han : a = n
        · subst han
          have : t = u := by simpa using ha
          exact absurd this.symm hu
        · simpa [update_of_ne han] using ha
      · intro a ha
        have h1 := h.fsc a ha
        have : a ≠ n := by intro e; subst e; rw [hnst] at h1; simp at h1
        show update s.st n _ _ = _
        rw [update_of_ne this]; exact h1
      · intro i hi hN
        have hi' : s.rc + 1 < i := hi
        exact h.nxt i (by omega) hN
      · intro _ hpa; simp [PC.relA] at hpa
      · intro i hi hN
        show update s.refs n _ _ = cnt (update s.dd t _) i
        have hi' : s.rc + 1 < i := hi
        rw [update_of_ne (hinj i (by omega) hN (by omega)), cnt_update, if_neg (by omega)]
        exact h.refs i (by omega) hN
      · intro i hi hN
        have hi' : s.rc + 1 < i := hi
        exact h.data i (by omega) hN
      · intro u; left
        show s.rc + 1 < update s.dd t (s.dd t + 1) u
        have := hc0 u; omega
      · refine ⟨t, ?_⟩
        show update s.dd t _ t ≤ s.rc + 1 + 1
        rw [update_self]; omega
      · refine ⟨?_, b2, b3⟩
        show update s.dd t _ t ≤ s.pos t
        rw [update_self]; omega
      · show update s.dd t _ t = s.pos t
        rw [update_self]; omega
      · show (s.hist t).length + 1 = s.pos t
        omega
      · show update s.st n _ n = _
        rw [update_self]
      · show n = nodeAt s.log (s.rc + 1)
        rw [← hrc1]; exact l3
      · show update s.dd t _ t = s.rc + 1 + 1
        rw [update_self]; omega
      · show 1 ≤ s.rc + 1
        omega
      · show s.data n = (s.log[s.rc + 1 - 1]?).map Prod.snd
        rw [← hrc1, l3]; exact h.data _ hrc b4
      · show s.del = (s.log.take (s.rc + 1 - 1)).map Prod.snd
        exact hdel
      · show s.next n = some (nodeAt s.log (s.rc + 1 + 1))
        rw [l3, ← hrc1]; exact h.nxt _ hrc (by omega)
      · intro hpb; simp [PC.relB] at hpb
    · rw [if_neg hz]
      have hex : ∃ u, u ≠ t ∧ s.dd u ≤ s.dd t := by
        by_contra hno
        apply hz
        have : cnt (update s.dd t (s.dd t + 1)) (s.dd t) = 0 := by
          rw [cnt_zero]
          intro u
          by_cases hu : u = t
          · subst hu; rw [update_self]; omega
          · rw [update_of_ne hu]
            by_contra hc
            exact hno ⟨u, hu, by omega⟩
        rw [cnt_update, if_pos rfl] at this
        omega
      refine Inv.mk1 (t := t) (p := .conRead rd) h ?_ rfl rfl rfl rfl rfl ?_ (h.lockOf _ (by rw [hp]; simp [PC.inPub])) h.bad h.st0 h.lnk ?_
        (fun _ _ _ h => h) h.fsn h.fsc h.fst h.nxt h.nxtN ?_ ?_ h.data ?_ ?_ ?_ ⟨?_, ?_⟩ ?_
      · refine Frame.keepst rfl ?_ ?_ ?_ ?_ rfl rfl rfl ?_ ?_ ?_ ?_ rfl ?_ <;> try (intros; rfl)
        · intro u hu; exact update_of_ne hu _ _
        · intro a ⟨u, hu, ha⟩
          refine update_of_ne ?_ _ _
          intro e; subst e; rw [hnst] at ha; simp at ha
        · intro a _ h1; rw [hp] at h1; simp [PC.inPub] at h1
      · simp [hp, PC.swing]
      · intro a ha; have := h.own a t ha; rw [hp] at this; exact this
      · intro h0 _ hr; exact h.hdOf (by rw [hp]; rfl) h0 hr
      · intro i hi hN
        show update s.refs n _ _ = cnt (update s.dd t _) i
        rw [cnt_update]
        by_cases hid : i = s.dd t
        · rw [if_pos hid, hid, ← l3, update_self]; omega
        · rw [if_neg hid, update_of_ne (hinj i hi hN hid)]; exact h.refs i hi hN
      · intro u
        show s.rc < update s.dd t _ u ∨ s.rc = 0
        by_cases hu : u = t
        · subst hu; rw [update_self]; omega
        · rw [update_of_ne hu]; exact h.rc1 u
      · show ∃ u, update s.dd t _ u ≤ s.rc + 1
        obtain ⟨v, hv⟩ := h.rc2
        by_cases hvt : v = t
        · subst hvt
          obtain ⟨u, hu, hle⟩ := hex
          exact ⟨u, by rw [update_of_ne hu]; omega⟩
        · exact ⟨v, by rw [update_of_ne hvt]; exact hv⟩
      · refine ⟨?_, b2, b3⟩
        show update s.dd t _ t ≤ s.pos t
        rw [update_self]; omega
      · show update s.dd t _ t = s.pos t
        rw [update_self]; omega
      · show (s.hist t).length + 1 = s.pos t
        omega
      · intro _ hr; exact h.delOf (by rw [hp]; rfl) hr

end

/-! ### moving the tail, linking -/

section
variable {s : St T m} {t : Fin m} (h : Inv s) (c : Cmd T) (f : Addr)
include h

/-- Steps that only touch the tail pointer and the record of finished publish calls. -/
theorem Inv.mk2 {tail' : Addr} {tp' : Nat} {fin' : List (Nat × T)} (p : PC T)
    (hown : p.owned = (s.pc t).owned) (hA : p.relA = (s.pc t).relA) (hB : p.relB = (s.pc t).relB)
    (hip : p.inPub = (s.pc t).inPub ∨ p.inPub = none)
    (keep : (s.pc t).owned ≠ none → (s.pc t).inPub ≠ none → p.inPub ≠ none)
    (hin : (s.pc t).inPub ≠ none)
    (htail : tail' = nodeAt s.log tp') (htp : s.tp ≤ tp') (htpN : tp' ≤ s.log.length)
    (hlag : tp' < s.log.length → ∃ u, (update s.pc t p u).swing = some s.log.length)
    (loc : LocalPC { s with tail := tail', tp := tp', fin := fin', pc := update s.pc t p } t p)
    (fin : ∀ q ∈ fin', 1 ≤ q.1 ∧ q.1 ≤ tp' ∧ (s.log[q.1 - 1]?).map Prod.snd = some q.2)
    (fnd : (fin'.map Prod.fst).Nodup)
    (fsw : ∀ u i, (update s.pc t p u).swing = some i → i ∉ fin'.map Prod.fst)
    (sw2 : ∀ u v i, (update s.pc t p u).swing = some i → (update s.pc t p v).swing = some i → u = v)
    (all : ∀ i, 1 ≤ i → i ≤ s.log.length → i ∈ fin'.map Prod.fst ∨ ∃ u, (update s.pc t p u).swing = some i) :
    Inv { s with tail := tail', tp := tp', fin := fin', pc := update s.pc t p } := by
  have hf : Frame s { s with tail := tail', tp := tp', fin := fin', pc := update s.pc t p } t := by
    refine ⟨?_, ?_, ?_, ?_, ?_, ⟨[], by simp⟩, htp, ?_, ?_, ?_, ?_, ?_, ?_, ?_⟩ <;>
          try (intros; first | rfl | exact ⟨rfl, rfl⟩)
    · intro u hu; exact update_of_ne hu _ _
    · intro a; left; rfl
    · intro a ha hp _
      show (update s.pc t p t).inPub ≠ none
      rw [update_self]
      exact keep (by rw [h.own a t ha]; simp) hp
    · intro u hu hrx
      exact absurd (h.lock u hrx t (Ne.symm hu)) hin
  have hself : update s.pc t p t = p := update_self ..
  refine ⟨h.bad, h.st0, h.lnk, ?_, h.fsn, h.fsc, h.fst, htail, htpN, ?_, hlag, h.nxt, h.nxtN, ?_, h.refs, h.data, h.rc1, h.rc2,
    ?_, ?_, h.lockOf p hip, ?_, fin, fnd, fsw, sw2, all⟩
  · intro a u ha
    show (update s.pc t p u).owned = _
    rw [upd_pc PC.owned hown]; exact h.own a u ha
  · exact Nat.le_trans h.Ntp (Nat.add_le_add_right htp 1)
  · intro h0 hr
    exact h.hd h0 (fun u => by rw [← upd_pc PC.relA hA]; exact hr u)
  · intro u
    by_cases hu : u = t
    · subst hu
      have b := h.base u; exact ⟨b.ddpos, Nat.le_trans b.postp htp, b.cur⟩
    · exact hf.base h hu
  · intro u
    by_cases hu : u = t
    · subst hu
      show LocalPC _ u (update s.pc u p u)
      rw [hself]; exact loc
    · exact hf.local h hu
  · intro hr
    exact h.del (fun u => by rw [← upd_pc PC.relB hB]; exact hr u)

theorem inv_pubHelp {x n a an} (hp : s.pc t = .pubHelp x n a an) : Inv (step s t c f) := by
  have hl := h.loc t
  rw [hp] at hl
  simp only [step, hp]
  obtain ⟨l1, l2, k, l3, l4, l5, l6, l7⟩ := hl
  have hN := h.tpN
  have hN2 := h.Ntp
  have ⟨b1, b2, b3, b4, b5⟩ := h.base' t
  split
  · rename_i htail
    have hk : s.tp = k := h.at_inj (t := t) (u := t) hN (by omega) (by omega) l4 (by rw [← h.tl, htail, l3])
    have hsw : ∀ u, (update s.pc t (.pubCas x n a) u).swing = (s.pc u).swing := upd_pc PC.swing (by rw [hp]; rfl)
    refine h.mk2 (tail' := an) (tp' := s.tp + 1) (fin' := s.fin) (.pubCas x n a) ?_ ?_ ?_ ?_ ?_ ?_ ?_ ?_ ?_ ?_ ?_ ?_ ?_ ?_ ?_ ?_
    iterate 6 (rw [hp]; simp [PC.inPub, PC.owned, PC.relA, PC.relB])
    · rw [l7, hk]
    · omega
    · omega
    · intro; omega
    · exact ⟨l1, l2, k, l3, l4, Nat.le_succ_of_le l5⟩
    · intro q hq; obtain ⟨c1, c2, c3⟩ := h.fin q hq; exact ⟨c1, by omega, c3⟩
    · exact h.fnd
    · intro u i hu; rw [hsw] at hu; exact h.fsw u i hu
    · intro u v i hu hv; rw [hsw] at hu hv; exact h.sw2 u v i hu hv
    · intro i h1 h2
      rcases h.all i h1 h2 with e | ⟨u, e⟩
      · exact Or.inl e
      · exact Or.inr ⟨u, by rw [hsw]; exact e⟩
  · refine h.pcStep (.pubCas x n a) ?_ (h.lockOf _ ?_) ?_ ?_ ?_ ?_ ⟨l1, l2, k, l3, l4, l5⟩ <;>
        rw [hp] <;> simp [PC.swing, PC.inPub, PC.owned, PC.relA, PC.relB]

/-- a publish call returns: common part of `publish` and `publishRelaxed` -/
theorem Inv.finish {x : T} {n : Addr} {i : Nat} {tail' : Addr} {tp' : Nat}
    (hpsw : (s.pc t).swing = some i) (hrest : Rest s t)
    (hown : (s.pc t).owned = none) (hA : (s.pc t).relA = false) (hB : (s.pc t).relB = false)
    (hin : (s.pc t).inPub ≠ none)
    (htail : tail' = nodeAt s.log tp') (htp : s.tp ≤ tp') (htpN : tp' ≤ s.log.length)
    (hi1 : 1 ≤ i) (hi : i ≤ tp') (hlog : s.log[i - 1]? = some (n, x)) :
    Inv { s with tail := tail', tp := tp', fin := s.fin ++ [(i, x)], pc := update s.pc t .idle } := by
  have hsw : ∀ u, u ≠ t → (update s.pc t .idle u).swing = (s.pc u).swing := fun u hu => by rw [update_of_ne hu]
  have hswt : (update s.pc t .idle t).swing = none := by rw [update_self]; rfl
  have hne : ∀ u j, (update s.pc t .idle u).swing = some j → u ≠ t ∧ (s.pc u).swing = some j := by
    intro u j hu
    have hut : u ≠ t := by intro e; subst e; rw [hswt] at hu; simp at hu
    exact ⟨hut, by rw [← hsw u hut]; exact hu⟩
  refine h.mk2 (.idle) ?_ ?_ ?_ (Or.inr rfl) ?_ hin htail htp htpN ?_ hrest ?_ ?_ ?_ ?_ ?_
  · rw [hown]; rfl
  · rw [hA]; rfl
  · rw [hB]; rfl
  · intro h1; rw [hown] at h1; simp at h1
  · intro hlt
    have hN := h.tpN
    obtain ⟨u, hu⟩ := h.lag (by omega)
    have hut : u ≠ t := by
      intro e; subst e; rw [hpsw] at hu
      have : i = s.log.length := by simpa using hu
      omega
    exact ⟨u, by rw [hsw u hut]; exact hu⟩
  · intro q hq
    rcases List.mem_append.mp hq with hq | hq
    · obtain ⟨c1, c2, c3⟩ := h.fin q hq; exact ⟨c1, by omega, c3⟩
    · have : q = (i, x) := by simpa using hq
      subst this
      exact ⟨hi1, hi, by rw [hlog]; rfl⟩
  · rw [List.map_append, List.nodup_append]
    refine ⟨h.fnd, by simp, ?_⟩
    intro a ha b hb e
    have : b = i := by simpa using hb
    exact h.fsw t i hpsw (by rw [← this, ← e]; exact ha)
  · intro u j hu
    obtain ⟨hut, hu⟩ := hne u j hu
    rw [List.map_append, List.mem_append]
    rintro (hin | hin)
    · exact h.fsw u j hu hin
    · have : j = i := by simpa using hin
      subst this; exact hut (h.sw2 u t j hu hpsw)
  · intro u v j hu hv
    exact h.sw2 u v j (hne u j hu).2 (hne v j hv).2
  · intro j h1 h2
    rw [List.map_append, List.mem_append]
    rcases h.all j h1 h2 with e | ⟨u, e⟩
    · exact Or.inl (Or.inl e)
    · by_cases hut : u = t
      · subst hut
        rw [hpsw] at e
        have : i = j := by simpa using e
        left; right; simp [this]
      · right; exact ⟨u, by rw [hsw u hut]; exact e⟩

theorem inv_pubSwing {x n a i} (hp : s.pc t = .pubSwing x n a i) : Inv (step s t c f) := by
  have hl := h.loc t
  rw [hp] at hl
  simp only [step, hp]
  obtain ⟨l1, l2, l3, l4, l5, l6, l7⟩ := hl
  have hN := h.tpN
  have ⟨b1, b2, b3, b4, b5⟩ := h.base' t
  have hna : nodeAt s.log i = n := by
    obtain ⟨j, rfl⟩ : ∃ j, i = j + 1 := ⟨i - 1, by omega⟩
    rw [Nat.add_sub_cancel] at l7
    simp [nodeAt, l7]
  split
  · rename_i htail
    have hk : s.tp = i - 1 := h.at_inj (t := t) (u := t) hN (by omega) (by omega) l5 (by rw [← h.tl, htail, l6])
    refine h.finish (t := t) (n := n) (i := i) (tail' := n) (tp' := s.tp + 1) (by rw [hp]; rfl) l1 ?_ ?_ ?_ ?_ ?_ ?_ ?_ l2 ?_ l7
    iterate 4 (rw [hp]; simp [PC.inPub, PC.owned, PC.relA, PC.relB])
    · rw [hk, Nat.sub_add_cancel l2, hna]
    · omega
    · omega
    · omega
  · rename_i htail
    have hk : s.tp ≠ i - 1 := by
      intro e; apply htail; rw [h.tl, e, l6]
    refine h.finish (t := t) (n := n) (i := i) (tail' := s.tail) (tp' := s.tp) (by rw [hp]; rfl) l1 ?_ ?_ ?_ ?_ h.tl (Nat.le_refl _) hN l2 ?_ l7
    iterate 4 (rw [hp]; simp [PC.inPub, PC.owned, PC.relA, PC.relB])
    · omega

theorem inv_rlxSwing {x n i} (hp : s.pc t = .rlxSwing x n i) : Inv (step s t c f) := by
  have hl := h.loc t
  rw [hp] at hl
  simp only [step, hp]
  obtain ⟨l1, l2, l3, l4, l5⟩ := hl
  have hna : nodeAt s.log i = n := by
    obtain ⟨j, rfl⟩ : ∃ j, i = j + 1 := ⟨i - 1, by omega⟩
    rw [Nat.add_sub_cancel] at l5
    simp [nodeAt, l5]
  refine h.finish (t := t) (n := n) (i := i) (tail' := n) (tp' := s.tp + 1) (by rw [hp]; rfl) l1 ?_ ?_ ?_ ?_ ?_ ?_ ?_ l2 ?_ l5
  iterate 4 (rw [hp]; simp [PC.inPub, PC.owned, PC.relA, PC.relB])
  · rw [l4, hna]
  · omega
  · omega
  · omega

/-- a node is linked behind the last one -/
theorem Inv.link {x : T} {n a : Addr} (p : PC T) (hown : Own s t x n) (ha : a = nodeAt s.log s.log.length)
    (htp : s.tp = s.log.length) (hsw : (s.pc t).swing = none) (hps : p.swing = some (s.log.length + 1))
    (hpo : (s.pc t).owned = some n) (_ : p.owned = none)
    (hA : (s.pc t).relA = false) (_ : p.relA = false) (hB : (s.pc t).relB = false) (_ : p.relB = false)
    (hip : p.inPub = (s.pc t).inPub) (hin : (s.pc t).inPub ≠ none)
    (loc : LocalPC { s with
        next := update s.next a (some n), log := s.log ++ [(n, x)],
        st := update s.st n (.linked (s.log.length + 1)), pc := update s.pc t p } t p) :
    Inv { s with
        next := update s.next a (some n), log := s.log ++ [(n, x)],
        st := update s.st n (.linked (s.log.length + 1)), pc := update s.pc t p } := by
  obtain ⟨hn, hn1, hn2, hn3⟩ := hown
  have ⟨b1, b2, b3, b4, b5⟩ := h.base' t
  have hnl : ∀ j, s.st n ≠ .linked j := by rw [hn]; simp
  have hast : s.st a = .linked s.log.length := by rw [ha]; exact h.st_at (t := t) (Nat.le_refl _) b4
  have hna : n ≠ a := by intro e; rw [e, hast] at hn; simp at hn
  have hat : ∀ i, i ≤ s.log.length → nodeAt (s.log ++ [(n, x)]) i = nodeAt s.log i := fun i hi => nodeAt_append _ _ _ hi
  have hlast : nodeAt (s.log ++ [(n, x)]) (s.log.length + 1) = n := nodeAt_last _ _ _
  have hlen : (s.log ++ [(n, x)]).length = s.log.length + 1 := by simp
  have hrcN : s.rc ≤ s.log.length := by rcases h.rc1 t with e | e <;> omega
  have hself : update s.pc t p t = p := update_self ..
  have hf : Frame s { s with
        next := update s.next a (some n), log := s.log ++ [(n, x)],
        st := update s.st n (.linked (s.log.length + 1)), pc := update s.pc t p } t := by
    refine ⟨?_, ?_, ?_, ?_, ?_, ⟨_, rfl⟩, Nat.le_refl _, ?_, ?_, ?_, ?_, ?_, ?_, ?_⟩ <;>
          try (intros; first | rfl | exact ⟨rfl, rfl⟩)
    · intro u hu; exact update_of_ne hu _ _
    · intro b hb
      refine update_of_ne ?_ _ _
      intro e; subst e; rw [hast] at hb; simp at hb
    · intro b
      by_cases hb : b = n
      · subst hb; right; right; right; left; exact ⟨hn, update_self ..⟩
      · left; exact update_of_ne hb _ _
    · intro b hb hp _
      show (update s.pc t p t).inPub ≠ none
      rw [hself, hip]; exact hp
    · intro u hu hrx
      exact absurd (h.lock u hrx t (Ne.symm hu)) hin
  have hswu : ∀ u i, (update s.pc t p u).swing = some i → (u = t ∧ i = s.log.length + 1) ∨ (u ≠ t ∧ (s.pc u).swing = some i) := by
    intro u i hu
    by_cases hut : u = t
    · subst hut; rw [hself, hps] at hu; left; exact ⟨rfl, by simpa using hu.symm⟩
    · rw [update_of_ne hut] at hu; exact Or.inr ⟨hut, hu⟩
  have hswle : ∀ u i, (s.pc u).swing = some i → i ≤ s.log.length := by
    intro u i hu
    have hl := h.loc u
    generalize s.pc u = q at hu hl
    cases q <;> simp [PC.swing] at hu
    · subst hu; exact hl.2.2.1
    · subst hu; exact Nat.le_of_eq hl.2.2.1
  refine ⟨h.bad, ?_, ?_, ?_, h.fsn, ?_, ?_, ?_, ?_, ?_, ?_, ?_, ?_, ?_, ?_, ?_, h.rc1, h.rc2, ?_, ?_, h.lockOf p (Or.inl hip), ?_, ?_, h.fnd, ?_, ?_, ?_⟩
  · show update s.st n _ 0 = _
    rw [update_of_ne (h.head_ne hnl).symm]; exact h.st0
  · intro i hi hN
    show update s.st n _ (nodeAt (s.log ++ [(n, x)]) i) = _
    have hi : s.rc < i := hi
    have hN : i ≤ (s.log ++ [(n, x)]).length := hN
    rw [hlen] at hN
    by_cases hil : i = s.log.length + 1
    · rw [hil, hlast, update_self]
    · rw [hat i (by omega), update_of_ne (h.lnk_ne hi (by omega) hnl)]; exact h.lnk i hi (by omega)
  · intro b u hb
    have hb : update s.st n (Cls.linked (s.log.length + 1)) b = .priv u := hb
    show (update s.pc t p u).owned = some b
    by_cases hbn : b = n
    · subst hbn; rw [update_self] at hb; simp at hb
    · rw [update_of_ne hbn] at hb
      have := h.own b u hb
      by_cases hut : u = t
      · subst hut; rw [hpo] at this; exact absurd (by simpa using this.symm) hbn
      · rw [update_of_ne hut]; exact this
  · intro b hb
    have h1 := h.fsc b hb
    show update s.st n _ b = _
    rw [update_of_ne]
    · exact h1
    · intro e; subst e; rw [hn] at h1; simp at h1
  · refine isStack_congr (fun b hb => update_of_ne ?_ _ _) h.fst
    intro e; subst e; have := h.fsc _ hb; rw [hast] at this; simp at this
  · show s.tail = nodeAt (s.log ++ [(n, x)]) s.tp
    rw [hat _ h.tpN]; exact h.tl
  · show s.tp ≤ (s.log ++ [(n, x)]).length
    rw [hlen]; omega
  · show (s.log ++ [(n, x)]).length ≤ s.tp + 1
    rw [hlen]; omega
  · intro _
    refine ⟨t, ?_⟩
    show (update s.pc t p t).swing = some (s.log ++ [(n, x)]).length
    rw [hself, hlen, hps]
  · intro i hi hN
    have hi : s.rc < i := hi
    have hN : i < (s.log ++ [(n, x)]).length := hN
    rw [hlen] at hN
    show update s.next a _ (nodeAt (s.log ++ [(n, x)]) i) = some (nodeAt (s.log ++ [(n, x)]) (i + 1))
    by_cases hil : i = s.log.length
    · rw [hil, hlast, hat _ (Nat.le_refl _), ← ha, update_self]
    · rw [hat i (by omega), hat (i + 1) (by omega), update_of_ne]
      · exact h.nxt i hi (by omega)
      · intro e
        have h1 := h.lnk i hi (by omega)
        rw [e, hast] at h1
        exact hil (by simpa using h1.symm)
  · show update s.next a _ (nodeAt (s.log ++ [(n, x)]) (s.log ++ [(n, x)]).length) = none
    rw [hlen, hlast, update_of_ne hna]; exact hn1
  · intro _ hr
    show update s.next a _ 0 = some (nodeAt (s.log ++ [(n, x)]) (s.rc + 1))
    have hr' : ∀ u, (s.pc u).relA = false := by
      intro u
      by_cases hut : u = t
      · subst hut; exact hA
      · have : (update s.pc t p u).relA = false := hr u
        rwa [update_of_ne hut] at this
    by_cases h0 : s.log.length = 0
    · have : a = 0 := by rw [ha, h0]; rfl
      have hrc0 : s.rc = 0 := by omega
      rw [this, update_self, hrc0, ← h0, hlast]
    · have : (0 : Addr) ≠ a := by
        intro e
        rw [← e, h.st0] at hast
        exact h0 (by simpa using hast.symm)
      rw [update_of_ne this, h.hd (by omega) hr']
      congr 1
      by_cases hrl : s.rc + 1 ≤ s.log.length
      · rw [hat _ hrl]
      · -- cannot be: the head of a nonempty queue is never released completely
        exfalso
        rcases h.rc1 t with e | e <;> omega
  · intro i hi hN
    have hi : s.rc < i := hi
    have hN : i ≤ (s.log ++ [(n, x)]).length := hN
    rw [hlen] at hN
    show s.refs (nodeAt (s.log ++ [(n, x)]) i) = cnt s.dd i
    by_cases hil : i = s.log.length + 1
    · rw [hil, hlast, hn2]
      have : cnt s.dd (s.log.length + 1) = m := by
        unfold cnt
        rw [Finset.filter_true_of_mem, Finset.card_univ, Fintype.card_fin]
        intro u _
        have ⟨_, _, _, b4, _⟩ := h.base' u
        omega
      rw [this]
    · rw [hat i (by omega)]; exact h.refs i hi (by omega)
  · intro i hi hN
    have hi : s.rc < i := hi
    have hN : i ≤ (s.log ++ [(n, x)]).length := hN
    rw [hlen] at hN
    show s.data (nodeAt (s.log ++ [(n, x)]) i) = ((s.log ++ [(n, x)])[i - 1]?).map Prod.snd
    by_cases hil : i = s.log.length + 1
    · rw [hil, hlast, hn3]; simp
    · rw [hat i (by omega), List.getElem?_append_left (by omega)]; exact h.data i hi (by omega)
  · intro u
    by_cases hu : u = t
    · subst hu
      refine ⟨b1, b2, ?_⟩
      show s.cur u = nodeAt (s.log ++ [(n, x)]) (s.pos u)
      rw [hat _ b5]; exact b3
    · exact hf.base h hu
  · intro u
    by_cases hu : u = t
    · subst hu
      show LocalPC _ u (update s.pc u p u)
      rw [hself]; exact loc
    · exact hf.local h hu
  · intro hr
    show s.del = ((s.log ++ [(n, x)]).take s.rc).map Prod.snd
    rw [List.take_append_of_le_length hrcN]
    refine h.del (fun u => ?_)
    by_cases hut : u = t
    · subst hut; exact hB
    · have : (update s.pc t p u).relB = false := hr u
      rwa [update_of_ne hut] at this
  · intro q hq
    obtain ⟨c1, c2, c3⟩ := h.fin q hq
    refine ⟨c1, c2, ?_⟩
    show ((s.log ++ [(n, x)])[q.1 - 1]?).map Prod.snd = some q.2
    rw [List.getElem?_append_left (by omega)]; exact c3
  · intro u i hu hin
    rcases hswu u i hu with ⟨_, e⟩ | ⟨_, e⟩
    · obtain ⟨q, hq, hq2⟩ := List.mem_map.mp hin
      have := (h.fin q hq).2.1
      omega
    · exact h.fsw u i e hin
  · intro u v i hu hv
    rcases hswu u i hu with ⟨e1, e⟩ | ⟨_, e⟩ <;> rcases hswu v i hv with ⟨e3, e4⟩ | ⟨_, e4⟩
    · rw [e1, e3]
    · have := hswle v i e4; omega
    · have := hswle u i e; omega
    · exact h.sw2 u v i e e4
  · intro i h1 h2
    have h2 : i ≤ (s.log ++ [(n, x)]).length := h2
    rw [hlen] at h2
    by_cases hil : i = s.log.length + 1
    · right; refine ⟨t, ?_⟩
      show (update s.pc t p t).swing = some i
      rw [hself, hps, hil]
    · rcases h.all i h1 (by omega) with e | ⟨u, e⟩
      · exact Or.inl e
      · right; refine ⟨u, ?_⟩
        show (update s.pc t p u).swing = some i
        rw [update_of_ne]
        · exact e
        · intro e2; subst e2; rw [hsw] at e; simp at e

theorem inv_pubCas {x n a} (hp : s.pc t = .pubCas x n a) : Inv (step s t c f) := by
  have hl := h.loc t
  rw [hp] at hl
  simp only [step, hp]
  obtain ⟨l1, l2, k, l3, l4, l5⟩ := hl
  have hN := h.tpN
  split
  · rename_i hnone
    have hk : k = s.log.length := by
      by_contra hne
      have := h.next_at (i := k) (by omega) l4
      rw [← l3, hnone] at this; simp at this
    have htp : s.tp = s.log.length := by omega
    refine h.link (.pubSwing x n a (s.log.length + 1)) l2 (by rw [l3, hk]) htp ?_ rfl ?_ rfl ?_ rfl ?_ rfl ?_ ?_
      ⟨l1, by omega, ?_, ?_, ?_, ?_, ?_⟩
    iterate 6 (rw [hp]; simp [PC.swing, PC.inPub, PC.owned, PC.relA, PC.relB])
    · simp
    · show s.log.length + 1 ≤ s.tp + 1
      omega
    · show s.dd t ≤ s.log.length + 1 - 1
      omega
    · show a = nodeAt (s.log ++ [(n, x)]) (s.log.length + 1 - 1)
      rw [Nat.add_sub_cancel, nodeAt_append _ _ _ (Nat.le_refl _), l3, hk]
    · show (s.log ++ [(n, x)])[s.log.length + 1 - 1]? = _
      simp
  · refine h.pcStep (.pubTail x n) ?_ (h.lockOf _ ?_) ?_ ?_ ?_ ?_ ⟨l1, l2⟩ <;>
        rw [hp] <;> simp [PC.swing, PC.inPub, PC.owned, PC.relA, PC.relB]

theorem inv_rlxLink {x n a} (hp : s.pc t = .rlxLink x n a) : Inv (step s t c f) := by
  have hl := h.loc t
  rw [hp] at hl
  simp only [step, hp]
  obtain ⟨l1, l2, l3, l4⟩ := hl
  refine h.link (.rlxSwing x n (s.log.length + 1)) l2 l3 l4 ?_ rfl ?_ rfl ?_ rfl ?_ rfl ?_ ?_ ⟨l1, by omega, ?_, ?_, ?_⟩
  iterate 6 (rw [hp]; simp [PC.swing, PC.inPub, PC.owned, PC.relA, PC.relB])
  · simp
  · show s.tp + 1 = s.log.length + 1
    omega
  · show (s.log ++ [(n, x)])[s.log.length + 1 - 1]? = _
    simp

theorem inv_step (hc : s.pc t = .idle → mayStart s t c) (hf : s.st f = .unused) : Inv (step s t c f) := by
  cases hp : s.pc t with
  | idle => exact inv_idle h c f hp (hc hp)
  | popTop => exact inv_popTop h c f hp
  | popNext => exact inv_popNext h c f hp
  | popCas => exact inv_popCas h c f hp
  | new => exact inv_new h c f hp hf
  | init1 => exact inv_init1 h c f hp
  | init2 => exact inv_init2 h c f hp
  | pubTail => exact inv_pubTail h c f hp
  | pubNext => exact inv_pubNext h c f hp
  | pubCheck => exact inv_pubCheck h c f hp
  | pubHelp => exact inv_pubHelp h c f hp
  | pubCas => exact inv_pubCas h c f hp
  | pubSwing => exact inv_pubSwing h c f hp
  | rlxTail => exact inv_rlxTail h c f hp
  | rlxLink => exact inv_rlxLink h c f hp
  | rlxSwing => exact inv_rlxSwing h c f hp
  | conTail => exact inv_conTail h c f hp
  | conMove => exact inv_conMove h c f hp
  | conDec => exact inv_conDec h c f hp
  | relNext => exact inv_relNext h c f hp
  | relHead => exact inv_relHead h c f hp
  | relDel => exact inv_relDel h c f hp
  | push1 => exact inv_push1 h c f hp
  | push2 => exact inv_push2 h c f hp
  | push3 => exact inv_push3 h c f hp
  | conRead => exact inv_conRead h c f hp

end

theorem inv_init (hm : 0 < m) : Inv (init T m) := by
  refine ⟨rfl, rfl, ?_, ?_, List.nodup_nil, ?_, rfl, rfl, Nat.le_refl _, Nat.zero_le _, ?_, ?_, rfl, ?_, ?_, ?_, ?_, ⟨⟨0, hm⟩, ?_⟩, ?_, ?_, ?_, ?_, ?_,
    List.nodup_nil, ?_, ?_, ?_⟩
  · intro i h1 h2; have : i ≤ 0 := h2; have : 0 < i := h1; omega
  · intro a t ha
    have ha : (if a = 0 then Cls.linked 0 else Cls.unused : Cls m) = .priv t := ha
    split at ha <;> simp at ha
  · intro a ha; exact absurd ha List.not_mem_nil
  · intro h; exact absurd h (Nat.lt_irrefl 0)
  · intro i h1 h2; exact absurd h2 (Nat.not_lt_zero i)
  · intro h; exact absurd h (Nat.lt_irrefl 0)
  · intro i h1 h2; have : i ≤ 0 := h2; have : 0 < i := h1; omega
  · intro i h1 h2; have : i ≤ 0 := h2; have : 0 < i := h1; omega
  · intro t; right; rfl
  · exact Nat.zero_le _
  · intro t; exact ⟨Nat.le_refl _, Nat.le_refl _, rfl⟩
  · intro t; exact ⟨rfl, rfl⟩
  · intro t h; simp [init, PC.inPub] at h
  · intro _; rfl
  · intro q hq; exact absurd hq List.not_mem_nil
  · intro t i h; simp [init, PC.swing] at h
  · intro t u i h; simp [init, PC.swing] at h
  · intro i h1 h2; have : i ≤ 0 := h2; omega

theorem inv_reachable (hm : 0 < m) {s : St T m} (h : Reachable s) : Inv s := by
  induction h with
  | init => exact inv_init hm
  | step t c f _ hc hf ih => exact inv_step ih c f hc hf

end Clasp.MQ
