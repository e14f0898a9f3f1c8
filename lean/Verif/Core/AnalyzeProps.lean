/- C13, C14: learnt clauses are implied, asserting, and minimization is sound. -/
import Verif.Core.AnalyzeLem
import Verif.Core.TrailProps
namespace Clasp.Core
open St

/-- Assumption on inverse arcs (shared_context.cpp:333-346, clause.cpp:793-809): the reason found consists of true
literals that are marked or of a level below `jl`, does not mention the variable to be resolved, and implies
its complement. -/
def ArcOk (F : Asg → Prop) (arc : St → Lit → Nat → Ante) : Prop :=
  ∀ st c jl r, arc st c jl = some r →
    (∀ x ∈ r, st.isTrue x = true ∧ x.var ≠ c.var ∧ (st.seen x.var = true ∨ st.level x.var < jl)) ∧
    (∀ M, F M → M.all r → M.sat c.neg) ∧ (r.filter (· ≠ litTrue)).Nodup

/-- Specification of a learnt clause, on the state in which the conflict happened. -/
structure Learnt (F : Asg → Prop) (s : St) (clause : List Lit) (jl : Nat) : Prop where
  implied : ∀ M, F M → M.satC clause
  false : ∀ c ∈ clause, s.isFalse c = true
  shape : ∃ h t, clause = h :: t ∧ s.level h.var = s.dl ∧ (∀ c ∈ t, 0 < s.level c.var ∧ s.level c.var ≤ jl) ∧
    (∀ c, t.head? = some c → s.level c.var = jl) ∧ (t = [] → jl = 0)
  below : jl < s.dl
  nodup : (clause.map Lit.var).Nodup

theorem learnt_unit {F : Asg → Prop} {s : St} (hw : s.WF) {clause : List Lit} {jl : Nat} (h : Learnt F s clause jl)
    (hon : ∀ v, s.value v ≠ none → v = 0 ∨ ∃ q ∈ s.trail, q.var = v) (h0 : s.level 0 = 0)
    {d : Nat} (hd : jl ≤ d) (hd' : d < s.dl) (hf : s.flip ≤ d) :
    ∃ a t, clause = a :: t ∧ (s.undoUntilImpl d).value a.var = none ∧ ∀ c ∈ t, (s.undoUntilImpl d).isFalse c = true := by
  obtain ⟨a, t, hc, hl, hlow, _, _⟩ := h.shape
  have hu := C09_undo hw hd' hf
  refine ⟨a, t, hc, ?_, fun c hct => ?_⟩
  · have hfalse := h.false a (by rw [hc]; simp)
    have hne : s.value a.var ≠ none := by
      unfold St.isFalse at hfalse; intro e; rw [e] at hfalse; simp at hfalse
    rcases hon _ hne with e | ⟨q, hq, e⟩
    · rw [e, h0] at hl; omega
    · have := hu.2.1 q hq (by rw [e, hl]; exact hd')
      unfold value; rw [← e, this]; rfl
  · have := hlow c hct
    have hfalse := h.false c (by rw [hc]; simp [hct])
    unfold St.isFalse value at hfalse ⊢
    rw [hu.2.2.1 c.var (fun q _ _ => by omega)]
    exact hfalse

theorem analyze_spec {F : Asg → Prop} {s : St} (hp : AnaPre F s) (cfg : AnaCfg) (hep : ∀ e, cfg.rc = some e → ∀ v, e v ≤ e 0)
    (harc : ArcOk F cfg.arc) :
    ∃ a p u keep rem rc N res, MinPost F cfg s a p u keep rem rc ∧ (∀ fuel ≥ N, analyze cfg fuel s = some res) ∧
      Learnt F s res.clause res.jl ∧ res.clause.head? = some p.neg ∧
      ((∀ st c jl, cfg.arc st c jl = none) → res.clause.tail.Perm keep) ∧
      (∃ w u, s.trail = w ++ p :: u ∧
        res.st = { s with cell := fun v => if v ∈ w.map Lit.var then Cell.free else s.cell v, trail := p :: u }) ∧
      (∀ k, res.lm k = false) ∧ (res.epoch.isSome = cfg.rc.isSome ∧ ∀ e, res.epoch = some e → ∀ v, e v ≤ e 0) := by
  obtain ⟨a, p, u, keep, rem, rc, N, hm, hN⟩ := min_spec hp cfg hep
  have hi := hm.uip.inv
  obtain ⟨w, hw, hwf⟩ := hi.suf
  have hw' : s.trail = w ++ p :: u := by rw [hw]; simp
  have hmemT : ∀ x ∈ p :: u, x ∈ s.trail := fun x hx => by rw [hw']; exact List.mem_append_right _ hx
  have hlevA : ∀ x ∈ p :: u, a.st.level x.var = s.level x.var := fun x hx => (hi.cells x (by simpa using hx)).2
  have hkcc : ∀ c ∈ keep, c ∈ a.cc := fun c hc => (hm.split.mem c).2 (Or.inl hc)
  have hrcc : ∀ c ∈ rem, c ∈ a.cc := fun c hc => (hm.split.mem c).2 (Or.inr hc)
  have hccu : ∀ c ∈ a.cc, c.neg ∈ u := fun c hc => (hi.ccP c hc).1
  have hccl : ∀ c ∈ a.cc, a.st.level c.var = s.level c.var := fun c hc => by
    have := hlevA c.neg (by simp [hccu c hc]); simpa using this
  have hlpos : ∀ c ∈ a.cc, 0 < a.st.level c.var ∧ a.st.level c.var < s.dl := fun c hc => by
    rw [hccl c hc]; exact ⟨(hi.ccP c hc).2.1, (hi.ccP c hc).2.2.1⟩
  have hdisj := hm.split.disj hi.ccN
  have hkn : (keep.map Lit.var).Nodup := hi.ccN.sublist (hm.split.sub.1.map _)
  -- the clause after minimization is implied
  have hkeep : ∀ M, F M → M.sat p → (∀ c ∈ keep, M.sat c.neg) → False := by
    intro M hM hMp hk
    have h1 := hm.uip.clause M hM
    rw [Asg.satC_iff_not_all_neg] at h1
    apply h1
    intro x hx
    simp only [List.map_cons, List.mem_cons, List.mem_map] at hx
    rcases hx with e | ⟨c, hc, e⟩
    · rw [e]; simpa using hMp
    · rw [← e]
      rcases (hm.split.mem c).1 hc with hc | hc
      · exact hk c hc
      · exact hm.red M hM hk c hc
  -- names for the intermediate results
  obtain ⟨hperm, hmax, hhead, hnil⟩ := swapFront_spec a.st.level keep (fun c hc => (hlpos c (hkcc c hc)).1)
  generalize hb : assertAux a.st.level keep 0 (0, 0) = best at hperm hmax hhead hnil
  generalize hcc : swapFront keep best.1 = cc at hperm hhead
  have hst : rem.foldl (fun s c => s.clearSeen c.var) a.st = _ := foldClear rem a.st
  generalize hst1 : rem.foldl (fun s c => s.clearSeen c.var) a.st = st at hst
  generalize hon : (keep.filter fun c => decide (a.st.level c.var = best.2)).length = on
  have hjl : best.2 < s.dl := by
    cases hcase : cc with
    | nil =>
      have : keep = [] := by rw [hcase] at hperm; exact List.Perm.eq_nil hperm.symm
      rw [hnil this]; exact hp.dl
    | cons c t =>
      have hck : c ∈ keep := hperm.mem_iff.1 (by rw [hcase]; simp)
      have := hhead c (by rw [hcase]; rfl)
      rw [← this]; exact (hlpos c (hkcc c hck)).2
  -- cells of `st`
  have hstc : ∀ v, st.cell v = if v ∈ rem.map Lit.var then { a.st.cell v with seen := (false, false) } else a.st.cell v := by
    intro v; rw [hst]
  have hstl : ∀ v, st.level v = a.st.level v := by
    intro v; unfold St.level; rw [hstc]; split <;> rfl
  have hstv : ∀ v, st.value v = a.st.value v := by
    intro v; unfold St.value; rw [hstc]; split <;> rfl
  -- true literals of `a.st`
  have htrue : ∀ x, a.st.isTrue x = true → x = litTrue ∨ x ∈ p :: u := by
    intro x hx
    have hv : a.st.value x.var = some x.tv := by unfold St.isTrue at hx; simpa using hx
    by_cases h0 : x.var = 0
    · left
      unfold St.value at hv
      rw [h0, hi.off 0 hp.toff] at hv
      have h1 := hp.tval
      unfold St.value at h1
      rw [h1] at hv
      cases x with | mk v b =>
      simp only at h0
      cases b <;> simp_all [Lit.tv, litTrue]
    · right
      by_cases hall : ∃ q ∈ s.trail, q.var = x.var
      · obtain ⟨q, hq, e⟩ := hall
        rw [hw', List.mem_append] at hq
        rcases hq with hq | hq
        · have := hwf q hq
          unfold St.value at hv
          rw [← e, this] at hv
          simp [Cell.free] at hv
        · have h1 := (hi.cells q (by simpa using hq)).1
          have h2 := hp.wf.val q (hmemT q hq)
          unfold St.value at hv
          rw [← e, h1, h2] at hv
          have : q = x := by
            cases q with | mk v b => cases x with | mk v' b' =>
            simp only at e; subst e
            cases b <;> cases b' <;> simp_all [Lit.tv]
          exact this ▸ hq
      · exfalso
        have hall' : ∀ q ∈ s.trail, q.var ≠ x.var := fun q hq e => hall ⟨q, hq, e⟩
        unfold St.value at hv
        rw [hi.off x.var hall'] at hv
        rcases hp.asg x.var (by unfold St.value; rw [hv]; simp) with h | h
        · exact h0 h
        · exact hall h
  -- after the inverse arc
  have harcs : ∃ cc' st' lm', arcStep cfg.arc st p cc best.2 on a.lm = (cc', st', lm') ∧
      (∀ c ∈ cc', c.neg ∈ u ∧ 0 < s.level c.var ∧ s.level c.var < s.dl) ∧
      (∀ M, F M → M.sat p → (∀ c ∈ cc', M.sat c.neg) → False) ∧
      (∀ v, st'.cell v = st.cell v ∨ (st'.cell v = { st.cell v with seen := (false, false) } ∧ ∃ c ∈ keep, c.var = v)) ∧
      (∀ c ∈ keep, c ∈ cc' ∨ (st'.cell c.var = { st.cell c.var with seen := (false, false) } ∧ lm' (s.level c.var) = false)) ∧
      st' = { st with cell := st'.cell } ∧ (∀ k, lm' k = true → a.lm k = true ∨ ∃ c ∈ cc', s.level c.var = k) ∧
      ((∀ st c jl, cfg.arc st c jl = none) → cc'.Perm keep) ∧ (cc'.map Lit.var).Nodup := by
    have hdefault : (∀ c ∈ cc, c.neg ∈ u ∧ 0 < s.level c.var ∧ s.level c.var < s.dl) ∧
      (∀ M, F M → M.sat p → (∀ c ∈ cc, M.sat c.neg) → False) ∧ (∀ c ∈ keep, c ∈ cc) := by
      refine ⟨fun c hc => ?_, fun M hM hMp hk => hkeep M hM hMp fun c hc => hk c (hperm.mem_iff.2 hc), fun c hc => hperm.mem_iff.2 hc⟩
      have := hkcc c (hperm.mem_iff.1 hc)
      exact ⟨hccu c this, by rw [← hccl c this]; exact (hlpos c this).1, by rw [← hccl c this]; exact (hlpos c this).2⟩
    have hnone : arcStep cfg.arc st p cc best.2 on a.lm = (cc, st, a.lm) → ∃ cc' st' lm', arcStep cfg.arc st p cc best.2 on a.lm = (cc', st', lm') ∧
      (∀ c ∈ cc', c.neg ∈ u ∧ 0 < s.level c.var ∧ s.level c.var < s.dl) ∧
      (∀ M, F M → M.sat p → (∀ c ∈ cc', M.sat c.neg) → False) ∧
      (∀ v, st'.cell v = st.cell v ∨ (st'.cell v = { st.cell v with seen := (false, false) } ∧ ∃ c ∈ keep, c.var = v)) ∧
      (∀ c ∈ keep, c ∈ cc' ∨ (st'.cell c.var = { st.cell c.var with seen := (false, false) } ∧ lm' (s.level c.var) = false)) ∧
      st' = { st with cell := st'.cell } ∧ (∀ k, lm' k = true → a.lm k = true ∨ ∃ c ∈ cc', s.level c.var = k) ∧
      ((∀ st c jl, cfg.arc st c jl = none) → cc'.Perm keep) ∧ (cc'.map Lit.var).Nodup := fun h =>
      ⟨cc, st, a.lm, h, hdefault.1, hdefault.2.1, fun _ => Or.inl rfl, fun c hc => Or.inl (hdefault.2.2 c hc), rfl, fun k h => Or.inl h, fun _ => hperm, (hperm.map _).nodup_iff.2 hkn⟩
    cases hcase : cc with
    | nil => rw [hcase] at hnone; exact hnone rfl
    | cons c t =>
      by_cases ho : on = 1
      · cases har : cfg.arc (st.markSeen p.var) c best.2 with
        | none => rw [hcase] at hnone; exact hnone (by simp only [arcStep, if_pos ho, har])
        | some r =>
          obtain ⟨hr1, hr2, hr3⟩ := harc _ _ _ _ har
          have hck : c ∈ keep := hperm.mem_iff.1 (by rw [hcase]; simp)
          have hcl : a.st.level c.var = best.2 := hhead c (by rw [hcase]; rfl)
          have hsn : ∀ v, (st.markSeen p.var).seen v = if v = p.var then true else st.seen v := fun v => seen_update st.cell p.var v true
          have hlv1 : ∀ v, (st.markSeen p.var).level v = st.level v := by
            intro v; unfold St.level St.markSeen
            by_cases e : v = p.var
            · subst e; simp
            · simp [e]
          have hvl1 : ∀ v, (st.markSeen p.var).value v = st.value v := by
            intro v; unfold St.value St.markSeen
            by_cases e : v = p.var
            · subst e; simp
            · simp [e]
          -- every literal of the reason
          have hrx : ∀ x ∈ r, x = litTrue ∨ x ∈ p :: u := by
            intro x hx
            apply htrue
            have := (hr1 x hx).1
            unfold St.isTrue at this ⊢
            rw [hvl1, hstv] at this; exact this
          have hres := ccResolve_perm (st.markSeen p.var).seen c t r
          have hseen0 : st.seen 0 = true := by
            have h1 : a.st.seen 0 = true := by unfold St.seen; rw [hi.off 0 hp.toff]; exact hp.tcell.1
            unfold St.seen at h1 ⊢
            rw [hstc, if_neg]
            · exact h1
            · intro hmem
              obtain ⟨d, hd, e⟩ := List.mem_map.1 hmem
              have := hccu d (hrcc d hd)
              exact hp.toff d.neg (hmemT _ (by simp [this])) e
          have hz : ∀ x ∈ p :: u, s.level x.var = 0 → st.seen x.var = true := by
            intro x hx h0
            have h1 : a.st.cell x.var = s.cell x.var := hi.zc x (by simpa using hx) h0
            have h2 := (hp.marks x (hmemT x hx)).2 h0
            unfold St.seen at h2 ⊢
            rw [hstc, if_neg, h1]
            · exact h2
            · intro hmem
              obtain ⟨d, hd, e⟩ := List.mem_map.1 hmem
              have := (hi.ccP d (hrcc d hd)).2.1
              rw [e] at this; omega
          have hnewx : ∀ x ∈ r, (st.markSeen p.var).seen x.var = false → x ∈ u ∧ 0 < s.level x.var ∧ s.level x.var < best.2 := by
            intro x hx hxs
            have hlt := ((hr1 x hx).2.2).resolve_left (by rw [hxs]; simp)
            rw [hlv1, hstl] at hlt
            rw [hsn] at hxs
            have hxp : x.var ≠ p.var := fun e => by rw [if_pos e] at hxs; exact absurd hxs (by simp)
            rw [if_neg hxp] at hxs
            rcases hrx x hx with e | hxu
            · rw [e] at hxs; rw [show litTrue.var = 0 from rfl, hseen0] at hxs; exact absurd hxs (by simp)
            · have hxu' : x ∈ u := (List.mem_cons.1 hxu).resolve_left fun e => hxp (by rw [e])
              rw [hlevA x hxu] at hlt
              refine ⟨hxu', ?_, hlt⟩
              rcases Nat.eq_zero_or_pos (s.level x.var) with h0 | h0
              · have := hz x hxu h0
                rw [this] at hxs; exact absurd hxs (by simp)
              · exact h0
          refine ⟨ccResolve (st.markSeen p.var).seen (c :: t) r, st.clearSeen c.var,
            Function.update (List.foldl (fun m l => Function.update m l true) a.lm (List.map (fun x => st.level x.var)
              (List.filter (fun x => !(st.markSeen p.var).seen x.var) r))) (st.level c.var) false,
            by simp only [arcStep, if_pos ho, har], fun d hd => ?_, ?_, fun v => ?_,
            fun d hd => ?_, rfl, fun k hk => ?_, fun h => ?_, ?_⟩
          · have hd := hres.mem_iff.1 hd
            rcases List.mem_append.1 hd with hd | hd
            · exact hdefault.1 d (by rw [hcase]; simp [hd])
            · obtain ⟨x, hx, e⟩ := List.mem_map.1 hd
              rw [List.mem_filter] at hx
              have := hnewx x hx.1 (by simpa using hx.2)
              rw [← e]
              refine ⟨by simpa using this.1, by simpa using this.2.1, ?_⟩
              have := this.2.2
              simp only [Lit.neg_var]; omega
          · intro M hM hMp hk
            have hrall : M.all r := by
              intro x hx
              by_cases hxs : (st.markSeen p.var).seen x.var = false
              · have : x.neg ∈ ccResolve (st.markSeen p.var).seen (c :: t) r :=
                  hres.mem_iff.2 (List.mem_append_right _ (List.mem_map_of_mem (List.mem_filter.2 ⟨hx, by simp [hxs]⟩)))
                have := hk _ this
                simpa using this
              · rcases hrx x hx with e | hxu
                · rw [e]; exact hp.tt M hM
                · rcases List.mem_cons.1 hxu with e | hxu
                  · rw [e]; exact hMp
                  · have hxt := hmemT x (List.mem_cons_of_mem _ hxu)
                    by_cases h0 : s.level x.var = 0
                    · exact hp.zero x hxt h0 M hM
                    · have hxp : x.var ≠ p.var := by
                        intro e
                        have hnd := nodup_suffix hp.wf hw'
                        simp only [List.map_cons, List.nodup_cons] at hnd
                        exact hnd.1 (e ▸ List.mem_map_of_mem hxu)
                      rw [hsn, if_neg hxp] at hxs
                      -- marked in st: hence marked in a.st and not removed
                      unfold St.seen at hxs
                      rw [hstc] at hxs
                      have hnr : x.var ∉ rem.map Lit.var := by
                        intro hmem; rw [if_pos hmem] at hxs; simp [Cell.marked] at hxs
                      rw [if_neg hnr] at hxs
                      have hxs : a.st.seen x.var = true := by unfold St.seen; simpa using hxs
                      have hle := trail_lev_le hp.wf hxt
                      have hne : s.level x.var ≠ s.dl := fun e => by
                        rw [hm.uip.noTop x hxu e] at hxs; exact absurd hxs (by simp)
                      have hxc := hi.mid x hxu (by omega) (by omega) hxs
                      rcases (hm.split.mem _).1 hxc with hxk | hxk
                      · have := hperm.mem_iff.2 hxk
                        rw [hcase] at this
                        rcases List.mem_cons.1 this with e | hxt
                        · exact absurd (by rw [← e]; rfl) (hr1 x hx).2.1
                        · have := hk _ (hres.mem_iff.2 (List.mem_append_left _ hxt))
                          simpa using this
                      · exact absurd (by rw [← Lit.neg_var]; exact List.mem_map_of_mem hxk) hnr
            have hMc := hr2 M hM hrall
            refine hdefault.2.1 M hM hMp fun d hd => ?_
            rw [hcase] at hd
            rcases List.mem_cons.1 hd with e | hd
            · rw [e]; exact hMc
            · exact hk d (hres.mem_iff.2 (List.mem_append_left _ hd))
          · by_cases e : v = c.var
            · right; subst e; exact ⟨by simp [St.clearSeen], c, hck, rfl⟩
            · left; simp [St.clearSeen, e]
          · have := hperm.mem_iff.2 hd
            rw [hcase] at this
            rcases List.mem_cons.1 this with e | hdt
            · right; subst e
              refine ⟨by simp [St.clearSeen], ?_⟩
              rw [hstl, hccl d (hkcc d hd)]; simp
            · left; exact hres.mem_iff.2 (List.mem_append_left _ hdt)
          · by_cases e : k = st.level c.var
            · subst e; simp at hk
            · rw [Function.update_of_ne e, foldUpd] at hk
              split at hk
              · rename_i hmem
                right
                obtain ⟨x, hx, hxk⟩ := List.mem_map.1 hmem
                refine ⟨x.neg, hres.mem_iff.2 (List.mem_append_right _ (List.mem_map_of_mem hx)), ?_⟩
                rw [List.mem_filter] at hx
                have := hnewx x hx.1 (by simpa using hx.2)
                rw [← hxk, hstl, hlevA x (List.mem_cons_of_mem _ this.1)]; rfl
              · exact Or.inl hk
          · rw [h] at har; exact absurd har (by simp)
          · rw [(hres.map _).nodup_iff, List.map_append, List.nodup_append]
            have hsd : ((c :: t).map Lit.var).Nodup := by rw [← hcase]; exact (hperm.map _).nodup_iff.2 hkn
            refine ⟨(List.nodup_cons.1 hsd).2, ?_, ?_⟩
            · have e0 : (r.filter fun x => !(st.markSeen p.var).seen x.var) = (r.filter (· ≠ litTrue)).filter fun x => !(st.markSeen p.var).seen x.var := by
                rw [List.filter_filter]
                apply List.filter_congr
                intro x _
                by_cases e : x = litTrue
                · subst e
                  have : (st.markSeen p.var).seen 0 = true := by rw [hsn]; split; rfl; exact hseen0
                  simp [litTrue, this]
                · simp [e]
              rw [e0, List.map_map]
              refine (hr3.filter _).map_on ?_
              intro x hx y hy e
              have hx := hnewx x (List.mem_filter.1 (List.mem_filter.1 hx).1).1 (by simpa using (List.mem_filter.1 hx).2)
              have hy := hnewx y (List.mem_filter.1 (List.mem_filter.1 hy).1).1 (by simpa using (List.mem_filter.1 hy).2)
              simp only [Function.comp, Lit.neg_var] at e
              exact List.inj_on_of_nodup_map (nodup_suffix hp.wf hw') (List.mem_cons_of_mem _ hx.1) (List.mem_cons_of_mem _ hy.1) e
            · intro v hv w' hw2 e
              subst e
              obtain ⟨d, hd, e⟩ := List.mem_map.1 hv
              obtain ⟨y, hy, e2⟩ := List.mem_map.1 hw2
              obtain ⟨x, hx, e3⟩ := List.mem_map.1 hy
              rw [List.mem_filter] at hx
              have hdk : d ∈ keep := hperm.mem_iff.1 (by rw [hcase]; simp [hd])
              have hxs : (st.markSeen p.var).seen x.var = false := by simpa using hx.2
              have hxv : x.var = d.var := by rw [e, ← e2, ← e3]; rfl
              have hcc := hi.ccP d (hkcc d hdk)
              rw [hsn, hxv] at hxs
              split at hxs
              · simp at hxs
              · unfold St.seen at hxs
                rw [hstc, if_neg] at hxs
                · have := hcc.2.2.2
                  unfold St.seen at this
                  rw [this] at hxs; simp at hxs
                · intro hmem
                  obtain ⟨z, hz, e4⟩ := List.mem_map.1 hmem
                  exact hdisj d hdk z hz e4.symm
      · rw [hcase] at hnone; exact hnone (by simp only [arcStep, if_neg ho])
  obtain ⟨cc', st', lm', hstep, hA, hB, hC, hD, hE, hG, hH, hJ⟩ := harcs
  have hlev' : ∀ c ∈ cc', a.st.level c.var = s.level c.var := fun c hc => by
    have := hlevA c.neg (List.mem_cons_of_mem _ (hA c hc).1); simpa using this
  obtain ⟨hperm2, hmax2, hhead2, hnil2⟩ := swapFront_spec a.st.level cc' (fun c hc => by rw [hlev' c hc]; exact (hA c hc).2.1)
  generalize hb2 : assertAux a.st.level cc' 0 (0, 0) = best2 at hperm2 hmax2 hhead2 hnil2
  refine ⟨a, p, u, keep, rem, rc, N, ⟨cc'.foldl (fun s c => s.clearSeen c.var) st', p.neg :: swapFront cc' best2.1, best2.2,
    (rem.map fun c => a.st.level c.var).foldl (fun m l => Function.update m l false)
      ((cc'.map fun c => a.st.level c.var).foldl (fun m l => Function.update m l false) lm'), rc.map Rec.epoch⟩, hm, fun fuel hf => ?_, ?_, rfl, fun h => ?_,
    ⟨w, u, hw', ?_⟩, fun k => ?_, ?_⟩
  · unfold analyze
    rw [hm.loop]
    simp only [hN fuel hf, hb, hcc, hst1, hon, hstep, hb2]
  · -- the clause
    have hmem : ∀ c, c ∈ swapFront cc' best2.1 ↔ c ∈ cc' := fun c => hperm2.mem_iff
    refine ⟨fun M hM => ?_, fun c hc => ?_, ⟨p.neg, _, rfl, hm.uip.lev, fun c hc => ?_, fun c hc => ?_, fun hc => ?_⟩, ?_, ?_⟩
    · by_contra hns
      rw [Asg.satC_iff_not_all_neg, not_not] at hns
      refine hB M hM ?_ fun c hc => ?_
      · have := hns p.neg.neg (by simp)
        simpa using this
      · exact hns c.neg (List.mem_map_of_mem (List.mem_cons_of_mem _ ((hmem c).2 hc)))
    · have hin : c.neg ∈ s.trail := by
        rcases List.mem_cons.1 hc with e | hc
        · rw [e]; simpa using hmemT p (by simp)
        · exact hmemT _ (List.mem_cons_of_mem _ (hA c ((hmem c).1 hc)).1)
      have := hp.wf.val _ hin
      unfold St.isFalse St.value
      simp only [Lit.neg_var] at this
      rw [this]
      cases c with | mk v b => cases b <;> simp [Lit.tv, Lit.neg]
    · have hc' := (hmem c).1 hc
      refine ⟨(hA c hc').2.1, ?_⟩
      rw [← hlev' c hc']; exact hmax2 c hc'
    · have hc' : c ∈ cc' := (hmem c).1 (List.mem_of_mem_head? hc)
      rw [← hlev' c hc']; exact hhead2 c hc
    · have : cc' = [] := by rw [hc] at hperm2; exact List.Perm.eq_nil hperm2.symm
      exact hnil2 this
    · show best2.2 < s.dl
      cases hcase : swapFront cc' best2.1 with
      | nil =>
        have : cc' = [] := by rw [hcase] at hperm2; exact List.Perm.eq_nil hperm2.symm
        rw [hnil2 this]; exact hp.dl
      | cons c t =>
        have hc' : c ∈ cc' := (hmem c).1 (by rw [hcase]; simp)
        have := hhead2 c (by rw [hcase]; rfl)
        rw [← this, hlev' c hc']; exact (hA c hc').2.2
    · rw [List.map_cons, List.nodup_cons]
      refine ⟨fun hmem' => ?_, (hperm2.map _).nodup_iff.2 hJ⟩
      obtain ⟨c, hc, e⟩ := List.mem_map.1 hmem'
      have hnd := nodup_suffix hp.wf hw'
      simp only [List.map_cons, List.nodup_cons] at hnd
      exact hnd.1 (List.mem_map.2 ⟨_, (hA c ((hmem c).1 hc)).1, by simpa using e⟩)
  · exact hperm2.trans (hH h)
  · -- the solver state
    show cc'.foldl (fun s c => s.clearSeen c.var) st' = _
    rw [foldClear]
    have hst'2 : st' = { s with cell := st'.cell, trail := p :: u } := by
      conv => lhs; rw [hE, hst]
      conv => lhs; rw [hi.same]
      rw [hi.trail]; rfl
    have hcells : (fun v => if v ∈ cc'.map Lit.var then { st'.cell v with seen := (false, false) } else st'.cell v) =
        fun v => if v ∈ w.map Lit.var then Cell.free else s.cell v := by
      funext v
      -- erasing marks
      have hclr : ∀ c : Cell, c.marked = false → c = { c with seen := (false, false) } := by
        intro c hc
        cases c with | mk a b l => 
        obtain ⟨b1, b2⟩ := b
        simp only [Cell.marked, Bool.or_eq_false_iff] at hc
        rw [hc.1, hc.2]
      -- whatever happened, the cell of `a.st` with or without its marks
      have hshape : (if v ∈ cc'.map Lit.var then { st'.cell v with seen := (false, false) } else st'.cell v) = a.st.cell v ∧ v ∉ a.cc.map Lit.var ∧ v ∉ cc'.map Lit.var ∨
          (if v ∈ cc'.map Lit.var then { st'.cell v with seen := (false, false) } else st'.cell v) = { a.st.cell v with seen := (false, false) } ∧
            (v ∈ a.cc.map Lit.var ∨ v ∈ cc'.map Lit.var) := by
        by_cases h1 : v ∈ cc'.map Lit.var
        · right
          rw [if_pos h1]
          refine ⟨?_, Or.inr h1⟩
          rcases hC v with h | ⟨h, _⟩ <;> rw [h, hstc] <;> split <;> rfl
        · rw [if_neg h1]
          by_cases h2 : v ∈ rem.map Lit.var
          · right
            refine ⟨?_, Or.inl ?_⟩
            · rcases hC v with h | ⟨h, _⟩ <;> rw [h, hstc, if_pos h2]
            · obtain ⟨c, hc, e⟩ := List.mem_map.1 h2
              exact e ▸ List.mem_map_of_mem (hrcc c hc)
          · by_cases h3 : v ∈ keep.map Lit.var
            · obtain ⟨c, hc, e⟩ := List.mem_map.1 h3
              rcases hD c hc with h | ⟨h, _⟩
              · exact absurd (e ▸ List.mem_map_of_mem h) h1
              · right
                refine ⟨?_, Or.inl (e ▸ List.mem_map_of_mem (hkcc c hc))⟩
                rw [← e, h, hstc, if_neg (by rw [e]; exact h2)]
            · left
              refine ⟨?_, ?_, h1⟩
              · rcases hC v with h | ⟨_, c, hc, e⟩
                · rw [h, hstc, if_neg h2]
                · exact absurd (e ▸ List.mem_map_of_mem hc) h3
              · intro h4
                obtain ⟨c, hc, e⟩ := List.mem_map.1 h4
                rcases (hm.split.mem c).1 hc with h | h
                · exact h3 (e ▸ List.mem_map_of_mem h)
                · exact h2 (e ▸ List.mem_map_of_mem h)
      have hcu : (v ∈ a.cc.map Lit.var ∨ v ∈ cc'.map Lit.var) → ∃ q ∈ u, q.var = v ∧ 0 < s.level v := by
        rintro (h | h)
        · obtain ⟨c, hc, e⟩ := List.mem_map.1 h
          exact ⟨c.neg, hccu c hc, e, e ▸ (hi.ccP c hc).2.1⟩
        · obtain ⟨c, hc, e⟩ := List.mem_map.1 h
          exact ⟨c.neg, (hA c hc).1, e, e ▸ (hA c hc).2.1⟩
      have hnd := hp.wf.nodup
      rw [hw', List.map_append, List.nodup_append] at hnd
      have hwu : ∀ q ∈ p :: u, q.var ∉ w.map Lit.var := fun q hq hmem => hnd.2.2 _ hmem _ (List.mem_map_of_mem hq) rfl
      have hclean : ∀ q ∈ s.trail, 0 < s.level q.var → s.cell q.var = { s.cell q.var with seen := (false, false) } := by
        intro q hq hl
        apply hclr
        by_contra hc
        have := (hp.marks q hq).1 (by unfold St.seen; simpa using hc)
        omega
      rcases hshape with ⟨h1, h2, h3⟩ | ⟨h1, h2⟩
      · rw [h1]
        by_cases hvw : v ∈ w.map Lit.var
        · rw [if_pos hvw]
          obtain ⟨q, hq, e⟩ := List.mem_map.1 hvw
          rw [← e]; exact hwf q hq
        · rw [if_neg hvw]
          by_cases hvt : ∃ q ∈ p :: u, q.var = v
          · obtain ⟨q, hq, e⟩ := hvt
            subst e
            rcases Nat.eq_zero_or_pos (s.level q.var) with h0 | h0
            · exact hi.zc q (by simpa using hq) h0
            · rcases List.mem_cons.1 hq with e | hqu
              · have := hi.preU q (by simp [e])
                rw [this, ← hclean q (hmemT q hq) h0]
              · have hns : a.st.seen q.var = false := by
                  by_contra hc
                  have hc : a.st.seen q.var = true := by simpa using hc
                  have hle := trail_lev_le hp.wf (hmemT q hq)
                  by_cases hD : s.level q.var = s.dl
                  · rw [hm.uip.noTop q hqu hD] at hc; exact absurd hc (by simp)
                  · have := hi.mid q hqu h0 (by omega) hc
                    exact h2 (by rw [← Lit.neg_var]; exact List.mem_map_of_mem this)
                rw [hi.flag q hqu hns, ← hclean q (hmemT q hq) h0]
          · refine hi.off v fun q hq e => ?_
            rw [hw', List.mem_append] at hq
            rcases hq with hq | hq
            · exact hvw (e ▸ List.mem_map_of_mem hq)
            · exact hvt ⟨q, hq, e⟩
      · rw [h1]
        obtain ⟨q, hq, e, hl⟩ := hcu h2
        subst e
        have hqp : q ∈ p :: u := List.mem_cons_of_mem _ hq
        rw [if_neg (hwu q hqp)]
        have := hi.cells q (by simpa using hqp)
        rw [hclean q (hmemT q hqp) hl]
        cases hx1 : a.st.cell q.var with | mk v1 s1 l1 =>
        cases hx2 : s.cell q.var with | mk v2 s2 l2 =>
        rw [hx1, hx2] at this
        simp only at this
        rw [this.1, this.2]
    rw [hcells]
    conv => lhs; rw [hst'2]
  · -- level marks
    dsimp only
    rw [foldUpd, foldUpd]
    split
    · rfl
    · split
      · rfl
      · rename_i h1 h2
        by_contra hc
        have hc : lm' k = true := by simpa using hc
        have hcc' : ¬ ∃ c ∈ cc', s.level c.var = k := by
          rintro ⟨c, hc, e⟩
          exact h2 (List.mem_map.2 ⟨c, hc, by rw [hlev' c hc, e]⟩)
        rcases hG k hc with h | h
        · obtain ⟨c, hcc, e⟩ := (hi.lm k).1 h
          rcases (hm.split.mem c).1 hcc with hk | hk
          · rcases hD c hk with h | ⟨_, h⟩
            · exact hcc' ⟨c, h, e⟩
            · rw [e] at h; rw [h] at hc; exact absurd hc (by simp)
          · exact h1 (List.mem_map.2 ⟨c, hk, by rw [hccl c hcc, e]⟩)
        · exact hcc' h
  · show (rc.map Rec.epoch).isSome = _ ∧ _
    refine ⟨by rw [Option.isSome_map]; exact hm.epoch.1, fun e he v => ?_⟩
    obtain ⟨r, hr, rfl⟩ := Option.map_eq_some_iff.1 he
    exact hm.epoch.2 r hr v

theorem undo_same {s : St} (hw : s.WF) {w u : List Lit} {p : Lit} (ht : s.trail = w ++ p :: u) (hl : s.level p.var = s.dl)
    {d : Nat} (hd : max d s.flip < s.dl) :
    ({ s with cell := fun v => if v ∈ w.map Lit.var then Cell.free else s.cell v, trail := p :: u } : St).undoUntilImpl d =
      s.undoUntilImpl d := by
  unfold St.undoUntilImpl
  dsimp only
  have hn : ¬ max d s.flip ≥ s.dl := by omega
  rw [if_neg hn]
  refine (if_neg hn).trans ?_
  obtain ⟨k, hk⟩ : ∃ k, s.dl - max d s.flip = k + 1 := ⟨s.dl - max d s.flip - 1, by omega⟩
  show undoN (s.dl - max d s.flip) _ = _
  rw [hk]
  unfold undoN
  congr 1
  cases hlv : s.lv with
  | nil => simp [dl, hlv] at hn
  | cons pos l =>
    have hpos : pos ≤ u.length := by
      have hget : s.trail.reverse[u.length]? = some p := by
        rw [ht, List.reverse_append, List.reverse_cons, List.append_assoc,
          List.getElem?_append_right (by simp)]
        simp
      have := hw.lev _ _ hget
      unfold level at hl
      rw [hl] at this
      unfold dl posLev at this
      have h2 := List.countP_eq_length.1 this.symm pos (by rw [hlv]; simp)
      simpa using h2
    have hnd := hw.nodup
    have hnd2 := hnd
    rw [ht, List.map_append, List.nodup_append] at hnd2
    have hlen : s.trail.length = w.length + (u.length + 1) := by rw [ht]; simp
    unfold undoLevel
    simp only
    rw [undoTrail_eq, undoTrail_eq]
    rotate_left
    · exact hnd
    · show pos < s.trail.length; omega
    · exact hnd2.2.1
    · show pos < (p :: u).length; simp; omega
    simp only
    have htake : s.trail.take (s.trail.length - pos) = w ++ (p :: u).take ((p :: u).length - pos) := by
      have : s.trail.length - pos = w.length + ((p :: u).length - pos) := by rw [hlen]; simp; omega
      rw [this, ht, List.take_length_add_append]
    have hdrop : s.trail.drop (s.trail.length - pos) = (p :: u).drop ((p :: u).length - pos) := by
      have : s.trail.length - pos = w.length + ((p :: u).length - pos) := by rw [hlen]; simp; omega
      rw [this, ht, List.drop_length_add_append]
    congr 1
    · funext v
      rw [htake, List.map_append]
      generalize ((p :: u).take ((p :: u).length - pos)).map Lit.var = B
      generalize w.map Lit.var = A
      by_cases h1 : v ∈ A <;> by_cases h2 : v ∈ B <;> simp [h1, h2]
    · exact hdrop.symm

/-- **C13.** Let `F` be the models of the constraints, and let the solver be in any state with a conflict on a level above
the top level in which every reason is a consequence of the constraints. Conflict analysis succeeds, for every
configuration of minimization and inverse arcs, and yields a clause that is implied by the constraints, false in the
current assignment, with exactly one literal of the conflict level, and a level `jl` such that after backtracking (to
`jl`, or to the backtrack level if that is higher) the clause is unit. Backtracking gives the same state as if no
analysis had happened, no decision level stays marked, and the counters of the minimization are fit for the next call. -/
theorem C13_analyze {F : Asg → Prop} {s : St} (hp : AnaPre F s) (cfg : AnaCfg) (hep : ∀ e, cfg.rc = some e → ∀ v, e v ≤ e 0)
    (harc : ArcOk F cfg.arc) :
    ∃ res N, (∀ fuel ≥ N, analyze cfg fuel s = some res) ∧
      -- implied, false, asserting
      Learnt F s res.clause res.jl ∧
      -- unit after backtracking
      (∀ d, res.jl ≤ d → d < s.dl → s.flip ≤ d → ∃ a t, res.clause = a :: t ∧ (s.undoUntilImpl d).value a.var = none ∧
        ∀ c ∈ t, (s.undoUntilImpl d).isFalse c = true) ∧
      -- no traces
      (∀ d, max d s.flip < s.dl → res.st.undoUntilImpl d = s.undoUntilImpl d) ∧
      (∀ k, res.lm k = false) ∧ (∀ e, res.epoch = some e → ∀ v, e v ≤ e 0) := by
  obtain ⟨a, p, u, keep, rem, rc, N, res, hm, hN, hL, _, _, ⟨w, u', hw, hst⟩, hlm, hepo⟩ := analyze_spec hp cfg hep harc
  refine ⟨res, N, hN, hL, fun d h1 h2 h3 => learnt_unit hp.wf hL hp.asg hp.tcell.2 h1 h2 h3, fun d hd => ?_, hlm, hepo.2⟩
  rw [hst]
  exact undo_same hp.wf hw hm.uip.lev hd

/-- **C14.** Analysis with minimization (local or recursive, using any selection of reasons) yields a clause with the
same asserting literal whose literals are among those of the clause found without minimization; it is still implied by
the constraints; every removed literal is false in all models that falsify the remaining ones; and the level to return
to does not grow. -/
theorem C14_minimize {F : Asg → Prop} {s : St} (hp : AnaPre F s) (use : Nat → Bool) (rc : Option (Nat → Nat))
    (hep : ∀ e, rc = some e → ∀ v, e v ≤ e 0) :
    ∃ res res0 N, (∀ fuel ≥ N, analyze ⟨use, rc, fun _ _ _ => none⟩ fuel s = some res) ∧
      (∀ fuel ≥ N, analyze ⟨fun _ => false, none, fun _ _ _ => none⟩ fuel s = some res0) ∧
      res.clause.head? = res0.clause.head? ∧ (∀ c ∈ res.clause, c ∈ res0.clause) ∧
      (∀ M, F M → M.satC res.clause) ∧
      (∀ M, F M → ¬ M.satC res.clause.tail → ∀ c ∈ res0.clause.tail, ¬ M.sat c) ∧ res.jl ≤ res0.jl := by
  have harc : ∀ u r, ArcOk F (AnaCfg.arc ⟨u, r, fun _ _ _ => none⟩) := by
    intro u r st c jl r h; simp at h
  obtain ⟨a, p, u, keep, rem, rc1, N1, res, hm, hN, hL, hh, hk, _, _, _⟩ := analyze_spec hp ⟨use, rc, fun _ _ _ => none⟩ hep (harc _ _)
  obtain ⟨a0, p0, u0, keep0, rem0, rc0, N0, res0, hm0, hN0, hL0, hh0, hk0, _, _, _⟩ :=
    analyze_spec hp ⟨fun _ => false, none, fun _ _ _ => none⟩ (by simp) (harc _ _)
  have hk := hk (fun _ _ _ => rfl)
  have hk0 := hk0 (fun _ _ _ => rfl)
  have heq := hm.loop.symm.trans hm0.loop
  simp only [Option.some.injEq, Prod.mk.injEq] at heq
  obtain ⟨rfl, rfl⟩ := heq
  -- without minimization nothing is removed
  have hr0 : keep0 = a.cc := by
    have hdef : ∀ fuel cc, minLoop (fun x : Lit => if (fun _ : Nat => false) x.var then a.st.reason x.var else none) a.st.seen
        (fun v => a.lm (a.st.level v)) fuel none cc = some (cc, [], none) := by
      intro fuel cc
      induction cc with
      | nil => rfl
      | cons c cc ih =>
        have h1 : ccRemovable (fun x : Lit => if (fun _ : Nat => false) x.var then a.st.reason x.var else none) a.st.seen
          (fun v => a.lm (a.st.level v)) fuel none c.neg = some (false, none) := by simp [ccRemovable]
        unfold minLoop
        rw [h1]
        simp only [ih]
        simp
    obtain ⟨N, hN⟩ := hm0.min
    have := (hN N (Nat.le_refl _)).symm.trans (hdef N a.cc)
    simp only [Option.some.injEq, Prod.mk.injEq] at this
    exact this.1
  have hc : res.clause = p.neg :: res.clause.tail := by
    obtain ⟨h, t, e, _⟩ := hL.shape; rw [e] at hh ⊢; simp at hh ⊢; exact hh
  have hc0 : res0.clause = p.neg :: res0.clause.tail := by
    obtain ⟨h, t, e, _⟩ := hL0.shape; rw [e] at hh0 ⊢; simp at hh0 ⊢; exact hh0
  have hsub : ∀ c ∈ res.clause.tail, c ∈ res0.clause.tail := by
    intro c hc
    rw [hk0.mem_iff, hr0]; exact (hm.split.mem c).2 (Or.inl (hk.mem_iff.1 hc))
  refine ⟨res, res0, max N1 N0, fun f hf => hN f (by omega), fun f hf => hN0 f (by omega), by rw [hh, hh0], fun c hcm => ?_, hL.implied, ?_, ?_⟩
  · rw [hc] at hcm; rw [hc0]
    rcases List.mem_cons.1 hcm with e | hcm
    · rw [e]; simp
    · exact List.mem_cons_of_mem _ (hsub c hcm)
  · intro M hM hns c hct hs
    have hall : ∀ d ∈ keep, M.sat d.neg := by
      intro d hd
      rw [Asg.sat_neg]
      exact fun h => hns ⟨d, hk.mem_iff.2 hd, h⟩
    rw [hk0.mem_iff, hr0] at hct
    rcases (hm.split.mem c).1 hct with h | h
    · exact (Asg.sat_neg M c).1 (hall c h) hs
    · exact (Asg.sat_neg M c).1 (hm.red M hM hall c h) hs
  · obtain ⟨h, t, e, _, h2, h3, h4⟩ := hL.shape
    obtain ⟨h', t', e', _, h2', h3', h4'⟩ := hL0.shape
    cases t with
    | nil => rw [h4 rfl]; omega
    | cons x t =>
      rw [← h3 x rfl]
      have := hsub x (by rw [e]; simp)
      rw [e'] at this
      exact (h2' x this).2

/-! ### A concrete conflict

Clauses 1 → 2, 2∧3 → 4, 1∧3 → 5, ¬4∨¬5. Level 1: decision 1, then 2. Level 2: decision 3, then 4 and 5; conflict {4, 5}.
The first-UIP clause is ¬3∨¬2∨¬1; minimization removes ¬2. -/
namespace AnaEx
def L (v : Nat) : Lit := ⟨v, false⟩
def F (M : Asg) : Prop := M 0 = true ∧ (M 1 = true → M 2 = true) ∧ (M 2 = true → M 3 = true → M 4 = true) ∧
  (M 1 = true → M 3 = true → M 5 = true) ∧ ¬ (M 4 = true ∧ M 5 = true)
def s : St := { St.init with
  cell := fun v => if v = 0 then ⟨some true, (true, true), 0⟩ else if v ≤ 2 then ⟨some true, (false, false), 1⟩
    else if v ≤ 5 then ⟨some true, (false, false), 2⟩ else Cell.free
  reason := fun v => if v = 2 then some [L 1] else if v = 4 then some [L 2, L 3] else if v = 5 then some [L 1, L 3] else none
  trail := [L 5, L 4, L 3, L 2, L 1], lv := [2, 0], conflict := [L 4, L 5], front := 4 }
def cfg : AnaCfg := ⟨fun _ => true, some (fun _ => 0), fun _ _ _ => none⟩

example : (analyze cfg 50 s).map (fun r => (r.clause, r.jl)) = some ([(L 3).neg, (L 1).neg], 1) := by decide +kernel
example : (analyze { cfg with use := fun _ => false } 50 s).map (fun r => (r.clause, r.jl)) = some ([(L 3).neg, (L 1).neg, (L 2).neg], 1) := by decide +kernel

def splits (P : Lit → List Lit → Prop) : List Lit → Prop
  | [] => True
  | p :: t => P p t ∧ splits P t
theorem splits_spec {P : Lit → List Lit → Prop} {l : List Lit} (h : splits P l) : ∀ t1 p t2, l = t1 ++ p :: t2 → P p t2 := by
  induction l with
  | nil => intro t1 p t2 e; simp at e
  | cons x l ih =>
    intro t1 p t2 e
    cases t1 with
    | nil => simp only [List.nil_append, List.cons.injEq] at e; obtain ⟨rfl, rfl⟩ := e; exact h.1
    | cons y t1 => simp only [List.cons_append, List.cons.injEq] at e; exact ih h.2 t1 p t2 e.2

theorem pre : AnaPre F s where
  wf := by
    refine ⟨by decide, by decide, fun v hv => ?_, by decide, ?_, by decide, by decide, by decide⟩
    · simp only [s] at hv ⊢
      split at hv
      · simp at hv
      · split at hv
        · simp at hv
        · split at hv
          · simp at hv
          · rename_i h1 h2 h3; simp [h1, h2, h3]
    · intro i p hi
      have hlt : i < 5 := by
        have := (List.getElem?_eq_some_iff.1 hi).1; simpa [s] using this
      rcases i with _ | _ | _ | _ | _ | i
      all_goals first | omega | (simp only [s, L] at hi; simp at hi; subst hi; decide)
  dl := by decide
  tt := fun M h => h.1
  tcell := by decide
  tval := by decide
  toff := by decide
  asg := by
    intro v hv
    by_cases h0 : v = 0
    · exact Or.inl h0
    · right
      by_cases h5 : v ≤ 5
      · refine ⟨L v, ?_, rfl⟩
        have : v = 1 ∨ v = 2 ∨ v = 3 ∨ v = 4 ∨ v = 5 := by omega
        rcases this with rfl | rfl | rfl | rfl | rfl <;> decide
      · exfalso; apply hv
        have h2 : ¬ v ≤ 2 := by omega
        simp [s, St.value, h0, h2, h5, Cell.free]
  marks := by decide
  zero := by
    intro q hq h0
    have h : ∀ q ∈ s.trail, s.level q.var ≠ 0 := by decide
    exact absurd h0 (h q hq)
  reason := by
    apply splits_spec
    simp only [s, splits, L]
    refine ⟨?_, ?_, ?_, ?_, ?_, trivial⟩ <;> intro r hr <;> simp at hr <;> subst hr <;> refine ⟨by decide, ?_⟩ <;>
      intro M hM hall <;> simp only [Asg.all, Asg.sat, Lit.tv, F] at * <;> simp_all
  top := by
    apply splits_spec
    simp only [splits, s, L]
    decide
  conf := by decide
  confF := by
    intro M hM hall
    simp only [Asg.all, Asg.sat, Lit.tv, F, s, L] at *
    simp_all
  confTop := by decide

example : ∃ res N, (∀ fuel ≥ N, analyze cfg fuel s = some res) ∧ Learnt F s res.clause res.jl := by
  obtain ⟨res, N, h1, h2, _⟩ := C13_analyze pre cfg (by simp [cfg]) (by intro st c jl r h; simp [cfg] at h)
  exact ⟨res, N, h1, h2⟩
example := C14_minimize pre (fun _ => true) (some fun _ => 0) (by simp)
end AnaEx

end Clasp.Core
