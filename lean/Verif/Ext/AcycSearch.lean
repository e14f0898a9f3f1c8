import Verif.Ext.AcycStep
/-!
# The invariant of the acyclicity checker: the searches
-/

namespace Clasp.Acyc
open Clasp.Core (Lit)
open Clasp.DepGraph (Arc Inv Gr fwdOf invOf GInv)

theorem Pend.intro {σ : St} {e : Arc} (hs : σ.stopq = none) (ht : Tr σ e.lit σ.dl) (h : σ.confl ≠ none ∨ PendT σ e ∨ e.lit ∈ σ.queue ∨ ∃ b, σ.phase = some b ∧ b.root = e) : Pend σ e := by
  refine ⟨ht, ?_⟩
  rw [hs]; exact h

theorem Base.mem_fwdOf {σ : St} (h : Base σ) (hr : σ.ready = true) (n : Nat) (a : Arc) : a ∈ fwdOf σ.g n ↔ a ∈ σ.g.fwd ∧ a.tail = n := by
  obtain ⟨hist, hg⟩ := h.gr
  rw [(hg.fwdOf (h.rdy hr).2.1 n).mem_iff, List.mem_filter, hg.perm.mem_iff]
  simp

theorem Base.mem_invOf {σ : St} (h : Base σ) (hr : σ.ready = true) (n : Nat) (l : Lit) (t : Nat) : (∃ v ∈ invOf σ.g n, v.lit = l ∧ v.tail = t) ↔ (⟨l, t, n⟩ : Arc) ∈ σ.g.fwd := by
  obtain ⟨hist, hg⟩ := h.gr
  have hp := hg.invOf (h.rdy hr).2.1 n
  constructor
  · rintro ⟨v, hv, h1, h2⟩
    have : (v.lit, v.tail) ∈ (hist.filter (fun a => a.head == n)).map DepGraph.ends := hp.mem_iff.1 (List.mem_map.2 ⟨v, hv, rfl⟩)
    obtain ⟨a, ha, he⟩ := List.mem_map.1 this
    rw [List.mem_filter] at ha
    simp only [DepGraph.ends, Prod.mk.injEq] at he
    have h3 : a = ⟨l, t, n⟩ := by
      cases a; simp_all
    rw [hg.perm.mem_iff, ← h3]; exact ha.1
  · intro ha
    rw [hg.perm.mem_iff] at ha
    have : (l, t) ∈ (invOf σ.g n).map (fun v => (v.lit, v.tail)) := hp.mem_iff.2 (List.mem_map.2 ⟨⟨l, t, n⟩, List.mem_filter.2 ⟨ha, by simp⟩, rfl⟩)
    obtain ⟨v, hv, he⟩ := List.mem_map.1 this
    simp only [Prod.mk.injEq] at he
    exact ⟨v, hv, he⟩

theorem Base.bnd {σ : St} (h : Base σ) (hr : σ.ready = true) {a : Arc} (ha : a ∈ σ.g.fwd) : a.tail < σ.tags.length ∧ a.head < σ.tags.length := by
  obtain ⟨hist, hg⟩ := h.gr
  rw [(h.rdy hr).2.2.1]
  exact hg.bnd a (hg.perm.mem_iff.1 ha)

theorem Base.fpre {σ : St} (h : Base σ) (hr : σ.ready = true) (t : List Arc) : FPre { σ with todo := t } where
  fwd := h.mem_fwdOf hr
  bnd := fun _ ha => h.bnd hr ha
  plen := by
    have := h.rdy hr
    show σ.parent.length = σ.tags.length
    rw [this.2.2.1, this.2.2.2]
  le := h.tagle
  lt := h.taglt

/-- A path that starts in a closed set of nodes ends in it, or contains one of the given arcs. -/
theorem IsPath.closed {P : Nat → Prop} {Q : Arc → Prop} : ∀ {L : List Arc} {u v : Nat}, IsPath u v L → (∀ e ∈ L, P e.tail → P e.head ∨ Q e) → P u → P v ∨ ∃ e ∈ L, Q e
  | [], _, _, h, _, hu => by cases h; exact Or.inl hu
  | e :: L, u, v, h, hc, hu => by
    rcases hc e (by simp) (by rw [h.1]; exact hu) with h1 | h1
    · rcases IsPath.closed h.2 (fun x hx => hc x (by simp [hx])) h1 with h2 | ⟨x, hx, h2⟩
      · exact Or.inl h2
      · exact Or.inr ⟨x, by simp [hx], h2⟩
    · exact Or.inr ⟨e, by simp, h1⟩

/-- A path that ends in a set of nodes closed under predecessors starts in it, or contains one of the given arcs. -/
theorem IsPath.closedBack {P : Nat → Prop} {Q : Arc → Prop} : ∀ {L : List Arc} {u v : Nat}, IsPath u v L → (∀ e ∈ L, P e.head → P e.tail ∨ Q e) → P v → P u ∨ ∃ e ∈ L, Q e
  | [], _, _, h, _, hu => by cases h; exact Or.inl hu
  | e :: L, u, v, h, hc, hu => by
    rcases IsPath.closedBack h.2 (fun x hx => hc x (by simp [hx])) hu with h1 | ⟨x, hx, h1⟩
    · rcases hc e (by simp) h1 with h2 | h2
      · rw [h.1] at h2; exact Or.inl h2
      · exact Or.inr ⟨e, by simp, h2⟩
    · exact Or.inr ⟨x, by simp [hx], h1⟩

/-- A cycle can be entered at each of its arcs. -/
theorem IsPath.rotate {L : List Arc} {u : Nat} (h : IsPath u u L) {x : Arc} (hx : x ∈ L) : ∃ M, IsPath x.head x.tail M ∧ ∀ e ∈ M, e ∈ L := by
  obtain ⟨A, B, rfl⟩ := List.append_of_mem hx
  obtain ⟨v, h1, h2⟩ := h.split
  have h3 : x.tail = v := h2.1
  subst h3
  refine ⟨B ++ A, h2.2.append h1, fun e he => ?_⟩
  rcases List.mem_append.1 he with he | he <;> simp [he]

theorem PathBy.just {σ : St} {x : Arc} {ls : List Lit} (h : PathBy σ x.head x.tail ls) (hx : x ∈ σ.g.fwd) : Just σ x.lit.neg ls := by
  obtain ⟨_, L, h1, h2⟩ := h
  refine ⟨x :: L, x.tail, by simp, ⟨rfl, h1⟩, fun a ha => ?_⟩
  rcases List.mem_cons.1 ha with rfl | ha
  · exact ⟨hx, Or.inl (by simp)⟩
  · exact ⟨(h2 a ha).1, Or.inr (Or.inl (h2 a ha).2)⟩

/-- The state after a forward search that found no cycle, in mode `prop_fwd`. -/
theorem AInv.checked {σ : St} (h : AInv σ) {x : Arc} {t : List Arc} (hc : σ.confl = none) (hp : σ.phase = none) (hr : σ.ready = true) (hq : σ.queue = []) (ht : σ.todo = x :: t)
    {tags : List Nat} {par : List (Lit × Nat)} {cnt : Nat} (hN : FNo { σ with todo := t } x tags par cnt) (hm : σ.mode = .fwd) :
    AInv { σ with todo := t, tags := tags, tagCnt := cnt, parent := par } where
  base := { h.base with
    clr := fun hn => absurd hc hn
    rdy := fun _ => ⟨(h.base.rdy hr).1, (h.base.rdy hr).2.1, by rw [← (h.base.rdy hr).2.2.1]; exact hN.len, by rw [← (h.base.rdy hr).2.2.1]; exact hN.plen⟩
    tagle := hN.le
    taglt := hN.lt }
  snd := { h.snd with
    todo := fun _ y hy => h.snd.todo hr y (by rw [ht]; simp [show y ∈ t from hy])
    srch := fun b hb => by rw [show σ.phase = some b from hb] at hp; exact nomatch hp }
  own := { h.own with }
  cmp := fun hl => by
    rcases h.cmp hl with h1 | h1
    · exact absurd hc h1.1
    · right
      refine { h1 with watched := ?_, inv1 := ?_, inv2 := fun hn => absurd hm hn, srch := fun b hb => by rw [show σ.phase = some b from hb] at hp; exact nomatch hp }
      · intro e he hn
        rcases h1.watched e he hn with h2 | ⟨h2, _, h4⟩
        · exact Or.inl h2
        · exact Or.inr ⟨h2, fun hx => by rw [show e.lit ∈ σ.queue ↔ e.lit ∈ ([] : List Lit) by rw [hq]] at hx; simp at hx, h4⟩
      · intro L hL u hu he
        obtain ⟨e, h2, h3⟩ := h1.inv1 L hL u hu he
        have h4 := h3.2
        rw [h.base.stopq hc] at h4
        simp only [PendT, hr, hq, ht, hc, hp] at h4
        simp at h4
        rcases h4 with h4 | h4
        · obtain ⟨M, h5, h6⟩ := hu.rotate h2
          rcases h5.closed (P := fun v => tags[v]? = some cnt) (Q := fun _ => False) (fun y hy hty => by
            have h7 := he y (h6 y hy)
            exact Or.inl (hN.closed y (h.base.attm y h7.1) h7.2 hty)) (by rw [h4]; exact hN.hd) with h8 | ⟨_, _, h8⟩
          · rw [h4] at h8
            exact absurd h8 hN.tl
          · exact h8.elim
        · refine ⟨e, h2, h3.1, ?_⟩
          show match σ.stopq with
            | some _ => _
            | none => _
          rw [h.base.stopq hc]
          exact Or.inr (Or.inl (by simp [PendT, hr, h4]))

/-- The state after a forward search that found no cycle, otherwise: the backward search begins. -/
theorem AInv.begun {σ : St} (h : AInv σ) {x : Arc} {t : List Arc} (hc : σ.confl = none) (hp : σ.phase = none) (hr : σ.ready = true) (hq : σ.queue = []) (ht : σ.todo = x :: t)
    {tags : List Nat} {par : List (Lit × Nat)} {cnt : Nat} (hN : FNo { σ with todo := t } x tags par cnt) :
    AInv (startBwd { σ with todo := t, tags := tags, tagCnt := cnt, parent := par } x) := by
  have hx := h.snd.todo hr x (by rw [ht]; simp)
  have hf := startSearch_fresh hN.le hN.lt
  unfold startBwd
  simp only
  obtain ⟨T, hT⟩ : ∃ T, startSearch tags cnt = T := ⟨_, rfl⟩
  rw [hT] at hf ⊢
  have hlen : tags.length = σ.tags.length := hN.len
  have hlt : x.tail < T.1.length := by rw [hf.len, hlen]; exact (h.base.bnd hr hx.1).1
  have htl : T.1[x.tail]? ≠ some (T.2 - 1) := fun hh => hN.tl ((hf.old _).1 hh)
  have hF : ∀ v : Nat, (T.1.set x.tail T.2)[v]? = some (T.2 - 1) ↔ tags[v]? = some cnt := by
    intro v
    rw [get_set_iff hlt, hf.old]
    have := hf.pos
    constructor
    · rintro (⟨_, h1⟩ | ⟨_, h1⟩)
      · omega
      · exact h1
    · intro h1
      exact Or.inr ⟨fun hv => hN.tl (by rw [← hv]; exact h1), h1⟩
  refine ⟨?_, ?_, { h.own with }, ?_⟩
  · exact { h.base with
      clr := fun hn => absurd hc hn
      nr := fun hn => by rw [show σ.ready = false from hn] at hr; exact nomatch hr
      rdy := fun _ => ⟨(h.base.rdy hr).1, (h.base.rdy hr).2.1, by rw [← (h.base.rdy hr).2.2.1]; simp [hf.len, hlen], by rw [← (h.base.rdy hr).2.2.1]; exact hN.plen⟩
      tagle := by
        intro y hy
        rcases List.mem_or_eq_of_mem_set hy with hy | hy
        · exact hf.le y hy
        · simp only; omega
      taglt := hf.lt }
  · refine { h.snd with todo := fun _ y hy => h.snd.todo hr y (by rw [ht]; simp [show y ∈ t from hy]), srch := ?_ }
    intro b hb
    cases hb
    exact
      { root := ⟨hx.1, hx.2.1, hx.2.2⟩
        tag := ⟨rfl, hf.pos⟩
        hd := (hF _).2 hN.hd
        tl := by simp [hlt]
        tf := (hN.tree.retag hf).other' hlt htl (by have := hf.pos; omega)
        tb := Tree.root _ _ hlt hf.new
        stk := by simp [hlt]
        node := by simp [hlt]
        rest := by simp }
  · intro hl
    rcases h.cmp hl with h1 | h1
    · exact absurd hc h1.1
    · right
      have hP : ∀ e ∈ σ.att, isTrue σ e.lit = true → Pend σ e →
          Pend { σ with todo := t, tags := T.1.set x.tail T.2, tagCnt := T.2, parent := par, phase := some ⟨x, T.2, [x.tail], x.tail, [], false⟩ } e := by
        intro e _ _ h3
        have h4 := h3.2
        rw [h.base.stopq hc] at h4
        simp only [PendT, hr, hq, ht, hc, hp] at h4
        simp at h4
        refine ⟨h3.1, ?_⟩
        show match σ.stopq with
          | some _ => _
          | none => _
        rw [h.base.stopq hc]
        rcases h4 with h4 | h4
        · exact Or.inr (Or.inr (Or.inr ⟨_, rfl, h4.symm⟩))
        · exact Or.inr (Or.inl (by simp [PendT, hr, h4]))
      refine { h1 with watched := ?_, inv1 := h1.inv1.imp rfl rfl hP, inv2 := fun hm => (h1.inv2 hm).imp rfl rfl hP, srch := ?_ }
      · intro e he hn
        rcases h1.watched e he hn with h2 | ⟨h2, _, h4⟩
        · exact Or.inl h2
        · exact Or.inr ⟨h2, fun hx => by rw [show e.lit ∈ σ.queue ↔ e.lit ∈ ([] : List Lit) by rw [hq]] at hx; simp at hx, h4⟩
      · intro b hb
        cases hb
        refine ⟨fun e he ht hg => Or.inl ?_, fun e he hg => Or.inl ?_⟩
        · exact (hF _).2 (hN.closed e he ht ((hF _).1 hg))
        · rcases (get_set_iff hlt).1 hg with h4 | h4
          · simp [h4.1]
          · exact absurd h4.2 (hf.new _)

theorem AInv.check {σ τ : St} (h : AInv σ) {x : Arc} {t : List Arc} (hc : σ.confl = none) (hp : σ.phase = none) (hr : σ.ready = true) (hq : σ.queue = []) (ht : σ.todo = x :: t)
    (hs : Acyc.check { σ with todo := t } x = some τ) : AInv τ := by
  have hx := h.snd.todo hr x (by rw [ht]; simp)
  unfold Acyc.check at hs
  rcases dfsForward_ok (h.base.fpre hr t) hx.1 hx.2.2 with ⟨tags, par, cnt, h1, h2⟩ | ⟨tags, par, cnt, ls, h1, h2, h3, h4, h5, h6⟩
  · rw [h1] at hs
    have hc0 : σ.confl.isSome = false := by rw [hc]; rfl
    have hs' : (if σ.confl.isSome ∨ σ.mode = .fwd then some ({ σ with todo := t, tags := tags, tagCnt := cnt, parent := par } : St)
      else some (startBwd { σ with todo := t, tags := tags, tagCnt := cnt, parent := par } x)) = some τ := hs
    by_cases hm : σ.mode = .fwd
    · rw [if_pos (Or.inr hm)] at hs'
      cases hs'
      exact h.checked hc hp hr hq ht h2 hm
    · rw [if_neg (by simp [hc0, hm])] at hs'
      cases hs'
      exact h.begun hc hp hr hq ht h2
  · have hit : isTrue σ x.lit = true := hx.2.1.isTrue
    have e : closeFwd { σ with todo := t, tags := tags, tagCnt := cnt, parent := par } x ls = { Acyc.setConfl σ (.own (x.lit :: ls)) with tags := tags, tagCnt := cnt, parent := par } := by
      unfold closeFwd
      rw [if_pos (show isTrue { σ with todo := t, tags := tags, tagCnt := cnt, parent := par } x.lit = true from hit)]
      rfl
    have h1' : dfsForward { σ with todo := t } x = some { Acyc.setConfl σ (.own (x.lit :: ls)) with tags := tags, tagCnt := cnt, parent := par } := h1.trans (congrArg some e)
    rw [h1'] at hs
    simp only [Acyc.setConfl, Option.isSome_some, true_or, if_true, Option.some.injEq] at hs
    rw [← hs]
    refine h.setConfl hc (.own (x.lit :: ls)) tags cnt par ?_ ?_ h5 h6
    · intro n hn
      cases hn
      refine ⟨fun p hp => ?_, x.lit, ls, rfl, PathBy.just (σ := σ) h2 hx.1⟩
      rcases List.mem_cons.1 hp with rfl | hp
      · exact hit
      · exact h2.1 p hp
    · intro _
      rw [← (h.base.rdy hr).2.2.1]
      exact ⟨h3, h4⟩

/-! ## The backward search -/

theorem level_eq {σ : St} {p : Lit} (ht : isTrue σ p = true) (hb : Base σ) : Tr σ p (level σ p.var) := by
  obtain ⟨k, e, he, h1, h2⟩ := isTrue_iff.1 ht
  unfold level
  cases hf : σ.trail.find? (fun e => e.lit.var == p.var) with
  | none =>
    have := List.find?_eq_none.1 hf e he
    simp [h1] at this
  | some x =>
    have h3 := List.mem_of_find?_eq_some hf
    have h4 := List.find?_some hf
    simp only [beq_iff_eq] at h4
    have : x = e := nodup_var hb.vars h3 he (by rw [h4, h1])
    subst this
    exact ⟨x, he, h1, by simp⟩

theorem addLits_sub {σ : St} : ∀ {ps acc : List Lit} {q : Lit}, q ∈ addLits σ acc ps → q ∈ acc ∨ q ∈ ps
  | [], _, _, h => Or.inl h
  | p :: ps, acc, q, h => by
    unfold addLits at h
    split_ifs at h with hc
    · rcases addLits_sub h with h1 | h1
      · rcases List.mem_append.1 h1 with h1 | h1
        · exact Or.inl h1
        · simp at h1; exact Or.inr (by simp [h1])
      · exact Or.inr (by simp [h1])
    · rcases addLits_sub h with h1 | h1
      · exact Or.inl h1
      · exact Or.inr (by simp [h1])

theorem addLits_keep {σ : St} : ∀ {ps acc : List Lit} {q : Lit}, q ∈ acc → q ∈ addLits σ acc ps
  | [], _, _, h => h
  | p :: ps, acc, q, h => by
    unfold addLits
    split_ifs with hc
    · exact addLits_keep (by simp [h])
    · exact addLits_keep h

theorem addLits_all {σ : St} : ∀ {ps acc : List Lit} {q : Lit}, q ∈ ps → q ∈ addLits σ acc ps ∨ level σ q.var = 0
  | p :: ps, acc, q, h => by
    unfold addLits
    rcases List.mem_cons.1 h with rfl | h
    · split_ifs with hc
      · exact Or.inl (addLits_keep (by simp))
      · rw [not_and_or] at hc
        rcases hc with hc | hc
        · exact Or.inr (by simpa using hc)
        · exact Or.inl (addLits_keep (by simpa using hc))
    · split_ifs with hc <;> exact addLits_all h

theorem phase_ready {σ : St} (h : Base σ) {b : Bwd} (hp : σ.phase = some b) : σ.ready = true := by
  by_contra hr
  have := (h.nr (by simpa using hr)).2
  rw [hp] at this; exact nomatch this

theorem phase_confl {σ : St} (h : Base σ) {b : Bwd} (hp : σ.phase = some b) : σ.confl = none := by
  by_contra hr
  have := (h.clr hr).2.2
  rw [hp] at this; exact nomatch this

/-- The reason computed for an arc whose tail was reached forward and whose head was reached backward. -/
theorem bwdReason_ok {σ : St} (h : Base σ) {b : Bwd} (hS : SB σ b) {l : Lit} {t : Nat} (ht : σ.tags[t]? = some (b.tag - 1)) (ha : (⟨l, t, b.node⟩ : Arc) ∈ σ.g.fwd) :
    ∃ r, bwdReason σ b t = some r ∧ (∀ q ∈ r, isTrue σ q = true) ∧ Just σ l.neg r := by
  obtain ⟨l1, h1, h2, L1, h3, h4⟩ := hS.tf.fwdPath ht (k := σ.tags.length + 1) (by omega)
  obtain ⟨l2, h5, h6, L2, h7, h8⟩ := hS.tb.bwdPath hS.node (k := σ.tags.length + 1) (by omega)
  refine ⟨addLits σ [] (b.root.lit :: l1 ++ l2), by simp only [bwdReason, h1, h5], ?_, ?_⟩
  · intro q hq
    rcases addLits_sub hq with hq | hq
    · simp at hq
    · simp only [List.cons_append, List.mem_cons, List.mem_append] at hq
      rcases hq with rfl | hq | hq
      · exact hS.root.2.1.isTrue
      · exact h2 q hq
      · exact h6 q hq
  · have key : ∀ q ∈ b.root.lit :: l1 ++ l2, isTrue σ q = true → q ∈ addLits σ [] (b.root.lit :: l1 ++ l2) ∨ Tr σ q 0 := by
      intro q hq hqt
      rcases addLits_all (σ := σ) (acc := []) hq with h9 | h9
      · exact Or.inl h9
      · have := level_eq hqt h
        rw [h9] at this
        exact Or.inr this
    refine ⟨⟨l, t, b.node⟩ :: (L2 ++ b.root :: L1), t, by simp, ⟨rfl, h7.append ⟨rfl, h3⟩⟩, fun a ha' => ?_⟩
    simp only [List.mem_cons, List.mem_append] at ha'
    rcases ha' with rfl | ha' | rfl | ha'
    · exact ⟨ha, Or.inl (by simp)⟩
    · exact ⟨(h8 a ha').1, Or.inr (key _ (by simp [(h8 a ha').2]) (h6 _ (h8 a ha').2))⟩
    · exact ⟨hS.root.1, Or.inr (key _ (by simp) hS.root.2.1.isTrue)⟩
    · exact ⟨(h4 a ha').1, Or.inr (key _ (by simp [(h4 a ha').2]) (h2 _ (h4 a ha').2))⟩

/-- The end of the backward search. -/
theorem AInv.bwdEnd {σ : St} (h : AInv σ) {b : Bwd} (hp : σ.phase = some b) (hr : b.rest = []) (hst : b.stack = []) : AInv { σ with phase := none } where
  base := { h.base with clr := fun hn => absurd (phase_confl h.base hp) hn, nr := fun hn => ⟨(h.base.nr hn).1, rfl⟩ }
  snd := { h.snd with srch := fun x hx => by simp at hx }
  own := { h.own with }
  cmp := fun hl => by
    have hc := phase_confl h.base hp
    have hrd := phase_ready h.base hp
    have hS := h.snd.srch b hp
    rcases h.cmp hl with h1 | h1
    · exact absurd hc h1.1
    · right
      have hC := h1.srch b hp
      have hPn : ∀ e, Pend σ e → Pend { σ with phase := none } e ∨ e = b.root := by
        intro e h3
        have h4 := h3.2
        rw [h.base.stopq hc] at h4
        have hs' : ({ σ with phase := none } : St).stopq = none := h.base.stopq hc
        rcases h4 with h4 | h4 | h4 | ⟨x, h4, h6⟩
        · exact Or.inl (Pend.intro hs' h3.1 (Or.inl h4))
        · exact Or.inl (Pend.intro hs' h3.1 (Or.inr (Or.inl h4)))
        · exact Or.inl (Pend.intro hs' h3.1 (Or.inr (Or.inr (Or.inl h4))))
        · rw [hp] at h4; cases h4
          exact Or.inr h6.symm
      have hPe : ∀ e : Arc, e ∈ σ.todo ∨ e.lit ∈ σ.queue → Pend { σ with phase := none } e := by
        intro e he
        refine ⟨?_, ?_⟩
        · rcases he with he | he
          · exact (h.snd.todo hrd e he).2.1
          · exact h.base.qlev _ (by simp [he])
        · show match σ.stopq with
            | some _ => _
            | none => _
          rw [h.base.stopq hc]
          rcases he with he | he
          · exact Or.inr (Or.inl (by simp [PendT, hrd, he]))
          · exact Or.inr (Or.inr (Or.inl he))
      have hfw : ∀ {L : List Arc} {v : Nat}, IsPath b.root.head v L → (∀ e ∈ L, e ∈ σ.att ∧ isTrue σ e.lit = true) → σ.tags[v]? = some (b.tag - 1) ∨ ∃ e ∈ L, Pend { σ with phase := none } e := by
        intro L v hL he
        refine hL.closed (P := fun v => σ.tags[v]? = some (b.tag - 1)) (fun e h2 h3 => ?_) hS.hd
        rcases hC.fwd e (h.base.attm e (he e h2).1) (he e h2).2 h3 with h4 | h4
        · exact Or.inl h4
        · exact Or.inr (hPe e h4)
      have hbw : ∀ e ∈ σ.g.fwd, σ.tags[e.head]? = some b.tag →
          (σ.tags[e.tail]? = some (b.tag - 1) → isTrue σ e.lit.neg = true) ∧ (isTrue σ e.lit = true → σ.tags[e.tail]? = some b.tag ∨ e ∈ σ.todo ∨ e.lit ∈ σ.queue) := by
        intro e he hg
        rcases hC.bwd e he hg with h4 | ⟨_, v, h4, _⟩ | h4
        · rw [hst] at h4; simp at h4
        · rw [hr] at h4; simp at h4
        · exact h4
      refine { h1 with inv1 := ?_, inv2 := ?_, srch := fun x hx => by simp at hx }
      · intro L hL u hu he
        obtain ⟨e, h2, h3⟩ := h1.inv1 L hL u hu he
        rcases hPn e h3 with h4 | h4
        · exact ⟨e, h2, h4⟩
        · subst h4
          obtain ⟨M, h5, h6⟩ := hu.rotate h2
          rcases hfw h5 (fun y hy => he y (h6 y hy)) with h7 | ⟨y, hy, h7⟩
          · rw [hS.tl] at h7
            have := hS.tag.2
            simp at h7; omega
          · exact ⟨y, h6 y hy, h7⟩
      · intro hm a ha L hL hu k he
        rcases h1.inv2 hm a ha L hL hu k he with ⟨e, h2, h3⟩ | h2
        · rcases hPn e h3 with h4 | h4
          · exact Or.inl ⟨e, h2, h4⟩
          · subst h4
            have he' : ∀ e ∈ L, e ∈ σ.att ∧ isTrue σ e.lit = true := fun e h5 => by
              obtain ⟨h6, j, _, h7⟩ := he e h5
              exact ⟨h6, h7.isTrue⟩
            obtain ⟨_, j0, hj0, hj1⟩ := he _ h2
            have hdl : σ.dl ≤ k := by
              have := h.base.uniq hj1 hS.root.2.1
              omega
            obtain ⟨A, B, rfl⟩ := List.append_of_mem h2
            obtain ⟨v, h5, h6⟩ := hu.split
            have h7 : b.root.tail = v := h6.1
            subst h7
            rcases hfw h6.2 (fun y hy => he' y (by simp [hy])) with h8 | ⟨y, hy, h8⟩
            · rcases h5.closedBack (P := fun v => σ.tags[v]? = some b.tag) (Q := fun e => Pend { σ with phase := none } e) (fun y hy h9 => by
                have h10 := he' y (by simp [hy])
                rcases (hbw y (h.base.attm y h10.1) h9).2 h10.2 with h11 | h11
                · exact Or.inl h11
                · exact Or.inr (hPe y h11)) hS.tl with h9 | ⟨y, hy, h9⟩
              · obtain ⟨j, hj⟩ := isTrue_iff.1 ((hbw a (h.base.attm a ha) h9).1 h8)
                obtain ⟨x, hx, h10, h11⟩ := hj
                have := h.base.levs x hx
                exact Or.inr ⟨j, by omega, x, hx, h10, h11⟩
              · exact Or.inl ⟨y, by simp [hy], h9⟩
            · exact Or.inl ⟨y, by simp [hy], h8⟩
        · exact Or.inr h2

/-- The arc is done. -/
theorem SC.done {σ : St} {b : Bwd} {a : Inv} {as : List Inv} (h : SC σ b) (hr : b.rest = a :: as) (h1 : σ.tags[a.tail]? = some (b.tag - 1) → isTrue σ a.lit.neg = true)
    (h2 : isTrue σ a.lit = true → σ.tags[a.tail]? = some b.tag) : SC σ { b with rest := as } where
  fwd := h.fwd
  bwd := by
    intro e he hg
    rcases h.bwd e he hg with h3 | ⟨h3, v, hv, h4, h5⟩ | h3
    · exact Or.inl h3
    · rw [hr] at hv
      rcases List.mem_cons.1 hv with rfl | hv
      · exact Or.inr (Or.inr ⟨by rw [← h4, ← h5]; exact h1, fun ht => Or.inl (by rw [← h5]; exact h2 (by rw [h4]; exact ht))⟩)
      · exact Or.inr (Or.inl ⟨h3, v, hv, h4, h5⟩)
    · exact Or.inr (Or.inr h3)

theorem SB.rest' {σ : St} {b : Bwd} {a : Inv} {as : List Inv} (h : SB σ b) (hr : b.rest = a :: as) : SB σ { b with rest := as } :=
  { h with rest := fun v hv => h.rest v (by rw [hr]; simp [show v ∈ as from hv]) }

theorem AInv.visit {σ : St} (h : AInv σ) {b : Bwd} {a : Inv} {as : List Inv} (hp : σ.phase = some b) (hr : b.rest = a :: as) (h1 : σ.tags[a.tail]? ≠ some b.tag)
    (h2 : σ.tags[a.tail]? ≠ some (b.tag - 1)) (h3 : isTrue σ a.lit = true) :
    AInv { σ with parent := σ.parent.set a.tail (a.lit, b.node), tags := σ.tags.set a.tail b.tag, phase := some { b with rest := as, stack := a.tail :: b.stack } } := by
  have hc := phase_confl h.base hp
  have hrd := phase_ready h.base hp
  have hS := h.snd.srch b hp
  have ha : (⟨a.lit, a.tail, b.node⟩ : Arc) ∈ σ.g.fwd := hS.rest a (by rw [hr]; simp)
  have hlt : a.tail < σ.tags.length := (h.base.bnd hrd ha).1
  have hlp : a.tail < σ.parent.length := by rw [(h.base.rdy hrd).2.2.2, ← (h.base.rdy hrd).2.2.1]; exact hlt
  have hne : b.tag ≠ b.tag - 1 := by have := hS.tag.2; omega
  have hF : ∀ v : Nat, (σ.tags.set a.tail b.tag)[v]? = some (b.tag - 1) ↔ σ.tags[v]? = some (b.tag - 1) := by
    intro v
    rw [get_set_iff hlt]
    constructor
    · rintro (⟨_, h4⟩ | ⟨_, h4⟩)
      · exact absurd h4 hne
      · exact h4
    · intro h4
      exact Or.inr ⟨fun hv => h2 (by rw [← hv]; exact h4), h4⟩
  have hB : ∀ v : Nat, σ.tags[v]? = some b.tag → (σ.tags.set a.tail b.tag)[v]? = some b.tag := by
    intro v hv
    rw [get_set_iff hlt]
    by_cases hva : v = a.tail
    · exact Or.inl ⟨hva, rfl⟩
    · exact Or.inr ⟨hva, hv⟩
  refine ⟨?_, ?_, { h.own with }, ?_⟩
  · exact { h.base with
      clr := fun hn => absurd hc hn
      nr := fun hn => by rw [show σ.ready = false from hn] at hrd; exact nomatch hrd
      rdy := fun _ => ⟨(h.base.rdy hrd).1, (h.base.rdy hrd).2.1, by simpa using (h.base.rdy hrd).2.2.1, by simpa using (h.base.rdy hrd).2.2.2⟩
      tagle := by
        intro t ht
        rcases List.mem_or_eq_of_mem_set ht with ht | ht
        · exact h.base.tagle t ht
        · exact Nat.le_of_eq (ht.trans hS.tag.1) }
  · refine { h.snd with srch := ?_ }
    intro x hx
    cases hx
    exact
      { root := hS.root
        tag := hS.tag
        hd := (hF _).2 hS.hd
        tl := hB _ hS.tl
        tf := hS.tf.other hlt h2 hne
        tb := hS.tb.visit hlt hlp h1 hS.node (show EB σ a.lit b.node a.tail from ⟨ha, h3⟩)
        stk := by
          intro v hv
          rcases List.mem_cons.1 hv with hv | hv
          · simp [hv, hlt]
          · exact hB v (hS.stk v hv)
        node := hB _ hS.node
        rest := fun v hv => hS.rest v (by rw [hr]; simp [show v ∈ as from hv]) }
  · intro hl
    rcases h.cmp hl with h4 | h4
    · exact absurd hc h4.1
    · right
      have hC := h4.srch b hp
      have hP : ∀ e ∈ σ.att, isTrue σ e.lit = true → Pend σ e →
          Pend { σ with parent := σ.parent.set a.tail (a.lit, b.node), tags := σ.tags.set a.tail b.tag, phase := some { b with rest := as, stack := a.tail :: b.stack } } e := by
        intro e _ _ h5
        refine ⟨h5.1, ?_⟩
        have h6 := h5.2
        rw [h.base.stopq hc] at h6
        show match σ.stopq with
          | some _ => _
          | none => _
        rw [h.base.stopq hc]
        rcases h6 with h6 | h6 | h6 | ⟨x, h6, h7⟩
        · exact Or.inl h6
        · exact Or.inr (Or.inl h6)
        · exact Or.inr (Or.inr (Or.inl h6))
        · rw [hp] at h6; cases h6
          exact Or.inr (Or.inr (Or.inr ⟨_, rfl, h7⟩))
      refine { h4 with inv1 := h4.inv1.imp rfl rfl hP, inv2 := fun hm => (h4.inv2 hm).imp rfl rfl hP, srch := ?_ }
      intro x hx
      cases hx
      refine ⟨fun e he ht hg => ?_, fun e he hg => ?_⟩
      · rcases hC.fwd e he ht ((hF _).1 hg) with h5 | h5
        · exact Or.inl ((hF _).2 h5)
        · exact Or.inr h5
      · by_cases hea : e.head = a.tail
        · exact Or.inl (by simp [hea])
        · have hg' : σ.tags[e.head]? = some b.tag := by
            rcases (get_set_iff hlt).1 hg with h5 | h5
            · exact absurd h5.1 hea
            · exact h5.2
          rcases hC.bwd e he hg' with h5 | ⟨h5, v, hv, h6, h7⟩ | h5
          · exact Or.inl (by simp [h5])
          · rw [hr] at hv
            rcases List.mem_cons.1 hv with rfl | hv
            · refine Or.inr (Or.inr ⟨fun h8 => ?_, fun _ => Or.inl ?_⟩)
              · rw [← h7] at h8
                exact absurd ((hF _).1 h8) h2
              · rw [← h7]; simp [hlt]
            · exact Or.inr (Or.inl ⟨h5, v, hv, h6, h7⟩)
          · refine Or.inr (Or.inr ⟨fun h8 => h5.1 ((hF _).1 h8), fun ht => ?_⟩)
            rcases h5.2 ht with h8 | h8
            · exact Or.inl (hB _ h8)
            · exact Or.inr h8

theorem AInv.closeBwd {σ : St} (h : AInv σ) {b : Bwd} {a : Inv} {as : List Inv} (hp : σ.phase = some b) (hr : b.rest = a :: as) (h1 : isTrue σ a.lit.neg = false)
    {r : List Lit} (hrt : ∀ q ∈ r, isTrue σ q = true) (hj : Just σ a.lit.neg r) : AInv (Acyc.closeBwd σ { b with rest := as } a.lit r) := by
  have hc := phase_confl h.base hp
  have hrd := phase_ready h.base hp
  have hS := h.snd.srch b hp
  unfold Acyc.closeBwd
  split_ifs with h2 h3
  · refine h.setConfl hc (.own (a.lit :: r)) σ.tags σ.tagCnt σ.parent ?_ (fun _ => (h.base.rdy hrd).2.2) h.base.tagle h.base.taglt
    intro n hn
    cases hn
    refine ⟨fun p hp' => ?_, a.lit, r, rfl, hj⟩
    rcases List.mem_cons.1 hp' with rfl | hp'
    · exact h2
    · exact hrt p hp'
  all_goals
    have hf : isFree σ a.lit.neg = true := by
      rcases cases3 σ a.lit with h4 | h4 | h4
      · rw [neg_free]; exact h4
      · exact absurd h4 h2
      · rw [h4] at h1; exact nomatch h1
    have hz : ∀ (e : Ent), e ∈ σ.trail → e.lit ≠ a.lit.neg := fun e he hl => isFree_iff.1 hf e he (by rw [hl])
    have hjm : ∀ {o : Bool} {p r}, Just σ p r → Just (assign σ a.lit.neg o) p r := fun hj => hj.mono (fun _ ha => ha) (fun q hq => Tr_assign.2 (Or.inr hq))
    have hsb : ∀ o : Bool, SB (assign σ a.lit.neg o) { b with rest := as, busy := true } := fun o => { (hS.assign a.lit.neg o).rest' hr with }
    have hsc : ∀ o : Bool, Cmp σ → SC (assign σ a.lit.neg o) { b with rest := as, busy := true } := fun o hC => by
      have hbb := h.base.assign hc hf o
      refine { ((hC.srch b hp).assign a.lit.neg o).done hr (fun _ => isTrue_assign.2 (Or.inl rfl)) (fun ht => ?_) with }
      obtain ⟨k, hk⟩ := isTrue_iff.1 ht
      exact (hbb.excl hk (Tr_assign.2 (Or.inl ⟨rfl, rfl⟩))).elim
  · have hA := (h.asg hc hf).setPhase (b' := { b with rest := as, busy := true }) hp rfl (hsb false) (fun hC' => ?_)
    · refine ⟨{ hA.base with }, { hA.snd with learnt := ?_, srch := fun x hx => { hA.snd.srch x hx with } }, ⟨?_, hA.own.mode⟩, fun hl => ?_⟩
      · intro c hc'
        rcases List.mem_cons.1 hc' with rfl | hc'
        · exact ⟨a.lit.neg, r, rfl, hjm hj⟩
        · exact hA.snd.learnt c hc'
      · intro T1 e T2 hT ho
        have := hA.own.mode h3 e (by rw [show ({ assign σ a.lit.neg false with phase := some { b with rest := as, busy := true } } : St).trail = T1 ++ e :: T2 from hT]; simp)
        rw [ho] at this; exact nomatch this
      · rcases hA.cmp hl with h5 | h5
        · exact Or.inl h5
        · exact Or.inr { h5 with srch := fun x hx => { h5.srch x hx with } }
    · have hbb := h.base.assign hc hf false
      refine { (hC'.srch b hp).done hr (fun _ => isTrue_assign.2 (Or.inl rfl)) (fun ht => ?_) with }
      obtain ⟨k, hk⟩ := isTrue_iff.1 ht
      exact (hbb.excl hk (Tr_assign.2 (Or.inl ⟨rfl, rfl⟩))).elim
  · have hA := (h.asg hc hf).setPhase (b' := { b with rest := as, busy := true }) hp rfl (hsb false) (fun hC' => ?_)
    · have hbb := h.base.assign hc hf true
      refine ⟨?_, ?_, ?_, fun hl => ?_⟩
      · exact { hbb with clr := fun hn => absurd hc hn, nr := fun hn => by rw [show σ.ready = false from hn] at hrd; exact nomatch hrd }
      · have hs := h.snd.assign hc hf true
        exact { hs with srch := fun x hx => by cases hx; exact { hsb true with } }
      · refine ⟨?_, fun hm => absurd hm h3⟩
        intro T1 e T2 hT ho
        cases T1 with
        | nil =>
          simp only [Acyc.assign, List.nil_append, List.cons.injEq] at hT
          obtain ⟨rfl, hT⟩ := hT
          refine ⟨r, by simp [Lit.neg], fun r' hr' => ?_, fun q hq => ?_, hjm hj⟩
          · simp at hr'; exact hr'.symm
          · obtain ⟨k, x, hx, h5, _⟩ := isTrue_iff.1 (hrt q hq)
            exact ⟨x, by rw [← hT]; exact hx, h5⟩
        | cons y T1 =>
          simp only [Acyc.assign, List.cons_append, List.cons.injEq] at hT
          have hmem : e ∈ σ.trail := by rw [hT.2]; simp
          obtain ⟨r', h5, h6, h7, h8⟩ := h.own.ok T1 e T2 hT.2 ho
          refine ⟨r', ?_, fun x hx => ?_, h7, hjm h8⟩
          · have : (a.lit.var == e.lit.var) = false := by
              have := isFree_iff.1 hf e hmem
              simp only [beq_eq_false_iff_ne]
              exact fun hh => this hh.symm
            rw [List.find?_cons_of_neg (by simp [this])]
            exact h5
          · simp at hx
            exact absurd hx.1.symm (hz e hmem)
      · rcases h.cmp hl with h5 | h5
        · exact absurd hc h5.1
        · right
          have h6 := h5.assign (h.base.stopq hc) hf true
          have hP : ∀ e ∈ (assign σ a.lit.neg true).att, isTrue (assign σ a.lit.neg true) e.lit = true → Pend (assign σ a.lit.neg true) e →
              Pend { assign σ a.lit.neg true with reason := a.lit.neg :: r, nogoods := (a.lit.var, r) :: σ.nogoods, phase := some { b with rest := as, busy := true } } e := by
            intro e _ _ h7
            refine ⟨h7.1, ?_⟩
            have h8 := h7.2
            rw [show (assign σ a.lit.neg true).stopq = none from h.base.stopq hc] at h8
            show match σ.stopq with
              | some _ => _
              | none => _
            rw [h.base.stopq hc]
            rcases h8 with h8 | h8 | h8 | ⟨x, h8, h9⟩
            · exact Or.inl h8
            · exact Or.inr (Or.inl h8)
            · exact Or.inr (Or.inr (Or.inl h8))
            · rw [show (assign σ a.lit.neg true).phase = some b from hp] at h8; cases h8
              exact Or.inr (Or.inr (Or.inr ⟨_, rfl, h9⟩))
          exact { h6 with inv1 := h6.inv1.imp rfl rfl hP, inv2 := fun hm => (h6.inv2 hm).imp rfl rfl hP, srch := fun x hx => by cases hx; exact { hsc true h5 with } }
    · have hbb := h.base.assign hc hf false
      refine { (hC'.srch b hp).done hr (fun _ => isTrue_assign.2 (Or.inl rfl)) (fun ht => ?_) with }
      obtain ⟨k, hk⟩ := isTrue_iff.1 ht
      exact (hbb.excl hk (Tr_assign.2 (Or.inl ⟨rfl, rfl⟩))).elim

/-- One step of the backward search is defined and keeps the invariant. -/
theorem AInv.bwd {σ : St} (h : AInv σ) {b : Bwd} (hp : σ.phase = some b) : ∃ τ, bwdStep σ b = some τ ∧ AInv τ := by
  have hrd := phase_ready h.base hp
  have hS := h.snd.srch b hp
  unfold bwdStep
  cases hr : b.rest with
  | nil =>
    cases hst : b.stack with
    | nil => exact ⟨_, rfl, h.bwdEnd hp hr hst⟩
    | cons n st =>
      refine ⟨_, rfl, h.setPhase hp rfl ?_ (fun hC => ?_)⟩
      · exact { hS with
          stk := fun v hv => hS.stk v (by rw [hst]; simp [show v ∈ st from hv])
          node := hS.stk n (by rw [hst]; simp)
          rest := fun v hv => (h.base.mem_invOf hrd n v.lit v.tail).1 ⟨v, hv, rfl, rfl⟩ }
      · have hs := hC.srch b hp
        refine ⟨hs.fwd, fun e he hg => ?_⟩
        rcases hs.bwd e he hg with h1 | ⟨_, v, hv, _⟩ | h1
        · rw [hst] at h1
          rcases List.mem_cons.1 h1 with h1 | h1
          · exact Or.inr (Or.inl ⟨h1, (h.base.mem_invOf hrd n e.lit e.tail).2 (by rw [← h1]; exact he)⟩)
          · exact Or.inl h1
        · rw [hr] at hv; simp at hv
        · exact Or.inr (Or.inr h1)
  | cons a as =>
    have ha : (⟨a.lit, a.tail, b.node⟩ : Arc) ∈ σ.g.fwd := hS.rest a (by rw [hr]; simp)
    have hne : b.tag ≠ b.tag - 1 := by have := hS.tag.2; omega
    simp only
    unfold bwdArc
    split_ifs with h1 h2 h3
    · refine ⟨_, rfl, h.setPhase hp rfl (hS.rest' hr) (fun hC => (hC.srch b hp).done hr (fun h4 => ?_) (fun h4 => ?_))⟩
      · rcases h1 with h1 | h1
        · exact h1
        · simp only at h1
          rw [h1] at h4
          exact absurd (Option.some.inj h4) hne
      · rcases h1 with h1 | h1
        · obtain ⟨j, hj⟩ := isTrue_iff.1 h1
          obtain ⟨k, hk⟩ := isTrue_iff.1 h4
          exact (h.base.excl hk hj).elim
        · exact h1
    · obtain ⟨r, h4, h5, h6⟩ := bwdReason_ok h.base (hS.rest' hr) h2 ha
      rw [h4]
      refine ⟨_, rfl, h.closeBwd hp hr ?_ h5 h6⟩
      rw [not_or] at h1
      simpa using h1.1
    · rw [not_or] at h1
      exact ⟨_, rfl, AInv.visit (b := b) h hp hr h1.2 h2 h3⟩
    · rw [not_or] at h1
      exact ⟨_, rfl, h.setPhase hp rfl (hS.rest' hr) (fun hC => (hC.srch b hp).done hr (fun h4 => absurd h4 h2) (fun h4 => absurd h4 h3))⟩

end Clasp.Acyc
