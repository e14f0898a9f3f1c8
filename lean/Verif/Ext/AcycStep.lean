import Verif.Ext.AcycInv
/-!
# The invariant of the acyclicity checker: propagation, conflicts, backjumps, interrupts
-/

namespace Clasp.Acyc
open Clasp.Core (Lit)
open Clasp.DepGraph (Arc Inv Gr fwdOf invOf GInv)

theorem mem_att_true {σ : St} (hb : Base σ) (h : Cmp σ) {e : Arc} (he : e ∈ σ.att) (ht : isTrue σ e.lit = true) : e.tail ≠ e.head := by
  intro hl
  obtain ⟨k, hk⟩ := isTrue_iff.1 ht
  exact hb.excl hk (h.loop e he hl)

theorem Inv1.imp {σ τ : St} (h : Inv1 σ) (ha : τ.att = σ.att) (ht : τ.trail = σ.trail) (hp : ∀ e ∈ σ.att, isTrue σ e.lit = true → Pend σ e → Pend τ e) : Inv1 τ := by
  intro L hL u hu he
  have hi : ∀ p, isTrue τ p = isTrue σ p := fun p => by simp [isTrue, ht]
  simp only [ha, hi] at he
  obtain ⟨e, h1, h2⟩ := h L hL u hu he
  exact ⟨e, h1, hp e (he e h1).1 (he e h1).2 h2⟩

theorem Inv2.imp {σ τ : St} (h : Inv2 σ) (ha : τ.att = σ.att) (ht : τ.trail = σ.trail) (hp : ∀ e ∈ σ.att, isTrue σ e.lit = true → Pend σ e → Pend τ e) : Inv2 τ := by
  intro a ha' L hL hu k he
  have hi : ∀ p j, Tr τ p j ↔ Tr σ p j := fun p j => by simp [Tr, ht]
  simp only [ha, hi] at he ha' ⊢
  rcases h a ha' L hL hu k he with ⟨e, h1, h2⟩ | h1
  · obtain ⟨h3, j, _, h4⟩ := he e h1
    exact Or.inl ⟨e, h1, hp e h3 h4.isTrue h2⟩
  · exact Or.inr h1

theorem notify_watch {σ : St} {p : Lit} {i : Nat} {e : Arc} (hw : (p, i) ∈ σ.watch) (he : σ.g.fwd[i]? = some e) : e ∈ notify σ p := by
  simp only [notify, List.mem_filterMap, List.mem_filter]
  exact ⟨(p, i), ⟨hw, by simp⟩, he⟩

/-- An arc whose literal is taken from the queue is put on the list of work. -/
theorem deq_arc {σ : St} (hb : Base σ) (h : Cmp σ) {p : Lit} {q : List Lit} (hq : σ.queue = p :: q) {e : Arc} (he : e ∈ σ.att) (ht : isTrue σ e.lit = true) (hp : e.lit = p) :
    PendT { σ with queue := q, todo := σ.todo ++ notify σ p } e := by
  rcases h.watched e he (mem_att_true hb h he ht) with ⟨i, h1, h2⟩ | ⟨_, h2, _⟩
  · rw [hp] at h1
    by_cases hr : σ.ready = true
    · simp only [PendT, hr, if_true]
      refine List.mem_append_right _ (notify_watch h1 ?_)
      rw [← (hb.rdy hr).1]; exact h2
    · simp only [PendT, hr]
      have hi : i < σ.g.fwd.length := by
        have := (List.getElem?_eq_some_iff.1 h2).1
        have := hb.attl
        omega
      have := notify_watch h1 (List.getElem?_eq_getElem hi)
      intro hn
      simp only [List.append_eq_nil_iff] at hn
      rw [hn.2] at this
      simp at this
  · have h3 := h2 (by rw [hq, hp]; simp)
    simp only [PendT] at h3 ⊢
    split_ifs at h3 ⊢
    · simp [h3]
    · simp [h3]

theorem AInv.deq {σ : St} (h : AInv σ) {p : Lit} {q : List Lit} (hc : σ.confl = none) (hq : σ.queue = p :: q) : AInv { σ with queue := q, todo := σ.todo ++ notify σ p } where
  base := { h.base with
    qlev := fun x hx => h.base.qlev x (by rw [hq]; rcases List.mem_append.1 hx with hx | hx <;> simp [hx])
    clr := fun hn => absurd hc hn }
  snd :=
    { todo := by
        intro hr x hx
        rcases List.mem_append.1 hx with hx | hx
        · exact h.snd.todo hr x hx
        · simp only [notify, List.mem_filterMap, List.mem_filter, beq_iff_eq] at hx
          obtain ⟨w, ⟨hw, hwp⟩, hwe⟩ := hx
          rcases h.snd.val with hd | ⟨hv, _⟩
          · exact absurd hc hd.1
          · obtain ⟨e, h1, h2, h3⟩ := hv w hw (Or.inr (by rw [hwp, hq]; simp))
            rw [(h.base.rdy hr).1, hwe] at h1
            cases h1
            exact ⟨List.mem_of_getElem? hwe, by rw [h2, hwp]; exact h.base.qlev p (by rw [hq]; simp), h3⟩
      val := by
        rcases h.snd.val with hd | ⟨hv, hn⟩
        · exact absurd hc hd.1
        · refine Or.inr ⟨fun w hw hl => hv w hw ?_, hn⟩
          rcases hl with hl | hl
          · exact Or.inl hl
          · right; rw [hq]; rcases List.mem_append.1 hl with hx | hx <;> simp [hx]
      learnt := h.snd.learnt
      confl := h.snd.confl
      srch := fun b hb => { h.snd.srch b hb with } }
  own := { h.own with }
  cmp := fun hl => by
    rcases h.cmp hl with hd | hC
    · exact absurd hc hd.1
    · right
      have hT : ∀ e, PendT σ e → PendT { σ with queue := q, todo := σ.todo ++ notify σ p } e := by
        intro e h3
        simp only [PendT] at h3 ⊢
        split_ifs at h3 ⊢
        · simp [h3]
        · simp [h3]
      have hP : ∀ e ∈ σ.att, isTrue σ e.lit = true → Pend σ e → Pend { σ with queue := q, todo := σ.todo ++ notify σ p } e := by
        intro e he ht hpe
        refine ⟨hpe.1, ?_⟩
        have h2 := hpe.2
        rw [h.base.stopq hc] at h2
        simp only [h.base.stopq hc]
        rcases h2 with h2 | h2 | h2 | h2
        · exact Or.inl h2
        · exact Or.inr (Or.inl (hT e h2))
        · rw [hq] at h2
          rcases List.mem_cons.1 h2 with h2 | h2
          · exact Or.inr (Or.inl (deq_arc h.base hC hq he ht h2))
          · exact Or.inr (Or.inr (Or.inl h2))
        · exact Or.inr (Or.inr (Or.inr h2))
      refine { loop := hC.loop, watched := ?_, inv1 := hC.inv1.imp rfl rfl hP, inv2 := fun hm => (hC.inv2 hm).imp rfl rfl hP, srch := ?_ }
      · intro e he hne
        rcases hC.watched e he hne with h1 | ⟨h1, h2, h3⟩
        · exact Or.inl h1
        · exact Or.inr ⟨h1, fun hx => hT e (h2 (by rw [hq]; exact List.mem_cons_of_mem _ hx)), h3⟩
      · intro b hb
        have hS := hC.srch b hb
        have hr : σ.ready = true := by
          by_contra hr
          have := (h.base.nr (by simpa using hr)).2
          rw [hb] at this; exact nomatch this
        have hD : ∀ e ∈ σ.g.fwd, isTrue σ e.lit = true → e ∈ σ.todo ∨ e.lit ∈ σ.queue → e ∈ σ.todo ++ notify σ p ∨ e.lit ∈ q := by
          intro e he ht hx
          rcases hx with hx | hx
          · exact Or.inl (by simp [hx])
          · rw [hq] at hx
            rcases List.mem_cons.1 hx with hx | hx
            · have := deq_arc h.base hC hq (by rw [(h.base.rdy hr).1]; exact he) ht hx
              simp only [PendT, hr, if_true] at this
              exact Or.inl this
            · exact Or.inr hx
        refine ⟨fun e he ht hg => ?_, fun e he hg => ?_⟩
        · rcases hS.fwd e he ht hg with h1 | h1
          · exact Or.inl h1
          · exact Or.inr (hD e he ht h1)
        · rcases hS.bwd e he hg with h1 | h1 | h1
          · exact Or.inl h1
          · exact Or.inr (Or.inl h1)
          · refine Or.inr (Or.inr ⟨h1.1, fun ht => ?_⟩)
            rcases h1.2 ht with h3 | h3
            · exact Or.inl h3
            · exact Or.inr (hD e he ht h3)

theorem AInv.clean {σ : St} (h : AInv σ) (hd : σ.dl = 0) (hc : σ.confl = none) (hq : σ.queue = []) : AInv { σ with watch := σ.watch.filter fun w => isFree σ w.1 } where
  base := { h.base with }
  snd := { h.snd with
    val := by
      rcases h.snd.val with h1 | ⟨h1, h2⟩
      · exact Or.inl h1
      · exact Or.inr ⟨fun w hw => h1 w (List.mem_of_mem_filter hw), h2.sublist List.filter_sublist⟩
    srch := fun b hb => { h.snd.srch b hb with } }
  own := { h.own with }
  cmp := fun hl => by
    rcases h.cmp hl with h1 | h1
    · exact Or.inl h1
    · right
      refine { h1 with watched := ?_, srch := fun b hb => { h1.srch b hb with } }
      intro e he hn
      rcases h1.watched e he hn with ⟨i, h2, h3⟩ | h2
      · by_cases hf : isFree σ e.lit = true
        · exact Or.inl ⟨i, List.mem_filter.2 ⟨h2, hf⟩, h3⟩
        · right
          refine ⟨?_, by rw [show ({ σ with watch := σ.watch.filter fun w => isFree σ w.1 } : St).queue = [] from hq]; simp, by
            rw [show ({ σ with watch := σ.watch.filter fun w => isFree σ w.1 } : St).stopq = none from h.base.stopq hc]; simp⟩
          rcases cases3 σ e.lit with h4 | h4 | h4
          · exact absurd h4 hf
          · obtain ⟨k, x, hx, h5, h6⟩ := isTrue_iff.1 h4
            have := h.base.levs x hx
            exact ⟨x, hx, by rw [h5], by omega⟩
          · obtain ⟨k, x, hx, h5, h6⟩ := isTrue_iff.1 h4
            have := h.base.levs x hx
            exact ⟨x, hx, by rw [h5]; rfl, by omega⟩
      · exact Or.inr h2

theorem AInv.setConfl {σ : St} (h : AInv σ) (hc : σ.confl = none) (c : Confl) (tags : List Nat) (cnt : Nat) (par : List (Lit × Nat))
    (hok : ∀ n, c = .own n → (∀ p ∈ n, isTrue σ p = true) ∧ ∃ p r, n = p :: r ∧ Just σ p.neg r)
    (hlen : σ.ready = true → tags.length = σ.g.maxNode ∧ par.length = σ.g.maxNode) (hle : ∀ t ∈ tags, t ≤ cnt) (hlt : cnt < 2 ^ 32) :
    AInv { setConfl σ c with tags := tags, tagCnt := cnt, parent := par } where
  base := { h.base with
    qlev := fun x hx => h.base.qlev x (by simp only [Acyc.setConfl, List.nil_append] at hx; simp [hx])
    stopC := fun _ => by simp [Acyc.setConfl]
    clr := fun _ => ⟨rfl, rfl, rfl⟩
    nr := fun hr => ⟨(h.base.nr hr).1, rfl⟩
    rdy := fun hr => ⟨(h.base.rdy hr).1, (h.base.rdy hr).2.1, hlen hr⟩
    tagle := hle
    taglt := hlt }
  snd :=
    { todo := by intro _ x hx; simp [Acyc.setConfl] at hx
      val := by
        rcases h.snd.val with h1 | ⟨h1, h2⟩
        · exact absurd hc h1.1
        · refine Or.inr ⟨fun w hw hl => h1 w hw ?_, h2⟩
          rcases hl with hl | hl
          · exact Or.inl hl
          · simp only [Acyc.setConfl, List.nil_append] at hl; right; simp [hl]
      learnt := h.snd.learnt
      confl := fun n hn => hok n (by simpa [Acyc.setConfl] using hn)
      srch := fun b hb => by simp [Acyc.setConfl] at hb }
  own :=
    { ok := fun T1 e T2 h1 h2 => by
        obtain ⟨r, h3, _, h5⟩ := h.own.ok T1 e T2 h1 h2
        exact ⟨r, h3, fun r' hr => by simp [Acyc.setConfl] at hr, h5⟩
      mode := h.own.mode }
  cmp := fun hl => by
    by_cases hd : σ.dl = 0
    · exact Or.inl ⟨by simp [Acyc.setConfl], h.base.stopq hc, hd⟩
    · rcases h.cmp hl with h1 | h1
      · exact absurd hc h1.1
      · right
        have hP : ∀ e ∈ σ.att, isTrue σ e.lit = true → Pend σ e → Pend { Acyc.setConfl σ c with tags := tags, tagCnt := cnt, parent := par } e := by
          intro e _ _ hp
          refine ⟨hp.1, ?_⟩
          show match σ.stopq with
            | some _ => _
            | none => _
          rw [h.base.stopq hc]
          exact Or.inl (by simp [Acyc.setConfl])
        refine { loop := h1.loop, watched := ?_, inv1 := h1.inv1.imp rfl rfl hP, inv2 := fun hm => (h1.inv2 hm).imp rfl rfl hP, srch := fun b hb => by simp [Acyc.setConfl] at hb }
        intro e he hn
        rcases h1.watched e he hn with h2 | ⟨h2, _, h4⟩
        · exact Or.inl h2
        · exact Or.inr ⟨h2, fun hx => by simp [Acyc.setConfl] at hx, h4⟩

theorem AInv.conflOther {σ : St} (h : AInv σ) (hc : σ.confl = none) : AInv (Acyc.setConfl σ .other) :=
  h.setConfl hc .other σ.tags σ.tagCnt σ.parent (fun n hn => by simp at hn) (fun hr => (h.base.rdy hr).2.2) h.base.tagle h.base.taglt

theorem filter_suffix {l : Nat} : ∀ {t : List Ent}, t.Pairwise (fun a b => b.lev ≤ a.lev) → ∃ t0, t = t0 ++ t.filter fun e => e.lev ≤ l
  | [], _ => ⟨[], rfl⟩
  | a :: t, h => by
    rw [List.pairwise_cons] at h
    by_cases ha : a.lev ≤ l
    · refine ⟨[], ?_⟩
      rw [List.filter_eq_self.2]
      · rfl
      · intro e he
        rcases List.mem_cons.1 he with rfl | he
        · simpa using ha
        · have := h.1 e he
          simp; omega
    · obtain ⟨t0, ht⟩ := filter_suffix (l := l) h.2
      refine ⟨a :: t0, ?_⟩
      rw [List.filter_cons_of_neg (by simpa using ha), List.cons_append, ← ht]

theorem Tr_undo {σ τ : St} {l : Nat} (ht : τ.trail = σ.trail.filter fun e => e.lev ≤ l) {p : Lit} {k : Nat} : Tr τ p k ↔ Tr σ p k ∧ k ≤ l := by
  simp only [Tr, ht, List.mem_filter, decide_eq_true_eq]
  constructor
  · rintro ⟨e, ⟨h1, h2⟩, h3, h4⟩
    exact ⟨⟨e, h1, h3, h4⟩, by omega⟩
  · rintro ⟨⟨e, h1, h3, h4⟩, h5⟩
    exact ⟨e, ⟨h1, by omega⟩, h3, h4⟩

theorem Z_undo {σ τ : St} {l : Nat} (ht : τ.trail = σ.trail.filter fun e => e.lev ≤ l) {p : Lit} : Z τ p ↔ Z σ p := by
  simp only [Z, ht, List.mem_filter, decide_eq_true_eq]
  constructor
  · rintro ⟨e, ⟨h1, h2⟩, h3, h4⟩
    exact ⟨e, h1, h3, h4⟩
  · rintro ⟨e, h1, h3, h4⟩
    exact ⟨e, ⟨h1, by omega⟩, h3, h4⟩

/-- Levels are removed. -/
theorem AInv.lower {σ : St} (h : AInv σ) {l : Nat} (hl : l < σ.dl) {r : List Lit} (hr : r = σ.reason ∨ r = []) :
    AInv { undoTo σ l with queue := [], todo := [], reason := r, confl := none, stopq := none, phase := none } where
  base := { h.base with
    vars := h.base.vars.sublist (List.Sublist.map _ List.filter_sublist)
    levs := fun e he => by
      have := (List.mem_filter.1 he).2
      simpa [undoTo] using this
    mono := h.base.mono.sublist List.filter_sublist
    qlev := fun x hx => by simp at hx
    stopC := fun hn => absurd rfl hn
    clr := fun hn => absurd rfl hn
    nr := fun hn => by have := (h.base.nr hn).1; omega }
  snd :=
    { todo := fun _ x hx => by simp at hx
      val := by
        rcases h.snd.val with h1 | ⟨h1, h2⟩
        · have := h1.2.2; omega
        · refine Or.inr ⟨fun w hw hx => h1 w hw (Or.inl ?_), h2.imp fun hab h3 h4 => hab (fun hz => h3 ((Z_undo rfl).2 hz)) (fun hz => h4 ((Z_undo rfl).2 hz))⟩
          rcases hx with hx | hx
          · exact fun hz => hx ((Z_undo rfl).2 hz)
          · simp at hx
      learnt := fun c hc => by
        obtain ⟨p, r, h1, h2⟩ := h.snd.learnt c hc
        exact ⟨p, r, h1, h2.mono (fun _ ha => ha) (fun q hq => (Tr_undo (l := l) rfl).2 ⟨hq, Nat.zero_le _⟩)⟩
      confl := fun n hn => by simp at hn
      srch := fun b hb => by simp at hb }
  own :=
    { ok := by
        intro T1 e T2 ht ho
        obtain ⟨t0, h0⟩ := filter_suffix (l := l) h.base.mono
        have ht' : σ.trail.filter (fun e => e.lev ≤ l) = T1 ++ e :: T2 := ht
        rw [ht', ← List.append_assoc] at h0
        obtain ⟨r', h1, h2, h3, h4⟩ := h.own.ok _ e T2 h0 ho
        refine ⟨r', h1, fun x hx => ?_, h3, h4.mono (fun _ ha => ha) (fun q hq => (Tr_undo (l := l) rfl).2 ⟨hq, Nat.zero_le _⟩)⟩
        have hx' : r = e.lit :: x := hx
        rcases hr with hr | hr
        · rw [hr] at hx'; exact h2 x hx'
        · rw [hr] at hx'; simp at hx'
      mode := fun hm e he => h.own.mode hm e (List.mem_of_mem_filter he) }
  cmp := fun hlo => by
    rcases h.cmp hlo with h1 | h1
    · have := h1.2.2; omega
    · right
      have hno : ∀ (e : Arc) (j : Nat), Tr σ e.lit j → j ≤ l → ¬ Pend σ e := fun e j hj hjl hp => by
        have := h.base.uniq hj hp.1
        omega
      refine { loop := fun a ha hl => (Tr_undo (l := l) rfl).2 ⟨h1.loop a ha hl, Nat.zero_le _⟩, watched := ?_, inv1 := ?_, inv2 := ?_, srch := fun b hb => by simp at hb }
      · intro e he hn
        rcases h1.watched e he hn with h2 | ⟨h2, _, _⟩
        · exact Or.inl h2
        · exact Or.inr ⟨(Z_undo rfl).2 h2, fun hx => by simp at hx, fun hx => by simp at hx⟩
      · intro L hL u hu he
        have he' : ∀ e ∈ L, e ∈ σ.att ∧ ∃ j, Tr σ e.lit j ∧ j ≤ l := fun e h2 => by
          obtain ⟨h3, h4⟩ := he e h2
          obtain ⟨k, h4⟩ := isTrue_iff.1 h4
          exact ⟨h3, k, (Tr_undo (l := l) rfl).1 h4⟩
        obtain ⟨e, h2, h3⟩ := h1.inv1 L hL u hu (fun e h2 => by
          obtain ⟨h3, j, h4, _⟩ := he' e h2
          exact ⟨h3, h4.isTrue⟩)
        obtain ⟨_, j, h4, h5⟩ := he' e h2
        exact absurd h3 (hno e j h4 h5)
      · intro hm a ha L hL hu k he
        have he' : ∀ e ∈ L, e ∈ σ.att ∧ ∃ j, j ≤ min k l ∧ Tr σ e.lit j := fun e h2 => by
          obtain ⟨h3, j, h4, h5⟩ := he e h2
          have := (Tr_undo (l := l) rfl).1 h5
          exact ⟨h3, j, by omega, this.1⟩
        rcases h1.inv2 hm a ha L hL hu (min k l) he' with ⟨e, h2, h3⟩ | ⟨j, h2, h3⟩
        · obtain ⟨_, j, h4, h5⟩ := he' e h2
          exact absurd h3 (hno e j h5 (by omega))
        · exact Or.inr ⟨j, by omega, (Tr_undo (l := l) rfl).2 ⟨h3, by omega⟩⟩

theorem AInv.jump {σ : St} (h : AInv σ) {l : Nat} {r : List Lit} (hl : l < σ.dl) (hs : σ.stopq = none) (hp : σ.phase = none) (hr : r = σ.reason ∨ r = []) :
    AInv { undoTo σ l with queue := [], todo := [], reason := r, confl := none } := by
  have e : ({ undoTo σ l with queue := [], todo := [], reason := r, confl := none } : St) = { undoTo σ l with queue := [], todo := [], reason := r, confl := none, stopq := none, phase := none } := by
    cases σ; simp only [undoTo] at *; subst hs hp; rfl
  rw [e]; exact h.lower hl hr

theorem AInv.stop {σ : St} (h : AInv σ) (hc : σ.confl = none) : AInv { Acyc.setConfl σ .other with stopq := some σ.queue, drop := !σ.todo.isEmpty || σ.phase.isSome } where
  base := { h.base with
    qlev := fun x hx => h.base.qlev x (by simp only [Acyc.setConfl, List.nil_append, Option.getD_some] at hx; simp [hx])
    stopC := fun _ => by simp [Acyc.setConfl]
    clr := fun _ => ⟨rfl, rfl, rfl⟩
    nr := fun hr => ⟨(h.base.nr hr).1, rfl⟩ }
  snd :=
    { todo := by intro _ x hx; simp [Acyc.setConfl] at hx
      val := by
        rcases h.snd.val with h1 | ⟨h1, h2⟩
        · exact absurd hc h1.1
        · refine Or.inr ⟨fun w hw hl => h1 w hw ?_, h2⟩
          rcases hl with hl | hl
          · exact Or.inl hl
          · simp only [Acyc.setConfl, List.nil_append, Option.getD_some] at hl; right; simp [hl]
      learnt := h.snd.learnt
      confl := fun n hn => by simp [Acyc.setConfl] at hn
      srch := fun b hb => by simp [Acyc.setConfl] at hb }
  own :=
    { ok := fun T1 e T2 h1 h2 => by
        obtain ⟨r, h3, _, h5⟩ := h.own.ok T1 e T2 h1 h2
        exact ⟨r, h3, fun r' hr => by simp [Acyc.setConfl] at hr, h5⟩
      mode := h.own.mode }
  cmp := fun hl => by
    rcases h.cmp hl with h1 | h1
    · exact absurd hc h1.1
    · right
      have hT : ∀ e, PendT σ e → σ.todo ≠ [] := by
        intro e h3
        simp only [PendT] at h3
        split_ifs at h3
        · exact List.ne_nil_of_mem h3
        · exact h3
      have hP : ∀ e ∈ σ.att, isTrue σ e.lit = true → Pend σ e → Pend { Acyc.setConfl σ .other with stopq := some σ.queue, drop := !σ.todo.isEmpty || σ.phase.isSome } e := by
        intro e _ _ hp
        refine ⟨hp.1, ?_⟩
        have h2 := hp.2
        rw [h.base.stopq hc] at h2
        show _ ∨ _
        rcases h2 with h2 | h2 | h2 | ⟨b, h2, _⟩
        · exact absurd hc h2
        · exact Or.inl (by simp [hT e h2])
        · exact Or.inr h2
        · exact Or.inl (by simp [h2])
      refine { loop := h1.loop, watched := ?_, inv1 := h1.inv1.imp rfl rfl hP, inv2 := fun hm => (h1.inv2 hm).imp rfl rfl hP, srch := fun b hb => by simp [Acyc.setConfl] at hb }
      intro e he hn
      rcases h1.watched e he hn with h2 | ⟨h2, h3, h4⟩
      · exact Or.inl h2
      · exact Or.inr ⟨h2, fun hx => by simp [Acyc.setConfl] at hx, fun hx => by simp [hT e (h3 hx)]⟩

theorem AInv.resume {σ : St} (h : AInv σ) {q : List Lit} {l : Nat} (hq : σ.stopq = some q) (hl : l ≤ σ.dl) :
    AInv { undoTo σ l with queue := if l = σ.dl then q else [], stopq := none, confl := none, lost := σ.lost || (decide (l = σ.dl) && σ.drop) } := by
  have hcl := h.base.clr (h.base.stopC (by rw [hq]; simp))
  by_cases hld : l = σ.dl
  · have e : ({ undoTo σ l with queue := if l = σ.dl then q else [], stopq := none, confl := none, lost := σ.lost || (decide (l = σ.dl) && σ.drop) } : St) =
        { σ with queue := q, stopq := none, confl := none, lost := σ.lost || σ.drop } := by
      simp only [undoTo, hld, if_true, decide_true, Bool.true_and]
      have : σ.trail.filter (fun e => decide (e.lev ≤ σ.dl)) = σ.trail := List.filter_eq_self.2 fun e he => by simpa using h.base.levs e he
      rw [this]
    rw [e]
    refine ⟨{ h.base with qlev := ?_, stopC := fun hn => absurd rfl hn, clr := fun hn => absurd rfl hn }, ?_, { h.own with }, ?_⟩
    · intro x hx
      exact h.base.qlev x (by rw [hq, hcl.1]; simpa using hx)
    · refine { h.snd with val := ?_, confl := fun n hn => by simp at hn, srch := fun b hb => { h.snd.srch b hb with } }
      rcases h.snd.val with h1 | ⟨h1, h2⟩
      · rw [Dead, hq] at h1; exact absurd h1.2.1 (by simp)
      · refine Or.inr ⟨fun w hw hl => h1 w hw ?_, h2⟩
        rcases hl with hl | hl
        · exact Or.inl hl
        · right; rw [hq, hcl.1]; simpa using hl
    · intro hlo
      simp only [Bool.or_eq_false_iff] at hlo
      rcases h.cmp hlo.1 with h1 | h1
      · rw [Dead, hq] at h1; exact absurd h1.2.1 (by simp)
      · right
        have hP : ∀ e ∈ σ.att, isTrue σ e.lit = true → Pend σ e → Pend { σ with queue := q, stopq := none, confl := none, lost := σ.lost || σ.drop } e := by
          intro e _ _ hp
          refine ⟨hp.1, ?_⟩
          have h2 := hp.2
          rw [hq] at h2
          rcases h2 with h2 | h2
          · rw [hlo.2] at h2; simp at h2
          · exact Or.inr (Or.inr (Or.inl h2))
        refine { loop := h1.loop, watched := ?_, inv1 := h1.inv1.imp rfl rfl hP, inv2 := fun hm => (h1.inv2 hm).imp rfl rfl hP, srch := fun b hb => { h1.srch b hb with
          fwd := fun e he ht hg => ?_, bwd := fun e he hg => ?_ } }
        · intro e he hn
          rcases h1.watched e he hn with h2 | ⟨h2, _, h4⟩
          · exact Or.inl h2
          · refine Or.inr ⟨h2, fun hx => ?_, fun hx => by simp at hx⟩
            have := h4 (by rw [hq]; exact hx)
            rw [hlo.2] at this; simp at this
        · rw [show σ.phase = some b from hb] at hcl; exact nomatch hcl.2.2
        · rw [show σ.phase = some b from hb] at hcl; exact nomatch hcl.2.2
  · have e : ({ undoTo σ l with queue := if l = σ.dl then q else [], stopq := none, confl := none, lost := σ.lost || (decide (l = σ.dl) && σ.drop) } : St) =
        { undoTo σ l with queue := [], todo := [], reason := σ.reason, confl := none, stopq := none, phase := none } := by
      cases σ; simp only [undoTo] at *
      obtain ⟨_, rfl, rfl⟩ := hcl
      simp [hld]
    rw [e]; exact h.lower (by omega) (Or.inl rfl)

theorem AInv.decide {σ : St} (h : AInv σ) {p : Lit} (hc : σ.confl = none) (hp : σ.phase = none) (hr : σ.ready = true) (hq : σ.queue = []) (ht : σ.todo = []) (hf : isFree σ p = true) :
    AInv (Acyc.assign { σ with dl := σ.dl + 1 } p false) := by
  have hs := h.base.stopq hc
  refine AInv.asg (σ := { σ with dl := σ.dl + 1 }) ⟨?_, ?_, { h.own with }, ?_⟩ hc hf
  · refine { h.base with levs := fun e he => Nat.le_succ_of_le (h.base.levs e he), qlev := ?_, nr := fun hn => by rw [show σ.ready = false from hn] at hr; exact nomatch hr }
    intro x hx
    rw [show ({ σ with dl := σ.dl + 1 } : St).queue = [] from hq, show ({ σ with dl := σ.dl + 1 } : St).stopq = none from hs] at hx
    simp at hx
  · refine { h.snd with todo := ?_, val := ?_, srch := ?_ }
    · intro _ x hx
      rw [show ({ σ with dl := σ.dl + 1 } : St).todo = [] from ht] at hx
      simp at hx
    · rcases h.snd.val with h1 | h1
      · exact absurd hc h1.1
      · exact Or.inr h1
    · intro b hb
      rw [show σ.phase = some b from hb] at hp; exact nomatch hp
  · intro hlo
    rcases h.cmp hlo with h1 | h1
    · exact absurd hc h1.1
    · right
      have hP : ∀ e, ¬ Pend σ e := by
        intro e hpe
        have h2 := hpe.2
        rw [hs] at h2
        simp only [PendT, hr, hq, ht, hc, hp] at h2
        simp at h2
      refine { h1 with inv1 := ?_, inv2 := ?_, srch := ?_ }
      · intro L hL u hu he
        obtain ⟨e, _, h3⟩ := h1.inv1 L hL u hu he
        exact absurd h3 (hP e)
      · intro hm a ha L hL hu k he
        rcases h1.inv2 hm a ha L hL hu k he with ⟨e, _, h3⟩ | h3
        · exact absurd h3 (hP e)
        · exact Or.inr h3
      · intro b hb
        rw [show σ.phase = some b from hb] at hp; exact nomatch hp

/-- The state of the search changes. -/
theorem AInv.setPhase {σ : St} (h : AInv σ) {b b' : Bwd} (hp : σ.phase = some b) (hr : b'.root = b.root) (hS : SB σ b') (hC : Cmp σ → SC σ b') : AInv { σ with phase := some b' } where
  base := { h.base with
    clr := fun hn => by have := (h.base.clr hn).2.2; rw [hp] at this; exact nomatch this
    nr := fun hn => by have := (h.base.nr hn).2; rw [hp] at this; exact nomatch this }
  snd := { h.snd with srch := fun x hx => by cases hx; exact { hS with } }
  own := { h.own with }
  cmp := fun hlo => by
    rcases h.cmp hlo with h1 | h1
    · have := (h.base.clr h1.1).2.2; rw [hp] at this; exact nomatch this
    · right
      have hP : ∀ e ∈ σ.att, isTrue σ e.lit = true → Pend σ e → Pend { σ with phase := some b' } e := by
        intro e _ _ hpe
        refine ⟨hpe.1, ?_⟩
        have h2 := hpe.2
        cases hs : σ.stopq with
        | some q => rw [hs] at h2; exact h2
        | none =>
          rw [hs] at h2
          rcases h2 with h2 | h2 | h2 | ⟨x, h2, h3⟩
          · exact Or.inl h2
          · exact Or.inr (Or.inl h2)
          · exact Or.inr (Or.inr (Or.inl h2))
          · rw [hp] at h2; cases h2
            exact Or.inr (Or.inr (Or.inr ⟨b', rfl, by rw [hr, h3]⟩))
      exact { h1 with inv1 := h1.inv1.imp rfl rfl hP, inv2 := fun hm => (h1.inv2 hm).imp rfl rfl hP, srch := fun x hx => by cases hx; exact { hC h1 with } }

theorem AInv.wake {σ : St} (h : AInv σ) {b : Bwd} (hp : σ.phase = some b) : AInv { σ with phase := some { b with busy := false } } :=
  h.setPhase hp rfl { h.snd.srch b hp with } (fun hC => { hC.srch b hp with })

end Clasp.Acyc
