/-
Invariant of the search, and its preservation by every step. No code is modelled in this file.
-/
import Verif.Core.Search
namespace Clasp.Core
open St

namespace St
/-- What later states keep of a state. -/
structure Stay (s t : St) : Prop where
  dec : ∀ i, 1 ≤ i → i ≤ s.dl → i ≤ t.dl → t.decision i = s.decision i
  lit : ∀ q ∈ s.trail, s.level q.var ≤ t.dl → q ∈ t.trail ∧ t.level q.var = s.level q.var
  zero : ∀ q, s.D0 ∨ s.Fine q 0 → t.D0 ∨ t.Fine q 0
  flp : FlpKeep s t
  old : ∀ q ∈ t.trail, t.level q.var < t.dl → q ∈ s.trail ∧ s.level q.var = t.level q.var

theorem Down.old {s t : St} (h : Down s t) (hb : t.Base) {q : Lit} (hq : q ∈ t.trail) (hl : t.level q.var < t.dl) :
    q ∈ s.trail ∧ s.level q.var = t.level q.var := by
  have hd := done_of_lt hb hq hl
  exact ⟨(h.mono q hd).1.mem, (h.mono.level hd).symm⟩

theorem Down.stay {s t : St} (h : Down s t) (hb : t.Base) : Stay s t :=
  ⟨fun i h1 _ h3 => h.dec i h1 h3, h.lit, h.zero, h.flp, fun _ hq hl => h.old hb hq hl⟩
theorem Stay.refl (s : St) : Stay s s :=
  ⟨fun _ _ _ _ => rfl, fun _ h _ => ⟨h, rfl⟩, fun _ h => h, fun _ _ _ h => h, fun _ h _ => ⟨h, rfl⟩⟩
end St

namespace Db

theorem Ok.mono {learn : Bool} {T T' : Th} {d : Db} (h : Ok learn T d) (hle : T'.Le T) : Ok learn T' d :=
  ⟨h.inv.mono hle, h.wok, fun id hid M m => h.mods id hid M (hle.f M m), h.sym,
   ⟨fun a b hab M m => h.gmods.m2 a b hab M (hle.f M m), fun a b c hab M m => h.gmods.m3 a b c hab M (hle.f M m)⟩, h.good, h.good23, h.marked⟩

end Db

namespace Sys
variable {learn : Bool} {n : Nat} {E : Asg → Prop} {P : Nat → Bool} {x y : Sys}

/-- Invariant of the search, without the presence of the clauses. -/
structure Pre (learn : Bool) (n : Nat) (E : Asg → Prop) (P : Nat → Bool) (x : Sys) : Prop where
  ok : x.db.Ok learn (x.th E n)
  zero : ∀ M, x.todo E n M → x.zeroSat M
  mode : x.st.mode = 0 → x.st.flip = x.st.root
  ids : x.db.ids.Nodup
  dec : ∀ i, 1 ≤ i → i ≤ x.st.dl → (x.st.decision i).var ≤ n
  asm : ∀ a ∈ x.asm, x.st.tl a ∧ x.st.level a.var ≤ x.st.root
  root : ∀ i, 1 ≤ i → i ≤ x.st.root → x.st.decision i ∈ x.asm
  /-- reported models are models, and are excluded by a literal of the trail that is stored as implied -/
  fnd : ∀ M ∈ x.found, x.core E M ∧ ∃ k ≤ x.st.flip, (∀ i, 1 ≤ i → i ≤ k → M.sat (x.st.decision i)) ∧
    (∀ q ∈ x.st.trail, x.st.level q.var < k → M.sat q) ∧ ∃ q ∈ x.st.trail, x.st.level q.var = k ∧ ¬ M.sat q ∧ q.var ≤ n ∧ x.st.Flp q k
  fnp : x.found.Pairwise fun M M' => ¬ agreeOn (fun _ => true) n M M'
  rcd : ∀ r ∈ x.recs, x.base E r.2 ∧ r.2.all x.asm ∧ ∀ M : Asg, M.sat litTrue → M.all x.asm → M.satC r.1 → ¬ agreeOn P n M r.2
  cov : ∀ M, x.base E M → M.all x.asm → (∀ r ∈ x.recs, M.satC r.1) ∨ ∃ r ∈ x.recs, agreeOn P n M r.2
  rcp : x.recs.Pairwise fun r r' => ¬ agreeOn P n r.2 r'.2

/-- Invariant of the search. -/
structure Inv (learn : Bool) (n : Nat) (E : Asg → Prop) (P : Nat → Bool) (x : Sys) : Prop extends Pre learn n E P x where
  has : ∀ C, (C ∈ x.orig ∨ ∃ r ∈ x.recs, C = r.1) → (Db.Has (· ∈ x.prob) x.db C ∨ ∃ p ∈ C, p.neg ∈ C) ∧ ∀ p ∈ C, p.var ≤ n

/-- A new state is fine for its own models if it is fine for the old ones. -/
theorem retheory (hz : ∀ M, x.todo E n M → x.zeroSat M) (hok : y.db.Ok learn (x.th E n))
    (h0 : ∀ q ∈ x.st.trail, x.st.level q.var = 0 → q ∈ y.st.trail ∧ y.st.level q.var = 0)
    (hc : ∀ M, y.core E M → x.core E M) (ht : ∀ M, y.todo E n M → x.todo E n M) :
    y.db.Ok learn (y.th E n) ∧ ∀ M, y.todo E n M → y.zeroSat M := by
  have hzs : ∀ M, y.zeroSat M → x.zeroSat M := fun M h q hq hl => h q (h0 q hq hl).1 (h0 q hq hl).2
  refine ⟨hok.mono ⟨fun M m => ⟨hc M m.1, hzs M m.2⟩, fun M m => ⟨ht M m.1, hzs M m.2⟩⟩, fun M m q hq hl => ?_⟩
  have hm := ht M m
  refine hok.inv.sound.impl q hq M ⟨hm, hz M hm⟩ ?_
  intro i h1 h2
  rw [show y.db.st.level q.var = 0 from hl] at h2
  omega

/-- Steps that keep the history. -/
theorem Pre.keep (h : x.Pre learn n E P) {d' : Db} (hok : d'.Ok learn (x.th E n)) (hs : Stay x.st d'.st) (hroot : d'.st.root = x.st.root)
    (hflip : d'.st.flip = x.st.flip) (hmode : d'.st.mode = 0 → d'.st.flip = d'.st.root) (hids : d'.ids.Nodup)
    (hdec : ∀ i, x.st.dl < i → i ≤ d'.st.dl → (d'.st.decision i).var ≤ n) : ({ x with db := d' } : Sys).Pre learn n E P := by
  have hb := h.ok.inv.base
  have hb' := hok.inv.base
  have hrd : x.st.root ≤ d'.st.dl := by rw [← hroot]; exact Nat.le_trans hb'.wf.rf hb'.wf.fd
  have hfd : x.st.flip ≤ d'.st.dl := by rw [← hflip]; exact hb'.wf.fd
  have hrx : x.st.root ≤ x.st.dl := Nat.le_trans hb.wf.rf hb.wf.fd
  have hfx : x.st.flip ≤ x.st.dl := hb.wf.fd
  obtain ⟨r1, r2⟩ := retheory (y := { x with db := d' }) h.zero hok (fun q hq hl => by
      have := hs.lit q hq (by omega); exact ⟨this.1, this.2.trans hl⟩) (fun M m => m) (fun M m => m)
  refine ⟨r1, r2, hmode, hids, fun i h1 h2 => ?_, fun a ha => ?_, fun i h1 h2 => ?_,
    fun M hM => ?_, h.fnp, h.rcd, h.cov, h.rcp⟩
  · by_cases hi : i ≤ x.st.dl
    · show (d'.st.decision i).var ≤ n
      rw [hs.dec i h1 hi h2]; exact h.dec i h1 hi
    · exact hdec i (by omega) h2
  · obtain ⟨a1, a2⟩ := h.asm a ha
    show d'.st.tl a ∧ d'.st.level a.var ≤ d'.st.root
    rw [hroot]
    rcases a1 with rfl | a1
    · exact ⟨Or.inl rfl, by unfold St.level; rw [litTrue_var, hb'.c0]; simp⟩
    · obtain ⟨q1, q2⟩ := hs.lit a a1 (by omega)
      exact ⟨Or.inr q1, by omega⟩
  · have h2 : i ≤ d'.st.root := h2
    rw [hroot] at h2
    show d'.st.decision i ∈ x.asm
    rw [hs.dec i h1 (by omega) (by omega)]; exact h.root i h1 h2
  · obtain ⟨f1, k, hk, f3, f4, q, hq, hl, hn, hv, hF⟩ := h.fnd M hM
    refine ⟨f1, k, by show k ≤ d'.st.flip; omega, fun i h1 h2 => ?_, fun q hq hl => ?_, ?_⟩
    · show M.sat (d'.st.decision i)
      rw [hs.dec i h1 (by omega) (by omega)]; exact f3 i h1 h2
    · change d'.st.level q.var < k at hl
      obtain ⟨o1, o2⟩ := hs.old q hq (by omega)
      exact f4 q o1 (by omega)
    · obtain ⟨q1, q2⟩ := hs.lit q hq (by omega)
      exact ⟨q, q1, q2.trans hl, hn, hv, hs.flp q k (Nat.le_trans hk hfd) hF⟩

theorem Inv.keep (h : x.Inv learn n E P) {d' : Db} (hok : d'.Ok learn (x.th E n)) (hs : Stay x.st d'.st) (hroot : d'.st.root = x.st.root)
    (hflip : d'.st.flip = x.st.flip) (hmode : d'.st.mode = 0 → d'.st.flip = d'.st.root) (hids : d'.ids.Nodup)
    (hhas : ∀ C, Db.Has (· ∈ x.prob) x.db C → Db.Has (· ∈ x.prob) d' C)
    (hdec : ∀ i, x.st.dl < i → i ≤ d'.st.dl → (d'.st.decision i).var ≤ n) : ({ x with db := d' } : Sys).Inv learn n E P :=
  ⟨h.toPre.keep hok hs hroot hflip hmode hids hdec, fun C hC => ⟨(h.has C hC).1.imp (hhas C) id, (h.has C hC).2⟩⟩

theorem Pre.dl_le (h : x.Pre learn n E P) : x.st.dl ≤ n := by
  have hb := h.ok.inv.base
  have h1 : ((List.range x.st.dl).map fun i => (x.st.decision (i + 1)).var).length ≤ (List.range' 1 n).length := by
    refine List.Nodup.length_le_of_subset ?_ ?_
    · refine (List.nodup_map_iff_inj_on List.nodup_range).2 ?_
      intro i hi j hj hij
      have e1 := (decision_mem hb.wf (show 1 ≤ i + 1 by omega) (by have := List.mem_range.1 hi; exact this)).2
      have e2 := (decision_mem hb.wf (show 1 ≤ j + 1 by omega) (by have := List.mem_range.1 hj; exact this)).2
      change x.st.level _ = _ at e1 e2
      have hij : (x.db.st.decision (i + 1)).var = (x.db.st.decision (j + 1)).var := hij
      rw [hij] at e1
      have : i + 1 = j + 1 := e1.symm.trans e2
      omega
    · intro v hv
      obtain ⟨i, hi, rfl⟩ := List.mem_map.1 hv
      have hi := List.mem_range.1 hi
      have h0 := hb.toff _ (decision_mem hb.wf (show 1 ≤ i + 1 by omega) (show i + 1 ≤ x.db.st.dl from hi)).1
      have h1 := h.dec (i + 1) (by omega) hi
      rw [List.mem_range'_1]
      show 1 ≤ (x.st.decision (i + 1)).var ∧ (x.st.decision (i + 1)).var < 1 + n
      change (x.st.decision (i + 1)).var ≠ 0 at h0
      omega
  simpa using h1

theorem Pre.lvOk (h : x.Pre learn n E P) (hn : n < varMax) : x.db.st.LvOk :=
  h.ok.inv.base.lvOk (Nat.lt_of_le_of_lt h.dl_le hn)

theorem Inv.setSt (h : x.Inv learn n E P) {t : St} (hi : t.Inv learn (x.th E n)) (hd : Down x.st t) (hroot : t.root = x.st.root)
    (hflip : t.flip = x.st.flip) (hmode : t.mode = x.st.mode) : (x.setSt t).Inv learn n E P := by
  refine h.keep (d' := { x.db with st := t }) (h.ok.setSt hi hd) (hd.stay hi.base) hroot hflip ?_ h.ids (fun C hC => ?_) ?_
  · show t.mode = 0 → t.flip = t.root
    rw [hmode, hflip, hroot]; exact h.mode
  · exact hC.mono hd.zero (fun i hi hp => ⟨hp, hi, fun _ hx => hx⟩) (fun _ _ h => h) (fun _ _ _ h => h)
  · intro i h1 h2
    have := hd.dl
    have h2 : i ≤ t.dl := h2
    omega

/-! ### Simple steps -/

theorem Inv.force (h : x.Inv learn n E P) {p : Lit} {r : List Lit} (hc : x.st.conflict = []) (hr : ∀ q ∈ r, x.st.tl q)
    (hF : ∀ M, x.th E n M → M.all r → M.sat p)
    (htop : x.st.isFalse p = true → x.st.dl ≠ x.st.flip → ∃ q ∈ p.neg :: r, q ∈ x.st.trail ∧ x.st.level q.var = x.st.dl) :
    (x.setSt (x.st.force learn p (some r)).1).Inv learn n E P := by
  have hi := St.Inv.force h.ok.inv hc hr hF htop
  have e := force_ext (learn := learn) (s := x.st) p (some r)
  exact h.setSt hi (e.down h.ok.inv.base hi.base (force_keeps h.ok.inv.base p _) (force_flp _ _)) e.root e.flip e.mode

theorem Inv.undo (h : x.Inv learn n E P) (k : Nat) : (x.setSt (x.st.undoUntil learn k undoDefault)).Inv learn n E P := by
  have hi := h.ok.inv
  have hb := hi.base
  rw [undoDef_eq h.mode]
  have e : x.st = { x.st with root := x.st.root, flip := x.st.flip, mode := x.st.mode, impFront := x.st.impFront } := rfl
  obtain ⟨u1, u2, u3, u4, u5, u6⟩ := undo_core (level := k) (s := x.st) hi hb.wf.rf (Nat.le_refl _) (Nat.le_refl _) hi.mode (Or.inl ⟨rfl, rfl⟩) (Or.inl rfl)
  rw [← e] at *
  exact h.setSt u1 (u2.down hb u1.base u3 (undoFin_flp rfl _)) u4 u5 u6

theorem Grow.stay {d d' : Db} (h : Db.Grow d d') (hc : d.st.conflict = []) (hb : d.st.Base) : Stay d.st d'.st := by
  obtain ⟨w, hw, hl⟩ := h.trail
  have hm : ∀ q ∈ d.st.trail, q ∈ d'.st.trail ∧ d'.st.level q.var = d.st.level q.var := fun q hq =>
    ⟨by rw [hw]; simp [hq], (h.keep _ (tl_value hb (Or.inr hq))).2.1⟩
  refine ⟨fun i h1 h2 _ => ?_, fun q hq _ => hm q hq, fun q hq => Or.inr ?_, .of_imp h.imp, fun q hq hl' => ?_⟩
  · have e' : d'.st.levelStart i = d.st.levelStart i := by unfold levelStart; rw [h.lv]
    unfold St.decision
    rw [e']
    obtain ⟨l1, l, hl, hlen⟩ := lv_split (show i - 1 < d.st.dl by omega)
    rw [show i - 1 + 1 = i by omega] at hl
    have hlt : d.st.levelStart i < d.st.trail.length := (List.pairwise_cons.1 hb.wf.lvs).1 _ (by rw [hl]; simp)
    rw [hw, List.reverse_append, List.getElem?_append_left (by simpa using hlt)]
  · rcases hq with hq | hq
    · exact absurd hc hq.1
    · rcases hq with ⟨ht, hl⟩ | ⟨y, hy, hq⟩
      · left
        refine ⟨?_, by rw [(h.keep _ (tl_value hb ht)).2.1]; exact hl⟩
        rcases ht with rfl | ht
        · exact Or.inl rfl
        · exact Or.inr (hm q ht).1
      · right
        rw [h.imp]; exact ⟨y, hy, hq⟩
  · have hdl : d'.st.dl = d.st.dl := by unfold St.dl; rw [h.lv]
    rw [hw] at hq
    rcases List.mem_append.1 hq with hq | hq
    · have := (hl q hq).1; omega
    · exact ⟨hq, (hm q hq).2.symm⟩

theorem Inv.propagate (h : x.Inv learn n E P) {fuel : Nat} {d' : Db} {ok : Bool} (hc : x.st.conflict = [])
    (hp : x.db.propagate learn fuel = some (d', ok)) : ({ x with db := d' } : Sys).Inv learn n E P ∧
    (ok = true → d'.st.conflict = [] ∧ d'.st.front = d'.st.trail.length) ∧ (ok = false → d'.st.conflict ≠ []) := by
  unfold Db.propagate at hp
  rw [Option.map_eq_some_iff] at hp
  obtain ⟨⟨d1, ok1⟩, h1, h2⟩ := hp
  obtain ⟨q1, q2, q3, q4⟩ := Db.unitPropagate_spec fuel x.db d1 ok1 h.ok.toOk0 hc h1
  have hstay := Grow.stay q2 hc h.ok.inv.base
  have key : ∀ d2 : Db, d2.Ok learn (x.th E n) → Stay x.st d2.st → d2.st.root = d1.st.root → d2.st.flip = d1.st.flip → d2.st.mode = d1.st.mode →
      d2.ids = d1.ids → d2.cls = d1.cls → d2.graph = d1.graph → d2.st.lv = d1.st.lv → ({ x with db := d2 } : Sys).Inv learn n E P := by
    intro d2 k1 k2 k3 k4 k5 k6 k7 k8 k9
    refine h.keep k1 k2 (k3.trans q2.root) (k4.trans q2.flip) ?_ (by rw [k6, q2.ids]; exact h.ids) (fun C hC => ?_) ?_
    · rw [k5, k4, k3, q2.mode, q2.flip, q2.root]; exact h.mode
    · refine hC.mono k2.zero (fun i hi hp => ⟨hp, by rw [k6, q2.ids]; exact hi, fun y hy => ?_⟩) ?_ ?_
      · rw [k7] at hy; exact (q2.perm i).mem_iff.1 hy
      · intro a b hab; rw [k8, q2.graph]; exact hab
      · intro a b c hab; rw [k8, q2.graph]; exact hab
    · intro i h3 h4
      have : d2.st.dl = x.st.dl := by unfold St.dl; rw [k9, q2.lv]; rfl
      omega
  cases ok1 with
  | true =>
    simp only [Prod.mk.injEq] at h2
    obtain ⟨rfl, rfl⟩ := h2
    exact ⟨key d1 q1 hstay rfl rfl rfl rfl rfl rfl rfl, q3, q4⟩
  | false =>
    simp only [Prod.mk.injEq] at h2
    obtain ⟨rfl, rfl⟩ := h2
    have hcf := q4 rfl
    have hb := q1.inv.base
    have hi : ({ d1.st with front := d1.st.trail.length } : St).Inv learn (x.th E n) := by
      refine ⟨⟨⟨hb.wf.congr rfl rfl rfl (Nat.le_refl _) hb.wf.rf hb.wf.fd, hb.c0, hb.toff, hb.asg, ?_⟩,
        ⟨q1.inv.sound.tt, q1.inv.sound.reason, q1.inv.sound.impl, q1.inv.sound.null⟩, q1.inv.stop, q1.inv.mode, q1.inv.dead, q1.inv.conf,
        q1.inv.confF, q1.inv.confTop, q1.inv.m1, q1.inv.m2⟩, ⟨q1.inv.imp.snd, q1.inv.imp.nul, q1.inv.imp.fr, q1.inv.imp.low, q1.inv.imp.asg, q1.inv.imp.rt, q1.inv.imp.lvl⟩⟩
      intro t1 p t2 ht hl
      have ht : d1.st.trail = t1 ++ p :: t2 := ht
      have hl : d1.st.trail.length ≤ t2.length := hl
      rw [ht] at hl; simp at hl; omega
    have hd : Down d1.st { d1.st with front := d1.st.trail.length } := by
      refine ⟨Nat.le_refl _, fun _ _ _ => rfl, fun q hq _ => ⟨hq, rfl⟩, ?_, fun q hq => hq, .of_imp rfl⟩
      intro p hp
      unfold Done at hp
      rw [if_neg hcf] at hp
      exact ⟨done_of_lt hb hp.1 hp.2, rfl, fun q hq => hq⟩
    refine ⟨key _ (q1.setSt hi hd) ⟨hstay.dec, hstay.lit, hstay.zero, hstay.flp, hstay.old⟩ rfl rfl rfl rfl rfl rfl rfl, by simp, fun _ => hcf⟩

theorem decide_mono {s : St} (hb : s.Base) (hc : s.conflict = []) {p : Lit} (hp : s.value p.var = none) (hf : s.front ≤ s.trail.length) :
    Mono s (s.decide' p) := by
  have hne : ∀ {q : Lit}, s.tl q → q.var ≠ p.var := fun hq => free_ne_of_tl hb hp hq
  intro q hq
  have hc' : (s.decide' p).conflict = [] := hc
  unfold Done at hq ⊢
  rw [if_pos hc'] at hq
  rw [if_pos hc]
  obtain ⟨t1, t2, ht, hl⟩ := hq
  have ht : p :: s.trail = t1 ++ q :: t2 := ht
  have hl : t2.length < s.front := hl
  match t1, ht with
  | [], ht => simp at ht; rw [ht.2] at hf; omega
  | a :: t1, ht =>
    simp at ht
    have hm : q ∈ s.trail := by rw [ht.2]; simp
    refine ⟨⟨t1, t2, ht.2, hl⟩, ?_, ?_⟩
    · show Function.update s.cell p.var _ q.var = _
      rw [Function.update_of_ne (hne (Or.inr hm))]
    · intro y hy
      rcases hy with ⟨h1, h2⟩ | h1
      · left
        refine ⟨h1.imp id (fun h => List.mem_cons_of_mem _ h), by rw [decide_level, if_neg (hne h1)]; exact h2⟩
      · right; exact h1

theorem decide_stay {s : St} (hb : s.Base) (hc : s.conflict = []) {p : Lit} (hp : s.value p.var = none) : Stay s (s.decide' p) := by
  have hne : ∀ {q : Lit}, s.tl q → q.var ≠ p.var := fun hq => free_ne_of_tl hb hp hq
  refine ⟨fun i h1 h2 _ => decide_decision hb.wf p h1 h2, fun q hq _ => ⟨List.mem_cons_of_mem _ hq, by rw [decide_level, if_neg (hne (Or.inr hq))]⟩,
    fun q hq => Or.inr ?_, .of_imp rfl, fun q hq hl => ?_⟩
  rcases hq with hq | hq
  · exact absurd hc hq.1
  · rcases hq with ⟨h1, h2⟩ | h1
    · left
      refine ⟨h1.imp id (fun h => List.mem_cons_of_mem _ h), by rw [decide_level, if_neg (hne h1)]; exact h2⟩
    · right; exact h1
  · rcases List.mem_cons.1 hq with rfl | hq
    · rw [decide_level, if_pos rfl, decide_dl] at hl; omega
    · exact ⟨hq, by rw [decide_level, if_neg (hne (Or.inr hq))]⟩

theorem Ok.decide {T : Th} {d : Db} (h : d.Ok learn T) (hc : d.st.conflict = []) (hf : d.st.front = d.st.trail.length) {p : Lit}
    (hp : d.st.value p.var = none) : Db.Ok learn T { d with st := d.st.decide' p } := by
  have hm := decide_mono h.inv.base hc hp (Nat.le_of_eq hf)
  have hi := h.inv.decide h.marked hc hp hf
  exact ⟨hi, ⟨h.wok.wat, h.wok.wnd, h.wok.nod, h.wok.nz⟩, h.mods, h.sym, h.gmods, h.good.mono hm, h.good23.mono hm,
    Db.Marked.mono h.inv h.marked hm hi.base⟩

theorem Inv.decide (h : x.Inv learn n E P) {p : Lit} (hc : x.st.conflict = []) (hf : x.st.front = x.st.trail.length)
    (hp : x.st.value p.var = none) (hv : p.var ≤ n) : (x.setSt (x.st.decide' p)).Inv learn n E P := by
  refine h.keep (d' := { x.db with st := x.st.decide' p }) (Ok.decide h.ok hc hf hp) (decide_stay h.ok.inv.base hc hp) rfl rfl h.mode h.ids
    (fun C hC => ?_) ?_
  · exact hC.mono (decide_stay h.ok.inv.base hc hp).zero (fun i hi hp => ⟨hp, hi, fun _ hx => hx⟩) (fun _ _ h => h) (fun _ _ _ h => h)
  · intro i h1 h2
    have h2 : i ≤ (x.st.decide' p).dl := h2
    rw [decide_dl] at h2
    obtain rfl : i = x.st.dl + 1 := by omega
    show ((x.st.decide' p).decision _).var ≤ n
    rw [decide_new]; exact hv

/-! ### Clauses -/

theorem agree0_of {T : Th} {d : Db} (hi : d.st.Inv learn T) (hz : ∀ M, T M → ∀ q ∈ d.st.trail, d.st.level q.var = 0 → M.sat q)
    {M : Asg} (hM : T M) : agree0 d.st M := by
  intro p hp hl
  rcases (hi.base.isTrue_iff p).1 hp with rfl | h
  · exact hi.sound.tt M hM
  · exact hz M hM p h hl

/-- Adding a clause that holds in all models. -/
theorem prep_created {T : Th} {d : Db} (h : d.Ok learn T) (hz : ∀ M, T M → ∀ q ∈ d.st.trail, d.st.level q.var = 0 → M.sat q)
    (hl : d.st.LvOk) {C : List Lit} {id : Nat} {simp shared lr implicit : Bool} {f : CFlags} (hc : d.st.conflict = []) (hid : id ∉ d.ids)
    (hlen : C.length < umax) (hd : simp = true ∨ C.Nodup ∨ C.length ≤ 2) (hF : ∀ M, T M → M.satC C) :
    Db.Created learn T d (d.createPrepared learn (Prep.prepareVec d.st C simp) id shared lr implicit f).1 (Prep.prepareVec d.st C simp) id ∧
    (∀ Q : Nat → Prop, Q id → shared = false → f = {} →
      Db.Has Q (d.createPrepared learn (Prep.prepareVec d.st C simp) id shared lr implicit f).1 C ∨ ∃ p ∈ C, p.neg ∈ C) := by
  have hb := h.inv.base
  have hsat : ∀ M, T M → M.satC (Prep.prepareVec d.st C simp) := fun M m => (C12_prepare hl hlen hd (agree0_of h.inv hz m)).2 (hF M m)
  have hpre : (Prep.prepareVec d.st C simp).Nodup ∧ (∀ p ∈ Prep.prepareVec d.st C simp, p ≠ litFalse) ∧
      (∀ a b rest, Prep.prepareVec d.st C simp = a :: b :: rest → Best d.st a b rest) ∧
      (((∃ p ∈ C, d.st.isTrue p = true ∧ d.st.level p.var = 0) ∨ ∃ p ∈ C, p.neg ∈ C) ∨ ∀ p ∈ Prep.prepareVec d.st C simp, p ∈ C) := by
    rcases prepareVec_spec hl hlen hd with ⟨e, hh⟩ | ⟨_, h2, h3, _, h5⟩
    · rw [e]
      exact ⟨List.nodup_singleton _, fun p hp => by rw [List.mem_singleton.1 hp]; decide, by simp, Or.inl hh⟩
    · refine ⟨h3, fun p hp e => ?_, fun a b rest e => ⟨(h5 a b rest e).1, (h5 a b rest e).2⟩, Or.inr fun p hp => ((h2 p).1 hp).1⟩
      have := ((h2 p).1 hp).2
      apply this
      rw [e]
      exact ⟨by show d.st.value 0 ≠ none; rw [hl.tt.1]; simp, hl.tt.2⟩
  obtain ⟨p1, p2, p3, p4⟩ := hpre
  have hcr := Db.createPrepared_spec h hc hl (shared := shared) (lr := lr) (implicit := implicit) (f := f) hid p1 p2 hsat p3
  refine ⟨hcr, fun Q hQ hs hf => ?_⟩
  rcases p4 with (⟨p, hp, ht, hl0⟩ | ht) | p4
  · left; right; right; right
    refine ⟨p, Or.inl hp, hcr.down.zero p (Or.inr (Or.inl ⟨(hb.isTrue_iff p).1 ht, by omega⟩))⟩
  · exact Or.inr ht
  · left
    subst hs hf
    exact (Db.createPrepared_has h hc hl hQ hid p1 p2 hsat p3).sub p4

theorem Pre.created (h : x.Pre learn n E P) {d' : Db} {l : List Lit} {id : Nat} (hc : Db.Created learn (x.th E n) x.db d' l id) (hid : id ∉ x.db.ids) :
    ({ x with db := d' } : Sys).Pre learn n E P := by
  refine h.keep hc.ok (hc.down.stay hc.ok.inv.base) hc.root hc.flip ?_ ?_ ?_
  · rw [hc.mode, hc.flip, hc.root]; exact h.mode
  · rcases hc.ids with e | ⟨e, _⟩
    · rw [e]; exact h.ids
    · rw [e]; exact List.nodup_cons.2 ⟨hid, h.ids⟩
  · intro i h1 h2
    have := hc.down.dl
    change d'.st.dl ≤ x.st.dl at this
    omega

theorem Inv.created (h : x.Inv learn n E P) {d' : Db} {l : List Lit} {id : Nat} (hc : Db.Created learn (x.th E n) x.db d' l id) (hid : id ∉ x.db.ids) :
    ({ x with db := d' } : Sys).Inv learn n E P :=
  ⟨h.toPre.created hc hid, fun C hC => ⟨(h.has C hC).1.imp (fun hh => hh.created hc (fun _ _ h => h)) (fun h => h), (h.has C hC).2⟩⟩

theorem Inv.lemma (h : x.Inv learn n E P) (hn : n < varMax) {C : List Lit} {id : Nat} {simp shared lr implicit : Bool} {f : CFlags} (hc : x.st.conflict = [])
      (hid : id ∉ x.db.ids) (hlen : C.length < umax) (hd : simp = true ∨ C.Nodup ∨ C.length ≤ 2) (hF : ∀ M, x.th E n M → M.satC C) :
    ({ x with db := (x.db.createPrepared learn (Prep.prepareVec x.st C simp) id shared lr implicit f).1 } : Sys).Inv learn n E P :=
  h.created (prep_created h.ok (fun _ m => m.2) (h.lvOk hn) hc hid hlen hd hF).1 hid

/-- The clause of a new problem clause or recorded nogood. -/
theorem Pre.addClause {x1 : Sys} (h : x1.Pre learn n E P) (hn : n < varMax) (C : List Lit) (hhas : ∀ D, (D ∈ x1.orig ∨ ∃ r ∈ x1.recs, D = r.1) →
      D = C ∨ ((Db.Has (fun i => i ∈ x1.prob) x1.db D ∨ ∃ p ∈ D, p.neg ∈ D) ∧ ∀ p ∈ D, p.var ≤ n))
    {id : Nat} {simp lr implicit : Bool} (hc : x1.st.conflict = [])
    (hid : id ∉ x1.db.ids) (hp : id ∈ x1.prob) (hlen : C.length < umax) (hd : simp = true ∨ C.Nodup ∨ C.length ≤ 2) (hF : ∀ M, x1.core E M → M.satC C)
    (hv : ∀ p ∈ C, p.var ≤ n) :
    ({ x1 with db := (x1.db.createPrepared learn (Prep.prepareVec x1.st C simp) id false lr implicit {}).1 } : Sys).Inv learn n E P := by
  obtain ⟨c1, c2⟩ := prep_created (f := {}) (shared := false) (lr := lr) (implicit := implicit) h.ok (fun _ m => m.2) (h.lvOk hn) hc hid hlen hd (fun M m => hF M m.1)
  refine ⟨h.created c1 hid, fun D hD => ?_⟩
  rcases hhas D hD with rfl | ⟨hD, hv'⟩
  · exact ⟨c2 _ hp rfl rfl, hv⟩
  · exact ⟨hD.imp (fun hh => hh.created c1 (fun _ _ h => h)) (fun h => h), hv'⟩

theorem Inv.clause (h : x.Inv learn n E P) (hn : n < varMax) {C : List Lit} {id : Nat} {simp lr implicit : Bool} (hc : x.st.conflict = []) (hf : x.found = [])
    (hr : x.recs = []) (hid : id ∉ x.db.ids) (hv : ∀ p ∈ C, p.var ≤ n) (hlen : C.length < umax) (hd : simp = true ∨ C.Nodup ∨ C.length ≤ 2) :
    ({ x with db := (x.db.createPrepared learn (Prep.prepareVec x.st C simp) id false lr implicit {}).1, orig := C :: x.orig, prob := id :: x.prob } : Sys).Inv
      learn n E P := by
  have hcore : ∀ M, ({ x with orig := C :: x.orig, prob := id :: x.prob } : Sys).core E M → x.core E M := fun M m =>
    ⟨⟨m.1.1, m.1.2.1, fun D hD => m.1.2.2 D (List.mem_cons_of_mem _ hD)⟩, m.2⟩
  obtain ⟨r1, r2⟩ := retheory (y := { x with orig := C :: x.orig, prob := id :: x.prob }) h.zero h.ok (fun q hq hl => ⟨hq, hl⟩) hcore
    (fun M m => ⟨hcore M m.1, m.2⟩)
  have hp : ({ x with orig := C :: x.orig, prob := id :: x.prob } : Sys).Pre learn n E P := by
    refine ⟨r1, r2, h.mode, h.ids, h.dec, h.asm, h.root, ?_, h.fnp, ?_, ?_, h.rcp⟩
    · intro M hM; rw [show ({ x with orig := C :: x.orig, prob := id :: x.prob } : Sys).found = [] from hf] at hM; simp at hM
    · intro r hM; rw [show ({ x with orig := C :: x.orig, prob := id :: x.prob } : Sys).recs = [] from hr] at hM; simp at hM
    · intro M _ _; left; intro r hM; rw [show ({ x with orig := C :: x.orig, prob := id :: x.prob } : Sys).recs = [] from hr] at hM; simp at hM
  refine hp.addClause hn C ?_ hc hid (List.mem_cons_self ..) hlen hd (fun M m => m.1.2.2 C (List.mem_cons_self ..)) hv
  intro D hD
  rcases hD with hD | hD
  · rcases List.mem_cons.1 hD with rfl | hD
    · exact Or.inl rfl
    · right
      refine ⟨(h.has D (Or.inl hD)).1.imp (fun hh => hh.mono (fun _ h => h) (fun i hi hp => ⟨List.mem_cons_of_mem _ hp, hi, fun _ h => h⟩)
        (fun _ _ h => h) (fun _ _ _ h => h)) (fun h => h), (h.has D (Or.inl hD)).2⟩
  · obtain ⟨r, hM, _⟩ := hD
    rw [show ({ x with orig := C :: x.orig, prob := id :: x.prob } : Sys).recs = [] from hr] at hM; simp at hM

/-- Removing clauses that are learnt, or satisfied on level 0. -/
theorem Inv.detach (h : x.Inv learn n E P) {id : Nat} (hd : id ∉ x.prob ∨ id ∈ x.db.ids ∧ ∃ p ∈ (x.db.cls id).lits, x.st.tl p ∧ x.st.level p.var = 0) :
    ({ x with db := x.db.detach id } : Sys).Inv learn n E P := by
  refine h.keep (h.ok.detach id h.ids) (Stay.refl _) rfl rfl h.mode (h.ids.erase id) ?_ ?_
  · intro C hC
    rcases hC with ⟨i, h1, h2, h3⟩ | hC | hC | hC
    · by_cases he : i = id
      · subst he
        rcases hd with hd | ⟨_, p, hp, ht, hl⟩
        · exact absurd h2 hd
        · right; right; right
          exact ⟨p, (h3 p hp).symm, Or.inr (Or.inl ⟨ht, by show x.st.level p.var ≤ 0; omega⟩)⟩
      · left
        exact ⟨i, (List.mem_erase_of_ne he).2 h1, h2, h3⟩
    · exact Or.inr (Or.inl hC)
    · exact Or.inr (Or.inr (Or.inl hC))
    · exact Or.inr (Or.inr (Or.inr hC))
  · intro i h1 h2
    have h2 : i ≤ x.st.dl := h2
    omega

end Sys
end Clasp.Core
