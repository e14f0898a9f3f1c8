/-
C08: the invariant of the broadcast queue and its preservation by every atomic step.
-/
import Verif.Conc.MultiQueue
import Mathlib.Data.Fintype.Card
import Mathlib.Data.Finset.Card
namespace Clasp.MQ
open Function

variable {T : Type} {m : Nat}

/-- node at position `i` of the queue (0 = embedded head node) -/
def nodeAt (log : List (Addr × T)) : Nat → Addr
  | 0 => 0
  | i + 1 => (log[i]?.map Prod.fst).getD 0

theorem nodeAt_append (log l : List (Addr × T)) (i : Nat) (h : i ≤ log.length) :
    nodeAt (log ++ l) i = nodeAt log i := by
  cases i with
  | zero => rfl
  | succ i => simp only [nodeAt]; rw [List.getElem?_append_left (by omega)]

theorem nodeAt_last (log : List (Addr × T)) (n : Addr) (x : T) :
    nodeAt (log ++ [(n, x)]) (log.length + 1) = n := by
  simp [nodeAt]

/-- position of an item that has been linked by a call still in progress -/
def PC.swing : PC T → Option Nat
  | .pubSwing _ _ _ i => some i
  | .rlxSwing _ _ i => some i
  | _ => none

/-- node privately held by a thread -/
def PC.owned : PC T → Option Addr
  | .init1 _ _ n | .init2 _ _ n | .pubTail _ n | .pubNext _ n _ | .pubCheck _ n _ _ | .pubHelp _ n _ _ | .pubCas _ n _
  | .rlxTail _ n | .rlxLink _ n _ => some n
  | .relNext _ n | .relHead _ n _ | .relDel _ n | .push1 _ n | .push2 _ n _ | .push3 _ n _ => some n
  | _ => none

def PC.relA : PC T → Bool
  | .relNext .. | .relHead .. => true
  | _ => false

def PC.relB : PC T → Bool
  | .relNext .. | .relHead .. | .relDel .. => true
  | _ => false

def isStack (next : Addr → Option Addr) : Option Addr → List Addr → Prop
  | top, [] => top = none
  | top, a :: r => top = some a ∧ isStack next (next a) r

theorem isStack_congr {next next' : Addr → Option Addr} : ∀ {top : Option Addr} {l : List Addr},
    (∀ a ∈ l, next' a = next a) → isStack next top l → isStack next' top l
  | _, [], _, h => h
  | _, a :: r, he, ⟨h1, h2⟩ => ⟨h1, by
      rw [he a (List.mem_cons_self ..)]
      exact isStack_congr (fun b hb => he b (List.mem_cons_of_mem _ hb)) h2⟩

def Guard (s : St T m) (t : Fin m) (n : Addr) : Prop :=
  s.st n = .free ∨ (∃ u, s.st n = .priv u ∧ (s.pc u).inPub ≠ none) ∨ ∃ i, s.st n = .linked i ∧ s.dd t ≤ i ∧ 1 ≤ i

def Own (s : St T m) (t : Fin m) (x : T) (n : Addr) : Prop :=
  s.st n = .priv t ∧ s.next n = none ∧ s.refs n = m ∧ s.data n = some x

/-- shape of the handle bookkeeping: between calls -/
def Rest (s : St T m) (t : Fin m) : Prop := s.dd t = s.pos t ∧ (s.hist t).length = s.pos t
/-- after the old node was released, before the call returns -/
def Late (s : St T m) (t : Fin m) : Prop := s.dd t = s.pos t ∧ (s.hist t).length + 1 = s.pos t

def Rel (s : St T m) (t : Fin m) (n : Addr) : Prop :=
  Late s t ∧ s.st n = .priv t ∧ n = nodeAt s.log s.rc ∧ s.dd t = s.rc + 1 ∧ 1 ≤ s.rc ∧
  s.data n = (s.log[s.rc - 1]?).map Prod.snd ∧ s.del = (s.log.take (s.rc - 1)).map Prod.snd

def LocalPC (s : St T m) (t : Fin m) : PC T → Prop
  | .idle | .popTop .. | .new .. | .conTail .. => Rest s t
  | .popNext _ _ n => Rest s t ∧ Guard s t n
  | .popCas _ _ n nx => Rest s t ∧ Guard s t n ∧ (s.st n = .free → s.next n = nx)
  | .init1 _ _ n => Rest s t ∧ s.st n = .priv t
  | .init2 _ _ n => Rest s t ∧ s.st n = .priv t ∧ s.next n = none
  | .pubTail x n => Rest s t ∧ Own s t x n
  | .pubNext x n a => Rest s t ∧ Own s t x n ∧ ∃ k, a = nodeAt s.log k ∧ s.dd t ≤ k ∧ k ≤ s.tp
  | .pubCheck x n a an => Rest s t ∧ Own s t x n ∧ ∃ k, a = nodeAt s.log k ∧ s.dd t ≤ k ∧ k ≤ s.tp ∧
      ∀ b, an = some b → k < s.log.length ∧ b = nodeAt s.log (k + 1)
  | .pubHelp x n a an => Rest s t ∧ Own s t x n ∧ ∃ k, a = nodeAt s.log k ∧ s.dd t ≤ k ∧ k ≤ s.tp ∧
      k < s.log.length ∧ an = nodeAt s.log (k + 1)
  | .pubCas x n a => Rest s t ∧ Own s t x n ∧ ∃ k, a = nodeAt s.log k ∧ s.dd t ≤ k ∧ k ≤ s.tp
  | .pubSwing x n a i => Rest s t ∧ 1 ≤ i ∧ i ≤ s.log.length ∧ i ≤ s.tp + 1 ∧ s.dd t ≤ i - 1 ∧
      a = nodeAt s.log (i - 1) ∧ s.log[i - 1]? = some (n, x)
  | .rlxTail x n => Rest s t ∧ Own s t x n
  | .rlxLink x n a => Rest s t ∧ Own s t x n ∧ a = nodeAt s.log s.log.length ∧ s.tp = s.log.length
  | .rlxSwing x n i => Rest s t ∧ 1 ≤ i ∧ i = s.log.length ∧ s.tp + 1 = i ∧ s.log[i - 1]? = some (n, x)
  | .conMove _ => Rest s t ∧ s.pos t < s.tp
  | .conDec _ n => s.dd t + 1 = s.pos t ∧ (s.hist t).length = s.dd t ∧ n = nodeAt s.log (s.dd t)
  | .relNext _ n => Rel s t n ∧ s.next n = some (nodeAt s.log (s.rc + 1))
  | .relHead _ n nx => Rel s t n ∧ nx = some (nodeAt s.log (s.rc + 1))
  | .relDel _ n => Rel s t n
  | .push1 _ n => Late s t ∧ s.st n = .priv t
  | .push2 _ n _ => Late s t ∧ s.st n = .priv t
  | .push3 _ n tp => Late s t ∧ s.st n = .priv t ∧ s.next n = tp
  | .conRead _ => Late s t

structure Base (s : St T m) (t : Fin m) : Prop where
  ddpos : s.dd t ≤ s.pos t
  postp : s.pos t ≤ s.tp
  cur : s.cur t = nodeAt s.log (s.pos t)

/-- number of threads that have not yet let go of position `i` -/
def cnt (dd : Fin m → Nat) (i : Nat) : Nat := (Finset.univ.filter fun t => dd t ≤ i).card

structure Inv (s : St T m) : Prop where
  bad : s.bad = false
  st0 : s.st 0 = .linked 0
  lnk : ∀ i, s.rc < i → i ≤ s.log.length → s.st (nodeAt s.log i) = .linked i
  own : ∀ a t, s.st a = .priv t → (s.pc t).owned = some a
  fsn : s.fs.Nodup
  fsc : ∀ a ∈ s.fs, s.st a = .free
  fst : isStack s.next s.top s.fs
  tl : s.tail = nodeAt s.log s.tp
  tpN : s.tp ≤ s.log.length
  Ntp : s.log.length ≤ s.tp + 1
  lag : s.tp < s.log.length → ∃ t, (s.pc t).swing = some s.log.length
  nxt : ∀ i, s.rc < i → i < s.log.length → s.next (nodeAt s.log i) = some (nodeAt s.log (i + 1))
  nxtN : s.next (nodeAt s.log s.log.length) = none
  hd : 0 < s.log.length → (∀ t, (s.pc t).relA = false) → s.next 0 = some (nodeAt s.log (s.rc + 1))
  refs : ∀ i, s.rc < i → i ≤ s.log.length → s.refs (nodeAt s.log i) = cnt s.dd i
  data : ∀ i, s.rc < i → i ≤ s.log.length → s.data (nodeAt s.log i) = (s.log[i - 1]?).map Prod.snd
  rc1 : ∀ t, s.rc < s.dd t ∨ s.rc = 0
  rc2 : ∃ t, s.dd t ≤ s.rc + 1
  base : ∀ t, Base s t
  loc : ∀ t, LocalPC s t (s.pc t)
  lock : ∀ t, (s.pc t).inPub = some true → ∀ u, u ≠ t → (s.pc u).inPub = none
  del : (∀ t, (s.pc t).relB = false) → s.del = (s.log.take s.rc).map Prod.snd
  fin : ∀ p ∈ s.fin, 1 ≤ p.1 ∧ p.1 ≤ s.tp ∧ (s.log[p.1 - 1]?).map Prod.snd = some p.2
  fnd : (s.fin.map Prod.fst).Nodup
  fsw : ∀ t i, (s.pc t).swing = some i → i ∉ s.fin.map Prod.fst
  sw2 : ∀ t u i, (s.pc t).swing = some i → (s.pc u).swing = some i → t = u
  all : ∀ i, 1 ≤ i → i ≤ s.log.length → i ∈ s.fin.map Prod.fst ∨ ∃ t, (s.pc t).swing = some i

theorem Inv.st_at {s : St T m} (h : Inv s) {i : Nat} (hi : i ≤ s.log.length) {t : Fin m} (ht : s.dd t ≤ i) :
    s.st (nodeAt s.log i) = .linked i := by
  cases i with
  | zero => exact h.st0
  | succ i =>
    apply h.lnk _ _ hi
    rcases h.rc1 t with h1 | h1 <;> omega

theorem Inv.at_inj {s : St T m} (h : Inv s) {i j : Nat} (hi : i ≤ s.log.length) (hj : j ≤ s.log.length)
    {t u : Fin m} (ht : s.dd t ≤ i) (hu : s.dd u ≤ j) (e : nodeAt s.log i = nodeAt s.log j) : i = j := by
  have a := h.st_at hi ht
  have b := h.st_at hj hu
  rw [e, b] at a
  exact (Cls.linked.inj a).symm

theorem LocalPC.rel {s : St T m} {t : Fin m} (h : LocalPC s t (s.pc t)) (hb : (s.pc t).relB = true) :
    ∃ n, (s.pc t).owned = some n ∧ Rel s t n := by
  generalize hp : s.pc t = p at h hb
  cases p <;> simp [PC.relB] at hb <;> simp only [LocalPC] at h
  · exact ⟨_, rfl, h.1⟩
  · exact ⟨_, rfl, h.1⟩
  · exact ⟨_, rfl, h⟩

theorem Inv.rel_rc {s : St T m} (h : Inv s) {t : Fin m} (hb : (s.pc t).relB = true) : 1 ≤ s.rc := by
  obtain ⟨n, _, r⟩ := (h.loc t).rel hb
  exact r.2.2.2.2.1

theorem relA_relB {p : PC T} (h : p.relA = true) : p.relB = true := by
  cases p <;> simp [PC.relA] at h <;> rfl

theorem Inv.next_at {s : St T m} (h : Inv s) {i : Nat} (hi : i < s.log.length) {t : Fin m} (ht : s.dd t ≤ i) :
    s.next (nodeAt s.log i) = some (nodeAt s.log (i + 1)) := by
  rcases h.rc1 t with h1 | h1
  · exact h.nxt i (by omega) hi
  · cases i with
    | zero =>
      have := h.hd (by omega) (fun u => by
        cases hu : (s.pc u).relA with
        | false => rfl
        | true => have := h.rel_rc (relA_relB hu); omega)
      rw [h1] at this; exact this
    | succ i => exact h.nxt _ (by omega) hi

theorem Inv.rel_unique {s : St T m} (h : Inv s) {t u : Fin m} (ht : (s.pc t).relB = true) (hu : (s.pc u).relB = true) :
    t = u := by
  obtain ⟨n, _, r⟩ := (h.loc t).rel ht
  obtain ⟨n', _, r'⟩ := (h.loc u).rel hu
  have a := r.2.1
  have b := r'.2.1
  rw [r.2.2.1] at a
  rw [r'.2.2.1, a] at b
  injection b

/-- What a step of thread `t` may do as seen from the other threads. -/
structure Frame (s s' : St T m) (t : Fin m) : Prop where
  pc : ∀ u, u ≠ t → s'.pc u = s.pc u
  cur : ∀ u, u ≠ t → s'.cur u = s.cur u
  pos : ∀ u, u ≠ t → s'.pos u = s.pos u
  dd : ∀ u, u ≠ t → s'.dd u = s.dd u
  hist : ∀ u, u ≠ t → s'.hist u = s.hist u
  log : ∃ l, s'.log = s.log ++ l
  tp : s.tp ≤ s'.tp
  next : ∀ a, (s.st a = .free ∨ ∃ u, u ≠ t ∧ s.st a = .priv u) → s'.next a = s.next a
  refs : ∀ a, (∃ u, u ≠ t ∧ s.st a = .priv u) → s'.refs a = s.refs a
  data : ∀ a, (∃ u, u ≠ t ∧ s.st a = .priv u) → s'.data a = s.data a
  st : ∀ a, s'.st a = s.st a ∨ (s.st a = .free ∧ s'.st a = .priv t ∧ (s'.pc t).inPub ≠ none) ∨
    (s.st a = .unused ∧ s'.st a = .priv t) ∨ (s.st a = .priv t ∧ s'.st a = .linked (s.log.length + 1)) ∨
    (∃ i, s.st a = .linked i ∧ s'.st a = .priv t ∧ ∀ u, i < s'.dd u) ∨
    (s.st a = .priv t ∧ (s.pc t).inPub = none ∧ s'.st a = .free)
  keep : ∀ a, s.st a = .priv t → (s.pc t).inPub ≠ none → s'.st a = .priv t → (s'.pc t).inPub ≠ none
  rlx : ∀ u, u ≠ t → (s.pc u).inPub = some true → s'.log = s.log ∧ s'.tp = s.tp
  rc : ∀ u, u ≠ t → (s.pc u).relB = true → s'.rc = s.rc ∧ s'.del = s.del

theorem Frame.base {s s' : St T m} {t : Fin m} (f : Frame s s' t) (h : Inv s) {u : Fin m} (hu : u ≠ t) : Base s' u := by
  have b := h.base u
  obtain ⟨l, hl⟩ := f.log
  refine ⟨by rw [f.dd u hu, f.pos u hu]; exact b.ddpos, by rw [f.pos u hu]; exact Nat.le_trans b.postp f.tp, ?_⟩
  rw [f.cur u hu, f.pos u hu, b.cur, hl, nodeAt_append]
  exact Nat.le_trans b.postp h.tpN

theorem Frame.guard {s s' : St T m} {t : Fin m} (f : Frame s s' t) (h : Inv s) {u : Fin m} (hu : u ≠ t) {n : Addr}
    (g : Guard s u n) : Guard s' u n := by
  have hb := h.base u
  have hN : s.dd u ≤ s.log.length := Nat.le_trans hb.ddpos (Nat.le_trans hb.postp h.tpN)
  have hd := f.dd u hu
  rcases g with g | ⟨v, g, gp⟩ | ⟨i, g, g1, g2⟩
  · rcases f.st n with e | e | e | e | ⟨i, e, _⟩ | e
    · left; rw [e, g]
    · right; left; exact ⟨t, e.2.1, e.2.2⟩
    · rw [g] at e; simp at e
    · rw [g] at e; simp at e
    · rw [g] at e; simp at e
    · rw [g] at e; simp at e
  · rcases f.st n with e | e | e | e | ⟨i, e, _⟩ | e
    · right; left
      refine ⟨v, by rw [e, g], ?_⟩
      by_cases hv : v = t
      · subst hv; exact f.keep n g gp (by rw [e, g])
      · rw [f.pc v hv]; exact gp
    · rw [g] at e; simp at e
    · rw [g] at e; simp at e
    · right; right; exact ⟨_, e.2, by omega, by omega⟩
    · rw [g] at e; simp at e
    · rw [g] at e
      have : v = t := by simpa using e.1
      subst this; exact absurd e.2.1 gp
  · rcases f.st n with e | e | e | e | ⟨j, e, _, e2⟩ | e
    · right; right; exact ⟨i, by rw [e, g], by omega, g2⟩
    · rw [g] at e; simp at e
    · rw [g] at e; simp at e
    · rw [g] at e; simp at e
    · rw [g] at e; have : i = j := by simpa using e
      have := e2 u; omega
    · rw [g] at e; simp at e

theorem Frame.priv {s s' : St T m} {t : Fin m} (f : Frame s s' t) {u : Fin m} (hu : u ≠ t) {n : Addr}
    (g : s.st n = .priv u) : s'.st n = .priv u ∧ s'.next n = s.next n ∧ s'.refs n = s.refs n ∧ s'.data n = s.data n := by
  refine ⟨?_, f.next n (Or.inr ⟨u, hu, g⟩), f.refs n ⟨u, hu, g⟩, f.data n ⟨u, hu, g⟩⟩
  rcases f.st n with e | e | e | e | ⟨i, e, _⟩ | e
  · rw [e, g]
  · rw [g] at e; simp at e
  · rw [g] at e; simp at e
  · rw [g] at e; have : u = t := by simpa using e.1
    exact absurd this hu
  · rw [g] at e; simp at e
  · rw [g] at e; have : u = t := by simpa using e.1
    exact absurd this hu

theorem Frame.own {s s' : St T m} {t : Fin m} (f : Frame s s' t) {u : Fin m} (hu : u ≠ t) {n : Addr} {x : T}
    (g : Own s u x n) : Own s' u x n := by
  obtain ⟨a, b, c, d⟩ := f.priv hu g.1
  exact ⟨a, by rw [b]; exact g.2.1, by rw [c]; exact g.2.2.1, by rw [d]; exact g.2.2.2⟩

theorem Frame.rest {s s' : St T m} {t : Fin m} (f : Frame s s' t) {u : Fin m} (hu : u ≠ t)
    (g : Rest s u) : Rest s' u := by
  unfold Rest; rw [f.dd u hu, f.pos u hu, f.hist u hu]; exact g

theorem Frame.late {s s' : St T m} {t : Fin m} (f : Frame s s' t) {u : Fin m} (hu : u ≠ t)
    (g : Late s u) : Late s' u := by
  unfold Late; rw [f.dd u hu, f.pos u hu, f.hist u hu]; exact g

theorem Frame.rel {s s' : St T m} {t : Fin m} (f : Frame s s' t) (h : Inv s) {u : Fin m} (hu : u ≠ t) {n : Addr}
    (hb : (s.pc u).relB = true) (g : Rel s u n) : Rel s' u n ∧ s'.rc = s.rc ∧
      nodeAt s'.log (s.rc + 1) = nodeAt s.log (s.rc + 1) := by
  obtain ⟨g1, g2, g3, g4, g5, g6, g7⟩ := g
  obtain ⟨a, b, c, d⟩ := f.priv hu g2
  obtain ⟨e1, e2⟩ := f.rc u hu hb
  obtain ⟨l, hl⟩ := f.log
  have hN : s.rc + 1 ≤ s.log.length := by
    have hb := h.base u
    have := h.tpN; have := hb.ddpos; have := hb.postp; omega
  refine ⟨⟨f.late hu g1, a, ?_, ?_, ?_, ?_, ?_⟩, e1, ?_⟩
  · rw [e1, hl, nodeAt_append _ _ _ (by omega)]; exact g3
  · rw [f.dd u hu, e1]; exact g4
  · omega
  · rw [d, g6, e1, hl, List.getElem?_append_left (by omega)]
  · rw [e2, g7, e1, hl, List.take_append_of_le_length (by omega)]
  · rw [hl, nodeAt_append _ _ _ (by omega)]

theorem Frame.local {s s' : St T m} {t : Fin m} (f : Frame s s' t) (h : Inv s) {u : Fin m} (hu : u ≠ t) :
    LocalPC s' u (s'.pc u) := by
  have hl := h.loc u
  rw [f.pc u hu]
  have hb := h.base u
  have ht := h.tpN
  have h1 := hb.ddpos
  have h2 := hb.postp
  have hN : s.dd u ≤ s.log.length := Nat.le_trans hb.ddpos (Nat.le_trans hb.postp h.tpN)
  obtain ⟨l, hlog⟩ := f.log
  have ftp := f.tp
  have hdd := f.dd u hu
  have hlen : s.log.length ≤ s'.log.length := by rw [hlog, List.length_append]; omega
  have hna : ∀ k, k ≤ s.log.length → nodeAt s'.log k = nodeAt s.log k := fun k hk => by
    rw [hlog, nodeAt_append _ _ _ hk]
  have hget : ∀ i, i < s.log.length → s'.log[i]? = s.log[i]? := fun i hi => by
    rw [hlog, List.getElem?_append_left hi]
  have hrlx := f.rlx u hu
  have hrel : (s.pc u).relB = true → ∀ n, Rel s u n → _ := fun hb n g => f.rel h hu hb g
  generalize s.pc u = p at *
  cases p with
  | idle => exact f.rest hu hl
  | popTop => exact f.rest hu hl
  | new => exact f.rest hu hl
  | conTail => exact f.rest hu hl
  | popNext rx x n => exact ⟨f.rest hu hl.1, f.guard h hu hl.2⟩
  | popCas rx x n nx =>
    refine ⟨f.rest hu hl.1, f.guard h hu hl.2.1, fun hfree => ?_⟩
    have hs : s.st n = .free := by
      rcases f.st n with e | e | e | e | ⟨i, e, e1, _⟩ | e
      · rw [← e, hfree]
      · exact e.1
      · rw [hfree] at e; simp at e
      · rw [hfree] at e; simp at e
      · rw [hfree] at e1; simp at e1
      · exfalso
        rcases hl.2.1 with g | ⟨v, g, gp⟩ | ⟨i, g, _⟩
        · rw [g] at e; simp at e
        · rw [g] at e
          have : v = t := by simpa using e.1
          subst this; exact gp e.2.1
        · rw [g] at e; simp at e
    rw [f.next n (Or.inl hs)]; exact hl.2.2 hs
  | init1 rx x n => exact ⟨f.rest hu hl.1, (f.priv hu hl.2).1⟩
  | init2 rx x n =>
    have := f.priv hu hl.2.1
    exact ⟨f.rest hu hl.1, this.1, by rw [this.2.1]; exact hl.2.2⟩
  | pubTail x n => exact ⟨f.rest hu hl.1, f.own hu hl.2⟩
  | rlxTail x n => exact ⟨f.rest hu hl.1, f.own hu hl.2⟩
  | pubNext x n a =>
    obtain ⟨l1, l2, k, l3, l4, l5⟩ := hl
    exact ⟨f.rest hu l1, f.own hu l2, k, by rw [hna k (by omega)]; exact l3, by omega, by omega⟩
  | pubCas x n a =>
    obtain ⟨l1, l2, k, l3, l4, l5⟩ := hl
    exact ⟨f.rest hu l1, f.own hu l2, k, by rw [hna k (by omega)]; exact l3, by omega, by omega⟩
  | pubCheck x n a an =>
    obtain ⟨l1, l2, k, l3, l4, l5, l6⟩ := hl
    refine ⟨f.rest hu l1, f.own hu l2, k, by rw [hna k (by omega)]; exact l3, by omega, by omega, fun b hb => ?_⟩
    obtain ⟨c1, c2⟩ := l6 b hb
    exact ⟨by omega, by rw [hna _ (by omega)]; exact c2⟩
  | pubHelp x n a an =>
    obtain ⟨l1, l2, k, l3, l4, l5, l6, l7⟩ := hl
    exact ⟨f.rest hu l1, f.own hu l2, k, by rw [hna k (by omega)]; exact l3, by omega, by omega, by omega,
      by rw [hna _ (by omega)]; exact l7⟩
  | pubSwing x n a i =>
    obtain ⟨l1, l2, l3, l4, l5, l6, l7⟩ := hl
    exact ⟨f.rest hu l1, l2, by omega, by omega, by omega, by rw [hna _ (by omega)]; exact l6,
      by rw [hget _ (by omega)]; exact l7⟩
  | rlxLink x n a =>
    obtain ⟨l1, l2, l3, l4⟩ := hl
    obtain ⟨e1, e2⟩ := hrlx rfl
    exact ⟨f.rest hu l1, f.own hu l2, by rw [e1]; exact l3, by rw [e1, e2]; exact l4⟩
  | rlxSwing x n i =>
    obtain ⟨l1, l2, l3, l4, l5⟩ := hl
    obtain ⟨e1, e2⟩ := hrlx rfl
    exact ⟨f.rest hu l1, l2, by rw [e1]; exact l3, by rw [e2]; exact l4, by rw [e1]; exact l5⟩
  | conMove rd => exact ⟨f.rest hu hl.1, by rw [f.pos u hu]; exact Nat.lt_of_lt_of_le hl.2 ftp⟩
  | conDec rd n =>
    obtain ⟨l1, l2, l3⟩ := hl
    refine ⟨by rw [f.dd u hu, f.pos u hu]; exact l1, by rw [f.hist u hu, hdd]; exact l2, ?_⟩
    rw [hdd, hna _ hN]; exact l3
  | relNext rd n =>
    obtain ⟨r, e1, e2⟩ := hrel rfl n hl.1
    have := f.priv hu hl.1.2.1
    exact ⟨r, by rw [this.2.1, hl.2, e1, e2]⟩
  | relHead rd n nx =>
    obtain ⟨r, e1, e2⟩ := hrel rfl n hl.1
    exact ⟨r, by rw [hl.2, e1, e2]⟩
  | relDel rd n => exact (hrel rfl n hl).1
  | push1 rd n => exact ⟨f.late hu hl.1, (f.priv hu hl.2).1⟩
  | push2 rd n tp => exact ⟨f.late hu hl.1, (f.priv hu hl.2).1⟩
  | push3 rd n tp =>
    have := f.priv hu hl.2.1
    exact ⟨f.late hu hl.1, this.1, by rw [this.2.1]; exact hl.2.2⟩
  | conRead => exact f.late hu hl

theorem upd_pc {s : St T m} {t : Fin m} {p : PC T} {α : Type} (g : PC T → α) (h : g p = g (s.pc t)) (u : Fin m) :
    g (update s.pc t p u) = g (s.pc u) := by
  by_cases hu : u = t
  · subst hu; rw [update_self, h]
  · rw [update_of_ne hu]

theorem Inv.lockOf {s : St T m} {t : Fin m} (h : Inv s) (p : PC T)
    (hip : p.inPub = (s.pc t).inPub ∨ p.inPub = none) :
    ∀ u, (update s.pc t p u).inPub = some true → ∀ v, v ≠ u → (update s.pc t p v).inPub = none := by
  intro u hu v hv
  by_cases hut : u = t
  · subst hut
    rw [update_self] at hu
    rcases hip with e | e
    · rw [e] at hu; rw [update_of_ne hv]; exact h.lock _ hu v hv
    · rw [e] at hu; simp at hu
  · rw [update_of_ne hut] at hu
    by_cases hvt : v = t
    · subst hvt
      rw [update_self]
      rcases hip with e | e
      · rw [e]; exact h.lock u hu _ hv
      · exact e
    · rw [update_of_ne hvt]; exact h.lock u hu v hv

/-- Steps that do not link a node and do not move the tail. -/
theorem Inv.mk1 {s s' : St T m} {t : Fin m} {p : PC T} (h : Inv s) (f : Frame s s' t) (hpc : s'.pc = update s.pc t p)
    (hlog : s'.log = s.log) (htp : s'.tp = s.tp) (htail : s'.tail = s.tail) (hfin : s'.fin = s.fin)
    (hsw : p.swing = (s.pc t).swing)
    (lock : ∀ u, (update s.pc t p u).inPub = some true → ∀ v, v ≠ u → (update s.pc t p v).inPub = none)
    (bad : s'.bad = false)
    (st0 : s'.st 0 = .linked 0)
    (lnk : ∀ i, s'.rc < i → i ≤ s.log.length → s'.st (nodeAt s.log i) = .linked i)
    (ownT : ∀ a, s'.st a = .priv t → p.owned = some a)
    (ownU : ∀ a u, u ≠ t → s'.st a = .priv u → s.st a = .priv u)
    (fsn : s'.fs.Nodup)
    (fsc : ∀ a ∈ s'.fs, s'.st a = .free)
    (fst : isStack s'.next s'.top s'.fs)
    (nxt : ∀ i, s'.rc < i → i < s.log.length → s'.next (nodeAt s.log i) = some (nodeAt s.log (i + 1)))
    (nxtN : s'.next (nodeAt s.log s.log.length) = none)
    (hd : 0 < s.log.length → p.relA = false → (∀ u, u ≠ t → (s.pc u).relA = false) →
      s'.next 0 = some (nodeAt s.log (s'.rc + 1)))
    (refs : ∀ i, s'.rc < i → i ≤ s.log.length → s'.refs (nodeAt s.log i) = cnt s'.dd i)
    (data : ∀ i, s'.rc < i → i ≤ s.log.length → s'.data (nodeAt s.log i) = (s.log[i - 1]?).map Prod.snd)
    (rc1 : ∀ u, s'.rc < s'.dd u ∨ s'.rc = 0)
    (rc2 : ∃ u, s'.dd u ≤ s'.rc + 1)
    (base : Base s' t)
    (loc : LocalPC s' t p)
    (del : p.relB = false → (∀ u, u ≠ t → (s.pc u).relB = false) → s'.del = (s.log.take s'.rc).map Prod.snd) :
    Inv s' := by
  have hself : s'.pc t = p := by rw [hpc, update_self]
  have hswA : ∀ u, (s'.pc u).swing = (s.pc u).swing := fun u => by
    rw [hpc]; exact upd_pc PC.swing hsw u
  refine ⟨bad, st0, ?_, ?_, fsn, fsc, fst, ?_, ?_, ?_, ?_, ?_, ?_, ?_, ?_, ?_, rc1, rc2, ?_, ?_, ?_, ?_, ?_, ?_, ?_, ?_, ?_⟩
  · rw [hlog]; exact lnk
  · intro a u ha
    by_cases hu : u = t
    · subst hu; rw [hself]; exact ownT a ha
    · rw [f.pc u hu]; exact h.own a u (ownU a u hu ha)
  · rw [htail, hlog, htp]; exact h.tl
  · rw [hlog, htp]; exact h.tpN
  · rw [hlog, htp]; exact h.Ntp
  · intro hlt
    rw [hlog, htp] at hlt
    obtain ⟨u, hu⟩ := h.lag hlt
    exact ⟨u, by rw [hswA u, hlog]; exact hu⟩
  · rw [hlog]; exact nxt
  · rw [hlog]; exact nxtN
  · rw [hlog]; intro h0 hr
    exact hd h0 (by rw [← hself]; exact hr t) (fun u hu => by rw [← f.pc u hu]; exact hr u)
  · rw [hlog]; exact refs
  · rw [hlog]; exact data
  · intro u
    by_cases hu : u = t
    · subst hu; exact base
    · exact f.base h hu
  · intro u
    by_cases hu : u = t
    · subst hu; rw [hself]; exact loc
    · exact f.local h hu
  · rw [hpc]; exact lock
  · rw [hlog]; intro hr
    exact del (by rw [← hself]; exact hr t) (fun u hu => by rw [← f.pc u hu]; exact hr u)
  · rw [hfin, hlog, htp]; exact h.fin
  · rw [hfin]; exact h.fnd
  · intro u i hu; rw [hswA u] at hu; rw [hfin]; exact h.fsw u i hu
  · intro u v i hu hv; rw [hswA u] at hu; rw [hswA v] at hv; exact h.sw2 u v i hu hv
  · intro i h1 h2
    rw [hlog] at h2
    rcases h.all i h1 h2 with e | ⟨u, e⟩
    · left; rw [hfin]; exact e
    · right; exact ⟨u, by rw [hswA u]; exact e⟩

theorem Inv.hdOf {s : St T m} {t : Fin m} (h : Inv s) (hA : (s.pc t).relA = false) (h0 : 0 < s.log.length)
    (hr : ∀ u, u ≠ t → (s.pc u).relA = false) : s.next 0 = some (nodeAt s.log (s.rc + 1)) :=
  h.hd h0 (fun u => by
    by_cases hu : u = t
    · subst hu; exact hA
    · exact hr u hu)

theorem Inv.delOf {s : St T m} {t : Fin m} (h : Inv s) (hA : (s.pc t).relB = false)
    (hr : ∀ u, u ≠ t → (s.pc u).relB = false) : s.del = (s.log.take s.rc).map Prod.snd :=
  h.del (fun u => by
    by_cases hu : u = t
    · subst hu; exact hA
    · exact hr u hu)

theorem Inv.base' {s : St T m} (h : Inv s) (t : Fin m) : s.dd t ≤ s.pos t ∧ s.pos t ≤ s.tp ∧
    s.cur t = nodeAt s.log (s.pos t) ∧ s.dd t ≤ s.log.length ∧ s.pos t ≤ s.log.length := by
  have b := h.base t
  have h1 := b.ddpos; have h2 := b.postp; have h3 := h.tpN
  exact ⟨h1, h2, b.cur, by omega, by omega⟩

/-- a frame for steps that keep the address classes -/
theorem Frame.keepst {s s' : St T m} {t : Fin m} {p : PC T}
    (hpc : s'.pc = update s.pc t p)
    (cur : ∀ u, u ≠ t → s'.cur u = s.cur u) (pos : ∀ u, u ≠ t → s'.pos u = s.pos u)
    (dd : ∀ u, u ≠ t → s'.dd u = s.dd u) (hist : ∀ u, u ≠ t → s'.hist u = s.hist u)
    (log : s'.log = s.log) (tp : s'.tp = s.tp) (st : s'.st = s.st)
    (next : ∀ a, (s.st a = .free ∨ ∃ u, u ≠ t ∧ s.st a = .priv u) → s'.next a = s.next a)
    (refs : ∀ a, (∃ u, u ≠ t ∧ s.st a = .priv u) → s'.refs a = s.refs a)
    (data : ∀ a, (∃ u, u ≠ t ∧ s.st a = .priv u) → s'.data a = s.data a)
    (keep : ∀ a, s.st a = .priv t → (s.pc t).inPub ≠ none → p.inPub ≠ none)
    (rc : s'.rc = s.rc) (del : ∀ u, u ≠ t → (s.pc u).relB = true → s'.del = s.del) : Frame s s' t where
  pc := fun u hu => by rw [hpc, update_of_ne hu]
  cur := cur
  pos := pos
  dd := dd
  hist := hist
  log := ⟨[], by rw [log, List.append_nil]⟩
  tp := by rw [tp]
  next := next
  refs := refs
  data := data
  st := fun a => Or.inl (by rw [st])
  keep := fun a h1 h2 _ => by rw [hpc, update_self]; exact keep a h1 h2
  rlx := fun _ _ _ => ⟨log, tp⟩
  rc := fun u hu hb => ⟨rc, del u hu hb⟩

/-- Steps that change nothing but the control state of `t`. -/
theorem Inv.pcStep {s : St T m} {t : Fin m} (h : Inv s) (p : PC T)
    (hsw : p.swing = (s.pc t).swing)
    (lock : ∀ u, (update s.pc t p u).inPub = some true → ∀ v, v ≠ u → (update s.pc t p v).inPub = none)
    (hown : p.owned = (s.pc t).owned) (hA : p.relA = (s.pc t).relA) (hB : p.relB = (s.pc t).relB)
    (keep : (s.pc t).owned ≠ none → (s.pc t).inPub ≠ none → p.inPub ≠ none)
    (loc : LocalPC { s with pc := update s.pc t p } t p) : Inv { s with pc := update s.pc t p } := by
  refine Inv.mk1 (t := t) (p := p) h ?_ rfl rfl rfl rfl rfl hsw lock h.bad h.st0 h.lnk ?_ (fun _ _ _ h => h)
    h.fsn h.fsc h.fst h.nxt h.nxtN ?_ h.refs h.data h.rc1 h.rc2 ?_ loc ?_
  · refine Frame.keepst rfl ?_ ?_ ?_ ?_ rfl rfl rfl ?_ ?_ ?_ ?_ rfl ?_ <;> try (intros; rfl)
    intro a ha hp
    exact keep (by rw [h.own a t ha]; simp) hp
  · intro a ha; rw [hown]; exact h.own a t ha
  · intro h0 hp hr; exact h.hdOf (by rw [← hA, hp]) h0 hr
  · have b := h.base t
    exact ⟨b.ddpos, b.postp, b.cur⟩
  · intro hp hr; exact h.delOf (by rw [← hB, hp]) hr

theorem guard_pc {s : St T m} {t v : Fin m} {p : PC T} {n : Addr} (hp : (s.pc t).inPub ≠ none → p.inPub ≠ none)
    (g : Guard s v n) : Guard { s with pc := update s.pc t p } v n := by
  rcases g with g | ⟨u, g, gp⟩ | g
  · exact Or.inl g
  · refine Or.inr (Or.inl ⟨u, g, ?_⟩)
    by_cases hu : u = t
    · subst hu; simpa using hp gp
    · simpa [update_of_ne hu] using gp
  · exact Or.inr (Or.inr g)

section
variable {s : St T m} {t : Fin m} (h : Inv s) (c : Cmd T) (f : Addr)
include h

theorem inv_idle (hp : s.pc t = .idle) (hc : mayStart s t c) : Inv (step s t c f) := by
  have hl := h.loc t
  rw [hp] at hl
  simp only [step, hp]
  refine h.pcStep c.pc ?_ ?_ ?_ ?_ ?_ ?_ ?_
  · rw [hp]; cases c <;> rfl
  · intro u hu v hv
    by_cases hut : u = t
    · subst hut
      rw [update_self] at hu
      rw [update_of_ne hv]
      cases c <;> simp [Cmd.pc, PC.inPub] at hu
      exact hc v hv
    · rw [update_of_ne hut] at hu
      by_cases hvt : v = t
      · subst hvt
        rw [update_self]
        cases c with
        | publish x => exact absurd hu (hc u hut)
        | unsafePublish x => rw [hc u hut] at hu; simp at hu
        | tryConsume => rfl
        | pop => rfl
      · rw [update_of_ne hvt]; exact h.lock u hu v hv
  · rw [hp]; cases c <;> rfl
  · rw [hp]; cases c <;> rfl
  · rw [hp]; cases c <;> rfl
  · rw [hp]; intro h; exact absurd rfl h
  · cases c <;> exact hl

theorem inv_popTop {rx x} (hp : s.pc t = .popTop rx x) : Inv (step s t c f) := by
  have hl := h.loc t
  rw [hp] at hl
  simp only [step, hp]
  have hst := h.fst
  split
  · refine h.pcStep (.new rx x) ?_ (h.lockOf _ ?_) ?_ ?_ ?_ ?_ hl <;> rw [hp] <;> simp [PC.swing, PC.inPub, PC.owned, PC.relA, PC.relB]
  · rename_i n htop
    refine h.pcStep (.popNext rx x n) ?_ (h.lockOf _ ?_) ?_ ?_ ?_ ?_ ⟨hl, guard_pc (by simp [PC.inPub]) ?_⟩
    iterate 6 (rw [hp]; simp [PC.swing, PC.inPub, PC.owned, PC.relA, PC.relB])
    left
    rw [htop] at hst
    cases hfs : s.fs with
    | nil => rw [hfs] at hst; simp [isStack] at hst
    | cons a r =>
      rw [hfs] at hst
      have : n = a := by simpa using hst.1
      subst this
      exact h.fsc n (by rw [hfs]; simp)

theorem inv_popNext {rx x n} (hp : s.pc t = .popNext rx x n) : Inv (step s t c f) := by
  have hl := h.loc t
  rw [hp] at hl
  simp only [step, hp]
  refine h.pcStep (.popCas rx x n (s.next n)) ?_ (h.lockOf _ ?_) ?_ ?_ ?_ ?_ ⟨hl.1, guard_pc (by simp [PC.inPub]) hl.2, fun _ => rfl⟩ <;>
    rw [hp] <;> simp [PC.swing, PC.inPub, PC.owned, PC.relA, PC.relB]

/-- addresses of queue positions that are not yet released are in class `linked` -/
theorem Inv.lnk_ne {i : Nat} {a : Addr} (hi : s.rc < i) (hN : i ≤ s.log.length)
    (ha : ∀ j, s.st a ≠ .linked j) : nodeAt s.log i ≠ a := by
  intro e
  exact ha i (by rw [← e]; exact h.lnk i hi hN)

theorem Inv.last_ne (t : Fin m) {a : Addr} (ha : ∀ j, s.st a ≠ .linked j) : nodeAt s.log s.log.length ≠ a := by
  intro e
  have b := h.base t
  have h1 := b.ddpos; have h2 := b.postp; have h3 := h.tpN
  exact ha s.log.length (by rw [← e]; exact h.st_at (t := t) (Nat.le_refl _) (by omega))

theorem Inv.head_ne {a : Addr} (ha : ∀ j, s.st a ≠ .linked j) : a ≠ 0 := by
  intro e; subst e; exact ha 0 h.st0

theorem inv_popCas {rx x n nx} (hp : s.pc t = .popCas rx x n nx) : Inv (step s t c f) := by
  have hl := h.loc t
  rw [hp] at hl
  simp only [step, hp]
  by_cases htop : s.top = some n
  · simp only [htop, if_true]
    have hst := h.fst
    obtain ⟨r, hfs⟩ : ∃ r, s.fs = n :: r := by
      cases hfs : s.fs with
      | nil => rw [hfs, htop] at hst; simp [isStack] at hst
      | cons a r =>
        rw [hfs, htop] at hst
        have : n = a := by simpa using hst.1
        exact ⟨r, by rw [this]⟩
    have hfree : s.st n = .free := h.fsc n (by rw [hfs]; simp)
    have hnl : ∀ j, s.st n ≠ .linked j := by rw [hfree]; simp
    have hnd := h.fsn
    rw [hfs] at hnd hst
    refine Inv.mk1 (t := t) (p := .init1 rx x n) h ?_ rfl rfl rfl rfl rfl ?_ (h.lockOf _ (by rw [hp]; simp [PC.inPub])) h.bad ?_ ?_ ?_ ?_
      ?_ ?_ ?_ h.nxt h.nxtN ?_ h.refs h.data h.rc1 h.rc2 ?_ ?_ ?_
    · refine ⟨?_, ?_, ?_, ?_, ?_, ⟨[], by simp⟩, Nat.le_refl _, ?_, ?_, ?_, ?_, ?_, ?_, ?_⟩ <;>
        try (intros; first | rfl | exact ⟨rfl, rfl⟩)
      · intro u hu; exact update_of_ne hu _ _
      · intro a
        by_cases ha : a = n
        · subst ha; right; left; exact ⟨hfree, by simp, by simp [PC.inPub]⟩
        · left; exact update_of_ne ha _ _
      · intros; simp [PC.inPub]
    · simp [hp, PC.swing]
    · show update s.st n _ 0 = _
      rw [update_of_ne (h.head_ne hnl).symm]; exact h.st0
    · intro i hi hN
      show update s.st n _ _ = _
      rw [update_of_ne (h.lnk_ne hi hN hnl)]; exact h.lnk i hi hN
    · intro a ha
      by_cases han : a = n
      · subst han; rfl
      · have ha' : s.st a = .priv t := by simpa [update_of_ne han] using ha
        have := h.own a t ha'
        rw [hp] at this; simp [PC.owned] at this
    · intro a u hu ha
      by_cases han : a = n
      · subst han
        have : t = u := by simpa using ha
        exact absurd this.symm hu
      · simpa [update_of_ne han] using ha
    · simp only [hfs, List.tail_cons]; exact (List.nodup_cons.mp hnd).2
    · intro a ha
      simp only [hfs, List.tail_cons] at ha
      have : a ≠ n := by intro e; subst e; exact (List.nodup_cons.mp hnd).1 ha
      show update s.st n _ _ = _
      rw [update_of_ne this]; exact h.fsc a (by rw [hfs]; simp [ha])
    · simp only [hfs, List.tail_cons]
      rw [← hl.2.2 hfree]; exact hst.2
    · intro h0 _ hr; exact h.hdOf (by rw [hp]; rfl) h0 hr
    · have b := h.base t; exact ⟨b.ddpos, b.postp, b.cur⟩
    · exact ⟨hl.1, by simp⟩
    · intro _ hr; exact h.delOf (by rw [hp]; rfl) hr
  · simp only [htop, if_false]
    refine h.pcStep (.popTop rx x) ?_ (h.lockOf _ ?_) ?_ ?_ ?_ ?_ hl.1 <;>
      rw [hp] <;> simp [PC.swing, PC.inPub, PC.owned, PC.relA, PC.relB]

end

end Clasp.MQ
