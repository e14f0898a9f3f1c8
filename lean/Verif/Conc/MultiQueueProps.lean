/-
C08: broadcast queue. Specification and theorems.
-/
import Verif.Conc.MultiQueueSteps
namespace Clasp.MQ
open Function
variable {T : Type} {m : Nat}

/-- The items published so far, in the one order common to all consumers. -/
def St.pub (s : St T m) : List T := s.log.map Prod.snd

/-- What thread `t` has received: the `k`-th entry is `some x` for a `tryConsume` that delivered `x`, `none` for a `pop`. -/
def St.received (s : St T m) (t : Fin m) : List (Option T) := s.hist t

theorem hist_ok (hm : 0 < m) {s : St T m} (h : Reachable s) :
    ∀ (t : Fin m) (k : Nat) (x : T), (s.hist t)[k]? = some (some x) → (s.log[k]?).map Prod.snd = some x := by
  induction h with
  | init => intro t k x h; simp [init] at h
  | @step s t c f hr hc hf ih =>
    have hi := inv_reachable hm hr
    intro u k x
    have hlogm : ∀ {l : List (Addr × T)}, (s.log[k]?).map Prod.snd = some x → ((s.log ++ l)[k]?).map Prod.snd = some x := by
      intro l h
      have : k < s.log.length := by
        by_contra hk
        rw [List.getElem?_eq_none (by omega)] at h; simp at h
      rw [List.getElem?_append_left this]; exact h
    cases hp : s.pc t with
    | conRead rd =>
      have hl := hi.loc t
      rw [hp] at hl
      obtain ⟨l1, l2⟩ := hl
      obtain ⟨b1, b2, b3, b4, b5⟩ := hi.base' t
      simp only [step, hp]
      have key : ∀ (o : Option T), (∀ y, o = some y → (s.log[s.pos t - 1]?).map Prod.snd = some y) →
          (update s.hist t (s.hist t ++ [o]) u)[k]? = some (some x) → (s.log[k]?).map Prod.snd = some x := by
        intro o ho hk
        by_cases hu : u = t
        · subst hu
          rw [update_self] at hk
          by_cases hkl : k < (s.hist u).length
          · rw [List.getElem?_append_left hkl] at hk; exact ih u k x hk
          · rw [List.getElem?_append_right (by omega)] at hk
            have hk0 : k - (s.hist u).length = 0 := by
              by_contra hne
              rw [List.getElem?_eq_none (by simp; omega)] at hk; simp at hk
            rw [hk0] at hk
            have : o = some x := by simpa using hk
            have := ho x this
            rwa [show s.pos u - 1 = k by omega] at this
        · rw [update_of_ne hu] at hk; exact ih u k x hk
      cases rd
      · exact key none (by simp)
      · simp only [if_true]
        have hd := hi.data (s.pos t) (by rcases hi.rc1 t with e | e <;> omega) b5
        rw [← b3] at hd
        rw [List.getElem?_eq_getElem (by omega)] at hd
        simp only [Option.map_some] at hd
        rw [hd]
        refine key _ (fun y hy => ?_)
        rw [List.getElem?_eq_getElem (by omega)]; simpa using hy
    | pubCas y n a =>
      simp only [step, hp]
      split
      · intro hk; exact hlogm (ih u k x hk)
      · exact ih u k x
    | rlxLink y n a =>
      simp only [step, hp]
      intro hk; exact hlogm (ih u k x hk)
    | _ =>
      simp only [step, hp]
      first
        | exact ih u k x
        | (split <;> first | exact ih u k x | (split <;> exact ih u k x))

/-- C08a: in every reachable state, under every interleaving, the items each consumer has taken are, one after the
other, the published items from the very first on: its `k`-th successful `tryConsume`/`pop` took item number `k` of the
common order. No null or dead memory is ever used. -/
theorem C08_broadcast (hm : 0 < m) {s : St T m} (h : Reachable s) (t : Fin m) :
    s.bad = false ∧ (s.received t).length ≤ s.pub.length ∧
    ∀ (k : Nat) (x : T), (s.received t)[k]? = some (some x) → s.pub[k]? = some x := by
  have hi := inv_reachable hm h
  refine ⟨hi.bad, ?_, ?_⟩
  · obtain ⟨b1, b2, b3, b4, b5⟩ := hi.base' t
    have : (s.hist t).length ≤ s.pos t := by
      have hl := hi.loc t
      generalize s.pc t = q at hl
      cases q <;> simp only [LocalPC, Rel, Rest, Late] at hl <;> omega
    simp only [St.received, St.pub, List.length_map]; omega
  · intro k x hk
    simpa [St.pub] using hist_ok hm h t k x hk

/-- C08b: each publish call that has returned put its item into the common order at exactly one position of its own,
and every position belongs to exactly one call (returned, or still about to return). -/
theorem C08_publish (hm : 0 < m) {s : St T m} (h : Reachable s) :
    (∀ q ∈ s.fin, 1 ≤ q.1 ∧ s.pub[q.1 - 1]? = some q.2) ∧ (s.fin.map Prod.fst).Nodup ∧
    ((∀ t, s.pc t = .idle) → s.fin.length = s.pub.length) := by
  have hi := inv_reachable hm h
  refine ⟨fun q hq => ⟨(hi.fin q hq).1, by simpa [St.pub] using (hi.fin q hq).2.2⟩, hi.fnd, fun hid => ?_⟩
  -- positions of finished calls = 1..N
  have hp : (s.fin.map Prod.fst).Perm (List.range' 1 s.log.length) := by
    rw [List.perm_ext_iff_of_nodup hi.fnd List.nodup_range']
    intro i
    rw [List.mem_range'_1]
    constructor
    · intro hin
      obtain ⟨q, hq, rfl⟩ := List.mem_map.mp hin
      have h1 := hi.fin q hq
      have h2 := hi.tpN
      omega
    · intro ⟨h1, h2⟩
      rcases hi.all i h1 (by omega) with e | ⟨t, e⟩
      · exact e
      · rw [hid t] at e; simp [PC.swing] at e
  have := hp.length_eq
  simpa [St.pub] using this

/-- C08c: a consumer is told "nothing there" (`tryConsume`, `hasItems`) only if it has already taken every item whose
publish call has returned; it is told "something there" only if there is an item it has not taken. -/
theorem C08_complete (hm : 0 < m) {s : St T m} (h : Reachable s) (t : Fin m)
    (hpc : s.pc t = .idle ∨ ∃ rd, s.pc t = .conTail rd) :
    (s.cur t = s.tail → ∀ q ∈ s.fin, q.1 ≤ (s.received t).length) ∧
    (s.cur t ≠ s.tail → (s.received t).length < s.pub.length) := by
  have hi := inv_reachable hm h
  obtain ⟨b1, b2, b3, b4, b5⟩ := hi.base' t
  have hl := hi.loc t
  have hrest : Rest s t := by
    rcases hpc with e | ⟨rd, e⟩ <;> rw [e] at hl <;> exact hl
  have hN := hi.tpN
  constructor
  · intro hc q hq
    have : s.pos t = s.tp := hi.at_inj (t := t) (u := t) b5 hN b1 (by omega) (by rw [← b3, hc, hi.tl])
    have := (hi.fin q hq).2.1
    have := hrest.2
    simp only [St.received]; omega
  · intro hc
    have : s.pos t ≠ s.tp := by intro e; apply hc; rw [b3, e, hi.tl]
    have := hrest.2
    simp only [St.received, St.pub, List.length_map]; omega

/-- C08d: items are handed to the release function in order, each at most once, and only after every consumer has
received them (and, if it is between calls, has moved on to a later item). -/
theorem C08_release (hm : 0 < m) {s : St T m} (h : Reachable s) :
    s.del = s.pub.take s.del.length ∧
    ∀ t, s.del.length ≤ (s.received t).length ∧ (s.pc t = .idle → s.del = [] ∨ s.del.length < (s.received t).length) := by
  have hi := inv_reachable hm h
  have hrcN : s.rc ≤ s.log.length := by
    have ⟨b1, b2, b3, b4, b5⟩ := hi.base' ⟨0, hm⟩
    rcases hi.rc1 ⟨0, hm⟩ with e | e <;> omega
  have hdel : s.del = (s.log.take s.del.length).map Prod.snd ∧ s.del.length ≤ s.rc := by
    by_cases hb : ∃ t, (s.pc t).relB = true
    · obtain ⟨t, ht⟩ := hb
      obtain ⟨n, _, r⟩ := (hi.loc t).rel ht
      have hd := r.2.2.2.2.2.2
      have : s.del.length = s.rc - 1 := by rw [hd]; simp; omega
      rw [this]; exact ⟨hd, by omega⟩
    · have hd := hi.del (fun t => by
        cases e : (s.pc t).relB with
        | false => rfl
        | true => exact absurd ⟨t, e⟩ hb)
      have : s.del.length = s.rc := by rw [hd]; simp; omega
      rw [this]; exact ⟨hd, by omega⟩
  refine ⟨?_, fun t => ?_⟩
  · rw [St.pub, ← List.map_take]; exact hdel.1
  · have hl := hi.loc t
    have hr := hi.rc1 t
    have ⟨b1, b2, b3, b4, b5⟩ := hi.base' t
    have hlen : s.dd t ≤ (s.hist t).length + 1 := by
      generalize s.pc t = q at hl
      cases q <;> simp only [LocalPC, Rel, Rest, Late] at hl <;> omega
    simp only [St.received]
    refine ⟨by omega, fun hid => ?_⟩
    rw [hid] at hl
    have := hl.1
    have := hl.2
    rcases hr with e | e
    · right; omega
    · left; exact List.eq_nil_of_length_eq_zero (by omega)

theorem destroy_from (hm : 0 < m) {s : St T m} (h : Inv s) : ∀ (k i : Nat), s.rc < i → i + k = s.log.length + 1 →
    destroy s (k + 1) (if k = 0 then none else some (nodeAt s.log i)) = (s.log.drop (i - 1)).map (fun q => some q.2)
  | 0, i, _, hk => by
    simp only [if_true]
    rw [List.drop_eq_nil_of_le (by omega)]; rfl
  | k + 1, i, hi, hk => by
    rw [if_neg (by omega), destroy]
    have hd := h.data i hi (by omega)
    have hget : i - 1 < s.log.length := by omega
    rw [List.getElem?_eq_getElem hget] at hd
    have hstep := destroy_from hm h k (i + 1) (by omega) (by omega)
    have hnx : s.next (nodeAt s.log i) = if k = 0 then none else some (nodeAt s.log (i + 1)) := by
      by_cases hk0 : k = 0
      · subst hk0
        have : i = s.log.length := by omega
        rw [this, h.nxtN]; rfl
      · rw [if_neg hk0]; exact h.nxt i hi (by omega)
    rw [hd, hnx, hstep, List.drop_eq_getElem_cons hget]
    simp only [Option.map_some, List.map_cons, Nat.add_sub_cancel]
    rw [show i - 1 + 1 = i by omega]

/-- C08e: if the queue is destroyed while no call is in progress, the destructor releases exactly the items not
released before: over the whole lifetime every published item is released exactly once. -/
theorem C08_destroy (hm : 0 < m) {s : St T m} (h : Reachable s) (hid : ∀ t, s.pc t = .idle) :
    s.del.map some ++ destroy s (s.log.length + 1) (s.next 0) = s.pub.map some := by
  have hi := inv_reachable hm h
  have hrel : ∀ t, (s.pc t).relB = false := fun t => by rw [hid t]; rfl
  have hdel := hi.del hrel
  by_cases h0 : s.log.length = 0
  · have hnil : s.log = [] := List.eq_nil_of_length_eq_zero h0
    have hx := hi.nxtN
    rw [h0] at hx
    have hx : s.next 0 = none := hx
    rw [hx, hdel, hnil]; simp [destroy, St.pub, hnil]
  · have hrcN : s.rc < s.log.length := by
      have ⟨b1, b2, b3, b4, b5⟩ := hi.base' ⟨0, hm⟩
      rcases hi.rc1 ⟨0, hm⟩ with e | e <;> omega
    have hx := hi.hd (by omega) (fun t => by rw [hid t]; rfl)
    have := destroy_from hm hi (s.log.length - s.rc) (s.rc + 1) (by omega) (by omega)
    rw [if_neg (by omega)] at this
    rw [hx]
    -- more fuel than nodes is harmless
    have hfuel : ∀ (k k' : Nat) (o : Option Addr), (destroy s k o).length < k → k ≤ k' → destroy s k' o = destroy s k o := by
      intro k
      induction k with
      | zero => intro k' o hlt; simp [destroy] at hlt
      | succ k ih =>
        intro k' o hlt hle
        obtain ⟨k', rfl⟩ : ∃ j, k' = j + 1 := ⟨k' - 1, by omega⟩
        cases o with
        | none => simp [destroy]
        | some a =>
          simp only [destroy] at hlt ⊢
          rw [ih k' _ (by simpa using hlt) (by omega)]
    rw [hfuel (s.log.length - s.rc + 1) (s.log.length + 1) _ (by rw [this]; simp) (by omega), this, hdel]
    simp only [St.pub, Nat.add_sub_cancel]
    rw [List.map_map, List.map_map, show (some ∘ Prod.snd : Addr × T → Option T) = fun q => some q.2 from rfl,
      ← List.map_append, List.take_append_drop]

/-! ### a concrete run -/

instance (s : St T m) (t : Fin m) (c : Cmd T) : Decidable (mayStart s t c) := by
  cases c <;> simp only [mayStart] <;> infer_instance

/-- execute a schedule -/
def run (s : St T m) : List (Fin m × Cmd T × Addr) → St T m
  | [] => s
  | (t, c, f) :: r => run (step s t c f) r

def legal (s : St T m) : List (Fin m × Cmd T × Addr) → Bool
  | [] => true
  | (t, c, f) :: r => decide (mayStart s t c) && decide (s.st f = .unused) && legal (step s t c f) r

theorem reachable_run : ∀ (l : List (Fin m × Cmd T × Addr)) (s : St T m), Reachable s → legal s l = true → Reachable (run s l)
  | [], _, h, _ => h
  | (t, c, f) :: r, s, h, hl => by
    simp only [legal, Bool.and_eq_true, decide_eq_true_eq] at hl
    exact reachable_run r _ (h.step t c f (fun _ => hl.1.1) hl.1.2) hl.2

/-- two threads publish concurrently (each helping the other), both consume both items; thread 1 frees the first -/
def demo : List (Fin 2 × Cmd Nat × Addr) :=
  let p0 := (0, Cmd.publish 7, 1)
  let p1 := (1, Cmd.publish 8, 2)
  let c0 := (0, Cmd.tryConsume, 3)
  let c1 := (1, Cmd.tryConsume, 3)
  [p0, p1, p0, p1, p0, p1] ++ List.replicate 6 (0, Cmd.publish 7, 3) ++ List.replicate 12 (1, Cmd.publish 8, 3)
    ++ [(0, Cmd.publish 7, 3)] ++ List.replicate 10 c0 ++ List.replicate 18 c1

theorem demo_reachable : Reachable (run (init Nat 2) demo) := reachable_run _ _ .init (by decide +kernel)

/-- the run publishes 7 and 8, both threads receive both, item 7 has been released -/
example : (run (init Nat 2) demo).pub = [7, 8] ∧ (run (init Nat 2) demo).fin = [(2, 8), (1, 7)] ∧
    (run (init Nat 2) demo).received 0 = [some 7, some 8] ∧ (run (init Nat 2) demo).received 1 = [some 7, some 8] ∧
    (run (init Nat 2) demo).del = [7] ∧ (∀ t, (run (init Nat 2) demo).pc t = .idle) := by decide +kernel

end Clasp.MQ
