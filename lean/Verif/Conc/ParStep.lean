import Verif.Conc.ParInv

/-!
# Parallel solving: every step keeps the invariant

Helper lemmas for `Verif/Conc/ParProps.lean`.
-/

namespace Clasp.Par

/-- Proof device: the state after a step. -/
def Post (s' : St) : Prop := Z s' ∨ (s'.term = true ∧ ∀ i, (s'.th i).pc.t23 = false) ∨ GI s'

theorem GI.t23 {s : St} (h : GI s) (i : Nat) : (s.th i).pc.t23 = false := by
  have := (h.th i).bad
  cases hp : (s.th i).pc with
  | term1 c => simp_all [Pc.t23]
  | term2 c => cases c <;> simp_all [Pc.t23, Pc.bad]
  | term3 => simp_all [Pc.bad]
  | _ => simp [Pc.t23]

/-- Proof device: the invariant of the thread after a step. -/
local macro "thr" hT:ident : tactic => `(tactic|
  (obtain ⟨h1, h2, h3, h4, h5, h6, h7, h8, h9, h10, h11, h12, h13⟩ := $hT
   constructor <;> simp_all [Pc.bad, Pc.hold, Pc.locked, Pc.more]))

/-- Proof device: a step of a thread that changes nothing else. -/
local macro "std" h:ident hT:ident : tactic => `(tactic|
  (apply ($h).put
   · thr $hT
   · simp_all [Pc.early]
   · simp_all [Pc.isFin]
   · simp_all [Pc.quiet]
   · intro _ _; simp_all [Pc.doom, covT, Pc.hold', Pc.pre]
   · intro _ _ _; simp_all [act, tok, Pc.hold]))

theorem go_inv {s s' : St} {i : Nat} (h : GI s) (hs : go s i = some s') : GI s' := by
  have hT := h.th i
  unfold go at hs
  split at hs
  case h_2 => cases hs
  case h_1 a hp =>
  by_cases hsy : s.sync = true
  · rw [if_pos hsy] at hs; cases hs
  · rw [if_neg hsy] at hs
    have hsy : s.sync = false := by simpa using hsy
    cases a with
    | some p => cases hs; std h hT
    | none => cases hs; std h hT

theorem enter_inv {s s' : St} {i : Nat} (h : GI s) (hs : enter s i = some s') : GI s' := by
  have hT := h.th i
  unfold enter at hs
  by_cases hsy : s.sync = true
  · rw [if_pos hsy] at hs
    split at hs
    case h_1 a hp => cases hs; cases a <;> std h hT
    case h_2 a hp => cases hs; std h hT
    case h_3 hp => cases hs; std h hT
    case h_4 => cases hs
  · rw [if_neg hsy] at hs; cases hs

theorem early_of {s : St} (h : GI s) (ha : s.allow = false) (hs : s.sync = true) (i : Nat) :
    (s.th i).pc.early = true := by
  have h1 := h.g1
  have h3 := h.g3
  have he := h.e hs
  cases hr : s.restart
  · exact (he hr).2 i
  · simp_all

theorem skip_inv {s s' : St} {i : Nat} (h : GI s) (hs : skip s i = some s') : GI s' := by
  have hT := h.th i
  unfold skip at hs
  split at hs
  case h_2 => cases hs
  case h_1 hp =>
  by_cases hb : s.iv.testBit i = true
  · rw [if_pos hb] at hs; cases hs
  · rw [if_neg hb] at hs
    cases hs
    have hal : s.allow = true := by
      have := hT.more (by simp [hp, Pc.more])
      rcases this with h1 | h1 | h1
      · exact h1
      · exact absurd h1 hb
      · by_contra hc
        have := early_of h (by simpa using hc) h1 i
        simp [hp, Pc.early] at this
    have hiv : s.mode = true → s.iv = 0 := by
      intro hm
      rcases h.iv hm with h1 | h1
      · exact h1
      · exfalso; apply hb
        have hlt : i < 64 := Nat.lt_of_lt_of_le (hT.lt (by simp [hp])) h.n64
        rw [h1, Nat.testBit_two_pow_sub_one]
        simpa using hlt
    std h hT

theorem lock0_inv {s s' : St} {i : Nat} (h : GI s) (hs : lock0 s i = some s') : GI s' := by
  have hT := h.th i
  unfold lock0 at hs
  split at hs
  case h_2 => cases hs
  case h_1 hp =>
  have hal := hT.locked (by simp [hp, Pc.locked])
  rw [hal] at hs
  cases hs
  std h hT

theorem wake_inv {s s' : St} {i : Nat} (h : GI s) (hs : wake s i = some s') : GI s' := by
  have hT := h.th i
  unfold wake at hs
  split at hs
  case h_3 => cases hs
  case h_1 hp => cases hs; std h hT
  case h_2 a hp => cases hs; cases a <;> std h hT

theorem noWork_inv {s s' : St} {i : Nat} (h : GI s) (ht : s.term = false) (hs : noWork s i = some s') : Post s' := by
  have hT := h.th i
  unfold noWork at hs
  split at hs
  case h_2 => cases hs
  case h_1 c hp =>
  have hb := hT.bad
  cases c with
  | false => simp [hp, Pc.bad] at hb
  | true =>
    by_cases hsy : s.sync = true
    · rw [if_pos hsy] at hs
      cases hs
      right; right
      std h hT
    · rw [if_neg hsy] at hs
      cases hs
      left; left; simp [St.put, ht]

theorem term_inv {s s' : St} {i : Nat} (h : GI s) (ht : s.term = false) (hs : Par.term s i = some s') : Post s' := by
  have hT := h.th i
  have hb := hT.bad
  unfold Par.term at hs
  split at hs
  case h_4 => cases hs
  case h_1 c hp =>
    cases c with
    | true => simp [hp, Pc.bad] at hb
    | false =>
      simp only [ht] at hs
      cases hs
      right; right
      std h hT
  case h_2 c hp =>
    cases c with
    | true => simp [hp, Pc.bad] at hb
    | false =>
      cases hs
      right; left
      refine ⟨rfl, fun j => ?_⟩
      rw [put_th]
      by_cases hj : j = i
      · rw [if_pos hj]; rfl
      · rw [if_neg hj]; exact h.t23 j
  case h_3 hp => simp [hp, Pc.bad] at hb

theorem simp_inv {s s' : St} {i : Nat} {ok : Bool} (h : GI s) (hs : simp s i ok = some s') : GI s' := by
  have hT := h.th i
  unfold simp at hs
  split at hs
  case h_2 => cases hs
  case h_1 a hp =>
  cases ok with
  | false =>
    cases hs
    std h hT
  | true =>
    cases hs
    obtain ⟨b, l⟩ := a
    have hg := h.g1
    apply h.put
    · obtain ⟨h1, h2, h3, h4, h5, h6, h7, h8, h9, h10, h11, h12, h13⟩ := hT
      constructor <;> simp_all [Pc.bad, Pc.hold, Pc.locked, Pc.more]
      · cases b <;> simp_all
    · simp_all [Pc.early]
    · simp_all [Pc.isFin]
    · simp_all [Pc.quiet]
    · intro _ _; simp_all [Pc.doom, covT, Pc.hold', Pc.pre]
      grind
    · intro _ _ _; simp_all [act, tok, Pc.hold]

theorem last_idle {s : St} {i : Nat} (h : GI s) (hl : s.last i = true) (j : Nat) (hj : j ≠ i) :
    (s.th j).pc.idle = true := by
  by_cases hn : j < s.n
  · have := List.all_eq_true.1 hl j (List.mem_range.2 hn)
    simpa [hj] using this
  · by_contra hc
    apply hn
    apply (h.th j).lt
    intro he
    simp [he, Pc.idle] at hc

theorem wsync_inv {s s' : St} {i : Nat} (h : GI s) (hs : wsync s i = some s') : GI s' := by
  have hT := h.th i
  unfold wsync at hs
  split at hs
  case h_2 => cases hs
  case h_1 a hp =>
  by_cases hsy : s.sync = true
  · rw [if_pos hsy] at hs
    cases hs
    by_cases hl : s.last i = true
    · rw [if_pos hl]
      have hid := last_idle h hl
      have hqu : ∀ j, j ≠ i → (s.th j).pc.quiet = true := by
        intro j hj
        have := hid j hj
        cases hpj : (s.th j).pc <;> simp_all [Pc.idle, Pc.quiet]
      have hnf : ∀ j, j ≠ i → (s.th j).pc.isFin = false := by
        intro j hj
        have := hid j hj
        cases hpj : (s.th j).pc <;> simp_all [Pc.idle, Pc.isFin]
      cases a with
      | none =>
        apply h.put
        · thr hT
        · simp_all [Pc.early]
        · intro _; exact ⟨hsy, hqu⟩
        · rintro _ _ ⟨k, hk, hk2⟩; rw [hnf k hk] at hk2; cases hk2
        · simp_all
        · simp_all
      | some a =>
        apply h.put
        · thr hT
        · simp_all [Pc.early]
        · intro _; exact ⟨hsy, hqu⟩
        · rintro _ _ ⟨k, hk, hk2⟩; rw [hnf k hk] at hk2; cases hk2
        · simp_all
        · simp_all
    · rw [if_neg hl]
      cases a <;> std h hT
  · rw [if_neg hsy] at hs
    cases hs
    cases a <;> std h hT

theorem finish_inv {s s' : St} {i : Nat} {c : Bool} (h : GI s) (hz : ¬ Z s) (hs : finish s i c = some s') : GI s' := by
  have hT := h.th i
  unfold finish at hs
  split at hs
  case h_2 => cases hs
  case h_1 hp =>
  by_cases hsp : (s.th i).sp = []
  · rw [if_pos hsp] at hs
    cases hfx : (s.th i).fixed with
    | true =>
      exfalso; apply hz; right
      intro x hx
      have := hT.fixed hp hfx x hx
      simpa [hsp] using this
    | false =>
      simp only [hfx, Bool.and_false] at hs
      cases hs
      have hal := (hT.split hp hfx).1
      std h hT
  · rw [if_neg hsp] at hs; cases hs

theorem limit_inv {s s' : St} {i : Nat} (h : GI s) (hs : limit s i = some s') : GI s' := by
  have hT := h.th i
  unfold limit at hs
  split at hs
  case h_2 => cases hs
  case h_1 hp => cases hs; std h hT

theorem want_inv {s s' : St} {i : Nat} (h : GI s) (hs : want s i = some s') : GI s' := by
  have hT := h.th i
  have hg := h.g2
  unfold want at hs
  split at hs
  case h_2 => cases hs
  case h_1 hp =>
  by_cases hf : s.forbid = true
  · rw [if_pos hf] at hs; cases hs
  · rw [if_neg hf] at hs
    cases hs
    std h hT

theorem update_inv {s s' : St} {i : Nat} (h : GI s) (hs : update s i = some s') : GI s' := by
  have hT := h.th i
  have hg := h.g4
  unfold update at hs
  split at hs
  case h_2 => cases hs
  case h_1 hp =>
  split at hs
  case isFalse => cases hs
  case isTrue hc =>
  cases hs
  simp only [Bool.and_eq_true, beq_iff_eq, Bool.not_eq_true'] at hc
  obtain ⟨⟨hbt, hnum⟩, hd⟩ := hc
  have hal := (hg (by omega)).2.1
  have hk : s.mode = true → s.sync = false → False := fun a b =>
    ((h.k hbt a b).num (by omega)).2 i (Or.inr ⟨hp, hd⟩)
  have hspl := hT.split hp
  apply h.put
  · thr hT
  · simp_all [Pc.early]
  · simp_all [Pc.isFin]
  · simp_all [Pc.quiet]
  · intro _ _
    right
    cases hm : s.mode with
    | true => exact absurd (by assumption) (fun hh => hk hm hh)
    | false => simp_all [Pc.doom, covT, Pc.hold', Pc.pre]
  · intro _ a b; exact absurd b (fun hh => hk a hh)

theorem search_inv {s s' : St} {i x : Nat} (h : GI s) (hs : search s i x = some s') : GI s' := by
  have hT := h.th i
  unfold search at hs
  split at hs
  case h_2 => cases hs
  case h_1 hp =>
  by_cases hx : x ∈ (s.th i).sp
  · rw [if_pos hx] at hs
    cases hs
    refine h.gen (i := i) rfl rfl rfl rfl rfl rfl rfl rfl rfl rfl rfl ?_ (fun _ => id) (fun _ => Or.inl) ?_ ?_ ?_ ?_ ?_ ?_
    · intro y hy; exact List.mem_cons_of_mem _ hy
    · have hd : ∀ l, (s.put i { s.th i with sp := l }).done = s.done := fun _ => rfl
      obtain ⟨h1, h2, h3, h4, h5, h6, h7, h8, h9, h10, h11, h12, h13⟩ := hT
      constructor <;> simp_all [Pc.bad, Pc.hold, Pc.locked, Pc.more, St.put]
      · grind
      · grind
    · simp_all
    · simp_all [Pc.isFin]
    · simp_all
    · intro _ _; right
      refine ⟨by simp_all [Pc.doom], ?_, by simp_all [Pc.pre]⟩
      rintro y hy (⟨a, ha, _⟩ | ⟨_, hf, hm⟩)
      · simp [hp, Pc.hold'] at ha
      · by_cases hyx : y = x
        · right; left; simp [St.put, hyx]
        · left; right; exact ⟨hp, hf, by simp [hm, hyx]⟩
    · intro _ _ _
      refine ⟨?_, ?_, fun q hq => Or.inl hq⟩
      · simp_all [act]
      · simp_all [tok]
  · rw [if_neg hx] at hs; cases hs

theorem split_inv {s s' : St} {i : Nat} {A : List Nat} (h : GI s) (hs : split s i A = some s') : GI s' := by
  have hT := h.th i
  unfold split at hs
  split at hs
  case h_2 => cases hs
  case h_1 hp =>
  split at hs
  case isFalse => cases hs
  case isTrue hc =>
  cases hs
  simp only [Bool.and_eq_true, Bool.not_eq_true', List.all_eq_true, decide_eq_true_eq] at hc
  obtain ⟨hfx, hA⟩ := hc
  have hal := (hT.split hp hfx).1
  refine h.gen (i := i) rfl rfl rfl rfl rfl rfl rfl rfl rfl rfl rfl (fun _ => id) ?_ ?_ ?_ ?_ ?_ ?_ ?_ ?_
  · intro q hq; exact List.mem_append_left _ hq
  · intro q hq
    rcases List.mem_append.1 hq with h1 | h1
    · exact Or.inl h1
    · right; rw [List.mem_singleton] at h1; rw [h1]; exact ⟨hal, by simp⟩
  · obtain ⟨h1, h2, h3, h4, h5, h6, h7, h8, h9, h10, h11, h12, h13⟩ := hT
    constructor <;> simp_all [Pc.bad, Pc.hold, Pc.locked, Pc.more, St.put]
    · grind
  · simp_all
  · simp_all [Pc.isFin]
  · simp_all
  · intro _ _; right
    refine ⟨by simp_all [Pc.doom], ?_, by simp_all [Pc.pre]⟩
    rintro y hy (⟨a, ha, _⟩ | ⟨_, hf, hm⟩)
    · simp [hp, Pc.hold'] at ha
    · by_cases hyx : y ∈ A
      · right; right; exact ⟨(false, A), by simp [St.put], Or.inr rfl, hyx⟩
      · left; right; exact ⟨hp, hf, by simp [hm, hyx]⟩
  · intro _ _ _
    refine ⟨?_, ?_, fun q hq => ?_⟩
    · simp_all [act]
    · simp_all [tok, Pc.hold]
    · rcases List.mem_append.1 hq with h1 | h1
      · exact Or.inl h1
      · right; rw [List.mem_singleton] at h1; rw [h1]
        exact ⟨rfl, Or.inr hp, by simp [tok, hp, Pc.hold]⟩

theorem fail_inv {s s' : St} {i : Nat} (h : GI s) (hs : fail s i = some s') : Post s' := by
  have hT := h.th i
  unfold fail at hs
  split at hs
  case isFalse => cases hs
  case isTrue hc =>
  obtain ⟨_, hmf⟩ := hc
  by_cases hlo : (s.lost || (s.allow && (s.bt && (s.th i).ptr.isSome || (s.th i).ptr.isNone && s.iv != 0))) = true
  · cases hs; left; left; exact hlo
  · right; right
    have hl : s.allow = true → (s.bt = true → (s.th i).ptr = none) ∧ ((s.th i).ptr = none → s.iv = 0) := by
      intro ha
      simp only [ha, Bool.true_and, Bool.or_eq_true, Bool.and_eq_true, not_or, not_and, bne_iff_ne, ne_eq,
        Decidable.not_not, Option.isNone_iff_eq_none] at hlo
      refine ⟨fun hb => ?_, hlo.2.2⟩
      have := hlo.2.1 hb
      simpa using this
    have hact : s.allow = true → s.bt = true → ¬ act (s.th i) := by
      intro ha hb hh
      have hn := (hl ha).1 hb
      rcases hh with hh | hh
      · obtain ⟨a, ha⟩ := Option.isSome_iff_exists.1 hh
        have := hT.hold a ha
        rw [hn] at this; cases this
      · obtain ⟨a, ha, _⟩ := hT.sp hh
        rw [hn] at ha; cases ha
    cases hs
    refine h.gen (i := i) rfl rfl rfl rfl rfl rfl rfl rfl rfl rfl rfl (fun _ => id) ?_ ?_ ?_ ?_ ?_ ?_ ?_ ?_
    · intro q hq
      simp only [St.put]
      split
      · exact List.mem_append_left _ hq
      · exact hq
    · intro q hq
      simp only [St.put] at hq
      split at hq
      case isFalse => exact Or.inl hq
      case isTrue ha =>
        rcases List.mem_append.1 hq with h1 | h1
        · exact Or.inl h1
        · right
          refine ⟨ha, fun hq1 => ?_⟩
          have h2 : (s.th i).ptr = some q := by simpa using h1
          obtain ⟨q1, q2⟩ := q
          simp only at hq1
          subst hq1
          exact hT.ptr _ h2
    · obtain ⟨h1, h2, h3, h4, h5, h6, h7, h8, h9, h10, h11, h12, h13⟩ := hT
      constructor <;> simp_all [Pc.bad, Pc.hold, Pc.locked, Pc.more, St.put]
    · simp [Pc.early]
    · simp [Pc.isFin]
    · simp [Pc.quiet]
    · intro ha hsy; right
      have hq : ∀ p, (s.th i).ptr = some p → p ∈ (if s.allow then s.queue ++ (s.th i).ptr.toList else s.queue) := by
        intro p hp; rw [if_pos ha, hp]; simp
      have hnb : ∀ p, (s.th i).ptr = some p → s.mode = true := by
        intro p hp
        rcases h.g5 ha with h1 | h1
        · exact h1
        · have := (hl ha).1 (h.g4 h1).2.2
          rw [hp] at this; cases this
      refine ⟨?_, ?_, ?_⟩
      · cases hp : (s.th i).pc <;> simp_all [Pc.mayFail, Pc.doom]
      · rintro x hx (⟨a, h1, h2, h3⟩ | ⟨h1, h2, h3⟩)
        · right; right
          have h4 : (s.th i).ptr = some a := by
            apply hT.hold
            cases hp : (s.th i).pc <;> simp_all [Pc.hold', Pc.hold]
          exact ⟨a, hq a h4, h2, h3⟩
        · right; right
          obtain ⟨a, h4, h5⟩ := hT.sp h1
          exact ⟨a, hq a h4, Or.inl (hnb a h4), h5 x h3⟩
      · intro hm hiv _
        right
        cases hp : (s.th i).ptr with
        | none => exact absurd ((hl ha).2 hp) hiv
        | some p =>
          simp only [St.put]
          exact List.ne_nil_of_mem (hp ▸ hq p hp)
    · intro hb hm hsy
      have ha := h.g1 hm
      refine ⟨?_, ?_, fun q hq => ?_⟩
      · simp [act, Pc.hold]
      · simp [tok, Pc.hold]
      · left
        simp only [St.put, (hl ha).1 hb] at hq
        simpa using hq

theorem post_inv {s s' : St} {i : Nat} (h : GI s) (hs : post s i = some s') : GI s' := by
  have hT := h.th i
  unfold post at hs
  split at hs
  case h_2 => cases hs
  case h_1 hp =>
  by_cases hr : (s.th i).rq = true
  · rw [if_pos hr] at hs
    have hm := hT.rq hr
    have hal := h.g1 hm
    have hnf : ∀ j, (s.th j).pc.isFin = false := by
      intro j
      by_contra hc
      have h1 := h.f j (by simpa using hc)
      by_cases hji : i = j
      · rw [← hji, hp] at hc; simp [Pc.isFin] at hc
      · have := h1.2 i hji
        simp [hp, Pc.quiet] at this
    cases hs
    refine ⟨h.n64, ?_, h.g1, h.g2, fun _ => hm, h.g4, h.g5, h.q1, h.q2, h.iv, ?_, ?_, ?_, ?_⟩
    · intro j
      rw [put_th]
      by_cases hj : j = i
      · rw [if_pos hj, hj]
        obtain ⟨h1, h2, h3, h4, h5, h6, h7, h8, h9, h10, h11, h12, h13⟩ := hT
        constructor <;> simp_all [Pc.bad, Pc.hold, Pc.locked, Pc.more, St.put]
      · rw [if_neg hj]
        exact (h.th j).mono rfl rfl rfl id (fun _ => id) (fun _ _ => Or.inl hal)
    · intro _ hh; simp [St.put] at hh
    · intro j hj
      rw [put_th] at hj
      by_cases hji : j = i
      · rw [if_pos hji] at hj; simp [hp, Pc.isFin] at hj
      · rw [if_neg hji, hnf j] at hj; cases hj
    · intro _ hh; simp [St.put] at hh
    · intro _ _ hh; simp [St.put] at hh
  · rw [if_neg hr] at hs; cases hs

theorem take_inv {s s' : St} {i : Nat} (h : GI s) (hs : take s i = some s') : GI s' := by
  have hT := h.th i
  unfold take at hs
  split at hs
  case h_2 => cases hs
  case h_1 hp =>
  by_cases hb : s.iv.testBit i = true
  · rw [if_pos hb] at hs
    have hiv : s.iv ≠ 0 := by intro hh; rw [hh] at hb; simp at hb
    have hi := hT.lt (by simp [hp])
    by_cases ha : s.allow = true
    · rw [if_pos ha] at hs
      cases hs
      refine ⟨h.n64, ?_, h.g1, h.g2, h.g3, h.g4, h.g5, h.q1, h.q2, fun _ => Or.inl rfl, ?_, ?_, ?_, ?_⟩
      · intro j
        rw [put_th]
        by_cases hj : j = i
        · rw [if_pos hj, hj]
          obtain ⟨h1, h2, h3, h4, h5, h6, h7, h8, h9, h10, h11, h12, h13⟩ := hT
          constructor <;> simp_all [Pc.bad, Pc.hold, Pc.locked, Pc.more, St.put]
        · rw [if_neg hj]
          exact (h.th j).mono rfl rfl rfl id (fun _ => id) (fun _ _ => Or.inl ha)
      · intro h1 h2
        have := (h.e h1 h2).2 i
        simp [hp, Pc.early] at this
      · intro j hj
        rw [put_th] at hj
        by_cases hji : j = i
        · rw [if_pos hji] at hj; simp [Pc.isFin] at hj
        · rw [if_neg hji] at hj
          have := (h.f j hj).2 i (fun hh => hji hh.symm)
          simp [hp, Pc.quiet] at this
      · intro h1 h2
        rcases h.m h1 h2 with ⟨j, hj⟩ | hc
        · left
          refine ⟨j, ?_⟩
          rw [put_th, if_neg (by rintro rfl; rw [hp] at hj; simp [Pc.doom] at hj)]
          exact hj
        · right
          intro x hx
          by_cases hm : s.mode = true
          · right; right; left
            refine ⟨i, Or.inl ⟨(true, s.X), ?_, Or.inl hm, hx⟩⟩
            rw [put_th, if_pos rfl]; rfl
          · rcases hc x hx with h3 | h3 | ⟨j, h3⟩ | h3
            · exact Or.inl h3
            · exact Or.inr (Or.inl h3)
            · right; right; left
              refine ⟨j, ?_⟩
              rw [put_th, if_neg]
              · exact h3
              · rintro rfl
                simp [covT, hp, Pc.hold'] at h3
            · exact absurd h3.1 hm
      · intro hbt hm hsy
        have hK := h.k hbt hm hsy
        obtain ⟨e1, e2⟩ := hK.iv hiv
        refine ⟨hK.q, ?_, fun hh => absurd rfl hh, fun hh => absurd (hK.num hh).1 hiv⟩
        intro j hj
        have hji : j = i := by
          by_contra hc
          rw [put_th, if_neg hc] at hj
          have := (hK.tok j hj).2.1
          exact hiv this
        refine ⟨e1, rfl, fun k hk => ?_⟩
        rw [put_th, if_neg (by rw [← hji]; exact hk)]
        exact e2 k
    · rw [if_neg ha] at hs
      have hm : s.mode = false := by
        cases hm : s.mode
        · rfl
        · exact absurd (h.g1 hm) ha
      cases hs
      std h hT
  · rw [if_neg hb] at hs; cases hs

theorem testBit_sub {a i j : Nat} (h : a.testBit i = true) (hij : j ≠ i) : (a - 2 ^ i).testBit j = a.testBit j := by
  have hge := Nat.ge_two_pow_of_testBit h
  rcases Nat.lt_or_gt_of_ne hij with hlt | hgt
  · have h1 : (a - 2 ^ i) % 2 ^ i = a % 2 ^ i := by
      conv_rhs => rw [← Nat.sub_add_cancel hge, Nat.add_mod_right]
    have h2 := Nat.testBit_mod_two_pow (a - 2 ^ i) i j
    have h3 := Nat.testBit_mod_two_pow a i j
    rw [h1, h3] at h2
    simpa [hlt] using h2.symm
  · have h1 : (a - 2 ^ i) / 2 ^ (i + 1) = a / 2 ^ (i + 1) := by
      have h2 : (a - 2 ^ i) / 2 ^ i = a / 2 ^ i - 1 := by
        have := Nat.sub_mul_div a (2 ^ i) 1
        simpa using this
      rw [Nat.pow_succ, ← Nat.div_div_eq_div_mul, ← Nat.div_div_eq_div_mul, h2]
      rw [Nat.testBit_eq_decide_div_mod_eq] at h
      simp only [decide_eq_true_eq] at h
      generalize a / 2 ^ i = q at h ⊢
      omega
    obtain ⟨k, rfl⟩ : ∃ k, j = k + (i + 1) := ⟨j - (i + 1), by omega⟩
    rw [← Nat.testBit_div_two_pow, ← Nat.testBit_div_two_pow, h1]

theorem sub_inv {s s' : St} {i v : Nat} (h : GI s) (hs : sub s i v = some s') : GI s' := by
  have hT := h.th i
  unfold sub at hs
  split at hs
  case h_2 => cases hs
  case h_1 hp =>
  have hm : s.mode = false := hT.sub hp
  have hn : ¬ s.iv.testBit i = true → s.allow = true := by
    intro hb
    rcases hT.more (by simp [hp, Pc.more]) with h1 | h1 | h1
    · exact h1
    · exact absurd h1 hb
    · by_contra hc
      have := early_of h (by simpa using hc) h1 i
      simp [hp, Pc.early] at this
  obtain ⟨w, hw⟩ : ∃ w, (if s.iv.testBit i = true then s.iv - 2 ^ i else v) = w := ⟨_, rfl⟩
  rw [hw] at hs
  have hi := hT.lt (by simp [hp])
  have hm' : ¬ s.mode = true := by simp [hm]
  cases hs
  refine ⟨h.n64, ?_, h.g1, h.g2, h.g3, h.g4, h.g5, h.q1, h.q2, fun hh => absurd hh hm', ?_, ?_, ?_,
    fun _ hh => absurd hh hm'⟩
  · intro j
    rw [put_th]
    by_cases hj : j = i
    · rw [if_pos hj, hj]
      obtain ⟨h1, h2, h3, h4, h5, h6, h7, h8, h9, h10, h11, h12, h13⟩ := hT
      constructor <;> simp_all [Pc.bad, Pc.hold, Pc.locked, Pc.more, St.put]
    · rw [if_neg hj]
      refine (h.th j).mono rfl rfl rfl id (fun _ => id) (fun _ hh => ?_)
      by_cases hb : s.iv.testBit i = true
      · rw [if_pos hb] at hw
        rcases hh with hh | hh | hh
        · exact Or.inl hh
        · right; left; simp only [St.put]; rw [← hw, testBit_sub hb hj]; exact hh
        · exact Or.inr (Or.inr hh)
      · exact Or.inl (hn hb)
  · intro h1 h2
    have := (h.e h1 h2).2 i
    simp [hp, Pc.early] at this
  · intro j hj
    rw [put_th] at hj
    by_cases hji : j = i
    · rw [if_pos hji] at hj; simp [Pc.isFin] at hj
    · rw [if_neg hji] at hj
      have := (h.f j hj).2 i (fun hh => hji hh.symm)
      simp [hp, Pc.quiet] at this
  · intro h1 h2
    rcases h.m h1 h2 with ⟨j, hj⟩ | hc
    · left
      refine ⟨j, ?_⟩
      rw [put_th, if_neg (by rintro rfl; rw [hp] at hj; simp [Pc.doom] at hj)]
      exact hj
    · right
      intro x hx
      rcases hc x hx with h3 | h3 | ⟨j, h3⟩ | h3
      · exact Or.inl h3
      · exact Or.inr (Or.inl h3)
      · right; right; left
        refine ⟨j, ?_⟩
        rw [put_th, if_neg]
        · exact h3
        · rintro rfl
          simp [covT, hp, Pc.hold'] at h3
      · exact absurd h3.1 hm'

theorem lock_inv {s s' : St} {i : Nat} (h : GI s) (hz : ¬ Z s) (ht : s.term = false) (hs : lock s i = some s') :
    GI s' := by
  have hT := h.th i
  unfold lock at hs
  split at hs
  case h_2 => cases hs
  case h_1 hp =>
  have hal := hT.locked (by simp [hp, Pc.locked])
  by_cases hsy : s.sync = true
  · rw [if_pos (by simp [hsy])] at hs
    cases hs
    std h hT
  · rw [if_neg (by simp [hsy, ht])] at hs
    have hsy : s.sync = false := by simpa using hsy
    cases hq : s.queue with
    | nil =>
      rw [hq] at hs
      by_cases hl : s.last i = true
      · exfalso
        apply hz
        have hid := last_idle h hl
        rcases h.m hal hsy with ⟨j, hj⟩ | hc
        · by_cases hji : j = i
          · rw [hji, hp] at hj; simp [Pc.doom] at hj
          · have := hid j hji
            cases hpj : (s.th j).pc <;> simp_all [Pc.idle, Pc.doom]
        · right
          intro x hx
          rcases hc x hx with h3 | ⟨q, h3, _⟩ | ⟨j, h3⟩ | ⟨_, _, h3⟩
          · exact h3
          · rw [hq] at h3; cases h3
          · exfalso
            by_cases hji : j = i
            · rw [hji] at h3; simp [covT, hp, Pc.hold'] at h3
            · have := hid j hji
              unfold covT at h3
              cases hpj : (s.th j).pc <;> simp_all [Pc.idle, Pc.hold']
          · exfalso
            rcases h3 with h3 | ⟨j, h3⟩
            · exact h3 hq
            · by_cases hji : j = i
              · rw [hji, hp] at h3; simp [Pc.pre] at h3
              · have := hid j hji
                cases hpj : (s.th j).pc with
                | sync a w => cases w <;> simp_all [Pc.idle, Pc.pre]
                | _ => simp_all [Pc.idle, Pc.pre]
      · rw [if_neg hl] at hs
        cases hs
        std h hT
    | cons p q =>
      rw [hq] at hs
      cases hs
      have hi := hT.lt (by simp [hp])
      have hp1 := h.q1 p (by simp [hq])
      refine ⟨h.n64, ?_, h.g1, h.g2, h.g3, h.g4, h.g5, ?_, fun _ => hal, h.iv, ?_, ?_, ?_, ?_⟩
      · intro j
        rw [put_th]
        by_cases hj : j = i
        · rw [if_pos hj, hj]
          obtain ⟨b, l⟩ := p
          obtain ⟨h1, h2, h3, h4, h5, h6, h7, h8, h9, h10, h11, h12, h13⟩ := hT
          constructor <;> simp_all [Pc.bad, Pc.hold, Pc.locked, Pc.more, St.put]
        · rw [if_neg hj]
          exact (h.th j).mono rfl rfl rfl id (fun _ => id) (fun _ => id)
      · intro r hr; exact h.q1 r (by rw [hq]; exact List.mem_cons_of_mem _ hr)
      · intro h1; simp [St.put, hsy] at h1
      · intro j hj
        rw [put_th] at hj
        by_cases hji : j = i
        · rw [if_pos hji] at hj; simp [Pc.isFin] at hj
        · rw [if_neg hji] at hj
          have := (h.f j hj).1
          rw [hsy] at this; cases this
      · intro h1 h2
        have hthi : ∀ t, ({ s with queue := q }.put i t).th i = t := by
          intro t; rw [put_th, if_pos rfl]
        rcases h.m h1 h2 with ⟨j, hj⟩ | hc
        · left
          refine ⟨j, ?_⟩
          rw [put_th, if_neg (by rintro rfl; rw [hp] at hj; simp [Pc.doom] at hj)]
          exact hj
        · right
          intro x hx
          rcases hc x hx with h3 | ⟨r, h3, h4, h5⟩ | ⟨j, h3⟩ | ⟨h3, h4, h5⟩
          · exact Or.inl h3
          · rw [hq] at h3
            rcases List.mem_cons.1 h3 with h6 | h6
            · right; right; left
              refine ⟨i, Or.inl ⟨r, ?_, h4, h5⟩⟩
              rw [hthi, h6]; rfl
            · exact Or.inr (Or.inl ⟨r, h6, h4, h5⟩)
          · right; right; left
            refine ⟨j, ?_⟩
            rw [put_th, if_neg]
            · exact h3
            · rintro rfl
              simp [covT, hp, Pc.hold'] at h3
          · right; right; right
            refine ⟨h3, h4, Or.inr ⟨i, ?_⟩⟩
            rw [hthi]; rfl
      · intro hbt hm hsy
        have hK := h.k hbt hm hsy
        have hpo := hK.q p (by simp [hq])
        have hivz : s.iv = 0 := by
          by_contra hc
          have := (hK.iv hc).1
          rw [hq] at this; cases this
        have hnt : ∀ j, ¬ tok (s.th j) := by
          intro j hj
          have := (hK.tok j hj).1
          rw [hq] at this; cases this
        have hnt' : ∀ j, ¬ tok (({ s with queue := q }.put i { s.th i with pc := .got p, ptr := some p }).th j) := by
          intro j
          rw [put_th]
          by_cases hj : j = i
          · rw [if_pos hj]
            obtain ⟨b, l⟩ := p
            simp only at hpo
            simp [tok, Pc.hold, hpo]
          · rw [if_neg hj]; exact hnt j
        exact ⟨fun r hr => hK.q r (by rw [hq]; exact List.mem_cons_of_mem _ hr), fun j hj => absurd hj (hnt' j),
          fun hh => absurd hivz hh, fun _ => ⟨hivz, hnt'⟩⟩

theorem model2_inv {s s' : St} (h : GI s) (hs : model2 s = some s') : GI s' := by
  unfold model2 at hs
  by_cases hn : s.num = 1
  · rw [if_pos hn] at hs
    obtain ⟨g1, g2, g3⟩ := h.g4 (by omega)
    cases hs
    refine ⟨h.n64, ?_, h.g1, h.g2, h.g3, fun _ => ⟨g1, g2, g3⟩, fun _ => Or.inr (by simp), h.q1, h.q2, fun _ => Or.inl rfl,
      ?_, h.f, ?_, ?_⟩
    · intro j
      exact (h.th j).mono rfl rfl rfl id (fun _ => id) (fun _ _ => Or.inl g2)
    · intro h1 h2
      have := (h.e h1 h2).1
      omega
    · intro h1 h2
      rcases h.m h1 h2 with hj | hc
      · exact Or.inl hj
      · right
        intro x hx
        rcases hc x hx with h3 | h3 | h3 | ⟨h3, h4, h5⟩
        · exact Or.inl h3
        · exact Or.inr (Or.inl h3)
        · exact Or.inr (Or.inr (Or.inl h3))
        · exact absurd ((h.k g3 h3 h2).num (by omega)).1 h4
    · intro h1 h2 h3
      have hK := h.k h1 h2 h3
      exact ⟨hK.q, fun j hj => ⟨(hK.tok j hj).1, rfl, (hK.tok j hj).2.2⟩, fun hh => absurd rfl hh,
        fun _ => ⟨rfl, (hK.num (by omega)).2⟩⟩
  · rw [if_neg hn] at hs; cases hs

theorem model1_inv {s s' : St} {i : Nat} (h : GI s) (hs : model1 s i = some s') : GI s' := by
  have hT := h.th i
  unfold model1 at hs
  split at hs
  case h_2 => cases hs
  case h_1 hp =>
  split at hs
  case isFalse => cases hs
  case isTrue hc =>
  simp only [Bool.and_eq_true, beq_iff_eq] at hc
  obtain ⟨hbt, hnum⟩ := hc
  obtain ⟨t, ht⟩ : ∃ t, ({ s.th i with
          fixed := false
          disj := true } : Th) = t := ⟨_, rfl⟩
  rw [ht] at hs
  have htp : t.pc = .run := by rw [← ht]; exact hp
  cases hs
  refine ⟨h.n64, ?_, fun _ => rfl, fun _ => rfl, h.g3, fun _ => ⟨rfl, rfl, hbt⟩, fun _ => Or.inr (by simp [St.put]), h.q1,
    fun _ => rfl, h.iv, ?_, ?_, ?_, ?_⟩
  · intro j
    rw [put_th]
    by_cases hj : j = i
    · rw [if_pos hj, hj]
      subst ht
      obtain ⟨h1, h2, h3, h4, h5, h6, h7, h8, h9, h10, h11, h12, h13⟩ := hT
      constructor <;> simp_all [Pc.bad, Pc.hold, Pc.locked, Pc.more, St.put]
    · rw [if_neg hj]
      exact (h.th j).mono rfl rfl rfl (fun _ => rfl) (fun _ => id) (fun _ _ => Or.inl rfl)
  · intro h1 h2
    have := (h.e h1 h2).2 i
    simp [hp, Pc.early] at this
  · intro j hj
    rw [put_th] at hj
    by_cases hji : j = i
    · rw [if_pos hji, htp] at hj; simp [Pc.isFin] at hj
    · rw [if_neg hji] at hj
      have := (h.f j hj).2 i (fun hh => hji hh.symm)
      simp [hp, Pc.quiet] at this
  · intro _ h2
    by_cases hm : s.mode = true
    · rcases h.m (h.g1 hm) h2 with ⟨j, hj⟩ | hc
      · left
        refine ⟨j, ?_⟩
        rw [put_th, if_neg (by rintro rfl; rw [hp] at hj; simp [Pc.doom] at hj)]
        exact hj
      · right
        intro x hx
        refine (hc x hx).mono rfl (fun _ => id) (fun _ => id) id ?_ ?_
        · intro j hj
          rw [put_th]
          by_cases hji : j = i
          · rw [if_pos hji]; rw [hji] at hj
            left
            subst ht
            simpa [covT, hp, Pc.hold', hT.nfix hp hm] using hj
          · rw [if_neg hji]; exact Or.inl hj
        · intro _ _ j hj
          rw [put_th]
          by_cases hji : j = i
          · rw [if_pos hji, htp]; exact Or.inl rfl
          · rw [if_neg hji]; exact Or.inl hj
    · right
      have hfx : (s.th i).fixed = true := by
        by_contra hc
        have h3 := (hT.split hp (by simpa using hc)).1
        rcases h.g5 h3 with h4 | h4
        · exact hm h4
        · exact h4 hnum
      intro x hx
      rcases hT.fixed hp hfx x hx with h3 | h3
      · exact Or.inl h3
      · right; right; left
        refine ⟨i, Or.inr ?_⟩
        rw [put_th, if_pos rfl]
        subst ht
        exact ⟨hp, rfl, h3⟩
  · intro _ hm hsy
    have hK := h.k hbt hm hsy
    have hact : act (s.th i) := Or.inr hp
    have hiv : s.iv = 0 := by
      by_contra hc; exact (hK.iv hc).2 i hact
    have hnt : ∀ j, ¬ tok (({ s with
        num := 1
        forbid := true
        allow := true }.put i t).th j) := by
      intro j hj
      rw [put_th] at hj
      by_cases hji : j = i
      · rw [if_pos hji] at hj
        subst ht
        simp [tok, hp, Pc.hold] at hj
      · rw [if_neg hji] at hj
        exact (hK.tok j hj).2.2 i (fun hh => hji hh.symm) hact
    exact ⟨hK.q, fun j hj => absurd hj (hnt j), fun hh => absurd hiv hh, fun _ => ⟨hiv, hnt⟩⟩

theorem fin_inv {s s' : St} {i : Nat} (h : GI s) (hs : fin s i = some s') : Post s' := by
  have hT := h.th i
  unfold fin at hs
  split at hs
  case h_2 => cases hs
  case h_1 a hp =>
  have hF := h.f i (by simp [hp, Pc.isFin])
  have hi := hT.lt (by simp [hp])
  split at hs
  case isTrue hc => cases hs; left; left; rfl
  case isFalse hc =>
  by_cases hlo : (s.lost || (s.bt && s.restart && !(List.range s.n).all fun j => (s.th j).pc.hold.isNone)) = true
  · cases hs; left; left; exact hlo
  · right; right
    have hrf : s.restart = true → s.forbid = false := by
      intro hr; simpa [hr] using hc
    have hnum : s.num = 0 := by
      cases hr : s.restart with
      | false => exact (h.e hF.1 hr).1
      | true =>
        by_contra hcn
        have := (h.g4 hcn).1
        rw [hrf hr] at this; cases this
    have hnorun : ∀ j, (s.th j).pc ≠ .run := by
      intro j hj
      by_cases hji : j = i
      · rw [hji, hp] at hj; cases hj
      · have := hF.2 j hji
        simp [hj, Pc.quiet] at this
    have hnohold : s.bt = true → ∀ j, (s.th j).pc.hold = none := by
      intro hb j
      cases hr : s.restart with
      | false =>
        have := (h.e hF.1 hr).2 j
        cases hpj : (s.th j).pc with
        | req a => cases a <;> simp_all [Pc.early, Pc.hold]
        | sync a w => cases a <;> simp_all [Pc.early, Pc.hold]
        | fin a => cases a <;> simp_all [Pc.early, Pc.hold]
        | _ => simp_all [Pc.early, Pc.hold]
      | true =>
        have hall : ((List.range s.n).all fun j => (s.th j).pc.hold.isNone) = true := by
          by_contra hh
          apply hlo
          simp only [Bool.not_eq_true] at hh
          rw [hh, hb, hr]; simp
        by_cases hjn : j < s.n
        · simpa using List.all_eq_true.1 hall j (List.mem_range.2 hjn)
        · have : (s.th j).pc = .left := by
            by_contra hh; exact hjn ((h.th j).lt hh)
          simp [this, Pc.hold]
    have hma : s.allow = true → s.mode = true := by
      intro ha
      rcases h.g5 ha with h1 | h1
      · exact h1
      · exact absurd hnum h1
    have hbit : ∀ j, j < s.n → (2 ^ 64 - 1).testBit j = true := by
      intro j hj
      have := h.n64
      rw [Nat.testBit_two_pow_sub_one]
      simp; omega
    cases hs
    have hput := put_th
    refine ⟨h.n64, ?_, h.g1, h.g2, fun hh => by simp [St.put] at hh, h.g4, h.g5, fun _ hh => by simp [St.put] at hh,
      fun hh => absurd rfl hh, fun _ => Or.inr rfl, fun hh => by simp [St.put] at hh, ?_, ?_, ?_⟩
    · intro j
      rw [put_th]
      by_cases hj : j = i
      · rw [if_pos hj, hj]
        have hb := hbit i hi
        obtain ⟨h1, h2, h3, h4, h5, h6, h7, h8, h9, h10, h11, h12, h13⟩ := hT
        cases a <;> constructor <;> simp_all [Pc.bad, Pc.hold, Pc.locked, Pc.more, St.put]
      · rw [if_neg hj]
        refine (h.th j).mono rfl rfl rfl id (fun _ => id) (fun hh _ => ?_)
        right; left
        apply hbit j
        apply (h.th j).lt
        intro he
        simp [he, Pc.more] at hh
    · intro j hj
      rw [put_th] at hj
      by_cases hji : j = i
      · rw [if_pos hji] at hj; simp [Pc.isFin] at hj
      · rw [if_neg hji] at hj
        have := (h.f j hj).2 i (fun hh => hji hh.symm)
        simp [hp, Pc.quiet] at this
    · intro ha _
      right
      intro x hx
      right; right; right
      refine ⟨hma ha, by simp [St.put], Or.inr ⟨i, ?_⟩⟩
      rw [put_th, if_pos rfl]; rfl
    · intro hb hm _
      have hna : ∀ j, ¬ act (({ s with
          sync := false
          restart := false
          queue := []
          iv := 2 ^ 64 - 1
          lost := s.lost || (s.bt && s.restart && !(List.range s.n).all fun j => (s.th j).pc.hold.isNone) }.put i
            { s.th i with pc := .req a }).th j) := by
        intro j
        rw [put_th]
        by_cases hji : j = i
        · rw [if_pos hji]
          have := hnohold hb i
          rw [hp] at this
          have ha : a = none := this
          simp [act, Pc.hold, ha]
        · rw [if_neg hji]
          simp [act, hnohold hb j, hnorun j]
      have hnt : ∀ t, ¬ act t → ¬ tok t := by
        rintro t h1 (⟨l, h2⟩ | h2)
        · exact h1 (Or.inl (by simp [h2]))
        · exact h1 (Or.inr h2.1)
      exact ⟨fun q hq => by simp [St.put] at hq, fun j hj => absurd hj (hnt _ (hna j)), fun _ => ⟨rfl, hna⟩,
        fun hh => absurd hnum hh⟩

end Clasp.Par
