import Verif.Asp.SimpSum

/-! Lemmas for C27: rules with a sum as body. -/

namespace Clasp.Asp.Simp

variable {k : Known} {m : Marks} {X M : AtomSet}

/-- Specification: the body of a rule that was simplified: no literal twice, no literal whose value is known, in a conjunction no complementary literals, in a sum only weights
between 1 and the bound, and more of them than are needed (a sum that needs all its literals is a conjunction). -/
def _root_.Clasp.Asp.Body.simple (k : Known) (lits : List BLit) : Body → Prop
  | .conj out => out.Nodup ∧ (∀ q ∈ out, q.compl ∉ out) ∧ ∀ q ∈ out, q ∈ lits ∧ litVal (k.val q.atom) (!q.neg) = none
  | .sum out b => (out.map Prod.fst).Nodup ∧ 0 < b ∧ (∀ x ∈ out, 1 ≤ x.2 ∧ x.2 ≤ b ∧ x.1 ∈ lits ∧ litVal (k.val x.1.atom) (!x.1.neg) = none) ∧ b < (out.map Prod.snd).sum

/-- Proof device: what holds after the second loop. -/
structure Clamped (k : Known) (s : SumSt) (F : List (BLit × Int)) (c : ClampSt) : Prop where
  keys : keys F = keys s.out
  pos : ∀ x ∈ F, 1 ≤ x.2
  le : 0 < s.bound → ∀ x ∈ F, x.2 ≤ s.bound
  sum : c.sumW = tot F
  rng : tot F ≤ wMax
  min : ∀ x ∈ F, c.minW ≤ x.2
  min1 : 1 ≤ c.minW
  max : ∀ x ∈ F, x.2 ≤ c.maxW
  same : ∀ X M, 0 < s.bound → (s.bound ≤ wsum X M F ↔ s.bound ≤ wsum X M s.out)
  ub : ∀ X M, Sub X M → wsum X M F ≤ c.sumR
  le' : c.sumR ≤ tot F
  cmp : 0 < s.bound → ∀ q ∈ Simp.keys F, q.compl ∈ Simp.keys F → c.sumR ≤ tot F - c.minW

theorem tot_clamp {b : Int} : ∀ {out : List (BLit × Int)}, tot (clampAll b out) ≤ tot out
  | [] => Int.le_refl _
  | x :: r => by
    have := tot_clamp (b := b) (out := r)
    have e : clampAll b (x :: r) = (x.1, Min.min x.2 b) :: clampAll b r := rfl
    rw [e, tot_cons, tot_cons]; simp only []; omega

theorem clamped {s : SumSt} (hs : SInv k s) : ∃ F c, (if s.bound > 0 ∧ (s.dirty ≠ 0 ∨ s.maxW > s.bound) then clampLoop s.m s.bound [] s.out ⟨s.maxW, wMax, s.sumW, 0⟩
        else .ok (s.out, ⟨s.maxW, s.minW, s.sumW, s.sumW⟩) : Except SFail _) = .ok (F, c) ∧ Clamped k s F c := by
  have hp0 : ∀ x ∈ s.out, 0 ≤ x.2 := fun x hx => by have := hs.pos x hx; omega
  split
  · next hc =>
    have hk : keys (clampAll s.bound s.out) = keys s.out := keys_clamp
    have hpos : ∀ x ∈ clampAll s.bound s.out, 1 ≤ x.2 := by
      intro x hx
      obtain ⟨y, hy, rfl⟩ := List.mem_map.1 hx
      have := hs.pos y hy
      simp only []; omega
    have hle : tot (clampAll s.bound s.out) ≤ wMax := by
      have := tot_clamp (b := s.bound) (out := s.out); have := hs.sum; have := hs.le; omega
    obtain ⟨c', g1, g2, g3, g4, g5, g6, g7, g8⟩ := clampLoop_spec (m := s.m) (F := clampAll s.bound s.out) (fun q => by rw [hk]; exact hs.marks q) hc.1 hle hpos
      (ls := s.out) (pre := []) (c := ⟨s.maxW, wMax, s.sumW, 0⟩) (by simp) (by simp) (by simp) (by simp)
    have hddnn : ∀ x ∈ clampAll s.bound s.out, 0 ≤ dd (clampAll s.bound s.out) x := by
      intro x hx
      unfold dd
      split
      · next hc =>
        cases hf : findW x.1.compl (clampAll s.bound s.out) with
        | none => exact absurd hc.2 (findW_none.1 hf)
        | some w' =>
          have := hpos _ (findW_mem hf)
          have := hpos x hx
          simp only [Option.getD_some] at *; omega
      · omega
    have hsplit : ((clampAll s.bound s.out).map fun x => x.2 - dd (clampAll s.bound s.out) x).sum =
        tot (clampAll s.bound s.out) - ((clampAll s.bound s.out).map (dd (clampAll s.bound s.out))).sum := by
      have : ∀ l : List (BLit × Int), (l.map fun x => x.2 - dd (clampAll s.bound s.out) x).sum = tot l - (l.map (dd (clampAll s.bound s.out))).sum := by
        intro l
        induction l with
        | nil => rfl
        | cons a l ih => simp only [List.map_cons, List.sum_cons, tot_cons, ih]; omega
      exact this _
    simp only [] at g2 g3 g5 g6 g7 g8
    refine ⟨_, c', g1, hk, hpos, fun _ x hx => ?_, ?_, hle, g4, g6 (by decide), g7 hs.max, fun X M _ => ?_, fun X M hsub => ?_, ?_, fun _ q hq hqc => ?_⟩
    · obtain ⟨y, hy, rfl⟩ := List.mem_map.1 hx
      simp only []; omega
    · rw [g2, hs.sum]; omega
    · exact clamp_wsum fun x hx => by have := hs.pos x hx; omega
    · have := pairs hsub (F := clampAll s.bound s.out) (by rw [hk]; exact hs.nodup) hpos
      omega
    · have : 0 ≤ ((clampAll s.bound s.out).map (dd (clampAll s.bound s.out))).sum := by
        have := sum_le (f := fun _ => (0 : Int)) hddnn
        simpa using this
      omega
    · -- a complementary pair
      have key : ∀ q ∈ keys (clampAll s.bound s.out), q.neg = true → q.compl ∈ keys (clampAll s.bound s.out) → c'.sumR ≤ tot (clampAll s.bound s.out) - c'.minW := by
        intro q hq hn hqc
        obtain ⟨x, hx, rfl⟩ := List.mem_map.1 hq
        have h1 : c'.minW ≤ dd (clampAll s.bound s.out) x := by
          unfold dd
          rw [if_pos ⟨hn, hqc⟩]
          cases hf : findW x.1.compl (clampAll s.bound s.out) with
          | none => exact absurd hqc (findW_none.1 hf)
          | some w' =>
            have h1 := g4 _ (findW_mem hf)
            have h2 := g4 x hx
            simp only [Option.getD_some] at *; omega
        have h2 : dd (clampAll s.bound s.out) x ≤ ((clampAll s.bound s.out).map (dd (clampAll s.bound s.out))).sum := by
          have hle : ∀ l : List (BLit × Int), (∀ y ∈ l, 0 ≤ dd (clampAll s.bound s.out) y) → x ∈ l → dd (clampAll s.bound s.out) x ≤ (l.map (dd (clampAll s.bound s.out))).sum := by
            intro l
            induction l with
            | nil => intro _ h; cases h
            | cons a l ih =>
              intro hl hx
              have h0 : 0 ≤ (l.map (dd (clampAll s.bound s.out))).sum := by
                have := sum_le (f := fun _ => (0 : Int)) (g := dd (clampAll s.bound s.out)) (l := l) fun y hy => hl y (List.mem_cons_of_mem _ hy)
                simpa using this
              have ha := hl a (by simp)
              simp only [List.map_cons, List.sum_cons]
              rcases List.mem_cons.1 hx with rfl | hx
              · omega
              · have := ih (fun y hy => hl y (by simp [hy])) hx; omega
          exact hle _ hddnn hx
        omega
      cases hn : q.neg with
      | true => exact key q hq hn hqc
      | false => exact key q.compl hqc (by simp [BLit.compl, hn]) (by rw [compl_compl]; exact hq)
  · next hc =>
    refine ⟨s.out, ⟨s.maxW, s.minW, s.sumW, s.sumW⟩, rfl, rfl, hs.pos, fun h x hx => ?_, hs.sum, by rw [← hs.sum]; exact hs.le, hs.min, hs.min1.1, hs.max, fun _ _ _ => Iff.rfl,
      fun X M _ => ?_, by simp [hs.sum], fun hpb q hq hqc => ?_⟩
    · have := hs.max x hx
      have : ¬ s.maxW > s.bound := fun h' => hc ⟨h, .inr h'⟩
      omega
    · have := wsum_le_tot (X := X) (M := M) hp0
      simp only [hs.sum]; exact this
    · by_cases hd : s.dirty = 0
      · exact absurd hqc (hs.clean hd q hq)
      · exact absurd ⟨hpb, .inl hd⟩ hc


theorem one_missing {F : List (BLit × Int)} (hpos : ∀ x ∈ F, 1 ≤ x.2) {x : BLit × Int} (hx : x ∈ F) (hh : x.1.holds X M = false) : wsum X M F ≤ tot F - x.2 := by
  induction F with
  | nil => cases hx
  | cons y r ih =>
    obtain ⟨p, w⟩ := y
    have hr : ∀ x ∈ r, 0 ≤ x.2 := fun x hx => by have := hpos x (by simp [hx]); omega
    have h1 : 1 ≤ w := hpos (p, w) (by simp)
    rw [tot_cons]
    simp only [wsum]
    rcases List.mem_cons.1 hx with rfl | hx
    · have := wsum_le_tot (X := X) (M := M) hr
      simp only [hh, Bool.false_eq_true, if_false]; omega
    · have := ih (fun x hx => hpos x (by simp [hx])) hx
      split <;> omega

theorem all_hold {F : List (BLit × Int)} (h : ∀ x ∈ F, x.1.holds X M = true) : wsum X M F = tot F := by
  induction F with
  | nil => rfl
  | cons y r ih =>
    obtain ⟨p, w⟩ := y
    have h1 : p.holds X M = true := h (p, w) (by simp)
    rw [tot_cons]
    simp only [wsum, h1, if_true, ih fun x hx => h x (by simp [hx])]

theorem wsum_const {w : Int} {F : List (BLit × Int)} (h : ∀ x ∈ F, x.2 = w) : wsum X M F = w * wsum X M (F.map fun x => (x.1, 1)) ∧ tot F = w * tot (F.map fun x => (x.1, 1)) := by
  induction F with
  | nil => simp [wsum]
  | cons y r ih =>
    obtain ⟨p, v⟩ := y
    have h1 : v = w := h (p, v) (by simp)
    obtain ⟨e1, e2⟩ := ih fun x hx => h x (by simp [hx])
    rw [List.map_cons, tot_cons, tot_cons]
    simp only [wsum, e1, e2, h1, Int.mul_add]
    refine ⟨?_, by omega⟩
    split <;> omega

theorem ceil_le {b w c : Int} (hw : 1 ≤ w) : (b + (w - 1)) / w ≤ c ↔ b ≤ w * c := by
  constructor
  · intro h
    by_contra hc
    have : w * c + 1 ≤ b := by omega
    have h2 : (w * c + w) / w ≤ (b + (w - 1)) / w := Int.ediv_le_ediv (by omega) (by omega)
    rw [show w * c + w = w * (c + 1) by rw [Int.mul_add]; omega, Int.mul_ediv_cancel_left _ (by omega)] at h2
    omega
  · intro h
    have h2 : (b + (w - 1)) / w ≤ (w * c + (w - 1)) / w := Int.ediv_le_ediv (by omega) (by omega)
    have h3 : (w * c + (w - 1)) / w = c := by
      rw [Int.add_comm, Int.add_mul_ediv_left _ _ (by omega : w ≠ 0), Int.ediv_eq_zero_of_lt (by omega) (by omega)]; omega
    omega

theorem init_inv {bound : Int} (hm : Clean m) : SInv k ⟨m, [], bound, 1, wMax, 0, 0⟩ :=
  ⟨by simp [keys], by simp, fun q => by simp [keys, hm.1 q], hm.2, by simp, by simp [wMax], by simp, by simp, by simp, by simp [wMax], by simp [keys], by simp [keys]⟩

/-- the head is pushed to a body whose literals are marked -/
theorem push_sum {h : Head} {wt : BLit → Int} {slack : Int} {F : List (BLit × Int)} {B : Body} (hm : ∀ a, m.head a = false) (hb : ∀ q, m.body q = true ↔ q ∈ keys F)
    {keep h' m'} (he : pushHead k m h wt slack = (keep, h', m')) :
    Clean (m'.clearAll (F.map fun x => x.1.atom)) ∧ HeadOk k h h' ∧
    (K k X M → 0 ≤ slack → (B.holds X M = true → ∀ q ∈ keys F, wt q > slack → q.holds X M = true) →
      ((⟨h, B⟩ : Rule).ok X M ↔ ∀ r, (if keep then some (⟨h', B⟩ : Rule) else none) = some r → r.ok X M)) := by
  obtain ⟨p1, p2, p3, p4⟩ := pushHead_spec (X := X) (M := M) hm he
  refine ⟨⟨fun q => ?_, fun a => ?_⟩, p3, fun hK hs hq => ?_⟩
  · cases hx : (m'.clearAll (F.map fun x => x.1.atom)).body q with
    | false => rfl
    | true =>
      rw [clearAll_body] at hx
      obtain ⟨x, hx1, hx2⟩ := List.mem_map.1 ((hb q).1 (p2 q hx.1))
      exact absurd (List.mem_map.2 ⟨x, hx1, by rw [hx2]⟩) hx.2
  · cases hx : (m'.clearAll (F.map fun x => x.1.atom)).head a with
    | false => rfl
    | true => rw [clearAll_head, p1 a] at hx; cases hx.1
  · rw [ok_sat]
    have key : B.holds X M = true → (h.sat X M ↔ (keep = true → h'.sat X M)) := by
      intro ho
      refine p4 hK hs (fun a ha hw => ?_) fun a ha hw => ?_
      · have := hq ho _ ((hb _).1 ha) hw
        simpa [BLit.holds] using this
      · have := hq ho _ ((hb _).1 ha) hw
        simpa [BLit.holds] using this
    constructor
    · intro h1 r hr
      split at hr <;> cases hr
      next hk =>
      rw [ok_sat]
      exact fun ho => (key ho).1 (h1 ho) hk
    · intro h1 ho
      refine (key ho).2 fun hk => ?_
      have := h1 _ (by rw [if_pos hk])
      rw [ok_sat] at this
      exact this ho

theorem ok_body {h : Head} {B B' : Body} (e : B.holds X M = true ↔ B'.holds X M = true) : (⟨h, B⟩ : Rule).ok X M ↔ (⟨h, B'⟩ : Rule).ok X M := by
  rw [ok_sat, ok_sat]; simp only [e]

theorem simplifySum_spec {h : Head} {ls : List (BLit × Int)} {bound : Int} (hm : Clean m) (hw : ∀ x ∈ ls, 0 ≤ x.2) {ro m'} (he : simplifySum k m h ls bound = .ok (ro, m')) :
    Clean m' ∧ (∀ r, ro = some r → HeadOk k h r.head ∧ r.body.simple k (ls.map Prod.fst)) ∧
    (K k X M → ((⟨h, .sum ls bound⟩ : Rule).ok X M ↔ ∀ r, ro = some r → r.ok X M)) := by
  unfold simplifySum at he
  cases hl : sumLoop k ls ⟨m, [], bound, 1, wMax, 0, 0⟩ with
  | error e => rw [hl] at he; cases he
  | ok s =>
    rw [hl] at he
    simp only [] at he
    have h0 : SInv k ⟨m, [], bound, 1, wMax, 0, 0⟩ := init_inv hm
    obtain ⟨hs, hbd, hsub, hsem⟩ := sumLoop_spec h0 hw hl
    obtain ⟨F, c, e, hC⟩ := clamped hs
    rw [e] at he
    simp only [] at he
    have hmk : ∀ q, s.m.body q = true ↔ q ∈ keys F := fun q => by rw [hC.keys]; exact hs.marks q
    have hin : ∀ q ∈ keys F, q ∈ ls.map Prod.fst := fun q hq => by
      rw [hC.keys] at hq
      exact (hsub q hq).elim (fun h => by simp [keys] at h) id
    have hfr : ∀ q ∈ keys F, litVal (k.val q.atom) (!q.neg) = none := fun q hq => hs.free q (by rw [← hC.keys]; exact hq)
    have hclean : Clean (s.m.clearAll (F.map fun x => x.1.atom)) := by
      refine ⟨fun q => ?_, fun a => ?_⟩
      · cases hx : (s.m.clearAll (F.map fun x => x.1.atom)).body q with
        | false => rfl
        | true =>
          rw [clearAll_body] at hx
          obtain ⟨x, hx1, hx2⟩ := List.mem_map.1 ((hmk q).1 hx.1)
          exact absurd (List.mem_map.2 ⟨x, hx1, by rw [hx2]⟩) hx.2
      · cases hx : (s.m.clearAll (F.map fun x => x.1.atom)).head a with
        | false => rfl
        | true => rw [clearAll_head, hs.hd a] at hx; cases hx.1
    -- the meaning of the sum
    have hbody : K k X M → 0 < s.bound → ((Body.sum ls bound).holds X M = true ↔ s.bound ≤ wsum X M F) := by
      intro hK hb
      have := (hsem X M hK).2 hb
      simp only [wsum] at this
      rw [hC.same X M hb]
      simp only [Body.holds, decide_eq_true_eq]
      omega
    have hFn : (keys F).Nodup := by rw [hC.keys]; exact hs.nodup
    split at he
    · next hb =>
      cases he' : simplifyNormal k (s.m.clearAll (F.map fun x => x.1.atom)) h [] with
      | mk ro1 m1 =>
        rw [he'] at he
        cases he
        obtain ⟨g1, g2, g3⟩ := simplifyNormal_spec (X := X) (M := M) hclean he'
        refine ⟨g1, fun r hr => ?_, fun hK => ?_⟩
        · obtain ⟨e1, out, e2, e3, e4, e5⟩ := g2 r hr
          exact ⟨e1, by rw [e2]; exact ⟨e3, e4, fun q hq => by have := (e5 q hq).1; cases this⟩⟩
        · rw [← g3 hK]
          refine ok_body ?_
          have := (hsem X M hK).1 hb
          simp only [wsum] at this
          simp only [Body.holds, decide_eq_true_eq, List.all_nil, iff_true]
          omega
    · next hb =>
      have hb : 0 < s.bound := by omega
      split at he
      · next hR =>
        cases he
        refine ⟨hclean, fun r hr => (by cases hr), fun hK => ⟨fun _ r hr => (by cases hr), fun _ ho => ?_⟩⟩
        have h1 := (hbody hK hb).1 ho
        have h2 := hC.ub X M hK.sub
        omega
      · next hR =>
        have hR : s.bound ≤ c.sumR := by omega
        have htot : s.bound ≤ tot F := by have := hC.le'; omega
        split at he
        · next hN =>
          -- all literals are needed
          cases hph : pushHead k s.m h (fun _ => 1) 0 with
          | mk keep y =>
            obtain ⟨h', m2⟩ := y
            rw [hph] at he
            cases he
            obtain ⟨p1, p2, p3⟩ := push_sum (X := X) (M := M) (B := .conj (F.map Prod.fst)) hs.hd hmk hph
            refine ⟨p1, fun r hr => ?_, fun hK => ?_⟩
            · split at hr <;> cases hr
              refine ⟨p2, hFn, fun q hq hqc => ?_, fun q hq => ⟨hin q hq, hfr q hq⟩⟩
              have := hC.cmp hb q hq hqc
              have := hC.sum
              omega
            · refine Iff.trans (ok_body ?_) (p3 hK (by omega) fun ho q hq _ => ?_)
              · rw [hbody hK hb]
                simp only [Body.holds, List.all_eq_true, List.mem_map, forall_exists_index, and_imp, forall_apply_eq_imp_iff₂]
                constructor
                · intro hh x hx
                  cases hx1 : x.1.holds X M with
                  | true => rfl
                  | false =>
                    have h1 := one_missing hC.pos hx hx1
                    have h2 := hC.min x hx
                    have := hC.sum
                    omega
                · intro hh
                  rw [all_hold hh]; exact htot
              · simp only [Body.holds, List.all_eq_true] at ho
                exact ho q hq
        · next hN =>
          split at he
          · next heq =>
            -- a count
            have hconst : ∀ x ∈ F, x.2 = c.minW := fun x hx => by
              have h1 := hC.min x hx
              have h2 := hC.max x hx
              omega
            have hone : ∀ {out' : List (BLit × Int)} {b' : Int}, (keys out' = keys F) → (∀ x ∈ out', x.2 = 1) → 0 < b' → b' < tot out' → b' ≤ tot F → 0 ≤ c.sumW - b' → tot out' - b' ≤ c.sumW - b' →
                (∀ X M, s.bound ≤ wsum X M F ↔ b' ≤ wsum X M out') → ∀ {keep h' m2}, pushHead k s.m h (fun _ => 1) (c.sumW - b') = (keep, h', m2) →
                Clean (m2.clearAll (F.map fun x => x.1.atom)) ∧ (∀ r, (if keep then some (⟨h', .sum out' b'⟩ : Rule) else none) = some r → HeadOk k h r.head ∧ r.body.simple k (ls.map Prod.fst)) ∧
                (K k X M → ((⟨h, .sum ls bound⟩ : Rule).ok X M ↔ ∀ r, (if keep then some (⟨h', .sum out' b'⟩ : Rule) else none) = some r → r.ok X M)) := by
              intro out' b' k1 k2 k3 k4 k5 k6 k7 k8 keep h' m2 hph
              obtain ⟨p1, p2, p3⟩ := push_sum (X := X) (M := M) (B := .sum out' b') hs.hd hmk hph
              refine ⟨p1, fun r hr => ?_, fun hK => ?_⟩
              · split at hr <;> cases hr
                refine ⟨p2, by rw [show out'.map Prod.fst = keys F from k1]; exact hFn, k3, fun x hx => ?_, k4⟩
                have hx' : x.1 ∈ keys F := by rw [← k1]; exact List.mem_map.2 ⟨x, hx, rfl⟩
                exact ⟨by rw [k2 x hx], by rw [k2 x hx]; omega, hin _ hx', hfr _ hx'⟩
              · refine Iff.trans (ok_body ?_) (p3 hK k6 fun ho q hq hqw => ?_)
                · rw [hbody hK hb, k8]
                  simp [Body.holds]
                · simp only [Body.holds, decide_eq_true_eq] at ho
                  rw [← k1] at hq
                  obtain ⟨x, hx, rfl⟩ := List.mem_map.1 hq
                  cases hx1 : x.1.holds X M with
                  | true => rfl
                  | false =>
                    have h1 := one_missing (F := out') (fun y hy => by rw [k2 y hy]) hx hx1
                    have h2 := k2 x hx
                    omega
            unfold weakenCount at he
            by_cases h1 : c.maxW ≠ 1
            · rw [decide_eq_true h1, if_pos rfl] at he
              cases hck : chk (s.bound + (c.minW - 1)) with
              | error e => rw [hck] at he; cases he
              | ok b =>
                rw [hck] at he
                have hb' := chk_ok hck
                subst hb'
                simp only [] at he
                cases hph : pushHead k s.m h (fun _ => 1) (c.sumW - (s.bound + (c.minW - 1)) / c.minW) with
                | mk keep y =>
                  obtain ⟨h', m2⟩ := y
                  rw [hph] at he
                  cases he
                  have hm1 := hC.min1
                  have hct := (wsum_const (X := fun _ => false) (M := fun _ => false) hconst).2
                  have hone' : ∀ x ∈ F.map (fun x => (x.1, (1 : Int))), x.2 = 1 := by
                    intro x hx; obtain ⟨y, _, rfl⟩ := List.mem_map.1 hx; rfl
                  have htn := tot_nonneg (out := F.map fun x => (x.1, (1 : Int))) fun x hx => by rw [hone' x hx]; omega
                  have hmul : tot (F.map fun x => (x.1, (1 : Int))) ≤ tot F := by
                    rw [hct]
                    have := Int.mul_le_mul_of_nonneg_right hm1 htn
                    omega
                  have hsw := hC.sum
                  have hbt : (s.bound + (c.minW - 1)) / c.minW < tot (F.map fun x => (x.1, (1 : Int))) := by
                    have : (s.bound + (c.minW - 1)) / c.minW ≤ tot (F.map fun x => (x.1, (1 : Int))) - 1 := by
                      rw [ceil_le hm1, Int.mul_sub, ← hct]; omega
                    omega
                  have hb0 : 0 < (s.bound + (c.minW - 1)) / c.minW := by
                    have : ¬ (s.bound + (c.minW - 1)) / c.minW ≤ 0 := by rw [ceil_le hm1]; omega
                    omega
                  refine hone (by simp [keys, Function.comp_def]) hone' hb0 hbt (by omega) (by omega) (by omega) (fun X M => ?_) hph
                  rw [ceil_le hm1, ← (wsum_const hconst).1]
            · rw [decide_eq_false h1, if_neg (by simp)] at he
              simp only [] at he
              cases hph : pushHead k s.m h (fun _ => 1) (c.sumW - s.bound) with
              | mk keep y =>
                obtain ⟨h', m2⟩ := y
                rw [hph] at he
                cases he
                have hsw := hC.sum
                exact hone rfl (fun x hx => by have := hconst x hx; omega) hb (by have := hC.min1; omega) htot (by omega) (by omega) (fun _ _ => Iff.rfl) hph
          · next hne =>
            cases hph : pushHead k s.m h (fun p => (findW p F).getD 0) (c.sumW - s.bound) with
            | mk keep y =>
              obtain ⟨h', m2⟩ := y
              rw [hph] at he
              cases he
              obtain ⟨p1, p2, p3⟩ := push_sum (X := X) (M := M) (B := .sum F s.bound) hs.hd hmk hph
              have hsw := hC.sum
              refine ⟨p1, fun r hr => ?_, fun hK => ?_⟩
              · split at hr <;> cases hr
                refine ⟨p2, hFn, hb, fun x hx => ?_, (by have := hC.min1; show s.bound < tot F; omega)⟩
                have hx' : x.1 ∈ keys F := List.mem_map.2 ⟨x, hx, rfl⟩
                exact ⟨hC.pos x hx, hC.le hb x hx, hin _ hx', hfr _ hx'⟩
              · refine Iff.trans (ok_body ?_) (p3 hK (by omega) fun ho q hq hqw => ?_)
                · rw [hbody hK hb]; simp [Body.holds]
                · simp only [Body.holds, decide_eq_true_eq] at ho
                  cases hf : findW q F with
                  | none => exact absurd hq (findW_none.1 hf)
                  | some w =>
                    rw [hf] at hqw
                    simp only [Option.getD_some] at hqw
                    have hx := findW_mem hf
                    cases hx1 : q.holds X M with
                    | true => rfl
                    | false =>
                      have h1 := one_missing hC.pos hx hx1
                      simp only [] at h1
                      omega

theorem simplifySum_total {h : Head} {ls : List (BLit × Int)} {bound : Int} (hm : Clean m) (hw : ∀ x ∈ ls, 0 ≤ x.2) (ht : tot ls ≤ wMax) (hb : bound ≤ wMax) :
    ∃ x, simplifySum k m h ls bound = .ok x := by
  have h0 : SInv k ⟨m, [], bound, 1, wMax, 0, 0⟩ := init_inv hm
  obtain ⟨s, hl⟩ := sumLoop_total h0 hw (by simpa using ht) hb
  obtain ⟨hs, hbd, _, _⟩ := sumLoop_spec h0 hw hl
  obtain ⟨F, c, e, hC⟩ := clamped hs
  unfold simplifySum
  rw [hl]
  simp only []
  rw [e]
  simp only []
  split
  · exact ⟨_, rfl⟩
  · split
    · exact ⟨_, rfl⟩
    · split
      · exact ⟨_, rfl⟩
      · split
        · unfold weakenCount
          have h1 := hC.min1
          have h2 := hC.sum
          have h3 := hC.rng
          rw [chk_of (by unfold wMax; omega) (by omega)]
          by_cases h1 : c.maxW ≠ 1
          · rw [decide_eq_true h1]; exact ⟨_, rfl⟩
          · rw [decide_eq_false h1]; exact ⟨_, rfl⟩
        · exact ⟨_, rfl⟩

theorem sumLoop_inv : ∀ {ls : List (BLit × Int)} {s : SumSt}, SInv k s → ∀ {s'}, sumLoop k ls s = .ok s' → SInv k s'
  | [], s, hs, s', h => by cases h; exact hs
  | (p, w) :: ls, s, hs, s', h => by
    unfold sumLoop at h
    split at h
    · cases h; exact hs
    · split at h
      · cases h
      · split at h
        · exact sumLoop_inv hs h
        · cases hv : litVal (k.val p.atom) (!p.neg) with
          | none =>
            rw [hv] at h
            simp only [] at h
            rcases sumFree_spec hs (p := p) (w := w) (by omega) hv with ⟨_, e⟩ | ⟨_, s1, e, i1, _⟩
            · rw [e] at h; cases h
            · rw [e] at h; exact sumLoop_inv i1 h
          | some b =>
            rw [hv] at h
            cases b with
            | false => exact sumLoop_inv hs h
            | true =>
              simp only [] at h
              cases hc : chk (s.bound - w) with
              | error e => rw [hc] at h; cases h
              | ok b =>
                rw [hc] at h
                exact sumLoop_inv (s := { s with bound := b }) ⟨hs.1, hs.2, hs.3, hs.4, hs.5, hs.6, hs.7, hs.8, hs.9, hs.10, hs.11, hs.12⟩ h

theorem simplifySum_ub {h : Head} {ls : List (BLit × Int)} {bound : Int} (hm : Clean m) (hw : ∀ x ∈ ls, x.2 ≤ wMax) (hb : bound ≤ wMax) :
    simplifySum k m h ls bound ≠ .error .ub := by
  have h0 : SInv k ⟨m, [], bound, 1, wMax, 0, 0⟩ := init_inv hm
  have hu := sumLoop_ub h0 hw hb
  unfold simplifySum
  cases hl : sumLoop k ls ⟨m, [], bound, 1, wMax, 0, 0⟩ with
  | error e => rw [hl] at hu; simpa using hu
  | ok s =>
    simp only []
    have hs : SInv k s := sumLoop_inv h0 hl
    obtain ⟨F, c, e, hC⟩ := clamped hs
    rw [e]
    simp only []
    split
    · simp
    · split
      · simp
      · split
        · simp
        · split
          · unfold weakenCount
            have h1 := hC.min1
            have h2 := hC.sum
            have h3 := hC.rng
            rw [chk_of (by unfold wMax; omega) (by omega)]
            by_cases h1 : c.maxW ≠ 1
            · rw [decide_eq_true h1]; simp
            · rw [decide_eq_false h1]; simp
          · simp

end Clasp.Asp.Simp
