import Verif.Heu.Berk
/-!
# Berkmin: helper lemmas

Helper lemmas for `Verif/Heu/BerkProps.lean`.
-/

namespace Clasp.Berk

theorem before_le {s : Bk} {v w : Nat} (h : s.before v w = true) : s.sc w ≤ s.sc v := by
  simp only [Bk.before, Bool.or_eq_true, decide_eq_true_eq, Bool.and_eq_true] at h
  omega

theorem not_before_le {s : Bk} {v w : Nat} (h : ¬ s.before v w = true) : s.sc v ≤ s.sc w := by
  simp only [Bk.before, Bool.or_eq_true, decide_eq_true_eq, Bool.and_eq_true] at h
  omega

theorem mem_ins {s : Bk} {l : List Nat} {v x : Nat} : x ∈ s.ins l v ↔ x = v ∨ x ∈ l := by
  induction l with
  | nil => simp [Bk.ins]
  | cons w t ih =>
    simp only [Bk.ins]
    split
    · simp
    · simp only [List.mem_cons, ih]; grind

/-- Proof device: sorted by activity. -/
def Bk.Sorted (s : Bk) (l : List Nat) : Prop := l.Pairwise fun a b => s.sc b ≤ s.sc a

theorem sorted_ins {s : Bk} {l : List Nat} {v : Nat} (h : s.Sorted l) : s.Sorted (s.ins l v) := by
  induction l with
  | nil => simp [Bk.ins, Bk.Sorted]
  | cons w t ih =>
    obtain ⟨h1, h2⟩ := List.pairwise_cons.1 h
    simp only [Bk.ins]
    split
    · rename_i hb
      have hb := before_le hb
      refine List.pairwise_cons.2 ⟨?_, h⟩
      intro x hx
      rcases List.mem_cons.1 hx with h3 | h3
      · rw [h3]; exact hb
      · exact Nat.le_trans (h1 x h3) hb
    · rename_i hb
      have hb := not_before_le hb
      refine List.pairwise_cons.2 ⟨?_, ih h2⟩
      intro x hx
      rcases mem_ins.1 hx with h3 | h3
      · rw [h3]; exact hb
      · exact h1 x h3

theorem foldl_ins {s : Bk} {l c : List Nat} (h : s.Sorted c) :
    s.Sorted (l.foldl s.ins c) ∧ ∀ x, x ∈ l.foldl s.ins c ↔ x ∈ l ∨ x ∈ c := by
  induction l generalizing c with
  | nil => simp [h]
  | cons v t ih =>
    obtain ⟨h1, h2⟩ := ih (sorted_ins (v := v) h)
    refine ⟨h1, fun x => ?_⟩
    simp only [List.foldl_cons, h2, mem_ins, List.mem_cons]
    grind

/-- Proof device: the cache is sorted, not empty, and everything seen is in it or not better. -/
def Bk.Good (s : Bk) (P : Nat → Prop) (c : List Nat) : Prop :=
  s.Sorted c ∧ c ≠ [] ∧ (∀ x ∈ c, P x) ∧ ∀ w, P w → w ∈ c ∨ ∀ x ∈ c, s.sc w ≤ s.sc x

theorem good_repl {s : Bk} {P : Nat → Prop} {c : List Nat} {v : Nat} (h : s.Good P c) :
    s.Good (fun x => P x ∨ x = v) (s.repl c v) := by
  obtain ⟨h1, h2, h3, h4⟩ := h
  have hlast : c.getLast? = some (c.getLast h2) := List.getLast?_eq_some_getLast h2
  unfold Bk.repl
  rw [hlast]
  have hsplit := List.dropLast_append_getLast h2
  have hmin : ∀ x ∈ c, s.sc (c.getLast h2) ≤ s.sc x := by
    intro x hx
    have hs : s.Sorted (c.dropLast ++ [c.getLast h2]) := by rw [hsplit]; exact h1
    rw [← hsplit] at hx
    rcases List.mem_append.1 hx with h5 | h5
    · exact (List.pairwise_append.1 hs).2.2 x h5 _ (by simp)
    · rw [List.mem_singleton] at h5; exact Nat.le_of_eq (by rw [h5])
  by_cases hb : s.before v (c.getLast h2) = true
  · simp only [hb, if_true]
    have hb' := before_le hb
    refine ⟨sorted_ins ?_, ?_, ?_, ?_⟩
    · exact List.Pairwise.sublist (List.dropLast_sublist c) h1
    · intro hh
      have : v ∈ s.ins c.dropLast v := mem_ins.2 (Or.inl rfl)
      rw [hh] at this; cases this
    · intro x hx
      rcases mem_ins.1 hx with h5 | h5
      · exact Or.inr h5
      · exact Or.inl (h3 x ((List.dropLast_sublist c).subset h5))
    · intro w hw
      have hall : ∀ x ∈ s.ins c.dropLast v, s.sc (c.getLast h2) ≤ s.sc x := by
        intro x hx
        rcases mem_ins.1 hx with h5 | h5
        · rw [h5]; exact hb'
        · exact hmin x ((List.dropLast_sublist c).subset h5)
      rcases hw with hw | hw
      · rcases h4 w hw with h5 | h5
        · rw [← hsplit] at h5
          rcases List.mem_append.1 h5 with h6 | h6
          · exact Or.inl (mem_ins.2 (Or.inr h6))
          · rw [List.mem_singleton] at h6
            right; rw [h6]; exact hall
        · right
          intro x hx
          exact Nat.le_trans (h5 _ (List.getLast_mem h2)) (hall x hx)
      · exact Or.inl (mem_ins.2 (Or.inl hw))
  · simp only [hb]
    have hb' := not_before_le hb
    refine ⟨h1, h2, fun x hx => Or.inl (h3 x hx), ?_⟩
    intro w hw
    rcases hw with hw | hw
    · exact h4 w hw
    · right
      intro x hx
      rw [hw]
      exact Nat.le_trans hb' (hmin x hx)

theorem good_congr {s : Bk} {P Q : Nat → Prop} {c : List Nat} (h : s.Good P c) (hpq : ∀ x, P x ↔ Q x) : s.Good Q c := by
  have : P = Q := funext fun x => propext (hpq x)
  rw [← this]; exact h

theorem good_foldl {s : Bk} {P : Nat → Prop} {l c : List Nat} (h : s.Good P c) :
    s.Good (fun x => P x ∨ x ∈ l) (l.foldl s.repl c) := by
  induction l generalizing c P with
  | nil => exact good_congr h (by simp)
  | cons v t ih =>
    exact good_congr (ih (good_repl (v := v) h)) (fun x => by simp [or_assoc])

theorem mem_range {f n v : Nat} (hf : f ≤ n) : v ∈ Bk.range f n ↔ f ≤ v ∧ v ≤ n := by
  simp only [Bk.range, List.mem_range'_1]
  omega

theorem mem_range' {f n v : Nat} : v ∈ Bk.range f n → f ≤ v ∧ v ≤ n := by
  simp only [Bk.range, List.mem_range'_1]
  omega

/-- everything before `front_` is assigned -/
theorem scan_some {s : Bk} (hf : ∀ v, v < s.front → s.isFree v = false) (h : ∃ v, s.isFree v = true) :
    ∃ f, s.scan = some f ∧ s.isFree f = true ∧ ∀ v, v < f → s.isFree v = false := by
  obtain ⟨v, hv⟩ := h
  have hv1 : 1 ≤ v ∧ v ≤ s.n := by simp [Bk.isFree] at hv; omega
  have hge : s.front ≤ v := by
    by_contra hc
    rw [hf v (by omega)] at hv; cases hv
  have hmem : v ∈ Bk.range s.front s.n := (mem_range (by omega)).2 ⟨hge, hv1.2⟩
  cases hs : s.scan with
  | none =>
    have := List.find?_eq_none.1 hs v hmem
    exact absurd hv this
  | some f =>
    refine ⟨f, rfl, List.find?_some hs, ?_⟩
    intro w hw
    by_contra hc
    have hw1 : 1 ≤ w ∧ w ≤ s.n := by simp [Bk.isFree] at hc; omega
    have hwf : s.front ≤ w := by
      by_contra hh
      exact hc (hf w (by omega))
    obtain ⟨_, as, bs, hab, has⟩ := List.find?_eq_some_iff_append.1 hs
    have hwm : w ∈ Bk.range s.front s.n := (mem_range (by omega)).2 ⟨hwf, hw1.2⟩
    rw [hab] at hwm
    rcases List.mem_append.1 hwm with h1 | h1
    · have := has w h1
      simp at this
      exact hc this
    · have hp : (Bk.range s.front s.n).Pairwise (· < ·) := by
        simp only [Bk.range]; exact List.pairwise_lt_range'
      rw [hab] at hp
      have hp2 := (List.pairwise_append.1 hp).2.1
      rcases List.mem_cons.1 h1 with h2 | h2
      · omega
      · have := (List.pairwise_cons.1 hp2).1 w h2
        omega

theorem free_list {s : Bk} {f : Nat} (hf : s.isFree f = true) (hlt : ∀ v, v < f → s.isFree v = false) :
    (Bk.range f s.n).filter s.isFree = (Bk.range 1 s.n).filter s.isFree := by
  have hf1 : 1 ≤ f ∧ f ≤ s.n := by simp [Bk.isFree] at hf; omega
  have : Bk.range 1 s.n = List.range' 1 (f - 1) ++ Bk.range f s.n := by
    simp only [Bk.range]
    rw [show List.range' f (s.n + 1 - f) = List.range' (1 + (f - 1)) (s.n + 1 - f) by congr 1; omega]
    rw [List.range'_append_1]
    congr 1; omega
  rw [this, List.filter_append]
  have h0 : (List.range' 1 (f - 1)).filter s.isFree = [] := by
    rw [List.filter_eq_nil_iff]
    intro v hv
    rw [List.mem_range'_1] at hv
    rw [hlt v (by omega)]; simp
  rw [h0]; rfl

theorem mem_free {s : Bk} {v : Nat} : v ∈ (Bk.range 1 s.n).filter s.isFree ↔ s.isFree v = true := by
  rw [List.mem_filter]
  constructor
  · exact fun h => h.2
  · intro h
    have h1 : 1 ≤ v ∧ v ≤ s.n := by simp [Bk.isFree] at h; omega
    exact ⟨(mem_range (by omega)).2 h1, h⟩

/-- Proof device: the invariant for the choice of the most active variable. -/
structure Bk.Inv (s : Bk) : Prop where
  front : ∀ v, v < s.front → s.isFree v = false
  csize : 1 ≤ s.csize
  dec : ∀ v, s.dec v ≤ s.decay
  pv : s.pv ≤ s.n
  db : ∀ t c, (t, c) ∈ s.db → ∀ l ∈ c, 1 ≤ l.1 ∧ l.1 ≤ s.n
  cache : s.dirty = false → s.Sorted s.cache ∧
    ∀ w, s.isFree w = true → w ∈ s.cache ∨ ∀ x ∈ s.cache, s.sc w ≤ s.sc x

theorem most_spec {s : Bk} (h : s.Inv) (hf : ∃ v, s.isFree v = true) :
    ∃ v s', s.most = some (v, s') ∧ s.isFree v = true ∧ s'.Inv ∧
      (s.dirty = false → ∀ w, s.isFree w = true → s.sc w ≤ s.sc v) ∧ s'.val = s.val ∧ s'.db = s.db ∧ s'.tc = s.tc ∧
      s'.lim = s.lim ∧ s'.sc = s.sc ∧ s'.fresh = s.fresh := by
  unfold Bk.most
  simp only
  cases hdw : s.cache.dropWhile fun v => !s.isFree v with
  | cons v t =>
    have hv : s.isFree v = true := by
      have := List.head?_dropWhile_not (fun v => !s.isFree v) s.cache
      rw [hdw] at this
      simpa using this
    have hcat := List.takeWhile_append_dropWhile (p := fun v => !s.isFree v) (l := s.cache)
    rw [hdw] at hcat
    have htw : ∀ x ∈ s.cache.takeWhile (fun v => !s.isFree v), s.isFree x = false := by
      intro x hx
      have := List.all_eq_true.1 (List.all_takeWhile (p := fun v => !s.isFree v) (l := s.cache)) x hx
      simpa using this
    have hdw' : List.dropWhile (fun v => !Bk.isFree { s with nv := s.nv + 1 } v) s.cache = v :: t := hdw
    rw [hdw']
    have hkey : s.dirty = false → s.Sorted (v :: t) ∧ ∀ w, s.isFree w = true → w ∈ v :: t ∨ ∀ x ∈ v :: t, s.sc w ≤ s.sc x := by
      intro hd
      obtain ⟨c1, c2⟩ := h.cache hd
      refine ⟨?_, ?_⟩
      · rw [← hcat] at c1
        exact (List.pairwise_append.1 c1).2.1
      · intro w hw
        rcases c2 w hw with h1 | h1
        · rw [← hcat] at h1
          rcases List.mem_append.1 h1 with h2 | h2
          · rw [htw w h2] at hw; cases hw
          · exact Or.inl h2
        · right
          intro x hx
          exact h1 x (by rw [← hcat]; exact List.mem_append_right _ hx)
    refine ⟨v, _, rfl, hv, ⟨h.front, h.csize, h.dec, h.pv, h.db, hkey⟩, ?_, rfl, rfl, rfl, rfl, rfl, rfl⟩
    intro hd w hw
    obtain ⟨k1, k2⟩ := hkey hd
    rcases k2 w hw with h1 | h1
    · rcases List.mem_cons.1 h1 with h2 | h2
      · exact Nat.le_of_eq (by rw [h2])
      · exact (List.pairwise_cons.1 k1).1 w h2
    · exact h1 v (by simp)
  | nil =>
    have hdw' : List.dropWhile (fun v => !Bk.isFree { s with nv := s.nv + 1 } v) s.cache = [] := hdw
    rw [hdw']
    simp only
    obtain ⟨cz, hcz⟩ : ∃ cz, (if (s.filled && decide (s.csize < Bk.numFree { s with nv := s.nv + 1 } / 10)) = true then 2 * s.csize else s.csize) = cz := ⟨_, rfl⟩
    rw [hcz]
    have hcz1 : 1 ≤ cz := by
      have := h.csize
      rw [← hcz]; split <;> omega
    obtain ⟨f, hsc, hff, hlt⟩ := scan_some h.front hf
    have hsc' : Bk.scan { s with nv := s.nv + 1 } = some f := hsc
    rw [hsc']
    have hfl := free_list hff hlt
    have hfl' : List.filter (Bk.isFree { s with nv := s.nv + 1 }) (Bk.range f s.n) = (Bk.range 1 s.n).filter s.isFree := hfl
    have hnf : Bk.numFree { s with nv := s.nv + 1 } = ((Bk.range 1 s.n).filter s.isFree).length := rfl
    simp only [hfl', hnf]
    obtain ⟨F, hF⟩ : ∃ F, (Bk.range 1 s.n).filter s.isFree = F := ⟨_, rfl⟩
    rw [hF]
    have hmF : ∀ x, x ∈ F ↔ s.isFree x = true := fun x => by rw [← hF]; exact mem_free
    have hF1 : 1 ≤ F.length := by
      have : f ∈ F := (hmF f).2 hff
      exact List.length_pos_of_mem this
    rw [if_neg (by omega)]
    have hins : Bk.ins { s with nv := s.nv + 1 } = s.ins := by
      funext l v
      induction l with
      | nil => rfl
      | cons w t ih => simp only [Bk.ins, ih]; rfl
    have hrepl : Bk.repl { s with nv := s.nv + 1 } = s.repl := by
      funext l v
      simp only [Bk.repl, hins]
      rfl
    rw [hins, hrepl]
    obtain ⟨i1, i2⟩ := foldl_ins (s := s) (l := F.take (min cz F.length)) (c := []) (by simp [Bk.Sorted])
    have hg0 : s.Good (fun x => x ∈ F.take (min cz F.length)) ((F.take (min cz F.length)).foldl s.ins []) := by
      refine ⟨i1, ?_, fun x hx => by simpa using (i2 x).1 hx, fun w hw => Or.inl ((i2 w).2 (Or.inl hw))⟩
      intro hh
      have hne : F.take (min cz F.length) ≠ [] := by
        intro h0
        have := congrArg List.length h0
        rw [List.length_take, List.length_nil] at this
        omega
      obtain ⟨x, hx⟩ := List.exists_mem_of_ne_nil _ hne
      have := (i2 x).2 (Or.inl hx)
      rw [hh] at this; cases this
    have hg : s.Good (fun x => x ∈ F) (if min cz F.length = cz then (F.drop (min cz F.length)).foldl s.repl ((F.take (min cz F.length)).foldl s.ins [])
        else (F.take (min cz F.length)).foldl s.ins []) := by
      by_cases hm : min cz F.length = cz
      · rw [if_pos hm]
        refine good_congr (good_foldl hg0) fun x => ?_
        rw [← List.mem_append, List.take_append_drop]
      · rw [if_neg hm]
        have : min cz F.length = F.length := by omega
        rw [this] at hg0 ⊢
        rw [List.take_length] at hg0 ⊢
        exact hg0
    obtain ⟨C, hC⟩ : ∃ C, (if min cz F.length = cz then (F.drop (min cz F.length)).foldl s.repl ((F.take (min cz F.length)).foldl s.ins [])
        else (F.take (min cz F.length)).foldl s.ins []) = C := ⟨_, rfl⟩
    rw [hC] at hg ⊢
    obtain ⟨g1, g2, g3, g4⟩ := hg
    cases C with
    | nil => exact absurd rfl g2
    | cons v t =>
      refine ⟨v, _, rfl, (hmF v).1 (g3 v (by simp)), ⟨hlt, hcz1, h.dec, h.pv, h.db, fun _ => ⟨g1, fun w hw => g4 w ((hmF w).2 hw)⟩⟩, ?_, rfl, rfl,
        rfl, rfl, rfl, rfl⟩
      intro _ w hw
      rcases g4 w ((hmF w).2 hw) with h1 | h1
      · rcases List.mem_cons.1 h1 with h2 | h2
        · exact Nat.le_of_eq (by rw [h2])
        · exact (List.pairwise_cons.1 g1).1 w h2
      · exact h1 v (by simp)

theorem best_spec {mo : Nat → Nat} {v : Nat} {l : List Nat} :
    (best mo v l = v ∨ best mo v l ∈ l) ∧ mo v ≤ mo (best mo v l) ∧ ∀ w ∈ l, mo w ≤ mo (best mo v l) := by
  induction l generalizing v with
  | nil => simp [best]
  | cons w t ih =>
    have e : best mo v (w :: t) = best mo (if mo v < mo w then w else v) t := rfl
    rw [e]
    obtain ⟨h1, h2, h3⟩ := ih (v := if mo v < mo w then w else v)
    by_cases hm : mo v < mo w
    · rw [if_pos hm] at h1 h2 h3 ⊢
      refine ⟨Or.inr (by rcases h1 with h | h <;> simp [h]), by omega, ?_⟩
      intro x hx
      rcases List.mem_cons.1 hx with h4 | h4
      · rw [h4]; exact h2
      · exact h3 x h4
    · rw [if_neg hm] at h1 h2 h3 ⊢
      refine ⟨by rcases h1 with h | h <;> simp [h], h2, ?_⟩
      intro x hx
      rcases List.mem_cons.1 hx with h4 | h4
      · rw [h4]; omega
      · exact h3 x h4

theorem moms_spec {s : Bk} (h : s.Inv) (mo : Nat → Nat) (hf : ∃ v, s.isFree v = true) :
    ∃ v s', s.moms mo = some (v, s') ∧ s.isFree v = true ∧ s'.Inv ∧
      (∀ w, s.isFree w = true → w ≤ s.pv → mo w ≤ mo v) ∧ s'.val = s.val ∧ s'.db = s.db ∧ s'.tc = s.tc ∧
      s'.lim = s.lim ∧ s'.sc = s.sc ∧ s'.fresh = s.fresh := by
  obtain ⟨f, hsc, hff, hlt⟩ := scan_some h.front hf
  unfold Bk.moms
  rw [hsc]
  obtain ⟨b1, b2, b3⟩ := best_spec (mo := mo) (v := f) (l := (Bk.range (f + 1) s.pv).filter s.isFree)
  refine ⟨_, _, rfl, ?_, ⟨hlt, h.csize, h.dec, h.pv, h.db, h.cache⟩, ?_, rfl, rfl, rfl, rfl, rfl, rfl⟩
  · rcases b1 with h1 | h1
    · rw [h1]; exact hff
    · exact (List.mem_filter.1 h1).2
  · intro w hw hp
    rcases Nat.lt_trichotomy w f with h1 | h1 | h1
    · rw [hlt w h1] at hw; cases hw
    · rw [h1]; exact b2
    · exact b3 w (List.mem_filter.2 ⟨(mem_range (by omega)).2 ⟨h1, hp⟩, hw⟩)

theorem sc_decay {s : Bk} (h : ∀ v, s.dec v ≤ s.decay) (dk : Bool) {v w : Nat} (hle : s.sc v ≤ s.sc w) :
    (s.decayStep dk).sc v ≤ (s.decayStep dk).sc w := by
  have key : ∀ k, s.act v >>> (s.decay + k - s.dec v) ≤ s.act w >>> (s.decay + k - s.dec w) := by
    intro k
    have h1 := h v
    have h2 := h w
    rw [show s.decay + k - s.dec v = (s.decay - s.dec v) + k by omega,
      show s.decay + k - s.dec w = (s.decay - s.dec w) + k by omega, Nat.shiftRight_add, Nat.shiftRight_add]
    rw [Nat.shiftRight_eq_div_pow _ k, Nat.shiftRight_eq_div_pow _ k]
    exact Nat.div_le_div_right hle
  unfold Bk.decayStep
  by_cases hd : dk = true
  · rw [if_pos hd]
    simp only
    obtain ⟨k, hk⟩ : ∃ k, (if s.huang then 1 else 2) = k := ⟨_, rfl⟩
    rw [hk]
    have hk := key k
    split
    · simpa [Bk.sc, Bk.resetDecay] using hk
    · simpa [Bk.sc] using hk
  · rw [if_neg hd]; exact hle

theorem decay_fields (s : Bk) (dk : Bool) : (s.decayStep dk).n = s.n ∧ (s.decayStep dk).pv = s.pv ∧ (s.decayStep dk).val = s.val ∧
    (s.decayStep dk).db = s.db ∧ (s.decayStep dk).front = s.front ∧ (s.decayStep dk).csize = s.csize ∧ (s.decayStep dk).cache = s.cache ∧
    (s.decayStep dk).dirty = s.dirty ∧ (s.decayStep dk).tc = s.tc ∧ (s.decayStep dk).lim = s.lim ∧ (s.decayStep dk).maxB = s.maxB := by
  unfold Bk.decayStep
  by_cases hd : dk = true
  · rw [if_pos hd]
    simp only
    obtain ⟨k, hk⟩ : ∃ k, (if s.huang then 1 else 2) = k := ⟨_, rfl⟩
    rw [hk]
    split <;> simp [Bk.resetDecay]
  · rw [if_neg hd]; simp

theorem decay_fresh (s : Bk) (dk : Bool) : (s.decayStep dk).fresh = s.fresh := by
  unfold Bk.decayStep
  by_cases hd : dk = true
  · rw [if_pos hd]
    simp only
    obtain ⟨k, hk⟩ : ∃ k, (if s.huang then 1 else 2) = k := ⟨_, rfl⟩
    rw [hk]
    split <;> simp [Bk.resetDecay]
  · rw [if_neg hd]

theorem decay_isFree (s : Bk) (dk : Bool) : (s.decayStep dk).isFree = s.isFree := by
  obtain ⟨h1, _, h3, _⟩ := decay_fields s dk
  funext v
  simp only [Bk.isFree, h1, h3]

theorem decay_inv {s : Bk} (h : s.Inv) (dk : Bool) : (s.decayStep dk).Inv := by
  obtain ⟨e1, e2, e3, e4, e5, e6, e7, e8, e9, e10, _⟩ := decay_fields s dk
  refine ⟨?_, ?_, ?_, ?_, ?_, ?_⟩
  · rw [decay_isFree, e5]; exact h.front
  · rw [e6]; exact h.csize
  · have := h.dec
    unfold Bk.decayStep
    by_cases hd : dk = true
    · rw [if_pos hd]
      simp only
      obtain ⟨k, hk⟩ : ∃ k, (if s.huang then 1 else 2) = k := ⟨_, rfl⟩
      rw [hk]
      split
      · simp [Bk.resetDecay]
      · intro v; have := this v; simp only; omega
    · rw [if_neg hd]; exact this
  · rw [e1, e2]; exact h.pv
  · rw [e4, e1]; exact h.db
  · rw [e8, e7, decay_isFree]
    intro hd
    obtain ⟨c1, c2⟩ := h.cache hd
    refine ⟨List.Pairwise.imp (fun hab => sc_decay h.dec dk hab) c1, fun w hw => ?_⟩
    rcases c2 w hw with h1 | h1
    · exact Or.inl h1
    · exact Or.inr fun x hx => sc_decay h.dec dk (h1 x hx)

theorem top_fields (s : Bk) : s.top.2.n = s.n ∧ s.top.2.pv = s.pv ∧ s.top.2.val = s.val ∧ s.top.2.db = s.db ∧ s.top.2.isFree = s.isFree ∧
    s.top.2.sc = s.sc ∧ s.top.2.dirty = s.dirty ∧ s.top.2.maxB = s.maxB := by
  refine ⟨rfl, rfl, rfl, rfl, rfl, rfl, rfl, rfl⟩

theorem top_inv {s : Bk} (h : s.Inv) : s.top.2.Inv :=
  ⟨h.front, h.csize, h.dec, h.pv, h.db, h.cache⟩

theorem rangeLoop_spec {s : Bk} {mo : Nat → Nat} {P : Lit → Prop} {t : List Lit} :
    ∀ {c0 : Lit} {c : List Lit} {ms : Option Nat},
      (∀ x ∈ c0 :: c, P x ∧ s.sc x.1 = s.sc c0.1 ∧ mo x.1 = mo c0.1) →
      (∀ p, P p → s.sc p.1 ≤ s.sc c0.1 ∧ (s.sc p.1 = s.sc c0.1 → mo p.1 ≤ mo c0.1)) →
      (∀ m, ms = some m → m = mo c0.1) →
      s.rangeLoop mo (c0 :: c) t ms ≠ [] ∧ ∀ x ∈ s.rangeLoop mo (c0 :: c) t ms, (P x ∨ x ∈ t) ∧
        ∀ p, P p ∨ p ∈ t → s.sc p.1 ≤ s.sc x.1 ∧ (s.sc p.1 = s.sc x.1 → mo p.1 ≤ mo x.1) := by
  induction t generalizing P with
  | nil =>
    intro c0 c ms h1 h2 _
    simp only [Bk.rangeLoop, List.not_mem_nil, or_false]
    refine ⟨by simp, fun x hx => ⟨(h1 x hx).1, fun p hp => ?_⟩⟩
    obtain ⟨_, e1, e2⟩ := h1 x hx
    rw [e1, e2]; exact h2 p hp
  | cons l t ih =>
    intro c0 c ms h1 h2 h3
    have hPQ : ∀ x, ((P x ∨ x = l) ∨ x ∈ t) ↔ (P x ∨ x ∈ l :: t) := fun x => by simp [or_assoc]
    have fin : ∀ {c0' : Lit} {c' : List Lit} {ms' : Option Nat},
        (∀ x ∈ c0' :: c', (P x ∨ x = l) ∧ s.sc x.1 = s.sc c0'.1 ∧ mo x.1 = mo c0'.1) →
        (∀ p, (P p ∨ p = l) → s.sc p.1 ≤ s.sc c0'.1 ∧ (s.sc p.1 = s.sc c0'.1 → mo p.1 ≤ mo c0'.1)) →
        (∀ m, ms' = some m → m = mo c0'.1) →
        s.rangeLoop mo (c0' :: c') t ms' ≠ [] ∧ ∀ x ∈ s.rangeLoop mo (c0' :: c') t ms', (P x ∨ x ∈ l :: t) ∧
          ∀ p, P p ∨ p ∈ l :: t → s.sc p.1 ≤ s.sc x.1 ∧ (s.sc p.1 = s.sc x.1 → mo p.1 ≤ mo x.1) := by
      intro c0' c' ms' a b d
      obtain ⟨r1, r2⟩ := ih (P := fun x => P x ∨ x = l) a b d
      refine ⟨r1, fun x hx => ⟨(hPQ x).1 (r2 x hx).1, fun p hp => (r2 x hx).2 p ((hPQ p).2 hp)⟩⟩
    have hm : ms.getD (mo c0.1) = mo c0.1 := by
      cases ms with
      | none => rfl
      | some m => exact h3 m rfl
    simp only [Bk.rangeLoop, hm]
    by_cases ha : s.sc c0.1 < s.sc l.1
    · rw [if_pos ha]
      refine fin (by simp) ?_ (by simp)
      rintro p (hp | hp)
      · have := (h2 p hp).1
        exact ⟨by omega, fun _ => by omega⟩
      · rw [hp]; simp
    · rw [if_neg ha]
      by_cases hb : s.sc l.1 = s.sc c0.1
      · rw [if_pos hb]
        by_cases hc : mo c0.1 < mo l.1
        · rw [if_pos hc]
          refine fin (by simp) ?_ (by simp)
          rintro p (hp | hp)
          · have := h2 p hp
            exact ⟨by omega, fun hh => by have := this.2 (by omega); omega⟩
          · rw [hp]; simp
        · rw [if_neg hc]
          have h2' : ∀ p, (P p ∨ p = l) → s.sc p.1 ≤ s.sc c0.1 ∧ (s.sc p.1 = s.sc c0.1 → mo p.1 ≤ mo c0.1) := by
            rintro p (hp | hp)
            · exact h2 p hp
            · rw [hp]; exact ⟨by omega, fun _ => by omega⟩
          by_cases hd : mo l.1 = mo c0.1 ∧ c.length + 1 ≠ 5
          · rw [if_pos hd]
            refine fin ?_ h2' (by simp)
            intro x hx
            have hx : x ∈ (c0 :: c) ++ [l] := hx
            rw [List.mem_append] at hx
            rcases hx with hx | hx
            · exact ⟨Or.inl (h1 x hx).1, (h1 x hx).2⟩
            · rw [List.mem_singleton] at hx
              rw [hx]; exact ⟨Or.inr rfl, hb, hd.1⟩
          · rw [if_neg hd]
            exact fin (fun x hx => ⟨Or.inl (h1 x hx).1, (h1 x hx).2⟩) h2' (by simp)
      · rw [if_neg hb]
        refine fin (fun x hx => ⟨Or.inl (h1 x hx).1, (h1 x hx).2⟩) ?_ h3
        rintro p (hp | hp)
        · exact h2 p hp
        · rw [hp]; exact ⟨by omega, fun _ => by omega⟩

theorem selRange_spec {s : Bk} {mo : Nat → Nat} {rnd : Nat} {l : List Lit} (hl : l ≠ []) :
    ∃ x, s.selRange mo rnd l = some x ∧ x ∈ l ∧ ∀ p ∈ l, s.sc p.1 ≤ s.sc x.1 ∧ (s.sc p.1 = s.sc x.1 → mo p.1 ≤ mo x.1) := by
  cases l with
  | nil => exact absurd rfl hl
  | cons a t =>
    obtain ⟨r1, r2⟩ := rangeLoop_spec (s := s) (mo := mo) (P := fun x => x = a) (t := t) (c0 := a) (c := []) (ms := none)
      (by simp) (by simp) (by simp)
    have hlen := List.length_pos_iff.2 r1
    have hlt : rnd % (s.rangeLoop mo [a] t none).length < (s.rangeLoop mo [a] t none).length := Nat.mod_lt _ hlen
    refine ⟨(s.rangeLoop mo [a] t none)[rnd % (s.rangeLoop mo [a] t none).length], ?_, ?_⟩
    · simp only [Bk.selRange]
      exact List.getElem?_eq_getElem hlt
    · obtain ⟨q1, q2⟩ := r2 _ (List.getElem_mem hlt)
      exact ⟨List.mem_cons.2 q1, fun p hp => q2 p (List.mem_cons.1 hp)⟩

/-- Proof device: the literals are the free ones of an open nogood at position `i`. -/
def Bk.At (s : Bk) (i : Nat) (l : List Lit) : Prop :=
  ∃ t c, s.db[i]? = some (t, c) ∧ (t = .conflict ∨ s.want t = true) ∧ s.isOpen c = some l

theorem findOther_spec {s : Bk} {tc k : Nat} : (s.findOther tc k).2 = [] ∨
    ∃ i, (s.findOther tc k).1 = i + 1 ∧ s.At i (s.findOther tc k).2 := by
  induction k with
  | zero => left; rfl
  | succ k ih =>
    simp only [Bk.findOther]
    cases hd : s.db[tc + k]? with
    | none => left; rfl
    | some p =>
      obtain ⟨t, c⟩ := p
      simp only
      by_cases hw : s.want t = true
      · simp only [hw, if_true]
        cases ho : s.isOpen c with
        | none => simpa using ih
        | some l => exact Or.inr ⟨tc + k, rfl, t, c, hd, Or.inr hw, ho⟩
      · simpa [hw] using ih

/-- Proof device: the conflict nogoods from `a` to below `b` contain true literals. -/
def Bk.Sat (s : Bk) (a b : Nat) : Prop := ∀ j c, a ≤ j → j < b → s.db[j]? = some (Ty.conflict, c) → c.any s.isTrue = true

theorem findConf_spec {s : Bk} {k : Nat} : ∀ {tc : Nat} {o : Option (Nat × List Lit)}, tc ≤ s.db.length →
    (∀ p, o = some p → ∃ i, p.1 = i + 1 ∧ s.At i p.2) →
    (s.findConf tc k o).1 ≤ tc ∧ s.Sat (s.findConf tc k o).1 tc ∧
    (∀ p, (s.findConf tc k o).2.2 = some p → ∃ i, p.1 = i + 1 ∧ s.At i p.2) ∧
    ((∃ i c, (s.findConf tc k o).1 = i + 1 ∧ s.db[i]? = some (Ty.conflict, c) ∧ s.isOpen c = some (s.findConf tc k o).2.1) ∨ ((s.findConf tc k o).2.1 = [] ∧ (s.findConf tc k o).1 = tc - k)) := by
  induction k with
  | zero =>
    intro tc o _ ho
    have e : s.findConf tc 0 o = (tc, [], o) := by cases tc <;> rfl
    rw [e]
    exact ⟨Nat.le_refl _, fun j c h1 h2 => by simp only at h1; omega, ho, Or.inr ⟨rfl, rfl⟩⟩
  | succ k ih =>
    intro tc o hlen ho
    cases tc with
    | zero => exact ⟨Nat.le_refl _, fun j c h1 h2 => by omega, ho, Or.inr ⟨rfl, by simp [Bk.findConf]⟩⟩
    | succ tc =>
      have hlt : tc < s.db.length := by omega
      simp only [Bk.findConf]
      rw [List.getElem?_eq_getElem hlt]
      have hd := List.getElem?_eq_getElem hlt
      obtain ⟨p, hp⟩ : ∃ p, s.db[tc] = p := ⟨_, rfl⟩
      rw [hp] at hd ⊢
      obtain ⟨t, c⟩ := p
      simp only
      have go : ∀ {o'}, (∀ p, o' = some p → ∃ i, p.1 = i + 1 ∧ s.At i p.2) → (t = .conflict → c.any s.isTrue = true) →
          (s.findConf tc k o').1 ≤ tc + 1 ∧ s.Sat (s.findConf tc k o').1 (tc + 1) ∧
          (∀ p, (s.findConf tc k o').2.2 = some p → ∃ i, p.1 = i + 1 ∧ s.At i p.2) ∧
          ((∃ i c, (s.findConf tc k o').1 = i + 1 ∧ s.db[i]? = some (Ty.conflict, c) ∧ s.isOpen c = some (s.findConf tc k o').2.1) ∨ ((s.findConf tc k o').2.1 = [] ∧ (s.findConf tc k o').1 = tc + 1 - (k + 1))) := by
        intro o' ho' hc
        obtain ⟨i1, i2, i3, i5⟩ := ih (tc := tc) (o := o') (by omega) ho'
        refine ⟨by omega, ?_, i3, ?_⟩
        · intro j cj hj1 hj2 hj3
          by_cases hj : j = tc
          · rw [hj, hd] at hj3
            injection hj3 with hj3
            injection hj3 with e1 e2
            rw [← e2]; exact hc e1
          · exact i2 j cj hj1 (by omega) hj3
        · rw [Nat.add_sub_add_right]; exact i5
      by_cases hw : t = .conflict ∨ (o = none ∧ s.want t = true)
      · rw [if_pos hw]
        cases hop : s.isOpen c with
        | none =>
          refine go ho fun _ => ?_
          unfold Bk.isOpen at hop
          by_contra hcc
          rw [if_neg hcc] at hop; cases hop
        | some l =>
          simp only
          by_cases ht : t = .conflict
          · rw [if_pos ht]
            subst ht
            exact ⟨Nat.le_refl _, fun j c h1 h2 => by simp only at h1; omega, ho, Or.inl ⟨tc, c, rfl, hd, hop⟩⟩
          · rw [if_neg ht]
            refine go ?_ fun h => absurd h ht
            intro p hpp
            injection hpp with hpp
            rw [← hpp]
            refine ⟨tc, rfl, t, c, hd, ?_, hop⟩
            rcases hw with h | h
            · exact Or.inl h
            · exact Or.inr h.2
      · rw [if_neg hw]
        exact go ho fun h => absurd (Or.inl h) hw

end Clasp.Berk
