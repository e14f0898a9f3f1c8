import Verif.Heu.Dom
/-!
# Model of the table of heuristic modifications

`DomainTable::simplify` (src/shared_context.cpp): entries for the same variable and condition are merged. Modifications of type `Init` are left out.
-/

namespace Clasp.Dom

/-- clasp/literal.h:107 `Literal::id` of a condition, with 0 for `lit_true`; by it conditions are compared (clasp/literal.h:149). -/
def condId : Option DLit → Nat
  | none => 0
  | some (v, b) => 2 * v + (if b then 0 else 1)

/-- clasp/shared_context.h:583-585 `cmp`, with roles exchanged and negated: `a` need not come after `b`. -/
def DomEntry.le (a b : DomEntry) : Bool := decide (condId a.cond < condId b.cond ∨ condId a.cond = condId b.cond ∧ a.v ≤ b.v)

/-- src/shared_context.cpp:663 `std::stable_sort`: one element is put before the first one that is not smaller. -/
def insEntry (e : DomEntry) : List DomEntry → List DomEntry
  | [] => [e]
  | f :: l => if e.le f then e :: f :: l else f :: insEntry e l

/-- src/shared_context.cpp:663 `std::stable_sort` (all stable sorts have the same result). -/
def sortEntries (es : List DomEntry) : List DomEntry := es.foldr insEntry []

/-- src/shared_context.cpp:665-668: maximal runs of entries with the same variable and condition. -/
def runs : List DomEntry → List (List DomEntry)
  | [] => []
  | e :: es =>
    match runs es with
    | (f :: g) :: r => if f.v = e.v ∧ f.cond = e.cond then (e :: f :: g) :: r else [e] :: (f :: g) :: r
    | r => [e] :: r

/-- src/shared_context.cpp:676 `NO_BIAS`. -/
def noBias : Int := 32767

/-- src/shared_context.cpp:680-683 (and 685-692 for the parts of a combined modification): a modification replaces one that does not have a higher priority. -/
def upd1 (b : Mod → Nat × Int) (m : Mod) (p : Nat) (x : Int) : Mod → Nat × Int := if (b m).1 ≤ p then fun k => if k = m then (p, x) else b k else b

/-- src/shared_context.cpp:679-694: one entry of a run. -/
def mergeEntry (b : Mod → Nat × Int) (e : DomEntry) : Mod → Nat × Int :=
  match e.k with
  | .level => upd1 b .level e.prio e.bias
  | .sign => upd1 b .sign e.prio e.bias
  | .factor => upd1 b .factor e.prio e.bias
  | .tru => upd1 (upd1 b .level e.prio e.bias) .sign e.prio 1
  | .fls => upd1 (upd1 b .level e.prio e.bias) .sign e.prio (-1)

/-- src/shared_context.cpp:701-703: a modification is kept unless its bias is `NO_BIAS`. -/
def keepOne (v : Nat) (c : Option DLit) (k : DomKind) (x : Nat × Int) : List DomEntry := if x.2 ≠ noBias then [⟨v, k, x.2, x.1, c⟩] else []

/-- src/shared_context.cpp:695-705: the merged entries. -/
def mergeOut (v : Nat) (c : Option DLit) (b : Mod → Nat × Int) : List DomEntry :=
  (if (b .level).2 ≠ noBias ∧ (b .sign).2 ≠ noBias ∧ (b .sign).2 ≠ 0 ∧ (b .level).1 = (b .sign).1 then [⟨v, if 0 < (b .sign).2 then .tru else .fls, (b .level).2, (b .level).1, c⟩]
    else keepOne v c .level (b .level) ++ keepOne v c .sign (b .sign)) ++ keepOne v c .factor (b .factor)

/-- src/shared_context.cpp:669-706: a run is replaced by the merged entries. -/
def mergeRun : List DomEntry → List DomEntry
  | [] => []
  | [e] => [e]
  | e :: f :: g => mergeOut e.v e.cond ((e :: f :: g).foldl mergeEntry fun _ => (0, noBias))

/-- src/shared_context.cpp:661-713 `simplify` on the new entries. -/
def simplify (es : List DomEntry) : List DomEntry := (runs (sortEntries es)).flatMap mergeRun

/-! ## Lemmas -/

/-- Specification: the wishes of some entries. -/
def wishesOf (es : List DomEntry) : List Wish := es.flatMap DomEntry.wishes

theorem mem_insEntry (e x : DomEntry) : ∀ l, x ∈ insEntry e l ↔ x = e ∨ x ∈ l
  | [] => by simp [insEntry]
  | f :: l => by
    unfold insEntry
    split_ifs
    · simp
    · rw [List.mem_cons, mem_insEntry e x l, List.mem_cons]; tauto

theorem mem_sortEntries (x : DomEntry) : ∀ es, x ∈ sortEntries es ↔ x ∈ es
  | [] => by simp [sortEntries]
  | e :: es => by
    show x ∈ insEntry e (sortEntries es) ↔ _
    rw [mem_insEntry, mem_sortEntries x es, List.mem_cons]

theorem runs_ok : ∀ es : List DomEntry, (runs es).flatten = es ∧ ∀ g ∈ runs es, ∃ e l, g = e :: l ∧ ∀ f ∈ l, f.v = e.v ∧ f.cond = e.cond
  | [] => ⟨rfl, fun g hg => nomatch hg⟩
  | e :: es => by
    obtain ⟨h1, h2⟩ := runs_ok es
    unfold runs
    split
    · rename_i f g r hr
      rw [hr] at h1 h2
      split_ifs with hc
      · refine ⟨by rw [← h1]; simp, fun g' hg' => ?_⟩
        rcases List.mem_cons.1 hg' with rfl | hg'
        · obtain ⟨e', l', h3, h4⟩ := h2 (f :: g) (by simp)
          cases h3
          refine ⟨e, f :: g, rfl, fun x hx => ?_⟩
          rcases List.mem_cons.1 hx with rfl | hx
          · exact hc
          · have := h4 x hx; exact ⟨this.1.trans hc.1, this.2.trans hc.2⟩
        · exact h2 g' (List.mem_cons_of_mem _ hg')
      · refine ⟨by rw [← h1]; simp, fun g' hg' => ?_⟩
        rcases List.mem_cons.1 hg' with rfl | hg'
        · exact ⟨e, [], rfl, fun x hx => nomatch hx⟩
        · exact h2 g' hg'
    · refine ⟨by rw [List.flatten_cons, h1]; rfl, fun g' hg' => ?_⟩
      rcases List.mem_cons.1 hg' with rfl | hg'
      · exact ⟨e, [], rfl, fun x hx => nomatch hx⟩
      · exact h2 g' hg'

/-- Proof device: what a bias means. -/
def nrm (m : Mod) (x : Int) : Int := match m with
  | .sign => signVal x
  | _ => x

/-- Proof device: `b` has the best wishes of `W`. -/
def Best (b : Mod → Nat × Int) (W : List Wish) : Prop :=
  ∀ m, (b m = (0, noBias) ∧ ∀ d ∈ W, d.m ≠ m) ∨ ((∃ d ∈ W, d.m = m ∧ d.prio = (b m).1 ∧ d.val = nrm m (b m).2) ∧ ∀ d ∈ W, d.m = m → d.prio ≤ (b m).1)

theorem best_upd {b : Mod → Nat × Int} {W : List Wish} (h : Best b W) (m : Mod) (p : Nat) (x : Int) (d0 : Wish) (hm : d0.m = m) (hp : d0.prio = p) (hv : d0.val = nrm m x) : Best (upd1 b m p x) (W ++ [d0]) := by
  intro k
  unfold upd1
  by_cases hk : k = m
  · subst hk
    by_cases hle : (b k).1 ≤ p
    · rw [if_pos hle]
      simp only [if_true]
      refine Or.inr ⟨⟨d0, by simp, hm, hp, hv⟩, fun d hd hdm => ?_⟩
      rcases List.mem_append.1 hd with hd | hd
      · rcases h k with ⟨_, h1⟩ | ⟨_, h1⟩
        · exact absurd hdm (h1 d hd)
        · exact Nat.le_trans (h1 d hd hdm) hle
      · rw [List.mem_singleton.1 hd, hp]; exact Nat.le_refl _
    · rw [if_neg hle]
      rcases h k with ⟨h1, _⟩ | ⟨⟨d, h1, h2⟩, h3⟩
      · rw [h1] at hle; exact absurd (Nat.zero_le _) hle
      · refine Or.inr ⟨⟨d, List.mem_append_left _ h1, h2⟩, fun d' hd' hdm => ?_⟩
        rcases List.mem_append.1 hd' with hd' | hd'
        · exact h3 d' hd' hdm
        · rw [List.mem_singleton.1 hd', hp]; omega
  · have e : (if (b m).1 ≤ p then fun k => if k = m then (p, x) else b k else b) k = b k := by
      split_ifs <;> simp [hk]
    rw [e]
    rcases h k with ⟨h1, h2⟩ | ⟨⟨d, h1, h2⟩, h3⟩
    · refine Or.inl ⟨h1, fun d hd => ?_⟩
      rcases List.mem_append.1 hd with hd | hd
      · exact h2 d hd
      · rw [List.mem_singleton.1 hd, hm]; exact fun e => hk e.symm
    · refine Or.inr ⟨⟨d, List.mem_append_left _ h1, h2⟩, fun d' hd' hdm => ?_⟩
      rcases List.mem_append.1 hd' with hd' | hd'
      · exact h3 d' hd' hdm
      · rw [List.mem_singleton.1 hd', hm] at hdm; exact absurd hdm.symm hk

theorem best_entry {b : Mod → Nat × Int} {W : List Wish} (h : Best b W) (e : DomEntry) : Best (mergeEntry b e) (W ++ e.wishes) := by
  obtain ⟨v, k, x, p, c⟩ := e
  cases k with
  | level => exact best_upd h .level p x _ rfl rfl rfl
  | sign => exact best_upd h .sign p x _ rfl rfl rfl
  | factor => exact best_upd h .factor p x _ rfl rfl rfl
  | tru =>
    have := best_upd (best_upd h .level p x ⟨v, .level, x, p, c⟩ rfl rfl rfl) .sign p 1 ⟨v, .sign, 1, p, c⟩ rfl rfl rfl
    rw [List.append_assoc] at this
    exact this
  | fls =>
    have := best_upd (best_upd h .level p x ⟨v, .level, x, p, c⟩ rfl rfl rfl) .sign p (-1) ⟨v, .sign, 2, p, c⟩ rfl rfl rfl
    rw [List.append_assoc] at this
    exact this

theorem best_run : ∀ (g : List DomEntry) (b : Mod → Nat × Int) (W : List Wish), Best b W → Best (g.foldl mergeEntry b) (W ++ wishesOf g)
  | [], b, W, h => by simpa [wishesOf] using h
  | e :: g, b, W, h => by
    have := best_run g _ _ (best_entry h e)
    rw [List.append_assoc] at this
    exact this

/-- Proof device: no bias in the table is `NO_BIAS`, except for modifications without wishes. -/
def Known (b : Mod → Nat × Int) (W : List Wish) : Prop := ∀ m, (b m = (0, noBias) ∧ ∀ d ∈ W, d.m ≠ m) ∨ (b m).2 ≠ noBias

theorem known_upd {b : Mod → Nat × Int} {W : List Wish} (h : Known b W) (m : Mod) (p : Nat) {x : Int} (hx : x ≠ noBias) (d0 : Wish) (hm : d0.m = m) : Known (upd1 b m p x) (W ++ [d0]) := by
  intro k
  unfold upd1
  by_cases hk : k = m
  · right
    subst hk
    split_ifs with h1
    · simpa using hx
    · rcases h k with ⟨h2, _⟩ | h2
      · rw [h2] at h1; exact absurd (Nat.zero_le _) h1
      · exact h2
  · have e : (if (b m).1 ≤ p then fun k => if k = m then (p, x) else b k else b) k = b k := by
      split_ifs <;> simp [hk]
    rw [e]
    refine (h k).imp (fun ⟨h1, h2⟩ => ⟨h1, fun d hd => ?_⟩) id
    rcases List.mem_append.1 hd with hd | hd
    · exact h2 d hd
    · rw [List.mem_singleton.1 hd, hm]; exact fun e => hk e.symm

theorem known_run : ∀ (g : List DomEntry) (b : Mod → Nat × Int) (W : List Wish), Known b W → (∀ e ∈ g, e.bias ≠ noBias) → Known (g.foldl mergeEntry b) (W ++ wishesOf g)
  | [], b, W, h, _ => by simpa [wishesOf] using h
  | e :: g, b, W, h, hx => by
    have h1 := hx e (by simp)
    have h2 : Known (mergeEntry b e) (W ++ e.wishes) := by
      obtain ⟨v, k, x, p, c⟩ := e
      cases k with
      | level => exact known_upd h .level p h1 _ rfl
      | sign => exact known_upd h .sign p h1 _ rfl
      | factor => exact known_upd h .factor p h1 _ rfl
      | tru =>
        have := known_upd (known_upd h .level p h1 ⟨v, .level, x, p, c⟩ rfl) .sign p (x := 1) (by decide) ⟨v, .sign, 1, p, c⟩ rfl
        rw [List.append_assoc] at this
        exact this
      | fls =>
        have := known_upd (known_upd h .level p h1 ⟨v, .level, x, p, c⟩ rfl) .sign p (x := -1) (by decide) ⟨v, .sign, 2, p, c⟩ rfl
        rw [List.append_assoc] at this
        exact this
    have := known_run g _ _ h2 fun f hf => hx f (List.mem_cons_of_mem _ hf)
    rw [List.append_assoc] at this
    exact this

theorem keepOne_mem {v : Nat} {c : Option DLit} {k : DomKind} {x : Nat × Int} {d : Wish} : d ∈ wishesOf (keepOne v c k x) ↔ x.2 ≠ noBias ∧ d ∈ (⟨v, k, x.2, x.1, c⟩ : DomEntry).wishes := by
  unfold keepOne
  split_ifs with h
  · simp [wishesOf, h]
  · simp [wishesOf, not_not.1 h]

/-- The wishes of the merged entries. -/
theorem mergeOut_mem {v : Nat} {c : Option DLit} {b : Mod → Nat × Int} {d : Wish} : d ∈ wishesOf (mergeOut v c b) ↔ ∃ m, (b m).2 ≠ noBias ∧ d = ⟨v, m, nrm m (b m).2, (b m).1, c⟩ := by
  have hsplit : ∀ a b : List DomEntry, d ∈ wishesOf (a ++ b) ↔ d ∈ wishesOf a ∨ d ∈ wishesOf b := fun a b => by simp [wishesOf]
  have hf : d ∈ wishesOf (keepOne v c .factor (b .factor)) ↔ (b .factor).2 ≠ noBias ∧ d = ⟨v, .factor, nrm .factor (b .factor).2, (b .factor).1, c⟩ := by
    rw [keepOne_mem]; simp [DomEntry.wishes, nrm]
  have hl : d ∈ wishesOf (keepOne v c .level (b .level)) ↔ (b .level).2 ≠ noBias ∧ d = ⟨v, .level, nrm .level (b .level).2, (b .level).1, c⟩ := by
    rw [keepOne_mem]; simp [DomEntry.wishes, nrm]
  have hs : d ∈ wishesOf (keepOne v c .sign (b .sign)) ↔ (b .sign).2 ≠ noBias ∧ d = ⟨v, .sign, nrm .sign (b .sign).2, (b .sign).1, c⟩ := by
    rw [keepOne_mem]; simp [DomEntry.wishes, nrm, signVal]
  have hex : (∃ m, (b m).2 ≠ noBias ∧ d = ⟨v, m, nrm m (b m).2, (b m).1, c⟩) ↔ ((b .level).2 ≠ noBias ∧ d = ⟨v, .level, nrm .level (b .level).2, (b .level).1, c⟩) ∨
      ((b .sign).2 ≠ noBias ∧ d = ⟨v, .sign, nrm .sign (b .sign).2, (b .sign).1, c⟩) ∨ ((b .factor).2 ≠ noBias ∧ d = ⟨v, .factor, nrm .factor (b .factor).2, (b .factor).1, c⟩) := by
    constructor
    · rintro ⟨m, h1⟩
      cases m
      · exact Or.inl h1
      · exact Or.inr (Or.inl h1)
      · exact Or.inr (Or.inr h1)
    · rintro (h1 | h1 | h1)
      · exact ⟨_, h1⟩
      · exact ⟨_, h1⟩
      · exact ⟨_, h1⟩
  rw [hex, mergeOut, hsplit, hf, ← or_assoc]
  refine or_congr ?_ Iff.rfl
  split_ifs with hc h0
  · obtain ⟨h1, h2, h3, h4⟩ := hc
    have : signVal (b .sign).2 = 1 := by simp [signVal, h0]
    simp only [wishesOf, List.flatMap_cons, List.flatMap_nil, List.append_nil, DomEntry.wishes, List.mem_cons, List.not_mem_nil, or_false, nrm, this, h4]
    exact ⟨fun h => h.imp (fun e => ⟨h1, e⟩) (fun e => ⟨h2, e⟩), fun h => h.imp (·.2) (·.2)⟩
  · obtain ⟨h1, h2, h3, h4⟩ := hc
    have : signVal (b .sign).2 = 2 := by simp only [signVal, if_neg h0]; rw [if_pos (by omega)]
    simp only [wishesOf, List.flatMap_cons, List.flatMap_nil, List.append_nil, DomEntry.wishes, List.mem_cons, List.not_mem_nil, or_false, nrm, this, h4]
    exact ⟨fun h => h.imp (fun e => ⟨h1, e⟩) (fun e => ⟨h2, e⟩), fun h => h.imp (·.2) (·.2)⟩
  · rw [hsplit, hl, hs]

theorem wish_key {e : DomEntry} {d : Wish} (h : d ∈ e.wishes) : d.v = e.v ∧ d.cond = e.cond := by
  obtain ⟨v, k, b, p, c⟩ := e
  cases k <;> simp only [DomEntry.wishes, List.mem_cons, List.not_mem_nil, or_false] at h <;> rcases h with rfl | rfl <;> exact ⟨rfl, rfl⟩

theorem mem_wishesOf {es : List DomEntry} {d : Wish} : d ∈ wishesOf es ↔ ∃ e ∈ es, d ∈ e.wishes := by simp [wishesOf]

/-- A run: the wishes kept are among the given ones and, unless a bias is `NO_BIAS`, they are the best. -/
theorem mergeRun_ok (e : DomEntry) (l : List DomEntry) (hl : ∀ f ∈ l, f.v = e.v ∧ f.cond = e.cond) :
    (∀ d ∈ wishesOf (mergeRun (e :: l)), d ∈ wishesOf (e :: l)) ∧
    ((∀ f ∈ e :: l, f.bias ≠ noBias) → ∀ d ∈ wishesOf (e :: l), ∃ d' ∈ wishesOf (mergeRun (e :: l)), d'.v = d.v ∧ d'.m = d.m ∧ d'.cond = d.cond ∧ d.prio ≤ d'.prio) := by
  cases l with
  | nil => exact ⟨fun d hd => hd, fun _ d hd => ⟨d, hd, rfl, rfl, rfl, Nat.le_refl _⟩⟩
  | cons f g =>
    have hkey : ∀ d ∈ wishesOf (e :: f :: g), d.v = e.v ∧ d.cond = e.cond := by
      intro d hd
      obtain ⟨e', he', hd⟩ := mem_wishesOf.1 hd
      have := wish_key hd
      rcases List.mem_cons.1 he' with rfl | he'
      · exact this
      · have h2 := hl e' he'
        exact ⟨this.1.trans h2.1, this.2.trans h2.2⟩
    obtain ⟨b, hb⟩ : ∃ b, b = (e :: f :: g).foldl mergeEntry fun _ => (0, noBias) := ⟨_, rfl⟩
    have hbest : Best b (wishesOf (e :: f :: g)) := by
      have := best_run (e :: f :: g) (fun _ => (0, noBias)) [] (fun m => Or.inl ⟨rfl, fun d hd => nomatch hd⟩)
      rw [hb]; exact this
    have hrun : mergeRun (e :: f :: g) = mergeOut e.v e.cond b := by rw [hb]; rfl
    rw [hrun]
    constructor
    · intro d hd
      obtain ⟨m, h1, rfl⟩ := mergeOut_mem.1 hd
      rcases hbest m with ⟨h2, _⟩ | ⟨⟨d', h2, h3, h4, h5⟩, _⟩
      · rw [h2] at h1; exact absurd rfl h1
      · obtain ⟨k1, k2⟩ := hkey d' h2
        obtain ⟨v', m', x', p', c'⟩ := d'
        simp only at h3 h4 h5 k1 k2
        rw [h3, h5, h4, k1, k2] at h2
        exact h2
    · intro hx d hd
      have hkn : Known b (wishesOf (e :: f :: g)) := by
        have := known_run (e :: f :: g) (fun _ => (0, noBias)) [] (fun _ => Or.inl ⟨rfl, fun d hd => nomatch hd⟩) hx
        rw [hb]; exact this
      obtain ⟨k1, k2⟩ := hkey d hd
      rcases hbest d.m with ⟨_, h2⟩ | ⟨_, h6⟩
      · exact absurd rfl (h2 d hd)
      · refine ⟨⟨e.v, d.m, nrm d.m (b d.m).2, (b d.m).1, e.cond⟩, mergeOut_mem.2 ⟨d.m, ?_, rfl⟩, k1.symm, rfl, k2.symm, h6 d hd rfl⟩
        rcases hkn d.m with ⟨_, h7⟩ | h7
        · exact absurd rfl (h7 d hd)
        · exact h7

/-- Simplifying keeps the best wishes unless a bias is `NO_BIAS`. -/
theorem simplify_ok (es : List DomEntry) :
    (∀ d ∈ wishesOf (simplify es), d ∈ wishesOf es) ∧
    ((∀ f ∈ es, f.bias ≠ noBias) → ∀ d ∈ wishesOf es, ∃ d' ∈ wishesOf (simplify es), d'.v = d.v ∧ d'.m = d.m ∧ d'.cond = d.cond ∧ d.prio ≤ d'.prio) := by
  obtain ⟨h1, h2⟩ := runs_ok (sortEntries es)
  have hin : ∀ g ∈ runs (sortEntries es), ∀ e ∈ g, e ∈ es := fun g hg e he => by
    rw [← mem_sortEntries, ← h1]; exact List.mem_flatten.2 ⟨g, hg, he⟩
  constructor
  · intro d hd
    obtain ⟨e, he, hd⟩ := mem_wishesOf.1 hd
    obtain ⟨g, hg, he⟩ := List.mem_flatMap.1 he
    obtain ⟨e0, l, rfl, hl⟩ := h2 g hg
    obtain ⟨e', he', hd⟩ := mem_wishesOf.1 ((mergeRun_ok e0 l hl).1 d (mem_wishesOf.2 ⟨e, he, hd⟩))
    exact mem_wishesOf.2 ⟨e', hin _ hg e' he', hd⟩
  · intro hx d hd
    obtain ⟨e, he, hd⟩ := mem_wishesOf.1 hd
    rw [← mem_sortEntries, ← h1] at he
    obtain ⟨g, hg, he⟩ := List.mem_flatten.1 he
    obtain ⟨e0, l, rfl, hl⟩ := h2 g hg
    obtain ⟨d', hd', h3⟩ := (mergeRun_ok e0 l hl).2 (fun f hf => hx f (hin _ hg f hf)) d (mem_wishesOf.2 ⟨e, he, hd⟩)
    obtain ⟨e', he', hd'⟩ := mem_wishesOf.1 hd'
    exact ⟨d', mem_wishesOf.2 ⟨e', List.mem_flatMap.2 ⟨_, hg, he'⟩, hd'⟩, h3⟩

end Clasp.Dom
