import Verif.Asp.MinSem
import Mathlib.Data.List.TakeWhile

/-! Graph, variables and clauses of a component (C47). No code is modelled in this file; it contains proof devices only. -/

namespace Clasp.Min
open Clasp.Core Clasp.Asp

variable {p : DPrg} {old : Bool} {T0 T : Lit → Bool} {c : Nat}

/-! ### The component of a body -/

theorem front_pos {b x : Nat} (hx : x ∈ (p.body b).body.front.map fun z => z.1.atom) : Pos (p.body b).body x := by
  obtain ⟨⟨⟨z, n⟩, w⟩, hz, rfl⟩ := List.mem_map.1 hx
  unfold Body.front at hz
  have hn := List.mem_takeWhile_imp hz
  have hm := List.takeWhile_subset _ hz
  simp only [Bool.not_eq_true'] at hn
  subst hn
  unfold Pos
  cases hB : (p.body b).body with
  | conj ls =>
    rw [hB] at hm
    simp only [Body.wlits, List.mem_map, Prod.mk.injEq] at hm
    obtain ⟨l, hl, rfl, _⟩ := hm
    exact hl
  | sum ls bd =>
    rw [hB] at hm
    exact List.mem_map.2 ⟨_, hm, rfl⟩

theorem bscc_eq (hok : p.Ok) {b a x : Nat} (hb : b < p.nbodies) {h : PHead} (hh : h ∈ (p.body b).heads) (ha : a ∈ h.atoms) (hx : Pos (p.body b).body x)
    (hne : (p.atom a).scc ≠ noScc) (e : (p.atom a).scc = (p.atom x).scc) : p.bscc b = (p.atom a).scc := by
  have hpos : ∀ y ∈ (p.body b).body.front.map fun z => z.1.atom, Pos (p.body b).body y := fun y hy => front_pos hy
  have hgs := hok.front b hb x hx
  unfold DPrg.bscc bodyScc
  dsimp only
  generalize hgl : ((p.body b).body.front.map fun z => z.1.atom) = gs at *
  generalize hmask : ((List.filter (fun c => decide (c ≠ noScc)) (gs.map fun a => (p.atom a).scc)).map (· % 64)) = mask
  generalize hlarge : (List.filter (fun c => decide (c ≠ noScc)) (gs.map fun a => (p.atom a).scc)).any (fun c => decide (63 < c)) = large
  have hmem : ∀ c, c ∈ List.filter (fun c => decide (c ≠ noScc)) (gs.map fun a => (p.atom a).scc) ↔ c ≠ noScc ∧ ∃ x ∈ gs, (p.atom x).scc = c := by
    intro c; simp [and_comm]
  have hmk : ∀ k, k ∈ mask ↔ ∃ x ∈ gs, (p.atom x).scc ≠ noScc ∧ (p.atom x).scc % 64 = k := by
    intro k
    rw [← hmask, List.mem_map]
    constructor
    · rintro ⟨c, hc, rfl⟩
      obtain ⟨h1, x, hx, rfl⟩ := (hmem c).1 hc
      exact ⟨x, hx, h1, rfl⟩
    · rintro ⟨x, hx, h1, rfl⟩
      exact ⟨_, (hmem _).2 ⟨h1, x, hx, rfl⟩, rfl⟩
  have haf : a ∈ (p.body b).heads.flatMap PHead.atoms := List.mem_flatMap.2 ⟨h, hh, ha⟩
  have hxn : (p.atom x).scc ≠ noScc := by rw [← e]; exact hne
  have h2 : (gs.map fun a => (p.atom a).scc).contains (p.atom a).scc = true := by
    rw [List.contains_iff_mem]; exact List.mem_map.2 ⟨x, hgs, e.symm⟩
  have h1 : mask.contains ((p.atom a).scc % 64) = true := by
    rw [List.contains_iff_mem]; exact (hmk _).2 ⟨x, hgs, hxn, by rw [e]⟩
  split
  · next y hf =>
    have hy := List.mem_of_find?_eq_some hf
    have hyp := List.find?_some hf
    simp only [Bool.and_eq_true, decide_eq_true_eq, Bool.or_eq_true, Bool.not_eq_true', List.contains_iff_mem] at hyp
    obtain ⟨⟨hyn, hym⟩, hyl⟩ := hyp
    obtain ⟨h', hh', hy⟩ := List.mem_flatMap.1 hy
    have : ∃ z ∈ gs, (p.atom z).scc = (p.atom y).scc := by
      rcases hyl with hyl | hyl
      · obtain ⟨z, hz, hzn, hze⟩ := (hmk _).1 hym
        have hle := hok.topo b hb h' hh' y hy z (hpos z hz) hyn hzn
        have hx63 : ¬ 63 < (p.atom z).scc := by
          intro hgt
          rw [← hlarge] at hyl
          have := List.any_eq_false.1 hyl (p.atom z).scc ((hmem _).2 ⟨hzn, z, hz, rfl⟩)
          exact this (by simpa using hgt)
        exact ⟨z, hz, by omega⟩
      · obtain ⟨z, hz, hze⟩ := List.mem_map.1 hyl
        exact ⟨z, hz, hze⟩
    obtain ⟨z, hz, hze⟩ := this
    exact (hok.one b hb h hh a ha x hx e hne h' hh' y hy z (hpos z hz) hze.symm hyn).symm
  · next hf =>
    exfalso
    have := List.find?_eq_none.1 hf a haf
    apply this
    rw [h1, h2]; simp [hne]

/-! ### The graph -/

theorem relAtom_iff {a : Nat} : p.relAtom T0 a = true ↔ a < p.natoms ∧ (p.atom a).rel = true ∧ (p.atom a).scc ≠ noScc ∧ T0 (p.atom a).lit.neg = false := by
  unfold DPrg.relAtom
  simp only [Bool.and_eq_true, decide_eq_true_eq, Bool.not_eq_true', and_assoc]

theorem mem_sccAtoms {a : Nat} : a ∈ sccAtoms (p.graph T0) c ↔ p.relAtom T0 a = true ∧ (p.atom a).scc = c := by
  unfold sccAtoms
  simp only [DPrg.graph, DPrg.atomNode, List.mem_filter, List.mem_range]
  refine ⟨fun h => ⟨h.1.2, of_decide_eq_true h.2⟩, fun h => ⟨⟨(relAtom_iff.1 h.1).1, h.1⟩, decide_eq_true h.2⟩⟩

theorem sccAtoms_lt : (sccAtoms (p.graph T0) c).Pairwise (· < ·) := by
  unfold sccAtoms DPrg.graph
  exact (List.Pairwise.filter _ (List.Pairwise.filter _ List.pairwise_lt_range))

theorem mem_dedup (L : List Nat) (l : List Nat) (b : Nat) : b ∈ L.foldl (fun l b => if b ∈ l then l else l ++ [b]) l ↔ b ∈ l ∨ b ∈ L := by
  induction L generalizing l with
  | nil => simp
  | cons x L ih =>
    rw [List.foldl_cons, ih]
    by_cases hx : x ∈ l
    · rw [if_pos hx, List.mem_cons]
      constructor
      · rintro (h | h)
        · exact .inl h
        · exact .inr (.inr h)
      · rintro (h | rfl | h)
        · exact .inl h
        · exact .inl hx
        · exact .inr h
    · rw [if_neg hx, List.mem_append, List.mem_singleton, List.mem_cons, or_assoc]

theorem defines_iff {a : Nat} {h : PHead} : h.defines a = true ↔ h.gamma = false ∧ a ∈ h.atoms := by
  cases h with
  | atom x ch gm =>
    simp only [PHead.defines, PHead.gamma, PHead.atoms, Bool.and_eq_true, Bool.not_eq_true', decide_eq_true_eq, List.mem_singleton]
    exact and_congr_right fun _ => eq_comm
  | disj as => simp [PHead.defines, PHead.gamma, PHead.atoms]

theorem mem_bodies {a b : Nat} : b ∈ ((p.graph T0).atom a).bodies ↔ p.relBody T0 b = true ∧ ∃ h ∈ (p.body b).heads, h.gamma = false ∧ a ∈ h.atoms := by
  simp only [DPrg.graph, DPrg.atomNode, List.mem_filter, List.mem_range, Bool.and_eq_true, List.any_eq_true, defines_iff]
  refine ⟨fun h => h.2, fun h => ⟨?_, h⟩⟩
  have := h.1
  unfold DPrg.relBody at this
  rw [Bool.and_eq_true, decide_eq_true_eq] at this
  exact this.1

theorem mem_sccBodies {b : Nat} : b ∈ sccBodies (p.graph T0) c ↔
    p.relBody T0 b = true ∧ ∃ h ∈ (p.body b).heads, h.gamma = false ∧ ∃ a ∈ h.atoms, p.relAtom T0 a = true ∧ (p.atom a).scc = c := by
  unfold sccBodies
  rw [mem_dedup]
  simp only [List.not_mem_nil, false_or, List.mem_flatMap, mem_sccAtoms, mem_bodies]
  constructor
  · rintro ⟨a, ⟨h1, h2⟩, h3, h, h4, h5, h6⟩
    exact ⟨h3, h, h4, h5, a, h6, h1, h2⟩
  · rintro ⟨h3, h, h4, h5, a, h6, h1, h2⟩
    exact ⟨a, ⟨h1, h2⟩, h3, h, h4, h5, h6⟩

theorem graph_disj {a b : Nat} {as : List Nat} (hb : b < p.nbodies) (h : .disj as ∈ (p.body b).heads) (ha : a ∈ as) : ((p.graph T0).atom a).disj = true := by
  simp only [DPrg.graph, DPrg.atomNode, List.any_eq_true, List.mem_range]
  exact ⟨b, hb, _, h, by simpa [PHead.disjWith] using ha⟩

/-! ### Variables -/

/-- Proof device: the entries for atoms: variables do not overlap, and an entry has what its atom needs. -/
structure AOk (g : DGraph) (old : Bool) (T0 : Lit → Bool) (n N : Nat) (as : List Mapping) : Prop where
  le : n ≤ N
  rng : ∀ m ∈ as, n ≤ m.var ∧ m.var + m.ext < N
  sep : as.Pairwise fun m m' => m.var + m.ext < m'.var
  two : ∀ m ∈ as, m.ext ≤ 2
  dis : ∀ m ∈ as, (old || (g.atom m.node).disj) = true → m.ext ≠ 0
  t1 : ∀ m ∈ as, m.ext = 1 → T0 (g.atom m.node).lit = true

theorem AOk.cons {g : DGraph} {n n' N : Nat} {m : Mapping} {as : List Mapping} (h : AOk g old T0 n' N as) (hv : m.var = n) (hn : n + m.ext < n') (h2 : m.ext ≤ 2)
    (hd : (old || (g.atom m.node).disj) = true → m.ext ≠ 0) (ht : m.ext = 1 → T0 (g.atom m.node).lit = true) : AOk g old T0 n N (m :: as) where
  le := by have := h.le; omega
  rng := by
    intro x hx
    rcases List.mem_cons.1 hx with rfl | hx
    · have := h.le; omega
    · have := h.rng x hx; omega
  sep := List.pairwise_cons.2 ⟨fun x hx => by have := h.rng x hx; omega, h.sep⟩
  two := by
    intro x hx
    rcases List.mem_cons.1 hx with rfl | hx
    · exact h2
    · exact h.two x hx
  dis := by
    intro x hx
    rcases List.mem_cons.1 hx with rfl | hx
    · exact hd
    · exact h.dis x hx
  t1 := by
    intro x hx
    rcases List.mem_cons.1 hx with rfl | hx
    · exact ht
    · exact h.t1 x hx

theorem addAtoms_ok (g : DGraph) : ∀ (L : List Nat) (n : Nat), AOk g old T0 n (addAtoms g old T0 L n).2 (addAtoms g old T0 L n).1
  | [], n => ⟨Nat.le_refl _, by simp [addAtoms], by simp [addAtoms], by simp [addAtoms], by simp [addAtoms], by simp [addAtoms]⟩
  | a :: L, n => by
    unfold addAtoms
    split_ifs with h1 h2 h3
    · exact addAtoms_ok g L n
    · exact (addAtoms_ok g L (n + 1)).cons rfl (by simp) (by simp) (fun h => by simp [h] at h2) (by simp)
    · exact (addAtoms_ok g L (n + 2)).cons rfl (by simp) (by simp) (by simp) (fun _ => h3)
    · exact (addAtoms_ok g L (n + 3)).cons rfl (by simp) (by simp) (by simp) (by simp)

theorem addAtoms_nodes (g : DGraph) : ∀ (L : List Nat) (n : Nat), (addAtoms g old T0 L n).1.map Mapping.node = L.filter fun a => !T0 (g.atom a).lit.neg
  | [], n => rfl
  | a :: L, n => by
    unfold addAtoms
    split_ifs with h1 h2 h3
    · rw [addAtoms_nodes g L n, List.filter_cons_of_neg (by simp [h1])]
    · rw [List.map_cons, addAtoms_nodes g L, List.filter_cons_of_pos (by simp [h1])]
    · rw [List.map_cons, addAtoms_nodes g L, List.filter_cons_of_pos (by simp [h1])]
    · rw [List.map_cons, addAtoms_nodes g L, List.filter_cons_of_pos (by simp [h1])]

theorem lookup_eq {as : List Mapping} (hs : (as.map Mapping.node).Pairwise (· < ·)) {m : Mapping} (hm : m ∈ as) : lookup as m.node = some m := by
  unfold lookup
  induction as with
  | nil => cases hm
  | cons x as ih =>
    rw [List.map_cons, List.pairwise_cons] at hs
    rcases List.mem_cons.1 hm with rfl | h
    · rw [List.find?_cons_of_pos (by simp)]
    · have := hs.1 m.node (List.mem_map.2 ⟨m, h, rfl⟩)
      rw [List.find?_cons_of_neg (by simp; omega)]
      exact ih hs.2 h

theorem find_eq {as : List Mapping} (hs : (as.map Mapping.node).Pairwise (· < ·)) {m : Mapping} (hm : m ∈ as) : find as m.node = m := by
  unfold find; rw [lookup_eq hs hm]; rfl

theorem node_inj {as : List Mapping} (hs : (as.map Mapping.node).Pairwise (· < ·)) {m m' : Mapping} (hm : m ∈ as) (hm' : m' ∈ as) (e : m.node = m'.node) : m = m' := by
  rw [← find_eq hs hm, ← find_eq hs hm', e]

theorem AOk.inj {g : DGraph} {n N : Nat} {as : List Mapping} (h : AOk g old T0 n N as) {m m' : Mapping} (hm : m ∈ as) (hm' : m' ∈ as) {i j : Nat} (hi : i ≤ m.ext)
    (hj : j ≤ m'.ext) (e : m.var + i = m'.var + j) : m = m' ∧ i = j := by
  have key : ∀ (as : List Mapping), (as.Pairwise fun m m' => m.var + m.ext < m'.var) → m ∈ as → m' ∈ as → m = m' := by
    intro as hs h1 h2
    induction as with
    | nil => cases h1
    | cons x as ih =>
      rw [List.pairwise_cons] at hs
      rcases List.mem_cons.1 h1 with e1 | h1
      · rcases List.mem_cons.1 h2 with e2 | h2
        · rw [e1, e2]
        · have := hs.1 m' h2
          rw [← e1] at this; omega
      · rcases List.mem_cons.1 h2 with e2 | h2
        · have := hs.1 m h1
          rw [← e2] at this; omega
        · exact ih hs.2 h1 h2
  have := key as h.sep hm hm'
  subst this
  exact ⟨rfl, by omega⟩

/-- Proof device: the entries for bodies: `N` is the first variable used for them, `n` the next. -/
structure BOk (g : DGraph) (T0 : Lit → Bool) (N n : Nat) (ms : List Mapping) : Prop where
  le : N ≤ n
  two : ∀ m ∈ ms, m.ext ≤ 2
  fls : ∀ m ∈ ms, T0 (g.body m.node).lit.neg = false
  t1 : ∀ m ∈ ms, m.ext = 1 → m.var = 0 ∧ T0 (g.body m.node).lit = true
  rng : ∀ m ∈ ms, m.ext ≠ 1 → N ≤ m.var ∧ m.var < n
  rep : ∀ m ∈ ms, m.ext = 2 → ∃ m' ∈ ms, m'.ext = 0 ∧ m'.var = m.var ∧ (g.body m'.node).lit = (g.body m.node).lit
  inj : ∀ m ∈ ms, ∀ m' ∈ ms, m.ext ≠ 1 → m'.ext ≠ 1 → m.var = m'.var → (g.body m.node).lit = (g.body m'.node).lit

theorem addBodies_ok (g : DGraph) (N : Nat) : ∀ (L : List Nat) (n : Nat) (ms : List Mapping), BOk g T0 N n ms →
    (∃ n', BOk g T0 N n' (addBodies g T0 L n ms)) ∧ (∀ m ∈ ms, m ∈ addBodies g T0 L n ms) ∧
    (∀ b ∈ L, T0 (g.body b).lit.neg = false → ∃ m ∈ addBodies g T0 L n ms, m.node = b) ∧ (∀ m ∈ addBodies g T0 L n ms, m ∈ ms ∨ m.node ∈ L)
  | [], n, ms, h => ⟨⟨n, h⟩, fun _ h => h, by simp, fun m hm => .inl hm⟩
  | b :: L, n, ms, h => by
    -- one more entry
    have hstep : ∀ (x : Mapping) (n' : Nat), x.node = b → BOk g T0 N n' (ms ++ [x]) → addBodies g T0 (b :: L) n ms = addBodies g T0 L n' (ms ++ [x]) →
        (∃ n', BOk g T0 N n' (addBodies g T0 (b :: L) n ms)) ∧ (∀ m ∈ ms, m ∈ addBodies g T0 (b :: L) n ms) ∧
        (∀ b' ∈ b :: L, T0 (g.body b').lit.neg = false → ∃ m ∈ addBodies g T0 (b :: L) n ms, m.node = b') ∧
        (∀ m ∈ addBodies g T0 (b :: L) n ms, m ∈ ms ∨ m.node ∈ b :: L) := by
      intro x n' hx hok e
      obtain ⟨h1, h2, h3, h4⟩ := addBodies_ok g N L n' (ms ++ [x]) hok
      rw [e]
      refine ⟨h1, fun m hm => h2 m (by simp [hm]), fun b' hb' hF => ?_, fun m hm => ?_⟩
      · rcases List.mem_cons.1 hb' with rfl | hb'
        · exact ⟨x, h2 x (by simp), hx⟩
        · exact h3 b' hb' hF
      · rcases h4 m hm with h | h
        · rcases List.mem_append.1 h with h | h
          · exact .inl h
          · have : m = x := by simpa using h
            subst this
            exact .inr (by simp [hx])
        · exact .inr (by simp [h])
    by_cases hF : T0 (g.body b).lit.neg = true
    · have e : addBodies g T0 (b :: L) n ms = addBodies g T0 L n ms := by rw [addBodies, if_pos hF]
      obtain ⟨h1, h2, h3, h4⟩ := addBodies_ok g N L n ms h
      rw [e]
      refine ⟨h1, h2, fun b' hb' hF' => ?_, fun m hm => (h4 m hm).imp id fun h => List.mem_cons_of_mem _ h⟩
      rcases List.mem_cons.1 hb' with rfl | hb'
      · rw [hF] at hF'; cases hF'
      · exact h3 b' hb' hF'
    have hFf : T0 (g.body b).lit.neg = false := by simpa using hF
    by_cases hT : T0 (g.body b).lit = true
    · -- a true body
      refine hstep ⟨b, 0, 1⟩ n rfl ?_ (by rw [addBodies, if_neg hF, if_neg (by simp [hT]), if_pos hT])
      refine ⟨h.le, ?_, ?_, ?_, ?_, ?_, ?_⟩
      · intro m hm
        rcases List.mem_append.1 hm with hm | hm
        · exact h.two m hm
        · obtain rfl := List.mem_singleton.1 hm; simp
      · intro m hm
        rcases List.mem_append.1 hm with hm | hm
        · exact h.fls m hm
        · obtain rfl := List.mem_singleton.1 hm; exact hFf
      · intro m hm
        rcases List.mem_append.1 hm with hm | hm
        · exact h.t1 m hm
        · obtain rfl := List.mem_singleton.1 hm; exact fun _ => ⟨rfl, hT⟩
      · intro m hm
        rcases List.mem_append.1 hm with hm | hm
        · exact h.rng m hm
        · obtain rfl := List.mem_singleton.1 hm; exact fun hx => absurd rfl hx
      · intro m hm he
        rcases List.mem_append.1 hm with hm | hm
        · obtain ⟨m', h1, h2⟩ := h.rep m hm he
          exact ⟨m', by simp [h1], h2⟩
        · obtain rfl := List.mem_singleton.1 hm; cases he
      · intro m hm m' hm' he he' ev
        rcases List.mem_append.1 hm with hm | hm
        · rcases List.mem_append.1 hm' with hm' | hm'
          · exact h.inj m hm m' hm' he he' ev
          · obtain rfl := List.mem_singleton.1 hm'; exact absurd rfl he'
        · obtain rfl := List.mem_singleton.1 hm; exact absurd rfl he
    by_cases hS : (ms.any fun m => !m.eq && decide ((g.body m.node).lit = (g.body b).lit)) = true
    · -- the literal is known
      obtain ⟨m0, hm0, hm0e⟩ := List.any_eq_true.1 hS
      simp only [Bool.and_eq_true, Bool.not_eq_true', decide_eq_true_eq, Mapping.eq, decide_eq_false_iff_not, not_not] at hm0e
      obtain ⟨m1, hf⟩ : ∃ m1, ms.reverse.find? (fun m => decide ((g.body m.node).lit = (g.body b).lit)) = some m1 := by
        cases hf : ms.reverse.find? (fun m => decide ((g.body m.node).lit = (g.body b).lit)) with
        | some m1 => exact ⟨m1, rfl⟩
        | none =>
          have := List.find?_eq_none.1 hf m0 (by simpa using hm0)
          simp [hm0e.2] at this
      have hm1 : m1 ∈ ms := by simpa using List.mem_of_find?_eq_some hf
      have hm1l : (g.body m1.node).lit = (g.body b).lit := by simpa using List.find?_some hf
      have hm1e : m1.ext ≠ 1 := by
        intro he
        have := (h.t1 m1 hm1 he).2
        rw [hm1l] at this
        exact hT this
      refine hstep ⟨b, m1.var, 2⟩ n rfl ?_ (by rw [addBodies, if_neg hF, if_neg (by simp [hS]), if_neg hT, hf]; rfl)
      refine ⟨h.le, ?_, ?_, ?_, ?_, ?_, ?_⟩
      · intro m hm
        rcases List.mem_append.1 hm with hm | hm
        · exact h.two m hm
        · obtain rfl := List.mem_singleton.1 hm; simp
      · intro m hm
        rcases List.mem_append.1 hm with hm | hm
        · exact h.fls m hm
        · obtain rfl := List.mem_singleton.1 hm; exact hFf
      · intro m hm
        rcases List.mem_append.1 hm with hm | hm
        · exact h.t1 m hm
        · obtain rfl := List.mem_singleton.1 hm; exact fun hx => by cases hx
      · intro m hm
        rcases List.mem_append.1 hm with hm | hm
        · exact h.rng m hm
        · obtain rfl := List.mem_singleton.1 hm; exact fun _ => h.rng m1 hm1 hm1e
      · intro m hm he
        rcases List.mem_append.1 hm with hm | hm
        · obtain ⟨m', h1, h2⟩ := h.rep m hm he
          exact ⟨m', by simp [h1], h2⟩
        · obtain rfl := List.mem_singleton.1 hm
          by_cases h0 : m1.ext = 0
          · exact ⟨m1, by simp [hm1], h0, rfl, hm1l⟩
          · obtain ⟨m', h1, h2, h3, h4⟩ := h.rep m1 hm1 (by have := h.two m1 hm1; omega)
            exact ⟨m', by simp [h1], h2, h3, by rw [h4, hm1l]⟩
      · intro m hm m' hm' he he' ev
        rcases List.mem_append.1 hm with hm | hm
        · rcases List.mem_append.1 hm' with hm' | hm'
          · exact h.inj m hm m' hm' he he' ev
          · obtain rfl := List.mem_singleton.1 hm'
            rw [h.inj m hm m1 hm1 he hm1e ev, hm1l]
        · obtain rfl := List.mem_singleton.1 hm
          rcases List.mem_append.1 hm' with hm' | hm'
          · rw [h.inj m' hm' m1 hm1 he' hm1e ev.symm, hm1l]
          · obtain rfl := List.mem_singleton.1 hm'; rfl
    · -- a new literal
      refine hstep ⟨b, n, 0⟩ (n + 1) rfl ?_ (by rw [addBodies, if_neg hF, if_pos (by simp only [Bool.and_eq_true, Bool.not_eq_true']; exact ⟨by simpa using hS, by simpa using hT⟩)])
      refine ⟨by have := h.le; omega, ?_, ?_, ?_, ?_, ?_, ?_⟩
      · intro m hm
        rcases List.mem_append.1 hm with hm | hm
        · exact h.two m hm
        · obtain rfl := List.mem_singleton.1 hm; simp
      · intro m hm
        rcases List.mem_append.1 hm with hm | hm
        · exact h.fls m hm
        · obtain rfl := List.mem_singleton.1 hm; exact hFf
      · intro m hm
        rcases List.mem_append.1 hm with hm | hm
        · exact h.t1 m hm
        · obtain rfl := List.mem_singleton.1 hm; exact fun hx => by cases hx
      · intro m hm he
        rcases List.mem_append.1 hm with hm | hm
        · have := h.rng m hm he; omega
        · obtain rfl := List.mem_singleton.1 hm
          have := h.le
          dsimp only; omega
      · intro m hm he
        rcases List.mem_append.1 hm with hm | hm
        · obtain ⟨m', h1, h2⟩ := h.rep m hm he
          exact ⟨m', by simp [h1], h2⟩
        · obtain rfl := List.mem_singleton.1 hm; cases he
      · intro m hm m' hm' he he' ev
        rcases List.mem_append.1 hm with hm | hm
        · rcases List.mem_append.1 hm' with hm' | hm'
          · exact h.inj m hm m' hm' he he' ev
          · obtain rfl := List.mem_singleton.1 hm'
            have := h.rng m hm he
            dsimp only at ev; omega
        · obtain rfl := List.mem_singleton.1 hm
          rcases List.mem_append.1 hm' with hm' | hm'
          · have := h.rng m' hm' he'
            dsimp only at ev; omega
          · obtain rfl := List.mem_singleton.1 hm'; rfl

end Clasp.Min
