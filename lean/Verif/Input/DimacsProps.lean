/- C34 for `DimacsReader`: every text of the grammar is read, and means for the builder what the format says. -/
import Verif.Input.DimacsLem
import Verif.Input.SatElim
namespace Clasp.Input
open Core Weight

theorem Sep.app {w s : Text} (h : Sep s) (hw : Ws w) : Sep (w ++ s) := by
  cases w with
  | nil => exact h
  | cons c w => intro x hx; cases hx; exact hw c (by simp)

theorem itemTxt_ne {f n x t} (h : ItemTxt f n x t) : 1 ≤ t.length := by
  obtain ⟨c, y, e, _⟩ := itemTxt_head h []
  rw [List.append_nil] at e; rw [e]; simp

theorem witem_ne {f n d x t} (h : WItem f n d x t) : 1 ≤ t.length := by
  obtain ⟨c, y, e, _⟩ := witem_head h []
  rw [List.append_nil] at e; rw [e]; simp

theorem items_ok {f : Fmt} {n : Nat} {ms : Bool} {hw : Int} {xs : List (Int × Item)} {s : Text}
    (h : Body f n (if ms then 1 else 0) xs s) : ∀ (F G : Nat), s.length < F → s.length ≤ G →
    more ⟨n, hw, f.w, f.p⟩ ms (items ⟨n, hw, f.w, f.p⟩ ms (F - 1)) (skipLines 'c' G s) = .ok (xs.map itemCall) := by
  induction h with
  | nil h =>
    intro F G hF hG
    have := skipLines_stop (x := 'c') (s := []) (F := G) h (fun _ h => nomatch h)
    rw [List.append_nil] at this
    rw [this]; rfl
  | @last w t h ht =>
    intro F G hF hG
    have e : skipWs (w ++ 'c' :: t) = 'c' :: t := skipWs_app h (.cons (by decide))
    have : skipLines 'c' G (w ++ 'c' :: t) = [] := by
      cases G with
      | zero => simp at hG
      | succ G =>
        rw [skipLines, e, if_pos (by rfl), skipLine, if_neg (by decide), skipLine_end ht]
        cases G <;> rfl
    rw [this]; rfl
  | @comment xs w t s h1 h2 h3 ih =>
    intro F G hF hG
    simp only [List.length_append, List.length_cons] at hF hG
    obtain ⟨G, rfl⟩ : ∃ G', G = G' + 1 := ⟨G - 1, by omega⟩
    rw [skipLines_step (by decide) (by decide) h1 h2]
    exact ih F G (by omega) (by omega)
  | @item x xs w t s h1 h2 h3 h4 ih =>
    intro F G hF hG
    obtain ⟨c, y, e, hc1, hc2⟩ := witem_head h2 s
    simp only [List.append_assoc, List.length_append] at hF hG ⊢
    rw [skipLines_stop h1 (by rw [e]; exact .cons ⟨hc1, hc2⟩)]
    have hi := item_ok (hw := hw) h2 h3
    rw [e] at hi ⊢
    rw [more, hi]
    have hl := witem_ne h2
    obtain ⟨F, rfl⟩ : ∃ F', F = F' + 2 := ⟨F - 2, by omega⟩
    have := ih (F + 1) s.length (by omega) (Nat.le_refl _)
    show (items ⟨n, hw, f.w, f.p⟩ ms (F + 1) s >>= fun xs => (.ok (itemCall x :: xs) : Except PErr (List Call))) = _
    rw [items]
    replace this : more ⟨n, hw, f.w, f.p⟩ ms (items ⟨n, hw, f.w, f.p⟩ ms F) (skipLines 'c' s.length s) = .ok (xs.map itemCall) := this
    rw [this]
    rfl

theorem blanks_app {w s : Text} (h : Blanks w) (hs : Starts (· ≠ ' ') s) : blanks (w ++ s) = s := by
  induction w with
  | nil =>
    cases s with
    | nil => rfl
    | cons c s => unfold blanks; rw [List.nil_append, List.dropWhile_cons, if_neg (by simpa using hs c rfl)]
  | cons c w ih =>
    unfold blanks at ih ⊢
    rw [List.cons_append, List.dropWhile_cons, if_pos (by simpa using h c (by simp))]
    exact ih fun c hc => h c (List.mem_cons_of_mem _ hc)

theorem matchPos_ok {n m : Nat} {w a s : Text} (hw : Ws w) (h : Num n a) (hm : n ≤ m) (hs : Starts (fun c => c.isDigit = false) s) :
    matchPos m (w ++ (a ++ s)) = .ok (n, s) := by
  unfold matchPos
  rw [matchI_ok hw h hs]
  simp only
  rw [if_pos ⟨by omega, by omega⟩]
  rfl

theorem sizes_ok {f : Fmt} {n m : Nat} {top : Int} {u a w b x s : Text} (hn : n < 2 ^ 30) (hm : m < 2 ^ 32) (hu : Ws u) (ha : Num n a)
    (hw : Ws1 w) (hb : Num m b) (hx : TopW f top x) :
    sizes f.w f.p (u ++ (a ++ (w ++ (b ++ (x ++ '\n' :: s))))) = .ok (⟨n, top, f.w, f.p⟩, s) := by
  have hxd : Starts (fun c => c.isDigit = false) (x ++ '\n' :: s) := by
    have key : ∀ (w r : Text), Blanks w → w ≠ [] → Starts (fun c => c.isDigit = false) (w ++ r) := by
      intro w r h1 h2
      cases w with
      | nil => exact absurd rfl h2
      | cons c w => refine .cons ?_; rw [h1 c (by simp)]; decide
    cases hx with
    | none h =>
      by_cases hx : x = []
      · subst hx; exact .cons (by decide)
      · exact key _ _ h hx
    | some _ _ h1 h2 => simp only [List.append_assoc]; exact key _ _ h1 h2
  unfold sizes
  rw [matchPos_ok hu ha (by unfold VARMAX; omega) hw.nodig]
  show (matchPos (2 ^ 32 - 1) (w ++ (b ++ (x ++ '\n' :: s))) >>= fun c => _) = _
  rw [matchPos_ok hw.ws hb (by omega) hxd]
  show lineEnd ⟨n, (topWeight f.w (blanks (x ++ '\n' :: s))).1, f.w, f.p⟩ (blanks (topWeight f.w (blanks (x ++ '\n' :: s))).2) = _
  cases hx with
  | none h =>
    rw [blanks_app h (.cons (by decide))]
    have : topWeight f.w ('\n' :: s) = (0, '\n' :: s) := by unfold topWeight; rw [if_neg (by simp)]
    rw [this]
    rfl
  | @some t w' a' v hf ht h1 h2 h3 h4 =>
    simp only [List.append_assoc]
    rw [blanks_app h1 (num_starts h3 fun c hc => numCh_ne hc (by decide) (by decide) (by decide))]
    have hvd : Starts (fun c => c.isDigit = false) (v ++ '\n' :: s) := by
      cases v with
      | nil => exact .cons (by decide)
      | cons c v => refine .cons ?_; rw [h4 c (by simp)]; decide
    have hm := matchI_ok (w := []) (fun _ h => (nomatch h)) h3 hvd
    rw [List.nil_append] at hm
    have : topWeight f.w (a' ++ (v ++ '\n' :: s)) = (top, v ++ '\n' :: s) := by
      unfold topWeight
      rw [if_pos ⟨hf, fun e => numCh_ne (x := '\n') (by
        obtain ⟨c, t, rfl, hc⟩ := num_head h3
        cases e; exact hc) (by decide) (by decide) (by decide) rfl⟩, hm]
    rw [this]
    simp only
    rw [blanks_app h4 (.cons (by decide))]
    rfl

theorem fmt_ok {f : Fmt} {s : Text} {r : Except PErr (Hdr × Text)} (h : sizes f.w f.p s = r) : fmt (f.name ++ ' ' :: s) = r := by
  cases f <;> exact h

theorem attach_ok {f : Fmt} {n : Nat} {top : Int} {a s : Text} (h : Head f n top a) : attach (a ++ s) = .ok (⟨n, top, f.w, f.p⟩, s) := by
  cases h with
  | @mk cs u w a b x m hcs hn hm hu ha hw hb hx =>
    generalize hrest : (['p', ' '] ++ f.name ++ ' ' :: u ++ a ++ w ++ b ++ x ++ ['\n']) ++ s = r
    have hr : r = 'p' :: ' ' :: (f.name ++ ' ' :: (u ++ (a ++ (w ++ (b ++ (x ++ '\n' :: s)))))) := by rw [← hrest]; simp
    have key : ∀ (cs : Text), Comments cs → ∀ G, cs.length ≤ G → skipLines 'c' G (cs ++ r) = r := by
      intro cs hcs
      induction hcs with
      | nil => intro G _; exact skipLines_stop (w := []) (fun _ h => nomatch h) (by rw [hr]; exact .cons (by decide))
      | @cons t cs ht _ ih =>
        intro G hG
        simp only [List.length_append, List.length_cons] at hG
        obtain ⟨G, rfl⟩ : ∃ G', G = G' + 1 := ⟨G - 1, by omega⟩
        have := skipLines_step (x := 'c') (w := []) (s := cs ++ r) (F := G) (by decide) (by decide) (fun _ h => (nomatch h)) ht
        simp only [List.nil_append, List.append_assoc, List.cons_append] at this ⊢
        rw [this]
        exact ih G (by omega)
    have hh : (cs ++ r).head? = some 'c' ∨ (cs ++ r).head? = some 'p' := by
      cases hcs with
      | nil => right; rw [hr]; rfl
      | cons => left; rfl
    rw [List.append_assoc, hrest, attach, if_pos hh, key cs hcs _ (by simp), hr]
    have e := tok_yes (w := []) (t := ['p', ' ']) (s := f.name ++ ' ' :: (u ++ (a ++ (w ++ (b ++ (x ++ '\n' :: s))))))
      (fun _ h => (nomatch h)) (.cons (by decide))
    simp only [List.cons_append, List.nil_append] at e
    rw [e]
    exact fmt_ok (sizes_ok hn hm hu ha hw hb hx)

/-- Every text of the grammar is read; exactly one call per item is made on the builder. -/
theorem dimacs_ok {f : Fmt} {n : Nat} {top : Int} {ms : Bool} {xs : List (Int × Item)} {s : Text}
    (h : Doc f n top (if ms then 1 else 0) xs s) : dimacs ms s = .ok (⟨n, top, f.w, f.p⟩, xs.map itemCall) := by
  obtain ⟨a, b, rfl, ha, hb⟩ := h
  rw [dimacs, attach_ok ha]
  have := items_ok (hw := top) hb (b.length + 1) b.length (by omega) (Nat.le_refl _)
  show (items ⟨n, top, f.w, f.p⟩ ms (b.length + 1) b >>= fun cs => (.ok (_, cs) : Except PErr (Hdr × List Call))) = _
  rw [items]
  replace this : more ⟨n, top, f.w, f.p⟩ ms (items ⟨n, top, f.w, f.p⟩ ms b.length) (skipLines 'c' b.length b) = .ok (xs.map itemCall) := this
  rw [this]
  rfl

/-! ### Meaning -/

theorem sat_toLit (M : Asg) (l : Int) : M.sat (toLit l) ↔ LitTrue M l := by
  unfold Asg.sat toLit LitTrue Lit.tv
  by_cases h : l < 0
  · rw [if_pos h]; simp [h]
  · rw [if_neg h]; simp [h]

theorem val_terms (M : Asg) (ts : List (Int × Int)) : val M (ts.map fun t => ⟨toLit t.2, t.1⟩) = sumOf M ts := by
  unfold val sumOf
  rw [List.map_map]
  congr 1
  refine List.map_congr_left fun t _ => ?_
  show (if M.sat (toLit t.2) then t.1 else 0) = _
  by_cases h : LitTrue M t.2
  · rw [if_pos h, if_pos ((sat_toLit M _).2 h)]
  · rw [if_neg h, if_neg (fun h' => h ((sat_toLit M _).1 h'))]

theorem val_neg (M : Asg) (ts : List (Int × Int)) : val M (ts.map fun t => ⟨toLit t.2, -t.1⟩) = -sumOf M ts := by
  rw [← val_terms]
  induction ts with
  | nil => rfl
  | cons t ts ih =>
    have e1 : ∀ (x : WL) (l : List WL), val M (x :: l) = (if M.sat x.lit then x.w else 0) + val M l := fun x l => by simp [val]
    rw [List.map_cons, List.map_cons, e1, e1, ih]
    simp only
    split <;> omega

theorem itemCall_hard {top : Int} {M : Asg} (x : Int × Item) :
    (itemCall x).hard top M ↔ ((match x.2 with | .clause _ => x.1 = top | .lin _ _ _ => True) → x.2.sat M) := by
  obtain ⟨cw, x⟩ := x
  cases x with
  | clause ls =>
    show (cw = top → M.satC (ls.map toLit)) ↔ (cw = top → ∃ l ∈ ls, LitTrue M l)
    refine imp_congr_right fun _ => ?_
    unfold Asg.satC
    constructor
    · rintro ⟨p, hp, hs⟩
      obtain ⟨l, hl, rfl⟩ := List.mem_map.mp hp
      exact ⟨l, hl, (sat_toLit M l).1 hs⟩
    · rintro ⟨l, hl, hs⟩
      exact ⟨toLit l, List.mem_map_of_mem hl, (sat_toLit M l).2 hs⟩
  | lin ts ge b =>
    show (linCall ts ge b).hard top M ↔ (True → Item.sat M (.lin ts ge b))
    rw [true_imp_iff]
    cases ge with
    | true => show holds M _ b ↔ _; unfold holds; rw [val_terms]; rfl
    | false =>
      show holds M _ (-b) ↔ sumOf M ts ≤ b
      unfold holds; rw [val_neg]
      constructor <;> intro h <;> omega

theorem itemCall_cost {top : Int} {M : Asg} (x : Int × Item) : (itemCall x).cost top M = itemCost top M x := by
  obtain ⟨cw, x⟩ := x
  cases x with
  | clause ls =>
    show (if cw = top then 0 else penalty M (ls.map toLit) cw) = itemCost top M (cw, .clause ls)
    rw [itemCost]
    have hs : M.satC (ls.map toLit) ↔ Item.sat M (.clause ls) := by
      have := itemCall_hard (top := cw) (M := M) (cw, .clause ls)
      exact ⟨fun h => this.1 (fun _ => h) rfl, fun h => this.2 (fun _ => h) rfl⟩
    unfold penalty
    by_cases h : cw = top
    · rw [if_pos h, if_pos (.inl h)]
    · rw [if_neg h]
      by_cases h2 : M.satC (ls.map toLit)
      · rw [if_pos h2, if_pos (.inr (hs.1 h2))]
      · rw [if_neg h2, if_neg (not_or.mpr ⟨h, fun h3 => h2 (hs.2 h3)⟩)]
  | lin ts ge b => cases ge <;> rfl

theorem witem_le {f n d x t} (h : WItem f n d x t) : (itemCall x).le n := by
  have hl : ∀ l : Int, LitOk n l → (toLit l).var ≤ n := fun l hl => by
    have := hl.2
    show l.natAbs ≤ n
    omega
  have hlin : ∀ (ts : List (Int × Int)) (ge : Bool) (b : Int), (∀ t ∈ ts, LitOk n t.2) → (linCall ts ge b).le n := by
    intro ts ge b ht
    cases ge with
    | true => intro x hx; obtain ⟨t, h1, rfl⟩ := List.mem_map.mp hx; exact hl _ (ht t h1)
    | false => intro x hx; obtain ⟨t, h1, rfl⟩ := List.mem_map.mp hx; exact hl _ (ht t h1)
  have key : ∀ cw x t, ItemTxt f n x t → (itemCall (cw, x)).le n := by
    intro cw x t h
    cases h with
    | clause h _ => intro p hp; obtain ⟨l, h1, rfl⟩ := List.mem_map.mp hp; exact hl l (h.rng l h1)
    | card _ h _ => exact hlin _ _ _ fun t ht => by obtain ⟨l, h1, rfl⟩ := List.mem_map.mp ht; exact h.rng l h1
    | pb _ _ h _ => exact hlin _ _ _ h.rng.2
    | atLeast _ _ _ _ _ _ _ h _ => exact hlin _ _ _ fun t ht => by obtain ⟨l, h1, rfl⟩ := List.mem_map.mp ht; exact h.rng l h1
  cases h with
  | plain _ h => exact key _ _ _ h
  | weighted _ _ _ _ h => exact key _ _ _ h

theorem body_le {f n d xs s} (h : Body f n d xs s) : ∀ x ∈ xs, (itemCall x).le n := by
  induction h with
  | nil => exact fun _ h => (nomatch h)
  | last => exact fun _ h => (nomatch h)
  | comment _ _ _ ih => exact ih
  | item _ h2 _ _ ih =>
    intro x hx
    rcases List.mem_cons.mp hx with rfl | hx
    · exact witem_le h2
    · exact ih x hx

/-- Every text of the grammar is accepted, and the calls made on the builder require exactly what the format says: the hard clauses
and constraints, and the costs of the soft clauses. -/
theorem C34_dimacs {f : Fmt} {n : Nat} {top : Int} {ms : Bool} {xs : List (Int × Item)} {s : Text}
    (h : Doc f n top (if ms then 1 else 0) xs s) : ∃ hd cs, dimacs ms s = .ok (hd, cs) ∧ hd.nv = n ∧ hd.hw = top ∧ (∀ c ∈ cs, c.le n) ∧
      ∀ M, ((∀ c ∈ cs, c.hard top M) ↔ HardSat top xs M) ∧ costs top cs M = softCost top xs M := by
  refine ⟨_, _, dimacs_ok h, rfl, rfl, ?_, fun M => ⟨?_, ?_⟩⟩
  · obtain ⟨a, b, rfl, ha, hb⟩ := h
    intro c hc
    obtain ⟨x, hx, rfl⟩ := List.mem_map.mp hc
    exact body_le hb x hx
  · unfold HardSat
    rw [List.forall_mem_map]
    exact forall_congr' fun x => imp_congr_right fun _ => itemCall_hard x
  · unfold costs softCost
    rw [List.map_map]
    congr 1
    exact List.map_congr_left fun x _ => itemCall_cost x

theorem HardSat.congr {f : Fmt} {n : Nat} {top d : Int} {xs : List (Int × Item)} {s : Text} (h : Doc f n top d xs s) {M M' : Asg}
    (hag : ∀ v, 1 ≤ v → v ≤ n → M' v = M v) : (HardSat top xs M' ↔ HardSat top xs M) ∧ softCost top xs M' = softCost top xs M := by
  obtain ⟨a, b, rfl, ha, hb⟩ := h
  have hlit : ∀ l, LitOk n l → (LitTrue M' l ↔ LitTrue M l) := fun l hl => by
    unfold LitTrue
    have h1 := hl.1
    have h2 := hl.2
    rw [hag l.natAbs (by omega) (by omega)]
  have hsum : ∀ ts : List (Int × Int), (∀ t ∈ ts, LitOk n t.2) → sumOf M' ts = sumOf M ts := by
    intro ts ht
    unfold sumOf
    congr 1
    refine List.map_congr_left fun t h => ?_
    have := hlit t.2 (ht t h)
    by_cases h : LitTrue M t.2
    · rw [if_pos h, if_pos (this.2 h)]
    · rw [if_neg h, if_neg (fun h' => h (this.1 h'))]
  have hitem : ∀ x t, ItemTxt f n x t → (x.sat M' ↔ x.sat M) := by
    intro x t h
    have hlin : ∀ (ts : List (Int × Int)) (ge : Bool) (b : Int), (∀ t ∈ ts, LitOk n t.2) → (Item.sat M' (.lin ts ge b) ↔ Item.sat M (.lin ts ge b)) := by
      intro ts ge b ht
      cases ge with
      | true => show sumOf M' ts ≥ b ↔ sumOf M ts ≥ b; rw [hsum ts ht]
      | false => show sumOf M' ts ≤ b ↔ sumOf M ts ≤ b; rw [hsum ts ht]
    cases h with
    | clause h _ => exact exists_congr fun l => and_congr_right fun hl => hlit l (h.rng l hl)
    | card _ h _ => exact hlin _ _ _ fun t ht => by obtain ⟨l, h1, rfl⟩ := List.mem_map.mp ht; exact h.rng l h1
    | pb _ _ h _ => exact hlin _ _ _ h.rng.2
    | atLeast _ _ _ _ _ _ _ h _ => exact hlin _ _ _ fun t ht => by obtain ⟨l, h1, rfl⟩ := List.mem_map.mp ht; exact h.rng l h1
  have hx : ∀ x ∈ xs, (x.2.sat M' ↔ x.2.sat M) := by
    clear ha
    induction hb with
    | nil => exact fun _ h => (nomatch h)
    | last => exact fun _ h => (nomatch h)
    | comment _ _ _ ih => exact ih
    | item _ h2 _ _ ih =>
      intro x hx
      rcases List.mem_cons.mp hx with rfl | hx
      · cases h2 with
        | plain _ h => exact hitem _ _ h
        | weighted _ _ _ _ h => exact hitem _ _ h
      · exact ih x hx
  refine ⟨forall_congr' fun x => forall_congr' fun h => imp_congr_right fun _ => hx x h, ?_⟩
  unfold softCost
  congr 1
  refine List.map_congr_left fun x h => ?_
  have := hx x h
  obtain ⟨cw, x⟩ := x
  cases x with
  | lin => rfl
  | clause ls =>
    rw [itemCost, itemCost]
    by_cases h : cw = top ∨ Item.sat M (.clause ls)
    · rw [if_pos h, if_pos (h.imp_right this.2)]
    · rw [if_neg h, if_neg (fun h' => h (h'.imp_right this.1))]

/-- From the text to the solver: the models of the problem given to the solver, restricted to the variables of the text, are the
assignments the text describes; the costs of a model are at least those of the text, and some model has exactly these costs. -/
theorem C34_dimacs_models {pr : Db → Option Top} (hp : Prop1.Law pr) {f : Fmt} {n : Nat} {top : Int} {ms : Bool} {xs : List (Int × Item)}
    {s : Text} (h : Doc f n top (if ms then 1 else 0) xs s) {hd : Hdr} {cs : List Call} (hd' : dimacs ms s = .ok (hd, cs)) {st : Sat}
    (hst : Sat.calls pr cs (Sat.prepare pr hd.nv hd.hw) = .ok st) (elim : Bool) :
    (∀ M, (st.doEnd elim).1.Models M → HardSat top xs M ∧ softCost top xs M ≤ val M (st.doEnd elim).1.mini) ∧
    ∀ M, HardSat top xs M → ∃ M' : Asg, (∀ v, 1 ≤ v → v ≤ n → M' v = M v) ∧ (st.doEnd elim).1.Models M' ∧
      val M' (st.doEnd elim).1.mini = softCost top xs M := by
  obtain ⟨hd2, cs2, e, h1, h2, h3, h4⟩ := C34_dimacs h
  rw [e] at hd'
  cases hd'
  rw [h1, h2] at hst
  refine ⟨fun M hM => ?_, fun M hM => ?_⟩
  · obtain ⟨a, b⟩ := C34_sat_sound hp hst M hM
    exact ⟨(h4 M).1.1 a, by rw [← (h4 M).2]; exact b⟩
  · have hag : ∀ v, 1 ≤ v → v ≤ n → Function.update M 0 true v = M v := fun v hv _ => Function.update_of_ne (by omega) _ _
    obtain ⟨g1, g2⟩ := HardSat.congr h hag
    obtain ⟨M', a, b, c⟩ := C34_sat_complete hp hst (elim := elim) h3 (Function.update M 0 true) (Function.update_self ..)
      ((h4 _).1.2 (g1.2 hM))
    exact ⟨M', fun v hv hv' => (a v hv').trans (hag v hv hv'), b, c.trans ((h4 _).2.trans g2)⟩

/-! ### Example -/

namespace DimacsEx

/-- Example: `c hi / p wcnf+ 3 2 10 / 10 1 -2 0 / c x / 3 w 2*1 -1 +3 >= 1 / 2 -3 0` -/
def text : Text := ['c', ' ', 'h', 'i', '\n', 'p', ' ', 'w', 'c', 'n', 'f', '+', ' ', '3', ' ', '2', ' ', '1', '0', '\n',
  '1', '0', ' ', '1', ' ', '-', '2', ' ', '0', '\n', 'c', ' ', 'x', '\n',
  '3', ' ', 'w', ' ', '2', '*', '1', ' ', '-', '1', ' ', '+', '3', ' ', '>', '=', ' ', '1', '\n', '2', ' ', '-', '3', ' ', '0']

/-- Example: what it contains -/
def its : List (Int × Item) := [(10, .clause [1, -2]), (3, .lin [(2, 1), (-1, 3)] true 1), (2, .clause [-3])]

theorem ws1 : Ws1 [' '] := ⟨by simp, by intro c hc; simp at hc; rw [hc]; decide⟩
theorem ws0 : Ws [] := fun _ h => nomatch h
theorem nl : Ws ['\n'] := by intro c hc; simp at hc; rw [hc]; decide
theorem num (d : Nat) (h : d < 10) : Num d [Char.ofNat (48 + d)] := .plain (.one d h)
theorem num10 : Num 10 ['1', '0'] := .plain (.snoc (n := 1) 0 (by omega) (.one 1 (by omega)))
theorem minus (d : Nat) (h : d < 10) : Num (-d) ['-', Char.ofNat (48 + d)] := .minus (.one d h)

/- the text belongs to the grammar -/
example : Doc .wcnfp 3 10 0 its text := by
  refine ⟨text.take 20, text.drop 20, (List.take_append_drop 20 text).symm, ?_, ?_⟩
  · exact .mk (cs := ['c', ' ', 'h', 'i', '\n']) (u := []) (a := ['3']) (w := [' ']) (b := ['2']) (x := [' ', '1', '0']) (m := 2)
      (.cons (t := [' ', 'h', 'i']) (by unfold Line; decide) .nil) (by omega) (by omega) ws0 (num 3 (by omega)) ws1 (num 2 (by omega))
      (.some (w := [' ']) (a := ['1', '0']) (v := []) rfl (by omega) (by intro c hc; simpa using hc) (by simp) num10 (fun _ h => nomatch h))
  · refine .item (w := []) (t := ['1', '0', ' ', '1', ' ', '-', '2', ' ', '0']) ws0
      (.weighted rfl (by omega) num10 ws1 (.clause (.cons (s := ['-', '2', ' ']) (by unfold LitOk; omega) (num 1 (by omega)) ws1
        (.cons (s := []) (by unfold LitOk; omega) (minus 2 (by omega)) ws1 .nil)) (num 0 (by omega)))) (by intro c hc; cases hc; decide) ?_
    refine .comment (w := ['\n']) (t := [' ', 'x']) nl (by unfold Line; decide) ?_
    refine .item (w := []) (t := ['3', ' ', 'w', ' ', '2', '*', '1', ' ', '-', '1', ' ', '+', '3', ' ', '>', '=', ' ', '1']) ws0
      (.weighted (cw := 3) (s := ['w', ' ', '2', '*', '1', ' ', '-', '1', ' ', '+', '3', ' ', '>', '=', ' ', '1']) rfl (by omega) (num 3 (by omega)) ws1
        (.pb (w := [' ']) (s := ['2', '*', '1', ' ', '-', '1', ' ', '+', '3', ' ']) rfl ws1.ws
          (.star (u := []) (v := []) (w := [' ']) (s := ['-', '1', ' ', '+', '3', ' ']) (by unfold MAXW; omega) (by unfold MAXW; omega) (by unfold LitOk; omega) (num 2 (by omega)) ws0 ws0 (num 1 (by omega)) ws1
            (.blank (u := [' ']) (w := [' ']) (s := []) (by unfold MAXW; omega) (by unfold MAXW; omega) (by unfold LitOk; omega) (minus 1 (by omega)) ws1
              (b := ['+', '3']) (.plus (.one 3 (by omega))) ws1 .nil))
          (.ge (w := []) (by unfold MAXW; omega) (by unfold MAXW; omega) ws0 (num 1 (by omega)))))
      (by intro c hc; cases hc; decide) ?_
    exact .item (w := ['\n']) (t := ['2', ' ', '-', '3', ' ', '0']) (s := []) nl
      (.weighted (cw := 2) rfl (by omega) (num 2 (by omega)) ws1 (.clause (ls := [-3]) (.cons (s := []) (by unfold LitOk; omega) (minus 3 (by omega)) ws1 .nil) (num 0 (by omega))))
      (fun _ h => nomatch h) (.nil ws0)

/- and is read accordingly -/
example : (dimacs false text).toOption.map (fun r => (r.1, r.2.length)) = some (⟨3, 10, true, true⟩, 3) := by decide +kernel

/-- `<= -2147483648` is in the range of bounds but cannot be negated with 32 bits (parser.cpp:363-369). -/
theorem C34_dimacs_overflow : rhs [⟨⟨1, false⟩, 1⟩] ['<', '=', ' ', '-', '2', '1', '4', '7', '4', '8', '3', '6', '4', '8'] = .error .overflow := by
  rfl

end DimacsEx

end Clasp.Input
