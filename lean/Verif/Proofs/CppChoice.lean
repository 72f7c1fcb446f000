import Verif.Proofs.CppFollowReach
import Verif.Spec.CppChoice
import Mathlib.Algebra.Order.BigOperators.Group.List

/-!
# The links that vehicles of the C++ engine without a specified route enter
-/

namespace UX.Cpp
open CWorld Relation Spec

/-! ## The filters -/

/-- The links left by the first two filters. -/
theorem open_iff {W : CWorld} (i : Inv W none none) (v n c : ℕ) :
    c ∈ W.avoidFilter v (W.preferFilter v (W.node n).outLinks) ↔ Open W v n c := by
  have hav : ∀ ls c, c ∈ W.avoidFilter v ls ↔ c ∈ ls ∧ c ∉ (W.veh v).avoid := by
    intro ls c
    simp [avoidFilter]
  have hpr : ∀ c, c ∈ W.preferFilter v (W.node n).outLinks ↔ c < W.g.nLinks ∧ (W.link c).src = n ∧
      ((∃ d, d < W.g.nLinks ∧ (W.link d).src = n ∧ d ∈ (W.veh v).prefer) → c ∈ (W.veh v).prefer) := by
    intro c
    unfold preferFilter
    split
    · rename_i he
      rw [List.filter_eq_nil_iff] at he
      rw [i.outL n c]
      refine ⟨fun hc => ⟨hc.1, hc.2, fun ⟨d, d1, d2, d3⟩ => ?_⟩, fun hc => ⟨hc.1, hc.2.1⟩⟩
      exact absurd (by simpa using d3) (he d ((i.outL n d).2 ⟨d1, d2⟩))
    · rename_i he
      rw [List.mem_filter, i.outL n c]
      refine ⟨fun hc => ⟨hc.1.1, hc.1.2, fun _ => by simpa using hc.2⟩, fun hc => ⟨⟨hc.1, hc.2.1⟩, ?_⟩⟩
      obtain ⟨d, hd⟩ := List.exists_mem_of_ne_nil _ he
      obtain ⟨d1, d2⟩ := List.mem_filter.1 hd
      obtain ⟨d3, d4⟩ := (i.outL n d).1 d1
      simpa using hc.2.2 ⟨d, d3, d4, by simpa using d2⟩
  rw [hav, hpr]
  unfold Open
  tauto

/-- The links left by all filters are those that may be entered. -/
theorem pick_iff {W : CWorld} (i : Inv W none none) {v n b : ℕ} {P : List ℕ}
    (hP : ∀ m, (W.veh v).visited m = true ↔ ∃ l ∈ P, (W.link l).src = m) :
    b ∈ W.cyclicFilter v (W.avoidFilter v (W.preferFilter v (W.node n).outLinks)) ↔
      (W.link b).src = n ∧ Fair W v P b := by
  have hopen := open_iff i v n
  generalize W.avoidFilter v (W.preferFilter v (W.node n).outLinks) = o at hopen
  constructor
  · intro h
    have hb := (hopen b).1 (cyclicFilter_sub W v o h)
    refine ⟨hb.2.1, by rw [hb.2.1]; exact hb, fun hc hs c ho => ?_⟩
    rw [hb.2.1, ← hopen] at ho
    unfold cyclicFilter at h
    rw [if_pos hc] at h
    split at h
    · rename_i he
      rw [List.filter_eq_nil_iff] at he
      exact (hP _).1 (by simpa using he c ho)
    · have h2 := (List.mem_filter.1 h).2
      rw [(hP _).2 hs] at h2
      simp at h2
  · rintro ⟨rfl, h1, h2⟩
    have hbo := (hopen b).2 h1
    unfold cyclicFilter
    split
    · rename_i hc
      split
      · exact hbo
      · rename_i he
        rw [List.mem_filter]
        refine ⟨hbo, ?_⟩
        obtain ⟨c, hcm⟩ := List.exists_mem_of_ne_nil _ he
        obtain ⟨c1, c2⟩ := List.mem_filter.1 hcm
        by_contra hb
        have hb' : (W.veh v).visited (W.link b).dst = true := by simpa using hb
        have := (hP _).2 (h2 hc ((hP _).1 hb') c ((hopen c).1 c1))
        rw [this] at c2
        simp at c2
    · exact hbo

/-- A link left by the filters may be entered. -/
theorem pick_fair {W : CWorld} (i : Inv W none none) {v n b : ℕ}
    (h : b ∈ W.cyclicFilter v (W.avoidFilter v (W.preferFilter v (W.node n).outLinks))) {P : List ℕ}
    (hP : ∀ m, (W.veh v).visited m = true ↔ ∃ l ∈ P, (W.link l).src = m) : Fair W v P b :=
  ((pick_iff i hP).1 h).2

/-! ## The draw -/

theorem foldl_best (ps : List (ℚ × ℕ)) (p : ℚ × ℕ) :
    ∃ xs b ys, p :: ps = xs ++ b :: ys ∧
      ps.foldl (fun best q => if best.1 < q.1 then q else best) p = b ∧
      (∀ c ∈ xs, c.1 < b.1) ∧ ∀ c ∈ ys, c.1 ≤ b.1 := by
  induction ps using List.reverseRecOn with
  | nil => exact ⟨[], p, [], rfl, rfl, by simp, by simp⟩
  | append_singleton ps q ih =>
    obtain ⟨xs, b, ys, h1, h2, h3, h4⟩ := ih
    rw [List.foldl_append, h2]
    simp only [List.foldl_cons, List.foldl_nil]
    split
    · rename_i hlt
      refine ⟨p :: ps, q, [], by simp, rfl, fun c hc => ?_, by simp⟩
      rw [h1] at hc
      rcases List.mem_append.1 hc with hc | hc
      · exact (h3 c hc).trans hlt
      · rcases List.mem_cons.1 hc with rfl | hc
        · exact hlt
        · exact lt_of_le_of_lt (h4 c hc) hlt
    · rename_i hle
      refine ⟨xs, b, ys ++ [q], ?_, rfl, h3, fun c hc => ?_⟩
      · have : p :: (ps ++ [q]) = (p :: ps) ++ [q] := rfl
        rw [this, h1]; simp
      · rcases List.mem_append.1 hc with hc | hc
        · exact h4 c hc
        · rw [List.mem_singleton.1 hc]; exact not_lt.1 hle

theorem zip_map_self (f : ℕ → ℚ) (ls : List ℕ) : (ls.map f).zip ls = ls.map (fun l => (f l, l)) := by
  induction ls with
  | nil => rfl
  | cons a t ih => simp [ih]

theorem firstMax_best {f : ℕ → ℚ} {ls : List ℕ} {b : ℕ} (h : firstMax ((ls.map f).zip ls) = some b) :
    FirstBest f ls b := by
  rw [zip_map_self] at h
  cases ls with
  | nil => simp [firstMax] at h
  | cons a t =>
    rw [List.map_cons, firstMax, Option.some.injEq] at h
    obtain ⟨xs, q, ys, h1, h2, h3, h4⟩ := foldl_best (t.map fun l => (f l, l)) (f a, a)
    rw [h2] at h
    subst h
    have e : (a :: t).map (fun l => (f l, l)) = xs ++ q :: ys := h1
    obtain ⟨l1, l2, e1, e2, e3⟩ := List.map_eq_append_iff.1 e
    obtain ⟨c, l3, f1, f2, f3⟩ := List.map_eq_cons_iff.1 e3
    subst f2
    refine ⟨l1, l3, by rw [e1, f1], fun d hd => ?_, fun d hd => ?_⟩
    · exact h3 (f d, d) (by rw [← e2]; exact List.mem_map.2 ⟨d, hd, rfl⟩)
    · exact h4 (f d, d) (by rw [← f3]; exact List.mem_map.2 ⟨d, hd, rfl⟩)

theorem firstMax_some {ps : List (ℚ × ℕ)} (h : ps ≠ []) : ∃ a, firstMax ps = some a := by
  cases ps with
  | nil => exact absurd rfl h
  | cons p t => exact ⟨_, rfl⟩

theorem randomChoice_some {fl : ℚ → ℚ} {ls : List ℕ} {ws : List ℚ} (rng : ℕ → ℕ) (h : ls ≠ [])
    (hl : ls.length = ws.length) : ∃ a, (randomChoice fl ls ws rng).1 = some a := by
  have hpos : 0 < ls.length := List.length_pos_iff.2 h
  unfold randomChoice
  rw [if_neg (by rintro (hc | hc); exact h hc; exact hc hl)]
  simp only
  split
  · have : uniInt (rng 0) (ls.length - 1) < ls.length := by
      unfold uniInt
      have := Nat.mod_lt (rng 0) (show 0 < ls.length - 1 + 1 by omega)
      omega
    exact ⟨_, List.getElem?_eq_getElem this⟩
  · split
    · exact ⟨_, rfl⟩
    · exact ⟨_, List.getLast?_eq_some_getLast h⟩

theorem scanPick_pos {r acc : ℚ} {f : ℕ → ℚ} {ls : List ℕ} (hf : ∀ l ∈ ls, 0 ≤ f l) (hr : acc < r) {b : ℕ}
    (h : scanPick id r acc (ls.map (fun l => (f l, l))) = some b) : 0 < f b := by
  induction ls generalizing acc with
  | nil => simp [scanPick] at h
  | cons a t ih =>
    simp only [List.map_cons, scanPick, id_eq] at h
    split at h
    · rename_i hle
      rw [Option.some.injEq] at h
      subst h
      linarith
    · rename_i hgt
      exact ih (fun l hl => hf l (List.mem_cons_of_mem _ hl)) (not_le.1 hgt) h

theorem scanPick_ok {r acc : ℚ} {f : ℕ → ℚ} {ls : List ℕ} (hr : r ≤ acc + (ls.map f).sum) (h : ls ≠ []) :
    ∃ b, scanPick id r acc (ls.map (fun l => (f l, l))) = some b := by
  induction ls generalizing acc with
  | nil => exact absurd rfl h
  | cons a t ih =>
    simp only [List.map_cons, scanPick, id_eq]
    split
    · exact ⟨a, rfl⟩
    · rename_i hgt
      have hr' : r ≤ acc + f a + (t.map f).sum := by
        rw [List.map_cons, List.sum_cons] at hr; linarith
      refine ih hr' ?_
      rintro rfl
      simp at hr'
      exact hgt hr'

theorem foldl_prefSum (ws : List ℚ) (a : ℚ) : ws.foldl (fun s w => id (s + w)) a = a + ws.sum := by
  induction ws generalizing a with
  | nil => simp
  | cons w t ih => rw [List.foldl_cons, ih, List.sum_cons, id_eq]; ring

/-- In exact arithmetic a weighted draw with a positive raw number has positive weight. -/
theorem randomChoice_pos {f : ℕ → ℚ} {ls : List ℕ} {rng : ℕ → ℕ} (hf : ∀ l ∈ ls, 0 ≤ f l)
    (hs : ∃ l ∈ ls, 0 < f l) (hr : rng 0 % 2 ^ 53 ≠ 0) {b : ℕ}
    (h : (randomChoice id ls (ls.map f) rng).1 = some b) : 0 < f b := by
  obtain ⟨l, hl, hl0⟩ := hs
  have hne : ls ≠ [] := List.ne_nil_of_mem hl
  have hsum : 0 < (ls.map f).sum :=
    lt_of_lt_of_le hl0 (List.single_le_sum (by simpa using hf) _ (List.mem_map.2 ⟨l, hl, rfl⟩))
  unfold randomChoice at h
  rw [if_neg (by rintro (hc | hc); exact hne hc; exact hc (by simp))] at h
  simp only [foldl_prefSum, zero_add] at h
  rw [if_neg (not_le.2 hsum), zip_map_self] at h
  have hu0 : 0 < unitDraw (rng 0) := by
    unfold unitDraw
    have : (0 : ℚ) < ((rng 0 % 2 ^ 53 : ℕ) : ℚ) := by exact_mod_cast Nat.pos_of_ne_zero hr
    positivity
  have hu1 : unitDraw (rng 0) ≤ 1 := by
    unfold unitDraw
    rw [div_le_one (by positivity)]
    have := Nat.mod_lt (rng 0) (show 0 < 2 ^ 53 by positivity)
    exact_mod_cast this.le
  obtain ⟨c, hc⟩ := scanPick_ok (r := id ((ls.map f).sum * unitDraw (rng 0))) (acc := 0) (f := f) (ls := ls)
    (by rw [zero_add, id_eq]; exact mul_le_of_le_one_right hsum.le hu1) hne
  rw [hc] at h
  simp only [Option.some.injEq] at h
  subst h
  exact scanPick_pos hf (by rw [id_eq]; positivity) hc

/-- What the draw without a specified route gives. -/
theorem chooseNext_draws {W : CWorld} {v : ℕ} {ls : List ℕ} (rng : ℕ → ℕ) (hr : (W.veh v).route = [])
    (ho : W.avoidFilter v (W.preferFilter v ls) ≠ []) :
    W.chooseNext v ls rng = .ok (W.drawLink v (W.cyclicFilter v (W.avoidFilter v (W.preferFilter v ls))) rng) := by
  have hls : ls ≠ [] := by
    rintro rfl
    exact ho (by simp [preferFilter, avoidFilter])
  unfold chooseNext
  rw [if_neg hls, if_neg (fun h => h hr)]
  simp only
  rw [if_neg ho]

theorem cyclicFilter_ne {W : CWorld} {v : ℕ} {o : List ℕ} (h : o ≠ []) : W.cyclicFilter v o ≠ [] := by
  unfold cyclicFilter
  split
  · split
    · exact h
    · assumption
  · exact h

theorem drawLink_some {W : CWorld} {v : ℕ} {o : List ℕ} (h : o ≠ []) (rng : ℕ → ℕ) :
    ∃ b, (W.drawLink v o rng).1 = some b := by
  unfold drawLink
  split
  · exact firstMax_some (by
      rw [zip_map_self]
      intro hc
      exact h (List.map_eq_nil_iff.1 hc))
  · exact randomChoice_some rng h (by simp)

theorem filters_sublist (W : CWorld) (v : ℕ) (ls : List ℕ) :
    (W.cyclicFilter v (W.avoidFilter v (W.preferFilter v ls))).Sublist ls := by
  have h1 : (W.preferFilter v ls).Sublist ls := by
    unfold preferFilter
    split
    · exact List.Sublist.refl _
    · exact List.filter_sublist
  have h2 : ∀ o, (W.cyclicFilter v o).Sublist o := by
    intro o
    unfold cyclicFilter
    split
    · split
      · exact List.Sublist.refl _
      · exact List.filter_sublist
    · exact List.Sublist.refl _
  exact (h2 _).trans (List.filter_sublist.trans h1)

/-! ## The walk of a vehicle -/

/-- The fields of a vehicle that matter. -/
def CVeh.wkey (V : CVeh) := (V.state, V.link, V.next, V.count, V.route, V.log, V.visited)

/-- `V` has entered the links `P`, in this order; `r` says that it waits in a transfer buffer, `S` gives
the begin of a link, `F` says which link may follow. -/
structure Walk (S : ℕ → ℕ) (F : List ℕ → ℕ → Prop) (r : Prop) (V : CVeh) (P : List ℕ) : Prop where
  fresh : V.state = .home ∨ V.state = .wait → P = [] ∧ ∀ e ∈ V.log, e.link = none
  len : P.length = V.count
  seen : ∀ n, V.visited n = true ↔ ∃ l ∈ P, S l = n
  on : V.state = .run → ∃ l, V.link = some l ∧ P.getLast? = some l
  sub : V.trace.Sublist P
  last : V.state = .run → V.trace.Sublist P.dropLast ∨ lastLink none (V.log.map CLog.link) = V.link
  fair : V.route = [] → ∀ k b, P[k]? = some b → F (P.take k) b
  asks : V.route = [] → r → V.next = none ∨ ∃ b, V.next = some b ∧ F P b

def Walked (S : ℕ → ℕ) (F : List ℕ → ℕ → Prop) (r : Prop) (V : CVeh) : Prop := ∃ P, Walk S F r V P

variable {S : ℕ → ℕ} {F : List ℕ → ℕ → Prop}

theorem Walked.mono {r r' : Prop} {V V' : CVeh} (h : Walked S F r V) (hr : r' → r) (hk : V'.wkey = V.wkey) :
    Walked S F r' V' := by
  have e1 : V'.state = V.state := congrArg (fun p => p.1) hk
  have e2 : V'.link = V.link := congrArg (fun p => p.2.1) hk
  have e3 : V'.next = V.next := congrArg (fun p => p.2.2.1) hk
  have e4 : V'.count = V.count := congrArg (fun p => p.2.2.2.1) hk
  have e5 : V'.route = V.route := congrArg (fun p => p.2.2.2.2.1) hk
  have e6 : V'.log = V.log := congrArg (fun p => p.2.2.2.2.2.1) hk
  have e7 : V'.visited = V.visited := congrArg (fun p => p.2.2.2.2.2.2) hk
  have e8 : V'.trace = V.trace := by unfold CVeh.trace; rw [e6]
  obtain ⟨P, h⟩ := h
  refine ⟨P, ?_, ?_, ?_, ?_, ?_, ?_, ?_, ?_⟩
  · rw [e1, e6]; exact h.fresh
  · rw [e4]; exact h.len
  · rw [e7]; exact h.seen
  · rw [e1, e2]; exact h.on
  · rw [e8]; exact h.sub
  · rw [e1, e2, e6, e8]; exact h.last
  · rw [e5]; exact h.fair
  · rw [e3, e5]; exact fun a b => h.asks a (hr b)

/-- A choice of the next link. -/
theorem Walked.next {r r' : Prop} {V : CVeh} (h : Walked S F r V) (o : Option ℕ)
    (ho : V.route = [] → r' → o = none ∨ ∃ b, o = some b ∧
      ∀ P, (∀ n, V.visited n = true ↔ ∃ l ∈ P, S l = n) → F P b) :
    Walked S F r' { V with next := o } := by
  obtain ⟨P, h⟩ := h
  refine ⟨P, h.fresh, h.len, h.seen, h.on, h.sub, h.last, h.fair, fun a b => ?_⟩
  rcases ho a b with hb | ⟨b, h1, h2⟩
  · exact Or.inl hb
  · exact Or.inr ⟨b, h1, h2 P h.seen⟩

theorem seen_snoc {P : List ℕ} {vis : ℕ → Bool} (h : ∀ n, vis n = true ↔ ∃ l ∈ P, S l = n) (b : ℕ) (n : ℕ) :
    upd vis (S b) true n = true ↔ ∃ l ∈ P ++ [b], S l = n := by
  unfold upd
  split
  · rename_i e
    exact ⟨fun _ => ⟨b, by simp, e.symm⟩, fun _ => rfl⟩
  · rename_i e
    rw [h n]
    constructor
    · rintro ⟨l, hl, hn⟩; exact ⟨l, List.mem_append_left _ hl, hn⟩
    · rintro ⟨l, hl, hn⟩
      rcases List.mem_append.1 hl with hl | hl
      · exact ⟨l, hl, hn⟩
      · rw [List.mem_singleton.1 hl] at hn; exact absurd hn.symm e

theorem fair_snoc {P : List ℕ} (h : ∀ k b, P[k]? = some b → F (P.take k) b) {b : ℕ} (hb : F P b) (k c : ℕ)
    (hc : (P ++ [b])[k]? = some c) : F ((P ++ [b]).take k) c := by
  by_cases hk : k < P.length
  · rw [List.getElem?_append_left hk] at hc
    rw [List.take_append_of_le_length hk.le]
    exact h k c hc
  · have hk2 : k = P.length := by
      have := lt_of_getElem? hc
      rw [List.length_append, List.length_singleton] at this
      omega
    subst hk2
    rw [List.getElem?_append_right le_rfl] at hc
    simp at hc
    subst hc
    rw [List.take_append_of_le_length le_rfl, List.take_length]
    exact hb

/-- A vehicle leaves its origin. -/
theorem Walked.enter {r : Prop} {V : CVeh} (h : Walked S F r V) (hs : V.state = .home ∨ V.state = .wait) (l : ℕ)
    {sl : ℕ} (hsl : sl = S l)
    (ho : V.route = [] → ∀ P, (∀ n, V.visited n = true ↔ ∃ l ∈ P, S l = n) → F P l) :
    Walked S F False { V with
      state := .run, link := some l, count := V.count + 1, visited := upd V.visited sl true } := by
  obtain ⟨P, h⟩ := h
  subst hsl
  refine ⟨P ++ [l], fun h => by simp at h, ?_, fun n => seen_snoc h.seen l n, fun _ => ⟨l, rfl, by simp⟩,
    h.sub.trans (List.sublist_append_left _ _), fun _ => Or.inl ?_,
    fun hr => fair_snoc (h.fair hr) (ho hr P h.seen), fun _ hf => hf.elim⟩
  · rw [List.length_append, h.len]; rfl
  · rw [List.dropLast_concat]; exact h.sub

/-- A vehicle moves to the link it has asked for. -/
theorem Walked.go {r : Prop} {V : CVeh} (h : Walked S F r V) (hs : V.state = .run) (b : ℕ) {sb : ℕ} (hsb : sb = S b)
    (hr : r) (hn : V.next = some b) :
    Walked S F False { V with link := some b, count := V.count + 1, visited := upd V.visited sb true } := by
  obtain ⟨P, h⟩ := h
  subst hsb
  refine ⟨P ++ [b], fun h => ?_, ?_, fun n => seen_snoc h.seen b n, fun _ => ⟨b, rfl, by simp⟩,
    h.sub.trans (List.sublist_append_left _ _), fun _ => Or.inl ?_,
    fun ho => fair_snoc (h.fair ho) ?_, fun _ hf => hf.elim⟩
  · simp only [hs] at h; simp at h
  · rw [List.length_append, h.len]; rfl
  · rw [List.dropLast_concat]; exact h.sub
  · rcases h.asks ho hr with hc | ⟨c, h1, h2⟩
    · rw [hn] at hc; simp at hc
    · rw [hn] at h1; rw [Option.some.inj h1]; exact h2

/-- The end of a trip. -/
theorem Walked.over {r r' : Prop} {V V' : CVeh} (h : Walked S F r V) (hr : r' → r)
    (hs : V'.state = .ended ∨ V'.state = .abort) (h3 : V'.next = V.next) (h4 : V'.count = V.count)
    (h5 : V'.route = V.route) (h6 : Mute V.log V'.log) (h7 : V'.visited = V.visited) : Walked S F r' V' := by
  have h8 := h6.trace
  obtain ⟨P, h⟩ := h
  refine ⟨P, fun hh => ?_, ?_, ?_, fun hh => ?_, ?_, fun hh => ?_, ?_, ?_⟩
  · rcases hs with hs | hs <;> rw [hs] at hh <;> simp at hh
  · rw [h4]; exact h.len
  · rw [h7]; exact h.seen
  · rcases hs with hs | hs <;> rw [hs] at hh <;> simp at hh
  · rw [h8]; exact h.sub
  · rcases hs with hs | hs <;> rw [hs] at hh <;> simp at hh
  · rw [h5]; exact h.fair
  · rw [h3, h5]; exact fun a b => h.asks a (hr b)

/-- A log entry. -/
theorem Walked.log {r r' : Prop} {V : CVeh} (h : Walked S F r V) (hr : r' → r) {e : CLog}
    (he : e.link = if V.state = .run then V.link else none) : Walked S F r' { V with log := V.log ++ [e] } := by
  obtain ⟨P, h⟩ := h
  by_cases hs : V.state = .run
  · rw [if_pos hs] at he
    obtain ⟨l, h1, h2⟩ := h.on hs
    have hlast : lastLink none ((V.log ++ [e]).map CLog.link) = V.link := by
      rw [List.map_append, List.map_cons, he, h1]; exact lastLink_snoc _ _ _
    refine ⟨P, fun hc => ?_, h.len, h.seen, h.on, ?_, fun _ => Or.inr hlast, h.fair, fun a b => h.asks a (hr b)⟩
    · have hc' : V.state = .home ∨ V.state = .wait := hc
      rw [hs] at hc'; simp at hc'
    · show (names none ((V.log ++ [e]).map CLog.link)).Sublist _
      rw [List.map_append, List.map_cons, he, h1, List.map_nil, names_some]
      split
      · rw [List.append_nil]; exact h.sub
      · rename_i hc
        rcases h.last hs with hl | hl
        · show (V.trace ++ [l]).Sublist P
          rw [← List.dropLast_append_getLast? l h2]
          exact List.Sublist.append hl (List.Sublist.refl _)
        · exact absurd (hl.trans h1) hc
  · rw [if_neg hs] at he
    have h7 : CVeh.trace { V with log := V.log ++ [e] } = V.trace := Mute.trace (Or.inr ⟨e, he, rfl⟩)
    refine ⟨P, fun hh => ⟨(h.fresh hh).1, fun a ha => ?_⟩, h.len, h.seen, h.on, ?_, fun hh => absurd hh hs,
      h.fair, fun a b => h.asks a (hr b)⟩
    · rcases List.mem_append.1 ha with ha | ha
      · exact (h.fresh hh).2 a ha
      · rw [List.mem_singleton.1 ha]; exact he
    · rw [h7]; exact h.sub

theorem setV_wkey (W : CWorld) (v : ℕ) (f : CVeh → CVeh) (h : ∀ V, (f V).wkey = V.wkey) (w : ℕ) :
    ((W.setV v f).veh w).wkey = (W.veh w).wkey := by
  rw [setV_veh]; split
  · rename_i e; subst e; exact h _
  · rfl

theorem Walked.logData {W : CWorld} {v : ℕ} (s : Option ℕ) {w : ℕ} {r r' : Prop} (hr : r' → r)
    (h : Walked S F r (W.veh w)) : Walked S F r' ((W.logData v s).veh w) := by
  rcases logData_cases W v s with e | ⟨e, he, e2⟩
  · rw [e]; exact h.mono hr rfl
  · rw [e2]
    split
    · rename_i hw; subst hw
      exact (h.log hr he).mono (fun h => h) rfl
    · exact h.mono hr rfl

theorem endTripOn_wkey_ne (W : CWorld) {v l w : ℕ} (h : w ≠ v) :
    ((W.endTripOn v l).veh w).wkey = (W.veh w).wkey := by
  rw [endTripOn_veh_ne W v l w h]; rfl

theorem Walked.endTripOn {W : CWorld} {v l : ℕ} {r r' : Prop} (hr : r' → r) (h : Walked S F r (W.veh v)) :
    Walked S F r' ((W.endTripOn v l).veh v) := by
  have e := endTripOn_veh_self W v l
  have a1 := congrArg CVeh.state e
  have a3 := congrArg CVeh.next e
  have a4 := congrArg CVeh.count e
  have a5 := congrArg CVeh.route e
  have a7 := congrArg CVeh.visited e
  refine h.over hr ?_ a3 a4 a5 (endTripOn_quiet W v l) a7
  have a1' : ((W.endTripOn v l).veh v).state = if (W.veh v).flagAbort then .abort else .ended := a1
  rw [a1']
  split
  · exact Or.inr rfl
  · exact Or.inl rfl

theorem Act.walk {s : Stage} {W W' : CWorld} (a : Act s W W') (w : ℕ)
    (h : Walked (fun l => (W.link l).src) (Fair W w) (Req W w) (W.veh w)) :
    Walked (fun l => (W.link l).src) (Fair W w) (Req W' w) (W'.veh w) := by
  cases a with
  | genErr _ n e => exact h.mono (req_setN (by intro N hN; exact hN)) rfl
  | choose _ n v t o rng i hi hq hc =>
    obtain ⟨hvn, hst, hor⟩ := (i.gen n v).1 (by rw [hq]; simp)
    have hr : Req ((W.setN n (fun N => { N with rng := rng })).setV v (fun V => { V with next := o })) w →
        Req W w := fun hr => req_setN (n := n) (f := fun N => { N with rng := rng }) (by intro N hN; exact hN) hr
    by_cases e : w = v
    · subst e
      have hno := wait_not_req i hi hst
      rw [setV_veh, if_pos rfl]
      exact h.next o (fun _ r => absurd (hr r) hno)
    · refine h.mono hr ?_
      rw [setV_veh, if_neg e]; rfl
  | depart _ n v l t i hi hq hl hn hc hch hpk =>
    obtain ⟨hvn, hst, hor⟩ := (i.gen n v).1 (by rw [hq]; simp)
    have hnot : ∀ m, v ∉ (W.link m).vehs := fun m hm => by
      have := (i.mem m v hm).2.1; rw [hst] at this; simp at this
    by_cases e : w = v
    · subst e
      have ev : ((W.depart n w l).veh w).wkey = CVeh.wkey { W.veh w with
          state := .run, link := some l, count := (W.veh w).count + 1
          visited := upd (W.veh w).visited (W.link l).src true } := by
        simp only [CWorld.depart, setL_veh]
        rw [attach_veh _ _ _ _ (by simpa using hnot l)]
        simp only [setV_veh, setN_veh, if_true]
        rfl
      have hno : ¬ Req (W.depart n w l) w := fun hr => wait_not_req i hi hst (req_depart hr)
      refine Walked.mono (r := False) ?_ hno ev
      exact h.enter (Or.inr hst) l rfl (fun hr P hP => pick_fair i (hpk hr) hP)
    · refine h.mono req_depart ?_
      simp only [CWorld.depart, setL_veh]
      rw [attach_veh _ _ _ _ (by simpa using hnot l)]
      simp only [setV_veh, setN_veh, if_neg e]
      rfl
  | signal _ n => exact h.mono (Req.of_eq (fun _ => rfl) (fun m hm => by
      unfold CWorld.signalUpdate at hm
      revert hm
      simp only [setN_node]
      split
      · rename_i e; subst e; exact fun hm => hm
      · exact fun hm => hm)) rfl
  | flow _ n => exact h.mono (Req.of_eq (fun _ => rfl) (fun m hm => by
      unfold CWorld.flowUpdate at hm
      revert hm
      simp only [setN_node]
      split
      · rename_i e; subst e; exact fun hm => hm
      · exact fun hm => hm)) rfl
  | collect _ n i hi => exact h.mono collect_req (by rw [collect_veh])
  | draw _ n rng => exact h.mono (req_setN (by intro N hN; exact hN)) rfl
  | move _ n v a b t k ha hq hb hn hf hc hr ho hs hm =>
    have i := k.inv
    have hva : v ∈ (W.link a).vehs := by rw [hq]; simp
    have hv0 : (W.moveVeh n v a b).veh = ((W.moved n v a b).endFront a).1.veh := rfl
    have hm' : ∀ w, w ≠ v → ((W.moved n v a b).veh w).wkey = (W.veh w).wkey := fun w e => by
      rw [moved_veh_other (n := n) (b := b) i hq w e]; rfl
    by_cases e : w = v
    · subst e
      obtain ⟨ln, ld, q, eq⟩ := moved_veh_self (n := n) (b := b) i hq
      have ev : ((W.moveVeh n w a b).veh w).wkey = CVeh.wkey { W.veh w with
          link := some b, count := (W.veh w).count + 1
          visited := upd (W.veh w).visited (W.link b).src true } := by
        rw [hv0]
        have e2 : (((W.moved n w a b).endFront a).1.veh w).wkey = ((W.moved n w a b).veh w).wkey := by
          rcases moved_endFront (n := n) (b := b) i hq with e | ⟨h', t', e1, hne, hfh, e⟩
          · rw [e]
          · rw [e, endTripOn_wkey_ne _ (Ne.symm hne)]
        rw [e2, eq]
        rfl
      have hno : ¬ Req (W.moveVeh n w a b) w := fun hr => (req_move k ha hq hr).2 rfl
      have hs := (i.mem a w hva).2.1
      refine Walked.mono (r := False) ?_ hno ev
      exact h.go hs b rfl (Or.inr ⟨n, hm⟩) hn
    · have hreq : Req (W.moveVeh n v a b) w → Req W w := fun hr => (req_move k ha hq hr).1
      rcases moved_endFront (n := n) (b := b) i hq with e' | ⟨h', t', e1, hne, hfh, e'⟩
      · exact h.mono hreq (by rw [hv0, e']; exact hm' w e)
      · by_cases e2 : w = h'
        · subst e2
          rw [hv0, e']
          exact Walked.endTripOn hreq (h.mono (fun h => h) (hm' w e))
        · exact h.mono hreq (by rw [hv0, e', endTripOn_wkey_ne _ e2]; exact hm' w e)
  | endFront _ v l t i hq hna hni hf =>
    by_cases e : w = v
    · subst e; exact Walked.endTripOn req_endTripOn h
    · exact h.mono req_endTripOn (endTripOn_wkey_ne W e)
  | finish _ n => exact h.mono (req_setN (by intro N hN; simp at hN)) rfl
  | follow _ v l i hv =>
    have hc : (W.carFollow v).link = W.link ∧ (W.carFollow v).node = W.node := by
      unfold carFollow
      split
      · exact ⟨rfl, rfl⟩
      · split <;> exact ⟨rfl, rfl⟩
    refine h.mono (Req.of_eq (by rw [hc.1]; simp) (by rw [hc.2]; simp)) ?_
    unfold carFollow
    split
    · rfl
    · split <;> exact setV_wkey _ _ _ (by intro V; rfl) _
  | log _ v l s i hv =>
    have hc := core_logData W v s
    exact h.logData s (Req.of_eq (fun m => core_arrived hc m) (fun n hn => by rw [core_incoming hc] at hn; exact hn))
  | advance _ v l i hv => exact h.mono (Req.of_eq (fun _ => rfl) (fun _ h => h)) (setV_wkey _ _ _ (by intro V; rfl) _)
  | abort _ v l i hv hd ho ha =>
    by_cases e : w = v
    · subst e
      rw [setV_veh, if_pos rfl]
      exact (h.next none (fun _ _ => Or.inl rfl)).mono (fun h => h) rfl
    · refine h.mono (Req.of_eq (fun _ => rfl) (fun _ h => h)) ?_
      rw [setV_veh, if_neg e]
  | flag _ v l i hv hc => exact h.mono (Req.of_eq (fun _ => rfl) (fun _ h => h)) (setV_wkey _ _ _ (by intro V; rfl) _)
  | endRun _ v l t i hq hna hi hf =>
    by_cases e : w = v
    · subst e; exact Walked.endTripOn req_endTripOn h
    · exact h.mono req_endTripOn (endTripOn_wkey_ne W e)
  | reqErr _ l e =>
    refine h.mono (Req.of_eq (fun m => ?_) (fun _ h => h)) rfl
    rw [setL_link]; split
    · rename_i e; subst e; rfl
    · rfl
  | req _ v l o rng i hv hd hc =>
    by_cases e : w = v
    · subst e
      rw [setL_veh, setV_veh, if_pos rfl]
      refine h.next o (fun hr _ => ?_)
      cases o with
      | none => exact Or.inl rfl
      | some b => exact Or.inr ⟨b, rfl, fun P hP => pick_fair i (chooseNext_pick hc hr) hP⟩
    · refine h.mono ?_ (by rw [setL_veh, setV_veh, if_neg e])
      rintro (⟨m, hm⟩ | ⟨n, hn⟩)
      · rw [setL_link] at hm
        split at hm
        · rename_i e'; subst e'
          rcases List.mem_append.1 hm with hm | hm
          · exact Or.inl ⟨m, hm⟩
          · exact absurd (List.mem_singleton.1 hm) e
        · exact Or.inl ⟨m, hm⟩
      · exact Or.inr ⟨n, hn⟩
  | waitLog _ n v i hv =>
    have hc := core_logData W v none
    exact h.logData none (Req.of_eq (fun m => core_arrived hc m) (fun n hn => by rw [core_incoming hc] at hn; exact hn))

end UX.Cpp
