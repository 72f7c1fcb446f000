import Verif.Proofs.CppRowsReach

/-!
# The links and times in the enter log of the C++ engine
-/

namespace UX.Cpp
open CWorld Relation Spec

/-- The entries that name a link are an interval of the log, and the first one does not. -/
def Block (ls : List (Option ℕ)) : Prop :=
  (∀ o, ls[0]? = some o → o = none) ∧
    ∀ i j k a b : ℕ, i < j → j < k → ls[i]? = some (some a) → ls[k]? = some (some b) → ∃ c, ls[j]? = some (some c)

theorem Block.prefix {ls : List (Option ℕ)} {o : Option ℕ} (h : Block (ls ++ [o])) : Block ls := by
  refine ⟨fun o' ho => ?_, fun i j k a b hij hjk hi hk => ?_⟩
  · refine h.1 o' ?_
    have : 0 < ls.length := by
      by_contra hc
      rw [List.getElem?_eq_none (by omega)] at ho; simp at ho
    rw [List.getElem?_append_left this]; exact ho
  · have hk' : k < ls.length := by
      by_contra hc
      rw [List.getElem?_eq_none (by omega)] at hk; simp at hk
    obtain ⟨c, hc⟩ := h.2 i j k a b hij hjk (by rw [List.getElem?_append_left (by omega)]; exact hi)
      (by rw [List.getElem?_append_left hk']; exact hk)
    exact ⟨c, by rw [List.getElem?_append_left (by omega)] at hc; exact hc⟩

theorem lastLink_mem {p : Option ℕ} {ls : List (Option ℕ)} {a : ℕ} (h : lastLink p ls = some a) (hp : p = none) :
    some a ∈ ls := by
  induction ls using List.reverseRecOn with
  | nil => simp only [lastLink] at h; rw [hp] at h; simp at h
  | append_singleton ls o ih =>
    rw [lastLink_snoc] at h
    cases o with
    | none => exact List.mem_append_left _ (ih h)
    | some b =>
      have : b = a := by simpa using h
      subst this; simp

/-- The links of the enter log are a way from the origin. -/
theorem Rows.way {W : CWorld} {o : ℕ} {t : ℕ → ℚ} {xs : List CLog} (h : Rows W o xs) (hb : Block (xs.map CLog.link)) :
    Way W o ((enterScan t none 0 (xs.map CLog.link)).map Prod.fst) ∧
      ((enterScan t none 0 (xs.map CLog.link)).map Prod.fst).getLast? = lastLink none (xs.map CLog.link) := by
  induction xs using List.reverseRecOn with
  | nil => exact ⟨⟨by simp [enterScan], by simp [enterScan], by simp [enterScan]⟩, by simp [enterScan, lastLink]⟩
  | append_singleton xs e ih =>
    have hpre : Rows W o xs := fun i a b h1 h2 => by
      have hl : i + 1 < xs.length := by
        by_contra hc
        rw [List.getElem?_eq_none (by omega)] at h2; simp at h2
      exact h i a b (by rw [List.getElem?_append_left (by omega)]; exact h1)
        (by rw [List.getElem?_append_left hl]; exact h2)
    rw [List.map_append] at hb
    obtain ⟨ih1, ih2⟩ := ih hpre hb.prefix
    rw [List.map_append, List.map_cons, List.map_nil, enterScan_snoc, lastLink_snoc]
    cases he : e.link with
    | none =>
      simp only [List.append_nil]
      exact ⟨ih1, ih2⟩
    | some l =>
      simp only
      by_cases hl : lastLink none (xs.map CLog.link) = some l
      · rw [if_pos hl, List.append_nil]
        exact ⟨ih1, by rw [ih2, hl]⟩
      · rw [if_neg hl, List.map_append]
        refine ⟨?_, by simp⟩
        have hne : xs ≠ [] := fun h0 => by
          subst h0
          have := hb.1 (some l) (by simp [he])
          simp at this
        obtain ⟨d, hd⟩ : ∃ d, xs.getLast? = some d := by
          cases hg : xs.getLast? with
          | none => exact absurd (List.getLast?_eq_none_iff.1 hg) hne
          | some d => exact ⟨d, rfl⟩
        have hd' : xs[xs.length - 1]? = some d := by rw [← List.getLast?_eq_getElem?]; exact hd
        have hpos : 0 < xs.length := List.length_pos_of_ne_nil hne
        have hrow : RowOK W o d e := by
          refine h (xs.length - 1) d e ?_ ?_
          · rw [List.getElem?_append_left (by omega)]; exact hd'
          · rw [show xs.length - 1 + 1 = xs.length by omega]; simp
        unfold RowOK at hrow
        rw [he] at hrow
        cases hdl : d.link with
        | some a =>
          rw [hdl] at hrow
          simp only at hrow
          have hla : lastLink none (xs.map CLog.link) = some a :=
            lastLink_last none (by rw [List.getLast?_map, hd]; simp [hdl])
          have hne' : a ≠ l := fun hc => hl (by rw [hla, hc])
          obtain ⟨r1, r2, r3⟩ := hrow
          have hj : (W.link a).dst = (W.link l).src := by
            rcases r3 with r3 | r3
            · exact absurd r3.1 hne'
            · exact r3.1
          rw [hla] at ih2
          refine ⟨fun m hm => ?_, ?_, ?_⟩
          · refine ih1.1 m ?_
            cases hk : (enterScan t none 0 (xs.map CLog.link)).map Prod.fst with
            | nil => rw [hk] at ih2; simp at ih2
            | cons p q => rw [hk] at hm; exact hm
          · rw [List.isChain_append]
            refine ⟨ih1.2.1, by simp, fun x hx y hy => ?_⟩
            rw [ih2] at hx
            simp at hx hy
            subst hx hy
            exact hj
          · intro m hm
            rcases List.mem_append.1 hm with hm | hm
            · exact ih1.2.2 m hm
            · simp at hm; subst hm; exact r2
        | none =>
          rw [hdl] at hrow
          simp only at hrow
          have hnone : lastLink none (xs.map CLog.link) = none := by
            cases hla : lastLink none (xs.map CLog.link) with
            | none => rfl
            | some a =>
              exfalso
              obtain ⟨i, hi⟩ := List.mem_iff_getElem?.1 (lastLink_mem hla rfl)
              have hilt : i < xs.length := by
                by_contra hc
                rw [List.getElem?_eq_none (by simp; omega)] at hi; simp at hi
              have hine : i ≠ xs.length - 1 := fun hc => by
                rw [hc, List.getElem?_map, hd'] at hi
                simp [hdl] at hi
              obtain ⟨c, hc⟩ := hb.2 i (xs.length - 1) xs.length a l (by omega) (by omega)
                (by rw [List.getElem?_append_left (by simpa using hilt)]; exact hi)
                (by rw [List.getElem?_append_right (by simp)]; simp [he])
              rw [List.getElem?_append_left (by simp; omega), List.getElem?_map, hd'] at hc
              simp [hdl] at hc
          rw [hnone] at ih2
          have hnil : (enterScan t none 0 (xs.map CLog.link)).map Prod.fst = [] := List.getLast?_eq_none_iff.1 ih2
          rw [hnil]
          exact ⟨by simpa using hrow.2.1, by simp, by simpa using hrow.1⟩

/-- The times of the enter log are those of entries that name a link. -/
theorem enterScan_mem {t : ℕ → ℚ} {ls : List (Option ℕ)} {p : Option ℕ} {i : ℕ} {q : ℕ × ℚ}
    (h : q ∈ enterScan t p i ls) : ∃ j, ls[j]? = some (some q.1) ∧ q.2 = t (i + j) := by
  induction ls generalizing p i with
  | nil => simp [enterScan] at h
  | cons o ls ih =>
    cases o with
    | none =>
      rw [enterScan] at h
      obtain ⟨j, h1, h2⟩ := ih h
      exact ⟨j + 1, by simpa using h1, by rw [h2]; congr 1; omega⟩
    | some l =>
      rw [enterScan] at h
      split at h
      · obtain ⟨j, h1, h2⟩ := ih h
        exact ⟨j + 1, by simpa using h1, by rw [h2]; congr 1; omega⟩
      · rcases List.mem_cons.1 h with h | h
        · subst h; exact ⟨0, rfl, rfl⟩
        · obtain ⟨j, h1, h2⟩ := ih h
          exact ⟨j + 1, by simpa using h1, by rw [h2]; congr 1; omega⟩

/-- Times in the enter log increase if the times of the entries do. -/
theorem enterScan_sorted {t : ℕ → ℚ} {ls : List (Option ℕ)} {p : Option ℕ} {i : ℕ}
    (h : ∀ j k a b : ℕ, j < k → ls[j]? = some (some a) → ls[k]? = some (some b) → t (i + j) < t (i + k)) :
    (enterScan t p i ls).Pairwise (fun x y => x.2 < y.2) := by
  induction ls generalizing p i with
  | nil => simp [enterScan]
  | cons o ls ih =>
    have h' : ∀ j k a b : ℕ, j < k → ls[j]? = some (some a) → ls[k]? = some (some b) →
        t (i + 1 + j) < t (i + 1 + k) := fun j k a b hjk h1 h2 => by
      have := h (j + 1) (k + 1) a b (by omega) (by simpa using h1) (by simpa using h2)
      rw [show i + 1 + j = i + (j + 1) by omega, show i + 1 + k = i + (k + 1) by omega]
      exact this
    cases o with
    | none => rw [enterScan]; exact ih h'
    | some l =>
      rw [enterScan]
      split
      · exact ih h'
      · refine List.pairwise_cons.2 ⟨fun y hy => ?_, ih h'⟩
        obtain ⟨j, h1, h2⟩ := enterScan_mem hy
        rw [h2]
        have := h 0 (j + 1) l y.1 (by omega) rfl (by simpa using h1)
        rw [show i + 1 + j = i + (j + 1) by omega]
        exact this

/-- The steps in which vehicle `v` was on the road. -/
theorem LogAt.block {c : ℕ → ℚ} {b : Bool} {n : ℕ} {V : CVeh} (h : LogAt c b n V) :
    Block (V.log.map CLog.link) ∧ ∀ j k a d : ℕ, j < k → (V.log.map CLog.link)[j]? = some (some a) →
      (V.log.map CLog.link)[k]? = some (some d) →
      (V.eager.getD j (0, .home)).1 < (V.eager.getD k (0, .home)).1 := by
  have key : ∀ f r, (∀ i e, V.log[i]? = some e → (∃ l, e.link = some l) → 1 + V.logWait ≤ i ∧ i < 1 + V.logWait + r) →
      (∀ i e, V.log[i]? = some e → 1 + V.logWait ≤ i ∧ i < 1 + V.logWait + r → ∃ l, e.link = some l) →
      1 + V.logWait + r ≤ V.log.length →
      (∀ i, i < 1 + V.logWait + r → (V.eager.getD i (0, .home)).1 = f + i) →
      Block (V.log.map CLog.link) ∧ ∀ j k a d : ℕ, j < k → (V.log.map CLog.link)[j]? = some (some a) →
      (V.log.map CLog.link)[k]? = some (some d) →
      (V.eager.getD j (0, .home)).1 < (V.eager.getD k (0, .home)).1 := by
    intro f r h1 h2 h3 h4
    have g : ∀ i a, (V.log.map CLog.link)[i]? = some (some a) → 1 + V.logWait ≤ i ∧ i < 1 + V.logWait + r := by
      intro i a hi
      rw [List.getElem?_map] at hi
      obtain ⟨e, e1, e2⟩ := Option.map_eq_some_iff.1 hi
      exact h1 i e e1 ⟨a, e2⟩
    refine ⟨⟨fun o ho => ?_, fun i j k a b hij hjk hi hk => ?_⟩, fun j k a d hjk hj hk => ?_⟩
    · cases o with
      | none => rfl
      | some a => have := (g 0 a ho).1; omega
    · have gi := g i a hi
      have gk := g k b hk
      have hj : j < V.log.length := by omega
      obtain ⟨l, hl⟩ := h2 j _ (List.getElem?_eq_getElem hj) ⟨by omega, by omega⟩
      exact ⟨l, by rw [List.getElem?_map, List.getElem?_eq_getElem hj]; simp [hl]⟩
    · have gj := g j a hj
      have gk := g k d hk
      rw [h4 j gj.2, h4 k gk.2]
      omega
  have none : (∀ e ∈ V.log, e.link = none) → Block (V.log.map CLog.link) ∧ ∀ j k a d : ℕ, j < k →
      (V.log.map CLog.link)[j]? = some (some a) → (V.log.map CLog.link)[k]? = some (some d) →
      (V.eager.getD j (0, .home)).1 < (V.eager.getD k (0, .home)).1 := by
    intro h1
    have g : ∀ i a : ℕ, (V.log.map CLog.link)[i]? ≠ some (some a) := by
      intro i a hi
      rw [List.getElem?_map] at hi
      obtain ⟨e, e1, e2⟩ := Option.map_eq_some_iff.1 hi
      rw [h1 e (List.mem_of_getElem? e1)] at e2; simp at e2
    refine ⟨⟨fun o ho => ?_, fun i j k a b hij hjk hi hk => absurd hi (g i a)⟩, fun j k a d hjk hj hk => absurd hj (g j a)⟩
    cases o with
    | none => rfl
    | some a => exact absurd ho (g 0 a)
  unfold LogAt at h
  split at h
  · exact none (by rw [h.1]; simp)
  · obtain ⟨f, h1, h2, h3, h4, h5, h6, h7⟩ := h
    exact none h7
  · obtain ⟨f, r, h1, h2, h3, h4, h5, h6, h7, h8⟩ := h
    refine key f r (fun i e he hl => ⟨(h8 i e he).1 hl, ?_⟩) (fun i e he hi => (h8 i e he).2 hi.1) ?_ (fun i hi => ?_)
    · have : i < V.log.length := by
        by_contra hc
        rw [List.getElem?_eq_none (by omega)] at he; simp at he
      rw [h7, h1, life_length] at this
      exact this
    · rw [h7, h1, life_length]
    · rw [List.getD_eq_getElem?_getD, h1, life_get _ _ _ _ hi]; rfl
  · obtain ⟨f, r, t, h1, h2, h3, h4, h5, h6, h7, h8, h9⟩ := h
    refine key f r (fun i e he hl => (h9 i e he).1 hl) (fun i e he hi => (h9 i e he).2 hi) ?_ (fun i hi => ?_)
    · rw [h8, h1, List.length_append, life_length]; simp
    · rw [List.getD_eq_getElem?_getD, h1, List.getElem?_append_left (by rw [life_length]; exact hi),
        life_get _ _ _ _ hi]; rfl

/-- What is read is what was recorded. -/
theorem enterLog_eq {W : CWorld} {v : ℕ} (h : Reads W v (W.veh v).eager) :
    W.enterLog v = enters W (W.veh v) := by
  unfold enterLog enters
  refine enterScan_congr _ _ _ (fun j hj => ?_)
  rw [List.length_map] at hj
  unfold Reads readLog at h
  have h1 := congrArg (fun l => l[j]?) h
  simp only [List.getElem?_map] at h1
  rw [List.getElem?_range hj] at h1
  simp only [Option.map_some] at h1
  obtain ⟨p, p1, p2⟩ := Option.map_eq_some_iff.1 h1.symm
  rw [Nat.zero_add, List.getD_eq_getElem?_getD, p1]
  exact (congrArg Prod.fst p2).symm

end UX.Cpp
