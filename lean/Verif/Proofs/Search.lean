import Verif.Spec.TimeSpace
import Mathlib.Data.List.Permutation
import Mathlib.Data.List.Sublists
import Mathlib.Data.Set.Finite.List
import Mathlib.Data.Set.Finite.Lemmas

/-! # A search that meets `ShortestFrom` exists for every finite graph with weights that are not negative -/

namespace UX

variable {α : Type} {g : α → α → Option ℚ}

theorem gSum_nonneg (hw : ∀ a b w, g a b = some w → 0 ≤ w) : ∀ p : List α, 0 ≤ gSum g p
  | [] => le_refl _
  | [_] => le_refl _
  | a :: b :: p => by
    rw [gSum]
    have := gSum_nonneg hw (b :: p)
    cases h : g a b with
    | none => simpa using this
    | some w => have := hw a b w h; simp; linarith

theorem GPath.suffix (hw : ∀ a b w, g a b = some w → 0 ≤ w) {t : α} : ∀ {l1 : List α} {s a : α} {l2 : List α},
    GPath g s t (l1 ++ a :: l2) → GPath g a t (a :: l2) ∧ gSum g (a :: l2) ≤ gSum g (l1 ++ a :: l2) := by
  intro l1
  induction l1 with
  | nil =>
    rintro s a l2 ⟨h1, h2, h3⟩
    exact ⟨⟨rfl, h2, h3⟩, le_refl _⟩
  | cons b l1 ih =>
    rintro s a l2 ⟨h1, h2, h3⟩
    rw [List.cons_append] at h1 h2 h3 ⊢
    obtain ⟨c, r, hr⟩ : ∃ c r, l1 ++ a :: l2 = c :: r := by
      cases l1 with
      | nil => exact ⟨_, _, rfl⟩
      | cons c l1 => exact ⟨_, _, rfl⟩
    rw [hr] at h2 h3
    rw [List.getLast?_cons_cons] at h2
    rw [List.isChain_cons_cons] at h3
    have h4 : GPath g c t (l1 ++ a :: l2) := by rw [hr]; exact ⟨rfl, h2, h3.2⟩
    obtain ⟨h5, h6⟩ := ih h4
    refine ⟨h5, h6.trans ?_⟩
    rw [hr, gSum]
    cases h : g b c with
    | none => simp
    | some w => have := hw b c w h; simp; linarith

theorem GPath.simple (hw : ∀ a b w, g a b = some w → 0 ≤ w) {t : α} : ∀ {p : List α} {s : α}, GPath g s t p →
    ∃ p', GPath g s t p' ∧ p'.Nodup ∧ gSum g p' ≤ gSum g p := by
  classical
  intro p
  induction p with
  | nil => rintro s ⟨h1, -, -⟩; simp at h1
  | cons a p ih =>
    rintro s ⟨h1, h2, h3⟩
    simp only [List.head?_cons, Option.some.injEq] at h1
    subst h1
    cases p with
    | nil => exact ⟨[a], ⟨rfl, h2, h3⟩, by simp, le_refl _⟩
    | cons b p =>
      rw [List.getLast?_cons_cons] at h2
      rw [List.isChain_cons_cons] at h3
      obtain ⟨p', h4, h5, h6⟩ := ih (s := b) ⟨rfl, h2, h3.2⟩
      have hab : 0 ≤ (g a b).getD 0 := by
        cases h : g a b with
        | none => simp
        | some w => have := hw a b w h; simpa
      by_cases ha : a ∈ p'
      · obtain ⟨l1, l2, rfl⟩ := List.append_of_mem ha
        obtain ⟨h7, h8⟩ := h4.suffix hw
        refine ⟨a :: l2, h7, (List.nodup_append.1 h5).2.1, ?_⟩
        rw [gSum]
        linarith
      · obtain ⟨h7, h8, h9⟩ := h4
        cases p' with
        | nil => simp at h7
        | cons c p' =>
          simp only [List.head?_cons, Option.some.injEq] at h7
          subst h7
          refine ⟨a :: c :: p', ⟨rfl, by rw [List.getLast?_cons_cons]; exact h8, ?_⟩, List.nodup_cons.2 ⟨ha, h5⟩, ?_⟩
          · rw [List.isChain_cons_cons]; exact ⟨h3.1, h9⟩
          · rw [gSum, gSum]; linarith

theorem GPath.within {ns : List α} (hn : ∀ a b, g a b ≠ none → b ∈ ns) {t : α} : ∀ {p : List α} {s : α}, GPath g s t p →
    ∀ a ∈ p, a ∈ s :: ns := by
  intro p
  induction p with
  | nil => intro s _ a ha; simp at ha
  | cons b p ih =>
    rintro s ⟨h1, h2, h3⟩ a ha
    simp only [List.head?_cons, Option.some.injEq] at h1
    subst h1
    rcases List.mem_cons.1 ha with rfl | ha
    · exact List.mem_cons_self
    · cases p with
      | nil => simp at ha
      | cons c p =>
        rw [List.getLast?_cons_cons] at h2
        rw [List.isChain_cons_cons] at h3
        have hc := hn b c h3.1
        rcases List.mem_cons.1 (ih (s := c) ⟨rfl, h2, h3.2⟩ a ha) with rfl | h4
        · exact List.mem_cons_of_mem _ hc
        · exact List.mem_cons_of_mem _ h4

theorem finite_nodup (ns : List α) : {p : List α | p.Nodup ∧ ∀ a ∈ p, a ∈ ns}.Finite := by
  classical
  apply Set.Finite.subset (List.finite_toSet (ns.dedup.sublists.flatMap List.permutations))
  rintro p ⟨h1, h2⟩
  rw [Set.mem_setOf_eq, List.mem_flatMap]
  refine ⟨ns.dedup.filter (fun a => decide (a ∈ p)), List.mem_sublists.2 List.filter_sublist, ?_⟩
  rw [List.mem_permutations]
  refine (List.perm_ext_iff_of_nodup h1 ((List.nodup_dedup _).filter _)).2 fun a => ?_
  rw [List.mem_filter, List.mem_dedup, decide_eq_true_eq]
  exact ⟨fun h => ⟨h2 a h, h⟩, fun h => h.2⟩

theorem shortestFrom_exists {ns : List α} (hn : ∀ a b, g a b ≠ none → b ∈ ns) (hw : ∀ a b w, g a b = some w → 0 ≤ w)
    (s : α) : ∃ res, ShortestFrom g s res := by
  classical
  have key : ∀ t, (∃ p, GPath g s t p) → ∃ p, GPath g s t p ∧ ∀ p', GPath g s t p' → gSum g p ≤ gSum g p' := by
    rintro t ⟨p, hp⟩
    obtain ⟨p0, h1, h2, -⟩ := hp.simple hw
    have hfin : {p : List α | GPath g s t p ∧ p.Nodup}.Finite :=
      (finite_nodup (s :: ns)).subset fun p hp => ⟨hp.2, hp.1.within hn⟩
    obtain ⟨m, hm, hmin⟩ := Set.exists_min_image _ (gSum g) hfin ⟨p0, h1, h2⟩
    refine ⟨m, hm.1, fun p' hp' => ?_⟩
    obtain ⟨p1, h3, h4, h5⟩ := hp'.simple hw
    exact (hmin p1 ⟨h3, h4⟩).trans h5
  refine ⟨fun t => if h : ∃ p, GPath g s t p then some (gSum g (Classical.choose (key t h)), Classical.choose (key t h))
    else none, ?_, ?_, ?_⟩
  · intro t c p h
    split at h
    · rename_i hx
      simp only [Option.some.injEq, Prod.mk.injEq] at h
      obtain ⟨rfl, rfl⟩ := h
      exact ⟨(Classical.choose_spec (key t hx)).1, rfl⟩
    · cases h
  · intro t c p h
    split at h
    · rename_i hx
      simp only [Option.some.injEq, Prod.mk.injEq] at h
      obtain ⟨rfl, rfl⟩ := h
      exact (Classical.choose_spec (key t hx)).2
    · cases h
  · intro t p hp
    rw [dif_pos ⟨p, hp⟩]
    simp

end UX
