import Verif.Spec.CppTimes
import Mathlib.Data.List.Induction

/-!
# C76: reading travel times lazily
-/

namespace UX
open Cpp Cpp.Spec

theorem replay_eq (evs : List (ℕ × ℚ)) (xs : List ℚ) :
    replay evs xs = evs.foldl (fun a e => overwrite a e.1 e.2) xs := by
  induction evs generalizing xs with
  | nil => rfl
  | cons e t ih =>
    obtain ⟨s, tt⟩ := e
    cases t with
    | nil =>
      simp only [replay, List.foldl_cons, List.foldl_nil, fillRange, overwrite]
      apply List.ext_getElem (by simp)
      intro i h1 h2
      simp at h1
      simp [h1]
    | cons e' t =>
      obtain ⟨s', tt'⟩ := e'
      rw [replay, ih]
      simp only [List.foldl_cons]
      congr 1
      simp only [fillRange, overwrite]
      apply List.ext_getElem (by simp)
      intro i h1 h2
      simp at h1
      by_cases h : s' ≤ i
      · simp [h]
      · by_cases hs : s' < xs.length
        · have : i < s' := by omega
          simp [h, hs, this]
        · simp [h, hs, h1]

/-- The array that reading now would give. -/
def CLinkTT (L : CLink) : List ℚ :=
  (L.ttEvents.drop L.ttApplied).foldl (fun a e => overwrite a e.1 e.2) L.ttReal

theorem ensureTT_real (L : CLink) : L.ensureTT.ttReal = CLinkTT L := by
  unfold CLink.ensureTT CLinkTT
  split
  · rename_i h
    rw [List.drop_of_length_le h]; rfl
  · simp [replay_eq]

theorem ensureTT_tt (L : CLink) : CLinkTT L.ensureTT = CLinkTT L := by
  have := ensureTT_real L
  unfold CLinkTT at *
  unfold CLink.ensureTT at *
  split at this
  · rename_i h; simp [h]
  · rename_i h
    simp only [h, if_false] at this ⊢
    simp [this]

theorem ensureTT_applied (L : CLink) (h : L.ttApplied ≤ L.ttEvents.length) :
    L.ensureTT.ttApplied ≤ L.ensureTT.ttEvents.length := by
  unfold CLink.ensureTT
  split
  · exact h
  · simp

theorem recordTT_tt (L : CLink) (h : L.ttApplied ≤ L.ttEvents.length) (s : ℕ) (tt : ℚ) :
    CLinkTT (L.recordTT s tt) = overwrite (CLinkTT L) s tt := by
  unfold CLinkTT CLink.recordTT
  simp [List.drop_append_of_le_length h]

theorem ttOps_reads (os : List TOp) : ∀ L : CLink, L.ttApplied ≤ L.ttEvents.length →
    (L.ttOps os).2 = eagerReads (CLinkTT L) os := by
  induction os with
  | nil => intro L _; rfl
  | cons o os ih =>
    intro L h
    cases o with
    | put s tt =>
      simp only [CLink.ttOps, CLink.ttOp, eagerReads, List.nil_append]
      rw [ih _ (by simp only [CLink.recordTT, List.length_append]; omega), recordTT_tt L h]
    | read =>
      simp only [CLink.ttOps, CLink.ttOp, eagerReads]
      rw [ih _ (ensureTT_applied L h), ensureTT_tt, ensureTT_real]
      rfl

/-- **C76.** Whatever the order of records and reads, and whatever the start positions of the
records, every read returns the array that writing each record at once would have produced. -/
theorem C76_lazy (L : CLink) (h0 : L.ttEvents = []) (h1 : L.ttApplied = 0) (os : List TOp) :
    (L.ttOps os).2 = eagerReads L.ttReal os := by
  rw [ttOps_reads os L (by simp [h0, h1])]
  simp [CLinkTT, h0, h1]

theorem overwrite_getElem (xs : List ℚ) (evs : List (ℕ × ℚ)) (i : ℕ) (x : ℚ) (h : xs[i]? = some x) :
    (evs.foldl (fun a e => overwrite a e.1 e.2) xs)[i]? = some (lastAt x i evs) := by
  induction evs using List.reverseRecOn with
  | nil => simpa [lastAt] using h
  | append_singleton evs e ih =>
    rw [List.foldl_append]
    have hg : ∀ (ys : List ℚ), (overwrite ys e.1 e.2)[i]? =
        ys[i]?.map (fun y => if e.1 ≤ i then e.2 else y) := fun ys => by
      simp [overwrite, List.getElem?_mapIdx]
    simp only [List.foldl_cons, List.foldl_nil, hg, ih, Option.map_some]
    by_cases he : e.1 ≤ i
    · simp [lastAt, List.filter_append, he]
    · simp [lastAt, List.filter_append, he]

/-- **C76.** The value a read returns at position `i` is that of the last record starting at or
before `i`, and the initial value if there is none. -/
theorem C76_value (L : CLink) (h0 : L.ttApplied = 0) (i : ℕ) (x : ℚ) (hx : L.ttReal[i]? = some x) :
    L.ensureTT.ttReal[i]? = some (lastAt x i L.ttEvents) := by
  rw [ensureTT_real, CLinkTT, h0, List.drop_zero]
  exact overwrite_getElem _ _ i x hx

/-- **C76.** Reading twice returns the same array, and a read changes nothing but the array itself
and the count of replayed events. -/
theorem C76_read_idempotent (L : CLink) :
    L.ensureTT.ensureTT.ttReal = L.ensureTT.ttReal ∧ L.ensureTT.ttEvents = L.ttEvents ∧
    { L.ensureTT with ttReal := L.ttReal, ttApplied := L.ttApplied } = L := by
  refine ⟨?_, ?_, ?_⟩
  · rw [ensureTT_real, ensureTT_tt, ensureTT_real]
  · unfold CLink.ensureTT; split <;> rfl
  · unfold CLink.ensureTT; split <;> rfl

/-- A case with records out of order, one outside the array, and reads in between. -/
example : ((replay [(3, 7), (1, 9), (2, 5), (10, 4)] [1, 1, 1, 1, 1]) : List ℚ) = [1, 9, 5, 5, 5] ∧
    eagerReads [1, 1, 1] [.put 1 5, .read, .put 2 8, .put 0 3, .read] = [[1, 5, 5], [3, 3, 3]] := by
  decide +kernel

end UX
