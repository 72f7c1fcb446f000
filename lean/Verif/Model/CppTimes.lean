import Verif.Model.CppSim

/-!
# Travel-time records of the C++ engine

`traveltime_real` is filled lazily: exits of vehicles are stored as events and replayed into the
array when somebody reads it (traffi.h:137–141, traffi.cpp:625–648).
-/

namespace UX.Cpp

/-- `for (idx = s; idx < e; idx++) traveltime_real[idx] = tt` (traffi.cpp:643–645). -/
def fillRange (xs : List ℚ) (s e : ℕ) (tt : ℚ) : List ℚ :=
  xs.mapIdx (fun i x => if s ≤ i ∧ i < e then tt else x)

/-- The replay loop over the pending events (traffi.cpp:635–646). The end `e` of a fill is the start
of the next event if that lies inside the array, else the size of the array. -/
def replay : List (ℕ × ℚ) → List ℚ → List ℚ
  | [], xs => xs
  | [(s, tt)], xs => fillRange xs s xs.length tt
  | (s, tt) :: (s', tt') :: t, xs =>
    replay ((s', tt') :: t) (fillRange xs s (if s' < xs.length then s' else xs.length) tt)

/-- `Link::ensure_traveltime_real` (traffi.cpp:631–648). -/
def CLink.ensureTT (L : CLink) : CLink :=
  if L.ttEvents.length ≤ L.ttApplied then L
  else { L with
    ttReal := replay (L.ttEvents.drop L.ttApplied) L.ttReal
    ttApplied := L.ttEvents.length }

/-- `traveltime_real_events.emplace_back(s, tt)` (traffi.cpp:361, 897). -/
def CLink.recordTT (L : CLink) (s : ℕ) (tt : ℚ) : CLink :=
  { L with ttEvents := L.ttEvents ++ [(s, tt)] }

/-- What can happen to the record of a link: an event, or a read through `ensure_traveltime_real`
(bindings.cpp:793–831, dta_solver.h:57–65, traffi.cpp:651, 695). -/
inductive TOp
  | put (s : ℕ) (tt : ℚ)
  | read

/-- One operation; a read also yields the array it returns. -/
def CLink.ttOp (L : CLink) : TOp → CLink × List (List ℚ)
  | .put s tt => (L.recordTT s tt, [])
  | .read => (L.ensureTT, [L.ensureTT.ttReal])

/-- A history of operations: final link and the arrays returned, in order. -/
def CLink.ttOps (L : CLink) : List TOp → CLink × List (List ℚ)
  | [] => (L, [])
  | o :: os => (((L.ttOp o).1.ttOps os).1, (L.ttOp o).2 ++ ((L.ttOp o).1.ttOps os).2)

end UX.Cpp
