import Verif.Model.TimeSpace

/-!
# Time-space network (C73)
-/

namespace UX

/-- A path from `s` to `t` along edges of a graph. -/
structure GPath {α : Type} (g : α → α → Option ℚ) (s t : α) (p : List α) : Prop where
  first : p.head? = some s
  last : p.getLast? = some t
  edges : p.IsChain (fun a b => g a b ≠ none)

/-- Cost of a path. -/
def gSum {α : Type} (g : α → α → Option ℚ) : List α → ℚ
  | a :: b :: p => (g a b).getD 0 + gSum g (b :: p)
  | _ => 0

/-- What `single_source_dijkstra` gives: for every node that can be reached from `s`, a path of least cost
and its cost. -/
structure ShortestFrom {α : Type} (g : α → α → Option ℚ) (s : α) (res : α → Option (ℚ × List α)) : Prop where
  path : ∀ t c p, res t = some (c, p) → GPath g s t p ∧ c = gSum g p
  least : ∀ t c p, res t = some (c, p) → ∀ p', GPath g s t p' → c ≤ gSum g p'
  reach : ∀ t p, GPath g s t p → res t ≠ none

/-- A trip along the links `ls` from node `n` at time `t` to node `m` at time `t'` that takes `c` seconds on
the links. Times are rounded down to multiples of `d` at every node; a link entered at time `t` takes the actual
travel time of the time step of `t`; arrivals are before `tm`. -/
def TimedTrip (W : World) (tm : ℚ) (d : ℕ) : List LinkId → NodeId → ℕ → NodeId → ℕ → ℚ → Prop
  | [], n, t, m, t', c => n = m ∧ t = t' ∧ c = 0
  | l :: ls, n, t, m, t', c => ∃ q c', l < W.nLinks ∧ W.L.startN l = n ∧
      (W.L.ttActual l)[⌊(t : ℚ) / W.cfg.deltat⌋₊]? = some q ∧ ((⌊((t : ℚ) + q) / d⌋₊ * d : ℕ) : ℚ) + 1 ≤ tm ∧
      TimedTrip W tm d ls (W.L.endN l) (⌊((t : ℚ) + q) / d⌋₊ * d) m t' c' ∧ c = q + c'

end UX
