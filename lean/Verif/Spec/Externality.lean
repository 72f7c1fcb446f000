import Verif.Spec.Trace

/-!
# Congestion externality (C72)
-/

namespace UX

/-- A vehicle that enters link `l` in step `i` needs more than 1.01 times the free-flow time, and other
vehicles are on the link at the end of the step in which it leaves (which has been executed). -/
def Queued (W : World) (l : LinkId) (i : ℕ) : Prop :=
  ∃ q, (W.L.ttActual l)[i]? = some q ∧ W.L.length l / W.L.u l * (101 / 100) < q ∧
    i + ⌊q / W.cfg.deltat⌋₊ < W.T ∧
    countUpTo (leaves l) W.trace (i + ⌊q / W.cfg.deltat⌋₊) < countUpTo (enters l) W.trace (i + ⌊q / W.cfg.deltat⌋₊)

/-- Vehicles that entered link `l` after step `i`, up to and including step `j`. -/
def enteredIn (W : World) (l : LinkId) (i j : ℕ) : ℕ :=
  W.trace.countP fun e => (enters l e).isSome && decide (i < e.at ∧ e.at ≤ j)

/-- `k` is the last step in `1..out` by whose end fewer vehicles had left link `l` than by the end of
step `out`, `out` itself if there is none. -/
def LastGap (W : World) (l : LinkId) (out k : ℕ) : Prop :=
  (∀ i, k < i → i ≤ out → countUpTo (leaves l) W.trace i = countUpTo (leaves l) W.trace out) ∧
  (1 ≤ k ∧ k < out ∧ countUpTo (leaves l) W.trace k < countUpTo (leaves l) W.trace out ∨
    k = out ∧ ∀ i, 1 ≤ i → i ≤ out → countUpTo (leaves l) W.trace i = countUpTo (leaves l) W.trace out)

/-- The delay charged for link `l` to a vehicle that enters it in step `i`: the vehicles that enter
later while the queue lasts, each delayed by the time since the departure before its own. -/
def Externality (W : World) (l : LinkId) (i : ℕ) (e : ℚ) : Prop :=
  ∃ j out k : ℕ, ∃ q : ℚ, i ≤ j ∧ (¬ Queued W l i → j = i) ∧
    (Queued W l i → (∀ s, i ≤ s → s ≤ j → Queued W l s) ∧ ¬ Queued W l (j + 1)) ∧
    (W.L.ttActual l)[i]? = some q ∧ out = i + ⌊q / W.cfg.deltat⌋₊ + 1 ∧ out < W.T ∧ LastGap W l out k ∧
    e = ((out : ℚ) - k) * W.cfg.deltat * (W.cfg.deltan * enteredIn W l i j)

/-- `x` is the sum of the charges `c l t` of the links of a route, each at the time `t` at which the vehicle
enters the link; `q l t` is the travel time of link `l` then. -/
def RouteCharge (q : LinkId → ℚ → ℚ → Prop) (c : LinkId → ℚ → ℚ) : List LinkId → ℚ → ℚ → Prop
  | [], _, x => x = 0
  | l :: ls, t, x => ∃ d y, q l t d ∧ RouteCharge q c ls (t + d) y ∧ x = c l t + y

end UX
