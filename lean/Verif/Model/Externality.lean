import Verif.Model.Route

/-!
# Congestion externality (Utilities.py:433–517)

The branch for worlds backed by the C++ engine (Utilities.py:449–451, 506–508) is not modelled.
`link.free_flow_speed` always equals `link.u` (uxsim.py:519, 534, 963–966).
-/

namespace UX

/-- `xs[i]` of Python: a negative index counts from the end. -/
def pyGet {α : Type} (xs : List α) (i : ℤ) : M α :=
  let r := if 0 ≤ i then xs[i.toNat]?
    else if 0 ≤ (xs.length : ℤ) + i then xs[((xs.length : ℤ) + i).toNat]? else none
  match r with | some a => .ok a | none => .error .indexError

namespace World

/-- `link.length/link.free_flow_speed*1.01` (Utilities.py:458). -/
def slowTime (W : World) (l : LinkId) : ℚ := W.fl (W.fl (W.L.length l / W.L.u l) * W.fl (101 / 100))

/-- `i+int(link.traveltime_actual[i]/W.DELTAT)` (Utilities.py:458, 470) for the travel time `q`. -/
def exitStep (W : World) (i : ℤ) (q : ℚ) : ℤ := i + pyInt (W.fl (q / W.dt))

/-- The loop that looks for the last time step of the queue (Utilities.py:456–462); the first argument
is the number of iterations left, then `i` and `ts_end`. -/
def queueEnd (W : World) (l : LinkId) : ℕ → ℤ → ℤ → M ℤ
  | 0, _, e => .ok e
  | n + 1, i, e => do
    let q ← pyGet (W.L.ttActual l) i
    if W.L.u l = 0 then .error .zeroDivision
    else if W.slowTime l < q then do
      let a ← pyGet (W.L.cumArr l).reverse (W.exitStep i q)
      let d ← pyGet (W.L.cumDep l).reverse (W.exitStep i q)
      if d < a then queueEnd W l n (i + 1) i else .ok e
    else .ok e

/-- The loop that looks for the departure before `ts_out` (Utilities.py:471–475); the first argument is
the number of iterations left, then `i`. -/
def leaderStep (dep : List ℕ) (out : ℤ) : ℕ → ℤ → M ℤ
  | 0, _ => .ok out
  | n + 1, i => do
    let a ← pyGet dep i
    let b ← pyGet dep out
    if a < b then .ok i else leaderStep dep out n (i - 1)

/-- The body of the `try` of `estimate_congestion_externality_link` (Utilities.py:446–481). -/
def extLinkTry (W : World) (r : Ref) (t : ℚ) : M ℚ := do
  let l ← W.getLink r
  if W.dt = 0 then .error .zeroDivision
  else do
    let ts := pyInt (W.fl (t / W.dt))
    let e ← W.queueEnd l (((W.L.ttActual l).length : ℤ) - ts).toNat ts ts
    let a1 ← pyGet (W.L.cumArr l).reverse e
    let a0 ← pyGet (W.L.cumArr l).reverse ts
    let q ← pyGet (W.L.ttActual l) ts
    let out := W.exitStep ts q + 1
    let lead ← leaderStep (W.L.cumDep l).reverse out out.toNat out
    pure (W.fl (W.fl ((out - lead : ℤ) * W.dt) * ((a1 : ℤ) - a0 : ℤ)))

/-- `estimate_congestion_externality_link` (Utilities.py:433–488): every exception becomes a warning
(not modelled) and the value 0. -/
def extLink (W : World) (r : Ref) (t : ℚ) : ℚ :=
  match W.extLinkTry r t with
  | .ok e => e
  | .error _ => 0

/-- The loop of `estimate_congestion_externality_route` (Utilities.py:511–515). -/
def extSum (W : World) : List (LinkId × ℚ) → (t acc : ℚ) → ℚ
  | [], _, acc => acc
  | (l, q) :: xs, t, acc => extSum W xs (W.fl (t + q)) (W.fl (acc + W.extLink (.obj l) t))

/-- `estimate_congestion_externality_route` (Utilities.py:490–517) for a route with the links `ls`. -/
def extRoute (W : World) (ls : List LinkId) (t : ℚ) : M ℚ := do
  let r ← W.routeTravelTime ls 0 t
  pure (W.extSum (ls.zip r.2) t 0)

end World
end UX
