import Verif.Model.Sim

/-!
# Reading positions back from vehicle logs

`Vehicle.get_xy_coords` (uxsim.py:1481–1505).
-/

namespace UX
namespace World

/-- Python's `xs[i]` for an integer `i` on a list stored newest-first; `none` is `IndexError`. -/
def logAt (xs : List LogRow) (i : ℤ) : Option LogRow :=
  if 0 ≤ i then xs.reverse[i.toNat]? else backN xs.reverse (-i).toNat

/-- Coordinates of position `xx` on link `l` (uxsim.py:1499–1505). -/
def linkXy (W : World) (l : LinkId) (xx : ℚ) : ℚ × ℚ :=
  let x0 := W.N.x (W.L.startN l)
  let y0 := W.N.y (W.L.startN l)
  let x1 := W.N.x (W.L.endN l)
  let y1 := W.N.y (W.L.endN l)
  (W.fl (x0 + W.fl (W.fl (W.fl (x1 - x0) * xx) / W.L.length l)),
   W.fl (y0 + W.fl (W.fl (W.fl (y1 - y0) * xx) / W.L.length l)))

/-- `Vehicle.get_xy_coords(t)` for `t ≠ -1` (uxsim.py:1490–1505). -/
def getXyAt (W : World) (v : VehId) (t : ℚ) : M (ℚ × ℚ) :=
  match logAt (W.V.log v) (pyInt (W.fl (W.fl (t / W.dt) / W.cfg.logInterval))) with
  | none => .error .indexError
  | some r => match r.link with
    | none => .ok (-1, -1)
    | some l => .ok (W.linkXy l r.x)

/-- `Vehicle.get_xy_coords()` (uxsim.py:1493–1505): the current position. Off the links, `get_link(None)`
returns `None` and reading its start node raises. -/
def getXyNow (W : World) (v : VehId) : M (ℚ × ℚ) :=
  match W.V.link v with
  | none => .error .attributeError
  | some l => .ok (W.linkXy l (W.V.x v))

end World
end UX
