import Verif.Model.Logs
import Verif.Model.CppWrap

/-!
# The GPS-like log

`Analyzer.gps_like_log_to_pandas` (analyzer.py:1650–1667) for both modes. Column `name` is the index of the vehicle.
-/

namespace UX

/-- A row of the table without the name (analyzer.py:1658). -/
structure GpsRow where
  t : ℚ
  x : ℚ
  y : ℚ
  v : ℚ
  deriving DecidableEq, Repr

/-- The row made of a time, a place and a speed; the place `(-1, -1)` is skipped (analyzer.py:1661–1665). -/
def gpsRow (t : ℚ) (p : ℚ × ℚ) (v : ℚ) : Option GpsRow := if p = (-1, -1) then none else some ⟨t, p.1, p.2, v⟩

/-- Python mode: the rows of one vehicle (analyzer.py:1660–1665). -/
def World.gpsOf (W : World) (v : VehId) : M (List GpsRow) :=
  ((W.V.log v).reverse.mapM (fun r => (W.getXyAt v r.t).map (fun p => gpsRow r.t p r.v))).map List.reduceOption

/-- Python mode: the whole table (analyzer.py:1658–1667). -/
def World.gpsLog (W : World) : M (List (VehId × GpsRow)) :=
  ((List.range W.nVeh).mapM (fun v => (W.gpsOf v).map (·.map (fun r => (v, r))))).map List.flatten

namespace Cpp

/-- C++ mode: `CppVehicle.get_xy_coords(t)` (uxsim_cpp_wrapper.py:720–725), which does not use `t`; `xy` holds the
coordinates of the nodes, which only the Python objects know. -/
def CWorld.xyNow (c : CWorld) (xy : ℕ → ℚ × ℚ) (v : ℕ) : ℚ × ℚ :=
  match (c.veh v).link with
  | none => xy (c.veh v).orig
  | some l =>
    let fl := c.g.fl
    let q := if 0 < (c.link l).len then fl ((c.veh v).x / (c.link l).len) else 0
    let a := xy (c.link l).src
    let b := xy (c.link l).dst
    (fl (a.1 + fl (q * fl (b.1 - a.1))), fl (a.2 + fl (q * fl (b.2 - a.2))))

/-- C++ mode: the rows of one vehicle (analyzer.py:1660–1665, uxsim_cpp_wrapper.py:580–664, 720–725). -/
def Wrap.gpsOf (W : Wrap) (xy : ℕ → ℚ × ℚ) (v : ℕ) : List GpsRow :=
  match W.log v with
  | none => []
  | some L => L.rows.filterMap (fun r => gpsRow r.t (W.c.xyNow xy v) r.v)

end Cpp
end UX
