import Verif.Model.CppRequest
import Verif.Model.CppDta
import Verif.Model.CppLog
import Verif.Model.Osm

/-!
# Enter logs of links and route objects in the C++ mode (`uxsim_cpp_wrapper.py`)

`CppLink.vehicles_enter_log`, `CppLink.average_travel_time_between` and `CppRoute`. `CppRoute.actual_travel_time`
(uxsim_cpp_wrapper.py:756–766) is the loop of `CWorld.routeTime`. `length` and `u` of a link are those of the engine. The
branch for engines without `build_enter_log_data` (uxsim_cpp_wrapper.py:1393–1398) is left out.
-/

namespace UX.Cpp
open Osm (dSet)

namespace CWorld

/-- `build_enter_log_data` (traffi.cpp:1965–1983): link, time, vehicle. -/
def enterData (c : CWorld) : List (ℕ × ℚ × ℕ) :=
  (List.range c.g.nVehs).flatMap (fun v => (c.enterLog v).map (fun p => (p.1, p.2, v)))

/-- `vehicles_enter_log` of link `l` after `_build_vehicles_enter_log` (uxsim_cpp_wrapper.py:1377–1392). -/
def enterDict (c : CWorld) (l : ℕ) : List (ℚ × ℕ) :=
  c.enterData.foldl (fun d e => if e.1 = l then dSet d e.2.1 e.2.2 else d) []

/-- `vehicles_enter_log`: empty (uxsim_cpp_wrapper.py:259) until `simulation_terminated` was called, and for ever with
`_skip_log_on_terminate` (uxsim_cpp_wrapper.py:1369–1375). -/
def shownEnter (c : CWorld) (done : Bool) (l : ℕ) : List (ℚ × ℕ) := if done then c.enterDict l else []

/-- `average_travel_time_between` (uxsim_cpp_wrapper.py:404–408). `np.average` may add in another order; a speed limit
of 0 is left out. -/
def averageBetween (c : CWorld) (done : Bool) (l : ℕ) (t0 t1 : ℚ) : ℚ :=
  let ts := ((c.shownEnter done l).map Prod.fst).filter (fun t => decide (t0 ≤ t ∧ t < t1))
  if ts = [] then c.g.fl ((c.link l).len / (c.link l).vmax)
  else c.g.fl (ts.foldl (fun s t => c.g.fl (s + c.dtaTime l t)) 0 / ts.length)

end CWorld

namespace Ask

/-- The check of `CppRoute.__init__` (uxsim_cpp_wrapper.py:740–742). -/
def routeCheck (W : Ask) : List (Option ℕ) → M Unit
  | a :: b :: r =>
    match a, b with
    | some i, some j =>
      if W.n.ends[i]?.bind Prod.snd = W.n.ends[j]?.bind Prod.fst then W.routeCheck (b :: r) else .error .valueError
    | _, _ => .error .attributeError
  | _ => .ok ()

/-- `links` after `links_name` has been made (uxsim_cpp_wrapper.py:743). -/
def routeLinks : List (Option ℕ) → M (List ℕ)
  | [] => .ok []
  | none :: _ => .error .attributeError
  | some i :: r =>
    match routeLinks r with
    | .ok ls => .ok (i :: ls)
    | .error e => .error e

/-- `CppRoute.__init__` (uxsim_cpp_wrapper.py:732–743), also `defRoute` (uxsim_cpp_wrapper.py:1430–1433). -/
def newRoute (W : Ask) (trust : Bool) (rs : List LRef) : M (List ℕ) :=
  let ls := rs.map W.getLink
  if trust then routeLinks ls
  else
    match W.routeCheck ls with
    | .ok _ => routeLinks ls
    | .error e => .error e

end Ask
end UX.Cpp
