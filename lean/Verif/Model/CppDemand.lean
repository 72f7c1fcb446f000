import Verif.Model.CppWrap
import Verif.Model.Areas

/-!
# Demand functions of the C++ mode (`uxsim_cpp_wrapper.py:995–1074`)

Nodes are given by their number (names: `Model/CppNames.lean`, C117). `inlinks` and `outlinks` of the Python nodes
(uxsim_cpp_wrapper.py:215–216) are those of the engine. Random draws are arguments. The record of the calls kept by
`demand_info_record` and warnings are left out.
-/

namespace UX.Cpp

/-- `CppWorld` with the `attribute` of the vehicles in `_veh_by_index`. -/
structure DWrap where
  w : Wrap
  attrs : List (Option String)

namespace DWrap

/-- The attributes after `_register_new_cpp_vehicles` (uxsim_cpp_wrapper.py:1237), `n` being the number of vehicles. -/
def register (attrs : List (Option String)) (n : ℕ) : List (Option String) :=
  attrs ++ List.replicate (n - attrs.length) none

/-- `adddemand` (uxsim_cpp_wrapper.py:1002–1012). `diverge`: `add_demand` does not end within `fuel` rounds. -/
def addDemand (D : DWrap) (orig dest : ℕ) (t0 t1 flow volume : ℚ) (attr : Option String) (fuel : ℕ) : M DWrap :=
  let fl := D.w.c.g.fl
  if 0 < volume ∧ fl (t1 - t0) = 0 then .error .zeroDivision
  else
    let q := if 0 < volume then fl (volume / fl (t1 - t0)) else flow
    match D.w.c.addDemand orig dest t0 t1 q [] fuel with
    | none => .error .diverge
    | some c =>
      let w := D.w.addDemand c
      let attrs := register D.attrs w.names.length
      .ok ⟨w, match attr with
        | none => attrs
        | some a => attrs.mapIdx (fun i b => if D.w.c.g.nVehs ≤ i then some a else b)⟩

/-- `addVehicle(o, d, t, attribute=…)` (uxsim_cpp_wrapper.py:927–993) without a name. -/
def addVehicle (D : DWrap) (t : ℚ) (orig dest : ℕ) (attr : Option String) (fuel : ℕ) : M DWrap :=
  match D.w.addVehicle t orig dest [] none fuel with
  | none => .error .diverge
  | some (.error .indexError) => .error .indexError
  | some (.error _) => .error .valueError
  | some (.ok w) => .ok ⟨w, (register D.attrs w.names.length).set D.w.c.g.nVehs attr⟩

/-- `(n.x - x)**2 + (n.y - y)**2` (uxsim_cpp_wrapper.py:1425, 1428). -/
def sqDist (D : DWrap) (pos : ℕ → ℚ × ℚ) (x y : ℚ) (n : ℕ) : ℚ :=
  let fl := D.w.c.g.fl
  fl (fl (fl ((pos n).1 - x) ^ 2) + fl (fl ((pos n).2 - y) ^ 2))

/-- `get_nearest_node` (uxsim_cpp_wrapper.py:1424–1425): the first of the nearest nodes. -/
def nearest (D : DWrap) (pos : ℕ → ℚ × ℚ) (x y : ℚ) : Option ℕ :=
  match List.range D.w.c.g.nNodes with
  | [] => none
  | n :: ns => some (ns.foldl (fun b m => if D.sqDist pos x y m < D.sqDist pos x y b then m else b) n)

/-- `get_nodes_in_area` (uxsim_cpp_wrapper.py:1427–1428). -/
def inArea (D : DWrap) (pos : ℕ → ℚ × ℚ) (x y r : ℚ) : List ℕ :=
  (List.range D.w.c.g.nNodes).filter (fun n => decide (D.sqDist pos x y n < D.w.c.g.fl (r ^ 2)))

/-- `[o for o in origs if o.outlinks]` (uxsim_cpp_wrapper.py:1025, 1036, 1049, 1062). -/
def origs (D : DWrap) (ns : List ℕ) : List ℕ := ns.filter (fun n => decide ((D.w.c.node n).outLinks ≠ []))

/-- `[d for d in dests if d.inlinks]` (uxsim_cpp_wrapper.py:1026, 1037, 1050, 1063). -/
def dests (D : DWrap) (ns : List ℕ) : List ℕ := ns.filter (fun n => decide ((D.w.c.node n).inLinks ≠ []))

/-- `… or [self.get_nearest_node(x, y)]` (uxsim_cpp_wrapper.py:1025–1026, 1049–1050). In a world without nodes this is
`[None]`, which the engine does not know. -/
def orNearest (D : DWrap) (pos : ℕ → ℚ × ℚ) (ns : List ℕ) (x y : ℚ) : M (List ℕ) :=
  if ns = [] then
    match D.nearest pos x y with
    | some n => .ok [n]
    | none => .error .attributeError
  else .ok ns

/-- `adddemand_point2point` (uxsim_cpp_wrapper.py:1015–1017). -/
def pointDemand (D : DWrap) (pos : ℕ → ℚ × ℚ) (xo yo xd yd t0 t1 flow volume : ℚ) (attr : Option String) (fuel : ℕ) :
    M DWrap :=
  match D.nearest pos xo yo, D.nearest pos xd yd with
  | some o, some d => D.addDemand o d t0 t1 flow volume attr fuel
  | _, _ => .error .attributeError

/-- The loops over the pairs (uxsim_cpp_wrapper.py:1029–1031, 1040–1042). -/
def pairsLoop (t0 t1 flow volume : ℚ) (attr : Option String) (fuel : ℕ) : List (ℕ × ℕ) → DWrap → M DWrap
  | [], D => .ok D
  | p :: ps, D =>
    match D.addDemand p.1 p.2 t0 t1 flow volume attr fuel with
    | .ok D1 => pairsLoop t0 t1 flow volume attr fuel ps D1
    | .error e => .error e

/-- Division of the demand among the pairs (uxsim_cpp_wrapper.py:1027–1031, 1038–1042). -/
def pairsDemand (D : DWrap) (os ds : List ℕ) (t0 t1 flow volume : ℚ) (attr : Option String) (fuel : ℕ) : M DWrap :=
  let k : ℕ := os.length * ds.length
  if k = 0 ∧ (flow ≠ -1 ∨ volume ≠ -1) then .error .zeroDivision
  else
    let f := if flow ≠ -1 then D.w.c.g.fl (flow / k) else flow
    let v := if volume ≠ -1 then D.w.c.g.fl (volume / k) else volume
    pairsLoop t0 t1 f v attr fuel (os.flatMap fun o => ds.map fun d => (o, d)) D

/-- `adddemand_nodes2nodes` (uxsim_cpp_wrapper.py:1034–1042). -/
def nodesDemand (D : DWrap) (os ds : List ℕ) (t0 t1 flow volume : ℚ) (attr : Option String) (fuel : ℕ) : M DWrap :=
  D.pairsDemand (D.origs os) (D.dests ds) t0 t1 flow volume attr fuel

/-- `adddemand_area2area` (uxsim_cpp_wrapper.py:1020–1031). -/
def areasDemand (D : DWrap) (pos : ℕ → ℚ × ℚ) (xo yo ro xd yd rd t0 t1 flow volume : ℚ) (attr : Option String)
    (fuel : ℕ) : M DWrap := do
  let os ← D.orNearest pos (D.origs (D.inArea pos xo yo ro)) xo yo
  let ds ← D.orNearest pos (D.dests (D.inArea pos xd yd rd)) xd yd
  D.pairsDemand os ds t0 t1 flow volume attr fuel

/-- `size` (uxsim_cpp_wrapper.py:1051–1053, 1064–1066). -/
def size (D : DWrap) (t0 t1 flow volume : ℚ) : ℤ :=
  let fl := D.w.c.g.fl
  pyInt (fl ((if 0 ≤ flow ∧ volume = -1 then fl (flow * fl (t1 - t0)) else volume) / D.w.c.g.deltaN))

/-- `rng.choice(xs, size=n)`: `r i` is the draw of entry `i`. -/
def draws (xs : List ℕ) (r : ℕ → ℕ) (n : ℕ) : M (List ℕ) := (List.range n).mapM (fun i => choiceU xs (r i))

/-- The loop of `adddemand_area2area2` (uxsim_cpp_wrapper.py:1057–1058). -/
def onesLoop (fuel : ℕ) : List (ℚ × ℕ × ℕ) → DWrap → M DWrap
  | [], D => .ok D
  | (t, o, d) :: ps, D =>
    match D.addVehicle t o d none fuel with
    | .ok D1 => onesLoop fuel ps D1
    | .error e => .error e

/-- `d2` (uxsim_cpp_wrapper.py:1071–1073), `r` being the draw. -/
def otherDest (ds : List ℕ) (o d r : ℕ) : M ℕ :=
  if o = d then choiceU (ds.filter (fun e => decide (e ≠ d))) r else .ok d

/-- The loop of `adddemand_nodes2nodes2` (uxsim_cpp_wrapper.py:1070–1074); `r i` is the draw of round `i`. -/
def onesLoop2 (ds : List ℕ) (r : ℕ → ℕ) (fuel : ℕ) : ℕ → List (ℚ × ℕ × ℕ) → DWrap → M DWrap
  | _, [], D => .ok D
  | i, (t, o, d) :: ps, D =>
    match otherDest ds o d (r i) with
    | .error e => .error e
    | .ok d2 =>
      match D.addVehicle t o d2 none fuel with
      | .ok D1 => onesLoop2 ds r fuel (i + 1) ps D1
      | .error e => .error e

/-- `adddemand_area2area2` (uxsim_cpp_wrapper.py:1045–1058). `linspace` and `choice` refuse negative numbers. The
`attribute` is not passed on. -/
def areasDemand2 (D : DWrap) (pos : ℕ → ℚ × ℚ) (xo yo ro xd yd rd t0 t1 flow volume : ℚ)
    (_attr : Option String) (r1 r2 : ℕ → ℕ) (fuel : ℕ) : M DWrap := do
  let os ← D.orNearest pos (D.origs (D.inArea pos xo yo ro)) xo yo
  let ds ← D.orNearest pos (D.dests (D.inArea pos xd yd rd)) xd yd
  let n := D.size t0 t1 flow volume
  if n < 0 then .error .valueError
  else do
    let o ← draws os r1 n.toNat
    let d ← draws ds r2 n.toNat
    onesLoop fuel ((World.linspace D.w.c.g.fl t0 t1 n.toNat).zip (o.zip d)) D

/-- `adddemand_nodes2nodes2` (uxsim_cpp_wrapper.py:1061–1074). The `attribute` is not passed on. -/
def nodesDemand2 (D : DWrap) (os ds : List ℕ) (t0 t1 flow volume : ℚ) (_attr : Option String) (r1 r2 r3 : ℕ → ℕ)
    (fuel : ℕ) : M DWrap := do
  let n := D.size t0 t1 flow volume
  if n < 0 then .error .valueError
  else do
    let o ← draws (D.origs os) r1 n.toNat
    let d ← draws (D.dests ds) r2 n.toNat
    onesLoop2 (D.dests ds) r3 fuel 0 ((World.linspace D.w.c.g.fl t0 t1 n.toNat).zip (o.zip d)) D

end DWrap
end UX.Cpp
