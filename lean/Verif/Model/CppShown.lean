import Verif.Model.CppBuild
import Verif.Model.Base

/-!
# Flow parameters shown by link objects in the C++ mode (`uxsim_cpp_wrapper.py`)

`CppLink` copies parameters of the engine's link into attributes of a Python object: once in the constructor, again in
`change_free_flow_speed` and `change_jam_density`. Names and the grid for Edie's definition are left out. Division by 0
gives an infinite number in C++; a jam density of 0 is outside the model.
-/

namespace UX.Cpp

/-- Attributes of a `CppLink` that describe its traffic flow (uxsim_cpp_wrapper.py:199, 239–251). -/
structure LinkObj where
  lanes : ℕ
  length : ℚ
  u : ℚ
  kappa : ℚ
  tau : ℚ
  w : ℚ
  capacity : ℚ
  delta : ℚ
  deltaLane : ℚ
  freeFlow : ℚ
  jam : ℚ
  jamLane : Option ℚ
  qStar : ℚ
  kStar : ℚ
  deriving DecidableEq

/-- The engine and the Python objects of its links; `none` for a link whose constructor raised. -/
structure Shown where
  c : CWorld
  obj : ℕ → Option LinkObj

namespace Shown

/-- `CppLink._read_from_cpp` (uxsim_cpp_wrapper.py:469–482). -/
def readObj (fl : ℚ → ℚ) (L : CLink) (o : LinkObj) : LinkObj :=
  { o with
    u := L.vmax, kappa := L.kappa, tau := L.tau, w := L.bws, capacity := L.cap, delta := L.delta
    deltaLane := L.deltaLane, freeFlow := L.vmax, jam := L.kappa, qStar := L.cap
    kStar := if 0 < L.vmax then fl (L.cap / L.vmax) else 0 }

/-- The last part of `CppLink.__init__` (uxsim_cpp_wrapper.py:236–251). `k_star = capacity/u` is not guarded here. -/
def newObj (fl : ℚ → ℚ) (L : CLink) (len : ℚ) (lanes : ℕ) (perLane : Option ℚ) : Except Err LinkObj :=
  if L.vmax = 0 then .error .zeroDivision
  else .ok { lanes := lanes, length := len, u := L.vmax, kappa := L.kappa, tau := L.tau, w := L.bws
             capacity := L.cap, delta := L.delta, deltaLane := L.deltaLane, freeFlow := L.vmax, jam := L.kappa
             jamLane := perLane, qStar := L.cap, kStar := fl (L.cap / L.vmax) }

/-- `kappa` given to the engine (uxsim_cpp_wrapper.py:222–224). -/
def givenKappa (fl : ℚ → ℚ) (a : CWorld.LinkArgs) : Option ℚ → ℚ
  | none => a.kappa
  | some p => fl (p * a.lanes)

/-- `CppLink.__init__` (uxsim_cpp_wrapper.py:187–274); `a.kappa` is `jam_density`. -/
def addLink (S : Shown) (src dst : ℕ) (a : CWorld.LinkArgs) (perLane : Option ℚ) : Shown × Option Err :=
  let c := S.c.addLink src dst { a with kappa := givenKappa S.c.g.fl a perLane }
  match newObj S.c.g.fl (c.link S.c.g.nLinks) a.len a.lanes perLane with
  | .ok o => (⟨c, upd S.obj S.c.g.nLinks (some o)⟩, none)
  | .error e => (⟨c, upd S.obj S.c.g.nLinks none⟩, some e)

/-- `CppLink.change_free_flow_speed` (uxsim_cpp_wrapper.py:458–461). -/
def changeSpeed (S : Shown) (l : ℕ) (q : ℚ) : Shown :=
  let c := S.c.changeFreeFlow l q
  ⟨c, upd S.obj l ((S.obj l).map (readObj c.g.fl (c.link l)))⟩

/-- `CppLink.change_jam_density` (uxsim_cpp_wrapper.py:463–466). -/
def changeJam (S : Shown) (l : ℕ) (q : ℚ) : Shown :=
  let c := S.c.changeJam l q
  ⟨c, upd S.obj l ((S.obj l).map (readObj c.g.fl (c.link l)))⟩

/-- Assigning to the attribute `u` of the Python object: `CppLink` has no setter for it. -/
def assignU (S : Shown) (l : ℕ) (q : ℚ) : Shown :=
  { S with obj := upd S.obj l ((S.obj l).map (fun o => { o with u := q })) }

end Shown

/-- Parameter changes that do not go through `change_free_flow_speed` or `change_jam_density`. -/
def CWorld.Edit.plain : CWorld.Edit → Bool
  | .freeFlow _ _ | .jam _ _ => false
  | _ => true

/-- Calls that reach the engine without touching the Python objects of links. -/
inductive Plain : CWorld → CWorld → Prop
  | node (W W' : CWorld) (ints : List ℚ) (off cap : ℚ) (lanes : ℤ) (rng : ℕ → ℕ) (fuel : ℕ)
      (h : W.addNode ints off cap lanes rng fuel = some W') : Plain W W'
  | vehicle (W : CWorld) (dep : ℚ) (orig dest : ℕ) (prefer : List ℕ) (ho : orig < W.g.nNodes)
      (hd : dest < W.g.nNodes) : Plain W (W.addVehicle dep orig dest prefer)
  | tmax (W : CWorld) (t : ℚ) : Plain W (W.setTMax t)
  | init (W : CWorld) : Plain W W.initAdj
  | edit (W : CWorld) (e : CWorld.Edit) (he : e.plain = true) : Plain W (W.edit e)
  | run (W : CWorld) (endTs : ℕ) (sched : ℕ → CWorld → CWorld.Sched)
      (hs : ∀ t V, (sched t V).Valid V) : Plain W (W.mainLoop sched endTs).1

/-- One call. -/
inductive ShownStep : Shown → Shown → Prop
  | add (S : Shown) (src dst : ℕ) (a : CWorld.LinkArgs) (perLane : Option ℚ) (hs : src < S.c.g.nNodes)
      (hd : dst < S.c.g.nNodes) (hl : 1 ≤ a.lanes)
      (hr : ∀ v, v < S.c.g.nVehs → (S.c.veh v).state ≠ .run) : ShownStep S (S.addLink src dst a perLane).1
  | speed (S : Shown) (l : ℕ) (q : ℚ) : ShownStep S (S.changeSpeed l q)
  | jam (S : Shown) (l : ℕ) (q : ℚ) (hq : q ≠ 0) : ShownStep S (S.changeJam l q)
  | plain (S : Shown) (c : CWorld) (h : Plain S.c c) : ShownStep S { S with c := c }

/-- Worlds and link objects that arise by calls. -/
inductive ShownReach : Shown → Prop
  | empty (fl : ℚ → ℚ) (tMax deltaN tau duoTime duoWeight noise : ℚ)
      (hardDet gradual noCyclic adjustCap logMode : Bool) (ttInterval : ℕ) :
      ShownReach ⟨CWorld.empty fl tMax deltaN tau duoTime duoWeight noise hardDet gradual noCyclic adjustCap logMode
        ttInterval, fun _ => none⟩
  | step {S S' : Shown} : ShownReach S → ShownStep S S' → ShownReach S'

end UX.Cpp
