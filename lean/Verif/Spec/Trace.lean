import Verif.Model.State

/-! Specification vocabulary about histories: who entered and left links and queues, in order. -/

namespace UX

/-- vehicle entering link `l` in this event -/
def enters (l : LinkId) : Event → Option VehId
  | .depart _ v _ k => if k = l then some v else none
  | .pass _ v _ _ b _ => if b = l then some v else none
  | _ => none

/-- vehicle leaving link `l` in this event -/
def leaves (l : LinkId) : Event → Option VehId
  | .pass _ v _ a _ _ => if a = l then some v else none
  | .finish _ v k _ => if k = l then some v else none
  | _ => none

/-- vehicle joining the queue of node `n` in this event -/
def joins (n : NodeId) : Event → Option VehId
  | .queue _ v m => if m = n then some v else none
  | _ => none

/-- vehicle leaving the queue of node `n` in this event -/
def quits (n : NodeId) : Event → Option VehId
  | .depart _ v m _ => if m = n then some v else none
  | _ => none

/-- vehicles selected by `f`, in chronological order (the trace is newest-first) -/
def history (f : Event → Option VehId) (tr : List Event) : List VehId := (tr.filterMap f).reverse

/-- link entered by vehicle `v` in this event -/
def takes (v : VehId) : Event → Option LinkId
  | .depart _ u _ l => if u = v then some l else none
  | .pass _ u _ _ b _ => if u = v then some b else none
  | _ => none

/-- links entered by vehicle `v`, in chronological order -/
def travelled (v : VehId) (tr : List Event) : List LinkId := (tr.filterMap (takes v)).reverse

/-- time step of an event -/
def Event.at : Event → ℕ
  | .queue T _ _ => T | .depart T _ _ _ => T | .pass T _ _ _ _ _ => T | .finish T _ _ _ => T

/-- number of events up to and including time step `i` in which `f` selects a vehicle -/
def countUpTo (f : Event → Option VehId) (tr : List Event) (i : ℕ) : ℕ :=
  tr.countP (fun e => (f e).isSome && decide (e.at ≤ i))

/-- time and link of an event in which vehicle `v` enters a link -/
def takesAt (v : VehId) : Event → Option (ℕ × LinkId)
  | .depart T u _ l => if u = v then some (T, l) else none
  | .pass T u _ _ b _ => if u = v then some (T, b) else none
  | _ => none

/-- last time `v` entered a link, and that link -/
def lastTake (v : VehId) (tr : List Event) : Option (ℕ × LinkId) := tr.findSome? (takesAt v)

/-- Every vehicle in the trace took at least the free-flow time minus one time step for every link it
left: a vehicle that entered link `a` in step `T0` and passes on in step `T` has spent `(T - T0)·dt`, one
that finishes its trip in step `T` has spent `(T + 1 - T0)·dt` (end of the step). -/
def NotFaster (len u : LinkId → ℚ) (dt : ℚ) : List Event → Prop
  | [] => True
  | e :: tr => NotFaster len u dt tr ∧ match e with
    | .pass T v _ a _ _ => ∃ T0, lastTake v tr = some (T0, a) ∧ T0 ≤ T ∧
        len a / u a - dt ≤ ((T : ℚ) - T0) * dt
    | .finish T v a _ => ∃ T0, lastTake v tr = some (T0, a) ∧ T0 ≤ T ∧
        len a / u a - dt ≤ ((T : ℚ) + 1 - T0) * dt
    | _ => True

/-- length of a link completely passed by `v` in this event -/
def passedIn (len : LinkId → ℚ) (v : VehId) : Event → ℚ
  | .pass _ u _ a _ _ => if u = v then len a else 0
  | .finish _ u a _ => if u = v then len a else 0
  | _ => 0

/-- total length of the links completely passed by `v` -/
def passedLength (len : LinkId → ℚ) (v : VehId) (tr : List Event) : ℚ := (tr.map (passedIn len v)).sum

/-- sum over the nodes passed by `v` of the free-flow distance of one time step on the link entered -/
def carryBound (u : LinkId → ℚ) (dt : ℚ) (v : VehId) (tr : List Event) : ℚ :=
  (tr.map (fun e => match e with | .pass _ w _ _ b _ => if w = v then u b * dt else 0 | _ => 0)).sum

/-- number of nodes passed by `v` -/
def passCount (v : VehId) (tr : List Event) : ℕ :=
  tr.countP (fun e => match e with | .pass _ u _ _ _ _ => decide (u = v) | _ => false)

/-- number of events selected by `sel` in the time steps `i, …, j-1` -/
def countBetween (sel : Event → Bool) (tr : List Event) (i j : ℕ) : ℕ :=
  tr.countP (fun e => sel e && decide (i ≤ e.at) && decide (e.at < j))

/-- a vehicle enters link `l` -/
def entersLink (l : LinkId) (e : Event) : Bool := (enters l e).isSome

/-- a vehicle passes from link `l` over a node -/
def passesFrom (l : LinkId) : Event → Bool
  | .pass _ _ _ a _ _ => decide (a = l)
  | _ => false

/-- a vehicle passes node `n` -/
def passesNode (n : NodeId) : Event → Bool
  | .pass _ _ m _ _ _ => decide (m = n)
  | _ => false

end UX
