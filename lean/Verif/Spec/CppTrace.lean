import Verif.Spec.CppFlow

/-!
# Specification: histories of the C++ engine

A history is a list of passages: a vehicle enters its first link, moves from one link to another, or
leaves its last link. The definitions below say what it means for the queues, the cumulative curves,
the recorded travel times and the vehicles' positions of two worlds to be related by a history.
-/

namespace UX.Cpp.Spec
open CWorld

/-- At time step `time`, vehicle `veh` leaves a link (if any) and enters a link (if any). -/
structure Pass where
  time : ℕ
  veh : ℕ
  leaves : Option ℕ
  enters : Option ℕ
  deriving DecidableEq, Repr

/-- The passages into and out of link `l`. -/
def into (l : ℕ) (h : List Pass) : List Pass := h.filter (fun e => e.enters = some l)
def outOf (l : ℕ) (h : List Pass) : List Pass := h.filter (fun e => e.leaves = some l)

/-- The passages from link to link that leave `l`. -/
def movedOut (l : ℕ) (h : List Pass) : List Pass :=
  h.filter (fun e => e.leaves = some l ∧ e.enters ≠ none)

/-- The history takes place between time steps `s` (inclusive) and `t` (exclusive), in order. -/
def Timed (s t : ℕ) (h : List Pass) : Prop :=
  (∀ e ∈ h, s ≤ e.time ∧ e.time < t) ∧ h.Pairwise (fun e f => e.time ≤ f.time)

/-- `p` is where a vehicle is; its passages lead it to `q`. -/
inductive Travel (v : ℕ) : Option ℕ → List Pass → Option ℕ → Prop
  | nil (p : Option ℕ) : Travel v p [] p
  | own {p q : Option ℕ} {e : Pass} {h : List Pass} (hv : e.veh = v) (hp : e.leaves = p)
      (w : Travel v e.enters h q) : Travel v p (e :: h) q
  | other {p q : Option ℕ} {e : Pass} {h : List Pass} (hv : e.veh ≠ v)
      (w : Travel v p h q) : Travel v p (e :: h) q

/-- Vehicles on link `l`, front first, with the time at which they entered it. -/
def queue (W : CWorld) (l : ℕ) : List (ℕ × ℚ) :=
  (W.link l).vehs.map (fun v => (v, (W.veh v).arrTimeLink))

/-- The time at which time step `s` begins. -/
def clock (g : CGlob) (s : ℕ) : ℚ := g.fl (s * g.deltaT)

/-- Travel-time record of a vehicle that entered at time `t` and leaves with passage `e`: the time step
of the entry and the duration; a trip ends at the end of the time step. -/
def record (g : CGlob) (e : Pass) (t : ℚ) : ℕ × ℚ :=
  ((pyInt (g.fl (t / g.deltaT))).toNat,
    g.fl (clock g (if e.enters = none then e.time + 1 else e.time) - t))

/-- Link `l` is first-in first-out over the history: the vehicles that were on it or entered it, in this
order, are those that left it followed by those on it now. `ts` are the entry times of those that left. -/
structure Fifo (W W' : CWorld) (l : ℕ) (h : List Pass) (ts : List ℚ) : Prop where
  length : ts.length = (outOf l h).length
  order : queue W l ++ (into l h).map (fun e => (e.veh, clock W.g e.time)) =
    ((outOf l h).map Pass.veh).zip ts ++ queue W' l
  records : (W'.link l).ttEvents = (W.link l).ttEvents ++ List.zipWith (record W.g) (outOf l h) ts

/-- Counts of a link at the beginning of the current time step. -/
def countIn (W : CWorld) (l : ℕ) : ℚ := if W.g.timestep = 0 then 0 else (W.link l).arr (W.g.timestep - 1)
def countOut (W : CWorld) (l : ℕ) : ℚ := if W.g.timestep = 0 then 0 else (W.link l).dep (W.g.timestep - 1)

/-- The curves of link `l` recorded since `W` count the passages up to each time step. -/
def Curves (W W' : CWorld) (l : ℕ) (h : List Pass) : Prop :=
  ∀ s, W.g.timestep ≤ s → s < W'.g.timestep →
    (W'.link l).arr s = countIn W l +
      ((into l h).filter (fun e => e.time ≤ s)).length * W.g.deltaN ∧
    (W'.link l).dep s = countOut W l +
      ((outOf l h).filter (fun e => e.time ≤ s)).length * W.g.deltaN

/-- Every passage uses links of the network and leads on from where it starts: a trip begins on a link
out of the origin, the link entered begins where the link left ends. -/
def OnRoad (W : CWorld) (e : Pass) : Prop :=
  match e.leaves, e.enters with
  | none, some b => b < W.g.nLinks ∧ (W.link b).src = (W.veh e.veh).orig
  | some a, some b => a < W.g.nLinks ∧ b < W.g.nLinks ∧ (W.link a).dst = (W.link b).src
  | some a, none => a < W.g.nLinks ∧ ((W.link a).dst = (W.veh e.veh).dest ∨
      (W.node (W.link a).dst).outLinks = [])
  | none, none => False

/-- A move from link to link through a node with at least two phases happens while the phase of the node
is one of the signal groups of the link left. -/
def Green (W : CWorld) (e : Pass) : Prop :=
  ∀ a, e.leaves = some a → e.enters ≠ none →
    (W.node (W.link a).dst).sigPhase ∈ (W.link a).group ∨ (W.node (W.link a).dst).sigInt.length ≤ 1

/-- A move from link to link at time step `t` happens while the phase that the node records for this
time step is one of the signal groups of the link left. `W` is the world before the run that made the
record, `W'` the one after it. -/
def GreenAt (W W' : CWorld) (e : Pass) : Prop :=
  ∀ a, e.leaves = some a → e.enters ≠ none → 2 ≤ (W.node (W.link a).dst).sigInt.length →
    ∃ p ∈ (W.link a).group, (W'.node (W.link a).dst).sigLog[
      (W.node (W.link a).dst).sigLog.length + (e.time - W.g.timestep)]? = some p

/-- The moves from link to link through node `n`. -/
def through (W : CWorld) (n : ℕ) (h : List Pass) : List Pass :=
  h.filter (fun e => (e.leaves.map (fun a => (W.link a).dst)) = some n ∧ e.enters ≠ none)

/-- `h` is a history of a run from `W` to `W'`. -/
structure History (W W' : CWorld) (h : List Pass) : Prop where
  timed : Timed W.g.timestep W'.g.timestep h
  road : ∀ e ∈ h, OnRoad W e
  walk : ∀ v, Travel v (W.veh v).link h (W'.veh v).link
  fifo : ∀ l, ∃ ts, Fifo W W' l h ts

/-- The passages of time steps `s` (inclusive) to `t` (exclusive). -/
def during (s t : ℕ) (h : List Pass) : List Pass := h.filter (fun e => s ≤ e.time ∧ e.time < t)

/-- The passages `h`, between time steps `s0` and `t0`, never exceed what a counter allows that starts
at `c`, gains at most `rate` per time step and is not refilled beyond `full`; in any window of time steps
not more than `max c full` plus `rate` per time step passes. -/
structure Limited (dN rate full c : ℚ) (s0 t0 : ℕ) (h : List Pass) : Prop where
  first : ∀ t, s0 ≤ t → t ≤ t0 → (during s0 t h).length * dN ≤ c + (t - s0 : ℕ) * rate
  window : ∀ s t, s0 ≤ s → s ≤ t → t ≤ t0 →
    (during s t h).length * dN ≤ max c full + (t - s : ℕ) * rate

/-- The phases of a signal with `n` phases recorded one after the other, starting from phase `p`: each is
the one before or its successor. -/
inductive Cyclic (n : ℕ) : ℕ → List ℕ → Prop
  | nil (p : ℕ) : Cyclic n p []
  | stay {p : ℕ} {ps : List ℕ} (h : Cyclic n p ps) : Cyclic n p (p :: ps)
  | go {p : ℕ} {ps : List ℕ} (h : Cyclic n ((p + 1) % n) ps) : Cyclic n p ((p + 1) % n :: ps)

end UX.Cpp.Spec
