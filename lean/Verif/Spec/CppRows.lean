import Verif.Spec.CppLog

/-!
# Specification: what the rows of a vehicle log say about its motion
-/

namespace UX.Cpp.Spec
open CWorld

/-- Two consecutive log entries of vehicle `v`. A trip starts at the beginning of a link that leaves the
origin. From then on the logged speed is the distance driven since the entry before by the time step:
either on the same link, or to the end of the link and from there on a link that continues it. (The engine
regards a vehicle less than a nanometre before the end of its link as being there.) -/
def RowStep (W : CWorld) (v : ℕ) (e e' : CLog) : Prop :=
  match e.link, e'.link with
  | _, none => True
  | none, some m => m < W.g.nLinks ∧ (W.link m).src = (W.veh v).orig ∧ e'.x = 0
  | some l, some m => l < W.g.nLinks ∧ m < W.g.nLinks ∧
      ((l = m ∧ e'.v * W.g.deltaT = e'.x - e.x) ∨
        ((W.link l).dst = (W.link m).src ∧
          |e'.v * W.g.deltaT - ((W.link l).len - e.x + e'.x)| < 1 / 1000000000))

/-- The log of vehicle `v` is a possible journey. -/
def Journey (W : CWorld) (v : ℕ) : Prop :=
  ∀ i e e', (W.veh v).log[i]? = some e → (W.veh v).log[i + 1]? = some e' → RowStep W v e e'

/-- A vehicle on the road: its last log entry says where it was at the beginning of the last time step;
its speed is the distance it has driven since. -/
def LastRow (W : CWorld) (v : ℕ) : Prop :=
  ∃ e, (W.veh v).log.getLast? = some e ∧ e.link = (W.veh v).link ∧ e.x = (W.veh v).xOld ∧
    e.lane = (W.veh v).lane ∧ (W.veh v).v * W.g.deltaT = (W.veh v).x - e.x

/-- No link leads from a node to itself. -/
def NoLoops (W : CWorld) : Prop := ∀ l, l < W.g.nLinks → (W.link l).src ≠ (W.link l).dst

/-- Distance driven between two log entries, without the part on the next link. -/
def leg (W : CWorld) (e e' : CLog) : ℚ :=
  match e.link, e'.link with
  | some l, some m => if l = m then e'.x - e.x else (W.link l).len - e.x
  | _, _ => 0

/-- Sum of the legs of a log. -/
def legs (W : CWorld) : List CLog → ℚ
  | e :: e' :: r => leg W e e' + legs W (e' :: r)
  | _ => 0

/-- `ls` is a way through the network that starts at node `o`. -/
def Way (W : CWorld) (o : ℕ) (ls : List ℕ) : Prop :=
  (∀ l, ls.head? = some l → (W.link l).src = o) ∧
    ls.IsChain (fun a b => (W.link a).dst = (W.link b).src) ∧ ∀ l ∈ ls, l < W.g.nLinks

/-- Length of a way. -/
def wayLen (W : CWorld) (ls : List ℕ) : ℚ := (ls.map (fun l => (W.link l).len)).sum

end UX.Cpp.Spec
