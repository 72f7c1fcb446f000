import Verif.Model.CppState

/-!
# Specification: where the vehicles of the C++ engine are

Stated over the members of the objects only.
-/

namespace UX.Cpp.Spec

/-- `v` is in the queue of link `l`, once, and in no other queue of the network. -/
def OnlyOnLink (W : CWorld) (v l : ℕ) : Prop :=
  (W.link l).vehs.count v = 1 ∧ (∀ m, m ≠ l → v ∉ (W.link m).vehs) ∧ ∀ n, v ∉ (W.node n).genQ

/-- `v` is in the generation queue of node `n`, once, and in no other queue of the network. -/
def OnlyWaiting (W : CWorld) (v n : ℕ) : Prop :=
  (W.node n).genQ.count v = 1 ∧ (∀ m, m ≠ n → v ∉ (W.node m).genQ) ∧ ∀ l, v ∉ (W.link l).vehs

/-- `v` is in no queue. -/
def Nowhere (W : CWorld) (v : ℕ) : Prop :=
  (∀ l, v ∉ (W.link l).vehs) ∧ ∀ n, v ∉ (W.node n).genQ

/-- The place of a vehicle agrees with its state. -/
def PlaceOK (W : CWorld) (v : ℕ) : Prop :=
  match (W.veh v).state with
  | .home => (W.veh v).link = none ∧ Nowhere W v
  | .wait => (W.veh v).link = none ∧ OnlyWaiting W v (W.veh v).orig
  | .run => ∃ l, l < W.g.nLinks ∧ (W.veh v).link = some l ∧ OnlyOnLink W v l
  | .ended => (W.veh v).link = none ∧ Nowhere W v
  | .abort => (W.veh v).link = none ∧ Nowhere W v

/-- On a link with `k` lanes the leader of the `i`-th vehicle of the queue is the `(i - k)`-th one,
none for `i < k`, and the follower is the `(i + k)`-th one, if there is one. -/
def ChainOK (W : CWorld) (l : ℕ) : Prop :=
  ∀ i v, (W.link l).vehs[i]? = some v →
    (W.veh v).leader = (if (W.link l).lanes ≤ i then (W.link l).vehs[i - (W.link l).lanes]? else none) ∧
    (W.veh v).follower = (W.link l).vehs[i + (W.link l).lanes]?

end UX.Cpp.Spec
