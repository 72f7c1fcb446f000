import Verif.Proofs.Basic
import Mathlib.Logic.Relation

/-!
# Primitive state changes

`Prim a W W'` : one primitive change inside a simulation step, with the guard under which the code
performs it.  `Decomp.lean` shows that every time step is a sequence of these.  Invariants are then
proved per primitive.
-/

namespace UX
open World

/-- Transfer without the end-of-trip check of the vehicle behind (uxsim.py:349–403 minus 398–400). -/
def World.moveCore (W : World) (n : NodeId) (v : VehId) (a b : LinkId) : M World := do
  if W.L.cumDep a = [] ∨ W.L.cumArr b = [] then throw .indexError
  if W.L.u a = 0 then throw .zeroDivision
  let W2 ← (W.leaveLink n v a b).attachLeader v b
  let W3 := W2.placeOn v (W2.carryOver v a b)
  pure { W3 with
    L := { W3.L with vehs := upd W3.L.vehs b (W3.L.vehs b ++ [v]) }
    N := { W3.N with incoming := upd W3.N.incoming n ((W3.N.incoming n).erase v) } }

/-- Changes of routing and taxi data only. -/
def Soft (W W' : World) : Prop :=
  ∃ rng R H dest destList nodeEvent pref,
    W' = { W with
           rng := rng, R := R, H := H
           V := { W.V with dest := dest, destList := destList, nodeEvent := nodeEvent, pref := pref } } ∧
    ∀ v, W.V.mode v = .single → dest v = W.V.dest v

/-- Changes of user-settable parameters only. The spacing of a link changes only if it is empty. -/
def Param (W W' : World) : Prop :=
  ∃ rng H time signal signalOffset phase signalT signalGroup capOut capIn u kappa w capacity delta
    deltaPerLane specRoute linksPrefer linksAvoid,
    W' = { W with
           rng := rng, H := H, time := time
           N := { W.N with signal := signal, signalOffset := signalOffset, phase := phase,
                           signalT := signalT }
           L := { W.L with signalGroup := signalGroup, capOut := capOut, capIn := capIn, u := u,
                           kappa := kappa, w := w, capacity := capacity, delta := delta,
                           deltaPerLane := deltaPerLane }
           V := { W.V with specRoute := specRoute, linksPrefer := linksPrefer,
                           linksAvoid := linksAvoid } } ∧
    ∀ l, W.L.vehs l ≠ [] → deltaPerLane l = W.L.deltaPerLane l

inductive Act
  | linkTick (l : LinkId) | nodeTick (n : NodeId) | depart (n : NodeId) (v : VehId) (l : LinkId)
  | move (n : NodeId) (v : VehId) (a b : LinkId) | endTrip (v : VehId) (l : LinkId)
  | clearInc (n : NodeId) | carfollow (v : VehId) | record (v : VehId) | startWait (v : VehId)
  | advance (v : VehId) | routing | event (v : VehId) | nextDest (v : VehId)
  | flagEnd (v : VehId) | flagAbort (v : VehId) | choose (v : VehId) | pushInc (n : NodeId) (v : VehId)

/-- A vehicle standing at the end of link `a`, with its route log up to date. -/
def AtEnd (W : World) (v : VehId) (a : LinkId) : Prop :=
  W.V.state v = .run ∧ W.V.link v = some a ∧ W.V.x v = W.L.length a ∧ W.V.linkOld v = some a ∧
    ∀ n, v ∉ W.N.incoming n

/-- What `route_next_link_choice` left for a vehicle `v` at the end of its link, at node `n`: the
choice is skipped for a taxi whose next destination is again `n`. -/
def Chosen (W : World) (v : VehId) (n : NodeId) : Prop :=
  (W.V.specRoute v = none ∧ W.V.dest v = some n ∧ W.V.mode v = .taxi) ∨
  (W.V.rnl v = .none ∧ W.N.outlinks n = []) ∨
  (∃ b, W.V.rnl v = .to b ∧ b ∈ W.nextCandidates v n ∧ W.V.specRoute v = none) ∨
  (∃ b route, W.V.rnl v = .to b ∧ b ∈ W.N.outlinks n ∧ W.V.specRoute v = some route ∧
    route[(W.V.logTLink v).length - 1]? = some b)

inductive Prim : Act → World → World → Prop
  | linkTick {W W' l} : l < W.nLinks → W.linkUpdate l = .ok W' → Prim (.linkTick l) W W'
  | nodeTick {W W' n} : n < W.nNodes → W.nodeUpdate n = .ok W' → Prim (.nodeTick n) W W'
  | depart {W W' n v t cs l} : n < W.nNodes → W.N.genq n = v :: t →
      W.originCandidates v n = .ok cs → l ∈ cs → W.canEnter l = true →
      W.depart n v l = .ok W' → Prim (.depart n v l) W W'
  | move {W W' n v a b t} : n < W.nNodes → v ∈ W.N.incoming n → W.V.link v = some a →
      W.L.vehs a = v :: t → W.V.rnl v = .to b →
      (W.N.phase n ∈ W.L.signalGroup a ∨ (W.N.signal n).length ≤ 1) →
      (W.dn : ℚ) ≤ W.L.capOutRem a → (W.dn : ℚ) ≤ W.N.flowCapRem n → W.canEnter b = true →
      W.moveCore n v a b = .ok W' → Prim (.move n v a b) W W'
  | endTrip {W W' v l t} : W.V.link v = some l → W.L.vehs l = v :: t → W.V.flagEnd v = true →
      W.endTrip v = .ok W' → Prim (.endTrip v l) W W'
  | clearInc {W n} : n < W.nNodes →
      Prim (.clearInc n) W { W with N := { W.N with incoming := upd W.N.incoming n [] } }
  | carfollow {W W' v} : v ∈ W.running → W.carfollow v = .ok W' → Prim (.carfollow v) W W'
  | record {W v} : v ∈ W.living → Prim (.record v) W (W.recordLog v false)
  | startWait {W v} : v ∈ W.living → Prim (.startWait v) W (W.startWait v)
  | advance {W v} : W.V.state v = .run → W.V.linkOld v = W.V.link v →
      (∀ n, v ∉ W.N.incoming n) → Prim (.advance v) W (W.advance v)
  /-- draws from the generator, route search, preference updates -/
  | routing {W rng R pref} : Prim .routing W
      { W with rng := rng, R := R, V := { W.V with pref := pref } }
  | event {W W' v a e} : AtEnd W v a → W.V.nodeEvent v (W.L.endN a) = some e →
      W.runEvent e = .ok W' → Prim (.event v) W W'
  | nextDest {W v a} : AtEnd W v a → W.V.dest v = some (W.L.endN a) → W.V.mode v = .taxi →
      Prim (.nextDest v) W (W.nextDest v)
  | flagEnd {W v a} : AtEnd W v a → W.V.dest v = some (W.L.endN a) → W.V.mode v = .single →
      Prim (.flagEnd v) W { W with V := { W.V with flagEnd := upd W.V.flagEnd v true } }
  | flagAbort {W v a} : AtEnd W v a → W.V.dest v ≠ some (W.L.endN a) →
      W.N.outlinks (W.L.endN a) = [] → W.V.tripAbort v = true →
      Prim (.flagAbort v) W { W with V := { W.V with
        flagAborted := upd W.V.flagAborted v true
        rnl := upd W.V.rnl v .none
        flagEnd := upd W.V.flagEnd v true } }
  | choose {W W' v a} : AtEnd W v a → W.nextLinkChoice v = .ok W' →
      (W.V.dest v = some (W.L.endN a) → W.V.mode v = .taxi) →
      (W.V.mode v = .single → W.V.tripAbort v = true → W.N.outlinks (W.L.endN a) ≠ []) →
      Prim (.choose v) W W'
  | pushInc {W v a} : AtEnd W v a → (W.V.mode v = .single →
        W.V.dest v ≠ some (W.L.endN a) ∧ (W.V.tripAbort v = true → W.N.outlinks (W.L.endN a) ≠ []) ∧
        (W.V.rnl v = .none ∨ ∃ b ∈ W.N.outlinks (W.L.endN a), W.V.rnl v = .to b)) →
      Chosen W v (W.L.endN a) →
      Prim (.pushInc (W.L.endN a) v) W (W.pushIncoming (W.L.endN a) v)

end UX
