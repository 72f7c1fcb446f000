import Verif.Proofs.Scenario

/-!
# Repeating the demand calls after reloading
-/

namespace UX
open World Relation

/-- `W` with other unused inflow capacities. -/
def World.setIn (W : World) (g : LinkId → ℚ) : World := { W with L := { W.L with capInRem := g } }

theorem map_bind' {α β γ : Type} (m : M α) (f : α → M β) (g : β → γ) :
    (m >>= f).map g = m >>= fun a => (f a).map g := by cases m <;> rfl

theorem bind_map' {α β γ : Type} (m : M α) (f : α → β) (g : β → M γ) :
    m.map f >>= g = m >>= fun a => g (f a) := by cases m <;> rfl

theorem getNode_setIn (W : World) (g) : (W.setIn g).getNode = W.getNode := by
  funext r; cases r <;> rfl

theorem getLink_setIn (W : World) (g) : (W.setIn g).getLink = W.getLink := by
  funext r; cases r <;> rfl

theorem addVehicle_setIn (W : World) (g a) :
    (W.setIn g).addVehicle a = (W.addVehicle a).map (·.setIn g) := by
  unfold addVehicle
  rw [getNode_setIn, getLink_setIn]
  cases ho : W.getNode a.orig with
  | error e => rfl
  | ok o =>
    have hv : (W.setIn g).vehDict = W.vehDict := rfl
    have hp : (W.setIn g).prefCache = W.prefCache := rfl
    have hn : (W.setIn g).nVeh = W.nVeh := rfl
    cases hl : a.linksPrefer.mapM W.getLink <;> cases hm : a.linksAvoid.mapM W.getLink <;>
    cases hr : a.routePref <;> cases hc : W.prefCache <;> cases hd : a.dest with
    | none =>
      simp only [bind, Except.bind, pure, Except.pure, Except.map, hl, hm, hr, hv, hp, hc, hn] <;>
        first | rfl | (split <;> rfl)
    | some r =>
      cases hg : W.getNode r <;>
      simp only [bind, Except.bind, pure, Except.pure, Except.map, hl, hm, hr, hv, hp, hc, hn, hg] <;>
        first | rfl | (split <;> rfl)

/-- `m` gives the same with other inflow capacities. -/
def SetIn (g : LinkId → ℚ) (f : World → M World) : Prop := ∀ W, f (W.setIn g) = (f W).map (·.setIn g)

theorem demandWhile_setIn (g) (o d : Ref) (t : ℤ) : ∀ (k : ℕ) (W : World) (f : ℚ),
    demandWhile o d t k (W.setIn g) f = (demandWhile o d t k W f).map fun p => (p.1.setIn g, p.2)
  | 0, W, f => by
    unfold demandWhile
    show (if (W.dn : ℚ) ≤ f then _ else _) = _
    split <;> rfl
  | k + 1, W, f => by
    unfold demandWhile
    rw [addVehicle_setIn]
    show (if (W.dn : ℚ) ≤ f then _ else _) = _
    split
    · cases h : W.addVehicle { orig := o, dest := some d, dep := .step t } with
      | error e => rfl
      | ok W1 => exact demandWhile_setIn g o d t k W1 _
    · rfl

theorem demandLoop_setIn (g) (o d : Ref) (q : ℚ) : ∀ (ts : List ℤ) (W : World) (f : ℚ),
    demandLoop o d q ts (W.setIn g) f = (demandLoop o d q ts W f).map fun p => (p.1.setIn g, p.2)
  | [], W, f => rfl
  | t :: ts, W, f => by
    unfold demandLoop
    dsimp only
    rw [demandWhile_setIn, show (W.setIn g).dn = W.dn from rfl, show (W.setIn g).dt = W.dt from rfl,
      show (W.setIn g).fl = W.fl from rfl]
    cases h : demandWhile o d t (⌊W.fl (f + W.fl (q * W.dt)) / W.dn⌋.toNat + 1) W
      (W.fl (f + W.fl (q * W.dt))) with
    | error e => rfl
    | ok p => exact demandLoop_setIn g o d q ts p.1 p.2

theorem addDemand_setIn (g) (o d : Ref) (ts te q n : ℚ) : SetIn g fun W => W.addDemand o d ts te q n := by
  intro W
  dsimp only
  unfold addDemand
  have e : (W.setIn g).fl = W.fl := rfl
  have e' : (W.setIn g).dt = W.dt := rfl
  rw [e, e']
  dsimp only
  split
  · split
    · rfl
    · simp only [bind, Except.bind, pure, Except.pure]
      rw [demandLoop_setIn]
      cases demandLoop o d _ _ W 0 <;> rfl
  · simp only [bind, Except.bind, pure, Except.pure]
    rw [demandLoop_setIn]
    cases demandLoop o d _ _ W 0 <;> rfl

theorem nearest_setIn (W : World) (g) : (W.setIn g).nearestNode = W.nearestNode := rfl

theorem addDemandPoints_setIn (g) (xo yo xd yd ts te q n : ℚ) :
    SetIn g fun W => W.addDemandPoints xo yo xd yd ts te q n := by
  intro W
  dsimp only
  unfold addDemandPoints
  rw [nearest_setIn]
  rw [map_bind']; refine bind_congr fun o => ?_
  rw [map_bind']; refine bind_congr fun d => ?_
  exact addDemand_setIn g _ _ _ _ _ _ W

theorem demandPairs_setIn (g) (ts te q n : ℚ) : ∀ ps, SetIn g (demandPairs ts te q n ps)
  | [], W => rfl
  | p :: ps, W => by
    unfold demandPairs
    have := addDemand_setIn g (.obj p.1) (.obj p.2) ts te q n W
    dsimp only at this
    rw [this, bind_map', map_bind']
    exact bind_congr fun W1 => demandPairs_setIn g ts te q n ps W1

theorem demandEach_setIn (g) (os ds : List NodeId) (ts te q n : ℚ) :
    SetIn g fun W => W.demandEach os ds ts te q n := by
  intro W
  dsimp only
  unfold demandEach
  dsimp only
  split
  · rfl
  · exact demandPairs_setIn g _ _ _ _ _ W

theorem addDemandNodes_setIn (g) (os ds : List Ref) (ts te q n : ℚ) :
    SetIn g fun W => W.addDemandNodes os ds ts te q n := by
  intro W
  dsimp only
  unfold addDemandNodes
  rw [getNode_setIn]
  rw [map_bind']; refine bind_congr fun o => ?_
  rw [map_bind']; refine bind_congr fun d => ?_
  exact demandEach_setIn g _ _ _ _ _ _ W

theorem addDemandAreas_setIn (g) (xo yo ro xd yd rd ts te q n : ℚ) :
    SetIn g fun W => W.addDemandAreas xo yo ro xd yd rd ts te q n := by
  intro W
  dsimp only
  unfold addDemandAreas
  rw [map_bind']; refine bind_congr fun o => ?_
  rw [map_bind']; refine bind_congr fun d => ?_
  exact demandEach_setIn g _ _ _ _ _ _ W

theorem drawMany_setIn {α : Type} (g) (xs : List α) : ∀ (k : ℕ) (W : World),
    drawMany xs k (W.setIn g) = (drawMany xs k W).map fun p => (p.1, p.2.setIn g)
  | 0, W => rfl
  | k + 1, W => by
    unfold drawMany
    rw [show (W.setIn g).draw.1 = W.draw.1 from rfl, show (W.setIn g).draw.2 = W.draw.2.setIn g from rfl,
      map_bind']
    refine bind_congr fun a => ?_
    rw [drawMany_setIn g xs k, bind_map', map_bind']
    rfl

theorem otherDest_setIn (g) (ds : List NodeId) (o d : NodeId) (W : World) :
    otherDest ds o d (W.setIn g) = (otherDest ds o d W).map fun p => (p.1, p.2.setIn g) := by
  unfold otherDest
  split
  · rw [show (W.setIn g).draw.1 = W.draw.1 from rfl]
    cases choiceU (ds.filter fun e => decide (e ≠ d)) W.draw.1 <;> rfl
  · rfl

theorem demandOnes_setIn (g) (ds : List NodeId) : ∀ ps, SetIn g (demandOnes ds ps)
  | [], W => rfl
  | (t, o, d) :: ps, W => by
    unfold demandOnes
    rw [otherDest_setIn, bind_map', map_bind']
    refine bind_congr fun p => ?_
    dsimp only
    rw [addVehicle_setIn, bind_map', map_bind']
    exact bind_congr fun W1 => demandOnes_setIn g ds ps W1

theorem demandSmooth_setIn (g) (os ds : List NodeId) (ts te q n : ℚ) :
    SetIn g fun W => W.demandSmooth os ds ts te q n := by
  intro W
  dsimp only
  unfold demandSmooth
  dsimp only
  rw [show (W.setIn g).demandSize = W.demandSize from rfl, show (W.setIn g).fl = W.fl from rfl]
  split
  · rfl
  · rw [drawMany_setIn, bind_map', map_bind']
    refine bind_congr fun p => ?_
    dsimp only
    rw [drawMany_setIn, bind_map', map_bind']
    refine bind_congr fun p => ?_
    dsimp only
    exact demandOnes_setIn g _ _ _

theorem addDemandNodes2_setIn (g) (os ds : List Ref) (ts te q n : ℚ) :
    SetIn g fun W => W.addDemandNodes2 os ds ts te q n := by
  intro W
  dsimp only
  unfold addDemandNodes2
  rw [getNode_setIn]
  rw [map_bind']; refine bind_congr fun o => ?_
  rw [map_bind']; refine bind_congr fun d => ?_
  exact demandSmooth_setIn g _ _ _ _ _ _ W

theorem addDemandAreas2_setIn (g) (xo yo ro xd yd rd ts te q n : ℚ) :
    SetIn g fun W => W.addDemandAreas2 xo yo ro xd yd rd ts te q n := by
  intro W
  dsimp only
  unfold addDemandAreas2
  rw [map_bind']; refine bind_congr fun o => ?_
  rw [map_bind']; refine bind_congr fun d => ?_
  exact demandSmooth_setIn g _ _ _ _ _ _ W

/-- Demand calls do not depend on the unused inflow capacities, and do not change them. -/
theorem apply_setIn (g) (c : DemandCall) : SetIn g fun W => c.apply W := by
  cases c
  · exact addDemand_setIn g _ _ _ _ _ _
  · exact addDemandPoints_setIn g _ _ _ _ _ _ _ _
  · exact addDemandAreas_setIn g _ _ _ _ _ _ _ _ _ _
  · exact addDemandNodes_setIn g _ _ _ _ _ _
  · exact addDemandAreas2_setIn g _ _ _ _ _ _ _ _ _ _
  · exact addDemandNodes2_setIn g _ _ _ _ _ _

end UX
