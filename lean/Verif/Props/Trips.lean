import Verif.Proofs.Life
import Verif.Props.Demo

/-! C08, C09, C10, C18: life cycle, trip records, trip ends, signals. -/

namespace UX
open World Relation

/-! ### C08 -/

/-- Stage of a vehicle's life. -/
def stage : VState → ℕ | .home => 0 | .wait => 1 | .run => 2 | .ended => 3 | .abort => 3

/-- Specification of one API call or time step for one vehicle: the state stays, or moves forward;
leaving home leads to the queue only, and the queue is left only by a recorded departure onto a link. -/
structure LifeStep (W W' : World) (v : VehId) : Prop where
  forward : stage (W.V.state v) ≤ stage (W'.V.state v)
  from_home : W.V.state v = .home → W'.V.state v = .home ∨ W'.V.state v = .wait
  from_wait : W.V.state v = .wait → W'.V.state v ≠ .wait →
    ∃ n l, Event.depart W.T v n l ∈ W'.trace
  final : W.V.state v = .ended ∨ W.V.state v = .abort → W'.V.state v = W.V.state v

/-- C08: every API call and every time step respects the life cycle. -/
theorem C08_step {W W' : World} (h : Reachable Any W) (hs : ApiStep W W') {v : VehId} (hv : v < W.nVeh) :
    LifeStep W W' v := by
  have same : W'.V.state v = W.V.state v → LifeStep W W' v := fun e =>
    ⟨by rw [e], fun h => .inl (by rw [e, h]), fun h hn => absurd (by rw [e, h]) hn, fun _ => e⟩
  have hi := h.inv
  rcases hs.kinds with ⟨hf, a, ph, t, soff, hn, rfl⟩ | ⟨hf, a, ha⟩ | ⟨a, ha⟩ | ⟨hf, tm, rfl⟩ |
    ⟨hf, hT, ht⟩ | hs | hs
  · exact same rfl
  · obtain ⟨s, e, nm, k, p, -, -, -, -, -, -, rfl⟩ := addLink_ok ha
    exact same rfl
  · obtain ⟨o, d, dep, pref, cache, lp, la, nm, -, -, -, -, -, -, -, -, rfl⟩ := addVehicle_ok ha
    refine same ?_
    simp [addVehRes, upd_apply, Nat.ne_of_lt hv]
  · obtain ⟨ts, tta, fc, fr, la, hr⟩ := finalize_frame W tm
    rw [hr] at same ⊢
    exact same rfl
  · obtain ⟨W1, h1, rfl⟩ := tick_ok ht
    have hl := step_life hi hf h1 v
    have hT : W1.T = W.T := (step_T hi hf h1).1
    unfold TickLife at hl
    rw [hT] at hl
    rcases hl with ⟨h1, h2 | h2⟩ | ⟨h1, h2⟩ | ⟨h1, h2 | h2 | h2, h3⟩ | ⟨h1, h2 | h2 | h2⟩ | ⟨h1, h2⟩ |
      ⟨h1, h2⟩ <;> constructor <;> dsimp only <;> rw [h1, h2] <;> simp [stage]
    all_goals exact h3
  · obtain ⟨_, _, _, _, _, _, _, rfl, hd⟩ := hs
    exact same rfl
  · obtain ⟨_, _, _, _, _, _, _, _, _, _, _, _, _, _, _, _, _, _, _, rfl, -⟩ := hs
    exact same rfl

theorem nVeh_mono {W W' : World} (h : Reachable Any W) (hs : ApiStep W W') : W.nVeh ≤ W'.nVeh := by
  rcases hs.kinds with ⟨hf, a, ph, t, soff, hn, rfl⟩ | ⟨hf, a, ha⟩ | ⟨a, ha⟩ | ⟨hf, tm, rfl⟩ |
    ⟨hf, hT, ht⟩ | hs | hs
  · exact le_rfl
  · obtain ⟨s, e, nm, k, p, -, -, -, -, -, -, rfl⟩ := addLink_ok ha
    exact le_rfl
  · obtain ⟨o, d, dep, pref, cache, lp, la, nm, -, -, -, -, -, -, -, -, rfl⟩ := addVehicle_ok ha
    exact Nat.le_succ _
  · obtain ⟨ts, tta, fc, fr, la, hr⟩ := finalize_frame W tm
    rw [hr]
  · obtain ⟨W1, h1, rfl⟩ := tick_ok ht
    exact le_of_eq (step_T h.inv hf h1).2.1.symm
  · obtain ⟨_, _, _, _, _, _, _, rfl, hd⟩ := hs
    exact le_rfl
  · obtain ⟨_, _, _, _, _, _, _, _, _, _, _, _, _, _, _, _, _, _, _, rfl, -⟩ := hs
    exact le_rfl

/-- C08: over any further history a vehicle never goes back, and a finished or aborted one never
changes state again. -/
theorem C08_history {W W' : World} (h : Reachable Any W) (hs : ReflTransGen ApiStep W W') {v : VehId}
    (hv : v < W.nVeh) : stage (W.V.state v) ≤ stage (W'.V.state v) ∧
      (W.V.state v = .ended ∨ W.V.state v = .abort → W'.V.state v = W.V.state v) := by
  have : Reachable Any W' ∧ v < W'.nVeh ∧ stage (W.V.state v) ≤ stage (W'.V.state v) ∧
      (W.V.state v = .ended ∨ W.V.state v = .abort → W'.V.state v = W.V.state v) := by
    induction hs with
    | refl => exact ⟨h, hv, le_rfl, fun _ => rfl⟩
    | @tail A B _ hs ih =>
      obtain ⟨hr, hv', h1, h2⟩ := ih
      have hl := C08_step hr hs hv'
      refine ⟨.next hr hs trivial, lt_of_lt_of_le hv' (nVeh_mono hr hs), h1.trans hl.forward, fun he => ?_⟩
      rw [hl.final (by rw [h2 he]; exact he), h2 he]
  exact this.2.2

/-! ### C09 -/

/-- C09: trip records agree with the state. -/
theorem C09_records {W : World} (h : Reachable Any W) (v : VehId) :
    (W.V.state v = .ended ↔ W.V.arrTime v ≠ -1) ∧
    (W.V.state v = .ended → W.V.travelTime v = W.fl ((W.V.arrTime v - W.V.depTime v : ℤ) * W.dt) ∧
      W.V.depTime v < W.V.arrTime v) ∧
    (W.V.state v ≠ .ended → W.V.arrTime v = -1 ∧ W.V.travelTime v = -1) := by
  have hE := EInv.reach h
  refine ⟨⟨fun he => ?_, fun he => ?_⟩, fun he => ⟨(hE.ended v he).2.2.2, (hE.ended v he).1⟩, hE.open_ v⟩
  · have := hE.ended v he; omega
  · by_contra hn; exact he (hE.open_ v hn).1

/-- C09 in exact arithmetic: the travel time is the number of steps times the step length. -/
theorem C09_exact {W : World} (h : Reachable Any W) (hfl : W.cfg.fl = id) {v : VehId}
    (hv : W.V.state v = .ended) :
    W.V.travelTime v = (W.V.arrTime v - W.V.depTime v) * (W.cfg.reactionTime * W.cfg.deltan) := by
  have := ((C09_records h v).2.1 hv).1
  simpa [World.fl, World.dt, Config.deltat, hfl] using this

/-- C09: arrival time is the time step in which the trip end happened. -/
theorem C09_arrival_step {W : World} (h : Reachable Any W) {v : VehId} (hv : W.V.state v = .ended) :
    ∃ l, Event.finish (W.V.arrTime v).toNat v l false ∈ W.trace :=
  (EInv.reach h).fin_ev v hv

/-! ### C10 -/

/-- C10: a vehicle finishes only as a non-taxi at a link that ends at its destination. -/
theorem C10_finish {W : World} (h : Reachable Any W) {T v l} (he : Event.finish T v l false ∈ W.trace) :
    W.V.mode v = .single ∧ W.V.dest v = some (W.L.endN l) ∧ W.V.state v = .ended :=
  have := ((EInv.reach h).ev_fin _ _ _ _ he).2.2.1 rfl
  ⟨this.2.1, this.2.2, this.1⟩

/-- C10: a vehicle is aborted only at a link into a node without outgoing links, only if `trip_abort`
is set, and (for non-taxis) only if that node is not its destination. -/
theorem C10_abort {W : World} (h : Reachable Any W) {T v l} (he : Event.finish T v l true ∈ W.trace) :
    W.N.outlinks (W.L.endN l) = [] ∧ W.V.tripAbort v = true ∧
      (W.V.mode v = .single → W.V.dest v ≠ some (W.L.endN l)) ∧ W.V.state v = .abort :=
  have := ((EInv.reach h).ev_fin _ _ _ _ he).2.2.2 rfl
  ⟨this.2.1, this.2.2.1, this.2.2.2, this.1⟩

/-- C10: a vehicle in state `end` or `abort` has such an event in its history; taxis are never in
state `end`. -/
theorem C10_only {W : World} (h : Reachable Any W) (v : VehId) :
    (W.V.state v = .ended → W.V.mode v = .single ∧ ∃ T l, Event.finish T v l false ∈ W.trace) ∧
    (W.V.state v = .abort → ∃ T l, Event.finish T v l true ∈ W.trace) := by
  refine ⟨fun hv => ?_, (EInv.reach h).abort_ev v⟩
  obtain ⟨l, hl⟩ := C09_arrival_step h hv
  exact ⟨(C10_finish h hl).1, _, l, hl⟩

/-! ### C18 -/

/-- C18: in every time step, each passage of a node with two or more phases happens while the phase
(the one in force after the step) is among the signal groups of the link the vehicle comes from. -/
theorem C18_green {W W' : World} (h : Reachable Any W) (hf : W.finalized = true) (ht : W.tick = .ok W')
    {T v n a b ph} (he : Event.pass T v n a b ph ∈ W'.trace) (hnew : Event.pass T v n a b ph ∉ W.trace) :
    T = W.T ∧ W'.L.endN a = n ∧ ph = W'.N.phase n ∧
      (2 ≤ (W'.N.signal n).length → W'.N.phase n ∈ W'.L.signalGroup a) := by
  obtain ⟨W1, h1, rfl⟩ := tick_ok ht
  have hT : W1.T = W.T := (step_T h.inv hf h1).1
  rcases step_green h.inv hf h1 T v n a b ph he with h2 | ⟨h2, h3, h4, h5⟩
  · exact absurd h2 hnew
  · exact ⟨h2.trans hT, h4, h3, fun hl => h3 ▸ h5 hl⟩

/-- C18: a vehicle recorded as passing always has a recorded phase; events older than the step are
untouched, so the statement covers every passage of a history. -/
theorem C18_time {W : World} (h : Reachable Any W) : ∀ e ∈ W.trace, e.at ≤ W.T :=
  fun e he => Nat.lt_succ_iff.mp ((EInv.reach h).at_le e he)

/-! ### Witnesses -/

/-- Two links into a signalised node, one dead-end branch. -/
def demo3 (k : ℕ) : List Cmd :=
  [.node { name := "a" }, .node { name := "b", signal := [10, 10] }, .node { name := "c" },
   .node { name := "d" },
   .link { startN := .obj 0, endN := .obj 1, length := 100, signalGroup := [1] },
   .link { startN := .obj 1, endN := .obj 2, length := 100 },
   .link { startN := .obj 0, endN := .obj 3, length := 100 },
   .veh { orig := .obj 0, dest := some (.obj 2), dep := .step 0, linksPrefer := [.obj 0] },
   .veh { orig := .obj 0, dest := some (.obj 2), dep := .step 0, linksPrefer := [.obj 2] },
   .fin (some 300)] ++ List.replicate k .tick

set_option maxRecDepth 100000 in
/-- One vehicle passes the signal in phase 1 and finishes; the other runs into the dead end. -/
theorem demo3_events : obs (runCmds demoCfg (fun _ => 0) (demo3 8)) (fun W =>
    decide (W.V.state 0 = .ended ∧ W.V.state 1 = .abort ∧ 2 ≤ (W.N.signal 1).length ∧
      ∃ e ∈ W.trace, e = .pass 3 0 1 0 1 1)) = true := by
  decide +kernel

end UX
