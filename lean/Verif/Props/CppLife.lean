import Verif.Props.CppExample
import Verif.Proofs.CppLifeInv

/-!
# C83: the life of a vehicle of the C++ engine
-/

namespace UX
open Cpp Cpp.CWorld Cpp.Spec

/-- **C83.** No call, completed or ended by an exception, moves a vehicle back in the order home, wait,
run, ended or aborted; origin, destination and departure time stay. -/
theorem C83_progress {W W' : CWorld} (h : CReach W) (s : CStep W W') {v : ℕ} (hv : v < W.g.nVehs) :
    Forward (W.veh v).state (W'.veh v).state ∧ (W'.veh v).orig = (W.veh v).orig ∧
      (W'.veh v).dest = (W.veh v).dest ∧ (W'.veh v).depTime = (W.veh v).depTime := by
  rcases s.split h.rest with c | e
  · rcases c.veh with ⟨_, e⟩ | ⟨_, dep, orig, dest, prefer, e⟩
    · have e := e v
      have es : (W'.veh v).state = (W.veh v).state :=
        show (W'.veh v).life.state = (W.veh v).life.state by rw [e]
      exact ⟨by rw [es]; exact Forward.rfl' _,
        show (W'.veh v).life.orig = (W.veh v).life.orig by rw [e],
        show (W'.veh v).life.dest = (W.veh v).life.dest by rw [e],
        show (W'.veh v).life.depTime = (W.veh v).life.depTime by rw [e]⟩
    · rw [e v, if_neg (by omega)]
      exact ⟨Forward.rfl' _, rfl, rfl, rfl⟩
  · have p := e.par.veh v
    exact ⟨e.forward v, show (W'.veh v).par.orig = (W.veh v).par.orig by rw [p],
      show (W'.veh v).par.dest = (W.veh v).par.dest by rw [p],
      show (W'.veh v).par.depTime = (W.veh v).par.depTime by rw [p]⟩

/-- **C83.** A run leaves a vehicle whose trip is over exactly as it is. -/
theorem C83_final {W : CWorld} (h : CReach W) {sched : ℕ → CWorld → Sched}
    (hs : ∀ t V, (sched t V).Valid V) (endTs : ℕ) {v : ℕ} (hv : Over W v) :
    (W.mainLoop sched endTs).1.veh v = W.veh v :=
  Evs.final (mainLoop_evs h.rest
    (fun t V _ => (hs t V).2.2.2.1.nodup_iff.2 List.nodup_range) endTs) hv

/-- **C83.** Departure, arrival and travel times are those of the trip. -/
theorem C83_times {W : CWorld} (h : CReach W) (hf : Monotone W.g.fl) (hd : 0 ≤ W.g.deltaT) (v : ℕ) :
    TimesOK W v := by
  have t := h.times hf hd v
  exact ⟨t.started, t.ended, t.other⟩

/-- **C83.** A trip that ends in a time step ends on a link that leads to the destination; a trip is
aborted only on a link that leads to a dead end other than the destination. -/
theorem C83_destination {W : CWorld} (h : CReach W) {σ : Sched} (hσ : σ.Valid W) {v : ℕ}
    (hn : ¬ Over W v) (ho : Over (region σ W.clearExc) v) :
    ∃ l, l < W.g.nLinks ∧ v ∈ ((region σ W.clearExc).link l).ended ∧
      (((region σ W.clearExc).veh v).state = .ended → (W.link l).dst = (W.veh v).dest) ∧
      (((region σ W.clearExc).veh v).state = .abort → (W.link l).dst ≠ (W.veh v).dest ∧
        (W.node (W.link l).dst).outLinks = []) := by
  rcases (EndAt.region h (hσ.2.2.2.1.nodup_iff.2 List.nodup_range)).done v ho with h | h
  · exact absurd h hn
  · exact h

/-- **C83.** The number of trips that the engine counts is that of the vehicles whose trip is over. -/
theorem C83_trips {W : CWorld} (h : CReach W) (hk : ∀ k : ℕ, W.g.fl k = k) :
    W.tripsCount = (overSet W).card := by
  obtain ⟨f, a, b⟩ := h.trips hk
  rw [tripsCount_eq hk a, b]

/-! ## Aborted trips are printed as completed -/

def cppAbort0 : CWorld :=
  let W0 := CWorld.empty id 100 5 1 10 (1/2) 0 true false false false true 1
  let W1 := (((W0.addNodeWith (0, 0) [0] 0 (-1) 0 (fun _ => 0)).addNodeWith (0, 0) [0] 0 (-1) 0
    (fun _ => 0))).addNodeWith (0, 0) [0] 0 (-1) 0 (fun _ => 0)
  ((W1.addLink 0 1 cppExArgs).addVehicle 0 0 2 []).initAdj

def cppAbort : CWorld := (cppAbort0.mainLoop (fun _ W => W.seqSched) 12).1

theorem cppAbort0_reach : CReach cppAbort0 := by
  refine CReach.step ?_ (CStep.init _)
  refine CReach.step ?_ (CStep.vehicle _ 0 0 2 [] (by decide) (by decide))
  refine CReach.step ?_ (CStep.link _ 0 1 cppExArgs (by decide) (by decide) (by decide) (by decide))
  refine CReach.step ?_ (CStep.node _ _ [0] 0 (-1) 0 (fun _ => 0) 1 rfl)
  refine CReach.step ?_ (CStep.node _ _ [0] 0 (-1) 0 (fun _ => 0) 1 rfl)
  refine CReach.step ?_ (CStep.node _ _ [0] 0 (-1) 0 (fun _ => 0) 1 rfl)
  exact CReach.empty id 100 5 1 10 (1/2) 0 true false false false true 1

theorem cppAbort_reach : CReach cppAbort :=
  CReach.step cppAbort0_reach (CStep.run _ 12 _ seqSched_valid)

theorem cppAbort_fl : cppAbort.g.fl = id :=
  CGlob.fix_fl (Evs.fix (mainLoop_evs cppAbort0_reach.rest
    (fun t V _ => (seqSched_valid t V).2.2.2.1.nodup_iff.2 List.nodup_range) 12))

/-- **C83, negated.** "Trips completion" as printed is not the number of trips that reached their
destination: here nobody did, and the engine prints five. -/
theorem C83_trips_false : ¬ ∀ W : CWorld, CReach W → (∀ k : ℕ, W.g.fl k = k) →
    W.tripsPrinted = (arrivedSet W).card * W.g.deltaN := by
  intro h
  have h1 := h cppAbort cppAbort_reach (fun k => by rw [cppAbort_fl]; rfl)
  revert h1
  decide +kernel

/-- A vehicle that arrives (C83), its times, and one that gives up. -/
theorem C83_case : ((cppEx 10).veh 2).state = .ended ∧ ((cppEx 10).veh 2).arrivalTime = 45 ∧
    ((cppEx 10).veh 2).travelTime = 40 ∧ (cppEx 10).tripsCount = 3 ∧ (overSet (cppEx 10)).card = 3 ∧
    ((cppEx 10).veh 3).state = .run ∧
    (cppAbort.veh 0).state = .abort ∧ (cppAbort.veh 0).arrivalTime = -1 := by
  decide +kernel

end UX
