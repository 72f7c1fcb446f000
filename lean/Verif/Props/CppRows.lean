import Verif.Proofs.CppEnter
import Verif.Props.CppKin

/-!
# C90, C91: what the log of a vehicle of the C++ engine says about its journey
-/

namespace UX
open Cpp Cpp.Spec Cpp.CWorld

variable {W : CWorld} {v : ℕ}

theorem Cpp.rowsOf (h : CleanReach W) (hl : W.g.logMode = true) (hid : W.g.fl = id) (hdt : 0 < W.g.deltaT)
    (hv : v < W.g.nVehs) : Trk true W (Req W v) (W.veh v).orig (W.veh v) :=
  (h.rows hl hid hdt v).2.2.2 hv

theorem Cpp.logsOf (h : CleanReach W) (hl : W.g.logMode = true) (hid : W.g.fl = id) (hdt : 0 < W.g.deltaT)
    (hv : v < W.g.nVehs) : LogAt (clockAt W) true W.g.timestep (W.veh v) :=
  h.logs (by rw [hid]; exact monotone_id) hdt.le hl v hv

/-- **C90.** The log of a vehicle is a possible journey: it starts at the beginning of a link that leaves the
origin, and the logged speed is the distance driven since the entry before by the time step, on one link or
from the end of one to the beginning of the next. -/
theorem C90_journey (h : CleanReach W) (hl : W.g.logMode = true) (hid : W.g.fl = id) (hdt : 0 < W.g.deltaT)
    (hv : v < W.g.nVehs) : Journey W v :=
  (rowsOf h hl hid hdt hv).1

/-- **C90.** The last log entry of a vehicle on the road is its place at the beginning of the last time step. -/
theorem C90_last (h : CleanReach W) (hl : W.g.logMode = true) (hid : W.g.fl = id) (hdt : 0 < W.g.deltaT)
    (hv : v < W.g.nVehs) (hs : (W.veh v).state = .run) : LastRow W v := by
  obtain ⟨_, _, h3⟩ := rowsOf h hl hid hdt hv
  rw [hs] at h3
  obtain ⟨l, p1, p2, ⟨e, q1, q2, q3, q4, q5, _⟩ | p3⟩ := h3
  · exact ⟨e, q1, by rw [p1, q2], q3, q5, by rw [q3]; exact q4⟩
  · simp at p3

/-- **C90.** `distance_traveled` of a vehicle on the road is the length of the legs of its log: the distances
on each link, without the distance driven on a new link in the time step of entering it. (Error: the
tolerance with which the engine recognises the end of a link.) -/
theorem C90_distance (h : CleanReach W) (hl : W.g.logMode = true) (hid : W.g.fl = id) (hdt : 0 < W.g.deltaT)
    (hn : NoLoops W) (hv : v < W.g.nVehs) (hs : (W.veh v).state = .run) :
    |(W.veh v).dist - (legs W (W.veh v).log + ((W.veh v).x - (W.veh v).xOld))| ≤
      (W.veh v).count * (1 / 1000000000) := by
  obtain ⟨_, _, h3⟩ := rowsOf h hl hid hdt hv
  rw [hs] at h3
  obtain ⟨l, p1, p2, ⟨e, q1, q2, q3, q4, q5, _, q7⟩ | p3⟩ := h3
  · exact (q7 hn).2.2
  · simp at p3

/-- **C91.** The links of the enter log are a way through the network that starts at the origin. -/
theorem C91_way (h : CleanReach W) (hl : W.g.logMode = true) (hid : W.g.fl = id) (hdt : 0 < W.g.deltaT)
    (hv : v < W.g.nVehs) : Way W (W.veh v).orig ((W.enterLog v).map Prod.fst) :=
  (Rows.way (rowsOf h hl hid hdt hv).1 (logsOf h hl hid hdt hv).block.1).1

/-- **C91.** The times of the enter log increase. -/
theorem C91_times (h : CleanReach W) (hl : W.g.logMode = true) (hid : W.g.fl = id) (hdt : 0 < W.g.deltaT)
    (hv : v < W.g.nVehs) : (W.enterLog v).Pairwise (fun x y => x.2 < y.2) := by
  have a := logsOf h hl hid hdt hv
  rw [enterLog_eq a.reads.1]
  refine enterScan_sorted (fun j k x y hjk hj hk => ?_)
  have := a.block.2 j k x y hjk hj hk
  simp only [Nat.zero_add]
  unfold clockAt
  rw [hid]
  exact mul_lt_mul_of_pos_right (by exact_mod_cast this) hdt

/-- **C91.** In a network without links from a node to itself the enter log of a vehicle that has left its
origin has one entry for every link it has entered; the last one of a vehicle on the road is its link and the
time of entering it. -/
theorem C91_entries (h : CleanReach W) (hl : W.g.logMode = true) (hid : W.g.fl = id) (hdt : 0 < W.g.deltaT)
    (hn : NoLoops W) (hv : v < W.g.nVehs) :
    (W.enterLog v).length = (W.veh v).count ∧ ((W.veh v).state = .run →
      ∃ l, (W.veh v).link = some l ∧ (W.enterLog v).getLast? = some (l, (W.veh v).arrTimeLink)) := by
  rw [enterLog_eq (logsOf h hl hid hdt hv).reads.1]
  obtain ⟨_, _, h3⟩ := rowsOf h hl hid hdt hv
  have none : (∀ e ∈ (W.veh v).log, e.link = none) ∧ (W.veh v).count = 0 ∧ (W.veh v).dist = 0 →
      (Cpp.enters W (W.veh v)).length = (W.veh v).count := fun hh => by
    rw [hh.2.1]
    unfold Cpp.enters
    rw [enterScan_none (fun o ho => by
      obtain ⟨d, hd, rfl⟩ := List.mem_map.1 ho
      exact hh.1 d hd)]
    rfl
  cases hs : (W.veh v).state with
  | home => rw [hs] at h3; exact ⟨none h3, by simp⟩
  | wait => rw [hs] at h3; exact ⟨none h3, by simp⟩
  | ended => rw [hs] at h3; exact ⟨h3 hn, by simp⟩
  | abort => rw [hs] at h3; exact ⟨h3 hn, by simp⟩
  | run =>
    rw [hs] at h3
    obtain ⟨l, p1, p2, ⟨e, q1, q2, q3, q4, q5, _, q7⟩ | p3⟩ := h3
    · exact ⟨(q7 hn).1, fun _ => ⟨l, p1, (q7 hn).2.1⟩⟩
    · simp at p3

/-- **C91.** The route that `dta_get_traveled_route` returns is the same: a way from the origin, entered at
increasing times. -/
theorem C91_dta (h : CleanReach W) (hl : W.g.logMode = true) (hid : W.g.fl = id) (hdt : 0 < W.g.deltaT)
    (hv : v < W.g.nVehs) : Way W (W.veh v).orig (W.traveledRoute v).1 ∧
      (W.traveledRoute v).2.1.Pairwise (· < ·) ∧
      (W.traveledRoute v).1.length = (W.traveledRoute v).2.1.length := by
  refine ⟨C91_way h hl hid hdt hv, ?_, ?_⟩
  · have := C91_times h hl hid hdt hv
    unfold enterLog at this
    unfold traveledRoute
    exact List.pairwise_map.2 this
  · unfold traveledRoute; simp

/-! ## Concrete case -/

namespace Cpp

def cppRowArgs : LinkArgs :=
  { vmax := 20, kappa := 1/5, len := 250, lanes := 1, mergePri := 1, capOut := -1, capIn := -1,
    group := [0], rng := fun _ => 0 }

/-- Two links in a row and a link from node 0 to itself. Vehicle 1 is to use the latter twice. -/
def cppRow0 : CWorld :=
  let W0 := CWorld.empty id 200 5 1 10 (1/2) 0 true false false false true 1
  let W1 := (((W0.addNodeWith (0, 0) [0] 0 (-1) 0 (fun _ => 0)).addNodeWith (0, 0) [0] 0 (-1) 0
    (fun _ => 0))).addNodeWith (0, 0) [0] 0 (-1) 0 (fun _ => 0)
  let W2 := ((W1.addLink 0 1 cppRowArgs).addLink 1 2 cppRowArgs).addLink 0 0 cppRowArgs
  (((W2.addVehicle 0 0 2 []).addVehicle 0 0 2 []).initAdj).edit (.enforce 1 [2, 2, 0, 1])

def cppRow (k : ℕ) : CWorld := (cppRow0.mainLoop (fun _ W => W.seqSched) k).1

theorem cppRow0_clean : CleanReach cppRow0 := by
  refine CleanReach.step ?_ (CleanStep.edit _ (.enforce 1 [2, 2, 0, 1]))
  refine CleanReach.step ?_ (CleanStep.init _)
  refine CleanReach.step ?_ (CleanStep.vehicle _ 0 0 2 [] (by decide) (by decide))
  refine CleanReach.step ?_ (CleanStep.vehicle _ 0 0 2 [] (by decide) (by decide))
  refine CleanReach.step ?_ (CleanStep.link _ 0 0 cppRowArgs (by decide) (by decide) (by decide) (by decide))
  refine CleanReach.step ?_ (CleanStep.link _ 1 2 cppRowArgs (by decide) (by decide) (by decide) (by decide))
  refine CleanReach.step ?_ (CleanStep.link _ 0 1 cppRowArgs (by decide) (by decide) (by decide) (by decide))
  refine CleanReach.step ?_ (CleanStep.node _ _ [0] 0 (-1) 0 (fun _ => 0) 1 rfl)
  refine CleanReach.step ?_ (CleanStep.node _ _ [0] 0 (-1) 0 (fun _ => 0) 1 rfl)
  refine CleanReach.step ?_ (CleanStep.node _ _ [0] 0 (-1) 0 (fun _ => 0) 1 rfl)
  exact CleanReach.empty id 200 5 1 10 (1/2) 0 true false false false true 1

theorem cppRow_run {k : ℕ} (h : (cppRow0.mainLoop (fun _ W => W.seqSched) k).2 = none) :
    cppRow0.mainLoop (fun _ W => W.seqSched) k = (cppRow k, none) := Prod.ext rfl h

theorem cppRow_clean {k : ℕ} (h : (cppRow0.mainLoop (fun _ W => W.seqSched) k).2 = none) :
    CleanReach (cppRow k) :=
  CleanReach.step cppRow0_clean (CleanStep.run _ _ _ _ seqSched_valid (cppRow_run h))

end Cpp

/-- Vehicle 0 is on its second link after five time steps: it has driven 400 m, though
`distance_traveled` is 350 m. It entered link 0 at 5 s and link 1 at 20 s. -/
theorem C90_case : CleanReach (cppRow 5) ∧ (cppRow 5).g.logMode = true ∧ (cppRow 5).g.deltaT = 5 ∧
    ((cppRow 5).veh 0).state = .run ∧ ((cppRow 5).veh 0).x = 150 ∧ ((cppRow 5).veh 0).xOld = 50 ∧
    ((cppRow 5).veh 0).log.map (fun e => (e.link, e.x, e.v)) =
      [(none, -1, -1), (some 0, 0, 20), (some 0, 100, 20), (some 0, 200, 20), (some 1, 50, 20)] ∧
    (cppRow 5).enterLog 0 = [(0, 5), (1, 20)] ∧ ((cppRow 5).veh 0).dist = 350 := by
  exact ⟨cppRow_clean (by decide +kernel), by decide +kernel, by decide +kernel, by decide +kernel,
    by decide +kernel, by decide +kernel, by decide +kernel, by decide +kernel, by decide +kernel⟩

/-- **C90.** `distance_traveled` of a completed trip is not the length of the way. -/
theorem C90_false : ¬ ∀ (W : CWorld) (v : ℕ), CleanReach W → W.g.logMode = true → W.g.fl = id → 0 < W.g.deltaT →
    v < W.g.nVehs → (W.veh v).state = .ended →
    (W.veh v).dist = wayLen W ((W.enterLog v).map Prod.fst) := by
  intro h
  have e : (cppRow 8).g.fl = id := by
    obtain ⟨_, r⟩ := main_hist seqSched_valid cppRow0_clean.toReach.rest (cppRow_run (k := 8) (by decide +kernel))
    exact CGlob.fix_fl r.keep.2.1
  have := h (cppRow 8) 0 (cppRow_clean (by decide +kernel)) (by decide +kernel) e (by decide +kernel)
    (by decide +kernel) (by decide +kernel)
  revert this
  decide +kernel

/-- **C91.** With a link from a node to itself the enter log misses entries. -/
theorem C91_false : ¬ ∀ (W : CWorld) (v : ℕ), CleanReach W → W.g.logMode = true → W.g.fl = id → 0 < W.g.deltaT →
    v < W.g.nVehs → (W.enterLog v).length = (W.veh v).count := by
  intro h
  have e : (cppRow 8).g.fl = id := by
    obtain ⟨_, r⟩ := main_hist seqSched_valid cppRow0_clean.toReach.rest (cppRow_run (k := 8) (by decide +kernel))
    exact CGlob.fix_fl r.keep.2.1
  have := h (cppRow 8) 1 (cppRow_clean (by decide +kernel)) (by decide +kernel) e (by decide +kernel)
    (by decide +kernel)
  revert this
  decide +kernel

end UX
