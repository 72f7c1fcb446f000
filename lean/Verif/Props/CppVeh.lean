import Verif.Model.CppVeh
import Verif.Props.CppWrapLog
import Verif.Props.CppRows
import Verif.Props.CppLife
import Verif.Props.CppPlaces

/-! # C114: vehicles of the C++ mode as seen from Python -/

namespace UX
open Cpp Cpp.Spec Cpp.CWorld

namespace Cpp

/-- An aborted trip has the flag. -/
theorem CReach.aborted {W : CWorld} (h : CReach W) : ∀ v, (W.veh v).state = .abort → (W.veh v).flagAbort = true := by
  refine CReach.invariant (P := fun W => ∀ v, (W.veh v).state = .abort → (W.veh v).flagAbort = true) ?_ ?_ ?_ h
  · intros
    simp_all [CWorld.empty]
  · intro W W' c p v hs
    rcases c.veh with ⟨_, e⟩ | ⟨_, dep, orig, dest, prefer, e⟩
    · have e := e v
      have e1 : (W'.veh v).state = (W.veh v).state := show (W'.veh v).life.state = (W.veh v).life.state by rw [e]
      have e2 : (W'.veh v).flagAbort = (W.veh v).flagAbort :=
        show (W'.veh v).life.flagAbort = (W.veh v).life.flagAbort by rw [e]
      rw [e2]
      exact p v (by rw [← e1]; exact hs)
    · rw [e v] at hs ⊢
      split
      · rename_i hv
        rw [if_pos hv] at hs
        simp [newVeh] at hs
      · rename_i hv
        rw [if_neg hv] at hs
        exact p v hs
  · intro W W' e p v hs
    have hv := e.veh v
    generalize W'.veh v = V' at hv hs
    have keep : V'.noLog = (W.veh v).noLog → V'.flagAbort = true := by
      intro h
      obtain ⟨a, _, _, _, b, _⟩ := noLog_all h
      rw [b]; exact p v (by rw [← a]; exact hs)
    cases hv with
    | act h =>
      cases h with
      | same h => rw [h] at hs ⊢; exact p v hs
      | ptr l q r hl h => rw [h] at hs ⊢; exact p v hs
      | nextGen o hs' h => rw [h] at hs ⊢; exact p v hs
      | nextRun l o hl hd ho h => rw [h] at hs ⊢; exact p v hs
      | depart l ln ld hs' hl hn ho h => rw [h] at hs; simp at hs
      | move a b ln ld q ha hb hf hn he h => rw [h] at hs ⊢; exact p v hs
      | ends l q r hl hf h =>
        obtain ⟨a, _, _, _, b, _⟩ := noLog_all h
        simp only at a b
        rw [a] at hs
        rw [b]
        by_contra hc
        rw [if_neg hc] at hs
        cases hs
      | log hs' h => exact keep h
      | follow l p' q hl h => rw [h] at hs ⊢; exact p v hs
      | advance l hl h =>
        rw [h, CWorld.advance, setV_veh, if_pos rfl] at hs ⊢
        exact p v hs
      | abort l hl hd ho ha h => rw [h]
      | flag l hl hc h => rw [h] at hs ⊢; exact p v hs
    | stay hw hs' h => exact keep h
    | wake hw hs' ht h =>
      obtain ⟨a, _⟩ := noLog_all h
      simp only at a
      rw [a] at hs
      cases hs

end Cpp

section
variable {W : CWorld} (h : CReach W) (hm : Monotone W.g.fl) (hz : W.g.fl 0 = 0) (hdt : 0 ≤ W.g.deltaT) (v : ℕ)
include h hm hz hdt

/-- **C114.** The state that Python shows is that of the engine. -/
theorem C114_state : W.pyState v = (W.veh v).state := by
  unfold pyState
  split
  · rename_i he
    obtain ⟨t, _, h2, _⟩ := (C83_times h hm hdt v).ended he
    have ha : 0 ≤ (W.veh v).arrivalTime := by
      rw [h2, ← hz]
      exact hm (by positivity)
    rw [if_neg, he]
    rintro (hf | ⟨hf, _⟩)
    · rcases (h.flags v).abort hf with h | ⟨h, _⟩ <;> rw [he] at h <;> cases h
    · linarith
  · rfl

/-- **C114.** `flag_trip_aborted` is set for every aborted trip; otherwise only for a vehicle that stands at a
dead end other than its destination. -/
theorem C114_aborted : ((W.veh v).state = .abort → W.pyAborted v = true) ∧
    (W.pyAborted v = true → (W.veh v).state ≠ .abort → (W.veh v).state = .run ∧ ∃ l, (W.veh v).link = some l ∧
      (W.link l).dst ≠ (W.veh v).dest ∧ (W.node (W.link l).dst).outLinks = []) := by
  refine ⟨fun hs => by simp [pyAborted, h.aborted v hs], fun ha hs => ?_⟩
  unfold pyAborted at ha
  rw [Bool.or_eq_true, decide_eq_true_eq] at ha
  rcases ha with ha | ⟨he, ha, _⟩
  · rcases (h.flags v).abort ha with h | ⟨h, _, h2⟩
    · exact absurd h hs
    · exact ⟨h, h2⟩
  · obtain ⟨t, _, h2, _⟩ := (C83_times h hm hdt v).ended he
    have h0 : 0 ≤ (W.veh v).arrivalTime := by
      rw [h2, ← hz]
      exact hm (by positivity)
    linarith

end

/-- **C114.** In exact arithmetic `arrival_time` of a finished trip is the time step of the arrival and `travel_time`
the time in seconds from the departure to it; of all other vehicles both are -1. -/
theorem C114_times {W : CWorld} (h : CReach W) (hfl : W.g.fl = id) (hdt : 0 < W.g.deltaT) (v : ℕ) :
    ((W.veh v).state = .ended → ∃ t : ℕ, t ≤ W.g.timestep ∧ W.pyArrival v = t ∧
      (W.veh v).arrivalTime = t * W.g.deltaT ∧ W.pyTravel v = t * W.g.deltaT - (W.veh v).depTime ∧ 0 ≤ W.pyTravel v) ∧
    ((W.veh v).state ≠ .ended → W.pyArrival v = -1 ∧ W.pyTravel v = -1) := by
  have hm : Monotone W.g.fl := by rw [hfl]; exact monotone_id
  have hs := C114_state h hm (by rw [hfl]; rfl) hdt.le v
  have ht := C83_times h hm hdt.le v
  constructor
  · intro he
    obtain ⟨t, h1, h2, h3, h4⟩ := ht.ended he
    rw [hfl] at h2 h4
    simp only [id] at h2 h4
    refine ⟨t, h1, ?_, h2, ?_, ?_⟩
    · unfold pyArrival
      have e : t * W.g.deltaT / W.g.deltaT = t := mul_div_cancel_right₀ _ hdt.ne'
      rw [hs, he, h2, if_pos (by positivity), if_neg (by simp), hfl]
      simp only [id]
      rw [e]
      simp [pyInt]
    · unfold pyTravel
      rw [hs, he, if_neg (by simp), h4, h2]
    · unfold pyTravel
      rw [hs, he, if_neg (by simp), h4]
      linarith
  · intro hne
    obtain ⟨a, b⟩ := ht.other hne
    constructor
    · unfold pyArrival
      rw [a, if_neg (by norm_num)]
    · unfold pyTravel
      rw [b, ite_self]

/-- **C114.** In exact arithmetic `departure_time` is the time step in which the departure time lies. -/
theorem C114_departure {W : CWorld} (hfl : W.g.fl = id) (hdt : 0 < W.g.deltaT) {v : ℕ} (h0 : 0 ≤ (W.veh v).depTime) :
    W.pyDeparture v * W.g.deltaT ≤ (W.veh v).depTime ∧ (W.veh v).depTime < (W.pyDeparture v + 1) * W.g.deltaT := by
  unfold pyDeparture pyInt
  rw [hfl]
  simp only [id]
  rw [if_pos (by positivity), ← le_div_iff₀ hdt, ← div_lt_iff₀ hdt]
  exact ⟨Int.floor_le _, Int.lt_floor_add_one _⟩

/-- **C114.** `link` is the link whose queue holds the vehicle; no vehicle that is not on the road has one. -/
theorem C114_link {W : CWorld} (h : CReach W) {v : ℕ} (hv : v < W.g.nVehs) :
    (∀ l, v ∈ (W.link l).vehs ↔ W.pyLink v = some l) ∧ ((W.veh v).state ≠ .run → W.pyLink v = none) := by
  have i := h.rest.inv
  have hp := C79_places h hv
  have hno : (W.veh v).link = none → W.pyLink v = none := fun e => by simp [pyLink, e]
  have hoff : (W.veh v).state ≠ .run → (W.veh v).link = none := fun hs => i.idle v hv hs
  refine ⟨fun l => ⟨fun hm => ?_, fun hl => ?_⟩, fun hs => hno (hoff hs)⟩
  · obtain ⟨a, _, c, _⟩ := i.mem l v hm
    simp [pyLink, a, c]
  · unfold PlaceOK at hp
    by_cases hs : (W.veh v).state = .run
    · rw [hs] at hp
      obtain ⟨m, m1, m2, m3⟩ := hp
      have : W.pyLink v = some m := by simp [pyLink, m2, m1]
      rw [this] at hl
      rw [← Option.some.inj hl]
      exact List.count_pos_iff.1 (by rw [m3.1]; norm_num)
    · rw [hno (hoff hs)] at hl
      cases hl

namespace Cpp

theorem routeLinks_append (ps : List (ℕ × ℚ)) (s : List (ℚ × WPlace)) :
    Wrap.routeLinks (ps.map (fun p => (p.2, WPlace.link p.1)) ++ s) = ps.map Prod.fst ++ Wrap.routeLinks s := by
  induction ps with
  | nil => rfl
  | cons p ps ih =>
    simp only [List.map_cons, List.cons_append]
    rw [← ih]
    rfl

/-- The times in `log_t_link`, without the arrival. -/
def placeTimes (dep : Bool) (p : List (ℚ × WPlace)) : List ℚ :=
  p.filterMap (fun q => match q.2 with
    | .home => if dep then some q.1 else none
    | .link _ => some q.1
    | .done => none)

theorem placeTimes_append (dep : Bool) (ps : List (ℕ × ℚ)) (s : List (ℚ × WPlace)) :
    placeTimes dep (ps.map (fun p => (p.2, WPlace.link p.1)) ++ s) = ps.map Prod.snd ++ placeTimes dep s := by
  induction ps with
  | nil => rfl
  | cons p ps ih =>
    simp only [List.map_cons, List.cons_append]
    rw [← ih]
    rfl

theorem life_ge {f w r : ℕ} {p : ℕ × VState} (h : p ∈ life f w r) : f ≤ p.1 := by
  unfold life at h
  simp only [List.mem_cons, List.mem_append, List.mem_map, List.mem_range] at h
  rcases h with rfl | ⟨i, _, rfl⟩ | ⟨i, _, rfl⟩ <;> simp <;> omega

/-- No link is entered before the departure time. -/
theorem enter_dep {W : CWorld} (h : CleanReach W) (hl : W.g.logMode = true) (hm : Monotone W.g.fl) (hdt : 0 ≤ W.g.deltaT)
    {v : ℕ} (hv : v < W.g.nVehs) {p : ℕ × ℚ} (hp : p ∈ W.enterLog v) : (W.veh v).depTime ≤ p.2 := by
  obtain ⟨k, hk, e⟩ := enterScan_mem hp
  rw [Nat.zero_add] at e
  have hk : k < (W.veh v).log.length := by
    have := (List.getElem?_eq_some_iff.1 hk).1
    simpa using this
  have key : ∀ f xs, Reads W v xs → (∀ q ∈ xs, f ≤ q.1) → (W.veh v).depTime ≤ clockAt W f → (W.veh v).depTime ≤ p.2 := by
    intro f xs hr hx hd
    have hmem : (W.logTAt v k, W.logStateAt v k) ∈ readLog W v :=
      List.mem_map.2 ⟨k, List.mem_range.2 hk, rfl⟩
    rw [hr] at hmem
    obtain ⟨q, hq, hq2⟩ := List.mem_map.1 hmem
    have : clockAt W q.1 = p.2 := by rw [e]; exact congrArg Prod.fst hq2
    rw [← this]
    refine hd.trans (hm ?_)
    exact mul_le_mul_of_nonneg_right (by exact_mod_cast hx q hq) hdt
  have ht := C89_life h hl hm hdt hv
  unfold TellsLife at ht
  split at ht
  · have := congrArg List.length ht
    simp [readLog] at this
    rw [this] at hk
    simp at hk
  · obtain ⟨f, w, h1, _, h3⟩ := ht
    exact key f _ h1 (fun q => life_ge) h3
  · obtain ⟨f, w, r, h1, _, _, h3⟩ := ht
    exact key f _ h1 (fun q => life_ge) h3
  · obtain ⟨f, w, r, t, h1, h2, _, h3⟩ := ht
    refine key f _ h1 (fun q hq => ?_) h3
    rcases List.mem_append.1 hq with hq | hq
    · exact life_ge hq
    · rw [List.mem_singleton.1 hq]
      simp only
      omega

end Cpp

/-- **C114.** In exact arithmetic `traveled_route` of a vehicle whose log is read for the first time, or was read
after the last time step (C110), gives the links that
it has entered: a way through the network that starts at its origin; with the times of entering them, which
increase and are not before the departure, after the departure time and before the arrival time (-1: not
arrived), if these are asked for. -/
theorem C114_route {W : Wrap} (h : WReach NotNumber W) (hfl : W.c.g.fl = id) (hdt : 0 < W.c.g.deltaT)
    (hl : W.c.g.logMode = true) {v : ℕ} (hv : v < W.c.g.nVehs)
    (hc : W.cache v = none ∨ W.cache v = some (Wrap.buildLog W.c v)) (arr dep : Bool) :
    ∃ ls ts, W.traveledRoute v arr dep = some (ls, (if dep = true then [(W.c.veh v).depTime] else []) ++ ts ++
        (if arr = true then [if (W.c.veh v).state = .ended then (W.c.veh v).arrivalTime else -1] else [])) ∧
      Way W.c (W.c.veh v).orig ls ∧ ts.length = ls.length ∧ ts.Pairwise (· < ·) ∧ (∀ t ∈ ts, (W.c.veh v).depTime ≤ t) ∧
      (ls, ts) = ((W.c.traveledRoute v).1, (W.c.traveledRoute v).2.1) := by
  have hm : Monotone W.c.g.fl := by rw [hfl]; exact monotone_id
  have i := h.inv
  have h1 : W.log v = some (Wrap.buildLog W.c v) := by
    rcases hc with hc | hc
    · exact log_new hc (by rw [i.len]; exact hv)
    · unfold Wrap.log Wrap.readLogs
      simp only [hc]
  obtain ⟨ps, h2, h3⟩ : ∃ ps, (Wrap.buildLog W.c v).places = ((W.c.veh v).depTime, .home) ::
      (ps.map (fun p : ℕ × ℚ => (p.2, WPlace.link p.1)) ++
        if (W.c.veh v).state = .ended then [((W.c.veh v).arrivalTime, .done)] else []) ∧ ps = W.c.enterLog v := by
    refine ⟨_, ?_, rfl⟩
    unfold Wrap.buildLog
    simp only
    split
    · rename_i he
      obtain ⟨t, _, h2, _⟩ := (C83_times i.clean.toReach hm hdt.le v).ended he
      have : 0 ≤ (W.c.veh v).arrivalTime := by
        rw [h2, hfl, id]; positivity
      rw [if_pos this]
    · rfl
  have hd := C91_dta i.clean hl hfl hdt hv
  refine ⟨ps.map Prod.fst, ps.map Prod.snd, ?_, ?_, by simp, ?_, ?_, ?_⟩
  · unfold Wrap.traveledRoute
    rw [h1, Option.map_some, h2]
    have e1 : ∀ s, Wrap.routeLinks (((W.c.veh v).depTime, .home) :: s) = Wrap.routeLinks s := fun s => rfl
    have e2 : ∀ s, placeTimes dep (((W.c.veh v).depTime, .home) :: s) =
        (if dep = true then [(W.c.veh v).depTime] else []) ++ placeTimes dep s := by
      intro s
      cases dep <;> rfl
    have e3 : ∀ p, Wrap.routeTimes p arr dep = placeTimes dep p ++ match p.getLast? with
      | none => []
      | some q => if arr then [if q.2 = .done then q.1 else -1] else [] := fun p => rfl
    rw [e1, e3, e2, routeLinks_append, placeTimes_append]
    by_cases he : (W.c.veh v).state = .ended
    · simp only [he, if_true]
      rw [← List.cons_append, List.getLast?_concat]
      simp [Wrap.routeLinks, placeTimes]
    · simp only [he, if_false, List.append_nil]
      cases hps : ps.reverse with
      | nil =>
        rw [List.reverse_eq_nil_iff.1 hps]
        simp [Wrap.routeLinks, placeTimes]
      | cons q r =>
        have : ps = r.reverse ++ [q] := by rw [← List.reverse_reverse ps, hps, List.reverse_cons]
        rw [this]
        simp only [List.map_append, List.map_cons, List.map_nil]
        rw [← List.cons_append, List.getLast?_concat]
        simp [Wrap.routeLinks, placeTimes]
  · rw [h3]; exact hd.1
  · rw [h3]; exact hd.2.1
  · intro t ht
    obtain ⟨p, hp, rfl⟩ := List.mem_map.1 ht
    rw [h3] at hp
    exact enter_dep i.clean hl hm hdt.le hv hp
  · rw [h3]; rfl

/-- A concrete case: a vehicle on its way at time step 7 and after its arrival. -/
theorem C114_case : (∃ W, WReach NotNumber W ∧ W.c.g.fl = id ∧ W.c.g.deltaT = 5 ∧ W.c.g.logMode = true ∧
      1 < W.c.g.nVehs ∧ W.cache 1 = none ∧ W.c.pyState 1 = .run ∧ W.c.pyLink 1 = some 1 ∧ W.c.pyDeparture 1 = 1 ∧
      W.c.pyArrival 1 = -1 ∧ W.traveledRoute 1 true true = some ([0, 1], [5, 10, 30, -1])) ∧
    (∃ W, WReach NotNumber W ∧ W.c.g.fl = id ∧ W.cache 1 = some (Wrap.buildLog W.c 1) ∧ W.c.pyState 1 = .ended ∧
      W.c.pyArrival 1 = 8 ∧ W.c.pyTravel 1 = 35 ∧ W.traveledRoute 1 true true = some ([0, 1], [5, 10, 30, 40])) ∧
    cppAbort.pyState 0 = .abort ∧ cppAbort.pyAborted 0 = true ∧ cppAbort.pyArrival 0 = -1 := by
  refine ⟨?_, ?_, by decide +kernel, by decide +kernel, by decide +kernel⟩
  · have h : wObs (wRun (wNew id 100 5 1) wDemo) (fun W => decide (W.c.g.deltaT = 5 ∧ W.c.g.logMode = true ∧
        1 < W.c.g.nVehs ∧ (W.cache 1).isNone = true ∧ W.c.pyState 1 = .run ∧ W.c.pyLink 1 = some 1 ∧
        W.c.pyDeparture 1 = 1 ∧ W.c.pyArrival 1 = -1 ∧
        W.traveledRoute 1 true true = some ([0, 1], [5, 10, 30, -1]))) = true := by decide +kernel
    obtain ⟨W, e, h1⟩ := wObs_ok h
    obtain ⟨a1, a2, a3, a4, a5⟩ := of_decide_eq_true h1
    exact ⟨W, wRun_reach (wNew_reach NotNumber id 100 5 1) wDemo_named e,
      (wRun_fl (wNew_reach _ _ _ _ _) wDemo_named e).trans rfl, a1, a2, a3, by simpa using a4, a5⟩
  · have hn : ∀ c ∈ wDemo ++ [WCmd.exec .toEnd], c.Named NotNumber := by
      intro c hc
      rcases List.mem_append.1 hc with h | h
      · exact wDemo_named c h
      · simp only [List.mem_cons, List.not_mem_nil, or_false] at h
        rw [h]; trivial
    have h : wObs (wRun (wNew id 100 5 1) (wDemo ++ [.exec .toEnd])) (fun W =>
        decide (W.cache 1 = some (Wrap.buildLog W.c 1) ∧ W.c.pyState 1 = .ended ∧ W.c.pyArrival 1 = 8 ∧
          W.c.pyTravel 1 = 35 ∧ W.traveledRoute 1 true true = some ([0, 1], [5, 10, 30, 40]))) = true := by
      decide +kernel
    obtain ⟨W, e, h1⟩ := wObs_ok h
    exact ⟨W, wRun_reach (wNew_reach NotNumber id 100 5 1) hn e,
      (wRun_fl (wNew_reach _ _ _ _ _) hn e).trans rfl, of_decide_eq_true h1⟩

/-- **C114** fails for a log that was read before the end (C110): the vehicle has arrived in time step 8, but
`traveled_route` says that it has not. -/
theorem C114_stale_false : ∃ W, WReach NotNumber W ∧ W.c.g.fl = id ∧ W.c.pyState 1 = .ended ∧ W.c.pyArrival 1 = 8 ∧
    W.traveledRoute 1 true false = some ([0, 1], [10, 30, -1]) := by
  have hn : ∀ c ∈ wDemo ++ [WCmd.logs, .exec .toEnd], c.Named NotNumber := by
    intro c hc
    rcases List.mem_append.1 hc with h | h
    · exact wDemo_named c h
    · simp only [List.mem_cons, List.not_mem_nil, or_false] at h
      rcases h with rfl | rfl <;> trivial
  have h : wObs (wRun (wNew id 100 5 1) (wDemo ++ [.logs, .exec .toEnd])) (fun W =>
      decide (W.c.pyState 1 = .ended ∧ W.c.pyArrival 1 = 8 ∧
        W.traveledRoute 1 true false = some ([0, 1], [10, 30, -1]))) = true := by decide +kernel
  obtain ⟨W, e, h1⟩ := wObs_ok h
  exact ⟨W, wRun_reach (wNew_reach NotNumber id 100 5 1) hn e,
    (wRun_fl (wNew_reach _ _ _ _ _) hn e).trans rfl, of_decide_eq_true h1⟩

end UX
