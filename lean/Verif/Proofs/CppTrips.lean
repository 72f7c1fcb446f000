import Verif.Proofs.CppEnds
import Verif.Proofs.CppChunk

/-!
# What an event does to vehicles and ended trips
-/

namespace UX.Cpp
open CWorld Relation

/-! ## Globals and parameters across an event -/

theorem routeStep_link (W : CWorld) (l : ℕ) : ∃ r, W.routeStep.link l = { W.link l with rng := r } := by
  have hup : ∃ r, W.updateAdj.link l = { W.link l with rng := r } := by
    simp only [CWorld.updateAdj]
    split
    · exact ⟨_, rfl⟩
    · beta_reduce; split
      · exact ⟨_, rfl⟩
      · exact ⟨_, rfl⟩
  unfold CWorld.routeStep
  split
  · split
    · exact hup
    · exact ⟨_, rfl⟩
  · split
    · exact hup
    · exact ⟨_, rfl⟩

theorem reconcile_link (W : CWorld) (l : ℕ) : W.reconcile.link l =
    { W.link l with ended := if l < W.g.nLinks then [] else (W.link l).ended } := by
  simp only [CWorld.reconcile]; split <;> rfl

theorem linkUpdate_samePar (W : CWorld) (l : ℕ) : SamePar W (W.linkUpdate l) := by
  refine ⟨fun _ => rfl, fun m => ?_, fun _ => rfl⟩
  unfold CWorld.linkUpdate
  rw [setL_link]; split
  · rename_i e; subst e; rfl
  · rfl

theorem Ev.samePar {W W' : CWorld} (e : Ev W W') : SamePar W W' := by
  cases e with
  | act a => exact a.keep.samePar
  | clear => exact (Keep.clearExc W).samePar
  | update l => exact linkUpdate_samePar W l
  | home v r hv hs => exact (r.homeVeh hv hs).2.1
  | reconcile r => exact ⟨fun n => by simp only [CWorld.reconcile]; split <;> rfl,
      fun l => by simp only [CWorld.reconcile]; split <;> rfl, fun _ => rfl⟩
  | route r => exact (routeStep_same W).1
  | tick r => exact ⟨fun _ => rfl, fun _ => rfl, fun _ => rfl⟩

theorem Ev.fix {W W' : CWorld} (e : Ev W W') : W'.g.fix = W.g.fix := by
  cases e with
  | act a => rw [a.keep.g]
  | clear => rfl
  | update l => rfl
  | home v r hv hs => rw [(r.homeVeh hv hs).2.2.1]
  | reconcile r => rfl
  | route r => exact routeStep_fix W
  | tick r => rfl

theorem Ev.timestep {W W' : CWorld} (e : Ev W W') :
    W'.g.timestep = W.g.timestep ∨ (W'.g.timestep = W.g.timestep + 1 ∧ W'.veh = W.veh) := by
  cases e with
  | act a => rw [a.keep.g]; exact Or.inl rfl
  | clear => exact Or.inl rfl
  | update l => exact Or.inl rfl
  | home v r hv hs => rw [(r.homeVeh hv hs).2.2.1]; exact Or.inl rfl
  | reconcile r => exact Or.inl rfl
  | route r => exact Or.inl (routeStep_same W).2.2.2.2.2.1
  | tick r => exact Or.inr ⟨rfl, rfl⟩

/-! ## Vehicles -/

/-- What an event does to the vehicle `w`. -/
inductive EvCh (W : CWorld) (w : ℕ) (V' : CVeh) : Prop
  | act (h : VehCh W w V')
  | stay (hw : w < W.g.nVehs) (hs : (W.veh w).state = .home) (h : V'.noLog = (W.veh w).noLog)
  | wake (hw : w < W.g.nVehs) (hs : (W.veh w).state = .home) (ht : (W.veh w).depTime ≤ W.now)
      (h : V'.noLog = CVeh.noLog { W.veh w with state := .wait })

theorem home_ch {W : CWorld} {v : ℕ} (hv : v < W.g.nVehs) (hs : (W.veh v).state = .home) :
    EvCh W v ((W.vehUpdate v none).veh v) := by
  have hn := logData_noLog W v none v
  have hg : (W.logData v none).now = W.now := by unfold CWorld.now; rw [(samePar_logData W v none).2]
  have h1 : ((W.logData v none).veh v).state = .home := by rw [noLog_state hn]; exact hs
  have h2 : ((W.logData v none).veh v).depTime = (W.veh v).depTime :=
    show ((W.logData v none).veh v).noLog.depTime = (W.veh v).noLog.depTime by rw [hn]
  unfold vehUpdate
  simp only [h1]
  split
  · rename_i ht
    rw [h2, hg] at ht
    refine .wake hv hs ht ?_
    rw [setN_veh, setV_veh, if_pos rfl]
    show ({ ((W.logData v none).veh v).noLog with state := .wait } : CVeh) = _
    rw [hn]; rfl
  · exact .stay hv hs hn

theorem home_state {W : CWorld} {v : ℕ} (hs : (W.veh v).state = .home) :
    ((W.vehUpdate v none).veh v).state = .home ∨ ((W.vehUpdate v none).veh v).state = .wait := by
  have h1 : ((W.logData v none).veh v).state = .home := by
    rw [noLog_state (logData_noLog W v none v)]; exact hs
  unfold vehUpdate
  simp only [h1]
  split
  · rw [setN_veh, setV_veh, if_pos rfl]; exact Or.inr rfl
  · exact Or.inl h1

theorem Ev.veh {W W' : CWorld} (e : Ev W W') (w : ℕ) : EvCh W w (W'.veh w) := by
  cases e with
  | act a => exact .act (a.veh w)
  | clear => exact .act (.same rfl)
  | update l => exact .act (.same rfl)
  | home v r hv hs =>
    by_cases h : w = v
    · subst h; exact home_ch hv hs
    · exact .act (.same ((r.homeVeh hv hs).2.2.2 w h))
  | reconcile r => exact .act (.same rfl)
  | route r => exact .act (.same (by rw [(routeStep_same W).2.1]))
  | tick r => exact .act (.same rfl)

/-! ## Ended trips -/

/-- The number of ended trips of the links and of vehicles whose trip is over. -/
theorem Ev.ends {W W' : CWorld} (e : Ev W W') :
    EndCh W W' ∨ ((∀ m, (W'.link m).trips = (W.link m).trips) ∧
      ∀ w, (W'.veh w).over ↔ (W.veh w).over) := by
  cases e with
  | act a => exact Or.inl a.ends
  | clear => exact Or.inr ⟨fun _ => rfl, fun _ => Iff.rfl⟩
  | update l =>
    refine Or.inr ⟨fun m => ?_, fun _ => Iff.rfl⟩
    unfold CWorld.linkUpdate
    rw [setL_link]; split
    · rename_i e; subst e; rfl
    · rfl
  | home v r hv hs =>
    refine Or.inr ⟨fun m => ?_, fun w => ?_⟩
    · have h1 : ((W.logData v none).link m).trips = (W.link m).trips := congrArg (·.1) (logData_ends W v none m)
      have h2 : ((W.logData v none).veh v).state = .home := by
        rw [noLog_state (logData_noLog W v none v)]; exact hs
      unfold vehUpdate
      simp only [h2]
      split <;> exact h1
    · by_cases h : w = v
      · subst h
        have ho : ¬ (W.veh w).over := by unfold CVeh.over; rw [hs]; simp
        refine ⟨fun h => absurd h ?_, fun h => absurd h ho⟩
        unfold CVeh.over
        rcases home_state hs with h | h <;> rw [h] <;> simp
      · rw [(r.homeVeh hv hs).2.2.2 w h]
  | reconcile r => exact Or.inr ⟨fun m => by rw [reconcile_link], fun _ => Iff.rfl⟩
  | route r =>
    refine Or.inr ⟨fun m => ?_, fun w => by rw [(routeStep_same W).2.1]⟩
    obtain ⟨r, e⟩ := routeStep_link W m
    rw [e]
  | tick r => exact Or.inr ⟨fun _ => rfl, fun _ => Iff.rfl⟩

end UX.Cpp
