import Verif.Props.CppExample
import Verif.Proofs.CppChunk

/-!
# C81: departures and chunks of `main_loop` of the C++ engine
-/

namespace UX
open Cpp Cpp.CWorld

theorem Cpp.valid_nodup {sched : ℕ → CWorld → Sched} (hs : ∀ t V, (sched t V).Valid V) (t : ℕ)
    (V : CWorld) (_ : Rest V) : (sched t V).run.Nodup := (hs t V).2.2.2.1.nodup_iff.2 List.nodup_range

/-- **C81.** Running to time step `a` and then to `b` gives exactly the world and the exception of
running to `b` at once. -/
theorem C81_chunk {W W1 : CWorld} (h : CReach W) {sched : ℕ → CWorld → Sched}
    (hs : ∀ t V, (sched t V).Valid V) (hm : Monotone W.g.fl) (hdt : 0 ≤ W.g.deltaT) {a b : ℕ}
    (hab : a ≤ b) (h1 : W.mainLoop sched a = (W1, none)) : W1.mainLoop sched b = W.mainLoop sched b :=
  mainLoop_chunk h.rest (valid_nodup hs) hm hdt hab h1

/-- **C81.** A completed call makes the time steps up to the given one, not beyond the simulation. -/
theorem C81_time {W W' : CWorld} (h : CReach W) {sched : ℕ → CWorld → Sched}
    (hs : ∀ t V, (sched t V).Valid V) {e : ℕ} (h1 : W.mainLoop sched e = (W', none)) :
    W'.g.timestep = max W.g.timestep (min e W.g.totalSteps) := by
  have := (mainLoop_keep h.rest (valid_nodup hs) h1).2
  omega

/-- **C81.** No vehicle departs early: one whose departure time is after the last time step made is
still at home, untouched. -/
theorem C81_notEarly {W W' : CWorld} (h : CReach W) {sched : ℕ → CWorld → Sched}
    (hs : ∀ t V, (sched t V).Valid V) (hm : Monotone W.g.fl) (hdt : 0 ≤ W.g.deltaT) {e : ℕ}
    (h1 : W.mainLoop sched e = (W', none)) {v : ℕ} (hst : (W.veh v).state = .home)
    (hd : ∀ t, W.g.timestep ≤ t → t < W'.g.timestep → W.g.fl (t * W.g.deltaT) < (W.veh v).depTime) :
    W'.veh v = W.veh v := by
  obtain ⟨k, kt⟩ := mainLoop_keep h.rest (valid_nodup hs) h1
  refine k.kept v (fun t h2 h3 hb => ?_) hst
  exact absurd (bucket_due hm hdt hb (by omega)) (not_le.2 (hd t h2 h3))

/-- **C81.** In exact arithmetic a vehicle that was at home is still there after a completed run
exactly if its departure time is after the last time step made: it starts to wait at the first time
step `t` of the run with `t * delta_t ≥ departure_time`. -/
theorem C81_departure {W W' : CWorld} (h : CReach W) {sched : ℕ → CWorld → Sched}
    (hs : ∀ t V, (sched t V).Valid V) (hfl : W.g.fl = id) (hdt : 0 < W.g.deltaT) {e : ℕ}
    (hr : W.g.timestep < min e W.g.totalSteps)
    (h1 : W.mainLoop sched e = (W', none)) {v : ℕ} (hv : v < W.g.nVehs) (hst : (W.veh v).state = .home) :
    (W'.veh v).state = .home ↔ ((W'.g.timestep - 1 : ℕ) : ℚ) * W.g.deltaT < (W.veh v).depTime := by
  obtain ⟨k, kt⟩ := mainLoop_keep h.rest (valid_nodup hs) h1
  have hm : Monotone W.g.fl := by rw [hfl]; exact monotone_id
  constructor
  · intro hh
    by_contra hn
    have hn := not_lt.1 hn
    set s : ℕ := W'.g.timestep - 1 with hsdef
    -- the first departing step is not after `s`
    have hp : pyInt (W.g.fl ((W.veh v).depTime / W.g.deltaT)) ≤ (s : ℤ) := by
      have hq : (W.veh v).depTime / W.g.deltaT ≤ s := by rw [div_le_iff₀ hdt]; exact hn
      rw [hfl]
      simp only [id]
      unfold pyInt
      split
      · exact Int.floor_le_iff.2 (by push_cast; linarith)
      · exact Int.ceil_le.2 (by push_cast; exact hq)
    have hf : firstStep W (W.veh v).depTime ≤ (s : ℤ) := by
      by_contra hgt
      have := (bumpStep_spec W (W.veh v).depTime _ _).2.2 s hp (not_le.1 hgt)
      rw [hfl] at this
      simp only [id, Int.cast_natCast] at this
      linarith
    have hmem : v ∈ W.bucket W.g.timestep (max (firstStep W (W.veh v).depTime) W.g.timestep).toNat :=
      mem_bucket.2 ⟨hv, hst, departStep_eq _ _ _⟩
    exact k.left _ (by omega) (by omega) v hmem (bucket_due hm hdt.le hmem (by omega)) hh
  · intro hh
    rw [C81_notEarly h hs hm hdt.le h1 hst (fun t h2 h3 => ?_)]
    · exact hst
    · rw [hfl]
      simp only [id]
      refine lt_of_le_of_lt (mul_le_mul_of_nonneg_right ?_ hdt.le) hh
      have : t ≤ W'.g.timestep - 1 := by omega
      exact_mod_cast this

/-- In the example vehicle 4 departs at 80 s, time step 16. -/
example : ((cppEx 16).veh 4).state = .home ∧ ((cppEx 17).veh 4).state = .wait := by decide +kernel

example : cppEx 17 = ((cppEx 8).mainLoop (fun _ W => W.seqSched) 17).1 := by
  have h8 : (cppEx0.mainLoop (fun _ W => W.seqSched) 8).2 = none := by decide +kernel
  have := C81_chunk cppEx0_reach seqSched_valid monotone_id (by decide +kernel) (show 8 ≤ 17 by decide)
    (show cppEx0.mainLoop (fun _ W => W.seqSched) 8 = (cppEx 8, none) from Prod.ext rfl h8)
  rw [this]; rfl

end UX
