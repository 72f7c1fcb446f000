import Verif.Props.CppWrapExample
import Verif.Props.CppChunk
import Verif.Proofs.Exec
import Verif.Props.CppWrap
import Verif.Props.RouteChoice

/-!
# C109: `exec_simulation` of the Python side of the C++ engine
-/

namespace UX
open Cpp Cpp.CWorld Cpp.Spec

/-- The clock of the wrapper is that of the engine, and does not go beyond the horizon. -/
theorem C109_clock {W : Wrap} (h : WReach NotNumber W) :
    W.T = W.c.g.timestep ∧ (W.finalized = true → W.c.g.totalSteps = W.tsize.toNat ∧ W.T ≤ W.tsize.toNat) :=
  ⟨h.inv.T, h.inv.steps⟩

theorem Cpp.exec_fin {W : Wrap} (hf : W.finalized = true) (sched : ℕ → CWorld → Sched) (u : Wrap.Until) :
    W.exec sched u = if (W.T : ℤ) = W.endTs u ∧ W.endTs u = W.tsize then .ok (W.readLogs, 1)
      else if W.endTs u < W.T then .error .exception else Wrap.run sched W (W.endTs u) := by
  unfold Wrap.exec
  simp only [hf, if_true]

theorem Cpp.endTs_le (W : Wrap) (u : Wrap.Until) : W.endTs u ≤ W.tsize := by
  unfold Wrap.endTs
  split
  · exact le_refl _
  all_goals exact min_le_right _ _

theorem Cpp.exec_ok {W W' : Wrap} (i : WInv W) (hf : W.finalized = true) (h0 : 0 ≤ W.tsize)
    {sched : ℕ → CWorld → Sched} (hs : ∀ t V, (sched t V).Valid V) {u : Wrap.Until} {r : ℕ}
    (he : W.exec sched u = .ok (W', r)) :
    WInv W' ∧ W'.finalized = true ∧ W'.tsize = W.tsize ∧ W.T ≤ W'.T ∧ W'.T ≤ W'.tsize.toNat ∧
      (r = if W'.tsize ≤ W'.T then 1 else 0) := by
  rw [exec_fin hf] at he
  split at he
  · rename_i hc
    cases he
    refine ⟨i.readLogs, hf, rfl, le_refl _, (i.steps hf).2, ?_⟩
    rw [if_pos]
    show W.tsize ≤ (W.T : ℤ)
    rw [hc.1, hc.2]
  · split at he
    · cases he
    · obtain ⟨j, hm, a, b, c, d, e, f⟩ := i.run hf hs he
      refine ⟨j, a, b, ?_, (j.steps a).2, e⟩
      rw [i.T, j.T]
      exact (mainLoop_keep i.clean.toReach.rest (valid_nodup hs) hm).1.time

/-- **C109.** A call that returns, returns 1 exactly if all time steps have been made, and 0 otherwise. The clock never
goes back. -/
theorem C109_return {W W' : Wrap} (h : WReach NotNumber W) (hf : W.finalized = true) (h0 : 0 ≤ W.tsize)
    {sched : ℕ → CWorld → Sched} (hs : ∀ t V, (sched t V).Valid V) {u : Wrap.Until} {r : ℕ}
    (he : W.exec sched u = .ok (W', r)) :
    W'.tsize = W.tsize ∧ W.T ≤ W'.T ∧ (W'.T : ℤ) ≤ W.tsize ∧ (r = 1 ↔ (W'.T : ℤ) = W.tsize) ∧
      (r = 0 ↔ (W'.T : ℤ) < W.tsize) ∧ (r = 1 ↔ W'.ongoing = false) := by
  obtain ⟨_, a, b, c, d, e⟩ := exec_ok h.inv hf h0 hs he
  rw [b] at d e
  refine ⟨b, c, by omega, ?_, ?_, ?_⟩
  · rw [e]; split <;> omega
  · rw [e]; split <;> omega
  · unfold Wrap.ongoing
    rw [a, b, e]
    split <;> simp <;> omega

/-- **C109.** Once all time steps have been made, every further call returns 1 or raises, and the engine stays as it
is. -/
theorem C109_done {W : Wrap} (hf : W.finalized = true) (hT : (W.T : ℤ) = W.tsize)
    (sched : ℕ → CWorld → Sched) (u : Wrap.Until) :
    W.exec sched u = .ok (W.readLogs, 1) ∨ W.exec sched u = .error .exception := by
  rw [exec_fin hf]
  have := endTs_le W u
  by_cases hc : (W.T : ℤ) = W.endTs u ∧ W.endTs u = W.tsize
  · rw [if_pos hc]; exact .inl rfl
  · rw [if_neg hc, if_pos (by omega)]; exact .inr rfl

theorem Cpp.cppEnd_exact {W : Wrap} (hfl : W.c.g.fl = id) (hdt : 0 < W.c.g.deltaT) {e : ℤ} (he : 0 ≤ e) :
    W.cppEnd e = e.toNat + 1 := by
  unfold Wrap.cppEnd
  rw [hfl]
  simp only [id]
  rw [mul_div_cancel_right₀ _ hdt.ne', Int.floor_intCast]

theorem Cpp.endTs_asks {W : Wrap} (hfl : W.c.g.fl = id) (hT : (W.T : ℤ) < W.tsize)
    {u : Wrap.Until} {k : ℕ} (hk : 0 < k) (ha : Asks W.c.g.deltaT W.T W.tsize.toNat k u) :
    (W.T : ℤ) ≤ W.endTs u ∧ min ((W.endTs u).toNat + 1) W.tsize.toNat = min (W.T + k) W.tsize.toNat := by
  have fl_eq : ∀ {q : ℚ} {m : ℤ}, 0 ≤ m → (m : ℚ) ≤ q → q < m + 1 → pyInt q = m := by
    intro q m h0 h1 h2
    have : ⌊q⌋ = m := Int.floor_eq_iff.2 ⟨h1, h2⟩
    have hq : 0 ≤ q := le_trans (by exact_mod_cast h0) h1
    unfold pyInt
    rw [if_pos hq, this]
  cases u with
  | toEnd =>
    change k = W.tsize.toNat - W.T at ha
    show (W.T : ℤ) ≤ W.tsize ∧ min (W.tsize.toNat + 1) W.tsize.toNat = _
    omega
  | untilT t =>
    obtain ⟨h1, h2⟩ := ha
    have e : pyInt (t / W.c.g.deltaT) = (W.T + k : ℤ) - 1 := by
      refine fl_eq (by omega) ?_ ?_ <;> push_cast at h1 h2 ⊢ <;> linarith
    have e2 : W.endTs (.untilT t) = min ((W.T + k : ℤ) - 1) W.tsize := by
      unfold Wrap.endTs; rw [hfl]; simp only [id, e]
    rw [e2]
    omega
  | duration d =>
    obtain ⟨h1, h2⟩ := ha
    have e : pyInt (d / W.c.g.deltaT) = (k : ℤ) - 1 := by
      refine fl_eq (by omega) ?_ ?_ <;> push_cast at h1 h2 ⊢ <;> linarith
    have e2 : W.endTs (.duration d) = min ((W.T : ℤ) + ((k : ℤ) - 1)) W.tsize := by
      unfold Wrap.endTs; rw [hfl]; simp only [id, e]
    rw [e2]
    omega
  | duration2 d =>
    obtain ⟨h1, h2⟩ := ha
    have e : pyInt (d / W.c.g.deltaT) = (k : ℤ) := by
      refine fl_eq (by omega) ?_ ?_ <;> push_cast at h1 h2 ⊢ <;> linarith
    have e2 : W.endTs (.duration2 d) = min ((W.T : ℤ) + (k : ℤ) - 1) W.tsize := by
      unfold Wrap.endTs; rw [hfl]; simp only [id, e]
    rw [e2]
    omega

/-- **C109.** In exact arithmetic a call before the end of the simulation makes exactly the time steps it asks for, cut
at the end; it raises only what the engine raises in these time steps. -/
theorem C109_steps {W : Wrap} (h : WReach NotNumber W) (hf : W.finalized = true) (hfl : W.c.g.fl = id)
    (hdt : 0 < W.c.g.deltaT) (hT : (W.T : ℤ) < W.tsize) {sched : ℕ → CWorld → Sched}
    (hs : ∀ t V, (sched t V).Valid V) {u : Wrap.Until} {k : ℕ} (hk : 0 < k)
    (ha : Asks W.c.g.deltaT W.T W.tsize.toNat k u) :
    (∀ c, W.c.mainLoop sched (W.T + k) = (c, none) →
      ∃ W' r, W.exec sched u = .ok (W', r) ∧ W'.c = c ∧ W'.T = min (W.T + k) W.tsize.toNat) ∧
    (∀ c x, W.c.mainLoop sched (W.T + k) = (c, some x) → W.exec sched u = .error (.cpp x)) := by
  have i := h.inv
  obtain ⟨h1, h2⟩ := endTs_asks hfl hT hk ha
  have hle := endTs_le W u
  rw [exec_fin hf, if_neg (by omega), if_neg (by omega)]
  have e1 : W.c.mainLoop sched (W.cppEnd (W.endTs u)) = W.c.mainLoop sched (W.T + k) := by
    unfold CWorld.mainLoop
    rw [cppEnd_exact hfl hdt (by omega), (i.steps hf).1, h2]
  constructor
  · intro c hc
    have hm := e1.trans hc
    have ht := C81_time i.clean.toReach hs hc
    cases hr : Wrap.run sched W (W.endTs u) with
    | error x =>
      unfold Wrap.run at hr
      rw [hm] at hr
      simp only at hr
      split at hr <;> cases hr
    | ok p =>
      obtain ⟨W', r⟩ := p
      obtain ⟨j, hm', _⟩ := i.run hf hs hr
      have e3 : W'.c = c := by
        rw [hm] at hm'
        exact (Prod.mk.inj hm').1.symm
      refine ⟨W', r, rfl, e3, ?_⟩
      rw [j.T, e3, ht, ← i.T, (i.steps hf).1]
      omega
  · intro c x hc
    unfold Wrap.run
    rw [e1.trans hc]

/-- **C109.** In exact arithmetic the calls of the Python engine and of the wrapper agree: at the same time step of
simulations of the same length, both refuse the same calls, and when both return they show the same time and return the
same value. -/
theorem C109_python {W W' : Wrap} (h : WReach NotNumber W) (hf : W.finalized = true) (hfl : W.c.g.fl = id)
    (hdt : 0 < W.c.g.deltaT) {sched : ℕ → CWorld → Sched} (hs : ∀ t V, (sched t V).Valid V)
    {P P' : World} (hP : Reachable Any P) (hPf : P.finalized = true) (hPfl : P.cfg.fl = id)
    (hd : P.cfg.deltat = W.c.g.deltaT) (hT : P.T = W.T) (hsz : (P.tsize : ℤ) = W.tsize) (u : Wrap.Until) :
    (W.exec sched u = .error .exception ↔ P.endTs (asPython u) < P.T) ∧
    (P.endTs (asPython u) < P.T → P.exec (asPython u) = .error .exception) ∧
    (∀ r r', W.exec sched u = .ok (W', r) → P.exec (asPython u) = .ok (P', r') → P'.T = W'.T ∧ r' = r) := by
  have i := h.inv
  have e : P.endTs (asPython u) = W.endTs u := by
    have e1 : P.fl = id := hPfl
    have e2 : P.dt = W.c.g.deltaT := hd
    cases u <;> simp only [asPython, World.endTs, Wrap.endTs, e1, hfl, e2, hT, hsz]
  have hTle := (T_le hP).1 hPf
  have hWle := (i.steps hf).2
  rw [exec_fin hf, exec_eq hP hPf, e]
  refine ⟨?_, ?_, ?_⟩
  · constructor
    · intro he
      split at he
      · cases he
      · split at he
        · rw [hT]; assumption
        · unfold Wrap.run at he
          split at he
          · cases he
          · simp only at he; split at he <;> cases he
    · intro he
      rw [if_neg (by omega), if_pos (by omega)]
  · intro he
    rw [if_neg (by omega), if_pos he]
  · intro r r' h1 h2
    split at h1
    · rename_i hc
      cases h1
      rw [if_pos (by omega)] at h2
      cases h2
      exact ⟨hT, rfl⟩
    · rename_i hc
      rw [if_neg (by omega)] at h2
      split at h1
      · cases h1
      · rename_i hlt
        rw [if_neg (by omega), map_ok] at h2
        obtain ⟨P1, h3, h4⟩ := h2
        obtain ⟨b1, b2, b3, b4, b5⟩ := ticks_reach hP hPf (by unfold stepsOf; omega) h3
        obtain ⟨j, hm, c1, c2, c3, c4, c5, c6⟩ := i.run hf hs h1
        have ht := C81_time i.clean.toReach hs hm
        rw [← j.T, ← i.T, (i.steps hf).1, cppEnd_exact hfl hdt (by omega)] at ht
        have hP'T : P1.T = W'.T := by
          rw [b3, ht]; unfold stepsOf; omega
        cases h4
        refine ⟨hP'T, ?_⟩
        rw [c5, c2, hP'T, b4]
        have : W'.T = P.tsize ↔ W.tsize ≤ W'.T := by
          have := (j.steps c1).2
          rw [c2] at this
          omega
        simp only [this]

/-- **C109.** In exact arithmetic a run in pieces ends with the same engine, or the same exception of the engine, as a
run at one go. -/
theorem C109_pieces {W W1 : Wrap} (h : WReach NotNumber W) (hf : W.finalized = true) (h0 : 0 ≤ W.tsize)
    (hfl : W.c.g.fl = id) (hdt : 0 < W.c.g.deltaT) {sched : ℕ → CWorld → Sched}
    (hs : ∀ t V, (sched t V).Valid V) {u : Wrap.Until} {r : ℕ} (h1 : W.exec sched u = .ok (W1, r)) :
    (W1.exec sched .toEnd).map (fun p => (p.1.c, p.2)) = (W.exec sched .toEnd).map (fun p => (p.1.c, p.2)) := by
  have i := h.inv
  obtain ⟨j, a, b, c, d, e⟩ := exec_ok i hf h0 hs h1
  have key : ∀ {V : Wrap}, WInv V → V.finalized = true → V.tsize = W.tsize → V.c.g.fl = id → 0 < V.c.g.deltaT →
      (V.exec sched .toEnd).map (fun p => (p.1.c, p.2)) =
        match V.c.mainLoop sched W.tsize.toNat with
        | (c, none) => .ok (c, 1)
        | (_, some x) => .error (.cpp x) := by
    intro V iV hV hz hVfl hVdt
    obtain ⟨s1, s2⟩ := iV.steps hV
    rw [exec_fin hV]
    have e0 : V.endTs .toEnd = V.tsize := rfl
    rw [e0]
    split
    · rename_i hc
      have : V.c.mainLoop sched W.tsize.toNat = (V.c, none) := by
        unfold CWorld.mainLoop
        rw [← iV.T, s1, hz, show min W.tsize.toNat W.tsize.toNat - V.T = 0 by omega]
        rfl
      rw [this]; rfl
    · rename_i hc
      rw [if_neg (by omega)]
      have e1 : V.c.mainLoop sched (V.cppEnd V.tsize) = V.c.mainLoop sched W.tsize.toNat := by
        unfold CWorld.mainLoop
        rw [cppEnd_exact hVfl hVdt (by omega), s1, hz]
        congr 1; omega
      cases hr : Wrap.run sched V V.tsize with
      | error x =>
        unfold Wrap.run at hr
        rw [e1] at hr
        generalize V.c.mainLoop sched W.tsize.toNat = p at hr ⊢
        obtain ⟨p1, _ | p2⟩ := p
        · simp only at hr; split at hr <;> cases hr
        · simp only at hr; cases hr; rfl
      | ok p =>
        obtain ⟨V', r'⟩ := p
        obtain ⟨jV, hm, k1, k2, k3, k4, k5, k6⟩ := iV.run hV hs hr
        have ht := C81_time iV.clean.toReach hs hm
        rw [← jV.T, ← iV.T, s1, cppEnd_exact hVfl hVdt (by omega)] at ht
        rw [← e1, hm]
        show Except.ok (V'.c, r') = .ok (V'.c, 1)
        rw [k5, if_pos (by omega)]
  rw [key i hf rfl hfl hdt]
  -- the engine after the first piece
  have hcase : W1.c = W.c ∨ ∃ m, m ≤ W.tsize.toNat ∧ W.c.mainLoop sched m = (W1.c, none) := by
    rw [exec_fin hf] at h1
    split at h1
    · cases h1; exact .inl rfl
    · split at h1
      · cases h1
      · obtain ⟨_, hm, _⟩ := i.run hf hs h1
        refine .inr ⟨min (W.cppEnd (W.endTs u)) W.tsize.toNat, by omega, ?_⟩
        rw [← hm]
        unfold CWorld.mainLoop
        rw [(i.steps hf).1]
        congr 1; omega
  rcases hcase with hc | ⟨m, hm1, hm2⟩
  · rw [key j a b (by rw [hc]; exact hfl) (by rw [hc]; exact hdt), hc]
  · have k := (mainLoop_keep i.clean.toReach.rest (valid_nodup hs) hm2).1
    rw [key j a b ((CGlob.fix_fl k.fix).trans hfl) (by rw [CGlob.fix_deltaT k.fix]; exact hdt),
      C81_chunk i.clean.toReach hs (by rw [hfl]; exact monotone_id) hdt.le hm1 hm2]

theorem Cpp.foldl_max_ge (f : String × ℕ → ℚ) : ∀ (l : List (String × ℕ)) (m : ℚ),
    m ≤ l.foldl (fun m p => max m (f p)) m ∧ (∀ p ∈ l, f p ≤ l.foldl (fun m p => max m (f p)) m) ∧
      (l.foldl (fun m p => max m (f p)) m = m ∨ ∃ p ∈ l, l.foldl (fun m p => max m (f p)) m = f p)
  | [], m => ⟨le_refl _, by simp, Or.inl rfl⟩
  | p :: l, m => by
    obtain ⟨h1, h2, h3⟩ := Cpp.foldl_max_ge f l (max m (f p))
    simp only [List.foldl_cons]
    refine ⟨(le_max_left _ _).trans h1, fun q hq => ?_, ?_⟩
    · rcases List.mem_cons.1 hq with rfl | hq
      · exact (le_max_right _ _).trans h1
      · exact h2 q hq
    · rcases h3 with h3 | ⟨q, hq, h3⟩
      · rw [h3]
        rcases max_choice m (f p) with e | e
        · exact Or.inl e
        · exact Or.inr ⟨p, List.mem_cons_self, e⟩
      · exact Or.inr ⟨q, List.mem_cons_of_mem _ hq, h3⟩

/-- **C109.** If no `tmax` is given, the simulation ends at a full half hour, in exact arithmetic more than half an hour
after the time step of the last departure and at most one hour after the last departure (after one hour, if all vehicles
depart in the first time step). -/
theorem C109_auto {W : Wrap} (h : WReach NotNumber W) (hfl : W.c.g.fl = id) (hdt : 0 < W.c.g.deltaT)
    (hno : W.tmax = none) : ∃ k : ℕ, (W.finalize none).tmax = some ((k : ℚ) * 1800) ∧
      (∀ v, v < W.c.g.nVehs → (W.c.veh v).depTime - W.c.g.deltaT + 1800 < k * 1800) ∧
      (k = 2 ∨ ∃ v, v < W.c.g.nVehs ∧ (k : ℚ) * 1800 ≤ (W.c.veh v).depTime + 3600) := by
  obtain ⟨hlen, _, _, hvs⟩ := C108_vehicles h
  set f : String × ℕ → ℚ := fun p => (pyInt ((W.c.veh p.2).depTime / W.c.g.deltaT) : ℚ) * W.c.g.deltaT with hf
  obtain ⟨m1, m2, m3⟩ := Cpp.foldl_max_ge f W.vehs 0
  set m := W.vehs.foldl (fun m p => max m (f p)) 0 with hm
  have e : W.autoTmax = (⌊m / 1800⌋ + 2) * 1800 := by
    unfold Wrap.autoTmax
    rw [hfl]
    rfl
  have hj : (0 : ℤ) ≤ ⌊m / 1800⌋ := Int.floor_nonneg.2 (by positivity)
  have hk : (((⌊m / 1800⌋ + 2).toNat : ℕ) : ℚ) = (⌊m / 1800⌋ : ℚ) + 2 := by
    have : (((⌊m / 1800⌋ + 2).toNat : ℕ) : ℤ) = ⌊m / 1800⌋ + 2 := Int.toNat_of_nonneg (by omega)
    exact_mod_cast this
  have hup : m / 1800 < ⌊m / 1800⌋ + 1 := Int.lt_floor_add_one _
  have hlo : (⌊m / 1800⌋ : ℚ) ≤ m / 1800 := Int.floor_le _
  refine ⟨(⌊m / 1800⌋ + 2).toNat, ?_, fun v hv => ?_, ?_⟩
  · unfold Wrap.finalize
    simp only [hno, e, hk]
  · obtain ⟨s, hs⟩ : ∃ s, W.names[v]? = some s := ⟨_, List.getElem?_eq_getElem (by omega)⟩
    have h1 := m2 (s, v) ((hvs.mem s v).2 ⟨hs, trivial⟩)
    have h2 : (W.c.veh v).depTime - W.c.g.deltaT < f (s, v) := by
      rw [hf]
      have : (W.c.veh v).depTime / W.c.g.deltaT < pyInt ((W.c.veh v).depTime / W.c.g.deltaT) + 1 := by
        unfold pyInt
        split
        · exact Int.lt_floor_add_one _
        · exact (Int.le_ceil _).trans_lt (by linarith)
      rw [div_lt_iff₀ hdt] at this
      dsimp only
      linarith
    rw [hk]
    linarith
  · rcases m3 with e0 | ⟨p, hp, e1⟩
    · left; rw [e0]; simp
    · by_cases h0 : 0 ≤ (W.c.veh p.2).depTime / W.c.g.deltaT
      · right
        have hn := ((hvs.mem p.1 p.2).1 hp).1
        refine ⟨p.2, by rw [← hlen]; exact (List.getElem?_eq_some_iff.1 hn).1, ?_⟩
        have h2 : m ≤ (W.c.veh p.2).depTime := by
          rw [e1, hf]
          dsimp only
          unfold pyInt
          rw [if_pos h0, ← le_div_iff₀ hdt]
          exact Int.floor_le _
        rw [hk]
        linarith
      · left
        have h2 : m ≤ 0 := by
          rw [e1, hf]
          dsimp only
          unfold pyInt
          rw [if_neg h0]
          have : ⌈(W.c.veh p.2).depTime / W.c.g.deltaT⌉ ≤ 0 := by
            rw [Int.ceil_le]; push_cast; linarith
          have : (⌈(W.c.veh p.2).depTime / W.c.g.deltaT⌉ : ℚ) ≤ 0 := by exact_mod_cast this
          nlinarith
        have : m = 0 := le_antisymm h2 m1
        rw [this]; simp

/-- A concrete case of `C109_auto`: the last vehicle departs at 2000, the end is at 5400. -/
theorem C109_auto_case : ∃ W, WReach NotNumber W ∧ W.c.g.fl = id ∧ 0 < W.c.g.deltaT ∧ W.tmax = none ∧
    W.c.g.nVehs = 2 ∧ (W.c.veh 1).depTime = 2000 ∧ (W.finalize none).tmax = some 5400 := by
  have hn : ∀ c ∈ wRoad ++ [WCmd.vehicle 0 0 2 none, .vehicle 2001 0 2 none], c.Named NotNumber := by
    intro c hc
    rcases List.mem_append.1 hc with h | h
    · exact wRoad_named _ c h
    · simp only [List.mem_cons, List.not_mem_nil, or_false] at h
      rcases h with rfl | rfl <;> trivial
  have h : wObs (wRun (Wrap.new id none 5 1 10 (1/2) 0 true false false false true 1)
      (wRoad ++ [.vehicle 0 0 2 none, .vehicle 2001 0 2 none])) (fun W => decide (0 < W.c.g.deltaT ∧ W.tmax = none ∧
      W.c.g.nVehs = 2 ∧ (W.c.veh 1).depTime = 2000 ∧ (W.finalize none).tmax = some 5400)) = true := by decide +kernel
  obtain ⟨W, e, h1⟩ := wObs_ok h
  have r0 : WReach NotNumber (Wrap.new id none 5 1 10 (1/2) 0 true false false false true 1) := .new ..
  exact ⟨W, wRun_reach r0 hn e, (wRun_fl r0 hn e).trans rfl, of_decide_eq_true h1⟩

/-- A concrete case of C109: at time step 7 of 60, calls that ask for 2, 1 and 53 time steps. The Python engine is at
the same time step of a simulation of the same length. -/
theorem C109_case : ∃ (W : Wrap) (P : World), WReach NotNumber W ∧ W.finalized = true ∧ W.c.g.fl = id ∧
    W.c.g.deltaT = 5 ∧ W.T = 7 ∧ W.tsize = 60 ∧
    Asks W.c.g.deltaT W.T W.tsize.toNat 2 (.duration 6) ∧ Asks W.c.g.deltaT W.T W.tsize.toNat 1 (.duration2 7) ∧
    Asks W.c.g.deltaT W.T W.tsize.toNat 53 .toEnd ∧
    (∃ W' r, W.exec (fun _ V => V.seqSched) (.duration 6) = .ok (W', r) ∧ W'.T = 9 ∧ r = 0) ∧
    Reachable Any P ∧ P.finalized = true ∧ P.cfg.fl = id ∧ P.cfg.deltat = W.c.g.deltaT ∧ P.T = W.T ∧
    (P.tsize : ℤ) = W.tsize := by
  have h : wObs (wRun (wNew id 300 5 1) wDemo) (fun W => decide (W.finalized = true ∧ W.c.g.deltaT = 5 ∧ W.T = 7 ∧
      W.tsize = 60) && (match W.exec (fun _ V => V.seqSched) (.duration 6) with
        | .ok (W', r) => decide (W'.T = 9 ∧ r = 0)
        | .error _ => false)) = true := by decide +kernel
  have h' : obs (runCmds demoCfg (fun _ => 0) (demo1 7)) (fun P => decide (P.finalized = true ∧ P.cfg.deltat = 5 ∧
      P.T = 7 ∧ P.tsize = 60)) = true := by decide +kernel
  obtain ⟨W, e, h1⟩ := wObs_ok h
  obtain ⟨P, e', h1'⟩ := obs_ok h'
  rw [Bool.and_eq_true] at h1
  obtain ⟨a1, a2, a3, a4⟩ := of_decide_eq_true h1.1
  obtain ⟨b1, b2, b3, b4⟩ := of_decide_eq_true h1'
  have r := wRun_reach (wNew_reach NotNumber id 300 5 1) wDemo_named e
  refine ⟨W, P, r, a1, (wRun_fl (wNew_reach _ _ _ _ _) wDemo_named e).trans rfl, a2, a3, a4, ?_, ?_, ?_, ?_,
    runCmds_reachable e', b1, by rw [runCmds_cfg e']; rfl, b2.trans a2.symm, b3.trans a3.symm, by rw [b4, a4]; rfl⟩
  · rw [a2, a3]; unfold Asks; norm_num
  · rw [a2, a3]; unfold Asks; norm_num
  · rw [a2, a3, a4]; unfold Asks; rfl
  · have h2 := h1.2
    split at h2
    · rename_i W' r hW'
      exact ⟨W', r, hW', of_decide_eq_true h2⟩
    · cases h2

/-- **C109** fails with rounding: a call for one more time step can make none and return 0, so that the loop
`while W.check_simulation_ongoing(): W.exec_simulation(duration_t2=W.DELTAT)` never ends. -/
theorem C109_stuck_false : ∃ W : Wrap, WReach NotNumber W ∧ FlOK W.c.g.fl ∧ W.finalized = true ∧ W.T = 3 ∧
    W.tsize = 71 ∧ ∀ n, ∃ V, Repeats (fun _ V => V.seqSched) (.duration2 W.c.g.deltaT) n W V ∧ V.T = 3 ∧
      V.ongoing = true := by
  have hn : ∀ c ∈ wRoad ++ [WCmd.vehicle 0 0 2 none, .exec (.untilT (14/5))], c.Named NotNumber := by
    intro c hc
    rcases List.mem_append.1 hc with h | h
    · exact wRoad_named _ c h
    · simp only [List.mem_cons, List.not_mem_nil, or_false] at h
      rcases h with rfl | rfl <;> trivial
  have h : wObs (wRun (wNew coarse 100 1 (7/5)) (wRoad ++ [.vehicle 0 0 2 none, .exec (.untilT (14/5))]))
      (fun W => decide (W.finalized = true ∧ W.c.g.deltaT = 7/5 ∧ W.T = 3 ∧ W.tsize = 71)) = true := by
    decide +kernel
  obtain ⟨W, e, h1⟩ := wObs_ok h
  obtain ⟨a1, a2, a3, a4⟩ := of_decide_eq_true h1
  have r := wRun_reach (wNew_reach NotNumber coarse 100 1 (7/5)) hn e
  have hfl : W.c.g.fl = coarse := (wRun_fl (wNew_reach _ _ _ _ _) hn e).trans rfl
  refine ⟨W, r, by rw [hfl]; exact coarse_ok, a1, a3, a4, fun n => ?_⟩
  -- each call leaves the engine as it is
  have key : ∀ n, ∃ V, Repeats (fun _ V => V.seqSched) (.duration2 W.c.g.deltaT) n W V ∧ WInv V ∧
      V.finalized = true ∧ V.T = 3 ∧ V.tsize = 71 ∧ V.c = W.c := by
    intro n
    induction n with
    | zero => exact ⟨W, .zero W, r.inv, a1, a3, a4, rfl⟩
    | succ n ih =>
      obtain ⟨V, h1, h2, h3, h4, h5, h6⟩ := ih
      have hend : V.endTs (.duration2 W.c.g.deltaT) = 3 := by
        unfold Wrap.endTs
        rw [h6, hfl, a2, h4, h5]; decide +kernel
      have hcpp : V.cppEnd 3 = 3 := by
        unfold Wrap.cppEnd
        rw [h6, hfl, a2]; decide +kernel
      have hm : V.c.mainLoop (fun _ V => V.seqSched) 3 = (V.c, none) := by
        unfold CWorld.mainLoop
        rw [← h2.T, h4, show min 3 V.c.g.totalSteps - 3 = 0 by omega]
        rfl
      cases hr : Wrap.run (fun _ V => V.seqSched) V 3 with
      | error x =>
        unfold Wrap.run at hr
        rw [hcpp, hm] at hr
        simp only at hr
        split at hr <;> cases hr
      | ok p =>
        obtain ⟨V', r'⟩ := p
        obtain ⟨j, hm', c1, c2, c3, c4, c5, c6⟩ := h2.run h3 seqSched_valid hr
        have ec : V'.c = V.c := by
          rw [hcpp, hm] at hm'
          exact (Prod.mk.inj hm').1.symm
        have eT : V'.T = 3 := by rw [j.T, ec, ← h2.T, h4]
        have er : r' = 0 := by rw [c5, c2, h5, eT]; rfl
        subst er
        refine ⟨V', .succ h1 ?_, j, c1, eT, c2.trans h5, ec.trans h6⟩
        rw [exec_fin h3, hend, if_neg (by omega), if_neg (by omega), hr]
  obtain ⟨V, h1, h2, h3, h4, h5, h6⟩ := key n
  refine ⟨V, h1, h4, ?_⟩
  unfold Wrap.ongoing
  rw [h3, h4, h5]; rfl

end UX
