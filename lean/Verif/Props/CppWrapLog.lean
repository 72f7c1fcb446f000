import Verif.Props.CppWrap
import Verif.Props.CppLog
import Verif.Props.CppLife
import Verif.Props.CppRows

/-!
# C110: vehicle logs of the C++ engine as seen from Python
-/

namespace UX
open Cpp Cpp.CWorld Cpp.Spec

theorem Cpp.log_new {W : Wrap} {v : ℕ} (hc : W.cache v = none) (hv : v < W.names.length) :
    W.log v = some (Wrap.buildLog W.c v) := by
  unfold Wrap.log Wrap.readLogs
  simp only [hc, if_pos hv]

theorem Cpp.rows_eq (c : CWorld) (v : ℕ) : (Wrap.buildLog c v).rows.map (fun e => (e.t, e.state)) =
    (List.range (c.nMissing v)).map (fun k : ℕ => (c.g.fl (k * c.g.deltaT), VState.home)) ++ readLog c v := by
  unfold Wrap.buildLog readLog
  simp only [List.map_append, List.map_map]
  refine congrArg₂ _ (List.map_congr_left fun k _ => rfl) ?_
  apply List.ext_getElem?
  intro i
  simp only [List.getElem?_map, List.getElem?_mapIdx, List.getElem?_range']
  by_cases hi : i < (c.veh v).log.length
  · rw [List.getElem?_eq_getElem hi, List.getElem?_eq_getElem (by simpa using hi)]
    simp
  · rw [List.getElem?_eq_none (not_lt.1 hi), List.getElem?_eq_none (by simpa using hi)]
    rfl

theorem Cpp.missing_exact {c : CWorld} (hfl : c.g.fl = id) (hdt : 0 < c.g.deltaT) {v f : ℕ} {s : VState}
    {t : List (ℕ × VState)} (hr : Reads c v ((f, s) :: t)) : c.nMissing v = f := by
  unfold Reads readLog at hr
  have hlen : (c.veh v).log.length = t.length + 1 := by
    have := congrArg List.length hr
    simpa using this
  rw [hlen, List.range_succ_eq_map] at hr
  simp only [List.map_cons, List.cons.injEq, Prod.mk.injEq] at hr
  have h0 := hr.1.1
  unfold clockAt at h0
  rw [hfl] at h0
  simp only [id] at h0
  unfold CWorld.nMissing
  rw [h0, hfl]
  simp only [id]
  have hne : (c.veh v).log ≠ [] := by
    intro e; rw [e] at hlen; simp at hlen
  by_cases hf : f = 0
  · subst hf; simp
  · have hp : (0 : ℚ) < f * c.g.deltaT := mul_pos (by exact_mod_cast Nat.pos_of_ne_zero hf) hdt
    rw [if_pos ⟨hne, hp⟩, mul_div_cancel_right₀ _ hdt.ne']
    unfold pyInt
    rw [if_pos (by positivity), Int.floor_natCast, Int.toNat_natCast]

theorem Cpp.shows_life {c : CWorld} (hfl : c.g.fl = id) (hdt : 0 < c.g.deltaT) {v f w r : ℕ}
    {t : List (ℕ × VState)} (hr : Reads c v (life f w r ++ t)) :
    Shows c (Wrap.buildLog c v) (wholeLife f w r ++ t) := by
  have hm : c.nMissing v = f := missing_exact (s := .home) hfl hdt hr
  unfold Shows
  rw [rows_eq, hm, hr]
  unfold life wholeLife clockAt
  rw [hfl]
  simp [List.range_succ]

/-- **C110.** In exact arithmetic the log of a vehicle that is read for the first time shows its life, as it is known to
the engine at this moment. -/
theorem C110_life {W : Wrap} (h : WReach NotNumber W) (hfl : W.c.g.fl = id) (hdt : 0 < W.c.g.deltaT)
    (hl : W.c.g.logMode = true) {v : ℕ} (hv : v < W.c.g.nVehs) (hc : W.cache v = none) :
    ∃ L, W.log v = some L ∧ ShowsLife W.c v L := by
  have i := h.inv
  refine ⟨_, log_new hc (by rw [i.len]; exact hv), ?_⟩
  have hm : Monotone W.c.g.fl := by rw [hfl]; exact monotone_id
  have ht := C89_life i.clean hl hm hdt.le hv
  unfold TellsLife at ht
  unfold ShowsLife
  split at ht
  · rename_i hs
    rw [hs]
    have e : (W.c.veh v).log = [] := by
      unfold Reads readLog at ht
      simpa using ht
    show (Wrap.buildLog W.c v).rows = []
    unfold Wrap.buildLog CWorld.nMissing
    simp [e]
  · rename_i hs
    rw [hs]
    obtain ⟨f, w, h1, h2, h3⟩ := ht
    have := shows_life hfl hdt (t := []) (by simpa using h1)
    exact ⟨f, w, by simpa using this, h2⟩
  · rename_i hs
    rw [hs]
    obtain ⟨f, w, r, h1, h2, h3, h4⟩ := ht
    have := shows_life hfl hdt (t := []) (by simpa using h1)
    exact ⟨f, w, r, by simpa using this, h2, h3⟩
  · rename_i s hs1 hs2 hs3
    obtain ⟨f, w, r, t, h1, h2, h3, h4⟩ := ht
    have key : ∃ f w r t, Shows W.c (Wrap.buildLog W.c v) (wholeLife f w r ++ [(t, (W.c.veh v).state)]) ∧
        (t = f + w + r ∨ t = f + 1 + w + r) ∧ t < W.c.g.timestep :=
      ⟨f, w, r, t, shows_life hfl hdt h1, h2, h3⟩
    cases e : (W.c.veh v).state
    · exact absurd e hs1
    · exact absurd e hs2
    · exact absurd e hs3
    · rw [e] at key; exact key
    · rw [e] at key; exact key

/-- **C110.** An entry of such a log names a link exactly if it is one of a time step on the road; otherwise position
and speed are -1. -/
theorem C110_rows {W : Wrap} (h : WReach NotNumber W) (hm : Monotone W.c.g.fl) (hdt : 0 ≤ W.c.g.deltaT)
    (hl : W.c.g.logMode = true) {v : ℕ} (hv : v < W.c.g.nVehs) (hc : W.cache v = none) :
    ∃ L, W.log v = some L ∧ ∀ e ∈ L.rows, ((∃ l, e.link = some l) ↔ e.state = .run) ∧
      (e.state ≠ .run → e.x = -1 ∧ e.v = -1) := by
  have i := h.inv
  refine ⟨_, log_new hc (by rw [i.len]; exact hv), ?_⟩
  have ht := C89_links i.clean hl hm hdt hv
  intro e he
  unfold Wrap.buildLog at he
  simp only [List.mem_append, List.mem_map, List.mem_range] at he
  rcases he with ⟨k, _, rfl⟩ | he
  · simp
  · obtain ⟨j, hj, rfl⟩ := List.mem_mapIdx.1 he
    refine ⟨ht j _ (List.getElem?_eq_getElem hj), fun hne => ?_⟩
    simp only at hne
    exact ⟨if_neg hne, if_neg hne⟩

/-- The entries before the first one of the engine have no link. -/
theorem Cpp.row_cases {c : CWorld} {v i : ℕ} {e : WRow} (h : (Wrap.buildLog c v).rows[i]? = some e) :
    (i < c.nMissing v ∧ e.link = none) ∨ ∃ f, c.nMissing v ≤ i ∧ (c.veh v).log[i - c.nMissing v]? = some f ∧
      e.link = f.link ∧ e.state = c.logStateAt v (i - c.nMissing v) ∧ (e.state = .run → e.x = f.x ∧ e.v = f.v) := by
  unfold Wrap.buildLog at h
  dsimp only at h
  by_cases hi : i < c.nMissing v
  · rw [List.getElem?_append_left (by simpa using hi), List.getElem?_map, List.getElem?_range hi] at h
    simp only [Option.map_some, Option.some.injEq] at h
    exact Or.inl ⟨hi, by rw [← h]⟩
  · rw [List.getElem?_append_right (by simpa using hi), List.length_map, List.length_range, List.getElem?_mapIdx,
      Option.map_eq_some_iff] at h
    obtain ⟨f, h1, h2⟩ := h
    refine Or.inr ⟨f, not_lt.1 hi, h1, by rw [← h2], by rw [← h2], fun hr => ?_⟩
    subst h2
    dsimp only at hr
    simp only [hr, if_true, and_self]

/-- **C110.** In exact arithmetic position and speed of such a log are those of a possible journey from the origin
on. -/
theorem C110_motion {W : Wrap} (h : WReach NotNumber W) (hfl : W.c.g.fl = id) (hdt : 0 < W.c.g.deltaT)
    (hl : W.c.g.logMode = true) {v : ℕ} (hv : v < W.c.g.nVehs) (hc : W.cache v = none) :
    ∃ L, W.log v = some L ∧ ∀ i e e', L.rows[i]? = some e → L.rows[i + 1]? = some e' → Moves W.c v e e' := by
  have i := h.inv
  refine ⟨_, log_new hc (by rw [i.len]; exact hv), fun k e e' he he' => ?_⟩
  have ht := C89_links i.clean hl (by rw [hfl]; exact monotone_id) hdt.le hv
  have hj := C90_journey i.clean hl hfl hdt hv
  have hlife := C89_life i.clean hl (by rw [hfl]; exact monotone_id) hdt.le hv
  have hx : ∀ (j : ℕ) (f : CLog), (W.c.veh v).log[j]? = some f → ∀ l, f.link = some l → W.c.logStateAt v j = .run :=
    fun j f hf l hl => (ht j f hf).1 ⟨l, hl⟩
  rcases row_cases he' with ⟨_, e1⟩ | ⟨f', a1, a2, a3, a4, a5⟩
  · unfold Moves; rw [e1]; split <;> trivial
  · cases hm : f'.link with
    | none => unfold Moves; rw [a3, hm]; split <;> trivial
    | some m =>
      have hr' : e'.state = .run := by rw [a4]; exact hx _ _ a2 m hm
      obtain ⟨x1, x2⟩ := a5 hr'
      rcases row_cases he with ⟨b0, e1⟩ | ⟨f, b1, b2, b3, b4, b5⟩
      · -- the first entry of the engine is at home
        exfalso
        have e0 : k + 1 - W.c.nMissing v = 0 := by omega
        rw [e0] at a2 a4
        have h0 : W.c.logStateAt v 0 = .home := by
          have key : ∀ (g : ℕ) (t : List (ℕ × VState)), Reads W.c v ((g, .home) :: t) → W.c.logStateAt v 0 = .home := by
            intro g t hr
            unfold Reads readLog at hr
            have hlen : (W.c.veh v).log.length = t.length + 1 := by
              have := congrArg List.length hr
              simpa using this
            rw [hlen, List.range_succ_eq_map] at hr
            simp only [List.map_cons, List.cons.injEq, Prod.mk.injEq] at hr
            exact hr.1.2
          unfold TellsLife at hlife
          split at hlife
          · unfold Reads readLog at hlife
            have : (W.c.veh v).log = [] := by simpa using hlife
            rw [this] at a2; simp at a2
          · obtain ⟨g, w, r1, _⟩ := hlife; exact key _ _ r1
          · obtain ⟨g, w, r, r1, _⟩ := hlife; exact key _ _ r1
          · obtain ⟨g, w, r, t, r1, _⟩ := hlife; exact key _ _ r1
        rw [a4, h0] at hr'
        cases hr'
      · have hs := hj _ f f' b2 (by rw [show k - W.c.nMissing v + 1 = k + 1 - W.c.nMissing v by omega]; exact a2)
        unfold RowStep at hs
        unfold Moves
        rw [a3, b3, x1, x2]
        rw [hm] at hs ⊢
        cases hn : f.link with
        | none => rw [hn] at hs; exact hs
        | some l =>
          rw [hn] at hs
          have hr : e.state = .run := by rw [b4]; exact hx _ _ b2 l hn
          rw [(b5 hr).1]
          exact hs

/-- **C110.** `log_t_link` of such a log starts with the departure; if the trip ended, the last entry is the arrival. -/
theorem C110_places {W : Wrap} (h : WReach NotNumber W) (hm : Monotone W.c.g.fl) (hz : W.c.g.fl 0 = 0)
    (hdt : 0 ≤ W.c.g.deltaT) {v : ℕ} (hv : v < W.c.g.nVehs) (hc : W.cache v = none) :
    ∃ L ps, W.log v = some L ∧ L.places = ((W.c.veh v).depTime, .home) ::
      (ps.map (fun p : ℕ × ℚ => (p.2, WPlace.link p.1)) ++
        if (W.c.veh v).state = .ended then [((W.c.veh v).arrivalTime, .done)] else []) ∧ ps = W.c.enterLog v := by
  have i := h.inv
  refine ⟨_, _, log_new hc (by rw [i.len]; exact hv), ?_, rfl⟩
  unfold Wrap.buildLog
  simp only
  split
  · rename_i he
    obtain ⟨t, _, h2, _⟩ := (C83_times i.clean.toReach hm hdt v).ended he
    have : 0 ≤ (W.c.veh v).arrivalTime := by
      rw [h2, ← hz]; exact hm (by positivity)
    rw [if_pos this]
  · rfl

/-- **C110.** After the call that makes the last time step, the log of every vehicle that was not read before is the
one of the whole simulation. -/
theorem C110_final {W W' : Wrap} (h : WReach NotNumber W) (hf : W.finalized = true)
    {sched : ℕ → CWorld → Sched} (hs : ∀ t V, (sched t V).Valid V) {u : Wrap.Until}
    (he : W.exec sched u = .ok (W', 1)) {v : ℕ} (hv : v < W.c.g.nVehs) (hc : W.cache v = none) :
    W'.cache v = some (Wrap.buildLog W'.c v) := by
  have i := h.inv
  have key : ∀ S : Wrap, S.cache = W.cache → S.names = W.names → S.readLogs.cache v = some (Wrap.buildLog S.c v) := by
    intro S h1 h2
    unfold Wrap.readLogs
    simp only [h1, hc, h2, i.len, hv, if_true]
  unfold Wrap.exec at he
  simp only [hf, if_true] at he
  split at he
  · cases he; exact key W rfl rfl
  · split at he
    · cases he
    · obtain ⟨_, _, _, _, _, _, k5, _, k7⟩ := i.run hf hs he
      have hle : W'.tsize ≤ W'.T := by
        by_contra hn
        rw [if_neg hn] at k5; cases k5
      obtain ⟨S, rfl, h1, h2⟩ := k7 hle
      exact key S h1 h2

/-- **C110.** A log that has been read once stays what it is, whatever happens then. -/
theorem C110_frozen {OK : String → Prop} {W W' : Wrap} (s : WStep OK W W') {v : ℕ} (hv : v < W.names.length) {L : WLog}
    (hc : W.cache v = some L) : W'.cache v = some L := by
  cases s with
  | node c ints off cap lanes rng fuel hf h => exact hc
  | link src dst a hf hs hd hl => exact hc
  | demand c orig dest t0 t1 flow fuel ho hd h => exact (register_cache { W with c := c } hv).trans hc
  | vehicle _ t orig dest prefer name fuel ho hd hn h =>
    unfold Wrap.addVehicle at h
    split at h
    · simp at h
    · rw [Option.map_eq_some_iff] at h
      obtain ⟨c, _, h2⟩ := h
      have e := (register_cache { W with c := c } hv).trans hc
      unfold Wrap.named at h2
      simp only [] at h2
      split at h2
      · cases h2
      · split at h2 <;> (cases h2; exact e)
  | edit e => exact hc
  | finalize t hf => exact hc
  | exec _ u r sched hs h => exact exec_cache h hc
  | logs => exact readLogs_cache hc

/-- A concrete case: logs read for the first time at time step 7. -/
theorem C110_case : ∃ W L, WReach NotNumber W ∧ W.c.g.fl = id ∧ W.finalized = true ∧ W.c.g.deltaT = 5 ∧
    W.c.g.logMode = true ∧ W.c.g.nVehs = 3 ∧ W.T = 7 ∧ (∀ v, v < 3 → W.cache v = none) ∧ W.log 1 = some L ∧
    (L.rows.map (fun e => (e.t, e.state, e.link))) = [(0, .home, none), (5, .home, none), (10, .run, some 0),
      (15, .run, some 0), (20, .run, some 0), (25, .run, some 0), (30, .run, some 1)] ∧
    L.places = [(5, .home), (10, .link 0), (30, .link 1)] := by
  have h : wObs (wRun (wNew id 100 5 1) wDemo) (fun W => decide (W.finalized = true ∧ W.c.g.deltaT = 5 ∧
      W.c.g.logMode = true ∧ W.c.g.nVehs = 3 ∧ W.T = 7 ∧
        ((List.range 3).all (fun v => (W.cache v).isNone)) = true) &&
      (match W.log 1 with
        | some L => decide ((L.rows.map (fun e => (e.t, e.state, e.link))) = [(0, .home, none), (5, .home, none),
            (10, .run, some 0), (15, .run, some 0), (20, .run, some 0), (25, .run, some 0), (30, .run, some 1)] ∧
            L.places = [(5, .home), (10, .link 0), (30, .link 1)])
        | none => false)) = true := by decide +kernel
  obtain ⟨W, e, h1⟩ := wObs_ok h
  have r := wRun_reach (wNew_reach NotNumber id 100 5 1) wDemo_named e
  rw [Bool.and_eq_true] at h1
  obtain ⟨a1, a2, a3, a4, a5, a6⟩ := of_decide_eq_true h1.1
  have h2 := h1.2
  split at h2
  · rename_i L hL
    exact ⟨W, L, r, (wRun_fl (wNew_reach _ _ _ _ _) wDemo_named e).trans rfl, a1, a2, a3, a4, a5,
      fun v hv => by simpa using List.all_eq_true.1 a6 v (List.mem_range.2 hv), hL,
      of_decide_eq_true h2⟩
  · cases h2

/-- **C110** fails for a log that is read before the end: at the end of the simulation the vehicle has arrived, but its
log still ends where it was read. -/
theorem C110_stale_false : ∃ W L, WReach NotNumber W ∧ W.c.g.fl = id ∧ (W.T : ℤ) = W.tsize ∧
    (W.c.veh 1).state = .ended ∧ W.log 1 = some L ∧ L ≠ Wrap.buildLog W.c 1 ∧ L.rows.length = 7 ∧
    (Wrap.buildLog W.c 1).rows.length = 10 ∧ ∀ e ∈ L.rows, e.state ≠ .ended := by
  have hn : ∀ c ∈ wDemo ++ [WCmd.logs, .exec .toEnd], c.Named NotNumber := by
    intro c hc
    rcases List.mem_append.1 hc with h | h
    · exact wDemo_named c h
    · simp only [List.mem_cons, List.not_mem_nil, or_false] at h
      rcases h with rfl | rfl <;> trivial
  have h : wObs (wRun (wNew id 100 5 1) (wDemo ++ [.logs, .exec .toEnd])) (fun W =>
      decide ((W.T : ℤ) = W.tsize ∧ (W.c.veh 1).state = .ended ∧ (Wrap.buildLog W.c 1).rows.length = 10) &&
      (match W.log 1 with
        | some L => decide (L ≠ Wrap.buildLog W.c 1 ∧ L.rows.length = 7 ∧ ∀ e ∈ L.rows, e.state ≠ .ended)
        | none => false)) = true := by decide +kernel
  obtain ⟨W, e, h1⟩ := wObs_ok h
  have r := wRun_reach (wNew_reach NotNumber id 100 5 1) hn e
  rw [Bool.and_eq_true] at h1
  obtain ⟨a1, a2, a3⟩ := of_decide_eq_true h1.1
  have h2 := h1.2
  split at h2
  · rename_i L hL
    obtain ⟨b1, b2, b3⟩ := of_decide_eq_true h2
    exact ⟨W, L, r, (wRun_fl (wNew_reach _ _ _ _ _) hn e).trans rfl, a1, a2, hL, b1, b2, a3, b3⟩
  · cases h2

end UX
