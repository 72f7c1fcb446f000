import Verif.Proofs.SafeStep
import Verif.Proofs.Quiet
import Verif.Props.Demo
import Verif.Props.RouteChoice

/-!
# C34, C07: a valid scenario never crashes
-/

namespace UX
open World

theorem PlainCall.api {W W' : World} (h : PlainCall W W') : ApiStep W W' := by
  cases h with
  | addNode h1 h2 => exact .addNode h1 h2
  | addLink h1 _ _ h2 => exact .addLink h1 h2
  | addVehicle _ _ _ h => exact .addVehicle h
  | finalize h => exact .finalize h
  | tick h1 h2 h3 => exact .tick h1 h2 h3
  | endExec h => exact .endExec h
  | overrideSignal h => exact .overrideSignal h
  | overrideSignalGroups h _ _ h2 => exact .overrideSignalGroups h h2
  | setLinksPrefer h h2 => exact .setLinksPrefer h h2
  | addDest h1 h2 _ h3 => exact .addDest h1 h2 h3
  | addTripRequest _ h => exact .addTripRequest h
  | assignTaxi h1 _ h2 => exact .assignTaxi h1 h2
  | setCapOut h => exact .setCapOut h
  | setCapIn h => exact .setCapIn h
  | changeFreeFlowSpeed h _ h2 => exact .changeFreeFlowSpeed h h2
  | changeJamDensity h1 h2 h3 => exact .changeJamDensity h1 h2 h3
  | reseed => exact .reseed

theorem addDest_pref {W W' : World} {v d k} (h : W.addDest v d k = .ok W') :
    W.V.mode v = .taxi ∧ ∀ u, u ≠ v → W'.V.pref u = W.V.pref u := by
  unfold addDest at h
  split at h
  · simp at h
  · rename_i hm
    refine ⟨hm, ?_⟩
    split at h
    · unfold routePrefUpdate at h
      repeat' split at h
      all_goals first
        | (simp at h; done)
        | (simp only [Except.ok.injEq] at h; subst h; intro u hu; exact upd_ne _ _ hu)
    · simp only [Except.ok.injEq] at h; subst h; intro u _; rfl

/-- Only time steps, new vehicles and new destinations of taxis touch preferences. -/
theorem ApiStep.pref {W W' : World} (hs : ApiStep W W') :
    (W.finalized = true ∧ W.T < W.tsize ∧ W.tick = .ok W') ∨ (∃ a, W.addVehicle a = .ok W') ∨
    (W'.nVeh = W.nVeh ∧ W'.V.principle = W.V.principle ∧
      ∀ v, W.V.mode v = .single → W'.V.pref v = W.V.pref v) := by
  have hp : Param W W' → W'.nVeh = W.nVeh ∧ W'.V.principle = W.V.principle ∧
      ∀ v, W.V.mode v = .single → W'.V.pref v = W.V.pref v := by
    rintro ⟨_, _, _, _, _, _, _, _, _, _, _, _, _, _, _, _, _, _, _, rfl, -⟩
    exact ⟨rfl, rfl, fun _ _ => rfl⟩
  have had : ∀ {W1 : World} {v d k}, W.addDest v d k = .ok W1 → W1.nVeh = W.nVeh ∧
      W1.V.principle = W.V.principle ∧ ∀ v, W.V.mode v = .single → W1.V.pref v = W.V.pref v := by
    intro W1 v d k h
    obtain ⟨h1, h2⟩ := addDest_pref h
    refine ⟨?_, ?_, fun u hu => h2 u (by rintro rfl; rw [h1] at hu; cases hu)⟩
    · obtain ⟨_, _, _, _, _, _, _, rfl, -⟩ := addDest_soft h; rfl
    · obtain ⟨_, _, _, _, _, _, _, rfl, -⟩ := addDest_soft h; rfl
  rcases hs.kinds with ⟨hf, a, ph, t, soff, hn, rfl⟩ | ⟨hf, a, ha⟩ | ⟨a, ha⟩ | ⟨hf, tm, rfl⟩ |
      ⟨hf, hT, ht⟩ | hk | hk
  · exact .inr (.inr ⟨rfl, rfl, fun _ _ => rfl⟩)
  · obtain ⟨s, e, nm, k, p, -, -, -, -, -, -, rfl⟩ := addLink_ok ha
    exact .inr (.inr ⟨rfl, rfl, fun _ _ => rfl⟩)
  · exact .inr (.inl ⟨a, ha⟩)
  · obtain ⟨_, _, _, _, _, h⟩ := finalize_frame W tm
    rw [h]
    exact .inr (.inr ⟨rfl, rfl, fun _ _ => rfl⟩)
  · exact .inl ⟨hf, hT, ht⟩
  · cases hs with
    | addDest _ _ h => exact .inr (.inr (had h))
    | @assignTaxi _ v r _ h =>
      unfold World.assignTaxi at h
      split at h
      · simp at h
      · rw [bind_ok] at h
        obtain ⟨W1, h1, h⟩ := h
        simp only [pure_ok] at h
        subst h
        obtain ⟨b1, b2, b3⟩ := had h1
        exact .inr (.inr ⟨b1, b2, b3⟩)
    | addVehicle h => exact .inr (.inl ⟨_, h⟩)
    | tick h1 h2 h3 => exact .inl ⟨h1, h2, h3⟩
    | addNode _ h =>
      obtain ⟨_, _, _, _, _, rfl⟩ := addNode_ok h
      exact .inr (.inr ⟨rfl, rfl, fun _ _ => rfl⟩)
    | addLink _ h =>
      obtain ⟨s, e, nm, k, p, -, -, -, -, -, -, rfl⟩ := addLink_ok h
      exact .inr (.inr ⟨rfl, rfl, fun _ _ => rfl⟩)
    | finalize =>
      rename_i tm _
      obtain ⟨_, _, _, _, _, h⟩ := finalize_frame W tm
      rw [h]
      exact .inr (.inr ⟨rfl, rfl, fun _ _ => rfl⟩)
    | overrideSignalGroups _ h =>
      unfold World.overrideSignalGroups at h
      split at h
      · simp at h
      · split at h
        · simp at h
        · simp only [Except.ok.injEq] at h
          subst h
          exact .inr (.inr ⟨rfl, rfl, fun _ _ => rfl⟩)
    | enforceRoute _ h =>
      unfold World.enforceRoute at h
      rw [bind_ok] at h
      obtain ⟨r, _, h⟩ := h
      simp only [pure_ok] at h
      subst h
      exact .inr (.inr ⟨rfl, rfl, fun _ _ => rfl⟩)
    | setLinksPrefer _ h =>
      unfold World.setLinksPrefer at h
      rw [bind_ok] at h
      obtain ⟨r, _, h⟩ := h
      simp only [pure_ok] at h
      subst h
      exact .inr (.inr ⟨rfl, rfl, fun _ _ => rfl⟩)
    | setLinksAvoid _ h =>
      unfold World.setLinksAvoid at h
      rw [bind_ok] at h
      obtain ⟨r, _, h⟩ := h
      simp only [pure_ok] at h
      subst h
      exact .inr (.inr ⟨rfl, rfl, fun _ _ => rfl⟩)
    | addTripRequest h =>
      unfold World.addTripRequest at h
      rw [bind_ok] at h
      obtain ⟨_, _, h⟩ := h
      rw [bind_ok] at h
      obtain ⟨_, _, h⟩ := h
      simp only [pure_ok] at h
      subst h
      exact .inr (.inr ⟨rfl, rfl, fun _ _ => rfl⟩)
    | changeFreeFlowSpeed _ h =>
      unfold World.changeFreeFlowSpeed at h
      dsimp only at h
      repeat' split at h
      all_goals first
        | (simp at h; done)
        | (simp only [Except.ok.injEq] at h; subst h; exact .inr (.inr ⟨rfl, rfl, fun _ _ => rfl⟩))
    | changeJamDensity _ _ h =>
      unfold World.changeJamDensity at h
      dsimp only at h
      repeat' split at h
      all_goals first
        | (simp at h; done)
        | (simp only [Except.ok.injEq] at h; subst h; exact .inr (.inr ⟨rfl, rfl, fun _ _ => rfl⟩))
    | _ => exact .inr (.inr ⟨rfl, rfl, fun _ _ => rfl⟩)
  · exact .inr (.inr (hp hk))

/-- What a plain history provides beyond the present world. -/
structure Past (W : World) : Prop where
  inc : IncOK W
  own : ∀ v, v < W.nVeh → W.V.principle v = .heterogeneous → ∃ f, W.V.pref v = .dict f

theorem Reachable.any {OK : World → Prop} {W : World} (h : Reachable OK W) : Reachable Any W := by
  induction h with
  | new _ => exact .new trivial
  | next _ hs _ ih => exact .next ih hs trivial

theorem Reachable.ready {W : World} (h : Reachable Plain W) (hp : Past W) (hf : W.finalized = true) : Ready W := by
  have ho := h.ok
  refine ⟨h.inv.core hf, LInv.reach h.any, ?_, h.taxi, hf, ho, ⟨?_, ho.dict, hp.own⟩, hp.inc⟩
  · intro hT l hl he
    have := (CInv.reach h.any).tt l hl
    rw [he] at this
    simp at this; omega
  · intro k l
    exact (C30_range h.any ho.weight.1 ho.weight.2 ho.gradual k l).1

theorem Full.past {W : World} (h : Full W) : Past W := ⟨h.inc, h.prefs.own⟩

theorem Reachable.past {W : World} (h : Reachable Plain W) : Past W := by
  induction h with
  | new h => exact ⟨fun n v hv => (List.not_mem_nil hv).elim, fun v hv => (Nat.not_lt_zero v hv).elim⟩
  | @next W W' hr hs hok ih =>
    have hi := hr.inv
    have hS := hi.s
    have hP := hr.ok
    constructor
    · rcases hs.kinds with ⟨hf, a, ph, t, soff, hn, rfl⟩ | ⟨hf, a, ha⟩ | ⟨a, ha⟩ | ⟨hf, tm, rfl⟩ |
        ⟨hf, hT, ht⟩ | hk | hk
      · intro m u hu
        exfalso
        change u ∈ upd W.N.incoming W.nNodes [] m at hu
        rw [upd_apply] at hu
        split at hu
        · cases hu
        · exact (hS.inc_old m u hu).1 (hS.unfinal hf u)
      · obtain ⟨s, e, nm, k, p, -, -, -, -, -, -, rfl⟩ := addLink_ok ha
        intro m u hu
        exact absurd (hS.unfinal hf u) (hS.inc_old m u hu).1
      · obtain ⟨o, d, dep, pref, cache, lp, la, nm, -, -, -, -, -, -, -, -, rfl⟩ := addVehicle_ok ha
        intro m u hu
        have hne : u ≠ W.nVeh := by
          rintro rfl
          exact (hS.inc_old m _ hu).1 (hS.fresh _ le_rfl)
        obtain ⟨h1, h2, h3⟩ := ih.inc m u hu
        show upd W.V.rnl W.nVeh .unset u ≠ _ ∧ (_ → upd W.V.rnl W.nVeh .unset u = _) ∧
          (_ → upd W.V.link W.nVeh none u ≠ _)
        rw [upd_ne _ _ hne, upd_ne _ _ hne]
        exact ⟨h1, h2, h3⟩
      · obtain ⟨_, _, _, _, _, h⟩ := finalize_frame W tm
        rw [h]
        exact ih.inc
      · obtain ⟨W1, X, h1, rfl, h2⟩ := step_safe (hr.ready ih hf)
        obtain ⟨W2, h3, rfl⟩ := tick_ok ht
        rw [h1] at h3
        cases h3
        exact h2.inc
      · obtain ⟨_, _, _, _, _, _, _, rfl, -⟩ := hk; exact ih.inc
      · obtain ⟨_, _, _, _, _, _, _, _, _, _, _, _, _, _, _, _, _, _, _, rfl, -⟩ := hk; exact ih.inc
    · rcases hs.pref with ⟨hf, hT, ht⟩ | ⟨a, ha⟩ | ⟨e1, e2, e3⟩
      · obtain ⟨W1, X, h1, rfl, h2⟩ := step_safe (hr.ready ih hf)
        obtain ⟨W2, h3, rfl⟩ := tick_ok ht
        rw [h1] at h3
        cases h3
        exact h2.prefs.own
      · obtain ⟨o, d, dep, pref, cache, lp, la, nm, -, -, -, -, -, -, -, -, rfl⟩ := addVehicle_ok ha
        intro u hu hp
        change upd W.V.principle W.nVeh _ u = _ at hp
        change u < W.nVeh + 1 at hu
        show ∃ f, upd W.V.pref W.nVeh (.dict pref) u = _
        rw [upd_apply]
        split
        · exact ⟨_, rfl⟩
        · rename_i hne
          rw [upd_ne _ _ hne] at hp
          exact ih.own u (Nat.lt_of_le_of_ne (Nat.le_of_lt_succ hu) hne) hp
      · intro u hu hp
        rw [e1] at hu
        rw [e2] at hp
        rw [e3 u (hP.hetero u hu hp).1]
        exact ih.own u hu hp

/-- **C34.** In a world that has always been plain a time step raises nothing, and the world stays
plain. -/
theorem C34_tick_partial {W : World} (h : Reachable Plain W) (hf : W.finalized = true) (hT : W.T < W.tsize) :
    ∃ W', W.tick = .ok W' ∧ Reachable Plain W' := by
  obtain ⟨W1, X, h1, rfl, h2⟩ := step_safe (h.ready h.past hf)
  have ht : W.tick = .ok { X with time := X.now, T := X.T + 1 } := by
    unfold tick; rw [h1, ok_bind]; rfl
  refine ⟨_, ht, h.next (.tick hf hT ht) ?_⟩
  have hst : X.prefCache = W.prefCache ∧ X.nLinks = W.nLinks ∧ X.nVeh = W.nVeh := by
    obtain ⟨W6, hs, he⟩ := step_star (h.inv.core hf) h1
    have st := hs.static
    have e1 : ({ X with time := X.now } : World).prefCache = W6.prefCache := by rw [he]
    have e2 : ({ X with time := X.now } : World).nLinks = W6.nLinks := by rw [he]
    have e3 : ({ X with time := X.now } : World).nVeh = W6.nVeh := by rw [he]
    dsimp only at e1 e2 e3
    exact ⟨by rw [e1, st.prefCache], by rw [e2, st.nLinks], by rw [e3, st.nVeh]⟩
  have hS := h2.stab
  exact ⟨hS.speed, hS.merge, hS.signal, hS.weight, hS.gradual, hS.free, hS.hetero, h2.prefs.dict,
    h2.queues, hS.trip, by
      show ∀ k, X.prefCache = some k → k = X.nLinks ∧ 0 < X.nVeh
      rw [hst.1, hst.2.1, hst.2.2]; exact h.ok.cache⟩

theorem findPhase_lt {fl : ℚ → ℚ} {sg : List ℚ} : ∀ {fuel : ℕ} {off : ℚ} {i : ℕ} {r : ℕ × ℚ},
    findPhase fl sg fuel off i = .ok r → r.1 < sg.length := by
  intro fuel
  induction fuel with
  | zero => intro off i r h; simp [findPhase] at h
  | succ k ih =>
    intro off i r h
    simp only [findPhase] at h
    split at h
    · simp at h
    · rename_i g hg
      split at h
      · simp only [Except.ok.injEq] at h
        subst h
        exact (List.getElem?_eq_some_iff.mp hg).1
      · exact ih h

theorem initSignal_lt {fl : ℚ → ℚ} {fuel : ℕ} {a : NodeArgs} {ph : ℕ} {t so : ℚ}
    (h : initSignal fl fuel a = .ok (ph, t, so)) : ph < a.signal.length := by
  unfold initSignal at h
  dsimp only at h
  split at h
  · rename_i e
    simp only [Except.ok.injEq, Prod.mk.injEq] at h
    obtain ⟨rfl, -⟩ := h
    rw [e]; simp
  · split at h
    · rename_i i t' hp
      simp only [Except.ok.injEq, Prod.mk.injEq] at h
      obtain ⟨rfl, -⟩ := h
      exact findPhase_lt hp
    · simp at h

theorem linkParams_u {fl : ℚ → ℚ} {re : ℚ} {k : ℕ} {u kap : ℚ} {r} (h : linkParams fl re k u kap = .ok r) :
    u ≠ 0 := by
  unfold linkParams at h
  split at h
  · simp at h
  · dsimp only at h
    split at h
    · simp at h
    · split at h
      · simp at h
      · rename_i h1
        exact fun h2 => h1 (.inr h2)

theorem Plain.override {W : World} (h : Plain W) {n sg off reset} (hs : sg ≠ [])
    (hr : reset = true ∨ W.N.phase n < sg.length) : Plain (W.overrideSignal n sg off reset) := by
  obtain ⟨a1, a2, a3, a4, a5, a6, a7, a8, a9, a10, a11⟩ := h
  refine ⟨a1, a2, ?_, a4, a5, a6, a7, a8, a9, a10, a11⟩
  intro m hm
  show (if reset then upd W.N.phase n 0 else W.N.phase) m < (upd W.N.signal n sg m).length
  by_cases e : m = n
  · subst e
    rw [upd_same]
    cases reset with
    | true =>
      rw [if_pos rfl, upd_same]; exact List.length_pos_iff.2 hs
    | false =>
      rw [if_neg (by decide)]
      exact hr.resolve_left (by decide)
  · rw [upd_ne _ _ e]
    have : (if reset then upd W.N.phase n 0 else W.N.phase) m = W.N.phase m := by
      split
      · exact upd_ne _ _ e
      · rfl
    rw [this]; exact a3 m hm

theorem Plain.dest {W W' : World} (h : Plain W) {v : VehId} {d k} (hv : v < W.nVeh)
    (hd : W.V.dest v = none) (ha : W.addDest v d k = .ok W') : Plain W' := by
  unfold addDest at ha
  split at ha
  · simp at ha
  · rename_i hm
    rw [hd] at ha
    dsimp only at ha
    unfold routePrefUpdate at ha
    have hp : W.V.principle v = .homogeneous := by
      cases hp : W.V.principle v with
      | homogeneous => rfl
      | heterogeneous => have := (h.hetero v hv hp).1; rw [hm] at this; cases this
    dsimp only at ha
    rw [hp] at ha
    dsimp only at ha
    rw [upd_same] at ha
    dsimp only at ha
    split at ha
    · simp only [Except.ok.injEq] at ha
      subst ha
      obtain ⟨a1, a2, a3, a4, a5, a6, a7, a8, a9, a10, a11⟩ := h
      refine ⟨a1, a2, a3, a4, a5, a6, ?_, ?_, a9, a10, a11⟩
      · intro u hu hpu
        refine ⟨(a7 u hu hpu).1, ?_⟩
        show upd W.V.dest v (some d) u ≠ none
        rw [upd_apply]; split
        · simp
        · exact (a7 u hu hpu).2
      · intro u hu f hf
        change upd W.V.pref v (.duo d) u = _ at hf
        rw [upd_apply] at hf
        split at hf
        · cases hf
        · exact a8 u hu f hf
    · simp at ha

/-- Allowed calls keep a world plain. -/
theorem PlainCall.plain {W W' : World} (hr : Reachable Plain W) (hc : PlainCall W W') : Plain W' := by
  have h := hr.ok
  cases hc with
  | @addNode _ fuel a hf ha =>
    obtain ⟨ph, t, soff, hi, -, rfl⟩ := addNode_ok ha
    have hph := initSignal_lt hi
    obtain ⟨a1, a2, a3, a4, a5, a6, a7, a8, a9, a10, a11⟩ := h
    refine ⟨a1, a2, ?_, a4, a5, a6, a7, a8, a9, a10, a11⟩
    intro m hm
    change m < W.nNodes + 1 at hm
    show upd W.N.phase W.nNodes ph m < (upd W.N.signal W.nNodes a.signal m).length
    by_cases e : m = W.nNodes
    · subst e; rw [upd_same, upd_same]; exact hph
    · rw [upd_ne _ _ e, upd_ne _ _ e]
      exact a3 m (Nat.lt_of_le_of_ne (Nat.le_of_lt_succ hm) e)
  | @addLink _ a hf hv hm ha =>
    obtain ⟨s, e, nm, k, p, -, -, -, hp, -, -, rfl⟩ := addLink_ok ha
    have hu := linkParams_u hp
    obtain ⟨a1, a2, a3, a4, a5, a6, a7, a8, a9, a10, a11⟩ := h
    refine ⟨?_, ?_, a3, a4, a5, a6, a7, ?_, a9, a10, ?_⟩
    · intro l hl
      show upd W.L.u W.nLinks a.u l ≠ 0
      rw [upd_apply]; split
      · exact hu
      · rename_i e; exact a1 l (Nat.lt_of_le_of_ne (Nat.le_of_lt_succ hl) e)
    · intro l hl
      show 0 ≤ upd W.L.mergePriority W.nLinks a.mergePriority l
      rw [upd_apply]; split
      · exact hm
      · rename_i e; exact a2 l (Nat.lt_of_le_of_ne (Nat.le_of_lt_succ hl) e)
    · intro v hv'
      change v < W.nVeh at hv'
      rw [hv] at hv'; exact (Nat.not_lt_zero v hv').elim
    · intro k hk
      have := (a11 k hk).2
      rw [hv] at this; exact (lt_irrefl _ this).elim
  | @addVehicle _ a hla hrp hpr ha =>
    obtain ⟨o, d, dep, pref, cache, lp, la, nm, -, hd, -, hpc, -, hav, -, -, rfl⟩ := addVehicle_ok ha
    rw [hla] at hav
    cases hav
    obtain ⟨a1, a2, a3, a4, a5, a6, a7, a8, a9, a10, a11⟩ := h
    have hcache : pref = zeroDict W.nLinks ∧ cache = some W.nLinks := by
      rw [hrp] at hpc
      dsimp only at hpc
      cases hk : W.prefCache with
      | none => rw [hk] at hpc; cases hpc; exact ⟨rfl, rfl⟩
      | some k =>
        rw [hk] at hpc; cases hpc
        rw [(a11 k hk).1]; exact ⟨rfl, rfl⟩
    obtain ⟨rfl, rfl⟩ := hcache
    have hlt : ∀ u, u < W.nVeh + 1 → u ≠ W.nVeh → u < W.nVeh := fun u h1 h2 =>
      Nat.lt_of_le_of_ne (Nat.le_of_lt_succ h1) h2
    refine ⟨a1, a2, a3, a4, a5, ?_, ?_, ?_, ?_, a10, ?_⟩
    · intro u hu
      show upd W.V.specRoute W.nVeh none u = none ∧ upd W.V.linksAvoid W.nVeh [] u = []
      by_cases e : u = W.nVeh
      · subst e; rw [upd_same, upd_same]; exact ⟨rfl, rfl⟩
      · rw [upd_ne _ _ e, upd_ne _ _ e]; exact a6 u (hlt u hu e)
    · intro u hu hp
      change upd W.V.principle W.nVeh _ u = _ at hp
      show upd W.V.mode W.nVeh a.mode u = _ ∧ upd W.V.dest W.nVeh d u ≠ none
      by_cases e : u = W.nVeh
      · subst e
        rw [upd_same] at hp ⊢
        rw [upd_same]
        obtain ⟨b1, b2⟩ := hpr hp
        refine ⟨b1, ?_⟩
        cases hda : a.dest with
        | none => exact absurd hda b2
        | some r =>
          rw [hda] at hd
          obtain ⟨k, -, rfl⟩ := hd
          simp
      · rw [upd_ne _ _ e] at hp ⊢
        rw [upd_ne _ _ e]; exact a7 u (hlt u hu e) hp
    · intro u hu f hf l hl
      change upd W.V.pref W.nVeh (.dict (zeroDict W.nLinks)) u = _ at hf
      rw [upd_apply] at hf
      split at hf
      · cases hf
        exact ⟨0, zeroDict_some hl, le_rfl⟩
      · rename_i e; exact a8 u (hlt u hu e) f hf l hl
    · intro u hu hm
      change upd W.V.mode W.nVeh a.mode u = _ at hm
      show upd W.V.destList W.nVeh [] u = []
      rw [upd_apply] at hm ⊢
      split
      · rfl
      · rename_i e; rw [if_neg e] at hm; exact a9 u (hlt u hu e) hm
    · intro k hk
      cases hk
      exact ⟨rfl, Nat.succ_pos _⟩
  | finalize hf =>
    rename_i tm
    obtain ⟨_, _, _, _, _, e⟩ := finalize_frame W tm
    rw [e]
    obtain ⟨a1, a2, a3, a4, a5, a6, a7, a8, a9, a10, a11⟩ := h
    exact ⟨a1, a2, a3, a4, a5, a6, a7, a8, a9, a10, a11⟩
  | tick hf hT ht =>
    obtain ⟨W1, h1, h2⟩ := C34_tick_partial hr hf hT
    rw [ht] at h1; cases h1
    exact h2.ok
  | endExec hf =>
    obtain ⟨a1, a2, a3, a4, a5, a6, a7, a8, a9, a10, a11⟩ := h
    exact ⟨a1, a2, a3, a4, a5, a6, a7, a8, a9, a10, a11⟩
  | overrideSignal hn hs hr => exact h.override hs hr
  | overrideSignalGroups hn hs hr ha =>
    unfold World.overrideSignalGroups at ha
    split at ha
    · simp at ha
    · split at ha
      · simp at ha
      · simp only [Except.ok.injEq] at ha
        subst ha
        obtain ⟨a1, a2, a3, a4, a5, a6, a7, a8, a9, a10, a11⟩ := h.override hs hr
        exact ⟨a1, a2, a3, a4, a5, a6, a7, a8, a9, a10, a11⟩
  | setLinksPrefer hv ha =>
    unfold World.setLinksPrefer at ha
    rw [bind_ok] at ha
    obtain ⟨r, _, ha⟩ := ha
    simp only [pure_ok] at ha
    subst ha
    obtain ⟨a1, a2, a3, a4, a5, a6, a7, a8, a9, a10, a11⟩ := h
    exact ⟨a1, a2, a3, a4, a5, a6, a7, a8, a9, a10, a11⟩
  | addDest hv _ hd ha => exact h.dest hv hd ha
  | @addTripRequest _ o d t ho ha =>
    unfold World.addTripRequest at ha
    rw [bind_ok] at ha
    obtain ⟨o', ho', ha⟩ := ha
    rw [bind_ok] at ha
    obtain ⟨d', hd', ha⟩ := ha
    simp only [pure_ok] at ha
    subst ha
    obtain ⟨a1, a2, a3, a4, a5, a6, a7, a8, a9, a10, a11⟩ := h
    refine ⟨a1, a2, a3, a4, a5, a6, a7, a8, a9, ?_, a11⟩
    intro r hr
    change r < W.H.nReq + 1 at hr
    show upd W.H.orig W.H.nReq o' r ≠ upd W.H.dest W.H.nReq d' r
    by_cases e : r = W.H.nReq
    · subst e
      rw [upd_same, upd_same]
      rintro rfl
      exact ho _ ho' hd'
    · rw [upd_ne _ _ e, upd_ne _ _ e]
      exact a10 r (Nat.lt_of_le_of_ne (Nat.le_of_lt_succ hr) e)
  | @assignTaxi _ v r hv hd ha =>
    unfold World.assignTaxi at ha
    split at ha
    · simp at ha
    · rw [bind_ok] at ha
      obtain ⟨W1, h1, ha⟩ := ha
      simp only [pure_ok] at ha
      subst ha
      obtain ⟨a1, a2, a3, a4, a5, a6, a7, a8, a9, a10, a11⟩ := h.dest hv hd h1
      exact ⟨a1, a2, a3, a4, a5, a6, a7, a8, a9, a10, a11⟩
  | changeFreeFlowSpeed hl hq ha =>
    rename_i l q
    unfold World.changeFreeFlowSpeed at ha
    obtain ⟨a1, a2, a3, a4, a5, a6, a7, a8, a9, a10, a11⟩ := h
    dsimp only at ha
    repeat' split at ha
    all_goals first
      | (simp at ha; done)
      | (simp only [Except.ok.injEq] at ha; subst ha
         refine ⟨?_, a2, a3, a4, a5, a6, a7, a8, a9, a10, a11⟩
         first
           | exact a1
           | (intro m hm
              show upd W.L.u l q m ≠ 0
              rw [upd_apply]; split
              · exact hq
              · exact a1 m hm))
  | changeJamDensity hl _ ha =>
    unfold World.changeJamDensity at ha
    obtain ⟨a1, a2, a3, a4, a5, a6, a7, a8, a9, a10, a11⟩ := h
    dsimp only at ha
    repeat' split at ha
    all_goals first
      | (simp at ha; done)
      | (simp only [Except.ok.injEq] at ha; subst ha
         exact ⟨a1, a2, a3, a4, a5, a6, a7, a8, a9, a10, a11⟩)
  | _ =>
    obtain ⟨a1, a2, a3, a4, a5, a6, a7, a8, a9, a10, a11⟩ := h
    exact ⟨a1, a2, a3, a4, a5, a6, a7, a8, a9, a10, a11⟩

/-- A valid scenario stays plain through all allowed calls. -/
theorem valid_plain {W : World} (h : Valid W) : Reachable Plain W := by
  induction h with
  | @new cfg tmax rng h =>
    refine .new ⟨?_, ?_, ?_, h.1, h.2, ?_, ?_, ?_, ?_, ?_, ?_⟩
    all_goals first
      | (intro l hl; exact (Nat.not_lt_zero l hl).elim)
      | (intro k hk; simp [World.new] at hk)
  | next h hc ih => exact ih.next hc.api (hc.plain ih)

/-- **C34.** In a valid scenario no number of time steps up to the horizon raises an exception. -/
theorem C34_ticks_partial {W : World} (h : Valid W) (hf : W.finalized = true) {k : ℕ} (hk : W.T + k ≤ W.tsize) :
    ∃ W', ticks k W = .ok W' ∧ Valid W' := by
  induction k generalizing W with
  | zero => exact ⟨W, rfl, h⟩
  | succ k ih =>
    obtain ⟨W1, h1, -⟩ := C34_tick_partial (valid_plain h) hf (by omega)
    obtain ⟨a1, a2, a3, -⟩ := tick_frame (valid_plain h).inv hf h1
    obtain ⟨W2, h2, h3⟩ := ih (h.next (.tick hf (by omega) h1)) a3 (by omega)
    exact ⟨W2, by simp only [ticks]; rw [h1, ok_bind, h2], h3⟩

/-- **C34.** In a valid scenario `exec_simulation` raises an exception only if it is told to stop before
the current time. -/
theorem C34_exec_partial {W : World} (h : Valid W) (hf : W.finalized = true) (u : World.Until)
    (hu : W.T ≤ W.endTs u) : ∃ W' r, W.exec u = .ok (W', r) ∧ Valid W' := by
  rw [exec_eq (valid_plain h).any hf]
  have hT := (T_le (valid_plain h)).1 hf
  split
  · exact ⟨W, 1, rfl, h⟩
  · rw [if_neg (not_lt.2 hu)]
    obtain ⟨W1, h1, h2⟩ := C34_ticks_partial h hf (k := stepsOf W (W.endTs u)) (by unfold stepsOf; omega)
    rw [h1]
    have hf1 := (ticks_reach (valid_plain h).any hf (by unfold stepsOf; omega) h1).2.1
    exact ⟨_, _, rfl, h2.next (.endExec hf1)⟩

/-- **C34.** The first `exec_simulation` call fixes the scenario and raises nothing. -/
theorem C34_exec_first_partial {W : World} (h : Valid W) (hf : W.finalized = false) (u : World.Until)
    (hu : 0 ≤ (W.finalize none).endTs u) : ∃ W' r, W.exec u = .ok (W', r) ∧ Valid W' := by
  rw [exec_unfinal hf]
  have hfin : (W.finalize none).finalized = true ∧ (W.finalize none).T = 0 := by
    obtain ⟨_, _, _, _, _, e⟩ := finalize_frame W none
    rw [e]; exact ⟨rfl, rfl⟩
  exact C34_exec_partial (h.next (.finalize hf)) hfin.1 u (by rw [hfin.2]; exact hu)

/-! ### A concrete valid scenario -/

/-- The conditions of `PlainCall` on a command, as a test. -/
def Cmd.plain (W : World) : Cmd → Bool
  | .node _ => true
  | .link a => decide (W.nVeh = 0) && decide (0 ≤ a.mergePriority)
  | .veh a => decide (a.linksAvoid = []) && a.routePref.isNone &&
      decide (a.principle.getD W.cfg.principle = .homogeneous)
  | .fin _ => true
  | .tick => true
  | .route _ _ => false
  | .request o d _ => match W.getNode o, W.getNode d with
    | .ok n, .ok m => decide (n ≠ m)
    | _, _ => false
  | .assign v _ => decide (W.V.dest v = none)
  | .speed _ q => decide (q ≠ 0)
  | .signal _ sg _ reset => decide (sg ≠ []) && reset
  | .capIn _ _ => true
  | .capOut _ _ => true

theorem Cmd.plain_call {W W' : World} {c : Cmd} (hp : c.plain W = true) (h : c.run W = .ok W') :
    PlainCall W W' := by
  cases c <;> simp only [Cmd.run] at h <;> simp only [Cmd.plain] at hp
  case node => split at h; · simp at h
               · exact .addNode (by simp_all) h
  case link => simp only [Bool.and_eq_true, decide_eq_true_eq] at hp
               split at h; · simp at h
               · exact .addLink (by simp_all) hp.1 hp.2 h
  case veh => simp only [Bool.and_eq_true, decide_eq_true_eq, Option.isNone_iff_eq_none] at hp
              exact .addVehicle hp.1.1 hp.1.2 (by rw [hp.2]; intro e; cases e) h
  case fin => split at h; · simp at h
              · simp at h; subst h; exact .finalize (by simp_all)
  case tick => split at h
               · rename_i hc; exact .tick hc.1 hc.2 h
               · simp at h
  case route => cases hp
  case request =>
    refine .addTripRequest (fun n h1 h2 => ?_) h
    rw [h1, h2] at hp
    simp at hp
  case assign => simp only [decide_eq_true_eq] at hp
                 split at h
                 · rename_i hc; exact .assignTaxi hc hp h
                 · simp at h
  case speed => simp only [decide_eq_true_eq] at hp
                split at h
                · rename_i hc; exact .changeFreeFlowSpeed hc hp h
                · simp at h
  case signal => simp only [Bool.and_eq_true, decide_eq_true_eq] at hp
                 split at h
                 · rename_i hc; simp at h; subst h; exact .overrideSignal hc hp.1 (.inl hp.2)
                 · simp at h
  case capIn => split at h
                · rename_i hc; simp at h; subst h; exact .setCapIn hc
                · simp at h
  case capOut => split at h
                 · rename_i hc; simp at h; subst h; exact .setCapOut hc
                 · simp at h

/-- Run a scenario, checking the conditions of every call. -/
def runPlain (cfg : Config) (rng : ℕ → ℕ) (cs : List Cmd) : M World :=
  cs.foldlM (fun W c => if c.plain W then c.run W else .error .exception) (World.new cfg none rng)

theorem runPlain_valid {cfg rng cs W} (hc : PlainConfig cfg) (h : runPlain cfg rng cs = .ok W) : Valid W :=
  foldlM_inv (P := Valid) (fun W c W' _ hr hc => by
    split at hc
    · rename_i hp; exact hr.next (c.plain_call hp hc)
    · cases hc) (.new hc) h

/-- A diamond with a signal, a merge and a taxi: all vehicles meet at node 2, while a request is served. -/
def plainDemo (k : ℕ) : List Cmd :=
  [.node { name := "a" }, .node { name := "b" }, .node { name := "c", signal := [10, 10] }, .node { name := "d" },
   .link { startN := .obj 0, endN := .obj 2, length := 100, signalGroup := [0], lanes := 2 },
   .link { startN := .obj 1, endN := .obj 2, length := 100, signalGroup := [1], mergePriority := 1/2 },
   .link { startN := .obj 2, endN := .obj 3, length := 100 },
   .link { startN := .obj 3, endN := .obj 0, length := 100 },
   .veh { orig := .obj 0, dest := some (.obj 3), dep := .step 0 },
   .veh { orig := .obj 1, dest := some (.obj 3), dep := .step 0 },
   .veh { orig := .obj 0, dest := none, dep := .step 0, mode := .taxi },
   .fin (some 300),
   .request (.obj 2) (.obj 0) 0, .assign 2 0, .speed 0 10, .signal 2 [5, 5] 0 true] ++
    List.replicate k .tick

set_option maxRecDepth 100000 in
/-- After 4 steps one trip has ended, another vehicle is still driving, and the taxi has picked up its passenger; the next 40 steps cannot raise an exception. -/
example : ∃ W, Valid W ∧ W.finalized = true ∧ W.T = 4 ∧ W.V.state 1 = .ended ∧ W.V.state 0 = .run ∧
    W.H.getTaxiTime 0 ≠ none ∧ ∃ W', ticks 40 W = .ok W' := by
  have h : obs (runPlain demoCfg (fun _ => 0) (plainDemo 4)) (fun W => decide (W.finalized = true ∧ W.T = 4 ∧
      W.V.state 1 = .ended ∧ W.V.state 0 = .run ∧ W.H.getTaxiTime 0 ≠ none ∧ 44 ≤ W.tsize)) = true := by decide +kernel
  obtain ⟨W, hW, hp⟩ := obs_ok h
  simp only [decide_eq_true_eq] at hp
  obtain ⟨h1, h2, h3, h4, h5, h6⟩ := hp
  have hv : Valid W := runPlain_valid (by unfold PlainConfig demoCfg; norm_num) hW
  obtain ⟨W', h7, -⟩ := C34_ticks_partial hv h1 (k := 40) (by omega)
  exact ⟨W, hv, h1, h2, h3, h4, h5, W', h7⟩

/-- A link added after the first vehicle, and a vehicle added during the simulation. -/
def lateLink : List Cmd :=
  [.node { name := "a" }, .node { name := "b" }, .node { name := "c" },
   .link { startN := .obj 0, endN := .obj 1, length := 100 },
   .veh { orig := .obj 0, dest := some (.obj 1), dep := .step 0 },
   .link { startN := .obj 1, endN := .obj 2, length := 100 },
   .fin (some 300), .tick,
   .veh { orig := .obj 1, dest := some (.obj 2), dep := .step 1 }, .tick]

set_option maxRecDepth 100000 in
/-- **C34** is false without the condition that links precede vehicles: the dictionary of preferences that
new vehicles copy is made once, with the links that exist at that moment. Here all vehicles make single
trips, with no enforced route and no links to avoid, and the step raises a `KeyError`. -/
theorem C34_late_link_false : ∃ W, Reachable Any W ∧ W.finalized = true ∧ W.T < W.tsize ∧
    (∀ v, v < W.nVeh → W.V.mode v = .single ∧ W.V.specRoute v = none ∧ W.V.linksAvoid v = [] ∧
      W.V.linksPrefer v = []) ∧ PlainConfig W.cfg ∧ W.tick = .error .keyError := by
  have h : obs (runCmds demoCfg (fun _ => 0) lateLink) (fun W => decide (W.finalized = true ∧ W.T < W.tsize) &&
      (List.range W.nVeh).all (fun v => decide (W.V.mode v = .single ∧ W.V.specRoute v = none ∧
        W.V.linksAvoid v = [] ∧ W.V.linksPrefer v = [])) &&
      decide (0 ≤ W.cfg.duoUpdateWeight ∧ W.cfg.duoUpdateWeight ≤ 1 ∧ W.cfg.gradual = false) &&
      (match W.tick with | .error .keyError => true | _ => false)) = true := by decide +kernel
  obtain ⟨W, hW, hp⟩ := obs_ok h
  simp only [Bool.and_eq_true, decide_eq_true_eq, List.all_eq_true, List.mem_range] at hp
  obtain ⟨⟨⟨⟨h1, h2⟩, h3⟩, h4, h5, h6⟩, h7⟩ := hp
  refine ⟨W, runCmds_reachable hW, h1, h2, h3, ⟨⟨h4, h5⟩, fun e => by rw [h6] at e; cases e⟩, ?_⟩
  cases ht : W.tick with
  | ok X => rw [ht] at h7; cases h7
  | error e => rw [ht] at h7; cases e <;> first | rfl | cases h7

/-! ### C07: the assertion -/

/-- **C07.** The assertion about the lanes of an entering vehicle and its leader never fails in a time
step, whatever the scenario. -/
theorem C07_assertion {W : World} (h : Reachable Any W) (hf : W.finalized = true) :
    W.tick ≠ .error .assertionError := by
  have hq : Quiet W.step := quiet_step ⟨h.inv.core hf, LInv.reach h⟩
  unfold tick
  cases hs : W.step with
  | error e => rw [hs] at hq; intro he; exact hq (by simpa using he)
  | ok W1 => simp

theorem C07_assertion_ticks {W : World} (h : Reachable Any W) (hf : W.finalized = true) {k : ℕ}
    (hk : W.T + k ≤ W.tsize) : ticks k W ≠ .error .assertionError := by
  induction k generalizing W with
  | zero => simp [ticks]
  | succ k ih =>
    simp only [ticks]
    refine quiet_bind (C07_assertion h hf) (fun W1 h1 => ?_)
    obtain ⟨a1, a2, a3, -⟩ := tick_frame h.inv hf h1
    exact ih (.next h (.tick hf (by omega) h1) trivial) a3 (by omega)

/-- **C07.** The assertion never fails in a call of `exec_simulation`. -/
theorem C07_assertion_exec {W : World} (h : Reachable Any W) (u : World.Until) :
    W.exec u ≠ .error .assertionError := by
  have key : ∀ {W : World}, Reachable Any W → W.finalized = true → W.exec u ≠ .error .assertionError := by
    intro W h hf
    rw [exec_eq h hf]
    have hT := (T_le h).1 hf
    split
    · simp
    · split
      · simp
      · exact quiet_map (C07_assertion_ticks h hf (by unfold stepsOf; omega))
  cases hf : W.finalized with
  | true => exact key h hf
  | false =>
    rw [exec_unfinal hf]
    exact key (.next h (.finalize hf) trivial) (by
      obtain ⟨_, _, _, _, _, e⟩ := finalize_frame W none
      rw [e])

end UX
