import Verif.Proofs.CppLog

/-!
# Vehicle logs of the C++ engine: time steps, runs and reachable worlds
-/

namespace UX.Cpp
open CWorld Relation Spec

theorem CGlob.fix_logMode {g g' : CGlob} (h : g.fix = g'.fix) : g.logMode = g'.logMode :=
  show g.fix.logMode = g'.fix.logMode by rw [h]

theorem homeVeh_logAt {W : CWorld} {v : ℕ} (hv : v < W.g.nVehs) (hs : (W.veh v).state = .home)
    (hd : (W.veh v).depTime ≤ W.now) (hg : (W.vehUpdate v none).g = W.g) {b : Bool} (h : LogP b W v) :
    LogP true (W.vehUpdate v none) v := by
  obtain ⟨e, e1, e2⟩ := logData_pushed h.1 v none
  have hc := core_logData W v none
  have h1 : ((W.logData v none).veh v).state = .home := by rw [core_state hc]; exact hs
  have h2 : ((W.logData v none).veh v).depTime = (W.veh v).depTime := (samePar_logData W v none).1.depTime v
  have h3 : (W.logData v none).now = W.now := by unfold now; rw [(samePar_logData W v none).2]
  have he : e.link = none := by rw [e1, hs]; rfl
  unfold LogP clockAt at *
  rw [hg]
  refine ⟨h.1, fun _ => ?_⟩
  refine LogAt.home (h.2 hv) hs he hd ?_
  unfold CWorld.vehUpdate
  simp only [h1]
  rw [if_pos (by rw [h2, h3]; exact hd), setN_veh, setV_veh, if_pos rfl]
  have e3 := e2 v
  rw [if_pos rfl] at e3
  have e4 : ∀ V V' : CVeh, V = V' → CVeh.key { V with state := .wait } = CVeh.key { V' with state := .wait } :=
    fun V V' h => by rw [h]
  exact e4 _ _ e3

theorem homePass_log (xs : List ℕ) (hnd : xs.Nodup) {W : CWorld} (r : Rest W)
    (hx : ∀ v ∈ xs, v < W.g.nVehs ∧ (W.veh v).state = .home) (hd : ∀ v ∈ xs, (W.veh v).depTime ≤ W.now)
    (h : ∀ v, LogP true W v) :
    (∀ v, LogP true (xs.foldl (fun W v => W.vehUpdate v none) W) v) ∧
      (xs.foldl (fun W v => W.vehUpdate v none) W).g = W.g := by
  induction xs generalizing W with
  | nil => exact ⟨h, rfl⟩
  | cons v t ih =>
    obtain ⟨hv, ht⟩ := List.nodup_cons.1 hnd
    obtain ⟨p, q, g, e⟩ := r.homeVeh (hx v (by simp)).1 (hx v (by simp)).2
    have hne : ∀ w ∈ t, w ≠ v := fun w hw h => hv (h ▸ hw)
    obtain ⟨a, b⟩ := ih ht p (fun w hw => by rw [g, e w (hne w hw)]; exact hx w (by simp [hw]))
      (fun w hw => by
        have := hd w (by simp [hw])
        rw [e w (hne w hw)]; unfold now; rw [g]; exact this)
      (fun w => by
        by_cases hw : w = v
        · subst hw
          exact homeVeh_logAt (hx w (by simp)).1 (hx w (by simp)).2 (hd w (by simp)) g (h w)
        · exact (h w).key g (by rw [e w hw]))
    exact ⟨a, b.trans g⟩

/-- A completed time step. -/
theorem step_log {W : CWorld} (r : Rest W) {σ : Sched} (hσ : σ.Valid W) {home : List ℕ}
    (hnd : home.Nodup) (hh : ∀ v ∈ home, v < W.g.nVehs ∧ (W.veh v).state = .home)
    (hd : ∀ v ∈ home, (W.veh v).depTime ≤ W.now) {W' : CWorld}
    (he : CWorld.stepWith σ home W = (W', none)) (h : ∀ v, LogP false W v) (v : ℕ) : LogP true W' v := by
  have hrun : σ.run.Nodup := hσ.2.2.2.1.nodup_iff.2 List.nodup_range
  have r0 : Rest W.clearExc := r.congr (core_clearExc W).symm
  obtain ⟨r1, k1⟩ := r0.region σ hrun
  have kk := (Keep.clearExc W).trans k1
  have reg := logRule.region r0 (σ := σ) hσ (fun w => (h w).key rfl rfl)
  unfold CWorld.stepWith at he
  simp only at he
  generalize hW6 : CWorld.region σ W.clearExc = W6 at *
  split at he
  · simp at he
  rename_i hex
  have reg' := reg (fun l hl => firstExc_none hex l (by rw [kk.g]; exact hl))
  have hx : ∀ v ∈ home, v < W6.g.nVehs ∧ (W6.veh v).state = .home := fun v hv => by
    rw [kk.g, kk.home v (hh v hv).2]; exact hh v hv
  have hQ : ∀ w, LogP true W6 w := fun w => by
    obtain ⟨a, b⟩ := reg' w
    by_cases hw : w < W6.g.nVehs
    · by_cases hst : (W6.veh w).state = .run ∨ (W6.veh w).state = .wait
      · exact a (by rw [← show W6.g.nVehs = W.clearExc.g.nVehs by rw [k1.g]]; exact hw) hst
      · rcases b with b | b
        · exact ⟨b.1, fun _ => (b.2 hw).idle (fun h => hst (Or.inr h)) (fun h => hst (Or.inl h))⟩
        · exact b
    · exact ⟨by rcases b with b | b <;> exact b.1, fun h => absurd h hw⟩
  obtain ⟨a, b⟩ := homePass_log home hnd r1 hx (fun v hv => by
    have := hd v hv
    rw [kk.home v (hh v hv).2]; unfold now; rw [kk.g]; exact this) hQ
  obtain rfl := congrArg Prod.fst he
  simp only at a b ⊢
  generalize home.foldl (fun (W : CWorld) v => W.vehUpdate v none) W6 = W7 at *
  have hf := routeStep_fix W7.reconcile
  obtain ⟨_, hv, _, _, _, ht, _⟩ := routeStep_same W7.reconcile
  have a' := a v
  unfold LogP clockAt at a' ⊢
  rw [hv, ht, CGlob.fix_logMode hf, CGlob.fix_fl hf, CGlob.fix_deltaT hf, CGlob.fix_nVehs hf]
  exact a'

theorem loop_log {sched : ℕ → CWorld → Sched} (hs : ∀ t V, (sched t V).Valid V)
    {b : ℕ → List ℕ} (hb : ∀ t, (b t).Nodup) (hd : ∀ s t v, s ≠ t → v ∈ b s → v ∉ b t) (k : ℕ)
    {W W' : CWorld} (r : Rest W)
    (hh : ∀ t, W.g.timestep ≤ t → ∀ v ∈ b t, v < W.g.nVehs ∧ (W.veh v).state = .home)
    (hdue : ∀ t, W.g.timestep ≤ t → t < W.g.timestep + k → ∀ v ∈ b t, (W.veh v).depTime ≤ clockAt W t)
    (hW : CWorld.loopFrom sched b k W = (W', none)) (h : ∀ v, LogP false W v)
    (h0 : ∀ v, v < W.g.nVehs → LogAt (clockAt W) true W.g.timestep (W.veh v)) (v : ℕ)
    (hv : v < W'.g.nVehs) : LogAt (clockAt W') true W'.g.timestep (W'.veh v) := by
  induction k generalizing W with
  | zero =>
    rw [CWorld.loopFrom] at hW
    obtain rfl := congrArg Prod.fst hW
    exact h0 v hv
  | succ k ih =>
    have hva := hs W.g.timestep W
    have hns : (sched W.g.timestep W).run.Nodup := hva.2.2.2.1.nodup_iff.2 List.nodup_range
    obtain ⟨r1, k1⟩ := r.stepWith (sched W.g.timestep W) hns (b W.g.timestep) (hb _) (hh _ le_rfl)
    obtain ⟨k2, _⟩ := r.stepWith2 (sched W.g.timestep W) hns (b W.g.timestep) (hb _) (hh _ le_rfl)
    rw [CWorld.loopFrom] at hW
    cases he : CWorld.stepWith (sched W.g.timestep W) (b W.g.timestep) W with
    | mk W1 e =>
      rw [he] at r1 k1 k2 hW
      simp only at r1 k1 k2 hW
      cases e with
      | some e => simp at hW
      | none =>
        simp only at hW
        have h1 := step_log r hva (hb _) (hh _ le_rfl) (hdue _ le_rfl (by omega)) he h
        have hh1 : ∀ t, W.g.timestep + 1 ≤ t → ∀ v ∈ b t, v < W1.g.nVehs ∧ (W1.veh v).state = .home := by
          intro t ht v hv
          obtain ⟨p, q⟩ := hh t (by omega) v hv
          have hv' := k1.home v (fun h => hd _ _ v (by omega) h hv) q
          exact ⟨by rw [k1.nVehs]; exact p, by rw [hv']; exact q⟩
        have hts : W1.g.timestep = W.g.timestep := k1.timestep
        have hck : ∀ t, clockAt W1 t = clockAt W t := fun t => by
          unfold clockAt; rw [CGlob.fix_fl k2.fix, CGlob.fix_deltaT k2.fix]
        have h2 : ∀ v, v < W1.g.nVehs → LogAt (clockAt W1) true (W.g.timestep + 1) (W1.veh v) := fun v hv => by
          have := (h1 v).2 hv
          rw [hts] at this; exact this
        refine ih (W := { W1 with g := { W1.g with timestep := W.g.timestep + 1 } })
          (r1.setG _ rfl rfl rfl rfl rfl) hh1 ?_ hW (fun v => ⟨(h1 v).1, fun hv => (h2 v hv).next⟩) h2
        intro t ht ht' v hv
        have hdep : (W1.veh v).depTime = (W.veh v).depTime := k1.par.depTime v
        show (W1.veh v).depTime ≤ clockAt W1 t
        rw [hdep, hck]
        refine hdue t ?_ ?_ v hv
        · have : W.g.timestep + 1 ≤ t := ht
          omega
        · have : t < W.g.timestep + 1 + k := ht'
          omega

/-- The logs of all vehicles are right. -/
def AllLogs (W : CWorld) : Prop :=
  W.g.logMode = true → ∀ v, v < W.g.nVehs → LogAt (clockAt W) true W.g.timestep (W.veh v)

theorem main_log {sched : ℕ → CWorld → Sched} (hs : ∀ t V, (sched t V).Valid V) {W W' : CWorld}
    (r : Rest W) (hm : Monotone W.g.fl) (hdt : 0 ≤ W.g.deltaT) {endTs : ℕ}
    (hr : W.mainLoop sched endTs = (W', none)) (h : AllLogs W) : AllLogs W' := by
  obtain ⟨k, ht⟩ := mainLoop_keep r (fun t V _ => (hs t V).2.2.2.1.nodup_iff.2 List.nodup_range) hr
  intro hl v hv
  have hl0 : W.g.logMode = true := by rw [← CGlob.fix_logMode k.fix]; exact hl
  refine loop_log hs (fun t => bucket_nodup W _ t) (fun s t v hne h h' =>
    hne ((mem_bucket.1 h).2.2.symm.trans (mem_bucket.1 h').2.2)) _ r (fun t _ v hv =>
    ⟨(mem_bucket.1 hv).1, (mem_bucket.1 hv).2.1⟩) (fun t h1 h2 v hv => bucket_due hm hdt hv (by omega)) hr
    (fun v => ⟨hl0, fun hv => (h hl0 v hv).next⟩) (h hl0) v hv

theorem AllLogs.call {W W' : CWorld} (hf : W'.g.fl = W.g.fl) (hd : W'.g.deltaT = W.g.deltaT)
    (ht : W'.g.timestep = W.g.timestep) (hl : W'.g.logMode = W.g.logMode) (hn : W'.g.nVehs = W.g.nVehs)
    (hk : ∀ v, (W'.veh v).key = (W.veh v).key) (h : AllLogs W) : AllLogs W' := by
  intro hm v hv
  have := h (by rw [← hl]; exact hm) v (by rw [← hn]; exact hv)
  unfold clockAt at this ⊢
  rw [hf, hd, ht]
  exact this.congr (hk v)

/-- The logs of every world that arises by calls that do not throw. -/
theorem Spec.CleanReach.logs {W : CWorld} (h : CleanReach W) (hm : Monotone W.g.fl) (hdt : 0 ≤ W.g.deltaT) :
    AllLogs W := by
  induction h with
  | empty => exact fun _ v hv => absurd hv (Nat.not_lt_zero v)
  | @step W W' hr s ih =>
    have hreach := hr.toReach
    cases s with
    | node W' ints off cap lanes rng fuel h =>
      unfold CWorld.addNode at h
      obtain ⟨q, _, rfl⟩ := Option.map_eq_some_iff.1 h
      exact (ih hm hdt).call rfl rfl rfl rfl rfl (fun _ => rfl)
    | link src dst a hs hd' hl hr => exact (ih hm hdt).call rfl rfl rfl rfl rfl (fun _ => rfl)
    | vehicle dep orig dest prefer ho hd' =>
      intro hl v hv
      show LogAt (clockAt W) true W.g.timestep ((upd W.veh W.g.nVehs (newVeh dep orig dest prefer)) v)
      by_cases e : v = W.g.nVehs
      · rw [upd, if_pos e]
        exact ⟨rfl, rfl, rfl, rfl⟩
      · rw [upd, if_neg e]
        refine ih hm hdt hl v ?_
        have : v < W.g.nVehs + 1 := hv
        omega
    | tmax t h => exact (ih hm hdt).call rfl rfl rfl rfl rfl (fun _ => rfl)
    | init =>
      obtain ⟨a1, a2, a3, a4, _⟩ := initAdj_same W
      have hf := CGlob.fix_fl a3
      have hd := CGlob.fix_deltaT a3
      rw [hf] at hm; rw [hd] at hdt
      exact (ih hm hdt).call hf hd a4 (CGlob.fix_logMode a3) (CGlob.fix_nVehs a3) (fun v => by rw [a1])
    | edit e =>
      have hg : (W.edit e).g = W.g := by
        cases e <;> first
          | rfl
          | (simp only [CWorld.edit, changeFreeFlow, changeJam]; split <;> rfl)
      have hv : ∀ v, ((W.edit e).veh v).key = (W.veh v).key := by
        intro v
        cases e <;> first
          | rfl
          | (simp only [CWorld.edit]; exact setV_key _ _ _ (by intro V; rfl) _)
          | (simp only [CWorld.edit, changeFreeFlow, changeJam]; split <;> rfl)
      rw [hg] at hm hdt
      exact (ih hm hdt).call (by rw [hg]) (by rw [hg]) (by rw [hg]) (by rw [hg]) (by rw [hg]) hv
    | run W' endTs sched hs h =>
      obtain ⟨k, _⟩ := mainLoop_keep hreach.rest
        (fun t V _ => (hs t V).2.2.2.1.nodup_iff.2 List.nodup_range) h
      have hm' : Monotone W.g.fl := by rw [← CGlob.fix_fl k.fix]; exact hm
      have hdt' : 0 ≤ W.g.deltaT := by rw [← CGlob.fix_deltaT k.fix]; exact hdt
      exact main_log hs hreach.rest hm' hdt' h (ih hm' hdt')

/-! ## What can be read -/

theorem life_get (f w r i : ℕ) (hi : i < 1 + w + r) : (life f w r)[i]? =
    some (f + i, if i = 0 then .home else if i < 1 + w then .wait else .run) := by
  unfold life
  cases i with
  | zero => simp
  | succ i =>
    rw [List.getElem?_cons_succ]
    by_cases h : i < w
    · rw [List.getElem?_append_left (by simpa using h)]
      simp only [List.getElem?_map, List.getElem?_range h, Option.map_some]
      rw [if_neg (by omega), if_pos (by omega)]
      simp; omega
    · rw [List.getElem?_append_right (by simp; omega)]
      simp only [List.length_map, List.length_range, List.getElem?_map]
      rw [List.getElem?_range (by omega)]
      simp only [Option.map_some]
      rw [if_neg (by omega), if_neg (by omega)]
      simp; omega

/-- A list of the right length that agrees in every place is what is read. -/
theorem reads_of {W : CWorld} {v : ℕ} {xs : List (ℕ × VState)} (hl : (W.veh v).log.length = xs.length)
    (h : ∀ i p, xs[i]? = some p → W.logTAt v i = clockAt W p.1 ∧ W.logStateAt v i = p.2) : Reads W v xs := by
  unfold Reads readLog
  rw [hl]
  apply List.ext_getElem?
  intro i
  simp only [List.getElem?_map]
  by_cases hi : i < xs.length
  · rw [List.getElem?_range hi, List.getElem?_eq_getElem hi]
    obtain ⟨a, b⟩ := h i _ (List.getElem?_eq_getElem hi)
    simp [a, b]
  · rw [List.getElem?_eq_none (by simpa using hi), List.getElem?_eq_none (by omega)]; rfl

theorem LogAt.reads {W : CWorld} {v n : ℕ} (h : LogAt (clockAt W) true n (W.veh v)) :
    Reads W v (W.veh v).eager ∧ LinksWhenRunning W v := by
  unfold LogAt at h
  split at h
  · obtain ⟨h1, h2, _, _⟩ := h
    constructor
    · rw [h2]; exact reads_of (by rw [h1]; rfl) (by simp)
    · intro i e he; rw [h1] at he; simp at he
  · rename_i hst
    obtain ⟨f, h1, h2, h3, h4, h5, h6, h7⟩ := h
    have hT : ∀ i, i < (W.veh v).log.length → W.logTAt v i = clockAt W (f + i) ∧ W.logStateAt v i =
        (if i = 0 then .home else if i < 1 + (W.veh v).logWait then .wait else .run) := fun i hi => by
      unfold logTAt logStateAt clockAt
      simp only [h5, h4]
      rw [if_pos (by omega)]
      simp
    have hlen : (W.veh v).log.length = 1 + (W.veh v).logWait := by rw [h6, h1, life_length]; omega
    constructor
    · refine reads_of h6 (fun i p hp => ?_)
      rw [h1] at hp
      have hi : i < 1 + (W.veh v).logWait + 0 := by
        by_contra hc
        rw [List.getElem?_eq_none (by rw [life_length]; omega)] at hp; simp at hp
      rw [life_get _ _ _ _ hi] at hp
      obtain rfl := Option.some.inj hp
      exact hT i (by omega)
    · intro i e he
      have hi : i < (W.veh v).log.length := by
        by_contra hc
        rw [List.getElem?_eq_none (by omega)] at he; simp at he
      rw [(hT i hi).2, h7 e (List.mem_of_getElem? he)]
      simp only [reduceCtorEq, exists_false, false_iff]
      split
      · simp
      · rw [if_pos (by omega)]; simp
  · rename_i hst
    obtain ⟨f, r, h1, h2, h3, h4, h5, h6, h7, h8⟩ := h
    have hT : ∀ i, i < (W.veh v).log.length → W.logTAt v i = clockAt W (f + i) ∧ W.logStateAt v i =
        (if i = 0 then .home else if i < 1 + (W.veh v).logWait then .wait else .run) := fun i hi => by
      unfold logTAt logStateAt clockAt
      simp only [h6, h5]
      rw [if_pos (by omega)]
      simp
    have hlen : (W.veh v).log.length = 1 + (W.veh v).logWait + r := by rw [h7, h1, life_length]
    constructor
    · refine reads_of h7 (fun i p hp => ?_)
      rw [h1] at hp
      have hi : i < 1 + (W.veh v).logWait + r := by
        by_contra hc
        rw [List.getElem?_eq_none (by rw [life_length]; omega)] at hp; simp at hp
      rw [life_get _ _ _ _ hi] at hp
      obtain rfl := Option.some.inj hp
      exact hT i (by omega)
    · intro i e he
      have hi : i < (W.veh v).log.length := by
        by_contra hc
        rw [List.getElem?_eq_none (by omega)] at he; simp at he
      rw [(hT i hi).2, h8 i e he]
      split
      · simp; omega
      · split
        · simp; omega
        · simp; omega
  · rename_i s hs1 hs2 hs3
    obtain ⟨f, r, t, h1, h2, h3, h4, h5, h6, h7, h8, h9⟩ := h
    have hlen : (W.veh v).log.length = 1 + (W.veh v).logWait + r + 1 := by
      rw [h8, h1, List.length_append, life_length]; rfl
    have hT : ∀ i, i < 1 + (W.veh v).logWait + r → W.logTAt v i = clockAt W (f + i) ∧ W.logStateAt v i =
        (if i = 0 then .home else if i < 1 + (W.veh v).logWait then .wait else .run) := fun i hi => by
      unfold logTAt logStateAt clockAt
      simp only [h7, h5]
      rw [if_pos (by omega), if_neg (by omega)]
      simp
    have hE : W.logTAt v (1 + (W.veh v).logWait + r) = clockAt W t ∧
        W.logStateAt v (1 + (W.veh v).logWait + r) = (W.veh v).state := by
      unfold logTAt logStateAt clockAt
      simp only [h7, h6]
      rw [if_neg (by omega), if_pos (by omega)]
      simp
    constructor
    · refine reads_of h8 (fun i p hp => ?_)
      rw [h1] at hp
      rcases getElem?_snoc hp with ⟨hi, hp⟩ | ⟨hi, hp⟩
      · rw [life_length] at hi
        rw [life_get _ _ _ _ hi] at hp
        obtain rfl := Option.some.inj hp
        exact hT i hi
      · rw [life_length] at hi
        subst hp hi
        exact hE
    · intro i e he
      have hi : i < (W.veh v).log.length := by
        by_contra hc
        rw [List.getElem?_eq_none (by omega)] at he; simp at he
      rw [h9 i e he]
      by_cases hi' : i < 1 + (W.veh v).logWait + r
      · rw [(hT i hi').2]
        split
        · simp; omega
        · split
          · simp; omega
          · simp; omega
      · obtain rfl : i = 1 + (W.veh v).logWait + r := by omega
        rw [hE.2]
        simp only [lt_irrefl, and_false, false_iff]
        exact hs3

theorem LogAt.tells {W : CWorld} {v : ℕ} (h : LogAt (clockAt W) true W.g.timestep (W.veh v)) : TellsLife W v := by
  have hr := h.reads.1
  unfold LogAt at h
  unfold TellsLife
  generalize (W.veh v).state = s at h
  cases s with
  | home => simp only at h ⊢; rw [h.2.1] at hr; exact hr
  | wait =>
    simp only at h ⊢
    obtain ⟨f, h1, h2, h3, _⟩ := h
    exact ⟨f, _, h1 ▸ hr, h2, h3⟩
  | run =>
    simp only at h ⊢
    obtain ⟨f, r, h1, h2, h3, h4, _⟩ := h
    exact ⟨f, _, r, h1 ▸ hr, h3 trivial, h2, h4⟩
  | ended =>
    simp only at h ⊢
    obtain ⟨f, r, t, h1, h2, h3, h4, _⟩ := h
    exact ⟨f, _, r, t, h1 ▸ hr, h2, by simpa using h3, h4⟩
  | abort =>
    simp only at h ⊢
    obtain ⟨f, r, t, h1, h2, h3, h4, _⟩ := h
    exact ⟨f, _, r, t, h1 ▸ hr, h2, by simpa using h3, h4⟩

end UX.Cpp
