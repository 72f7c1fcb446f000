import Verif.Proofs.CppKinStep
import Verif.Proofs.CppRuns
import Verif.Proofs.CppLifeInv

/-!
# Positions and spacing: runs and reachable worlds
-/

namespace UX.Cpp
open CWorld Relation Spec

theorem loop_kin {sched : ℕ → CWorld → Sched} (hs : ∀ t V, (sched t V).Valid V)
    {b : ℕ → List ℕ} (hb : ∀ t, (b t).Nodup) (hd : ∀ s t v, s ≠ t → v ∈ b s → v ∉ b t) (k : ℕ)
    {W W' : CWorld} (r : Rest W)
    (hh : ∀ t, W.g.timestep ≤ t → ∀ v ∈ b t, v < W.g.nVehs ∧ (W.veh v).state = .home)
    (hW : CWorld.loopFrom sched b k W = (W', none)) (p : KPar W) (h : KAll W (fun _ => 0)) :
    KPar W' ∧ KAll W' (fun _ => 0) ∧ (k = 1 → ∀ l v, StaysOn W W' v l → Follows W W' v l) := by
  induction k generalizing W with
  | zero =>
    rw [CWorld.loopFrom] at hW
    obtain rfl := congrArg Prod.fst hW
    exact ⟨p, h, by simp⟩
  | succ k ih =>
    have hv := hs W.g.timestep W
    have hns : (sched W.g.timestep W).run.Nodup := hv.2.2.2.1.nodup_iff.2 List.nodup_range
    obtain ⟨r1, k1⟩ := r.stepWith (sched W.g.timestep W) hns (b W.g.timestep) (hb _) (hh _ le_rfl)
    rw [CWorld.loopFrom] at hW
    cases he : CWorld.stepWith (sched W.g.timestep W) (b W.g.timestep) W with
    | mk W1 e =>
      rw [he] at r1 k1 hW
      simp only at r1 k1 hW
      cases e with
      | some e => simp at hW
      | none =>
        simp only at hW
        obtain ⟨p1, h1, f1⟩ := step_kin r hv (hb _) (hh _ le_rfl) he p h
        have hh1 : ∀ t, W.g.timestep + 1 ≤ t → ∀ v ∈ b t, v < W1.g.nVehs ∧ (W1.veh v).state = .home := by
          intro t ht v hv
          obtain ⟨p, q⟩ := hh t (by omega) v hv
          have hv' := k1.home v (fun h => hd _ _ v (by omega) h hv) q
          exact ⟨by rw [k1.nVehs]; exact p, by rw [hv']; exact q⟩
        obtain ⟨a, b, _⟩ := ih (W := { W1 with g := { W1.g with timestep := W.g.timestep + 1 } })
          (r1.setG _ rfl rfl rfl rfl rfl) hh1 hW ⟨p1.fl, p1.len, p1.gap⟩ (fun m hm => h1 m hm)
        refine ⟨a, b, fun hk l v hst => ?_⟩
        obtain rfl : k = 0 := by omega
        rw [CWorld.loopFrom] at hW
        obtain rfl := congrArg Prod.fst hW
        exact f1 l v hst

theorem main_kin {sched : ℕ → CWorld → Sched} (hs : ∀ t V, (sched t V).Valid V) {W W' : CWorld}
    (r : Rest W) {endTs : ℕ} (hr : W.mainLoop sched endTs = (W', none)) (p : KPar W)
    (h : KAll W (fun _ => 0)) :
    KPar W' ∧ KAll W' (fun _ => 0) ∧
      (W'.g.timestep = W.g.timestep + 1 → ∀ l v, StaysOn W W' v l → Follows W W' v l) := by
  have ht := (mainLoop_keep r (fun t V _ => (hs t V).2.2.2.1.nodup_iff.2 List.nodup_range) hr).2
  obtain ⟨a, b, c⟩ := loop_kin hs (fun t => bucket_nodup W _ t) (fun s t v hne h h' =>
    hne ((mem_bucket.1 h).2.2.symm.trans (mem_bucket.1 h').2.2)) _ r (fun t _ v hv =>
    ⟨(mem_bucket.1 hv).1, (mem_bucket.1 hv).2.1⟩) hr p h
  exact ⟨a, b, fun h1 => c (by omega)⟩

theorem CleanStep.glob {W W' : CWorld} (h : CleanStep W W') (hr : CReach W) :
    W'.g.fl = W.g.fl ∧ W'.g.deltaN = W.g.deltaN := by
  cases h with
  | node W' ints off cap lanes rng fuel h =>
    unfold CWorld.addNode at h
    obtain ⟨q, _, rfl⟩ := Option.map_eq_some_iff.1 h
    exact ⟨rfl, rfl⟩
  | link src dst a hs hd hl hr => exact ⟨rfl, rfl⟩
  | vehicle dep orig dest prefer ho hd => exact ⟨rfl, rfl⟩
  | tmax t h => exact ⟨rfl, rfl⟩
  | init =>
    have := (initAdj_same W).2.2.1
    exact ⟨CGlob.fix_fl this, CGlob.fix_deltaN this⟩
  | edit e =>
    cases e <;> first
      | exact ⟨rfl, rfl⟩
      | (simp only [CWorld.edit, changeFreeFlow, changeJam]; split <;> exact ⟨rfl, rfl⟩)
  | run W' endTs sched hs h =>
    obtain ⟨p, r⟩ := main_hist hs hr.rest h
    have := r.keep.2.1
    exact ⟨CGlob.fix_fl this, CGlob.fix_deltaN this⟩

/-- A call that leaves queue `l` as it is. -/
theorem KL.call {W W' : CWorld} {l : ℕ} (hf : W'.g.fl = W.g.fl) (hn : W'.g.deltaN = W.g.deltaN)
    (hv : (W'.link l).vehs = (W.link l).vehs) (hl : (W'.link l).len = (W.link l).len)
    (hk : (W'.link l).lanes = (W.link l).lanes)
    (hx : ∀ v ∈ (W.link l).vehs, (W'.veh v).x = (W.veh v).x ∧ (W'.veh v).xOld = (W.veh v).xOld)
    (hc : (W.link l).vehs ≠ [] → (W'.link l).deltaLane = (W.link l).deltaLane)
    (h : KL W l 0) : KL W' l 0 := by
  by_cases he : (W.link l).vehs = []
  · unfold KL
    rw [hv, he]
    exact ⟨by simp, by simp, [], [], rfl, by simp, by simp⟩
  · unfold KL CWorld.gap
    rw [hf, hn, hv, hl, hk, hc he]
    exact KQ.congr h (fun v hv => (hx v hv).1) (fun v hv => (hx v hv).2)

theorem KPar.careful {W W' : CWorld} (ok : FlOK W'.g.fl) (hn : 0 ≤ W'.g.deltaN) (c : Careful W W') : KPar W' := by
  refine ⟨ok, fun l hl => (c.1 l hl).1, fun l hl => ?_⟩
  unfold CWorld.gap
  have := ok.mono (mul_nonneg (c.1 l hl).2 hn)
  rw [ok.zero] at this; exact this

/-- Positions and spacing in every world that arises by careful calls. -/
theorem Spec.SteadyReach.kin {W : CWorld} (h : SteadyReach W) (ok : FlOK W.g.fl) (hn : 0 ≤ W.g.deltaN) :
    KPar W ∧ KAll W (fun _ => 0) := by
  induction h with
  | empty => exact ⟨⟨ok, fun l hl => absurd hl (Nat.not_lt_zero l), fun l hl => absurd hl (Nat.not_lt_zero l)⟩,
      fun l hl => absurd hl (Nat.not_lt_zero l)⟩
  | @step W W' hr s c ih =>
    have hreach := hr.toClean.toReach
    obtain ⟨hf, hd⟩ := CleanStep.glob s hreach
    obtain ⟨p, k⟩ := ih (by rw [← hf]; exact ok) (by rw [← hd]; exact hn)
    have p' := KPar.careful ok hn c
    refine ⟨p', ?_⟩
    have i := hreach.rest.inv
    cases s with
    | node W' ints off cap lanes rng fuel h =>
      unfold CWorld.addNode at h
      obtain ⟨q, _, rfl⟩ := Option.map_eq_some_iff.1 h
      exact fun l hl => k l hl
    | link src dst a hs hd' hl hr =>
      intro l hl
      have e : (W.addLink src dst a).link l = if l = W.g.nLinks then W.newLink src dst a else W.link l := rfl
      by_cases hll : l = W.g.nLinks
      · unfold KL
        rw [e, if_pos hll]
        exact ⟨by simp [newLink], by simp [newLink], [], [], rfl, by simp, by simp⟩
      · have hlt : l < W.g.nLinks := by
          have : l < W.g.nLinks + 1 := hl
          omega
        refine KL.call (W := W) hf hd ?_ ?_ ?_ (fun _ _ => ⟨rfl, rfl⟩) (c.2 l) (k l hlt) <;>
          rw [e, if_neg hll]
    | vehicle dep orig dest prefer ho hd' =>
      intro l hl
      refine KL.call (W := W) hf hd rfl rfl rfl (fun v hv => ?_) (c.2 l) (k l hl)
      have hlt : v ≠ W.g.nVehs := by
        have := (i.mem l v hv).2.2.2
        intro e; rw [e] at this; omega
      show ((upd W.veh W.g.nVehs _) v).x = _ ∧ ((upd W.veh W.g.nVehs _) v).xOld = _
      rw [upd, if_neg hlt]; exact ⟨rfl, rfl⟩
    | tmax t h =>
      intro l hl
      refine KL.call (W := W) hf hd ?_ ?_ ?_ (fun _ _ => ⟨rfl, rfl⟩) (c.2 l) (k l hl) <;>
        (simp only [CWorld.setTMax]; split <;> rfl)
    | init =>
      obtain ⟨a1, a2, a3, _⟩ := initAdj_same W
      intro l hl
      refine KL.call (W := W) hf hd ?_ ?_ ?_ (fun v _ => by rw [a1]; exact ⟨rfl, rfl⟩) (c.2 l)
        (k l (by rw [← CGlob.fix_nLinks a3]; exact hl)) <;> rw [a2]
    | edit e =>
      have hg : (W.edit e).g = W.g := by
        cases e <;> first
          | rfl
          | (simp only [CWorld.edit, changeFreeFlow, changeJam]; split <;> rfl)
      have hv : ∀ v, ((W.edit e).veh v).x = (W.veh v).x ∧ ((W.edit e).veh v).xOld = (W.veh v).xOld := by
        intro v
        cases e <;> first
          | exact ⟨rfl, rfl⟩
          | (simp only [CWorld.edit, setV_veh]; split
             · rename_i e; subst e; exact ⟨rfl, rfl⟩
             · exact ⟨rfl, rfl⟩)
          | (simp only [CWorld.edit, changeFreeFlow, changeJam]; split <;> exact ⟨rfl, rfl⟩)
      have hl : ∀ l, ((W.edit e).link l).vehs = (W.link l).vehs ∧ ((W.edit e).link l).len = (W.link l).len ∧
          ((W.edit e).link l).lanes = (W.link l).lanes := by
        intro l
        cases e <;> first
          | exact ⟨rfl, rfl, rfl⟩
          | (simp only [CWorld.edit, setL_link]; split
             · rename_i e; subst e; exact ⟨rfl, rfl, rfl⟩
             · exact ⟨rfl, rfl, rfl⟩)
          | (simp only [CWorld.edit, changeFreeFlow, changeJam]; split
             · simp only [setL_link]; split
               · rename_i e; subst e; exact ⟨rfl, rfl, rfl⟩
               · exact ⟨rfl, rfl, rfl⟩
             · exact ⟨rfl, rfl, rfl⟩)
      intro l hlt
      exact KL.call hf hd (hl l).1 (hl l).2.1 (hl l).2.2 (fun v _ => hv v) (c.2 l)
        (k l (by rw [← hg]; exact hlt))
    | run W' endTs sched hs h => exact (main_kin hs hreach.rest h p k).2.1

/-! ## Storage -/

/-- Positions in a queue in exact arithmetic. -/
theorem queue_span {gap len : ℚ} {lanes : ℕ} {q : List ℕ} {x : ℕ → ℚ} (hl : 1 ≤ lanes) (hg : 0 ≤ gap)
    (pos : ∀ v ∈ q, 0 ≤ x v ∧ x v ≤ len)
    (sp : ∀ i u v, q[i]? = some u → q[i + lanes]? = some v → x v ≤ x u - gap) (j i : ℕ) (v : ℕ)
    (h : q[i + j * lanes]? = some v) : x v + j * gap ≤ len := by
  induction j generalizing v with
  | zero => simpa using (pos v (List.mem_of_getElem? h)).2
  | succ j ih =>
    have hlt : i + (j + 1) * lanes < q.length := by
      by_contra hc
      rw [List.getElem?_eq_none (by omega)] at h; simp at h
    have e : i + (j + 1) * lanes = i + j * lanes + lanes := by ring
    have hu : i + j * lanes < q.length := by omega
    have hu' : q[i + j * lanes]? = some q[i + j * lanes] := List.getElem?_eq_getElem hu
    have h1 := ih _ hu'
    rw [e] at h
    have h2 := sp _ _ v hu' h
    push_cast
    linarith

/-- The number of vehicles in a queue in exact arithmetic. -/
theorem queue_bound {gap len : ℚ} {lanes : ℕ} {q : List ℕ} {x : ℕ → ℚ} (hl : 1 ≤ lanes) (hg : 0 < gap)
    (pos : ∀ v ∈ q, 0 ≤ x v ∧ x v ≤ len)
    (sp : ∀ i u v, q[i]? = some u → q[i + lanes]? = some v → x v ≤ x u - gap) (h0 : 0 ≤ len) :
    (q.length : ℚ) ≤ lanes * (len / gap + 1) := by
  by_cases hq : q.length = 0
  · rw [hq]
    have : (0 : ℚ) ≤ lanes * (len / gap + 1) := by positivity
    simpa using this
  -- the last vehicle
  set n := q.length - 1 with hn
  have hlast : q[n % lanes + (n / lanes) * lanes]? = some (q[n]'(by omega)) := by
    rw [Nat.mul_comm, Nat.mod_add_div]; exact List.getElem?_eq_getElem _
  have h1 := queue_span hl hg.le pos sp (n / lanes) (n % lanes) _ hlast
  have h2 := (pos _ (List.mem_of_getElem? hlast)).1
  have h3 : ((n / lanes : ℕ) : ℚ) ≤ len / gap := by
    rw [le_div_iff₀ hg]; linarith
  have h4 : q.length ≤ lanes * (n / lanes + 1) := by
    have := Nat.lt_mul_div_succ n (show 0 < lanes by omega)
    omega
  calc (q.length : ℚ) ≤ ((lanes * (n / lanes + 1) : ℕ) : ℚ) := by exact_mod_cast h4
    _ = lanes * (((n / lanes : ℕ) : ℚ) + 1) := by push_cast; ring
    _ ≤ lanes * (len / gap + 1) := by
      apply mul_le_mul_of_nonneg_left _ (by positivity)
      linarith

end UX.Cpp
