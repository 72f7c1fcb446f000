import Verif.Proofs.CppActs
import Verif.Proofs.CppInvBuild

/-!
# Runs of the C++ engine as sequences of events

`Ev` adds to the actions of `CppActs` the serial parts of a time step. Every run, whatever its
schedule and whether or not it throws, is a sequence of events (`mainLoop_evs`), so a relation
between the worlds before and after a run is proved by checking the events.
-/

namespace UX.Cpp
open CWorld Relation

inductive Ev : CWorld → CWorld → Prop
  | act {W W' : CWorld} {s : Stage} (a : Act s W W') : Ev W W'
  | clear (W : CWorld) : Ev W W.clearExc
  | update (W : CWorld) (l : ℕ) : Ev W (W.linkUpdate l)
  | home (W : CWorld) (v : ℕ) (r : Rest W) (hv : v < W.g.nVehs) (hs : (W.veh v).state = .home) :
      Ev W (W.vehUpdate v none)
  | reconcile (W : CWorld) (r : Rest W) : Ev W W.reconcile
  | route (W : CWorld) (r : Rest W) : Ev W W.routeStep
  | tick (W : CWorld) (r : Rest W) : Ev W { W with g := { W.g with timestep := W.g.timestep + 1 } }

abbrev Evs : CWorld → CWorld → Prop := ReflTransGen Ev

theorem Acts.evs {s : Stage} {W W' : CWorld} (a : Acts s W W') : Evs W W' := by
  induction a with
  | refl => exact .refl
  | tail _ b ih => exact ih.tail (.act b)

theorem foldl_evs {α : Type} {f : CWorld → α → CWorld} (h : ∀ W a, Ev W (f W a)) (xs : List α)
    (W : CWorld) : Evs W (xs.foldl f W) := by
  induction xs generalizing W with
  | nil => exact .refl
  | cons a t ih => exact (ReflTransGen.single (h W a)).trans (ih _)

theorem region_evs {W : CWorld} (r : Rest W) (σ : Sched) (hσ : σ.run.Nodup) : Evs W (region σ W) := by
  obtain ⟨W2, W3, W4, W5, s2, s3, s4, s5, s6, _⟩ := region_acts r σ hσ
  exact (foldl_evs (fun W l => Ev.update W l) σ.update W).trans
    (s2.evs.trans (s3.evs.trans (s4.evs.trans (s5.evs.trans s6.evs))))

theorem homePass_evs (xs : List ℕ) (hnd : xs.Nodup) {W : CWorld} (r : Rest W)
    (hx : ∀ v ∈ xs, v < W.g.nVehs ∧ (W.veh v).state = .home) :
    Evs W (xs.foldl (fun W v => W.vehUpdate v none) W) := by
  induction xs generalizing W with
  | nil => exact .refl
  | cons v t ih =>
    obtain ⟨hv, ht⟩ := List.nodup_cons.1 hnd
    obtain ⟨p, q⟩ := hx v (by simp)
    obtain ⟨r1, _, g, e⟩ := r.homeVeh p q
    rw [List.foldl_cons]
    exact (ReflTransGen.single (Ev.home W v r p q)).trans (ih ht r1 (fun w hw => by
      rw [g, e w (fun h => hv (h ▸ hw))]; exact hx w (by simp [hw])))

theorem stepWith_evs {W : CWorld} (r : Rest W) (σ : Sched) (hσ : σ.run.Nodup) (home : List ℕ)
    (hnd : home.Nodup) (hh : ∀ v ∈ home, v < W.g.nVehs ∧ (W.veh v).state = .home) :
    Evs W (stepWith σ home W).1 := by
  have r0 : Rest W.clearExc := r.congr (core_clearExc W).symm
  obtain ⟨r1, k1⟩ := r0.region σ hσ
  have k := (Keep.clearExc W).trans k1
  have e1 : Evs W (region σ W.clearExc) := (ReflTransGen.single (Ev.clear W)).trans (region_evs r0 σ hσ)
  unfold CWorld.stepWith
  simp only
  generalize CWorld.region σ W.clearExc = W1 at *
  have hg : W1.g = W.g := k.g
  have hx : ∀ v ∈ home, v < W1.g.nVehs ∧ (W1.veh v).state = .home := fun v hv => by
    rw [hg, k.home v (hh v hv).2]; exact hh v hv
  split
  · exact e1
  · obtain ⟨r2, _⟩ := r1.homePass home hnd hx
    exact e1.trans ((homePass_evs home hnd r1 hx).trans
      ((ReflTransGen.single (Ev.reconcile _ r2)).tail (Ev.route _ r2.reconcile)))

theorem loopFrom_evs {sched : ℕ → CWorld → Sched} (hs : ∀ t W, Rest W → (sched t W).run.Nodup)
    {b : ℕ → List ℕ} (hb : ∀ t, (b t).Nodup) (hd : ∀ s t v, s ≠ t → v ∈ b s → v ∉ b t) (k : ℕ)
    {W : CWorld} (r : Rest W)
    (hh : ∀ t, W.g.timestep ≤ t → ∀ v ∈ b t, v < W.g.nVehs ∧ (W.veh v).state = .home) :
    Evs W (loopFrom sched b k W).1 := by
  induction k generalizing W with
  | zero => exact .refl
  | succ k ih =>
    obtain ⟨r1, k1⟩ := r.stepWith (sched W.g.timestep W) (hs _ _ r) (b W.g.timestep) (hb _) (hh _ le_rfl)
    have e1 := stepWith_evs r (sched W.g.timestep W) (hs _ _ r) (b W.g.timestep) (hb _) (hh _ le_rfl)
    rw [loopFrom]
    cases he : CWorld.stepWith (sched W.g.timestep W) (b W.g.timestep) W with
    | mk W1 e =>
      rw [he] at r1 k1 e1
      simp only at r1 k1 e1
      cases e with
      | some e => exact e1
      | none =>
        simp only
        refine (e1.tail (Ev.tick W1 r1)).trans ?_
        rw [k1.timestep]
        refine ih (W := { W1 with g := { W1.g with timestep := W.g.timestep + 1 } })
          (r1.setG _ rfl rfl rfl rfl rfl) (fun t ht v hv => ?_)
        have ht' : W.g.timestep + 1 ≤ t := ht
        obtain ⟨p, q⟩ := hh t (by omega) v hv
        have hv' := k1.home v (fun h => hd _ _ v (by omega) h hv) q
        exact ⟨by show v < W1.g.nVehs; rw [k1.nVehs]; exact p, by show (W1.veh v).state = _; rw [hv']; exact q⟩

theorem mainLoop_evs {W : CWorld} (r : Rest W) {sched : ℕ → CWorld → Sched}
    (hs : ∀ t W, Rest W → (sched t W).run.Nodup) (endTs : ℕ) : Evs W (mainLoop sched W endTs).1 := by
  refine loopFrom_evs hs (fun t => bucket_nodup W _ t) ?_ _ r ?_
  · intro s t v hne h h'
    exact hne ((mem_bucket.1 h).2.2.symm.trans (mem_bucket.1 h').2.2)
  · intro t _ v hv
    exact ⟨(mem_bucket.1 hv).1, (mem_bucket.1 hv).2.1⟩

/-- The calls that build or edit a world. -/
inductive Call : CWorld → CWorld → Prop
  | node (W : CWorld) (r : Rest W) (p : ℕ × ℚ) (ints : List ℚ) (off cap : ℚ) (lanes : ℤ) (rng : ℕ → ℕ) :
      Call W (W.addNodeWith p ints off cap lanes rng)
  | link (W : CWorld) (r : Rest W) (src dst : ℕ) (a : LinkArgs) (hs : src < W.g.nNodes)
      (hd : dst < W.g.nNodes) (hl : 1 ≤ a.lanes)
      (hr : ∀ v, v < W.g.nVehs → (W.veh v).state ≠ .run) : Call W (W.addLink src dst a)
  | vehicle (W : CWorld) (r : Rest W) (dep : ℚ) (orig dest : ℕ) (prefer : List ℕ)
      (ho : orig < W.g.nNodes) (hd : dest < W.g.nNodes) : Call W (W.addVehicle dep orig dest prefer)
  | tmax (W : CWorld) (r : Rest W) (t : ℚ) : Call W (W.setTMax t)
  | init (W : CWorld) (r : Rest W) : Call W W.initAdj
  | edit (W : CWorld) (r : Rest W) (e : Edit) : Call W (W.edit e)

theorem Evs.lift {P : CWorld → Prop} (he : ∀ W W', Ev W W' → P W → P W') {V V' : CWorld}
    (a : Evs V V') (p : P V) : P V' := by
  induction a with
  | refl => exact p
  | tail _ b ih => exact he _ _ b ih

/-- Every call is a sequence of events or one of the calls above. -/
theorem CStep.split {W W' : CWorld} (s : CStep W W') (r : Rest W) : Call W W' ∨ Evs W W' := by
  cases s with
  | node _ ints off cap lanes rng fuel h =>
    unfold addNode at h
    rw [Option.map_eq_some_iff] at h
    obtain ⟨p, _, rfl⟩ := h
    exact Or.inl (.node W r p ints off cap lanes rng)
  | link src dst a hs hd hl hr => exact Or.inl (.link W r src dst a hs hd hl hr)
  | vehicle dep orig dest prefer ho hd => exact Or.inl (.vehicle W r dep orig dest prefer ho hd)
  | tmax t => exact Or.inl (.tmax W r t)
  | init => exact Or.inl (.init W r)
  | edit e => exact Or.inl (.edit W r e)
  | run endTs sched hs =>
    exact Or.inr (mainLoop_evs r (fun t V _ => (hs t V).2.2.2.1.nodup_iff.2 List.nodup_range) endTs)

/-- An invariant of all reachable worlds: true of the empty world, kept by the calls that build or
edit a world, and by every event. -/
theorem CReach.invariant {P : CWorld → Prop}
    (h0 : ∀ fl tMax deltaN tau duoTime duoWeight noise hardDet gradual noCyclic adjustCap logMode ttInterval,
      P (CWorld.empty fl tMax deltaN tau duoTime duoWeight noise hardDet gradual noCyclic adjustCap
        logMode ttInterval))
    (hc : ∀ W W', Call W W' → P W → P W') (he : ∀ W W', Ev W W' → P W → P W') {W : CWorld}
    (h : CReach W) : P W := by
  induction h with
  | empty => exact h0 _ _ _ _ _ _ _ _ _ _ _ _ _
  | step hr s ih =>
    rcases s.split hr.rest with c | e
    · exact hc _ _ c ih
    · exact e.lift he ih

end UX.Cpp
