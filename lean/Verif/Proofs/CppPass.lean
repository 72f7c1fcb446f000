import Verif.Proofs.CppKinRun
import Verif.Proofs.CppLife

/-!
# Every vehicle on the road or waiting is updated exactly once in a time step

`PassRule P Q` says: `P` is kept by the stages of a time step before the update of the vehicles, the update
turns `P` into `Q` for the vehicle updated and keeps both for the others. Then in a time step without an
exception `P` for all vehicles becomes `Q` for all vehicles that are on the road or wait.
-/

namespace UX.Cpp
open CWorld Relation

structure PassRule (P Q : CWorld → ℕ → Prop) : Prop where
  update : ∀ W l w, P W w → P (W.linkUpdate l) w
  act : ∀ s W W', s = .gen ∨ s = .trans ∨ s = .follow → Act s W W' → ∀ w, P W w → P W' w
  run : ∀ W v l s, Inv W none none → (∀ n, (W.node n).incoming = []) → v ∈ (W.link l).vehs →
    (∀ m, v ∉ (W.link m).arrived) → P W v → Q (W.vehUpdate v s) v
  runP : ∀ W v l s, Inv W none none → (∀ n, (W.node n).incoming = []) → v ∈ (W.link l).vehs →
    (∀ m, v ∉ (W.link m).arrived) → ∀ w, w ≠ v → P W w → P (W.vehUpdate v s) w
  runQ : ∀ W v l s, Inv W none none → (∀ n, (W.node n).incoming = []) → v ∈ (W.link l).vehs →
    (∀ m, v ∉ (W.link m).arrived) → ∀ w, w ≠ v → Q W w → Q (W.vehUpdate v s) w
  wait : ∀ W v, (W.veh v).state = .wait → P W v → Q (W.logData v none) v
  waitP : ∀ W v w, w ≠ v → P W w → P (W.logData v none) w
  waitQ : ∀ W v w, w ≠ v → Q W w → Q (W.logData v none) w

/-- `Q` for the vehicles in `D`, `P` for the others. -/
def Half (P Q : CWorld → ℕ → Prop) (D : ℕ → Prop) (W : CWorld) : Prop :=
  ∀ w, (D w → Q W w) ∧ (¬ D w → P W w)

theorem Half.congr {P Q : CWorld → ℕ → Prop} {D D' : ℕ → Prop} {W : CWorld} (h : Half P Q D W)
    (hd : ∀ w, D w ↔ D' w) : Half P Q D' W :=
  fun w => ⟨fun hw => (h w).1 ((hd w).2 hw), fun hw => (h w).2 (fun hc => hw ((hd w).1 hc))⟩

variable {P Q : CWorld → ℕ → Prop}

theorem Act.runSub {W W' : CWorld} (a : Act .run W W') (m : ℕ) :
    (W'.link m).vehs = (W.link m).vehs ∨ (W'.link m).vehs = (W.link m).vehs.tail := by
  cases a with
  | log _ v l s i hv => exact Or.inl (core_vehs (core_logData W v s) m)
  | advance _ v l i hv => exact Or.inl rfl
  | abort _ v l i hv hd ho ha => exact Or.inl rfl
  | flag _ v l i hv hc => exact Or.inl rfl
  | endRun _ v l t i hq hna hi hf =>
    rw [endTripOn_vehs]
    by_cases e : m = l
    · subst e; exact Or.inr (by simp)
    · exact Or.inl (by simp [e])
  | reqErr _ l e =>
    left; rw [setL_link]; split
    · rename_i e; subst e; rfl
    · rfl
  | req _ v l o rng i hv hd hc =>
    left; rw [setL_link]; split
    · rename_i e; subst e; rfl
    · rfl

theorem Acts.runSub {W W' : CWorld} (a : Acts .run W W') {m v : ℕ} (h : v ∈ (W'.link m).vehs) :
    v ∈ (W.link m).vehs := by
  induction a with
  | refl => exact h
  | tail b c ih =>
    refine ih ?_
    rcases c.runSub m with e | e
    · rw [e] at h; exact h
    · rw [e] at h; exact List.mem_of_mem_tail h

theorem detach_state (W : CWorld) (v w : ℕ) : ((W.detach v).veh w).state = (W.veh w).state := by
  unfold CWorld.detach
  split
  · rw [setV_veh]; split
    · rename_i e; subst e; rfl
    · rfl
  · rfl

theorem endTripOn_state_ne (W : CWorld) {v l w : ℕ} (h : w ≠ v) :
    ((W.endTripOn v l).veh w).state = (W.veh w).state := by
  unfold CWorld.endTripOn
  extract_lets W1 W2 W3
  rw [logData_veh_of_ne _ _ _ _ h]
  show ((W2.setV v _).veh w).state = _
  rw [setV_veh, if_neg h, detach_state]; rfl

theorem setV_state (W : CWorld) (v : ℕ) (f : CVeh → CVeh) (h : ∀ V, (f V).state = V.state) (w : ℕ) :
    ((W.setV v f).veh w).state = (W.veh w).state := by
  rw [setV_veh]; split
  · rename_i e; subst e; exact h _
  · rfl

/-- The RUN pass changes only the state of vehicles on the road. -/
theorem Act.runState {W W' : CWorld} (a : Act .run W W') (w : ℕ) :
    (W'.veh w).state = (W.veh w).state ∨
      (W.veh w).state = .run ∧ ((W'.veh w).state = .ended ∨ (W'.veh w).state = .abort) := by
  cases a with
  | log _ v l s i hv => exact Or.inl (core_state (core_logData W v s) w)
  | advance _ v l i hv => exact Or.inl (setV_state _ _ _ (by intro V; rfl) _)
  | abort _ v l i hv hd ho ha => exact Or.inl (setV_state _ _ _ (by intro V; rfl) _)
  | flag _ v l i hv hc => exact Or.inl (setV_state _ _ _ (by intro V; rfl) _)
  | endRun _ v l t i hq hna hi hf =>
    by_cases e : w = v
    · subst e
      refine Or.inr ⟨(i.mem l w (by rw [hq]; simp)).2.1, ?_⟩
      unfold CWorld.endTripOn
      extract_lets W1 W2 W3
      rw [core_state (core_logData W3 w none)]
      show ((W2.setV w _).veh w).state = _ ∨ ((W2.setV w _).veh w).state = _
      rw [setV_veh, if_pos rfl]
      by_cases hb : (W2.veh w).flagAbort = true
      · exact Or.inr (if_pos hb)
      · exact Or.inl (if_neg hb)
    · exact Or.inl (endTripOn_state_ne W e)
  | reqErr _ l e => exact Or.inl rfl
  | req _ v l o rng i hv hd hc =>
    left
    rw [setL_veh]
    exact setV_state _ _ _ (by intro V; rfl) _

theorem Acts.runState {W W' : CWorld} (a : Acts .run W W') (w : ℕ) :
    (W'.veh w).state = (W.veh w).state ∨
      (W.veh w).state = .run ∧ ((W'.veh w).state = .ended ∨ (W'.veh w).state = .abort) := by
  induction a with
  | refl => exact Or.inl rfl
  | tail b c ih =>
    rcases c.runState w with h | ⟨h1, h2⟩
    · rw [h]; exact ih
    · rcases ih with h' | ⟨_, h'⟩
      · exact Or.inr ⟨by rw [← h']; exact h1, h2⟩
      · rw [h1] at h'; simp at h'

theorem PassRule.half_run (R : PassRule P Q) {W : CWorld} {v l : ℕ} {s : Option ℕ} {D : ℕ → Prop}
    (i : Inv W none none) (hinc : ∀ n, (W.node n).incoming = []) (hv : v ∈ (W.link l).vehs)
    (hna : ∀ m, v ∉ (W.link m).arrived) (hD : ¬ D v) (h : Half P Q D W) :
    Half P Q (fun w => D w ∨ w = v) (W.vehUpdate v s) := by
  intro w
  by_cases e : w = v
  · subst e
    exact ⟨fun _ => R.run W w l s i hinc hv hna ((h w).2 hD), fun hn => absurd (Or.inr rfl) hn⟩
  · refine ⟨fun hw => ?_, fun hn => ?_⟩
    · exact R.runQ W v l s i hinc hv hna w e ((h w).1 (hw.resolve_right e))
    · exact R.runP W v l s i hinc hv hna w e ((h w).2 (fun hc => hn (Or.inl hc)))

theorem PassRule.runFold (R : PassRule P Q) {l : ℕ} (ps : List (ℕ × Option ℕ)) {W : CWorld}
    (i : Inv W none none) (hinc : ∀ n, (W.node n).incoming = []) (hnd : (ps.map Prod.fst).Nodup)
    (hv : ∀ p ∈ ps, p.1 ∈ (W.link l).vehs ∧ ∀ m, p.1 ∉ (W.link m).arrived)
    {D : ℕ → Prop} (hD : ∀ p ∈ ps, ¬ D p.1) (h : Half P Q D W)
    (hex : ((ps.foldl (runVeh l) W).link l).exc = none) :
    Half P Q (fun w => D w ∨ w ∈ ps.map Prod.fst) (ps.foldl (runVeh l) W) := by
  induction ps generalizing W D with
  | nil => exact h.congr (by simp)
  | cons p ps ih =>
    have hrest := runFold_acts (p :: ps) i hinc hnd hv
    have he := Acts.exc (Or.inl rfl) hrest l hex
    simp only [List.foldl_cons] at hex ⊢
    obtain ⟨hp1, hp2⟩ := hv p (by simp)
    have hnd' : (ps.map Prod.fst).Nodup := by
      rw [List.map_cons] at hnd; exact (List.nodup_cons.1 hnd).2
    have hne : ∀ q ∈ ps, q.1 ≠ p.1 := fun q hq e => by
      rw [List.map_cons] at hnd
      exact (List.nodup_cons.1 hnd).1 (e ▸ List.mem_map_of_mem hq)
    have hr : runVeh l W p = W.vehUpdate p.1 p.2 := by simp [runVeh, he]
    rw [hr] at hex ⊢
    have hu := i.vehRun (s := p.2) hinc hp1 hp2
    refine (ih hu.inv hu.inc hnd' (fun q hq =>
        ⟨hu.mem q.1 (hne q hq) (hv q (by simp [hq])).1, fun m =>
          hu.arr q.1 (hne q hq) m ((hv q (by simp [hq])).2 m)⟩)
        (D := fun w => D w ∨ w = p.1) (fun q hq hc => ?_)
        (R.half_run i hinc hp1 hp2 (hD p (by simp)) h) hex).congr (fun w => ?_)
    · rcases hc with hc | hc
      · exact hD q (by simp [hq]) hc
      · exact hne q hq hc
    · rw [List.map_cons, List.mem_cons, or_assoc]

theorem PassRule.runPass (R : PassRule P Q) {l : ℕ} {W : CWorld} (r : Rest W) (ha : Clear W l)
    {D : ℕ → Prop} (hD : ∀ v ∈ (W.link l).vehs, ¬ D v) (h : Half P Q D W)
    (hex : ((W.runPass l).link l).exc = none) :
    Half P Q (fun w => D w ∨ w ∈ (W.link l).vehs) (W.runPass l) := by
  have hmap := snapPairs_map (W.link l).lanes (W.link l).vehs
  have hm : ∀ p ∈ snapPairs (W.link l).lanes (W.link l).vehs, p.1 ∈ (W.link l).vehs := fun p hp => by
    rw [← hmap]; exact List.mem_map_of_mem hp
  have := R.runFold (l := l) (snapPairs (W.link l).lanes (W.link l).vehs) r.inv r.inc
    (by rw [hmap]; exact r.inv.nd l) (fun p hp => by
      refine ⟨hm p hp, fun m h => ?_⟩
      have := r.inv.uniq (hm p hp) (r.inv.arr m p.1 h).1
      subst this
      rw [ha] at h; simp at h) (fun p hp => hD p.1 (hm p hp)) h hex
  rw [hmap] at this
  exact this

theorem PassRule.runAll (R : PassRule P Q) (xs : List ℕ) (hnd : xs.Nodup) {W : CWorld} (r : Rest W)
    (hc : ∀ l ∈ xs, Clear W l) {D : ℕ → Prop} (hD : ∀ l ∈ xs, ∀ v ∈ (W.link l).vehs, ¬ D v)
    (h : Half P Q D W) (hex : ∀ l ∈ xs, ((xs.foldl CWorld.runPass W).link l).exc = none) :
    ∃ E : ℕ → Prop, Half P Q E (xs.foldl CWorld.runPass W) ∧ (∀ w, D w → E w) ∧
      (∀ l ∈ xs, ∀ v ∈ ((xs.foldl CWorld.runPass W).link l).vehs, E v) ∧
      ∀ w, E w → D w ∨ (W.veh w).state = .run := by
  induction xs generalizing W D with
  | nil => exact ⟨D, h, fun _ hw => hw, fun l hl => by simp at hl, fun w hw => Or.inl hw⟩
  | cons l t ih =>
    obtain ⟨hl, ht⟩ := List.nodup_cons.1 hnd
    have hcl := hc l (by simp)
    obtain ⟨a, b, c, d⟩ := r.inv.runPass (l := l) r.inc hcl
    have hct : ∀ m ∈ t, Clear (W.runPass l) m := fun m hm => by
      unfold Clear
      rw [d m (fun e => hl (e ▸ hm))]; exact hc m (by simp [hm])
    have a1 := runPass_acts r hcl
    have arest := runAll_acts t ht ⟨a, c⟩ hct
    rw [List.foldl_cons] at hex ⊢
    have he := Acts.exc (Or.inl rfl) arest l (hex l (by simp))
    have h1 := R.runPass r hcl (hD l (by simp)) h he
    obtain ⟨E, e1, e2, e3, e4⟩ := ih ht ⟨a, c⟩ hct (D := fun w => D w ∨ w ∈ (W.link l).vehs)
      (fun m hm v hv hw => by
        have hv0 := Acts.runSub a1 hv
        rcases hw with hw | hw
        · exact hD m (by simp [hm]) v hv0 hw
        · exact hl ((r.inv.uniq hw hv0) ▸ hm)) h1 (fun m hm => hex m (by simp [hm]))
    refine ⟨E, e1, fun w hw => e2 w (Or.inl hw), fun m hm v hv => ?_, fun w hw => ?_⟩
    · rcases List.mem_cons.1 hm with e | e
      · subst e
        exact e2 v (Or.inr (Acts.runSub a1 (Acts.runSub arest hv)))
      · exact e3 m e v hv
    · rcases e4 w hw with h' | h'
      · rcases h' with h' | h'
        · exact Or.inl h'
        · exact Or.inr (r.inv.mem l w h').2.1
      · rcases Acts.runState a1 w with e | e
        · exact Or.inr (by rw [← e]; exact h')
        · rw [h'] at e; simp at e

/-! ## The WAIT pass -/

theorem PassRule.waitFold (R : PassRule P Q) (xs : List ℕ) (hnd : xs.Nodup) {W : CWorld}
    (hs : ∀ v ∈ xs, (W.veh v).state = .wait) {D : ℕ → Prop} (hD : ∀ v ∈ xs, ¬ D v) (h : Half P Q D W) :
    Half P Q (fun w => D w ∨ w ∈ xs) (xs.foldl (fun W v => W.vehUpdate v none) W) ∧
      (xs.foldl (fun W v => W.vehUpdate v none) W).core = W.core := by
  induction xs generalizing W D with
  | nil => exact ⟨h.congr (by simp), rfl⟩
  | cons v t ih =>
    obtain ⟨hv, ht⟩ := List.nodup_cons.1 hnd
    have hst := hs v (by simp)
    rw [List.foldl_cons, vehUpdate_wait hst]
    have hc : (W.logData v none).core = W.core := core_logData W v none
    have h1 : Half P Q (fun w => D w ∨ w = v) (W.logData v none) := by
      intro w
      by_cases e : w = v
      · subst e
        exact ⟨fun _ => R.wait W w hst ((h w).2 (hD w (by simp))), fun hn => absurd (Or.inr rfl) hn⟩
      · exact ⟨fun hw => R.waitQ W v w e ((h w).1 (hw.resolve_right e)),
          fun hn => R.waitP W v w e ((h w).2 (fun hc => hn (Or.inl hc)))⟩
    obtain ⟨p, q⟩ := ih ht (fun w hw => by rw [core_state hc]; exact hs w (by simp [hw]))
      (D := fun w => D w ∨ w = v) (fun w hw hc => by
        rcases hc with hc | hc
        · exact hD w (by simp [hw]) hc
        · exact hv (hc ▸ hw)) h1
    exact ⟨p.congr (fun w => by rw [List.mem_cons, or_assoc]), q.trans hc⟩

theorem PassRule.waitAll (R : PassRule P Q) (xs : List ℕ) (hnd : xs.Nodup) {W : CWorld} (r : Rest W)
    {D : ℕ → Prop} (hD : ∀ n ∈ xs, ∀ v ∈ (W.node n).genQ, ¬ D v) (h : Half P Q D W) :
    Half P Q (fun w => D w ∨ ∃ n ∈ xs, w ∈ (W.node n).genQ) (xs.foldl CWorld.waitPass W) ∧
      (xs.foldl CWorld.waitPass W).core = W.core := by
  induction xs generalizing W D with
  | nil => exact ⟨h.congr (by simp), rfl⟩
  | cons n t ih =>
    obtain ⟨hn, ht⟩ := List.nodup_cons.1 hnd
    obtain ⟨p, q⟩ := R.waitFold (W.node n).genQ (r.inv.gnd n) (fun v hv => ((r.inv.gen n v).1 hv).2.1)
      (hD n (by simp)) h
    rw [List.foldl_cons]
    have q' : (W.waitPass n).core = W.core := q
    obtain ⟨p2, q2⟩ := ih ht (W := W.waitPass n) (r.congr q'.symm)
      (D := fun w => D w ∨ w ∈ (W.node n).genQ) (fun m hm v hv hw => by
        rw [core_genQ q'] at hv
        rcases hw with hw | hw
        · exact hD m (by simp [hm]) v hv hw
        · have e1 := ((r.inv.gen n v).1 hw).2.2
          have e2 := ((r.inv.gen m v).1 hv).2.2
          exact hn (by rw [← e1, e2]; exact hm)) p
    refine ⟨p2.congr (fun w => ?_), q2.trans q'⟩
    simp only [core_genQ q', List.mem_cons, exists_eq_or_imp, or_assoc]

/-! ## The whole region -/

theorem PassRule.acts (R : PassRule P Q) {s : Stage} (hs : s = .gen ∨ s = .trans ∨ s = .follow)
    {W W' : CWorld} (a : Acts s W W') (h : ∀ w, P W w) (w : ℕ) : P W' w := by
  induction a with
  | refl => exact h w
  | tail _ c ih => exact R.act s _ _ hs c w ih

theorem PassRule.updates (R : PassRule P Q) (xs : List ℕ) {W : CWorld} (h : ∀ w, P W w) :
    ∀ w, P (xs.foldl CWorld.linkUpdate W) w := by
  induction xs generalizing W with
  | nil => exact h
  | cons l t ih => exact ih (fun w => R.update W l w (h w))

/-- A time step without an exception updates every vehicle that is on the road or waits. -/
theorem PassRule.region (R : PassRule P Q) {W : CWorld} (r : Rest W) {σ : Sched} (hσ : σ.Valid W)
    (h : ∀ w, P W w) (hex : ∀ l, l < W.g.nLinks → ((region σ W).link l).exc = none) (w : ℕ) :
    (w < W.g.nVehs → ((region σ W).veh w).state = .run ∨ ((region σ W).veh w).state = .wait →
      Q (region σ W) w) ∧ (P (region σ W) w ∨ Q (region σ W) w) := by
  have hrun : σ.run.Nodup := hσ.2.2.2.1.nodup_iff.2 List.nodup_range
  have hwait : σ.wait.Nodup := hσ.2.2.2.2.nodup_iff.2 List.nodup_range
  unfold CWorld.region at hex ⊢
  obtain ⟨r1, k1⟩ := Rest.foldl (fun W l r => Rest.linkUpdate r l) σ.update r
  have h1 := R.updates σ.update h
  simp only at hex ⊢
  generalize σ.update.foldl CWorld.linkUpdate W = W1 at *
  obtain ⟨r2, k2⟩ := Rest.foldl (fun W n r => Rest.nodeStage r n) σ.gen r1
  have s2 : Acts .gen W1 (σ.gen.foldl CWorld.nodeStage W1) :=
    foldl_acts (fun W n r => Rest.nodeStage r n) (fun W n r => nodeStage_acts r n) σ.gen r1
  generalize σ.gen.foldl CWorld.nodeStage W1 = W2 at *
  have h2 := R.acts (Or.inl rfl) s2 h1
  obtain ⟨r3, k3, c3⟩ := transferAll r2
  have s3 := transferAll_acts (List.range W2.g.nNodes) r2
  generalize (List.range W2.g.nNodes).foldl CWorld.transfer W2 = W3 at *
  have h3 := R.acts (Or.inr (Or.inl rfl)) s3 h2
  obtain ⟨r4, k4⟩ := Rest.foldl (fun W l r => Rest.followPass r l) σ.follow r3
  have s4 : Acts .follow W3 (σ.follow.foldl CWorld.followPass W3) :=
    foldl_acts (fun W l r => Rest.followPass r l) (fun W l r => followPass_acts r l) σ.follow r3
  have hc4 : (σ.follow.foldl CWorld.followPass W3).core = W3.core :=
    core_foldl _ (fun W l => core_followPass W l) σ.follow W3
  have c4 : ∀ l, Clear (σ.follow.foldl CWorld.followPass W3) l := fun l => by
    unfold Clear; rw [core_arrived hc4]; exact c3 l
  generalize σ.follow.foldl CWorld.followPass W3 = W4 at *
  have h4 := R.acts (Or.inr (Or.inr rfl)) s4 h3
  have k14 := ((k1.trans k2).trans k3).trans k4
  obtain ⟨r5, k5⟩ := UX.Cpp.runAll σ.run hrun r4 (fun l _ => c4 l)
  have s5 := runAll_acts σ.run hrun r4 (fun l _ => c4 l)
  have s6 : Acts .wait (σ.run.foldl CWorld.runPass W4) (σ.wait.foldl CWorld.waitPass (σ.run.foldl CWorld.runPass W4)) :=
    foldl_acts (fun W n r => Rest.waitPass r n) (fun W n r => waitPass_acts r n) σ.wait r5
  have hrl : ∀ l ∈ σ.run, l < W.g.nLinks := fun l hl => List.mem_range.1 (hσ.2.2.2.1.mem_iff.1 hl)
  obtain ⟨E, e1, _, e3, e4⟩ := R.runAll σ.run hrun r4 (fun l _ => c4 l) (D := fun _ => False)
    (fun _ _ _ _ h => h) (fun w => ⟨fun h => h.elim, fun _ => h4 w⟩)
    (fun l hl => Acts.exc (Or.inr rfl) s6 l (hex l (hrl l hl)))
  generalize σ.run.foldl CWorld.runPass W4 = W5 at *
  have k15 := k14.trans k5
  obtain ⟨f1, f2⟩ := R.waitAll σ.wait hwait r5 (D := E) (fun n _ v hv hE => by
    have hw := ((r5.inv.gen n v).1 hv).2.1
    rcases Acts.runState s5 v with e | ⟨_, e⟩
    · rcases e4 v hE with h | h
      · exact h.elim
      · rw [← e, hw] at h; simp at h
    · rw [hw] at e; simp at e) e1
  generalize σ.wait.foldl CWorld.waitPass W5 = W6 at *
  constructor
  · intro hlt hst
    have hlt5 : w < W5.g.nVehs := by rw [k15.g]; exact hlt
    rw [core_state f2] at hst
    refine (f1 w).1 ?_
    rcases hst with hst | hst
    · rcases r5.inv.run w hlt5 hst with h | ⟨l, hl⟩
      · simp at h
      · refine Or.inl (e3 l (hσ.2.2.2.1.mem_iff.2 (List.mem_range.2 ?_)) w hl)
        rw [← k15.g]; exact (r5.inv.mem l w hl).2.2.1
    · refine Or.inr ⟨(W5.veh w).orig, hσ.2.2.2.2.mem_iff.2 (List.mem_range.2 ?_),
        (r5.inv.gen _ w).2 ⟨hlt5, hst, rfl⟩⟩
      rw [← k15.g]; exact r5.inv.orig w hlt5
  · by_cases hE : E w ∨ ∃ n ∈ σ.wait, w ∈ (W5.node n).genQ
    · exact Or.inr ((f1 w).1 hE)
    · exact Or.inl ((f1 w).2 hE)

end UX.Cpp
