import Verif.Proofs.CppKinMove

/-!
# Positions and spacing: car following and the RUN pass
-/

namespace UX.Cpp
open CWorld Relation Spec

/-! ## Car following -/

/-- The position that `car_follow_newell` gives to `v` on link `l`. -/
def CWorld.aim (W : CWorld) (v l : ℕ) : ℚ :=
  if (W.link l).len < W.followPos v l then (W.link l).len else W.followPos v l

/-- Nothing changes that `car_follow_newell` reads. -/
structure Placed (W V : CWorld) : Prop where
  g : V.g = W.g
  link : V.link = W.link
  veh : ∀ w, (V.veh w).x = (W.veh w).x ∧ (V.veh w).leader = (W.veh w).leader ∧
    (V.veh w).link = (W.veh w).link ∧ (V.veh w).count = (W.veh w).count

theorem Placed.refl (W : CWorld) : Placed W W := ⟨rfl, rfl, fun _ => ⟨rfl, rfl, rfl, rfl⟩⟩

theorem Placed.follow {W V : CWorld} (p : Placed W V) (v l : ℕ) : V.followPos v l = W.followPos v l := by
  unfold followPos
  have hg : V.gap l = W.gap l := by unfold CWorld.gap; rw [p.g, p.link]
  have hx : (fun u => (V.veh u).x) = fun u => (W.veh u).x := funext fun u => (p.veh u).1
  have hx' : ∀ u, (V.veh u).x = (W.veh u).x := fun u => (p.veh u).1
  simp only [hx', p.g, p.link, hg, (p.veh v).2.1]

theorem Placed.aim {W V : CWorld} (p : Placed W V) (v l : ℕ) : V.aim v l = W.aim v l := by
  unfold CWorld.aim; rw [p.follow, p.link]

theorem carFollow_placed {W V : CWorld} (p : Placed W V) (v : ℕ) : Placed W (V.carFollow v) := by
  unfold CWorld.carFollow
  split
  · exact p
  · split <;> refine ⟨p.g, p.link, fun w => ?_⟩ <;> rw [setV_veh] <;> split
    · rename_i e; subst e; exact p.veh w
    · exact p.veh w
    · rename_i e; subst e; exact p.veh w
    · exact p.veh w

theorem carFollow_next {W V : CWorld} (p : Placed W V) (v w l : ℕ) (hl : (W.veh w).link = some l)
    (h : w = v ∨ (V.veh w).xNext = W.aim w l) : ((V.carFollow v).veh w).xNext = W.aim w l := by
  by_cases e : w = v
  · subst e
    have hl' : (V.veh w).link = some l := by rw [(p.veh w).2.2.1]; exact hl
    unfold CWorld.carFollow
    rw [hl']
    simp only
    rw [← p.aim]
    unfold CWorld.aim
    split <;> rw [setV_veh, if_pos rfl]
  · have hn : (V.veh w).xNext = W.aim w l := h.resolve_left e
    unfold CWorld.carFollow
    split
    · exact hn
    · split <;> rw [setV_veh, if_neg e] <;> exact hn

theorem carFollows {W V : CWorld} (xs : List ℕ) (p : Placed W V) :
    Placed W (xs.foldl CWorld.carFollow V) ∧ ∀ w l, (W.veh w).link = some l →
      (w ∈ xs ∨ (V.veh w).xNext = W.aim w l) →
        ((xs.foldl CWorld.carFollow V).veh w).xNext = W.aim w l := by
  induction xs generalizing V with
  | nil => exact ⟨p, fun w l _ h => h.resolve_left (by simp)⟩
  | cons v t ih =>
    obtain ⟨a, b⟩ := ih (carFollow_placed p v)
    refine ⟨a, fun w l hl h => b w l hl ?_⟩
    rcases h with h | h
    · rcases List.mem_cons.1 h with h | h
      · exact Or.inr (carFollow_next p v w l hl (Or.inl h))
      · exact Or.inl h
    · exact Or.inr (carFollow_next p v w l hl (Or.inr h))

theorem followPasses {W V : CWorld} (ls : List ℕ) (p : Placed W V) :
    Placed W (ls.foldl CWorld.followPass V) ∧ ∀ w l, (W.veh w).link = some l →
      ((∃ m ∈ ls, w ∈ (W.link m).vehs) ∨ (V.veh w).xNext = W.aim w l) →
        ((ls.foldl CWorld.followPass V).veh w).xNext = W.aim w l := by
  induction ls generalizing V with
  | nil => exact ⟨p, fun w l _ h => h.resolve_left (by simp)⟩
  | cons m t ih =>
    obtain ⟨a, b⟩ := carFollows (V.link m).vehs p
    obtain ⟨a', b'⟩ := ih (V := V.followPass m) a
    refine ⟨a', fun w l hl h => b' w l hl ?_⟩
    rcases h with ⟨m', hm', hw⟩ | h
    · rcases List.mem_cons.1 hm' with e | e
      · subst e
        exact Or.inr (b w l hl (Or.inl (by rw [p.link]; exact hw)))
      · exact Or.inl ⟨m', e, hw⟩
    · exact Or.inr (b w l hl (Or.inr h))

/-! ## Queues with targets -/

/-- Positions `x` and targets `xn` on a queue `q`. -/
structure RQ (fl : ℚ → ℚ) (gap len : ℚ) (lanes : ℕ) (q : List ℕ) (x xn : ℕ → ℚ) : Prop where
  pos : ∀ v ∈ q, 0 ≤ x v ∧ x v ≤ xn v ∧ xn v ≤ len
  sp : ∀ i u v, q[i]? = some u → q[i + lanes]? = some v → xn v ≤ fl (x u - gap)

theorem RQ.congr {fl : ℚ → ℚ} {gap len : ℚ} {lanes : ℕ} {q : List ℕ} {x xn x' xn' : ℕ → ℚ}
    (h : RQ fl gap len lanes q x xn) (hx : ∀ v ∈ q, x' v = x v) (hn : ∀ v ∈ q, xn' v = xn v) :
    RQ fl gap len lanes q x' xn' := by
  refine ⟨fun v hv => by rw [hx v hv, hn v hv]; exact h.pos v hv, fun i u v hu hv => ?_⟩
  rw [hn v (List.mem_of_getElem? hv), hx u (List.mem_of_getElem? hu)]
  exact h.sp i u v hu hv

theorem RQ.pop {fl : ℚ → ℚ} {gap len : ℚ} {lanes : ℕ} {q : List ℕ} {x xn : ℕ → ℚ}
    (h : RQ fl gap len lanes q x xn) : RQ fl gap len lanes q.tail x xn := by
  refine ⟨fun v hv => h.pos v (List.mem_of_mem_tail hv), fun i u v hu hv => ?_⟩
  rw [List.getElem?_tail] at hu hv
  exact h.sp (i + 1) u v hu (by rw [Nat.add_right_comm]; exact hv)

theorem RQ.advance {fl : ℚ → ℚ} (ok : FlOK fl) {gap len : ℚ} {lanes : ℕ} {q : List ℕ} {x xn x' : ℕ → ℚ}
    {w : ℕ} (h : RQ fl gap len lanes q x xn) (hx : ∀ v, x' v = if v = w then xn v else x v) :
    RQ fl gap len lanes q x' xn := by
  have hle : ∀ v ∈ q, x v ≤ x' v := fun v hv => by
    rw [hx]; split
    · exact (h.pos v hv).2.1
    · exact le_rfl
  refine ⟨fun v hv => ?_, fun i u v hu hv => ?_⟩
  · obtain ⟨a, b, c⟩ := h.pos v hv
    refine ⟨a.trans (hle v hv), ?_, c⟩
    rw [hx]; split
    · exact le_rfl
    · exact b
  · refine (h.sp i u v hu hv).trans (ok.mono ?_)
    have := hle u (List.mem_of_getElem? hu)
    linarith

/-- The queue of link `l` with targets. -/
def RL (W : CWorld) (l : ℕ) : Prop :=
  RQ W.g.fl (W.gap l) (W.link l).len (W.link l).lanes (W.link l).vehs (fun v => (W.veh v).x)
    (fun v => (W.veh v).xNext)

theorem RL.mk {W W' : CWorld} {l : ℕ} (kp : Keep W W')
    (h : RQ W.g.fl (W.gap l) (W.link l).len (W.link l).lanes (W'.link l).vehs (fun v => (W'.veh v).x)
      (fun v => (W'.veh v).xNext)) : RL W' l := by
  unfold RL
  rw [kp.g, kp.gap, kp.samePar.len, kp.samePar.lanes]; exact h

theorem aim_bounds {W : CWorld} {v l : ℕ} (hx : (W.veh v).x ≤ (W.link l).len) :
    (W.veh v).x ≤ W.aim v l ∧ W.aim v l ≤ (W.link l).len := by
  have h1 : (W.veh v).x ≤ W.followPos v l := by
    unfold followPos
    extract_lets x0 x1
    generalize x1 = y
    split
    · exact le_rfl
    · rename_i h; exact not_lt.1 h
  unfold CWorld.aim
  split
  · exact ⟨hx, le_rfl⟩
  · rename_i h; exact ⟨h1, not_lt.1 h⟩

theorem aim_leader {W : CWorld} {v l u : ℕ} (hu : (W.veh v).leader = some u)
    (h : (W.veh v).x ≤ W.g.fl ((W.veh u).x - W.gap l)) :
    W.aim v l ≤ W.g.fl ((W.veh u).x - W.gap l) := by
  have h1 : W.followPos v l ≤ W.g.fl ((W.veh u).x - W.gap l) := by
    simp only [followPos, hu]
    rw [if_neg (not_lt.2 h)]
    have hc : (if W.g.fl ((W.veh u).x - W.gap l) < W.g.fl ((W.veh v).x + W.g.fl ((W.link l).vmax * W.g.deltaT))
        then W.g.fl ((W.veh u).x - W.gap l)
        else W.g.fl ((W.veh v).x + W.g.fl ((W.link l).vmax * W.g.deltaT))) ≤
        W.g.fl ((W.veh u).x - W.gap l) := by
      split
      · exact le_rfl
      · rename_i h; exact not_lt.1 h
    generalize (if W.g.fl ((W.veh u).x - W.gap l) < W.g.fl ((W.veh v).x + W.g.fl ((W.link l).vmax * W.g.deltaT))
        then W.g.fl ((W.veh u).x - W.gap l)
        else W.g.fl ((W.veh v).x + W.g.fl ((W.link l).vmax * W.g.deltaT))) = c at *
    split
    · exact h
    · exact hc
  unfold CWorld.aim
  split
  · rename_i h'; exact h'.le.trans h1
  · exact h1

/-- After the car-following pass every vehicle has a target that keeps the spacing. -/
theorem follow_rl {W : CWorld} (r : Rest W) {κ : ℕ → ℕ} (h : KAll W κ) {ls : List ℕ}
    (hls : ∀ l, l < W.g.nLinks → l ∈ ls) (l : ℕ) (hl : l < W.g.nLinks) :
    RL (ls.foldl CWorld.followPass W) l := by
  obtain ⟨p, hn⟩ := followPasses ls (Placed.refl W)
  have hnext : ∀ v ∈ (W.link l).vehs, ((ls.foldl CWorld.followPass W).veh v).xNext = W.aim v l := fun v hv =>
    hn v l (r.inv.mem l v hv).1 (Or.inl ⟨l, hls l hl, hv⟩)
  generalize ls.foldl CWorld.followPass W = V at *
  have hk := h l hl
  have hg : V.gap l = W.gap l := by unfold CWorld.gap; rw [p.g, p.link]
  unfold RL
  rw [p.g, p.link, hg]
  refine RQ.congr (x := fun v => (W.veh v).x) (xn := fun v => W.aim v l) ?_ (fun v _ => (p.veh v).1) hnext
  refine ⟨fun v hv => ?_, fun i u v hu hv => ?_⟩
  · obtain ⟨a, b⟩ := hk.pos v hv
    exact ⟨a, aim_bounds b⟩
  · refine aim_leader ?_ (hk.sp i u v hu hv)
    have := (r.inv.linked l hl (i + (W.link l).lanes) v hv).1
    rw [if_pos (by omega), Nat.add_sub_cancel, hu] at this
    exact this

/-! ## The RUN pass -/

/-- Queues, positions, targets and numbers of links stay. -/
def Still (W W' : CWorld) : Prop :=
  (∀ l, (W'.link l).vehs = (W.link l).vehs) ∧ ∀ w, (W'.veh w).x = (W.veh w).x ∧
    (W'.veh w).xOld = (W.veh w).xOld ∧ (W'.veh w).xNext = (W.veh w).xNext ∧
    (W'.veh w).count = (W.veh w).count

theorem Still.quiet {W W' : CWorld} (s : Still W W') : Quiet W W' :=
  ⟨s.1, fun w => ⟨(s.2 w).1, (s.2 w).2.1, (s.2 w).2.2.2⟩⟩

theorem Still.setV (W : CWorld) (v : ℕ) (f : CVeh → CVeh)
    (h : ∀ V, (f V).x = V.x ∧ (f V).xOld = V.xOld ∧ (f V).xNext = V.xNext ∧ (f V).count = V.count) :
    Still W (W.setV v f) := by
  refine ⟨fun _ => rfl, fun w => ?_⟩
  rw [setV_veh]
  split
  · rename_i e; subst e; exact h _
  · exact ⟨rfl, rfl, rfl, rfl⟩

theorem Still.log (W : CWorld) (v : ℕ) (s : Option ℕ) : Still W (W.logData v s) := by
  refine ⟨fun l => core_vehs (core_logData W v s) l, fun w => ?_⟩
  have h := logData_noLog W v s w
  refine ⟨?_, ?_, ?_, ?_⟩
  · have a := congrArg (fun V : CVeh => V.x) h; exact a
  · have a := congrArg (fun V : CVeh => V.xOld) h; exact a
  · have a := congrArg (fun V : CVeh => V.xNext) h; exact a
  · have a := congrArg (fun V : CVeh => V.count) h; exact a

/-- The RUN pass, begun in `W4`, when the vehicles in `D` have moved. -/
structure RunInv (W4 W : CWorld) (D : ℕ → Prop) : Prop where
  rl : ∀ l, l < W.g.nLinks → RL W l
  nxt : ∀ l w, w ∈ (W.link l).vehs → w ∈ (W4.link l).vehs ∧ (W.veh w).xNext = (W4.veh w).xNext ∧
    (W.veh w).count = (W4.veh w).count
  done : ∀ w, D w → ∀ l, w ∈ (W.link l).vehs → (W.veh w).xOld ≤ (W.veh w).x ∧
    (W.veh w).x = (W.veh w).xNext

theorem RunInv.still {W4 W W' : CWorld} {D : ℕ → Prop} (h : RunInv W4 W D) (kp : Keep W W') (s : Still W W') :
    RunInv W4 W' D := by
  refine ⟨fun l hl => RL.mk kp ?_, fun l w hw => ?_, fun w hD l hw => ?_⟩
  · rw [s.1]
    exact RQ.congr (h.rl l (by rw [← kp.g]; exact hl)) (fun v _ => (s.2 v).1) (fun v _ => (s.2 v).2.2.1)
  · rw [s.1] at hw
    rw [(s.2 w).2.2.1, (s.2 w).2.2.2]; exact h.nxt l w hw
  · rw [s.1] at hw
    rw [(s.2 w).1, (s.2 w).2.1, (s.2 w).2.2.1]; exact h.done w hD l hw

theorem advance_x (W : CWorld) (v w : ℕ) :
    ((W.advance v).veh w).x = (if w = v then (W.veh w).xNext else (W.veh w).x) ∧
    ((W.advance v).veh w).xOld = (if w = v then (W.veh w).x else (W.veh w).xOld) ∧
    ((W.advance v).veh w).xNext = (W.veh w).xNext ∧ ((W.advance v).veh w).count = (W.veh w).count := by
  unfold CWorld.advance
  rw [setV_veh]
  split
  · rename_i e; subst e; exact ⟨rfl, rfl, rfl, rfl⟩
  · exact ⟨rfl, rfl, rfl, rfl⟩

/-- The vehicle moves to its target. -/
theorem RunInv.advance {W4 W : CWorld} {D : ℕ → Prop} (h : RunInv W4 W D) (i : Inv W none none)
    (ok : FlOK W.g.fl) (v : ℕ) : RunInv W4 (W.advance v) (fun w => D w ∨ w = v) := by
  have hx := advance_x W v
  refine ⟨fun l hl => ?_, fun l w hw => ?_, fun w hD l hw => ?_⟩
  · have := h.rl l hl
    exact RQ.congr (RQ.advance ok this (x' := fun w => ((W.advance v).veh w).x) (fun w => (hx w).1))
      (fun _ _ => rfl) (fun w _ => (hx w).2.2.1)
  · rw [(hx w).2.2.1, (hx w).2.2.2]; exact h.nxt l w hw
  · have hw' : w ∈ (W.link l).vehs := hw
    rw [(hx w).1, (hx w).2.1, (hx w).2.2.1]
    by_cases e : w = v
    · rw [if_pos e, if_pos e]
      exact ⟨((h.rl l (i.mem l w hw').2.2.1).pos w hw').2.1, rfl⟩
    · rw [if_neg e, if_neg e]
      exact h.done w (hD.resolve_right e) l hw'

theorem RunInv.weaken {W4 W : CWorld} {D D' : ℕ → Prop} (h : RunInv W4 W D) (hd : ∀ w, D' w → D w) :
    RunInv W4 W D' := ⟨h.rl, h.nxt, fun w hw => h.done w (hd w hw)⟩

theorem RunInv.endTrip {W4 W : CWorld} {D : ℕ → Prop} (h : RunInv W4 W D) (i : Inv W none none) {v l : ℕ}
    {t : List ℕ} (hq : (W.link l).vehs = v :: t) (kp : Keep W (W.endTripOn v l)) :
    RunInv W4 (W.endTripOn v l) D := by
  have hva : v ∈ (W.link l).vehs := by rw [hq]; simp
  have hnt : v ∉ t := by have := i.nd l; rw [hq] at this; exact (List.nodup_cons.1 this).1
  have hvs : ∀ m, ((W.endTripOn v l).link m).vehs = if m = l then (W.link m).vehs.tail else (W.link m).vehs :=
    fun m => by
      rw [endTripOn_vehs]
      by_cases e : m = l
      · subst e; rfl
      · rw [if_neg e, if_neg e]
  have hmem : ∀ m w, w ∈ ((W.endTripOn v l).link m).vehs → w ∈ (W.link m).vehs ∧ w ≠ v := fun m w hw => by
    rw [hvs] at hw
    split at hw
    · rename_i e; subst e
      refine ⟨List.mem_of_mem_tail hw, fun e => ?_⟩
      rw [hq, List.tail_cons] at hw; exact hnt (e ▸ hw)
    · rename_i e
      exact ⟨hw, fun h => e (i.uniq (h ▸ hw) hva)⟩
  refine ⟨fun m hm => RL.mk kp ?_, fun m w hw => ?_, fun w hD m hw => ?_⟩
  · have h0 := h.rl m (by rw [← kp.g]; exact hm)
    have h1 : RQ W.g.fl (W.gap m) (W.link m).len (W.link m).lanes ((W.endTripOn v l).link m).vehs
        (fun v => (W.veh v).x) (fun v => (W.veh v).xNext) := by
      rw [hvs]; split
      · exact RQ.pop h0
      · exact h0
    exact h1.congr (fun w hw => (endTripOn_x W v l w (hmem m w hw).2).1)
      (fun w hw => (endTripOn_x W v l w (hmem m w hw).2).2.2.1)
  · obtain ⟨a, b, c, d⟩ := endTripOn_x W v l w (hmem m w hw).2
    rw [c, d]; exact h.nxt m w (hmem m w hw).1
  · obtain ⟨a, b, c, d⟩ := endTripOn_x W v l w (hmem m w hw).2
    rw [a, b, c]; exact h.done w hD m (hmem m w hw).1

theorem Act.runInv {W4 W W' : CWorld} {D : ℕ → Prop} (a : Act .run W W') (kp : Keep W W') (ok : FlOK W.g.fl)
    (h : RunInv W4 W D) : RunInv W4 W' D := by
  cases a with
  | log _ v l s i hv => exact h.still kp (Still.log W v s)
  | advance _ v l i hv => exact (h.advance i ok v).weaken (fun w hw => Or.inl hw)
  | abort _ v l i hv hd ho ha =>
    exact h.still kp (Still.setV W v _ (fun V => ⟨rfl, rfl, rfl, rfl⟩))
  | flag _ v l i hv hc => exact h.still kp (Still.setV W v _ (fun V => ⟨rfl, rfl, rfl, rfl⟩))
  | endRun _ v l t i hq hna hi hf => exact h.endTrip i hq kp
  | reqErr _ l e =>
    refine h.still kp ⟨fun m => ?_, fun w => ⟨rfl, rfl, rfl, rfl⟩⟩
    rw [setL_link]; split
    · rename_i e; subst e; rfl
    · rfl
  | req _ v l o rng i hv hd hc =>
    have s := Still.setV W v (fun V => { V with next := o }) (fun V => ⟨rfl, rfl, rfl, rfl⟩)
    refine h.still kp ⟨fun m => ?_, fun w => s.2 w⟩
    rw [setL_link]; split
    · rename_i e; subst e; rfl
    · rfl

theorem Acts.runInv {W4 W W' : CWorld} {D : ℕ → Prop} (a : Acts .run W W') (ok : FlOK W.g.fl)
    (h : RunInv W4 W D) : RunInv W4 W' D := by
  induction a with
  | refl => exact h
  | tail b c ih =>
    exact c.runInv (Acts.keep (.single c)) (by rw [(Acts.keep b).g]; exact ok) ih

/-! ## Exceptions stay -/

theorem logData_exc (W : CWorld) (v : ℕ) (s : Option ℕ) (m : ℕ) :
    ((W.logData v s).link m).exc = (W.link m).exc := by
  have h1 : ((W.logStats v).link m).exc = (W.link m).exc := by
    unfold logStats; split
    · rw [setL_link]; split
      · rename_i e; subst e; rfl
      · rfl
    · rfl
    · rfl
  unfold logData logPush
  split
  · exact h1
  · exact h1

theorem endTripOn_exc (W : CWorld) (v l m : ℕ) : ((W.endTripOn v l).link m).exc = (W.link m).exc := by
  unfold CWorld.endTripOn
  extract_lets W1 W2 W3
  rw [logData_exc]
  show (W2.link m).exc = _
  have h2 : W2.link = W1.link := detach_link W1 v
  rw [h2]
  show ((W.setL l _).link m).exc = _
  rw [setL_link]; split
  · rename_i e; subst e; rfl
  · rfl

theorem Act.exc {s : Stage} {W W' : CWorld} (hs : s = .run ∨ s = .wait) (a : Act s W W') (m : ℕ)
    (h : (W'.link m).exc = none) : (W.link m).exc = none := by
  cases a with
  | log _ v l s i hv => rw [logData_exc] at h; exact h
  | advance _ v l i hv => exact h
  | abort _ v l i hv hd ho ha => exact h
  | flag _ v l i hv hc => exact h
  | endRun _ v l t i hq hna hi hf => rw [endTripOn_exc] at h; exact h
  | reqErr _ l e =>
    rw [setL_link] at h; split at h
    · simp at h
    · exact h
  | req _ v l o rng i hv hd hc =>
    rw [setL_link] at h; split at h
    · rename_i e; subst e; exact h
    · exact h
  | waitLog _ n v i hv => rw [logData_exc] at h; exact h
  | _ => simp at hs

theorem Acts.exc {s : Stage} {W W' : CWorld} (hs : s = .run ∨ s = .wait) (a : Acts s W W') (m : ℕ)
    (h : (W'.link m).exc = none) : (W.link m).exc = none := by
  induction a with
  | refl => exact h
  | tail b c ih => exact ih (c.exc hs m h)

/-- `Vehicle::update` in state RUN after the movement. -/
theorem vehRun_tail {W : CWorld} {v l : ℕ} {s : Option ℕ} (i : Inv W none none)
    (hinc : ∀ n, (W.node n).incoming = []) (hv : v ∈ (W.link l).vehs)
    (hna : ∀ m, v ∉ (W.link m).arrived) :
    Acts .run ((W.logData v s).advance v) (W.vehUpdate v s) := by
  have hst := (i.mem l v hv).2.1
  have hlk := (i.mem l v hv).1
  have hc1 : (W.logData v s).core = W.core := core_logData W v s
  have hc2 : ((W.logData v s).advance v).core = W.core := (core_advance _ v).trans hc1
  have hst1 : ((W.logData v s).veh v).state = .run := by rw [core_state hc1]; exact hst
  have hlk2 : (((W.logData v s).advance v).veh v).link = some l := by rw [core_linkOf hc2]; exact hlk
  simp only [CWorld.vehUpdate, hst1, hlk2]
  split
  · rename_i hx
    exact atEnd_acts (i.congr hc2.symm) (fun n => by rw [core_incoming hc2]; exact hinc n)
      (by rw [core_vehs hc2]; exact hv) (fun m => by rw [core_arrived hc2]; exact hna m)
      (fun hm => by
        have e1 : (((W.logData v s).advance v).veh v).log = ((W.logData v s).veh v).log := by
          unfold CWorld.advance; rw [setV_veh, if_pos rfl]
        rw [e1]
        exact logData_logged (by rw [← hm]; exact congrArg CGlob.logMode (core_g hc2).symm) hst hlk) hx
  · exact .refl

theorem runFold_inv {l : ℕ} (ps : List (ℕ × Option ℕ)) {W4 W : CWorld} (i : Inv W none none)
    (hinc : ∀ n, (W.node n).incoming = []) (hnd : (ps.map Prod.fst).Nodup)
    (hv : ∀ p ∈ ps, p.1 ∈ (W.link l).vehs ∧ ∀ m, p.1 ∉ (W.link m).arrived) (ok : FlOK W.g.fl)
    {D : ℕ → Prop} (h : RunInv W4 W D) :
    RunInv W4 (ps.foldl (runVeh l) W) (fun w => D w ∨ w ∈ ps.map Prod.fst ∧
      ((ps.foldl (runVeh l) W).link l).exc = none) := by
  induction ps generalizing W D with
  | nil => exact h.weaken (fun w hw => hw.resolve_right (by simp))
  | cons p ps ih =>
    have hrest := runFold_acts (p :: ps) i hinc hnd hv
    simp only [List.foldl_cons] at hrest ⊢
    obtain ⟨hp1, hp2⟩ := hv p (by simp)
    have hnd' : (ps.map Prod.fst).Nodup := by
      rw [List.map_cons] at hnd; exact (List.nodup_cons.1 hnd).2
    have hne : ∀ q ∈ ps, q.1 ≠ p.1 := fun q hq e => by
      rw [List.map_cons] at hnd
      exact (List.nodup_cons.1 hnd).1 (e ▸ List.mem_map_of_mem hq)
    by_cases he : (W.link l).exc = none
    · have hr : runVeh l W p = W.vehUpdate p.1 p.2 := by simp [runVeh, he]
      rw [hr]
      have hu := i.vehRun (s := p.2) hinc hp1 hp2
      have hc1 : (W.logData p.1 p.2).core = W.core := core_logData W p.1 p.2
      have k1 : Keep W (W.logData p.1 p.2) := Acts.keep (.single (Act.log W p.1 l p.2 i hp1))
      have h1 : RunInv W4 (W.logData p.1 p.2) D := h.still k1 (Still.log W p.1 p.2)
      have h2 := h1.advance (i.congr hc1.symm) (by rw [k1.g]; exact ok) p.1
      have h3 := Acts.runInv (vehRun_tail (s := p.2) i hinc hp1 hp2)
        (show FlOK (W.logData p.1 p.2).g.fl by rw [k1.g]; exact ok) h2
      have kv := Acts.keep (vehRun_acts (s := p.2) i hinc hp1 hp2)
      have h4 := ih hu.inv hu.inc hnd' (fun q hq =>
        ⟨hu.mem q.1 (hne q hq) (hv q (by simp [hq])).1, fun m =>
          hu.arr q.1 (hne q hq) m ((hv q (by simp [hq])).2 m)⟩) (by rw [kv.g]; exact ok) h3
      refine h4.weaken (fun w hw => ?_)
      rcases hw with hw | ⟨hw, hex⟩
      · exact Or.inl (Or.inl hw)
      · rw [List.map_cons] at hw
        rcases List.mem_cons.1 hw with e | e
        · exact Or.inl (Or.inr e)
        · exact Or.inr ⟨e, hex⟩
    · have hr : runVeh l W p = W := by simp [runVeh, he]
      rw [hr] at hrest ⊢
      refine (ih i hinc hnd' (fun q hq => hv q (by simp [hq])) ok h).weaken (fun w hw => ?_)
      rcases hw with hw | ⟨_, hex⟩
      · exact Or.inl hw
      · exact absurd (Acts.exc (Or.inl rfl) hrest l hex) he

theorem runPass_inv {l : ℕ} {W4 W : CWorld} (r : Rest W) (ha : Clear W l) (ok : FlOK W.g.fl)
    {D : ℕ → Prop} (h : RunInv W4 W D) : RunInv W4 (W.runPass l) (fun w => D w ∨
      w ∈ (W.link l).vehs ∧ ((W.runPass l).link l).exc = none) := by
  have hmap := snapPairs_map (W.link l).lanes (W.link l).vehs
  have := runFold_inv (l := l) (snapPairs (W.link l).lanes (W.link l).vehs) r.inv r.inc
    (by rw [hmap]; exact r.inv.nd l) (fun p hp => by
      have hm : p.1 ∈ (W.link l).vehs := by
        rw [← hmap]; exact List.mem_map_of_mem hp
      refine ⟨hm, fun m h => ?_⟩
      have := r.inv.uniq hm (r.inv.arr m p.1 h).1
      subst this
      rw [ha] at h; simp at h) ok h
  rw [hmap] at this
  exact this

theorem runAll_inv (xs : List ℕ) (hnd : xs.Nodup) {W4 W : CWorld} (r : Rest W)
    (hc : ∀ l ∈ xs, Clear W l) (ok : FlOK W.g.fl) {D : ℕ → Prop} (h : RunInv W4 W D)
    (hex : ∀ l ∈ xs, ((xs.foldl CWorld.runPass W).link l).exc = none) :
    RunInv W4 (xs.foldl CWorld.runPass W) (fun w => D w ∨
      ∃ l ∈ xs, w ∈ ((xs.foldl CWorld.runPass W).link l).vehs) := by
  induction xs generalizing W D with
  | nil => exact h.weaken (fun w hw => hw.resolve_right (by simp))
  | cons l t ih =>
    obtain ⟨hl, ht⟩ := List.nodup_cons.1 hnd
    have hcl := hc l (by simp)
    obtain ⟨a, b, c, d⟩ := r.inv.runPass (l := l) r.inc hcl
    have hct : ∀ m ∈ t, Clear (W.runPass l) m := fun m hm => by
      unfold Clear
      rw [d m (fun e => hl (e ▸ hm))]; exact hc m (by simp [hm])
    have aall := runAll_acts (l :: t) hnd r hc
    have arest := runAll_acts t ht ⟨a, c⟩ hct
    rw [List.foldl_cons] at aall hex ⊢
    have hfl : FlOK (W.runPass l).g.fl := by rw [b.g]; exact ok
    have h1 := runPass_inv r hcl ok h
    have he := Acts.exc (Or.inl rfl) arest l (hex l (by simp))
    have h2 := ih ht ⟨a, c⟩ hct hfl h1 (fun m hm => hex m (by simp [hm]))
    have mono : RunInv W W (fun _ => False) :=
      ⟨h.rl, fun _ _ hw => ⟨hw, rfl, rfl⟩, fun _ hw => hw.elim⟩
    have hm := (Acts.runInv aall ok mono).nxt
    refine h2.weaken (fun w hw => ?_)
    rcases hw with hw | ⟨m, hm', hw⟩
    · exact Or.inl (Or.inl hw)
    · rcases List.mem_cons.1 hm' with e | e
      · subst e
        exact Or.inl (Or.inr ⟨(hm m w hw).1, he⟩)
      · exact Or.inr ⟨m, e, hw⟩

end UX.Cpp
