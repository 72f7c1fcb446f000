import Verif.Proofs.CppHistory
import Verif.Spec.CppKin

/-!
# Positions and spacing: queues, departures and transfers
-/

namespace UX.Cpp
open CWorld Relation Spec

/-! ## Queues -/

/-- Positions `x` and previous positions `xo` on a queue `q`. All but the last `k` vehicles have moved
on this link, or are within the jam spacing of its start. -/
structure KQ (fl : ℚ → ℚ) (gap len : ℚ) (lanes k : ℕ) (q : List ℕ) (x xo : ℕ → ℚ) : Prop where
  pos : ∀ v ∈ q, 0 ≤ x v ∧ x v ≤ len
  sp : ∀ i u v, q[i]? = some u → q[i + lanes]? = some v → x v ≤ fl (x u - gap)
  old : ∃ p s, q = p ++ s ∧ s.length ≤ k ∧ ∀ v ∈ p, xo v ≤ x v ∨ x v ≤ gap

theorem KQ.congr {fl : ℚ → ℚ} {gap len : ℚ} {lanes k : ℕ} {q : List ℕ} {x xo x' xo' : ℕ → ℚ}
    (h : KQ fl gap len lanes k q x xo) (hx : ∀ v ∈ q, x' v = x v) (ho : ∀ v ∈ q, xo' v = xo v) :
    KQ fl gap len lanes k q x' xo' := by
  refine ⟨fun v hv => by rw [hx v hv]; exact h.pos v hv, fun i u v hu hv => ?_, ?_⟩
  · rw [hx v (List.mem_of_getElem? hv), hx u (List.mem_of_getElem? hu)]
    exact h.sp i u v hu hv
  · obtain ⟨p, s, e, hs, hp⟩ := h.old
    refine ⟨p, s, e, hs, fun v hv => ?_⟩
    have hm : v ∈ q := by rw [e]; simp [hv]
    rw [hx v hm, ho v hm]; exact hp v hv

theorem KQ.pop {fl : ℚ → ℚ} {gap len : ℚ} {lanes k : ℕ} {q : List ℕ} {x xo : ℕ → ℚ}
    (h : KQ fl gap len lanes k q x xo) : KQ fl gap len lanes k q.tail x xo := by
  refine ⟨fun v hv => h.pos v (List.mem_of_mem_tail hv), fun i u v hu hv => ?_, ?_⟩
  · rw [List.getElem?_tail] at hu hv
    exact h.sp (i + 1) u v hu (by rw [Nat.add_right_comm]; exact hv)
  · obtain ⟨p, s, e, hs, hp⟩ := h.old
    cases p with
    | nil => exact ⟨[], s.tail, by rw [e]; simp, by simp; omega, by simp⟩
    | cons a p => exact ⟨p, s, by rw [e]; simp, hs, fun v hv => hp v (by simp [hv])⟩

theorem KQ.mono {fl : ℚ → ℚ} {gap len : ℚ} {lanes k k' : ℕ} {q : List ℕ} {x xo : ℕ → ℚ}
    (h : KQ fl gap len lanes k q x xo) (hk : k ≤ k') : KQ fl gap len lanes k' q x xo := by
  obtain ⟨p, s, e, hs, hp⟩ := h.old
  exact ⟨h.pos, h.sp, p, s, e, hs.trans hk, hp⟩

/-- What a vehicle needs to be pushed onto a queue. -/
structure Fits (fl : ℚ → ℚ) (gap len : ℚ) (lanes : ℕ) (q : List ℕ) (x : ℕ → ℚ) (y : ℚ) : Prop where
  pos : 0 ≤ y ∧ y ≤ len
  sp : ∀ i u, q[i]? = some u → i + lanes = q.length → y ≤ fl (x u - gap)

theorem Fits.pop {fl : ℚ → ℚ} {gap len : ℚ} {lanes : ℕ} {q : List ℕ} {x : ℕ → ℚ} {y : ℚ}
    (h : Fits fl gap len lanes q x y) : Fits fl gap len lanes q.tail x y := by
  refine ⟨h.pos, fun i u hu he => ?_⟩
  rw [List.getElem?_tail] at hu
  refine h.sp (i + 1) u hu ?_
  rw [List.length_tail] at he
  have : i + 1 < q.length := by
    by_contra hc
    rw [List.getElem?_eq_none (by omega)] at hu; simp at hu
  omega

theorem Fits.congr {fl : ℚ → ℚ} {gap len : ℚ} {lanes : ℕ} {q : List ℕ} {x x' : ℕ → ℚ} {y : ℚ}
    (h : Fits fl gap len lanes q x y) (hx : ∀ v ∈ q, x' v = x v) : Fits fl gap len lanes q x' y :=
  ⟨h.pos, fun i u hu he => by rw [hx u (List.mem_of_getElem? hu)]; exact h.sp i u hu he⟩

theorem push_sp {fl : ℚ → ℚ} {gap : ℚ} {lanes : ℕ} {q : List ℕ} {x : ℕ → ℚ} {w : ℕ} (hl : 1 ≤ lanes)
    (h : ∀ i u v, q[i]? = some u → q[i + lanes]? = some v → x v ≤ fl (x u - gap))
    (f : ∀ i u, q[i]? = some u → i + lanes = q.length → x w ≤ fl (x u - gap)) :
    ∀ i u v, (q ++ [w])[i]? = some u → (q ++ [w])[i + lanes]? = some v → x v ≤ fl (x u - gap) := by
  intro i u v hu hv
  have hlt : i + lanes < (q ++ [w]).length := by
    by_contra hc
    rw [List.getElem?_eq_none (by omega)] at hv; simp at hv
  simp only [List.length_append, List.length_cons, List.length_nil] at hlt
  rw [List.getElem?_append_left (by omega)] at hu
  by_cases hc : i + lanes < q.length
  · rw [List.getElem?_append_left hc] at hv
    exact h i u v hu hv
  · have e : i + lanes = q.length := by omega
    rw [e, List.getElem?_append_right le_rfl] at hv
    simp at hv
    subst hv
    exact f i u hu e

theorem KQ.push {fl : ℚ → ℚ} {gap len : ℚ} {lanes k : ℕ} {q : List ℕ} {x xo : ℕ → ℚ} {w : ℕ}
    (hl : 1 ≤ lanes) (h : KQ fl gap len lanes k q x xo) (f : Fits fl gap len lanes q x (x w)) :
    KQ fl gap len lanes (k + 1) (q ++ [w]) x xo := by
  refine ⟨fun v hv => ?_, push_sp hl h.sp f.sp, ?_⟩
  · rcases List.mem_append.1 hv with hv | hv
    · exact h.pos v hv
    · simp at hv; subst hv; exact f.pos
  · obtain ⟨p, s, e, hs, hp⟩ := h.old
    exact ⟨p, s ++ [w], by rw [e]; simp, by simp; exact hs, hp⟩

theorem KQ.pushStart {fl : ℚ → ℚ} {gap len : ℚ} {lanes : ℕ} {q : List ℕ} {x xo : ℕ → ℚ} {w : ℕ}
    (hl : 1 ≤ lanes) (h : KQ fl gap len lanes 0 q x xo) (f : Fits fl gap len lanes q x (x w))
    (hw : x w ≤ gap) : KQ fl gap len lanes 0 (q ++ [w]) x xo := by
  obtain ⟨a, b, _⟩ := h.push (w := w) hl f
  refine ⟨a, b, ?_⟩
  obtain ⟨p, s, e, hs, hp⟩ := h.old
  obtain rfl : s = [] := List.length_eq_zero_iff.1 (by omega)
  refine ⟨q ++ [w], [], by simp, by simp, fun v hv => ?_⟩
  rcases List.mem_append.1 hv with hv | hv
  · exact hp v (by rw [e] at hv; simpa using hv)
  · simp at hv; subst hv; exact Or.inr hw

/-! ## Worlds -/

/-- The queue of link `l`, all but the last `k` vehicles of which have moved on it. -/
def KL (W : CWorld) (l k : ℕ) : Prop :=
  KQ W.g.fl (W.gap l) (W.link l).len (W.link l).lanes k (W.link l).vehs (fun v => (W.veh v).x)
    (fun v => (W.veh v).xOld)

/-- The parameters that matter for positions make sense. -/
structure KPar (W : CWorld) : Prop where
  fl : FlOK W.g.fl
  len : ∀ l, l < W.g.nLinks → 0 ≤ (W.link l).len
  gap : ∀ l, l < W.g.nLinks → 0 ≤ W.gap l

theorem SamePar.len {W W' : CWorld} (s : SamePar W W') (l : ℕ) : (W'.link l).len = (W.link l).len := by
  have a := congrArg (fun L : CLink => L.len) (s.link l); exact a

theorem SamePar.vmax {W W' : CWorld} (s : SamePar W W') (l : ℕ) : (W'.link l).vmax = (W.link l).vmax := by
  have a := congrArg (fun L : CLink => L.vmax) (s.link l); exact a

theorem SamePar.dlane {W W' : CWorld} (s : SamePar W W') (l : ℕ) :
    (W'.link l).deltaLane = (W.link l).deltaLane := by
  have a := congrArg (fun L : CLink => L.deltaLane) (s.link l); exact a

theorem Keep.gap {W W' : CWorld} (k : Keep W W') (l : ℕ) : W'.gap l = W.gap l := by
  unfold CWorld.gap; rw [k.g, k.samePar.dlane]

theorem KPar.keep {W W' : CWorld} (p : KPar W) (k : Keep W W') : KPar W' :=
  ⟨by rw [k.g]; exact p.fl, fun l hl => by rw [k.samePar.len]; exact p.len l (by rw [← k.g]; exact hl),
    fun l hl => by rw [k.gap]; exact p.gap l (by rw [← k.g]; exact hl)⟩

theorem KL.mk {W W' : CWorld} {l k : ℕ} (kp : Keep W W')
    (h : KQ W.g.fl (W.gap l) (W.link l).len (W.link l).lanes k (W'.link l).vehs (fun v => (W'.veh v).x)
      (fun v => (W'.veh v).xOld)) : KL W' l k := by
  unfold KL
  rw [kp.g, kp.gap, kp.samePar.len, kp.samePar.lanes]; exact h

/-- Nothing that matters for positions changes. -/
def Quiet (W W' : CWorld) : Prop :=
  (∀ l, (W'.link l).vehs = (W.link l).vehs) ∧ ∀ w, (W'.veh w).x = (W.veh w).x ∧
    (W'.veh w).xOld = (W.veh w).xOld ∧ (W'.veh w).count = (W.veh w).count

theorem Quiet.refl (W : CWorld) : Quiet W W := ⟨fun _ => rfl, fun _ => ⟨rfl, rfl, rfl⟩⟩

theorem Quiet.kl {W W' : CWorld} (q : Quiet W W') (kp : Keep W W') {l k : ℕ} (h : KL W l k) : KL W' l k := by
  refine KL.mk kp ?_
  rw [q.1]
  exact h.congr (fun v _ => (q.2 v).1) (fun v _ => (q.2 v).2.1)

theorem Quiet.setN (W : CWorld) (n : ℕ) (f : CNode → CNode) : Quiet W (W.setN n f) := Quiet.refl W

theorem Quiet.setV (W : CWorld) (v : ℕ) (f : CVeh → CVeh)
    (h : ∀ V, (f V).x = V.x ∧ (f V).xOld = V.xOld ∧ (f V).count = V.count) : Quiet W (W.setV v f) := by
  refine ⟨fun _ => rfl, fun w => ?_⟩
  rw [setV_veh]
  split
  · rename_i e; subst e; exact h _
  · exact ⟨rfl, rfl, rfl⟩

theorem canEnter_room {W : CWorld} {l : ℕ} (hl : 1 ≤ (W.link l).lanes) (h : W.canEnter l = true) {i u : ℕ}
    (hu : (W.link l).vehs[i]? = some u) (hi : i + (W.link l).lanes = (W.link l).vehs.length) :
    W.gap l < (W.veh u).x := by
  unfold canEnter at h
  rw [Bool.and_eq_true, Bool.or_eq_true] at h
  rcases h.1 with h | h
  · simp only [decide_eq_true_eq] at h; omega
  · have e : (W.link l).vehs.length - (W.link l).lanes = i := by omega
    rw [e, hu] at h
    simpa using h

theorem room_fits {fl : ℚ → ℚ} (ok : FlOK fl) {g x : ℚ} (h : g < x) : 0 ≤ fl (x - g) := by
  have := ok.mono (show (0 : ℚ) ≤ x - g by linarith)
  rw [ok.zero] at this; exact this

/-! ## Departures -/

theorem depart_vehs (W : CWorld) (n v l m : ℕ) : ((W.depart n v l).link m).vehs =
    if m = l then (W.link l).vehs ++ [v] else (W.link m).vehs := by
  simp only [CWorld.depart, setL_link, attach_link, setV_link, setN_link]
  split <;> rfl

theorem depart_x (W : CWorld) (n v l w : ℕ) (hv : v ∉ (W.link l).vehs) :
    ((W.depart n v l).veh w).x = (if w = v then 0 else (W.veh w).x) ∧
    ((W.depart n v l).veh w).xOld = (W.veh w).xOld ∧
    ((W.depart n v l).veh w).count = (if w = v then (W.veh w).count + 1 else (W.veh w).count) := by
  simp only [CWorld.depart, setL_veh]
  rw [attach_veh _ _ _ _ (by simpa using hv)]
  simp only [setV_veh, setN_veh]
  split
  · rename_i e; subst e; exact ⟨rfl, rfl, rfl⟩
  · exact ⟨rfl, rfl, rfl⟩

theorem depart_kl {W : CWorld} {n v l : ℕ} {t : List ℕ} (i : Inv W none none) (p : KPar W)
    (hq : (W.node n).genQ = v :: t) (hl : l ∈ (W.node n).outLinks) (hc : W.canEnter l = true)
    (kp : Keep W (W.depart n v l)) {m : ℕ} (hm : KL W m 0) : KL (W.depart n v l) m 0 := by
  obtain ⟨hvn, hst, hor⟩ := (i.gen n v).1 (by rw [hq]; simp)
  have hnot : ∀ m, v ∉ (W.link m).vehs := fun m hm => by
    have := (i.mem m v hm).2.1; rw [hst] at this; simp at this
  have hln : l < W.g.nLinks := ((i.outL n l).1 hl).1
  have hlanes := (i.ends l hln).2.2
  have hx := fun w => depart_x W n v l w (hnot l)
  refine KL.mk kp ?_
  rw [depart_vehs]
  by_cases e : m = l
  · subst e
    rw [if_pos rfl]
    have h1 : KQ W.g.fl (W.gap m) (W.link m).len (W.link m).lanes 0 (W.link m).vehs
        (fun w => ((W.depart n v m).veh w).x) (fun w => ((W.depart n v m).veh w).xOld) :=
      KQ.congr hm (fun w hw => by
        simp only [(hx w).1]; rw [if_neg (fun e : w = v => hnot m (e ▸ hw))]) (fun w hw => (hx w).2.1)
    have hxv : ((W.depart n v m).veh v).x = 0 := by rw [(hx v).1, if_pos rfl]
    refine h1.pushStart hlanes ⟨?_, ?_⟩ ?_
    · simp only [hxv]; exact ⟨le_rfl, p.len m hln⟩
    · intro j u hu hj
      simp only [hxv]
      rw [(hx u).1, if_neg (fun e : u = v => hnot m (e ▸ List.mem_of_getElem? hu))]
      exact room_fits p.fl (canEnter_room hlanes hc hu hj)
    · simp only [hxv]; exact p.gap m hln
  · rw [if_neg e]
    exact KQ.congr hm (fun w hw => by
      simp only [(hx w).1]; rw [if_neg (fun e : w = v => hnot m (e ▸ hw))]) (fun w hw => (hx w).2.1)

/-- The stage of departures. -/
theorem Act.genKL {W W' : CWorld} (a : Act .gen W W') (p : KPar W) (kp : Keep W W') {m : ℕ}
    (hm : KL W m 0) : KL W' m 0 := by
  cases a with
  | genErr _ n e => exact (Quiet.setN W n _).kl kp hm
  | choose _ n v t o rng i hi hq hc =>
    refine Quiet.kl ?_ kp hm
    refine (Quiet.setV (W.setN n (fun N => { N with rng := rng })) v (fun V => { V with next := o }) ?_)
    intro V; exact ⟨rfl, rfl, rfl⟩
  | depart _ n v l t i hi hq hl hn hc => exact depart_kl i p hq hl hc kp hm
  | signal _ n => exact Quiet.kl (W := W) (W' := W.signalUpdate n) ⟨fun _ => rfl, fun _ => ⟨rfl, rfl, rfl⟩⟩ kp hm
  | flow _ n => exact Quiet.kl (W := W) (W' := W.flowUpdate n) ⟨fun _ => rfl, fun _ => ⟨rfl, rfl, rfl⟩⟩ kp hm

/-! ## Ends of trips -/

theorem endTripOn_x (W : CWorld) (v l w : ℕ) (h : w ≠ v) :
    ((W.endTripOn v l).veh w).x = (W.veh w).x ∧ ((W.endTripOn v l).veh w).xOld = (W.veh w).xOld ∧
      ((W.endTripOn v l).veh w).xNext = (W.veh w).xNext ∧
      ((W.endTripOn v l).veh w).count = (W.veh w).count := by
  rw [endTripOn_veh_ne W v l w h]; exact ⟨rfl, rfl, rfl, rfl⟩

theorem endTripOn_kl {W : CWorld} {v l : ℕ} {t : List ℕ} {x y : Option ℕ} (i : Inv W x y)
    (hq : (W.link l).vehs = v :: t) (kp : Keep W (W.endTripOn v l)) {m k : ℕ} (hm : KL W m k) :
    KL (W.endTripOn v l) m k := by
  have hva : v ∈ (W.link l).vehs := by rw [hq]; simp
  refine KL.mk kp ?_
  rw [endTripOn_vehs]
  by_cases e : m = l
  · subst e
    rw [if_pos rfl]
    have hnt : v ∉ t := by have := i.nd m; rw [hq] at this; exact (List.nodup_cons.1 this).1
    refine KQ.congr (KQ.pop hm) ?_ ?_ <;> intro w hw <;> rw [hq, List.tail_cons] at hw
    · exact (endTripOn_x W v m w (fun e => hnt (e ▸ hw))).1
    · exact (endTripOn_x W v m w (fun e => hnt (e ▸ hw))).2.1
  · rw [if_neg e]
    refine KQ.congr hm ?_ ?_ <;> intro w hw
    · exact (endTripOn_x W v l w (fun h => e (i.uniq (h ▸ hw) hva))).1
    · exact (endTripOn_x W v l w (fun h => e (i.uniq (h ▸ hw) hva))).2.1

/-! ## Transfers -/

theorem leave_par (W : CWorld) (n v a b m : ℕ) :
    ((W.leave n v a b).link m).deltaLane = (W.link m).deltaLane ∧
    ((W.leave n v a b).link m).len = (W.link m).len ∧
    ((W.leave n v a b).link m).lanes = (W.link m).lanes := by
  rw [leave_link, setL_link]
  split
  · rename_i e; subst e
    simp only [setL_link]; split
    · rename_i e; subst e; exact ⟨rfl, rfl, rfl⟩
    · exact ⟨rfl, rfl, rfl⟩
  · simp only [setL_link]; split
    · rename_i e; subst e; exact ⟨rfl, rfl, rfl⟩
    · exact ⟨rfl, rfl, rfl⟩

theorem carry_bounds (W : CWorld) (v a b : ℕ) (hlen : 0 ≤ (W.link b).len) :
    0 ≤ W.carry v a b ∧ W.carry v a b ≤ (W.link b).len := by
  simp only [CWorld.carry]
  exact clamp_bounds hlen _

theorem carry_leader (W : CWorld) (v a b u : ℕ) (hu : (W.veh v).leader = some u) (hx : (W.veh v).x = 0)
    {y : ℚ} (hy : 0 ≤ y) (h : W.g.fl ((W.veh u).xOld - W.gap b) ≤ y) : W.carry v a b ≤ y := by
  simp only [CWorld.carry, hu, hx]
  have hc : (if W.g.fl ((W.veh u).xOld - W.gap b) < 0 then 0
      else W.g.fl ((W.veh u).xOld - W.gap b)) ≤ y := by
    split
    · exact hy
    · exact h
  generalize (if W.g.fl ((W.veh u).xOld - W.gap b) < 0 then 0
      else W.g.fl ((W.veh u).xOld - W.gap b)) = c at *
  generalize W.g.fl (W.g.fl ((W.veh v).moveRem * (W.link b).vmax) / (W.link a).vmax) = z
  have hz : (if c < z then c else z) ≤ y := by
    split
    · exact hc
    · rename_i h'; exact (not_lt.1 h').trans hc
  generalize (if c < z then c else z) = w at *
  have hw : (if (W.link b).len ≤ w then (W.link b).len else w) ≤ y := by
    split
    · rename_i h'; exact h'.trans hz
    · exact hz
  generalize (if (W.link b).len ≤ w then (W.link b).len else w) = w' at *
  split
  · exact hy
  · exact hw

/-- The vehicle that is about to enter `b` fits there. -/
theorem moved_fits {W : CWorld} {n v a b k : ℕ} {t : List ℕ} (i : Inv W none none) (p : KPar W)
    (hq : (W.link a).vehs = v :: t) (hb : b < W.g.nLinks) (hc : W.canEnter b = true)
    (hk : KL W b k) (hkl : k + 1 ≤ (W.link b).lanes) :
    Fits W.g.fl (W.gap b) (W.link b).len (W.link b).lanes ((W.moved n v a b).link b).vehs
      (fun w => ((W.moved n v a b).veh w).x) ((W.moved n v a b).veh v).x := by
  have hva : v ∈ (W.link a).vehs := by rw [hq]; simp
  have hnd := i.nd a
  rw [hq] at hnd
  have hvb : v ∉ ((W.leave n v a b).link b).vehs := by
    rw [leave_link_vehs]
    split
    · rw [hq]; exact (List.nodup_cons.1 hnd).1
    · rename_i e; intro hm; exact e (i.uniq hm hva)
  have hlanes := (i.ends b hb).2.2
  have hgap : ((W.leave n v a b).attach v b).gap b = W.gap b := by
    unfold CWorld.gap; rw [attach_g, attach_link, leave_g, (leave_par W n v a b b).1]
  have hfl : ((W.leave n v a b).attach v b).g.fl = W.g.fl := by rw [attach_g, leave_g]
  have hlen : (((W.leave n v a b).attach v b).link b).len = (W.link b).len := by
    rw [attach_link, (leave_par W n v a b b).2.1]
  have hxv : ((W.moved n v a b).veh v).x = ((W.leave n v a b).attach v b).carry v a b := by
    simp only [CWorld.moved, place, setV_veh, if_pos]
  rw [hxv]
  refine ⟨?_, fun j u hu hj => ?_⟩
  · have := carry_bounds ((W.leave n v a b).attach v b) v a b (by rw [hlen]; exact p.len b hb)
    rw [hlen] at this; exact this
  · rw [moved_link] at hu hj
    have hum := List.mem_of_getElem? hu
    have hne : u ≠ v := fun e => hvb (e ▸ hum)
    -- the place of `u` in the queue before
    have hold : ∃ j', (W.link b).vehs[j']? = some u ∧ j' + (W.link b).lanes = (W.link b).vehs.length := by
      rw [leave_link_vehs] at hu hj
      split at hu
      · rename_i e; subst e
        rw [if_pos rfl] at hj
        rw [hq, List.tail_cons] at hu hj
        refine ⟨j + 1, by rw [hq]; simpa using hu, by rw [hq, List.length_cons]; omega⟩
      · rename_i e; rw [if_neg e] at hj; exact ⟨j, hu, hj⟩
    obtain ⟨j', hu', hj'⟩ := hold
    have hroom := canEnter_room hlanes hc hu' hj'
    have hset : (W.veh u).xOld ≤ (W.veh u).x := by
      obtain ⟨p1, s1, e1, hs1, hp1⟩ := hk.old
      have hlt : j' < p1.length := by
        have := congrArg List.length e1
        rw [List.length_append] at this
        omega
      rw [e1, List.getElem?_append_left hlt] at hu'
      rcases hp1 u (List.mem_of_getElem? hu') with h | h
      · exact h
      · exact absurd hroom (not_lt.2 h)
    have hxu : ((W.moved n v a b).veh u).x = (W.veh u).x := by
      rw [moved_veh_other (n := n) (b := b) i hq u hne]
    have hlead : (((W.leave n v a b).attach v b).veh v).leader = some u := by
      rw [attach_veh _ _ _ _ hvb]
      simp only [if_pos]
      unfold newLeader
      have hll := (leave_par W n v a b b).2.2
      rw [if_pos (by rw [hll]; omega), hll, ← hu]
      congr 1; omega
    have hx0 : (((W.leave n v a b).attach v b).veh v).x = 0 := by
      rw [attach_veh _ _ _ _ hvb]; simp only [leave_veh, if_pos]
    have hxo : (((W.leave n v a b).attach v b).veh u).xOld = (W.veh u).xOld := by
      rw [attach_veh _ _ _ _ hvb]; simp only [leave_veh, if_neg hne]; rw [detach_veh]
    rw [hxu]
    refine carry_leader _ v a b u hlead hx0 (room_fits p.fl hroom) ?_
    rw [hfl, hgap, hxo]
    exact p.fl.mono (by linarith)

theorem moveVeh_kl {W : CWorld} {n v a b : ℕ} {t : List ℕ} (i : Inv W none none) (p : KPar W)
    (hq : (W.link a).vehs = v :: t) (hb : b < W.g.nLinks) (hc : W.canEnter b = true)
    (kp : Keep W (W.moveVeh n v a b)) {k : ℕ} (hk : KL W b k) (hkl : k + 1 ≤ (W.link b).lanes) :
    (∀ m j, m ≠ b → KL W m j → KL (W.moveVeh n v a b) m j) ∧ KL (W.moveVeh n v a b) b (k + 1) := by
  have hva : v ∈ (W.link a).vehs := by rw [hq]; simp
  have hnd := i.nd a
  rw [hq] at hnd
  have hlanes := (i.ends b hb).2.2
  have hfit := moved_fits (n := n) i p hq hb hc hk hkl
  -- queues before the vehicle enters `b`
  have hnot : ∀ m, v ∉ ((W.moved n v a b).link m).vehs := fun m => by
    rw [moved_link, leave_link_vehs]
    split
    · rw [hq]; exact (List.nodup_cons.1 hnd).1
    · rename_i e; intro hm; exact e (i.uniq hm hva)
  have hM : ∀ m j, KL W m j → KQ W.g.fl (W.gap m) (W.link m).len (W.link m).lanes j
      ((W.moved n v a b).link m).vehs (fun w => ((W.moved n v a b).veh w).x)
      (fun w => ((W.moved n v a b).veh w).xOld) := by
    intro m j hm
    have hv' := hnot m
    have hx : ∀ w ∈ ((W.moved n v a b).link m).vehs, ((W.moved n v a b).veh w).x = (W.veh w).x ∧
        ((W.moved n v a b).veh w).xOld = (W.veh w).xOld := fun w hw => by
      rw [moved_veh_other (n := n) (b := b) i hq w (fun e => hv' (e ▸ hw))]; exact ⟨rfl, rfl⟩
    refine KQ.congr (x := fun w => (W.veh w).x) (xo := fun w => (W.veh w).xOld) ?_
      (fun w hw => (hx w hw).1) (fun w hw => (hx w hw).2)
    rw [moved_link, leave_link_vehs]
    split
    · rename_i e; subst e; exact KQ.pop hm
    · exact hm
  have hveh : (W.moveVeh n v a b).veh = ((W.moved n v a b).endFront a).1.veh := rfl
  have hvehs : ∀ m, ((W.moveVeh n v a b).link m).vehs =
      if m = b then (((W.moved n v a b).endFront a).1.link b).vehs ++ [v]
      else (((W.moved n v a b).endFront a).1.link m).vehs := by
    intro m
    rw [moveVeh_eq, setN_link, setL_link]; split <;> rfl
  -- the same after the new front of `a` has been looked at
  have hE : (∀ m j, KL W m j → KQ W.g.fl (W.gap m) (W.link m).len (W.link m).lanes j
      (((W.moved n v a b).endFront a).1.link m).vehs
      (fun w => (((W.moved n v a b).endFront a).1.veh w).x)
      (fun w => (((W.moved n v a b).endFront a).1.veh w).xOld)) ∧
      Fits W.g.fl (W.gap b) (W.link b).len (W.link b).lanes
        (((W.moved n v a b).endFront a).1.link b).vehs
        (fun w => (((W.moved n v a b).endFront a).1.veh w).x)
        (((W.moved n v a b).endFront a).1.veh v).x := by
    rcases moved_endFront (n := n) (b := b) i hq with e | ⟨h, t', e1, hne, hfh, e⟩
    · rw [e]; exact ⟨hM, hfit⟩
    · rw [e]
      have hqa : ((W.moved n v a b).link a).vehs = h :: t' := by
        rw [moved_link, leave_link_vehs, if_pos rfl, hq, List.tail_cons, e1]
      have hout : ∀ m w, w ∈ (((W.moved n v a b).endTripOn h a).link m).vehs → w ≠ h := by
        intro m w hw ew
        subst ew
        rw [endTripOn_vehs] at hw
        split at hw
        · rw [hqa, List.tail_cons] at hw
          rw [e1] at hnd
          exact (List.nodup_cons.1 (List.nodup_cons.1 hnd).2).1 hw
        · rename_i em
          have : w ∈ (W.link m).vehs := by
            rw [moved_link, leave_link_vehs, if_neg em] at hw; exact hw
          exact em (i.uniq this (by rw [hq, e1]; simp))
      have hx : ∀ w, w ≠ h → (((W.moved n v a b).endTripOn h a).veh w).x = ((W.moved n v a b).veh w).x ∧
          (((W.moved n v a b).endTripOn h a).veh w).xOld = ((W.moved n v a b).veh w).xOld := fun w hw =>
        ⟨(endTripOn_x _ h a w hw).1, (endTripOn_x _ h a w hw).2.1⟩
      refine ⟨fun m j hm => ?_, ?_⟩
      · have hout' := hout m
        refine KQ.congr (x := fun w => ((W.moved n v a b).veh w).x)
          (xo := fun w => ((W.moved n v a b).veh w).xOld) ?_ (fun w hw => (hx w (hout' w hw)).1)
          (fun w hw => (hx w (hout' w hw)).2)
        rw [endTripOn_vehs]
        split
        · rename_i em; subst em; exact (hM _ j hm).pop
        · exact hM m j hm
      · have hout' := hout b
        rw [(hx v (Ne.symm hne)).1]
        refine Fits.congr (x := fun w => ((W.moved n v a b).veh w).x) ?_
          (fun w hw => (hx w (hout' w hw)).1)
        rw [endTripOn_vehs]
        split
        · rename_i em; subst em; exact hfit.pop
        · exact hfit
  refine ⟨fun m j hm hj => KL.mk kp ?_, KL.mk kp ?_⟩
  · rw [hvehs, if_neg hm, hveh]; exact hE.1 m j hj
  · rw [hvehs, if_pos rfl, hveh]; exact (hE.1 b k hk).push hlanes hE.2

end UX.Cpp
