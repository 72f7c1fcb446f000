import Verif.Props.CppRows
import Verif.Proofs.CppDtaTrace

/-!
# C93: travel times of links and costs of routes in the C++ traffic assignment
-/

namespace UX
open Cpp Cpp.CWorld Cpp.Spec

section
variable {W : CWorld} (h : CReach W) (hfl : W.g.fl = id) (hT : 0 < W.g.deltaT) (hn : 0 < W.g.totalSteps)
include h hfl hT hn

/-- **C93.** The travel time of a link at a time is the last record of a vehicle that entered by then. -/
theorem C93_time {l : ℕ} (hl : l < W.g.nLinks) (t : ℚ) : W.dtaTime l t = linkTime W l t :=
  dtaTime_eq h hfl hT hl hn t

/-- **C93.** The time of a route is the sum of the travel times of its links, each at the time at which
it is entered; the details are these. -/
theorem C93_route {ls : List ℕ} (hls : ∀ l ∈ ls, l < W.g.nLinks) (t : ℚ) :
    W.routeTime ls t 0 = (total (linkTime W) (linkTime W) ls t,
      (drive (linkTime W) ls t).map (fun p => linkTime W p.1 p.2)) := by
  have e : ∀ l ∈ ls, ∀ t, W.dtaTime l t = linkTime W l t := fun l hl t => dtaTime_eq h hfl hT (hls l hl) hn t
  rw [routeTime_eq hfl, zero_add, total_congr e e, drive_congr e]
  congr 1
  exact List.map_congr_left (fun p hp => e _ (drive_mem hp) _)

/-- **C93.** The cost of a route for a user is its time plus the tolls at the times at which its links are
entered. -/
theorem C93_due {ls : List ℕ} (hls : ∀ l ∈ ls, l < W.g.nLinks) (t : ℚ) :
    W.costDue ls t = total (linkTime W) (fun l s => linkTime W l s + tollAt W l s) ls t := by
  have e : ∀ l ∈ ls, ∀ t, W.dtaTime l t = linkTime W l t := fun l hl t => dtaTime_eq h hfl hT (hls l hl) hn t
  unfold costDue
  rw [costLoop_eq hfl, zero_add, zero_add]
  exact total_congr e (fun l hl s => by rw [e l hl, dtaToll_eq hfl hT]) t

/-- **C93.** The cost of the route a user has driven is its time, computed in the same way, plus the tolls
at the times `ts` at which its links were entered. -/
theorem C93_own {ls : List ℕ} (hls : ∀ l ∈ ls, l < W.g.nLinks) {ts : List ℚ} (hts : ts.length = ls.length) (t : ℚ) :
    W.costOwn ls ts t 0 = total (linkTime W) (linkTime W) ls t + (List.zipWith (tollAt W) ls ts).sum := by
  have e : ∀ l ∈ ls, ∀ t, W.dtaTime l t = linkTime W l t := fun l hl t => dtaTime_eq h hfl hT (hls l hl) hn t
  have e2 : W.dtaToll = tollAt W := by funext l t; exact dtaToll_eq hfl hT l t
  rw [costOwn_eq hfl ls ts t 0 hts, zero_add, total_congr e e, e2]

/-- **C93.** Without series of tolls both costs of the route driven are the same: no user changes to the
route they are on. -/
theorem C93_agree {ls : List ℕ} (hls : ∀ l ∈ ls, l < W.g.nLinks) {ts : List ℚ} (hts : ts.length = ls.length)
    (hc : ∀ l ∈ ls, (W.link l).toll = []) (t : ℚ) : W.costOwn ls ts t 0 = W.costDue ls t := by
  rw [C93_own h hfl hT hn hls hts, C93_due h hfl hT hn hls]
  have e1 : ∀ l ∈ ls, ∀ s, tollAt W l s = (W.link l).penalty := fun l hl s => by
    unfold tollAt; rw [if_pos (hc l hl)]
  clear hls hc
  unfold total
  induction ls generalizing ts t with
  | nil => simp [drive]
  | cons l ls ih =>
    cases ts with
    | nil => simp at hts
    | cons u us =>
      have := ih (ts := us) (by simpa using hts) (t + linkTime W l t) (fun m hm => e1 m (by simp [hm]))
      simp only [drive, List.map_cons, List.sum_cons, List.zipWith_cons_cons, e1 l (by simp)]
      linarith

end

/-- **C93.** A link is created with its free-flow time, and every call that does not change its speed
keeps this value, so that links nobody has left yet take the free-flow time. -/
theorem C93_free : (∀ (W : CWorld) (src dst : ℕ) (a : LinkArgs), TTFree (W.addLink src dst a) W.g.nLinks) ∧
    (∀ (W W' : CWorld) (l : ℕ), CReach W → CStep W W' → l < W.g.nLinks →
      (W'.link l).vmax = (W.link l).vmax → TTFree W l → TTFree W' l) ∧
    ∀ (W : CWorld) (l : ℕ) (t : ℚ), W.g.fl = id → TTFree W l →
      (∀ e ∈ (W.link l).ttEvents, stepIn W.g.deltaT t (W.link l).ttReal.length < e.1) →
      linkTime W l t = (W.link l).len / (W.link l).vmax :=
  ⟨TTFree.new, fun _ _ _ h s hl hv f => f.step h s hl hv, fun _ _ t hfl f hn => linkTime_free hfl f t hn⟩

section
variable {W W' : CWorld} (h : CReach W) {sched : ℕ → CWorld → Sched} (hs : ∀ t V, (sched t V).Valid V) {endTs : ℕ}
  (hr : W.mainLoop sched endTs = (W', none)) (hfl : W.g.fl = id) (hT : 0 < W.g.deltaT)
include h hs hr hfl hT

/-- **C93.** After a run with a link that was empty before, the travel time of the link at a time is that of
the vehicle which entered it last among those that had entered by then and have left since. -/
theorem C93_experienced {p : List Pass} (hp : History W W' p) {l : ℕ} (hl : l < W.g.nLinks)
    (hq : (W.link l).vehs = []) (he : (W.link l).ttEvents = []) {k : ℕ} {a b : Pass}
    (ha : (into l p)[k]? = some a) (hb : (outOf l p)[k]? = some b) : a.veh = b.veh ∧
      ∀ t j, j = ⌊t / W.g.deltaT⌋₊ → j < W.g.totalSteps → a.time ≤ j →
        (∀ k' a', k < k' → k' < (outOf l p).length → (into l p)[k']? = some a' → j < a'.time) →
        W'.dtaTime l t = (leaveStep b : ℚ) * W.g.deltaT - a.time * W.g.deltaT := by
  obtain ⟨_, r⟩ := main_hist hs h.rest hr
  obtain ⟨ts, f⟩ := hp.fifo l
  refine ⟨(f.pair hq ha hb).1, fun t j hj hjt haj hlast => ?_⟩
  have h' : CReach W' := by
    have := h.step (CStep.run W endTs sched hs)
    rw [hr] at this
    exact this
  have hg := r.keep.2.1
  have e1 := CGlob.fix_totalSteps hg
  have e2 := CGlob.fix_deltaT hg
  rw [dtaTime_eq h' (by rw [CGlob.fix_fl hg]; exact hfl) (by rw [e2]; exact hT)
    (by rw [CGlob.fix_nLinks hg]; exact hl) (by rw [e1]; omega)]
  unfold linkTime recordAt
  have e3 : stepIn W'.g.deltaT t (W'.link l).ttReal.length = j := by
    unfold stepIn
    rw [h'.ttFresh.len l (by rw [CGlob.fix_nLinks hg]; exact hl), e1, e2, ← hj]
    omega
  rw [e3]
  exact f.lastAt hfl hT hq he ha hb haj hlast _

/-- **C93.** A vehicle that completed its trip in the run, and after which no other vehicle entered one of its
links in the same time step: the time of its route, from when it entered the first link, is the time it took. -/
theorem C93_mine (ht : W'.g.timestep ≤ W.g.totalSteps) {p : List Pass} (hp : History W W' p)
    {v : ℕ} {e f : Pass} {es : List Pass} (hown : p.filter (fun a => a.veh = v) = e :: es)
    (he : e.leaves = none) (hes : ∀ a ∈ es, a.leaves ≠ none) (hf : es.getLast? = some f) (hfe : f.enters = none)
    (hnd : ((e :: es).filterMap Pass.enters).Nodup)
    (hl : ∀ l ∈ (e :: es).filterMap Pass.enters, l < W.g.nLinks ∧ (W.link l).vehs = [] ∧
      (W.link l).ttEvents = [] ∧ (into l p).Pairwise (fun a b => a.veh = v → a.time < b.time)) :
    (W'.routeTime ((e :: es).filterMap Pass.enters) (e.time * W.g.deltaT) 0).1 =
      ((f.time + 1 : ℕ) : ℚ) * W.g.deltaT - e.time * W.g.deltaT := by
  obtain ⟨_, r⟩ := main_hist hs h.rest hr
  have h' : CReach W' := by
    have := h.step (CStep.run W endTs sched hs)
    rw [hr] at this
    exact this
  have hg := r.keep.2.1
  have e1 := CGlob.fix_totalSteps hg
  have e2 := CGlob.fix_deltaT hg
  have e4 := CGlob.fix_nLinks hg
  have hmem : ∀ a, a ∈ e :: es ↔ a ∈ p ∧ a.veh = v := fun a => by
    rw [← hown, List.mem_filter]; simp
  have hroad := hp.road e ((hmem e).1 (by simp)).1
  have hlast : (e :: es).getLast? = some f := by
    cases es with
    | nil => simp at hf
    | cons g es => rw [List.getLast?_cons_cons]; exact hf
  have hw := (hp.walk v).own_filter
  rw [hown] at hw
  have hend := hw.last (fun a ha => ((hmem a).1 ha).2) hlast
  rw [hfe] at hend
  obtain ⟨l0, hl0⟩ : ∃ l, e.enters = some l := by
    unfold OnRoad at hroad
    rw [he] at hroad
    cases hx : e.enters with
    | none => rw [hx] at hroad; exact hroad.elim
    | some l => exact ⟨l, rfl⟩
  have hw' : Travel v (some l0) es (W'.veh v).link := by
    cases hw with
    | other hn _ => exact absurd ((hmem e).1 (by simp)).2 hn
    | own _ _ w => rw [hl0] at w; exact w
  have huniq : ∀ a c, a ∈ e :: es → c ∈ e :: es → ∀ l, a.enters = some l → c.enters = some l → c = a := by
    intro a c ha hc l hae hce
    exact filterMap_inj hnd ha hc hae hce
  have trip : Trip (W'.dtaTime) W.g.deltaT (e :: es) := by
    refine trip_of hw' hend hl0 (fun a ha => ((hmem a).1 (by simp [ha])).2) hes (fun l a b ha hb hae hbl => ?_)
    have ha' := (hmem a).1 ha
    have hb' := (hmem b).1 (by simp [hb])
    obtain ⟨h1, h2, h3, h4⟩ := hl l (List.mem_filterMap.2 ⟨a, ha, hae⟩)
    obtain ⟨ts, fi⟩ := hp.fifo l
    have hat := (hp.timed.1 a ha'.1).2
    rw [dtaTime_eq h' (by rw [CGlob.fix_fl hg]; exact hfl) (by rw [e2]; exact hT) (by rw [e4]; exact h1)
      (by rw [e1]; omega)]
    unfold linkTime recordAt
    have e3 : stepIn W'.g.deltaT (a.time * W.g.deltaT) (W'.link l).ttReal.length = a.time := by
      unfold stepIn
      rw [h'.ttFresh.len l (by rw [e4]; exact h1), e1, e2, mul_div_assoc, div_self hT.ne', mul_one,
        Nat.floor_natCast]
      omega
    rw [e3]
    exact fi.lastAt_own hfl hT h2 h3 hae hb'.1 hbl hb'.2
      (fun c hc hcv hce => huniq a c ha ((hmem c).2 ⟨hc, hcv⟩) l hae hce) h4 _
  rw [routeTime_eq (by rw [CGlob.fix_fl hg]; exact hfl), zero_add]
  exact trip.total e f rfl hlast

end

/-! ## Concrete case -/

namespace Cpp

def cppTwoArgs (n : ℕ) : LinkArgs :=
  { vmax := 20, kappa := n / 5, len := 300, lanes := n, mergePri := 1, capOut := -1, capIn := -1,
    group := [0], rng := fun _ => 0 }

/-- A link of two lanes leads to one of one lane, with a toll that falls at 25 s; two vehicles start at once. -/
def cppTwo0 : CWorld :=
  let W0 := CWorld.empty id 200 5 1 10 (1/2) 0 true false false false true 1
  let W1 := (((W0.addNodeWith (0, 0) [0] 0 (-1) 0 (fun _ => 0)).addNodeWith (0, 0) [0] 0 (-1) 0
    (fun _ => 0))).addNodeWith (0, 0) [0] 0 (-1) 0 (fun _ => 0)
  let W2 := (W1.addLink 0 1 (cppTwoArgs 2)).addLink 1 2 (cppTwoArgs 1)
  (((W2.addVehicle 0 0 2 []).addVehicle 0 0 2 []).initAdj).edit (.toll 1 [3, 3, 3, 3, 3, 1])

def cppTwo (k : ℕ) : CWorld := (cppTwo0.mainLoop (fun _ W => W.seqSched) k).1

theorem cppTwo0_clean : CleanReach cppTwo0 := by
  refine CleanReach.step ?_ (CleanStep.edit _ (.toll 1 [3, 3, 3, 3, 3, 1]))
  refine CleanReach.step ?_ (CleanStep.init _)
  refine CleanReach.step ?_ (CleanStep.vehicle _ 0 0 2 [] (by decide) (by decide))
  refine CleanReach.step ?_ (CleanStep.vehicle _ 0 0 2 [] (by decide) (by decide))
  refine CleanReach.step ?_ (CleanStep.link _ 1 2 (cppTwoArgs 1) (by decide) (by decide) (by decide) (by decide))
  refine CleanReach.step ?_ (CleanStep.link _ 0 1 (cppTwoArgs 2) (by decide) (by decide) (by decide) (by decide))
  refine CleanReach.step ?_ (CleanStep.node _ _ [0] 0 (-1) 0 (fun _ => 0) 1 rfl)
  refine CleanReach.step ?_ (CleanStep.node _ _ [0] 0 (-1) 0 (fun _ => 0) 1 rfl)
  refine CleanReach.step ?_ (CleanStep.node _ _ [0] 0 (-1) 0 (fun _ => 0) 1 rfl)
  exact CleanReach.empty id 200 5 1 10 (1/2) 0 true false false false true 1

theorem cppTwo_run : cppTwo0.mainLoop (fun _ W => W.seqSched) 12 = (cppTwo 12, none) :=
  Prod.ext rfl (by decide +kernel)

theorem cppTwo_clean : CleanReach (cppTwo 12) :=
  CleanReach.step cppTwo0_clean (CleanStep.run _ _ _ _ seqSched_valid cppTwo_run)

theorem cppTwo_fl : (cppTwo 12).g.fl = id := by
  obtain ⟨_, r⟩ := main_hist seqSched_valid cppTwo0_clean.toReach.rest cppTwo_run
  exact CGlob.fix_fl r.keep.2.1

end Cpp

/-- Both vehicles enter link 0 at 5 s; they leave it at 20 s and at 25 s. Vehicle 1 is the last to enter and
its time is the one used. -/
theorem C93_case : CReach (cppTwo 12) ∧ (cppTwo 12).g.fl = id ∧ 0 < (cppTwo 12).g.deltaT ∧
    0 < (cppTwo 12).g.totalSteps ∧ ((cppTwo 12).link 0).ttEvents = [(1, 15), (1, 20)] ∧
    ((cppTwo 12).link 1).ttEvents = [(4, 15), (5, 20)] ∧
    (cppTwo 12).dtaTime 0 5 = 20 ∧ (cppTwo 12).dtaTime 0 4 = 15 ∧ (cppTwo 12).dtaTime 1 20 = 15 ∧
    (cppTwo 12).costDue [0, 1] 5 = 41 ∧ (cppTwo 12).costOwn [0, 1] [5, 25] 5 0 = 41 ∧
    TTFree (cppTwo 12) 0 ∧ TTFree (cppTwo 12) 1 := by
  refine ⟨cppTwo_clean.toReach, cppTwo_fl, by decide +kernel, by decide +kernel, by decide +kernel,
    by decide +kernel, by decide +kernel, by decide +kernel, by decide +kernel, by decide +kernel,
    by decide +kernel, ?_, ?_⟩
  · unfold TTFree; rw [cppTwo_fl]; decide +kernel
  · unfold TTFree; rw [cppTwo_fl]; decide +kernel

namespace Cpp

/-- The passages of this run. -/
def cppTwoPasses : List Pass :=
  [⟨1, 0, none, some 0⟩, ⟨1, 1, none, some 0⟩, ⟨4, 0, some 0, some 1⟩, ⟨5, 1, some 0, some 1⟩,
    ⟨6, 0, some 1, none⟩, ⟨8, 1, some 1, none⟩]

theorem cppTwo_road : ∀ e ∈ cppTwoPasses, OnRoad cppTwo0 e := by
  unfold cppTwoPasses OnRoad
  simp only [List.forall_mem_cons]
  refine ⟨?_, ?_, ?_, ?_, ?_, ?_, fun _ h => by simp at h⟩ <;> decide +kernel

theorem cppTwo_history : History cppTwo0 (cppTwo 12) cppTwoPasses := by
  obtain ⟨_, r⟩ := main_hist seqSched_valid cppTwo0_clean.toReach.rest cppTwo_run
  refine ⟨⟨by decide +kernel, by decide +kernel⟩, cppTwo_road, fun v => ?_, fun l => ?_⟩
  · by_cases h0 : v = 0
    · subst h0
      have e0 : (cppTwo0.veh 0).link = none := by decide +kernel
      have e1 : ((cppTwo 12).veh 0).link = none := by decide +kernel
      rw [e0, e1]
      exact .own rfl rfl (.other (by simp) (.own rfl rfl (.other (by simp) (.own rfl rfl (.other (by simp) (.nil _))))))
    · by_cases h1 : v = 1
      · subst h1
        have e0 : (cppTwo0.veh 1).link = none := by decide +kernel
        have e1 : ((cppTwo 12).veh 1).link = none := by decide +kernel
        rw [e0, e1]
        exact .other (by simp) (.own rfl rfl (.other (by simp) (.own rfl rfl (.other (by simp) (.own rfl rfl (.nil _))))))
      · have hv : cppTwo0.g.nVehs ≤ v := by show 2 ≤ v; omega
        have e := (mainLoop_evs cppTwo0_clean.toReach.rest
          (fun t V _ => (seqSched_valid t V).2.2.2.1.nodup_iff.2 List.nodup_range) 12).big hv
          ((cppTwo0_clean.toReach.flags v).big hv)
        have e2 : ((cppTwo 12).veh v) = cppTwo0.veh v := e
        rw [e2]
        have h0 : (0 : ℕ) ≠ v := by omega
        have h1 : (1 : ℕ) ≠ v := by omega
        exact .other h0 (.other h1 (.other h0 (.other h1 (.other h0 (.other h1 (.nil _))))))
  · by_cases h0 : l = 0
    · subst h0
      exact ⟨[5, 5], by decide +kernel, by decide +kernel, by decide +kernel⟩
    · by_cases h1 : l = 1
      · subst h1
        exact ⟨[20, 25], by decide +kernel, by decide +kernel, by decide +kernel⟩
      · obtain ⟨ts, f⟩ := r.history.fifo l
        have hl : ¬ l < cppTwo0.g.nLinks := by show ¬ l < 2; omega
        have i0 : ∀ q : List Pass, (∀ e ∈ q, OnRoad cppTwo0 e) → into l q = [] ∧ outOf l q = [] := by
          intro q hq
          refine ⟨List.filter_eq_nil_iff.2 fun e he => ?_, List.filter_eq_nil_iff.2 fun e he => ?_⟩
          · have := hq e he
            unfold OnRoad at this
            intro hc
            rw [decide_eq_true_eq] at hc
            rw [hc] at this
            cases hx : e.leaves <;> rw [hx] at this
            · exact hl this.1
            · exact hl this.2.1
          · have := hq e he
            unfold OnRoad at this
            intro hc
            rw [decide_eq_true_eq] at hc
            rw [hc] at this
            cases hx : e.enters <;> rw [hx] at this
            · exact hl this.1
            · exact hl this.1
        obtain ⟨a1, a2⟩ := i0 _ r.history.road
        obtain ⟨b1, b2⟩ := i0 _ cppTwo_road
        have f1 := f.length
        have f2 := f.order
        have f3 := f.records
        rw [a2] at f1 f2 f3
        rw [a1] at f2
        exact ⟨ts, by rw [b2]; exact f1, by rw [b1, b2]; exact f2, by rw [b2]; exact f3⟩

end Cpp

/-- The hypotheses of `C93_experienced` and `C93_mine` hold for vehicle 1. -/
theorem C93_mine_case : History cppTwo0 (cppTwo 12) cppTwoPasses ∧ (cppTwo 12).g.timestep ≤ cppTwo0.g.totalSteps ∧
    cppTwoPasses.filter (fun a => a.veh = 1) =
      [⟨1, 1, none, some 0⟩, ⟨5, 1, some 0, some 1⟩, ⟨8, 1, some 1, none⟩] ∧
    (∀ l ∈ [0, 1], (cppTwo0.link l).vehs = [] ∧ (cppTwo0.link l).ttEvents = [] ∧
      (into l cppTwoPasses).Pairwise (fun a b => a.veh = 1 → a.time < b.time)) ∧
    ((cppTwo 12).routeTime [0, 1] 5 0).1 = 40 :=
  ⟨cppTwo_history, by decide +kernel, by decide +kernel, by decide +kernel, by decide +kernel⟩

/-- **C93.** The time of the route driven is in general not the time the vehicle took: vehicle 0 arrived 30 s
after entering its first link, but its route counts as 40 s, the time of the vehicle beside it. -/
theorem C93_mine_false : ¬ ∀ (W : CWorld) (v : ℕ), CleanReach W → W.g.fl = id → 0 < W.g.deltaT → W.g.logMode = true →
    v < W.g.nVehs → (W.veh v).state = .ended →
    (W.routeTime (W.traveledRoute v).1 (W.startTime v) 0).1 =
      (W.veh v).arrivalTime + W.g.deltaT - W.startTime v := by
  intro h
  have := h (cppTwo 12) 0 cppTwo_clean cppTwo_fl (by decide +kernel) (by decide +kernel) (by decide +kernel)
    (by decide +kernel)
  revert this
  decide +kernel

/-- **C93.** With a series of tolls the cost of the route driven differs from the cost the same route has as an
alternative: vehicle 0 paid the toll of 3 at 20 s, the alternative pays that of 25 s. -/
theorem C93_agree_false : ¬ ∀ (W : CWorld) (v : ℕ), CleanReach W → W.g.fl = id → 0 < W.g.deltaT → W.g.logMode = true →
    v < W.g.nVehs → (W.veh v).state = .ended →
    W.costOwn (W.traveledRoute v).1 (W.traveledRoute v).2.1 (W.startTime v) 0 ≤
      W.costDue (W.traveledRoute v).1 (W.startTime v) := by
  intro h
  have := h (cppTwo 12) 0 cppTwo_clean cppTwo_fl (by decide +kernel) (by decide +kernel) (by decide +kernel)
    (by decide +kernel)
  revert this
  decide +kernel

end UX
