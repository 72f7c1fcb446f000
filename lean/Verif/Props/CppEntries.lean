import Verif.Spec.CppEntries
import Verif.Props.CppRequest
import Verif.Props.CppDta
import Verif.Props.CppLanes
import Verif.Proofs.Osm
import Mathlib.Algebra.BigOperators.Group.Finset.Basic

/-!
# C122: enter logs of links and route objects in the C++ mode
-/

namespace UX.Cpp
open Spec CWorld Ask Osm

theorem entered_iff {c : CWorld} {l v : ℕ} {t : ℚ} : EnteredAt c l t v ↔ v < c.g.nVehs ∧ (l, t) ∈ c.enterLog v := by
  unfold EnteredAt Wrap.buildLog
  refine and_congr_right fun _ => ?_
  simp only [List.mem_cons, Prod.mk.injEq, reduceCtorEq, and_false, false_or, List.mem_append, List.mem_map,
    WPlace.link.injEq, Prod.exists]
  constructor
  · rintro (⟨a, b, h, rfl, rfl⟩ | h)
    · exact h
    · split at h <;> simp at h
  · exact fun h => Or.inl ⟨l, t, h, rfl, rfl⟩

theorem enterData_mem {c : CWorld} {l v : ℕ} {t : ℚ} : (l, t, v) ∈ c.enterData ↔ EnteredAt c l t v := by
  rw [entered_iff]
  unfold enterData
  simp only [List.mem_flatMap, List.mem_range, List.mem_map, Prod.exists, Prod.mk.injEq]
  constructor
  · rintro ⟨w, hw, a, b, h, rfl, rfl, rfl⟩
    exact ⟨hw, h⟩
  · rintro ⟨h1, h2⟩
    exact ⟨v, h1, l, t, h2, rfl, rfl, rfl⟩

theorem enterData_sorted (c : CWorld) : c.enterData.Pairwise (fun a b => a.2.2 ≤ b.2.2) := by
  unfold enterData
  refine List.pairwise_flatMap.2 ⟨fun v _ => ?_, ?_⟩
  · rw [List.pairwise_map]
    exact List.pairwise_of_forall (fun _ _ => le_refl _)
  · refine List.pairwise_lt_range.imp fun {a b} hab x hx y hy => ?_
    simp only [List.mem_map] at hx hy
    obtain ⟨_, _, rfl⟩ := hx
    obtain ⟨_, _, rfl⟩ := hy
    exact hab.le

theorem enter_fold (l : ℕ) (es : List (ℕ × ℚ × ℕ)) (hs : es.Pairwise (fun a b => a.2.2 ≤ b.2.2)) :
    let d := es.foldl (fun d e => if e.1 = l then dSet d e.2.1 e.2.2 else d) ([] : List (ℚ × ℕ))
    (d.map Prod.fst).Nodup ∧ (∀ t, t ∈ d.map Prod.fst ↔ ∃ v, (l, t, v) ∈ es) ∧
      ∀ t v, (t, v) ∈ d → (l, t, v) ∈ es ∧ ∀ u, (l, t, u) ∈ es → u ≤ v := by
  induction es using List.reverseRecOn with
  | nil => simp
  | append_singleton es e ih =>
    obtain ⟨k, s, w⟩ := e
    have hs' := List.pairwise_append.1 hs
    obtain ⟨i1, i2, i3⟩ := ih hs'.1
    simp only [List.foldl_append, List.foldl_cons, List.foldl_nil]
    set d := es.foldl (fun d e => if e.1 = l then dSet d e.2.1 e.2.2 else d) ([] : List (ℚ × ℕ)) with hd
    have hle : ∀ a ∈ es, a.2.2 ≤ w := fun a ha => hs'.2.2 a ha (k, s, w) (by simp)
    by_cases hk : k = l
    · rw [if_pos hk]
      subst hk
      refine ⟨dSet_nodup _ _ _ i1, fun t => ?_, fun t v h => ?_⟩
      · rw [dSet_keys, i2]
        simp only [List.mem_append, List.mem_singleton, Prod.mk.injEq, true_and]
        constructor
        · rintro (rfl | ⟨v, hv⟩)
          · exact ⟨w, Or.inr ⟨rfl, rfl⟩⟩
          · exact ⟨v, Or.inl hv⟩
        · rintro ⟨v, hv | ⟨rfl, rfl⟩⟩
          · exact Or.inr ⟨v, hv⟩
          · exact Or.inl rfl
      · simp only [List.mem_append, List.mem_singleton, Prod.mk.injEq, true_and]
        by_cases ht : t = s
        · subst ht
          have hv : v = w := by
            have n := dSet_nodup d t w i1
            have m : (t, w) ∈ dSet d t w := by
              clear * -
              induction d with
              | nil => simp [dSet]
              | cons q r ih =>
                unfold dSet
                split
                · exact List.mem_cons_self
                · exact List.mem_cons_of_mem _ ih
            exact (Prod.ext_iff.1 (List.inj_on_of_nodup_map n h m rfl)).2
          subst hv
          refine ⟨Or.inr ⟨rfl, rfl⟩, fun u hu => ?_⟩
          rcases hu with hu | ⟨_, rfl⟩
          · exact hle _ hu
          · exact le_refl _
        · rcases dSet_mem h with h | h
          · exact absurd (Prod.ext_iff.1 h).1 ht
          · obtain ⟨j1, j2⟩ := i3 t v h
            refine ⟨Or.inl j1, fun u hu => ?_⟩
            rcases hu with hu | ⟨h1, _⟩
            · exact j2 u hu
            · exact absurd h1 ht
    · rw [if_neg hk]
      have hm : ∀ t u, (l, t, u) ∈ es ++ [(k, s, w)] ↔ (l, t, u) ∈ es := by
        intro t u
        simp only [List.mem_append, List.mem_singleton, Prod.mk.injEq]
        constructor
        · rintro (h | ⟨h, _⟩)
          · exact h
          · exact absurd h.symm hk
        · exact Or.inl
      refine ⟨i1, fun t => ?_, fun t v h => ?_⟩
      · simp only [hm]; exact i2 t
      · simp only [hm]; exact i3 t v h

/-- **C122.** After the end of the simulation `vehicles_enter_log` of a link has one entry for each time at which a vehicle
entered it; the entry is the vehicle with the largest index among those that entered at this time. -/
theorem C122_log (c : CWorld) (l : ℕ) :
    ((c.shownEnter true l).map Prod.fst).Nodup ∧
    (∀ t, t ∈ (c.shownEnter true l).map Prod.fst ↔ ∃ v, EnteredAt c l t v) ∧
    ∀ t v, (t, v) ∈ c.shownEnter true l → EnteredAt c l t v ∧ ∀ u, EnteredAt c l t u → u ≤ v := by
  obtain ⟨h1, h2, h3⟩ := enter_fold l c.enterData (enterData_sorted c)
  simp only [enterData_mem] at h2 h3
  exact ⟨h1, h2, h3⟩

theorem foldl_times {c : CWorld} (hfl : c.g.fl = id) (l : ℕ) (ts : List ℚ) (s : ℚ) :
    ts.foldl (fun s t => c.g.fl (s + c.dtaTime l t)) s = s + (ts.map (c.dtaTime l)).sum := by
  induction ts generalizing s with
  | nil => simp
  | cons t ts ih =>
    rw [List.foldl_cons, ih, hfl]
    simp only [id, List.map_cons, List.sum_cons]
    ring

/-- **C122.** After the end of the simulation `average_travel_time_between` is, in exact arithmetic, the mean of the travel
times of C93 over the times `t0 ≤ t < t1` at which vehicles entered the link, each time counted once; without such a time it
is the free-flow travel time. -/
theorem C122_average {c : CWorld} (h : CReach c) (hfl : c.g.fl = id) (hT : 0 < c.g.deltaT) (hn : 0 < c.g.totalSteps)
    {l : ℕ} (hl : l < c.g.nLinks) (t0 t1 : ℚ) :
    ∃ T : Finset ℚ, (∀ t, t ∈ T ↔ (t0 ≤ t ∧ t < t1) ∧ ∃ v, EnteredAt c l t v) ∧
      (T = ∅ → c.averageBetween true l t0 t1 = (c.link l).len / (c.link l).vmax) ∧
      (T ≠ ∅ → c.averageBetween true l t0 t1 * T.card = ∑ t ∈ T, linkTime c l t) := by
  obtain ⟨h1, h2, _⟩ := C122_log c l
  set ts := ((c.shownEnter true l).map Prod.fst).filter (fun t => decide (t0 ≤ t ∧ t < t1)) with hts
  have hnd : ts.Nodup := h1.filter _
  have hmem : ∀ t, t ∈ ts.toFinset ↔ (t0 ≤ t ∧ t < t1) ∧ ∃ v, EnteredAt c l t v := by
    intro t
    rw [List.mem_toFinset, hts, List.mem_filter, h2, decide_eq_true_eq]
    exact and_comm
  have hav : c.averageBetween true l t0 t1 = if ts = [] then (c.link l).len / (c.link l).vmax
      else (ts.map (c.dtaTime l)).sum / ts.length := by
    unfold averageBetween
    dsimp only
    rw [foldl_times hfl, zero_add, hfl]
    rfl
  refine ⟨ts.toFinset, hmem, fun he => ?_, fun he => ?_⟩
  · rw [hav, if_pos (List.toFinset_eq_empty_iff _ |>.1 he)]
  · have hne : ts ≠ [] := fun e => he (by rw [e]; rfl)
    have hpos : (ts.length : ℚ) ≠ 0 := by exact_mod_cast (List.length_pos_of_ne_nil hne).ne'
    rw [hav, if_neg hne, List.toFinset_card_of_nodup hnd, div_mul_cancel₀ _ hpos, List.sum_toFinset _ hnd]
    refine congrArg List.sum (List.map_congr_left fun t _ => C93_time h hfl hT hn hl t)

/-- **C122.** Before the end of the simulation `average_travel_time_between` is the free-flow travel time, whatever has
happened on the link. -/
theorem C122_before {c : CWorld} (hfl : c.g.fl = id) (l : ℕ) (t0 t1 : ℚ) :
    c.averageBetween false l t0 t1 = (c.link l).len / (c.link l).vmax := by
  unfold averageBetween shownEnter
  simp [hfl]

theorem routeLinks_some (ks : List ℕ) : routeLinks (ks.map some) = .ok ks := by
  induction ks with
  | nil => rfl
  | cons k ks ih => simp only [List.map_cons, routeLinks, ih]

theorem routeLinks_none {ls : List (Option ℕ)} (h : none ∈ ls) : routeLinks ls = .error .attributeError := by
  induction ls with
  | nil => simp at h
  | cons a ls ih =>
    cases a with
    | none => rfl
    | some k =>
      rcases List.mem_cons.1 h with h | h
      · cases h
      · simp only [routeLinks, ih h]

theorem links_known {W : Ask} (h : Agree W.n) {rs : List LRef} {ks : List ℕ} (hr : List.Forall₂ (Means W.n) rs ks) :
    rs.map W.getLink = ks.map some := by
  induction hr with
  | nil => rfl
  | cons a _ ih => rw [List.map_cons, List.map_cons, ih, (means_getLink h a).1]

theorem routeCheck_known {W : Ask} (h : Agree W.n) : ∀ (ks : List ℕ), (∀ k ∈ ks, k < W.n.links.length) →
    (Consecutive W.n.c ks → W.routeCheck (ks.map some) = .ok ()) ∧
      (¬ Consecutive W.n.c ks → W.routeCheck (ks.map some) = .error .valueError)
  | [], _ => ⟨fun _ => rfl, fun hn => absurd List.IsChain.nil hn⟩
  | [a], _ => ⟨fun _ => rfl, fun hn => absurd (List.IsChain.singleton _) hn⟩
  | a :: b :: r, hk => by
    obtain ⟨i1, i2⟩ := routeCheck_known h (b :: r) (fun k hm => hk k (List.mem_cons_of_mem _ hm))
    obtain ⟨s, _, e, _, a1, a2, a3⟩ := h.ends a (hk a (by simp))
    obtain ⟨s', _, e', _, b1, b2, b3⟩ := h.ends b (hk b (by simp))
    have ec : W.routeCheck ((a :: b :: r).map some) =
        if (W.n.c.link a).dst = (W.n.c.link b).src then W.routeCheck ((b :: r).map some) else .error .valueError := by
      simp only [List.map_cons, routeCheck, a1, b1, Option.bind_some, Option.some.injEq, a3, b2]
    unfold Consecutive at *
    rw [ec, List.isChain_cons_cons]
    constructor
    · rintro ⟨h1, h2⟩
      rw [if_pos h1]; exact i1 h2
    · intro hn
      split
      · rename_i h1
        exact i2 fun h2 => hn ⟨h1, h2⟩
      · rfl

/-- **C122.** A route object is made exactly of links that follow each other; otherwise the constructor raises
`ValueError`. With `trust_input` every list of links is accepted. -/
theorem C122_route {W : Ask} (h : Agree W.n) {rs : List LRef} {ks : List ℕ} (hr : List.Forall₂ (Means W.n) rs ks) :
    (Consecutive W.n.c ks → W.newRoute false rs = .ok ks) ∧
    (¬ Consecutive W.n.c ks → W.newRoute false rs = .error .valueError) ∧ W.newRoute true rs = .ok ks := by
  have hk : ∀ k ∈ ks, k < W.n.links.length := by
    intro k hk
    obtain ⟨i, hi, e⟩ := List.getElem_of_mem hk
    have hi' : i < rs.length := by rw [hr.length_eq]; exact hi
    have hm := (List.forall₂_iff_get.1 hr).2 i hi' hi
    rw [show ks.get ⟨i, hi⟩ = k from e] at hm
    exact means_lt hm
  obtain ⟨c1, c2⟩ := routeCheck_known h ks hk
  unfold newRoute
  simp only [links_known h hr, routeLinks_some]
  refine ⟨fun hc => ?_, fun hc => ?_, ?_⟩
  · rw [c1 hc]; rfl
  · rw [c2 hc]; rfl
  · rfl

/-- **C122.** With a name that is not one of a link no route object is made. -/
theorem C122_unknown {W : Ask} (h : Agree W.n) {rs : List LRef} {r : LRef} (hr : r ∈ rs) (hu : Unknown W.n r)
    (trust : Bool) : ∃ e, W.newRoute trust rs = .error e := by
  have hm : none ∈ rs.map W.getLink := List.mem_map.2 ⟨r, hr, unknown_getLink h hu⟩
  unfold newRoute
  simp only [routeLinks_none hm]
  split
  · exact ⟨_, rfl⟩
  · split <;> exact ⟨_, rfl⟩

theorem routeTime_start {c : CWorld} (hfl : c.g.fl = id) (ls : List ℕ) (t s : ℚ) :
    (c.routeTime ls t s).1 = s + (c.routeTime ls t 0).1 ∧ (c.routeTime ls t s).2 = (c.routeTime ls t 0).2 := by
  induction ls generalizing t s with
  | nil => simp [routeTime]
  | cons l ls ih =>
    simp only [routeTime, hfl, id]
    obtain ⟨a1, a2⟩ := ih (t + c.dtaTime l t) (s + c.dtaTime l t)
    obtain ⟨b1, b2⟩ := ih (t + c.dtaTime l t) (0 + c.dtaTime l t)
    rw [a1, a2, b1, b2]
    refine ⟨by ring, rfl⟩

/-- **C122.** In exact arithmetic the time of a route in two parts is the time of the first part and the time of the second
part from the end of the first one on; `details` are those of the parts, and their sum is the whole time. -/
theorem C122_time {c : CWorld} (hfl : c.g.fl = id) (ls ms : List ℕ) (t : ℚ) :
    (c.routeTime (ls ++ ms) t 0).1 =
        (c.routeTime ls t 0).1 + (c.routeTime ms (t + (c.routeTime ls t 0).1) 0).1 ∧
    (c.routeTime (ls ++ ms) t 0).2 =
        (c.routeTime ls t 0).2 ++ (c.routeTime ms (t + (c.routeTime ls t 0).1) 0).2 ∧
    (c.routeTime ls t 0).1 = (c.routeTime ls t 0).2.sum ∧ (c.routeTime ls t 0).2.length = ls.length := by
  induction ls generalizing t with
  | nil => simp [routeTime]
  | cons l ls ih =>
    obtain ⟨i1, i2, i3, i4⟩ := ih (t + c.dtaTime l t)
    simp only [List.cons_append, routeTime, hfl, id, zero_add, List.length_cons, List.sum_cons]
    obtain ⟨a1, a2⟩ := routeTime_start hfl (ls ++ ms) (t + c.dtaTime l t) (c.dtaTime l t)
    obtain ⟨b1, b2⟩ := routeTime_start hfl ls (t + c.dtaTime l t) (c.dtaTime l t)
    rw [a1, a2, b1, b2, i1, i2, i4, ← i3, ← add_assoc t]
    refine ⟨by ring, rfl, rfl, rfl⟩

/-- A concrete case: five vehicles enter a link of three lanes in two time steps. -/
theorem C122_case : CReach (cppWide 40) ∧ (cppWide 40).g.deltaT = 5 ∧ (cppWide 40).g.totalSteps = 40 ∧
    (cppWide 40).shownEnter true 0 = [(5, 2), (10, 4)] ∧
    (cppWide 40).averageBetween true 0 0 200 = 30 ∧ (cppWide 40).averageBetween false 0 0 200 = 15 := by
  refine ⟨cppWide_reach (by decide +kernel), by decide +kernel, by decide +kernel, by decide +kernel, by decide +kernel,
    by decide +kernel⟩

theorem cppWide_fl {k : ℕ} (h : (cppWide0.mainLoop (fun _ W => W.seqSched) k).2 = none) : (cppWide k).g.fl = id := by
  have := cppWide0_clean.toReach.rest.mainFix seqSched_valid k
  exact (CGlob.fix_fl this).trans rfl

/-- **C122, finding.** The mean is not one over vehicles: of the vehicles that enter in the same time step one counts. -/
theorem C122_vehicles_false : ¬ ∀ (c : CWorld) (l : ℕ) (t0 t1 : ℚ), CReach c → c.g.fl = id → 0 < c.g.deltaT →
    0 < c.g.totalSteps → l < c.g.nLinks → (∃ t v, EnteredAt c l t v ∧ t0 ≤ t ∧ t < t1) →
    c.averageBetween true l t0 t1 = vehicleMean c l t0 t1 := by
  intro H
  have h := (C122_log (cppWide 40) 0).2.1 5
  rw [show (cppWide 40).shownEnter true 0 = [(5, 2), (10, 4)] from C122_case.2.2.2.1] at h
  obtain ⟨v, hv⟩ := h.1 (by simp)
  have := H (cppWide 40) 0 0 200 C122_case.1 (cppWide_fl (by decide +kernel)) (by decide +kernel) (by decide +kernel)
    (by decide +kernel) ⟨5, v, hv, by norm_num, by norm_num⟩
  exact absurd this (by decide +kernel)

/-- **C122, finding.** During the simulation the vehicles that have already entered do not count. -/
theorem C122_running_false : ¬ ∀ (c : CWorld) (l : ℕ) (t0 t1 : ℚ), CReach c → c.g.fl = id → 0 < c.g.deltaT →
    l < c.g.nLinks → t1 ≤ c.g.timestep * c.g.deltaT →
    c.averageBetween false l t0 t1 = c.averageBetween true l t0 t1 := by
  intro H
  have := H (cppWide 20) 0 0 100 (cppWide_reach (by decide +kernel)) (cppWide_fl (by decide +kernel)) (by decide +kernel)
    (by decide +kernel) (by decide +kernel)
  exact absurd this (by decide +kernel)

/-- A concrete case of routes: `ab` and `bc` follow each other, `ab` and `cb` do not. -/
theorem C122_route_case : Agree reqW.n ∧ List.Forall₂ (Means reqW.n) [.name "ab", .obj 2] [0, 2] ∧
    Consecutive reqW.n.c [0, 2] ∧ ¬ Consecutive reqW.n.c [0, 1] ∧
    List.Forall₂ (Means reqW.n) [.name "ab", .name "cb"] [0, 1] ∧ Unknown reqW.n (.name "ba") := by
  refine ⟨reqW_agree, C121_case.2.1, ?_, ?_, .cons ?_ (.cons ?_ .nil), show "ba" ∉ reqW.n.links from ?_⟩
  · unfold Consecutive; decide +kernel
  · unfold Consecutive; decide +kernel
  · show reqW.n.links[0]? = some "ab"
    rw [reqW_links]; rfl
  · show reqW.n.links[1]? = some "cb"
    rw [reqW_links]; rfl
  · rw [reqW_links]; decide

end UX.Cpp
