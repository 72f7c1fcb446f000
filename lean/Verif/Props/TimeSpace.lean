import Verif.Proofs.TimeSpace
import Verif.Props.LinkTimes
import Verif.Props.RouteChoice
import Verif.Proofs.Safe
import Verif.Proofs.Search

/-! # Time-space network (C73) -/

namespace UX
open World

/-- C73: the times of a trip: the travel times on its links add up to at least the difference between the rounded arrival
and departure times, and exceed it by at most `d` seconds per link. -/
theorem C73_times {W : World} {tm : ℚ} {d : ℕ} (hd : 0 < d) : ∀ {ls : List LinkId} {n m : NodeId} {t t' : ℕ} {c : ℚ},
    (∀ l < W.nLinks, ∀ q ∈ W.L.ttActual l, 0 ≤ q) →
    TimedTrip W tm d ls n t m t' c → (t' : ℚ) - t ≤ c ∧ c ≤ (t' : ℚ) - t + ls.length * d := by
  intro ls
  induction ls with
  | nil =>
    rintro n m t t' c - ⟨-, rfl, rfl⟩
    simp
  | cons l ls ih =>
    rintro n m t t' c hq ⟨q, c', h1, -, h3, -, h5, rfl⟩
    obtain ⟨i1, i2⟩ := ih hq h5
    have hd' : (0 : ℚ) < d := by exact_mod_cast hd
    have hq0 := hq l h1 q (List.mem_of_getElem? h3)
    have hx : (0 : ℚ) ≤ ((t : ℚ) + q) / d := by positivity
    have f1 := Nat.floor_le hx
    have f2 := Nat.lt_floor_add_one (((t : ℚ) + q) / d)
    rw [le_div_iff₀ hd'] at f1
    rw [div_lt_iff₀ hd'] at f2
    push_cast at i1 i2 ⊢
    constructor
    · linarith
    · rw [add_mul] at f2
      rw [List.length_cons]
      push_cast
      linarith

theorem arcOf_iff {W : World} (hex : W.cfg.fl = id) (hdt : 0 < W.cfg.deltat) {tm : ℚ} {d : ℕ} (hd : 0 < d) {t : ℕ}
    {l : LinkId} (hq : ∀ q ∈ W.L.ttActual l, 0 ≤ q) {ta : ℤ} {q : ℚ} :
    ArcOf W tm d (tsnTimes (pyInt tm).toNat d) t l ta q ↔
      (W.L.ttActual l)[⌊(t : ℚ) / W.cfg.deltat⌋₊]? = some q ∧ ta = ((⌊((t : ℚ) + q) / d⌋₊ * d : ℕ) : ℤ) ∧
        ((⌊((t : ℚ) + q) / d⌋₊ * d : ℕ) : ℚ) + 1 ≤ tm := by
  have e : ∀ x, W.fl x = x := fun x => by unfold World.fl; rw [hex]; rfl
  have hd' : (0 : ℚ) < d := by exact_mod_cast hd
  have e1 : pyInt (W.fl (((t : ℕ) : ℤ) / W.dt)) = ((⌊(t : ℚ) / W.cfg.deltat⌋₊ : ℕ) : ℤ) := by
    rw [e, Int.cast_natCast]
    exact pyInt_floor (by have : (0 : ℚ) ≤ t := Nat.cast_nonneg t; exact div_nonneg this hdt.le)
  unfold ArcOf
  rw [e1, pyGet_nat, e, e]
  constructor
  · rintro ⟨h1, h2, h3, h4⟩
    have hq0 := hq q (List.mem_of_getElem? h1)
    rw [Int.cast_natCast, pyInt_floor (by positivity)] at h2
    refine ⟨h1, by rw [h2]; push_cast; rfl, ?_⟩
    rw [mem_tsnTimes hd] at h4
    obtain ⟨k, h5, h6⟩ := h4
    have h7 : (⌊((t : ℚ) + q) / d⌋₊ * d : ℕ) < (pyInt tm).toNat := by
      have : ((⌊((t : ℚ) + q) / d⌋₊ * d : ℕ) : ℤ) = ((k * d : ℕ) : ℤ) := by rw [← h5, h2]; push_cast; rfl
      have : ⌊((t : ℚ) + q) / d⌋₊ * d = k * d := by exact_mod_cast this
      rw [this]; exact h6
    have h8 : ((⌊((t : ℚ) + q) / d⌋₊ * d : ℕ) : ℤ) + 1 ≤ pyInt tm := by omega
    have h9 : (0 : ℚ) ≤ tm := by
      by_contra hc
      have : pyInt tm ≤ 0 := by
        unfold pyInt
        rw [if_neg hc]
        exact Int.ceil_le.2 (by push_cast; linarith)
      omega
    rw [pyInt_nonneg h9] at h8
    have h10 := Int.le_floor.1 h8
    push_cast at h10 ⊢
    exact h10
  · rintro ⟨h1, h2, h3⟩
    have hq0 := hq q (List.mem_of_getElem? h1)
    have h9 : (0 : ℚ) ≤ tm := by
      have : (0 : ℚ) ≤ ((⌊((t : ℚ) + q) / d⌋₊ * d : ℕ) : ℚ) := Nat.cast_nonneg _
      linarith
    refine ⟨h1, ?_, ?_, ?_⟩
    · rw [h2, Int.cast_natCast, pyInt_floor (by positivity)]; push_cast; rfl
    · rw [h2, Int.cast_natCast]; linarith
    · rw [h2, mem_tsnTimes hd]
      refine ⟨_, rfl, ?_⟩
      rw [pyInt_nonneg h9]
      have : ((⌊((t : ℚ) + q) / d⌋₊ * d : ℕ) : ℤ) + 1 ≤ ⌊tm⌋ := by
        rw [Int.le_floor]; push_cast at h3 ⊢; exact h3
      omega

/-- A path in the network is a trip. -/
theorem path_trip {W : World} (h : Reachable Any W) (hex : W.cfg.fl = id) (hdt : 0 < W.cfg.deltat)
    (hq : ∀ l < W.nLinks, ∀ q ∈ W.L.ttActual l, 0 ≤ q) {dt : Option ℕ} {tm : ℚ} {d : ℕ} {ts : List ℤ}
    (hg : W.tsnGrid dt = .ok (tm, d, ts)) {g : TNode → TNode → Option ℚ} (h1 : W.tsnGraph dt = .ok g) {m : NodeId} :
    ∀ {p : List TNode} {n : NodeId} {t : ℕ}, GPath g (n, some (t : ℤ)) (m, none) p →
      ∃ ls t', TimedTrip W tm d ls n t m t' (gSum g p) := by
  obtain ⟨-, hd, rfl, -⟩ := tsnGrid_ok hg
  obtain ⟨s1, -, -⟩ := tsnGraph_spec hg h1
  intro p
  induction p with
  | nil => rintro n t ⟨h2, -, -⟩; simp at h2
  | cons a p ih =>
    rintro n t ⟨h2, h3, h4⟩
    simp only [List.head?_cons, Option.some.injEq] at h2
    subst h2
    cases p with
    | nil => simp at h3
    | cons b p =>
      rw [List.isChain_cons_cons] at h4
      rw [List.getLast?_cons_cons] at h3
      obtain ⟨w, hw⟩ := Option.ne_none_iff_exists'.1 h4.1
      have hsum : gSum g ((n, some (t : ℤ)) :: b :: p) = w + gSum g (b :: p) := by
        rw [gSum, hw]; rfl
      rcases s1 _ _ _ hw with ⟨t0, -, n0, -, e1, rfl, rfl⟩ | ⟨t0, -, n0, -, l, hl, ta, e1, rfl, ha⟩
      · simp only [Prod.mk.injEq, Option.some.injEq] at e1
        obtain ⟨rfl, rfl⟩ := e1
        cases p with
        | nil =>
          simp only [List.getLast?_singleton, Option.some.injEq, Prod.mk.injEq, and_true] at h3
          subst h3
          exact ⟨[], t, rfl, rfl, by rw [hsum]; simp [gSum]⟩
        | cons b p =>
          have h5 := (List.isChain_cons_cons.1 h4.2).1
          obtain ⟨w', hw'⟩ := Option.ne_none_iff_exists'.1 h5
          rcases s1 _ _ _ hw' with ⟨t1, -, n1, -, e2, -⟩ | ⟨t1, -, n1, -, l, hl, ta, e2, -⟩ <;> simp at e2
      · simp only [Prod.mk.injEq, Option.some.injEq] at e1
        obtain ⟨rfl, rfl⟩ := e1
        have hl' := (h.inv.s.out_iff n l).1 hl
        rw [arcOf_iff hex hdt hd (hq l hl'.1)] at ha
        obtain ⟨a1, rfl, a3⟩ := ha
        obtain ⟨ls, t', h5⟩ := ih (n := W.L.endN l) (t := ⌊((t : ℚ) + w) / d⌋₊ * d) ⟨rfl, h3, h4.2⟩
        exact ⟨l :: ls, t', w, _, hl'.1, hl'.2, a1, a3, h5, hsum⟩

/-- A trip is a path in the network, if there are no parallel links. -/
theorem trip_path {W : World} (h : Reachable Any W) (hex : W.cfg.fl = id) (hdt : 0 < W.cfg.deltat)
    (hq : ∀ l < W.nLinks, ∀ q ∈ W.L.ttActual l, 0 ≤ q) (hp : NoParallel W) {dt : Option ℕ} {tm : ℚ} {d : ℕ} {ts : List ℤ}
    (hg : W.tsnGrid dt = .ok (tm, d, ts)) {g : TNode → TNode → Option ℚ} (h1 : W.tsnGraph dt = .ok g) {m : NodeId} :
    ∀ {ls : List LinkId} {n : NodeId} {t t' : ℕ} {c : ℚ}, n < W.nNodes → ((t : ℤ) ∈ ts) → TimedTrip W tm d ls n t m t' c →
      ∃ p, GPath g (n, some (t : ℤ)) (m, none) p ∧ gSum g p = c := by
  obtain ⟨-, hd, rfl, -⟩ := tsnGrid_ok hg
  obtain ⟨s1, s2, s3⟩ := tsnGraph_spec hg h1
  intro ls
  induction ls with
  | nil =>
    rintro n t t' c hn ht ⟨rfl, rfl, rfl⟩
    have := s2 _ ht _ hn
    exact ⟨[(n, some (t : ℤ)), (n, none)], ⟨rfl, rfl, by simp [this]⟩, by simp [gSum, this]⟩
  | cons l ls ih =>
    rintro n t t' c hn ht ⟨q, c', h2, h3, h4, h5, h6, rfl⟩
    have ha := (arcOf_iff hex hdt hd (hq l h2) (tm := tm) (t := t)).2 ⟨h4, rfl, h5⟩
    obtain ⟨p, ⟨p1, p2, p3⟩, p4⟩ := ih (h.inv.s.ends_lt l h2).2 ha.2.2.2 h6
    have h7 := s3 _ ht n hn l ((h.inv.s.out_iff n l).2 ⟨h2, h3⟩) _ q ha
    obtain ⟨w, hw⟩ := Option.ne_none_iff_exists'.1 h7
    have hwq : w = q := by
      rcases s1 _ _ _ hw with ⟨t0, -, n0, -, -, e2, -⟩ | ⟨t0, -, n0, -, k, hk, ta, e1, e2, hb⟩
      · simp at e2
      · simp only [Prod.mk.injEq, Option.some.injEq] at e1 e2
        obtain ⟨rfl, rfl⟩ := e1
        have hk' := (h.inv.s.out_iff n k).1 hk
        have := hp k hk'.1 l h2 (hk'.2.trans h3.symm) e2.1.symm
        subst this
        exact (hb.unique ha).2
    subst hwq
    cases p with
    | nil => simp at p1
    | cons b p =>
      simp only [List.head?_cons, Option.some.injEq] at p1
      subst p1
      refine ⟨(n, some (t : ℤ)) :: _ :: p, ⟨rfl, by rw [List.getLast?_cons_cons]; exact p2, ?_⟩, ?_⟩
      · rw [List.isChain_cons_cons]; exact ⟨h7, p3⟩
      · rw [gSum, hw, p4]; rfl

/-- C73, exact arithmetic, no parallel links: the entry for a vehicle and a node holds the least travel time of all
trips from the origin, beginning at the departure time rounded down to the time grid; there is no entry if there is no trip.
`departure` is `departure_time_in_second`, see `C73_departure_false`. -/
theorem C73_costs_partial {W : World} (h : Reachable Any W) (hex : W.cfg.fl = id) (hdt : 0 < W.cfg.deltat)
    (hq : ∀ l < W.nLinks, ∀ q ∈ W.L.ttActual l, 0 ≤ q) (hp : NoParallel W) {dt : Option ℕ}
    {sp : (TNode → TNode → Option ℚ) → TNode → TNode → Option (ℚ × List TNode)}
    {res : TNode → TNode → Option (ℚ × List TNode)} (hr : W.timeSpace dt sp = .ok res)
    (hsp : ∀ g, W.tsnGraph dt = .ok g → ∀ s, ShortestFrom g s (sp g s)) :
    ∃ tm d, W.tmax = some tm ∧ d = W.tsnStep dt ∧ 0 < d ∧ ∀ v < W.nVeh, ∀ t0 : ℕ, 0 ≤ W.V.depSec v →
      t0 = ⌊W.V.depSec v / d⌋₊ * d → (t0 : ℚ) + 1 ≤ tm → ∀ m,
        (∀ c p, res (W.V.orig v, some t0) (m, none) = some (c, p) →
          (∃ ls t', TimedTrip W tm d ls (W.V.orig v) t0 m t' c) ∧
          ∀ ls t' c', TimedTrip W tm d ls (W.V.orig v) t0 m t' c' → c ≤ c') ∧
        (res (W.V.orig v, some t0) (m, none) = none → ∀ ls t' c', ¬ TimedTrip W tm d ls (W.V.orig v) t0 m t' c') := by
  unfold timeSpace at hr
  rw [bind_ok] at hr
  obtain ⟨⟨tm, d, ts⟩, hg, hr⟩ := hr
  dsimp only at hr
  rw [bind_ok] at hr
  obtain ⟨g, h1, hr⟩ := hr
  rw [pure_ok] at hr
  obtain ⟨g1, hd, g3, g4⟩ := tsnGrid_ok hg
  refine ⟨tm, d, g1, g4, hd, ?_⟩
  intro v hv t0 hv0 ht0 htm m
  have hd' : (0 : ℚ) < d := by exact_mod_cast hd
  have hts : (t0 : ℤ) ∈ ts := by
    rw [g3, mem_tsnTimes hd]
    refine ⟨_, by rw [ht0], ?_⟩
    rw [← ht0]
    have h9 : (0 : ℚ) ≤ tm := by have : (0 : ℚ) ≤ (t0 : ℚ) := Nat.cast_nonneg _; linarith
    rw [pyInt_nonneg h9]
    have : (t0 : ℤ) + 1 ≤ ⌊tm⌋ := by rw [Int.le_floor]; push_cast; exact htm
    omega
  have hsrc : ((W.V.orig v, some (t0 : ℤ)) : TNode) ∈ W.tsnSources d ts := by
    unfold tsnSources
    rw [List.mem_filterMap]
    refine ⟨v, List.mem_range.2 hv, ?_⟩
    have e : pyInt (W.fl (W.V.depSec v / d)) * d = (t0 : ℤ) := by
      unfold World.fl
      rw [hex, id, pyInt_floor (by positivity), ht0]
      push_cast; rfl
    dsimp only
    rw [e, if_pos hts]
  have hS := hsp g h1 (W.V.orig v, some (t0 : ℤ))
  have hn : W.V.orig v < W.nNodes := h.inv.s.orig_lt v hv
  subst hr
  dsimp only
  rw [if_pos hsrc]
  refine ⟨fun c p hc => ?_, fun hc ls t' c' ht => ?_⟩
  · obtain ⟨h2, rfl⟩ := hS.path _ _ _ hc
    refine ⟨path_trip h hex hdt hq hg h1 h2, fun ls t' c' ht => ?_⟩
    obtain ⟨p', h3, rfl⟩ := trip_path h hex hdt hq hp hg h1 hn hts ht
    exact hS.least _ _ _ hc p' h3
  · obtain ⟨p', h3, rfl⟩ := trip_path h hex hdt hq hp hg h1 hn hts ht
    exact hS.reach _ _ h3 hc

theorem foldlM_total {α β : Type} {f : β → α → M β} {xs : List α} (h : ∀ x ∈ xs, ∀ b, ∃ c, f b x = .ok c) :
    ∀ b, ∃ c, xs.foldlM f b = .ok c := by
  induction xs with
  | nil => intro b; exact ⟨b, rfl⟩
  | cons x xs ih =>
    intro b
    obtain ⟨c, hc⟩ := h x List.mem_cons_self b
    obtain ⟨d, hd⟩ := ih (fun y hy => h y (List.mem_cons_of_mem _ hy)) c
    exact ⟨d, by rw [List.foldlM_cons, hc]; exact hd⟩

/-- C73: the construction does not raise if `TMAX` is known, the grid is at least one second wide, and every second
before `TMAX` belongs to a time step; links have one travel time per time step (`finalize_times`). -/
theorem C73_total_partial {W : World} (h : Reachable Any W) (hex : W.cfg.fl = id) (hdt : 0 < W.cfg.deltat)
    (hlen : ∀ l < W.nLinks, (W.L.ttActual l).length = W.tsize) {tm : ℚ} (ht : W.tmax = some tm) (h0 : 0 ≤ tm)
    {dt : Option ℕ} (hd : 1 ≤ W.tsnStep dt) (hts : (⌊tm⌋ : ℚ) ≤ W.tsize * W.cfg.deltat)
    (sp : (TNode → TNode → Option ℚ) → TNode → TNode → Option (ℚ × List TNode)) :
    ∃ res, W.timeSpace dt sp = .ok res := by
  have hg : W.tsnGrid dt = .ok (tm, W.tsnStep dt, tsnTimes (pyInt tm).toNat (W.tsnStep dt)) := by
    unfold tsnGrid
    rw [ht]
    dsimp only
    rw [if_neg (by omega)]
  have key : ∃ g, W.tsnLinks tm (W.tsnStep dt) (tsnTimes (pyInt tm).toNat (W.tsnStep dt)) = .ok g := by
    unfold tsnLinks
    refine foldlM_total (fun t htt g => foldlM_total (fun n hn g => foldlM_total (fun l hl g => ?_) g) g) _
    rw [mem_tsnTimes hd] at htt
    obtain ⟨k, rfl, hk⟩ := htt
    generalize k * W.tsnStep dt = t at hk ⊢
    have hl' := ((h.inv.s.out_iff n l).1 hl).1
    have hlt : ⌊(t : ℚ) / W.cfg.deltat⌋₊ < (W.L.ttActual l).length := by
      rw [hlen l hl', Nat.floor_lt (by positivity), div_lt_iff₀ hdt]
      rw [pyInt_nonneg h0] at hk
      have : ((t : ℕ) : ℤ) < ⌊tm⌋ := by omega
      have : (t : ℚ) < (⌊tm⌋ : ℚ) := by exact_mod_cast this
      linarith
    unfold tsnLink
    beta_reduce
    rw [if_neg (by exact hdt.ne')]
    have e1 : pyInt (W.fl (((t : ℕ) : ℤ) / W.dt)) = ((⌊(t : ℚ) / W.cfg.deltat⌋₊ : ℕ) : ℤ) := by
      unfold World.fl World.dt
      rw [hex, Int.cast_natCast, id]
      exact pyInt_floor (by positivity)
    rw [e1, pyGet_nat.2 (List.getElem?_eq_getElem hlt), ok_bind]
    dsimp only
    split <;> exact ⟨_, rfl⟩
  obtain ⟨g, hg2⟩ := key
  unfold timeSpace tsnGraph
  rw [hg, ok_bind]
  dsimp only
  rw [ok_bind]
  dsimp only
  rw [hg2, ok_bind]
  exact ⟨_, rfl⟩

/-- The hypothesis of `C73_costs_partial` on the search can be met. -/
theorem tsn_search {W : World} (hs : SInv W) (hex : W.cfg.fl = id)
    (hq : ∀ l < W.nLinks, ∀ q ∈ W.L.ttActual l, 0 ≤ q) (hdt : 0 < W.cfg.deltat) (dt : Option ℕ) :
    ∃ sp : (TNode → TNode → Option ℚ) → TNode → TNode → Option (ℚ × List TNode),
      ∀ g, W.tsnGraph dt = .ok g → ∀ s, ShortestFrom g s (sp g s) := by
  classical
  refine ⟨fun g s => if h : ∃ r, ShortestFrom g s r then Classical.choose h else fun _ => none, fun g hg s => ?_⟩
  have hx : ∃ r, ShortestFrom g s r := by
    cases hG : W.tsnGrid dt with
    | error e => unfold tsnGraph at hg; rw [hG] at hg; cases hg
    | ok x =>
      obtain ⟨tm, d, ts⟩ := x
      obtain ⟨-, hd, rfl, -⟩ := tsnGrid_ok hG
      obtain ⟨s1, -, -⟩ := tsnGraph_spec hG hg
      generalize hts : tsnTimes (pyInt tm).toNat d = ts at s1
      refine shortestFrom_exists (ns := (List.range W.nNodes).map (fun n => ((n, none) : TNode)) ++
        ts.flatMap fun t => (List.range W.nNodes).map fun n => ((n, some t) : TNode)) (fun a b hab => ?_) (fun a b w hab => ?_) s
      · obtain ⟨w, hw⟩ := Option.ne_none_iff_exists'.1 hab
        rcases s1 _ _ _ hw with ⟨t, -, n, hn, -, rfl, -⟩ | ⟨t, -, n, -, l, hl, ta, -, rfl, ha⟩
        · exact List.mem_append_left _ (List.mem_map.2 ⟨n, List.mem_range.2 hn, rfl⟩)
        · refine List.mem_append_right _ (List.mem_flatMap.2 ⟨ta, ha.2.2.2, List.mem_map.2 ⟨_, List.mem_range.2 ?_, rfl⟩⟩)
          exact (hs.ends_lt l ((hs.out_iff n l).1 hl).1).2
      · rcases s1 _ _ _ hab with ⟨t, -, n, -, -, -, rfl⟩ | ⟨t, ht, n, -, l, hl, ta, -, -, ha⟩
        · exact le_refl _
        · rw [← hts, mem_tsnTimes hd] at ht
          obtain ⟨k, rfl, -⟩ := ht
          rw [← hts] at ha
          have hl' := ((hs.out_iff n l).1 hl).1
          have := (arcOf_iff hex hdt hd (hq l hl')).1 ha
          exact hq l hl' w (List.mem_of_getElem? this.1)
  dsimp only
  rw [dif_pos hx]
  exact Classical.choose_spec hx

/-- Two links in a row, `TMAX` 60; vehicle 0 by time step, vehicle 1 at 10 seconds. -/
def tsnDemo : List Cmd :=
  [.node { name := "a" }, .node { name := "b" }, .node { name := "c" },
   .link { startN := .obj 0, endN := .obj 1, length := 200 },
   .link { startN := .obj 1, endN := .obj 2, length := 240 },
   .veh { orig := .obj 0, dest := some (.obj 2), dep := .step 1 },
   .veh { orig := .obj 0, dest := some (.obj 2), dep := .sec 10 },
   .fin (some 60)]

set_option maxRecDepth 100000 in
/-- The hypotheses of `C73_costs_partial`, `C73_total_partial` and `tsn_search` are met; there is a trip. -/
example : ∃ W, Reachable Any W ∧ W.cfg.fl = id ∧ 0 < W.cfg.deltat ∧ (∀ l < W.nLinks, ∀ q ∈ W.L.ttActual l, 0 ≤ q) ∧
    NoParallel W ∧ (∀ l < W.nLinks, (W.L.ttActual l).length = W.tsize) ∧ W.tmax = some 60 ∧ 1 ≤ W.tsnStep none ∧
    ((⌊(60 : ℚ)⌋ : ℤ) : ℚ) ≤ W.tsize * W.cfg.deltat ∧ 0 < W.nVeh ∧ W.V.depSec 0 = 5 ∧ W.V.orig 0 = 0 ∧
    TimedTrip W 60 5 [0, 1] 0 5 2 25 22 := by
  have h : obs (runCmds demoCfg (fun _ => 0) tsnDemo) (fun W =>
      decide (0 < W.cfg.deltat) && decide (W.nLinks = 2) && decide (∀ l ∈ List.range 2, ∀ q ∈ W.L.ttActual l, 0 ≤ q) &&
      decide (W.L.startN 0 ≠ W.L.startN 1) && decide (∀ l ∈ List.range 2, (W.L.ttActual l).length = W.tsize) &&
      decide (W.tmax = some 60 ∧ 1 ≤ W.tsnStep none ∧ ((⌊(60 : ℚ)⌋ : ℤ) : ℚ) ≤ W.tsize * W.cfg.deltat ∧ 0 < W.nVeh ∧
        W.V.depSec 0 = 5 ∧ W.V.orig 0 = 0) &&
      decide (W.L.startN 0 = 0 ∧ W.L.endN 0 = 1 ∧ W.L.startN 1 = 1 ∧ W.L.endN 1 = 2 ∧
        (W.L.ttActual 0)[1]? = some 10 ∧ (W.L.ttActual 1)[3]? = some 12 ∧ W.cfg.deltat = 5)) = true := by decide +kernel
  obtain ⟨W, h1, h2⟩ := obs_ok h
  simp only [Bool.and_eq_true, decide_eq_true_eq, List.mem_range] at h2
  obtain ⟨⟨⟨⟨⟨⟨a, b⟩, c⟩, d⟩, e⟩, f1, f2, f3, f4, f5, f6⟩, g1, g2, g3, g4, g5, g6, g7⟩ := h2
  refine ⟨W, runCmds_reachable h1, by rw [runCmds_cfg h1]; rfl, a, by rw [b]; exact c, ?_, by rw [b]; exact e, f1, f2, f3, f4,
    f5, f6, ?_⟩
  · intro l hl k hk hlk _
    rw [b] at hl hk
    have hl' : l = 0 ∨ l = 1 := Nat.le_one_iff_eq_zero_or_eq_one.1 (Nat.lt_succ_iff.1 hl)
    have hk' : k = 0 ∨ k = 1 := Nat.le_one_iff_eq_zero_or_eq_one.1 (Nat.lt_succ_iff.1 hk)
    rcases hl' with rfl | rfl <;> rcases hk' with rfl | rfl
    · rfl
    · exact absurd hlk d
    · exact absurd hlk.symm d
    · rfl
  · have e1 : ⌊((5 : ℕ) : ℚ) / W.cfg.deltat⌋₊ = 1 := by rw [g7]; norm_num
    have e2 : ⌊(((5 : ℕ) : ℚ) + 10) / (5 : ℕ)⌋₊ = 3 := by norm_num
    refine ⟨10, 12, by rw [b]; decide, g1, by rw [e1]; exact g5, by rw [e2]; norm_num, ?_, by norm_num⟩
    rw [e2, g2]
    have e3 : ⌊((3 * 5 : ℕ) : ℚ) / W.cfg.deltat⌋₊ = 3 := by rw [g7]; norm_num
    have e4 : ⌊(((3 * 5 : ℕ) : ℚ) + 12) / (5 : ℕ)⌋₊ = 5 := by rw [Nat.floor_eq_iff (by norm_num)]; norm_num
    refine ⟨12, 0, by rw [b]; decide, g3, by rw [e3]; exact g6, by rw [e4]; norm_num, ?_, by norm_num⟩
    rw [e4, g4]
    exact ⟨rfl, rfl, rfl⟩

set_option maxRecDepth 100000 in
/-- C73: "there are entries for the departure time of every vehicle" is false. Vehicle 1, added with departure time 10 s,
departs in step 2 of 5 s each, but its `departure_time_in_second` is 50 (uxsim.py:1049 multiplies seconds by `DELTAT`), and no
search yields an entry for its origin at time 10. -/
theorem C73_departure_false : ∃ W, Reachable Any W ∧ W.cfg.fl = id ∧ W.cfg.deltat = 5 ∧ W.V.depTime 1 = 2 ∧
    W.V.depSec 1 = 50 ∧ W.V.orig 1 = 0 ∧ ∀ sp, ∃ res, W.timeSpace none sp = .ok res ∧ ∀ m, res (0, some 10) m = none := by
  have h : obs (runCmds demoCfg (fun _ => 0) tsnDemo) (fun W =>
      decide (W.cfg.deltat = 5 ∧ W.V.depTime 1 = 2 ∧ W.V.depSec 1 = 50 ∧ W.V.orig 1 = 0) &&
      obs (W.tsnGrid none) (fun x => obs (W.tsnGraph none) fun _ =>
        !decide (((0, some 10) : TNode) ∈ W.tsnSources x.2.1 x.2.2))) = true := by decide +kernel
  obtain ⟨W, h1, h2⟩ := obs_ok h
  simp only [Bool.and_eq_true, decide_eq_true_eq] at h2
  obtain ⟨⟨a, b, c, d⟩, h2⟩ := h2
  obtain ⟨x, h3, h4⟩ := obs_ok h2
  obtain ⟨g, h5, h6⟩ := obs_ok h4
  refine ⟨W, runCmds_reachable h1, by rw [runCmds_cfg h1]; rfl, a, b, c, d, fun sp => ?_⟩
  refine ⟨fun s t => if s ∈ W.tsnSources x.2.1 x.2.2 then sp g s t else none, ?_, fun m => ?_⟩
  · unfold timeSpace
    rw [h3, ok_bind]
    dsimp only
    rw [h5, ok_bind]
    rfl
  · dsimp only
    rw [if_neg (by simpa using h6)]

set_option maxRecDepth 100000 in
/-- C73: "the construction works in every finished simulation" is false. With `TMAX` 16 and steps of 5 s, the last time of the
grid, 15, is beyond the last time step. -/
theorem C73_index_false : ∃ W, Reachable Any W ∧ W.cfg.fl = id ∧ W.T = W.tsize ∧ W.tmax = some 16 ∧ W.cfg.deltat = 5 ∧
    ∀ sp, W.timeSpace none sp = .error .indexError := by
  have h : obs (runCmds demoCfg (fun _ => 0)
      [.node { name := "a" }, .node { name := "b" }, .link { startN := .obj 0, endN := .obj 1, length := 200 },
       .fin (some 16), .tick, .tick, .tick]) (fun W =>
      decide (W.T = W.tsize ∧ W.tmax = some 16 ∧ W.cfg.deltat = 5) &&
      obs (W.tsnGrid none) (fun x => match W.tsnGraph none with | .error e => decide (e = .indexError) | .ok _ => false)) =
      true := by decide +kernel
  obtain ⟨W, h1, h2⟩ := obs_ok h
  simp only [Bool.and_eq_true, decide_eq_true_eq] at h2
  obtain ⟨⟨a, b, c⟩, h2⟩ := h2
  obtain ⟨x, h3, h4⟩ := obs_ok h2
  refine ⟨W, runCmds_reachable h1, by rw [runCmds_cfg h1]; rfl, a, b, c, fun sp => ?_⟩
  unfold timeSpace
  rw [h3, ok_bind]
  dsimp only
  cases h5 : W.tsnGraph none with
  | ok g => rw [h5] at h4; cases h4
  | error e =>
    rw [h5] at h4
    have := of_decide_eq_true h4
    rw [this]
    rfl

set_option maxRecDepth 100000 in
/-- C73: with time steps below one second the default grid has step 0, and the construction raises. -/
theorem C73_step_false : ∃ W, Reachable Any W ∧ W.cfg.fl = id ∧ W.T = W.tsize ∧ W.cfg.deltat = 1 / 2 ∧
    ∀ sp, W.timeSpace none sp = .error .valueError := by
  have h : obs (runCmds { demoCfg with deltan := 1, reactionTime := 1 / 2 } (fun _ => 0)
      [.node { name := "a" }, .node { name := "b" }, .link { startN := .obj 0, endN := .obj 1, length := 200 },
       .fin (some 1), .tick, .tick]) (fun W =>
      decide (W.T = W.tsize ∧ W.cfg.deltat = 1 / 2) &&
      decide (W.tsnGrid none = .error .valueError)) = true := by decide +kernel
  obtain ⟨W, h1, h2⟩ := obs_ok h
  simp only [Bool.and_eq_true, decide_eq_true_eq] at h2
  obtain ⟨⟨a, b⟩, h2⟩ := h2
  refine ⟨W, runCmds_reachable h1, by rw [runCmds_cfg h1]; rfl, a, b, fun sp => ?_⟩
  unfold timeSpace
  rw [h2]
  rfl

/-- Two parallel links that take 10 s and 12 s. -/
def tsnParallel : List Cmd :=
  [.node { name := "a" }, .node { name := "b" },
   .link { name := some "p", startN := .obj 0, endN := .obj 1, length := 200 },
   .link { name := some "q", startN := .obj 0, endN := .obj 1, length := 240 },
   .veh { orig := .obj 0, dest := some (.obj 1), dep := .step 0 },
   .fin (some 60)]

set_option maxRecDepth 100000 in
/-- C73: "the entry is the least travel time" is false with parallel links that arrive in the same interval: the link added last
counts. The trip over link 0 takes 10 s, but every search gives 12 s or more. -/
theorem C73_parallel_false : ∃ W, Reachable Any W ∧ W.cfg.fl = id ∧ W.V.orig 0 = 0 ∧ W.V.depSec 0 = 0 ∧
    TimedTrip W 60 5 [0] 0 0 1 10 10 ∧ ∀ sp res, W.timeSpace none sp = .ok res →
      (∀ g, W.tsnGraph none = .ok g → ∀ s, ShortestFrom g s (sp g s)) →
      ∃ c p, res (0, some 0) (1, none) = some (c, p) ∧ 12 ≤ c := by
  have h : obs (runCmds demoCfg (fun _ => 0) tsnParallel) (fun W =>
      decide (W.V.orig 0 = 0 ∧ W.V.depSec 0 = 0 ∧ W.nLinks = 2 ∧ W.L.startN 0 = 0 ∧ W.L.endN 0 = 1 ∧
        (W.L.ttActual 0)[0]? = some 10 ∧ (∀ l ∈ W.N.outlinks 0, W.L.endN l = 1 ∧
          (W.L.ttActual l)[0]? = some 10 ∨ W.L.endN l = 1 ∧ (W.L.ttActual l)[0]? = some 12) ∧
        (∀ l ∈ List.range 2, ∀ q ∈ W.L.ttActual l, 0 ≤ q) ∧ W.cfg.deltat = 5) &&
      obs (W.tsnGrid none) (fun x => decide (x = (60, 5, tsnTimes (pyInt 60).toNat 5)) &&
        obs (W.tsnGraph none) fun g => decide (((0, some 0) : TNode) ∈ W.tsnSources x.2.1 x.2.2 ∧
          g (0, some 0) (1, some 10) = some 12 ∧ g (1, some 10) (1, none) = some 0))) = true := by decide +kernel
  obtain ⟨W, h1, h2⟩ := obs_ok h
  simp only [Bool.and_eq_true, decide_eq_true_eq] at h2
  obtain ⟨⟨a1, a2, a3, a4, a5, a6, a7, a8, a9⟩, h2⟩ := h2
  obtain ⟨x, h3, h4⟩ := obs_ok h2
  simp only [Bool.and_eq_true, decide_eq_true_eq] at h4
  obtain ⟨rfl, h4⟩ := h4
  obtain ⟨g, h5, h6⟩ := obs_ok h4
  obtain ⟨c1, c2, c3⟩ := of_decide_eq_true h6
  have hr := runCmds_reachable h1
  have hex : W.cfg.fl = id := by rw [runCmds_cfg h1]; rfl
  refine ⟨W, hr, hex, a1, a2, ?_, ?_⟩
  · have e1 : ⌊((0 : ℕ) : ℚ) / W.cfg.deltat⌋₊ = 0 := by simp
    have e2 : ⌊(((0 : ℕ) : ℚ) + 10) / (5 : ℕ)⌋₊ = 2 := by norm_num
    refine ⟨10, 0, by rw [a3]; decide, a4, by rw [e1]; exact a6, by rw [e2]; norm_num, ?_, by norm_num⟩
    rw [e2, a5]
    exact ⟨rfl, rfl, rfl⟩
  · intro sp res hres hsp
    unfold timeSpace at hres
    rw [h3, ok_bind] at hres
    dsimp only at hres
    rw [h5, ok_bind, pure_ok] at hres
    subst hres
    dsimp only
    rw [if_pos c1]
    have hS := hsp g h5 (0, some 0)
    have hp : GPath g (0, some 0) (1, none) [(0, some 0), (1, some 10), (1, none)] := ⟨rfl, rfl, by simp [c2, c3]⟩
    obtain ⟨⟨c, p⟩, hcp⟩ := Option.ne_none_iff_exists'.1 (hS.reach _ _ hp)
    refine ⟨c, p, hcp, ?_⟩
    obtain ⟨⟨p1, p2, p3⟩, rfl⟩ := hS.path _ _ _ hcp
    obtain ⟨s1, -, -⟩ := tsnGraph_spec h3 h5
    have hw0 : ∀ a b w, g a b = some w → 0 ≤ w := by
      intro a b w hab
      rcases s1 _ _ _ hab with ⟨t, -, n, -, -, -, rfl⟩ | ⟨t, ht, n, -, l, hl, ta, -, -, ha⟩
      · exact le_refl _
      · rw [mem_tsnTimes (by omega)] at ht
        obtain ⟨k, rfl, -⟩ := ht
        have hl' := ((hr.inv.s.out_iff n l).1 hl).1
        have hq : ∀ q ∈ W.L.ttActual l, 0 ≤ q := a8 l (by rw [a3] at hl'; exact List.mem_range.2 hl')
        have := (arcOf_iff hex (by rw [a9]; norm_num) (by omega) hq).1 ha
        exact hq w (List.mem_of_getElem? this.1)
    cases p with
    | nil => simp at p1
    | cons a p =>
      simp only [List.head?_cons, Option.some.injEq] at p1
      subst p1
      cases p with
      | nil => simp at p2
      | cons b p =>
        rw [List.isChain_cons_cons] at p3
        rw [List.getLast?_cons_cons] at p2
        obtain ⟨w, hw⟩ := Option.ne_none_iff_exists'.1 p3.1
        have hsum : gSum g ((0, some 0) :: b :: p) = w + gSum g (b :: p) := by rw [gSum, hw]; rfl
        rcases s1 _ _ _ hw with ⟨t, -, n, -, e1, rfl, rfl⟩ | ⟨t, ht, n, -, l, hl, ta, e1, rfl, ha⟩
        · simp only [Prod.mk.injEq, Option.some.injEq] at e1
          obtain ⟨rfl, rfl⟩ := e1
          cases p with
          | nil => simp at p2
          | cons b p =>
            have h7 := (List.isChain_cons_cons.1 p3.2).1
            obtain ⟨w', hw'⟩ := Option.ne_none_iff_exists'.1 h7
            rcases s1 _ _ _ hw' with ⟨t1, -, n1, -, e2, -⟩ | ⟨t1, -, n1, -, l, hl, ta, e2, -⟩ <;> simp at e2
        · simp only [Prod.mk.injEq, Option.some.injEq] at e1
          obtain ⟨rfl, rfl⟩ := e1
          have hl' := ((hr.inv.s.out_iff 0 l).1 hl).1
          have hq : ∀ q ∈ W.L.ttActual l, 0 ≤ q := a8 l (by rw [a3] at hl'; exact List.mem_range.2 hl')
          have ha' := (arcOf_iff (t := 0) hex (by rw [a9]; norm_num) (by omega) hq).1 ha
          have e0 : ⌊((0 : ℕ) : ℚ) / W.cfg.deltat⌋₊ = 0 := by simp
          rw [e0] at ha'
          have hta : W.L.endN l = 1 ∧ ta = 10 := by
            rcases a7 l hl with ⟨b1, b2⟩ | ⟨b1, b2⟩ <;>
              (refine ⟨b1, ?_⟩; rw [b2, Option.some.injEq] at ha'; obtain ⟨rfl, h8, -⟩ := ha'; rw [h8]; decide +kernel)
          rw [hta.1, hta.2, c2, Option.some.injEq] at hw
          subst hw
          rw [hsum]
          have := gSum_nonneg hw0 ((W.L.endN l, some ta) :: p)
          linarith

end UX
