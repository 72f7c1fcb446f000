import Verif.Proofs.Inv
import Verif.Spec.Diagram
import Verif.Props.Demo
import Mathlib.Tactic.FieldSimp
import Mathlib.Tactic.Positivity
import Mathlib.Tactic.Linarith

/-!
# Link parameters (C33) and the simulation horizon (C47)
-/

namespace UX
open World

/-! ## How the flow parameters of links change -/

/-- The flow parameters are the same in both worlds. -/
structure SameFlow (W W' : World) : Prop where
  cfg : W'.cfg = W.cfg
  nLinks : W'.nLinks = W.nLinks
  lanes : W'.L.lanes = W.L.lanes
  u : W'.L.u = W.L.u
  kappa : W'.L.kappa = W.L.kappa
  tau : W'.L.tau = W.L.tau
  w : W'.L.w = W.L.w
  capacity : W'.L.capacity = W.L.capacity
  delta : W'.L.delta = W.L.delta
  deltaPerLane : W'.L.deltaPerLane = W.L.deltaPerLane
  qStar : W'.L.qStar = W.L.qStar
  kStar : W'.L.kStar = W.L.kStar

theorem Static.sameFlow {W W' : World} (h : Static W W') : SameFlow W W' := by
  cases h; constructor <;> assumption

theorem ApiStep.flowKinds {W W' : World} (hi : Inv W) (h : ApiStep W W') :
    SameFlow W W' ∨ (∃ a, W.addLink a = .ok W') ∨
    (∃ l q, l < W.nLinks ∧ W.changeFreeFlowSpeed l q = .ok W') ∨
    (∃ l q, l < W.nLinks ∧ W.changeJamDensity l q = .ok W') := by
  cases h with
  | addNode hf h =>
    obtain ⟨ph, t, soff, _, hn, rfl⟩ := addNode_ok h
    left; constructor <;> rfl
  | addLink hf h => exact .inr (.inl ⟨_, h⟩)
  | addVehicle h =>
    obtain ⟨o, d, dep, pref, cache, lp, la, nm, -, -, -, -, -, -, -, -, rfl⟩ := addVehicle_ok h
    left; constructor <;> rfl
  | @finalize tm hf =>
    obtain ⟨ts, tta, fc, fr, la, hr⟩ := finalize_frame W tm
    rw [hr]
    left; constructor <;> rfl
  | tick hf hT h =>
    obtain ⟨W1, h1, rfl⟩ := tick_ok h
    obtain ⟨W6, hst, rfl⟩ := step_star (hi.core hf) h1
    left
    have := hst.static.sameFlow
    exact ⟨this.cfg, this.nLinks, this.lanes, this.u, this.kappa, this.tau, this.w, this.capacity,
      this.delta, this.deltaPerLane, this.qStar, this.kStar⟩
  | endExec hf => left; constructor <;> rfl
  | overrideSignal => left; constructor <;> rfl
  | overrideSignalGroups _ h =>
    unfold World.overrideSignalGroups at h
    split at h
    · simp at h
    · split at h
      · simp at h
      · simp only [Except.ok.injEq] at h
        subst h
        left; constructor <;> rfl
  | enforceRoute _ h =>
    unfold World.enforceRoute at h
    rw [bind_ok] at h
    obtain ⟨r, _, h⟩ := h
    simp only [pure_ok] at h
    subst h
    left; constructor <;> rfl
  | setLinksPrefer _ h =>
    unfold World.setLinksPrefer at h
    rw [bind_ok] at h
    obtain ⟨r, _, h⟩ := h
    simp only [pure_ok] at h
    subst h
    left; constructor <;> rfl
  | setLinksAvoid _ h =>
    unfold World.setLinksAvoid at h
    rw [bind_ok] at h
    obtain ⟨r, _, h⟩ := h
    simp only [pure_ok] at h
    subst h
    left; constructor <;> rfl
  | addDest _ _ h => exact .inl (addDest_soft h).static.sameFlow
  | addTripRequest h =>
    unfold World.addTripRequest at h
    rw [bind_ok] at h
    obtain ⟨_, _, h⟩ := h
    rw [bind_ok] at h
    obtain ⟨_, _, h⟩ := h
    simp only [pure_ok] at h
    subst h
    left; constructor <;> rfl
  | @assignTaxi _ v r _ h =>
    unfold World.assignTaxi at h
    split at h
    · simp at h
    · rw [bind_ok] at h
      obtain ⟨W1, h1, h⟩ := h
      simp only [pure_ok] at h
      subst h
      left
      have := ((addDest_soft h1).trans (setEvent_soft W1 v (W1.H.orig r) (some (.getOn r)))).static.sameFlow
      exact ⟨this.cfg, this.nLinks, this.lanes, this.u, this.kappa, this.tau, this.w, this.capacity,
      this.delta, this.deltaPerLane, this.qStar, this.kStar⟩
  | setCapOut => left; constructor <;> rfl
  | setCapIn => left; constructor <;> rfl
  | changeFreeFlowSpeed hl h => exact .inr (.inr (.inl ⟨_, _, hl, h⟩))
  | changeJamDensity hl _ h => exact .inr (.inr (.inr ⟨_, _, hl, h⟩))
  | reseed => left; constructor <;> rfl

/-- The formulas by which the parameters of link `l` are computed. -/
structure FlowEq (W : World) (l : LinkId) : Prop where
  lanes : W.L.lanes l ≠ 0
  tau : W.L.tau l = W.cfg.reactionTime / W.L.lanes l
  w : W.L.w l = 1 / W.L.tau l / W.L.kappa l
  cap : W.L.capacity l = W.L.u l * W.L.w l * W.L.kappa l / (W.L.u l + W.L.w l)
  delta : W.L.delta l = 1 / W.L.kappa l
  dpl : W.L.deltaPerLane l = 1 / W.L.kappa l * W.L.lanes l

theorem FlowEq.same {W W' : World} {l} (h : FlowEq W l) (s : SameFlow W W') : FlowEq W' l := by
  obtain ⟨h1, h2, h3, h4, h5, h6⟩ := h
  constructor
  all_goals simp only [s.lanes, s.tau, s.cfg, s.w, s.kappa, s.capacity, s.u, s.delta, s.deltaPerLane]
  all_goals assumption

theorem linkParams_exact {r u kap : ℚ} {k : ℕ} {p : LinkPar}
    (h : linkParams id r k u kap = .ok (p.kappa, p.tau, p.w, p.cap, p.delta, p.dpl, p.kstar)) :
    k ≠ 0 ∧ p.kappa = kap ∧ p.tau = r / k ∧ p.w = 1 / p.tau / p.kappa ∧
    p.cap = u * p.w * p.kappa / (u + p.w) ∧ p.delta = 1 / p.kappa ∧ p.dpl = 1 / p.kappa * k ∧
    p.kstar = p.cap / u := by
  unfold linkParams at h
  simp only [id] at h
  split at h
  · cases h
  · rename_i hk0
    split at h
    · cases h
    · split at h
      · cases h
      · simp only [Except.ok.injEq, Prod.mk.injEq] at h
        obtain ⟨p1, p2, p3, p4, p5, p6, p7⟩ := h
        refine ⟨hk0, p1.symm, p2.symm, ?_, ?_, ?_, ?_, ?_⟩
        · rw [← p2, ← p1, ← p3]
        · rw [← p4, ← p3, ← p1]
        · rw [← p5, ← p1]
        · rw [← p6, ← p1]
        · rw [← p7, ← p4]

theorem FlowEq.addLink {W W' : World} {a} (hfl : W.cfg.fl = id) (h : W.addLink a = .ok W') :
    FlowEq W' W.nLinks ∧ (∀ l, FlowEq W l → l < W.nLinks → FlowEq W' l) ∧ W'.nLinks = W.nLinks + 1 ∧
    W'.cfg = W.cfg ∧ W'.L.qStar W.nLinks = W'.L.capacity W.nLinks ∧
    W'.L.kStar W.nLinks = W'.L.capacity W.nLinks / W'.L.u W.nLinks ∧
    W'.L.u W.nLinks = a.u ∧ (W'.L.lanes W.nLinks : ℚ) = a.lanes ∧
    W'.L.kappa W.nLinks = (match a.jamPerLane with | some j => j * a.lanes | none => a.jamDensity) := by
  obtain ⟨s, e, nm, k, p, -, -, hk, hp, -, -, rfl⟩ := addLink_ok h
  rw [hfl] at hp
  obtain ⟨hk0, p1, p2, p3, p4, p5, p6, p7⟩ := linkParams_exact hp
  have p1 : p.kappa = (match a.jamPerLane with | some j => j * a.lanes | none => a.jamDensity) := by
    rw [p1]; simp only [World.fl, hfl, id]; cases a.jamPerLane <;> rfl
  refine ⟨?_, ?_, rfl, rfl, ?_, ?_, ?_, ?_, ?_⟩
  · constructor <;> simp only [addLinkRes, upd_same] <;> assumption
  · intro l hl hlt
    have hne : l ≠ W.nLinks := Nat.ne_of_lt hlt
    obtain ⟨h1, h2, h3, h4, h5, h6⟩ := hl
    constructor <;> simp only [addLinkRes, upd_ne _ _ hne] <;> assumption
  · simp only [addLinkRes, upd_same]
  · simp only [addLinkRes, upd_same]; exact p7
  · simp only [addLinkRes, upd_same]
  · simp only [addLinkRes, upd_same]; exact hk.symm
  · simp only [addLinkRes, upd_same]; exact p1

theorem FlowEq.speed {W W' : World} {l q} (hfl : W.cfg.fl = id) (h : W.changeFreeFlowSpeed l q = .ok W') :
    (∀ k, FlowEq W k → FlowEq W' k) ∧ W'.nLinks = W.nLinks ∧ W'.cfg = W.cfg := by
  unfold World.changeFreeFlowSpeed at h
  simp only [hfl, World.fl, id] at h
  split at h
  · split at h
    · cases h
    · split at h
      · cases h
      · cases h
        refine ⟨fun k hk => ?_, rfl, rfl⟩
        obtain ⟨h1, h2, h3, h4, h5, h6⟩ := hk
        by_cases e : k = l
        · subst e
          constructor <;> simp only [upd_same]
          · exact h1
          · exact h2
          · exact h6
        · constructor <;> simp only [upd_ne _ _ e] <;> assumption
  · cases h; exact ⟨fun k hk => hk, rfl, rfl⟩

theorem FlowEq.jam {W W' : World} {l q} (hfl : W.cfg.fl = id) (h : W.changeJamDensity l q = .ok W') :
    (∀ k, FlowEq W k → FlowEq W' k) ∧ W'.nLinks = W.nLinks ∧ W'.cfg = W.cfg := by
  unfold World.changeJamDensity at h
  simp only [hfl, World.fl, id] at h
  split at h
  · split at h
    · cases h
    · split at h
      · cases h
      · cases h
        refine ⟨fun k hk => ?_, rfl, rfl⟩
        obtain ⟨h1, h2, h3, h4, h5, h6⟩ := hk
        by_cases e : k = l
        · subst e
          constructor <;> simp only [upd_same]
          · exact h1
          · exact h2
        · constructor <;> simp only [upd_ne _ _ e] <;> assumption
  · cases h; exact ⟨fun k hk => hk, rfl, rfl⟩

theorem Reachable.flowEq {OK} {W : World} (h : Reachable OK W) (hfl : W.cfg.fl = id) :
    ∀ l < W.nLinks, FlowEq W l := by
  induction h with
  | new => intro l hl; exact absurd hl (Nat.not_lt_zero _)
  | @next W W' hr hs _ ih =>
    have hc := hs.cfg hr.inv
    rw [hc] at hfl
    have ih := ih hfl
    rcases hs.flowKinds hr.inv with s | ⟨a, ha⟩ | ⟨l, q, -, ha⟩ | ⟨l, q, -, ha⟩
    · intro l hl; rw [s.nLinks] at hl; exact (ih l hl).same s
    · obtain ⟨h1, h2, h3, -⟩ := FlowEq.addLink hfl ha
      intro l hl
      rw [h3] at hl
      rcases Nat.lt_succ_iff_lt_or_eq.1 hl with hl | rfl
      · exact h2 l (ih l hl) hl
      · exact h1
    · obtain ⟨h1, h2, -⟩ := FlowEq.speed hfl ha
      intro l hl; rw [h2] at hl; exact h1 l (ih l hl)
    · obtain ⟨h1, h2, -⟩ := FlowEq.jam hfl ha
      intro l hl; rw [h2] at hl; exact h1 l (ih l hl)

theorem FlowEq.diagram {W : World} {l} (h : FlowEq W l) (hr : 0 < W.cfg.reactionTime)
    (hu : 0 < W.L.u l) (hk : 0 < W.L.kappa l) :
    Diagram W.cfg.reactionTime (W.L.lanes l) (W.L.u l) (W.L.kappa l) (W.L.tau l) (W.L.w l)
      (W.L.capacity l) (W.L.delta l) (W.L.deltaPerLane l) := by
  have hl : 0 < W.L.lanes l := Nat.pos_of_ne_zero h.lanes
  have hl' : (0:ℚ) < W.L.lanes l := by exact_mod_cast hl
  have htau : 0 < W.L.tau l := by rw [h.tau]; positivity
  have hw : 0 < W.L.w l := by rw [h.w]; positivity
  have hwt : W.L.w l * W.L.tau l * W.L.kappa l = 1 := by rw [h.w]; field_simp
  have hcap : W.L.capacity l * (W.L.u l + W.L.w l) = W.L.u l * W.L.w l * W.L.kappa l := by
    rw [h.cap]; field_simp
  have hcp : 0 < W.L.capacity l := by rw [h.cap]; positivity
  refine ⟨hl, by rw [h.tau]; field_simp, hwt, by rw [h.delta]; field_simp, by rw [h.dpl]; field_simp,
    ⟨by positivity, ?_, by field_simp, ?_⟩, ?_⟩
  · rw [div_lt_iff₀ hu]
    by_contra hc
    push Not at hc
    have := mul_le_mul_of_nonneg_right hc (add_pos hu hw).le
    nlinarith [mul_pos (mul_pos hu hu) hk]
  · field_simp; linarith
  · rw [lt_div_iff₀ hr, ← (show W.L.tau l * W.L.lanes l = W.cfg.reactionTime by rw [h.tau]; field_simp)]
    have e : W.L.capacity l < W.L.w l * W.L.kappa l := by
      by_contra hc
      push Not at hc
      have := mul_le_mul_of_nonneg_right hc (add_pos hu hw).le
      nlinarith [mul_pos (mul_pos hw hw) hk]
    have e2 : W.L.capacity l * W.L.tau l < 1 := by
      calc W.L.capacity l * W.L.tau l < W.L.w l * W.L.kappa l * W.L.tau l := mul_lt_mul_of_pos_right e htau
        _ = 1 := by rw [← hwt]; ring
    nlinarith

/-! ## C33 -/

/-- In every reachable world the parameters of every link with positive speed and jam density are
those of one triangular fundamental diagram, whatever changes were made to speed and jam density
along the way. The critical density here is `capacity / u`; missing: the attribute `k_star` is not that
after a change (`C33_star_stale`). -/
theorem C33_diagram_partial {W : World} (h : Reachable Any W) (hfl : W.cfg.fl = id)
    (hr : 0 < W.cfg.reactionTime) {l : LinkId} (hl : l < W.nLinks) (hu : 0 < W.L.u l)
    (hk : 0 < W.L.kappa l) :
    Diagram W.cfg.reactionTime (W.L.lanes l) (W.L.u l) (W.L.kappa l) (W.L.tau l) (W.L.w l)
      (W.L.capacity l) (W.L.delta l) (W.L.deltaPerLane l) :=
  (h.flowEq hfl l hl).diagram hr hu hk

/-- The attributes `q_star` and `k_star` of a new link are its capacity and critical density; speed,
lanes and jam density are the requested ones. -/
theorem C33_new_link {W W' : World} {a : LinkArgs} (hfl : W.cfg.fl = id)
    (hr : 0 < W.cfg.reactionTime) (h : W.addLink a = .ok W') (hu : 0 < a.u)
    (hk : 0 < (match a.jamPerLane with | some j => j * a.lanes | none => a.jamDensity)) :
    W'.nLinks = W.nLinks + 1 ∧ W'.L.u W.nLinks = a.u ∧ (W'.L.lanes W.nLinks : ℚ) = a.lanes ∧
    W'.L.kappa W.nLinks = (match a.jamPerLane with | some j => j * a.lanes | none => a.jamDensity) ∧
    W'.L.qStar W.nLinks = W'.L.capacity W.nLinks ∧
    Triangle (W'.L.u W.nLinks) (W'.L.w W.nLinks) (W'.L.kappa W.nLinks) (W'.L.capacity W.nLinks)
      (W'.L.kStar W.nLinks) := by
  obtain ⟨h1, -, h3, h4, h5, h6, h7, h8, h9⟩ := FlowEq.addLink hfl h
  rw [← h9] at hk
  rw [← h7] at hu
  have := (h1.diagram (by rw [h4]; exact hr) hu hk).triangle
  rw [← h6] at this
  exact ⟨h3, h7, h8, h9, h5, this⟩

/-- `q_star` and `k_star` stay right as long as nobody changes a speed or a jam density. -/
theorem C33_star_kept {W W' : World} (h : Reachable Any W) (hs : ApiStep W W')
    (h1 : ∀ l q, W.changeFreeFlowSpeed l q ≠ .ok W') (h2 : ∀ l q, W.changeJamDensity l q ≠ .ok W')
    {l : LinkId} (hl : l < W.nLinks) :
    W'.L.qStar l = W.L.qStar l ∧ W'.L.kStar l = W.L.kStar l ∧ W'.L.capacity l = W.L.capacity l ∧
    W'.L.u l = W.L.u l ∧ W'.L.w l = W.L.w l ∧ W'.L.kappa l = W.L.kappa l := by
  rcases hs.flowKinds h.inv with s | ⟨a, ha⟩ | ⟨l, q, -, ha⟩ | ⟨l, q, -, ha⟩
  · rw [s.qStar, s.kStar, s.capacity, s.u, s.w, s.kappa]; exact ⟨rfl, rfl, rfl, rfl, rfl, rfl⟩
  · obtain ⟨s, e, nm, k, p, -, -, hk, hp, -, -, rfl⟩ := addLink_ok ha
    have hne : l ≠ W.nLinks := Nat.ne_of_lt hl
    simp only [addLinkRes, upd_ne _ _ hne]
    exact ⟨trivial, trivial, trivial, trivial, trivial, trivial⟩
  · exact absurd ha (h1 l q)
  · exact absurd ha (h2 l q)

/-- A negative new value is ignored by both setters. -/
theorem C33_negative_ignored (W : World) (l : LinkId) {q : ℚ} (hq : q < 0) :
    W.changeFreeFlowSpeed l q = .ok W ∧ W.changeJamDensity l q = .ok W := by
  unfold World.changeFreeFlowSpeed World.changeJamDensity
  rw [if_neg (not_le.2 hq), if_neg (not_le.2 hq)]
  exact ⟨rfl, rfl⟩

/-- A change sets exactly the requested value, on a positive argument it cannot fail. -/
theorem C33_change {W : World} (h : Reachable Any W) (hfl : W.cfg.fl = id)
    (hr : 0 < W.cfg.reactionTime) {l : LinkId} (hl : l < W.nLinks) (hu : 0 < W.L.u l)
    (hk : 0 < W.L.kappa l) {q : ℚ} (hq : 0 < q) :
    (∃ W', W.changeFreeFlowSpeed l q = .ok W' ∧ W'.L.u l = q ∧ W'.L.kappa l = W.L.kappa l ∧
      ∀ m, m ≠ l → W'.L.u m = W.L.u m ∧ W'.L.capacity m = W.L.capacity m) ∧
    (∃ W', W.changeJamDensity l q = .ok W' ∧ W'.L.kappa l = q ∧ W'.L.u l = W.L.u l ∧
      ∀ m, m ≠ l → W'.L.kappa m = W.L.kappa m ∧ W'.L.capacity m = W.L.capacity m) := by
  have f := h.flowEq hfl l hl
  have hln : (0:ℚ) < W.L.lanes l := by exact_mod_cast Nat.pos_of_ne_zero f.lanes
  have htau : 0 < W.L.tau l := by rw [f.tau]; positivity
  unfold World.changeFreeFlowSpeed World.changeJamDensity
  simp only [hfl, World.fl, id]
  rw [if_pos hq.le, if_pos hq.le,
    if_neg (show ¬ (W.L.tau l = 0 ∨ W.L.kappa l = 0) by rintro (c | c) <;> linarith),
    if_neg (show ¬ (W.L.tau l = 0 ∨ q = 0) by rintro (c | c) <;> linarith)]
  have a1 : 0 < q + 1 / W.L.tau l / W.L.kappa l := by positivity
  have a2 : 0 < W.L.u l + 1 / W.L.tau l / q := by positivity
  rw [if_neg (ne_of_gt a1), if_neg (ne_of_gt a2)]
  exact ⟨⟨_, rfl, by simp [upd_same], rfl, fun m hm => by simp [upd_ne _ _ hm]⟩,
    ⟨_, rfl, by simp [upd_same], rfl, fun m hm => by simp [upd_ne _ _ hm]⟩⟩

/-- A link with two lanes: the hypotheses are met. -/
example : obs (runCmds demoCfg (fun _ => 0) [.node { name := "a" }, .node { name := "b" },
      .link { startN := .obj 0, endN := .obj 1, length := 200, lanes := 2, jamPerLane := some (1/5) },
      .speed 0 10])
    (fun W => decide (W.nLinks = 1 ∧ 0 < W.L.u 0 ∧ 0 < W.L.kappa 0 ∧ W.L.capacity 0 = 4/3 ∧
      0 < W.cfg.reactionTime)) = true := by decide +kernel

/-- After a speed change `k_star` is no longer the critical density. -/
theorem C33_star_stale : ∃ W : World, Reachable Any W ∧ W.cfg.fl = id ∧ 0 < W.cfg.reactionTime ∧
    W.nLinks = 1 ∧ 0 < W.L.u 0 ∧ 0 < W.L.kappa 0 ∧ W.L.capacity 0 ≠ W.L.u 0 * W.L.kStar 0 ∧
    W.L.capacity 0 ≠ W.L.qStar 0 := by
  have h : obs (runChecked (fun _ => true) demoCfg (fun _ => 0)
      [.node { name := "a" }, .node { name := "b" },
      .link { startN := .obj 0, endN := .obj 1, length := 200 }, .speed 0 10])
    (fun W => decide (0 < W.cfg.reactionTime ∧ W.nLinks = 1 ∧ 0 < W.L.u 0 ∧ 0 < W.L.kappa 0 ∧
      W.L.capacity 0 ≠ W.L.u 0 * W.L.kStar 0 ∧ W.L.capacity 0 ≠ W.L.qStar 0)) = true := by decide +kernel
  obtain ⟨W, h1, h2⟩ := obs_ok h
  have hr := runChecked_reachable' (OK := fun W => W.cfg = demoCfg) (fun W hW _ => hW) h1
  have hc : W.cfg = demoCfg := by cases hr <;> assumption
  simp only [decide_eq_true_eq] at h2
  exact ⟨W, hr.mono (fun _ _ => trivial), by rw [hc]; rfl, h2.1, h2.2.1, h2.2.2.1, h2.2.2.2.1,
    h2.2.2.2.2.1, h2.2.2.2.2.2⟩

/-! ## C47 -/

theorem finalize_tmax (W : World) (t) : (W.finalize t).tmax = some (W.fixedTmax t) ∧
    (W.finalize t).nVeh = W.nVeh ∧ (W.finalize t).V = W.V ∧ (W.finalize t).cfg = W.cfg := by
  obtain ⟨ts, tta, fc, fr, la, hr⟩ := finalize_frame W t
  rw [hr]; exact ⟨rfl, rfl, rfl, rfl⟩

theorem adjust_tsize (ns : List NodeId) (W : World) : (ns.foldl adjustNodeCapacity W).tsize = W.tsize := by
  induction ns generalizing W with
  | nil => rfl
  | cons n ns ih =>
    obtain ⟨fc, fr, la, h⟩ := adjustNodeCapacity_frame W n
    rw [List.foldl_cons, ih, h]

theorem finalize_tsize (W : World) (t) :
    (W.finalize t).tsize = (pyInt (W.fl (W.fixedTmax t / W.dt))).toNat := by
  unfold World.finalize
  dsimp only
  split
  · rw [adjust_tsize]
  · rfl

/-- The maximum of the departure times, and zero. -/
theorem maxDeparture_spec {W : World} (hfl : W.cfg.fl = id) :
    0 ≤ W.maxDeparture ∧ (∀ v < W.nVeh, W.V.depTime v * W.cfg.deltat ≤ W.maxDeparture) ∧
    (W.maxDeparture = 0 ∨ ∃ v < W.nVeh, W.maxDeparture = W.V.depTime v * W.cfg.deltat) := by
  unfold World.maxDeparture
  simp only [World.fl, World.dt, hfl, id]
  have key : ∀ n : ℕ, let m := (List.range n).foldl (fun m v =>
      if m < (W.V.depTime v : ℚ) * W.cfg.deltat then (W.V.depTime v : ℚ) * W.cfg.deltat else m) (0:ℚ)
      0 ≤ m ∧ (∀ v < n, W.V.depTime v * W.cfg.deltat ≤ m) ∧
        (m = 0 ∨ ∃ v < n, m = W.V.depTime v * W.cfg.deltat) := by
    intro n
    induction n with
    | zero => simp
    | succ n ih =>
      dsimp only at ih ⊢
      rw [List.range_succ, List.foldl_append, List.foldl_cons, List.foldl_nil]
      obtain ⟨i1, i2, i3⟩ := ih
      split
      · rename_i hlt
        refine ⟨by linarith, fun v hv => ?_, .inr ⟨n, by omega, rfl⟩⟩
        rcases Nat.lt_succ_iff_lt_or_eq.1 hv with hv | rfl
        · exact (i2 v hv).trans hlt.le
        · exact le_rfl
      · rename_i hge
        refine ⟨i1, fun v hv => ?_, ?_⟩
        · rcases Nat.lt_succ_iff_lt_or_eq.1 hv with hv | rfl
          · exact i2 v hv
          · exact not_lt.1 hge
        · rcases i3 with i3 | ⟨v, hv, e⟩
          · exact .inl i3
          · exact .inr ⟨v, by omega, e⟩
  exact key W.nVeh

/-- If no simulation time is given, `TMAX` is a multiple of 1800 s, more than 1800 s after the last
departure, and at most 3600 s after it (or after time 0 if nobody departs later). -/
theorem C47_horizon {W : World} (hfl : W.cfg.fl = id) (ht : W.tmax = none) :
    ∃ n : ℕ, (W.finalize none).tmax = some (1800 * (n : ℚ)) ∧ 2 ≤ n ∧
      (∀ v < W.nVeh, W.V.depTime v * W.cfg.deltat + 1800 < 1800 * n) ∧
      ((1800 * n : ℚ) ≤ 3600 ∨ ∃ v < W.nVeh, 1800 * (n : ℚ) ≤ W.V.depTime v * W.cfg.deltat + 3600) := by
  obtain ⟨m0, m1, m2⟩ := maxDeparture_spec hfl
  rw [(finalize_tmax W none).1]
  unfold World.fixedTmax
  rw [ht]
  simp only [World.fl, hfl, id]
  have hf0 : 0 ≤ ⌊W.maxDeparture / 1800⌋ := Int.floor_nonneg.2 (by positivity)
  obtain ⟨k, hk⟩ := Int.eq_ofNat_of_zero_le hf0
  have l1 := Int.floor_le (W.maxDeparture / 1800)
  have l2 := Int.lt_floor_add_one (W.maxDeparture / 1800)
  rw [hk] at l1 l2 ⊢
  push_cast at l1 l2 ⊢
  rw [le_div_iff₀ (by norm_num)] at l1
  rw [div_lt_iff₀ (by norm_num)] at l2
  refine ⟨k + 2, by push_cast; congr 1; ring, by omega, fun v hv => ?_, ?_⟩
  · have := m1 v hv
    push_cast
    linarith
  · push_cast
    rcases m2 with m2 | ⟨v, hv, e⟩
    · left; rw [m2] at l1; linarith
    · right; refine ⟨v, hv, ?_⟩; rw [← e]; linarith

/-- Hence, with a step of at most 1800 s, every vehicle departs at a simulated step. -/
theorem C47_steps {W : World} (hfl : W.cfg.fl = id) (ht : W.tmax = none) (hdt : 0 < W.cfg.deltat)
    (hdt' : W.cfg.deltat ≤ 1800) {v : VehId} (hv : v < W.nVeh) :
    W.V.depTime v < (W.finalize none).tsize := by
  obtain ⟨n, h1, -, h2, -⟩ := C47_horizon hfl ht
  rw [(finalize_tmax W none).1, Option.some.injEq] at h1
  rw [finalize_tsize, h1]
  simp only [World.fl, hfl, id, World.dt]
  have hn : (0:ℚ) ≤ 1800 * n / W.cfg.deltat := by positivity
  unfold pyInt
  rw [if_pos hn, Int.toNat_of_nonneg (Int.floor_nonneg.2 hn)]
  have := h2 v hv
  have e : (W.V.depTime v : ℚ) + 1 ≤ 1800 * n / W.cfg.deltat := by
    rw [le_div_iff₀ hdt]; linarith
  have : W.V.depTime v + 1 ≤ ⌊1800 * (n:ℚ) / W.cfg.deltat⌋ := Int.le_floor.2 (by push_cast; exact e)
  omega

/-- A given simulation time is used as it is, the one of the world taking precedence. -/
theorem C47_given (W : World) (t : ℚ) :
    (W.tmax = none → (W.finalize (some t)).tmax = some t) ∧
    (∀ s, W.tmax = some s → (W.finalize (some t)).tmax = some s ∧ (W.finalize none).tmax = some s) := by
  refine ⟨fun h => ?_, fun s h => ⟨?_, ?_⟩⟩ <;> rw [(finalize_tmax W _).1] <;>
    simp [World.fixedTmax, h]

/-- A departure at 2000 s gives a horizon of 5400 s. -/
example : obs (runCmds demoCfg (fun _ => 0) [.node { name := "a" }, .node { name := "b" },
      .veh { orig := .obj 0, dest := some (.obj 1), dep := .sec 2000 }, .fin none])
    (fun W => decide (W.tmax = some 5400 ∧ W.tsize = 1080)) = true := by decide +kernel

end UX
