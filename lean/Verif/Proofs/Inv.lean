import Verif.Proofs.Api

/-! The structural invariants hold in every reachable world. -/

namespace UX
open World

/-- Names and dictionaries. -/
structure NInv (W : World) : Prop where
  node : ∀ s i, W.nodeDict s = some i ↔ i < W.nNodes ∧ W.N.name i = s
  link : ∀ s i, W.linkDict s = some i ↔ i < W.nLinks ∧ W.L.name i = s
  veh : ∀ s i, W.vehDict s = some i ↔ i < W.nVeh ∧ W.V.name i = s

namespace NInv

theorem getNode_lt {W : World} (h : NInv W) {r i} (hr : W.getNode r = .ok i) : i < W.nNodes := by
  unfold getNode at hr
  split at hr
  · split at hr <;> simp at hr; subst hr; assumption
  · split at hr <;> simp at hr
    subst hr
    rename_i hs
    exact ((h.node _ _).mp hs).1

theorem getLink_lt {W : World} (h : NInv W) {r i} (hr : W.getLink r = .ok i) : i < W.nLinks := by
  unfold getLink at hr
  split at hr
  · split at hr <;> simp at hr; subst hr; assumption
  · split at hr <;> simp at hr
    subst hr
    rename_i hs
    exact ((h.link _ _).mp hs).1

theorem static {W W' : World} (h : NInv W) (hs : Static W W') : NInv W' := by
  cases h
  constructor
  · rw [hs.nodeDict, hs.nNodes, hs.nname]; assumption
  · rw [hs.linkDict, hs.nLinks, hs.lname]; assumption
  · rw [hs.vehDict, hs.nVeh, hs.vname]; assumption

end NInv

/-- All structural invariants. -/
structure Inv (W : World) : Prop where
  s : SInv W
  f : FInv W
  n : NInv W

namespace Inv

theorem core {W : World} (h : Inv W) (hf : W.finalized = true) : Core W := ⟨h.s, h.f, hf⟩

theorem new (cfg tmax rng) : Inv (World.new cfg tmax rng) := by
  refine ⟨?_, ?_, ?_⟩ <;> constructor <;> simp [World.new]

theorem addNode {W : World} (h : Inv W) (hf : W.finalized = false) {a ph t soff}
    (hn : W.nodeDict a.name = none) : Inv (W.addNodeRes a ph t soff) := by
  obtain ⟨hS, hF, hN⟩ := h
  refine ⟨?_, ?_, ?_⟩
  · cases hS
    constructor <;> simp only [addNodeRes, upd_apply] <;> try assumption
    all_goals grind
  · cases hF
    constructor <;> simp only [addNodeRes, upd_apply] <;> try assumption
    have := hS.ends_lt
    have := hS.link_run
    grind
  · cases hN
    constructor <;> simp only [addNodeRes, upd_apply] <;> try assumption
    grind

theorem addLink {W W' : World} (h : Inv W) (hf : W.finalized = false) {a}
    (ha : W.addLink a = .ok W') : Inv W' := by
  obtain ⟨s, e, nm, k, p, hs, he, hk, hp, -, hn, rfl⟩ := addLink_ok ha
  have hs' := h.n.getNode_lt hs
  have he' := h.n.getNode_lt he
  have hk0 : 1 ≤ k := by
    by_contra h0
    obtain rfl : k = 0 := by omega
    simp [linkParams] at hp
  obtain ⟨hS, hF, hN⟩ := h
  refine ⟨?_, ?_, ?_⟩
  · have := hS.out_nodup s
    have := hS.in_nodup e
    cases hS
    constructor <;> simp only [addLinkRes, upd_apply] <;> try assumption
    all_goals grind
  · have hu := hS.unfinal hf
    have hr := hS.link_run
    cases hF
    constructor <;> simp only [addLinkRes, upd_apply] <;> try assumption
    intro v a' hl
    have := hr v a' hl
    grind
  · cases hN
    constructor <;> simp only [addLinkRes, upd_apply] <;> try assumption
    grind

theorem addVehicle {W W' : World} (h : Inv W) {a} (ha : W.addVehicle a = .ok W') : Inv W' := by
  obtain ⟨o, d, dep, pref, cache, lp, la, nm, ho, -, -, -, -, -, -, hn, rfl⟩ := addVehicle_ok ha
  have ho' := h.n.getNode_lt ho
  obtain ⟨hS, hF, hN⟩ := h
  have hfr := hS.fresh W.nVeh le_rfl
  have hlk : W.V.link W.nVeh = none := by
    cases hl : W.V.link W.nVeh with
    | none => rfl
    | some l => have := (hS.link_run _ _ hl).1; rw [hfr] at this; cases this
  refine ⟨?_, ?_, ?_⟩
  · cases hS
    constructor <;> simp only [addVehRes, upd_apply] <;> try assumption
    all_goals grind
  · cases hF
    constructor <;> simp only [addVehRes, upd_apply] <;> try assumption
    all_goals grind
  · cases hN
    constructor <;> simp only [addVehRes, upd_apply] <;> try assumption
    grind

theorem finalize {W : World} (h : Inv W) (tmax) : Inv (W.finalize tmax) := by
  obtain ⟨ts, tta, fc, fr, la, hr⟩ := finalize_frame W tmax
  rw [hr]
  obtain ⟨hS, hF, hN⟩ := h
  refine ⟨?_, ?_, ?_⟩
  · cases hS
    constructor <;> try assumption
    simp
  · cases hF
    constructor <;> assumption
  · cases hN
    constructor <;> assumption

theorem tick {W W' : World} (h : Inv W) (hf : W.finalized = true) (ht : W.tick = .ok W') :
    Inv W' := by
  obtain ⟨W1, h1, rfl⟩ := tick_ok ht
  obtain ⟨W6, hs, rfl⟩ := step_star (h.core hf) h1
  have hc := (h.core hf).star hs
  have hn := h.n.static hs.static
  obtain ⟨hS, hF, -⟩ := hc
  refine ⟨?_, ?_, ?_⟩
  · cases hS
    constructor <;> assumption
  · cases hF
    constructor <;> assumption
  · cases hn
    constructor <;> assumption

theorem soft {W W' : World} (h : Inv W) (hs : Soft W W') : Inv W' := by
  refine ⟨h.s.soft hs, h.f.soft hs, ?_⟩
  obtain ⟨_, _, _, _, _, _, _, rfl, -⟩ := hs
  have hN := h.n
  cases hN
  constructor <;> assumption

theorem param {W W' : World} (h : Inv W) (hs : Param W W') : Inv W' := by
  refine ⟨h.s.param hs, ?_, ?_⟩
  · obtain ⟨_, _, _, _, _, _, _, _, _, _, _, _, _, _, _, _, _, _, _, rfl, -⟩ := hs
    have hF := h.f
    cases hF
    constructor <;> assumption
  · obtain ⟨_, _, _, _, _, _, _, _, _, _, _, _, _, _, _, _, _, _, _, rfl, -⟩ := hs
    have hN := h.n
    cases hN
    constructor <;> assumption

theorem api {W W' : World} (h : Inv W) (hs : ApiStep W W') : Inv W' := by
  rcases hs.kinds with ⟨hf, a, ph, t, soff, hn, rfl⟩ | ⟨hf, a, ha⟩ | ⟨a, ha⟩ | ⟨hf, tm, rfl⟩ |
    ⟨hf, hT, ht⟩ | hs | hs
  · exact h.addNode hf hn
  · exact h.addLink hf ha
  · exact h.addVehicle ha
  · exact h.finalize tm
  · exact h.tick hf ht
  · exact h.soft hs
  · exact h.param hs

end Inv

theorem Reachable.inv {OK : World → Prop} {W : World} (h : Reachable OK W) : Inv W := by
  induction h with
  | new => exact Inv.new _ _ _
  | next _ hs _ ih => exact ih.api hs

/-- Induction over histories with all obligations spelled out; inside a step the obligation is per
primitive. -/
theorem Reachable.induct {OK : World → Prop} {P : World → Prop}
    (new : ∀ cfg tmax rng, P (World.new cfg tmax rng))
    (addNode : ∀ (W : World) a ph t soff, Inv W → W.finalized = false → W.nodeDict a.name = none →
      OK W → OK (W.addNodeRes a ph t soff) → P W → P (W.addNodeRes a ph t soff))
    (addLink : ∀ (W W' : World) a, Inv W → W.finalized = false → W.addLink a = .ok W' →
      OK W → OK W' → P W → P W')
    (addVehicle : ∀ (W W' : World) a, Inv W → W.addVehicle a = .ok W' → OK W → OK W' → P W → P W')
    (finalize : ∀ (W : World) tmax, Inv W → W.finalized = false → OK W → OK (W.finalize tmax) →
      P W → P (W.finalize tmax))
    (soft : ∀ W W', Inv W → OK W → OK W' → Soft W W' → P W → P W')
    (param : ∀ W W', Inv W → OK W → OK W' → Param W W' → P W → P W')
    (tick : ∀ W W1 W' : World, Inv W → W.finalized = true → W.T < W.tsize → OK W → OK W' →
      W.step = .ok W1 → W' = { W1 with T := W1.T + 1 } → P W → P W')
    {W : World} (h : Reachable OK W) : P W := by
  induction h with
  | new => exact new _ _ _
  | @next W W' hr hs hok ih =>
    have hi := hr.inv
    have hok0 : OK W := by
      cases hr with
      | new h => exact h
      | next _ _ h => exact h
    rcases hs.kinds with ⟨hf, a, ph, t, soff, hn, rfl⟩ | ⟨hf, a, ha⟩ | ⟨a, ha⟩ | ⟨hf, tm, rfl⟩ |
      ⟨hf, hT, ht⟩ | hs | hs
    · exact addNode _ _ _ _ _ hi hf hn hok0 hok ih
    · exact addLink _ _ _ hi hf ha hok0 hok ih
    · exact addVehicle _ _ _ hi ha hok0 hok ih
    · exact finalize _ _ hi hf hok0 hok ih
    · obtain ⟨W1, h1, h2⟩ := tick_ok ht
      exact tick _ _ _ hi hf hT hok0 hok h1 h2 ih
    · exact soft _ _ hi hok0 hok hs ih
    · exact param _ _ hi hok0 hok hs ih

/-- A property preserved by every primitive is preserved by a step. -/
theorem step_prim {P : World → Prop} {W W1 : World} (hi : Inv W) (hf : W.finalized = true)
    (prim : ∀ act W W', Core W → Prim act W W' → P W → P W')
    (time : ∀ (W : World) (t : ℚ) (k : ℕ), k = W.T + 1 → P W → P { W with time := t, T := k })
    (h : W.step = .ok W1) (h0 : P W) : P { W1 with T := W1.T + 1 } := by
  obtain ⟨W6, hs, rfl⟩ := step_star (hi.core hf) h
  have := hs.inv (P := fun W => Core W ∧ P W)
    (fun a W W' _ h hp => ⟨h.1.prim hp, prim a W W' h.1 hp h.2⟩) ⟨hi.core hf, h0⟩
  exact time W6 _ _ rfl this.2

theorem Reachable.ok {OK : World → Prop} {W : World} (h : Reachable OK W) : OK W := by
  cases h with
  | new h => exact h
  | next _ _ h => exact h

/-- Properties of all reachable worlds may be added to the assumption. -/
theorem Reachable.strengthen {OK Q : World → Prop} (hQ : ∀ W, Reachable OK W → Q W) {W : World}
    (h : Reachable OK W) : Reachable (fun W => OK W ∧ Q W) W := by
  induction h with
  | new h => exact .new ⟨h, hQ _ (.new h)⟩
  | next hr hs h ih => exact .next ih hs ⟨h, hQ _ (.next hr hs h)⟩

theorem Reachable.mono {OK OK' : World → Prop} {W : World} (hO : ∀ W, OK W → OK' W)
    (h : Reachable OK W) : Reachable OK' W := by
  induction h with
  | new h => exact .new (hO _ h)
  | next _ hs h ih => exact .next ih hs (hO _ h)

/-- No call changes the configuration. -/
theorem ApiStep.cfg {W W' : World} (hi : Inv W) (hs : ApiStep W W') : W'.cfg = W.cfg := by
  rcases hs.kinds with ⟨hf, a, ph, t, soff, hn, rfl⟩ | ⟨hf, a, ha⟩ | ⟨a, ha⟩ | ⟨hf, tm, rfl⟩ |
      ⟨hf, hT, ht⟩ | hs | hs
  · rfl
  · obtain ⟨s, e, nm, k, p, -, -, -, -, -, -, rfl⟩ := addLink_ok ha; rfl
  · obtain ⟨o, d, dep, pref, cache, lp, la, nm, -, -, -, -, -, -, -, -, rfl⟩ := addVehicle_ok ha; rfl
  · obtain ⟨ts, tta, fc, fr, la, hr⟩ := finalize_frame W tm
    rw [hr]
  · obtain ⟨W1, h1, rfl⟩ := tick_ok ht
    obtain ⟨W6, hst, rfl⟩ := step_star (hi.core hf) h1
    exact hst.static.cfg
  · obtain ⟨_, _, _, _, _, _, _, rfl, -⟩ := hs; rfl
  · obtain ⟨_, _, _, _, _, _, _, _, _, _, _, _, _, _, _, dpl, _, _, _, rfl, hd⟩ := hs; rfl

end UX
