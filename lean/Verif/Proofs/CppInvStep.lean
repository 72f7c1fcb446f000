import Verif.Proofs.CppInvTransfer
import Verif.Model.CppBuild

/-!
# Time steps and calls of the bindings: the structural invariant of the C++ engine
-/

namespace UX.Cpp
open CWorld

/-- The invariant between two stages of a time step. -/
structure Rest (W : CWorld) : Prop where
  inv : Inv W none none
  inc : ∀ n, (W.node n).incoming = []

theorem Rest.congr {W W' : CWorld} (h : W.core = W'.core) (r : Rest W) : Rest W' :=
  ⟨r.inv.congr h, fun n => by rw [← core_incoming h]; exact r.inc n⟩

/-- No vehicle has arrived at the end of a link and not been seen by the node. -/
def Clear (W : CWorld) (l : ℕ) : Prop := (W.link l).arrived = []

/-! ## Stages -/

theorem Rest.nodeStage {W : CWorld} (r : Rest W) (n : ℕ) :
    Rest (W.nodeStage n) ∧ Keep W (W.nodeStage n) := by
  have h1 : Rest (W.generate n) ∧ Keep W (W.generate n) := by
    unfold generate
    split
    · exact ⟨r, Keep.refl W⟩
    · obtain ⟨a, b, c⟩ := r.inv.genLoop (n := n)
        ((W.node n).outLinks.map (fun l => (W.link l).lanes)).sum r.inc
      exact ⟨⟨a, c⟩, b⟩
  unfold CWorld.nodeStage
  refine ⟨(h1.1.congr (core_signalUpdate _ n).symm).congr (core_flowUpdate _ n).symm, ?_⟩
  have k2 : Keep (W.generate n) ((W.generate n).signalUpdate n) := by
    simp only [CWorld.signalUpdate]; exact Keep.setN (fun _ => rfl)
  have k3 : Keep ((W.generate n).signalUpdate n) (((W.generate n).signalUpdate n).flowUpdate n) :=
    by simp only [CWorld.flowUpdate]; exact Keep.setN (fun _ => rfl)
  exact h1.2.trans (k2.trans k3)

theorem Rest.foldl {α : Type} {f : CWorld → α → CWorld}
    (h : ∀ W a, Rest W → Rest (f W a) ∧ Keep W (f W a)) (xs : List α) {W : CWorld} (r : Rest W) :
    Rest (xs.foldl f W) ∧ Keep W (xs.foldl f W) := by
  induction xs generalizing W with
  | nil => exact ⟨r, Keep.refl W⟩
  | cons a t ih =>
    obtain ⟨p, q⟩ := h W a r
    obtain ⟨p', q'⟩ := ih p
    exact ⟨p', q.trans q'⟩

theorem Rest.linkUpdate {W : CWorld} (r : Rest W) (l : ℕ) :
    Rest (W.linkUpdate l) ∧ Keep W (W.linkUpdate l) :=
  ⟨r.congr (core_linkUpdate W l).symm, Keep.setL (fun _ => rfl)⟩

theorem transferAll {W : CWorld} (r : Rest W) :
    Rest ((List.range W.g.nNodes).foldl CWorld.transfer W) ∧
      Keep W ((List.range W.g.nNodes).foldl CWorld.transfer W) ∧
      ∀ l, Clear ((List.range W.g.nNodes).foldl CWorld.transfer W) l := by
  have gen : ∀ (xs : List ℕ) (V : CWorld), Rest V →
      Rest (xs.foldl CWorld.transfer V) ∧ Keep V (xs.foldl CWorld.transfer V) ∧
      (∀ l, Clear V l → Clear (xs.foldl CWorld.transfer V) l) ∧
      ∀ n ∈ xs, ∀ l ∈ (V.node n).inLinks, Clear (xs.foldl CWorld.transfer V) l := by
    intro xs
    induction xs with
    | nil => intro V rV; exact ⟨rV, Keep.refl V, fun l h => h, fun n h => by simp at h⟩
    | cons n t ih =>
      intro V rV
      obtain ⟨a, b, c, d, e⟩ := rV.inv.transfer (n := n) rV.inc
      obtain ⟨p, q, s, u⟩ := ih _ ⟨a, c⟩
      refine ⟨p, b.trans q, fun l h => s l (e l h), fun m hm l hl => ?_⟩
      rcases List.mem_cons.1 hm with rfl | hm
      · exact s l (d l hl)
      · exact u m hm l (by rw [b.inLinks]; exact hl)
  obtain ⟨a, b, c, d⟩ := gen (List.range W.g.nNodes) W r
  refine ⟨a, b, fun l => ?_⟩
  by_cases hl : l < W.g.nLinks
  · exact d _ (List.mem_range.2 (r.inv.ends l hl).2.1) l ((r.inv.inL _ l).2 ⟨hl, rfl⟩)
  · refine c l ?_
    unfold Clear
    cases h : (W.link l).arrived with
    | nil => rfl
    | cons v t =>
      exact absurd (r.inv.mem l v (r.inv.arr l v (by rw [h]; simp)).1).2.2.1 hl

theorem Keep.carFollow {W : CWorld} {v : ℕ} (h : (W.veh v).state ≠ .home) : Keep W (W.carFollow v) := by
  unfold CWorld.carFollow
  split
  · exact Keep.refl W
  · split
    · exact Keep.setV (fun _ => rfl) h
    · exact Keep.setV (fun _ => rfl) h

theorem Keep.followPass {W : CWorld} {x y : Option ℕ} (i : Inv W x y) (l : ℕ) : Keep W (W.followPass l) := by
  unfold CWorld.followPass
  have gen : ∀ (xs : List ℕ) (V : CWorld), V.core = W.core → (∀ v ∈ xs, v ∈ (W.link l).vehs) →
      Keep V (xs.foldl CWorld.carFollow V) := by
    intro xs
    induction xs with
    | nil => intro V _ _; exact Keep.refl V
    | cons v t ih =>
      intro V hc hs
      have h1 : Keep V (V.carFollow v) := Keep.carFollow (by
        rw [core_state hc]; exact i.run_ne_home (hs v (by simp)))
      exact h1.trans (ih _ ((core_carFollow V v).trans hc) (fun w hw => hs w (by simp [hw])))
  exact gen _ W rfl (fun _ h => h)

theorem Rest.followPass {W : CWorld} (r : Rest W) (l : ℕ) :
    Rest (W.followPass l) ∧ Keep W (W.followPass l) :=
  ⟨r.congr (core_followPass W l).symm, Keep.followPass r.inv l⟩

theorem runAll (xs : List ℕ) (hnd : xs.Nodup) {W : CWorld} (r : Rest W) (hc : ∀ l ∈ xs, Clear W l) :
    Rest (xs.foldl CWorld.runPass W) ∧ Keep W (xs.foldl CWorld.runPass W) := by
  induction xs generalizing W with
  | nil => exact ⟨r, Keep.refl W⟩
  | cons l t ih =>
    obtain ⟨a, b, c, d⟩ := r.inv.runPass (l := l) r.inc (hc l (by simp))
    obtain ⟨hl, ht⟩ := List.nodup_cons.1 hnd
    obtain ⟨p, q⟩ := ih ht ⟨a, c⟩ (fun m hm => by
      unfold Clear
      rw [d m (fun e => hl (e ▸ hm))]; exact hc m (by simp [hm]))
    exact ⟨p, b.trans q⟩

theorem vehUpdate_wait {W : CWorld} {v : ℕ} {s : Option ℕ} (h : (W.veh v).state = .wait) :
    W.vehUpdate v s = W.logData v s := by
  have h1 : ((W.logData v s).veh v).state = .wait := by rw [core_state (core_logData W v s)]; exact h
  unfold vehUpdate
  simp only [h1]

theorem Rest.waitPass {W : CWorld} (r : Rest W) (n : ℕ) :
    Rest (W.waitPass n) ∧ Keep W (W.waitPass n) := by
  unfold CWorld.waitPass
  have gen : ∀ (xs : List ℕ) (V : CWorld), V.core = W.core → (∀ v ∈ xs, (W.veh v).state = .wait) →
      (xs.foldl (fun W v => W.vehUpdate v none) V).core = W.core ∧
      Keep V (xs.foldl (fun W v => W.vehUpdate v none) V) := by
    intro xs
    induction xs with
    | nil => intro V h _; exact ⟨h, Keep.refl V⟩
    | cons v t ih =>
      intro V hc hs
      have hst : (V.veh v).state = .wait := by rw [core_state hc]; exact hs v (by simp)
      rw [List.foldl_cons, vehUpdate_wait hst]
      obtain ⟨p, q⟩ := ih (V.logData v none) ((core_logData V v none).trans hc)
        (fun w hw => hs w (by simp [hw]))
      exact ⟨p, (Keep.logData V v none (by rw [hst]; simp)).trans q⟩
  obtain ⟨p, q⟩ := gen (W.node n).genQ W rfl (fun v hv => ((r.inv.gen n v).1 hv).2.1)
  exact ⟨r.congr p.symm, q⟩

theorem core_clearExc (W : CWorld) : W.clearExc.core = W.core := rfl

theorem Keep.clearExc (W : CWorld) : Keep W W.clearExc :=
  ⟨rfl, fun _ => rfl, fun _ => rfl, fun _ => rfl, fun _ _ => rfl, fun _ h => h⟩

/-- The parallel region, whatever the order of its iterations. -/
theorem Rest.region {W : CWorld} (r : Rest W) (σ : Sched) (hσ : σ.run.Nodup) :
    Rest (region σ W) ∧ Keep W (region σ W) := by
  unfold CWorld.region
  obtain ⟨r1, k1⟩ := Rest.foldl (fun W l r => Rest.linkUpdate r l) σ.update r
  simp only
  generalize σ.update.foldl CWorld.linkUpdate W = W1 at *
  obtain ⟨r2, k2⟩ := Rest.foldl (fun W n r => Rest.nodeStage r n) σ.gen r1
  generalize σ.gen.foldl CWorld.nodeStage W1 = W2 at *
  obtain ⟨r3, k3, c3⟩ := transferAll r2
  generalize (List.range W2.g.nNodes).foldl CWorld.transfer W2 = W3 at *
  obtain ⟨r4, k4⟩ := Rest.foldl (fun W l r => Rest.followPass r l) σ.follow r3
  have hc4 : (σ.follow.foldl CWorld.followPass W3).core = W3.core :=
    core_foldl _ (fun W l => core_followPass W l) σ.follow W3
  have c4 : ∀ l, Clear (σ.follow.foldl CWorld.followPass W3) l := fun l => by
    unfold Clear; rw [core_arrived hc4]; exact c3 l
  generalize σ.follow.foldl CWorld.followPass W3 = W4 at *
  obtain ⟨r5, k5⟩ := runAll σ.run hσ r4 (fun l _ => c4 l)
  generalize σ.run.foldl CWorld.runPass W4 = W5 at *
  obtain ⟨r6, k6⟩ := Rest.foldl (fun W n r => Rest.waitPass r n) σ.wait r5
  exact ⟨r6, k1.trans (k2.trans (k3.trans (k4.trans (k5.trans k6))))⟩

/-! ## Vehicles at home -/

theorem Inv.homeWait {W : CWorld} {x y : Option ℕ} {v : ℕ} (i : Inv W x y) (hv : v < W.g.nVehs)
    (hst : (W.veh v).state = .home) (hinc : ∀ n, v ∉ (W.node n).incoming) :
    Inv ((W.setV v (fun V => { V with state := .wait })).setN (W.veh v).orig
      (fun N => { N with genQ := N.genQ ++ [v] })) x y := by
  have hveh : ∀ w, ((W.setV v (fun V => { V with state := .wait })).setN (W.veh v).orig
      (fun N => { N with genQ := N.genQ ++ [v] })).veh w =
      if w = v then { W.veh v with state := .wait } else W.veh w := fun w => by rw [setN_veh, setV_veh]
  have hnode : ∀ n, ((W.setV v (fun V => { V with state := .wait })).setN (W.veh v).orig
      (fun N => { N with genQ := N.genQ ++ [v] })).node n =
      { W.node n with genQ := if n = (W.veh v).orig then (W.node n).genQ ++ [v] else (W.node n).genQ } := by
    intro n; rw [setN_node]; split
    · rename_i e; rw [e]; rfl
    · rfl
  have hlink : ((W.setV v (fun V => { V with state := .wait })).setN (W.veh v).orig
      (fun N => { N with genQ := N.genQ ++ [v] })).link = W.link := rfl
  have hg : ((W.setV v (fun V => { V with state := .wait })).setN (W.veh v).orig
      (fun N => { N with genQ := N.genQ ++ [v] })).g = W.g := rfl
  generalize (W.setV v (fun V => { V with state := .wait })).setN (W.veh v).orig
      (fun N => { N with genQ := N.genQ ++ [v] }) = W' at *
  have hne : ∀ w, w ≠ v → W'.veh w = W.veh w := fun w e => by rw [hveh, if_neg e]
  have hvv : W'.veh v = { W.veh v with state := .wait } := by rw [hveh, if_pos rfl]
  have hon : ∀ m w, w ∈ (W.link m).vehs → w ≠ v := fun m w hw e => by
    have := (i.mem m w hw).2.1
    rw [e, hst] at this; simp at this
  refine ⟨?_, ?_, ?_, ?_, ?_, ?_, ?_, ?_, ?_, ?_, ?_, ?_, ?_, ?_, ?_, ?_, ?_, ?_, ?_⟩
  · intro n l; rw [hnode, hlink, hg]; exact i.outL n l
  · intro n l; rw [hnode, hlink, hg]; exact i.inL n l
  · rw [hlink, hg]; exact i.ends
  · intro w hw
    rw [hg] at hw ⊢
    by_cases e : w = v
    · subst e; rw [hvv]; exact i.orig w hw
    · rw [hne w e]; exact i.orig w hw
  · intro m w hw
    rw [hlink] at hw
    rw [hne w (hon m w hw), hg]
    exact i.mem m w hw
  · intro w hw hr
    rw [hg] at hw
    rw [hlink]
    by_cases e : w = v
    · subst e; rw [hvv] at hr; simp at hr
    · rw [hne w e] at hr; exact i.run w hw hr
  · intro w hw hr
    rw [hg] at hw
    by_cases e : w = v
    · subst e; rw [hvv]; exact i.idle w hw (by rw [hst]; simp)
    · rw [hne w e] at hr ⊢; exact i.idle w hw hr
  · rw [hlink]; exact i.nd
  · intro m hm
    rw [hlink]
    rw [hg] at hm
    exact (i.linked m hm).congr (fun w hw => by simp only [hne w (hon m w hw)])
      (fun w hw => by simp only [hne w (hon m w hw)])
  · intro n w
    rw [hnode, hg]
    by_cases e : w = v
    · subst e
      have h0 : w ∉ (W.node n).genQ := fun h => by
        have := ((i.gen n w).1 h).2.1; rw [hst] at this; simp at this
      rw [hvv]
      simp only
      split
      · rename_i hn; subst hn; simp [hv]
      · rename_i hn; simp only [h0, false_iff]; rintro ⟨_, _, h⟩; exact hn h.symm
    · rw [hne w e, ← i.gen n w]
      simp only
      split
      · simp [e]
      · rfl
  · intro n
    rw [hnode]
    simp only
    split
    · refine List.nodup_append.2 ⟨i.gnd n, by simp, ?_⟩
      intro a ha b hb hab
      rw [List.mem_singleton] at hb
      rw [hab, hb] at ha
      have := ((i.gen n v).1 ha).2.1; rw [hst] at this; simp at this
    · exact i.gnd n
  · intro w hw hs
    rw [hg] at hw
    by_cases e : w = v
    · subst e; rw [hvv]; exact i.fresh w hw (Or.inl hst)
    · rw [hne w e] at hs ⊢; exact i.fresh w hw hs
  · intro w hx
    have e : w ≠ v := fun e => by
      have := (i.limbo w hx).2.1; rw [e, hst] at this; simp at this
    rw [hne w e, hg]; exact i.limbo w hx
  · intro m w hw hf
    rw [hlink] at hw
    rw [hne w (hon m w hw)] at hf ⊢
    rw [hnode, hlink]; exact i.flag m w hw hf
  · intro m w hw
    rw [hlink] at hw
    have := i.arr m w hw
    rw [hne w (hon m w this.1), hlink, hnode]; exact this
  · intro n w hw
    rw [hnode] at hw
    have e : w ≠ v := fun e => hinc n (e ▸ hw)
    rw [hne w e, hlink, hnode]; exact i.inc n w hw
  · intro w hw
    rw [hg] at hw ⊢
    rw [hlink]
    simp only [hnode]
    by_cases e : w = v
    · subst e
      have := i.reg1 w hw
      rw [hst] at this
      rw [hvv]
      simpa using this
    · rw [hne w e]; exact i.reg1 w hw
  · intro w hw
    rw [hg] at hw ⊢
    rw [hlink]
    by_cases e : w = v
    · subst e
      have := i.reg2 w hw
      rw [hst] at this
      rw [hvv]
      simpa using this
    · rw [hne w e]; exact i.reg2 w hw
  · intro w; rw [hg, hlink]; simp only [hnode]; exact i.big w

/-- Equal parameters. -/
structure SamePar (W W' : CWorld) : Prop where
  node : ∀ n, (W'.node n).par = (W.node n).par
  link : ∀ l, (W'.link l).par = (W.link l).par
  veh : ∀ v, (W'.veh v).par = (W.veh v).par

theorem Keep.samePar {W W' : CWorld} (k : Keep W W') : SamePar W W' := ⟨k.node, k.link, k.veh⟩

theorem SamePar.refl (W : CWorld) : SamePar W W := ⟨fun _ => rfl, fun _ => rfl, fun _ => rfl⟩

theorem SamePar.trans {W W' W'' : CWorld} (h : SamePar W W') (h' : SamePar W' W'') : SamePar W W'' :=
  ⟨fun n => (h'.node n).trans (h.node n), fun l => (h'.link l).trans (h.link l),
    fun v => (h'.veh v).trans (h.veh v)⟩

theorem logData_veh_ne (W : CWorld) (v w : ℕ) (s : Option ℕ) (h : w ≠ v) :
    (W.logData v s).veh w = W.veh w := by
  have h1 : (W.logStats v).veh = W.veh := by unfold logStats; split <;> rfl
  unfold CWorld.logData logPush
  split
  · rw [setV_veh, if_neg h, h1]
  · rw [h1]

theorem samePar_logData (W : CWorld) (v : ℕ) (s : Option ℕ) :
    SamePar W (W.logData v s) ∧ (W.logData v s).g = W.g := by
  have h1 : SamePar W (W.logStats v) ∧ (W.logStats v).g = W.g := by
    unfold logStats
    split
    · refine ⟨Keep.samePar (Keep.setL ?_), rfl⟩
      intro _; rfl
    · refine ⟨Keep.samePar (Keep.setN ?_), rfl⟩
      intro _; rfl
    · exact ⟨SamePar.refl W, rfl⟩
  unfold CWorld.logData logPush
  split
  · refine ⟨⟨h1.1.node, h1.1.link, fun w => ?_⟩, h1.2⟩
    rw [setV_veh]
    split
    · rename_i e; subst e; exact h1.1.veh _
    · exact h1.1.veh w
  · exact h1

theorem Rest.homeVeh {W : CWorld} {v : ℕ} (r : Rest W) (hv : v < W.g.nVehs)
    (hst : (W.veh v).state = .home) :
    Rest (W.vehUpdate v none) ∧ SamePar W (W.vehUpdate v none) ∧ (W.vehUpdate v none).g = W.g ∧
      ∀ w, w ≠ v → (W.vehUpdate v none).veh w = W.veh w := by
  have hc := core_logData W v none
  have r1 := r.congr hc.symm
  obtain ⟨s1, g1⟩ := samePar_logData W v none
  have e1 := fun w => logData_veh_ne W v w none
  have h1 : ((W.logData v none).veh v).state = .home := by rw [core_state hc]; exact hst
  unfold vehUpdate
  simp only [h1]
  generalize W.logData v none = W1 at *
  split
  · refine ⟨⟨r1.inv.homeWait (by rw [g1]; exact hv) h1 (fun n => by rw [r1.inc n]; simp), fun n => ?_⟩,
      ⟨fun n => ?_, s1.link, fun w => ?_⟩, g1, fun w hw => ?_⟩
    · have h0 := r1.inc n
      rw [setN_node]; split
      · rename_i e; subst e; exact h0
      · exact h0
    · rw [setN_node]; split
      · rename_i e; rw [e]; exact s1.node _
      · exact s1.node n
    · rw [setN_veh, setV_veh]; split
      · rename_i e; rw [e]; exact s1.veh v
      · exact s1.veh w
    · rw [setN_veh, setV_veh, if_neg hw]; exact e1 w hw
  · exact ⟨r1, s1, g1, e1⟩

theorem Rest.homePass (xs : List ℕ) (hnd : xs.Nodup) {W : CWorld} (r : Rest W)
    (hx : ∀ v ∈ xs, v < W.g.nVehs ∧ (W.veh v).state = .home) :
    Rest (xs.foldl (fun W v => W.vehUpdate v none) W) ∧
      SamePar W (xs.foldl (fun W v => W.vehUpdate v none) W) ∧
      (xs.foldl (fun W v => W.vehUpdate v none) W).g = W.g ∧
      ∀ w, w ∉ xs → (xs.foldl (fun W v => W.vehUpdate v none) W).veh w = W.veh w := by
  induction xs generalizing W with
  | nil => exact ⟨r, SamePar.refl W, rfl, fun _ _ => rfl⟩
  | cons v t ih =>
    obtain ⟨hv, ht⟩ := List.nodup_cons.1 hnd
    obtain ⟨p, q, g, e⟩ := r.homeVeh (hx v (by simp)).1 (hx v (by simp)).2
    obtain ⟨p', q', g', e'⟩ := ih ht p (fun w hw => by
      rw [g, e w (fun h => hv (h ▸ hw))]; exact hx w (by simp [hw]))
    refine ⟨p', q.trans q', g'.trans g, fun w hw => ?_⟩
    have h1 : w ≠ v := fun h => hw (by simp [h])
    rw [List.foldl_cons, e' w (fun h => hw (by simp [h])), e w h1]

/-! ## Registries and route choice -/

theorem Rest.reconcile {W : CWorld} (r : Rest W) : Rest W.reconcile := by
  have i := r.inv
  have hn : ∀ n, W.reconcile.node n =
      { W.node n with runBuf := if n < W.g.nNodes then [] else (W.node n).runBuf } := by
    intro n; simp only [CWorld.reconcile]; split <;> rfl
  have hl : ∀ l, W.reconcile.link l =
      { W.link l with ended := if l < W.g.nLinks then [] else (W.link l).ended } := by
    intro l; simp only [CWorld.reconcile]; split <;> rfl
  have hdel : ∀ v, ((List.range W.g.nLinks).flatMap (fun l => (W.link l).ended)).contains v = true ↔
      ∃ l, l < W.g.nLinks ∧ v ∈ (W.link l).ended := by
    intro v; simp [List.mem_flatMap]
  have hins : ∀ v, ((List.range W.g.nNodes).flatMap (fun n => (W.node n).runBuf)).contains v = true ↔
      ∃ n, n < W.g.nNodes ∧ v ∈ (W.node n).runBuf := by
    intro v; simp [List.mem_flatMap]
  have hrun : ∀ v, W.reconcile.g.running v = true ↔
      (W.g.running v = true ∨ ∃ n, n < W.g.nNodes ∧ v ∈ (W.node n).runBuf) ∧
      ∀ l, l < W.g.nLinks → v ∉ (W.link l).ended := by
    intro v
    have h1 := hdel v
    have h2 := hins v
    simp only [CWorld.reconcile, Bool.and_eq_true, Bool.or_eq_true, Bool.not_eq_true']
    rw [h2]
    refine and_congr_right fun _ => ?_
    rw [← Bool.not_eq_true, h1]
    simp
  have hliv : ∀ v, W.reconcile.g.living v = false ↔
      W.g.living v = false ∨ ∃ l, l < W.g.nLinks ∧ v ∈ (W.link l).ended := by
    intro v
    have h1 := hdel v
    simp only [CWorld.reconcile, Bool.and_eq_false_iff, Bool.not_eq_false']
    rw [h1]
  have hnl : W.reconcile.g.nLinks = W.g.nLinks := rfl
  have hnn : W.reconcile.g.nNodes = W.g.nNodes := rfl
  have hnv : W.reconcile.g.nVehs = W.g.nVehs := rfl
  have hv : W.reconcile.veh = W.veh := rfl
  generalize W.reconcile = W' at *
  refine ⟨⟨?_, ?_, ?_, ?_, ?_, ?_, ?_, ?_, ?_, ?_, ?_, ?_, ?_, ?_, ?_, ?_, ?_, ?_, ?_⟩, fun n => ?_⟩
  · intro n l; rw [hn, hl, hnl]; exact i.outL n l
  · intro n l; rw [hn, hl, hnl]; exact i.inL n l
  · intro l; rw [hl, hnl, hnn]; exact i.ends l
  · rw [hv, hnn, hnv]; exact i.orig
  · intro l v; rw [hl, hv, hnl, hnv]; exact i.mem l v
  · intro v; rw [hv, hnv]; simp only [hl]; exact i.run v
  · rw [hv, hnv]; exact i.idle
  · intro l; rw [hl]; exact i.nd l
  · intro l; rw [hl, hnl, hv]; exact i.linked l
  · intro n v; rw [hn, hnv, hv]; exact i.gen n v
  · intro n; rw [hn]; exact i.gnd n
  · rw [hnv, hv]; exact i.fresh
  · intro v h; simp at h
  · intro l v; rw [hl, hv, hn]; exact i.flag l v
  · intro l v; rw [hl, hv, hn]; exact i.arr l v
  · intro n v; rw [hn, hv]; simp only [hl]; exact i.inc n v
  · intro v hlt
    rw [hnv] at hlt
    rw [hv, i.reg1 v hlt, hrun, hnl, hnn]
    simp only [hl, hn]
    constructor
    · intro h; exact ⟨Or.inl h, fun l hl => by simp [hl]⟩
    · rintro ⟨h | ⟨n, hn, h⟩, _⟩
      · exact h
      · simp [hn] at h
  · intro v hlt
    rw [hnv] at hlt
    rw [hv, i.reg2 v hlt, hliv, hnl]
    simp only [hl]
    constructor
    · exact fun h => Or.inl h
    · rintro (h | ⟨l, hl, h⟩)
      · exact h
      · simp [hl] at h
  · intro v hlt
    rw [hnv] at hlt
    obtain ⟨p, q, s⟩ := i.big v hlt
    refine ⟨?_, fun n => ?_, fun l => ?_⟩
    · rw [← Bool.not_eq_true, hrun]
      rintro ⟨h | ⟨n, _, h⟩, _⟩
      · rw [p] at h; simp at h
      · exact q n h
    · rw [hn]; simp only; split
      · simp
      · exact q n
    · rw [hl]; simp only; split
      · simp
      · exact s l
  · rw [hn]; exact r.inc n

/-- Globals other than the numbers of objects and the registries do not matter. -/
theorem Inv.setG {W : CWorld} {x y : Option ℕ} (i : Inv W x y) (g : CGlob) (h1 : g.nLinks = W.g.nLinks)
    (h2 : g.nNodes = W.g.nNodes) (h3 : g.nVehs = W.g.nVehs) (h4 : g.running = W.g.running)
    (h5 : g.living = W.g.living) : Inv { W with g := g } x y :=
  ⟨by simpa only [h1] using i.outL, by simpa only [h1] using i.inL, by simpa only [h1, h2] using i.ends,
    by simpa only [h2, h3] using i.orig, by simpa only [h1, h3] using i.mem,
    by simpa only [h3] using i.run, by simpa only [h3] using i.idle, i.nd,
    by simpa only [h1] using i.linked, by simpa only [h3] using i.gen, i.gnd,
    by simpa only [h3] using i.fresh, by simpa only [h1, h3] using i.limbo, i.flag, i.arr, i.inc,
    by simpa only [h1, h2, h3, h4] using i.reg1, by simpa only [h1, h3, h5] using i.reg2,
    by simpa only [h3, h4] using i.big⟩

theorem Rest.setG {W : CWorld} (r : Rest W) (g : CGlob) (h1 : g.nLinks = W.g.nLinks)
    (h2 : g.nNodes = W.g.nNodes) (h3 : g.nVehs = W.g.nVehs) (h4 : g.running = W.g.running)
    (h5 : g.living = W.g.living) : Rest { W with g := g } :=
  ⟨r.inv.setG g h1 h2 h3 h4 h5, r.inc⟩

theorem Rest.updateAdj {W : CWorld} (r : Rest W) : Rest W.updateAdj := by
  refine Rest.congr (W := { W with g := W.updateAdj.g }) ?_ (r.setG _ rfl rfl rfl rfl rfl)
  refine ext' rfl (fun _ => rfl) (fun l => ?_) (fun _ => rfl)
  simp only [core, CWorld.updateAdj]
  split
  · rfl
  · beta_reduce; split <;> rfl

theorem Rest.searchAll {W : CWorld} (r : Rest W) : Rest W.searchAll := r.setG _ rfl rfl rfl rfl rfl

theorem Rest.duoUpdate {W : CWorld} (r : Rest W) (w : ℚ) : Rest (W.duoUpdate w) :=
  r.setG _ rfl rfl rfl rfl rfl

theorem Rest.routeStep {W : CWorld} (r : Rest W) : Rest W.routeStep := by
  unfold CWorld.routeStep
  split
  · split
    · exact (r.updateAdj.searchAll).duoUpdate _
    · exact r.duoUpdate _
  · split
    · exact (r.updateAdj.searchAll).duoUpdate _
    · exact r

/-- Parameters, and the vehicles that stay at home, across `routeStep`. -/
theorem routeStep_same (W : CWorld) : SamePar W W.routeStep ∧ W.routeStep.veh = W.veh ∧
    W.routeStep.g.nVehs = W.g.nVehs ∧ W.routeStep.g.nNodes = W.g.nNodes ∧
    W.routeStep.g.nLinks = W.g.nLinks ∧ W.routeStep.g.timestep = W.g.timestep ∧
    W.routeStep.g.totalSteps = W.g.totalSteps ∧ W.routeStep.node = W.node ∧
    ∀ l, (W.routeStep.link l).core = (W.link l).core := by
  have hup : ∀ l, (W.updateAdj.link l).par = (W.link l).par ∧ (W.updateAdj.link l).core = (W.link l).core := by
    intro l
    simp only [CWorld.updateAdj]
    split
    · exact ⟨rfl, rfl⟩
    · beta_reduce; split <;> exact ⟨rfl, rfl⟩
  unfold CWorld.routeStep
  split
  · split
    · exact ⟨⟨fun _ => rfl, fun l => (hup l).1, fun _ => rfl⟩, rfl, rfl, rfl, rfl, rfl, rfl, rfl,
        fun l => (hup l).2⟩
    · exact ⟨⟨fun _ => rfl, fun _ => rfl, fun _ => rfl⟩, rfl, rfl, rfl, rfl, rfl, rfl, rfl, fun _ => rfl⟩
  · split
    · exact ⟨⟨fun _ => rfl, fun l => (hup l).1, fun _ => rfl⟩, rfl, rfl, rfl, rfl, rfl, rfl, rfl,
        fun l => (hup l).2⟩
    · exact ⟨SamePar.refl W, rfl, rfl, rfl, rfl, rfl, rfl, rfl, fun _ => rfl⟩

/-! ## Time steps -/

/-- What one time step keeps. -/
structure StepKeep (home : List ℕ) (W W' : CWorld) : Prop where
  par : SamePar W W'
  nVehs : W'.g.nVehs = W.g.nVehs
  nNodes : W'.g.nNodes = W.g.nNodes
  nLinks : W'.g.nLinks = W.g.nLinks
  timestep : W'.g.timestep = W.g.timestep
  totalSteps : W'.g.totalSteps = W.g.totalSteps
  home : ∀ v, v ∉ home → (W.veh v).state = .home → W'.veh v = W.veh v

theorem Rest.stepWith {W : CWorld} (r : Rest W) (σ : Sched) (hσ : σ.run.Nodup) (home : List ℕ)
    (hnd : home.Nodup) (hh : ∀ v ∈ home, v < W.g.nVehs ∧ (W.veh v).state = .home) :
    Rest (stepWith σ home W).1 ∧ StepKeep home W (stepWith σ home W).1 := by
  have r0 : Rest W.clearExc := r.congr (core_clearExc W).symm
  obtain ⟨r1, k1⟩ := r0.region σ hσ
  have k := (Keep.clearExc W).trans k1
  unfold CWorld.stepWith
  simp only
  generalize CWorld.region σ W.clearExc = W1 at *
  have hg : W1.g = W.g := k.g
  split
  · exact ⟨r1, k.samePar, by rw [hg], by rw [hg], by rw [hg], by rw [hg], by rw [hg],
      fun v _ hv => k.home v hv⟩
  · obtain ⟨r2, s2, g2, e2⟩ := r1.homePass home hnd (fun v hv => by
      rw [hg, k.home v (hh v hv).2]; exact hh v hv)
    simp only
    generalize home.foldl (fun (W : CWorld) v => W.vehUpdate v none) W1 = W2 at *
    have hg2 : W2.g = W.g := g2.trans hg
    obtain ⟨s4, e4, a, b, c, d, e, _, _⟩ := routeStep_same W2.reconcile
    have s3 : SamePar W2 W2.reconcile := ⟨fun n => by simp only [CWorld.reconcile]; split <;> rfl,
      fun l => by simp only [CWorld.reconcile]; split <;> rfl, fun _ => rfl⟩
    refine ⟨r2.reconcile.routeStep, k.samePar.trans (s2.trans (s3.trans s4)), ?_, ?_, ?_, ?_, ?_,
      fun v hv hs => ?_⟩
    · rw [a]; show W2.g.nVehs = _; rw [hg2]
    · rw [b]; show W2.g.nNodes = _; rw [hg2]
    · rw [c]; show W2.g.nLinks = _; rw [hg2]
    · rw [d]; show W2.g.timestep = _; rw [hg2]
    · rw [e]; show W2.g.totalSteps = _; rw [hg2]
    · rw [e4]; show W2.veh v = _; rw [e2 v hv, k.home v hs]

theorem Rest.loopFrom (sched : ℕ → CWorld → Sched) (hs : ∀ t W, Rest W → (sched t W).run.Nodup)
    (buckets : ℕ → List ℕ) (hb : ∀ t, (buckets t).Nodup)
    (hd : ∀ s t v, s ≠ t → v ∈ buckets s → v ∉ buckets t) (k : ℕ) {W : CWorld} (r : Rest W)
    (hh : ∀ t, W.g.timestep ≤ t → ∀ v ∈ buckets t, v < W.g.nVehs ∧ (W.veh v).state = .home) :
    Rest (loopFrom sched buckets k W).1 := by
  induction k generalizing W with
  | zero => exact r
  | succ k ih =>
    obtain ⟨r1, k1⟩ := r.stepWith (sched W.g.timestep W) (hs _ _ r) (buckets W.g.timestep) (hb _)
      (hh _ le_rfl)
    unfold CWorld.loopFrom
    split
    · rename_i W1 e he
      rw [he] at r1; exact r1
    · rename_i W1 he
      rw [he] at r1 k1
      refine ih (r1.setG _ rfl rfl rfl rfl rfl) (fun t ht v hv => ?_)
      have ht' : W.g.timestep + 1 ≤ t := ht
      have hne : W.g.timestep ≠ t := by omega
      obtain ⟨p, q⟩ := hh t (by omega) v hv
      have hn := k1.nVehs
      have hv' := k1.home v (fun h => hd _ _ v hne h hv) q
      simp only at hn hv'
      exact ⟨by simp only; rw [hn]; exact p, by simp only; rw [hv']; exact q⟩

theorem bucket_nodup (W : CWorld) (s t : ℕ) : (W.bucket s t).Nodup := List.nodup_range.filter _

theorem mem_bucket {W : CWorld} {s t v : ℕ} : v ∈ W.bucket s t ↔
    v < W.g.nVehs ∧ (W.veh v).state = .home ∧ W.departStep s (W.veh v).depTime = t := by
  simp [bucket]

theorem Rest.mainLoop {W : CWorld} (r : Rest W) (sched : ℕ → CWorld → Sched)
    (hs : ∀ t W, Rest W → (sched t W).run.Nodup) (endTs : ℕ) : Rest (mainLoop sched W endTs).1 := by
  refine r.loopFrom sched hs (W.bucket W.g.timestep) (fun t => bucket_nodup W _ t) ?_ _ ?_
  · intro s t v hne h h'
    exact hne ((mem_bucket.1 h).2.2.symm.trans (mem_bucket.1 h').2.2)
  · intro t _ v hv
    exact ⟨(mem_bucket.1 hv).1, (mem_bucket.1 hv).2.1⟩

end UX.Cpp
