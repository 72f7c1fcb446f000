import Verif.Proofs.Scenario2
import Verif.Spec.Scenario

/-!
# Loading a saved scenario
-/

namespace UX
open World Relation

/-! ## Node designations in a saved file -/

/-- `f` replaces node designations by equivalent ones. -/
def SameRef (W : World) (f : Ref → Ref) : Prop := ∀ r i, W.getNode r = .ok i → W.getNode (f r) = .ok i

theorem SameRef.net {W W' : World} {f} (h : SameRef W f) (hn : Net W W') : SameRef W' f := by
  intro r i hr
  rw [hn.getNode] at hr ⊢
  exact h r i hr

theorem saveRef_same {W W0 : World} (hi : NInv W) (hN : W0.N = W.N) : SameRef W (Scn.saveRef W0) := by
  intro r i h
  cases r with
  | name s => exact h
  | obj j =>
    unfold getNode at h
    dsimp only at h
    split at h
    · rename_i hj
      cases h
      simp only [Scn.saveRef, getNode, hN, (hi.node _ _).2 ⟨hj, rfl⟩]
    · cases h

theorem SameRef.mapM {W : World} {f} (h : SameRef W f) : ∀ {rs : List Ref} {is},
    rs.mapM W.getNode = .ok is → (rs.map f).mapM W.getNode = .ok is
  | [], is, hr => by simpa using hr
  | r :: rs, is, hr => by
    rw [List.mapM_cons, bind_ok] at hr
    obtain ⟨i, h1, hr⟩ := hr
    rw [bind_ok] at hr
    obtain ⟨js, h2, h3⟩ := hr
    rw [List.map_cons, List.mapM_cons, bind_ok]
    exact ⟨i, h r i h1, bind_ok.2 ⟨js, h.mapM h2, h3⟩⟩

theorem addVehicle_ref {W W' : World} {f} (h : SameRef W f) {o d : Ref} {t : DepTime}
    (ha : W.addVehicle { orig := o, dest := some d, dep := t } = .ok W') :
    W.addVehicle { orig := f o, dest := some (f d), dep := t } = .ok W' := by
  have h0 := ha
  obtain ⟨on, d', dep, pref, cache, lp, la, nm, h1, ⟨dn, h2, -⟩, -⟩ := addVehicle_ok ha
  have e1 := h _ _ h1
  have e2 := h _ _ h2
  unfold addVehicle at h0 ⊢
  dsimp only at h1 h2 e1 e2 h0 ⊢
  rw [e1, e2]
  rw [h1, h2] at h0
  exact h0

theorem demandWhile_ref {f} {o d : Ref} {t : ℤ} : ∀ {k : ℕ} {W : World} {q : ℚ} {p}, SameRef W f →
    demandWhile o d t k W q = .ok p → demandWhile (f o) (f d) t k W q = .ok p
  | 0, W, q, p, _, h => h
  | k + 1, W, q, p, hf, h => by
    unfold demandWhile at h ⊢
    split at h
    · rename_i hc
      rw [if_pos hc]
      split at h
      · rename_i W1 h1
        rw [addVehicle_ref hf h1]
        exact demandWhile_ref (hf.net (addVehicle_net h1)) h
      · cases h
    · rename_i hc
      rw [if_neg hc]; exact h

theorem demandLoop_ref {f} {o d : Ref} {q : ℚ} : ∀ {ts : List ℤ} {W : World} {x : ℚ} {p}, SameRef W f →
    demandLoop o d q ts W x = .ok p → demandLoop (f o) (f d) q ts W x = .ok p
  | [], W, x, p, _, h => h
  | t :: ts, W, x, p, hf, h => by
    unfold demandLoop at h ⊢
    dsimp only at h ⊢
    split at h
    · rename_i W1 x1 h1
      rw [demandWhile_ref hf h1]
      exact demandLoop_ref (hf.net (demandWhile_path h1).2) h
    · cases h

theorem addDemand_ref {f} {o d : Ref} {ts te q n : ℚ} {W W' : World} (hf : SameRef W f)
    (h : W.addDemand o d ts te q n = .ok W') : W.addDemand (f o) (f d) ts te q n = .ok W' := by
  unfold addDemand at h ⊢
  dsimp only at h ⊢
  split at h
  · rename_i hv
    rw [if_pos hv]
    split at h
    · cases h
    · rename_i hz
      rw [if_neg hz]
      simp only [pure_bind] at h ⊢
      rw [bind_ok] at h ⊢
      obtain ⟨p, h1, h2⟩ := h
      exact ⟨p, demandLoop_ref hf h1, h2⟩
  · rename_i hv
    rw [if_neg hv]
    simp only [pure_bind] at h ⊢
    rw [bind_ok] at h ⊢
    obtain ⟨p, h1, h2⟩ := h
    exact ⟨p, demandLoop_ref hf h1, h2⟩

theorem apply_ref {f} {c : DemandCall} {W W' : World} (hf : SameRef W f) (h : c.apply W = .ok W') :
    (c.mapRef f).apply W = .ok W' := by
  cases c with
  | demand => exact addDemand_ref hf h
  | points => exact h
  | areas => exact h
  | areas2 => exact h
  | nodes os ds ts te q n =>
    simp only [DemandCall.apply, DemandCall.mapRef, addDemandNodes] at h ⊢
    rw [bind_ok] at h ⊢
    obtain ⟨os', h1, h⟩ := h
    rw [bind_ok] at h
    obtain ⟨ds', h2, h⟩ := h
    exact ⟨os', hf.mapM h1, bind_ok.2 ⟨ds', hf.mapM h2, h⟩⟩
  | nodes2 os ds ts te q n =>
    simp only [DemandCall.apply, DemandCall.mapRef, addDemandNodes2] at h ⊢
    rw [bind_ok] at h ⊢
    obtain ⟨os', h1, h⟩ := h
    rw [bind_ok] at h
    obtain ⟨ds', h2, h⟩ := h
    exact ⟨os', hf.mapM h1, bind_ok.2 ⟨ds', hf.mapM h2, h⟩⟩

theorem apply_path {c : DemandCall} {W W' : World} (h : c.apply W = .ok W') :
    ReflTransGen ApiStep W W' ∧ Net W W' := by
  cases c with
  | demand => exact addDemand_path h
  | points =>
    simp only [DemandCall.apply, addDemandPoints, bind_ok] at h
    obtain ⟨o, -, d, -, h⟩ := h
    exact addDemand_path h
  | areas =>
    simp only [DemandCall.apply, addDemandAreas, bind_ok] at h
    obtain ⟨o, -, d, -, h⟩ := h
    exact demandEach_path h
  | nodes =>
    simp only [DemandCall.apply, addDemandNodes, bind_ok] at h
    obtain ⟨o, -, d, -, h⟩ := h
    exact demandEach_path h
  | areas2 =>
    simp only [DemandCall.apply, addDemandAreas2, bind_ok] at h
    obtain ⟨o, -, d, -, h⟩ := h
    obtain ⟨-, h1, h2, -⟩ := demandSmooth_spec h
    exact ⟨h1, h2⟩
  | nodes2 =>
    simp only [DemandCall.apply, addDemandNodes2, bind_ok] at h
    obtain ⟨o, -, d, -, h⟩ := h
    obtain ⟨-, h1, h2, -⟩ := demandSmooth_spec h
    exact ⟨h1, h2⟩

theorem Reachable.path {W W' : World} (h : Reachable Any W) (p : ReflTransGen ApiStep W W') :
    Reachable Any W' := by
  induction p with
  | refl => exact h
  | tail _ hs ih => exact .next ih hs trivial

theorem mapRef_kind (f) (c : DemandCall) : (c.mapRef f).kind = c.kind := by cases c <;> rfl

theorem record_map (f) : ∀ (info : DemandInfo) (c : DemandCall),
    DemandInfo.record (info.map fun g => (g.1, g.2.map (·.mapRef f))) (c.mapRef f) =
      (DemandInfo.record info c).map fun g => (g.1, g.2.map (·.mapRef f))
  | [], c => by simp [DemandInfo.record, mapRef_kind]
  | (k, cs) :: t, c => by
    simp only [List.map_cons, DemandInfo.record, mapRef_kind]
    split
    · simp
    · rw [record_map f t c]; rfl

/-- Demand calls: what they do to a scenario, and that they can be repeated. -/
theorem demands_run {ds : List DemandCall} : ∀ {S0 S : Scn}, ds.foldlM Scn.demand S0 = .ok S →
    Reachable Any S0.W → Reachable Any S.W ∧ Net S0.W S.W ∧ S.jam = S0.jam ∧ S.jamPerLane = S0.jamPerLane ∧
      S.info = ds.foldl DemandInfo.record S0.info ∧
    ∀ (g : LinkId → ℚ) (f : Ref → Ref) (S1 : Scn), SameRef S0.W f → S1.W = S0.W.setIn g →
      ∃ S2, (ds.map (·.mapRef f)).foldlM Scn.demand S1 = .ok S2 ∧ S2.W = S.W.setIn g ∧
        S2.jam = S1.jam ∧ S2.jamPerLane = S1.jamPerLane ∧
        S2.info = (ds.map (·.mapRef f)).foldl DemandInfo.record S1.info := by
  induction ds with
  | nil =>
    intro S0 S h hr
    simp at h; subst h
    exact ⟨hr, .refl _, rfl, rfl, rfl, fun g f S1 _ h1 => ⟨S1, by simp, h1, rfl, rfl, rfl⟩⟩
  | cons c ds ih =>
    intro S0 S h hr
    rw [List.foldlM_cons, bind_ok] at h
    obtain ⟨Sm, h1, h2⟩ := h
    obtain ⟨Wm, hW, rfl⟩ := map_ok'.1 h1
    obtain ⟨p, q⟩ := apply_path hW
    obtain ⟨k1, k2, k3, k4, k5, k6⟩ := ih h2 (hr.path p)
    refine ⟨k1, q.trans k2, k3, k4, k5, fun g f S1 hf hS1 => ?_⟩
    have ha : (c.mapRef f).apply S1.W = .ok (Wm.setIn g) := by
      rw [hS1]
      have := apply_setIn g (c.mapRef f) S0.W
      dsimp only at this
      rw [this, apply_ref hf hW]; rfl
    obtain ⟨S2, e1, e2, e3, e4, e5⟩ := k6 g f
      { S1 with W := Wm.setIn g, info := DemandInfo.record S1.info (c.mapRef f) } (hf.net q) rfl
    refine ⟨S2, ?_, e2, e3, e4, e5⟩
    rw [List.map_cons, List.foldlM_cons, bind_ok]
    exact ⟨_, map_ok'.2 ⟨_, ha, rfl⟩, e1⟩

theorem record_new {info : DemandInfo} {c : DemandCall} (h : c.kind ∉ info.map (·.1)) :
    DemandInfo.record info c = info ++ [(c.kind, [c])] := by
  induction info with
  | nil => rfl
  | cons g t ih =>
    obtain ⟨k, cs⟩ := g
    simp only [List.map_cons, List.mem_cons, not_or] at h
    rw [DemandInfo.record, if_neg (fun e => h.1 e.symm), ih h.2]; rfl

theorem record_last {info : DemandInfo} {k cs} {c : DemandCall} (h : k ∉ info.map (·.1)) (hc : c.kind = k) :
    DemandInfo.record (info ++ [(k, cs)]) c = info ++ [(k, cs ++ [c])] := by
  induction info with
  | nil => simp [DemandInfo.record, hc]
  | cons g t ih =>
    obtain ⟨k', cs'⟩ := g
    simp only [List.map_cons, List.mem_cons, not_or] at h
    rw [List.cons_append, DemandInfo.record, if_neg (fun e => h.1 (by rw [← hc, e])), ih h.2]; rfl

theorem record_block {info : DemandInfo} {k : DemandKind} (hk : k ∉ info.map (·.1)) :
    ∀ {cs : List DemandCall}, (∀ c ∈ cs, c.kind = k) → cs ≠ [] →
    cs.foldl DemandInfo.record info = info ++ [(k, cs)] := by
  have aux : ∀ (cs : List DemandCall) (as : List DemandCall), (∀ c ∈ cs, c.kind = k) →
      cs.foldl DemandInfo.record (info ++ [(k, as)]) = info ++ [(k, as ++ cs)] := by
    intro cs
    induction cs with
    | nil => intro as _; simp
    | cons c cs ih =>
      intro as h
      rw [List.foldl_cons, record_last hk (h c (by simp)), ih _ (fun c hc => h c (by simp [hc]))]
      simp
  intro cs h hne
  cases cs with
  | nil => exact absurd rfl hne
  | cons c cs =>
    have hc := h c (by simp)
    rw [List.foldl_cons, record_new (by rw [hc]; exact hk), hc, aux cs [c] (fun c hc => h c (by simp [hc]))]
    rfl

/-- Calls made block by block are recorded as those blocks. -/
theorem record_blocks : ∀ (bs : List (DemandKind × List DemandCall)) (info : DemandInfo),
    ((info ++ bs).map (·.1)).Nodup → (∀ b ∈ bs, b.2 ≠ [] ∧ ∀ c ∈ b.2, c.kind = b.1) →
    (bs.flatMap (·.2)).foldl DemandInfo.record info = info ++ bs
  | [], info, _, _ => by simp
  | b :: bs, info, hn, hb => by
    rw [List.flatMap_cons, List.foldl_append]
    have h1 := hb b (by simp)
    have hk : b.1 ∉ info.map (·.1) := by
      rw [List.map_append, List.map_cons] at hn
      intro hm
      exact (List.disjoint_of_nodup_append hn) hm (by simp)
    rw [record_block hk h1.2 h1.1]
    have := record_blocks bs (info ++ [b]) (by simpa using hn) (fun b hb' => hb b (by simp [hb']))
    rw [List.append_assoc] at this
    exact this

theorem foldlM_groups {f : Scn → DemandCall → M Scn} : ∀ (gs : DemandInfo) (S : Scn),
    gs.foldlM (fun S g => g.2.foldlM f S) S = (gs.flatMap (·.2)).foldlM f S
  | [], S => rfl
  | g :: gs, S => by
    rw [List.foldlM_cons, List.flatMap_cons, List.foldlM_append]
    exact bind_congr fun S1 => foldlM_groups gs S1

/-- Building a network leaves the random numbers alone; links that do not exist have no capacity. -/
theorem net_rng {cfg tmax rng} {cs : List NetCmd} {S : Scn} (h : cs.foldlM NetCmd.run (Scn.new cfg tmax rng) = .ok S) :
    Reload S cfg tmax ∧ S.W.rng = rng ∧ ∀ l, S.W.nLinks ≤ l → S.W.L.capInRem l = 0 := by
  refine foldlM_inv (P := fun S => Reload S cfg tmax ∧ S.W.rng = rng ∧
    ∀ l, S.W.nLinks ≤ l → S.W.L.capInRem l = 0) (fun S c S' _ hP hc => ?_)
    ⟨.new cfg tmax rng, rfl, fun _ _ => rfl⟩ h
  obtain ⟨h1, h2, h3⟩ := hP
  cases c with
  | node fuel a =>
    refine ⟨h1.node hc, ?_⟩
    obtain ⟨W', hW, rfl⟩ := map_ok'.1 hc
    obtain ⟨ph, t, soff, -, -, rfl⟩ := addNode_ok hW
    exact ⟨h2, h3⟩
  | link a =>
    refine ⟨h1.link hc, ?_⟩
    obtain ⟨W', hW, rfl⟩ := map_ok'.1 hc
    obtain ⟨s, e, nm, k, p, -, -, -, -, -, -, rfl⟩ := addLink_ok hW
    refine ⟨h2, fun l hl => ?_⟩
    have hl' : S.W.nLinks + 1 ≤ l := hl
    exact (upd_ne _ _ (Nat.ne_of_gt hl')).trans (h3 l (Nat.le_of_succ_le hl'))

end UX
