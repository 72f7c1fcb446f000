import Verif.Spec.Work
import Verif.Proofs.CarryTurn

/-! No vehicle is held up without reason (C107). -/

namespace UX
open World

theorem canEnter_iff {W : World} {l : LinkId} (hl : 1 ≤ W.L.lanes l) :
    W.canEnter l = true ↔ PySpec.HasRoom W l := by
  unfold canEnter PySpec.HasRoom PySpec.jam
  simp only [Bool.and_eq_true, Bool.or_eq_true, decide_eq_true_eq]
  refine and_congr ?_ Iff.rfl
  by_cases h : (W.L.vehs l).length < W.L.lanes l
  · simp [h]
  · simp only [h, false_or]
    have hb : backN (W.L.vehs l) (W.L.lanes l) = (W.L.vehs l)[(W.L.vehs l).length - W.L.lanes l]? := by
      unfold backN; rw [if_pos ⟨hl, by omega⟩]
    rw [hb]
    cases (W.L.vehs l)[(W.L.vehs l).length - W.L.lanes l]? with
    | none => simp
    | some w => simp only [decide_eq_true_eq, Option.some.injEq, exists_eq_left']; exact Iff.rfl

theorem canEnter_congr {W W' : World} {l : LinkId} (hs : Static W W') (h1 : W'.L.vehs l = W.L.vehs l)
    (h2 : ∀ w ∈ W.L.vehs l, W'.V.x w = W.V.x w) (h3 : W'.L.capInRem l = W.L.capInRem l) :
    W'.canEnter l = W.canEnter l := by
  unfold canEnter World.gap World.fl World.dn
  rw [h1, h3, hs.cfg, hs.lanes, hs.deltaPerLane]
  congr 2
  cases hb : backN (W.L.vehs l) (W.L.lanes l) with
  | none => rfl
  | some w =>
    have hm : w ∈ W.L.vehs l := by
      unfold backN at hb; split at hb
      · exact List.mem_of_getElem? hb
      · cases hb
    simp only [h2 w hm]

/-- One slot: either nothing happens, and there was no room, no node capacity, or nobody to go; or a vehicle
goes. -/
theorem transferOne_work {n : NodeId} {W W' : World} {b : LinkId} (hc : Core W) (hn : n < W.nNodes)
    (h : transferOne n W b = .ok W') :
    (W' = W ∧ (W.canEnter b = false ∨ W.N.flowCapRem n < W.dn ∨
      ∀ v ∈ W.N.incoming n, W.eligible n b v ≠ .ok true)) ∨
    ∃ r v a W1, Prim (.move n v a b) { W with rng := r } W1 ∧
      (W' = W1 ∨ ∃ w, Prim (.endTrip w a) W1 W') := by
  by_cases hg : (W.canEnter b && decide ((W.dn : ℚ) ≤ W.N.flowCapRem n)) = true
  · have h0 := h
    unfold transferOne at h
    rw [if_pos hg, bind_ok] at h
    obtain ⟨vs, hvs, h⟩ := h
    split at h
    · simp at h
      refine .inl ⟨h.symm, .inr (.inr fun v hv he => ?_)⟩
      have := (filterE_ok hvs v).2 ⟨hv, he⟩
      simp at this
    · right
      rw [bind_ok] at h
      obtain ⟨⟨v, W1⟩, hp, h⟩ := h
      obtain ⟨hv, r, rfl⟩ := pickMerge_spec hp
      rw [filterE_ok hvs] at hv
      obtain ⟨hinc, hel⟩ := hv
      dsimp only at h
      unfold eligible at hel
      simp only [Bool.and_eq_true, decide_eq_true_eq] at hg
      split at h
      · simp at h
      · rename_i a ha
        have ha' : W.V.link v = some a := ha
        rw [ha'] at hel
        dsimp only at hel
        split at hel
        · simp at hel
        · rename_i hd t hvt
          simp only [Except.ok.injEq, Bool.and_eq_true, Bool.or_eq_true, decide_eq_true_eq] at hel
          obtain ⟨⟨⟨rfl, hrnl⟩, hsig⟩, hco⟩ := hel
          have hc1 : Core { W with rng := r } := hc.prim (rng_prim W r)
          obtain ⟨W2, h2, h3⟩ := moveVeh_split hc1.s ha hvt h
          refine ⟨r, hd, a, W2, .move hn hinc ha hvt hrnl hsig hco hg.2 hg.1 h2, ?_⟩
          rcases h3 with h3 | ⟨w, s, h4, h5, h6, h7⟩
          · exact .inl h3
          · exact .inr ⟨w, .endTrip h5 h4 h6 h7⟩
  · unfold transferOne at h
    rw [if_neg hg] at h
    simp at h
    refine .inl ⟨h.symm, ?_⟩
    simp only [Bool.and_eq_true, decide_eq_true_eq, not_and, not_le] at hg
    cases hce : W.canEnter b with
    | false => exact .inl rfl
    | true => exact .inr (.inl (hg hce))

/-- Vehicle `v` stands first at the end of link `a`, wants to go on to `b`, and may leave. -/
structure Stands (n : NodeId) (v : VehId) (a b : LinkId) (Z : World) : Prop where
  first : ∃ t, Z.L.vehs a = v :: t
  inc : v ∈ Z.N.incoming n
  rnl : Z.V.rnl v = .to b
  sig : Z.N.phase n ∈ Z.L.signalGroup a ∨ (Z.N.signal n).length ≤ 1
  out : (Z.dn : ℚ) ≤ Z.L.capOutRem a

theorem Stands.eligible {n : NodeId} {v : VehId} {a b : LinkId} {Z : World} (h : Stands n v a b Z)
    (hc : Core Z) : Z.eligible n b v = .ok true := by
  obtain ⟨t, ht⟩ := h.first
  have hl : Z.V.link v = some a := hc.s.vehs_link a v (by rw [ht]; simp)
  unfold World.eligible
  rw [hl]
  dsimp only
  rw [ht]
  simp [h.rnl, h.out, h.sig]

/-- What a transfer to link `c` does to a link `b` it does not come from. -/
theorem move_link {n : NodeId} {u : VehId} {e c : LinkId} {Z Z' : World} (hc : Core Z)
    (hp : Prim (.move n u e c) Z Z') {b : LinkId} (hb : b ≠ e) :
    (b = c → Z'.L.vehs b = Z.L.vehs b ++ [u]) ∧
    (b ≠ c → Z'.L.vehs b = Z.L.vehs b ∧ Z'.canEnter b = Z.canEnter b) ∧
    Z.V.rnl u = .to c ∧ Z.canEnter c = true ∧ (Z.dn : ℚ) ≤ Z.N.flowCapRem n ∧ u ∉ Z.L.vehs b := by
  have hst := hp.static
  have hs := hp.shape hc.s
  clear hp
  cases hs with
  | @move _ m v c d t o q nl fc tta hn hinc hla hv hr hsig hout hfl hent hcd hca hu hlead hnl hq hfc htta =>
    have hvb : u ∉ Z.L.vehs b := by
      intro hm
      have := (hc.s.vehs_link b u hm).symm.trans hla
      simp at this; exact hb this
    refine ⟨fun h0 => ?_, fun h0 => ?_, hr, hent, hfl, hvb⟩
    · subst h0; dsimp only; rw [upd_same, upd_ne _ _ hb]
    · have h1 : upd (upd Z.L.vehs e t) c (upd Z.L.vehs e t c ++ [u]) b = Z.L.vehs b := by
        rw [upd_ne _ _ h0, upd_ne _ _ hb]
      refine ⟨h1, canEnter_congr hst h1 (fun w hw => ?_) ?_⟩
      · have : w ≠ u := by rintro rfl; exact hvb hw
        dsimp only; rw [upd_ne _ _ this]
      · dsimp only; rw [upd_ne _ _ h0]

theorem endTrip_link {v : VehId} {l : LinkId} {Z Z' : World} (hc : Core Z)
    (hp : Prim (.endTrip v l) Z Z') :
    Z'.N.flowCapRem = Z.N.flowCapRem ∧
    ∀ b, b ≠ l → Z'.L.vehs b = Z.L.vehs b ∧ Z'.canEnter b = Z.canEnter b := by
  have hst := hp.static
  have hs := hp.shape hc.s
  clear hp
  cases hs with
  | @endTrip _ _ _ t log s c lt tta hl hv hf hcd hrun hliv hlt hlog htta =>
    refine ⟨rfl, fun b hb => ?_⟩
    have h1 : upd Z.L.vehs l t b = Z.L.vehs b := upd_ne _ _ hb
    refine ⟨h1, canEnter_congr hst h1 (fun w hw => ?_) rfl⟩
    have : w ≠ v := by
      rintro rfl
      have := (hc.s.vehs_link b w hw).symm.trans hl
      simp at this; exact hb this
    dsimp only; rw [upd_ne _ _ this]

theorem Stands.move {n : NodeId} {v u : VehId} {a b e c : LinkId} {Z Z' : World} (h : Stands n v a b Z)
    (hc : Core Z) (hp : Prim (.move n u e c) Z Z') :
    (u = v ∧ e = a ∧ c = b) ∨ (u ≠ v ∧ e ≠ a ∧ Stands n v a b Z') := by
  have hs := hp.shape hc.s
  clear hp
  obtain ⟨⟨t0, h1⟩, h2, h3, h4, h5⟩ := h
  have hla' : Z.V.link v = some a := hc.s.vehs_link a v (by rw [h1]; simp)
  cases hs with
  | @move _ m w c' d t o q nl fc tta hn hinc hla hv hr hsig hout hfl hent hcd hca hu hlead hnl hq hfc htta =>
    by_cases huv : u = v
    · subst huv
      left
      have e1 := hla.symm.trans hla'
      have e2 := hr.symm.trans h3
      simp at e1 e2
      exact ⟨rfl, e1, e2⟩
    · right
      have hea : e ≠ a := by
        rintro rfl
        rw [h1] at hv
        exact huv (List.cons.inj hv).1.symm
      refine ⟨huv, hea, ?_, ?_, h3, h4, ?_⟩
      · by_cases eca : a = c
        · subst eca
          refine ⟨t0 ++ [u], ?_⟩
          dsimp only; rw [upd_same, upd_ne _ _ hea.symm, h1]; rfl
        · refine ⟨t0, ?_⟩
          dsimp only; rw [upd_ne _ _ eca, upd_ne _ _ hea.symm, h1]
      · dsimp only; rw [upd_same]
        exact (List.mem_erase_of_ne (Ne.symm huv)).2 h2
      · dsimp only
        rw [upd_ne _ _ hea.symm]
        exact h5

theorem Stands.endTrip {n : NodeId} {v w : VehId} {a b l : LinkId} {Z Z' : World} (h : Stands n v a b Z)
    (hc : Core Z) (hl : l ≠ a) (hp : Prim (.endTrip w l) Z Z') : Stands n v a b Z' := by
  have hs := hp.shape hc.s
  clear hp
  obtain ⟨⟨t0, h1⟩, h2, h3, h4, h5⟩ := h
  cases hs with
  | @endTrip _ _ _ t log s c lt tta hl' hv hf hcd hrun hliv hlt hlog htta =>
    exact ⟨⟨t0, by dsimp only; rw [upd_ne _ _ hl.symm]; exact h1⟩, h2, h3, h4, h5⟩

/-- The slots served so far have brought the vehicles `es` to link `b`, among them `v` if it could go. -/
structure SlotsServed (n : NodeId) (v : VehId) (a b : LinkId) (X : World) (k : ℕ) (Z : World) : Prop where
  c : Core Z
  s : Static X Z
  ex : ∃ es, Z.L.vehs b = X.L.vehs b ++ es ∧ es.length ≤ k ∧
    (v ∈ es ∨ Stands n v a b Z ∧ (es.length = k ∨ Z.canEnter b = false ∨ Z.N.flowCapRem n < Z.dn))

theorem SlotsServed.slot {n : NodeId} {v : VehId} {a b c : LinkId} {X Z Z' : World} {k : ℕ}
    (h : SlotsServed n v a b X k Z) (hn : n < X.nNodes) (hb : X.L.endN b ≠ n)
    (ht : transferOne n Z c = .ok Z') : SlotsServed n v a b X (k + if c = b then 1 else 0) Z' := by
  obtain ⟨hc, hs, es, h1, h2, h3⟩ := h
  have hnZ : n < Z.nNodes := by rw [hs.nNodes]; exact hn
  rcases transferOne_work hc hnZ ht with ⟨rfl, hw⟩ | ⟨r, u, e, W1, hm, he⟩
  · refine ⟨hc, hs, es, h1, by omega, ?_⟩
    rcases h3 with h3 | ⟨h3, h4⟩
    · exact .inl h3
    · refine .inr ⟨h3, ?_⟩
      by_cases ecb : c = b
      · subst ecb
        rcases hw with hw | hw | hw
        · exact .inr (.inl hw)
        · exact .inr (.inr hw)
        · exact absurd (h3.eligible hc) (hw v h3.inc)
      · rw [if_neg ecb]; exact h4
  · have hcr : Core { Z with rng := r } := hc.prim (rng_prim Z r)
    have hen : Z.L.endN e = n := by
      cases hm with
      | move _ hi hl => exact (hc.s.inc_run n u e hi hl).1
    have hbe : b ≠ e := by
      rintro rfl
      exact hb (by rw [← hs.endN]; exact hen)
    obtain ⟨m1, m2, m3, m4, m5, m6⟩ := move_link hcr hm hbe
    have hc1 := hcr.prim hm
    have hs1 : Static X W1 := hs.trans ((rng_prim Z r).static.trans hm.static)
    have key : ∃ es, W1.L.vehs b = X.L.vehs b ++ es ∧ es.length ≤ (k + if c = b then 1 else 0) ∧
        (v ∈ es ∨ (Stands n v a b W1 ∧ e ≠ a) ∧ (es.length = (k + if c = b then 1 else 0) ∨
          W1.canEnter b = false)) := by
      by_cases ecb : c = b
      · subst ecb
        rw [if_pos rfl]
        refine ⟨es ++ [u], ?_, by simp; omega, ?_⟩
        · rw [m1 rfl, ← List.append_assoc, ← h1]
        · rcases h3 with h3 | ⟨h3, h4⟩
          · exact .inl (List.mem_append_left _ h3)
          · have h3r : Stands n v a c { Z with rng := r } := ⟨h3.first, h3.inc, h3.rnl, h3.sig, h3.out⟩
            rcases h3r.move hcr hm with ⟨rfl, _, _⟩ | ⟨_, hea, hst⟩
            · exact .inl (by simp)
            · refine .inr ⟨⟨hst, hea⟩, ?_⟩
              rcases h4 with h4 | h4 | h4
              · left; simp [h4]
              · have : Z.canEnter c = true := m4
                rw [h4] at this; cases this
              · exact absurd m5 (not_le.2 h4)
      · rw [if_neg ecb]
        obtain ⟨m2a, m2b⟩ := m2 (Ne.symm ecb)
        refine ⟨es, ?_, h2, ?_⟩
        · rw [m2a]; exact h1
        · rcases h3 with h3 | ⟨h3, h4⟩
          · exact .inl h3
          · have h3r : Stands n v a b { Z with rng := r } := ⟨h3.first, h3.inc, h3.rnl, h3.sig, h3.out⟩
            rcases h3r.move hcr hm with ⟨_, _, hcb⟩ | ⟨_, hea, hst⟩
            · exact absurd hcb ecb
            · refine .inr ⟨⟨hst, hea⟩, ?_⟩
              rcases h4 with h4 | h4 | h4
              · exact .inl h4
              · exact .inr (by rw [m2b]; exact h4)
              · exact absurd m5 (not_le.2 h4)
    obtain ⟨es', k1, k2, k3⟩ := key
    rcases he with rfl | ⟨w, he⟩
    · refine ⟨hc1, hs1, es', k1, k2, ?_⟩
      rcases k3 with k3 | ⟨⟨k3, _⟩, k4 | k4⟩
      · exact .inl k3
      · exact .inr ⟨k3, .inl k4⟩
      · exact .inr ⟨k3, .inr (.inl k4)⟩
    · obtain ⟨_, q2⟩ := endTrip_link hc1 he
      obtain ⟨q3, q4⟩ := q2 b hbe
      refine ⟨hc1.prim he, hs1.trans he.static, es', by rw [q3]; exact k1, k2, ?_⟩
      rcases k3 with k3 | ⟨⟨k3, k5⟩, k4 | k4⟩
      · exact .inl k3
      · exact .inr ⟨k3.endTrip hc1 k5 he, .inl k4⟩
      · exact .inr ⟨k3.endTrip hc1 k5 he, .inr (.inl (by rw [q4]; exact k4))⟩

/-- One node of the transfer phase serves a vehicle that stands first, or there is a reason. -/
theorem transfer_work {n : NodeId} {v : VehId} {a b : LinkId} {X Y : World} (hc : Core X) (hn : n < X.nNodes)
    (hb : X.L.endN b ≠ n) (hv : Stands n v a b X) (h : X.transfer n = .ok Y) :
    ∃ es, Y.L.vehs b = X.L.vehs b ++ es ∧ es.length ≤ X.L.lanes b ∧
      (v ∈ es ∨ es.length = X.L.lanes b ∨ Y.canEnter b = false ∨ Y.N.flowCapRem n < Y.dn) := by
  obtain ⟨slots0, slots, r, W2, W3, h0, hperm, h2, h3, rfl⟩ := transfer_parts h
  have hcnt : slots.count b = X.L.lanes b := by
    rw [hperm.count_eq]
    refine le_antisymm ((transferSlots_ok h0).2 b) ?_
    unfold transferSlots at h0
    split at h0
    · cases h0
    · simp only [Except.ok.injEq] at h0
      subst h0
      have hm : b ∈ uniqFirst ((X.N.incoming n).filterMap
          (fun v => match X.V.rnl v with | .to l => some l | _ => none)) := by
        rw [uniqFirst_mem, List.mem_filterMap]
        exact ⟨v, hv.inc, by rw [hv.rnl]⟩
      generalize uniqFirst (α := LinkId) (List.filterMap _ _) = keys at hm ⊢
      induction keys with
      | nil => cases hm
      | cons x xs ih =>
        rw [List.flatMap_cons, List.count_append]
        by_cases e : x = b
        · subst e; simp
        · have := ih (by simpa [Ne.symm e] using hm)
          omega
  have hcr : Core { X with rng := r } := hc.prim (rng_prim X r)
  have h00 : SlotsServed n v a b X 0 { X with rng := r } :=
    ⟨hcr, (rng_prim X r).static, [], by simp, by simp,
      .inr ⟨⟨hv.first, hv.inc, hv.rnl, hv.sig, hv.out⟩, .inl rfl⟩⟩
  have hS := foldlM_inv_pre (P := fun pre Z => SlotsServed n v a b X (pre.count b) Z)
    (fun pre c post s s' _ hs ht => by
      have := hs.slot hn hb ht
      rw [List.count_append, List.count_singleton]
      by_cases e : c = b
      · subst e; simpa using this
      · rw [if_neg e] at this
        simpa [e] using this) (by simpa using h00) h2
  obtain ⟨c2, s2, es, k1, k2, k3⟩ := hS
  rw [hcnt] at k2 k3
  have hE := (ends_at c2 h3).inv_core (P := fun Z => Static X Z ∧ Z.L.vehs b = W2.L.vehs b ∧
      Z.canEnter b = W2.canEnter b ∧ Z.N.flowCapRem = W2.N.flowCapRem)
    (fun act Z Z' ha hcZ hp hz => by
      obtain ⟨w, l, rfl, hl⟩ := ha
      obtain ⟨q1, q2⟩ := endTrip_link hcZ hp
      have hbl : b ≠ l := by
        rintro rfl
        exact hb (by rw [← s2.endN]; exact hl)
      obtain ⟨q3, q4⟩ := q2 b hbl
      exact ⟨hz.1.trans hp.static, q3.trans hz.2.1, q4.trans hz.2.2.1, q1.trans hz.2.2.2⟩) c2
    ⟨s2, rfl, rfl, rfl⟩
  obtain ⟨e0, e1, e2, e3⟩ := hE
  refine ⟨es, by dsimp only; rw [e1]; exact k1, k2, ?_⟩
  rcases k3 with k3 | ⟨_, k3 | k3 | k3⟩
  · exact .inl k3
  · exact .inr (.inl k3)
  · exact .inr (.inr (.inl (e2.trans k3)))
  · refine .inr (.inr (.inr ?_))
    have e4 : W3.dn = W2.dn := by unfold World.dn; rw [e0.cfg, s2.cfg]
    change W3.N.flowCapRem n < (W3.dn : ℚ)
    rw [e3, e4]
    exact k3

/-! ### Who waits for a link does so until the turn of the node -/

theorem turn_waits {W X : World} {n : ℕ} {m : NodeId} (hc : Core W) (hm : m < W.nNodes) (hn : n ≤ m)
    (h : PySpec.turn W n = .ok X) : X.N.incoming m = W.N.incoming m ∧ X.V.rnl = W.V.rnl := by
  have key : ∀ (act : Act) (Z Z' : World), (match act with
      | .linkTick _ => True | .depart _ _ _ => True | .routing => True | .nodeTick _ => True
      | .clearInc k => k ≠ m | .move k _ _ _ => k ≠ m | .endTrip _ _ => True | _ => False) →
      Core Z → Prim act Z Z' → (Z.N.incoming m = W.N.incoming m ∧ Z.V.rnl = W.V.rnl) →
      (Z'.N.incoming m = W.N.incoming m ∧ Z'.V.rnl = W.V.rnl) := by
    intro act Z Z' ha hcZ hp hz
    have hs := hp.shape hcZ.s
    clear hp
    cases hs with
    | move => exact ⟨by dsimp only; rw [upd_ne _ _ (Ne.symm ha)]; exact hz.1, hz.2⟩
    | clearInc => exact ⟨by dsimp only; rw [upd_ne _ _ (Ne.symm ha)]; exact hz.1, hz.2⟩
    | depart => exact hz
    | linkTick => exact hz
    | nodeTick => exact hz
    | endTrip => exact hz
    | routing => exact hz
    | _ => exact ha.elim
  induction n generalizing X with
  | zero =>
    rw [turn_zero] at h
    refine (departTurn_star (Nat.le_refl _) h).inv_core
      (P := fun Z => Z.N.incoming m = W.N.incoming m ∧ Z.V.rnl = W.V.rnl) (fun a Z Z' ha => key a Z Z' ?_) hc
      ⟨rfl, rfl⟩
    rcases ha with h | h <;> cases a <;> simp_all [isLinkTick, isGen]
  | succ n ih =>
    obtain ⟨X0, h1, h2⟩ := turn_pred h
    obtain ⟨c0, s0⟩ := turn_core hc (Nat.le_trans (Nat.le_of_succ_le hn) (Nat.le_of_lt hm)) h1
    refine (transfer_at c0 (by rw [s0.nNodes]; exact Nat.lt_trans hn hm) h2).inv_core
      (P := fun Z => Z.N.incoming m = W.N.incoming m ∧ Z.V.rnl = W.V.rnl) (fun a Z Z' ha => key a Z Z' ?_) c0
      (ih (Nat.le_of_succ_le hn) h1)
    cases a <;> simp only [isTrN] at ha ⊢
    · rw [ha]; exact Nat.ne_of_lt hn
    · rw [ha]; exact Nat.ne_of_lt hn

/-! ### Departures -/

theorem generateLoop_work {n : NodeId} {k : ℕ} {W W' : World} (hc : Core W) (hn : n < W.nNodes)
    (h : generateLoop n k W = .ok W') :
    ∃ ds rest, W.N.genq n = ds ++ rest ∧ W'.N.genq n = rest ∧ ds.length ≤ k ∧
      (∀ l, ∃ es, W'.L.vehs l = W.L.vehs l ++ es) ∧
      (∀ v ∈ ds, ∃ l ∈ W.N.outlinks n, v ∈ W'.L.vehs l) ∧
      (rest = [] ∨ ds.length = k ∨
        ∃ v t l, rest = v :: t ∧ l ∈ W.N.outlinks n ∧ W'.canEnter l = false) := by
  induction k generalizing W with
  | zero =>
    simp [generateLoop] at h; subst h
    exact ⟨[], _, rfl, rfl, Nat.le_refl _, fun l => ⟨[], by simp⟩, by simp, .inr (.inl rfl)⟩
  | succ k ih =>
    simp only [generateLoop] at h
    split at h
    · rename_i hq
      simp at h; subst h
      exact ⟨[], [], by rw [hq]; rfl, hq, by simp, fun l => ⟨[], by simp⟩, by simp, .inl rfl⟩
    · rename_i v t hq
      rw [bind_ok] at h
      obtain ⟨cs, hcs, h⟩ := h
      rw [bind_ok] at h
      obtain ⟨⟨l, W1⟩, hch, h⟩ := h
      obtain ⟨hl, r, rfl⟩ := chooseLink_spec hch
      dsimp only at h
      have hr := rng_prim W r
      have hlo := SInv.mem_originCandidates hcs hl
      split at h
      · rename_i hce
        rw [bind_ok] at h
        obtain ⟨W2, hd, h⟩ := h
        have hp : Prim (.depart n v l) { W with rng := r } W2 :=
          .depart (t := t) (cs := cs) hn hq hcs hl hce hd
        have hcr := hc.prim hr
        have hst := hr.static.trans hp.static
        obtain ⟨ds, rest, a1, a2, a3, a4, a5, a6⟩ := ih (hcr.prim hp) (by rw [hst.nNodes]; exact hn) h
        have hs := hp.shape hcr.s
        clear hp hd ih
        have hg : W2.N.genq n = t ∧ W2.L.vehs = upd W.L.vehs l (W.L.vehs l ++ [v]) := by
          cases hs with
          | depart _ hq' =>
            have hq2 : W.N.genq n = v :: _ := hq'
            rw [hq] at hq2
            refine ⟨?_, rfl⟩
            dsimp only; rw [upd_same]; exact (List.cons.inj hq2).2.symm
        have hgrow : ∀ c, ∃ es, W'.L.vehs c = W.L.vehs c ++ es := by
          intro c
          obtain ⟨es, he⟩ := a4 c
          rw [hg.2] at he
          by_cases e : c = l
          · subst e; exact ⟨v :: es, by rw [he, upd_same]; simp⟩
          · exact ⟨es, by rw [he, upd_ne _ _ e]⟩
        rw [hst.outlinks] at a5 a6
        refine ⟨v :: ds, rest, ?_, a2, by simpa using a3, hgrow, ?_, ?_⟩
        · rw [hq, ← hg.1, a1]; rfl
        · intro u hu
          rcases List.mem_cons.1 hu with rfl | hu
          · refine ⟨l, hlo, ?_⟩
            obtain ⟨es, he⟩ := a4 l
            rw [he, hg.2, upd_same]; simp
          · exact a5 u hu
        · rcases a6 with a6 | a6 | a6
          · exact .inl a6
          · exact .inr (.inl (by simp [a6]))
          · exact .inr (.inr a6)
      · rename_i hce
        simp at h; subst h
        exact ⟨[], v :: t, by rw [hq]; rfl, hq, by simp, fun l => ⟨[], by simp⟩, by simp,
          .inr (.inr ⟨v, t, l, rfl, hlo, by simpa using hce⟩)⟩

theorem departTurn_succ {W X : World} {n : ℕ} (h : PySpec.departTurn W n = .ok X) :
    PySpec.departTurn W (n + 1) = (do (← X.generate n).nodeUpdate n) := by
  unfold PySpec.departTurn at h ⊢
  rw [bind_ok] at h
  obtain ⟨W2, h1, h2⟩ := h
  rw [h1]
  change (List.range (n + 1)).foldlM (fun W n => do (← W.generate n).nodeUpdate n) W2 = _
  rw [List.range_succ, List.foldlM_append, h2]
  change [n].foldlM (fun W n => do (← W.generate n).nodeUpdate n) X = _
  simp

theorem departTurn_pred {W Y : World} {n : ℕ} (h : PySpec.departTurn W (n + 1) = .ok Y) :
    ∃ X, PySpec.departTurn W n = .ok X := by
  cases hx : PySpec.departTurn W n with
  | ok X => exact ⟨X, rfl⟩
  | error e =>
    exfalso
    unfold PySpec.departTurn at h hx
    rw [bind_ok] at h
    obtain ⟨W2, h1, h2⟩ := h
    rw [h1] at hx
    change (List.range n).foldlM (fun W n => do (← W.generate n).nodeUpdate n) W2 = _ at hx
    rw [List.range_succ, List.foldlM_append, hx] at h2
    simp [bind, Except.bind] at h2

theorem departTurn_le {W Y : World} {n m : ℕ} (hn : n ≤ m) (h : PySpec.departTurn W m = .ok Y) :
    ∃ X, PySpec.departTurn W n = .ok X := by
  induction m generalizing Y with
  | zero => rw [Nat.le_zero.1 hn]; exact ⟨Y, h⟩
  | succ m ih =>
    by_cases e : n = m + 1
    · exact ⟨Y, by rw [e]; exact h⟩
    · obtain ⟨X, hX⟩ := departTurn_pred h
      exact ih (by omega) hX

theorem departs_work {W X Y : World} {n : NodeId} (hc : Core W) (hn : n < W.nNodes)
    (hX : PySpec.departTurn W n = .ok X) (hY : PySpec.departTurn W (n + 1) = .ok Y) :
    ∃ ds rest, X.N.genq n = ds ++ rest ∧ Y.N.genq n = rest ∧
      ds.length ≤ ((W.N.outlinks n).map W.L.lanes).sum ∧
      (∀ l, ∃ es, Y.L.vehs l = X.L.vehs l ++ es) ∧
      (∀ v ∈ ds, ∃ l ∈ W.N.outlinks n, v ∈ Y.L.vehs l) ∧
      (rest = [] ∨ ds.length = ((W.N.outlinks n).map W.L.lanes).sum ∨
        ∃ v t l, rest = v :: t ∧ l ∈ W.N.outlinks n ∧ ¬ PySpec.HasRoom Y l) := by
  have s := departTurn_star (Nat.le_of_lt hn) hX
  have cX := hc.star s
  have sX := s.static
  have hnX : n < X.nNodes := by rw [sX.nNodes]; exact hn
  rw [departTurn_succ hX] at hY
  rw [bind_ok] at hY
  obtain ⟨Z, h1, h2⟩ := hY
  have g := generateLoop_star hnX h1
  have cZ := cX.star g
  have hp : Prim (.nodeTick n) Z Y := .nodeTick (by rw [g.static.nNodes]; exact hnX) h2
  have cY := cZ.prim hp
  have hsY := sX.trans (g.static.trans hp.static)
  have hst := hp.static
  have hs := hp.shape cZ.s
  clear hp h2
  obtain ⟨e1, e2, e3⟩ : Y.N.genq = Z.N.genq ∧ Y.L = Z.L ∧ Y.V = Z.V := by
    cases hs; exact ⟨rfl, rfl, rfl⟩
  obtain ⟨ds, rest, a1, a2, a3, a4, a5, a6⟩ := generateLoop_work cX hnX h1
  have eo : X.N.outlinks = W.N.outlinks := sX.outlinks
  have el : X.L.lanes = W.L.lanes := sX.lanes
  rw [eo] at a3 a5 a6
  rw [el] at a3 a6
  refine ⟨ds, rest, a1, by rw [e1]; exact a2, a3, by rw [e2]; exact a4, by rw [e2]; exact a5, ?_⟩
  rcases a6 with a6 | a6 | ⟨v, t, l, b1, b2, b3⟩
  · exact .inl a6
  · exact .inr (.inl a6)
  · refine .inr (.inr ⟨v, t, l, b1, b2, fun hroom => ?_⟩)
    have hl : 1 ≤ Y.L.lanes l := by
      refine cY.s.lanes_pos l ?_
      have : l ∈ Y.N.outlinks n := by rw [hsY.outlinks]; exact b2
      exact ((cY.s.out_iff n l).1 this).1
    rw [← canEnter_iff hl] at hroom
    rw [canEnter_congr hst (by rw [e2]) (fun w _ => by rw [e3]) (by rw [e2]), b3] at hroom
    cases hroom

end UX
