import Verif.Proofs.Safe

/-! A step of a plain world raises nothing. -/

namespace UX
open World

/-! ### Preferences -/

theorem zeroDict_some {k l : ℕ} (h : l < k) : zeroDict k l = some 0 := by
  unfold zeroDict; rw [if_pos h]

theorem heteroNew_nonneg (W : World) (k l) : 0 ≤ W.heteroNew k l := by
  unfold heteroNew; split
  · exact zero_le_one
  · exact le_rfl

theorem mix_nonneg {w p q : ℚ} (h0 : 0 ≤ w) (h1 : w ≤ 1) (hp : 0 ≤ p) (hq : 0 ≤ q) :
    0 ≤ (1 - w) * p + w * q :=
  add_nonneg (mul_nonneg (by linarith) hp) (mul_nonneg h0 hq)

theorem Prefs.setPref {W : World} (h : Prefs W) {v : VehId} {p : Pref}
    (hd : ∀ f, p = .dict f → ∀ l, l < W.nLinks → ∃ q, f l = some q ∧ 0 ≤ q)
    (ho : W.V.principle v = .heterogeneous → ∃ f, p = .dict f) :
    Prefs { W with V := { W.V with pref := upd W.V.pref v p } } := by
  refine ⟨h.pos, ?_, ?_⟩
  · intro u hu f hf
    change upd W.V.pref v p u = _ at hf
    rw [upd_apply] at hf
    split at hf
    · exact hd f hf
    · exact h.dict u hu f hf
  · intro u hu hp
    show ∃ f, upd W.V.pref v p u = _
    rw [upd_apply]
    split
    · rename_i e; subst e; exact ho hp
    · exact h.own u hu hp

theorem routePref_safe {W : World} (hs : Stab W) (h : Prefs W) (hf : W.finalized = true) {v : VehId}
    (hv : v < W.nVeh) {w : ℚ} (h0 : 0 ≤ w) (h1 : w ≤ 1) :
    ∃ p, W.routePrefUpdate v w = .ok { W with V := { W.V with pref := upd W.V.pref v p } } ∧
      Prefs { W with V := { W.V with pref := upd W.V.pref v p } } := by
  unfold routePrefUpdate
  cases hp : W.V.principle v with
  | homogeneous =>
    dsimp only
    cases hd : W.V.dest v with
    | some k =>
      dsimp only
      rw [if_pos hf]
      exact ⟨_, rfl, h.setPref (fun f hf => by cases hf) (fun hx => by rw [hp] at hx; cases hx)⟩
    | none =>
      dsimp only
      refine ⟨_, rfl, h.setPref (fun f hf l hl => ?_) (fun hx => by rw [hp] at hx; cases hx)⟩
      cases hf
      exact ⟨0, zeroDict_some hl, le_rfl⟩
  | heterogeneous =>
    dsimp only
    obtain ⟨-, hdest⟩ := hs.hetero v hv hp
    cases hd : W.V.dest v with
    | none => exact absurd hd hdest
    | some k =>
      dsimp only
      rw [if_neg (by rw [hf]; decide)]
      obtain ⟨f, hpf⟩ := h.own v hv hp
      rw [hpf]
      dsimp only
      have key : ∀ g : LinkId → Option ℚ, (∀ l, l < W.nLinks → ∃ q, g l = some q ∧ 0 ≤ q) →
          Prefs { W with V := { W.V with pref := upd W.V.pref v (.dict g) } } := fun g hg =>
        h.setPref (fun g' hg' => by cases hg'; exact hg) (fun _ => ⟨g, rfl⟩)
      refine ⟨_, rfl, key _ (fun l hl => ?_)⟩
      obtain ⟨q, hq, hq0⟩ := h.dict v hv f hpf l hl
      refine ⟨_, by rw [hq]; rfl, ?_⟩
      split
      · exact mix_nonneg zero_le_one le_rfl hq0 (heteroNew_nonneg _ _ _)
      · exact mix_nonneg h0 h1 hq0 (heteroNew_nonneg _ _ _)

theorem Full.routePref {W : World} (h : Full W) (hf : W.finalized = true) {v : VehId}
    (hv : v < W.nVeh) {w : ℚ} (h0 : 0 ≤ w) (h1 : w ≤ 1) :
    ∃ p, W.routePrefUpdate v w = .ok { W with V := { W.V with pref := upd W.V.pref v p } } ∧
      Full { W with V := { W.V with pref := upd W.V.pref v p } } := by
  obtain ⟨p, h2, h3⟩ := routePref_safe h.stab h.prefs hf hv h0 h1
  exact ⟨p, h2, h.stab.prim (routing_pref h2), h3, h.inc, h.queues⟩

/-! ### Reaching the end of a link -/

theorem waitEnd_safe {W W0 : World} {v : VehId} {a : LinkId} {act : Act} (hact : isQuiet act)
    (hp : Prim act W0 { W with V := { W.V with flagEnd := upd W.V.flagEnd v true } })
    (h : Full W0) (hl : W.V.link v = some a) : ∃ W', W.waitEnd v a = .ok W' ∧ Full W' := by
  have hF := h.prim hact hp
  unfold waitEnd
  dsimp only
  obtain ⟨-, hm, -⟩ := hF.stab.core.s.link_run v a hl
  change v ∈ W.L.vehs a at hm
  cases hv : W.L.vehs a with
  | nil => rw [hv] at hm; cases hm
  | cons w t =>
    dsimp only
    split
    · rename_i e
      subst e
      obtain ⟨h1, h2, h3, h4, -⟩ := hF.stab.on_link (v := w) (l := a) hm
      obtain ⟨W', h5⟩ := endTrip_safe h1 (hF.stab.cum a h2).2.1 (by
        show W.L.vehs a ≠ []
        rw [hv]; simp) h3 h4
      exact ⟨W', h5, hF.prim (a := .endTrip w a) trivial (.endTrip (t := t) hl hv (by simp) h5)⟩
    · exact ⟨_, rfl, hF⟩

theorem nextLink_safe {W : World} (h : Full W) {v : VehId} (hv : v < W.nVeh) {a : LinkId}
    (hl : W.V.link v = some a) (hd : W.V.dest v ≠ some (W.L.endN a)) :
    ∃ r q, W.nextLinkChoice v = .ok { W with rng := r, V := { W.V with rnl := upd W.V.rnl v q } } ∧
      q ≠ .unset ∧ (W.N.outlinks (W.L.endN a) = [] → q = .none) := by
  obtain ⟨hf, hav⟩ := h.stab.free v hv
  unfold nextLinkChoice
  rw [hl]
  dsimp only
  rw [hf]
  dsimp only
  rw [if_neg hd]
  split
  · exact ⟨W.rng, .none, rfl, by simp, fun _ => rfl⟩
  · rename_i ho
    obtain ⟨l, r, h1, h2⟩ := chooseLink_safe h.prefs hv (nextCandidates_ne hav ho) (fun l hl =>
      ((h.stab.core.s.out_iff _ l).1 (SInv.mem_nextCandidates hl)).1)
    rw [h1, ok_bind]
    exact ⟨r, .to l, rfl, by simp, fun hx => absurd hx ho⟩

/-- A vehicle at the end `n` of its link after a possible taxi event. -/
structure Near (v : VehId) (n : NodeId) (W : World) : Prop where
  stab : Stab W
  prefs : Prefs W
  inc : IncOK W
  others : ∀ u, u ≠ v → u < W.nVeh → W.V.mode u = .taxi → W.V.destList u = []
  mine : W.V.mode v = .taxi → W.V.destList v = [] ∨
    (W.V.dest v = some n ∧ ∃ d, d ≠ n ∧ W.V.destList v = [d])

theorem Full.near {W : World} (h : Full W) {v : VehId} (hv : v < W.nVeh) (n : NodeId) : Near v n W :=
  ⟨h.stab, h.prefs, h.inc, fun u _ => h.queues u, fun hm => .inl (h.queues v hv hm)⟩

theorem Near.full {v : VehId} {n : NodeId} {W : World} (h : Near v n W)
    (hd : W.V.mode v = .taxi → W.V.destList v = []) : Full W :=
  ⟨h.stab, h.prefs, h.inc, fun u hu hm => by
    by_cases e : u = v
    · subst e; exact hd hm
    · exact h.others u e hu hm⟩

theorem Full.push {W W' : World} (h : Full W) {v : VehId} {a : LinkId} (ha : AtEnd W v a)
    {r : ℕ → ℕ} {q : Rnl} (hq : q ≠ .unset) (ho : W.N.outlinks (W.L.endN a) = [] → q = .none)
    (hW : W' = ({ W with rng := r, V := { W.V with rnl := upd W.V.rnl v q } } : World).pushIncoming
      (W.L.endN a) v) (hs : Stab W') : Full W' := by
  subst hW
  refine ⟨hs, ⟨h.prefs.pos, h.prefs.dict, h.prefs.own⟩, ?_, h.queues⟩
  intro m u hu
  change u ∈ upd W.N.incoming (W.L.endN a) (W.N.incoming (W.L.endN a) ++ [v]) m at hu
  change upd W.V.rnl v q u ≠ _ ∧ (W.N.outlinks m = [] → upd W.V.rnl v q u = _) ∧
    (W.N.outlinks m ≠ [] → W.V.link u ≠ none)
  by_cases e : u = v
  · subst e
    rw [upd_apply] at hu
    split at hu
    · rename_i e; subst e
      rw [upd_same]
      exact ⟨hq, ho, fun _ => by rw [ha.2.1]; simp⟩
    · exact absurd hu (ha.2.2.2.2 m)
  · rw [upd_ne _ _ e]
    apply h.inc m u
    rw [upd_apply] at hu
    split at hu
    · rename_i e'; subst e'
      rw [List.mem_append, List.mem_singleton] at hu
      rcases hu with hu | hu
      · exact hu
      · exact absurd hu e
    · exact hu

theorem atLinkEnd_safe {W : World} {v : VehId} {a : LinkId} (hn : Near v (W.L.endN a) W)
    (hf : W.finalized = true) (hv : v < W.nVeh) (ha : AtEnd W v a) :
    ∃ W', W.atLinkEnd v a = .ok W' ∧ Full W' := by
  have fin : ∀ W', W.atLinkEnd v a = .ok W' → Stab W' := fun W' h =>
    hn.stab.star (atLinkEnd_star hn.stab.core ha h)
  have hs := fin
  unfold atLinkEnd at fin ⊢
  dsimp only at fin ⊢
  by_cases hd : W.V.dest v = some (W.L.endN a)
  · rw [if_pos hd] at fin ⊢
    cases hm : W.V.mode v with
    | single =>
      dsimp only
      exact waitEnd_safe (act := .flagEnd v) trivial (.flagEnd ha hd hm)
        (hn.full (fun hx => by rw [hm] at hx; cases hx)) ha.2.1
    | taxi =>
      rw [hm] at fin
      dsimp only at fin ⊢
      have p1 : Prim (.nextDest v) W (W.nextDest v) := .nextDest ha hd hm
      have key : Full (W.nextDest v) ∧ (W.nextDest v).V.dest v ≠ some (W.L.endN a) ∧
          AtEnd (W.nextDest v) v a ∧ (W.nextDest v).L = W.L ∧ (W.nextDest v).N = W.N ∧
          (W.nextDest v).nVeh = W.nVeh ∧ (W.nextDest v).finalized = W.finalized := by
        have hst := hn.stab.prim p1
        rcases hn.mine hm with h | ⟨-, d, hne, h⟩
        · have e : W.nextDest v = { W with V := { W.V with
              dest := upd W.V.dest v none, destList := upd W.V.destList v [] } } := by
            unfold nextDest; rw [h]
          rw [e] at hst ⊢
          refine ⟨⟨hst, ⟨hn.prefs.pos, hn.prefs.dict, hn.prefs.own⟩, hn.inc, ?_⟩, ?_, ha, rfl, rfl, rfl, rfl⟩
          · intro u hu hmu
            show upd W.V.destList v [] u = []
            rw [upd_apply]; split
            · rfl
            · rename_i hx; exact hn.others u hx hu hmu
          · simp
        · have e : W.nextDest v = { W with V := { W.V with
              dest := upd W.V.dest v (some d), destList := upd W.V.destList v [] } } := by
            unfold nextDest; rw [h]
          rw [e] at hst ⊢
          refine ⟨⟨hst, ⟨hn.prefs.pos, hn.prefs.dict, hn.prefs.own⟩, hn.inc, ?_⟩, ?_, ha, rfl, rfl, rfl, rfl⟩
          · intro u hu hmu
            show upd W.V.destList v [] u = []
            rw [upd_apply]; split
            · rfl
            · rename_i hx; exact hn.others u hx hu hmu
          · simpa using hne
      obtain ⟨k1, k2, k3, k4, k5, k6, k7⟩ := key
      generalize W.nextDest v = X at *
      obtain ⟨p, h1, h2⟩ := k1.routePref (v := v) (w := 1) (by rw [k7]; exact hf) (by rw [k6]; exact hv)
        zero_le_one le_rfl
      obtain ⟨r, q, h3, h4, h5⟩ := nextLink_safe h2 (v := v) (a := a) (by show v < X.nVeh; rw [k6]; exact hv)
        k3.2.1 (by show X.V.dest v ≠ some (X.L.endN a); rw [k4]; exact k2)
      rw [h1, ok_bind, h3, ok_bind] at fin ⊢
      refine ⟨_, rfl, h2.push (a := a) k3 h4 h5 (r := r) (q := q) ?_ (fin _ rfl)⟩
      rw [← k4]
  · rw [if_neg hd] at fin ⊢
    have hF : Full W := hn.full (fun hm => by
      rcases hn.mine hm with h | ⟨h, -⟩
      · exact h
      · exact absurd h hd)
    by_cases ho : W.N.outlinks (W.L.endN a) = [] ∧ W.V.tripAbort v = true
    · rw [if_pos ho]
      exact waitEnd_safe (act := .flagAbort v) trivial (.flagAbort ha hd ho.1 ho.2) hF ha.2.1
    · rw [if_neg ho] at fin ⊢
      obtain ⟨r, q, h3, h4, h5⟩ := nextLink_safe hF hv ha.2.1 hd
      rw [h3, ok_bind] at fin ⊢
      exact ⟨_, rfl, hF.push ha h4 h5 rfl (fin _ rfl)⟩

theorem event_safe {W : World} (h : Full W) (ht : TaxiInv W) {v : VehId} {a : LinkId} (hv : v < W.nVeh)
    (ha : AtEnd W v a) {e : TaxiEvent} (he : W.V.nodeEvent v (W.L.endN a) = some e) :
    ∃ W', W.runEvent e = .ok W' ∧ Near v (W.L.endN a) W' := by
  have hst : ∀ W', W.runEvent e = .ok W' → Stab W' := fun W' h1 =>
    h.stab.prim (.event ha he h1)
  have htodo := ht.todo v (W.L.endN a) (by rw [he]; simp)
  generalize hn : W.L.endN a = n at *
  cases e with
  | getOn r =>
    obtain ⟨h1, h2, -⟩ := ht.on v n r he
    obtain ⟨h3, -, h4⟩ := ht.taxi r v h1
    have hq := h.queues v hv h4
    rw [hq] at htodo
    have hdest : W.V.dest v = some n := by simpa using htodo
    have hne := h.stab.trip r h3
    have hadd : W.addDest v (W.H.dest r) none = .ok { W with V := { W.V with
        destList := upd W.V.destList v [W.H.dest r] } } := by
      unfold addDest; rw [h4]; dsimp only; rw [hdest]; dsimp only; rw [hq]; rfl
    have hrun : ∃ ne tt, W.runEvent (.getOn r) = .ok { W with
        V := { W.V with destList := upd W.V.destList v [W.H.dest r], nodeEvent := ne }
        H := { W.H with getTaxiTime := tt } } := by
      simp only [World.runEvent]
      rw [h1]
      dsimp only
      rw [hadd, ok_bind]
      rw [if_neg]
      · exact ⟨_, _, rfl⟩
      · show ¬ upd W.V.nodeEvent v (upd (W.V.nodeEvent v) (W.H.dest r) (some (.arrive r))) v (W.H.orig r) = none
        rw [upd_same, upd_ne _ _ hne, ← h2, he]; simp
    obtain ⟨ne, tt, hrun⟩ := hrun
    have hst' := hst _ hrun
    refine ⟨_, hrun, hst', ⟨h.prefs.pos, h.prefs.dict, h.prefs.own⟩, h.inc, ?_, ?_⟩
    · intro u hu hlt hm
      show upd W.V.destList v _ u = []
      rw [upd_ne _ _ hu]; exact h.queues u hlt hm
    · intro _
      refine .inr ⟨hdest, W.H.dest r, ?_, ?_⟩
      · rw [h2]; exact Ne.symm hne
      · show upd W.V.destList v _ v = _
        rw [upd_same]
  | arrive r =>
    obtain ⟨h1, h2, -⟩ := ht.off v n r he
    have hrun : ∃ ne tt, W.runEvent (.arrive r) = .ok { W with
        V := { W.V with nodeEvent := ne }
        H := { W.H with arrivalTime := tt } } := by
      simp only [World.runEvent]
      rw [h1]
      dsimp only
      rw [if_neg]
      · exact ⟨_, _, rfl⟩
      · rw [← h2, he]; simp
    obtain ⟨ne, tt, hrun⟩ := hrun
    refine ⟨_, hrun, hst _ hrun, ⟨h.prefs.pos, h.prefs.dict, h.prefs.own⟩, h.inc, ?_, ?_⟩
    · intro u hu hlt hm; exact h.queues u hlt hm
    · intro hm; exact .inl (h.queues v hv hm)

theorem Near.routePref {v : VehId} {n : NodeId} {W : World} (h : Near v n W) (hf : W.finalized = true)
    (hv : v < W.nVeh) {w : ℚ} (h0 : 0 ≤ w) (h1 : w ≤ 1) :
    ∃ p, W.routePrefUpdate v w = .ok { W with V := { W.V with pref := upd W.V.pref v p } } ∧
      Near v n { W with V := { W.V with pref := upd W.V.pref v p } } := by
  obtain ⟨p, h2, h3⟩ := routePref_safe h.stab h.prefs hf hv h0 h1
  exact ⟨p, h2, h.stab.prim (routing_pref h2), h3, h.inc, h.others, h.mine⟩

theorem runUpdate_safe {W : World} (h : Full W) (ht : TaxiInv W) (hf : W.finalized = true) {v : VehId}
    (hv : v < W.nVeh) (hr : W.V.state v = .run) (hlo : W.V.linkOld v = W.V.link v)
    (hi : ∀ n, v ∉ W.N.incoming n) : ∃ W', W.runUpdate v = .ok W' ∧ Full W' := by
  have p3 : Prim (.advance v) W (W.advance v) := .advance hr hlo hi
  have hF := h.prim (a := .advance v) trivial p3
  have hT : TaxiInv (W.advance v) := ht.same ⟨rfl, rfl, rfl, rfl, rfl, rfl, rfl⟩
  have hl := hF.stab.core.s.run_link v hr
  unfold runUpdate
  dsimp only
  cases hla : (W.advance v).V.link v with
  | none => exact absurd hla hl
  | some a =>
    dsimp only
    by_cases hx : (W.advance v).V.x v = (W.advance v).L.length a
    · rw [if_pos hx]
      have hae : AtEnd (W.advance v) v a := ⟨hr, hla, hx, by
        show W.V.linkOld v = some a
        rw [hlo]; exact hla, hi⟩
      have hvX : v < (W.advance v).nVeh := hv
      have hfX : (W.advance v).finalized = true := hf
      generalize W.advance v = X at *
      have hrest : ∀ W2 : World, Near v (X.L.endN a) W2 → Soft X W2 → Static X W2 →
          ∃ W', (if W2.cfg.gradual then (do let W3 ← W2.routePrefUpdate v 1; W3.atLinkEnd v a) else
            W2.atLinkEnd v a) = .ok W' ∧ Full W' := by
        intro W2 hn hsf hst
        have ha2 := hae.soft hsf
        rw [← hst.endN] at hn
        split
        · obtain ⟨p, h2, h3⟩ := hn.routePref (by rw [hst.finalized]; exact hfX)
            (by rw [hst.nVeh]; exact hvX) zero_le_one le_rfl
          rw [h2, ok_bind]
          exact atLinkEnd_safe h3 (by show W2.finalized = _; rw [hst.finalized]; exact hfX)
            (by show v < W2.nVeh; rw [hst.nVeh]; exact hvX) ha2
        · exact atLinkEnd_safe hn (by rw [hst.finalized]; exact hfX) (by rw [hst.nVeh]; exact hvX) ha2
      cases he : X.V.nodeEvent v (X.L.endN a) with
      | none =>
        dsimp only
        obtain ⟨W', h1, h2⟩ := hrest X (hF.near hvX _) (Soft.refl _) (Static.refl _)
        refine ⟨W', ?_, h2⟩
        simp only [pure_bind]
        rw [← h1]
      | some e =>
        dsimp only
        obtain ⟨W2, h1, h2⟩ := event_safe hF hT hvX hae he
        obtain ⟨W', h3, h4⟩ := hrest W2 h2 (runEvent_soft h1) (Prim.event hae he h1).static
        refine ⟨W', ?_, h4⟩
        rw [h1, ok_bind]
        rw [← h3]
        rfl
    · rw [if_neg hx]; exact ⟨_, rfl, hF⟩

theorem vehUpdate_safe {W : World} (h : Full W) (ht : TaxiInv W) (hf : W.finalized = true) {v : VehId}
    (hv : v ∈ W.living) (hi : ∀ n, v ∉ W.N.incoming n) : ∃ W', W.vehUpdate v = .ok W' ∧ Full W' := by
  have hlt := ((h.stab.core.s.living_iff v).1 hv).1
  have p1 : Prim (.record v) W (W.recordLog v false) := .record hv
  have hv1 : v ∈ (W.recordLog v false).living := by
    obtain ⟨_, _, _, _, _, hr⟩ := recordLog_frame W v false
    rw [hr]; exact hv
  have p2 : Prim (.startWait v) (W.recordLog v false) ((W.recordLog v false).startWait v) :=
    .startWait hv1
  have hF := (h.prim (a := .record v) trivial p1).prim (a := .startWait v) trivial p2
  have hsame : TSame W ((W.recordLog v false).startWait v) :=
    (TaxiInv.recordLog_same _ _ _).trans (TaxiInv.startWait_same _ _)
  have hT := ht.same hsame
  have hst := p1.static.trans p2.static
  have hlo : ((W.recordLog v false).startWait v).V.linkOld v =
      ((W.recordLog v false).startWait v).V.link v := by
    have h1 := recordLog_linkOld W v false
    obtain ⟨_, _, _, _, _, hr⟩ := recordLog_frame W v false
    have h3 : ((W.recordLog v false).startWait v).V.linkOld = (W.recordLog v false).V.linkOld := by
      unfold startWait; split <;> rfl
    have h4 : ((W.recordLog v false).startWait v).V.link = (W.recordLog v false).V.link := by
      unfold startWait; split <;> rfl
    rw [h3, h4, h1, hr]; simp
  have hinc : ∀ n, v ∉ ((W.recordLog v false).startWait v).N.incoming n := by
    intro n
    have h3 : ((W.recordLog v false).startWait v).N.incoming = (W.recordLog v false).N.incoming := by
      unfold startWait; split <;> rfl
    obtain ⟨_, _, _, _, _, hr⟩ := recordLog_frame W v false
    rw [h3, hr]; exact hi n
  unfold vehUpdate
  dsimp only
  generalize (W.recordLog v false).startWait v = W1 at *
  have hf1 : W1.finalized = true := by rw [hst.finalized]; exact hf
  have hlt1 : v < W1.nVeh := by rw [hst.nVeh]; exact hlt
  cases hs : W1.V.state v with
  | wait =>
    dsimp only
    split
    · obtain ⟨p, h1, h2⟩ := hF.routePref hf1 hlt1 zero_le_one le_rfl
      exact ⟨_, h1, h2⟩
    · exact ⟨_, rfl, hF⟩
  | run => exact runUpdate_safe hF hT hf1 hlt1 hs hlo hinc
  | _ => exact ⟨_, rfl, hF⟩

theorem isUpd_living {v : VehId} {W W' : World} (hc : Core W) (h : PStar (isUpd v) W W') :
    ∀ u, u ≠ v → u ∈ W.living → u ∈ W'.living := by
  refine PStar.inv_core (P := fun X => ∀ u, u ≠ v → u ∈ W.living → u ∈ X.living) ?_ h hc
    (fun _ _ h => h)
  intro a X Y ha hcX hp hX u hu hm
  have := hX u hu hm
  have hs := hp.shape hcX.s
  clear hp
  cases hs with
  | endTrip =>
    obtain rfl : _ = v := ha
    exact (List.mem_erase_of_ne hu).2 this
  | depart => exact ha.elim
  | _ => exact this

theorem updates_safe {W : World} (h : Full W) (ht : TaxiInv W) (hf : W.finalized = true)
    (hi : ∀ n, W.N.incoming n = []) :
    ∃ W', W.living.foldlM vehUpdateLiving W = .ok W' ∧ Full W' ∧ TaxiInv W' ∧ W'.finalized = true := by
  have hnd := h.stab.core.s.living_nodup
  obtain ⟨W', h1, h2, h3, h4, -⟩ := foldlM_safe (P := fun pre X => Full X ∧ TaxiInv X ∧ X.finalized = true ∧
      (∀ n, ∀ u ∈ X.N.incoming n, u ∈ pre) ∧ ∀ u ∈ W.living, u ∉ pre → u ∈ X.living)
    (f := vehUpdateLiving) (l := W.living) (s := W)
    (by
      intro pre v post X hl ⟨k1, k2, k3, k4, k5⟩
      have hvp : v ∉ pre := by
        rw [hl] at hnd
        intro hm
        exact (List.nodup_append.mp hnd).2.2 _ hm _ (by simp) rfl
      have hv : v ∈ X.living := k5 v (by rw [hl]; simp) hvp
      have hni : ∀ n, v ∉ X.N.incoming n := fun n hn => hvp (k4 n v hn)
      obtain ⟨Y, y1, y2⟩ := vehUpdate_safe k1 k2 k3 hv hni
      have hu := (vehUpdate_spec k1.stab.core hv hni y1).star
      refine ⟨Y, by unfold vehUpdateLiving; rw [if_pos hv]; exact y1, y2,
        k2.update (vehUpdate_taxi k1.stab.core hv hni y1), by rw [hu.static.finalized]; exact k3, ?_, ?_⟩
      · intro n u hu'
        rcases isUpd_incoming hu n u hu' with h | rfl
        · exact List.mem_append_left _ (k4 n u h)
        · simp
      · intro u hu1 hu2
        rw [List.mem_append, not_or, List.mem_singleton] at hu2
        exact isUpd_living k1.stab.core hu u hu2.2 (k5 u hu1 hu2.1))
    ⟨h, ht, hf, by simp [hi], fun u hu _ => hu⟩
  exact ⟨W', h1, h2, h3, h4⟩

/-! ### Route choice -/

theorem adjMatrix_safe {W : World} (h : Stab W) (t : ℚ) : ∃ acc, W.adjMatrix t = .ok acc := by
  obtain ⟨acc, h1, -⟩ := foldlM_safe' (P := fun _ => True) (f := W.adjStep t) (l := List.range W.nLinks)
    (fun l acc hl _ => by
      have := (h.cum l (List.mem_range.1 hl)).2.2
      unfold adjStep
      cases ht : W.L.ttInstant l with
      | nil => exact absurd ht this
      | cons q s => exact ⟨_, rfl, trivial⟩)
    (s := { adj := fun _ _ => some 0, cnt := fun _ _ => 0, rng := W.rng }) trivial
  exact ⟨acc, h1⟩

theorem routeSearch_safe {W : World} (h : Full W) : ∃ W', W.routeSearchAll = .ok W' ∧ Full W' ∧
    W'.finalized = W.finalized := by
  obtain ⟨acc, h1⟩ := adjMatrix_safe h.stab W.now
  have : W.routeSearchAll = .ok { W with rng := acc.rng, R := { W.R with
      dist := (W.cfg.dijkstra W.nNodes acc.adj).1, next := (W.cfg.dijkstra W.nNodes acc.adj).2
      record := upd W.R.record W.T (some (W.cfg.dijkstra W.nNodes acc.adj).1) } } := by
    unfold routeSearchAll; rw [h1, ok_bind]; rfl
  refine ⟨_, this, ⟨h.stab.prim (.routing (pref := W.V.pref)), ⟨h.prefs.pos, h.prefs.dict, h.prefs.own⟩,
    h.inc, h.queues⟩, rfl⟩

theorem duoWeight_range {W : World} (h : Stab W) (k : NodeId) : 0 ≤ W.duoWeight k ∧ W.duoWeight k ≤ 1 := by
  obtain ⟨w0, w1⟩ := h.weight
  unfold duoWeight
  split
  · exact ⟨zero_le_one, le_rfl⟩
  · split
    · rename_i hg
      obtain ⟨g1, g2, g3⟩ := h.gradual hg
      have hr0 : 0 ≤ W.dt / W.cfg.duoUpdateTime := div_nonneg g1 g2.le
      have hr1 : W.dt / W.cfg.duoUpdateTime ≤ 1 := by rw [div_le_one g2]; exact g3
      exact ⟨mul_nonneg w0 hr0, mul_le_one₀ w1 hr0 hr1⟩
    · exact ⟨w0, w1⟩

theorem duoUpdate_full {W : World} (h : Full W) : Full W.duoUpdate := by
  refine ⟨h.stab.prim (.routing (W := W) (rng := W.rng) (pref := W.V.pref)), ⟨?_, h.prefs.dict, h.prefs.own⟩,
    h.inc, h.queues⟩
  intro k l
  show 0 ≤ (if k < W.nNodes ∧ l < W.nLinks then
      W.R.pref k l * (1 - W.duoWeight k) + W.duoWeight k * W.heteroNew k l
    else W.R.pref k l)
  obtain ⟨d0, d1⟩ := duoWeight_range h.stab k
  split
  · rw [mul_comm (W.R.pref k l)]
    exact mix_nonneg d0 d1 (h.prefs.pos k l) (heteroNew_nonneg _ _ _)
  · exact h.prefs.pos k l

theorem routeStep_safe {W : World} (h : Full W) (hf : W.finalized = true) :
    ∃ W', W.routeStep = .ok W' ∧ Full W' := by
  unfold routeStep
  by_cases hg : W.cfg.gradual = true
  · rw [if_pos hg]
    dsimp only
    split
    · obtain ⟨W1, h1, h2, -⟩ := routeSearch_safe h
      rw [h1, ok_bind]
      exact ⟨_, rfl, duoUpdate_full h2⟩
    · exact ⟨_, rfl, duoUpdate_full h⟩
  · rw [if_neg hg]
    split
    · obtain ⟨W1, h1, h2, h3⟩ := routeSearch_safe h
      rw [h1, ok_bind]
      dsimp only
      have hD := duoUpdate_full h2
      have hfD : W1.duoUpdate.finalized = true := by show W1.finalized = true; rw [h3]; exact hf
      generalize W1.duoUpdate = X at *
      obtain ⟨Y, y1, y2, -⟩ := foldlM_safe' (P := fun Z => Full Z ∧ Z.finalized = true ∧ Z.living = X.living)
        (f := fun (W : World) v => W.routePrefUpdate v W.cfg.duoUpdateWeight) (l := X.living)
        (fun v Z hv ⟨z1, z2, z3⟩ => by
          obtain ⟨p, p1, p2⟩ := z1.routePref z2 (v := v)
            ((z1.stab.core.s.living_iff v).1 (by rw [z3]; exact hv)).1 z1.stab.weight.1 z1.stab.weight.2
          exact ⟨_, p1, p2, z2, z3⟩) (s := X) ⟨hD, hfD, rfl⟩
      exact ⟨Y, y1, y2⟩
    · exact ⟨_, rfl, h⟩

/-! ### Links -/

theorem links_safe {W : World} (htt : W.T ≠ 0 → ∀ l, l < W.nLinks → W.L.ttInstant l ≠ []) :
    ∃ W', (List.range W.nLinks).foldlM linkUpdate W = .ok W' ∧
      (∃ L, W' = { W with L := L }) ∧
      ∀ l, l < W.nLinks → W'.L.cumArr l ≠ [] ∧ W'.L.cumDep l ≠ [] ∧ W'.L.ttInstant l ≠ [] := by
  obtain ⟨W', h1, ⟨L, rfl, -, h2⟩⟩ := foldlM_safe (P := fun pre X => ∃ L, X = { W with L := L } ∧
      (∀ l, l < W.nLinks → W.T ≠ 0 → L.ttInstant l ≠ []) ∧
      ∀ l ∈ pre, L.cumArr l ≠ [] ∧ L.cumDep l ≠ [] ∧ L.ttInstant l ≠ [])
    (f := linkUpdate) (l := List.range W.nLinks) (s := W)
    (by
      rintro pre l post _ hl ⟨L, rfl, k1, k2⟩
      have hlt : l < W.nLinks := List.mem_range.1 (by rw [hl]; simp)
      have hq : ∃ q, (({ W with L := L } : World).refillCaps l).newTtInstant l = .ok q := by
        unfold newTtInstant
        split
        · split <;> exact ⟨_, rfl⟩
        · rename_i hT
          have hT0 : W.T ≠ 0 := by
            intro h0
            apply hT
            show W.T % _ = 0
            rw [h0, Nat.zero_mod]
          have := k1 l hlt hT0
          cases ht : (({ W with L := L } : World).refillCaps l).L.ttInstant l with
          | nil => exact absurd ht this
          | cons q s => exact ⟨q, rfl⟩
      obtain ⟨q, hq⟩ := hq
      obtain ⟨X, hX⟩ : ∃ X, ({ W with L := L } : World).linkUpdate l = .ok X := by
        unfold linkUpdate; dsimp only; rw [hq]; exact ⟨_, rfl⟩
      clear hq
      obtain ⟨q, rfl⟩ := linkUpdate_ok hX
      refine ⟨_, hX, ⟨_, rfl, ?_, ?_⟩⟩
      · intro m hm h0
        show upd L.ttInstant l (q :: L.ttInstant l) m ≠ []
        rw [upd_apply]; split
        · simp
        · exact k1 m hm h0
      · intro m hm
        show upd L.cumArr l (pushCum (L.cumArr l)) m ≠ [] ∧ upd L.cumDep l (pushCum (L.cumDep l)) m ≠ [] ∧
          upd L.ttInstant l (q :: L.ttInstant l) m ≠ []
        simp only [upd_apply]
        rw [List.mem_append, List.mem_singleton] at hm
        by_cases e : m = l
        · rw [if_pos e, if_pos e, if_pos e]
          exact ⟨pushCum_ne _, pushCum_ne _, by simp⟩
        · rw [if_neg e, if_neg e, if_neg e]
          exact k2 m (hm.resolve_right e))
    ⟨W.L, rfl, fun l hl h0 => htt h0 l hl, by simp⟩
  exact ⟨_, h1, ⟨L, rfl⟩, fun l hl => h2 l (List.mem_range.2 hl)⟩

/-! ### The step -/

/-- What holds at the start of a step. -/
structure Ready (W : World) : Prop where
  core : Core W
  lane : LInv W
  tt : W.T ≠ 0 → ∀ l, l < W.nLinks → W.L.ttInstant l ≠ []
  taxi : TaxiInv W
  fin : W.finalized = true
  plain : Plain W
  prefs : Prefs W
  inc : IncOK W

theorem step_safe {W : World} (h : Ready W) : ∃ W' X, W.step = .ok W' ∧ W' = { X with time := X.now } ∧
    Full X := by
  obtain ⟨W1, h1, ⟨L, hL⟩, hcum⟩ := links_safe h.tt
  have s1 := links_star h1
  have st1 := s1.static
  have c1 := h.core.star s1
  have l1 : LInv W1 := by
    refine PStar.inv_core (P := LInv) (fun a _ _ _ hc hp hl => hl.prim hc hp) s1 h.core h.lane
  have f1 : Full W1 := by
    refine ⟨⟨c1, l1, by rw [st1.nLinks]; exact hcum, ?_, ?_, ?_, ?_, ?_, ?_, ?_, ?_⟩, ?_, ?_, ?_⟩
    · rw [st1.nLinks, st1.u]; exact h.plain.speed
    · rw [st1.nLinks, st1.mergePriority]; exact h.plain.merge
    · subst hL; exact h.plain.signal
    · subst hL; exact h.plain.weight
    · subst hL; exact h.plain.gradual
    · subst hL; exact h.plain.free
    · subst hL; exact h.plain.hetero
    · subst hL; exact h.plain.trip
    · refine h.prefs.same st1 ?_ ?_ <;> subst hL <;> rfl
    · subst hL; exact h.inc
    · subst hL; exact h.plain.queue
  obtain ⟨W2, h2, f2⟩ := gens_safe f1
  obtain ⟨W3, h3, f3⟩ := transfers_safe f2
  obtain ⟨W4, h4, f4⟩ := cars_safe f3
  have s2 := gen_star h2
  obtain ⟨s3, i3⟩ := transfers_star f2.stab.core h3
  have s4 := cars_star h4
  have i4 : ∀ n, W4.N.incoming n = [] := by intro n; rw [(isCf_incoming s4).1]; exact i3 n
  have t4 : TaxiInv W4 := by
    have t1 := h.taxi.same (s1.tsame (fun a => by cases a <;> simp [isLinkTick, isPlain]) h.core)
    have t2 := t1.same (s2.tsame (fun a => by cases a <;> simp [isGen, isPlain]) c1)
    have t3 := t2.same (s3.tsame (fun a => by cases a <;> simp [isTrAny, isPlain]) f2.stab.core)
    exact t3.same (s4.tsame (fun a => by cases a <;> simp [isCf, isPlain]) f3.stab.core)
  have fin4 : W4.finalized = true := by
    rw [(((st1.trans s2.static).trans s3.static).trans s4.static).finalized]; exact h.fin
  obtain ⟨W5, h5, f5, -, fin5⟩ := updates_safe f4 t4 fin4 i4
  obtain ⟨W6, h6, f6⟩ := routeStep_safe f5 fin5
  refine ⟨_, W6, ?_, rfl, f6⟩
  unfold step
  rw [h1, ok_bind, h2, ok_bind, h3, ok_bind, h4, ok_bind, h5, ok_bind, h6, ok_bind]
  rfl

end UX
