import Verif.Proofs.Choice
import Mathlib.Data.List.Chain

/-! Invariant of a vehicle with an enforced route. -/

namespace UX
open World

/-- Nothing has happened to a vehicle that is still at home or in its origin queue. -/
def YoungI (v : VehId) (W : World) : Prop := W.V.state v = .home ∨ W.V.state v = .wait →
  W.trace.filterMap (takes v) = [] ∧ (W.V.logTLink v).length - 1 = 0 ∧ W.V.linkOld v = none

theorem YoungI.congr {v : VehId} {W W' : World} (h : YoungI v W) (h1 : W'.V.state = W.V.state)
    (h2 : W'.trace = W.trace) (h3 : W'.V.logTLink = W.V.logTLink) (h4 : W'.V.linkOld = W.V.linkOld) :
    YoungI v W' := by
  unfold YoungI; rw [h1, h2, h3, h4]; exact h

theorem YoungI.prim {v : VehId} {W W' : World} {act : Act} (h : YoungI v W) (hc : Core W)
    (hp : Prim act W W') : YoungI v W' := by
  have hs := hp.shape hc.s
  clear hp
  cases hs with
  | @depart _ n u t cs l o hn hq hcs hl hout hent hcum hlead =>
    intro hy
    dsimp only at hy ⊢
    have hne : u ≠ v := by rintro rfl; simp at hy
    rw [upd_ne _ _ hne.symm] at hy
    simpa [takes, hne] using h hy
  | @move _ n u a b t o q nl fc tta hn hinc hla hv hr hsig hout hfl hent hcd hca hu hlead hnl hq hfc htta =>
    intro hy
    dsimp only at hy ⊢
    have hne : u ≠ v := by
      rintro rfl
      rw [(hc.s.link_run u a hla).1] at hy; simp at hy
    simpa [takes, hne] using h hy
  | @endTrip _ u l t log s c lt tta hl hv hf hcd hrun hliv hlt hlog htta =>
    intro hy
    dsimp only at hy ⊢
    have hne : u ≠ v := by rintro rfl; rw [upd_same] at hy; split at hy <;> simp at hy
    rw [upd_ne _ _ hne.symm] at hy
    simpa [takes, upd_ne _ _ hne.symm] using h hy
  | @startWait _ u hliv hs hd =>
    intro hy
    dsimp only at hy ⊢
    have hy' : W.V.state v = .home ∨ W.V.state v = .wait := by
      rw [upd_apply] at hy
      split at hy
      · rename_i e; subst e; exact .inl hs
      · exact hy
    simpa [takes] using h hy'
  | @record _ u log s c lt hliv hlt hlog =>
    intro hy
    obtain ⟨h1, h2, h3⟩ := h hy
    dsimp only at hy ⊢
    refine ⟨h1, ?_, ?_⟩
    · rw [upd_apply]
      split
      · rename_i e; subst e
        rw [hlt, if_neg]
        · exact h2
        · rintro ⟨h4, -⟩; rw [h4] at hy; simp at hy
      · exact h2
    · rw [upd_apply]
      split
      · rename_i e; subst e
        cases hl : W.V.link v with
        | none => rfl
        | some l => rw [(hc.s.link_run v l hl).1] at hy; simp at hy
      · exact h3
  | _ => exact h.congr rfl rfl rfl rfl

theorem YoungI.reach {OK : World → Prop} {W : World} (h : Reachable OK W) (v : VehId) : YoungI v W := by
  refine Reachable.induct (P := YoungI v) ?_ ?_ ?_ ?_ ?_ ?_ ?_ ?_ h
  · intro cfg tmax rng _; simp [World.new]
  · intro W a ph t soff hi hf hn _ _ hT
    exact hT.congr rfl rfl rfl rfl
  · intro W W' a hi hf ha _ _ hT
    obtain ⟨s, e, nm, k, p, -, -, -, -, -, -, rfl⟩ := addLink_ok ha
    exact hT.congr rfl rfl rfl rfl
  · intro W W' a hi ha _ _ hT
    obtain ⟨o, d, dep, pref, cache, lp, la, nm, -, -, -, -, -, -, -, -, rfl⟩ := addVehicle_ok ha
    intro hy
    by_cases hv : v = W.nVeh
    · subst hv
      have := hT (.inl (hi.s.fresh _ le_rfl))
      simp [addVehRes, this.1]
    · simp only [addVehRes, upd_apply, if_neg hv] at hy ⊢
      exact hT hy
  · intro W tm hi hf _ _ hT
    obtain ⟨ts, tta, fc, fr, la, hr⟩ := finalize_frame W tm
    rw [hr]
    exact hT.congr rfl rfl rfl rfl
  · intro W W' _ _ _ hs hT
    obtain ⟨_, _, _, _, _, _, _, rfl, hd⟩ := hs
    exact hT.congr rfl rfl rfl rfl
  · intro W W' _ _ _ hs hT
    obtain ⟨_, _, _, _, _, _, _, _, _, _, _, _, _, _, _, _, _, _, _, rfl, -⟩ := hs
    exact hT.congr rfl rfl rfl rfl
  · intro W W1 W' hi hf _ _ _ h1 hW hT
    subst hW
    exact step_prim hi hf (fun _ _ _ hc hp h => h.prim hc hp)
      (fun W t k _ h => h.congr rfl rfl rfl rfl) h1 hT

/-- Progress of vehicle `v` along its enforced route `r`. -/
structure EnfI (v : VehId) (r : List LinkId) (W : World) : Prop where
  pre : (W.trace.filterMap (takes v)).reverse <+: r
  cur : ∀ l, W.V.link v = some l → (W.trace.filterMap (takes v)).head? = some l ∧
    (W.trace.filterMap (takes v)).length =
      (W.V.logTLink v).length - 1 + if W.V.linkOld v = some l then 0 else 1
  len : W.V.state v = .run → (W.V.logTLink v) ≠ []

theorem EnfI.congr {v : VehId} {r} {W W' : World} (h : EnfI v r W) (h1 : W'.V.link = W.V.link)
    (h2 : W'.trace = W.trace) (h3 : W'.V.logTLink = W.V.logTLink) (h4 : W'.V.linkOld = W.V.linkOld)
    (h5 : W'.V.state = W.V.state) : EnfI v r W' := by
  obtain ⟨a, b, c⟩ := h
  refine ⟨by rw [h2]; exact a, by rw [h1, h2, h3, h4]; exact b, by rw [h3, h5]; exact c⟩

/-- The next link of `v`, waiting at a node, is the next one of the route. -/
def NextI (v : VehId) (r : List LinkId) (W : World) : Prop := ∀ n b, v ∈ W.N.incoming n →
  W.V.link v ≠ none → W.V.rnl v = .to b → r[(W.trace.filterMap (takes v)).length]? = some b

theorem prefix_snoc {α : Type} {E r : List α} {b : α} (h : E <+: r) (hb : r[E.length]? = some b) :
    E ++ [b] <+: r := by
  obtain ⟨t, rfl⟩ := h
  rw [List.getElem?_append_right le_rfl, Nat.sub_self] at hb
  cases t with
  | nil => simp at hb
  | cons c t =>
    obtain rfl : c = b := by simpa using hb
    exact ⟨t, by simp⟩

theorem NextI.early {v : VehId} {r : List LinkId} {W W' : World} {act : Act} (h : NextI v r W)
    (ha : isEarly act) (hc : Core W) (hp : Prim act W W') : NextI v r W' := by
  have hs := hp.shape hc.s
  clear hp
  cases hs with
  | @depart _ n u t cs l o hn hq hcs hl hout hent hcum hlead =>
    intro m b hv hl' hr
    have hg := hc.s.genq_mem n u (by simp [hq])
    have hne : u ≠ v := by
      rintro rfl
      exact (hc.s.inc_old m u hv).2 hg.1
    dsimp only at hv hl' hr ⊢
    rw [upd_ne _ _ hne.symm] at hl'
    simpa [takes, hne] using h m b hv hl' hr
  | @move _ n u a b t o q nl fc tta hn hinc hla hv hr hsig hout hfl hent hcd hca hu hlead hnl hq hfc htta =>
    intro m b' hv' hl' hr'
    have hinc' : v ∈ W.N.incoming m ∧ v ≠ u := by
      have hmv : m ≠ n → u ∉ W.N.incoming m := fun hmn hv' =>
        hmn (((hc.s.inc_run m u a hv' hla).1).symm.trans (hc.s.inc_run n u a hinc hla).1)
      dsimp only at hv'
      rw [upd_apply] at hv'
      split at hv'
      · rename_i e
        subst e
        exact ⟨List.mem_of_mem_erase hv', fun e => by
          subst e; exact (hc.s.inc_nodup m).not_mem_erase hv'⟩
      · rename_i hmn
        exact ⟨hv', fun e => hmv hmn (e ▸ hv')⟩
    dsimp only at hl' hr' ⊢
    rw [upd_ne _ _ hinc'.2] at hl'
    simpa [takes, hinc'.2.symm] using h m b' hinc'.1 hl' hr'
  | @endTrip _ u l t log s c lt tta hl hv hf hcd hrun hliv hlt hlog htta =>
    intro m b' hv' hl' hr'
    dsimp only at hv' hl' hr' ⊢
    rw [upd_apply] at hl'
    split at hl'
    · exact absurd rfl hl'
    · exact h m b' hv' hl' hr'
  | @clearInc _ n hn =>
    intro m b' hv' hl' hr'
    dsimp only at hv'
    rw [upd_apply] at hv'
    split at hv'
    · cases hv'
    · exact h m b' hv' hl' hr'
  | linkTick => exact h
  | nodeTick => exact h
  | carfollow => exact h
  | routing => exact h
  | _ => exact ha.elim

theorem EnfI.prim {v : VehId} {r : List LinkId} {W W' : World} {act : Act} (h : EnfI v r W)
    (hN : isLate act ∨ NextI v r W) (hy : YoungI v W)
    (hlg : W.V.state v = .run ∨ W.V.state v = .wait → W.V.logTLink v ≠ [])
    (hd : r.IsChain (· ≠ ·)) (hsr : W.V.specRoute v = some r) (hc : Core W) (hp : Prim act W W') :
    EnfI v r W' := by
  have hs := hp.shape hc.s
  clear hp
  cases hs with
  | @depart _ n u t cs l o hn hq hcs hl hout hent hcum hlead =>
    have hg := hc.s.genq_mem n u (by simp [hq])
    by_cases hne : u = v
    · subst hne
      obtain ⟨h1, h2, h3⟩ := hy (.inr hg.1)
      have hr0 : r[0]? = some l := by
        unfold originCandidates at hcs
        rw [hsr] at hcs
        cases r with
        | nil => simp at hcs
        | cons k r =>
          dsimp only at hcs
          split at hcs
          · simp only [Except.ok.injEq] at hcs
            rw [← hcs] at hl
            simpa using (List.mem_singleton.mp hl).symm
          · cases hcs
      refine ⟨?_, ?_, ?_⟩
      · simp only [List.filterMap_cons, takes, if_true, h1, List.reverse_cons, List.reverse_nil]
        exact prefix_snoc (List.nil_prefix) hr0
      · intro l' hl'
        dsimp only at hl' ⊢
        obtain rfl : l = l' := by simpa using hl'
        rw [h3]
        simp [takes, h1, h2]
      · intro _; exact hlg (.inr hg.1)
    · refine ⟨?_, ?_, ?_⟩
      · simp only [List.filterMap_cons, takes, if_neg hne]; exact h.pre
      · intro l' hl'
        dsimp only at hl' ⊢
        rw [upd_ne _ _ (Ne.symm hne)] at hl'
        simpa only [List.filterMap_cons, takes, if_neg hne] using h.cur l' hl'
      · intro h1
        dsimp only at h1
        rw [upd_ne _ _ (Ne.symm hne)] at h1
        exact h.len h1
  | @move _ n u a b t o q nl fc tta hn hinc hla hv hr hsig hout hfl hent hcd hca hu hlead hnl hq hfc htta =>
    by_cases hne : u = v
    · subst hne
      have hN := hN.resolve_left (by simp [isLate])
      have hb := hN n b hinc (by simp [hla]) hr
      obtain ⟨-, -, hlo⟩ := hc.s.inc_run n u a hinc hla
      obtain ⟨h1, h2⟩ := h.cur a hla
      rw [if_pos hlo] at h2
      have hpre : ((W.trace.filterMap (takes u)).reverse ++ [b]) <+: r := by
        refine prefix_snoc h.pre ?_
        simpa using hb
      have hab : a ≠ b := by
        cases hE : W.trace.filterMap (takes u) with
        | nil => rw [hE] at h1; simp at h1
        | cons c E =>
          rw [hE] at h1 hpre
          obtain rfl : c = a := by simpa using h1
          obtain ⟨rest, hrest⟩ := hpre
          have := hd
          rw [← hrest] at this
          replace this := (List.isChain_append.mp this).1
          simp only [List.reverse_cons, List.append_assoc, List.singleton_append] at this
          have h3 := (List.isChain_append.mp this).2.1
          simpa using h3
      refine ⟨?_, ?_, h.len⟩
      · simpa only [List.filterMap_cons, takes, if_true, List.reverse_cons] using hpre
      · intro l' hl'
        dsimp only at hl' ⊢
        obtain rfl : b = l' := by simpa using hl'
        rw [hlo, if_neg (by simpa using hab)]
        simp only [List.filterMap_cons, takes, if_true, List.head?_cons, List.length_cons, true_and]
        omega
    · refine ⟨?_, ?_, h.len⟩
      · simp only [List.filterMap_cons, takes, if_neg hne]; exact h.pre
      · intro l' hl'
        dsimp only at hl' ⊢
        rw [upd_ne _ _ (Ne.symm hne)] at hl'
        simpa only [List.filterMap_cons, takes, if_neg hne] using h.cur l' hl'
  | @endTrip _ u l t log s c lt tta hl hv hf hcd hrun hliv hlt hlog htta =>
    refine ⟨by simpa only [List.filterMap_cons, takes] using h.pre, ?_, ?_⟩
    · intro l' hl'
      dsimp only at hl' ⊢
      rw [upd_apply] at hl'
      split at hl'
      · cases hl'
      · rename_i hne
        have h1 := h.cur l' hl'
        simp only [upd_ne _ _ hne]
        simpa only [List.filterMap_cons, takes] using h1
    · intro h1
      dsimp only at h1 ⊢
      rw [upd_apply] at h1
      split at h1
      · split at h1 <;> cases h1
      · rename_i hne; rw [upd_ne _ _ hne]; exact h.len h1
  | @startWait _ u hliv hs hd =>
    refine ⟨by simpa only [List.filterMap_cons, takes] using h.pre,
      by simpa only [List.filterMap_cons, takes] using h.cur, ?_⟩
    intro h1
    dsimp only at h1
    rw [upd_apply] at h1
    split at h1
    · cases h1
    · exact h.len h1
  | @record _ u log s c lt hliv hlt hlog =>
    by_cases hne : u = v
    · subst hne
      refine ⟨h.pre, ?_, ?_⟩
      · intro l hl
        dsimp only at hl ⊢
        obtain ⟨h1, h2⟩ := h.cur l hl
        refine ⟨h1, ?_⟩
        simp only [upd_same, hl, if_true]
        rw [h2]
        have hst := (hc.s.link_run u l hl).1
        have hne := h.len hst
        have hlen : 1 ≤ (W.V.logTLink u).length := List.length_pos_iff.mpr hne
        rw [hlt]
        by_cases hlo : W.V.linkOld u = some l
        · rw [if_pos hlo, if_neg (by rw [hlo, hl]; simp)]
        · rw [if_neg hlo, if_pos ⟨hst, by rw [hl]; exact Ne.symm hlo⟩, hl]
          simp only [List.length_cons]
          omega
      · intro h1
        dsimp only at h1 ⊢
        rw [upd_same, hlt]
        split
        · split
          · simp
          · exact h.len h1
        · exact h.len h1
    · refine ⟨h.pre, ?_, ?_⟩
      · intro l hl
        dsimp only at hl ⊢
        simp only [upd_ne _ _ (Ne.symm hne)]
        exact h.cur l hl
      · intro h1
        dsimp only at h1 ⊢
        rw [upd_ne _ _ (Ne.symm hne)]
        exact h.len h1
  | _ => exact h.congr rfl rfl rfl rfl rfl

/-- The route of vehicle `v` is `r` from its departure on. -/
def EnforcedOK (v : VehId) (r : List LinkId) (W : World) : Prop :=
  W.V.state v ≠ .home → W.V.state v ≠ .wait → W.V.specRoute v = some r

theorem EnfI.reach {OK : World → Prop} {v : VehId} {r : List LinkId} (hOK : ∀ W, OK W → EnforcedOK v r W)
    (hd : r.IsChain (· ≠ ·)) {W : World} (h : Reachable OK W) :
    EnfI v r W ∧ NextI v r W := by
  have hinit : ∀ W : World, YoungI v W → SInv W → W.V.state v = .home ∨ W.V.state v = .wait →
      EnfI v r W ∧ NextI v r W := by
    intro W hy hS hs
    have hl : W.V.link v = none := by
      cases hl : W.V.link v with
      | none => rfl
      | some l => rw [(hS.link_run v l hl).1] at hs; simp at hs
    refine ⟨⟨?_, ?_, ?_⟩, ?_⟩
    · rw [(hy hs).1]; exact List.nil_prefix
    · rw [hl]; simp
    · intro h1; rw [h1] at hs; simp at hs
    · intro n b hv hl'; exact absurd hl hl'
  have h' := h.strengthen (Q := fun W => YoungI v W ∧ ∀ u, u < W.nVeh → W.V.logTLink u ≠ [])
    (fun W h => ⟨YoungI.reach h v, (RInv.reach h).log⟩)
  refine Reachable.induct (P := fun W => EnfI v r W ∧ NextI v r W) ?_ ?_ ?_ ?_ ?_ ?_ ?_ ?_ h'
  · intro cfg tmax rng
    refine ⟨⟨?_, ?_, ?_⟩, ?_⟩ <;> simp [World.new, NextI]
  · intro W a ph t soff hi hf hn _ hok hT
    exact hinit _ hok.2.1 (hi.addNode hf hn).s (.inl (hi.s.unfinal hf v))
  · intro W W' a hi hf ha _ hok hT
    have h1 := (hi.addLink hf ha).s
    obtain ⟨s, e, nm, k, p, -, -, -, -, -, -, rfl⟩ := addLink_ok ha
    exact hinit _ hok.2.1 h1 (.inl (hi.s.unfinal hf v))
  · intro W W' a hi ha _ hok hT
    have h1 := (hi.addVehicle ha).s
    obtain ⟨o, d, dep, pref, cache, lp, la, nm, -, -, -, -, -, -, -, -, rfl⟩ := addVehicle_ok ha
    by_cases hv : v = W.nVeh
    · exact hinit _ hok.2.1 h1 (by subst hv; simp [addVehRes])
    · obtain ⟨⟨a1, a2, a3⟩, a4⟩ := hT
      refine ⟨⟨a1, ?_, ?_⟩, ?_⟩
      · simp only [addVehRes, upd_apply, if_neg hv]; exact a2
      · simp only [addVehRes, upd_apply, if_neg hv]; exact a3
      · simp only [NextI, addVehRes, upd_apply, if_neg hv]; exact a4
  · intro W tm hi hf _ hok hT
    obtain ⟨ts, tta, fc, fr, la, hr⟩ := finalize_frame W tm
    rw [hr]
    exact ⟨hT.1.congr rfl rfl rfl rfl rfl, hT.2⟩
  · intro W W' _ _ _ hs hT
    obtain ⟨_, _, _, _, _, _, _, rfl, hd⟩ := hs
    exact ⟨hT.1.congr rfl rfl rfl rfl rfl, hT.2⟩
  · intro W W' _ _ _ hs hT
    obtain ⟨_, _, _, _, _, _, _, _, _, _, _, _, _, _, _, _, _, _, _, rfl, -⟩ := hs
    exact ⟨hT.1.congr rfl rfl rfl rfl rfl, hT.2⟩
  · intro W W1 W' hi hf hT0 hok0 hok h1 hW hT
    have htk : W.tick = .ok W' := by unfold World.tick; rw [h1, hW]; rfl
    have hi' := hi.tick hf htk
    by_cases hst : W'.V.state v = .home ∨ W'.V.state v = .wait
    · exact hinit _ hok.2.1 hi'.s hst
    · have hsr : W'.V.specRoute v = some r :=
        hOK _ hok.1 (fun h => hst (.inl h)) (fun h => hst (.inr h))
      have hch := ChI.tick hi hf htk
      have hlen : ∀ u, u < W.nVeh → W.V.logTLink u ≠ [] := hok0.2.2
      have hsr0 : W.V.specRoute v = some r := by
        obtain ⟨W6, hs, hW1⟩ := step_star (hi.core hf) h1
        rw [← hs.static.specRoute]
        rw [hW, hW1] at hsr
        exact hsr
      have hlt : v < W.nVeh := by
        by_contra hlt
        have := hi'.s.fresh v (by
          rw [hW]
          show W1.nVeh ≤ v
          rw [(step_T hi hf h1).2.1]
          exact Nat.le_of_not_lt hlt)
        exact hst (.inl this)
      -- keep the side conditions along
      let Q : World → Prop := fun X => YoungI v X ∧ X.V.specRoute v = some r ∧
        (X.V.logTLink v ≠ [])
      have hQ : ∀ act X Y, Core X → Prim act X Y → Q X → Q Y := by
        intro act X Y hc hp ⟨h1, h2, h3⟩
        refine ⟨h1.prim hc hp, by rw [hp.static.specRoute]; exact h2, ?_⟩
        have hs := hp.shape hc.s
        clear hp
        cases hs with
        | @record _ u log s c lt hliv hlt hlog =>
          dsimp only
          rw [upd_apply]; split
          · rename_i e; subst e
            rw [hlt]; split
            · split
              · simp
              · exact h3
            · exact h3
          · exact h3
        | @endTrip _ u l t log s c lt tta hl hv hf hcd hrun hliv hlt hlog htta =>
          dsimp only
          rw [upd_apply]; split
          · rename_i e; subst e
            rw [hlt]; split
            · exact h3
            · simp
          · exact h3
        | _ => exact h3
      obtain ⟨W6, hc, hs, h6, hW1⟩ := step_two
        (Pa := fun X => Q X ∧ EnfI v r X ∧ NextI v r X) (Pb := fun X => Q X ∧ EnfI v r X) hi hf
        (fun _ _ _ ha hc hp h => ⟨hQ _ _ _ hc hp h.1,
          h.2.1.prim (.inr h.2.2) h.1.1 (fun _ => h.1.2.2) hd h.1.2.1 hc hp, h.2.2.early ha hc hp⟩)
        (fun _ _ _ h => ⟨h.1, h.2.1⟩)
        (fun _ _ _ ha hc hp h => ⟨hQ _ _ _ hc hp h.1,
          h.2.prim (.inl ha) h.1.1 (fun _ => h.1.2.2) hd h.1.2.1 hc hp⟩) h1
        ⟨⟨hok0.2.1, hsr0, hlen v hlt⟩, hT.1, hT.2⟩
      have hE : EnfI v r W' := by rw [hW, hW1]; exact h6.2.congr rfl rfl rfl rfl rfl
      refine ⟨hE, ?_⟩
      intro n b hv hl hr
      obtain ⟨l, hl'⟩ := Option.ne_none_iff_exists'.mp hl
      obtain ⟨-, -, hlo⟩ := hi'.s.inc_run n v l hv hl'
      have hcur := (hE.cur l hl').2
      rw [if_pos hlo, Nat.add_zero] at hcur
      rcases hch n v hv hl with ⟨h2, -⟩ | ⟨h2, -⟩ | ⟨b', -, -, h2⟩ | ⟨b', route, h2, h3, h4, h5⟩
      · rw [hsr] at h2; cases h2
      · rw [h2] at hr; cases hr
      · rw [hsr] at h2; cases h2
      · obtain rfl : b' = b := by rw [h2] at hr; simpa using hr
        obtain rfl : r = route := by rw [hsr] at h4; simpa using h4
        rw [hcur]; exact h5

end UX
