import Verif.Proofs.Gap

/-! Forward movement within one step, and freshness of the next-link choice for single trips. -/

namespace UX
open World

/-- `step_two` together with the position invariants. -/
theorem step_two_kin {Pa Pb : World → Prop} {W W1 : World} (hi : Inv W) (hf : W.finalized = true)
    (hok : PhysOK W) (hk : KInv W)
    (pa : ∀ act W W', isEarly act → Core W → PhysOK W → KInv W → Prim act W W' → Pa W → Pa W')
    (ab : ∀ W, Core W → KNext W → Pa W → Pb W)
    (pb : ∀ act W W', isLate act → Core W → PhysOK W → KNext W → Prim act W W' → Pb W → Pb W')
    (h : W.step = .ok W1) (h0 : Pa W) :
    ∃ W6, Core W6 ∧ Static W W6 ∧ Pb W6 ∧ W1 = { W6 with time := W6.now } := by
  obtain ⟨A, B, C, D, E, F, hp, rfl⟩ := step_phases (hi.core hf) h
  have hc := hi.core hf
  obtain ⟨kA, kB, kC, ⟨kD, nD⟩, kE, kF⟩ := hp.kin hc hok hk
  have hearly : ∀ {A : Act → Prop} {X Y : World}, (∀ a, A a → isEarly a) → PStar A X Y → Core X →
      (PhysOK X ∧ KInv X ∧ Pa X) → PhysOK Y ∧ KInv Y ∧ Pa Y := by
    intro A X Y hA hXY hcX
    exact hXY.inv_core (P := fun Z => PhysOK Z ∧ KInv Z ∧ Pa Z)
      (fun a Z Z' ha hcZ hp hz => ⟨hz.1.static hp.static, hz.2.1.early (hA a ha) hcZ hz.1 hp,
        pa a Z Z' (hA a ha) hcZ hz.1 hz.2.1 hp hz.2.2⟩) hcX
  have jA := hearly (fun a ha => isEarly_of (.inl ha)) hp.s1 hc ⟨hok, hk, h0⟩
  have jB := hearly (fun a ha => isEarly_of (.inr (.inl ha))) hp.s2 hp.c1 jA
  have jC := hearly (fun a ha => isEarly_of (.inr (.inr (.inl ha)))) hp.s3 hp.c2 jB
  have jD := hearly (fun a ha => isEarly_of (.inr (.inr (.inr ha)))) hp.s4 hp.c3 jC
  have hlate : ∀ {A : Act → Prop} {X Y : World}, (∀ a, A a → isLate a) → PStar A X Y → Core X →
      (PhysOK X ∧ KNext X ∧ Pb X) → PhysOK Y ∧ KNext Y ∧ Pb Y := by
    intro A X Y hA hXY hcX
    exact hXY.inv_core (P := fun Z => PhysOK Z ∧ KNext Z ∧ Pb Z)
      (fun a Z Z' ha hcZ hp hz => ⟨hz.1.static hp.static, hz.2.1.late (hA a ha) hcZ hz.1 hp,
        pb a Z Z' (hA a ha) hcZ hz.1 hz.2.1 hp hz.2.2⟩) hcX
  have jE := hlate isUpdAny_late hp.s5 hp.c4 ⟨jD.1, nD, ab D hp.c4 nD jD.2.2⟩
  have jF := (hlate isRouting_late hp.s6 hp.c5 jE).2.2
  refine ⟨F, hp.c6, ?_, jF, rfl⟩
  exact ((((hp.s1.static.trans hp.s2.static).trans hp.s3.static).trans hp.s4.static).trans
      hp.s5.static).trans hp.s6.static

/-- During the step that starts in `W0`: a vehicle that was on a link is further ahead, or has passed a
node, or has left the network. -/
structure Fwd (W0 W : World) : Prop where
  fwd : ∀ v l, W0.V.link v = some l → ∀ l', W.V.link v = some l' →
    (∃ n a b ph, Event.pass W0.T v n a b ph ∈ W.trace) ∨ (l' = l ∧ W0.V.x v ≤ W.V.x v)
  away : ∀ v l, W0.V.link v = some l → W.V.state v ≠ .home ∧ W.V.state v ≠ .wait
  T : W.T = W0.T

theorem Fwd.congr {W0 W W' : World} (h : Fwd W0 W) (h1 : W'.V.link = W.V.link) (h2 : W'.V.x = W.V.x)
    (h3 : W'.V.state = W.V.state) (h4 : W'.trace = W.trace) (h5 : W'.T = W.T) : Fwd W0 W' := by
  obtain ⟨a, b, c⟩ := h
  exact ⟨by rw [h1, h2, h4]; exact a, by rw [h3]; exact b, h5.trans c⟩

theorem Fwd.prim {W0 W W' : World} {act : Act} (ha : isEarly act ∨ KNext W) (hc : Core W)
    (hp : Prim act W W') (h : Fwd W0 W) : Fwd W0 W' := by
  have hs := hp.shape hc.s
  clear hp
  cases hs with
  | @depart _ n v t cs l o hn hq hcs hl hout hent hcum hlead =>
    have hw : W.V.state v = .wait := (hc.s.genq_mem n v (by simp [hq])).1
    obtain ⟨f, g, hT⟩ := h
    have hne : ∀ u k, W0.V.link u = some k → u ≠ v := by
      rintro u k hu rfl; exact (g u k hu).2 hw
    refine ⟨fun u k hu k' => ?_, fun u k hu => ?_, hT⟩
    · simp only [upd_ne _ _ (hne u k hu)]
      intro hk'
      rcases f u k hu k' hk' with ⟨n', a', b', ph, hm⟩ | hm
      · exact .inl ⟨n', a', b', ph, List.mem_cons_of_mem _ hm⟩
      · exact .inr hm
    · simp only [upd_ne _ _ (hne u k hu)]
      exact g u k hu
  | @move _ n v a b t o q nl fc tta hn hinc hla hv hr hsig hout hfl hent hcd hca hu hlead hnl hq hfc htta =>
    obtain ⟨f, g, hT⟩ := h
    refine ⟨fun u k hu k' hk' => ?_, g, hT⟩
    by_cases huv : u = v
    · subst huv
      exact .inl ⟨_, _, _, _, by rw [← hT]; exact List.mem_cons_self⟩
    · simp only [upd_ne _ _ huv] at hk' ⊢
      rcases f u k hu k' hk' with ⟨n', a', b', ph, hm⟩ | hm
      · exact .inl ⟨n', a', b', ph, List.mem_cons_of_mem _ hm⟩
      · exact .inr hm
  | @endTrip _ v l t log s c lt tta hl hv hf hcd hrun hliv hlt hlog htta =>
    obtain ⟨f, g, hT⟩ := h
    refine ⟨fun u k hu k' hk' => ?_, fun u k hu => ?_, hT⟩
    · by_cases huv : u = v
      · subst huv
        simp only [upd_same] at hk'
        cases hk'
      · simp only [upd_ne _ _ huv] at hk' ⊢
        rcases f u k hu k' hk' with ⟨n', a', b', ph, hm⟩ | hm
        · exact .inl ⟨n', a', b', ph, List.mem_cons_of_mem _ hm⟩
        · exact .inr hm
    · have := g u k hu
      simp only [upd_apply]
      split
      · split <;> simp
      · exact this
  | @advance _ v hs hlo hinc =>
    rcases ha with ha | hn
    · exact ha.elim
    obtain ⟨f, g, hT⟩ := h
    refine ⟨fun u k hu k' hk' => ?_, g, hT⟩
    rcases f u k hu k' hk' with hm | hm
    · exact .inl hm
    · refine .inr ⟨hm.1, ?_⟩
      dsimp only
      rw [upd_apply]
      split
      · rename_i e; subst e
        exact hm.2.trans (hn.nxt u k' hk').1
      · exact hm.2
  | @startWait _ v hliv hs hd =>
    obtain ⟨f, g, hT⟩ := h
    have hne : ∀ u k, W0.V.link u = some k → u ≠ v := by
      rintro u k hu rfl; exact (g u k hu).1 hs
    refine ⟨fun u k hu k' hk' => ?_, fun u k hu => ?_, hT⟩
    · rcases f u k hu k' hk' with ⟨n', a', b', ph, hm⟩ | hm
      · exact .inl ⟨n', a', b', ph, List.mem_cons_of_mem _ hm⟩
      · exact .inr hm
    · simp only [upd_ne _ _ (hne u k hu)]
      exact g u k hu
  | _ => exact h.congr rfl rfl rfl rfl rfl

theorem Fwd.step {W W1 : World} (hi : Inv W) (hf : W.finalized = true) (hok : PhysOK W) (hk : KInv W)
    (h : W.step = .ok W1) : Fwd W W1 := by
  obtain ⟨W6, -, -, h6, rfl⟩ := step_two_kin (Pa := Fwd W) (Pb := Fwd W) hi hf hok hk
    (fun act Z Z' ha hc _ _ hp hz => hz.prim (.inl ha) hc hp) (fun Z _ _ hz => hz)
    (fun act Z Z' _ hc _ hn hp hz => hz.prim (.inr hn) hc hp) h
    ⟨fun v l hl l' hl' => .inr ⟨by rw [hl] at hl'; simpa using hl'.symm, le_rfl⟩,
      fun v l hl => by rw [(hi.s.link_run v l hl).1]; simp, rfl⟩
  exact h6.congr rfl rfl rfl rfl rfl

/-- The next-link choice of a single-trip vehicle waiting at a node leaves that node. -/
def FreshChoice (W : World) : Prop := ∀ n v b, v ∈ W.N.incoming n → W.V.mode v = .single →
  W.V.rnl v = .to b → b < W.nLinks ∧ W.L.startN b = n

theorem FreshChoice.congr {W W' : World} (h : FreshChoice W) (h1 : W'.N.incoming = W.N.incoming)
    (h2 : W'.V.rnl = W.V.rnl) (h3 : W'.L.startN = W.L.startN) (h4 : W'.V.mode = W.V.mode)
    (h5 : W'.nLinks = W.nLinks) : FreshChoice W' := by
  unfold FreshChoice at *; rw [h1, h2, h3, h4, h5]; exact h

theorem FreshChoice.prim {act : Act} {W W' : World} (hc : Core W)
    (hp : Prim act W W') (h : FreshChoice W) : FreshChoice W' := by
  have hs := hp.shape hc.s
  clear hp
  cases hs with
  | @move _ n v a b t o q nl fc tta hn hinc hla hv hr hsig hout hfl hent hcd hca hu hlead hnl hq hfc htta =>
    intro m u c hu
    refine h m u c ?_
    dsimp only at hu
    rw [upd_apply] at hu
    split at hu
    · rename_i e; subst e; exact List.mem_of_mem_erase hu
    · exact hu
  | @clearInc _ n hn =>
    intro m u c hu
    refine h m u c ?_
    dsimp only at hu
    rw [upd_apply] at hu
    split at hu
    · simp at hu
    · exact hu
  | @choose _ v a r rnl hae hd ho hr =>
    intro m u c hu hm hc
    have huv : u ≠ v := by rintro rfl; exact hae.2.2.2.2 m hu
    refine h m u c hu hm ?_
    simpa only [upd_ne _ _ huv] using hc
  | @flagAbort _ v a hae hd ho ht =>
    intro m u c hu hm hc
    have huv : u ≠ v := by rintro rfl; exact hae.2.2.2.2 m hu
    refine h m u c hu hm ?_
    simpa only [upd_ne _ _ huv] using hc
  | @pushInc _ v a n hae hne hg hch =>
    intro m u c hu hm hc'
    dsimp only at hu hm hc' ⊢
    rw [upd_apply] at hu
    split at hu
    · rename_i e; subst e
      rcases List.mem_append.mp hu with hu | hu
      · exact h m u c hu hm hc'
      · obtain rfl : u = v := by simpa using hu
        rcases (hg hm).2.2 with h1 | ⟨b, hb, h1⟩
        · rw [h1] at hc'; cases hc'
        · rw [h1] at hc'
          obtain rfl : b = c := by simpa using hc'
          rw [hne]
          exact (hc.s.out_iff _ _).mp hb
    · exact h m u c hu hm hc'
  | _ => exact h.congr rfl rfl rfl rfl rfl

theorem FreshChoice.reach {OK : World → Prop} {W : World} (h : Reachable OK W) : FreshChoice W := by
  refine Reachable.induct (P := FreshChoice) ?_ ?_ ?_ ?_ ?_ ?_ ?_ ?_ h
  · intro cfg tmax rng n v b hv
    simp [World.new] at hv
  · intro W a ph t soff hi hf hn _ _ hT m v b hv
    have : v ∈ W.N.incoming m := by
      dsimp only [addNodeRes] at hv
      rw [upd_apply] at hv
      split at hv
      · simp at hv
      · exact hv
    exact hT m v b this
  · intro W W' a hi hf ha _ _ hT
    obtain ⟨s, e, nm, k, p, -, -, -, -, -, -, rfl⟩ := addLink_ok ha
    intro m v b hv hm hr
    obtain ⟨h1, h2⟩ := hT m v b hv hm hr
    have hne : b ≠ W.nLinks := Nat.ne_of_lt h1
    refine ⟨Nat.lt_succ_of_lt h1, ?_⟩
    simp only [addLinkRes, upd_ne _ _ hne]
    exact h2
  · intro W W' a hi ha hok _ hT
    obtain ⟨o, d, dep, pref, cache, lp, la, nm, -, -, -, -, -, -, -, -, rfl⟩ := addVehicle_ok ha
    intro m v b hv hm hr
    have hv' : v ∈ W.N.incoming m := hv
    have hne : v ≠ W.nVeh := by
      rintro rfl
      exact (hi.s.inc_old m _ hv').1 (hi.s.fresh _ le_rfl)
    simp only [addVehRes, upd_ne _ _ hne] at hm hr
    exact hT m v b hv hm hr
  · intro W tm hi hf hok hok' hT
    obtain ⟨ts, tta, fc, fr, la, hr⟩ := finalize_frame W tm
    rw [hr]
    exact hT.congr rfl rfl rfl rfl rfl
  · intro W W' _ _ _ hs hT
    obtain ⟨_, _, _, _, _, _, _, rfl, -⟩ := hs
    exact hT.congr rfl rfl rfl rfl rfl
  · intro W W' hi _ _ hs hT
    obtain ⟨_, _, _, _, _, _, _, _, _, _, _, _, _, _, _, dpl, _, _, _, rfl, hd⟩ := hs
    exact hT.congr rfl rfl rfl rfl rfl
  · intro W W1 W' hi hf _ hok _ h1 hW hT
    subst hW
    exact step_prim hi hf (fun act Z Z' hc hp hz => hz.prim hc hp)
      (fun Z t k _ hz => hz.congr rfl rfl rfl rfl rfl) h1 hT

theorem NoStale.of_single {OK : World → Prop} {W : World} (h : Reachable OK W)
    (hs : ∀ v, v < W.nVeh → W.V.mode v = .single) : NoStale W := by
  intro n v b hv hb
  have hi := h.inv
  refine (FreshChoice.reach h n v b hv (hs v ?_) hb).2
  by_contra hlt
  exact (hi.s.inc_old n v hv).1 (hi.s.fresh v (Nat.le_of_not_lt hlt))

end UX
