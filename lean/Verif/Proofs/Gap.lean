import Verif.Proofs.KinInv

/-! Spacing between a vehicle and its leader. -/

namespace UX
open World

/-- Leader and follower are inverse to each other within a link. -/
theorem LaneOK.lead_foll {k : ℕ} {vs : List VehId} {lane : VehId → ℕ}
    {leader follower : VehId → Option VehId} (h : LaneOK k vs lane leader follower) (hk : 1 ≤ k)
    (hn : vs.Nodup) {u w : VehId} (hu : u ∈ vs) (hl : leader u = some w) :
    w ∈ vs ∧ follower w = some u ∧ w ≠ u := by
  obtain ⟨i, hi⟩ := List.mem_iff_getElem?.mp hu
  rw [h.lead i u hi] at hl
  split at hl
  · cases hl
  · rename_i hik
    refine ⟨List.mem_of_getElem? hl, ?_, ?_⟩
    · rw [h.foll (i - k) w hl, show i - k + k = i by omega]; exact hi
    · rintro rfl
      have hl1 := (List.getElem?_eq_some_iff.mp hi).1
      have := (List.getElem?_inj hl1 hn).mp (hi.trans hl.symm)
      omega

theorem LInv.lead {W : World} (h : LInv W) (hc : SInv W) {v w : VehId} {l : LinkId}
    (hl : W.V.link v = some l) (hw : W.V.leader v = some w) :
    W.V.link w = some l ∧ W.V.follower w = some v ∧ w ≠ v := by
  obtain ⟨-, hm, hlt⟩ := hc.link_run v l hl
  obtain ⟨h1, h2, h3⟩ := (h.ok l hlt).lead_foll (hc.lanes_pos l hlt) (hc.vehs_nodup l) hm hw
  exact ⟨hc.vehs_link l w h1, h2, h3⟩

/-- Every vehicle keeps the spacing to its leader. -/
def GInv (W : World) : Prop := ∀ v w l, W.V.link v = some l → W.V.leader v = some w →
  W.V.x v ≤ W.cfg.fl (W.V.x w - W.gap l)

/-- The planned positions keep the spacing to the current position of the leader. -/
def GNext (W : World) : Prop := ∀ v w l, W.V.link v = some l → W.V.leader v = some w →
  W.V.xNext v ≤ W.cfg.fl (W.V.x w - W.gap l)

/-- All but the last `E b` vehicles of link `b` have moved on that link, or stand at its start. -/
def Sett (E : LinkId → ℕ) (W : World) : Prop := ∀ b i v, (W.L.vehs b)[i]? = some v →
  i + E b < (W.L.vehs b).length → W.V.xOld v ≤ W.V.x v ∨ W.V.x v = 0

/-- Vehicles waiting at a node have chosen a link that starts there. (False only for taxis that were
given the same destination twice in a row, see `StaleI`.) -/
def NoStale (W : World) : Prop := ∀ n v b, v ∈ W.N.incoming n → W.V.rnl v = .to b → W.L.startN b = n

theorem Sett.mono {E E' : LinkId → ℕ} {W : World} (h : Sett E W) (hE : ∀ b, E b ≤ E' b) : Sett E' W :=
  fun b i v hv hi => h b i v hv (by have := hE b; omega)

theorem Sett.congr {E : LinkId → ℕ} {W W' : World} (h : Sett E W) (h1 : W'.L.vehs = W.L.vehs)
    (h2 : W'.V.x = W.V.x) (h3 : W'.V.xOld = W.V.xOld) : Sett E W' := by
  unfold Sett at *; rw [h1, h2, h3]; exact h

theorem GInv.congr {W W' : World} (h : GInv W) (h1 : W'.V.link = W.V.link) (h2 : W'.V.x = W.V.x)
    (h3 : W'.V.leader = W.V.leader) (h4 : W'.cfg = W.cfg) (h5 : W'.L.deltaPerLane = W.L.deltaPerLane) :
    GInv W' := by
  unfold GInv World.gap World.fl World.dn at *; rw [h1, h2, h3, h4, h5]; exact h

theorem GNext.congr {W W' : World} (h : GNext W) (h1 : W'.V.link = W.V.link) (h2 : W'.V.x = W.V.x)
    (h3 : W'.V.leader = W.V.leader) (h4 : W'.cfg = W.cfg) (h5 : W'.L.deltaPerLane = W.L.deltaPerLane)
    (h6 : W'.V.xNext = W.V.xNext) :
    GNext W' := by
  unfold GNext World.gap World.fl World.dn at *; rw [h1, h2, h3, h4, h5, h6]; exact h

theorem NoStale.congr {W W' : World} (h : NoStale W) (h1 : W'.N.incoming = W.N.incoming)
    (h2 : W'.V.rnl = W.V.rnl) (h3 : W'.L.startN = W.L.startN) : NoStale W' := by
  unfold NoStale at *; rw [h1, h2, h3]; exact h

theorem NoStale.early {act : Act} {W W' : World} (ha : isEarly act) (hc : Core W)
    (hp : Prim act W W') (h : NoStale W) : NoStale W' := by
  have hs := hp.shape hc.s
  clear hp
  cases hs with
  | @depart _ n v t cs l o hn hq hcs hl hout hent hcum hlead => exact h.congr rfl rfl rfl
  | @move _ n v a b t o q nl fc tta hn hinc hla hv hr hsig hout hfl hent hcd hca hu hlead hnl hq hfc htta =>
    intro m u c hu hc
    refine h m u c ?_ hc
    dsimp only at hu
    rw [upd_apply] at hu
    split at hu
    · rename_i e; subst e; exact List.mem_of_mem_erase hu
    · exact hu
  | @endTrip _ v l t log s c lt tta hl hv hf hcd hrun hliv hlt hlog htta => exact h.congr rfl rfl rfl
  | @clearInc _ n hn =>
    intro m u c hu hc
    refine h m u c ?_ hc
    dsimp only at hu
    rw [upd_apply] at hu
    split at hu
    · simp at hu
    · exact hu
  | linkTick => exact h.congr rfl rfl rfl
  | nodeTick => exact h.congr rfl rfl rfl
  | carfollow => exact h.congr rfl rfl rfl
  | routing => exact h.congr rfl rfl rfl
  | _ => exact ha.elim

/-- Spacing and settledness in the generation phase. -/
theorem gap_gen {act : Act} {W W' : World} (ha : isLinkTick act ∨ isGen act) (hc : Core W)
    (hL : LInv W) (hok : PhysOK W) (hp : Prim act W W') (h : GInv W) (hs : Sett (fun _ => 0) W) :
    GInv W' ∧ Sett (fun _ => 0) W' := by
  have hsh := hp.shape hc.s
  clear hp
  cases hsh with
  | @depart _ n v t cs l o hn hq hcs hl hout hent hcum hlead =>
    have hw : W.V.state v = .wait := (hc.s.genq_mem n v (by simp [hq])).1
    have hl' : l < W.nLinks := ((hc.s.out_iff n l).mp hout).1
    have hvn : ∀ m, W.V.link v ≠ some m := fun m hm => by
      have := (hc.s.link_run v m hm).1
      rw [hw] at this; cases this
    have hvl : ∀ m, v ∉ W.L.vehs m := fun m hm => hvn m (hc.s.vehs_link m v hm)
    constructor
    · intro u w k hu hw'
      dsimp only at hu hw' ⊢
      by_cases huv : u = v
      · subst huv
        rw [upd_same] at hu hw' ⊢
        obtain rfl : l = k := by simpa using hu
        rcases hlead with ⟨h1, -⟩ | ⟨w', h1, h2, h3⟩
        · rw [h1] at hw'; cases hw'
        · obtain rfl : w' = w := by rw [h1] at hw'; simpa using hw'
          have hwl : w' ∈ W.L.vehs l := by
            unfold backN at h3; split at h3
            · exact List.mem_of_getElem? h3
            · cases h3
          have hwv : w' ≠ u := fun e => hvl l (e ▸ hwl)
          rw [upd_ne _ _ hwv]
          have hcan : W.gap l < W.V.x w' := by
            unfold canEnter at hent
            rw [h3] at hent
            simp only [Bool.and_eq_true, Bool.or_eq_true, decide_eq_true_eq] at hent
            rcases hent.1 with h | h
            · omega
            · exact h
          exact hok.fl.nonneg (by
            show 0 ≤ W.V.x w' - W.gap l
            linarith)
      · rw [upd_ne _ _ huv] at hu hw' ⊢
        have hwv : w ≠ v := fun e => hvn k (e ▸ (hL.lead hc.s hu hw').1)
        rw [upd_ne _ _ hwv]
        exact h u w k hu hw'
    · intro b i u hu hi
      dsimp only at hu hi ⊢
      by_cases huv : u = v
      · subst huv; right; exact upd_same _ _ _
      · rw [upd_ne _ _ huv]
        by_cases hb : b = l
        · subst hb
          rw [upd_same] at hu hi
          have hi' : i < (W.L.vehs b).length := by
            by_contra hge
            have : i = (W.L.vehs b).length := by simp at hi; omega
            rw [this] at hu
            simp at hu
            exact huv hu.symm
          rw [List.getElem?_append_left hi'] at hu
          exact hs b i u hu (by simpa using hi')
        · rw [upd_ne _ _ hb] at hu hi
          exact hs b i u hu hi
  | linkTick => exact ⟨h.congr rfl rfl rfl rfl rfl, hs.congr rfl rfl rfl⟩
  | nodeTick => exact ⟨h.congr rfl rfl rfl rfl rfl, hs.congr rfl rfl rfl⟩
  | routing => exact ⟨h.congr rfl rfl rfl rfl rfl, hs.congr rfl rfl rfl⟩
  | _ => rcases ha with ha | ha <;> exact ha.elim

theorem gap_end {W W' : World} {v : VehId} {l : LinkId} {E : LinkId → ℕ} (hc : Core W) (hL : LInv W)
    (hp : Prim (.endTrip v l) W W') (h : GInv W) (hs : Sett E W) : GInv W' ∧ Sett E W' := by
  have hsh := hp.shape hc.s
  clear hp
  cases hsh with
  | @endTrip _ v l t log s c lt tta hl hv hf hcd hrun hliv hlt hlog htta =>
    constructor
    · intro u w k hu hw
      dsimp only at hu hw ⊢
      have huv : u ≠ v := by rintro rfl; rw [upd_same] at hu; cases hu
      rw [upd_ne _ _ huv] at hu ⊢
      rw [detachL_apply] at hw
      split at hw
      · cases hw
      · rename_i hne
        obtain ⟨h1, h2, h3⟩ := hL.lead hc.s hu hw
        have hwv : w ≠ v := by rintro rfl; exact hne h2
        rw [upd_ne _ _ hwv]
        exact h u w k hu hw
    · intro b i u hu hi
      dsimp only at hu hi ⊢
      by_cases huv : u = v
      · subst huv; right; exact upd_same _ _ _
      · rw [upd_ne _ _ huv]
        by_cases hb : b = l
        · subst hb
          rw [upd_same] at hu hi
          exact hs b (i + 1) u (by rw [hv]; simpa using hu) (by rw [hv]; simp; omega)
        · rw [upd_ne _ _ hb] at hu hi
          exact hs b i u hu hi

/-- A transfer into `b`, of which fewer than `lanes b` of the last vehicles are unsettled. -/
theorem gap_move {W W' : World} {n : NodeId} {v : VehId} {a b : LinkId} {E : LinkId → ℕ} (hc : Core W)
    (hL : LInv W) (hok : PhysOK W) (hE : E b < W.L.lanes b)
    (hp : Prim (.move n v a b) W W') (h : GInv W) (hs : Sett E W) :
    GInv W' ∧ Sett (upd E b (E b + 1)) W' := by
  have hsh := hp.shape hc.s
  clear hp
  cases hsh with
  | @move _ n v a b t o q nl fc tta hn hinc hla hv hr hsig hout hfl hent hcd hca hu hlead hnl hq hfc htta =>
    have hbl : b < W.nLinks := hc.s.rnl_lt v b hr
    have hnd := hc.s.vehs_nodup a
    rw [hv] at hnd
    have hvt : v ∉ t := (List.nodup_cons.mp hnd).1
    have hvn : ∀ m, v ∉ upd W.L.vehs a t m := by
      intro m
      rw [upd_apply]
      split
      · exact hvt
      · rename_i hma
        intro hm
        have := (hc.s.vehs_link m v hm).symm.trans hla
        simp at this; exact hma this
    constructor
    · intro u w k hu hw
      dsimp only at hu hw ⊢
      by_cases huv : u = v
      · subst huv
        rw [upd_same] at hu hw ⊢
        obtain rfl : b = k := by simpa using hu
        rcases hlead with ⟨h1, -⟩ | ⟨w', h1, h2, h3⟩
        · rw [h1] at hw; cases hw
        · obtain rfl : w' = w := by rw [h1] at hw; simpa using hw
          have hlan := hc.s.lanes_pos b hbl
          obtain ⟨hgx, hbk⟩ := lead_can hv hlan hent h2 h3
          have hwm : w' ∈ upd W.L.vehs a t b := by
            unfold backN at h3; split at h3
            · exact List.mem_of_getElem? h3
            · cases h3
          have hwv : w' ≠ u := fun e => hvn b (e ▸ hwm)
          have hlen : W.L.lanes b ≤ (W.L.vehs b).length := by
            unfold backN at hbk; split at hbk
            · rename_i hh; exact hh.2
            · cases hbk
          have hset : W.V.xOld w' ≤ W.V.x w' := by
            rw [backN, if_pos ⟨hlan, hlen⟩] at hbk
            rcases hs b _ w' hbk (by omega) with h | h
            · exact h
            · have := hok.gap_nonneg hbl
              linarith
          rw [upd_ne _ _ hwv, hq, carryOver_eq, h1]
          exact carryPos_gap hok hset hgx
      · rw [upd_ne _ _ huv] at hu hw ⊢
        rw [detachL_apply] at hw
        split at hw
        · cases hw
        · rename_i hne
          obtain ⟨h1, h2, h3⟩ := hL.lead hc.s hu hw
          have hwv : w ≠ v := by rintro rfl; exact hne h2
          rw [upd_ne _ _ hwv]
          exact h u w k hu hw
    · have h1 : ∀ m i u, (upd W.L.vehs a t m)[i]? = some u → i + E m < (upd W.L.vehs a t m).length →
          W.V.xOld u ≤ W.V.x u ∨ W.V.x u = 0 := by
        intro m i u hu hi
        by_cases hma : m = a
        · subst hma
          rw [upd_same] at hu hi
          exact hs m (i + 1) u (by rw [hv]; simpa using hu) (by rw [hv]; simp; omega)
        · rw [upd_ne _ _ hma] at hu hi
          exact hs m i u hu hi
      intro m i u hu hi
      dsimp only at hu hi ⊢
      by_cases hmb : m = b
      · subst hmb
        rw [upd_same] at hu hi
        rw [upd_same] at hi
        simp only [List.length_append, List.length_singleton] at hi
        have hil : i < (upd W.L.vehs a t m).length := by omega
        rw [List.getElem?_append_left hil] at hu
        have huv : u ≠ v := fun e => hvn m (e ▸ List.mem_of_getElem? hu)
        rw [upd_ne _ _ huv]
        exact h1 m i u hu (by omega)
      · rw [upd_ne _ _ hmb] at hu hi
        rw [upd_ne _ _ hmb] at hi
        have huv : u ≠ v := fun e => hvn m (e ▸ List.mem_of_getElem? hu)
        rw [upd_ne _ _ huv]
        exact h1 m i u hu hi

/-- State carried through the transfer phase. -/
structure GapJ (E : LinkId → ℕ) (W : World) : Prop where
  c : Core W
  l : LInv W
  p : PhysOK W
  g : GInv W
  s : Sett E W
  n : NoStale W

theorem GapJ.mono {E E' : LinkId → ℕ} {W : World} (h : GapJ E W) (hE : ∀ b, E b ≤ E' b) : GapJ E' W :=
  { h with s := h.s.mono hE }

theorem GapJ.endTrip {E : LinkId → ℕ} {W W' : World} {v l} (h : GapJ E W)
    (hp : Prim (.endTrip v l) W W') : GapJ E W' := by
  obtain ⟨h1, h2⟩ := gap_end h.c h.l hp h.g h.s
  exact ⟨h.c.prim hp, h.l.prim h.c hp, h.p.static hp.static, h1, h2,
    h.n.early (act := .endTrip v l) trivial h.c hp⟩

theorem GapJ.move {E : LinkId → ℕ} {W W' : World} {n v a b} (h : GapJ E W) (hE : E b < W.L.lanes b)
    (hp : Prim (.move n v a b) W W') : GapJ (upd E b (E b + 1)) W' := by
  obtain ⟨h1, h2⟩ := gap_move h.c h.l h.p hE hp h.g h.s
  exact ⟨h.c.prim hp, h.l.prim h.c hp, h.p.static hp.static, h1, h2,
    h.n.early (act := .move n v a b) trivial h.c hp⟩

theorem GapJ.rng {E : LinkId → ℕ} {W : World} (h : GapJ E W) (r) : GapJ E { W with rng := r } := by
  have hp := rng_prim W r
  exact ⟨h.c.prim hp, h.l.prim h.c hp, h.p.static hp.static, h.g.congr rfl rfl rfl rfl rfl,
    h.s.congr rfl rfl rfl, h.n.congr rfl rfl rfl⟩

theorem GapJ.clearInc {E : LinkId → ℕ} {W : World} {n} (h : GapJ E W) (hn : n < W.nNodes) :
    GapJ E { W with N := { W.N with incoming := upd W.N.incoming n [] } } := by
  have hp : Prim (.clearInc n) W _ := Prim.clearInc hn
  exact ⟨h.c.prim hp, h.l.prim h.c hp, h.p.static hp.static, h.g.congr rfl rfl rfl rfl rfl,
    h.s.congr rfl rfl rfl, h.n.early (act := .clearInc n) trivial h.c hp⟩

/-! ### Slots -/

theorem uniqFirst_mem {α : Type} [DecidableEq α] {l : List α} {a : α} : a ∈ uniqFirst l ↔ a ∈ l := by
  induction l with
  | nil => simp [uniqFirst]
  | cons b t ih =>
    simp only [uniqFirst, List.mem_cons, List.mem_filter, ih, decide_eq_true_eq]
    by_cases h : a = b <;> simp [h]

theorem uniqFirst_nodup {α : Type} [DecidableEq α] (l : List α) : (uniqFirst l).Nodup := by
  induction l with
  | nil => simp [uniqFirst]
  | cons b t ih =>
    simp only [uniqFirst, List.nodup_cons, List.mem_filter, decide_eq_true_eq]
    exact ⟨by simp, ih.filter _⟩

theorem count_slots {keys : List LinkId} (hn : keys.Nodup) (f : LinkId → ℕ) (b : LinkId) :
    (keys.flatMap (fun l => List.replicate (f l) l)).count b ≤ f b := by
  induction keys with
  | nil => simp
  | cons k t ih =>
    rw [List.flatMap_cons, List.count_append]
    have hk := List.nodup_cons.mp hn
    by_cases hb : k = b
    · subst hb
      have : (t.flatMap (fun l => List.replicate (f l) l)).count k = 0 := by
        rw [List.count_eq_zero]
        intro hm
        rw [List.mem_flatMap] at hm
        obtain ⟨l, hl, hm⟩ := hm
        have := List.eq_of_mem_replicate hm
        exact hk.1 (this ▸ hl)
      rw [this]; simp
    · have := ih hk.2
      rw [List.count_eq_zero.mpr (fun hm => hb (List.eq_of_mem_replicate hm).symm)]
      omega

theorem transferSlots_ok {W : World} {n : NodeId} {s : List LinkId} (h : W.transferSlots n = .ok s) :
    (∀ b ∈ s, ∃ v ∈ W.N.incoming n, W.V.rnl v = .to b) ∧ ∀ b, s.count b ≤ W.L.lanes b := by
  unfold transferSlots at h
  split at h
  · cases h
  · simp only [Except.ok.injEq] at h
    subst h
    refine ⟨fun b hb => ?_, fun b => count_slots (uniqFirst_nodup _) _ _⟩
    rw [List.mem_flatMap] at hb
    obtain ⟨l, hl, hb⟩ := hb
    obtain rfl := List.eq_of_mem_replicate hb
    rw [uniqFirst_mem, List.mem_filterMap] at hl
    obtain ⟨v, hv, hr⟩ := hl
    refine ⟨v, hv, ?_⟩
    split at hr
    · rename_i l' hr'; simp at hr; rw [hr', hr]
    · cases hr

/-- One node of the transfer phase. -/
theorem GapJ.transfer {E : LinkId → ℕ} {W W' : World} {n : NodeId} (hn : n < W.nNodes) (h : GapJ E W)
    (hE : ∀ b, W.L.startN b = n → E b = 0) (ht : W.transfer n = .ok W') :
    GapJ (fun b => if W.L.startN b = n then W.L.lanes b else E b) W' := by
  obtain ⟨slots0, slots, r, W2, W3, h0, hperm, h2, hs3, rfl, hc2, hc3⟩ := transfer_spec h.c hn ht
  obtain ⟨hs1, hs2⟩ := transferSlots_ok h0
  have key := foldlM_inv_pre (P := fun pre W1 => GapJ (fun b => E b + pre.count b) W1 ∧ Static W W1) ?_
    ⟨by simpa using h.rng r, (rng_prim W r).static⟩ h2
  · obtain ⟨k1, k2⟩ := key
    have k1' : GapJ (fun b => if W.L.startN b = n then W.L.lanes b else E b) W2 := by
      refine k1.mono (fun b => ?_)
      rw [hperm.count_eq]
      split
      · rename_i hb; rw [hE b hb]; have := hs2 b; omega
      · rename_i hb
        rw [List.count_eq_zero.mpr]
        · simp
        · intro hm
          obtain ⟨v, hv, hr⟩ := hs1 b hm
          exact hb (h.n n v b hv hr)
    have k3 := (hs3.inv (P := fun Z => GapJ (fun b => if W.L.startN b = n then W.L.lanes b else E b) Z ∧
        Static W Z) (fun a Z Z' ha hz hp => by
          cases a <;> simp only [isEnd] at ha
          exact ⟨hz.1.endTrip hp, hz.2.trans hp.static⟩) ⟨k1', k2⟩)
    exact k3.1.clearInc (by rw [k3.2.nNodes]; exact hn)
  · rintro pre b post s s' hl ⟨j1, j2⟩ hs
    have hb : b ∈ slots0 := hperm.mem_iff.mp (by rw [hl]; simp)
    have hcount : E b + pre.count b < s.L.lanes b := by
      obtain ⟨v, hv, hr⟩ := hs1 b hb
      rw [hE b (h.n n v b hv hr), j2.lanes]
      have h3 := hs2 b
      rw [← hperm.count_eq, hl, List.count_append, List.count_cons_self] at h3
      omega
    have hupd : ∀ (f : LinkId → ℕ), f = (fun b => E b + pre.count b) →
        upd f b (f b + 1) = fun c => E c + (pre ++ [b]).count c := by
      rintro f rfl
      funext c
      rw [upd_apply, List.count_append]
      split
      · rename_i e; subst e; simp; omega
      · rename_i e; rw [List.count_singleton]; simp [Ne.symm e]
    have hle : ∀ c, E c + pre.count c ≤ E c + (pre ++ [b]).count c := by
      intro c; rw [List.count_append]; omega
    rcases transferOne_spec j1.c (by rw [j2.nNodes]; exact hn) hs with rfl | ⟨r', v, a, Z, hm, h3⟩
    · exact ⟨j1.mono hle, j2⟩
    · have m1 := (j1.rng r').move (by simpa using hcount) hm
      rw [hupd _ rfl] at m1
      have st1 := (j2.trans (rng_prim s r').static).trans hm.static
      rcases h3 with rfl | ⟨w, h4⟩
      · exact ⟨m1, st1⟩
      · exact ⟨m1.endTrip h4, st1.trans h4.static⟩

/-- Unsettled vehicles after the nodes below `k` were processed. -/
def unsettled (f lanes : LinkId → ℕ) (k : ℕ) (b : LinkId) : ℕ := if f b < k then lanes b else 0

theorem unsettled_eq {f lanes : LinkId → ℕ} {k : ℕ} {b : LinkId} (h : f b = k) :
    unsettled f lanes k b = 0 := by
  unfold unsettled; split_ifs <;> omega

theorem unsettled_succ {f lanes : LinkId → ℕ} {k : ℕ} {b : LinkId} :
    (if f b = k then lanes b else unsettled f lanes k b) ≤ unsettled f lanes (k + 1) b := by
  unfold unsettled; split_ifs <;> omega

/-- The transfer phase. -/
theorem GapJ.transfers {W W' : World} (h : GapJ (fun _ => 0) W)
    (ht : (List.range W.nNodes).foldlM World.transfer W = .ok W') : GapJ W.L.lanes W' := by
  have key := foldlM_inv_idx (k0 := 0) (P := fun k W1 =>
      GapJ (unsettled W.L.startN W.L.lanes k) W1 ∧ Static W W1)
    (fun k s n s' hn ⟨h1, h2⟩ hfa => by
      rw [Nat.zero_add] at h1 ⊢
      obtain ⟨hk, rfl⟩ : k < W.nNodes ∧ k = n := by
        rw [List.getElem?_eq_some_iff] at hn
        obtain ⟨h1, h2⟩ := hn
        simp at h1 h2; exact ⟨h1, h2⟩
      have hkn : k < s.nNodes := by rw [h2.nNodes]; exact hk
      have h3 := h1.transfer hkn (fun b hb => by
        rw [h2.startN] at hb; exact unsettled_eq hb) hfa
      refine ⟨h3.mono (fun b => ?_), h2.trans (transfer_star h1.c hkn hfa).static⟩
      rw [h2.startN, h2.lanes]
      exact unsettled_succ) ⟨h.mono (fun b => Nat.zero_le _), Static.refl W⟩ ht
  refine key.1.mono (fun b => ?_)
  unfold unsettled
  split <;> omega

/-! ### Second half of the step -/

theorem GNext.of_carfollow {W W' : World} (hc : Core W) (hg : GInv W) (hok : PhysOK W)
    (hs : W.running.foldlM carfollow W = .ok W') : GNext W' := by
  obtain ⟨mr, xn, rfl, h1, -⟩ := carfollow_all hc hs
  intro v w l hl hw
  have hl' : W.V.link v = some l := hl
  have hw' : W.V.leader v = some w := hw
  have h2 := hg v w l hl' hw'
  dsimp only
  rw [(h1 v l hl').1]
  have hfp : W.followPos v l ≤ W.cfg.fl (W.V.x w - W.gap l) := by
    rw [followPos_eq, hw']
    refine le_trans (min_le_left _ _) (max_le h2 le_rfl)
  unfold nextPos
  split
  · rename_i hlt; exact le_trans (le_of_lt hlt) hfp
  · exact hfp

theorem GNext.late {act : Act} {W W' : World} (ha : isLate act) (hc : Core W) (hL : LInv W)
    (hok : PhysOK W) (hn : KNext W) (hp : Prim act W W') (h : GNext W) : GNext W' := by
  have hs := hp.shape hc.s
  clear hp
  cases hs with
  | @endTrip _ v l t log s c lt tta hl hv hf hcd hrun hliv hlt hlog htta =>
    intro u w k hu hw
    dsimp only at hu hw ⊢
    have huv : u ≠ v := by rintro rfl; rw [upd_same] at hu; cases hu
    rw [upd_ne _ _ huv] at hu
    rw [detachL_apply] at hw
    split at hw
    · cases hw
    · rename_i hne
      obtain ⟨h1, h2, h3⟩ := hL.lead hc.s hu hw
      have hwv : w ≠ v := by rintro rfl; exact hne h2
      rw [upd_ne _ _ hwv]
      exact h u w k hu hw
  | @advance _ v hs hlo hinc =>
    intro u w k hu hw
    have h1 := h u w k hu hw
    dsimp only at hu hw ⊢
    have hwl := (hL.lead hc.s hu hw).1
    have h2 := (hn.nxt w k hwl).1
    rw [upd_apply]
    split
    · rename_i e; subst e
      refine le_trans h1 (hok.fl.mono ?_)
      show W.V.x w - W.gap k ≤ W.V.xNext w - W.gap k
      linarith
    · exact h1
  | @depart _ n v t cs l o hn hq hcs hl hout hent hcum hlead => exact ha.elim
  | @move _ n v a b t o q nl fc tta hn hinc hla hv hr hsig hout hfl hent hcd hca hu hlead hnl hq hfc htta =>
    exact ha.elim
  | @carfollow _ v l mr xn hrun hl hx => exact ha.elim
  | _ => exact h.congr rfl rfl rfl rfl rfl rfl

/-- Between steps: spacing, and all vehicles have moved. -/
structure GapI (W : World) : Prop where
  g : GInv W
  s : ∀ v l, W.V.link v = some l → W.V.xOld v ≤ W.V.x v

theorem GapI.congr {W W' : World} (h : GapI W) (h1 : W'.V.link = W.V.link) (h2 : W'.V.x = W.V.x)
    (h3 : W'.V.leader = W.V.leader) (h4 : W'.cfg = W.cfg) (h5 : W'.L.deltaPerLane = W.L.deltaPerLane)
    (h6 : W'.V.xOld = W.V.xOld) : GapI W' :=
  ⟨h.g.congr h1 h2 h3 h4 h5, by rw [h1, h2, h6]; exact h.s⟩

theorem GapI.step {W W1 : World} (hi : Inv W) (hf : W.finalized = true) (hok : PhysOK W) (hk : KInv W)
    (hL : LInv W) (hns : NoStale W) (h : W.step = .ok W1) (h0 : GapI W) :
    GapI { W1 with T := W1.T + 1 } := by
  obtain ⟨A, B, C, D, E, F, hp, rfl⟩ := step_phases (hi.core hf) h
  have hc := hi.core hf
  obtain ⟨kA, kB, kC, ⟨kD, nD⟩, kE, kF⟩ := hp.kin hc hok hk
  have j0 : GapJ (fun _ => 0) W := ⟨hc, hL, hok, h0.g, fun b i v hv _ => .inl
    (h0.s v b (hc.s.vehs_link b v (List.mem_of_getElem? hv))), hns⟩
  have hgen : ∀ {A : Act → Prop} {X Y : World}, (∀ a, A a → isLinkTick a ∨ isGen a) → PStar A X Y →
      GapJ (fun _ => 0) X → GapJ (fun _ => 0) Y := by
    intro A X Y hA hXY
    refine hXY.inv (P := GapJ (fun _ => 0)) (fun a Z Z' ha hz hp => ?_)
    obtain ⟨h1, h2⟩ := gap_gen (hA a ha) hz.c hz.l hz.p hp hz.g hz.s
    refine ⟨hz.c.prim hp, hz.l.prim hz.c hp, hz.p.static hp.static, h1, h2, hz.n.early ?_ hz.c hp⟩
    rcases hA a ha with h | h
    · exact isEarly_of (.inl h)
    · exact isEarly_of (.inr (.inl h))
  have jA := hgen (fun a ha => .inl ha) hp.s1 j0
  have jB := hgen (fun a ha => .inr ha) hp.s2 jA
  have jC := jB.transfers hp.p3
  have gD := GNext.of_carfollow hp.c3 jC.g jC.p hp.p4
  have LD := hp.s4.inv_core (P := LInv) (fun a Z Z' ha hcZ hp hz => hz.prim hcZ hp) hp.c3 jC.l
  have oD := jC.p.static hp.s4.static
  have hlate : ∀ {A : Act → Prop} {X Y : World}, (∀ a, A a → isLate a) → PStar A X Y → Core X →
      (LInv X ∧ PhysOK X ∧ KNext X ∧ GNext X) → LInv Y ∧ PhysOK Y ∧ KNext Y ∧ GNext Y := by
    intro A X Y hA hXY hcX
    exact hXY.inv_core (P := fun Z => LInv Z ∧ PhysOK Z ∧ KNext Z ∧ GNext Z)
      (fun a Z Z' ha hcZ hp hz => ⟨hz.1.prim hcZ hp, hz.2.1.static hp.static,
        hz.2.2.1.late (hA a ha) hcZ hz.2.1 hp, hz.2.2.2.late (hA a ha) hcZ hz.1 hz.2.1 hz.2.2.1 hp⟩) hcX
  have jE := hlate isUpdAny_late hp.s5 hp.c4 ⟨LD, oD, nD, gD⟩
  have jF := hlate isRouting_late hp.s6 hp.c5 jE
  have hgF : GInv F := fun v w l hl hw => le_trans (kF.2.1.nxt v l hl).1 (jF.2.2.2 v w l hl hw)
  have : GapI F := ⟨hgF, fun v l hl => ((kF.2.2 v).ok l hl).1⟩
  exact this.congr rfl rfl rfl rfl rfl rfl

theorem GapI.reach {OK : World → Prop} (hO : ∀ W, OK W → PhysOK W ∧ NoStale W) {W : World}
    (h : Reachable OK W) : GapI W := by
  have h' := (h.strengthen (Q := LInv) (fun W h => LInv.reach h)).strengthen (Q := KInv)
    (fun W h => KInv.reach (fun W h => (hO W h.1).1) h)
  clear h
  refine Reachable.induct (P := GapI) ?_ ?_ ?_ ?_ ?_ ?_ ?_ ?_ h'
  · intro cfg tmax rng
    constructor
    · intro v w l hl; simp [World.new] at hl
    · simp [World.new]
  · intro W a ph t soff hi hf hn _ _ hT
    exact hT.congr rfl rfl rfl rfl rfl rfl
  · intro W W' a hi hf ha _ _ hT
    obtain ⟨s, e, nm, k, p, -, -, -, -, -, -, rfl⟩ := addLink_ok ha
    have hno : ∀ v l, W.V.link v ≠ some l := by
      intro v l hl
      have := (hi.s.link_run v l hl).1
      rw [hi.s.unfinal hf v] at this
      cases this
    exact ⟨fun v w l hl _ => absurd hl (hno v l), fun v l hl => absurd hl (hno v l)⟩
  · intro W W' a hi ha hok _ hT
    obtain ⟨o, d, dep, pref, cache, lp, la, nm, -, -, -, -, -, -, -, -, rfl⟩ := addVehicle_ok ha
    have hlead : ∀ v w l, W.V.link v = some l → W.V.leader v = some w → w ≠ W.nVeh := by
      rintro v w l hl hw rfl
      have h1 := (hok.1.2.lead hi.s hl hw).1
      have h2 := (hi.s.link_run _ _ h1).1
      rw [hi.s.fresh W.nVeh le_rfl] at h2; cases h2
    obtain ⟨h1, h2⟩ := hT
    refine ⟨fun v w l => ?_, fun v l => ?_⟩
    · have h1 := h1 v w l
      have h3 := hlead v w l
      have e1 : (W.addVehRes a o d dep pref cache lp la nm).gap l = W.gap l := rfl
      rw [e1]
      simp only [addVehRes, upd_apply]
      grind
    · have h2 := h2 v l
      simp only [addVehRes, upd_apply]
      grind
  · intro W tm hi hf _ _ hT
    obtain ⟨ts, tta, fc, fr, la, hr⟩ := finalize_frame W tm
    rw [hr]
    exact hT.congr rfl rfl rfl rfl rfl rfl
  · intro W W' _ _ _ hs hT
    obtain ⟨_, _, _, _, _, _, _, rfl, -⟩ := hs
    exact hT.congr rfl rfl rfl rfl rfl rfl
  · intro W W' hi _ _ hs hT
    obtain ⟨_, _, _, _, _, _, _, _, _, _, _, _, _, _, _, dpl, _, _, _, rfl, hd⟩ := hs
    refine ⟨fun v w l hl hw => ?_, hT.s⟩
    have h1 := hT.g v w l hl hw
    have h2 := hd l (List.ne_nil_of_mem (hi.s.link_run v l hl).2.1)
    unfold World.gap at h1 ⊢
    dsimp only
    rw [h2]
    exact h1
  · intro W W1 W' hi hf _ hok _ h1 hW hT
    subst hW
    have ho := hO W hok.1.1
    exact hT.step hi hf ho.1 hok.2 hok.1.2 ho.2 h1

end UX
