import Verif.Proofs.TravelTime
import Verif.Proofs.EInv
import Verif.Proofs.Forward

/-! Trips are not faster than free flow along the links travelled (exact arithmetic). -/

namespace UX
open World

/-- Links (first link first) that form a connected path from node `o`. -/
def Trail (s e : LinkId → NodeId) : NodeId → List LinkId → Prop
  | _, [] => True
  | o, l :: r => s l = o ∧ Trail s e (e l) r

/-- Free-flow time along links. -/
def freeSum (len u : LinkId → ℚ) (ls : List LinkId) : ℚ := (ls.map (fun l => len l / u l)).sum

theorem Trail.snoc {s e : LinkId → NodeId} {o : NodeId} {r : List LinkId} {a b : LinkId}
    (h : Trail s e o (r ++ [a])) (hb : s b = e a) : Trail s e o (r ++ [a] ++ [b]) := by
  induction r generalizing o with
  | nil => exact ⟨h.1, hb, trivial⟩
  | cons c r ih => exact ⟨h.1, ih h.2⟩

theorem freeSum_snoc (len u : LinkId → ℚ) (r : List LinkId) (l : LinkId) :
    freeSum len u (r ++ [l]) = freeSum len u r + len l / u l := by simp [freeSum]

theorem travelled_other {v : VehId} {e : Event} {tr : List Event} (h : takes v e = none) :
    travelled v (e :: tr) = travelled v tr := by
  unfold travelled; rw [List.filterMap_cons, h]

theorem travelled_take {v : VehId} {e : Event} {tr : List Event} {l : LinkId} (h : takes v e = some l) :
    travelled v (e :: tr) = travelled v tr ++ [l] := by
  unfold travelled; rw [List.filterMap_cons, h]; simp

/-- Time used so far. `b = 0` between steps and in the first half of a step, `b = 1` in the second. -/
structure FF (u0 : LinkId → ℚ) (b : ℕ) (W : World) : Prop where
  run : ∀ v l, W.V.mode v = .single → W.V.link v = some l → ∃ ls, travelled v W.trace = ls ++ [l] ∧
    Trail W.L.startN W.L.endN (W.V.orig v) (ls ++ [l]) ∧
    freeSum W.L.length u0 ls + (W.V.x v + W.V.moveRemain v) / u0 l ≤
      ((W.T : ℚ) - W.V.depTime v - 1 + b) * W.cfg.deltat ∧
    (b = 1 → freeSum W.L.length u0 ls + (W.V.xNext v + W.V.moveRemain v) / u0 l ≤
      ((W.T : ℚ) - W.V.depTime v) * W.cfg.deltat)
  idle : ∀ v, W.V.state v = .home ∨ W.V.state v = .wait → travelled v W.trace = []
  fin : ∀ (T : ℕ) v l ab, .finish T v l ab ∈ W.trace → W.V.mode v = .single → ∃ ls,
    travelled v W.trace = ls ++ [l] ∧ Trail W.L.startN W.L.endN (W.V.orig v) (ls ++ [l]) ∧
    freeSum W.L.length u0 (ls ++ [l]) ≤ ((T : ℚ) - W.V.depTime v) * W.cfg.deltat
  lks : ∀ v, ∀ l ∈ travelled v W.trace, l < W.nLinks

namespace FF

theorem congr {u0 b} {W W' : World} (h : FF u0 b W) (h1 : W'.V.link = W.V.link) (h2 : W'.V.x = W.V.x)
    (h3 : W'.L.length = W.L.length) (h4 : W'.cfg = W.cfg) (h5 : W'.V.moveRemain = W.V.moveRemain)
    (h6 : W'.trace = W.trace) (h7 : W'.T = W.T) (h8 : W'.V.xNext = W.V.xNext)
    (h9 : W'.V.state = W.V.state) (h10 : W'.V.mode = W.V.mode) (h11 : W'.L.startN = W.L.startN)
    (h12 : W'.L.endN = W.L.endN) (h13 : W'.V.orig = W.V.orig) (h14 : W'.V.depTime = W.V.depTime)
    (h15 : W'.nLinks = W.nLinks) : FF u0 b W' := by
  obtain ⟨a1, a2, a3, a4⟩ := h
  constructor
  · rw [h1, h2, h3, h4, h5, h6, h7, h8, h10, h11, h12, h13, h14]; exact a1
  · rw [h9, h6]; exact a2
  · rw [h6, h10, h11, h12, h13, h3, h14, h4]; exact a3
  · rw [h6, h15]; exact a4

/-- End of a trip, in either half. -/
theorem endTrip {u0 b} {W W' : World} {v l} (hb : b ≤ 1) (hc : Core W) (hok : ExactOK u0 W) (hk : KInv W)
    (ht : TT u0 b W) (hp : Prim (.endTrip v l) W W') (h : FF u0 b W) : FF u0 b W' := by
  have hs := hp.shape hc.s
  clear hp
  cases hs with
  | @endTrip _ v l t log s c lt tta hl hv hf hcd hrun hliv hlt hlog htta =>
    have hlk : l < W.nLinks := (hc.s.link_run v l hl).2.2
    obtain ⟨hul, hu0⟩ := hok.u l hlk
    have hx := ht.flag v l hl hf
    have hd := hok.phys.dt
    have hbq : (b : ℚ) ≤ 1 := by exact_mod_cast hb
    constructor
    · intro u k hm hu
      dsimp only at hm hu ⊢
      have huv : u ≠ v := by rintro rfl; rw [upd_same] at hu; cases hu
      rw [upd_ne _ _ huv] at hu ⊢
      rw [travelled_other rfl]
      exact h.run u k hm hu
    · intro u hu
      dsimp only at hu ⊢
      rw [travelled_other rfl]
      refine h.idle u ?_
      rw [upd_apply] at hu
      split at hu
      · split at hu <;> simp at hu
      · exact hu
    · intro T u k ab he hm
      dsimp only at he hm ⊢
      rw [travelled_other rfl]
      rcases List.mem_cons.mp he with he | he
      · simp only [Event.finish.injEq] at he
        obtain ⟨rfl, rfl, rfl, -⟩ := he
        obtain ⟨ls, e1, e2, e3, -⟩ := h.run u k hm hl
        refine ⟨ls, e1, e2, ?_⟩
        rw [freeSum_snoc, ← hx]
        have h1 : W.V.x u / u0 k ≤ (W.V.x u + W.V.moveRemain u) / u0 k :=
          div_le_div_of_nonneg_right (by linarith [hk.mr u]) hu0.le
        have h2 : ((W.T : ℚ) - W.V.depTime u - 1 + b) * W.cfg.deltat ≤
            ((W.T : ℚ) - W.V.depTime u) * W.cfg.deltat :=
          mul_le_mul_of_nonneg_right (by linarith) hd
        linarith
      · exact h.fin T u k ab he hm
    · intro u k hu
      rw [travelled_other rfl] at hu
      exact h.lks u k hu

theorem early {u0} {act : Act} {W W' : World} (ha : isEarly act) (hncf : ∀ v, act ≠ .carfollow v)
    (hc : Core W) (hok : ExactOK u0 W) (hk : KInv W) (ht : TT u0 0 W) (he : EInv 0 W) (hfr : FreshChoice W)
    (hp : Prim act W W') (h : FF u0 0 W) : FF u0 0 W' := by
  by_cases hE : ∃ v l, act = .endTrip v l
  · obtain ⟨v, l, rfl⟩ := hE
    exact h.endTrip (Nat.zero_le _) hc hok hk ht hp
  have hs := hp.shape hc.s
  clear hp
  have hfl : ∀ q, W.fl q = q := fun q => by unfold World.fl; rw [hok.exact]; rfl
  have hd := hok.phys.dt
  cases hs with
  | @depart _ n v t cs l o hn hq hcs hl hout hent hcum hlead =>
    obtain ⟨hl', hsl⟩ := (hc.s.out_iff n l).mp hout
    obtain ⟨hw, ho⟩ := hc.s.genq_mem n v (by simp [hq])
    have hdep : (W.V.depTime v : ℚ) + 1 ≤ W.T := by
      have := he.wait v hw
      have h2 : W.V.depTime v + 1 ≤ (W.T : ℤ) := by push_cast at this; omega
      exact_mod_cast h2
    have hnil := h.idle v (.inr hw)
    have htk : takes v (.depart W.T v n l) = some l := by simp [takes]
    constructor
    · intro u k hm hu
      dsimp only at hm hu ⊢
      by_cases huv : u = v
      · subst huv
        simp only [upd_same] at hu ⊢
        obtain rfl : l = k := by simpa using hu
        refine ⟨[], by rw [travelled_take htk, hnil], ⟨hsl.trans ho.symm, trivial⟩, ?_, by simp⟩
        rw [ht.mr0 u (.inr hw)]
        simp only [freeSum, List.map_nil, List.sum_nil, add_zero, zero_div, Nat.cast_zero]
        exact mul_nonneg (by linarith) hd
      · simp only [upd_ne _ _ huv] at hu ⊢
        rw [travelled_other (by simp [takes, Ne.symm huv])]
        exact h.run u k hm hu
    · intro u hu
      dsimp only at hu ⊢
      have huv : u ≠ v := by rintro rfl; rw [upd_same] at hu; simp at hu
      rw [upd_ne _ _ huv] at hu
      rw [travelled_other (by simp [takes, Ne.symm huv])]
      exact h.idle u hu
    · intro T u k ab hm' hm
      dsimp only at hm' hm ⊢
      replace hm' : Event.finish T u k ab ∈ W.trace := by simpa using hm'
      have huv : u ≠ v := by
        rintro rfl
        obtain ⟨-, -, f1, f2⟩ := he.ev_fin T u k ab hm'
        cases ab
        · rw [(f1 rfl).1] at hw; cases hw
        · rw [(f2 rfl).1] at hw; cases hw
      rw [travelled_other (by simp [takes, Ne.symm huv])]
      exact h.fin T u k ab hm' hm
    · intro u k hu
      dsimp only at hu ⊢
      by_cases huv : u = v
      · subst huv
        rw [travelled_take htk, hnil] at hu
        obtain rfl : k = l := by simpa using hu
        exact hl'
      · rw [travelled_other (by simp [takes, Ne.symm huv])] at hu
        exact h.lks u k hu
  | @move _ n v a b t o q nl fc tta hn hinc hla hv hr hsig hout hfl' hent hcd hca hu hlead hnl hq hfc htta =>
    have hal : a < W.nLinks := (hc.s.link_run v a hla).2.2
    have hbl : b < W.nLinks := hc.s.rnl_lt v b hr
    obtain ⟨hua, hua0⟩ := hok.u a hal
    obtain ⟨hub, hub0⟩ := hok.u b hbl
    obtain ⟨hen, hx, -⟩ := hc.s.inc_run n v a hinc hla
    have hrun := (hc.s.link_run v a hla).1
    have hq1 : q / u0 b ≤ W.V.moveRemain v / u0 a := by
      rw [div_le_iff₀ hub0, hq, carryOver_eq]
      refine le_trans carryPos_le (le_of_eq ?_)
      rw [hfl, hfl, hua, hub]
      ring
    constructor
    · intro u k hm hu
      dsimp only at hm hu ⊢
      by_cases huv : u = v
      · subst huv
        simp only [upd_same] at hu ⊢
        obtain rfl : b = k := by simpa using hu
        obtain ⟨ls, e1, e2, e3, -⟩ := h.run u a hm hla
        have hsb := (hfr n u b hinc hm hr).2
        refine ⟨ls ++ [a], by rw [travelled_take (l := b) (by simp [takes]), e1], e2.snoc (hsb.trans hen.symm), ?_, by simp⟩
        rw [freeSum_snoc, add_zero]
        rw [hx, add_div] at e3
        linarith
      · simp only [upd_ne _ _ huv] at hu ⊢
        rw [travelled_other (by simp [takes, Ne.symm huv])]
        exact h.run u k hm hu
    · intro u hu
      dsimp only at hu ⊢
      have huv : u ≠ v := by rintro rfl; rw [hrun] at hu; simp at hu
      rw [travelled_other (by simp [takes, Ne.symm huv])]
      exact h.idle u hu
    · intro T u k ab hm' hm
      dsimp only at hm' hm ⊢
      replace hm' : Event.finish T u k ab ∈ W.trace := by simpa using hm'
      have huv : u ≠ v := by
        rintro rfl
        obtain ⟨-, -, f1, f2⟩ := he.ev_fin T u k ab hm'
        cases ab
        · rw [(f1 rfl).1] at hrun; cases hrun
        · rw [(f2 rfl).1] at hrun; cases hrun
      rw [travelled_other (by simp [takes, Ne.symm huv])]
      exact h.fin T u k ab hm' hm
    · intro u k hu
      dsimp only at hu ⊢
      by_cases huv : u = v
      · subst huv
        rw [travelled_take (l := b) (by simp [takes])] at hu
        rcases List.mem_append.mp hu with hu | hu
        · exact h.lks u k hu
        · obtain rfl : k = b := by simpa using hu
          exact hbl
      · rw [travelled_other (by simp [takes, Ne.symm huv])] at hu
        exact h.lks u k hu
  | @carfollow _ v l mr xn hrun hl hx => exact absurd rfl (hncf v)
  | linkTick => exact h.congr rfl rfl rfl rfl rfl rfl rfl rfl rfl rfl rfl rfl rfl rfl rfl
  | nodeTick => exact h.congr rfl rfl rfl rfl rfl rfl rfl rfl rfl rfl rfl rfl rfl rfl rfl
  | clearInc => exact h.congr rfl rfl rfl rfl rfl rfl rfl rfl rfl rfl rfl rfl rfl rfl rfl
  | routing => exact h.congr rfl rfl rfl rfl rfl rfl rfl rfl rfl rfl rfl rfl rfl rfl rfl
  | endTrip => exact absurd ⟨_, _, rfl⟩ hE
  | _ => exact ha.elim

/-- The car-following phase. -/
theorem follow {u0} {W W' : World} (hc : Core W) (hok : ExactOK u0 W) (hk : KInv W)
    (hs : W.running.foldlM carfollow W = .ok W') (h : FF u0 0 W) : FF u0 1 W' := by
  have hfl : ∀ q, W.fl q = q := fun q => by unfold World.fl; rw [hok.exact]; rfl
  have hn := KNext.of_carfollow hc hok.phys hk hs
  obtain ⟨mr, xn, rfl, h1, -⟩ := carfollow_all hc hs
  obtain ⟨a1, a2, a3, a4⟩ := h
  refine ⟨fun v l hm hl => ?_, a2, a3, a4⟩
  have hl' : W.V.link v = some l := hl
  obtain ⟨ls, e1, e2, e3, -⟩ := a1 v l hm hl'
  obtain ⟨hul, hu0⟩ := hok.u l (hc.s.link_run v l hl').2.2
  obtain ⟨hx, hmr⟩ := h1 v l hl'
  have hxn := (hn.nxt v l hl).1
  have hfp : W.followPos v l ≤ W.V.x v + u0 l * W.cfg.deltat := by
    have h4 : W.cfg.fl (W.V.x v + W.cfg.fl (W.L.u l * W.cfg.deltat)) =
      W.V.x v + u0 l * W.cfg.deltat := by rw [hok.exact, hul]; rfl
    rw [followPos_eq, ← h4]
    split
    · exact min_le_right _ _
    · exact le_rfl
  have key : xn v + mr v ≤ W.V.x v + W.V.moveRemain v + u0 l * W.cfg.deltat := by
    have hm0 := hk.mr v
    rw [hx, hmr]
    unfold nextPos nextRemain
    by_cases hlt : W.L.length l < W.followPos v l
    · rw [if_pos hlt, if_pos hlt, hfl]; linarith
    · rw [if_neg hlt, if_neg hlt]; linarith
  have key2 : (xn v + mr v) / u0 l ≤ (W.V.x v + W.V.moveRemain v) / u0 l + W.cfg.deltat := by
    rw [div_add' _ _ _ hu0.ne', mul_comm W.cfg.deltat]
    exact div_le_div_of_nonneg_right key hu0.le
  have key3 : (W.V.x v + mr v) / u0 l ≤ (xn v + mr v) / u0 l :=
    div_le_div_of_nonneg_right (by dsimp only at hxn; linarith) hu0.le
  have e4 : freeSum W.L.length u0 ls + (W.V.x v + W.V.moveRemain v) / u0 l + W.cfg.deltat ≤
      ((W.T : ℚ) - W.V.depTime v) * W.cfg.deltat := by
    have : ((W.T : ℚ) - W.V.depTime v - 1 + (0 : ℕ)) * W.cfg.deltat + W.cfg.deltat =
      ((W.T : ℚ) - W.V.depTime v) * W.cfg.deltat := by push_cast; ring
    linarith
  refine ⟨ls, e1, e2, ?_, fun _ => ?_⟩
  · dsimp only
    have : ((W.T : ℚ) - W.V.depTime v - 1 + (1 : ℕ)) = (W.T : ℚ) - W.V.depTime v := by push_cast; ring
    rw [this]
    linarith
  · dsimp only
    linarith

theorem late {u0} {act : Act} {W W' : World} (ha : isLate act) (hc : Core W) (hok : ExactOK u0 W)
    (hk : KInv W) (ht : TT u0 1 W) (hp : Prim act W W') (h : FF u0 1 W) : FF u0 1 W' := by
  by_cases hE : ∃ v l, act = .endTrip v l
  · obtain ⟨v, l, rfl⟩ := hE
    exact h.endTrip le_rfl hc hok hk ht hp
  have hs := hp.shape hc.s
  clear hp
  cases hs with
  | @advance _ v hs hlo hinc =>
    obtain ⟨a1, a2, a3, a4⟩ := h
    refine ⟨fun u k hm hu => ?_, a2, a3, a4⟩
    obtain ⟨ls, e1, e2, e3, e4⟩ := a1 u k hm hu
    refine ⟨ls, e1, e2, ?_, e4⟩
    dsimp only
    rw [upd_apply]
    split
    · rename_i e; subst e
      refine le_trans (e4 rfl) (le_of_eq ?_)
      push_cast; ring
    · exact e3
  | @startWait _ v hliv hs hd =>
    obtain ⟨a1, a2, a3, a4⟩ := h
    refine ⟨fun u k hm hu => ?_, fun u hu => ?_, fun T u k ab he hm => ?_, fun u k hu => ?_⟩
    · rw [travelled_other rfl]; exact a1 u k hm hu
    · dsimp only at hu ⊢
      rw [travelled_other rfl]
      refine a2 u ?_
      rw [upd_apply] at hu
      split at hu
      · rename_i e; subst e; exact .inl hs
      · exact hu
    · rw [travelled_other rfl]
      exact a3 T u k ab (by simpa using he) hm
    · rw [travelled_other rfl] at hu
      exact a4 u k hu
  | @depart _ n v t cs l o hn hq hcs hl hout hent hcum hlead => exact ha.elim
  | @move _ n v a b t o q nl fc tta hn hinc hla hv hr hsig hout hfl hent hcd hca hu hlead hnl hq hfc htta =>
    exact ha.elim
  | @carfollow _ v l mr xn hrun hl hx => exact ha.elim
  | endTrip => exact absurd ⟨_, _, rfl⟩ hE
  | _ => exact h.congr rfl rfl rfl rfl rfl rfl rfl rfl rfl rfl rfl rfl rfl rfl rfl

theorem step {u0} {W W1 : World} (hi : Inv W) (hf : W.finalized = true) (hok : ExactOK u0 W)
    (hk : KInv W) (ht : TT u0 0 W) (he : EInv 0 W) (hfr : FreshChoice W)
    (h : W.step = .ok W1) (h0 : FF u0 0 W) : FF u0 0 { W1 with T := W1.T + 1 } := by
  obtain ⟨A, B, C, D, E, F, hp, rfl⟩ := step_phases (hi.core hf) h
  have hc := hi.core hf
  obtain ⟨kA, kB, kC, ⟨kD, nD⟩, kE, kF⟩ := hp.kin hc hok.phys hk
  let P : World → Prop := fun Z => ExactOK u0 Z ∧ KInv Z ∧ TT u0 0 Z ∧ EInv 0 Z ∧ FreshChoice Z
  have hP : ∀ {a : Act} {Z Z' : World}, isEarly a → Core Z → Prim a Z Z' → P Z → P Z' := by
    intro a Z Z' ha hcZ hp hz
    exact ⟨hz.1.static hp.static, hz.2.1.early ha hcZ hz.1.phys hp, hz.2.2.1.early ha hcZ hz.1 hz.2.1 hp,
      hz.2.2.2.1.early ha hcZ hp rfl, hz.2.2.2.2.prim hcZ hp⟩
  have hearly : ∀ {A : Act → Prop} {X Y : World}, (∀ a, A a → isEarly a ∧ ∀ v, a ≠ .carfollow v) →
      PStar A X Y → Core X → (P X ∧ FF u0 0 X) → P Y ∧ FF u0 0 Y := by
    intro A X Y hA hXY hcX
    exact hXY.inv_core (P := fun Z => P Z ∧ FF u0 0 Z)
      (fun a Z Z' ha hcZ hp hz => ⟨hP (hA a ha).1 hcZ hp hz.1,
        hz.2.early (hA a ha).1 (hA a ha).2 hcZ hz.1.1 hz.1.2.1 hz.1.2.2.1 hz.1.2.2.2.1 hz.1.2.2.2.2 hp⟩) hcX
  have jA := hearly (fun a ha => ⟨isEarly_of (.inl ha), by rintro v rfl; exact ha⟩) hp.s1 hc
    ⟨⟨hok, hk, ht, he, hfr⟩, h0⟩
  have jB := hearly (fun a ha => ⟨isEarly_of (.inr (.inl ha)), by rintro v rfl; exact ha⟩) hp.s2 hp.c1 jA
  have jC := hearly (fun a ha => ⟨isEarly_of (.inr (.inr (.inl ha))), by rintro v rfl; exact ha⟩) hp.s3 hp.c2 jB
  have jD := hp.s4.inv_core (P := P) (fun a Z Z' ha hcZ hp hz => hP (isEarly_of (.inr (.inr (.inr ha)))) hcZ hp hz)
    hp.c3 jC.1
  have fD : FF u0 1 D := jC.2.follow hp.c3 jC.1.1 jC.1.2.1 hp.p4
  have hlate : ∀ {A : Act → Prop} {X Y : World}, (∀ a, A a → isLate a) → PStar A X Y → Core X →
      (ExactOK u0 X ∧ KInv X ∧ KNext X ∧ TT u0 1 X ∧ FF u0 1 X) →
      ExactOK u0 Y ∧ KInv Y ∧ KNext Y ∧ TT u0 1 Y ∧ FF u0 1 Y := by
    intro A X Y hA hXY hcX
    exact hXY.inv_core (P := fun Z => ExactOK u0 Z ∧ KInv Z ∧ KNext Z ∧ TT u0 1 Z ∧ FF u0 1 Z)
      (fun a Z Z' ha hcZ hp hz => ⟨hz.1.static hp.static, hz.2.1.late (hA a ha) hcZ hp hz.2.2.1,
        hz.2.2.1.late (hA a ha) hcZ hz.1.phys hp, hz.2.2.2.1.late (hA a ha) hcZ hz.1 hz.2.2.1 hp,
        hz.2.2.2.2.late (hA a ha) hcZ hz.1 hz.2.1 hz.2.2.2.1 hp⟩) hcX
  have jE := hlate isUpdAny_late hp.s5 hp.c4 ⟨jD.1, kD, nD, jD.2.2.1.weaken hp.c4 jD.1 nD, fD⟩
  have jF := (hlate isRouting_late hp.s6 hp.c5 jE).2.2.2.2
  obtain ⟨a1, a2, a3, a4⟩ := jF
  refine ⟨fun v l hm hl => ?_, a2, a3, a4⟩
  obtain ⟨ls, e1, e2, e3, -⟩ := a1 v l hm hl
  refine ⟨ls, e1, e2, ?_, by simp⟩
  refine le_trans e3 (le_of_eq ?_)
  push_cast
  ring

theorem reach {u0} {OK : World → Prop} (hO : ∀ W, OK W → ExactOK u0 W) {W : World}
    (h : Reachable OK W) : FF u0 0 W := by
  have h' := h.strengthen (Q := fun W => KInv W ∧ TT u0 0 W ∧ EInv 0 W ∧ FreshChoice W)
    (fun W h => ⟨KInv.reach (fun W h => (hO W h).phys) h, TT.reach hO h, EInv.reach h, FreshChoice.reach h⟩)
  clear h
  refine Reachable.induct (P := FF u0 0) ?_ ?_ ?_ ?_ ?_ ?_ ?_ ?_ h'
  · intro cfg tmax rng
    constructor <;> simp [World.new, travelled]
  · intro W a ph t soff hi hf hn _ _ hT
    exact hT.congr rfl rfl rfl rfl rfl rfl rfl rfl rfl rfl rfl rfl rfl rfl rfl
  · intro W W' a hi hf ha hok _ hT
    have htr := hok.2.2.1.unf hf
    obtain ⟨s, e, nm, k, p, -, -, -, -, -, -, rfl⟩ := addLink_ok ha
    refine ⟨fun v l _ hl => ?_, hT.idle, fun T v l ab he => ?_, fun v l hl => ?_⟩
    · have := (hi.s.link_run v l hl).1
      rw [hi.s.unfinal hf v] at this
      cases this
    · have he : Event.finish T v l ab ∈ W.trace := he
      rw [htr] at he; cases he
    · have hl : l ∈ travelled v W.trace := hl
      rw [htr] at hl; simp [travelled] at hl
  · intro W W' a hi ha hok _ hT
    obtain ⟨o, d, dep, pref, cache, lp, la, nm, -, -, -, -, -, -, -, -, rfl⟩ := addVehicle_ok ha
    have hnew := hT.idle W.nVeh (.inl (hi.s.fresh _ le_rfl))
    obtain ⟨a1, a2, a3, a4⟩ := hT
    refine ⟨fun v l => ?_, fun v => ?_, fun T v l ab he => ?_, a4⟩
    · have h1 := a1 v l
      simp only [addVehRes, upd_apply]
      split
      · simp
      · exact h1
    · have h1 := a2 v
      simp only [addVehRes, upd_apply]
      split
      · rename_i e; subst e; exact fun _ => hnew
      · exact h1
    · have he : Event.finish T v l ab ∈ W.trace := he
      have hne : v ≠ W.nVeh := by
        rintro rfl
        exact Nat.lt_irrefl _ (hok.2.2.2.1.ev_fin _ _ _ _ he).1
      simp only [addVehRes, upd_ne _ _ hne]
      exact a3 T v l ab he
  · intro W tm hi hf hok hok' hT
    have htr := hok.2.2.1.unf hf
    obtain ⟨ts, tta, fc, fr, la, hr⟩ := finalize_frame W tm
    rw [hr]
    refine ⟨fun v l _ hl => ?_, hT.idle, fun T v l ab he => ?_, hT.lks⟩
    · have := (hi.s.link_run v l hl).1
      rw [hi.s.unfinal hf v] at this
      cases this
    · have he : Event.finish T v l ab ∈ W.trace := he
      rw [htr] at he; cases he
  · intro W W' _ _ _ hs hT
    obtain ⟨_, _, _, _, _, _, _, rfl, -⟩ := hs
    exact hT.congr rfl rfl rfl rfl rfl rfl rfl rfl rfl rfl rfl rfl rfl rfl rfl
  · intro W W' hi _ _ hs hT
    obtain ⟨_, _, _, _, _, _, _, _, _, _, _, _, _, _, _, dpl, _, _, _, rfl, hd⟩ := hs
    exact hT.congr rfl rfl rfl rfl rfl rfl rfl rfl rfl rfl rfl rfl rfl rfl rfl
  · intro W W1 W' hi hf _ hok _ h1 hW hT
    subst hW
    exact hT.step hi hf (hO W hok.1) hok.2.1 hok.2.2.1 hok.2.2.2.1 hok.2.2.2.2 h1

end FF
end UX
