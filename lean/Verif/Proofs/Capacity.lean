import Verif.Proofs.Count
import Mathlib.Tactic.Linarith
import Mathlib.Tactic.Ring

/-! Capacity budgets: what was used plus what remains is at most what was granted. -/

namespace UX
open World

/-- A budget `R` that is refilled by at most `q` per step and never exceeds `B`; each selected event
uses `d`. `r = 1` once the refill of the current step `T` is done. -/
structure Budget (B q : ℚ) (d : ℕ) (sel : Event → Bool) (r T : ℕ) (R : ℚ) (tr : List Event) : Prop where
  nonneg : 0 ≤ R
  le : R ≤ B
  lt : ∀ e ∈ tr, sel e = true → e.at < T + r
  win : ∀ i, i ≤ T → d * (countBetween sel tr i (T + r) : ℚ) + R ≤ B + ((T + r : ℕ) - i) * q
  hist : ∀ i j, i ≤ j → j ≤ T → d * (countBetween sel tr i j : ℚ) ≤ B + ((j : ℚ) - i) * q

namespace Budget

variable {B q : ℚ} {d : ℕ} {sel : Event → Bool} {r T : ℕ} {R : ℚ} {tr : List Event}

theorem init (hq : 0 ≤ q) (h0 : 0 ≤ R) (h1 : R ≤ B) : Budget B q d sel 0 0 R [] := by
  refine ⟨h0, h1, by simp, fun i hi => ?_, fun i j hi hj => ?_⟩
  · obtain rfl : i = 0 := by omega
    simp [countBetween, h1]
  · obtain rfl : j = 0 := by omega
    obtain rfl : i = 0 := by omega
    simp [countBetween]; linarith

theorem refill (h : Budget B q d sel 0 T R tr) {m g R' : ℚ} (hg0 : 0 ≤ g) (hg : g ≤ q) (hm : m + q ≤ B)
    (hR : R' = if R < m then R + g else R) : Budget B q d sel 1 T R' tr := by
  obtain ⟨h1, h2, h3, h4, h5⟩ := h
  have hcnt : ∀ i, countBetween sel tr i (T + 1) = countBetween sel tr i (T + 0) := by
    intro i
    unfold countBetween
    apply List.countP_congr
    intro e he
    have := h3 e he
    simp only [Bool.and_eq_true, decide_eq_true_eq]
    constructor
    · rintro ⟨⟨a, b⟩, c⟩; exact ⟨⟨a, b⟩, this a⟩
    · rintro ⟨⟨a, b⟩, c⟩; exact ⟨⟨a, b⟩, by omega⟩
  refine ⟨?_, ?_, fun e he hs => ?_, fun i hi => ?_, h5⟩
  · rw [hR]; split <;> linarith
  · rw [hR]; split <;> linarith
  · have := h3 e he hs; omega
  · have := h4 i hi
    rw [hcnt]
    push_cast at this ⊢
    have hR' : R' ≤ R + q := by rw [hR]; split <;> linarith
    linarith

theorem use (h : Budget B q d sel 1 T R tr) {e : Event} (hs : sel e = true) (he : e.at = T)
    (hd : (d : ℚ) ≤ R) : Budget B q d sel 1 T (R - d) (e :: tr) := by
  obtain ⟨h1, h2, h3, h4, h5⟩ := h
  have hd0 : (0 : ℚ) ≤ d := by positivity
  refine ⟨by linarith, by linarith, ?_, fun i hi => ?_, fun i j hi hj => ?_⟩
  · simp only [List.mem_cons, forall_eq_or_imp]
    exact ⟨fun _ => by omega, h3⟩
  · have := h4 i hi
    have hc : countBetween sel (e :: tr) i (T + 1) = countBetween sel tr i (T + 1) + 1 := by
      unfold countBetween
      rw [List.countP_cons_of_pos]
      simp [hs, he, hi]
    rw [hc]
    push_cast at this ⊢
    linarith
  · have hc : countBetween sel (e :: tr) i j = countBetween sel tr i j := by
      unfold countBetween
      rw [List.countP_cons_of_neg]
      simp [he]; omega
    rw [hc]; exact h5 i j hi hj

theorem other (h : Budget B q d sel r T R tr) {e : Event} (hs : sel e = false) :
    Budget B q d sel r T R (e :: tr) := by
  obtain ⟨h1, h2, h3, h4, h5⟩ := h
  have hc : ∀ i j, countBetween sel (e :: tr) i j = countBetween sel tr i j := by
    intro i j
    unfold countBetween
    rw [List.countP_cons_of_neg]
    simp [hs]
  refine ⟨h1, h2, ?_, fun i hi => by rw [hc]; exact h4 i hi, fun i j hi hj => by rw [hc]; exact h5 i j hi hj⟩
  simp only [List.mem_cons, forall_eq_or_imp]
  exact ⟨fun h => (by rw [hs] at h; cases h), h3⟩

theorem tick (hq : 0 ≤ q) (h : Budget B q d sel 1 T R tr) : Budget B q d sel 0 (T + 1) R tr := by
  obtain ⟨h1, h2, h3, h4, h5⟩ := h
  have hz : countBetween sel tr (T + 1) (T + 1) = 0 := by
    unfold countBetween
    rw [List.countP_eq_zero]
    intro e he; simp
  refine ⟨h1, h2, h3, fun i hi => ?_, fun i j hi hj => ?_⟩
  · rcases Nat.lt_or_ge T i with h | h
    · obtain rfl : i = T + 1 := by omega
      rw [Nat.add_zero, hz]
      push_cast; linarith
    · exact h4 i h
  · rcases Nat.lt_or_ge T j with h | h
    · obtain rfl : j = T + 1 := by omega
      rcases Nat.lt_or_ge T i with h' | h'
      · obtain rfl : i = T + 1 := by omega
        rw [hz]; push_cast; linarith
      · have := h4 i h'
        push_cast at this ⊢
        linarith
    · exact h5 i j hi h

/-- The bound for every window. -/
theorem window (hq : 0 ≤ q) (h : Budget B q d sel 0 T R tr) {i j : ℕ} (hij : i ≤ j) :
    d * (countBetween sel tr i j : ℚ) ≤ ((j : ℚ) - i) * q + B := by
  have hj : countBetween sel tr i j = countBetween sel tr i (min j T) := by
    unfold countBetween
    apply List.countP_congr
    intro e he
    have := h.lt e he
    simp only [Bool.and_eq_true, decide_eq_true_eq]
    constructor
    · rintro ⟨⟨a, b⟩, c⟩; have := this a; exact ⟨⟨a, b⟩, by omega⟩
    · rintro ⟨⟨a, b⟩, c⟩; exact ⟨⟨a, b⟩, by omega⟩
  rw [hj]
  rcases le_total i T with hi | hi
  · have := h.hist i (min j T) (by omega) (by omega)
    have h2 : ((min j T : ℕ) : ℚ) - i ≤ (j : ℚ) - i := by
      have : ((min j T : ℕ) : ℚ) ≤ j := by exact_mod_cast Nat.min_le_left j T
      linarith
    have := mul_le_mul_of_nonneg_right h2 hq
    linarith
  · have h0 : countBetween sel tr i (min j T) = 0 := by
      unfold countBetween
      rw [List.countP_eq_zero]
      intro e he
      have := h.lt e he
      simp only [Bool.and_eq_true, decide_eq_true_eq, not_and]
      intro a b; omega
    rw [h0]
    have h1 : (0 : ℚ) ≤ (j : ℚ) - i := by
      have : (i : ℚ) ≤ j := by exact_mod_cast hij
      linarith
    have := mul_nonneg h1 hq
    have := h.nonneg
    have := h.le
    push_cast; linarith

end Budget

/-! ### Inflow of a link -/

/-- Assumptions on a link capacity: exact arithmetic, `capacity_in` between 0 and `c`, at most `m`
lanes. -/
structure InOK (c : ℚ) (m : ℕ) (l : LinkId) (W : World) : Prop where
  exact : W.cfg.fl = id
  dt : 0 ≤ W.cfg.deltat
  cap : 0 ≤ W.L.capIn l ∧ W.L.capIn l ≤ c
  lanes : W.L.lanes l ≤ m

def inBound (W : World) (c : ℚ) (m : ℕ) : ℚ := W.cfg.deltan * m + c * max 1 W.cfg.deltat

def InB (c : ℚ) (m r : ℕ) (l : LinkId) (W : World) : Prop :=
  Budget (inBound W c m) (c * W.cfg.deltat) W.cfg.deltan (entersLink l) r W.T (W.L.capInRem l) W.trace

theorem InB.congr {c m r l} {W W' : World} (h : InB c m r l W) (h1 : W'.cfg = W.cfg) (h2 : W'.T = W.T)
    (h3 : W'.L.capInRem l = W.L.capInRem l) (h4 : W'.trace = W.trace) : InB c m r l W' := by
  unfold InB inBound at *; rw [h1, h2, h3, h4]; exact h

theorem canEnter_cap {W : World} {l : LinkId} (h : W.canEnter l = true) : (W.dn : ℚ) ≤ W.L.capInRem l := by
  unfold canEnter at h
  rw [Bool.and_eq_true] at h
  exact of_decide_eq_true h.2

theorem InB.prim {act : Act} {c m l} {W W' : World} (ha : ¬ isLinkTick act) (hc : Core W)
    (hx : W.cfg.fl = id) (hp : Prim act W W') (h : InB c m 1 l W) : InB c m 1 l W' := by
  have hs := hp.shape hc.s
  clear hp
  cases hs with
  | linkTick => exact absurd trivial ha
  | @depart _ n v t cs k o hn hq hcs hl hout hent hcum hlead =>
    have hcap := canEnter_cap hent
    unfold InB inBound at *
    dsimp only
    rw [upd_apply]
    split
    · rename_i e; subst e
      have := Budget.use h (e := .depart W.T v n l) (by simp [entersLink, enters]) rfl hcap
      unfold World.fl World.dn
      rw [hx]; exact this
    · rename_i hne
      exact h.other (by simp [entersLink, enters, Ne.symm hne])
  | @move _ n v a b t o q nl fc tta hn hinc hla hv hr hsig hout hfl hent hcd hca hu hlead hnl hq hfc htta =>
    have hcap := canEnter_cap hent
    unfold InB inBound at *
    dsimp only
    rw [upd_apply]
    split
    · rename_i e; subst e
      have := Budget.use h (e := .pass W.T v n a l (W.N.phase n)) (by simp [entersLink, enters]) rfl hcap
      unfold World.fl World.dn
      rw [hx]; exact this
    · rename_i hne
      exact h.other (by simp [entersLink, enters, Ne.symm hne])
  | @endTrip _ v l t log s c lt tta hl hv hf hcd hrun hliv hlt hlog htta => exact Budget.other h rfl
  | @startWait _ v hliv hs hd => exact Budget.other h rfl
  | _ => exact h.congr rfl rfl rfl rfl

/-- What the link phase does to the remaining capacities of link `l`. -/
theorem links_caps {W W' : World} (h : (List.range W.nLinks).foldlM linkUpdate W = .ok W')
    (l : LinkId) (hl : l < W.nLinks) : W'.cfg = W.cfg ∧ W'.T = W.T ∧ W'.trace = W.trace ∧
      W'.L.capInRem l = (if W.L.capInRem l < W.dn * W.L.lanes l
          then W.fl (W.L.capInRem l + W.fl (W.L.capIn l * W.dt)) else W.L.capInRem l) ∧
      W'.L.capOutRem l = (if W.L.capOutRem l < W.dn * W.L.lanes l
          then W.fl (W.L.capOutRem l + W.fl (W.L.capOut l * W.dt)) else W.L.capOutRem l) := by
  have := foldlM_inv_pre (P := fun (pre : List ℕ) (W1 : World) => W1.cfg = W.cfg ∧ W1.T = W.T ∧
      W1.trace = W.trace ∧ W1.L.lanes = W.L.lanes ∧ W1.L.capIn = W.L.capIn ∧ W1.L.capOut = W.L.capOut ∧
      (l ∉ pre → W1.L.capInRem l = W.L.capInRem l ∧ W1.L.capOutRem l = W.L.capOutRem l) ∧
      (l ∈ pre → W1.L.capInRem l = (if W.L.capInRem l < W.dn * W.L.lanes l
          then W.fl (W.L.capInRem l + W.fl (W.L.capIn l * W.dt)) else W.L.capInRem l) ∧
        W1.L.capOutRem l = (if W.L.capOutRem l < W.dn * W.L.lanes l
          then W.fl (W.L.capOutRem l + W.fl (W.L.capOut l * W.dt)) else W.L.capOutRem l)))
    (l := List.range W.nLinks) (f := linkUpdate) ?_
    ⟨rfl, rfl, rfl, rfl, rfl, rfl, fun _ => ⟨rfl, rfl⟩, by simp⟩ h
  · obtain ⟨h1, h2, h3, -, -, -, -, h4⟩ := this
    exact ⟨h1, h2, h3, h4 (by simpa using hl)⟩
  · rintro pre k post W1 W2 hpre ⟨h1, h2, h3, h4, h5, h6, h7, h8⟩ hu
    have hnd : (pre ++ k :: post).Nodup := hpre ▸ List.nodup_range
    have hkp : k ∉ pre := by
      intro hm
      exact (List.nodup_append.mp hnd).2.2 _ hm _ (by simp) rfl
    unfold linkUpdate at hu
    dsimp only at hu
    split at hu
    · simp at hu
    · simp only [Except.ok.injEq] at hu
      subst hu
      refine ⟨h1, h2, h3, h4, h5, h6, fun hn => ?_, fun hm => ?_⟩
      · simp only [List.mem_append, List.mem_singleton, not_or] at hn
        simp only [refillCaps, upd_ne _ _ hn.2]
        exact h7 hn.1
      · by_cases hlk : l = k
        · subst hlk
          obtain ⟨e1, e2⟩ := h7 hkp
          simp only [refillCaps, upd_same]
          unfold World.dn World.fl World.dt
          rw [e1, e2, h1, h4, h5, h6]
          exact ⟨rfl, rfl⟩
        · simp only [List.mem_append, List.mem_singleton, hlk, or_false] at hm
          simp only [refillCaps, upd_ne _ _ hlk]
          exact h8 hm

/-- Phases 2 to 6 consist of primitives other than `linkTick`. -/
theorem Phases.after_links {P : World → Prop} {W A B C D E F : World} (hp : Phases W A B C D E F)
    (hP : ∀ act W W', ¬ isLinkTick act → Core W → Prim act W W' → P W → P W') (hA : P A) : P F := by
  have hB : P B := hp.s2.inv_core (fun a W W' ha hc hp h => hP a W W'
    (by cases a <;> simp_all [isGen, isLinkTick]) hc hp h) hp.c1 hA
  have hC : P C := hp.s3.inv_core (fun a W W' ha hc hp h => hP a W W'
    (by cases a <;> simp_all [isTrAny, isLinkTick]) hc hp h) hp.c2 hB
  have hD : P D := hp.s4.inv_core (fun a W W' ha hc hp h => hP a W W'
    (by cases a <;> simp_all [isCf, isLinkTick]) hc hp h) hp.c3 hC
  have hE : P E := hp.s5.inv_core (fun a W W' ha hc hp h => hP a W W'
    (by have := isUpdAny_late a ha; cases a <;> simp_all [isLate, isLinkTick]) hc hp h) hp.c4 hD
  exact hp.s6.inv_core (fun a W W' ha hc hp h => hP a W W'
    (by cases a <;> simp_all [isRouting, isLinkTick]) hc hp h) hp.c5 hE

theorem InB.step {c m l} {W W1 : World} (hi : Inv W) (hf : W.finalized = true) (hok : InOK c m l W)
    (h : W.step = .ok W1) (hl : l < W.nLinks) (h0 : InB c m 0 l W) :
    InB c m 0 l { W1 with T := W1.T + 1 } := by
  obtain ⟨A, B, C, D, E, F, hp, rfl⟩ := step_phases (hi.core hf) h
  obtain ⟨e1, e2, e3, e4, -⟩ := links_caps hp.p1 l hl
  have hc0 : 0 ≤ c := hok.cap.1.trans hok.cap.2
  have hA : InB c m 1 l A := by
    unfold InB inBound at *
    rw [e1, e2, e3]
    refine Budget.refill h0 (m := W.dn * W.L.lanes l) (g := W.L.capIn l * W.cfg.deltat)
      (mul_nonneg hok.cap.1 hok.dt) (mul_le_mul_of_nonneg_right hok.cap.2 hok.dt) ?_ ?_
    · have h1 : (W.dn : ℚ) * W.L.lanes l ≤ W.cfg.deltan * m :=
        mul_le_mul_of_nonneg_left (by exact_mod_cast hok.lanes) (by positivity)
      have h2 : c * W.cfg.deltat ≤ c * max 1 W.cfg.deltat :=
        mul_le_mul_of_nonneg_left (le_max_right _ _) hc0
      linarith
    · rw [e4]
      unfold World.fl World.dt
      rw [hok.exact]
      rfl
  have hF := hp.after_links (P := fun Z => Z.cfg = W.cfg ∧ InB c m 1 l Z)
    (fun act Z Z' ha hc hpr hz => ⟨hpr.static.cfg.trans hz.1,
      hz.2.prim ha hc (by rw [hz.1]; exact hok.exact) hpr⟩) ⟨e1, hA⟩
  have := hF.2
  unfold InB inBound at *
  refine Budget.tick ?_ this
  rw [hF.1]
  exact mul_nonneg hc0 hok.dt

theorem InB.reach {c m l} {OK : World → Prop} (hO : ∀ W, OK W → InOK c m l W) {W : World}
    (h : Reachable OK W) : l < W.nLinks → InB c m 0 l W := by
  have h' := h.strengthen (Q := CInv 0) (fun W h => CInv.reach h)
  clear h
  refine Reachable.induct (P := fun W => l < W.nLinks → InB c m 0 l W) ?_ ?_ ?_ ?_ ?_ ?_ ?_ ?_ h'
  · intro cfg tmax rng hl
    simp [World.new] at hl
  · intro W a ph t soff hi hf hn _ _ hT hl
    exact (hT hl).congr rfl rfl rfl rfl
  · intro W W' a hi hf ha hok hok' hT hl
    have hO' := hO _ hok'.1
    obtain ⟨s, e, nm, k, p, hp⟩ := addLink_ok ha
    obtain ⟨-, -, -, -, -, -, rfl⟩ := hp
    by_cases hlt : l = W.nLinks
    · obtain ⟨hT0, htr⟩ := hok.2.unfinal hf
      have hcap := hO'.cap
      have hc0 : 0 ≤ c := hcap.1.trans hcap.2
      unfold InB
      have e1 : (W.addLinkRes a s e nm k p).trace = [] := htr
      have e2 : (W.addLinkRes a s e nm k p).T = 0 := hT0
      rw [e1, e2]
      refine Budget.init (mul_nonneg hc0 hO'.dt) ?_ ?_
      · revert hcap
        subst hlt
        simp only [addLinkRes, upd_same]
        cases a.capIn with
        | none => exact fun h => h.1
        | some q =>
          intro h
          unfold World.fl World.dt
          have hx : W.cfg.fl = id := hO'.exact
          rw [hx]; exact mul_nonneg h.1 hO'.dt
      · have hn : (0 : ℚ) ≤ W.cfg.deltan * m := by positivity
        have h1 : c * W.cfg.deltat ≤ c * max 1 W.cfg.deltat :=
          mul_le_mul_of_nonneg_left (le_max_right _ _) hc0
        have h2 : c * 1 ≤ c * max 1 W.cfg.deltat :=
          mul_le_mul_of_nonneg_left (le_max_left _ _) hc0
        revert hcap
        subst hlt
        simp only [addLinkRes, upd_same, inBound]
        cases a.capIn with
        | none => intro h; linarith [h.2]
        | some q =>
          intro h
          unfold World.fl World.dt
          have hx : W.cfg.fl = id := hO'.exact
          have := mul_le_mul_of_nonneg_right h.2 hO'.dt
          have h5 : (W.addLinkRes a s e nm k p).cfg = W.cfg := rfl
          rw [h5] at this
          rw [hx]; simp only [id]; linarith
    · have : l < W.nLinks := Nat.lt_of_le_of_ne (Nat.le_of_lt_succ hl) hlt
      refine (hT this).congr rfl rfl ?_ rfl
      simp only [addLinkRes, upd_ne _ _ hlt]
  · intro W W' a hi ha hok _ hT hl
    obtain ⟨o, d, dep, pref, cache, lp, la, nm, -, -, -, -, -, -, -, -, rfl⟩ := addVehicle_ok ha
    exact (hT hl).congr rfl rfl rfl rfl
  · intro W tm hi hf hok hok' hT hl
    obtain ⟨hT0, htr⟩ := hok.2.unfinal hf
    obtain ⟨ts, tta, fc, fr, la, hr⟩ := finalize_frame W tm
    rw [hr] at hl ⊢
    exact (hT hl).congr rfl hT0.symm rfl rfl
  · intro W W' _ _ _ hs hT hl
    obtain ⟨_, _, _, _, _, _, _, rfl, -⟩ := hs
    exact (hT hl).congr rfl rfl rfl rfl
  · intro W W' hi _ _ hs hT hl
    obtain ⟨_, _, _, _, _, _, _, _, _, _, _, _, _, _, _, dpl, _, _, _, rfl, hd⟩ := hs
    exact (hT hl).congr rfl rfl rfl rfl
  · intro W W1 W' hi hf _ hok _ h1 hW hT hl
    subst hW
    obtain ⟨W6, hst, rfl⟩ := step_star (hi.core hf) h1
    have hl' : l < W.nLinks := by
      have : l < W6.nLinks := hl
      rw [hst.static.nLinks] at this; exact this
    exact (hT hl').step hi hf (hO W hok.1) h1 hl'

/-! ### Outflow of a link -/

/-- As `InOK` for `capacity_out`. -/
structure OutOK (c : ℚ) (m : ℕ) (l : LinkId) (W : World) : Prop where
  exact : W.cfg.fl = id
  dt : 0 ≤ W.cfg.deltat
  cap : 0 ≤ W.L.capOut l ∧ W.L.capOut l ≤ c
  lanes : W.L.lanes l ≤ m

def outBound (W : World) (c : ℚ) (m : ℕ) : ℚ := W.cfg.deltan * m + c * W.cfg.deltat

def OutB (c : ℚ) (m r : ℕ) (l : LinkId) (W : World) : Prop :=
  Budget (outBound W c m) (c * W.cfg.deltat) W.cfg.deltan (passesFrom l) r W.T (W.L.capOutRem l) W.trace

theorem OutB.congr {c m r l} {W W' : World} (h : OutB c m r l W) (h1 : W'.cfg = W.cfg) (h2 : W'.T = W.T)
    (h3 : W'.L.capOutRem l = W.L.capOutRem l) (h4 : W'.trace = W.trace) : OutB c m r l W' := by
  unfold OutB outBound at *; rw [h1, h2, h3, h4]; exact h

theorem OutB.prim {act : Act} {c m l} {W W' : World} (ha : ¬ isLinkTick act) (hc : Core W)
    (hx : W.cfg.fl = id) (hp : Prim act W W') (h : OutB c m 1 l W) : OutB c m 1 l W' := by
  have hs := hp.shape hc.s
  clear hp
  cases hs with
  | linkTick => exact absurd trivial ha
  | @depart _ n v t cs k o hn hq hcs hl hout hent hcum hlead => exact Budget.other h rfl
  | @move _ n v a b t o q nl fc tta hn hinc hla hv hr hsig hout hfl hent hcd hca hu hlead hnl hq hfc htta =>
    unfold OutB outBound at *
    dsimp only
    rw [upd_apply]
    split
    · rename_i e; subst e
      have := Budget.use h (e := .pass W.T v n l b (W.N.phase n)) (by simp [passesFrom]) rfl hout
      unfold World.fl World.dn
      rw [hx]; exact this
    · rename_i hne
      exact h.other (by simp [passesFrom, Ne.symm hne])
  | @endTrip _ v l t log s c lt tta hl hv hf hcd hrun hliv hlt hlog htta => exact Budget.other h rfl
  | @startWait _ v hliv hs hd => exact Budget.other h rfl
  | _ => exact h.congr rfl rfl rfl rfl

theorem OutB.step {c m l} {W W1 : World} (hi : Inv W) (hf : W.finalized = true) (hok : OutOK c m l W)
    (h : W.step = .ok W1) (hl : l < W.nLinks) (h0 : OutB c m 0 l W) :
    OutB c m 0 l { W1 with T := W1.T + 1 } := by
  obtain ⟨A, B, C, D, E, F, hp, rfl⟩ := step_phases (hi.core hf) h
  obtain ⟨e1, e2, e3, -, e4⟩ := links_caps hp.p1 l hl
  have hc0 : 0 ≤ c := hok.cap.1.trans hok.cap.2
  have hA : OutB c m 1 l A := by
    unfold OutB outBound at *
    rw [e1, e2, e3]
    refine Budget.refill h0 (m := W.dn * W.L.lanes l) (g := W.L.capOut l * W.cfg.deltat)
      (mul_nonneg hok.cap.1 hok.dt) (mul_le_mul_of_nonneg_right hok.cap.2 hok.dt) ?_ ?_
    · have h1 : (W.dn : ℚ) * W.L.lanes l ≤ W.cfg.deltan * m :=
        mul_le_mul_of_nonneg_left (by exact_mod_cast hok.lanes) (by positivity)
      linarith
    · rw [e4]
      unfold World.fl World.dt
      rw [hok.exact]
      rfl
  have hF := hp.after_links (P := fun Z => Z.cfg = W.cfg ∧ OutB c m 1 l Z)
    (fun act Z Z' ha hc hpr hz => ⟨hpr.static.cfg.trans hz.1,
      hz.2.prim ha hc (by rw [hz.1]; exact hok.exact) hpr⟩) ⟨e1, hA⟩
  have := hF.2
  unfold OutB outBound at *
  refine Budget.tick ?_ this
  rw [hF.1]
  exact mul_nonneg hc0 hok.dt

theorem OutB.reach {c m l} {OK : World → Prop} (hO : ∀ W, OK W → OutOK c m l W) {W : World}
    (h : Reachable OK W) : l < W.nLinks → OutB c m 0 l W := by
  have h' := h.strengthen (Q := CInv 0) (fun W h => CInv.reach h)
  clear h
  refine Reachable.induct (P := fun W => l < W.nLinks → OutB c m 0 l W) ?_ ?_ ?_ ?_ ?_ ?_ ?_ ?_ h'
  · intro cfg tmax rng hl
    simp [World.new] at hl
  · intro W a ph t soff hi hf hn _ _ hT hl
    exact (hT hl).congr rfl rfl rfl rfl
  · intro W W' a hi hf ha hok hok' hT hl
    have hO' := hO _ hok'.1
    obtain ⟨s, e, nm, k, p, hp⟩ := addLink_ok ha
    obtain ⟨-, -, -, -, -, -, rfl⟩ := hp
    by_cases hlt : l = W.nLinks
    · obtain ⟨hT0, htr⟩ := hok.2.unfinal hf
      have hcap := hO'.cap
      have hc0 : 0 ≤ c := hcap.1.trans hcap.2
      unfold OutB
      have e1 : (W.addLinkRes a s e nm k p).trace = [] := htr
      have e2 : (W.addLinkRes a s e nm k p).T = 0 := hT0
      have hx : W.cfg.fl = id := hO'.exact
      have hdt : 0 ≤ W.cfg.deltat := hO'.dt
      have e3 : (W.addLinkRes a s e nm k p).L.capOutRem l =
          (W.addLinkRes a s e nm k p).L.capOut l * W.cfg.deltat := by
        subst hlt
        simp only [addLinkRes, upd_same]
        unfold World.fl World.dt
        rw [hx]; rfl
      rw [e1, e2, e3]
      refine Budget.init (mul_nonneg hc0 hO'.dt) (mul_nonneg hcap.1 hdt) ?_
      have hn : (0 : ℚ) ≤ W.cfg.deltan * m := by positivity
      have := mul_le_mul_of_nonneg_right hcap.2 hdt
      have e4 : outBound (W.addLinkRes a s e nm k p) c m = W.cfg.deltan * m + c * W.cfg.deltat := rfl
      rw [e4]; linarith
    · have : l < W.nLinks := Nat.lt_of_le_of_ne (Nat.le_of_lt_succ hl) hlt
      refine (hT this).congr rfl rfl ?_ rfl
      simp only [addLinkRes, upd_ne _ _ hlt]
  · intro W W' a hi ha hok _ hT hl
    obtain ⟨o, d, dep, pref, cache, lp, la, nm, -, -, -, -, -, -, -, -, rfl⟩ := addVehicle_ok ha
    exact (hT hl).congr rfl rfl rfl rfl
  · intro W tm hi hf hok hok' hT hl
    obtain ⟨hT0, htr⟩ := hok.2.unfinal hf
    obtain ⟨ts, tta, fc, fr, la, hr⟩ := finalize_frame W tm
    rw [hr] at hl ⊢
    exact (hT hl).congr rfl hT0.symm rfl rfl
  · intro W W' _ _ _ hs hT hl
    obtain ⟨_, _, _, _, _, _, _, rfl, -⟩ := hs
    exact (hT hl).congr rfl rfl rfl rfl
  · intro W W' hi _ _ hs hT hl
    obtain ⟨_, _, _, _, _, _, _, _, _, _, _, _, _, _, _, dpl, _, _, _, rfl, hd⟩ := hs
    exact (hT hl).congr rfl rfl rfl rfl
  · intro W W1 W' hi hf _ hok _ h1 hW hT hl
    subst hW
    obtain ⟨W6, hst, rfl⟩ := step_star (hi.core hf) h1
    have hl' : l < W.nLinks := by
      have : l < W6.nLinks := hl
      rw [hst.static.nLinks] at this; exact this
    exact (hT hl').step hi hf (hO W hok.1) h1 hl'

/-! ### Node flow capacity -/

/-- Assumptions on the flow capacity of node `n`: exact arithmetic, and once the scenario is finalized
the node has a flow capacity between 0 and `c` and at most `m` lanes. -/
structure FlowOK (c : ℚ) (m : ℕ) (n : NodeId) (W : World) : Prop where
  exact : W.cfg.fl = id
  dt : 0 ≤ W.cfg.deltat
  cap : W.finalized = true → n < W.nNodes → ∃ q, W.N.flowCap n = some q ∧ 0 ≤ q ∧ q ≤ c
  lanes : W.finalized = true → (W.N.lanes n).getD 0 ≤ m

def NodeB (c : ℚ) (m r : ℕ) (n : NodeId) (W : World) : Prop :=
  Budget (outBound W c m) (c * W.cfg.deltat) W.cfg.deltan (passesNode n) r W.T (W.N.flowCapRem n) W.trace

theorem NodeB.congr {c m r n} {W W' : World} (h : NodeB c m r n W) (h1 : W'.cfg = W.cfg) (h2 : W'.T = W.T)
    (h3 : W'.N.flowCapRem n = W.N.flowCapRem n) (h4 : W'.trace = W.trace) : NodeB c m r n W' := by
  unfold NodeB outBound at *; rw [h1, h2, h3, h4]; exact h

theorem NodeB.prim {act : Act} {c m r k} {W W' : World} (ha : act ≠ .nodeTick k)
    (hr1 : r = 1 ∨ isGen act) (hk : (W.N.flowCap k).isSome) (hc : Core W)
    (hx : W.cfg.fl = id) (hp : Prim act W W') (h : NodeB c m r k W) : NodeB c m r k W' := by
  have hs := hp.shape hc.s
  clear hp
  cases hs with
  | @nodeTick _ n ph st sl fc hn hsig hph hfc =>
    refine h.congr rfl rfl ?_ rfl
    have : k ≠ n := fun e => ha (by rw [e])
    subst hfc
    exact upd_ne _ _ this
  | @depart _ n v t cs k o hn hq hcs hl hout hent hcum hlead => exact Budget.other h rfl
  | @move _ n v a b t o q nl fc tta hn hinc hla hv hr hsig hout hfl hent hcd hca hu hlead hnl hq hfc htta =>
    obtain rfl : r = 1 := by
      rcases hr1 with h | h
      · exact h
      · exact h.elim
    obtain ⟨cc, hcc⟩ := Option.isSome_iff_exists.mp hk
    unfold NodeB outBound at *
    dsimp only
    by_cases e : k = n
    · subst e
      have := Budget.use h (e := .pass W.T v k a b (W.N.phase k)) (by simp [passesNode]) rfl hfl
      subst hfc
      rw [hcc]
      simp only [upd_same]
      unfold World.fl World.dn
      rw [hx]; exact this
    · have h3 : fc k = W.N.flowCapRem k := by
        subst hfc
        split
        · exact upd_ne _ _ e
        · rfl
      rw [h3]
      exact h.other (by simp [passesNode, Ne.symm e])
  | @endTrip _ v l t log s c lt tta hl hv hf hcd hrun hliv hlt hlog htta => exact Budget.other h rfl
  | @startWait _ v hliv hs hd => exact Budget.other h rfl
  | _ => exact h.congr rfl rfl rfl rfl

theorem NodeB.prims {c m r k} {A : Act → Prop} {W W' : World} (hA : ∀ a, A a → a ≠ .nodeTick k)
    (hr1 : ∀ a, A a → r = 1 ∨ isGen a) (hk : (W.N.flowCap k).isSome) (hc : Core W)
    (hx : W.cfg.fl = id) (hp : PStar A W W') (h : NodeB c m r k W) : NodeB c m r k W' := by
  have := hp.inv_core (P := fun Z => Z.N.flowCap = W.N.flowCap ∧ Z.cfg = W.cfg ∧ NodeB c m r k Z)
    (fun a Z Z' ha hcZ hpr hz => ⟨hpr.static.flowCap.trans hz.1, hpr.static.cfg.trans hz.2.1,
      hz.2.2.prim (hA a ha) (hr1 a ha) (by rw [hz.1]; exact hk) hcZ (by rw [hz.2.1]; exact hx) hpr⟩)
    hc ⟨rfl, rfl, h⟩
  exact this.2.2

theorem generateLoop_star' {n : NodeId} {k : ℕ} {W W' : World} (hn : n < W.nNodes)
    (h : generateLoop n k W = .ok W') :
    PStar (fun a => isGen a ∧ ∀ m, a ≠ .nodeTick m) W W' := by
  induction k generalizing W with
  | zero => simp [generateLoop] at h; subst h; exact PStar.refl
  | succ k ih =>
    simp only [generateLoop] at h
    split at h
    · simp at h; subst h; exact PStar.refl
    · rename_i v t hq
      rw [bind_ok] at h
      obtain ⟨cs, hcs, h⟩ := h
      rw [bind_ok] at h
      obtain ⟨⟨l, W1⟩, hch, h⟩ := h
      obtain ⟨hl, r, rfl⟩ := chooseLink_spec hch
      dsimp only at h
      have hr := rng_prim W r
      have hr' : (fun a => isGen a ∧ ∀ m, a ≠ .nodeTick m) Act.routing := ⟨trivial, by simp⟩
      split at h
      · rename_i hce
        rw [bind_ok] at h
        obtain ⟨W2, hd, h⟩ := h
        have hp : Prim (.depart n v l) { W with rng := r } W2 :=
          .depart (t := t) (cs := cs) hn hq hcs hl hce hd
        have h2 := (PStar.one (A := fun a => isGen a ∧ ∀ m, a ≠ .nodeTick m) (a := .routing) hr' hr).tail
          (a := .depart n v l) ⟨trivial, by simp⟩ hp
        exact h2.trans (ih (by rw [h2.static.nNodes]; exact hn) h)
      · simp at h; subst h; exact PStar.one (a := .routing) hr' hr

theorem NodeB.gen {c m n} {W W' : World} (hc : Core W) (hok : FlowOK c m n W) (hf : W.finalized = true)
    (hn : n < W.nNodes)
    (h : (List.range W.nNodes).foldlM (fun W n => do (← W.generate n).nodeUpdate n) W = .ok W')
    (h0 : NodeB c m 0 n W) : NodeB c m 1 n W' := by
  obtain ⟨q, hq, hq0, hqc⟩ := hok.cap hf hn
  have hc0 : 0 ≤ c := hq0.trans hqc
  have := foldlM_inv_pre (P := fun (pre : List ℕ) (W1 : World) => Core W1 ∧ Static W W1 ∧
      (n ∉ pre → NodeB c m 0 n W1) ∧ (n ∈ pre → NodeB c m 1 n W1))
    (l := List.range W.nNodes) (f := fun W n => do (← W.generate n).nodeUpdate n) ?_
    ⟨hc, Static.refl W, fun _ => h0, by simp⟩ h
  · exact this.2.2.2 (by simpa using hn)
  · rintro pre k post W1 W2 hpre ⟨hc1, hs, h7, h8⟩ hu
    have hkn : k < W1.nNodes := by
      have : k ∈ List.range W.nNodes := hpre ▸ (by simp)
      rw [hs.nNodes]; simpa using this
    have hnd : (pre ++ k :: post).Nodup := hpre ▸ List.nodup_range
    have hkp : k ∉ pre := by
      intro hm
      exact (List.nodup_append.mp hnd).2.2 _ hm _ (by simp) rfl
    simp only [bind_ok] at hu
    obtain ⟨W1', hg, hu⟩ := hu
    have hst := generateLoop_star' hkn hg
    have hc1' : Core W1' := hc1.star hst
    have hs' : Static W W1' := hs.trans hst.static
    have hpr : Prim (.nodeTick k) W1' W2 := .nodeTick (by rw [hst.static.nNodes]; exact hkn) hu
    have hsm : (W1.N.flowCap n).isSome := by rw [hs.flowCap, hq]; rfl
    have hx1 : W1.cfg.fl = id := by rw [hs.cfg]; exact hok.exact
    have hsm' : (W1'.N.flowCap n).isSome := by rw [hs'.flowCap, hq]; rfl
    have hx1' : W1'.cfg.fl = id := by rw [hs'.cfg]; exact hok.exact
    have hB : ∀ r, NodeB c m r n W1 → NodeB c m r n W1' := fun r h =>
      h.prims (fun a ha => ha.2 n) (fun a ha => .inr ha.1) hsm hc1 hx1 hst
    refine ⟨hc1'.prim hpr, hs'.trans hpr.static, fun hm => ?_, fun hm => ?_⟩
    · simp only [List.mem_append, List.mem_singleton, not_or] at hm
      exact (hB 0 (h7 hm.1)).prim (by simpa using Ne.symm hm.2) (.inr (show isGen (.nodeTick k) from trivial)) hsm' hc1' hx1' hpr
    · by_cases hnk : n = k
      · subst hnk
        have hb := hB 0 (h7 hkp)
        have hsh := hpr.shape hc1'.s
        clear hpr
        cases hsh with
        | @nodeTick _ n ph st sl fc hn hsig hph hfc =>
          unfold NodeB outBound at *
          dsimp only
          refine Budget.refill hb (m := W1'.dn * (W1'.N.lanes n).getD 0) (g := q * W1'.cfg.deltat) ?_ ?_ ?_ ?_
          · rw [hs'.cfg]; exact mul_nonneg hq0 hok.dt
          · rw [hs'.cfg]; exact mul_le_mul_of_nonneg_right hqc hok.dt
          · have hl := hok.lanes hf
            rw [← hs'.nlanes] at hl
            have h1 : (W1'.dn : ℚ) * ((W1'.N.lanes n).getD 0 : ℕ) ≤ W1'.cfg.deltan * m :=
              mul_le_mul_of_nonneg_left (by exact_mod_cast hl) (by positivity)
            linarith
          · rw [hfc, upd_same, hs'.flowCap, hq]
            unfold World.fl World.dt
            rw [hx1']
            rfl
      · simp only [List.mem_append, List.mem_singleton, hnk, or_false] at hm
        exact (hB 1 (h8 hm)).prim (by simpa using Ne.symm hnk) (.inl rfl) hsm' hc1' hx1' hpr

theorem NodeB.step {c m n} {W W1 : World} (hi : Inv W) (hf : W.finalized = true) (hok : FlowOK c m n W)
    (h : W.step = .ok W1) (hn : n < W.nNodes) (h0 : NodeB c m 0 n W) :
    NodeB c m 0 n { W1 with T := W1.T + 1 } := by
  obtain ⟨A, B, C, D, E, F, hp, rfl⟩ := step_phases (hi.core hf) h
  obtain ⟨q, hq, hq0, hqc⟩ := hok.cap hf hn
  have hsA := hp.s1.static
  have hA : NodeB c m 0 n A := by
    have := hp.s1.inv_core (P := fun Z => NodeB c m 0 n Z) (fun a Z Z' ha hcZ hpr hz => by
      have hs := hpr.shape hcZ.s
      clear hpr
      cases hs with
      | linkTick => exact hz.congr rfl rfl rfl rfl
      | _ => exact ha.elim) (hi.core hf) h0
    exact this
  have hB : NodeB c m 1 n B := hA.gen hp.c1
    ⟨by rw [hsA.cfg]; exact hok.exact, by rw [hsA.cfg]; exact hok.dt,
      fun _ _ => ⟨q, by rw [hsA.flowCap]; exact hq, hq0, hqc⟩,
      fun _ => by rw [hsA.nlanes]; exact hok.lanes hf⟩
    (by rw [hsA.finalized]; exact hf) (by rw [hsA.nNodes]; exact hn) hp.p2
  have hsB := hsA.trans hp.s2.static
  have hsC := hsB.trans hp.s3.static
  have hsD := hsC.trans hp.s4.static
  have hsE := hsD.trans hp.s5.static
  have hsF := hsE.trans hp.s6.static
  have key : ∀ {X : World}, Static W X → (X.N.flowCap n).isSome ∧ X.cfg.fl = id := fun hs =>
    ⟨by rw [hs.flowCap, hq]; rfl, by rw [hs.cfg]; exact hok.exact⟩
  have hC := hB.prims (fun a ha => by cases a <;> simp_all [isTrAny]) (fun _ _ => .inl rfl)
    (key hsB).1 hp.c2 (key hsB).2 hp.s3
  have hD := hC.prims (fun a ha => by cases a <;> simp_all [isCf]) (fun _ _ => .inl rfl)
    (key hsC).1 hp.c3 (key hsC).2 hp.s4
  have hE := hD.prims (fun a ha => by have := isUpdAny_late a ha; cases a <;> simp_all [isLate])
    (fun _ _ => .inl rfl) (key hsD).1 hp.c4 (key hsD).2 hp.s5
  have hF := hE.prims (fun a ha => by cases a <;> simp_all [isRouting]) (fun _ _ => .inl rfl)
    (key hsE).1 hp.c5 (key hsE).2 hp.s6
  unfold NodeB outBound at *
  refine Budget.tick ?_ hF
  rw [hsF.cfg]
  exact mul_nonneg (hq0.trans hqc) hok.dt

/-- Before finalization the remaining capacity is that of one step. -/
def FlowNew (n : NodeId) (W : World) : Prop :=
  ∀ q, W.N.flowCap n = some q → W.N.flowCapRem n = W.cfg.fl (q * W.cfg.deltat)

theorem finalize_flow {W : World} {tm : Option ℚ} {n : NodeId} (h : FlowNew n W) :
    FlowNew n (W.finalize tm) := by
  have key : ∀ (ns : List ℕ) (X : World), FlowNew n X → FlowNew n (ns.foldl adjustNodeCapacity X) := by
    intro ns
    induction ns with
    | nil => intro X h; exact h
    | cons k t ih =>
      intro X h
      apply ih
      unfold adjustNodeCapacity
      split
      · exact h
      · split
        · exact h
        · by_cases hk : n = k
          · subst hk
            intro q
            simp only [upd_same, Option.some.injEq]
            rintro rfl; rfl
          · intro q
            simp only [upd_ne _ _ hk]
            exact h q
  unfold finalize
  dsimp only
  split
  · exact key _ _ h
  · exact h

theorem NodeB.reach {c m n} {OK : World → Prop} (hO : ∀ W, OK W → FlowOK c m n W) {W : World}
    (h : Reachable OK W) : n < W.nNodes →
      (W.finalized = false → FlowNew n W) ∧ (W.finalized = true → NodeB c m 0 n W) := by
  have h' := h.strengthen (Q := CInv 0) (fun W h => CInv.reach h)
  clear h
  refine Reachable.induct (P := fun W => n < W.nNodes →
      (W.finalized = false → FlowNew n W) ∧ (W.finalized = true → NodeB c m 0 n W)) ?_ ?_ ?_ ?_ ?_ ?_ ?_ ?_ h'
  · intro cfg tmax rng hl
    simp [World.new] at hl
  · intro W a ph t soff hi hf hn _ _ hT hl
    refine ⟨fun _ => ?_, fun h => absurd (hf.symm.trans h) (by simp)⟩
    by_cases e : n = W.nNodes
    · subst e
      intro q
      simp only [addNodeRes, upd_same]
      intro hq; rw [hq]; rfl
    · have : n < W.nNodes := Nat.lt_of_le_of_ne (Nat.le_of_lt_succ hl) e
      intro q
      simp only [addNodeRes, upd_ne _ _ e]
      exact (hT this).1 hf q
  · intro W W' a hi hf ha hok hok' hT hl
    obtain ⟨s, e, nm, k, p, -, -, -, -, -, -, rfl⟩ := addLink_ok ha
    exact ⟨(hT hl).1, fun h => ((hT hl).2 h).congr rfl rfl rfl rfl⟩
  · intro W W' a hi ha hok _ hT hl
    obtain ⟨o, d, dep, pref, cache, lp, la, nm, -, -, -, -, -, -, -, -, rfl⟩ := addVehicle_ok ha
    exact ⟨(hT hl).1, fun h => ((hT hl).2 h).congr rfl rfl rfl rfl⟩
  · intro W tm hi hf hok hok' hT hl
    obtain ⟨hT0, htr⟩ := hok.2.unfinal hf
    have hok2 := hO _ hok'.1
    have hx := hok2.exact
    have hdt := hok2.dt
    have hcap := hok2.cap
    obtain ⟨ts, tta, fc, fr, la, hr⟩ := finalize_frame W tm
    have hl0 : n < W.nNodes := by rw [hr] at hl; exact hl
    have hnew := finalize_flow (tm := tm) ((hT hl0).1 hf)
    have hfin : (W.finalize tm).finalized = true := by rw [hr]
    refine ⟨fun h => absurd (hfin.symm.trans h) (by simp), fun _ => ?_⟩
    obtain ⟨q, hq, hq0, hqc⟩ := hcap hfin hl
    have e1 : (W.finalize tm).trace = [] := by rw [hr]; exact htr
    have e2 : (W.finalize tm).T = 0 := by rw [hr]
    have e3 := hnew q hq
    rw [hx] at e3
    unfold NodeB outBound
    rw [e1, e2, e3]
    refine Budget.init (mul_nonneg (hq0.trans hqc) hdt) (mul_nonneg hq0 hdt) ?_
    have hn : (0 : ℚ) ≤ (W.finalize tm).cfg.deltan * m := by positivity
    have := mul_le_mul_of_nonneg_right hqc hdt
    simp only [id]; linarith
  · intro W W' _ _ _ hs hT hl
    obtain ⟨_, _, _, _, _, _, _, rfl, -⟩ := hs
    exact ⟨(hT hl).1, fun h => ((hT hl).2 h).congr rfl rfl rfl rfl⟩
  · intro W W' hi _ _ hs hT hl
    obtain ⟨_, _, _, _, _, _, _, _, _, _, _, _, _, _, _, dpl, _, _, _, rfl, hd⟩ := hs
    exact ⟨(hT hl).1, fun h => ((hT hl).2 h).congr rfl rfl rfl rfl⟩
  · intro W W1 W' hi hf _ hok _ h1 hW hT hl
    subst hW
    obtain ⟨W6, hst, rfl⟩ := step_star (hi.core hf) h1
    have hl' : n < W.nNodes := by
      have : n < W6.nNodes := hl
      rw [hst.static.nNodes] at this; exact this
    have hf6 : W6.finalized = true := hst.static.finalized.trans hf
    exact ⟨fun h => absurd (hf6.symm.trans h) (by simp),
      fun _ => ((hT hl').2 hf).step hi hf (hO W hok.1) h1 hl'⟩

end UX
