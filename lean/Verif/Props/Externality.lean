import Verif.Proofs.Externality
import Verif.Props.Demo
import Verif.Proofs.Kin
import Verif.Proofs.Safe
import Verif.Props.Kinematics
import Verif.Props.LinkTimes

/-! # Congestion externality (C72) -/

namespace UX
open World

theorem extLinkTry_ok {W : World} {r : Ref} {t e : ℚ} (he : W.extLinkTry r t = .ok e) :
    ∃ l x a1 a0 q lead, W.getLink r = .ok l ∧ W.dt ≠ 0 ∧
      W.queueEnd l (((W.L.ttActual l).length : ℤ) - pyInt (W.fl (t / W.dt))).toNat (pyInt (W.fl (t / W.dt)))
        (pyInt (W.fl (t / W.dt))) = .ok x ∧
      pyGet (W.L.cumArr l).reverse x = .ok a1 ∧
      pyGet (W.L.cumArr l).reverse (pyInt (W.fl (t / W.dt))) = .ok a0 ∧
      pyGet (W.L.ttActual l) (pyInt (W.fl (t / W.dt))) = .ok q ∧
      leaderStep (W.L.cumDep l).reverse (W.exitStep (pyInt (W.fl (t / W.dt))) q + 1)
        (W.exitStep (pyInt (W.fl (t / W.dt))) q + 1).toNat (W.exitStep (pyInt (W.fl (t / W.dt))) q + 1) = .ok lead ∧
      e = W.fl (W.fl ((W.exitStep (pyInt (W.fl (t / W.dt))) q + 1 - lead : ℤ) * W.dt) * ((a1 : ℤ) - a0 : ℤ)) := by
  unfold extLinkTry at he
  rw [bind_ok] at he
  obtain ⟨l, h1, he⟩ := he
  split at he
  · simp at he
  rename_i hd
  dsimp only at he
  rw [bind_ok] at he
  obtain ⟨x, h2, he⟩ := he
  rw [bind_ok] at he
  obtain ⟨a1, h3, he⟩ := he
  rw [bind_ok] at he
  obtain ⟨a0, h4, he⟩ := he
  rw [bind_ok] at he
  obtain ⟨q, h5, he⟩ := he
  rw [bind_ok] at he
  obtain ⟨lead, h6, he⟩ := he
  rw [pure_ok] at he
  exact ⟨l, x, a1, a0, q, lead, h1, hd, h2, h3, h4, h5, h6, he.symm⟩

/-- C72, exact arithmetic: the value estimated for a link, if no exception is swallowed, is the delay charged
to a vehicle that enters in the step of time `t`. `C54_nonneg` gives the hypothesis on the travel times. -/
theorem C72_value {W : World} (h : Reachable Any W) (hex : W.cfg.fl = id) (hd : 0 < W.cfg.deltat)
    (hn : 1 ≤ W.cfg.deltan) {r : Ref} {l : LinkId} (hr : W.getLink r = .ok l)
    (hq : ∀ q ∈ W.L.ttActual l, 0 ≤ q) {t e : ℚ} (ht : 0 ≤ t) (he : W.extLinkTry r t = .ok e) :
    W.extLink r t = e ∧ Externality W l ⌊t / W.cfg.deltat⌋₊ e := by
  have hl := NInv.getLink_lt h.inv.n hr
  refine ⟨by unfold extLink; rw [he], ?_⟩
  obtain ⟨l', x, a1, a0, q, lead, h1, -, h2, h3, h4, h5, h6, rfl⟩ := extLinkTry_ok he
  obtain rfl : l' = l := by rw [hr] at h1; simpa using h1.symm
  have hts : pyInt (W.fl (t / W.dt)) = ((⌊t / W.cfg.deltat⌋₊ : ℕ) : ℤ) := by
    unfold World.fl World.dt
    rw [hex, id, pyInt_floor (div_nonneg ht hd.le)]
  rw [hts] at h2 h4 h5 h6
  rw [hts]
  generalize ⌊t / W.cfg.deltat⌋₊ = i at *
  rw [pyGet_nat] at h4 h5
  have hq0 := hq q (List.mem_of_getElem? h5)
  have hexit : W.exitStep i q + 1 = ((i + ⌊q / W.cfg.deltat⌋₊ + 1 : ℕ) : ℤ) := by
    unfold exitStep World.fl World.dt
    rw [hex, id, pyInt_floor (div_nonneg hq0 hd.le)]
    push_cast; ring
  rw [hexit, Int.toNat_natCast] at h6
  rw [hexit]
  obtain ⟨k, rfl, h7⟩ := leaderStep_spec h hl hn _ (le_refl _) (fun i h1 h2 => absurd h1 (by omega)) h6
  have hout : i + ⌊q / W.cfg.deltat⌋₊ + 1 < W.T := by
    unfold leaderStep at h6
    rw [bind_ok] at h6
    obtain ⟨a, h8, -⟩ := h6
    rw [pyGet_nat] at h8
    exact ((cum_get h hl).2.1 h8).1
  have hj : ∃ j : ℕ, x = j ∧ i ≤ j ∧ (¬ Queued W l' i → j = i) ∧
      (Queued W l' i → (∀ s, i ≤ s → s ≤ j → Queued W l' s) ∧ ¬ Queued W l' (j + 1)) := by
    rcases queueEnd_spec h hl hex hd hn hq _ (by omega) h2 with ⟨h8, h9⟩ | ⟨h8, j, h9, h10, h11, h12⟩
    · exact ⟨i, h9, le_refl _, fun _ => rfl, fun hc => absurd hc h8⟩
    · exact ⟨j, h9, h10, fun hc => absurd h8 hc, fun _ => ⟨h11, h12⟩⟩
  obtain ⟨j, rfl, h8, h9, h10⟩ := hj
  refine ⟨j, _, k, q, h8, h9, h10, h5, rfl, hout, h7, ?_⟩
  rw [pyGet_nat] at h3
  obtain ⟨-, rfl⟩ := (cum_get h hl).1.1 h3
  obtain ⟨-, rfl⟩ := (cum_get h hl).1.1 h4
  rw [entered_eq h8]
  unfold World.fl World.dt
  rw [hex]
  simp only [id]
  push_cast
  ring

/-- C72, exact arithmetic: no exception is swallowed if the queue and the exit of the vehicle lie within
the executed steps: a vehicle that enters while the queue lasts and needs more than 1.01 times the free-flow time
leaves in an executed step, and the step after the exit of the vehicle in question is executed too. -/
theorem C72_defined {W : World} (h : Reachable Any W) (hex : W.cfg.fl = id) (hd : 0 < W.cfg.deltat)
    (hn : 1 ≤ W.cfg.deltan) {r : Ref} {l : LinkId} (hr : W.getLink r = .ok l)
    (hq : ∀ q ∈ W.L.ttActual l, 0 ≤ q) (hu : W.L.u l ≠ 0) {t : ℚ} (ht : 0 ≤ t) {i : ℕ} (hi : i = ⌊t / W.cfg.deltat⌋₊)
    {q : ℚ} (hiq : (W.L.ttActual l)[i]? = some q) (hout : i + ⌊q / W.cfg.deltat⌋₊ + 1 < W.T)
    (hend : ∀ s, i ≤ s → (∀ s', i ≤ s' → s' < s → Queued W l s') → ∀ q', (W.L.ttActual l)[s]? = some q' →
      W.L.length l / W.L.u l * (101 / 100) < q' → s + ⌊q' / W.cfg.deltat⌋₊ < W.T) :
    ∃ e, W.extLinkTry r t = .ok e := by
  have hl := NInv.getLink_lt h.inv.n hr
  have hts : pyInt (W.fl (t / W.dt)) = (i : ℤ) := by
    unfold World.fl World.dt
    rw [hex, id, pyInt_floor (div_nonneg ht hd.le), hi]
  have hread : ∀ {k : ℕ}, k < W.T → (∃ a, pyGet (W.L.cumArr l).reverse k = .ok a ∧
        a = W.cfg.deltan * countUpTo (enters l) W.trace k) ∧
      ∃ a, pyGet (W.L.cumDep l).reverse k = .ok a ∧ a = W.cfg.deltan * countUpTo (leaves l) W.trace k := by
    intro k hk
    exact ⟨⟨_, pyGet_nat.2 ((cum_get h hl).1.2 ⟨hk, rfl⟩), rfl⟩, ⟨_, pyGet_nat.2 ((cum_get h hl).2.2 ⟨hk, rfl⟩), rfl⟩⟩
  have hloop : ∀ n : ℕ, ∀ s : ℕ, (W.L.ttActual l).length ≤ n + s → n = (W.L.ttActual l).length - s → i ≤ s → (∀ s', i ≤ s' → s' < s → Queued W l s') →
      ∀ e : ℤ, ∃ x, W.queueEnd l n s e = .ok x := by
    intro n
    induction n with
    | zero => intro s _ _ _ _ e; exact ⟨e, rfl⟩
    | succ n ih =>
      intro s h1 h1' h2 h3 e
      have hs : s < (W.L.ttActual l).length := by omega
      have hg : (W.L.ttActual l)[s]? = some (W.L.ttActual l)[s] := List.getElem?_eq_getElem hs
      generalize (W.L.ttActual l)[s] = q' at hg
      have hq0 := hq q' (List.mem_of_getElem? hg)
      have hexit : W.exitStep s q' = ((s + ⌊q' / W.cfg.deltat⌋₊ : ℕ) : ℤ) := by
        unfold exitStep World.fl World.dt
        rw [hex, id, pyInt_floor (div_nonneg hq0 hd.le), Nat.cast_add]
      have hslow : W.slowTime l = W.L.length l / W.L.u l * (101 / 100) := by
        unfold slowTime World.fl
        rw [hex]; rfl
      unfold queueEnd
      rw [pyGet_nat.2 hg, ok_bind]
      rw [if_neg hu, hslow, hexit]
      by_cases h4 : W.L.length l / W.L.u l * (101 / 100) < q'
      · have h5 := hend s h2 h3 q' hg h4
        rw [if_pos h4]
        obtain ⟨⟨a, e1, ea⟩, ⟨b, e2, eb⟩⟩ := hread h5
        rw [e1, ok_bind, e2, ok_bind]
        split
        · rename_i hlt
          have hQ : Queued W l s := ⟨q', hg, h4, h5, by rw [ea, eb] at hlt; exact Nat.lt_of_mul_lt_mul_left hlt⟩
          have := ih (s + 1) (by omega) (by omega) (by omega) (fun s' h6 h7 => by
            rcases Nat.eq_or_lt_of_le (Nat.lt_succ_iff.1 h7) with h8 | h8
            · rw [h8]; exact hQ
            · exact h3 s' h6 h8) s
          exact_mod_cast this
        · exact ⟨e, rfl⟩
      · rw [if_neg h4]; exact ⟨e, rfl⟩
  obtain ⟨x, hx⟩ := hloop ((W.L.ttActual l).length - i) i (by omega) rfl (le_refl _) (fun s' h1 h2 => absurd h2 (by omega)) i
  have hq0 := hq q (List.mem_of_getElem? hiq)
  have hexit : W.exitStep i q + 1 = ((i + ⌊q / W.cfg.deltat⌋₊ + 1 : ℕ) : ℤ) := by
    unfold exitStep World.fl World.dt
    rw [hex, id, pyInt_floor (div_nonneg hq0 hd.le)]
    push_cast; ring
  have hlead : ∀ n : ℕ, n ≤ i + ⌊q / W.cfg.deltat⌋₊ + 1 →
      ∃ y, leaderStep (W.L.cumDep l).reverse ((i + ⌊q / W.cfg.deltat⌋₊ + 1 : ℕ) : ℤ) n (n : ℤ) = .ok y := by
    intro n
    induction n with
    | zero => intro _; exact ⟨_, rfl⟩
    | succ n ih =>
      intro hn'
      unfold leaderStep
      obtain ⟨-, a, e1, -⟩ := hread (k := n + 1) (by omega)
      obtain ⟨-, b, e2, -⟩ := hread hout
      rw [e1, ok_bind, e2, ok_bind]
      split
      · exact ⟨_, rfl⟩
      · have := ih (by omega)
        have e3 : ((n + 1 : ℕ) : ℤ) - 1 = (n : ℤ) := by push_cast; omega
        rw [e3]; exact this
  obtain ⟨y, hy⟩ := hlead _ (le_refl _)
  have hxj : ∃ j : ℕ, x = j ∧ j < W.T := by
    rcases queueEnd_spec h hl hex hd hn hq _ (by omega) hx with ⟨-, h9⟩ | ⟨-, j, h9, h10, h11, -⟩
    · exact ⟨i, h9, by omega⟩
    · obtain ⟨q', -, -, h12, -⟩ := h11 j h10 (le_refl _)
      exact ⟨j, h9, by omega⟩
  obtain ⟨j, rfl, hj⟩ := hxj
  obtain ⟨⟨a1, e1, -⟩, -⟩ := hread hj
  obtain ⟨⟨a0, e2, -⟩, -⟩ := hread (k := i) (by omega)
  unfold extLinkTry
  have e4 : (((W.L.ttActual l).length : ℤ) - i).toNat = (W.L.ttActual l).length - i := by omega
  rw [hr, ok_bind, if_neg (by exact hd.ne')]
  dsimp only
  rw [hts, e4, hx, ok_bind, e1, ok_bind, e2, ok_bind, pyGet_nat.2 hiq, ok_bind, hexit, Int.toNat_natCast, hy, ok_bind]
  exact ⟨_, rfl⟩

/-- C72: the estimate is never negative, with rounding. -/
theorem C72_nonneg {W : World} (h : Reachable Any W) (hfl : FlOK W.cfg.fl) (hd : 0 ≤ W.cfg.deltat)
    (r : Ref) {t : ℚ} (ht : 0 ≤ t) : 0 ≤ W.extLink r t := by
  unfold extLink
  split
  · rename_i e he
    obtain ⟨l, x, a1, a0, q, lead, h1, hd0, h2, h3, h4, h5, h6, rfl⟩ := extLinkTry_ok he
    have hl : l < W.nLinks := NInv.getLink_lt h.inv.n h1
    have h7 := queueEnd_ge (le_refl _) h2
    have h8 := leaderStep_le (le_refl _) h6
    have hts : 0 ≤ pyInt (W.fl (t / W.dt)) := by
      have : 0 ≤ W.fl (t / W.dt) := hfl.nonneg (div_nonneg ht hd)
      rw [pyInt_nonneg this]
      exact Int.floor_nonneg.2 this
    obtain ⟨i, hi⟩ := Int.eq_ofNat_of_zero_le hts
    obtain ⟨j, rfl⟩ := Int.eq_ofNat_of_zero_le (hts.trans h7)
    rw [hi] at h4 h7
    rw [pyGet_nat] at h3 h4
    obtain ⟨-, rfl⟩ := (cum_get h hl).1.1 h3
    obtain ⟨-, rfl⟩ := (cum_get h hl).1.1 h4
    apply hfl.nonneg
    apply mul_nonneg
    · apply hfl.nonneg
      apply mul_nonneg _ hd
      have : (0 : ℤ) ≤ W.exitStep (pyInt (W.fl (t / W.dt))) q + 1 - lead := by omega
      exact_mod_cast this
    · have h9 : countUpTo (enters l) W.trace i ≤ countUpTo (enters l) W.trace j := countUpTo_mono (by omega)
      have h10 := Nat.mul_le_mul_left W.cfg.deltan h9
      have : (0 : ℤ) ≤ ((W.cfg.deltan * countUpTo (enters l) W.trace j : ℕ) : ℤ) -
          ((W.cfg.deltan * countUpTo (enters l) W.trace i : ℕ) : ℤ) := by omega
      exact_mod_cast this
  · exact le_refl _

/-- C72: a link on which a vehicle entering at time `t` needs at most 1.01 times the free-flow time gets 0,
with rounding. -/
theorem C72_free {W : World} (hfl : FlOK W.cfg.fl) {r : Ref} {l : LinkId} (hr : W.getLink r = .ok l) {t q : ℚ}
    (hq : pyGet (W.L.ttActual l) (pyInt (W.fl (t / W.dt))) = .ok q) (hs : q ≤ W.slowTime l) : W.extLink r t = 0 := by
  unfold extLink
  split
  · rename_i e he
    obtain ⟨l', x, a1, a0, q', lead, h1, hd0, h2, h3, h4, h5, h6, rfl⟩ := extLinkTry_ok he
    obtain rfl : l' = l := by rw [hr] at h1; simpa using h1.symm
    have hx : x = pyInt (W.fl (t / W.dt)) := by
      generalize (((W.L.ttActual l').length : ℤ) - pyInt (W.fl (t / W.dt))).toNat = n at h2
      cases n with
      | zero => simpa [queueEnd] using h2.symm
      | succ n =>
        unfold queueEnd at h2
        rw [hq] at h2
        rw [ok_bind] at h2
        split at h2
        · simp at h2
        rw [if_neg (not_lt.2 hs)] at h2
        simpa using h2.symm
    rw [hx, h4] at h3
    obtain rfl : a0 = a1 := by simpa using h3
    rw [sub_self, Int.cast_zero, mul_zero]
    exact hfl.zero
  · rfl

theorem extSum_spec {W : World} (hex : W.cfg.fl = id) : ∀ (ls : List LinkId) (tt t acc : ℚ) {r : ℚ × List ℚ},
    W.routeTravelTime ls tt t = .ok r → ∃ x, W.extSum (ls.zip r.2) t acc = acc + x ∧
      RouteCharge (fun l t d => W.actualTravelTime l t = .ok d) (fun l t => W.extLink (.obj l) t) ls t x := by
  intro ls
  induction ls with
  | nil =>
    intro tt t acc r hr
    exact ⟨0, by simp [extSum], rfl⟩
  | cons l ls ih =>
    intro tt t acc r hr
    unfold routeTravelTime at hr
    rw [bind_ok] at hr
    obtain ⟨q, h1, hr⟩ := hr
    rw [bind_ok] at hr
    obtain ⟨r', h2, hr⟩ := hr
    rw [pure_ok] at hr
    subst hr
    have e : ∀ x, W.fl x = x := fun x => by unfold World.fl; rw [hex]; rfl
    rw [e, e] at h2
    obtain ⟨x, h3, h4⟩ := ih _ _ (acc + W.extLink (.obj l) t) h2
    refine ⟨W.extLink (.obj l) t + x, ?_, q, x, h1, h4, rfl⟩
    simp only [List.zip_cons_cons, extSum]
    rw [e, e, h3, add_assoc]

/-- C72, exact arithmetic: the estimate for a route is the sum of the estimates for its links, each at the time
at which the vehicle gets there by the actual travel times. -/
theorem C72_route {W : World} (hex : W.cfg.fl = id) {ls : List LinkId} {t x : ℚ} (hx : W.extRoute ls t = .ok x) :
    RouteCharge (fun l t d => W.actualTravelTime l t = .ok d) (fun l t => W.extLink (.obj l) t) ls t x := by
  unfold extRoute at hx
  rw [bind_ok] at hx
  obtain ⟨r, h1, hx⟩ := hx
  rw [pure_ok] at hx
  subst hx
  obtain ⟨x, h2, h3⟩ := extSum_spec hex ls 0 t 0 h1
  rw [h2, zero_add]
  exact h3

/-- C72: the estimate for a route is not negative (exact arithmetic). -/
theorem C72_route_nonneg {W : World} (h : Reachable Any W) (hex : W.cfg.fl = id) (hd : 0 ≤ W.cfg.deltat)
    {ls : List LinkId} (hq : ∀ l ∈ ls, ∀ q ∈ W.L.ttActual l, 0 ≤ q) {t x : ℚ} (ht : 0 ≤ t)
    (hx : W.extRoute ls t = .ok x) : 0 ≤ x := by
  have hc := C72_route hex hx
  clear hx
  induction ls generalizing t x with
  | nil => exact le_of_eq hc.symm
  | cons l ls ih =>
    obtain ⟨d, y, h1, h2, rfl⟩ := hc
    have hd0 : 0 ≤ d := by
      unfold actualTravelTime at h1
      rw [bind_ok] at h1
      obtain ⟨k, -, h1⟩ := h1
      unfold readAt at h1
      dsimp only at h1
      split at h1
      · rename_i a ha
        simp only [Except.ok.injEq] at h1
        subst h1
        apply hq l List.mem_cons_self
        split at ha
        · exact List.mem_of_getLast? ha
        split at ha
        · exact List.mem_of_head? ha
        · exact List.mem_of_getElem? ha
      · simp at h1
    have h3 : 0 ≤ W.extLink (.obj l) t := C72_nonneg h (by rw [hex]; exact flOK_id) hd _ ht
    have h4 := ih (fun k hk => hq k (List.mem_cons_of_mem _ hk)) (add_nonneg ht hd0) h2
    exact add_nonneg h3 h4

/-- Four platoons, one per step, and a link that lets one pass every three steps. -/
def queueDemo (tmax : ℚ) (k : ℕ) : List Cmd :=
  [.node { name := "a" }, .node { name := "b" }, .node { name := "c" },
   .link { startN := .obj 0, endN := .obj 1, length := 200, capOut := some (1/3) },
   .link { startN := .obj 1, endN := .obj 2, length := 200 },
   .veh { orig := .obj 0, dest := some (.obj 2), dep := .step 0 },
   .veh { orig := .obj 0, dest := some (.obj 2), dep := .step 1 },
   .veh { orig := .obj 0, dest := some (.obj 2), dep := .step 2 },
   .veh { orig := .obj 0, dest := some (.obj 2), dep := .step 3 },
   .fin (some tmax)] ++ List.replicate k .tick

set_option maxRecDepth 100000 in
/-- The hypotheses of `C72_value` and of the theorems on routes are met with a positive estimate, those of `C72_free` at
time 0. -/
example : ∃ W, Reachable Any W ∧ W.cfg.fl = id ∧ W.cfg.deltat = 5 ∧ W.cfg.deltan = 5 ∧ W.getLink (.obj 0) = .ok 0 ∧
    (∀ q ∈ W.L.ttActual 0, 0 ≤ q) ∧ (∀ q ∈ W.L.ttActual 1, 0 ≤ q) ∧ W.extLinkTry (.obj 0) 10 = .ok 50 ∧
    W.extRoute [0, 1] 10 = .ok 50 ∧ pyGet (W.L.ttActual 0) (pyInt (W.fl (0 / W.dt))) = .ok 10 ∧ 10 ≤ W.slowTime 0 := by
  have h : obs (runCmds demoCfg (fun _ => 0) (queueDemo 100 20)) (fun W =>
      decide (W.getLink (.obj 0) = .ok 0) && decide (∀ q ∈ W.L.ttActual 0, 0 ≤ q) &&
      decide (∀ q ∈ W.L.ttActual 1, 0 ≤ q) && decide (W.extLinkTry (.obj 0) 10 = .ok 50) &&
      decide (W.extRoute [0, 1] 10 = .ok 50) && decide (pyGet (W.L.ttActual 0) (pyInt (W.fl (0 / W.dt))) = .ok 10) &&
      decide (10 ≤ W.slowTime 0)) = true := by decide +kernel
  obtain ⟨W, h1, h2⟩ := obs_ok h
  simp only [Bool.and_eq_true, decide_eq_true_eq] at h2
  have hc := runCmds_cfg h1
  obtain ⟨⟨⟨⟨⟨⟨a, b⟩, c⟩, d⟩, e⟩, f⟩, g⟩ := h2
  exact ⟨W, runCmds_reachable h1, by rw [hc]; rfl, by rw [hc]; decide +kernel, by rw [hc]; rfl, a, b, c, d, e, f, g⟩

set_option maxRecDepth 100000 in
/-- C72: "a vehicle that joins a queue with others behind it is charged something" is false. In the same scenario, cut off
after 12 steps, vehicles enter while the queue lasts, and an exception about a step that was not simulated turns the
estimate into 0. -/
theorem C72_swallowed_false : ∃ W, Reachable Any W ∧ W.cfg.fl = id ∧ W.T = W.tsize ∧ Queued W 0 2 ∧ Queued W 0 3 ∧
    enteredIn W 0 2 3 = 1 ∧ (W.L.ttActual 0)[2]? = some 20 ∧ LastGap W 0 7 5 ∧
    W.extLinkTry (.obj 0) 10 = .error .indexError ∧ W.extLink (.obj 0) 10 = 0 := by
  have h : obs (runCmds demoCfg (fun _ => 0) (queueDemo 60 12)) (fun W =>
      decide (W.T = W.tsize ∧ W.T = 12 ∧ (W.L.ttActual 0)[2]? = some 20 ∧ (W.L.ttActual 0)[3]? = some 30 ∧
        W.L.length 0 / W.L.u 0 * (101 / 100) < 20 ∧ W.cfg.deltat = 5 ∧ enteredIn W 0 2 3 = 1) &&
      decide (countUpTo (leaves 0) W.trace 6 < countUpTo (enters 0) W.trace 6 ∧
        countUpTo (leaves 0) W.trace 9 < countUpTo (enters 0) W.trace 9 ∧
        countUpTo (leaves 0) W.trace 6 = countUpTo (leaves 0) W.trace 7 ∧
        countUpTo (leaves 0) W.trace 5 < countUpTo (leaves 0) W.trace 7) &&
      decide (W.extLinkTry (.obj 0) 10 = .error .indexError)) = true := by decide +kernel
  obtain ⟨W, h1, h2⟩ := obs_ok h
  simp only [Bool.and_eq_true, decide_eq_true_eq] at h2
  obtain ⟨⟨⟨a1, a2, a3, a4, a5, a6, a7⟩, b1, b2, b3, b4⟩, c⟩ := h2
  have f4 : ⌊(20 : ℚ) / 5⌋₊ = 4 := by norm_num
  have f6 : ⌊(30 : ℚ) / 5⌋₊ = 6 := by norm_num
  refine ⟨W, runCmds_reachable h1, by rw [runCmds_cfg h1]; rfl, a1, ⟨20, a3, a5, ?_, ?_⟩,
    ⟨30, a4, a5.trans (by norm_num), ?_, ?_⟩, a7, a3, ⟨?_, .inl ⟨by omega, by omega, b4⟩⟩, c, ?_⟩
  · rw [a6, f4, a2]; omega
  · rw [a6, f4]; exact b1
  · rw [a6, f6, a2]; omega
  · rw [a6, f6]; exact b2
  · intro i h3 h4
    rcases (show i = 6 ∨ i = 7 by omega) with rfl | rfl
    · exact b3
    · rfl
  · unfold extLink; rw [c]

end UX
