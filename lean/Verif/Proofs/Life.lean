import Verif.Proofs.EInv

/-! How a vehicle's state and the event list change within one step. -/

namespace UX
open World

/-- Change of state in the first half of a step. -/
def Early (s t : VState) (flag : Bool) (ev : Prop) : Prop :=
  (s = .home ∧ t = .home) ∨ (s = .wait ∧ t = .wait) ∨ (s = .wait ∧ t = .run ∧ flag = false ∧ ev) ∨
  (s = .run ∧ (t = .run ∨ t = .ended ∨ t = .abort)) ∨ (s = .ended ∧ t = .ended) ∨
  (s = .abort ∧ t = .abort)

/-- Change of state within a step. -/
def TickLife (s t : VState) (ev : Prop) : Prop :=
  (s = .home ∧ (t = .home ∨ t = .wait)) ∨ (s = .wait ∧ t = .wait) ∨
  (s = .wait ∧ (t = .run ∨ t = .ended ∨ t = .abort) ∧ ev) ∨
  (s = .run ∧ (t = .run ∨ t = .ended ∨ t = .abort)) ∨ (s = .ended ∧ t = .ended) ∨
  (s = .abort ∧ t = .abort)

def LifeA (W0 W : World) : Prop := ∀ v, Early (W0.V.state v) (W.V.state v) (W.V.flagEnd v)
  (∃ n l, Event.depart W.T v n l ∈ W.trace)

def LifeB (W0 W : World) : Prop := ∀ v, TickLife (W0.V.state v) (W.V.state v)
  (∃ n l, Event.depart W.T v n l ∈ W.trace)

theorem LifeA.prim {act : Act} {W0 W W' : World} (ha : isEarly act) (hc : Core W) (hp : Prim act W W')
    (h : LifeA W0 W) : LifeA W0 W' := by
  have hs := hp.shape hc.s
  clear hp
  cases hs with
  | linkTick => exact h
  | nodeTick => exact h
  | clearInc => exact h
  | carfollow => exact h
  | routing => exact h
  | @depart _ n v t cs l o hn hq hcs hl hout hent hcum hlead =>
    intro u
    have hu := h u
    have hm := hc.s.genq_mem n v (by simp [hq])
    have hy := hc.f.young v (.inr hm.1)
    dsimp only
    by_cases huv : u = v
    · subst huv
      rw [upd_same]
      rw [hm.1] at hu
      rw [hy]
      have : ∃ n_1 l_1, Event.depart W.T u n_1 l_1 ∈ Event.depart W.T u n l :: W.trace :=
        ⟨n, l, by simp⟩
      simp only [Early, reduceCtorEq, and_true, and_false, false_and, or_false, false_or, true_and, hy] at hu ⊢
      exact Or.inl ⟨hu, this⟩
    · rw [upd_ne _ _ huv]
      rcases hu with h | h | ⟨h1, h2, h3, n', l', h4⟩ | h | h | h
      · exact .inl h
      · exact .inr (.inl h)
      · exact .inr (.inr (.inl ⟨h1, h2, h3, n', l', by simp [h4]⟩))
      · exact .inr (.inr (.inr (.inl h)))
      · exact .inr (.inr (.inr (.inr (.inl h))))
      · exact .inr (.inr (.inr (.inr (.inr h))))
  | @move =>
    intro u
    have hu := h u
    dsimp only
    simp only [List.mem_cons, reduceCtorEq, false_or]
    exact hu
  | @endTrip _ v l t log s c lt tta hl hv hf hcd hrun hliv hlt hlog htta =>
    intro u
    have hu := h u
    have hlr := hc.s.link_run v l hl
    dsimp only
    simp only [List.mem_cons, reduceCtorEq, false_or]
    by_cases huv : u = v
    · subst huv
      rw [upd_same]
      rw [hlr.1, hf] at hu
      simp only [Early, reduceCtorEq, and_true, and_false, false_and, or_false, false_or, true_or,
        Bool.true_eq_false] at hu
      rw [hu]
      right; right; right; left
      cases W.V.flagAborted u <;> simp
    · rw [upd_ne _ _ huv]; exact hu
  | _ => exact ha.elim

theorem LifeA.weaken {W0 W : World} (h : LifeA W0 W) : LifeB W0 W := by
  intro v
  have := h v
  simp only [Early, TickLife] at *
  grind

theorem LifeB.prim {act : Act} {W0 W W' : World} (ha : isLate act) (hc : Core W) (hp : Prim act W W')
    (h : LifeB W0 W) : LifeB W0 W' := by
  have hs := hp.shape hc.s
  clear hp
  cases hs with
  | record => exact h
  | noWait => exact h
  | advance => exact h
  | routing => exact h
  | event => exact h
  | nextDest => exact h
  | flagEnd => exact h
  | flagAbort => exact h
  | choose => exact h
  | pushInc => exact h
  | @startWait _ v hliv hs hd =>
    intro u
    have hu := h u
    dsimp only
    simp only [List.mem_cons, reduceCtorEq, false_or]
    by_cases huv : u = v
    · subst huv
      rw [upd_same]
      rw [hs] at hu
      simp only [TickLife, reduceCtorEq, and_true, and_false, false_and, or_false, true_or, or_true,
        false_or] at hu ⊢
      exact .inl hu
    · rw [upd_ne _ _ huv]; exact hu
  | @endTrip _ v l t log s c lt tta hl hv hf hcd hrun hliv hlt hlog htta =>
    intro u
    have hu := h u
    have hlr := hc.s.link_run v l hl
    dsimp only
    simp only [List.mem_cons, reduceCtorEq, false_or]
    by_cases huv : u = v
    · subst huv
      rw [upd_same]
      rw [hlr.1] at hu
      simp only [TickLife, reduceCtorEq, and_true, and_false, false_and, or_false, false_or, true_or,
        true_and] at hu ⊢
      rcases hu with h | h <;> cases W.V.flagAborted u <;> simp [h]
    · rw [upd_ne _ _ huv]; exact hu
  | _ => exact ha.elim

theorem LifeA.refl (W : World) : LifeA W W := by
  intro v
  cases h : W.V.state v <;> simp [Early]

/-- What a time step does to the states of the vehicles. -/
theorem step_life {W W1 : World} (hi : Inv W) (hf : W.finalized = true) (h : W.step = .ok W1) :
    LifeB W W1 := by
  obtain ⟨W6, -, -, h6, rfl⟩ := step_two (Pa := LifeA W) (Pb := LifeB W) hi hf
    (fun _ _ _ ha hc hp h => h.prim ha hc hp) (fun _ _ _ h => h.weaken)
    (fun _ _ _ ha hc hp h => h.prim ha hc hp) h (LifeA.refl W)
  exact h6

/-- Passages recorded since `W0` were allowed by the signal as it is now. -/
def Green (W0 W : World) : Prop := ∀ T v n a b ph, Event.pass T v n a b ph ∈ W.trace →
  Event.pass T v n a b ph ∈ W0.trace ∨
  (T = W.T ∧ ph = W.N.phase n ∧ W.L.endN a = n ∧
    (2 ≤ (W.N.signal n).length → ph ∈ W.L.signalGroup a))

/-- No passage has been recorded since `W0`. -/
def NoPass (W0 W : World) : Prop := ∀ T v n a b ph, Event.pass T v n a b ph ∈ W.trace →
  Event.pass T v n a b ph ∈ W0.trace

theorem NoPass.prim {act : Act} {W0 W W' : World} (ha : isLinkTick act ∨ isGen act) (hc : Core W)
    (hp : Prim act W W') (h : NoPass W0 W) : NoPass W0 W' := by
  have hs := hp.shape hc.s
  clear hp
  cases hs with
  | linkTick => exact h
  | nodeTick => exact h
  | routing => exact h
  | depart =>
    intro T v n a b ph hm
    simp only [List.mem_cons, reduceCtorEq, false_or] at hm
    exact h _ _ _ _ _ _ hm
  | _ => rcases ha with ha | ha <;> exact ha.elim

theorem Green.prim {act : Act} {W0 W W' : World} (ha : ∀ n, act ≠ .nodeTick n) (hc : Core W)
    (hp : Prim act W W') (h : Green W0 W) : Green W0 W' := by
  have hs := hp.shape hc.s
  clear hp
  cases hs with
  | nodeTick => exact absurd rfl (ha _)
  | linkTick => exact h
  | clearInc => exact h
  | carfollow => exact h
  | routing => exact h
  | record => exact h
  | noWait => exact h
  | advance => exact h
  | event => exact h
  | nextDest => exact h
  | flagEnd => exact h
  | flagAbort => exact h
  | choose => exact h
  | pushInc => exact h
  | depart =>
    intro T v n a b ph hm
    simp only [List.mem_cons, reduceCtorEq, false_or] at hm
    exact h _ _ _ _ _ _ hm
  | startWait =>
    intro T v n a b ph hm
    simp only [List.mem_cons, reduceCtorEq, false_or] at hm
    exact h _ _ _ _ _ _ hm
  | endTrip =>
    intro T v n a b ph hm
    simp only [List.mem_cons, reduceCtorEq, false_or] at hm
    exact h _ _ _ _ _ _ hm
  | @move _ n v a b t o q nl fc tta hn hinc hla hv hr hsig hout hfl hent hcd hca hu hlead hnl hq hfc htta =>
    intro T v' n' a' b' ph hm
    simp only [List.mem_cons] at hm
    rcases hm with hm | hm
    · right
      simp only [Event.pass.injEq] at hm
      obtain ⟨rfl, rfl, rfl, rfl, rfl, rfl⟩ := hm
      refine ⟨rfl, rfl, (hc.s.inc_run _ _ _ hinc hla).1, fun h2 => ?_⟩
      rcases hsig with h | h
      · exact h
      · dsimp only at h2; omega
    · exact h _ _ _ _ _ _ hm

theorem step_green {W W1 : World} (hi : Inv W) (hf : W.finalized = true) (h : W.step = .ok W1) :
    Green W W1 := by
  obtain ⟨A, B, C, D, E, F, hp, rfl⟩ := step_phases (hi.core hf) h
  have hA : NoPass W A := hp.s1.inv_core (fun a W W' ha hc hp h => h.prim (.inl ha) hc hp) (hi.core hf)
    (fun _ _ _ _ _ _ h => h)
  have hB : NoPass W B := hp.s2.inv_core (fun a W W' ha hc hp h => h.prim (.inr ha) hc hp) hp.c1 hA
  have hB' : Green W B := fun T v n a b ph h => .inl (hB T v n a b ph h)
  have hC : Green W C := hp.s3.inv_core
    (fun a W W' ha hc hp h => h.prim (fun n hn => by subst hn; exact ha.elim) hc hp) hp.c2 hB'
  have hD : Green W D := hp.s4.inv_core
    (fun a W W' ha hc hp h => h.prim (fun n hn => by subst hn; exact ha.elim) hc hp) hp.c3 hC
  have hE : Green W E := hp.s5.inv_core
    (fun a W W' ha hc hp h => h.prim (fun n hn => by subst hn; exact isUpdAny_late _ ha) hc hp)
    hp.c4 hD
  have hF : Green W F := hp.s6.inv_core
    (fun a W W' ha hc hp h => h.prim (fun n hn => by subst hn; exact ha.elim) hc hp) hp.c5 hE
  exact hF

end UX
