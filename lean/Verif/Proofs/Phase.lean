import Verif.Proofs.Trace

/-! Induction over a step in phases. -/

namespace UX
open World

/-- Primitives of the link, generation, transfer and car-following phases. -/
def isEarly : Act → Prop
  | .linkTick _ => True | .depart _ _ _ => True | .routing => True | .nodeTick _ => True
  | .move _ _ _ _ => True | .endTrip _ _ => True | .clearInc _ => True | .carfollow _ => True
  | _ => False

/-- Primitives of the vehicle-update and route-choice phases. -/
def isLate : Act → Prop
  | .record _ => True | .startWait _ => True | .advance _ => True
  | .routing => True | .event _ => True | .nextDest _ => True | .flagEnd _ => True
  | .flagAbort _ => True | .choose _ => True | .pushInc _ _ => True | .endTrip _ _ => True
  | _ => False

theorem isUpdAny_late : ∀ a, isUpdAny a → isLate a := by
  rintro a ⟨v, h⟩
  cases a <;> simp_all [isUpd, isLate]

theorem isRouting_late : ∀ a, isRouting a → isLate a := by
  intro a h
  cases a <;> simp_all [isRouting, isLate]

theorem PStar.inv_core {A : Act → Prop} {P : World → Prop} {W W'}
    (hP : ∀ a W W', A a → Core W → Prim a W W' → P W → P W') (h : PStar A W W') (hc : Core W)
    (h0 : P W) : P W' :=
  (h.inv (P := fun W => Core W ∧ P W)
    (fun a W W' ha h hp => ⟨h.1.prim hp, hP a W W' ha h.1 hp h.2⟩) ⟨hc, h0⟩).2

theorem isEarly_of {a : Act} (h : isLinkTick a ∨ isGen a ∨ isTrAny a ∨ isCf a) : isEarly a := by
  cases a <;> simp_all [isLinkTick, isGen, isTrAny, isCf, isEarly]

/-- A step in two halves: `Pa` up to and including car-following, `Pb` afterwards. -/
theorem step_two {Pa Pb : World → Prop} {W W1 : World} (hi : Inv W) (hf : W.finalized = true)
    (pa : ∀ act W W', isEarly act → Core W → Prim act W W' → Pa W → Pa W')
    (ab : ∀ W, Core W → (∀ n, W.N.incoming n = []) → Pa W → Pb W)
    (pb : ∀ act W W', isLate act → Core W → Prim act W W' → Pb W → Pb W')
    (h : W.step = .ok W1) (h0 : Pa W) :
    ∃ W6, Core W6 ∧ Static W W6 ∧ Pb W6 ∧ W1 = { W6 with time := W6.now } := by
  obtain ⟨A, B, C, D, E, F, hp, rfl⟩ := step_phases (hi.core hf) h
  refine ⟨F, hp.c6, ?_, ?_, rfl⟩
  · exact ((((hp.s1.static.trans hp.s2.static).trans hp.s3.static).trans hp.s4.static).trans
      hp.s5.static).trans hp.s6.static
  · have hA : Pa A := hp.s1.inv_core (fun a W W' ha => pa a W W' (isEarly_of (.inl ha))) (hi.core hf) h0
    have hB : Pa B := hp.s2.inv_core (fun a W W' ha => pa a W W' (isEarly_of (.inr (.inl ha)))) hp.c1 hA
    have hC : Pa C :=
      hp.s3.inv_core (fun a W W' ha => pa a W W' (isEarly_of (.inr (.inr (.inl ha))))) hp.c2 hB
    have hD : Pa D :=
      hp.s4.inv_core (fun a W W' ha => pa a W W' (isEarly_of (.inr (.inr (.inr ha))))) hp.c3 hC
    have hE : Pb E := hp.s5.inv_core (fun a W W' ha => pb a W W' (isUpdAny_late a ha)) hp.c4
      (ab _ hp.c4 hp.i4 hD)
    exact hp.s6.inv_core (fun a W W' ha => pb a W W' (isRouting_late a ha)) hp.c5 hE

theorem step_T {W W1 : World} (hi : Inv W) (hf : W.finalized = true) (h : W.step = .ok W1) :
    W1.T = W.T ∧ W1.nVeh = W.nVeh ∧ W1.cfg = W.cfg := by
  obtain ⟨W6, hs, rfl⟩ := step_star (hi.core hf) h
  exact ⟨hs.static.T, hs.static.nVeh, hs.static.cfg⟩

end UX
