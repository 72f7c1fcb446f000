import Verif.Proofs.Static

/-! Invariant of vehicles that wait for the end of their trip. -/

namespace UX
open World

structure FInv (W : World) : Prop where
  flag : ∀ v a, W.V.link v = some a → W.V.flagEnd v = true → W.V.linkOld v = some a ∧
    ((W.V.mode v = .single ∧ W.V.flagAborted v = false ∧ W.V.dest v = some (W.L.endN a) ∧
        ∀ n, v ∉ W.N.incoming n) ∨
     (W.V.flagAborted v = true ∧ W.V.tripAbort v = true ∧ W.N.outlinks (W.L.endN a) = [] ∧
        W.V.rnl v = .none ∧ (W.V.mode v = .single → W.V.dest v ≠ some (W.L.endN a))))
  aborted_flag : ∀ v, W.V.flagAborted v = true → W.V.flagEnd v = true
  young : ∀ v, W.V.state v = .home ∨ W.V.state v = .wait → W.V.flagEnd v = false

namespace FInv

theorem soft {W W' : World} (h : FInv W) (hs : Soft W W') : FInv W' := by
  obtain ⟨_, _, _, _, _, _, _, rfl, hd⟩ := hs
  cases h
  constructor <;> try assumption
  grind

theorem prim {W W' : World} {act : Act} (h : FInv W) (hS : SInv W)
    (hp : Prim act W W') : FInv W' := by
  cases hp with
  | linkTick _ h1 => obtain ⟨_, rfl⟩ := linkUpdate_ok h1; cases h; constructor <;> assumption
  | nodeTick _ h1 => obtain ⟨_, _, _, _, rfl⟩ := nodeUpdate_ok h1; cases h; constructor <;> assumption
  | @depart _ _ n v t _ l _ hq hc hl _ h1 =>
    obtain ⟨-, o, ho, rfl⟩ := depart_ok h1
    have hvw := hS.genq_mem n v (by simp [hq])
    cases h
    constructor <;> simp only [departRes, upd_apply] <;> try assumption
    all_goals grind
  | move _ hi hl hv hr _ _ _ _ h1 =>
    obtain ⟨-, -, -, o, ho, rfl⟩ := moveCore_ok h1
    have hlr := hS.link_run _ _ hl
    cases h
    constructor <;> simp only [moveRes, leaveLink, attachTo, placeOn, upd_apply] <;> try assumption
    all_goals grind
  | @endTrip _ _ v l _ hl hv _ h1 =>
    obtain ⟨l', hl', -, -, h1, h2, rfl⟩ := endTrip_ok h1
    obtain rfl : l = l' := by rw [hl] at hl'; simpa using hl'
    have hlo := recordLog_linkOld (W.endTripCore v l) v true
    obtain ⟨log, s, c, lt, lo, hr⟩ := recordLog_frame (W.endTripCore v l) v true
    rw [hr] at hlo ⊢
    dsimp only at hlo
    subst hlo
    cases h
    constructor <;> simp only [endTripCore, upd_apply] <;> try assumption
    all_goals grind
  | clearInc =>
    cases h; constructor <;> simp only [upd_apply] <;> try assumption
    all_goals grind
  | carfollow _ h1 =>
    obtain ⟨_, _, _, _, rfl, _⟩ := carfollow_ok h1
    cases h; constructor <;> assumption
  | @record _ v =>
    have hlo := recordLog_linkOld W v false
    obtain ⟨log, s, c, lt, lo, hr⟩ := recordLog_frame W v false
    rw [hr] at hlo ⊢
    dsimp only at hlo
    subst hlo
    cases h
    constructor <;> try assumption
    grind [upd_apply]
  | startWait hv =>
    unfold World.startWait; split
    · cases h; constructor <;> simp only [upd_apply] <;> try assumption
      grind
    · exact h
  | advance _ _ hi => cases h; constructor <;> assumption
  | routing => exact h.soft ⟨_, _, _, _, _, _, _, rfl, fun _ _ => rfl⟩
  | event _ _ h1 => exact h.soft (runEvent_soft h1)
  | @nextDest _ v a ha hd hm =>
    obtain ⟨d, dl, hd⟩ := nextDest_frame W v
    rw [hd]
    cases h; constructor <;> simp only [upd_apply] <;> try assumption
    all_goals grind
  | flagEnd ha hd hm =>
    obtain ⟨a1, a2, a3, a4, a5⟩ := ha
    cases h; cases hS; constructor <;> simp only [upd_apply] <;> try assumption
    all_goals grind
  | flagAbort ha hd ho ht =>
    obtain ⟨a1, a2, a3, a4, a5⟩ := ha
    cases h; cases hS; constructor <;> simp only [upd_apply] <;> try assumption
    all_goals grind
  | @choose _ _ v _ ha h1 hd ho =>
    obtain ⟨a1, a2, a3, a4, a5⟩ := ha
    obtain ⟨a, r, rnl, ha, rfl, hr⟩ := nextLinkChoice_ok h1
    have hc : W.N.outlinks (W.L.endN a) = [] → rnl = .none ∨ rnl = W.V.rnl v := by
      intro he
      rcases hr with ⟨hr, _⟩ | ⟨hr, _⟩ | ⟨c, hr, hc, _⟩ | ⟨c, _, hr, hc, _⟩
      · exact .inr hr
      · exact .inl hr
      · have := SInv.mem_nextCandidates hc; rw [he] at this; simp at this
      · rw [he] at hc; simp at hc
    cases h; constructor <;> simp only [upd_apply] <;> try assumption
    all_goals grind
  | @pushInc _ v a ha hg =>
    obtain ⟨a1, a2, a3, a4, a5⟩ := ha
    cases h; constructor <;> simp only [World.pushIncoming, upd_apply] <;> try assumption
    all_goals grind

end FInv
end UX
