import Verif.Proofs.Frames

/-! Structural invariant: where vehicles are. -/

namespace UX
open World

structure SInv (W : World) : Prop where
  link_run : ∀ v l, W.V.link v = some l → W.V.state v = .run ∧ v ∈ W.L.vehs l ∧ l < W.nLinks
  vehs_link : ∀ l v, v ∈ W.L.vehs l → W.V.link v = some l
  run_link : ∀ v, W.V.state v = .run → W.V.link v ≠ none
  vehs_nodup : ∀ l, (W.L.vehs l).Nodup
  genq_mem : ∀ n v, v ∈ W.N.genq n → W.V.state v = .wait ∧ W.V.orig v = n
  wait_genq : ∀ v, W.V.state v = .wait → v ∈ W.N.genq (W.V.orig v)
  genq_nodup : ∀ n, (W.N.genq n).Nodup
  living_iff : ∀ v, v ∈ W.living ↔ v < W.nVeh ∧ W.V.state v ≠ .ended ∧ W.V.state v ≠ .abort
  living_nodup : W.living.Nodup
  running_iff : ∀ v, v ∈ W.running ↔ W.V.state v = .run
  running_nodup : W.running.Nodup
  fresh : ∀ v, W.nVeh ≤ v → W.V.state v = .home
  orig_lt : ∀ v, v < W.nVeh → W.V.orig v < W.nNodes
  out_iff : ∀ n l, l ∈ W.N.outlinks n ↔ l < W.nLinks ∧ W.L.startN l = n
  in_iff : ∀ n l, l ∈ W.N.inlinks n ↔ l < W.nLinks ∧ W.L.endN l = n
  out_nodup : ∀ n, (W.N.outlinks n).Nodup
  in_nodup : ∀ n, (W.N.inlinks n).Nodup
  ends_lt : ∀ l, l < W.nLinks → W.L.startN l < W.nNodes ∧ W.L.endN l < W.nNodes
  lanes_pos : ∀ l, l < W.nLinks → 1 ≤ W.L.lanes l
  unfinal : W.finalized = false → ∀ v, W.V.state v = .home
  inc_nodup : ∀ n, (W.N.incoming n).Nodup
  inc_run : ∀ n v a, v ∈ W.N.incoming n → W.V.link v = some a →
    W.L.endN a = n ∧ W.V.x v = W.L.length a ∧ W.V.linkOld v = some a
  inc_old : ∀ n v, v ∈ W.N.incoming n → W.V.state v ≠ .home ∧ W.V.state v ≠ .wait
  inc_lt : ∀ n, W.nNodes ≤ n → W.N.incoming n = []
  rnl_lt : ∀ v b, W.V.rnl v = .to b → b < W.nLinks

namespace SInv

theorem soft {W W' : World} (h : SInv W) (hs : Soft W W') : SInv W' := by
  obtain ⟨_, _, _, _, _, _, _, rfl, -⟩ := hs
  cases h
  constructor <;> assumption

theorem param {W W' : World} (h : SInv W) (hs : Param W W') : SInv W' := by
  obtain ⟨_, _, _, _, _, _, _, _, _, _, _, _, _, _, _, _, _, _, _, rfl, -⟩ := hs
  cases h
  constructor <;> assumption

theorem move {W W' : World} {n v a b t} (h : SInv W)
    (hinc : v ∈ W.N.incoming n) (hlink : W.V.link v = some a)
    (hv : W.L.vehs a = v :: t) (hr : W.V.rnl v = .to b)
    (hm : W.moveCore n v a b = .ok W') : SInv W' := by
  obtain ⟨-, -, -, o, ho, rfl⟩ := moveCore_ok hm
  generalize ((W.leaveLink n v a b).attachTo v b o).carryOver v a b = q
  have h4a := h.vehs_nodup a
  have hb := h.rnl_lt v b hr
  cases h
  constructor <;>
    simp only [moveRes, leaveLink, attachTo, placeOn, upd_apply] <;> try assumption
  all_goals grind

theorem mem_preferAvoid {W : World} {v : VehId} {ls : List LinkId} {l : LinkId}
    (h : l ∈ W.preferAvoid v ls) : l ∈ ls := by
  have key : ∀ o1 : List LinkId, (∀ l ∈ o1, l ∈ ls) → ∀ p : LinkId → Bool,
      (l ∈ if o1.any (fun l => (W.V.linksAvoid v).contains l)
        then W.sortByName (o1.filter p) else o1) → l ∈ ls := by
    intro o1 h1 p hl
    split at hl
    · exact h1 _ (List.mem_filter.mp (List.mem_mergeSort.mp hl)).1
    · exact h1 _ hl
  refine key _ ?_ _ h
  intro l hl
  split at hl
  · exact (List.mem_filter.mp (List.mem_mergeSort.mp hl)).1
  · exact hl

theorem mem_originCandidates {W : World} {v : VehId} {n : NodeId} {cs : List LinkId} {l : LinkId}
    (h : W.originCandidates v n = .ok cs) (hl : l ∈ cs) : l ∈ W.N.outlinks n := by
  unfold World.originCandidates at h
  split at h
  · simp only [Except.ok.injEq] at h; subst h; exact mem_preferAvoid hl
  · simp at h
  · split at h
    · rename_i hc
      simp only [Except.ok.injEq] at h; subst h
      simp at hl; subst hl; simpa using hc
    · simp at h

theorem mem_nextCandidates {W : World} {v : VehId} {n : NodeId} {l : LinkId}
    (hl : l ∈ W.nextCandidates v n) : l ∈ W.N.outlinks n := by
  unfold World.nextCandidates at hl
  dsimp only at hl
  split at hl
  · split at hl
    · exact mem_preferAvoid hl
    · exact mem_preferAvoid (List.mem_filter.mp hl).1
  · exact mem_preferAvoid hl

theorem depart {W W' : World} {n v t l} (h : SInv W) (hf : W.finalized = true)
    (hq : W.N.genq n = v :: t) (hl : l ∈ W.N.outlinks n)
    (hm : W.depart n v l = .ok W') : SInv W' := by
  obtain ⟨-, o, ho, rfl⟩ := depart_ok hm
  have h7n := h.genq_nodup n
  have hvw := h.genq_mem n v (by simp [hq])
  cases h
  constructor <;>
    simp only [departRes, upd_apply] <;> try assumption
  all_goals grind

theorem endTrip {W W' : World} {v l t} (h : SInv W) (hf : W.finalized = true)
    (hlink : W.V.link v = some l) (hv : W.L.vehs l = v :: t)
    (hm : W.endTrip v = .ok W') : SInv W' := by
  obtain ⟨l', hl', -, -, h1, h2, rfl⟩ := endTrip_ok hm
  obtain rfl : l = l' := by rw [hlink] at hl'; simpa using hl'
  have hlo := recordLog_linkOld (W.endTripCore v l) v true
  obtain ⟨log, s, c, lt, lo, hr⟩ := recordLog_frame (W.endTripCore v l) v true
  rw [hr] at hlo ⊢
  dsimp only at hlo
  subst hlo
  have h4a := h.vehs_nodup l
  cases h
  constructor <;>
    simp only [endTripCore, upd_apply] <;> try assumption
  all_goals grind


theorem carfollow {W W' : World} {v} (h : SInv W) (hm : W.carfollow v = .ok W') : SInv W' := by
  obtain ⟨_, _, _, _, rfl, _⟩ := carfollow_ok hm
  cases h
  constructor <;> assumption

theorem linkTick {W W' : World} {l} (h : SInv W) (hm : W.linkUpdate l = .ok W') : SInv W' := by
  obtain ⟨_, rfl⟩ := linkUpdate_ok hm
  cases h
  constructor <;> assumption

theorem nodeTick {W W' : World} {n} (h : SInv W) (hm : W.nodeUpdate n = .ok W') : SInv W' := by
  obtain ⟨_, _, _, _, rfl⟩ := nodeUpdate_ok hm
  cases h
  constructor <;> assumption

theorem record {W : World} {v e} (h : SInv W) : SInv (W.recordLog v e) := by
  have hlo := recordLog_linkOld W v e
  obtain ⟨log, s, c, lt, lo, hr⟩ := recordLog_frame W v e
  rw [hr] at hlo ⊢
  dsimp only at hlo
  subst hlo
  cases h
  constructor <;> try assumption
  grind [upd_apply]

theorem startWait {W : World} {v} (h : SInv W) (hf : W.finalized = true) (hv : v ∈ W.living) :
    SInv (W.startWait v) := by
  unfold World.startWait
  split
  · cases h
    constructor <;> simp only [upd_apply] <;> try assumption
    all_goals grind
  · exact h

theorem advance {W : World} {v} (h : SInv W) (hi : ∀ n, v ∉ W.N.incoming n) :
    SInv (W.advance v) := by
  cases h
  constructor <;> simp only [World.advance, upd_apply] <;> try assumption
  all_goals grind

theorem clearInc {W : World} {n} (h : SInv W) :
    SInv { W with N := { W.N with incoming := upd W.N.incoming n [] } } := by
  cases h
  constructor <;> simp only [upd_apply] <;> try assumption
  all_goals grind

theorem choose {W W' : World} {v} (h : SInv W) (hm : W.nextLinkChoice v = .ok W') : SInv W' := by
  obtain ⟨a, r, rnl, ha, rfl, hr⟩ := nextLinkChoice_ok hm
  have hout : ∀ b, rnl = .to b → b < W.nLinks := by
    intro b hb
    subst hb
    rcases hr with ⟨hr, _⟩ | ⟨hr, _⟩ | ⟨c, hr, hc, _⟩ | ⟨c, _, hr, hc, _⟩
    · exact h.rnl_lt _ _ hr.symm
    · cases hr
    · cases hr; exact ((h.out_iff _ _).mp (mem_nextCandidates hc)).1
    · cases hr; exact ((h.out_iff _ _).mp hc).1
  cases h
  constructor <;> simp only [upd_apply] <;> try assumption
  all_goals grind

theorem pushInc {W : World} {v a} (h : SInv W) (ha : AtEnd W v a) :
    SInv (W.pushIncoming (W.L.endN a) v) := by
  obtain ⟨a1, a2, a3, a4, a5⟩ := ha
  cases h
  constructor <;> simp only [World.pushIncoming, upd_apply] <;> try assumption
  all_goals grind

theorem prim {W W' : World} {act : Act} (h : SInv W) (hf : W.finalized = true)
    (hp : Prim act W W') : SInv W' := by
  cases hp with
  | linkTick _ h1 => exact h.linkTick h1
  | nodeTick _ h1 => exact h.nodeTick h1
  | depart _ hq hc hl _ h1 => exact h.depart hf hq (mem_originCandidates hc hl) h1
  | move _ hi hl hv hr _ _ _ _ h1 => exact h.move hi hl hv hr h1
  | endTrip hl hv _ h1 => exact h.endTrip hf hl hv h1
  | clearInc => exact h.clearInc
  | carfollow _ h1 => exact h.carfollow h1
  | record => exact h.record
  | startWait hv => exact h.startWait hf hv
  | advance _ _ hi => exact h.advance hi
  | routing => exact h.soft ⟨_, _, _, _, _, _, _, rfl, fun _ _ => rfl⟩
  | event _ _ h1 => exact h.soft (runEvent_soft h1)
  | @nextDest _ v =>
    obtain ⟨d, dl, hd⟩ := nextDest_frame W v
    rw [hd]
    cases h
    constructor <;> assumption
  | flagEnd =>
    cases h
    constructor <;> assumption
  | flagAbort =>
    cases h
    constructor <;> try assumption
    grind [upd_apply]
  | choose _ h1 => exact h.choose h1
  | pushInc ha => exact h.pushInc ha

end SInv
end UX
