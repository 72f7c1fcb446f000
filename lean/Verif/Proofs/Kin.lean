import Verif.Proofs.Lanes
import Verif.Proofs.Phase

/-! Positions of vehicles within links: bounds and movement. -/

namespace UX
open World

/-- Physically meaningful parameters: what a user must supply for the traffic-flow model to make
sense. Lengths are floats (`fl length = length`). -/
structure PhysOK (W : World) : Prop where
  fl : FlOK W.cfg.fl
  dt : 0 ≤ W.cfg.deltat
  len : ∀ l, l < W.nLinks → 0 ≤ W.L.length l ∧ W.cfg.fl (W.L.length l) = W.L.length l
  u : ∀ l, l < W.nLinks → 0 ≤ W.L.u l
  gap : ∀ l, l < W.nLinks → 0 ≤ W.L.deltaPerLane l

theorem FlOK.nonneg {fl : ℚ → ℚ} (h : FlOK fl) {q : ℚ} (hq : 0 ≤ q) : 0 ≤ fl q := by
  rw [← h.zero]; exact h.mono hq

theorem FlOK.le_fl {fl : ℚ → ℚ} (h : FlOK fl) {p q : ℚ} (hp : fl p = p) (hq : p ≤ q) : p ≤ fl q := by
  rw [← hp]; exact h.mono hq

theorem FlOK.fl_le {fl : ℚ → ℚ} (h : FlOK fl) {p q : ℚ} (hp : fl p = p) (hq : q ≤ p) : fl q ≤ p := by
  rw [← hp]; exact h.mono hq

theorem PhysOK.gap_nonneg {W : World} (h : PhysOK W) {l} (hl : l < W.nLinks) : 0 ≤ W.gap l := by
  unfold World.gap World.fl World.dn
  exact h.fl.nonneg (mul_nonneg (h.gap l hl) (Nat.cast_nonneg _))

theorem PhysOK.static {W W' : World} (h : PhysOK W) (hs : Static W W') : PhysOK W' := by
  obtain ⟨a, b, c, d, e⟩ := h
  constructor
  · rw [hs.cfg]; exact a
  · rw [hs.cfg]; exact b
  · rw [hs.cfg, hs.nLinks, hs.length]; exact c
  · rw [hs.nLinks, hs.u]; exact d
  · rw [hs.nLinks, hs.deltaPerLane]; exact e

/-- Position on link `b` of a vehicle coming from `a` whose leader is `o`. -/
def World.carryPos (W : World) (v : VehId) (a b : LinkId) (o : Option VehId) : ℚ :=
  let x0 := W.fl (W.fl (W.V.moveRemain v * W.L.u b) / W.L.u a)
  let x1 := match o with
    | some w =>
      let xc := W.fl (W.V.xOld w - W.gap b)
      let xc := if xc < 0 then 0 else xc
      if xc < x0 then xc else x0
    | none => x0
  if W.L.length b ≤ x1 then W.L.length b else x1

theorem carryOver_eq (W : World) (n : NodeId) (v : VehId) (a b : LinkId) (o : Option VehId) :
    ((W.leaveLink n v a b).attachTo v b o).carryOver v a b = W.carryPos v a b o := by
  unfold carryOver carryPos
  have h1 : ((W.leaveLink n v a b).attachTo v b o).V.leader v = o := by simp [attachTo]
  have h2 : ((W.leaveLink n v a b).attachTo v b o).V.x v = 0 := by simp [attachTo, leaveLink]
  rw [h1, h2]
  rfl

section carry
variable {W : World} {v : VehId} {a b : LinkId} {o : Option VehId}

theorem carryPos_nonneg (h : PhysOK W) (ha : a < W.nLinks) (hb : b < W.nLinks)
    (hm : 0 ≤ W.V.moveRemain v) : 0 ≤ W.carryPos v a b o := by
  have h0 : 0 ≤ W.fl (W.fl (W.V.moveRemain v * W.L.u b) / W.L.u a) :=
    h.fl.nonneg (div_nonneg (h.fl.nonneg (mul_nonneg hm (h.u b hb))) (h.u a ha))
  have hl := (h.len b hb).1
  unfold carryPos
  generalize W.fl (W.fl (W.V.moveRemain v * W.L.u b) / W.L.u a) = x0 at h0
  cases o with
  | none => dsimp only; split <;> assumption
  | some w => dsimp only; grind

theorem carryPos_le_length : W.carryPos v a b o ≤ W.L.length b := by
  unfold carryPos
  cases o <;> dsimp only <;> grind

theorem carryPos_le : W.carryPos v a b o ≤ W.fl (W.fl (W.V.moveRemain v * W.L.u b) / W.L.u a) := by
  unfold carryPos
  generalize W.fl (W.fl (W.V.moveRemain v * W.L.u b) / W.L.u a) = x0
  cases o with
  | none => dsimp only; split <;> [assumption; exact le_rfl]
  | some w => dsimp only; grind

theorem carryPos_fl (h : PhysOK W) (hb : b < W.nLinks) :
    W.cfg.fl (W.carryPos v a b o) = W.carryPos v a b o := by
  have hl := (h.len b hb).2
  have hi := h.fl.idem
  have hz := h.fl.zero
  have hif : ∀ (p : Prop) [Decidable p] (x y : ℚ), W.cfg.fl x = x → W.cfg.fl y = y →
      W.cfg.fl (if p then x else y) = if p then x else y := by
    intro p _ x y hx hy; split <;> assumption
  unfold carryPos
  cases o with
  | none => exact hif _ _ _ hl (hi _)
  | some w => exact hif _ _ _ hl (hif _ _ _ (hif _ _ _ hz (hi _)) (hi _))

theorem carryPos_gap (h : PhysOK W) {w : VehId} (hw : W.V.xOld w ≤ W.V.x w)
    (hg : W.gap b < W.V.x w) : W.carryPos v a b (some w) ≤ W.fl (W.V.x w - W.gap b) := by
  have h1 : W.fl (W.V.xOld w - W.gap b) ≤ W.fl (W.V.x w - W.gap b) := h.fl.mono (by linarith)
  have h2 : 0 ≤ W.fl (W.V.x w - W.gap b) := h.fl.nonneg (by linarith)
  unfold carryPos
  generalize W.fl (W.fl (W.V.moveRemain v * W.L.u b) / W.L.u a) = x0
  dsimp only
  grind

end carry

/-- Leader of a vehicle that enters `b` is the vehicle tested by `canEnter`. -/
theorem lead_can {W : World} {b : LinkId} {a : LinkId} {v : VehId} {t : List VehId} {w : VehId}
    (hv : W.L.vehs a = v :: t) (hlb : 1 ≤ W.L.lanes b) (hent : W.canEnter b = true)
    (hlen : W.L.lanes b ≤ (upd W.L.vehs a t b).length)
    (hw : backN (upd W.L.vehs a t b) (W.L.lanes b) = some w) :
    W.gap b < W.V.x w ∧ backN (W.L.vehs b) (W.L.lanes b) = some w := by
  have hle : W.L.lanes b ≤ (W.L.vehs b).length ∧
      backN (W.L.vehs b) (W.L.lanes b) = some w := by
    by_cases hab : b = a
    · subst hab
      rw [upd_same] at hlen hw
      rw [hv]
      refine ⟨by simp; omega, ?_⟩
      rw [backN, if_pos ⟨hlb, hlen⟩] at hw
      rw [backN, if_pos ⟨hlb, by simp; omega⟩]
      rw [List.length_cons, show t.length + 1 - W.L.lanes b = (t.length - W.L.lanes b) + 1 by omega,
        List.getElem?_cons_succ]
      exact hw
    · rw [upd_ne _ _ hab] at hlen hw
      exact ⟨hlen, hw⟩
  refine ⟨?_, hle.2⟩
  unfold canEnter at hent
  rw [hle.2] at hent
  simp only [Bool.and_eq_true, Bool.or_eq_true, decide_eq_true_eq] at hent
  rcases hent.1 with h | h
  · omega
  · exact h

/-! ### Car following, all vehicles at once -/

theorem followPos_eq (W : World) (v : VehId) (l : LinkId) : W.followPos v l =
    match W.V.leader v with
    | some w => min (max (W.V.x v) (W.cfg.fl (W.V.x w - W.gap l)))
        (W.cfg.fl (W.V.x v + W.cfg.fl (W.L.u l * W.cfg.deltat)))
    | none => W.cfg.fl (W.V.x v + W.cfg.fl (W.L.u l * W.cfg.deltat)) := by
  unfold followPos
  cases W.V.leader v with
  | none => rfl
  | some w =>
    have key : ∀ x p q : ℚ, (if (if p < x then x else p) < q then (if p < x then x else p) else q) =
        min (max x p) q := by
      intro x p q; grind
    exact key _ _ _


/-- `x_next` computed for `v` on link `l`. -/
def World.nextPos (W : World) (v : VehId) (l : LinkId) : ℚ :=
  if W.L.length l < W.followPos v l then W.L.length l else W.followPos v l

/-- `move_remain` after car-following. -/
def World.nextRemain (W : World) (v : VehId) (l : LinkId) : ℚ :=
  if W.L.length l < W.followPos v l then W.fl (W.followPos v l - W.L.length l) else W.V.moveRemain v

/-- The car-following phase computes `x_next` of all running vehicles from the same positions. -/
theorem carfollow_all {W W' : World} (hc : Core W) (h : W.running.foldlM carfollow W = .ok W') :
    ∃ mr xn, W' = { W with V := { W.V with moveRemain := mr, xNext := xn } } ∧
      (∀ v l, W.V.link v = some l → xn v = W.nextPos v l ∧ mr v = W.nextRemain v l) ∧
      (∀ v, W.V.link v = none → mr v = W.V.moveRemain v) := by
  have key := foldlM_inv_pre (P := fun pre W1 =>
    ∃ mr xn, W1 = { W with V := { W.V with moveRemain := mr, xNext := xn } } ∧
      (∀ v l, v ∈ pre → W.V.link v = some l → xn v = W.nextPos v l ∧ mr v = W.nextRemain v l) ∧
      (∀ v, v ∉ pre → mr v = W.V.moveRemain v)) ?_
      ⟨W.V.moveRemain, W.V.xNext, rfl, by simp, by simp⟩ h
  · obtain ⟨mr, xn, h1, h2, h3⟩ := key
    refine ⟨mr, xn, h1, fun v l hl => h2 v l ?_ hl, fun v hl => h3 v ?_⟩
    · rw [hc.s.running_iff]; exact (hc.s.link_run v l hl).1
    · rw [hc.s.running_iff]; exact fun hr => hc.s.run_link v hr hl
  · rintro pre v post s s' hl ⟨mr, xn, rfl, h2, h3⟩ hs
    have hvp : v ∉ pre := by
      have hnd := hc.s.running_nodup
      rw [hl] at hnd
      intro hm
      exact (List.nodup_append.mp hnd).2.2 _ hm _ (by simp) rfl
    obtain ⟨l, mr', xn', hlv, rfl, hx⟩ := carfollow_ok hs
    have hf : World.followPos { W with V := { W.V with moveRemain := mr, xNext := xn } } v l =
        W.followPos v l := rfl
    have hlv' : W.V.link v = some l := hlv
    rw [hf] at hx
    dsimp only at hx ⊢
    refine ⟨_, _, rfl, ?_, ?_⟩
    · intro u k hu hk
      by_cases huv : u = v
      · subst huv
        obtain rfl : k = l := by rw [hk] at hlv'; simpa using hlv'
        unfold nextPos nextRemain
        rcases hx with ⟨h4, rfl, rfl⟩ | ⟨h4, rfl, rfl⟩
        · rw [upd_same, upd_same, if_pos h4, if_pos h4]; exact ⟨rfl, rfl⟩
        · rw [upd_same, if_neg (not_lt.mpr h4), if_neg (not_lt.mpr h4)]; exact ⟨rfl, h3 u hvp⟩
      · have hup : u ∈ pre := by simpa [huv] using hu
        have := h2 u k hup hk
        rw [upd_ne _ _ huv]
        refine ⟨this.1, ?_⟩
        rcases hx with ⟨h4, rfl, rfl⟩ | ⟨h4, rfl, rfl⟩
        · rw [upd_ne _ _ huv]; exact this.2
        · exact this.2
    · intro u hu
      have huv : u ≠ v := by rintro rfl; simp at hu
      have hup : u ∉ pre := by intro hm; exact hu (by simp [hm])
      rcases hx with ⟨h4, rfl, rfl⟩ | ⟨h4, rfl, rfl⟩
      · rw [upd_ne _ _ huv]; exact h3 u hup
      · exact h3 u hup

end UX
