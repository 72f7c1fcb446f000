import Verif.Spec.CppPlan

/-!
# Specification: the links that vehicles without a specified route may enter
-/

namespace UX.Cpp.Spec
open CWorld

/-- Worlds that arise by calls of the bindings, in which the preferred, avoided and specified links of
vehicle `v` and the links of the network were only changed before its departure. -/
inductive Steered (v : ℕ) : CWorld → Prop
  | empty (fl : ℚ → ℚ) (tMax deltaN tau duoTime duoWeight noise : ℚ)
      (hardDet gradual noCyclic adjustCap logMode : Bool) (ttInterval : ℕ) :
      Steered v (CWorld.empty fl tMax deltaN tau duoTime duoWeight noise hardDet gradual noCyclic
        adjustCap logMode ttInterval)
  | step {W W' : CWorld} : Steered v W → CStep W W' →
      (((W'.veh v).prefer = (W.veh v).prefer ∧ (W'.veh v).avoid = (W.veh v).avoid ∧
        (W'.veh v).route = (W.veh v).route ∧ W'.g.nLinks = W.g.nLinks) ∨
        (W.veh v).state = .home ∨ (W.veh v).state = .wait) →
      Steered v W'

theorem Steered.toReach {v : ℕ} {W : CWorld} (h : Steered v W) : CReach W := by
  induction h with
  | empty fl tMax deltaN tau duoTime duoWeight noise hardDet gradual noCyclic adjustCap logMode ttInterval =>
    exact CReach.empty fl tMax deltaN tau duoTime duoWeight noise hardDet gradual noCyclic adjustCap
      logMode ttInterval
  | step _ s _ ih => exact CReach.step ih s

/-- `c` is a link out of node `n` that `v` is not told to avoid, and one of those it prefers if there is
one among the links out of `n`. -/
def Open (W : CWorld) (v n c : ℕ) : Prop :=
  c < W.g.nLinks ∧ (W.link c).src = n ∧ c ∉ (W.veh v).avoid ∧
    ((∃ d, d < W.g.nLinks ∧ (W.link d).src = n ∧ d ∈ (W.veh v).prefer) → c ∈ (W.veh v).prefer)

/-- Vehicle `v` has no specified route, and wherever links begin one of them is open to it. -/
def Unstuck (W : CWorld) (v : ℕ) : Prop :=
  (W.veh v).route = [] ∧ ∀ c, c < W.g.nLinks → ∃ d, Open W v (W.link c).src d

/-- One of the links of `past` begins at node `m`. -/
def Seen (W : CWorld) (past : List ℕ) (m : ℕ) : Prop := ∃ l ∈ past, (W.link l).src = m

/-- After the links of `past`, vehicle `v` may enter `b`: the link is open to it, and with
`no_cyclic_routing` it leads to a node already passed only if all open links do. -/
def Fair (W : CWorld) (v : ℕ) (past : List ℕ) (b : ℕ) : Prop :=
  Open W v (W.link b).src b ∧ (W.g.noCyclic = true → Seen W past (W.link b).dst →
    ∀ c, Open W v (W.link b).src c → Seen W past (W.link c).dst)

/-- `b` is the first of the links `ls` with the highest preference. -/
def FirstBest (pref : ℕ → ℚ) (ls : List ℕ) (b : ℕ) : Prop :=
  ∃ xs ys, ls = xs ++ b :: ys ∧ (∀ c ∈ xs, pref c < pref b) ∧ ∀ c ∈ ys, pref c ≤ pref b

end UX.Cpp.Spec
