import Verif.Model.Solvers
import Verif.Model.Alns

/-! Vocabulary for the claims about the solvers. -/

namespace UX

/-- `r` is the route a vehicle should get: its own, unless it may swap and some alternative is strictly
cheaper, in which case a cheapest alternative. -/
structure Swapped {ρ : Type} (flag : Bool) (v : DayVeh ρ) (r : ρ) : Prop where
  stay : flag = false ∨ (∀ p ∈ v.alts, v.cost ≤ p.2) → r = v.route
  move : flag = true → (∃ p ∈ v.alts, p.2 < v.cost) →
    ∃ c, (r, c) ∈ v.alts ∧ c < v.cost ∧ ∀ p ∈ v.alts, c ≤ p.2

/-- The vehicle takes part in swapping: it finished its trip and, if the user gave the route sets,
its route is in the set. -/
def DayVeh.takesPart {ρ : Type} (given : Bool) (v : DayVeh ρ) : Prop :=
  v.ended = true ∧ (given = true → ∃ p ∈ v.alts, p.1 = v.route)

/-- Some alternative is strictly cheaper. -/
def DayVeh.improvable {ρ : Type} (v : DayVeh ρ) : Prop := ∃ p ∈ v.alts, p.2 < v.cost

/-- All trips of the day were completed. -/
def Analyzer.allDone (A : Analyzer) : Prop := A.tripAll = A.tripCompleted

/-- Every gene is a route number of its vehicle. -/
def Feasible (maxs : List ℕ) (g : Genome) : Prop :=
  g.length = maxs.length ∧ ∀ (i : ℕ) (x m : ℕ), g[i]? = some x → maxs[i]? = some m → x < m

/-- Consecutive populations of a run. -/
def Generations (c : GaCfg) (pops : List (List Genome)) : Prop :=
  ∀ (k : ℕ) (p q : List Genome), pops[k]? = some p → pops[k + 1]? = some q →
    Outcome (GA.generation c p) q

/-- Every entry of the vector is a value of its domain. -/
def InDomains (doms : List (List ℕ)) (x : Vec) : Prop :=
  x.length = doms.length ∧ ∀ (i : ℕ) (a : Option ℕ) (d : List ℕ),
    x[i]? = some a → doms[i]? = some d → ∃ v ∈ d, a = some v

/-- Consecutive states of a search. -/
def SearchPath (c : AlnsCfg) (ss : List AlnsState) : Prop :=
  ∀ (k : ℕ) (s t : AlnsState), ss[k]? = some s → ss[k + 1]? = some t → Outcome (ALNS.autoStep c s) t

/-- What a destroy operator does: valid positions are blanked, nothing else changes. -/
structure Destroyed (x : Vec) (removed : List ℕ) (xx : Vec) : Prop where
  valid : ∀ i ∈ removed, i < x.length
  length : xx.length = x.length
  other : ∀ i : ℕ, i ∉ removed → xx[i]? = x[i]?
  blanked : ∀ i ∈ removed, xx[i]? = some none

end UX
