import Verif.Model.CppCsr
import Verif.Spec.CppWrap

/-!
# Routes by number and by name (C119)
-/

namespace UX.Cpp.Spec

/-- `s` is the name of object `i`. -/
def Named (names : List String) (i : ℕ) (s : String) : Prop := names[i]? = some s

/-- A route by number and by name. -/
def SameRoute (links : List String) : List ℕ → List String → Prop := List.Forall₂ (Named links)

/-- A pair of nodes with its routes, by number and by name. -/
structure SamePair (nodes links : List String) (e : (ℕ × ℕ) × List (List ℕ))
    (f : (String × String) × List (List String)) : Prop where
  orig : Named nodes e.1.1 f.1.1
  dest : Named nodes e.1.2 f.1.2
  routes : List.Forall₂ (SameRoute links) e.2 f.2

/-- Sets of routes by number and by name. -/
def SameSets (nodes links : List String) : Store → NameDict → Prop := List.Forall₂ (SamePair nodes links)

/-- All numbers belong to nodes and links. -/
def InRange (nodes links : List String) (S : Store) : Prop :=
  ∀ e ∈ S, e.1.1 < nodes.length ∧ e.1.2 < nodes.length ∧ ∀ r ∈ e.2, ∀ l ∈ r, l < links.length

/-- `VEHICLES` has the vehicles in the order of the engine. -/
def InOrder (W : Wrap) : Prop := W.vehs = W.names.zipIdx

/-- If `W'` has a new name that is not a number, that is one given by the user, then it has one vehicle more. -/
def AddsOne (W W' : Wrap) : Prop :=
  ∀ s ∈ W'.names, s ∉ W.names → NotNumber s → W'.c.g.nVehs = W.c.g.nVehs + 1

/-- The worlds made by calls of which each that names a vehicle adds one vehicle. -/
inductive OneReach : Wrap → Prop
  | new (fl : ℚ → ℚ) (tmax : Option ℚ) (deltaN tau duoTime duoWeight noise : ℚ)
      (hardDet gradual noCyclic adjustCap logMode : Bool) (ttInterval : ℕ) :
      OneReach (Wrap.new fl tmax deltaN tau duoTime duoWeight noise hardDet gradual noCyclic adjustCap logMode
        ttInterval)
  | step {W W' : Wrap} : OneReach W → WStep NotNumber W W' → AddsOne W W' → OneReach W'

end UX.Cpp.Spec
