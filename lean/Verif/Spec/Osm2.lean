import Verif.Model.Osm2

/-!
# What the links of a road should be (C118)
-/

namespace UX
namespace Osm2
namespace Spec

/-- The node with number `n` lies at the point `p`, up to rounding. -/
def At (rnd : ℚ × ℚ → ℚ × ℚ) (nodes : List (ℚ × ℚ)) (n : ℕ) (p : ℚ × ℚ) : Prop :=
  ∃ q, nodes[n]? = some q ∧ rnd q = rnd p

/-- The road types with a setting of their own. -/
def typeNames : List String :=
  ["motorway", "trunk", "primary", "secondary", "tertiary", "residential", "living_street", "service"]

/-- The setting for a road type: the value that the user gave for it, the last one if there are several, else the
default. -/
def setting {α : Type} (d user : List (String × α)) (t : String) : Option α := (user.reverse.lookup t).or (d.lookup t)

/-- A road of type `t`, or a junction of that type. -/
def HasType (r : Road) (t : String) : Prop := t ∈ typeNames ∧ (r.highway = .str t ∨ r.highway = .str (t ++ "_link"))

/-- Where the data have no speed, or are not to be used, a link has the speed of its road type. -/
def SpeedOK (c : Settings) (r : Road) (l : LinkCall) : Prop :=
  ∀ t, HasType r t → c.ignore = true ∨ r.maxspeed = .none → setting speedDict c.speeds t = some l.speed

/-- The links of one road: one in the direction of a one-way road, a pair of opposite ones otherwise, with at least one lane
each. A number of lanes in the data is that of a one-way road; of a two-way road each direction gets half of it, a lane
lost if it is odd. Without data the setting for the road type counts for each direction. -/
inductive RoadOK (c : Settings) (nodes : List (ℚ × ℚ)) (r : Road) : List LinkCall → Prop
  | one (l : LinkCall) (ho : r.oneway = true) (ha : At c.rnd nodes l.src r.a) (hb : At c.rnd nodes l.dst r.b)
      (hl : l.length = r.length) (hn : l.name = r.name)
      (hd : ∀ s n, c.ignore = false → r.lanes = .str s → c.int s = some n → l.lanes = n)
      (hv : ∀ s v, c.ignore = false → r.maxspeed = .str s → c.num s = some v → l.speed * (18 / 5) = v)
      (hs : SpeedOK c r l)
      (ht : ∀ t, HasType r t → c.ignore = true ∨ r.lanes = .none → setting lanesDict c.lanes t = some l.lanes) :
      RoadOK c nodes r [l]
  | two (l m : LinkCall) (ho : r.oneway = false) (ha : At c.rnd nodes l.src r.a) (hb : At c.rnd nodes l.dst r.b)
      (hl : l.length = r.length) (hn : l.name = r.name) (hm : m.name = r.name ++ "-reverse")
      (hr : m.src = l.dst ∧ m.dst = l.src ∧ m.length = l.length ∧ m.speed = l.speed ∧ m.lanes = l.lanes)
      (h1 : 1 ≤ l.lanes)
      (hd : ∀ s n, c.ignore = false → r.lanes = .str s → c.int s = some n → 1 ≤ n →
        n ≤ 2 * l.lanes + 1 ∧ (2 ≤ n → 2 * l.lanes ≤ n))
      (hv : ∀ s v, c.ignore = false → r.maxspeed = .str s → c.num s = some v → l.speed * (18 / 5) = v)
      (hs : SpeedOK c r l)
      (ht : ∀ t n, HasType r t → c.ignore = true ∨ r.lanes = .none → setting lanesDict c.lanes t = some n → 1 ≤ n →
        l.lanes = n) :
      RoadOK c nodes r [l, m]

/-- A link begins or ends at node `n`. -/
def Touches (n : ℕ) (l : LinkCall) : Prop := l.src = n ∨ l.dst = n

end Spec
end Osm2
end UX
