import Verif.Model.CppRequest
import Verif.Spec.CppNames

/-!
# What a request to the C++ mode asks for (C121)
-/

namespace UX.Cpp.Spec

/-- The argument `r` denotes link `k`. -/
def Means (W : Names) : Ask.LRef → ℕ → Prop
  | .name s, k => W.links[k]? = some s
  | .obj i, k => i = k ∧ k < W.links.length
  | .none, _ => False

/-- The argument denotes no link. Objects are always links of this world. -/
def Unknown (W : Names) : Ask.LRef → Prop
  | .name s => s ∉ W.links
  | .obj _ => False
  | .none => True

/-- Nothing in the engine differs, except perhaps vehicle `v`. -/
structure OnlyVeh (v : ℕ) (c c' : CWorld) : Prop where
  g : c'.g = c.g
  node : c'.node = c.node
  link : c'.link = c.link
  veh : ∀ u, u ≠ v → c'.veh u = c.veh u

/-- Registered names, and the Python attributes of all but vehicle `v`, are the same. -/
structure OnlyPy (v : ℕ) (W W' : Ask) : Prop where
  names : W'.n = { W.n with c := W'.n.c }
  route : ∀ u, u ≠ v → W'.route u = W.route u
  prefer : ∀ u, u ≠ v → W'.prefer u = W.prefer u
  avoid : ∀ u, u ≠ v → W'.avoid u = W.avoid u
  dests : ∀ u, u ≠ v → W'.dests u = W.dests u
  offset : W'.offset = W.offset
  group : W'.group = W.group

/-- In phase `i` the links of group `i` are listed: `ks` is the list of groups with link numbers. -/
def Phases (ks : List (List ℕ)) (l : ℕ) (ps : List ℕ) : Prop :=
  ps.Pairwise (· ≤ ·) ∧ ∀ i, ps.count i = (ks.getD i []).count l

/-- The signal of node `n` was replaced: the phase and its time go on if the phase exists in the new plan and no reset was
asked for, and start anew otherwise. Nothing else in the engine differs, except perhaps signal groups of links. -/
structure Signal (n : ℕ) (ints : List ℚ) (off : ℚ) (reset : Bool) (W W' : Ask) : Prop where
  plan : (W'.n.c.node n).sigInt = ints
  shift : (W'.n.c.node n).sigOff = off ∧ W'.offset n = off
  keep : reset = false → (W.n.c.node n).sigPhase < ints.length →
    (W'.n.c.node n).sigPhase = (W.n.c.node n).sigPhase ∧ (W'.n.c.node n).sigT = (W.n.c.node n).sigT
  anew : reset = true ∨ ints.length ≤ (W.n.c.node n).sigPhase →
    (W'.n.c.node n).sigPhase = 0 ∧ (W'.n.c.node n).sigT = 0
  rest : { W'.n.c.node n with
      sigInt := (W.n.c.node n).sigInt, sigOff := (W.n.c.node n).sigOff
      sigPhase := (W.n.c.node n).sigPhase, sigT := (W.n.c.node n).sigT } = W.n.c.node n
  others : ∀ m, m ≠ n → W'.n.c.node m = W.n.c.node m ∧ W'.offset m = W.offset m
  g : W'.n.c.g = W.n.c.g
  veh : W'.n.c.veh = W.n.c.veh
  links : ∀ l, { W'.n.c.link l with group := (W.n.c.link l).group } = W.n.c.link l
  names : W'.n = { W.n with c := W'.n.c }

/-- `c'` is `c` with more vehicles, all from `o` to `d` with the given preferred and avoided links. -/
structure Added (o d : ℕ) (pref av : List ℕ) (c c' : CWorld) : Prop where
  more : c.g.nVehs ≤ c'.g.nVehs
  old : ∀ i < c.g.nVehs, c'.veh i = c.veh i
  new : ∀ i, c.g.nVehs ≤ i → i < c'.g.nVehs → (c'.veh i).orig = o ∧ (c'.veh i).dest = d ∧ (c'.veh i).prefer = pref ∧
    (c'.veh i).avoid = av ∧ (c'.veh i).route = []
  node : c'.node = c.node
  link : c'.link = c.link
  nNodes : c'.g.nNodes = c.g.nNodes
  nLinks : c'.g.nLinks = c.g.nLinks

end UX.Cpp.Spec
