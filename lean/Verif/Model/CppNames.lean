import Verif.Model.CppBuild

/-!
# Names of nodes and links in the C++ mode (`uxsim_cpp_wrapper.py`)

The registries of `CppWorld` for nodes and links beside those of the engine. A node or link object of Python is its
position in `NODES` or `LINKS`, a C++ pointer is the position in the vectors of the engine. Attributes kept only for
the analyzer, `inlinks` and `outlinks` of the Python nodes and `congestion_pricing` are left out.
-/

namespace UX
namespace Cpp

/-- `CppWorld` as far as names of nodes and links go. -/
structure Names where
  /-- the engine -/
  c : CWorld
  /-- `NODES`: the `name` of each (uxsim_cpp_wrapper.py:61–69) -/
  nodes : List String
  /-- `NODES_NAME_DICT` -/
  nDict : String → Option ℕ
  /-- `_cpp_node` of each node (uxsim_cpp_wrapper.py:76) -/
  nPtr : List ℕ
  /-- `LINKS`: the `name` of each (uxsim_cpp_wrapper.py:203–214) -/
  links : List String
  /-- `LINKS_NAME_DICT` -/
  lDict : String → Option ℕ
  /-- `start_node` and `end_node` of each link (uxsim_cpp_wrapper.py:197–198) -/
  ends : List (Option ℕ × Option ℕ)
  /-- `_cpp_link` of each link (uxsim_cpp_wrapper.py:238) -/
  lPtr : List ℕ
  /-- `World::nodes_map` (traffi.h:342) -/
  nMap : String → Option ℕ
  /-- `World::links_map` (traffi.h:343) -/
  lMap : String → Option ℕ

namespace Names

/-- A world without nodes and links. -/
def empty (c : CWorld) : Names :=
  { c := c, nodes := [], nDict := fun _ => none, nPtr := [], links := [], lDict := fun _ => none, ends := []
    lPtr := [], nMap := fun _ => none, lMap := fun _ => none }

/-- The name that is registered (uxsim_cpp_wrapper.py:62–68, 204–212): `suf` are the eight random characters;
`none` is the `ValueError`. -/
def newName (used : Bool) (name : String) (auto : Bool) (suf : String) : Option String :=
  if used then if auto then some (name ++ "_renamed" ++ suf) else none else some name

/-- `CppNode.__init__` (uxsim_cpp_wrapper.py:43–84). The result is the state, which exists also after an exception,
and the exception. The engine gets the name of the caller, not the new one (uxsim_cpp_wrapper.py:73); it is looked up by
the new one (uxsim_cpp_wrapper.py:76, traffi.cpp:1881–1889). `none`: the constructor does not return. -/
def addNode (W : Names) (name : String) (auto : Bool) (suf : String) (ints : List ℚ) (off cap : ℚ) (lanes : ℤ)
    (rng : ℕ → ℕ) (fuel : ℕ) : Option (Names × Option Err) :=
  match newName (W.nDict name).isSome name auto suf with
  | none => some (W, some .valueError)
  | some nm =>
    match W.c.addNode ints off cap lanes rng fuel with
    | none => none
    | some c =>
      let W1 := { W with
        c := c
        nodes := W.nodes ++ [nm]
        nDict := upd W.nDict nm (some W.nodes.length)
        nMap := upd W.nMap name (some W.c.g.nNodes) }
      match W1.nMap nm with
      | none => some (W1, some .exception)
      | some i => some ({ W1 with nPtr := W1.nPtr ++ [i] }, none)

/-- The argument `start_node` or `end_node`: a name or a node of this world. -/
inductive Ref
  | name (s : String)
  | obj (i : ℕ)
  deriving DecidableEq, Repr

/-- `get_node` (uxsim_cpp_wrapper.py:1400–1409). -/
def getNode (W : Names) : Ref → Option ℕ
  | .name s => W.nDict s
  | .obj i => some i

/-- The default name of a link (uxsim_cpp_wrapper.py:206–207). -/
def linkName (W : Names) (name : Option String) (s e : Option ℕ) : Option String :=
  match name with
  | some n => some n
  | none => match s, e with
    | some s, some e => some (W.nodes.getD s "" ++ "-" ++ W.nodes.getD e "")
    | _, _ => none

/-- `CppLink.__init__` (uxsim_cpp_wrapper.py:187–274). An unknown node is `None`, whose attribute is asked for after the
link was registered (uxsim_cpp_wrapper.py:213–216). The engine finds the nodes by the names of the Python nodes
(uxsim_cpp_wrapper.py:231–233, traffi.cpp:513–514); `none`: they are not in its map (null pointer). -/
def addLink (W : Names) (name : Option String) (start stop : Ref) (auto : Bool) (suf : String) (a : CWorld.LinkArgs) :
    Option (Names × Option Err) :=
  let s := W.getNode start
  let e := W.getNode stop
  match W.linkName name s e with
  | none => some (W, some .attributeError)
  | some n0 =>
    match newName (W.lDict n0).isSome n0 auto suf with
    | none => some (W, some .valueError)
    | some nm =>
      let W1 := { W with
        links := W.links ++ [nm]
        lDict := upd W.lDict nm (some W.links.length)
        ends := W.ends ++ [(s, e)] }
      match s, e with
      | some s, some e =>
        match W.nMap (W.nodes.getD s ""), W.nMap (W.nodes.getD e "") with
        | some i, some j =>
          let W2 := { W1 with
            c := W1.c.addLink i j a
            lMap := upd W1.lMap nm (some W1.c.g.nLinks) }
          match W2.lMap nm with
          | none => some (W2, some .exception)
          | some k => some ({ W2 with lPtr := W2.lPtr ++ [k] }, none)
        | _, _ => none
      | _, _ => some (W1, some .attributeError)

/-- The calls. -/
inductive Call
  | node (name : String) (auto : Bool) (suf : String) (ints : List ℚ) (off cap : ℚ) (lanes : ℤ) (rng : ℕ → ℕ)
    (fuel : ℕ)
  | link (name : Option String) (start stop : Ref) (auto : Bool) (suf : String) (a : CWorld.LinkArgs)

/-- One call. -/
def call (W : Names) : Call → Option (Names × Option Err)
  | .node n au suf ints off cap lanes rng fuel => W.addNode n au suf ints off cap lanes rng fuel
  | .link n s e au suf a => W.addLink n s e au suf a

/-- Objects passed as nodes belong to this world, and the random characters give a name that is not in use. -/
def Proper (W : Names) : Call → Prop
  | .node n _ suf _ _ _ _ _ _ => W.nDict (n ++ "_renamed" ++ suf) = none
  | .link n s e _ suf _ => (∀ i, s = .obj i ∨ e = .obj i → i < W.nodes.length) ∧
      ∀ n0, W.linkName n (W.getNode s) (W.getNode e) = some n0 → W.lDict (n0 ++ "_renamed" ++ suf) = none

/-- The worlds that scripts build whose calls all succeed. -/
inductive Built : Names → Prop
  | empty (c : CWorld) (h : c.g.nNodes = 0 ∧ c.g.nLinks = 0) : Built (Names.empty c)
  | step {W W' : Names} {x : Call} : Built W → W.Proper x → W.call x = some (W', none) → Built W'

end Names
end Cpp
end UX
