import Verif.Model.CppNames

/-!
# Requests about single vehicles and signals in the C++ mode (`uxsim_cpp_wrapper.py`)

`CppVehicle.enforce_route`, `set_links_prefer`, `set_links_avoid`, `add_dest`, `add_dests`, `CppNode.override_signal` and
the link lists of `addVehicle`. The Python objects keep copies of what was asked for; they stand beside the engine of
`Names`. A vehicle is its C++ index. `set_avoid` of `enforce_route`, which is not used, is left out.
-/

namespace UX.Cpp

/-- `CppWorld` with the attributes of vehicles, nodes and links that the calls set. -/
structure Ask where
  n : Names
  /-- `specified_route` of each vehicle -/
  route : ℕ → Option (List (Option ℕ))
  /-- `links_prefer`, `links_avoid`, `dest_list` of each vehicle -/
  prefer : ℕ → List (Option ℕ)
  avoid : ℕ → List (Option ℕ)
  dests : ℕ → List (Option ℕ)
  /-- `signal_offset` of each node -/
  offset : ℕ → ℚ
  /-- `signal_group` of each link -/
  group : ℕ → List ℕ

namespace Ask

/-- A link as an argument: a name, a link of this world, or `None`. A link of another world counts as its name
(uxsim_cpp_wrapper.py:1416). -/
inductive LRef
  | name (s : String)
  | obj (i : ℕ)
  | none
  deriving DecidableEq, Repr

/-- `get_link` (uxsim_cpp_wrapper.py:1411–1422). -/
def getLink (W : Ask) : LRef → Option ℕ
  | .name s => W.n.lDict s
  | .obj i => some i
  | .none => Option.none

/-- `[l._cpp_link for l in …]`; `none` is the `AttributeError` of `None._cpp_link`. -/
def ptrs (W : Ask) : List (Option ℕ) → Option (List ℕ)
  | [] => some []
  | o :: os =>
    match o.bind (fun i => W.n.lPtr[i]?), W.ptrs os with
    | some p, some ps => some (p :: ps)
    | _, _ => none

/-- A call of the bindings. -/
def engine (W : Ask) (e : CWorld.Edit) : Ask := { W with n := { W.n with c := W.n.c.edit e } }

/-- `enforce_route` (uxsim_cpp_wrapper.py:683–693). The `AttributeError` is caught. -/
def enforceRoute (W : Ask) (v : ℕ) (ls : List LRef) : Ask :=
  let py := ls.map W.getLink
  let W1 := { W with route := upd W.route v (some py) }
  match W.ptrs py with
  | some ps => W1.engine (.enforce v ps)
  | none => W1

/-- `set_links_prefer` (uxsim_cpp_wrapper.py:695–700). -/
def setPrefer (W : Ask) (v : ℕ) (ls : List LRef) : Ask :=
  let py := ls.map W.getLink
  let W1 := { W with prefer := upd W.prefer v py }
  match W.ptrs py with
  | some ps => W1.engine (.prefer v ps)
  | none => W1

/-- `set_links_avoid` (uxsim_cpp_wrapper.py:702–707). -/
def setAvoid (W : Ask) (v : ℕ) (ls : List LRef) : Ask :=
  let py := ls.map W.getLink
  let W1 := { W with avoid := upd W.avoid v py }
  match W.ptrs py with
  | some ps => W1.engine (.avoid v ps)
  | none => W1

/-- `list.insert`. -/
def pyInsert (l : List (Option ℕ)) (k : ℤ) (x : Option ℕ) : List (Option ℕ) :=
  let i := (if 0 ≤ k then k else max 0 (l.length + k)).toNat
  l.take i ++ x :: l.drop i

/-- `add_dest` (uxsim_cpp_wrapper.py:709–714). -/
def addDest (W : Ask) (v : ℕ) (d : Names.Ref) (order : ℤ) : Ask :=
  let x := W.n.getNode d
  { W with dests := upd W.dests v (if order = -1 then W.dests v ++ [x] else pyInsert (W.dests v) order x) }

/-- `add_dests` (uxsim_cpp_wrapper.py:716–718). -/
def addDests (W : Ask) (v : ℕ) (ds : List Names.Ref) : Ask := ds.foldl (fun W d => W.addDest v d (-1)) W

/-- Setter of `signal` (uxsim_cpp_wrapper.py:93–99). -/
def setSignal (W : Ask) (n : ℕ) (ints : List ℚ) : Ask :=
  let N := W.n.c.node n
  if ints.length ≤ N.sigPhase then W.engine (.signal n ints N.sigOff 0 0)
  else W.engine (.signal n ints N.sigOff N.sigPhase N.sigT)

/-- `phase_info` (uxsim_cpp_wrapper.py:159–166; uxsim.py:181–187) from phase `i` on: the pairs of link and phase in order;
`AttributeError` for an unknown link (the name for the message), `ValueError` for one that does not end at node `n`. -/
def phaseInfo (W : Ask) (n : ℕ) : ℕ → List (List LRef) → M (List (ℕ × ℕ))
  | _, [] => .ok []
  | i, g :: gs =>
    match go i g, phaseInfo W n (i + 1) gs with
    | .error e, _ => .error e
    | .ok _, .error e => .error e
    | .ok a, .ok b => .ok (a ++ b)
where
  /-- one group -/
  go (i : ℕ) : List LRef → M (List (ℕ × ℕ))
    | [] => .ok []
    | r :: rs =>
      match W.getLink r with
      | Option.none => .error .attributeError
      | some l =>
        if (W.n.ends[l]?.bind Prod.snd) = some n then
          match go i rs with
          | .ok a => .ok ((l, i) :: a)
          | .error e => .error e
        else .error .valueError

/-- `phase_info[l]`. -/
def phasesOf (ps : List (ℕ × ℕ)) (l : ℕ) : List ℕ := (ps.filter (fun p => p.1 = l)).map Prod.snd

/-- `key.signal_group = …; key._cpp_link.signal_group = …` for the links listed (uxsim_cpp_wrapper.py:168–170). -/
def setGroups (ps : List (ℕ × ℕ)) : List ℕ → Ask → Ask
  | [], W => W
  | l :: ls, W => setGroups ps ls ({ W with group := upd W.group l (phasesOf ps l) }.engine
      (.group (W.n.lPtr.getD l 0) (phasesOf ps l)))

/-- `override_signal` (uxsim_cpp_wrapper.py:126–170). The state exists also after an exception. -/
def overrideSignal (W : Ask) (n : ℕ) (signal : List ℚ) (groups : Option (List (List LRef))) (off : ℚ) (reset : Bool)
    (offOld : Option ℚ) : Ask × Option Err :=
  let W1 := W.setSignal n signal
  let N1 := W1.n.c.node n
  let off' := match offOld with
    | some o => W.n.c.g.fl (signal.foldl (fun a q => W.n.c.g.fl (a + q)) 0 - o)
    | none => off
  let W2 := { W1.engine (.signal n N1.sigInt off' (if reset then 0 else N1.sigPhase) (if reset then 0 else N1.sigT)) with
    offset := upd W.offset n off' }
  match groups with
  | none => (W2, none)
  | some gs =>
    if gs.length ≠ signal.length then (W2, some .valueError)
    else match W2.phaseInfo n 0 gs with
      | .error e => (W2, some e)
      | .ok ps => (setGroups ps (ps.map Prod.fst).dedup W2, none)

/-- `addVehicle` with `links_prefer` and `links_avoid` (uxsim_cpp_wrapper.py:952–993, 1243–1245, traffi.cpp:1934–1936).
Preferred links are looked up by name in the engine; an unknown one is a null pointer, which equals no link. Avoided
links are looked up in Python; unknown ones are left out. `none`: `add_demand` does not return. -/
def addVehicle (W : Ask) (t : ℚ) (orig dest : ℕ) (pref : List LRef) (av : List LRef) (fuel : ℕ) : Option Ask :=
  let fl := W.n.c.g.fl
  let nameOf : LRef → String
    | .name s => s
    | .obj i => W.n.links.getD i ""
    | .none => "None"
  let cav := av.filterMap (fun r => (W.getLink r).bind (fun i => W.n.lPtr[i]?))
  match W.n.c.addDemand orig dest t (fl (t + W.n.c.g.deltaT)) (fl (W.n.c.g.deltaN / W.n.c.g.deltaT))
      (pref.filterMap (fun r => W.n.lMap (nameOf r))) fuel with
  | none => none
  | some c =>
    let new := List.range' W.n.c.g.nVehs (c.g.nVehs - W.n.c.g.nVehs)
    let c' := if av = [] then c else new.foldl (fun c i => c.edit (.avoid i cav)) c
    some { W with
      n := { W.n with c := c' }
      route := fun i => if i ∈ new then none else W.route i
      prefer := fun i => if i ∈ new then [] else W.prefer i
      avoid := fun i => if i ∈ new then [] else W.avoid i
      dests := fun i => if i ∈ new then [] else W.dests i }

end Ask
end UX.Cpp
