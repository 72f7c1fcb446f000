import Verif.Model.CppWrap
import Verif.Model.CppNames
import Verif.Model.Osm

/-!
# Routes between Python and the C++ engine in traffic assignment (`bindings.cpp`, `DTAsolvers_cpp_adapter.py`)

Routes cross the border as flat arrays of link ids with offsets and are given names in Python. `_LazyODRoutes`
(DTAsolvers_cpp_adapter.py:118–170), which only delays the construction of the dictionary, and the widths of integers are
left out.
-/

namespace UX.Cpp
open Osm (dSet)

/-- `xs[s:e]` for `0 ≤ s`. -/
def slice {α : Type} (xs : List α) (s e : ℕ) : List α := (xs.drop s).take (e - s)

/-- `routes_to_csr` (bindings.cpp:47–61): values and offsets. -/
def toCsr (routes : List (List ℕ)) : List ℕ × List ℕ :=
  routes.foldl (fun a r => (a.1 ++ r, a.2 ++ [(a.1 ++ r).length])) ([], [0])

/-- The routes that `batch_enforce_routes_csr` reads (bindings.cpp:644–658). -/
def ofCsr (ids off : List ℕ) : List (List ℕ) :=
  (List.range (off.length - 1)).map (fun i =>
    if off.getD i 0 < off.getD (i + 1) 0 then slice ids (off.getD i 0) (off.getD (i + 1) 0) else [])

/-- `ODRouteSetStore` (dta_solver.h:33–35), its pairs in the order in which the hash table is iterated. -/
abbrev Store := List ((ℕ × ℕ) × List (List ℕ))

/-- The arrays of `to_csr` (bindings.cpp:242–272). -/
structure NestedCsr where
  o : List ℕ
  d : List ℕ
  ro : List ℕ
  lo : List ℕ
  ids : List ℕ
  deriving DecidableEq, Repr

/-- One route (bindings.cpp:259–262). -/
def NestedCsr.route (c : NestedCsr) (r : List ℕ) : NestedCsr :=
  { c with ids := c.ids ++ r, lo := c.lo ++ [(c.ids ++ r).length] }

/-- One pair (bindings.cpp:254–263). -/
def NestedCsr.pair (c : NestedCsr) (e : (ℕ × ℕ) × List (List ℕ)) : NestedCsr :=
  e.2.foldl NestedCsr.route
    { c with o := c.o ++ [e.1.1], d := c.d ++ [e.1.2], ro := c.ro ++ [c.ro.getLastD 0 + e.2.length] }

/-- `to_csr` (bindings.cpp:242–272). -/
def Store.toCsr (s : Store) : NestedCsr :=
  s.foldl NestedCsr.pair { o := [], d := [], ro := [0], lo := [0], ids := [] }

/-- `id_to_name[i]` (DTAsolvers_cpp_adapter.py:112, 114); the id of an object is its position
(uxsim_cpp_wrapper.py:60, 204). -/
def nameOf (names : List String) (i : ℕ) : M String :=
  match names[i]? with
  | some s => .ok s
  | none => .error .keyError

/-- `name_to_id` (DTAsolvers_cpp_adapter.py:111, 113). -/
def nameToId (names : List String) : List (String × ℕ) :=
  names.zipIdx.foldl (fun d p => dSet d p.1 p.2) []

/-- `name_to_id[s]`. -/
def idOf (names : List String) (s : String) : M ℕ :=
  match Osm.dGet (nameToId names) s with
  | some i => .ok i
  | none => .error .keyError

/-- Routes by name. -/
abbrev NameDict := List ((String × String) × List (List String))

/-- Pair number `p` in `_build_od_name_dict_from_csr` (DTAsolvers_cpp_adapter.py:186–195). -/
def csrPair (nodes links : List String) (c : NestedCsr) (p : ℕ) : M ((String × String) × List (List String)) := do
  let o ← nameOf nodes (c.o.getD p 0)
  let d ← nameOf nodes (c.d.getD p 0)
  let r0 := c.ro.getD p 0
  let r1 := c.ro.getD (p + 1) 0
  let routes ← (List.range (r1 - r0)).mapM (fun k =>
    (slice c.ids (c.lo.getD (r0 + k) 0) (c.lo.getD (r0 + k + 1) 0)).mapM (nameOf links))
  .ok ((o, d), routes)

/-- `_build_od_name_dict_from_csr` (DTAsolvers_cpp_adapter.py:173–196). -/
def csrNames (nodes links : List String) (c : NestedCsr) : M NameDict :=
  (List.range c.o.length).foldlM (fun D p => do
    let e ← csrPair nodes links c p
    .ok (dSet D e.1 e.2)) []

/-- One entry in `_convert_od_routes_to_ids` (DTAsolvers_cpp_adapter.py:240–245). -/
def namesPair (nodes links : List String) (e : (String × String) × List (List String)) :
    M ((ℕ × ℕ) × List (List ℕ)) := do
  let o ← idOf nodes e.1.1
  let d ← idOf nodes e.1.2
  let routes ← e.2.mapM (fun r => r.mapM (idOf links))
  .ok ((o, d), routes)

/-- `_convert_od_routes_to_ids` (DTAsolvers_cpp_adapter.py:223–246). -/
def namesIds (nodes links : List String) (D : NameDict) : M Store :=
  D.foldlM (fun S e => do
    let f ← namesPair nodes links e
    .ok (dSet S f.1 f.2)) []

/-- `make_od_route_set_store` (bindings.cpp:468–490): `emplace` keeps what is there. -/
def makeStore (S : Store) : Store :=
  S.foldl (fun T e => if e.1 ∈ T.map Prod.fst then T else T ++ [e]) []

/-- `route_actual` of `_convert_flat_result_to_names` (DTAsolvers_cpp_adapter.py:206–214): `vehs` are the keys of
`VEHICLES`. -/
def routeLog (links : List String) (vehs : List String) (ids off : List ℕ) : M (List (String × List String)) :=
  vehs.zipIdx.foldlM (fun D p => do
    let r ← (slice ids (off.getD p.2 0) (off.getD (p.2 + 1) 0)).mapM (nameOf links)
    .ok (dSet D p.1 r)) []

/-- `cost_actual` (DTAsolvers_cpp_adapter.py:216). -/
def costLog (vehs : List String) (cost : List ℚ) : List (String × ℚ) :=
  vehs.zipIdx.foldl (fun D p => dSet D p.1 (cost.getD p.2 0)) []

end UX.Cpp
