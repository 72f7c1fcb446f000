import Verif.Model.Csv

/-!
# What the rows of CSV files mean
-/

namespace UX.Csv.Spec

/-- The contents of a file of nodes: name and coordinates per row, apart from titles. Further columns do not matter. -/
inductive NodeFile (num : String → Option ℚ) : List (List String) → List (String × ℚ × ℚ) → Prop
  | nil : NodeFile num [] []
  | title {n rest rs as} (h : NodeFile num rs as) : NodeFile num ((n :: "x" :: rest) :: rs) as
  | data {n sx sy x y rest rs as} (hx : num sx = some x) (hy : num sy = some y) (ht : sx ≠ "x")
      (h : NodeFile num rs as) : NodeFile num ((n :: sx :: sy :: rest) :: rs) ((n, x, y) :: as)

/-- A link as given in a file. -/
structure LinkLine where
  name : String
  start : String
  stop : String
  length : ℚ
  speed : ℚ
  jam : ℚ
  priority : ℚ
  deriving DecidableEq

/-- The contents of a file of links. -/
inductive LinkFile (num : String → Option ℚ) : List (List String) → List LinkLine → Prop
  | nil : LinkFile num [] []
  | title {n a b rest rs as} (h : LinkFile num rs as) : LinkFile num ((n :: a :: b :: "length" :: rest) :: rs) as
  | data {sl su sk sp rest rs as} (L : LinkLine) (h1 : num sl = some L.length) (h2 : num su = some L.speed)
      (h3 : num sk = some L.jam) (h4 : num sp = some L.priority) (ht : sl ≠ "length") (h : LinkFile num rs as) :
      LinkFile num ((L.name :: L.start :: L.stop :: sl :: su :: sk :: sp :: rest) :: rs) (L :: as)

/-- A demand as given in a file. -/
structure DemandLine where
  orig : String
  dest : String
  start : ℚ
  stop : ℚ
  flow : ℚ
  volume : Option ℚ
  deriving DecidableEq

/-- The contents of a file of demands: with five columns no volume is given. -/
inductive DemandFile (num : String → Option ℚ) : List (List String) → List DemandLine → Prop
  | nil : DemandFile num [] []
  | title {o d rest rs as} (h : DemandFile num rs as) : DemandFile num ((o :: d :: "start_t" :: rest) :: rs) as
  | flow {s1 s2 s3 rs as} (L : DemandLine) (h1 : num s1 = some L.start) (h2 : num s2 = some L.stop)
      (h3 : num s3 = some L.flow) (hv : L.volume = none) (ht : s1 ≠ "start_t") (h : DemandFile num rs as) :
      DemandFile num ([L.orig, L.dest, s1, s2, s3] :: rs) (L :: as)
  | volume {s1 s2 s3 s4 v rest rs as} (L : DemandLine) (h1 : num s1 = some L.start) (h2 : num s2 = some L.stop)
      (h3 : num s3 = some L.flow) (h4 : num s4 = some v) (hv : L.volume = some v) (ht : s1 ≠ "start_t")
      (h : DemandFile num rs as) :
      DemandFile num ((L.orig :: L.dest :: s1 :: s2 :: s3 :: s4 :: rest) :: rs) (L :: as)

/-- Calls made one after the other until one raises. -/
inductive Does {σ α : Type} (f : σ → α → σ × Option Err) : List α → σ → σ → Option Err → Prop
  | nil (s : σ) : Does f [] s s none
  | fail {a : α} {as : List α} {s s' : σ} {e : Err} (h : f s a = (s', some e)) : Does f (a :: as) s s' (some e)
  | next {a : α} {as : List α} {s s' s'' : σ} {e : Option Err} (h : f s a = (s', none)) (r : Does f as s' s'' e) :
      Does f (a :: as) s s'' e

/-- The call for a node. -/
def nodeCall {σ : Type} (A : Api σ) (s : σ) (a : String × ℚ × ℚ) : σ × Option Err := A.addNode s a.1 a.2.1 a.2.2

/-- The call for a link. -/
def linkCall {σ : Type} (A : Api σ) (s : σ) (L : LinkLine) : σ × Option Err :=
  A.addLink s L.name L.start L.stop L.length L.speed L.jam L.priority

/-- The call for a demand. -/
def demandCall {σ : Type} (A : Api σ) (s : σ) (L : DemandLine) : σ × Option Err :=
  A.addDemand s L.orig L.dest L.start L.stop L.flow L.volume

end UX.Csv.Spec
