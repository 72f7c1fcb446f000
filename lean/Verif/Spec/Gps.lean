import Verif.Model.Gps
import Verif.Spec.Logs

/-!
# What a GPS-like log should show
-/

namespace UX.Gps.Spec
open UX.World

/-- What the log entry `r` of a vehicle says about where it was, as time, place and speed: nothing if it was not on a
link, otherwise the point of the segment between the end nodes of the link. The point `(-1, -1)` itself counts as
nothing. -/
def Shows (W : World) (r : LogRow) (g : GpsRow) : Prop :=
  ∃ l, r.link = some l ∧ g.t = r.t ∧ g.v = r.v ∧ (g.x, g.y) = pointAt (W.N.x (W.L.startN l)) (W.N.y (W.L.startN l))
    (W.N.x (W.L.endN l)) (W.N.y (W.L.endN l)) (r.x / W.L.length l) ∧ (g.x, g.y) ≠ (-1, -1)

/-- `gs` is what the entries `rs` say, in the same order. -/
inductive Tells (W : World) : List LogRow → List GpsRow → Prop
  | nil : Tells W [] []
  | skip {r : LogRow} {rs : List LogRow} {gs : List GpsRow} : (∀ g, ¬ Shows W r g) → Tells W rs gs → Tells W (r :: rs) gs
  | row {r : LogRow} {g : GpsRow} {rs : List LogRow} {gs : List GpsRow} :
      Shows W r g → Tells W rs gs → Tells W (r :: rs) (g :: gs)

end UX.Gps.Spec
