import Mathlib.Algebra.Order.Field.Rat
import Mathlib.Algebra.Order.Floor.Ring
import Mathlib.Data.Rat.Floor
import Mathlib.Data.List.Sort
import Mathlib.Order.Monotone.Defs

/-!
# Base vocabulary of the UXsim model

Numbers.  Python floats are modelled by exact rationals together with a *rounding function*
`fl : ℚ → ℚ` that is applied after every float operation of the traffic-flow code
(`Config.fl` in `State.lean`).  `fl = id` is exact arithmetic; IEEE-754 double rounding (without
overflow / NaN) is monotone, maps 0 to 0 and is idempotent, which is all `FlOK` asks for.
Theorems that only assume `FlOK` therefore also speak about rounded arithmetic; theorems that need
`fl = id` say so.

Exceptions.  Every Python statement that can raise is modelled in `Except Err`.
-/

namespace UX

abbrev NodeId := ℕ
abbrev LinkId := ℕ
abbrev VehId := ℕ
abbrev ReqId := ℕ

/-- Python exception classes that the modelled code can raise. `diverge` is the model's name for a
Python `while` loop that was given more iterations than the supplied fuel (see `findPhase` in `Build.lean`). -/
inductive Err
  | valueError | keyError | indexError | attributeError | zeroDivision | assertionError
  | exception | diverge
  deriving DecidableEq, Repr

/-- A computation that may raise. -/
abbrev M (α : Type) := Except Err α

/-- Dictionary / array update `d[i] = a`. -/
def upd {ι α : Type} [DecidableEq ι] (f : ι → α) (i : ι) (a : α) : ι → α :=
  fun j => if j = i then a else f j

/-- What the model asks of float rounding: monotone, exact at zero, idempotent. -/
structure FlOK (fl : ℚ → ℚ) : Prop where
  mono : Monotone fl
  zero : fl 0 = 0
  idem : ∀ q, fl (fl q) = fl q

/-- Python's `int(x)` on a float: truncation toward zero. -/
def pyInt (q : ℚ) : ℤ := if 0 ≤ q then ⌊q⌋ else ⌈q⌉

/-- Python's `xs[-n]` for `n ≥ 1`; `none` is `IndexError`. -/
def backN {α : Type} (xs : List α) (n : ℕ) : Option α :=
  if 1 ≤ n ∧ n ≤ xs.length then xs[xs.length - n]? else none

/-- `xs[-1] += n` on a list stored newest-first. -/
def bumpHead (n : ℕ) : List ℕ → List ℕ
  | [] => []
  | a :: t => (a + n) :: t

/-- numpy slice assignment `a[i:] = q` (negative `i` counts from the end, clipped at 0). -/
def sliceFrom (a : List ℚ) (i : ℤ) (q : ℚ) : List ℚ :=
  let k : ℕ := if 0 ≤ i then i.toNat else (a.length + i).toNat
  a.take k ++ List.replicate (a.length - k) q

/-- `rng.choice(xs)` on a nonempty list, `r` being the next raw random number. numpy raises
`ValueError` on an empty list. -/
def choiceU {α : Type} (xs : List α) (r : ℕ) : M α :=
  match xs[r % xs.length]? with
  | some a => .ok a
  | none => .error .valueError

/-- `rng.choice(xs, p=w/sum(w))`: any element of positive weight can be drawn; numpy raises
`ValueError` on a negative weight. Only the support of the distribution is modelled, not the
probabilities (every `r : ℕ` is a possible raw random number). -/
def choiceW {α : Type} (xs : List (ℚ × α)) (r : ℕ) : M α :=
  if xs.any (fun p => decide (p.1 < 0)) then .error .valueError
  else choiceU ((xs.filter (fun p => decide (0 < p.1))).map (·.2)) r

/-- `max(zip(ws, xs), key=lambda x: x[0])[1]`: the first element of maximal weight;
`ValueError` on an empty sequence. -/
def argmaxFirst {α : Type} : List (ℚ × α) → M α
  | [] => .error .valueError
  | p :: ps => .ok (ps.foldl (fun best q => if best.1 < q.1 then q else best) p).2

/-- `rng.shuffle(xs)`: a permutation driven by the raw random numbers (Fisher–Yates by repeated
removal); every permutation is obtained for some numbers. Returns the remaining random stream. -/
def shuffle {α : Type} (rng : ℕ → ℕ) : (fuel : ℕ) → List α → List α × (ℕ → ℕ)
  | 0, xs => (xs, rng)
  | k + 1, xs =>
    match xs[rng 0 % xs.length]? with
    | none => (xs, rng)
    | some a =>
      let (ys, rng') := shuffle (fun i => rng (i + 1)) k (xs.eraseIdx (rng 0 % xs.length))
      (a :: ys, rng')

end UX
