import Verif.Model.Base

/-!
# Computations with random choices

The solvers draw from Python's `random`, from `random.Random` objects and from `np.random`. All these
generators are modelled as one stream of raw numbers, consumed one per draw, over which every theorem
quantifies; every sequence of outcomes is obtained for some stream.
-/

namespace UX

/-- A computation that reads raw random numbers and may raise. -/
abbrev RandM (α : Type) := StateT (ℕ → ℕ) (Except Err) α

namespace RandM
variable {α : Type}

/-- The next raw number. -/
def raw : RandM ℕ := fun s => .ok (s 0, fun i => s (i + 1))

/-- A Python exception. -/
def fail (e : Err) : RandM α := fun _ => .error e

/-- A computation without random choices. -/
def lift (x : M α) : RandM α := fun s => match x with
  | .ok a => .ok (a, s)
  | .error e => .error e

/-- `random.random()`: a multiple of 2⁻⁵³ in `[0, 1)`. -/
def random : RandM ℚ := do
  let r ← raw
  pure (((r % 2 ^ 53 : ℕ) : ℚ) / 2 ^ 53)

/-- `random.randint(a, b)`, both ends included; `ValueError` if `b < a`. -/
def randint (a b : ℕ) : RandM ℕ :=
  if b < a then fail .valueError else do
    let r ← raw
    pure (a + r % (b - a + 1))

/-- `random.choice(xs)`, `xs[rng.randrange(len(xs))]`; an exception if `xs` is empty. -/
def choice (xs : List α) : RandM α := do
  let r ← raw
  match xs[r % xs.length]? with
  | some a => pure a
  | none => fail .indexError

/-- `random.sample(xs, k)` and `np.random.choice(xs, k, replace=False, p=…)` with positive
probabilities: `k` elements at different positions; `ValueError` if `xs` is too short. -/
def sample (xs : List α) (k : ℕ) : RandM (List α) :=
  if xs.length < k then fail .valueError else fun s =>
    .ok ((shuffle s xs.length xs).1.take k, (shuffle s xs.length xs).2)

/-- A Python `for` loop with an accumulator. -/
def loop {β : Type} (f : β → α → RandM β) : β → List α → RandM β
  | b, [] => pure b
  | b, a :: as => do
    let b' ← f b a
    loop f b' as

/-- `n` repetitions of a loop body. -/
def times {β : Type} (f : β → RandM β) : ℕ → β → RandM β
  | 0, b => pure b
  | n + 1, b => do
    let b' ← f b
    times f n b'

/-- A list comprehension whose elements are computed with random choices. -/
def collect {β : Type} (f : α → RandM β) : List α → RandM (List β)
  | [] => pure []
  | a :: as => do
    let b ← f a
    let bs ← collect f as
    pure (b :: bs)

end RandM

/-- `a` is a possible result of a computation, for some sequence of random numbers. -/
def Outcome {α : Type} (f : RandM α) (a : α) : Prop := ∃ r r', f r = .ok (a, r')

end UX
