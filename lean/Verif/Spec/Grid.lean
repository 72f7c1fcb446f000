import Verif.Model.State

/-!
# What a grid network is
-/

namespace UX

/-- Neighbouring points of the grid. -/
def Beside (p q : ℕ × ℕ) : Prop :=
  p.1 = q.1 ∧ (q.2 = p.2 + 1 ∨ p.2 = q.2 + 1) ∨ p.2 = q.2 ∧ (q.1 = p.1 + 1 ∨ p.1 = q.1 + 1)

/-- Distance along the grid. -/
def gridDist (p q : ℕ × ℕ) : ℕ := (p.1 - q.1) + (q.1 - p.1) + ((p.2 - q.2) + (q.2 - p.2))

/-- Points of the grid of `imax` by `jmax` points. -/
def Inside (imax jmax : ℕ) (p : ℕ × ℕ) : Prop := p.1 < imax ∧ p.2 < jmax

/-- `B` is `A` with a grid of `imax` by `jmax` nodes added: `id p` is the node at point `p`, `lk p q` the
link between neighbours. Names are those of Python's `f"n{(i,j)}"`, `f"l{(i,j,k,m)}"`. -/
structure GridAdded (A B : World) (imax jmax : ℕ) (len : ℚ) (id : ℕ × ℕ → NodeId)
    (lk : ℕ × ℕ → ℕ × ℕ → LinkId) : Prop where
  nNodes : B.nNodes = A.nNodes + imax * jmax
  nLinks : B.nLinks = A.nLinks + 2 * ((imax - 1) * jmax + imax * (jmax - 1))
  /-- the new nodes are the points -/
  node : ∀ n, A.nNodes ≤ n → n < B.nNodes → ∃ p, Inside imax jmax p ∧ id p = n
  range : ∀ p, Inside imax jmax p → A.nNodes ≤ id p ∧ id p < B.nNodes
  inj : ∀ p q, Inside imax jmax p → Inside imax jmax q → id p = id q → p = q
  name : ∀ p, Inside imax jmax p → B.N.name (id p) = s!"n({p.1}, {p.2})" ∧ B.nodeDict s!"n({p.1}, {p.2})" = some (id p)
  place : ∀ p, Inside imax jmax p → B.N.x (id p) = p.1 ∧ B.N.y (id p) = p.2
  cap : ∀ p, Inside imax jmax p → B.N.flowCap (id p) = some (A.cfg.fl (16 / 10)) ∧ B.N.signal (id p) = [0]
  /-- the new links join neighbours, one in each direction -/
  link : ∀ l, A.nLinks ≤ l → l < B.nLinks → ∃ p q, Inside imax jmax p ∧ Inside imax jmax q ∧ Beside p q ∧ lk p q = l
  lrange : ∀ p q, Inside imax jmax p → Inside imax jmax q → Beside p q → A.nLinks ≤ lk p q ∧ lk p q < B.nLinks
  ends : ∀ p q, Inside imax jmax p → Inside imax jmax q → Beside p q →
    B.L.startN (lk p q) = id p ∧ B.L.endN (lk p q) = id q ∧ B.L.length (lk p q) = len
  lname : ∀ p q, Inside imax jmax p → Inside imax jmax q → Beside p q →
    B.L.name (lk p q) = s!"l({p.1}, {p.2}, {q.1}, {q.2})" ∧
    B.linkDict s!"l({p.1}, {p.2}, {q.1}, {q.2})" = some (lk p q)
  /-- what was there before is still there -/
  oldNode : ∀ n < A.nNodes, B.N.name n = A.N.name n ∧ B.N.x n = A.N.x n ∧ B.N.y n = A.N.y n ∧
    B.N.flowCap n = A.N.flowCap n ∧ B.N.signal n = A.N.signal n
  oldLink : ∀ l < A.nLinks, B.L.name l = A.L.name l ∧ B.L.startN l = A.L.startN l ∧ B.L.endN l = A.L.endN l ∧
    B.L.length l = A.L.length l

end UX
