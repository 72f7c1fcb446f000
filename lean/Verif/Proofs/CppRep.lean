import Verif.Proofs.CppTrace
import Mathlib.Tactic.Linarith

/-!
# What a list of passages does to queues, counters and positions
-/

namespace UX.Cpp
open CWorld Spec

theorem into_cons (l : ℕ) (e : Pass) (h : List Pass) :
    into l (e :: h) = if e.enters = some l then e :: into l h else into l h := by
  simp only [into, List.filter_cons, decide_eq_true_eq]

theorem outOf_cons (l : ℕ) (e : Pass) (h : List Pass) :
    outOf l (e :: h) = if e.leaves = some l then e :: outOf l h else outOf l h := by
  simp only [outOf, List.filter_cons, decide_eq_true_eq]

theorem movedOut_cons (l : ℕ) (e : Pass) (h : List Pass) :
    movedOut l (e :: h) = if e.leaves = some l ∧ e.enters ≠ none then e :: movedOut l h
      else movedOut l h := by
  simp only [movedOut, List.filter_cons, decide_eq_true_eq]

theorem Rep.time {g : CGlob} {X Y : TS} {h : List Pass} (r : Rep g X h Y) : ∀ e ∈ h, e.time = g.timestep := by
  induction r with
  | nil X => intro e he; simp at he
  | cons ok _ ih =>
    intro e he
    rcases List.mem_cons.1 he with rfl | he
    · exact ok.time
    · exact ih e he

theorem Rep.walk {g : CGlob} {X Y : TS} {h : List Pass} (r : Rep g X h Y) (v : ℕ) :
    Travel v (X.pos v) h (Y.pos v) := by
  induction r with
  | nil X => exact .nil _
  | @cons X Y e h ok _ ih =>
    by_cases hv : e.veh = v
    · refine .own hv (by rw [← ok.pos, hv]) ?_
      have : (X.pass g e).pos v = e.enters := by simp [TS.pass, upd, hv]
      rw [← this]; exact ih
    · refine .other hv ?_
      have : (X.pass g e).pos v = X.pos v := by
        simp only [TS.pass, upd]; rw [if_neg (fun h => hv h.symm)]
      rw [← this]; exact ih

theorem Rep.fifo {g : CGlob} {X Y : TS} {h : List Pass} (r : Rep g X h Y) (l : ℕ) :
    ∃ ts : List ℚ, ts.length = (outOf l h).length ∧
      (X.lk l).q ++ (into l h).map (fun e => (e.veh, clock g e.time)) =
        ((outOf l h).map Pass.veh).zip ts ++ (Y.lk l).q ∧
      (Y.lk l).tt = (X.lk l).tt ++ List.zipWith (record g) (outOf l h) ts := by
  induction r with
  | nil X => exact ⟨[], rfl, by simp [into, outOf], by simp [outOf]⟩
  | @cons X Y e h ok _ ih =>
    obtain ⟨ts, h1, h2, h3⟩ := ih
    have ht := ok.time
    by_cases ho : e.leaves = some l
    · obtain ⟨t, r, hq⟩ := ok.front l ho
      refine ⟨t :: ts, ?_, ?_, ?_⟩
      · rw [outOf_cons, if_pos ho]; simp [h1]
      · rw [outOf_cons, if_pos ho, into_cons, hq]
        simp only [List.map_cons, List.zip_cons_cons, List.cons_append]
        rw [← h2]
        congr 1
        by_cases hi : e.enters = some l
        · rw [if_pos hi]
          simp only [TS.pass, LV.pass, if_pos hi, if_pos ho, LV.into, LV.out, hq, List.tail_cons,
            List.map_cons, ht, List.append_assoc, List.singleton_append]
        · rw [if_neg hi]
          simp only [TS.pass, LV.pass, if_neg hi, if_pos ho, LV.out, hq, List.tail_cons]
      · rw [outOf_cons, if_pos ho, h3]
        have : ((X.pass g e).lk l).tt = (X.lk l).tt ++ [record g e t] := by
          simp only [TS.pass, LV.pass, if_pos ho]
          split <;> simp [LV.into, LV.out, hq]
        rw [this]; simp
    · refine ⟨ts, ?_, ?_, ?_⟩
      · rw [outOf_cons, if_neg ho]; exact h1
      · rw [outOf_cons, if_neg ho, into_cons, ← h2]
        by_cases hi : e.enters = some l
        · rw [if_pos hi]
          simp only [TS.pass, LV.pass, if_pos hi, if_neg ho, LV.into,
            List.map_cons, ht, List.append_assoc, List.singleton_append]
        · rw [if_neg hi]
          simp only [TS.pass, LV.pass, if_neg hi, if_neg ho]
      · rw [outOf_cons, if_neg ho, h3]
        congr 1
        simp only [TS.pass, LV.pass, if_neg ho]
        split <;> rfl

/-- `k` vehicles counted, starting from the count `x`. -/
def addN (g : CGlob) : ℕ → ℚ → ℚ
  | 0, x => x
  | k + 1, x => addN g k (g.fl (x + g.deltaN))

/-- `k` vehicles taken from a capacity counter. -/
def subN (g : CGlob) : ℕ → ℚ → ℚ
  | 0, x => x
  | k + 1, x => subN g k (g.fl (x - g.deltaN))

theorem Rep.counts {g : CGlob} {X Y : TS} {h : List Pass} (r : Rep g X h Y) (l : ℕ) :
    (∀ s, s ≠ g.timestep → (Y.lk l).arr s = (X.lk l).arr s ∧ (Y.lk l).dep s = (X.lk l).dep s) ∧
    (Y.lk l).arr g.timestep = addN g (into l h).length ((X.lk l).arr g.timestep) ∧
    (Y.lk l).dep g.timestep = addN g (outOf l h).length ((X.lk l).dep g.timestep) ∧
    (Y.lk l).cin = subN g (into l h).length (X.lk l).cin ∧
    (Y.lk l).cout = subN g (movedOut l h).length (X.lk l).cout := by
  induction r with
  | nil X => exact ⟨fun _ _ => ⟨rfl, rfl⟩, rfl, rfl, rfl, rfl⟩
  | @cons X Y e h ok _ ih =>
    obtain ⟨h1, h2, h3, h4, h5⟩ := ih
    have a1 : ((X.pass g e).lk l).arr = if e.enters = some l then
        upd (X.lk l).arr g.timestep (g.fl ((X.lk l).arr g.timestep + g.deltaN)) else (X.lk l).arr := by
      simp only [TS.pass, LV.pass]; split
      · split <;> rfl
      · split <;> rfl
    have a2 : ((X.pass g e).lk l).dep = if e.leaves = some l then
        upd (X.lk l).dep g.timestep (g.fl ((X.lk l).dep g.timestep + g.deltaN)) else (X.lk l).dep := by
      simp only [TS.pass, LV.pass]; split
      · split <;> rfl
      · split <;> rfl
    have a3 : ((X.pass g e).lk l).cin = if e.enters = some l then g.fl ((X.lk l).cin - g.deltaN)
        else (X.lk l).cin := by
      simp only [TS.pass, LV.pass]; split
      · split <;> rfl
      · split <;> rfl
    have a4 : ((X.pass g e).lk l).cout = if e.leaves = some l ∧ e.enters ≠ none then
        g.fl ((X.lk l).cout - g.deltaN) else (X.lk l).cout := by
      simp only [TS.pass, LV.pass]
      by_cases ho : e.leaves = some l
      · by_cases hn : e.enters = none
        · simp [ho, hn, LV.out]
        · split <;> simp [ho, hn, LV.out, LV.into]
      · simp only [if_neg ho, if_neg (fun h : _ ∧ _ => ho h.1)]
        split <;> rfl
    refine ⟨fun s hs => ?_, ?_, ?_, ?_, ?_⟩
    · obtain ⟨p, q⟩ := h1 s hs
      rw [p, q, a1, a2]
      constructor
      · split
        · simp only [upd, if_neg hs]
        · rfl
      · split
        · simp only [upd, if_neg hs]
        · rfl
    · rw [h2, a1, into_cons]
      split
      · simp [upd, addN]
      · rfl
    · rw [h3, a2, outOf_cons]
      split
      · simp [upd, addN]
      · rfl
    · rw [h4, a3, into_cons]
      split
      · simp [subN]
      · rfl
    · rw [h5, a4, movedOut_cons]
      split
      · simp [subN]
      · rfl

theorem addN_exact {g : CGlob} (hx : ExactCounts g) (k a : ℕ) :
    addN g k (a * g.deltaN) = (a + k : ℕ) * g.deltaN := by
  induction k generalizing a with
  | zero => rfl
  | succ k ih =>
    rw [addN]
    have : g.fl (a * g.deltaN + g.deltaN) = (a + 1 : ℕ) * g.deltaN := by
      rw [← hx (a + 1)]; congr 1; push_cast; ring
    rw [this, ih]
    congr 2; omega

theorem subN_exact {g : CGlob} (hfl : g.fl = id) (k : ℕ) (x : ℚ) : subN g k x = x - k * g.deltaN := by
  induction k generalizing x with
  | zero => simp [subN]
  | succ k ih => rw [subN, ih, hfl]; push_cast; simp only [id]; ring

/-- Capacity counters do not become negative. -/
theorem Rep.nonneg {g : CGlob} (hfl : FlOK g.fl) {X Y : TS} {h : List Pass} (r : Rep g X h Y) (l : ℕ) :
    (0 ≤ (X.lk l).cin → 0 ≤ (Y.lk l).cin) ∧ (0 ≤ (X.lk l).cout → 0 ≤ (Y.lk l).cout) := by
  have hz : ∀ x : ℚ, 0 ≤ x → 0 ≤ g.fl x := fun x hx => by
    have := hfl.mono hx
    rwa [hfl.zero] at this
  induction r with
  | nil X => exact ⟨id, id⟩
  | @cons X Y e h ok _ ih =>
    refine ⟨fun hc => ih.1 ?_, fun hc => ih.2 ?_⟩
    · simp only [TS.pass, LV.pass]
      split
      · rename_i hi
        have := ok.cin l hi
        have : 0 ≤ (X.lk l).cin - g.deltaN := by linarith [not_lt.1 this]
        split <;> exact hz _ this
      · split
        · exact hc
        · exact hc
    · simp only [TS.pass, LV.pass]
      by_cases ho : e.leaves = some l
      · have key : 0 ≤ ((X.lk l).out g e).cout := by
          simp only [LV.out]
          split
          · exact hc
          · rename_i hn
            exact hz _ (by linarith [ok.cout l ho hn])
        simp only [if_pos ho]
        split
        · exact key
        · exact key
      · simp only [if_neg ho]
        split
        · exact hc
        · exact hc

end UX.Cpp
