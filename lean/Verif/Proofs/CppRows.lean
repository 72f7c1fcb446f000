import Verif.Proofs.CppLogRun
import Verif.Spec.CppRows
import Mathlib.Tactic.FieldSimp

/-!
# The rows of the vehicle logs of the C++ engine
-/

namespace UX.Cpp
open CWorld Relation Spec

/-! ## Lists -/

theorem enterScan_congr {t t' : ℕ → ℚ} (p : Option ℕ) (i : ℕ) (xs : List (Option ℕ))
    (h : ∀ j, j < xs.length → t (i + j) = t' (i + j)) : enterScan t p i xs = enterScan t' p i xs := by
  induction xs generalizing p i with
  | nil => rfl
  | cons o r ih =>
    have hr : ∀ p, enterScan t p (i + 1) r = enterScan t' p (i + 1) r := fun p =>
      ih p (i + 1) (fun j hj => by
        have := h (j + 1) (by simpa using hj)
        rw [show i + 1 + j = i + (j + 1) by omega]; exact this)
    have h0 := h 0 (by simp)
    cases o with
    | none => exact hr p
    | some l =>
      simp only [enterScan, hr]
      simp only [Nat.add_zero] at h0
      rw [h0]

/-- The link of the last entry with a link. -/
def lastLink : Option ℕ → List (Option ℕ) → Option ℕ
  | p, [] => p
  | p, none :: r => lastLink p r
  | _, some l :: r => lastLink (some l) r

theorem lastLink_snoc (p : Option ℕ) (xs : List (Option ℕ)) (o : Option ℕ) :
    lastLink p (xs ++ [o]) = match o with | some l => some l | none => lastLink p xs := by
  induction xs generalizing p with
  | nil => cases o <;> rfl
  | cons x r ih => cases x <;> simp [lastLink, ih]

theorem lastLink_last {xs : List (Option ℕ)} {l : ℕ} (p : Option ℕ) (h : xs.getLast? = some (some l)) :
    lastLink p xs = some l := by
  obtain ⟨ys, rfl⟩ := List.getLast?_eq_some_iff.1 h
  rw [lastLink_snoc]

theorem lastLink_none {xs : List (Option ℕ)} (h : ∀ o ∈ xs, o = none) : lastLink none xs = none := by
  induction xs with
  | nil => rfl
  | cons x r ih =>
    rw [h x (by simp)]
    exact ih (fun o ho => h o (by simp [ho]))

theorem enterScan_snoc (t : ℕ → ℚ) (p : Option ℕ) (i : ℕ) (xs : List (Option ℕ)) (o : Option ℕ) :
    enterScan t p i (xs ++ [o]) = enterScan t p i xs ++
      match o with
      | none => []
      | some l => if lastLink p xs = some l then [] else [(l, t (i + xs.length))] := by
  induction xs generalizing p i with
  | nil =>
    cases o with
    | none => rfl
    | some l =>
      simp only [List.nil_append, enterScan, lastLink, List.length_nil, Nat.add_zero]
      congr
  | cons x r ih =>
    have e : i + 1 + r.length = i + (r.length + 1) := by omega
    cases o with
    | none =>
      cases x with
      | none => simp only [List.cons_append, enterScan, ih]
      | some m =>
        simp only [List.cons_append, enterScan, ih, List.append_nil]
    | some k =>
      cases x with
      | none =>
        simp only [List.cons_append, enterScan, ih, lastLink, List.length_cons, e]
        congr
      | some m =>
        simp only [List.cons_append, enterScan, ih, lastLink, List.length_cons, e]
        split
        · rename_i h; subst h; rfl
        · rw [List.cons_append]
          congr

theorem enterScan_none {t : ℕ → ℚ} {xs : List (Option ℕ)} (h : ∀ o ∈ xs, o = none) (p : Option ℕ) (i : ℕ) :
    enterScan t p i xs = [] := by
  induction xs generalizing i with
  | nil => rfl
  | cons x r ih =>
    rw [h x (by simp)]
    exact ih (fun o ho => h o (by simp [ho])) _

theorem legs_snoc {W : CWorld} {xs : List CLog} {e : CLog} (h : xs.getLast? = some e) (e' : CLog) :
    legs W (xs ++ [e']) = legs W xs + leg W e e' := by
  induction xs with
  | nil => simp at h
  | cons x r ih =>
    cases r with
    | nil =>
      simp at h; subst h
      simp [legs]
    | cons y r =>
      have := ih (by simpa using h)
      simp only [List.cons_append, legs] at this ⊢
      rw [this]; ring

theorem legs_none {W : CWorld} {xs : List CLog} (h : ∀ e ∈ xs, e.link = none) : legs W xs = 0 := by
  induction xs with
  | nil => rfl
  | cons x r ih =>
    cases r with
    | nil => rfl
    | cons y r =>
      have := ih (fun e he => h e (by simp [he]))
      simp only [legs, this, leg, h x (by simp)]
      simp

/-! ## The invariant -/

/-- The fields of a vehicle that matter. -/
def CVeh.mkey (V : CVeh) := ((V.state, V.link, V.x, V.v, V.xOld, V.lane), V.log, V.dist, V.count,
  V.arrTimeLink, V.eager, V.flagWait)

/-- The entries of `build_enter_log_data`, with the times that were recorded. -/
def enters (W : CWorld) (V : CVeh) : List (ℕ × ℚ) :=
  enterScan (fun i => clockAt W (V.eager.getD i (0, .home)).1) none 0 (V.log.map CLog.link)

/-- `v` waits in a transfer buffer. -/
def Req (W : CWorld) (v : ℕ) : Prop :=
  (∃ m, v ∈ (W.link m).arrived) ∨ ∃ n, v ∈ (W.node n).incoming

/-- A vehicle whose last log entry is on its present link. -/
def Settled (W : CWorld) (req : Prop) (l : ℕ) (V : CVeh) : Prop :=
  ∃ e, V.log.getLast? = some e ∧ e.link = some l ∧ e.x = V.xOld ∧ V.v * W.g.deltaT = V.x - V.xOld ∧
    e.lane = V.lane ∧ (req → |V.x - (W.link l).len| < 1 / 1000000000) ∧
    (NoLoops W → (enters W V).length = V.count ∧ (enters W V).getLast? = some (l, V.arrTimeLink) ∧
      |V.dist - (legs W V.log + (V.x - V.xOld))| ≤ V.count * (1 / 1000000000))

/-- A vehicle that has entered its link in this time step. -/
def Entered (W : CWorld) (req : Prop) (o l : ℕ) (V : CVeh) : Prop :=
  ¬ req ∧ V.flagWait = false ∧ V.arrTimeLink = clockAt W W.g.timestep ∧
  (((∀ e ∈ V.log, e.link = none) ∧ (W.link l).src = o ∧ V.x = 0 ∧ V.count = 1 ∧ V.dist = 0) ∨
    ∃ e a, V.log.getLast? = some e ∧ e.link = some a ∧ a < W.g.nLinks ∧ (W.link a).dst = (W.link l).src ∧
      |V.v * W.g.deltaT - ((W.link a).len - e.x + V.x)| < 1 / 1000000000 ∧
      (NoLoops W → (enters W V).length + 1 = V.count ∧
        |V.dist - (legs W V.log + ((W.link a).len - e.x))| ≤ V.count * (1 / 1000000000)))

/-- As `RowStep`, with the origin given. -/
def RowOK (W : CWorld) (o : ℕ) (e e' : CLog) : Prop :=
  match e.link, e'.link with
  | _, none => True
  | none, some m => m < W.g.nLinks ∧ (W.link m).src = o ∧ e'.x = 0
  | some l, some m => l < W.g.nLinks ∧ m < W.g.nLinks ∧
      ((l = m ∧ e'.v * W.g.deltaT = e'.x - e.x) ∨
        ((W.link l).dst = (W.link m).src ∧
          |e'.v * W.g.deltaT - ((W.link l).len - e.x + e'.x)| < 1 / 1000000000))

def Rows (W : CWorld) (o : ℕ) (xs : List CLog) : Prop :=
  ∀ i e e', xs[i]? = some e → xs[i + 1]? = some e' → RowOK W o e e'

/-- The log fits the vehicle; `b`: the entry of the present time step has been made. -/
def Trk (b : Bool) (W : CWorld) (req : Prop) (o : ℕ) (V : CVeh) : Prop :=
  Rows W o V.log ∧ V.log.length = V.eager.length ∧
  match V.state with
  | .home => (∀ e ∈ V.log, e.link = none) ∧ V.count = 0 ∧ V.dist = 0
  | .wait => (∀ e ∈ V.log, e.link = none) ∧ V.count = 0 ∧ V.dist = 0
  | .run => ∃ l, V.link = some l ∧ l < W.g.nLinks ∧
      (Settled W req l V ∨ b = false ∧ Entered W req o l V)
  | _ => NoLoops W → (enters W V).length = V.count

/-- Equal tables, as far as they are used. -/
structure Tab (W W' : CWorld) : Prop where
  n : W.g.nLinks ≤ W'.g.nLinks
  fl : W'.g.fl = W.g.fl
  dt : W'.g.deltaT = W.g.deltaT
  src : ∀ l, l < W.g.nLinks → (W'.link l).src = (W.link l).src
  dst : ∀ l, l < W.g.nLinks → (W'.link l).dst = (W.link l).dst
  len : ∀ l, l < W.g.nLinks → (W'.link l).len = (W.link l).len

theorem Keep.tab {W W' : CWorld} (k : Keep W W') : Tab W W' :=
  ⟨by rw [k.g], by rw [k.g], by rw [k.g], fun l _ => k.src l, fun l _ => k.dst l, fun l _ => k.len l⟩

theorem Tab.refl (W : CWorld) : Tab W W := ⟨le_rfl, rfl, rfl, fun _ _ => rfl, fun _ _ => rfl, fun _ _ => rfl⟩

theorem Tab.noLoops {W W' : CWorld} (t : Tab W W') (h : NoLoops W') : NoLoops W := fun l hl => by
  rw [← t.src l hl, ← t.dst l hl]; exact h l (lt_of_lt_of_le hl t.n)

theorem Tab.clock {W W' : CWorld} (t : Tab W W') (s : ℕ) : clockAt W' s = clockAt W s := by
  unfold clockAt; rw [t.fl, t.dt]

theorem RowOK.tab {W W' : CWorld} (t : Tab W W') {o : ℕ} {e e' : CLog} (h : RowOK W o e e') :
    RowOK W' o e e' := by
  unfold RowOK at *
  cases h2 : e'.link with
  | none => simp
  | some m =>
    cases h1 : e.link with
    | none =>
      simp only [h1, h2] at h ⊢
      obtain ⟨a, b, c⟩ := h
      exact ⟨lt_of_lt_of_le a t.n, by rw [t.src _ a]; exact b, c⟩
    | some l =>
      simp only [h1, h2] at h ⊢
      obtain ⟨a, b, c⟩ := h
      refine ⟨lt_of_lt_of_le a t.n, lt_of_lt_of_le b t.n, ?_⟩
      rw [t.dst _ a, t.src _ b, t.len _ a, t.dt]
      exact c

theorem Rows.tab {W W' : CWorld} (t : Tab W W') {o : ℕ} {xs : List CLog} (h : Rows W o xs) :
    Rows W' o xs := fun i e e' h1 h2 => (h i e e' h1 h2).tab t

theorem legs_tab {W W' : CWorld} (t : Tab W W') {o : ℕ} {xs : List CLog} (h : Rows W o xs) :
    legs W' xs = legs W xs := by
  induction xs with
  | nil => rfl
  | cons e r ih =>
    cases r with
    | nil => rfl
    | cons e' r =>
      have h0 := h 0 e e' (by simp) (by simp)
      have := ih (fun i a b h1 h2 => h (i + 1) a b (by simpa using h1) (by simpa using h2))
      simp only [legs, this]
      congr 1
      unfold leg RowOK at *
      split
      · rename_i l m h1 h2
        simp only [h1, h2] at h0 ⊢
        rw [t.len l h0.1]
      · rename_i hne
        rfl

theorem enters_key {W W' : CWorld} (t : Tab W W') {V V' : CVeh} (h1 : V'.log = V.log)
    (h2 : V'.eager = V.eager) : enters W' V' = enters W V := by
  unfold enters
  rw [h1, h2]
  exact enterScan_congr _ _ _ (fun j _ => t.clock _)

theorem Trk.mono {b : Bool} {W W' : CWorld} {r r' : Prop} {o : ℕ} {V V' : CVeh} (h : Trk b W r o V)
    (t : Tab W W') (ht : b = false → W'.g.timestep = W.g.timestep) (hr : r' → r)
    (hk : V'.mkey = V.mkey) : Trk b W' r' o V' := by
  have e1 : V'.state = V.state := congrArg (fun p => p.1.1) hk
  have e2 : V'.link = V.link := congrArg (fun p => p.1.2.1) hk
  have e3 : V'.x = V.x := congrArg (fun p => p.1.2.2.1) hk
  have e4 : V'.v = V.v := congrArg (fun p => p.1.2.2.2.1) hk
  have e5 : V'.xOld = V.xOld := congrArg (fun p => p.1.2.2.2.2.1) hk
  have e6 : V'.lane = V.lane := congrArg (fun p => p.1.2.2.2.2.2) hk
  have e7 : V'.log = V.log := congrArg (fun p => p.2.1) hk
  have e8 : V'.dist = V.dist := congrArg (fun p => p.2.2.1) hk
  have e9 : V'.count = V.count := congrArg (fun p => p.2.2.2.1) hk
  have e10 : V'.arrTimeLink = V.arrTimeLink := congrArg (fun p => p.2.2.2.2.1) hk
  have e11 : V'.eager = V.eager := congrArg (fun p => p.2.2.2.2.2.1) hk
  have e12 : V'.flagWait = V.flagWait := congrArg (fun p => p.2.2.2.2.2.2) hk
  have e13 := enters_key t e7 e11
  obtain ⟨h1, h2, h3⟩ := h
  have hl := legs_tab t h1
  refine ⟨by rw [e7]; exact h1.tab t, by rw [e7, e11]; exact h2, ?_⟩
  rw [e1]
  cases hst : V.state with
  | home => rw [hst] at h3; simp only at h3 ⊢; rw [e7, e9, e8]; exact h3
  | wait => rw [hst] at h3; simp only at h3 ⊢; rw [e7, e9, e8]; exact h3
  | ended => rw [hst] at h3; simp only at h3 ⊢; rw [e13, e9]; exact fun hn => h3 (t.noLoops hn)
  | abort => rw [hst] at h3; simp only at h3 ⊢; rw [e13, e9]; exact fun hn => h3 (t.noLoops hn)
  | run =>
    rw [hst] at h3
    simp only at h3 ⊢
    obtain ⟨l, p1, p2, p3⟩ := h3
    refine ⟨l, by rw [e2]; exact p1, lt_of_lt_of_le p2 t.n, ?_⟩
    rcases p3 with ⟨e, q1, q2, q3, q4, q5, q6, q7⟩ | ⟨hb, q1, q2, q3, q4⟩
    · left
      refine ⟨e, by rw [e7]; exact q1, q2, by rw [e5]; exact q3, by rw [e4, e3, e5, t.dt]; exact q4,
        by rw [e6]; exact q5, fun hr' => by rw [e3, t.len l p2]; exact q6 (hr hr'), fun hn => ?_⟩
      rw [e13, e9, e10, e8, e7, e3, e5, hl]
      exact q7 (t.noLoops hn)
    · right
      refine ⟨hb, fun hr' => q1 (hr hr'), by rw [e12]; exact q2, by rw [e10, ht hb, t.clock]; exact q3, ?_⟩
      rcases q4 with ⟨s1, s2, s3, s4, s5⟩ | ⟨e, a, s1, s2, s3, s4, s5, s6⟩
      · left
        rw [e7, e3, e9, e8, t.src l p2]
        exact ⟨s1, s2, s3, s4, s5⟩
      · right
        refine ⟨e, a, by rw [e7]; exact s1, s2, lt_of_lt_of_le s3 t.n, by rw [t.dst a s3, t.src l p2]; exact s4,
          by rw [e4, e3, t.len a s3, t.dt]; exact s5, fun hn => ?_⟩
        rw [e13, e9, e8, e7, hl, t.len a s3]
        exact s6 (t.noLoops hn)

end UX.Cpp
