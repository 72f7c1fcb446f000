import Verif.Props.Logs
import Verif.Props.CppWrapLog
import Verif.Spec.Gps

/-!
# C125: the GPS-like log
-/

namespace UX
open World Relation UX.Gps.Spec

/-! ## Python mode -/

/-- The row that a log entry makes if it is read at its own place in the log. -/
def ownRow (W : World) (r : LogRow) : Option GpsRow :=
  match r.link with
  | none => none
  | some l => gpsRow r.t (W.linkXy l r.x) r.v

theorem ownRow_shows {W : World} (hfl : W.cfg.fl = id) (r : LogRow) (g : GpsRow) :
    ownRow W r = some g ↔ Shows W r g := by
  have hf1 : ∀ q, W.fl q = q := by intro q; unfold World.fl; rw [hfl]; rfl
  unfold ownRow Shows
  cases hl : r.link with
  | none => simp
  | some l =>
    have e : W.linkXy l r.x = pointAt (W.N.x (W.L.startN l)) (W.N.y (W.L.startN l))
        (W.N.x (W.L.endN l)) (W.N.y (W.L.endN l)) (r.x / W.L.length l) := by
      unfold linkXy pointAt
      simp only [hf1]
      congr 1 <;> ring
    dsimp only
    unfold gpsRow
    constructor
    · intro h
      split at h
      · cases h
      · rename_i hn
        cases h
        exact ⟨l, rfl, rfl, rfl, e, hn⟩
    · rintro ⟨l', h1, h2, h3, h4, h5⟩
      cases h1
      rw [← e] at h4
      rw [← h4, if_neg h5, ← h2, ← h3]

theorem tells_own {W : World} (hfl : W.cfg.fl = id) (rs : List LogRow) : Tells W rs (rs.filterMap (ownRow W)) := by
  induction rs with
  | nil => exact .nil
  | cons r rs ih =>
    cases h : ownRow W r with
    | none =>
      rw [List.filterMap_cons_none h]
      exact .skip (fun g hg => by rw [← ownRow_shows hfl, h] at hg; cases hg) ih
    | some g =>
      rw [List.filterMap_cons_some h]
      exact .row ((ownRow_shows hfl r g).1 h) ih

/-- Reading at the time of step `i`. -/
theorem getXyAt_step {W : World} (hfl : W.cfg.fl = id) (h1 : W.cfg.logInterval = 1) (hdt : 0 < W.dt) (v : VehId)
    (i : ℕ) : W.getXyAt v (i * W.dt) = match (W.V.log v).reverse[i]? with
      | none => .error .indexError
      | some r => match r.link with
        | none => .ok (-1, -1)
        | some l => .ok (W.linkXy l r.x) := by
  have hf1 : ∀ q, W.fl q = q := by intro q; unfold World.fl; rw [hfl]; rfl
  have e : pyInt (W.fl (W.fl ((i * W.dt) / W.dt) / W.cfg.logInterval)) = i := by
    rw [hf1, hf1, h1, mul_div_cancel_right₀ _ hdt.ne']
    unfold pyInt
    simp
  unfold getXyAt logAt
  rw [e, if_pos (Int.natCast_nonneg _), Int.toNat_natCast]
  rfl

theorem stepTimes_get {W : World} (hfl : W.cfg.fl = id) {n i : ℕ} {q : ℚ} (h : (W.stepTimes 0 n)[i]? = some q) :
    q = i * W.dt := by
  unfold stepTimes at h
  rw [List.getElem?_map, hfl] at h
  obtain ⟨a, ha, hb⟩ := Option.map_eq_some_iff.1 h
  have : a = i := by
    obtain ⟨_, h2⟩ := List.getElem?_eq_some_iff.1 ha
    simpa using h2.symm
  rw [← hb, this]
  rfl

theorem gpsMap_ok {α β : Type} {f : α → M β} {g : α → β} {l : List α} (h : ∀ x ∈ l, f x = .ok (g x)) :
    l.mapM f = .ok (l.map g) := by
  induction l with
  | nil => rfl
  | cons a l ih =>
    rw [List.mapM_cons, h a (List.mem_cons_self ..), ih (fun x hx => h x (List.mem_cons_of_mem _ hx))]
    rfl

theorem gpsMap_err {α β : Type} {f : α → M β} {e : Err} {l : List α} (h : ∀ x ∈ l, f x = .error e ∨ ∃ y, f x = .ok y)
    (h2 : ∃ x ∈ l, f x = .error e) : l.mapM f = .error e := by
  induction l with
  | nil => obtain ⟨x, hx, _⟩ := h2; cases hx
  | cons a l ih =>
    rw [List.mapM_cons]
    rcases h a (List.mem_cons_self ..) with ha | ⟨y, ha⟩
    · rw [ha]; rfl
    · obtain ⟨x, hx, hxe⟩ := h2
      have : x ∈ l := by
        rcases List.mem_cons.1 hx with rfl | h'
        · rw [ha] at hxe; cases hxe
        · exact h'
      rw [ha, ih (fun z hz => h z (List.mem_cons_of_mem _ hz)) ⟨x, this, hxe⟩]
      rfl

/-- An entry that is read at place `i` of the log. -/
theorem read_at {W : World} (hfl : W.cfg.fl = id) (h1 : W.cfg.logInterval = 1) (hdt : 0 < W.dt) {v : VehId}
    {i : ℕ} {r r' : LogRow} (ht : r.t = i * W.dt) (hi : (W.V.log v).reverse[i]? = some r') :
    (W.getXyAt v r.t).map (fun p => gpsRow r.t p r.v) = .ok (ownRow W { r' with t := r.t, v := r.v }) := by
  rw [ht, getXyAt_step hfl h1 hdt, hi]
  unfold ownRow
  dsimp only
  cases r'.link with
  | none => rfl
  | some l => rfl

theorem gpsOf_own {W : World} (hfl : W.cfg.fl = id) (h1 : W.cfg.logInterval = 1) (hdt : 0 < W.dt) {v : VehId} {n : ℕ}
    (ht : W.logTimes v = W.stepTimes 0 n) : W.gpsOf v = .ok ((W.V.log v).reverse.filterMap (ownRow W)) := by
  have key : ∀ r ∈ (W.V.log v).reverse, (W.getXyAt v r.t).map (fun p => gpsRow r.t p r.v) = .ok (ownRow W r) := by
    intro r hr
    obtain ⟨i, hi⟩ := List.mem_iff_getElem?.1 hr
    have e : r.t = i * W.dt := by
      have h2 : (W.logTimes v)[i]? = some r.t := by unfold logTimes; rw [List.getElem?_map, hi]; rfl
      rw [ht] at h2
      exact stepTimes_get hfl h2
    exact read_at hfl h1 hdt e hi
  unfold World.gpsOf
  rw [gpsMap_ok key]
  show Except.ok _ = _
  congr 1
  rw [List.reduceOption, List.filterMap_map]
  rfl

/-- The settings of a history. -/
theorem gps_settings {W0 W : World} (h : Reachable Any W0) (hs : ReflTransGen ApiStep W0 W)
    (h1 : W0.cfg.logInterval = 1) (hfl : W0.cfg.fl = id) (hdt : 0 < W0.dt) {v : VehId} (hv : v < W0.nVeh) :
    W.cfg.fl = id ∧ W.cfg.logInterval = 1 ∧ 0 < W.dt := by
  obtain ⟨_, _, hc, _⟩ := log_history h hs h1 hv
  refine ⟨by rw [hc]; exact hfl, by rw [hc]; exact h1, ?_⟩
  unfold World.dt at hdt ⊢
  rw [hc]; exact hdt

/-- **C125.** The rows of a vehicle that was there before the first time step and is still living: what its log
entries say about where it was, in order. -/
theorem C125_living {W0 W : World} (h : Reachable Any W0) (hT : W0.T = 0) (hs : ReflTransGen ApiStep W0 W)
    (h1 : W0.cfg.logInterval = 1) (hfl : W0.cfg.fl = id) (hdt : 0 < W0.dt) {v : VehId} (hv : v < W0.nVeh)
    (hl : v ∈ W.living) : ∃ gs, W.gpsOf v = .ok gs ∧ Tells W (W.V.log v).reverse gs := by
  obtain ⟨a, b, c⟩ := gps_settings h hs h1 hfl hdt hv
  exact ⟨_, gpsOf_own a b c ((C49_rows h hT hs h1 hv).1 hl), tells_own a _⟩

/-! Entries that were not made on the road are blank. -/

/-- Blank entries. -/
def Blank (W : World) : Prop := ∀ v, ∀ r ∈ W.V.log v, r.state ≠ .run → r.link = none ∧ r.v = -1

theorem Blank.congr {W W' : World} (h : Blank W) (e : W'.V.log = W.V.log) : Blank W' := by
  unfold Blank; rw [e]; exact h

theorem Blank.recordLog {W : World} (h : Blank W) (v : VehId) (e : Bool) : Blank (W.recordLog v e) := by
  obtain ⟨lg, s, c, hsh, hlog⟩ := recordLog_shape W v e
  have g : (W.recordLog v e).V.log = lg := by rw [hsh]
  intro w r hr hn
  rw [g, hlog] at hr
  split at hr
  · rw [upd_apply] at hr
    split at hr
    · rename_i hw
      subst hw
      rcases List.mem_cons.1 hr with rfl | hr
      · unfold World.logRow at hn ⊢
        split
        · rename_i hs; rw [if_pos hs] at hn; exact absurd rfl hn
        · exact ⟨rfl, rfl⟩
      · exact h _ r hr hn
    · exact h _ r hr hn
  · exact h _ r hr hn

theorem Blank.prim {W W' : World} {a : Act} (hc : Core W) (hp : Prim a W W') (h : Blank W) : Blank W' := by
  by_cases hrec : ∃ v, a = .record v
  · obtain ⟨v, rfl⟩ := hrec
    cases hp with
    | record hv => exact h.recordLog v false
  by_cases hend : ∃ v l, a = .endTrip v l
  · obtain ⟨v, l, rfl⟩ := hend
    cases hp with
    | endTrip hl hvs hfl he =>
      obtain ⟨l, _, _, _, _, hv, rfl⟩ := endTrip_ok he
      have : Blank (W.endTripCore v l) := h.congr rfl
      exact this.recordLog v true
  have hsh := hp.shape hc.s
  clear hp
  cases hsh with
  | record => exact absurd ⟨_, rfl⟩ hrec
  | endTrip => exact absurd ⟨_, _, rfl⟩ hend
  | _ => exact h.congr rfl

theorem Blank.reach {W : World} (h : Reachable Any W) : Blank W := by
  refine Reachable.induct (P := Blank) ?_ ?_ ?_ ?_ ?_ ?_ ?_ ?_ h
  · intro cfg tmax rng v r hr; cases hr
  · intro W a ph t soff hi hf hn _ _ hP; exact hP.congr rfl
  · intro W W' a hi hf ha _ _ hP
    obtain ⟨s, e, nm, k, p, -, -, -, -, -, -, rfl⟩ := addLink_ok ha
    exact hP.congr rfl
  · intro W W' a hi ha _ _ hP
    obtain ⟨o, d, dep, pref, cache, lp, la, nm, -, -, -, -, -, -, -, -, rfl⟩ := addVehicle_ok ha
    intro v r hr hn
    have hr : r ∈ upd W.V.log W.nVeh [] v := hr
    rw [upd_apply] at hr
    split at hr
    · cases hr
    · exact hP v r hr hn
  · intro W tm hi hf _ _ hP
    obtain ⟨ts, tta, fc, fr, la, hr⟩ := finalize_frame W tm
    rw [hr]; exact hP.congr rfl
  · rintro W W' hi _ _ hs hP
    obtain ⟨_, _, _, _, _, _, _, rfl, _⟩ := hs
    exact hP.congr rfl
  · rintro W W' hi _ _ hs hP
    obtain ⟨_, _, _, _, _, _, _, _, _, _, _, _, _, _, _, _, _, _, _, rfl, _⟩ := hs
    exact hP.congr rfl
  · intro W W1 W' hi hf hlt _ _ h1 hW hP
    subst hW
    refine (step_prim (P := fun X => Blank X) hi hf ?_ ?_ h1 hP)
    · intro act A B hc hp hA; exact hA.prim hc hp
    · intro A t k _ hA; exact hA.congr rfl

/-- **C125.** The rows of a vehicle that is gone: what its log entries before the last one say, in order. If the last
two entries are of the same time, there is one more row for this time: the place of the entry before the last one,
with the speed `-1`. -/
theorem C125_done {W0 W : World} (h : Reachable Any W0) (hT : W0.T = 0) (hs : ReflTransGen ApiStep W0 W)
    (h1 : W0.cfg.logInterval = 1) (hfl : W0.cfg.fl = id) (hdt : 0 < W0.dt) {v : VehId} (hv : v < W0.nVeh)
    (hl : v ∉ W.living) : ∃ e rs gs more, W.V.log v = e :: rs ∧ (e.state = .ended ∨ e.state = .abort) ∧
      W.gpsOf v = .ok (gs ++ more) ∧ Tells W rs.reverse gs ∧
      ((∀ r, rs.head? = some r → r.t ≠ e.t) → more = []) ∧
      (∀ r, rs.head? = some r → r.t = e.t → Tells W [{ r with v := -1 }] more) := by
  obtain ⟨a, b, c⟩ := gps_settings h hs h1 hfl hdt hv
  have hW : Reachable Any W := (log_history h hs h1 hv).1
  obtain ⟨k, e, rs, hk, hlog, hst, ht⟩ := (C49_rows h hT hs h1 hv).2 hl
  obtain ⟨b1, b2⟩ := Blank.reach hW v e (by rw [hlog]; exact List.mem_cons_self ..)
    (by rcases hst with h | h <;> rw [h] <;> decide)
  have hsplit : (W.V.log v).reverse = rs.reverse ++ [e] := by rw [hlog, List.reverse_cons]
  have hlt : W.logTimes v = rs.reverse.map (·.t) ++ [e.t] := by unfold logTimes; rw [hsplit]; simp
  have hlast : ∀ n, W.stepTimes 0 (n + 1) = W.stepTimes 0 n ++ [(n : ℚ) * W.dt] := by
    intro n
    rw [stepTimes_succ _ _ _ (Nat.zero_le _), a]
    rfl
  have hlen : ∀ n, (W.stepTimes 0 n).length = n := by intro n; simp [stepTimes]
  rcases ht with ht | ht
  · -- the last entry is the one of its time step
    refine ⟨e, rs, rs.reverse.filterMap (ownRow W), [], hlog, hst, ?_, tells_own a _, fun _ => rfl, ?_⟩
    · rw [gpsOf_own a b c ht, hsplit, List.filterMap_append]
      simp [ownRow, b1]
    · intro r hr he
      exfalso
      rw [hlt, hlast] at ht
      obtain ⟨h2, h3⟩ := List.append_inj' ht rfl
      have hr' : rs.reverse.getLast? = some r := by rw [List.getLast?_reverse]; exact hr
      cases k with
      | zero =>
        have : rs.reverse.map (·.t) = [] := h2
        rw [List.map_eq_nil_iff] at this
        rw [this] at hr'; cases hr'
      | succ n =>
        rw [hlast] at h2
        have h4 : (rs.reverse.map (·.t)).getLast? = some r.t := by rw [List.getLast?_map, hr']; rfl
        rw [h2] at h4
        simp only [List.getLast?_concat, Option.some.injEq] at h4
        have h5 : e.t = ((n + 1 : ℕ) : ℚ) * W.dt := by simpa using h3
        rw [← he, ← h4] at h5
        have := mul_right_cancel₀ c.ne' h5
        push_cast at this
        linarith
  · rw [hlt] at ht
    obtain ⟨h2, h3⟩ := List.append_inj' ht rfl
    have h3 : e.t = (k : ℚ) * W.dt := by
      have : e.t = W.cfg.fl ((k : ℚ) * W.cfg.deltat) := by simpa using h3
      rw [this, a]; rfl
    have hn : rs.length = k + 1 := by
      have := congrArg List.length h2
      rw [hlen] at this
      simpa using this
    obtain ⟨r, rs', rfl⟩ : ∃ r rs', rs = r :: rs' := by
      cases rs with
      | nil => cases hn
      | cons r rs' => exact ⟨r, rs', rfl⟩
    have hat : (W.V.log v).reverse[k]? = some r := by
      rw [hsplit, List.reverse_cons, List.getElem?_append_left (by simp at hn ⊢; omega),
        List.getElem?_append_right (by simp at hn ⊢; omega)]
      have : k - rs'.reverse.length = 0 := by simp at hn ⊢; omega
      rw [this]; rfl
    have hkey : ∀ x ∈ (W.V.log v).reverse.dropLast, (W.getXyAt v x.t).map (fun p => gpsRow x.t p x.v) =
        .ok (ownRow W x) := by
      rw [hsplit, List.dropLast_concat]
      intro x hx
      obtain ⟨i, hi⟩ := List.mem_iff_getElem?.1 hx
      have hil : i < (r :: rs').reverse.length := by
        by_contra hcon
        rw [List.getElem?_eq_none (by omega)] at hi
        cases hi
      have e' : x.t = i * W.dt := by
        have h4 : ((r :: rs').reverse.map (·.t))[i]? = some x.t := by rw [List.getElem?_map, hi]; rfl
        rw [h2] at h4
        exact stepTimes_get a h4
      refine read_at a b c e' ?_
      rw [hsplit, List.getElem?_append_left hil]
      exact hi
    have hrt : r.t = e.t := by
      have h4 : ((r :: rs').reverse.map (·.t)).getLast? = some r.t := by simp
      rw [h2, hlast] at h4
      simp only [List.getLast?_concat, Option.some.injEq] at h4
      rw [← h4, h3]
    refine ⟨e, r :: rs', (r :: rs').reverse.filterMap (ownRow W), [{ r with v := -1 }].filterMap (ownRow W), hlog, hst,
      ?_, tells_own a _, fun hne => absurd hrt (hne r rfl), fun r' hr' _ => ?_⟩
    · unfold World.gpsOf
      rw [hsplit] at hkey ⊢
      rw [List.dropLast_concat] at hkey
      have h5 := read_at a b c (r := e) h3 hat
      rw [b2, ← hrt] at h5
      rw [List.mapM_append, gpsMap_ok hkey, List.mapM_cons, List.mapM_nil, b2, ← hrt, h5]
      show Except.ok _ = _
      congr 1
      rw [List.reduceOption, List.filterMap_append, List.filterMap_map]
      rfl
    · cases hr'
      exact tells_own a _

/-- **C125.** Where the rows of every vehicle can be made, the table has them vehicle by vehicle. -/
theorem C125_table {W : World} {f : VehId → List GpsRow} (h : ∀ v, v < W.nVeh → W.gpsOf v = .ok (f v)) :
    W.gpsLog = .ok ((List.range W.nVeh).flatMap (fun v => (f v).map (fun r => (v, r)))) := by
  unfold World.gpsLog
  rw [gpsMap_ok (g := fun v => (f v).map (fun r => (v, r))) (fun v hv => by rw [h v (List.mem_range.1 hv)]; rfl)]
  show Except.ok _ = _
  rw [List.flatMap_def]

/-- Errors while making the table are index errors. -/
theorem gpsOf_cases (W : World) (v : VehId) : W.gpsOf v = .error .indexError ∨ ∃ gs, W.gpsOf v = .ok gs := by
  have key : ∀ r ∈ (W.V.log v).reverse, (W.getXyAt v r.t).map (fun p => gpsRow r.t p r.v) = .error .indexError ∨
      ∃ y, (W.getXyAt v r.t).map (fun p => gpsRow r.t p r.v) = .ok y := by
    intro r _
    unfold getXyAt
    split
    · exact .inl rfl
    · split <;> exact .inr ⟨_, rfl⟩
  by_cases he : ∃ r ∈ (W.V.log v).reverse, (W.getXyAt v r.t).map (fun p => gpsRow r.t p r.v) = .error .indexError
  · left
    unfold World.gpsOf
    rw [gpsMap_err key he]; rfl
  · right
    push Not at he
    have : ∀ r, ∃ y, r ∈ (W.V.log v).reverse → (W.getXyAt v r.t).map (fun p => gpsRow r.t p r.v) = .ok y := by
      intro r
      by_cases hr : r ∈ (W.V.log v).reverse
      · obtain ⟨y, hy⟩ := (key r hr).resolve_left (he r hr)
        exact ⟨y, fun _ => hy⟩
      · exact ⟨none, fun h => absurd h hr⟩
    choose g hg using this
    unfold World.gpsOf
    rw [gpsMap_ok (g := g) hg]
    exact ⟨_, rfl⟩

/-- **C125** fails once vehicles are added during the simulation: with one such vehicle that has made a step and is
living, no table can be made at all. -/
theorem C125_late_false {W1 W0 W : World} (h : Reachable Any W1) (hT : 0 < W1.T) {a : VehArgs}
    (ha : W1.addVehicle a = .ok W0) (hs : ReflTransGen ApiStep W0 W) (h1 : W1.cfg.logInterval = 1)
    (hfl : W1.cfg.fl = id) (hdt : 0 < W1.dt) (hl : W1.nVeh ∈ W.living) (hlt : W1.T < W.T) :
    W.gpsOf W1.nVeh = .error .indexError ∧ W.gpsLog = .error .indexError := by
  have hst : ApiStep W1 W0 := .addVehicle ha
  have h0 : Reachable Any W0 := .next h hst trivial
  have hc0 : W0.cfg = W1.cfg := hst.cfg h.inv
  obtain ⟨n0, T0, l0⟩ : W0.nVeh = W1.nVeh + 1 ∧ W0.T = W1.T ∧ W0.V.log W1.nVeh = [] := by
    obtain ⟨o, d, dep, pref, cache, lp, la, nm, -, -, -, -, -, -, -, -, rfl⟩ := addVehicle_ok ha
    exact ⟨rfl, rfl, upd_same ..⟩
  have hv : W1.nVeh < W0.nVeh := by rw [n0]; exact Nat.lt_succ_self _
  obtain ⟨fl, li, dt⟩ := gps_settings h0 hs (by rw [hc0]; exact h1) (by rw [hc0]; exact hfl)
    (by unfold World.dt at hdt ⊢; rw [hc0]; exact hdt) hv
  have key : W1.T ≤ W.T ∧ (W1.nVeh ∈ W.living → W.logTimes W1.nVeh = W.stepTimes W1.T W.T) := by
    clear hl hlt fl li dt
    induction hs with
    | refl => exact ⟨T0.ge, fun _ => by simp [logTimes, stepTimes, l0, T0]⟩
    | @tail A B hp hs ih =>
      obtain ⟨hr, hvA, hcfg, -⟩ := log_history h0 hp (by rw [hc0]; exact h1) hv
      have hcB := hs.cfg hr.inv
      have hst : ∀ a b, B.stepTimes a b = A.stepTimes a b := by
        intro a b; unfold stepTimes; rw [hcB]
      simp only [hst]
      rcases hs.log hr hvA with ⟨hl, hm, hTB⟩ | ⟨hf, ht, hTB⟩
      · have : B.logTimes W1.nVeh = A.logTimes W1.nVeh := by unfold logTimes; rw [hl]
        rw [this, hTB, hm]; exact ih
      · have htl := tick_log (v := W1.nVeh) hr.inv hf (by rw [hcfg, hc0]; exact h1) ht
        refine ⟨by omega, fun hm => ?_⟩
        obtain ⟨hA, r, hr, ht, _⟩ := htl.alive hm
        have hnow : A.now = A.cfg.fl ((A.T : ℚ) * A.cfg.deltat) := rfl
        rw [hTB, stepTimes_succ _ _ _ ih.1, ← ih.2 hA, ← hnow, ← ht]
        unfold logTimes; rw [hr]; simp
  have ht := key.2 hl
  obtain ⟨n, hn⟩ : ∃ n, W.T = n + 1 := ⟨W.T - 1, by omega⟩
  rw [hn, stepTimes_succ _ _ _ (by omega), fl] at ht
  have hlen : (W.V.log W1.nVeh).reverse.length = n + 1 - W1.T := by
    have := congrArg List.length ht
    simp [logTimes, stepTimes] at this ⊢
    omega
  obtain ⟨r, hr, hrt⟩ : ∃ r ∈ (W.V.log W1.nVeh).reverse, r.t = n * W.dt := by
    have : (n : ℚ) * W.dt ∈ W.logTimes W1.nVeh := by
      rw [ht]; exact List.mem_append_right _ (List.mem_singleton.2 rfl)
    unfold logTimes at this
    obtain ⟨r, hr, he⟩ := List.mem_map.1 this
    exact ⟨r, hr, he⟩
  have hbad : W.gpsOf W1.nVeh = .error .indexError := by
    rcases gpsOf_cases W W1.nVeh with h | ⟨gs, hgs⟩
    · exact h
    · exfalso
      have hx : W.getXyAt W1.nVeh r.t = .error .indexError := by
        rw [hrt, getXyAt_step fl li dt, List.getElem?_eq_none (by rw [hlen]; omega)]
      have he : W.gpsOf W1.nVeh = .error .indexError := by
        unfold World.gpsOf
        rw [gpsMap_err (e := .indexError) (fun r _ => ?_) ⟨r, hr, by rw [hx]; rfl⟩]
        · rfl
        · unfold getXyAt
          split
          · exact .inl rfl
          · split <;> exact .inr ⟨_, rfl⟩
      rw [he] at hgs; cases hgs
  refine ⟨hbad, ?_⟩
  unfold World.gpsLog
  have hm : W1.nVeh ∈ List.range W.nVeh :=
    List.mem_range.2 (log_history h0 hs (by rw [hc0]; exact h1) hv).2.1
  rw [gpsMap_err (e := .indexError) (fun v _ => ?_) ⟨W1.nVeh, hm, by rw [hbad]; rfl⟩]
  · rfl
  · rcases gpsOf_cases W v with h | ⟨gs, hgs⟩
    · left; rw [h]; rfl
    · right; rw [hgs]; exact ⟨_, rfl⟩

set_option maxRecDepth 100000 in
/-- A concrete case, and a row that should not be there: the vehicle of `demoLog` drives 4 steps, its last two rows are
for the same time and place and the second one shows the speed `-1`, although no entry of its log on the road does. -/
theorem C125_extra_false : ∃ W0 W : World, Reachable Any W0 ∧ W0.T = 0 ∧ ReflTransGen ApiStep W0 W ∧
    W0.cfg.logInterval = 1 ∧ W0.cfg.fl = id ∧ 0 < W0.dt ∧ 0 < W0.nVeh ∧ 0 ∉ W.living ∧
    (∀ r ∈ W.V.log 0, r.link ≠ none → 0 ≤ r.v) ∧
    W.gpsOf 0 = .ok [⟨5, 0, 0, 20⟩, ⟨10, 0, 0, 20⟩, ⟨15, 0, 0, 20⟩, ⟨20, 3 / 2, 2, 20⟩, ⟨20, 3 / 2, 2, -1⟩] := by
  have hd : obs (runCmds demoCfg (fun _ => 0) (demoLog 8)) (fun W => decide (0 ∉ W.living) &&
      decide (∀ r ∈ W.V.log 0, r.link ≠ none → 0 ≤ r.v) &&
      obs (W.gpsOf 0) (fun g => decide (g = [⟨5, 0, 0, 20⟩, ⟨10, 0, 0, 20⟩, ⟨15, 0, 0, 20⟩, ⟨20, 3 / 2, 2, 20⟩,
        ⟨20, 3 / 2, 2, -1⟩]))) = true := by decide +kernel
  obtain ⟨W, hW, hp⟩ := obs_ok hd
  rw [Bool.and_eq_true, Bool.and_eq_true] at hp
  obtain ⟨⟨p1, p2⟩, p3⟩ := hp
  obtain ⟨g, hg, p3⟩ := obs_ok p3
  have h0 : obs (runCmds demoCfg (fun _ => 0) (demoLog 0)) (fun W => decide (W.T = 0) &&
      decide (0 < W.nVeh)) = true := by decide +kernel
  obtain ⟨W0, hW0, hp0⟩ := obs_ok h0
  simp only [Bool.and_eq_true, decide_eq_true_eq] at hp0
  obtain ⟨W0', e1, hpath⟩ := runCmds_path (demoLog 0) (List.replicate 8 .tick) hW
  have : W0' = W0 := by rw [hW0] at e1; cases e1; rfl
  subst this
  have hc : W0'.cfg = demoCfg := runCmds_cfg hW0
  have hdt : W0'.dt = 5 := by unfold World.dt; rw [hc]; decide +kernel
  refine ⟨W0', W, runCmds_reachable hW0, hp0.1, hpath, by rw [hc]; rfl, by rw [hc]; rfl, by rw [hdt]; norm_num, hp0.2,
    of_decide_eq_true p1, of_decide_eq_true p2, ?_⟩
  rw [hg, of_decide_eq_true p3]

set_option maxRecDepth 100000 in
/-- A concrete case of `C125_late_false`: a vehicle added after four steps. -/
theorem C125_late_case : ∃ W1 W0 W a, Reachable Any W1 ∧ 0 < W1.T ∧ W1.addVehicle a = .ok W0 ∧
    ReflTransGen ApiStep W0 W ∧ W1.cfg.logInterval = 1 ∧ W1.cfg.fl = id ∧ 0 < W1.dt ∧ W1.nVeh ∈ W.living ∧
    W1.T < W.T := by
  have hd : obs (runCmds demoCfg (fun _ => 0) (demoLog 4)) (fun W1 => decide (W1.T = 4) && decide (W1.nVeh = 1) &&
      obs (W1.addVehicle { orig := .obj 0, dest := some (.obj 2), dep := .step 4 }) (fun W0 =>
        obs ([Cmd.tick, .tick].foldlM Cmd.run W0) (fun W => decide (1 ∈ W.living) && decide (W.T = 6)))) = true := by
    decide +kernel
  obtain ⟨W1, hW1, hp⟩ := obs_ok hd
  rw [Bool.and_eq_true, Bool.and_eq_true] at hp
  obtain ⟨⟨p1, p2⟩, p3⟩ := hp
  obtain ⟨W0, hW0, p3⟩ := obs_ok p3
  obtain ⟨W, hW, p3⟩ := obs_ok p3
  simp only [Bool.and_eq_true, decide_eq_true_eq] at p1 p2 p3
  have hc : W1.cfg = demoCfg := runCmds_cfg hW1
  have hdt : W1.dt = 5 := by unfold World.dt; rw [hc]; decide +kernel
  refine ⟨W1, W0, W, _, runCmds_reachable hW1, by omega, hW0, ?_, by rw [hc]; rfl, by rw [hc]; rfl,
    by rw [hdt]; norm_num, by rw [p2]; exact p3.1, by omega⟩
  exact foldlM_inv (P := fun X => ReflTransGen ApiStep W0 X)
    (fun _ _ _ _ hr hc => hr.tail (Cmd.run_api hc)) .refl hW

/-! ## C++ mode -/

namespace Cpp
open CWorld Spec

/-- **C125.** In the C++ mode there is a row for every log entry, on the road or not, and all rows of a vehicle show
the same place. -/
theorem C125_cpp_still {W : Wrap} {xy : ℕ → ℚ × ℚ} {v : ℕ} {L : WLog} (hL : W.log v = some L) :
    ∃ p : ℚ × ℚ, W.gpsOf xy v = if p = (-1, -1) then [] else L.rows.map (fun r => ⟨r.t, p.1, p.2, r.v⟩) := by
  refine ⟨W.c.xyNow xy v, ?_⟩
  unfold Wrap.gpsOf gpsRow
  rw [hL]
  dsimp only
  split
  · simp
  · exact congrFun List.filterMap_eq_map _

/-- **C125.** In the C++ mode the place of all rows of a vehicle is where it is now, if it is on a link, and
otherwise its origin, also when it has arrived. -/
theorem C125_cpp_place {W : Wrap} (h : WReach NotNumber W) (hfl : W.c.g.fl = id) {xy : ℕ → ℚ × ℚ} {v : ℕ}
    (hv : v < W.c.g.nVehs) {g : GpsRow} (hg : g ∈ W.gpsOf xy v) :
    ((W.c.veh v).state ≠ .run → (g.x, g.y) = xy (W.c.veh v).orig) ∧
    ((W.c.veh v).state = .run → ∃ l, (W.c.veh v).link = some l ∧ (0 < (W.c.link l).len →
      (g.x, g.y) = pointAt (xy (W.c.link l).src).1 (xy (W.c.link l).src).2 (xy (W.c.link l).dst).1
        (xy (W.c.link l).dst).2 ((W.c.veh v).x / (W.c.link l).len))) := by
  have hp : (g.x, g.y) = W.c.xyNow xy v := by
    unfold Wrap.gpsOf gpsRow at hg
    split at hg
    · cases hg
    · obtain ⟨r, _, hr⟩ := List.mem_filterMap.1 hg
      split at hr
      · cases hr
      · cases hr; rfl
  have i := h.inv.clean.toReach.rest.inv
  rw [hp]
  refine ⟨fun hs => ?_, fun hs => ?_⟩
  · unfold CWorld.xyNow
    rw [i.idle v hv hs]
  · rcases i.run v hv hs with h1 | ⟨l, hl⟩
    · cases h1
    · obtain ⟨e, _⟩ := i.mem l v hl
      refine ⟨l, e, fun hpos => ?_⟩
      unfold CWorld.xyNow pointAt
      rw [e]
      simp only [hfl, id, if_pos hpos]
      congr 1 <;> ring

/-- **C125** fails in the C++ mode: the vehicle drove along two links, its log knows where it was, and every row of
the table shows its origin. -/
theorem C125_cpp_false : ∃ (W : Wrap) (L : WLog), WReach NotNumber W ∧ W.c.g.fl = id ∧ (W.c.veh 1).state = .ended ∧
    W.log 1 = some L ∧ (L.rows.filter (fun r => decide (r.link ≠ none))).map (fun r => (r.link, r.t)) =
      [(some 0, 10), (some 0, 15), (some 0, 20), (some 0, 25), (some 1, 30), (some 1, 35), (some 1, 40)] ∧
    W.gpsOf (fun n => (n, 2 * n)) 1 = [⟨0, 0, 0, -1⟩, ⟨5, 0, 0, -1⟩, ⟨10, 0, 0, 20⟩, ⟨15, 0, 0, 15⟩, ⟨20, 0, 0, 20⟩,
      ⟨25, 0, 0, 20⟩, ⟨30, 0, 0, 20⟩, ⟨35, 0, 0, 20⟩, ⟨40, 0, 0, 20⟩, ⟨40, 0, 0, -1⟩] := by
  have hn : ∀ c ∈ wDemo ++ [WCmd.exec .toEnd], c.Named NotNumber := by
    intro c hc
    rcases List.mem_append.1 hc with h | h
    · exact wDemo_named c h
    · rw [List.mem_singleton.1 h]; trivial
  have h : wObs (wRun (wNew id 100 5 1) (wDemo ++ [.exec .toEnd])) (fun W => decide ((W.c.veh 1).state = .ended) &&
      (match W.log 1 with
        | some L => decide ((L.rows.filter (fun r => decide (r.link ≠ none))).map (fun r => (r.link, r.t)) =
            [(some 0, 10), (some 0, 15), (some 0, 20), (some 0, 25), (some 1, 30), (some 1, 35), (some 1, 40)])
        | none => false) &&
      decide (W.gpsOf (fun n => (n, 2 * n)) 1 = [⟨0, 0, 0, -1⟩, ⟨5, 0, 0, -1⟩, ⟨10, 0, 0, 20⟩, ⟨15, 0, 0, 15⟩,
        ⟨20, 0, 0, 20⟩, ⟨25, 0, 0, 20⟩, ⟨30, 0, 0, 20⟩, ⟨35, 0, 0, 20⟩, ⟨40, 0, 0, 20⟩, ⟨40, 0, 0, -1⟩])) = true := by
    decide +kernel
  obtain ⟨W, e, h1⟩ := wObs_ok h
  have r := wRun_reach (wNew_reach NotNumber id 100 5 1) hn e
  rw [Bool.and_eq_true, Bool.and_eq_true] at h1
  obtain ⟨⟨a1, a2⟩, a3⟩ := h1
  split at a2
  · rename_i L hL
    exact ⟨W, L, r, (wRun_fl (wNew_reach _ _ _ _ _) hn e).trans rfl, of_decide_eq_true a1, hL, of_decide_eq_true a2,
      of_decide_eq_true a3⟩
  · cases a2

end Cpp
end UX
