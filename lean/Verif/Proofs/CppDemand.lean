import Verif.Spec.CppDemand
import Verif.Proofs.CppWrap
import Verif.Proofs.Demand
import Verif.Props.Demand
import Verif.Props.CppWrap

/-!
# Lemmas for the demand functions of the C++ mode (C120)
-/

namespace UX.Cpp
open Spec Relation

/-- One vehicle for each trip. -/
def addTrips (c : CWorld) (ts : List Trip) : CWorld :=
  ts.foldl (fun c t => c.addVehicle (t.step * c.g.deltaT) t.orig t.dest []) c

theorem addTrips_append (c : CWorld) (xs ys : List Trip) : addTrips c (xs ++ ys) = addTrips (addTrips c xs) ys := by
  unfold addTrips; rw [List.foldl_append]

theorem addTrips_same (c : CWorld) (ts : List Trip) : (addTrips c ts).g.fl = c.g.fl ∧
    (addTrips c ts).g.deltaT = c.g.deltaT ∧ (addTrips c ts).g.deltaN = c.g.deltaN ∧
    (addTrips c ts).g.nNodes = c.g.nNodes ∧ (addTrips c ts).node = c.node ∧ (addTrips c ts).link = c.link ∧
    (addTrips c ts).g.nVehs = c.g.nVehs + ts.length := by
  induction ts generalizing c with
  | nil => exact ⟨rfl, rfl, rfl, rfl, rfl, rfl, rfl⟩
  | cons t ts ih =>
    obtain ⟨a, b, d, e, f, g, h⟩ := ih (c.addVehicle (t.step * c.g.deltaT) t.orig t.dest [])
    refine ⟨a, b, d, e, f, g, ?_⟩
    change (addTrips (c.addVehicle (t.step * c.g.deltaT) t.orig t.dest []) ts).g.nVehs = _
    rw [h]
    show c.g.nVehs + 1 + ts.length = c.g.nVehs + (ts.length + 1)
    omega

theorem addTrips_made (c : CWorld) (ts : List Trip) : CMade ts c (addTrips c ts) := by
  have key : ∀ (ts : List Trip) (c : CWorld), (∀ i < c.g.nVehs, (addTrips c ts).veh i = c.veh i) ∧
      ∀ j t, ts[j]? = some t →
        (addTrips c ts).veh (c.g.nVehs + j) = CWorld.newVeh (t.step * c.g.deltaT) t.orig t.dest [] := by
    intro ts
    induction ts with
    | nil => intro c; exact ⟨fun _ _ => rfl, fun j t h => by simp at h⟩
    | cons t ts ih =>
      intro c
      obtain ⟨a, b⟩ := ih (c.addVehicle (t.step * c.g.deltaT) t.orig t.dest [])
      refine ⟨fun i hi => ?_, fun j u hu => ?_⟩
      · have := a i (Nat.lt_succ_of_lt hi)
        refine this.trans ?_
        exact upd_ne _ _ (by omega)
      · cases j with
        | zero =>
          simp only [List.getElem?_cons_zero, Option.some.injEq] at hu
          subst hu
          refine (a c.g.nVehs (Nat.lt_succ_self _)).trans ?_
          exact upd_same ..
        | succ j =>
          have := b j u (by simpa using hu)
          rw [show c.g.nVehs + (j + 1) = (c.addVehicle (t.step * c.g.deltaT) t.orig t.dest []).g.nVehs + j from by
            show _ = c.g.nVehs + 1 + j; omega]
          exact this
  obtain ⟨_, _, _, _, hn, hl, hv⟩ := addTrips_same c ts
  obtain ⟨a, b⟩ := key ts c
  exact ⟨hv, a, fun j t h => by rw [b j t h]; exact ⟨rfl, rfl, rfl, rfl, rfl, rfl⟩, hl, hn⟩

/-! ### `add_demand` -/

theorem demandWhile_exact {o d : ℕ} {ts : ℤ} {k : ℕ} {c c' : CWorld} {x x' : ℚ} (hfl : c.g.fl = id)
    (hn : 0 < c.g.deltaN) (hx : 0 ≤ x) (h : CWorld.demandWhile o d [] ts k (c, x) = some (c', x')) :
    c' = addTrips c (List.replicate ⌊x / c.g.deltaN⌋.toNat ⟨o, d, ts⟩) ∧ x' = x - ⌊x / c.g.deltaN⌋ * c.g.deltaN := by
  induction k generalizing c x with
  | zero => simp [CWorld.demandWhile] at h
  | succ k ih =>
    unfold CWorld.demandWhile at h
    split at h
    · rename_i hc
      simp only [hfl, id] at h
      have h1 : 1 ≤ ⌊x / c.g.deltaN⌋ := by rw [Int.le_floor, le_div_iff₀ hn]; simpa using hc
      have e : ⌊(x - c.g.deltaN) / c.g.deltaN⌋ = ⌊x / c.g.deltaN⌋ - 1 := floor_sub_one _ _ (ne_of_gt hn)
      obtain ⟨a, b⟩ := ih (c := c.addVehicle (ts * c.g.deltaT) o d []) hfl hn (by linarith) h
      change c' = addTrips _ (List.replicate ⌊(x - c.g.deltaN) / c.g.deltaN⌋.toNat _) at a
      change x' = x - c.g.deltaN - ⌊(x - c.g.deltaN) / c.g.deltaN⌋ * c.g.deltaN at b
      rw [e] at a b
      refine ⟨?_, by rw [b]; push_cast; ring⟩
      rw [a, show ⌊x / c.g.deltaN⌋.toNat = (⌊x / c.g.deltaN⌋ - 1).toNat + 1 by omega, List.replicate_succ]
      rfl
    · rename_i hc
      simp only [Option.some.injEq, Prod.mk.injEq] at h
      have : ⌊x / c.g.deltaN⌋ = 0 := by
        rw [Int.floor_eq_zero_iff, Set.mem_Ico, div_lt_one hn]
        exact ⟨div_nonneg hx hn.le, lt_of_not_ge hc⟩
      rw [this, ← h.1, ← h.2]
      exact ⟨rfl, by simp⟩

theorem demandWhile_ends {o d : ℕ} {ts : ℤ} {k : ℕ} {c : CWorld} {x : ℚ} (hfl : c.g.fl = id) (hn : 0 < c.g.deltaN)
    (hk : x < k * c.g.deltaN) : ∃ p, CWorld.demandWhile o d [] ts (k + 1) (c, x) = some p := by
  induction k generalizing c x with
  | zero =>
    unfold CWorld.demandWhile
    rw [if_neg (by push_cast at hk; linarith)]
    exact ⟨_, rfl⟩
  | succ k ih =>
    unfold CWorld.demandWhile
    split
    · simp only [hfl, id]
      exact ih (c := c.addVehicle (ts * c.g.deltaT) o d []) hfl hn (by
        show x - c.g.deltaN < k * c.g.deltaN
        push_cast at hk; linarith)
    · exact ⟨_, rfl⟩

/-- Departure steps from step `i` on. -/
def depsFrom (q : ℚ) (a : ℤ) (i n : ℕ) : List ℤ :=
  (List.range' i n).flatMap (fun j => List.replicate (⌊((j + 1 : ℕ) : ℚ) * q⌋ - ⌊(j : ℚ) * q⌋).toNat (a + j))

theorem depsFrom_zero (q : ℚ) (a : ℤ) (n : ℕ) : depsFrom q a 0 n = depSteps q a n := by
  induction n with
  | zero => rfl
  | succ n ih =>
    unfold depsFrom at ih ⊢
    rw [List.range'_concat, List.flatMap_append, ih, depSteps]
    simp

theorem demandFor_exact {o d : ℕ} {flow : ℚ} {fuel n : ℕ} {a : ℤ} {i : ℕ} {c : CWorld} {p : CWorld × ℚ} {x : ℚ}
    (hfl : c.g.fl = id) (hn : 0 < c.g.deltaN) (hq : 0 ≤ flow * c.g.deltaT)
    (hx : x = (i * (flow * c.g.deltaT / c.g.deltaN) - ⌊i * (flow * c.g.deltaT / c.g.deltaN)⌋) * c.g.deltaN)
    (h : CWorld.demandFor o d [] flow fuel n (a + i) (c, x) = some p) :
    p.1 = addTrips c ((depsFrom (flow * c.g.deltaT / c.g.deltaN) a i n).map (fun t => ⟨o, d, t⟩)) := by
  induction n generalizing i c x with
  | zero =>
    simp only [CWorld.demandFor, Option.some.injEq] at h
    rw [← h]; rfl
  | succ n ih =>
    unfold CWorld.demandFor at h
    rw [Option.bind_eq_some_iff] at h
    obtain ⟨⟨c1, x1⟩, h1, h2⟩ := h
    simp only [hfl, id] at h1
    have hf0 : (0:ℚ) ≤ x := by
      rw [hx]; exact mul_nonneg (sub_nonneg.2 (Int.floor_le _)) hn.le
    obtain ⟨e1, e2⟩ := demandWhile_exact hfl hn (by linarith) h1
    set q := flow * c.g.deltaT / c.g.deltaN with hqdef
    have hdiv : (x + flow * c.g.deltaT) / c.g.deltaN = ((i + 1 : ℕ) : ℚ) * q - (⌊(i : ℚ) * q⌋ : ℤ) := by
      have hne : c.g.deltaN ≠ 0 := ne_of_gt hn
      have : flow * c.g.deltaT = q * c.g.deltaN := by rw [hqdef]; field_simp
      rw [hx, this, ← add_mul, mul_div_cancel_right₀ _ hne]
      push_cast; ring
    have hfloor : ⌊(x + flow * c.g.deltaT) / c.g.deltaN⌋ = ⌊((i + 1 : ℕ) : ℚ) * q⌋ - ⌊(i : ℚ) * q⌋ := by
      rw [hdiv, Int.floor_sub_intCast]
    rw [hfloor] at e1 e2
    obtain ⟨s1, s2, s3, _⟩ := addTrips_same c
      (List.replicate (⌊((i + 1 : ℕ) : ℚ) * q⌋ - ⌊(i : ℚ) * q⌋).toNat ⟨o, d, a + i⟩)
    rw [← e1] at s1 s2 s3
    have hq1 : flow * c1.g.deltaT / c1.g.deltaN = q := by rw [s2, s3]
    have := ih (i := i + 1) (c := c1) (x := x1) (s1.trans hfl) (by rw [s3]; exact hn) (by rw [s2]; exact hq) (by
      rw [hq1, s3, e2]
      have hne : c.g.deltaN ≠ 0 := ne_of_gt hn
      have hx2 : x + flow * c.g.deltaT = (((i + 1 : ℕ) : ℚ) * q - (⌊(i : ℚ) * q⌋ : ℤ)) * c.g.deltaN := by
        rw [← hdiv]; field_simp
      rw [hx2]; push_cast; ring) (by
      rw [show a + ((i + 1 : ℕ) : ℤ) = a + i + 1 by push_cast; ring]; exact h2)
    rw [this, hq1]
    conv_rhs => rw [depsFrom, List.range'_succ, List.flatMap_cons, List.map_append, List.map_replicate, addTrips_append,
      ← e1]
    rfl

theorem addDemand_exact {o d : ℕ} {t0 t1 flow : ℚ} {fuel : ℕ} {c c' : CWorld} (hfl : c.g.fl = id)
    (hn : 0 < c.g.deltaN) (hdt : 0 < c.g.deltaT) (hf : 0 ≤ flow) (h : c.addDemand o d t0 t1 flow [] fuel = some c') :
    ∃ deps, Spread (pyInt (t0 / c.g.deltaT)) (pyInt (t1 / c.g.deltaT)) (flow * c.g.deltaT / c.g.deltaN) deps ∧
      c' = addTrips c (deps.map (fun t => ⟨o, d, t⟩)) := by
  unfold CWorld.addDemand at h
  rw [Option.map_eq_some_iff] at h
  obtain ⟨p, h1, h2⟩ := h
  simp only [hfl, id] at h1
  set a := pyInt (t0 / c.g.deltaT)
  set b := pyInt (t1 / c.g.deltaT)
  have hq : 0 ≤ flow * c.g.deltaT / c.g.deltaN := div_nonneg (mul_nonneg hf hdt.le) hn.le
  have := demandFor_exact (i := 0) (a := a) hfl hn (mul_nonneg hf hdt.le) (x := 0) (by simp)
    (by simpa using h1)
  rw [depsFrom_zero] at this
  refine ⟨depSteps (flow * c.g.deltaT / c.g.deltaN) a (b - a).toNat, ?_, by rw [← h2, this]⟩
  rcases le_total a b with hab | hab
  · have := depSteps_spread hq a (b - a).toNat
    rwa [show a + ((b - a).toNat : ℤ) = b by omega] at this
  · rw [show (b - a).toNat = 0 by omega]
    refine ⟨by simp [depSteps], by simp [depSteps], fun k hk => ?_⟩
    obtain rfl : k = 0 := by omega
    simp [depSteps]

theorem demandFor_ends {o d : ℕ} {flow : ℚ} {k n : ℕ} {ts : ℤ} {c : CWorld} {x : ℚ} (hfl : c.g.fl = id)
    (hn : 0 < c.g.deltaN) (hq : 0 ≤ flow * c.g.deltaT) (hx : 0 ≤ x) (hx2 : x < c.g.deltaN)
    (hk : c.g.deltaN + flow * c.g.deltaT ≤ k * c.g.deltaN) :
    ∃ p, CWorld.demandFor o d [] flow (k + 1) n ts (c, x) = some p := by
  induction n generalizing ts c x with
  | zero => exact ⟨_, rfl⟩
  | succ n ih =>
    unfold CWorld.demandFor
    simp only [hfl, id]
    obtain ⟨⟨c1, x1⟩, h1⟩ := demandWhile_ends (o := o) (d := d) (ts := ts) (k := k) (x := x + flow * c.g.deltaT) hfl hn
      (by linarith)
    rw [h1]
    obtain ⟨e1, e2⟩ := demandWhile_exact hfl hn (by linarith) h1
    obtain ⟨s1, s2, s3, _⟩ := addTrips_same c
      (List.replicate ⌊(x + flow * c.g.deltaT) / c.g.deltaN⌋.toNat ⟨o, d, ts⟩)
    rw [← e1] at s1 s2 s3
    refine ih (c := c1) (s1.trans hfl) (by rw [s3]; exact hn) (by rw [s2]; exact hq) ?_ ?_ (by rw [s2, s3]; exact hk)
    · rw [e2]
      have := (le_div_iff₀ hn).1 (Int.floor_le ((x + flow * c.g.deltaT) / c.g.deltaN))
      linarith
    · rw [e2, s3]
      have := (div_lt_iff₀ hn).1 (Int.lt_floor_add_one ((x + flow * c.g.deltaT) / c.g.deltaN))
      linarith

theorem addDemand_ends {o d : ℕ} {t0 t1 flow : ℚ} {k : ℕ} {c : CWorld} (hfl : c.g.fl = id)
    (hn : 0 < c.g.deltaN) (hdt : 0 < c.g.deltaT) (hf : 0 ≤ flow)
    (hk : c.g.deltaN + flow * c.g.deltaT ≤ k * c.g.deltaN) :
    ∃ c', c.addDemand o d t0 t1 flow [] (k + 1) = some c' := by
  unfold CWorld.addDemand
  obtain ⟨p, hp⟩ := demandFor_ends (o := o) (d := d) (flow := flow) (k := k)
    (n := (pyInt (c.g.fl (t1 / c.g.deltaT)) - pyInt (c.g.fl (t0 / c.g.deltaT))).toNat)
    (ts := pyInt (c.g.fl (t0 / c.g.deltaT))) (c := c) (x := 0) hfl hn (mul_nonneg hf hdt.le) le_rfl hn hk
  exact ⟨p.1, by rw [hp]; rfl⟩

/-! ### The wrapper -/

/-- `D'` is `D` with the given trips, each with the given attribute. -/
structure Next (attr : Option String) (trips : List Trip) (D D' : DWrap) : Prop where
  good : Good D'
  c : D'.w.c = addTrips D.w.c trips
  attrs : D'.attrs = D.attrs ++ List.replicate trips.length attr
  path : ReflTransGen (WStep NotNumber) D.w D'.w

theorem Next.refl {D : DWrap} (h : Good D) (attr : Option String) : Next attr [] D D :=
  ⟨h, rfl, by simp, .refl⟩

theorem Next.trans {attr : Option String} {xs ys : List Trip} {A B C : DWrap} (h : Next attr xs A B)
    (k : Next attr ys B C) : Next attr (xs ++ ys) A C :=
  ⟨k.good, by rw [addTrips_append, ← h.c, k.c],
    by rw [k.attrs, h.attrs, List.length_append, List.replicate_add, List.append_assoc], h.path.trans k.path⟩

theorem WReach.path {OK : String → Prop} {W W' : Wrap} (h : WReach OK W) (p : ReflTransGen (WStep OK) W W') :
    WReach OK W' := by
  induction p with
  | refl => exact h
  | tail _ s ih => exact .step ih s

theorem good_of {D D' : DWrap} {trips : List Trip} (h : Good D) (hc : D'.w.c = addTrips D.w.c trips)
    (p : ReflTransGen (WStep NotNumber) D.w D'.w) (ha : D'.attrs.length = D.w.c.g.nVehs + trips.length) : Good D' := by
  obtain ⟨a, b, d, _, _, _, e⟩ := addTrips_same D.w.c trips
  exact ⟨h.reach.path p, by rw [hc, a]; exact h.fl, by rw [hc, b]; exact h.dt, by rw [hc, d]; exact h.dn,
    by rw [ha, hc, e]⟩

theorem dAddDemand_next {D D' : DWrap} {o d : ℕ} {t0 t1 flow volume r : ℚ} {attr : Option String} {fuel : ℕ} (h : Good D)
    (ho : o < D.w.c.g.nNodes) (hd : d < D.w.c.g.nNodes) (hw : t0 < t1) (hr : 0 ≤ flow ∧ volume ≤ 0 ∧ r = flow ∨
      0 < volume ∧ r = volume / (t1 - t0)) (e : D.addDemand o d t0 t1 flow volume attr fuel = .ok D') :
    ∃ deps, Spread (pyInt (t0 / D.w.c.g.deltaT)) (pyInt (t1 / D.w.c.g.deltaT)) (r * D.w.c.g.deltaT / D.w.c.g.deltaN)
      deps ∧ Next attr (deps.map (fun t => ⟨o, d, t⟩)) D D' := by
  unfold DWrap.addDemand at e
  extract_lets fl q at e
  have hfl : fl = id := h.fl
  split at e
  · cases e
  split at e
  · cases e
  rename_i c hc
  have hr2 : q = r ∧ 0 ≤ r := by
    rcases hr with ⟨h1, h2, rfl⟩ | ⟨h1, rfl⟩
    · exact ⟨if_neg (not_lt.2 h2), h1⟩
    · refine ⟨?_, div_nonneg h1.le (by linarith)⟩
      show (if 0 < volume then fl (volume / fl (t1 - t0)) else flow) = _
      rw [if_pos h1, hfl]; rfl
  rw [hr2.1] at hc
  obtain ⟨deps, hs, hc2⟩ := addDemand_exact h.fl h.dn h.dt hr2.2 hc
  have inv := h.reach.inv
  have ad := addDemand_adds ho hd hc
  obtain ⟨i1, hc3, _, _⟩ := inv.register ad
  have st : WStep NotNumber D.w (D.w.addDemand c) := .demand D.w c o d t0 t1 r fuel ho hd hc
  obtain ⟨_, _, _, _, _, _, hv⟩ := addTrips_same D.w.c (deps.map (fun t => ⟨o, d, t⟩))
  rw [← hc2] at hv
  have hlen : (D.w.addDemand c).names.length = D.w.c.g.nVehs + deps.length := by
    rw [i1.len, hc3, hv, List.length_map]
  have hreg : DWrap.register D.attrs (D.w.addDemand c).names.length = D.attrs ++ List.replicate deps.length none := by
    unfold DWrap.register
    rw [hlen, h.attrs, Nat.add_sub_cancel_left]
  refine ⟨deps, hs, ?_⟩
  have hattr : D'.attrs = D.attrs ++ List.replicate deps.length attr := by
    rw [← Except.ok.inj e]
    dsimp only
    rw [hreg]
    cases attr with
    | none => rfl
    | some a =>
      dsimp only
      apply List.ext_getElem (by simp)
      intro k h1 h2
      rw [List.getElem_mapIdx]
      simp only [List.length_mapIdx, List.length_append, List.length_replicate] at h1
      by_cases hk : k < D.attrs.length
      · rw [List.getElem_append_left hk, List.getElem_append_left hk, if_neg (by rw [← h.attrs]; omega)]
      · rw [if_pos (by rw [← h.attrs]; omega), List.getElem_append_right (by omega), List.getElem_replicate]
  have hw2 : D'.w = D.w.addDemand c := by rw [← Except.ok.inj e]
  have hcc : D'.w.c = addTrips D.w.c (deps.map (fun t => ⟨o, d, t⟩)) := by rw [hw2, hc3, hc2]
  have hp : ReflTransGen (WStep NotNumber) D.w D'.w := by rw [hw2]; exact .single st
  exact ⟨good_of h hcc hp (by rw [hattr]; simp [h.attrs]), hcc, by rw [hattr, List.length_map], hp⟩

theorem dAddVehicle_next {D : DWrap} {o d : ℕ} {t : ℚ} {attr : Option String} {fuel : ℕ} (h : Good D)
    (ho : o < D.w.c.g.nNodes) (hd : d < D.w.c.g.nNodes) (ht : 0 ≤ t) (hf : 2 ≤ fuel) :
    ∃ D', D.addVehicle t o d attr fuel = .ok D' ∧ Next attr [⟨o, d, ⌊t / D.w.c.g.deltaT⌋⟩] D D' := by
  obtain ⟨w, e1, e2, e3, _⟩ := C108_one h.reach h.fl h.dt h.dn ht (orig := o) (dest := d) (prefer := []) (name := none) hf
    (by simp)
  have hp : WStep NotNumber D.w w := .vehicle D.w w t o d [] none fuel ho hd (by simp) e1
  have hc : w.c = addTrips D.w.c [⟨o, d, ⌊t / D.w.c.g.deltaT⌋⟩] := e2
  have hreg : (DWrap.register D.attrs w.names.length).set D.w.c.g.nVehs attr = D.attrs ++ [attr] := by
    have hl := h.reach.inv.len
    unfold DWrap.register
    rw [e3, List.length_append, hl, h.attrs]
    simp [← h.attrs]
  refine ⟨⟨w, D.attrs ++ [attr]⟩, ?_, ?_⟩
  · unfold DWrap.addVehicle
    rw [e1]
    simp only [hreg]
  · exact ⟨good_of h hc (.single hp) (by simp [h.attrs]), hc, rfl, .single hp⟩

theorem Next.same {attr : Option String} {trips : List Trip} {D D' : DWrap} (h : Next attr trips D D') :
    D'.w.c.g.deltaT = D.w.c.g.deltaT ∧ D'.w.c.g.deltaN = D.w.c.g.deltaN ∧ D'.w.c.g.nNodes = D.w.c.g.nNodes := by
  obtain ⟨_, a, b, c, _⟩ := addTrips_same D.w.c trips
  rw [h.c]; exact ⟨a, b, c⟩

end UX.Cpp
