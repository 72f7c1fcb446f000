import Verif.Proofs.Taxi
import Verif.Spec.Taxi
import Verif.Props.Demo

/-!
# Trip requests (C39)
-/

namespace UX
open World

/-! ## Proofs about the handlers -/

/-- What a successful assignment changes. -/
theorem assignTaxi_effect {W W1 : World} {v r} (ha : W.assignTaxi v r = .ok W1) :
    r ∈ W.H.pending ∧ W1.H.pending = W.H.pending.erase r ∧ W1.H.departTime = W.H.departTime ∧
    W1.time = W.time ∧ W1.nVeh = W.nVeh ∧ W1.V.mode = W.V.mode ∧ W1.V.state = W.V.state ∧
    (∀ u, u ≠ v → W1.V.dest u = W.V.dest u) ∧ W1.V.dest v ≠ none ∧ W1.H.taxi r = some v ∧
    (∀ s, s ≠ r → W1.H.taxi s = W.H.taxi s) ∧ W1.H.orig = W.H.orig ∧ W1.V.link = W.V.link ∧
    W1.V.x = W.V.x ∧ W1.N = W.N ∧ W1.L = W.L := by
  unfold World.assignTaxi at ha
  split at ha
  · simp at ha
  · rename_i hr
    rw [bind_ok] at ha
    obtain ⟨W2, h1, ha⟩ := ha
    simp only [pure_ok] at ha
    obtain ⟨a1, a2, a3, a4, a5, a6, a7, a8, a9⟩ := TaxiInv.addDest_effect h1
    have hs : W2.V.state = W.V.state ∧ W2.V.link = W.V.link ∧ W2.V.x = W.V.x ∧ W2.N = W.N ∧ W2.L = W.L := by
      obtain ⟨_, dd, dl, pref, rfl⟩ := addDest_ok h1; exact ⟨rfl, rfl, rfl, rfl, rfl⟩
    subst ha
    refine ⟨by simpa using hr, ?_, ?_, a6, a5, a4, hs.1, fun u hu => (a7 u hu).1, a9, ?_, ?_, ?_,
      hs.2.1, hs.2.2.1, hs.2.2.2.1, hs.2.2.2.2⟩
    · simp only [setEvent, a2]
    · simp only [setEvent, a2]
    · simp only [setEvent, upd_same]
    · intro s hs; simp only [setEvent, a2]; rw [upd_ne _ _ hs]
    · simp only [setEvent, a2]

theorem mem_vacantTaxis {W : World} {v} : v ∈ W.vacantTaxis ↔ Vacant W v := by
  unfold vacantTaxis Vacant
  simp [List.mem_filter, and_assoc]

theorem vacantTaxis_nodup (W : World) : W.vacantTaxis.Nodup := List.nodup_range.filter _

/-- After assigning `v`, the vacant taxis are the other ones. -/
theorem vacant_assign {W W1 : World} {v r} (ha : W.assignTaxi v r = .ok W1) (u) :
    Vacant W1 u ↔ Vacant W u ∧ u ≠ v := by
  obtain ⟨-, -, -, -, e1, e2, e3, e4, e5, -⟩ := assignTaxi_effect ha
  unfold Vacant
  rw [e1, e2, e3]
  by_cases e : u = v
  · subst e; simp [e5]
  · rw [e4 u e]; simp [e]

theorem Assigns.frame {as} {W W' : World} (h : Assigns as W W') :
    W'.time = W.time ∧ W'.H.departTime = W.H.departTime ∧ (∀ r, r ∉ W.H.pending → r ∉ W'.H.pending) ∧
    W'.nVeh = W.nVeh ∧ W'.V.link = W.V.link ∧ W'.V.x = W.V.x ∧ W'.N = W.N ∧ W'.L = W.L ∧
    W'.H.orig = W.H.orig := by
  induction h with
  | nil => exact ⟨rfl, rfl, fun _ h => h, rfl, rfl, rfl, rfl, rfl, rfl⟩
  | cons hr hd hv ha _ ih =>
    obtain ⟨a1, a2, a3, a4, a5, a6, a7, a8, a9, a10, a11, a12, a13, a14, a15, a16⟩ := assignTaxi_effect ha
    obtain ⟨b1, b2, b3, b4, b5, b6, b7, b8, b9⟩ := ih
    refine ⟨b1.trans a4, b2.trans a3, fun r h => b3 r ?_, b4.trans a5, b5.trans a13, b6.trans a14,
      b7.trans a15, b8.trans a16, b9.trans a12⟩
    rw [a2]; exact fun hm => h (List.mem_of_mem_erase hm)

theorem Assigns.vacant {as} {W W' : World} (h : Assigns as W W') {v} (hv : Vacant W' v) : Vacant W v := by
  induction h with
  | nil => exact hv
  | cons _ _ _ ha _ ih => exact ((vacant_assign ha v).1 (ih hv)).1

theorem randomLoop_spec : ∀ (rs : List ReqId) (vac : List VehId) {W W' : World},
    (∀ v, v ∈ vac ↔ Vacant W v) → vac.Nodup → W.H.pending.Nodup → (∀ r ∈ rs, r ∈ W.H.pending) → rs.Nodup →
    assignRandomLoop rs vac W = .ok W' →
    ∃ as, Assigns as W W' ∧ (∀ p ∈ as, p.1 ∈ rs) ∧
      ∀ r ∈ rs, r ∈ W'.H.pending → W.H.departTime r ≤ W.time → ∀ v, ¬ Vacant W' v := by
  intro rs
  induction rs with
  | nil =>
    intro vac W W' _ _ _ _ _ h
    simp only [assignRandomLoop, Except.ok.injEq] at h
    subst h
    exact ⟨[], .nil, by simp, by simp⟩
  | cons r rs ih =>
    intro vac W W' hv hn hpn hr hrn h
    unfold assignRandomLoop at h
    split at h
    · rename_i he
      simp only [Except.ok.injEq] at h
      subst h
      rw [List.getLast?_eq_none_iff] at he
      subst he
      exact ⟨[], .nil, by simp, fun _ _ _ _ v h => by simpa using (hv v).2 h⟩
    · rename_i v he
      have hvac : vac = vac.dropLast ++ [v] := by
        obtain ⟨hne, h2⟩ := List.getLast?_eq_some_iff.1 he
        rw [h2]; simp
      split at h
      · rename_i hdue
        rw [bind_ok] at h
        obtain ⟨W1, h1, h⟩ := h
        obtain ⟨a1, a2, a3, a4, a5, a6, a7, a8, a9, a10⟩ := assignTaxi_effect h1
        have hvv : v ∈ vac := by rw [hvac]; simp
        have hn' : vac.dropLast.Nodup ∧ v ∉ vac.dropLast := by
          rw [hvac, List.nodup_append] at hn
          refine ⟨hn.1, fun hm => hn.2.2 v hm v (by simp) rfl⟩
        have hrn' := List.nodup_cons.1 hrn
        obtain ⟨as, b1, b2, b3⟩ := ih vac.dropLast (W := W1) (W' := W') (by
            intro u
            rw [vacant_assign h1, ← hv]
            constructor
            · intro hu
              exact ⟨by rw [hvac]; exact List.mem_append_left _ hu, by rintro rfl; exact hn'.2 hu⟩
            · rintro ⟨hu, hne⟩
              rw [hvac, List.mem_append] at hu
              exact hu.resolve_right (by simpa using hne)) hn'.1 (by rw [a2]; exact hpn.erase r)
          (by
            intro s hs
            rw [a2]
            have : s ≠ r := by rintro rfl; exact hrn'.1 hs
            exact (List.mem_erase_of_ne this).2 (hr s (List.mem_cons_of_mem _ hs))) hrn'.2 h
        refine ⟨(r, v) :: as, .cons a1 hdue ((hv v).1 hvv) h1 b1, ?_, ?_⟩
        · intro p hp
          rw [List.mem_cons] at hp
          rcases hp with rfl | hp
          · simp
          · exact List.mem_cons_of_mem _ (b2 p hp)
        · intro s hs hp hd
          rw [a3, a4] at b3
          rw [List.mem_cons] at hs
          rcases hs with rfl | hs
          · exact absurd hp (b1.frame.2.2.1 _ (by rw [a2]; exact hpn.not_mem_erase))
          · exact b3 s hs hp hd
      · rename_i hdue
        obtain ⟨as, b1, b2, b3⟩ := ih vac hv hn hpn (fun s hs => hr s (List.mem_cons_of_mem _ hs))
          (List.nodup_cons.1 hrn).2 h
        refine ⟨as, b1, fun p hp => List.mem_cons_of_mem _ (b2 p hp), ?_⟩
        intro s hs hp hd
        rw [List.mem_cons] at hs
        rcases hs with rfl | hs
        · exact absurd hd hdue
        · exact b3 s hs hp hd

/-- `sqDist` depends on positions only. -/
theorem sqDist_congr {W W1 : World} (h1 : W1.V.link = W.V.link) (h2 : W1.V.x = W.V.x) (h3 : W1.N = W.N)
    (h4 : W1.L = W.L) (v n) : W1.sqDist v n = W.sqDist v n := by
  unfold sqDist xyCoords
  rw [h1, h2, h3, h4]

/-- The search for the nearest taxi. -/
theorem nearestLoop_spec {W : World} {n : NodeId} {rad2 : Option ℚ} :
    ∀ (vs : List VehId) (best : Option (ℚ × VehId)) {res : Option (ℚ × VehId)},
    W.nearestLoop n rad2 vs best = .ok res →
    (∀ v ∈ vs, ∃ d, W.sqDist v n = .ok d) ∧
    (∀ q u, res = some (q, u) → best = some (q, u) ∨ u ∈ vs ∧ W.sqDist u n = .ok q ∧
      ∀ R, rad2 = some R → q ≤ R) ∧
    (∀ q u, best = some (q, u) → ∃ q' u', res = some (q', u') ∧ q' ≤ q) ∧
    (∀ v ∈ vs, ∀ d, W.sqDist v n = .ok d → (∀ R, rad2 = some R → d ≤ R) →
      ∃ q' u', res = some (q', u') ∧ q' ≤ d) := by
  intro vs
  induction vs with
  | nil =>
    intro best res h
    simp only [nearestLoop, Except.ok.injEq] at h
    subst h
    exact ⟨by simp, fun q u h => .inl h, fun q u h => ⟨q, u, h, le_rfl⟩, by simp⟩
  | cons v vs ih =>
    intro best res h
    unfold nearestLoop at h
    rw [bind_ok] at h
    obtain ⟨d, hd, h⟩ := h
    have key : ∃ best', W.nearestLoop n rad2 vs best' = .ok res ∧
        (((∀ R, rad2 = some R → d ≤ R) ∧ (∀ q u, best = some (q, u) → d ≤ q) ∧ best' = some (d, v)) ∨
         (¬ ((∀ R, rad2 = some R → d ≤ R) ∧ (∀ q u, best = some (q, u) → d ≤ q)) ∧ best' = best)) := by
      refine ⟨_, h, ?_⟩
      by_cases hR : ∀ R, rad2 = some R → d ≤ R
      · by_cases hb : ∀ q u, best = some (q, u) → d ≤ q
        · refine .inl ⟨hR, hb, ?_⟩
          cases rad2 <;> rcases best with _ | ⟨q, w⟩ <;> simp_all
        · refine .inr ⟨fun h => hb h.2, ?_⟩
          cases rad2 <;> rcases best with _ | ⟨q, w⟩ <;> simp_all
          all_goals (intro hd; exact absurd hd (not_le.2 (by assumption)))
      · refine .inr ⟨fun h => hR h.1, ?_⟩
        cases rad2 <;> simp_all
    clear h
    obtain ⟨best', h, hcase⟩ := key
    obtain ⟨i1, i2, i3, i4⟩ := ih _ h
    refine ⟨?_, ?_, ?_, ?_⟩
    · intro u hu
      rw [List.mem_cons] at hu
      rcases hu with rfl | hu
      · exact ⟨d, hd⟩
      · exact i1 u hu
    · intro q u hres
      rcases i2 q u hres with h1 | ⟨h1, h2⟩
      · rcases hcase with ⟨c1, c2, rfl⟩ | ⟨c1, rfl⟩
        · cases h1; exact .inr ⟨by simp, hd, c1⟩
        · exact .inl h1
      · exact .inr ⟨List.mem_cons_of_mem _ h1, h2⟩
    · intro q u hb
      rcases hcase with ⟨c1, c2, rfl⟩ | ⟨c1, rfl⟩
      · obtain ⟨q', u', e1, e2⟩ := i3 d v rfl
        exact ⟨q', u', e1, e2.trans (c2 q u hb)⟩
      · exact i3 q u hb
    · intro u hu du hdu hR
      rw [List.mem_cons] at hu
      rcases hu with rfl | hu
      · rw [hd] at hdu; cases hdu
        rcases hcase with ⟨c1, c2, rfl⟩ | ⟨c1, rfl⟩
        · exact i3 d u rfl
        · have : ∃ q w, best' = some (q, w) ∧ ¬ d ≤ q := by
            by_contra hno
            push Not at hno
            exact c1 ⟨hR, fun q w h => hno q w h⟩
          obtain ⟨q, w, hb, hdq⟩ := this
          obtain ⟨q', u', e1, e2⟩ := i3 q w hb
          exact ⟨q', u', e1, e2.trans (le_of_not_ge hdq)⟩
      · exact i4 u hu du hdu hR

/-- The assigned taxi is a nearest one among the taxis vacant at that moment. -/
inductive NearestAssigns (rad2 : Option ℚ) : List (ReqId × VehId) → World → World → Prop
  | nil {W} : NearestAssigns rad2 [] W W
  | cons {r v as W W1 W' q} : W.sqDist v (W.H.orig r) = .ok q → (∀ R, rad2 = some R → q ≤ R) →
      (∀ u, Vacant W u → ∃ d, W.sqDist u (W.H.orig r) = .ok d ∧ q ≤ d) →
      W.assignTaxi v r = .ok W1 → NearestAssigns rad2 as W1 W' → NearestAssigns rad2 ((r, v) :: as) W W'

theorem nearestAssign_spec (rad2 : Option ℚ) : ∀ (rs : List ReqId) (vac : List VehId) {W W' : World},
    (∀ v, v ∈ vac ↔ Vacant W v) → vac.Nodup → W.H.pending.Nodup → (∀ r ∈ rs, r ∈ W.H.pending) → rs.Nodup →
    assignNearestLoop rad2 rs vac W = .ok W' →
    ∃ as, Assigns as W W' ∧ NearestAssigns rad2 as W W' ∧ (∀ p ∈ as, p.1 ∈ rs) ∧
      ∀ r ∈ rs, r ∈ W'.H.pending → W.H.departTime r ≤ W.time → ∀ v, Vacant W' v →
        ∃ d R, W.sqDist v (W.H.orig r) = .ok d ∧ rad2 = some R ∧ R < d := by
  intro rs
  induction rs with
  | nil =>
    intro vac W W' _ _ _ _ _ h
    simp only [assignNearestLoop, Except.ok.injEq] at h
    subst h
    exact ⟨[], .nil, .nil, by simp, by simp⟩
  | cons r rs ih =>
    intro vac W W' hv hn hpn hr hrn h
    have hrn' := List.nodup_cons.1 hrn
    unfold assignNearestLoop at h
    split at h
    · rename_i he
      simp only [Except.ok.injEq] at h
      subst h
      subst he
      exact ⟨[], .nil, .nil, by simp, fun _ _ _ _ v h => by simpa using (hv v).2 h⟩
    · split at h
      · rename_i hdue
        rw [bind_ok] at h
        obtain ⟨res, hres, h⟩ := h
        obtain ⟨n1, n2, n3, n4⟩ := nearestLoop_spec _ _ hres
        split at h
        · -- no taxi within the radius
          obtain ⟨as, b1, b2, b3, b4⟩ := ih vac hv hn hpn (fun s hs => hr s (List.mem_cons_of_mem _ hs)) hrn'.2 h
          refine ⟨as, b1, b2, fun p hp => List.mem_cons_of_mem _ (b3 p hp), ?_⟩
          intro s hs hp hd v hvac
          rw [List.mem_cons] at hs
          rcases hs with rfl | hs
          · have hW : Vacant W v := b1.vacant hvac
            obtain ⟨d, hd'⟩ := n1 v ((hv v).2 hW)
            cases hrad : rad2 with
            | none =>
              obtain ⟨q', u', e, -⟩ := n4 v ((hv v).2 hW) d hd' (by rw [hrad]; simp)
              cases e
            | some R =>
              refine ⟨d, R, hd', rfl, lt_of_not_ge fun hle => ?_⟩
              obtain ⟨q', u', e, -⟩ := n4 v ((hv v).2 hW) d hd' (by rw [hrad]; intro R' hR'; cases hR'; exact hle)
              cases e
          · exact b4 s hs hp hd v hvac
        · rename_i q v
          rw [bind_ok] at h
          obtain ⟨W1, h1, h⟩ := h
          obtain ⟨a1, a2, a3, a4, a5, a6, a7, a8, a9, a10, a11, a12, a13, a14, a15, a16⟩ := assignTaxi_effect h1
          obtain ⟨c1, c2, c3⟩ : v ∈ vac ∧ W.sqDist v (W.H.orig r) = .ok q ∧ ∀ R, rad2 = some R → q ≤ R := by
            rcases n2 q v rfl with h | h
            · cases h
            · exact h
          obtain ⟨as, b1, b2, b3, b4⟩ := ih (vac.erase v) (W := W1) (W' := W') (by
              intro u
              rw [vacant_assign h1, ← hv, hn.mem_erase_iff]
              exact and_comm) (hn.erase v) (by rw [a2]; exact hpn.erase r)
            (by
              intro s hs
              rw [a2]
              have : s ≠ r := by rintro rfl; exact hrn'.1 hs
              exact (List.mem_erase_of_ne this).2 (hr s (List.mem_cons_of_mem _ hs))) hrn'.2 h
          refine ⟨(r, v) :: as, .cons a1 hdue ((hv v).1 c1) h1 b1, .cons c2 c3 ?_ h1 b2, ?_, ?_⟩
          · intro u hu
            obtain ⟨d, hd⟩ := n1 u ((hv u).2 hu)
            refine ⟨d, hd, ?_⟩
            by_cases hR : ∀ R, rad2 = some R → d ≤ R
            · obtain ⟨q', u', e1, e2⟩ := n4 u ((hv u).2 hu) d hd hR
              cases e1; exact e2
            · push Not at hR
              obtain ⟨R, hR1, hR2⟩ := hR
              exact (c3 R hR1).trans hR2.le
          · intro p hp
            rw [List.mem_cons] at hp
            rcases hp with rfl | hp
            · simp
            · exact List.mem_cons_of_mem _ (b3 p hp)
          · intro s hs hp hd u hu
            rw [List.mem_cons] at hs
            rcases hs with rfl | hs
            · exact absurd hp (b1.frame.2.2.1 _ (by rw [a2]; exact hpn.not_mem_erase))
            · have := b4 s hs hp (by rw [a3, a4]; exact hd) u hu
              rw [sqDist_congr a13 a14 a15 a16, a12] at this
              exact this
      · rename_i hdue
        obtain ⟨as, b1, b2, b3, b4⟩ := ih vac hv hn hpn (fun s hs => hr s (List.mem_cons_of_mem _ hs)) hrn'.2 h
        refine ⟨as, b1, b2, fun p hp => List.mem_cons_of_mem _ (b3 p hp), ?_⟩
        intro s hs hp hd
        rw [List.mem_cons] at hs
        rcases hs with rfl | hs
        · exact absurd hd hdue
        · exact b4 s hs hp hd

theorem assignRandom_spec {W W' : World} (h : TaxiInv W) {rnd} (ha : W.assignRandom rnd = .ok W') :
    ∃ as, Assigns as W W' ∧ (∀ p ∈ as, p.1 ∈ W.H.pending) ∧
      ∀ r ∈ W.H.pending, r ∈ W'.H.pending → W.H.departTime r ≤ W.time → ∀ v, ¬ Vacant W' v := by
  unfold assignRandom at ha
  have hp := shuffle_perm rnd W.vacantTaxis
  refine randomLoop_spec _ _ (fun v => ?_) (hp.nodup_iff.2 (vacantTaxis_nodup W)) h.nodup (fun _ h => h)
    h.nodup ha
  rw [hp.mem_iff]; exact mem_vacantTaxis

theorem assignNearest_spec {W W' : World} (h : TaxiInv W) {rad2} (ha : W.assignNearest rad2 = .ok W') :
    ∃ as, Assigns as W W' ∧ NearestAssigns rad2 as W W' ∧ (∀ p ∈ as, p.1 ∈ W.H.pending) ∧
      ∀ r ∈ W.H.pending, r ∈ W'.H.pending → W.H.departTime r ≤ W.time → ∀ v, Vacant W' v →
        ∃ d R, W.sqDist v (W.H.orig r) = .ok d ∧ rad2 = some R ∧ R < d :=
  nearestAssign_spec rad2 _ _ (fun _ => mem_vacantTaxis) (vacantTaxis_nodup W) h.nodup (fun _ h => h)
    h.nodup ha

theorem Assigns.reachable {as} {W W' : World} (h : Assigns as W W') (hr : Reachable Any W) :
    Reachable Any W' := by
  induction h with
  | nil => exact hr
  | cons _ _ hv ha _ ih => exact ih (.next hr (.assignTaxi hv.1 ha) trivial)

theorem Assigns.serve {as} {W W' : World} (h : Assigns as W W') (hi : TaxiInv W) (hs : ServeInv W) :
    ServeInv W' := by
  induction h with
  | nil => exact hs
  | cons _ _ hv ha _ ih =>
    exact ih (hi.assignTaxi hv.1 ha) (hs.assignTaxi hi (hi.vacant hv.2.1 hv.2.2.2) ha)

theorem Served.inv {W : World} (h : Served W) : Reachable Any W ∧ ServeInv W := by
  induction h with
  | new => exact ⟨.new trivial, ServeInv.new _ _ _⟩
  | next _ hs hno hne ih => exact ⟨.next ih.1 hs trivial, ih.2.api ih.1.inv ih.1.taxi hs hno hne⟩
  | random _ ha ih =>
    obtain ⟨as, b1, -⟩ := assignRandom_spec ih.1.taxi ha
    exact ⟨b1.reachable ih.1, b1.serve ih.1.taxi ih.2⟩
  | nearest _ ha ih =>
    obtain ⟨as, b1, -⟩ := assignNearest_spec ih.1.taxi ha
    exact ⟨b1.reachable ih.1, b1.serve ih.1.taxi ih.2⟩

/-! ## C39 -/

/-- C39: every request is either pending (and in the list once) or assigned to one taxi, never both; the
taxi is an existing vehicle of mode taxi. -/
theorem C39_pending_or_assigned {W : World} (h : Reachable Any W) :
    W.H.pending.Nodup ∧ (∀ r, r ∈ W.H.pending ↔ r < W.H.nReq ∧ W.H.taxi r = none) ∧
    ∀ r v, W.H.taxi r = some v → r < W.H.nReq ∧ v < W.nVeh ∧ W.V.mode v = .taxi := by
  have hi := h.taxi
  refine ⟨hi.nodup, fun r => ⟨hi.pend r, fun ⟨h1, h2⟩ => ?_⟩, hi.taxi⟩
  by_contra hn
  obtain ⟨v, hv⟩ := hi.assigned r h1 hn
  rw [h2] at hv; cases hv

/-- C39: a request is assigned at most once: once assigned it keeps its taxi, and assigning it again raises. -/
theorem C39_assigned_once {W W' : World} (h : Reachable Any W) (hl : Later W W') {r v}
    (hr : W.H.taxi r = some v) :
    W'.H.taxi r = some v ∧ ∀ u, W'.assignTaxi u r = .error .valueError := by
  have key : Reachable Any W' ∧ Keeps W W' := by
    induction hl with
    | refl => exact ⟨h, .refl _⟩
    | next _ hs ih => exact ⟨.next ih.1 hs trivial, ih.2.trans (hs.keeps ih.1.inv ih.1.taxi)⟩
  have h1 := key.2.taxi r v hr
  refine ⟨h1, fun u => ?_⟩
  unfold World.assignTaxi
  rw [if_pos]
  intro hp
  have := (key.1.taxi.pend r hp).2
  rw [h1] at this; cases this

/-- C39: origin, destination and request time of a request never change, and neither do the pick-up and
arrival times once set. -/
theorem C39_records {W W' : World} (h : Reachable Any W) (hl : Later W W') :
    (∀ r, r < W.H.nReq → r < W'.H.nReq ∧ W'.H.orig r = W.H.orig r ∧ W'.H.dest r = W.H.dest r ∧
      W'.H.departTime r = W.H.departTime r) ∧
    (∀ r t, W.H.getTaxiTime r = some t → W'.H.getTaxiTime r = some t) ∧
    ∀ r t, W.H.arrivalTime r = some t → W'.H.arrivalTime r = some t := by
  have key : Reachable Any W' ∧ Keeps W W' := by
    induction hl with
    | refl => exact ⟨h, .refl _⟩
    | next _ hs ih => exact ⟨.next ih.1 hs trivial, ih.2.trans (hs.keeps ih.1.inv ih.1.taxi)⟩
  exact ⟨fun r hr => ⟨lt_of_lt_of_le hr key.2.nReq, key.2.orig r hr, key.2.dest r hr, key.2.dep r hr⟩,
    key.2.get, key.2.arr⟩

/-- C39: pick-up precedes arrival, and both lie in the past; a request that is not assigned has neither. -/
theorem C39_times {W : World} (h : Reachable (fun W => FlOK W.cfg.fl ∧ 0 ≤ W.cfg.deltat) W) :
    (∀ r t, W.H.arrivalTime r = some t → ∃ t0, W.H.getTaxiTime r = some t0 ∧ t0 ≤ t ∧ t ≤ W.now) ∧
    (∀ r t, W.H.getTaxiTime r = some t → t ≤ W.now) ∧
    ∀ r, W.H.taxi r = none → W.H.getTaxiTime r = none ∧ W.H.arrivalTime r = none := by
  obtain ⟨h1, h2, -⟩ := h.stamps (fun _ h => h)
  have hi := h.taxi
  refine ⟨fun r t hr => ?_, fun r t hr => (h1.get r t hr).trans h2, fun r hr => ?_⟩
  · obtain ⟨t0, a, b, c⟩ := h1.arr r t hr
    exact ⟨t0, a, b, c.trans h2⟩
  · have hg : W.H.getTaxiTime r = none := by by_contra hh; exact hi.got r hh hr
    exact ⟨hg, by by_contra hh; exact hi.arr r hh hg⟩

/-- C39: the random handler assigns only due requests, only to taxis vacant at that moment; and it
assigns as many as possible: if a due request is left, no vacant taxi is left. -/
theorem C39_random {W W' : World} (h : Reachable Any W) {rnd} (ha : W.assignRandom rnd = .ok W') :
    (∃ as, Assigns as W W') ∧
    ∀ r ∈ W'.H.pending, W.H.departTime r ≤ W.time → ∀ v, ¬ Vacant W' v := by
  obtain ⟨as, h1, h2, h3⟩ := assignRandom_spec h.taxi ha
  refine ⟨⟨as, h1⟩, fun r hr => h3 r ?_ hr⟩
  by_contra hn; exact h1.frame.2.2.1 r hn hr

/-- C39: the two nearest-taxi handlers do the same, each time choosing a vacant taxi with the smallest
distance to the origin of the request; a due request is left only if all taxis still vacant are outside
the matching radius. -/
theorem C39_nearest {W W' : World} (h : Reachable Any W) {rad2} (ha : W.assignNearest rad2 = .ok W') :
    (∃ as, Assigns as W W' ∧ NearestAssigns rad2 as W W') ∧
    ∀ r ∈ W'.H.pending, W.H.departTime r ≤ W.time → ∀ v, Vacant W' v →
      ∃ d R, W.sqDist v (W.H.orig r) = .ok d ∧ rad2 = some R ∧ R < d := by
  obtain ⟨as, h1, h1', h2, h3⟩ := assignNearest_spec h.taxi ha
  refine ⟨⟨as, h1, h1'⟩, fun r hr => h3 r ?_ hr⟩
  by_contra hn; exact h1.frame.2.2.1 r hn hr

/-- C39: if taxis are assigned by the provided handlers only (and no request goes from a node to itself),
a vacant taxi serves nobody and no taxi ever serves two requests at once. Together with `C39_random` and
`C39_nearest`: a taxi on its way to or with a passenger is never given another request. What is missing:
requests from a node to itself, see `C39_same_node_false`. -/
theorem C39_one_at_a_time_partial {W : World} (h : Served W) :
    (∀ v r, Vacant W v → ¬ Serving W v r) ∧ ∀ v r s, Serving W v r → Serving W v s → r = s := by
  obtain ⟨h1, h2⟩ := h.inv
  refine ⟨fun v r hv hr => ?_, fun v r s hr hs => h2.one r s v hr.1 hs.1 hr.2 hs.2⟩
  exact h2.closed (h1.taxi.vacant hv.2.1 hv.2.2.2) hr.1 hr.2

/-- C39: a served request waits for its taxi's visit: as long as the passenger has not boarded, the taxi
still has the origin on its list of destinations, and then the destination until arrival. Missing:
requests from a node to itself. -/
theorem C39_on_the_way_partial {W : World} (h : Served W) {v r} (hr : Serving W v r) :
    if W.H.getTaxiTime r = none then W.V.dest v = some (W.H.orig r) ∨ W.H.orig r ∈ W.V.destList v
    else W.V.dest v = some (W.H.dest r) ∨ W.H.dest r ∈ W.V.destList v := by
  obtain ⟨h1, h2⟩ := h.inv
  split
  · rename_i hg
    exact h1.taxi.todo _ _ (by rw [h2.wait r v hr.1 hg]; simp)
  · rename_i hg
    exact h1.taxi.todo _ _ (by rw [h2.ride r v hr.1 hg hr.2]; simp)

/-! ## Concrete cases -/

/-- Run a scenario in which `none` stands for a call of the random handler. -/
def runServed (cfg : Config) (cs : List (Option Cmd)) : M World :=
  cs.foldlM (fun W c => match c with
    | some c => do
      let W' ← c.run W
      if (List.range W'.H.nReq).all (fun r => decide (W'.H.orig r ≠ W'.H.dest r) &&
          (decide (W.H.taxi r ≠ none) || decide (W'.H.taxi r = none))) then pure W' else .error .exception
    | none => W.assignRandom (fun _ => 0)) (World.new cfg none (fun _ => 0))

theorem runServed_served {cfg cs W} (h : runServed cfg cs = .ok W) : Served W := by
  refine foldlM_inv (P := Served) (fun W c W' _ hr hc => ?_) .new h
  cases c with
  | none => exact .random hr hc
  | some c =>
    obtain ⟨W1, h1, h2⟩ := bind_ok.mp hc
    split at h2
    · rename_i h3
      rw [pure_ok] at h2
      subst h2
      have hapi := Cmd.run_api h1
      have hI := (Reachable.next hr.inv.1 hapi trivial : Reachable Any W1).taxi
      rw [List.all_eq_true] at h3
      refine .next hr hapi (fun r hn => ?_) (fun r hlt => ?_)
      · by_contra hne
        cases e : W1.H.taxi r with
        | none => exact hne e
        | some v =>
          have := h3 r (List.mem_range.2 (hI.taxi r v e).1)
          simp [hn, e] at this
      · have := h3 r (List.mem_range.2 hlt)
        simp at this
        exact this.1
    · cases h2

/-- Two nodes, a taxi, a request in each direction, the handler called in between. -/
def serveDemo : List (Option Cmd) :=
  ([.node { name := "a" }, .node { name := "b" },
   .link { startN := .obj 0, endN := .obj 1, length := 200 },
   .link { startN := .obj 1, endN := .obj 0, length := 200 },
   .veh { orig := .obj 0, dest := none, dep := .step 0, mode := .taxi },
   .fin (some 300), .request (.obj 1) (.obj 0) 0, .request (.obj 0) (.obj 1) 0, .tick, .tick] : List Cmd).map some
  ++ [none] ++ List.replicate 9 (some .tick) ++ [none] ++ List.replicate 3 (some .tick)

set_option maxRecDepth 100000 in
/-- The C39 theorems about handlers speak about something: after one served request the taxi serves the
second one. -/
example : ∃ W : World, Served W ∧ W.H.arrivalTime 0 ≠ none ∧ Serving W 0 1 ∧ W.H.pending = [] := by
  have h : obs (runServed demoCfg serveDemo) (fun W => decide (W.H.arrivalTime 0 ≠ none ∧
    W.H.taxi 1 = some 0 ∧ W.H.arrivalTime 1 = none ∧ W.H.pending = [])) = true := by decide +kernel
  obtain ⟨W, hW, h⟩ := obs_ok h
  have h := of_decide_eq_true h
  exact ⟨W, runServed_served hW, h.1, ⟨h.2.1, h.2.2.1⟩, h.2.2.2⟩

/-- A request from a node to itself. -/
def selfDemo : List Cmd :=
  [.node { name := "a" }, .node { name := "b" },
   .link { startN := .obj 0, endN := .obj 1, length := 200 },
   .link { startN := .obj 1, endN := .obj 0, length := 200 },
   .veh { orig := .obj 0, dest := none, dep := .step 0, mode := .taxi },
   .fin (some 300), .request (.obj 1) (.obj 1) 0, .tick, .tick, .assign 0 0, .tick]

set_option maxRecDepth 100000 in
/-- A request whose origin and destination coincide is picked up but never arrives: the arrival event is
deleted together with the boarding event, so the passenger is on board of a taxi without any event. The
taxi, told to go where it already is, chooses no next link, and the following step raises an
`AttributeError` (uxsim.py:318, 1331). This is why `Served` excludes such requests. -/
theorem C39_same_node_false : ∃ W : World, Reachable Any W ∧ Serving W 0 0 ∧ W.H.getTaxiTime 0 ≠ none ∧
    (∀ n, W.V.nodeEvent 0 n = none) ∧ W.finalized = true ∧ W.T < W.tsize ∧
    W.tick = .error .attributeError := by
  have h : obs (runCmds demoCfg (fun _ => 0) selfDemo) (fun W => decide (
    W.V.dest 0 = some 1 ∧ W.V.destList 0 = [] ∧ W.V.nodeEvent 0 1 = none ∧
    W.H.taxi 0 = some 0 ∧ W.H.arrivalTime 0 = none ∧
    W.H.getTaxiTime 0 ≠ none ∧ W.finalized = true ∧ W.T < W.tsize ∧
    (match W.tick with | .error .attributeError => true | _ => false) = true)) = true := by decide +kernel
  obtain ⟨W, hW, h⟩ := obs_ok h
  obtain ⟨h1, h2, h3, h4, h5, h6, h7, h8, h9⟩ := of_decide_eq_true h
  have hr := runCmds_reachable hW
  refine ⟨W, hr, ⟨h4, h5⟩, h6, fun n => ?_, h7, h8, ?_⟩
  · by_contra hne
    rcases hr.taxi.todo 0 n hne with h | h
    · rw [h1] at h; cases h; exact hne h3
    · rw [h2] at h; cases h
  · split at h9
    · assumption
    · cases h9

end UX
