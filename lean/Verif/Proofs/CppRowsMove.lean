import Verif.Proofs.CppRows

/-!
# The rows of the vehicle logs of the C++ engine: one entry
-/

namespace UX.Cpp
open CWorld Relation Spec

theorem enters_pushed (W : CWorld) {V : CVeh} (h : V.log.length = V.eager.length) (T : ℕ) (e : CLog) :
    enters W (pushed T e V) = enters W V ++
      match e.link with
      | none => []
      | some l => if lastLink none (V.log.map CLog.link) = some l then [] else [(l, clockAt W T)] := by
  unfold enters
  simp only [pushed, List.map_append, List.map_cons, List.map_nil]
  rw [enterScan_snoc]
  congr 1
  · refine enterScan_congr _ _ _ (fun j hj => ?_)
    rw [List.length_map, h] at hj
    simp only [Nat.zero_add, List.getD_eq_getElem?_getD]
    rw [List.getElem?_append_left hj]
  · have ht : ((V.eager ++ [(T, V.state)]).getD (0 + (V.log.map CLog.link).length) (0, .home)).1 = T := by
      rw [List.length_map, h, Nat.zero_add, List.getD_eq_getElem?_getD]
      simp
    cases e.link with
    | none => rfl
    | some l =>
      simp only [ht]

theorem Trk.mkRun {b : Bool} {W : CWorld} {r : Prop} {o l : ℕ} {V : CVeh} (h1 : Rows W o V.log)
    (h2 : V.log.length = V.eager.length) (hs : V.state = .run) (hl : V.link = some l) (hn : l < W.g.nLinks)
    (h : Settled W r l V ∨ b = false ∧ Entered W r o l V) : Trk b W r o V := by
  refine ⟨h1, h2, ?_⟩
  rw [hs]
  exact ⟨l, hl, hn, h⟩

theorem Rows.snoc {W : CWorld} {o : ℕ} {xs : List CLog} (h : Rows W o xs) {e' : CLog}
    (hn : ∀ e, xs.getLast? = some e → RowOK W o e e') : Rows W o (xs ++ [e']) := by
  intro i a b h1 h2
  rcases getElem?_snoc h2 with ⟨h3, h4⟩ | ⟨h3, h4⟩
  · rcases getElem?_snoc h1 with ⟨h5, h6⟩ | ⟨h5, h6⟩
    · exact h i a b h6 h4
    · omega
  · subst h4
    rcases getElem?_snoc h1 with ⟨h5, h6⟩ | ⟨h5, h6⟩
    · refine hn a ?_
      rw [List.getLast?_eq_getElem?, ← h3, Nat.add_sub_cancel]
      exact h6
    · omega

theorem RowOK.none {W : CWorld} {o : ℕ} {e e' : CLog} (h : e'.link = none) : RowOK W o e e' := by
  unfold RowOK; rw [h]; simp

theorem map_getLast? {xs : List CLog} {e : CLog} (h : xs.getLast? = some e) :
    (xs.map CLog.link).getLast? = some e.link := by
  rw [List.getLast?_map, h]; rfl

/-- The entry of a vehicle on the road. -/
theorem Trk.push {b : Bool} {W : CWorld} {r : Prop} {o l : ℕ} {V : CVeh} (h : Trk b W r o V)
    (hs : V.state = .run) (hl : V.link = some l) {e' : CLog} (he : e'.link = some l) (hx : e'.x = V.x)
    (hv : e'.v = V.v) :
    Rows W o (V.log ++ [e']) ∧ (NoLoops W →
      (enters W (pushed W.g.timestep e' V)).length = V.count ∧
      (enters W (pushed W.g.timestep e' V)).getLast? = some (l, V.arrTimeLink) ∧
      |V.dist - legs W (V.log ++ [e'])| ≤ V.count * (1 / 1000000000)) := by
  obtain ⟨h1, h2, h3⟩ := h
  rw [hs] at h3
  simp only at h3
  obtain ⟨l', p1, p2, p3⟩ := h3
  obtain rfl : l' = l := by rw [p1] at hl; exact Option.some.inj hl
  have hp := enters_pushed W h2 W.g.timestep e'
  rw [he] at hp
  simp only at hp
  rcases p3 with ⟨e, q1, q2, q3, q4, q5, q6, q7⟩ | ⟨_, q1, q2, q3, ⟨s1, s2, s3, s4, s5⟩ | ⟨e, a, s1, s2, s3, s4, s5, s6⟩⟩
  · have hlast : lastLink none (V.log.map CLog.link) = some l' :=
      lastLink_last none (by rw [map_getLast? q1, q2])
    rw [if_pos hlast, List.append_nil] at hp
    refine ⟨h1.snoc (fun d hd => ?_), fun hn => ?_⟩
    · rw [q1] at hd
      obtain rfl := Option.some.inj hd
      unfold RowOK
      rw [q2, he]
      exact ⟨p2, p2, Or.inl ⟨rfl, by rw [hv, hx, q3]; exact q4⟩⟩
    · obtain ⟨t1, t2, t3⟩ := q7 hn
      rw [hp, legs_snoc q1]
      refine ⟨t1, t2, ?_⟩
      have : leg W e e' = V.x - V.xOld := by
        unfold leg
        rw [q2, he]
        simp [hx, q3]
      rw [this]; exact t3
  · have hlast : lastLink none (V.log.map CLog.link) = none :=
      lastLink_none (fun o ho => by
        obtain ⟨d, hd, rfl⟩ := List.mem_map.1 ho
        exact s1 d hd)
    rw [if_neg (by rw [hlast]; simp)] at hp
    refine ⟨h1.snoc (fun d hd => ?_), fun hn => ?_⟩
    · unfold RowOK
      rw [s1 d (List.mem_of_getLast? hd), he]
      exact ⟨p2, s2, by rw [hx]; exact s3⟩
    · have h0 : enters W V = [] := by
        unfold enters
        exact enterScan_none (fun o ho => by
          obtain ⟨d, hd, rfl⟩ := List.mem_map.1 ho
          exact s1 d hd) _ _
      rw [hp, h0]
      refine ⟨by simp [s4], by simp [q3], ?_⟩
      have : legs W (V.log ++ [e']) = 0 := by
        cases hg : V.log.getLast? with
        | none =>
          rw [List.getLast?_eq_none_iff] at hg
          rw [hg]; rfl
        | some d =>
          rw [legs_snoc hg, legs_none s1]
          unfold leg
          rw [s1 d (List.mem_of_getLast? hg)]
          simp
      rw [this, s5, s4]
      norm_num
  · have hlast : lastLink none (V.log.map CLog.link) = some a :=
      lastLink_last none (by rw [map_getLast? s1, s2])
    refine ⟨h1.snoc (fun d hd => ?_), fun hn => ?_⟩
    · rw [s1] at hd
      obtain rfl := Option.some.inj hd
      unfold RowOK
      rw [s2, he]
      exact ⟨s3, p2, Or.inr ⟨s4, by rw [hv, hx]; exact s5⟩⟩
    · have hne : a ≠ l' := fun hc => by
        subst hc
        exact hn a p2 s4.symm
      rw [if_neg (by rw [hlast]; simpa using hne)] at hp
      obtain ⟨t1, t2⟩ := s6 hn
      rw [hp, legs_snoc s1]
      refine ⟨by simp [t1], by simp [q3], ?_⟩
      have : leg W e e' = (W.link a).len - e.x := by
        unfold leg
        rw [s2, he]
        simp [hne]
      rw [this]; exact t2

/-- A vehicle on the road after its update. -/
theorem Trk.drive {b : Bool} {W : CWorld} {r r' : Prop} {o l : ℕ} {V V' : CVeh} (h : Trk b W r o V)
    (hdt : W.g.deltaT ≠ 0)
    (hs : V.state = .run) (hl : V.link = some l) {e' : CLog} (he : e'.link = some l) (hx : e'.x = V.x)
    (hv : e'.v = V.v) (hla : e'.lane = V.lane) {y : ℚ}
    (hk : V'.mkey = CVeh.mkey { pushed W.g.timestep e' V with
      v := (y - V.x) / W.g.deltaT, xOld := V.x, x := y, dist := V.dist + (y - V.x) })
    (hr : r' → |y - (W.link l).len| < 1 / 1000000000) : Trk true W r' o V' := by
  have hp := h.push hs hl he hx hv
  refine Trk.mono ?_ (Tab.refl W) (by simp) (fun h => h) hk
  obtain ⟨h1, h2, h3⟩ := h
  rw [hs] at h3
  simp only at h3
  obtain ⟨l', p1, p2, p3⟩ := h3
  obtain rfl : l' = l := by rw [p1] at hl; exact Option.some.inj hl
  refine Trk.mkRun hp.1 (by simp [pushed, h2]) hs p1 p2 (Or.inl ⟨e', by simp [pushed], he, hx, ?_, hla, hr, fun hn => ?_⟩)
  · simp only; field_simp
  · obtain ⟨t1, t2, t3⟩ := hp.2 hn
    refine ⟨t1, t2, ?_⟩
    simp only
    show |V.dist + (y - V.x) - (legs W (V.log ++ [e']) + (y - V.x))| ≤ _
    have : V.dist + (y - V.x) - (legs W (V.log ++ [e']) + (y - V.x)) = V.dist - legs W (V.log ++ [e']) := by ring
    rw [this]
    exact t3

/-- The entry of a waiting vehicle. -/
theorem Trk.waits {b b' : Bool} {W : CWorld} {r r' : Prop} {o : ℕ} {V V' : CVeh} (h : Trk b W r o V)
    (hs : V.state = .wait ∨ V.state = .home) {e' : CLog} (he : e'.link = none) (T : ℕ) {s : VState}
    (hs' : s = .wait ∨ s = .home) (hk : V'.mkey = CVeh.mkey { pushed T e' V with state := s }) :
    Trk b' W r' o V' := by
  have e1 : V'.state = s := congrArg (fun p => p.1.1) hk
  have e7 : V'.log = V.log ++ [e'] := congrArg (fun p => p.2.1) hk
  have e8 : V'.dist = V.dist := congrArg (fun p => p.2.2.1) hk
  have e9 : V'.count = V.count := congrArg (fun p => p.2.2.2.1) hk
  have e11 : V'.eager = V.eager ++ [(T, V.state)] := congrArg (fun p => p.2.2.2.2.2.1) hk
  obtain ⟨h1, h2, h3⟩ := h
  have key : (∀ e ∈ V.log, e.link = none) ∧ V.count = 0 ∧ V.dist = 0 := by
    rcases hs with hs | hs <;> (rw [hs] at h3; exact h3)
  have key' : (∀ e ∈ V.log ++ [e'], e.link = none) ∧ V.count = 0 ∧ V.dist = 0 := by
    refine ⟨fun e hm => ?_, key.2⟩
    rcases List.mem_append.1 hm with hm | hm
    · exact key.1 e hm
    · simp at hm; subst hm; exact he
  refine ⟨by rw [e7]; exact h1.snoc (fun e _ => RowOK.none he), by rw [e7, e11]; simp [h2], ?_⟩
  rw [e1, e7, e8, e9]
  rcases hs' with rfl | rfl <;> exact key'

/-- The entry at the end of a trip. -/
theorem Trk.ends {b b' : Bool} {W : CWorld} {r r' : Prop} {o : ℕ} {V V' : CVeh} (h : Trk b W r o V)
    (hs : V.state = .run) (hf : b = false → V.flagWait = true) {e' : CLog} (he : e'.link = none) (T : ℕ)
    (hs' : V'.state = .ended ∨ V'.state = .abort) (e7 : V'.log = V.log ++ [e'])
    (e9 : V'.count = V.count) {s : VState} (e11 : V'.eager = V.eager ++ [(T, s)]) : Trk b' W r' o V' := by
  obtain ⟨h1, h2, h3⟩ := h
  rw [hs] at h3
  simp only at h3
  obtain ⟨l', p1, p2, p3⟩ := h3
  have key : NoLoops W → (enters W V').length = V'.count := fun hn => by
    have e0 : enters W V' = enters W (pushed T e' V) := by
      unfold enters
      simp only [pushed, e7, e11]
      refine enterScan_congr _ _ _ (fun j hj => ?_)
      simp only [Nat.zero_add, List.getD_eq_getElem?_getD, List.getElem?_append]
      split
      · rfl
      · cases j - V.eager.length <;> simp
    rw [e0, enters_pushed W h2, he, List.append_nil, e9]
    rcases p3 with ⟨e, q1, q2, q3, q4, q5, q6, q7⟩ | ⟨hb, q1, q2, _⟩
    · exact (q7 hn).1
    · rw [hf hb] at q2; simp at q2
  refine ⟨by rw [e7]; exact h1.snoc (fun e _ => RowOK.none he), by rw [e7, e11]; simp [h2], ?_⟩
  rcases hs' with hs' | hs' <;> (rw [hs']; exact key)

/-- A vehicle gets on the road. -/
theorem Trk.depart {W : CWorld} {r r' : Prop} {o l : ℕ} {V V' : CVeh} (h : Trk false W r o V)
    (hs : V.state = .wait) (hl : l < W.g.nLinks) (ho : (W.link l).src = o) (hr : ¬ r')
    (hf : V.flagWait = false) {v0 : ℚ} {ln : ℕ}
    (hk : V'.mkey = CVeh.mkey { V with state := .run, link := some l, x := 0, v := v0, lane := ln
                                       arrTimeLink := W.now, count := V.count + 1 }) :
    Trk false W r' o V' := by
  refine Trk.mono (W := W) (r := r') ?_ (Tab.refl W) (fun _ => rfl) (fun h => h) hk
  obtain ⟨h1, h2, h3⟩ := h
  rw [hs] at h3
  simp only at h3
  exact Trk.mkRun h1 h2 rfl rfl hl (Or.inr ⟨rfl, hr, hf, rfl, Or.inl ⟨h3.1, ho, rfl, by simp [h3.2.1], h3.2.2⟩⟩)

/-- A vehicle passes a node. -/
theorem Trk.move {W : CWorld} {r r' : Prop} {o a l : ℕ} {V V' : CVeh} (h : Trk false W r o V)
    (hdt : W.g.deltaT ≠ 0) (hs : V.state = .run) (ha : V.link = some a) (hreq : r)
    (hl : l < W.g.nLinks) (ho : (W.link a).dst = (W.link l).src) (hr : ¬ r') (hf : V.flagWait = false)
    {q : ℚ} {ln : ℕ}
    (hk : V'.mkey = CVeh.mkey { V with link := some l, x := q, v := V.v + q / W.g.deltaT, lane := ln
                                       arrTimeLink := W.now, count := V.count + 1 }) :
    Trk false W r' o V' := by
  refine Trk.mono (W := W) (r := r') ?_ (Tab.refl W) (fun _ => rfl) (fun h => h) hk
  obtain ⟨h1, h2, h3⟩ := h
  rw [hs] at h3
  simp only at h3
  obtain ⟨a', p1, p2, p3⟩ := h3
  obtain rfl : a' = a := by rw [p1] at ha; exact Option.some.inj ha
  refine Trk.mkRun h1 h2 hs rfl hl (Or.inr ⟨rfl, hr, hf, rfl, Or.inr ?_⟩)
  rcases p3 with ⟨e, q1, q2, q3, q4, q5, q6, q7⟩ | ⟨_, q1, _⟩
  · have hnear := abs_lt.1 (q6 hreq)
    refine ⟨e, a', q1, q2, p2, ho, ?_, fun hn => ?_⟩
    · simp only
      have : (V.v + q / W.g.deltaT) * W.g.deltaT = V.v * W.g.deltaT + q := by field_simp
      rw [this, q4, q3, abs_lt]
      constructor <;> linarith [hnear.1, hnear.2]
    · obtain ⟨t1, t2, t3⟩ := q7 hn
      have t3' := abs_le.1 t3
      refine ⟨by simp only; rw [← t1]; rfl, ?_⟩
      simp only
      rw [q3, abs_le]
      push_cast
      constructor <;> linarith [hnear.1, hnear.2, t3'.1, t3'.2]
  · exact absurd hreq q1

end UX.Cpp
