import Verif.Spec.CppGaps
import Verif.Proofs.CppRowsReach
import Verif.Proofs.CppKinReach

/-!
# The spacing in the vehicle log of the C++ engine
-/

namespace UX.Cpp
open CWorld Relation Spec

/-- What the entry of `v` shows if the vehicle ahead in the snapshot of the queue is `s`. -/
def gapVal (W : CWorld) (v : ℕ) : Option ℕ → ℚ
  | none => -1
  | some u =>
    if u < v then
      if (W.veh u).state ≠ .ended ∧ (W.veh u).state ≠ .abort
        then W.g.fl ((W.veh u).x - (W.veh v).xOld) else -1
    else W.g.fl ((W.veh u).xOld - (W.veh v).xOld)

/-- The last entry of `v` shows this. -/
def GapAt (W : CWorld) (v : ℕ) (s : Option ℕ) : Prop :=
  ∃ e, (W.veh v).log.getLast? = some e ∧ e.x = (W.veh v).xOld ∧ e.s = gapVal W v s

/-- What counts of a vehicle here. -/
def CVeh.gkey (V : CVeh) := (V.state, V.x, V.xOld, V.log)

theorem gkey_parts {V V' : CVeh} (h : V'.gkey = V.gkey) :
    V'.state = V.state ∧ V'.x = V.x ∧ V'.xOld = V.xOld ∧ V'.log = V.log := by
  simp only [CVeh.gkey, Prod.mk.injEq] at h
  exact h

theorem gkey_of {V V' : CVeh} (h : V'.mkey = V.mkey) : V'.gkey = V.gkey := by
  simp only [CVeh.mkey, Prod.mk.injEq] at h
  simp only [CVeh.gkey, Prod.mk.injEq]
  tauto

theorem setV_gkey (W : CWorld) (v : ℕ) (f : CVeh → CVeh) (hf : ∀ V, (f V).gkey = V.gkey) (w : ℕ) :
    ((W.setV v f).veh w).gkey = (W.veh w).gkey := by
  rw [setV_veh]; split
  · rename_i e; subst e; exact hf _
  · rfl

theorem GapAt.congr {W W' : CWorld} {v : ℕ} {s : Option ℕ} (h : GapAt W v s) (hf : W'.g.fl = W.g.fl)
    (hv : (W'.veh v).gkey = (W.veh v).gkey) (hu : ∀ u, s = some u → (W'.veh u).gkey = (W.veh u).gkey) :
    GapAt W' v s := by
  obtain ⟨e, h1, h2, h3⟩ := h
  obtain ⟨_, _, a3, a4⟩ := gkey_parts hv
  refine ⟨e, by rw [a4]; exact h1, by rw [a3]; exact h2, ?_⟩
  rw [h3]
  cases s with
  | none => rfl
  | some u =>
    obtain ⟨b1, b2, b3, _⟩ := gkey_parts (hu u rfl)
    simp only [gapVal, b1, b2, b3, a3, hf]

/-! ## The update of one vehicle -/

theorem endTripOn_notRun (W : CWorld) (v l : ℕ) : ((W.endTripOn v l).veh v).state ≠ .run := by
  unfold CWorld.endTripOn
  extract_lets W1 W2 W3
  rw [core_state (core_logData W3 v none)]
  show ((W2.setV v _).veh v).state ≠ _
  rw [setV_veh, if_pos rfl]
  by_cases hb : (W2.veh v).flagAbort = true <;> simp [hb]

theorem waitEnd_own (W : CWorld) (v l : ℕ) (h : ((W.waitEnd v l).veh v).state = .run) :
    ((W.waitEnd v l).veh v).gkey = (W.veh v).gkey := by
  revert h
  unfold CWorld.waitEnd
  extract_lets W1
  have e1 : (W1.veh v).gkey = (W.veh v).gkey := setV_gkey _ _ _ (by intro V; rfl) _
  split
  · unfold CWorld.endTrip
    split
    · exact fun _ => e1
    · exact fun h => absurd h (endTripOn_notRun _ _ _)
  · exact fun _ => e1

theorem atEnd_own (W : CWorld) (v l : ℕ) (h : ((W.atEnd v l).veh v).state = .run) :
    ((W.atEnd v l).veh v).gkey = (W.veh v).gkey := by
  revert h
  unfold CWorld.atEnd
  split
  · exact waitEnd_own W v l
  · split
    · intro h
      rw [waitEnd_own _ v l h]
      exact setV_gkey _ _ _ (by intro V; rfl) _
    · intro _
      unfold CWorld.request
      split
      · rfl
      · rw [setL_veh]; exact setV_gkey _ _ _ (by intro V; rfl) _

theorem vehUpdate_gap {W : CWorld} {v : ℕ} {s : Option ℕ} (hm : W.g.logMode = true)
    (hs : (W.veh v).state = .run) (hsv : s ≠ some v)
    (hf : (W.vehUpdate v s).g.fl = W.g.fl) (h : ((W.vehUpdate v s).veh v).state = .run) :
    GapAt (W.vehUpdate v s) v s := by
  have hne : ∀ u, s = some u → ((W.vehUpdate v s).veh u).gkey = (W.veh u).gkey := fun u hu =>
    gkey_of (vehUpdate_mkey_ne W hs (fun e => hsv (by rw [hu, e])))
  have hst1 : ((W.logData v s).veh v).state = .run := by rw [core_state (core_logData W v s)]; exact hs
  have key : ((W.vehUpdate v s).veh v).gkey = (((W.logData v s).advance v).veh v).gkey := by
    revert h
    unfold CWorld.vehUpdate
    simp only [hst1]
    split
    · exact fun _ => rfl
    · split
      · exact fun h => atEnd_own _ _ _ h
      · exact fun _ => rfl
  obtain ⟨_, _, k3, k4⟩ := gkey_parts key
  have hlog : ((W.logData v s).veh v).log = (W.veh v).log ++ [(W.logStats v).logEntry v s] := by
    unfold CWorld.logData CWorld.logPush
    rw [logStats_g, if_pos hm, setV_veh, if_pos rfl]
    simp only [logStats_veh]
  have hx : ((W.logData v s).veh v).x = (W.veh v).x := by
    unfold CWorld.logData CWorld.logPush
    rw [logStats_g, if_pos hm, setV_veh, if_pos rfl]
    simp only [logStats_veh]
  have ho : ((W.vehUpdate v s).veh v).xOld = (W.veh v).x := by
    rw [k3]
    show (((W.logData v s).setV v _).veh v).xOld = _
    rw [setV_veh, if_pos rfl]; exact hx
  have hl : ((W.vehUpdate v s).veh v).log = (W.veh v).log ++ [(W.logStats v).logEntry v s] := by
    rw [k4, ← hlog]
    show (((W.logData v s).setV v _).veh v).log = _
    rw [setV_veh, if_pos rfl]
  refine ⟨(W.logStats v).logEntry v s, by rw [hl]; simp, ?_, ?_⟩
  · rw [ho]; unfold CWorld.logEntry; rw [logStats_veh, if_pos hs]
  · unfold CWorld.logEntry
    rw [logStats_veh, if_pos hs]
    unfold CWorld.logSpacing
    cases s with
    | none => rfl
    | some u =>
      obtain ⟨b1, b2, b3, _⟩ := gkey_parts (hne u rfl)
      simp only [gapVal, b1, b2, b3, ho, hf, logStats_veh, logStats_g]

/-! ## The RUN pass of a link -/

/-- Every vehicle comes after the vehicle ahead of it. -/
def Ordered (ps : List (ℕ × Option ℕ)) : Prop :=
  (∀ p ∈ ps, p.2 ≠ some p.1) ∧ ps.Pairwise (fun p q => p.2 ≠ some q.1)

theorem snapPairs_get {lanes : ℕ} {q : List ℕ} {j v : ℕ} (h : q[j]? = some v) :
    (v, if lanes ≤ j then q[j - lanes]? else none) ∈ snapPairs lanes q := by
  obtain ⟨hj, rfl⟩ := List.getElem?_eq_some_iff.1 h
  unfold snapPairs
  refine List.mem_map.2 ⟨j, List.mem_range.2 hj, ?_⟩
  simp [List.getD_eq_getElem?_getD, List.getElem?_eq_getElem hj]

theorem snapPairs_ordered {lanes : ℕ} (hl : 1 ≤ lanes) {q : List ℕ} (hq : q.Nodup) :
    Ordered (snapPairs lanes q) := by
  have key : ∀ i j, i ≤ j → j < q.length → (if lanes ≤ i then q[i - lanes]? else none) ≠ some (q.getD j 0) := by
    intro i j hij hj h
    split at h
    · rename_i hli
      have hlt : i - lanes < q.length := by omega
      rw [List.getElem?_eq_getElem hlt] at h
      rw [List.getD_eq_getElem?_getD, List.getElem?_eq_getElem hj] at h
      have := (List.Nodup.getElem_inj_iff hq).1 (Option.some.inj h)
      omega
    · simp at h
  refine ⟨fun p hp => ?_, ?_⟩
  · obtain ⟨i, hi, rfl⟩ := List.mem_map.1 hp
    exact key i i le_rfl (List.mem_range.1 hi)
  · unfold snapPairs
    rw [List.pairwise_map]
    refine List.Pairwise.imp_of_mem (fun {i j} hi hj hij => key i j (le_of_lt hij) (List.mem_range.1 hj))
      List.pairwise_lt_range

theorem snapPairs_snd {lanes : ℕ} {q : List ℕ} {p : ℕ × Option ℕ} (h : p ∈ snapPairs lanes q) {u : ℕ}
    (hu : p.2 = some u) : u ∈ q := by
  obtain ⟨i, hi, rfl⟩ := List.mem_map.1 h
  simp only at hu
  split at hu
  · exact List.mem_of_getElem? hu
  · simp at hu

theorem runFold_gaps {l : ℕ} (ps : List (ℕ × Option ℕ)) {W : CWorld} (hm : W.g.logMode = true)
    (i : Inv W none none)
    (hinc : ∀ n, (W.node n).incoming = []) (hnd : (ps.map Prod.fst).Nodup) (ho : Ordered ps)
    (hv : ∀ p ∈ ps, p.1 ∈ (W.link l).vehs ∧ ∀ m, p.1 ∉ (W.link m).arrived)
    (hex : ((ps.foldl (runVeh l) W).link l).exc = none) :
    (∀ w, w ∉ ps.map Prod.fst → ((ps.foldl (runVeh l) W).veh w).gkey = (W.veh w).gkey) ∧
    ∀ p ∈ ps, ((ps.foldl (runVeh l) W).veh p.1).state = .run → GapAt (ps.foldl (runVeh l) W) p.1 p.2 := by
  induction ps generalizing W with
  | nil => exact ⟨fun _ _ => rfl, by simp⟩
  | cons p ps ih =>
    have hrest := runFold_acts (p :: ps) i hinc hnd hv
    have he := Acts.exc (Or.inl rfl) hrest l hex
    simp only [List.foldl_cons] at hex ⊢
    obtain ⟨hp1, hp2⟩ := hv p (by simp)
    have hnd' : (ps.map Prod.fst).Nodup := by
      rw [List.map_cons] at hnd; exact (List.nodup_cons.1 hnd).2
    have hpn : p.1 ∉ ps.map Prod.fst := by
      rw [List.map_cons] at hnd; exact (List.nodup_cons.1 hnd).1
    have hne : ∀ q ∈ ps, q.1 ≠ p.1 := fun q hq e => hpn (e ▸ List.mem_map_of_mem hq)
    have hr : runVeh l W p = W.vehUpdate p.1 p.2 := by simp [runVeh, he]
    rw [hr] at hex ⊢
    have hu := i.vehRun (s := p.2) hinc hp1 hp2
    have hst := (i.mem l p.1 hp1).2.1
    have ho' : Ordered ps := ⟨fun q hq => ho.1 q (by simp [hq]), (List.pairwise_cons.1 ho.2).2⟩
    have hv' : ∀ q ∈ ps, q.1 ∈ ((W.vehUpdate p.1 p.2).link l).vehs ∧
        ∀ m, q.1 ∉ ((W.vehUpdate p.1 p.2).link m).arrived := fun q hq =>
      ⟨hu.mem q.1 (hne q hq) (hv q (by simp [hq])).1, fun m =>
          hu.arr q.1 (hne q hq) m ((hv q (by simp [hq])).2 m)⟩
    obtain ⟨a, b⟩ := ih (by rw [hu.keep.g]; exact hm) hu.inv hu.inc hnd' ho' hv' hex
    have kp := Acts.keep (runFold_acts ps hu.inv hu.inc hnd' hv')
    refine ⟨fun w hw => ?_, fun q hq hs => ?_⟩
    · rw [List.map_cons, List.mem_cons, not_or] at hw
      rw [a w hw.2, gkey_of (vehUpdate_mkey_ne W hst hw.1)]
    · rcases List.mem_cons.1 hq with e | e
      · subst e
        have hk := a q.1 hpn
        refine (vehUpdate_gap hm hst (ho.1 q (by simp)) (by rw [hu.keep.g]) ?_).congr (by rw [kp.g]) hk
          (fun u hu' => a u (fun hc => ?_))
        · rw [← (gkey_parts hk).1]; exact hs
        · obtain ⟨q', hq', e'⟩ := List.mem_map.1 hc
          exact (List.pairwise_cons.1 ho.2).1 q' hq' (by rw [hu', e'])
      · exact b q e hs

theorem runPass_gaps {l : ℕ} {W : CWorld} (hm : W.g.logMode = true) (r : Rest W) (hl : 1 ≤ (W.link l).lanes)
    (ha : Clear W l) (hex : ((W.runPass l).link l).exc = none) :
    (∀ w, w ∉ (W.link l).vehs → ((W.runPass l).veh w).gkey = (W.veh w).gkey) ∧
    ∀ p ∈ snapPairs (W.link l).lanes (W.link l).vehs,
      ((W.runPass l).veh p.1).state = .run → GapAt (W.runPass l) p.1 p.2 := by
  have hmap := snapPairs_map (W.link l).lanes (W.link l).vehs
  have := runFold_gaps (l := l) (snapPairs (W.link l).lanes (W.link l).vehs) hm r.inv r.inc
    (by rw [hmap]; exact r.inv.nd l) (snapPairs_ordered hl (r.inv.nd l)) (fun p hp => by
      have hm : p.1 ∈ (W.link l).vehs := by
        rw [← hmap]; exact List.mem_map_of_mem hp
      refine ⟨hm, fun m h => ?_⟩
      have := r.inv.uniq hm (r.inv.arr m p.1 h).1
      subst this
      rw [ha] at h; simp at h) hex
  rw [hmap] at this
  exact this

/-! ## The RUN passes of all links -/

/-- The RUN pass takes vehicles from the front of the queue that have ended their trip. -/
theorem Acts.runDrop {W W' : CWorld} (a : Acts .run W W') (m : ℕ) :
    ∃ k, (W'.link m).vehs = (W.link m).vehs.drop k ∧ ∀ u ∈ (W.link m).vehs.take k,
      (W'.veh u).state = .ended ∨ (W'.veh u).state = .abort := by
  induction a with
  | refl => exact ⟨0, by simp, by simp⟩
  | tail b c ih =>
    rename_i X Y
    obtain ⟨k, h1, h2⟩ := ih
    have keep : ∀ u, ((X.veh u).state = .ended ∨ (X.veh u).state = .abort) →
        (Y.veh u).state = .ended ∨ (Y.veh u).state = .abort := fun u hu => by
      rcases c.runState u with e | ⟨e, _⟩
      · rw [e]; exact hu
      · rw [e] at hu; simp at hu
    have same : (Y.link m).vehs = (X.link m).vehs → ∃ k, (Y.link m).vehs = (W.link m).vehs.drop k ∧
        ∀ u ∈ (W.link m).vehs.take k, (Y.veh u).state = .ended ∨ (Y.veh u).state = .abort := fun e =>
      ⟨k, by rw [e, h1], fun u hu => keep u (h2 u hu)⟩
    cases c with
    | log _ v l s i hv => exact same (core_vehs (core_logData X v s) m)
    | advance _ v l i hv => exact same rfl
    | abort _ v l i hv hd ho ha => exact same rfl
    | flag _ v l i hv hc => exact same rfl
    | endRun _ v l t i hq hna hi hf =>
      by_cases e : m = l
      · subst e
        have hv : ((X.endTripOn v m).veh v).state = .ended ∨ ((X.endTripOn v m).veh v).state = .abort := by
          rcases Act.runState (Act.endRun X v m t i hq hna hi hf) v with e | ⟨_, e⟩
          · exact absurd (e.trans (i.mem m v (by rw [hq]; simp)).2.1) (endTripOn_notRun X v m)
          · exact e
        refine ⟨k + 1, ?_, fun u hu => ?_⟩
        · rw [endTripOn_vehs, if_pos rfl, h1, List.tail_drop]
        · rw [List.take_succ, List.mem_append] at hu
          rcases hu with hu | hu
          · exact keep u (h2 u hu)
          · rw [Option.mem_toList] at hu
            have : (X.link m).vehs.head? = some u := by rw [h1, List.head?_drop]; exact hu
            rw [hq] at this
            obtain rfl := Option.some.inj this
            exact hv
      · exact same (by rw [endTripOn_vehs, if_neg e])
    | reqErr _ l e =>
      refine same ?_
      rw [setL_link]; split
      · rename_i e; subst e; rfl
      · rfl
    | req _ v l o rng i hv hd hc =>
      refine same ?_
      rw [setL_link]; split
      · rename_i e; subst e; rfl
      · rfl

theorem runAll_gaps (xs : List ℕ) (hnd : xs.Nodup) {W : CWorld} (hm : W.g.logMode = true) (r : Rest W)
    (hlt : ∀ l ∈ xs, 1 ≤ (W.link l).lanes)
    (hc : ∀ l ∈ xs, Clear W l) (hex : ∀ l ∈ xs, ((xs.foldl CWorld.runPass W).link l).exc = none) :
    (∀ w, (∀ l ∈ xs, w ∉ (W.link l).vehs) → ((xs.foldl CWorld.runPass W).veh w).gkey = (W.veh w).gkey) ∧
    ∀ l ∈ xs, ∀ p ∈ snapPairs (W.link l).lanes (W.link l).vehs,
      ((xs.foldl CWorld.runPass W).veh p.1).state = .run → GapAt (xs.foldl CWorld.runPass W) p.1 p.2 := by
  induction xs generalizing W with
  | nil => exact ⟨fun _ _ => rfl, by simp⟩
  | cons l t ih =>
    obtain ⟨hl, ht⟩ := List.nodup_cons.1 hnd
    have hcl := hc l (by simp)
    obtain ⟨a, b, c, d⟩ := r.inv.runPass (l := l) r.inc hcl
    have hct : ∀ m ∈ t, Clear (W.runPass l) m := fun m hm => by
      unfold Clear
      rw [d m (fun e => hl (e ▸ hm))]; exact hc m (by simp [hm])
    have a1 := runPass_acts r hcl
    have arest := runAll_acts t ht ⟨a, c⟩ hct
    rw [List.foldl_cons] at hex ⊢
    have he := Acts.exc (Or.inl rfl) arest l (hex l (by simp))
    obtain ⟨f, g⟩ := runPass_gaps hm r (hlt l (by simp)) hcl he
    have hq : ∀ m ∈ t, ((W.runPass l).link m).vehs = (W.link m).vehs := fun m hm => by
      obtain ⟨k, k1, k2⟩ := Acts.runDrop a1 m
      have h0 : (W.link m).vehs.take k = [] := List.eq_nil_iff_forall_not_mem.2 (fun u hu => by
        have hum := List.mem_of_mem_take hu
        have h1 := f u (fun hul => hl (by rw [r.inv.uniq hul hum]; exact hm))
        have h2 := k2 u hu
        rw [(gkey_parts h1).1, (r.inv.mem m u hum).2.1] at h2
        simp at h2)
      have := List.take_append_drop k (W.link m).vehs
      rw [h0, List.nil_append] at this
      rw [k1, this]
    have hla : ∀ m, ((W.runPass l).link m).lanes = (W.link m).lanes := fun m => b.lanes m
    obtain ⟨f', g'⟩ := ih ht (by rw [b.g]; exact hm) ⟨a, c⟩
      (fun m hm => by rw [hla]; exact hlt m (by simp [hm])) hct (fun m hm => hex m (by simp [hm]))
    refine ⟨fun w hw => ?_, fun m hm' p hp hs => ?_⟩
    · rw [f' w (fun m hm => by rw [hq m hm]; exact hw m (by simp [hm])), f w (hw l (by simp))]
    · rcases List.mem_cons.1 hm' with e | e
      · subst e
        have out : ∀ w, w ∈ (W.link m).vehs →
            ((t.foldl CWorld.runPass (W.runPass m)).veh w).gkey = ((W.runPass m).veh w).gkey := fun w hw =>
          f' w (fun m' hm' hw' => by
            rw [hq m' hm'] at hw'
            exact hl (by rw [r.inv.uniq hw hw']; exact hm'))
        have hpm : p.1 ∈ (W.link m).vehs := by
          rw [← snapPairs_map (W.link m).lanes (W.link m).vehs]; exact List.mem_map_of_mem hp
        refine (g p hp ?_).congr (by rw [(Acts.keep arest).g]) (out _ hpm) (fun u hu => out u (snapPairs_snd hp hu))
        rw [← (gkey_parts (out _ hpm)).1]; exact hs
      · refine g' m e p ?_ hs
        rw [hla, hq m e]; exact hp

/-! ## Time steps and runs -/

theorem GapsShown.of {W4 W5 : CWorld} {l : ℕ} (i : Inv W5 none none) (a : Acts .run W4 W5)
    (hnd : (W4.link l).vehs.Nodup) (h1l : 1 ≤ (W4.link l).lanes) (hl : (W5.link l).lanes = (W4.link l).lanes)
    (h : ∀ p ∈ snapPairs (W4.link l).lanes (W4.link l).vehs, (W5.veh p.1).state = .run → GapAt W5 p.1 p.2) :
    GapsShown W5 l := by
  intro j v hj
  obtain ⟨k, k1, k2⟩ := Acts.runDrop a l
  have hst := (i.mem l v (List.mem_of_getElem? hj)).2.1
  have hj4 : (W4.link l).vehs[k + j]? = some v := by
    rw [k1, List.getElem?_drop] at hj; exact hj
  obtain ⟨e, h1, h2, h3⟩ := h _ (snapPairs_get hj4) hst
  refine ⟨e, h1, h2, fun u hlj hu => ?_, fun hlj => ?_⟩
  · rw [hl] at hlj hu
    rw [k1, List.getElem?_drop] at hu
    have hrun := (i.mem l u (by rw [k1]; exact List.mem_of_getElem? (by rw [List.getElem?_drop]; exact hu))).2.1
    rw [h3, if_pos (by omega), show k + j - (W4.link l).lanes = k + (j - (W4.link l).lanes) by omega, hu]
    have hne : u ≠ v := fun e => by
      subst e
      obtain ⟨p1, p2⟩ := List.getElem?_eq_some_iff.1 hu
      obtain ⟨q1, q2⟩ := List.getElem?_eq_some_iff.1 hj4
      have := (List.Nodup.getElem_inj_iff hnd).1 (p2.trans q2.symm)
      omega
    simp only [gapVal, shownGap, hrun]
    by_cases hlt : v < u
    · rw [if_pos hlt, if_neg (by omega)]
    · rw [if_neg hlt, if_pos (by omega)]; simp
  · rw [hl] at hlj
    rw [h3]
    by_cases hk : (W4.link l).lanes ≤ k + j
    · rw [if_pos hk]
      have hb : k + j - (W4.link l).lanes < (W4.link l).vehs.length := by
        have := (List.getElem?_eq_some_iff.1 hj4).1; omega
      have hu := List.getElem?_eq_getElem hb
      generalize (W4.link l).vehs[k + j - (W4.link l).lanes] = u at hu
      have hend := k2 u (List.mem_of_getElem? (i := k + j - (W4.link l).lanes) (by
        rw [List.getElem?_take_of_lt (by omega)]; exact hu))
      rw [hu]
      by_cases hlt : u < v
      · left
        simp only [gapVal, if_pos hlt]
        rw [if_neg (by rintro ⟨p, q⟩; exact hend.elim p q)]
      · right
        have hne : u ≠ v := fun e => by subst e; rw [hst] at hend; simp at hend
        refine ⟨u, by omega, hend, ?_⟩
        simp only [gapVal, shownGap, if_neg hlt]
        rw [if_pos (by omega)]
    · left; rw [if_neg hk]; rfl

theorem GapsShown.congr {W W' : CWorld} {l : ℕ} (h : GapsShown W l) (i : Inv W none none)
    (hq : (W'.link l).vehs = (W.link l).vehs) (hl : (W'.link l).lanes = (W.link l).lanes)
    (hf : W'.g.fl = W.g.fl) (hk : ∀ w, (W.veh w).state ≠ .home → (W.veh w).state ≠ .wait →
      (W'.veh w).gkey = (W.veh w).gkey) : GapsShown W' l := by
  intro j v hj
  rw [hq] at hj
  have run : ∀ (j : ℕ) {w}, (W.link l).vehs[j]? = some w → (W'.veh w).gkey = (W.veh w).gkey := fun j w hw => by
    have := (i.mem l w (List.mem_of_getElem? hw)).2.1
    exact hk w (by rw [this]; simp) (by rw [this]; simp)
  obtain ⟨_, _, a3, a4⟩ := gkey_parts (run j hj)
  obtain ⟨e, h1, h2, h3, h4⟩ := h j v hj
  refine ⟨e, by rw [a4]; exact h1, by rw [a3]; exact h2, fun u hlj hu => ?_, fun hlj => ?_⟩
  · rw [hl] at hlj hu
    rw [hq] at hu
    obtain ⟨_, b2, b3, _⟩ := gkey_parts (run _ hu)
    rw [h3 u hlj hu]
    simp only [shownGap, a3, b2, b3, hf]
  · rw [hl] at hlj
    rcases h4 hlj with h | ⟨u, u1, u2, u3⟩
    · exact Or.inl h
    · obtain ⟨b1, b2, b3, _⟩ := gkey_parts (hk u (by rintro e; rw [e] at u2; simp at u2)
        (by rintro e; rw [e] at u2; simp at u2))
      exact Or.inr ⟨u, u1, by rw [b1]; exact u2, by rw [u3]; simp only [shownGap, a3, b2, b3, hf]⟩

theorem Acts.waitKeeps {W W' : CWorld} (a : Acts .wait W W') (w : ℕ) :
    (W'.veh w).state = (W.veh w).state ∧ ((W.veh w).state ≠ .wait → (W'.veh w).gkey = (W.veh w).gkey) := by
  induction a with
  | refl => exact ⟨rfl, fun _ => rfl⟩
  | tail b c ih =>
    cases c with
    | waitLog _ n v i hv =>
      rename_i X
      have hst := core_state (core_logData X v none) w
      refine ⟨hst.trans ih.1, fun hw => ?_⟩
      by_cases e : w = v
      · subst e
        exact absurd (ih.1.symm.trans ((i.gen n w).1 hv).2.1) hw
      · rw [logData_veh_of_ne _ _ _ _ e]; exact ih.2 hw

/-- The parallel region, if no exception was thrown. -/
theorem region_gaps {W : CWorld} (r : Rest W) (σ : Sched) (hσ : σ.Valid W) (hm : W.g.logMode = true)
    (hex : ∀ l, l < W.g.nLinks → ((region σ W).link l).exc = none) {l : ℕ} (hl : l < W.g.nLinks) :
    GapsShown (region σ W) l := by
  have hrun : σ.run.Nodup := hσ.2.2.2.1.nodup_iff.2 List.nodup_range
  unfold CWorld.region at hex ⊢
  obtain ⟨r1, k1⟩ := Rest.foldl (fun W l r => Rest.linkUpdate r l) σ.update r
  simp only at hex ⊢
  generalize σ.update.foldl CWorld.linkUpdate W = W1 at *
  obtain ⟨r2, k2⟩ := Rest.foldl (fun W n r => Rest.nodeStage r n) σ.gen r1
  generalize σ.gen.foldl CWorld.nodeStage W1 = W2 at *
  obtain ⟨r3, k3, c3⟩ := transferAll r2
  generalize (List.range W2.g.nNodes).foldl CWorld.transfer W2 = W3 at *
  have k13 := (k1.trans k2).trans k3
  obtain ⟨r4, k4⟩ := Rest.foldl (fun W l r => Rest.followPass r l) σ.follow r3
  have hc4 : (σ.follow.foldl CWorld.followPass W3).core = W3.core :=
    core_foldl _ (fun W l => core_followPass W l) σ.follow W3
  have c4 : ∀ l, Clear (σ.follow.foldl CWorld.followPass W3) l := fun l => by
    unfold Clear; rw [core_arrived hc4]; exact c3 l
  generalize σ.follow.foldl CWorld.followPass W3 = W4 at *
  have k14 := k13.trans k4
  obtain ⟨r5, k5⟩ := runAll σ.run hrun r4 (fun l _ => c4 l)
  have s5 := runAll_acts σ.run hrun r4 (fun l _ => c4 l)
  have s6 : Acts .wait (σ.run.foldl CWorld.runPass W4) (σ.wait.foldl CWorld.waitPass (σ.run.foldl CWorld.runPass W4)) :=
    foldl_acts (fun W n r => Rest.waitPass r n) (fun W n r => waitPass_acts r n) σ.wait r5
  have hrl : ∀ l ∈ σ.run, l < W.g.nLinks := fun l hl => List.mem_range.1 (hσ.2.2.2.1.mem_iff.1 hl)
  have hla : ∀ l, l < W.g.nLinks → 1 ≤ (W4.link l).lanes := fun l hl =>
    (r4.inv.ends l (by rw [k14.g]; exact hl)).2.2
  obtain ⟨_, g⟩ := runAll_gaps σ.run hrun (by rw [k14.g]; exact hm) r4 (fun l h => hla l (hrl l h))
    (fun l _ => c4 l) (fun l hl => Acts.exc (Or.inr rfl) s6 l (hex l (hrl l hl)))
  have h5 := GapsShown.of r5.inv s5 (r4.inv.nd l) (hla l hl) (k5.lanes l)
    (g l (hσ.2.2.2.1.mem_iff.2 (List.mem_range.2 hl)))
  have q6 := Acts.waitQuiet s6
  have k6 := Acts.keep s6
  exact GapsShown.congr h5 r5.inv (q6.1 l) (k6.lanes l) (by rw [k6.g]) (fun w _ hw =>
    (Acts.waitKeeps s6 w).2 hw)

/-- A completed time step. -/
theorem step_gaps {W : CWorld} (r : Rest W) {σ : Sched} (hσ : σ.Valid W) {home : List ℕ}
    (hnd : home.Nodup) (hh : ∀ v ∈ home, v < W.g.nVehs ∧ (W.veh v).state = .home) {W' : CWorld}
    (he : CWorld.stepWith σ home W = (W', none)) (hm : W.g.logMode = true) {l : ℕ} (hl : l < W.g.nLinks) :
    GapsShown W' l := by
  have hrun : σ.run.Nodup := hσ.2.2.2.1.nodup_iff.2 List.nodup_range
  have r0 : Rest W.clearExc := r.congr (core_clearExc W).symm
  obtain ⟨r1, k1⟩ := r0.region σ hrun
  have kk := (Keep.clearExc W).trans k1
  have reg := fun h => region_gaps r0 σ hσ hm h hl
  unfold CWorld.stepWith at he
  simp only at he
  generalize hW6 : CWorld.region σ W.clearExc = W6 at *
  split at he
  · simp at he
  rename_i hex
  have h6 := reg (fun l hl => firstExc_none hex l (by rw [kk.g]; exact hl))
  have hx : ∀ v ∈ home, v < W6.g.nVehs ∧ (W6.veh v).state = .home := fun v hv => by
    rw [kk.g, kk.home v (hh v hv).2]; exact hh v hv
  obtain ⟨r7, s7, g7, o7⟩ := r1.homePass home hnd hx
  have q7 := homePass_quiet home hnd r1 hx
  obtain rfl := congrArg Prod.fst he
  simp only at r7 s7 g7 o7 q7 ⊢
  generalize home.foldl (fun (W : CWorld) v => W.vehUpdate v none) W6 = W7 at *
  have h7 : GapsShown W7 l := GapsShown.congr h6 r1.inv (q7.1 l) (s7.lanes l) (by rw [g7]) (fun w hw _ => by
    rw [o7 w (fun h => hw (hx w h).2)])
  have hf := routeStep_fix W7.reconcile
  obtain ⟨sp, hv, _⟩ := routeStep_same W7.reconcile
  refine GapsShown.congr h7 r7.inv ((endStep_quiet W7).1 l) ?_ (CGlob.fix_fl hf) (fun w _ _ => by rw [hv]; rfl)
  rw [sp.lanes]
  simp only [CWorld.reconcile]; split <;> rfl

theorem loop_gaps {sched : ℕ → CWorld → Sched} (hs : ∀ t V, (sched t V).Valid V)
    {b : ℕ → List ℕ} (hb : ∀ t, (b t).Nodup) (hd : ∀ s t v, s ≠ t → v ∈ b s → v ∉ b t) (k : ℕ)
    {W W' : CWorld} (r : Rest W)
    (hh : ∀ t, W.g.timestep ≤ t → ∀ v ∈ b t, v < W.g.nVehs ∧ (W.veh v).state = .home)
    (hW : CWorld.loopFrom sched b k W = (W', none)) (hm : W.g.logMode = true) (hk : 0 < k) {l : ℕ}
    (hl : l < W.g.nLinks) : GapsShown W' l := by
  induction k generalizing W with
  | zero => omega
  | succ k ih =>
    have hv := hs W.g.timestep W
    have hns : (sched W.g.timestep W).run.Nodup := hv.2.2.2.1.nodup_iff.2 List.nodup_range
    obtain ⟨r1, k1⟩ := r.stepWith (sched W.g.timestep W) hns (b W.g.timestep) (hb _) (hh _ le_rfl)
    obtain ⟨k2, _⟩ := r.stepWith2 (sched W.g.timestep W) hns (b W.g.timestep) (hb _) (hh _ le_rfl)
    rw [CWorld.loopFrom] at hW
    cases he : CWorld.stepWith (sched W.g.timestep W) (b W.g.timestep) W with
    | mk W1 e =>
      rw [he] at r1 k1 k2 hW
      simp only at r1 k1 k2 hW
      cases e with
      | some e => simp at hW
      | none =>
        simp only at hW
        have h1 := step_gaps r hv (hb _) (hh _ le_rfl) he hm hl
        have hh1 : ∀ t, W.g.timestep + 1 ≤ t → ∀ v ∈ b t, v < W1.g.nVehs ∧ (W1.veh v).state = .home := by
          intro t ht v hv
          obtain ⟨p, q⟩ := hh t (by omega) v hv
          have hv' := k1.home v (fun h => hd _ _ v (by omega) h hv) q
          exact ⟨by rw [k1.nVehs]; exact p, by rw [hv']; exact q⟩
        by_cases hk0 : k = 0
        · subst hk0
          rw [CWorld.loopFrom] at hW
          obtain rfl := congrArg Prod.fst hW
          exact h1
        · exact ih (W := { W1 with g := { W1.g with timestep := W.g.timestep + 1 } })
            (r1.setG _ rfl rfl rfl rfl rfl) hh1 hW (by
              show W1.g.logMode = true
              rw [CGlob.fix_logMode k2.fix]; exact hm) (by omega) (by
              show l < W1.g.nLinks
              rw [CGlob.fix_nLinks k2.fix]; exact hl)

theorem main_gaps {sched : ℕ → CWorld → Sched} (hs : ∀ t V, (sched t V).Valid V) {W W' : CWorld}
    (r : Rest W) {endTs : ℕ} (hr : W.mainLoop sched endTs = (W', none)) (hm : W.g.logMode = true)
    (ht : W.g.timestep < W'.g.timestep) {l : ℕ} (hl : l < W.g.nLinks) : GapsShown W' l := by
  have hk := (mainLoop_keep r (fun t V _ => (hs t V).2.2.2.1.nodup_iff.2 List.nodup_range) hr).2
  exact loop_gaps hs (fun t => bucket_nodup W _ t) (fun s t v hne h h' =>
    hne ((mem_bucket.1 h).2.2.symm.trans (mem_bucket.1 h').2.2)) _ r (fun t _ v hv =>
    ⟨(mem_bucket.1 hv).1, (mem_bucket.1 hv).2.1⟩) hr hm (by omega) hl

end UX.Cpp
