import Verif.Proofs.CppLife

/-!
# Ended trips and queues of the C++ engine, action by action
-/

namespace UX.Cpp
open CWorld Relation

/-- The trip of the vehicle is over. -/
def CVeh.over (V : CVeh) : Prop := V.state = .ended ∨ V.state = .abort

/-- Ended trips as a link knows them. -/
def CLink.ends (L : CLink) : ℚ × List ℕ := (L.trips, L.ended)

/-- At most one trip ends, of a vehicle that was waiting for that on its link. -/
inductive EndCh (W W' : CWorld) : Prop
  | none (h : ∀ m, (W'.link m).ends = (W.link m).ends)
      (hv : ∀ w, (W'.veh w).over ↔ (W.veh w).over)
  | one (v l : ℕ) (hv : OnRun W v l) (hf : (W.veh v).flagWait = true)
      (hs : (W'.veh v).state = if (W.veh v).flagAbort then .abort else .ended)
      (h : ∀ m, (W'.link m).ends = if m = l then (W.g.fl ((W.link l).trips + 1), (W.link l).ended ++ [v])
        else (W.link m).ends)
      (ho : ∀ w, w ≠ v → ((W'.veh w).over ↔ (W.veh w).over))

theorem setL_ends {W : CWorld} {l : ℕ} {f : CLink → CLink} (h : ∀ L, (f L).ends = L.ends) (m : ℕ) :
    ((W.setL l f).link m).ends = (W.link m).ends := by
  rw [setL_link]; split
  · rename_i e; rw [h, e]
  · rfl

theorem logData_ends (W : CWorld) (v : ℕ) (s : Option ℕ) (m : ℕ) :
    ((W.logData v s).link m).ends = (W.link m).ends := by
  have h1 : ((W.logStats v).link m).ends = (W.link m).ends := by
    unfold logStats
    split
    · refine setL_ends ?_ m; intro L; rfl
    · rfl
    · rfl
  unfold logData logPush
  split
  · exact h1
  · exact h1

theorem endTripOn_ends (W : CWorld) (v l m : ℕ) : ((W.endTripOn v l).link m).ends =
    if m = l then (W.g.fl ((W.link l).trips + 1), (W.link l).ended ++ [v]) else (W.link m).ends := by
  simp only [CWorld.endTripOn]
  rw [logData_ends, setV_link, detach_link, setL_link]
  split
  · rename_i e; subst e; rfl
  · rfl

theorem noLog_state {V V' : CVeh} (h : V.noLog = V'.noLog) : V.state = V'.state :=
  show V.noLog.state = V'.noLog.state by rw [h]

theorem over_congr {V V' : CVeh} (h : V.state = V'.state) : V.over ↔ V'.over := by
  unfold CVeh.over; rw [h]

theorem endTripOn_endCh {W : CWorld} {v l : ℕ} (hv : OnRun W v l)
    (hf : (W.veh v).flagWait = true) : EndCh W (W.endTripOn v l) :=
  .one v l hv hf (noLog_state (endTripOn_veh_self W v l)) (endTripOn_ends W v l)
    (fun w hw => over_congr (by rw [endTripOn_veh_ne W v l w hw]))

/-- An action that touches no ended trip: enough that states and the records of the links stay. -/
theorem EndCh.keep {W W' : CWorld} (h : ∀ m, (W'.link m).ends = (W.link m).ends)
    (hv : ∀ w, (W'.veh w).state = (W.veh w).state) : EndCh W W' :=
  .none h (fun w => over_congr (hv w))

theorem leave_ends (W : CWorld) (n v a b m : ℕ) :
    ((W.leave n v a b).link m).ends = (W.link m).ends := by
  rw [leave_link]
  refine (setL_ends ?_ m).trans (setL_ends ?_ m)
  · intro L; rfl
  · intro L; rfl

theorem moveVeh_endCh {W : CWorld} {n v a b : ℕ} {t : List ℕ} (k : AtNode n W)
    (hq : (W.link a).vehs = v :: t) : EndCh W (W.moveVeh n v a b) := by
  have i := k.inv
  have hvv : (W.moveVeh n v a b).veh = ((W.moved n v a b).endFront a).1.veh := rfl
  have hl : ∀ m, ((W.moveVeh n v a b).link m).ends = (((W.moved n v a b).endFront a).1.link m).ends := by
    intro m
    rw [moveVeh_eq, setN_link]
    refine setL_ends ?_ m; intro L; rfl
  have hm : ∀ m, ((W.moved n v a b).link m).ends = (W.link m).ends := fun m => by
    rw [moved_link]; exact leave_ends W n v a b m
  obtain ⟨ln, ld, q, ev⟩ := moved_veh_self (n := n) (b := b) i hq
  have hst : ∀ w, ((W.moved n v a b).veh w).state = (W.veh w).state := by
    intro w
    by_cases hw : w = v
    · subst hw; rw [ev]
    · rw [moved_veh_other (n := n) (b := b) i hq w hw]
  rcases moved_endFront (n := n) (b := b) i hq with e | ⟨h, t', e1, hne, hfh, e⟩
  · rw [e] at hvv hl
    exact .keep (fun m => (hl m).trans (hm m)) (fun w => by rw [hvv]; exact hst w)
  · rw [e] at hvv hl
    have hha : h ∈ (W.link a).vehs := by rw [hq, e1]; simp
    have eh := moved_veh_other (n := n) (b := b) i hq h hne
    refine .one h a (i.onRun hha) hfh ?_ (fun m => ?_) (fun w hw => ?_)
    · rw [hvv, noLog_state (endTripOn_veh_self (W.moved n v a b) h a), eh]
    · rw [hl, endTripOn_ends, moved_g, hm m]
      have h1 : ((W.moved n v a b).link a).trips = (W.link a).trips := congrArg (·.1) (hm a)
      have h2 : ((W.moved n v a b).link a).ended = (W.link a).ended := congrArg (·.2) (hm a)
      rw [h1, h2]
    · rw [hvv, endTripOn_veh_ne _ _ _ _ hw]
      exact over_congr (hst w)

theorem Act.ends {s : Stage} {W W' : CWorld} (h : Act s W W') : EndCh W W' := by
  cases h with
  | genErr _ n e => exact .keep (fun _ => rfl) (fun _ => rfl)
  | choose _ n v t o rng i hi hq hc =>
    refine .keep (fun _ => rfl) (fun w => ?_)
    rw [setV_veh]; split
    · rename_i e; subst e; rfl
    · rfl
  | depart _ n v l t i hi hq hl hn hc =>
    have hst := ((i.gen n v).1 (by rw [hq]; simp)).2.1
    refine .none (fun m => ?_) (fun w => ?_)
    · simp only [CWorld.depart]
      refine (setL_ends ?_ m).trans ?_
      · intro L; rfl
      · rw [attach_link]; rfl
    · have hc := depart_ch i hq hl hn w
      by_cases hw : w = v
      · subst hw
        have : ((W.depart n w l).veh w).state = .run := by
          simp only [CWorld.depart, setL_veh]
          obtain ⟨p, q, r, e⟩ := attach_fix ((W.setN n (fun N =>
            { N with genQ := N.genQ.tail, runBuf := N.runBuf ++ [w] })).setV w (fun V => { V with
              state := .run, link := some l, x := 0, v := (W.link l).vmax, arrTimeLink := W.now
              visited := upd V.visited (W.link l).src true, count := V.count + 1 })) w l w
          rw [e, setV_veh, if_pos rfl]
        unfold CVeh.over
        rw [this, hst]; simp
      · obtain ⟨p, q, r, e⟩ := attach_fix ((W.setN n (fun N =>
            { N with genQ := N.genQ.tail, runBuf := N.runBuf ++ [v] })).setV v (fun V => { V with
              state := .run, link := some l, x := 0, v := (W.link l).vmax, arrTimeLink := W.now
              visited := upd V.visited (W.link l).src true, count := V.count + 1 })) v l w
        refine over_congr ?_
        simp only [CWorld.depart, setL_veh]
        rw [e, setV_veh, if_neg hw]
        rfl
  | signal _ n => exact .keep (fun _ => rfl) (fun _ => rfl)
  | flow _ n => exact .keep (fun _ => rfl) (fun _ => rfl)
  | collect _ n i hi =>
    refine .keep (fun m => ?_) (fun w => by rw [collect_veh])
    rw [collect_link]; split <;> rfl
  | draw _ n rng => exact .keep (fun _ => rfl) (fun _ => rfl)
  | move _ n v a b t k ha hq hb hn hf hc hr ho hs => exact moveVeh_endCh k hq
  | endFront _ v l t i hq hna hni hf => exact endTripOn_endCh (i.onRun (by rw [hq]; simp)) hf
  | finish _ n => exact .keep (fun _ => rfl) (fun _ => rfl)
  | follow _ v l i hv =>
    refine .keep (fun m => ?_) (fun w => core_state (core_carFollow W v) w)
    unfold carFollow; split
    · rfl
    · split <;> rfl
  | log _ v l s i hv => exact .keep (logData_ends W v s) (fun w => noLog_state (logData_noLog W v s w))
  | advance _ v l i hv => exact .keep (fun _ => rfl) (fun w => core_state (core_advance W v) w)
  | abort _ v l i hv hd ho ha =>
    refine .keep (fun _ => rfl) (fun w => ?_)
    rw [setV_veh]; split
    · rename_i e; subst e; rfl
    · rfl
  | flag _ v l i hv hc =>
    refine .keep (fun _ => rfl) (fun w => ?_)
    rw [setV_veh]; split
    · rename_i e; subst e; rfl
    · rfl
  | endRun _ v l t i hq hna hi hf => exact endTripOn_endCh (i.onRun (by rw [hq]; simp)) hf
  | reqErr _ l e => exact .keep (setL_ends (fun _ => rfl)) (fun _ => rfl)
  | req _ v l o rng i hv hd hc =>
    refine .keep (fun m => ?_) (fun w => ?_)
    · refine (setL_ends ?_ m).trans rfl
      intro L; rfl
    · rw [setL_veh, setV_veh]; split
      · rename_i e; subst e; rfl
      · rfl
  | waitLog _ n v i hv => exact .keep (logData_ends W v none) (fun w => noLog_state (logData_noLog W v none w))

end UX.Cpp
