import Verif.Proofs.CppKinStay
import Verif.Proofs.CppEntries
import Verif.Spec.CppLanes

/-!
# The lanes of the vehicles on a link
-/

namespace UX.Cpp
open CWorld Relation Spec

theorem Spec.Turns.congr {k : ℕ} {q : List ℕ} {f g : ℕ → ℕ} (h : Turns k q f) (e : ∀ v ∈ q, g v = f v) :
    Turns k q g := by
  refine ⟨fun v hv => by rw [e v hv]; exact h.range v hv, fun i u w hu hw => ?_⟩
  rw [e u (List.mem_of_getElem? hu), e w (List.mem_of_getElem? hw)]
  exact h.next i u w hu hw

theorem Spec.Turns.pop {k : ℕ} {q : List ℕ} {f : ℕ → ℕ} (h : Turns k q f) : Turns k q.tail f := by
  refine ⟨fun v hv => h.range v (List.mem_of_mem_tail hv), fun i u w hu hw => ?_⟩
  rw [List.getElem?_tail] at hu hw
  exact h.next (i + 1) u w hu hw

theorem Spec.Turns.push {k : ℕ} {q : List ℕ} {f : ℕ → ℕ} {v : ℕ} (h : Turns k q f) (hk : 1 ≤ k) (hr : f v < k)
    (hn : ∀ u, q.getLast? = some u → f v = (f u + 1) % k) : Turns k (q ++ [v]) f := by
  refine ⟨fun w hw => ?_, fun i u w hu hw => ?_⟩
  · rcases List.mem_append.1 hw with hw | hw
    · exact h.range w hw
    · rw [List.mem_singleton.1 hw]; exact hr
  · have hlt : i + 1 < (q ++ [v]).length := (List.getElem?_eq_some_iff.1 hw).1
    rw [List.length_append, List.length_singleton] at hlt
    rw [List.getElem?_append_left (by omega)] at hu
    by_cases e : i + 1 < q.length
    · rw [List.getElem?_append_left e] at hw
      exact h.next i u w hu hw
    · have e' : q.length = i + 1 := by omega
      rw [List.getElem?_append_right (by omega), e'] at hw
      simp only [Nat.sub_self, List.getElem?_cons_zero, Option.some.injEq] at hw
      subst hw
      refine hn u ?_
      rw [List.getLast?_eq_getElem?, e', Nat.add_sub_cancel]; exact hu

/-- The lanes of all links are taken in turn. -/
def Turned (W : CWorld) : Prop :=
  ∀ l, Turns (W.link l).lanes (W.link l).vehs (fun v => (W.veh v).lane)

theorem Turned.calm {W W' : CWorld} (h : Turned W)
    (hl : ∀ m, (W'.link m).vehs = (W.link m).vehs ∧ (W'.link m).lanes = (W.link m).lanes)
    (hv : ∀ w, (W'.veh w).lane = (W.veh w).lane) : Turned W' := by
  intro l
  rw [(hl l).1, (hl l).2]
  exact (h l).congr (fun v _ => hv v)

theorem newLane_lt {W : CWorld} {l : ℕ} (h : 1 ≤ (W.link l).lanes) : W.newLane l < (W.link l).lanes := by
  unfold newLane
  split
  · exact Nat.mod_lt _ h
  · exact h

theorem endTripOn_turned {W : CWorld} (h : Turned W) {v l : ℕ} (hl : (W.link l).vehs.head? = some v)
    (hv : ∀ m, v ∈ (W.link m).vehs → m = l) (hnd : (W.link l).vehs.Nodup) (kp : SamePar W (W.endTripOn v l)) :
    Turned (W.endTripOn v l) := by
  intro m
  rw [endTripOn_vehs, kp.lanes]
  have hne : ∀ w ∈ (if m = l then (W.link l).vehs.tail else (W.link m).vehs), w ≠ v := by
    intro w hw e
    subst e
    split at hw
    · cases hq : (W.link l).vehs with
      | nil => rw [hq] at hw; simp at hw
      | cons a t =>
        rw [hq] at hw hl hnd
        simp only [List.head?_cons, Option.some.injEq] at hl
        subst hl
        exact (List.nodup_cons.1 hnd).1 hw
    · rename_i e
      exact e (hv m hw)
  have hlane : ∀ w ∈ (if m = l then (W.link l).vehs.tail else (W.link m).vehs),
      ((W.endTripOn v l).veh w).lane = (W.veh w).lane := fun w hw => by
    rw [endTripOn_veh_ne W v l w (hne w hw)]
  refine Turns.congr ?_ hlane
  split
  · rename_i e; subst e; exact (h m).pop
  · exact h m

theorem endTripOn_turned' {W : CWorld} (i : Inv W none none) (h : Turned W) {v l : ℕ} {t : List ℕ}
    (hq : (W.link l).vehs = v :: t) (kp : SamePar W (W.endTripOn v l)) : Turned (W.endTripOn v l) := by
  have hva : v ∈ (W.link l).vehs := by rw [hq]; simp
  exact endTripOn_turned h (by rw [hq]; rfl) (fun m hm => i.uniq hm hva) (i.nd l) kp

theorem setL_calm {W : CWorld} {l : ℕ} {f : CLink → CLink}
    (h : ∀ L, (f L).vehs = L.vehs ∧ (f L).lanes = L.lanes) (m : ℕ) :
    ((W.setL l f).link m).vehs = (W.link m).vehs ∧ ((W.setL l f).link m).lanes = (W.link m).lanes := by
  rw [setL_link]; split
  · rename_i e; subst e; exact h _
  · exact ⟨rfl, rfl⟩

theorem setV_lane {W : CWorld} {v : ℕ} {f : CVeh → CVeh} (h : ∀ V, (f V).lane = V.lane) (w : ℕ) :
    ((W.setV v f).veh w).lane = (W.veh w).lane := by
  rw [setV_veh]; split
  · rename_i e; subst e; exact h _
  · rfl

theorem logData_turned {W : CWorld} (h : Turned W) (v : ℕ) (s : Option ℕ) (kp : SamePar W (W.logData v s)) :
    Turned (W.logData v s) := by
  refine h.calm (fun m => ⟨core_vehs (core_logData W v s) m, kp.lanes m⟩) (fun w => ?_)
  have a := congrArg (fun V : CVeh => V.lane) (logData_noLog W v s w)
  exact a

theorem depart_turned {W : CWorld} {n v l : ℕ} {t : List ℕ} (i : Inv W none none)
    (hq : (W.node n).genQ = v :: t) (hl : l ∈ (W.node n).outLinks) (h : Turned W)
    (kp : SamePar W (W.depart n v l)) : Turned (W.depart n v l) := by
  obtain ⟨hvn, hst, hor⟩ := (i.gen n v).1 (by rw [hq]; simp)
  have hnot : ∀ m, v ∉ (W.link m).vehs := fun m hm => by
    have := (i.mem m v hm).2.1; rw [hst] at this; simp at this
  have hlanes := (i.ends l ((i.outL n l).1 hl).1).2.2
  have hlane : ∀ w, ((W.depart n v l).veh w).lane = if w = v then W.newLane l else (W.veh w).lane := by
    intro w
    simp only [CWorld.depart, setL_veh]
    rw [attach_veh _ _ _ _ (by simpa using hnot l)]
    simp only [setV_veh, setN_veh]
    split
    · rename_i e; subst e
      unfold newLane
      simp only [setV_link, setN_link, setV_veh, setN_veh]
      cases hlast : (W.link l).vehs.getLast? with
      | none => rfl
      | some u =>
        simp only
        rw [if_neg (fun e : u = w => hnot l (e ▸ List.mem_of_getLast? hlast))]
    · rfl
  have hold : ∀ m, Turns (W.link m).lanes (W.link m).vehs (fun w => ((W.depart n v l).veh w).lane) :=
    fun m => (h m).congr (fun w hw => by
      rw [hlane, if_neg (fun e : w = v => hnot m (e ▸ hw))])
  intro m
  rw [depart_vehs, kp.lanes]
  split
  · rename_i e; subst e
    refine (hold m).push hlanes ?_ (fun u hu => ?_)
    · simp only [hlane, if_pos]; exact newLane_lt hlanes
    · simp only [hlane]
      rw [if_pos trivial, if_neg (fun e : u = v => hnot m (e ▸ List.mem_of_getLast? hu))]
      unfold newLane; rw [hu]
  · exact hold m

theorem moveVeh_turned {W : CWorld} {n v a b : ℕ} {t : List ℕ} (i : Inv W none none)
    (hq : (W.link a).vehs = v :: t) (hb : b ∈ (W.node n).outLinks) (h : Turned W)
    (kp : SamePar W (W.moveVeh n v a b)) : Turned (W.moveVeh n v a b) := by
  have hva : v ∈ (W.link a).vehs := by rw [hq]; simp
  have hnd := i.nd a
  rw [hq] at hnd
  have hlanes := (i.ends b ((i.outL n b).1 hb).1).2.2
  have hMm : ∀ m w, w ∈ ((W.moved n v a b).link m).vehs → w ∈ (W.link m).vehs ∧ w ≠ v := fun m w hw => by
    rw [moved_link, leave_link_vehs] at hw
    split at hw
    · rename_i e; subst e
      refine ⟨List.mem_of_mem_tail hw, fun e => ?_⟩
      rw [hq, List.tail_cons] at hw; exact (List.nodup_cons.1 hnd).1 (e ▸ hw)
    · rename_i e
      exact ⟨hw, fun h => e (i.uniq (h ▸ hw) hva)⟩
  have hlan : ∀ m, ((W.moved n v a b).link m).lanes = (W.link m).lanes := fun m => by
    rw [moved_link]; exact (leave_par W n v a b m).2.2
  -- the vehicle that moves
  have hself : ((W.moved n v a b).veh v).lane < (W.link b).lanes ∧
      ∀ u, ((W.moved n v a b).link b).vehs.getLast? = some u →
        ((W.moved n v a b).veh v).lane = ((W.veh u).lane + 1) % (W.link b).lanes := by
    have hvb : v ∉ ((W.leave n v a b).link b).vehs := by
      intro hv; rw [← moved_link] at hv; exact (hMm b v hv).2 rfl
    have e : ((W.moved n v a b).veh v).lane = (W.leave n v a b).newLane b := by
      simp only [CWorld.moved, place, setV_veh, if_pos]
      rw [attach_veh _ _ _ _ hvb]
      simp only [if_pos]
    have el := (leave_par W n v a b b).2.2
    rw [e]
    refine ⟨by rw [← el]; exact newLane_lt (by rw [el]; exact hlanes), fun u hu => ?_⟩
    have hm := (hMm b u (List.mem_of_getLast? hu)).2
    rw [moved_link] at hu
    unfold newLane
    rw [hu, el]
    simp only
    rw [leave_veh, if_neg hm, detach_veh]
  have hM : Turned (W.moved n v a b) := by
    intro m
    rw [hlan]
    refine Turns.congr (f := fun w => (W.veh w).lane) ?_ (fun w hw => by
      rw [moved_veh_other (n := n) (b := b) i hq w (hMm m w hw).2])
    rw [moved_link, leave_link_vehs]
    split
    · rename_i e; subst e; exact (h m).pop
    · exact h m
  have hfin : ∀ (X : CWorld), X = ((W.moved n v a b).endFront a).1 →
      Turned X ∧ (X.veh v).lane = ((W.moved n v a b).veh v).lane ∧ (∀ m, (X.link m).lanes = (W.link m).lanes) ∧
      (∀ m w, w ∈ (X.link m).vehs → w ≠ v ∧ (X.veh w).lane = (W.veh w).lane) ∧
      ∀ u, (X.link b).vehs.getLast? = some u → ((W.moved n v a b).link b).vehs.getLast? = some u := by
    intro X hX
    rcases moved_endFront (n := n) (b := b) i hq with e | ⟨h1, t', e1, hne, hfh, e⟩
    · rw [e] at hX; subst hX
      exact ⟨hM, rfl, hlan, fun m w hw => ⟨(hMm m w hw).2, by
        rw [moved_veh_other (n := n) (b := b) i hq w (hMm m w hw).2]⟩, fun u hu => hu⟩
    · rw [e] at hX
      have hfr : ((W.moved n v a b).link a).vehs = h1 :: t' := by rw [moved_front i hq, e1]
      have hun : ∀ m, h1 ∈ ((W.moved n v a b).link m).vehs → m = a := fun m hm =>
        i.uniq (hMm m h1 hm).1 (hMm a h1 (by rw [hfr]; simp)).1
      have hpar : ∀ m, (X.link m).lanes = ((W.moved n v a b).link m).lanes := fun m => by
        have := kp.lanes m
        rw [hX, ← e, hlan, ← this]
        rw [moveVeh_eq, setN_link, setL_link]
        split
        · rename_i e; subst e; rfl
        · rfl
      have hvl : (X.veh v).lane = ((W.moved n v a b).veh v).lane := by
        rw [hX, endTripOn_veh_ne _ _ _ _ (Ne.symm hne)]
      have hmem : ∀ m w, w ∈ (X.link m).vehs → w ∈ ((W.moved n v a b).link m).vehs ∧ w ≠ h1 := fun m w hw => by
        rw [hX, endTripOn_vehs] at hw
        split at hw
        · rename_i em; subst em
          refine ⟨List.mem_of_mem_tail hw, fun ew => ?_⟩
          rw [hfr, List.tail_cons] at hw
          have := List.nodup_cons.1 hnd
          rw [e1] at this
          exact (List.nodup_cons.1 this.2).1 (ew ▸ hw)
        · rename_i em
          exact ⟨hw, fun ew => em (hun m (ew ▸ hw))⟩
      refine ⟨?_, hvl, fun m => (hpar m).trans (hlan m), fun m w hw => ?_, fun u hu => ?_⟩
      · intro m
        rw [hpar]
        refine Turns.congr (f := fun w => ((W.moved n v a b).veh w).lane) ?_ (fun w hw => by
          rw [hX, endTripOn_veh_ne _ _ _ _ (hmem m w hw).2])
        rw [hX, endTripOn_vehs]
        split
        · rename_i em; subst em; exact (hM m).pop
        · exact hM m
      · have hw' := (hMm m w (hmem m w hw).1).2
        refine ⟨hw', ?_⟩
        rw [hX, endTripOn_veh_ne _ _ _ _ (hmem m w hw).2, moved_veh_other (n := n) (b := b) i hq w hw']
      · rw [hX, endTripOn_vehs] at hu
        split at hu
        · rename_i em; subst em
          cases hl : ((W.moved n v b b).link b).vehs with
          | nil => rw [hl] at hu; simp at hu
          | cons c s =>
            rw [hl, List.tail_cons] at hu
            cases s with
            | nil => simp at hu
            | cons d s => rw [List.getLast?_cons_cons]; exact hu
        · exact hu
  obtain ⟨hT, hl1, hl2, hl3, hl4⟩ := hfin _ rfl
  have hvehs : ∀ m, ((W.moveVeh n v a b).link m).vehs =
      if m = b then (((W.moved n v a b).endFront a).1.link b).vehs ++ [v]
      else (((W.moved n v a b).endFront a).1.link m).vehs := by
    intro m
    rw [moveVeh_eq, setN_link, setL_link]; split <;> rfl
  have hveh : (W.moveVeh n v a b).veh = ((W.moved n v a b).endFront a).1.veh := rfl
  intro m
  rw [hveh, hvehs, kp.lanes, ← hl2]
  split
  · rename_i e; subst e
    refine (hT m).push (by rw [hl2]; exact hlanes) ?_ (fun u hu => ?_)
    · simp only [hl1, hl2]; exact hself.1
    · simp only [hl1, hl2]
      rw [(hl3 m u (List.mem_of_getLast? hu)).2]
      exact hself.2 u (hl4 u hu)
  · exact hT m

theorem Act.turned {s : Stage} {W W' : CWorld} (a : Act s W W') (h : Turned W) : Turned W' := by
  have kp := a.keep.samePar
  cases a with
  | genErr _ n e => exact h
  | choose _ n v t o rng i hi hq hc =>
    exact h.calm (fun m => ⟨rfl, rfl⟩) (setV_lane (W := W.setN n (fun N => { N with rng := rng })) (fun V => rfl))
  | depart _ n v l t i hi hq hl hn hc => exact depart_turned i hq hl h kp
  | signal _ n => exact h
  | flow _ n => exact h
  | collect _ n i hi =>
    exact h.calm (fun m => ⟨by rw [collect_link]; split <;> rfl, kp.lanes m⟩) (fun w => by rw [collect_veh])
  | draw _ n rng => exact h
  | move _ n v a b t k ha hq hb => exact moveVeh_turned k.inv hq hb h kp
  | endFront _ v l t i hq => exact endTripOn_turned' i h hq kp
  | finish _ n => exact h
  | follow _ v l i hv =>
    refine h.calm (fun m => ⟨?_, kp.lanes m⟩) (fun w => ?_)
    · unfold CWorld.carFollow; split
      · rfl
      · split <;> rfl
    · unfold CWorld.carFollow; split
      · rfl
      · split <;> exact setV_lane (by intro V; rfl) w
  | log _ v l s i hv => exact logData_turned h v s kp
  | advance _ v l i hv =>
    refine h.calm (fun m => ⟨rfl, rfl⟩) (fun w => ?_)
    unfold CWorld.advance; exact setV_lane (by intro V; rfl) w
  | abort _ v l i hv hd ho ha => exact h.calm (fun m => ⟨rfl, rfl⟩) (setV_lane (fun V => rfl))
  | flag _ v l i hv hc => exact h.calm (fun m => ⟨rfl, rfl⟩) (setV_lane (fun V => rfl))
  | endRun _ v l t i hq => exact endTripOn_turned' i h hq kp
  | reqErr _ l e => exact h.calm (setL_calm (fun L => ⟨rfl, rfl⟩)) (fun w => rfl)
  | req _ v l o rng i hv hd hc =>
    exact h.calm (setL_calm (W := W.setV v (fun V => { V with next := o })) (fun L => ⟨rfl, rfl⟩))
      (setV_lane (W := W) (v := v) (f := fun V => { V with next := o }) (fun V => rfl))
  | waitLog _ n v i hv => exact logData_turned h v none kp

theorem homeUpdate_turned {W : CWorld} (h : Turned W) {v : ℕ} (hs : (W.veh v).state = .home) :
    Turned (W.vehUpdate v none) := by
  have hl := logData_turned h v none (samePar_logData W v none).1
  have h1 : ((W.logData v none).veh v).state = .home := by rw [noLog_state (logData_noLog W v none v)]; exact hs
  simp only [CWorld.vehUpdate, h1]
  split
  · exact hl.calm (fun m => ⟨rfl, rfl⟩)
      (setV_lane (W := W.logData v none) (v := v) (f := fun V => { V with state := .wait }) (fun V => rfl))
  · exact hl

theorem Ev.turned {W W' : CWorld} (e : Ev W W') (h : Turned W) : Turned W' := by
  have kp := e.samePar
  cases e with
  | act a => exact a.turned h
  | clear => exact h.calm (fun m => ⟨rfl, rfl⟩) (fun w => rfl)
  | update l => exact h.calm (setL_calm (fun L => ⟨rfl, rfl⟩)) (fun w => rfl)
  | home v r hv hs =>
    exact homeUpdate_turned h hs
  | reconcile r =>
    refine h.calm (fun m => ⟨?_, kp.lanes m⟩) (fun w => rfl)
    simp only [CWorld.reconcile]; split <;> rfl
  | route r =>
    refine h.calm (fun m => ⟨?_, kp.lanes m⟩) (fun w => by rw [(routeStep_same W).2.1])
    obtain ⟨x, e⟩ := routeStep_link W m
    rw [e]
  | tick r => exact h

theorem edit_calm (W : CWorld) (e : Edit) (m : ℕ) :
    ((W.edit e).link m).vehs = (W.link m).vehs ∧ ((W.edit e).link m).lanes = (W.link m).lanes := by
  cases e <;> simp only [CWorld.edit] <;>
    first
    | exact ⟨rfl, rfl⟩
    | (unfold changeFreeFlow; split <;> first | exact ⟨rfl, rfl⟩ | (refine setL_calm ?_ m; intro L; exact ⟨rfl, rfl⟩))
    | (unfold changeJam; split <;> first | exact ⟨rfl, rfl⟩ | (refine setL_calm ?_ m; intro L; exact ⟨rfl, rfl⟩))
    | (refine setL_calm ?_ m; intro L; exact ⟨rfl, rfl⟩)

theorem edit_lane (W : CWorld) (e : Edit) (w : ℕ) : ((W.edit e).veh w).lane = (W.veh w).lane := by
  cases e <;> simp only [CWorld.edit] <;> try rfl
  · unfold changeFreeFlow; split <;> rfl
  · unfold changeJam; split <;> rfl
  all_goals (refine setV_lane ?_ w; intro V; rfl)

theorem Call.turned {W W' : CWorld} (c : Call W W') (h : Turned W) : Turned W' := by
  cases c with
  | node r p ints off cap lanes rng => exact h
  | link r src dst a hs hd hl hr =>
    intro m
    by_cases e : m = W.g.nLinks
    · subst e
      have : ((W.addLink src dst a).link W.g.nLinks).vehs = [] := by
        simp [CWorld.addLink, newLink]
      rw [this]
      exact ⟨fun v hv => by simp at hv, fun i u w hu => by simp at hu⟩
    · have : (W.addLink src dst a).link m = W.link m := by
        simp [CWorld.addLink, upd, e]
      rw [this]; exact h m
  | vehicle r dep orig dest prefer ho hd =>
    intro m
    refine (h m).congr (fun v hv => ?_)
    have hlt : v < W.g.nVehs := (r.inv.mem m v hv).2.2.2.1
    show (if v = W.g.nVehs then newVeh dep orig dest prefer else W.veh v).lane = _
    rw [if_neg (Nat.ne_of_lt hlt)]
  | tmax r t =>
    refine h.calm (fun m => ?_) (fun w => rfl)
    simp only [CWorld.setTMax]
    split <;> exact ⟨rfl, rfl⟩
  | init r =>
    obtain ⟨hv, hl, _⟩ := initAdj_same W
    exact h.calm (fun m => by rw [hl]; exact ⟨rfl, rfl⟩) (fun w => by rw [hv])
  | edit r e => exact h.calm (edit_calm W e) (edit_lane W e)

theorem CReach.turned {W : CWorld} (h : CReach W) : Turned W :=
  CReach.invariant (P := Turned)
    (fun _ _ _ _ _ _ _ _ _ _ _ _ _ l => ⟨fun v hv => by simp [CWorld.empty] at hv, fun i u w hu => by simp [CWorld.empty] at hu⟩)
    (fun _ _ c => c.turned) (fun _ _ e => e.turned) h

/-! ## Logged lanes -/

/-- Lanes of a log: those of the link, or none. -/
def LaneLog (W : CWorld) : Prop := ∀ v, ∀ e ∈ (W.veh v).log,
  e.link = none ∧ e.lane = -1 ∨ ∃ l, l < W.g.nLinks ∧ e.link = some l ∧ 0 ≤ e.lane ∧ e.lane < (W.link l).lanes

theorem LaneLog.keep {W W' : CWorld} (h : LaneLog W) (hn : W.g.nLinks ≤ W'.g.nLinks)
    (hl : ∀ l, l < W.g.nLinks → (W'.link l).lanes = (W.link l).lanes)
    (hv : ∀ v, ∀ e ∈ (W'.veh v).log, e ∈ (W.veh v).log ∨ e.Blank ∨ ∃ l, e.Shows W v l) (t : Turned W) : LaneLog W' := by
  intro v e he
  rcases hv v e he with h1 | h1 | ⟨l, h1⟩
  · rcases h v e h1 with h2 | ⟨l, a, b, c, d⟩
    · exact Or.inl h2
    · exact Or.inr ⟨l, a.trans_le hn, b, c, by rw [hl l a]; exact d⟩
  · exact Or.inl ⟨h1.1, h1.2.2.2.1⟩
  · obtain ⟨a, b, c, _, _, d⟩ := h1
    refine Or.inr ⟨l, b.trans_le hn, c, by rw [d]; exact Int.natCast_nonneg _, ?_⟩
    rw [hl l b, d]
    exact_mod_cast (t l).range v a

theorem Wrote.mem {W : CWorld} {w : ℕ} {V' : CVeh} (h : Wrote W w V') : ∀ e ∈ V'.log,
    e ∈ (W.veh w).log ∨ e.Blank ∨ ∃ l, e.Shows W w l := by
  intro e he
  rcases h with h | ⟨e', h, h'⟩
  · rw [h] at he; exact Or.inl he
  · rw [h] at he
    rcases List.mem_append.1 he with he | he
    · exact Or.inl he
    · rw [List.mem_singleton] at he; subst he; exact Or.inr h'

theorem Call.par {W W' : CWorld} (c : Call W W') : W.g.nLinks ≤ W'.g.nLinks ∧
    ∀ l, l < W.g.nLinks → (W'.link l).lanes = (W.link l).lanes := by
  cases c with
  | node r p ints off cap lanes rng => exact ⟨le_rfl, fun _ _ => rfl⟩
  | link r src dst a hs hd hl hr =>
    refine ⟨Nat.le_succ _, fun l hl => ?_⟩
    simp [CWorld.addLink, upd, Nat.ne_of_lt hl]
  | vehicle r dep orig dest prefer ho hd => exact ⟨le_rfl, fun _ _ => rfl⟩
  | tmax r t =>
    refine ⟨le_rfl, fun l hl => ?_⟩
    simp only [CWorld.setTMax]; split <;> rfl
  | init r =>
    obtain ⟨_, hl, h, _⟩ := initAdj_same W
    exact ⟨(CGlob.fix_nLinks h).ge, fun l _ => by rw [hl]⟩
  | edit r e => exact ⟨by rw [edit_g], fun l _ => (edit_calm W e l).2⟩

theorem CReach.laneLog {W : CWorld} (h : CReach W) : LaneLog W := by
  refine (CReach.invariant (P := fun W => Turned W ∧ LaneLog W)
    (fun _ _ _ _ _ _ _ _ _ _ _ _ _ => ⟨CReach.turned (.empty _ _ _ _ _ _ _ _ _ _ _ _ _), fun v e he => by simp [CWorld.empty] at he⟩)
    (fun W W' c p => ⟨c.turned p.1, p.2.keep c.par.1 c.par.2 (fun v e he => ?_) p.1⟩)
    (fun W W' ev p => ⟨ev.turned p.1, p.2.keep (CGlob.fix_nLinks ev.fix).ge (fun l _ => ev.samePar.lanes l)
      (fun v => (ev.wrote v).mem) p.1⟩) h).2
  rcases c.wrote v with h | h
  · rw [h] at he; exact Or.inl he
  · rw [h] at he; simp at he

/-! ## Lanes are kept -/

theorem VehCh.lane {W : CWorld} {w : ℕ} {V' : CVeh} (h : VehCh W w V') :
    V'.lane = (W.veh w).lane ∧ V'.count = (W.veh w).count ∨ V'.count = (W.veh w).count + 1 := by
  cases h with
  | same h => rw [h]; exact Or.inl ⟨rfl, rfl⟩
  | ptr l q r hl h => rw [h]; exact Or.inl ⟨rfl, rfl⟩
  | nextGen o hs h => rw [h]; exact Or.inl ⟨rfl, rfl⟩
  | nextRun l o hl hd ho h => rw [h]; exact Or.inl ⟨rfl, rfl⟩
  | depart l ln ld hs hl hn ho h => rw [h]; exact Or.inr rfl
  | move a b ln ld q ha hb hf hn he h => rw [h]; exact Or.inr rfl
  | ends l q r hl hf h =>
    have a := congrArg (fun V : CVeh => V.lane) h
    have b := congrArg (fun V : CVeh => V.count) h
    exact Or.inl ⟨a, b⟩
  | log hs h =>
    have a := congrArg (fun V : CVeh => V.lane) h
    have b := congrArg (fun V : CVeh => V.count) h
    exact Or.inl ⟨a, b⟩
  | follow l p q hl h => rw [h]; exact Or.inl ⟨rfl, rfl⟩
  | advance l hl h =>
    rw [h]; left; unfold CWorld.advance; rw [setV_veh, if_pos rfl]; exact ⟨rfl, rfl⟩
  | abort l hl hd ho ha h => rw [h]; exact Or.inl ⟨rfl, rfl⟩
  | flag l hl hc h => rw [h]; exact Or.inl ⟨rfl, rfl⟩

theorem Evs.lane {W W' : CWorld} (e : Evs W W') (w : ℕ) : (W.veh w).count ≤ (W'.veh w).count ∧
    ((W'.veh w).count = (W.veh w).count → (W'.veh w).lane = (W.veh w).lane) := by
  induction e with
  | refl => exact ⟨le_rfl, fun _ => rfl⟩
  | @tail X Y _ b ih =>
    have key : (Y.veh w).lane = (X.veh w).lane ∧ (Y.veh w).count = (X.veh w).count ∨
        (Y.veh w).count = (X.veh w).count + 1 := by
      cases b.veh w with
      | act h => exact h.lane
      | stay hw hs h =>
        have a := congrArg (fun V : CVeh => V.lane) h
        have b := congrArg (fun V : CVeh => V.count) h
        exact Or.inl ⟨a, b⟩
      | wake hw hs ht h =>
        have a := congrArg (fun V : CVeh => V.lane) h
        have b := congrArg (fun V : CVeh => V.count) h
        exact Or.inl ⟨a, b⟩
    obtain ⟨i1, i2⟩ := ih
    rcases key with ⟨k1, k2⟩ | k
    · rw [k2]; exact ⟨i1, fun h => k1.trans (i2 h)⟩
    · exact ⟨by omega, fun h => by omega⟩

end UX.Cpp
