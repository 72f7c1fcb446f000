import Verif.Proofs.CppTrips
import Verif.Spec.CppTrace

/-!
# Every action of the C++ engine is a list of passages
-/

namespace UX.Cpp
open CWorld Relation Spec

/-- What passages change on a link. -/
structure LV where
  q : List (ℕ × ℚ)
  arr : ℕ → ℚ
  dep : ℕ → ℚ
  tt : List (ℕ × ℚ)
  cin : ℚ
  cout : ℚ

def lv (W : CWorld) (l : ℕ) : LV :=
  ⟨queue W l, (W.link l).arr, (W.link l).dep, (W.link l).ttEvents, (W.link l).capInRem,
    (W.link l).capOutRem⟩

/-- The first vehicle leaves. -/
def LV.out (g : CGlob) (e : Pass) (X : LV) : LV where
  q := X.q.tail
  arr := X.arr
  dep := upd X.dep g.timestep (g.fl (X.dep g.timestep + g.deltaN))
  tt := X.tt ++ X.q.head?.toList.map (fun p => record g e p.2)
  cin := X.cin
  cout := if e.enters = none then X.cout else g.fl (X.cout - g.deltaN)

/-- A vehicle enters. -/
def LV.into (g : CGlob) (e : Pass) (X : LV) : LV where
  q := X.q ++ [(e.veh, clock g g.timestep)]
  arr := upd X.arr g.timestep (g.fl (X.arr g.timestep + g.deltaN))
  dep := X.dep
  tt := X.tt
  cin := g.fl (X.cin - g.deltaN)
  cout := X.cout

def LV.pass (g : CGlob) (l : ℕ) (e : Pass) (X : LV) : LV :=
  if e.enters = some l then (if e.leaves = some l then X.out g e else X).into g e
  else if e.leaves = some l then X.out g e else X

/-- Links and positions of vehicles. -/
structure TS where
  lk : ℕ → LV
  pos : ℕ → Option ℕ

def tst (W : CWorld) : TS := ⟨lv W, fun v => (W.veh v).link⟩

def TS.pass (g : CGlob) (e : Pass) (X : TS) : TS :=
  ⟨fun l => (X.lk l).pass g l e, upd X.pos e.veh e.enters⟩

/-- Conditions under which a passage takes place. -/
structure TS.Ok (g : CGlob) (X : TS) (e : Pass) : Prop where
  time : e.time = g.timestep
  pos : X.pos e.veh = e.leaves
  front : ∀ l, e.leaves = some l → ∃ t r, (X.lk l).q = (e.veh, t) :: r
  cin : ∀ l, e.enters = some l → ¬ (X.lk l).cin < g.deltaN
  cout : ∀ l, e.leaves = some l → e.enters ≠ none → g.deltaN ≤ (X.lk l).cout

inductive Rep (g : CGlob) : TS → List Pass → TS → Prop
  | nil (X : TS) : Rep g X [] X
  | cons {X Y : TS} {e : Pass} {h : List Pass} (ok : X.Ok g e) (r : Rep g (X.pass g e) h Y) :
      Rep g X (e :: h) Y

theorem Rep.trans {g : CGlob} {X Y Z : TS} {h h' : List Pass} (r : Rep g X h Y) (r' : Rep g Y h' Z) :
    Rep g X (h ++ h') Z := by
  induction r with
  | nil X => exact r'
  | cons ok _ ih => exact .cons ok (ih r')

/-! ## What stays the same -/

def CLink.tv (L : CLink) : List ℕ × (ℕ → ℚ) × (ℕ → ℚ) × List (ℕ × ℚ) × ℚ × ℚ :=
  (L.vehs, L.arr, L.dep, L.ttEvents, L.capInRem, L.capOutRem)

theorem lv_congr {W W' : CWorld} {l : ℕ} (h : (W'.link l).tv = (W.link l).tv)
    (hv : ∀ v ∈ (W.link l).vehs, (W'.veh v).arrTimeLink = (W.veh v).arrTimeLink) : lv W' l = lv W l := by
  have h1 : (W'.link l).vehs = (W.link l).vehs := congrArg (·.1) h
  have h2 : (W'.link l).arr = (W.link l).arr := congrArg (·.2.1) h
  have h3 : (W'.link l).dep = (W.link l).dep := congrArg (·.2.2.1) h
  have h4 : (W'.link l).ttEvents = (W.link l).ttEvents := congrArg (·.2.2.2.1) h
  have h5 : (W'.link l).capInRem = (W.link l).capInRem := congrArg (·.2.2.2.2.1) h
  have h6 : (W'.link l).capOutRem = (W.link l).capOutRem := congrArg (·.2.2.2.2.2) h
  unfold lv queue
  rw [h1, h2, h3, h4, h5, h6]
  congr 1
  exact List.map_congr_left (fun v hm => by rw [hv v hm])

theorem tst_congr {W W' : CWorld} (h : ∀ l, (W'.link l).tv = (W.link l).tv)
    (hv : ∀ v, (W'.veh v).arrTimeLink = (W.veh v).arrTimeLink) (hl : ∀ v, (W'.veh v).link = (W.veh v).link) :
    tst W' = tst W := by
  unfold tst
  congr 1
  · funext l; exact lv_congr (h l) (fun v _ => hv v)
  · funext v; exact hl v

theorem setL_tv {W : CWorld} {l : ℕ} {f : CLink → CLink} (h : ∀ L, (f L).tv = L.tv) (m : ℕ) :
    ((W.setL l f).link m).tv = (W.link m).tv := by
  rw [setL_link]; split
  · rename_i e; rw [h, e]
  · rfl

theorem tst_setL {W : CWorld} {l : ℕ} {f : CLink → CLink} (h : ∀ L, (f L).tv = L.tv) :
    tst (W.setL l f) = tst W := tst_congr (setL_tv h) (fun _ => rfl) (fun _ => rfl)

theorem tst_setV {W : CWorld} {v : ℕ} {f : CVeh → CVeh}
    (h : ∀ V, (f V).arrTimeLink = V.arrTimeLink ∧ (f V).link = V.link) : tst (W.setV v f) = tst W := by
  refine tst_congr (fun _ => rfl) (fun w => ?_) (fun w => ?_)
  · rw [setV_veh]; split
    · rename_i e; rw [(h _).1, e]
    · rfl
  · rw [setV_veh]; split
    · rename_i e; rw [(h _).2, e]
    · rfl

theorem logStats_tv (W : CWorld) (v m : ℕ) : ((W.logStats v).link m).tv = (W.link m).tv := by
  unfold logStats
  split
  · refine setL_tv ?_ m
    intro L; rfl
  · rfl
  · rfl

theorem logData_tv (W : CWorld) (v : ℕ) (s : Option ℕ) (m : ℕ) :
    ((W.logData v s).link m).tv = (W.link m).tv := by
  unfold logData logPush
  split
  · exact logStats_tv W v m
  · exact logStats_tv W v m

theorem logData_since (W : CWorld) (v : ℕ) (s : Option ℕ) (w : ℕ) :
    ((W.logData v s).veh w).arrTimeLink = (W.veh w).arrTimeLink ∧
      ((W.logData v s).veh w).link = (W.veh w).link := by
  have h := logData_noLog W v s w
  have a := congrArg (fun V : CVeh => V.arrTimeLink) h
  have b := congrArg (fun V : CVeh => V.link) h
  exact ⟨a, b⟩

theorem tst_logData (W : CWorld) (v : ℕ) (s : Option ℕ) : tst (W.logData v s) = tst W :=
  tst_congr (logData_tv W v s) (fun w => (logData_since W v s w).1) (fun w => (logData_since W v s w).2)

/-! ## The three kinds of passages -/

theorem endTripOn_tv (W : CWorld) (v l m : ℕ) : ((W.endTripOn v l).link m).tv =
    if m = l then ((W.link l).vehs.tail, (W.link l).arr,
      upd (W.link l).dep W.g.timestep (W.g.fl ((W.link l).dep W.g.timestep + W.g.deltaN)),
      (W.link l).ttEvents ++ [(W.eventIdx v,
        W.g.fl (W.g.fl ((W.g.timestep + 1 : ℕ) * W.g.deltaT) - (W.veh v).arrTimeLink))],
      (W.link l).capInRem, (W.link l).capOutRem) else (W.link m).tv := by
  simp only [CWorld.endTripOn]
  rw [logData_tv, setV_link, detach_link, setL_link]
  split <;> rfl

theorem endTripOn_since (W : CWorld) (v l w : ℕ) :
    ((W.endTripOn v l).veh w).arrTimeLink = (if w = v then W.now else (W.veh w).arrTimeLink) ∧
    ((W.endTripOn v l).veh w).link = (if w = v then none else (W.veh w).link) := by
  by_cases h : w = v
  · subst h
    have := endTripOn_veh_self W w l
    rw [if_pos rfl, if_pos rfl]
    exact ⟨congrArg CVeh.arrTimeLink this, congrArg CVeh.link this⟩
  · rw [endTripOn_veh_ne W v l w h, if_neg h, if_neg h]
    exact ⟨rfl, rfl⟩

/-- The end of a trip. -/
theorem tst_endTripOn {W : CWorld} {v l : ℕ} {t : List ℕ} (hq : (W.link l).vehs = v :: t) (ht : v ∉ t)
    (ho : ∀ m, m ≠ l → v ∉ (W.link m).vehs) :
    tst (W.endTripOn v l) = (tst W).pass W.g ⟨W.g.timestep, v, some l, none⟩ := by
  unfold tst TS.pass
  congr 1
  · funext m
    simp only [LV.pass]
    rw [if_neg (by simp)]
    have h := endTripOn_tv W v l m
    by_cases e : m = l
    · subst e
      rw [if_pos rfl] at h
      rw [if_pos rfl]
      have h1 : ((W.endTripOn v m).link m).vehs = t := (congrArg (·.1) h).trans (by rw [hq]; rfl)
      unfold lv LV.out queue
      congr 1
      · rw [h1, hq]
        simp only [List.map_cons, List.tail_cons]
        refine List.map_congr_left (fun w hw => ?_)
        rw [(endTripOn_since W v m w).1, if_neg (fun e : w = v => ht (e ▸ hw))]
      · exact congrArg (·.2.1) h
      · exact congrArg (·.2.2.1) h
      · refine (congrArg (·.2.2.2.1) h).trans ?_
        rw [hq]
        simp [record, clock, eventIdx]
      · exact congrArg (·.2.2.2.2.1) h
      · simp only [if_true]; exact congrArg (·.2.2.2.2.2) h
    · rw [if_neg e] at h
      rw [if_neg (fun h => e (Option.some.inj h).symm)]
      refine lv_congr h (fun w hw => ?_)
      rw [(endTripOn_since W v l w).1, if_neg (fun h : w = v => ho m e (h ▸ hw))]
  · funext w
    rw [(endTripOn_since W v l w).2]
    simp only [upd]

theorem depart_tv (W : CWorld) (n v l m : ℕ) : ((W.depart n v l).link m).tv =
    if m = l then ((W.link l).vehs ++ [v],
      upd (W.link l).arr W.g.timestep (W.g.fl ((W.link l).arr W.g.timestep + W.g.deltaN)),
      (W.link l).dep, (W.link l).ttEvents, W.g.fl ((W.link l).capInRem - W.g.deltaN),
      (W.link l).capOutRem) else (W.link m).tv := by
  simp only [CWorld.depart, setL_link]
  split
  · simp [CLink.tv]
  · simp

theorem depart_since (W : CWorld) (n v l w : ℕ) :
    ((W.depart n v l).veh w).arrTimeLink = (if w = v then W.now else (W.veh w).arrTimeLink) ∧
    ((W.depart n v l).veh w).link = (if w = v then some l else (W.veh w).link) := by
  simp only [CWorld.depart, setL_veh]
  obtain ⟨a, b, c, e⟩ := attach_fix ((W.setN n (fun N =>
    { N with genQ := N.genQ.tail, runBuf := N.runBuf ++ [v] })).setV v (fun V => { V with
      state := .run, link := some l, x := 0, v := (W.link l).vmax, arrTimeLink := W.now
      visited := upd V.visited (W.link l).src true, count := V.count + 1 })) v l w
  rw [e]
  simp only [setV_veh, setN_veh]
  split <;> exact ⟨rfl, rfl⟩

/-- A departure. -/
theorem tst_depart {W : CWorld} {n v l : ℕ} (ho : ∀ m, v ∉ (W.link m).vehs) :
    tst (W.depart n v l) = (tst W).pass W.g ⟨W.g.timestep, v, none, some l⟩ := by
  unfold tst TS.pass
  congr 1
  · funext m
    simp only [LV.pass]
    have h := depart_tv W n v l m
    by_cases e : m = l
    · subst e
      rw [if_pos rfl] at h
      rw [if_pos rfl, if_neg (by simp)]
      unfold lv LV.into queue
      have h1 : ((W.depart n v m).link m).vehs = (W.link m).vehs ++ [v] := congrArg (·.1) h
      congr 1
      · rw [h1, List.map_append, List.map_singleton, (depart_since W n v m v).1, if_pos rfl]
        congr 1
        refine List.map_congr_left (fun w hw => ?_)
        rw [(depart_since W n v m w).1, if_neg (fun e : w = v => ho m (e ▸ hw))]
      · exact congrArg (·.2.1) h
      · exact congrArg (·.2.2.1) h
      · exact congrArg (·.2.2.2.1) h
      · exact congrArg (·.2.2.2.2.1) h
      · exact congrArg (·.2.2.2.2.2) h
    · rw [if_neg e] at h
      rw [if_neg (fun h => e (Option.some.inj h).symm), if_neg (by simp)]
      refine lv_congr h (fun w hw => ?_)
      rw [(depart_since W n v l w).1, if_neg (fun h : w = v => ho m (h ▸ hw))]
  · funext w
    rw [(depart_since W n v l w).2]
    simp only [upd]

/-- The world after a move in which the front of the link left is not looked at. -/
def CWorld.moved' (W : CWorld) (n v a b : ℕ) : CWorld :=
  (W.moved n v a b).setL b (fun L => { L with vehs := L.vehs ++ [v] })

theorem moved'_tv (W : CWorld) (n v a b m : ℕ) : ((W.moved' n v a b).link m).tv =
    (if m = b then (if m = a then (W.link m).vehs.tail else (W.link m).vehs) ++ [v]
      else if m = a then (W.link m).vehs.tail else (W.link m).vehs,
     if m = b then upd (W.link m).arr W.g.timestep (W.g.fl ((W.link m).arr W.g.timestep + W.g.deltaN))
      else (W.link m).arr,
     if m = a then upd (W.link m).dep W.g.timestep (W.g.fl ((W.link m).dep W.g.timestep + W.g.deltaN))
      else (W.link m).dep,
     if m = a then (W.link m).ttEvents ++ [(W.eventIdx v, W.g.fl (W.now - (W.veh v).arrTimeLink))]
      else (W.link m).ttEvents,
     if m = b then W.g.fl ((W.link m).capInRem - W.g.deltaN) else (W.link m).capInRem,
     if m = a then W.g.fl ((W.link m).capOutRem - W.g.deltaN) else (W.link m).capOutRem) := by
  simp only [CWorld.moved', setL_link, moved_link, leave_link]
  by_cases hb : m = b
  · subst hb
    by_cases ha : m = a
    · subst ha; simp [CLink.tv]
    · simp [CLink.tv, ha]
  · by_cases ha : m = a
    · subst ha; simp [CLink.tv, hb]
    · simp [CLink.tv, hb, ha]

theorem moved'_since {W : CWorld} {n v a b : ℕ} {t : List ℕ} (i : Inv W none none)
    (hq : (W.link a).vehs = v :: t) (w : ℕ) :
    ((W.moved' n v a b).veh w).arrTimeLink = (if w = v then W.now else (W.veh w).arrTimeLink) ∧
    ((W.moved' n v a b).veh w).link = (if w = v then some b else (W.veh w).link) := by
  simp only [CWorld.moved', setL_veh]
  by_cases h : w = v
  · subst h
    obtain ⟨_, _, _, e⟩ := moved_veh_self (n := n) (b := b) i hq
    rw [e, if_pos rfl, if_pos rfl]
    exact ⟨rfl, rfl⟩
  · obtain ⟨_, _, _, e⟩ := moved_veh_ne W n v a b w h
    rw [e, if_neg h, if_neg h]
    exact ⟨rfl, rfl⟩

/-- A move, without the end of the trip of the next vehicle. -/
theorem tst_moved' {W : CWorld} {n v a b : ℕ} {t : List ℕ} (i : Inv W none none)
    (hq : (W.link a).vehs = v :: t) :
    tst (W.moved' n v a b) = (tst W).pass W.g ⟨W.g.timestep, v, some a, some b⟩ := by
  have hnd := i.nd a
  rw [hq] at hnd
  have hvt := (List.nodup_cons.1 hnd).1
  have hva : v ∈ (W.link a).vehs := by rw [hq]; simp
  have hmap : ∀ xs : List ℕ, v ∉ xs → xs.map (fun w => (w, ((W.moved' n v a b).veh w).arrTimeLink)) =
      xs.map (fun w => (w, (W.veh w).arrTimeLink)) := fun xs hx =>
    List.map_congr_left (fun w hw => by
      rw [(moved'_since i hq w).1, if_neg (fun e : w = v => hx (e ▸ hw))])
  unfold tst TS.pass
  congr 1
  · funext m
    have h := moved'_tv W n v a b m
    have h1 := congrArg (·.1) h
    have h2 := congrArg (·.2.1) h
    have h3 := congrArg (·.2.2.1) h
    have h4 := congrArg (·.2.2.2.1) h
    have h5 := congrArg (·.2.2.2.2.1) h
    have h6 := congrArg (·.2.2.2.2.2) h
    simp only [CLink.tv] at h1 h2 h3 h4 h5 h6
    simp only [LV.pass, Option.some.injEq]
    unfold lv queue
    rw [h1, h2, h3, h4, h5, h6]
    by_cases hb : m = b
    · subst hb
      rw [if_pos rfl]
      by_cases ha : m = a
      · subst ha
        simp only [if_true, LV.into, LV.out, hq, List.tail_cons, List.map_append, List.map_cons,
          List.map_nil, (moved'_since i hq v).1, hmap t hvt, List.head?_cons, Option.toList_some]
        rfl
      · have hvm : v ∉ (W.link m).vehs := fun hm => ha (i.uniq hm hva)
        have ha' : ¬ a = m := fun e => ha e.symm
        simp only [if_true, ha, ha', if_false, LV.into, List.map_append, List.map_cons,
          List.map_nil, (moved'_since i hq v).1, hmap _ hvm]
        rfl
    · have hb' : ¬ b = m := fun e => hb e.symm
      by_cases ha : m = a
      · subst ha
        simp only [hb, hb', if_true, if_false, LV.out, hq, List.tail_cons, List.map_cons, hmap t hvt,
          List.head?_cons, Option.toList_some, List.map_nil]
        rfl
      · have ha' : ¬ a = m := fun e => ha e.symm
        have hvm : v ∉ (W.link m).vehs := fun hm => ha (i.uniq hm hva)
        simp only [hb, hb', ha, ha', if_false, hmap _ hvm]
  · funext w
    rw [(moved'_since i hq w).2]
    simp only [upd]

/-- Ending the trip of the new front before or after the moving vehicle is put into its queue. -/
theorem tst_endTrip_push {W : CWorld} {h a b v : ℕ} (hne : (W.link a).vehs ≠ []) :
    tst ((W.endTripOn h a).setL b (fun L => { L with vehs := L.vehs ++ [v] })) =
      tst ((W.setL b (fun L => { L with vehs := L.vehs ++ [v] })).endTripOn h a) := by
  have hsame : ∀ w, (((W.setL b (fun L => { L with vehs := L.vehs ++ [v] })).endTripOn h a).veh w).arrTimeLink =
      ((W.endTripOn h a).veh w).arrTimeLink ∧
      (((W.setL b (fun L => { L with vehs := L.vehs ++ [v] })).endTripOn h a).veh w).link =
      ((W.endTripOn h a).veh w).link := fun w => by
    rw [(endTripOn_since _ h a w).1, (endTripOn_since _ h a w).2, (endTripOn_since W h a w).1,
      (endTripOn_since W h a w).2]
    exact ⟨rfl, rfl⟩
  symm
  refine tst_congr (fun m => ?_) (fun w => (hsame w).1) (fun w => (hsame w).2)
  rw [endTripOn_tv]
  have e := endTripOn_tv W h a m
  have e1 := congrArg (·.1) e
  have e2 := congrArg (·.2.1) e
  have e3 := congrArg (·.2.2.1) e
  have e4 := congrArg (·.2.2.2.1) e
  have e5 := congrArg (·.2.2.2.2.1) e
  have e6 := congrArg (·.2.2.2.2.2) e
  simp only [CLink.tv] at e1 e2 e3 e4 e5 e6
  simp only [setL_link]
  by_cases ha : m = a
  · subst ha
    simp only [if_true] at e1 e2 e3 e4 e5 e6 ⊢
    by_cases hb : m = b
    · subst hb
      simp only [if_true, CLink.tv, e1, e2, e3, e4, e5, e6]
      rw [List.tail_append_of_ne_nil hne]
      rfl
    · simp only [hb, if_false, CLink.tv, e1, e2, e3, e4, e5, e6]
      rfl
  · simp only [ha, if_false] at e1 e2 e3 e4 e5 e6 ⊢
    by_cases hb : m = b
    · subst hb
      simp only [if_true, CLink.tv, e1, e2, e3, e4, e5, e6]
    · simp only [hb, if_false, CLink.tv, e1, e2, e3, e4, e5, e6]

/-! ## Actions -/

theorem queue_front {W : CWorld} {v l : ℕ} {t : List ℕ} (hq : (W.link l).vehs = v :: t) :
    ∃ s r, ((tst W).lk l).q = (v, s) :: r :=
  ⟨(W.veh v).arrTimeLink, t.map (fun w => (w, (W.veh w).arrTimeLink)), by
    simp only [tst, lv, queue, hq, List.map_cons]⟩

/-- Only the end of a trip. -/
theorem rep_endTripOn {W : CWorld} {v l : ℕ} {t : List ℕ} (i : Inv W none none)
    (hq : (W.link l).vehs = v :: t) :
    Rep W.g (tst W) [⟨W.g.timestep, v, some l, none⟩] (tst (W.endTripOn v l)) := by
  have hnd := i.nd l
  rw [hq] at hnd
  have hva : v ∈ (W.link l).vehs := by rw [hq]; simp
  rw [tst_endTripOn hq (List.nodup_cons.1 hnd).1 (fun m hm h => hm (i.uniq h hva))]
  refine .cons ⟨rfl, (i.mem l v hva).1, ?_, ?_, ?_⟩ (.nil _)
  · intro m hm; cases hm; exact queue_front hq
  · intro m hm; simp at hm
  · intro m _ hm; simp at hm

/-- Capacity counters of nodes and signals during a history. -/
inductive NRep (W : CWorld) : (ℕ → ℚ) → List Pass → (ℕ → ℚ) → Prop
  | nil (r : ℕ → ℚ) : NRep W r [] r
  | skip {r r' : ℕ → ℚ} {e : Pass} {h : List Pass} (hn : e.leaves = none ∨ e.enters = none)
      (k : NRep W r h r') : NRep W r (e :: h) r'
  | move {r r' : ℕ → ℚ} {e : Pass} {h : List Pass} {a : ℕ} (ha : e.leaves = some a)
      (hb : e.enters ≠ none) (hr : ¬ r (W.link a).dst < W.g.deltaN) (hg : Green W e)
      (k : NRep W (if 0 ≤ (W.node (W.link a).dst).flowCap
        then upd r (W.link a).dst (W.g.fl (r (W.link a).dst - W.g.deltaN)) else r) h r') :
      NRep W r (e :: h) r'

theorem NRep.trans {W : CWorld} {r r' r'' : ℕ → ℚ} {h h' : List Pass} (k : NRep W r h r')
    (k' : NRep W r' h' r'') : NRep W r (h ++ h') r'' := by
  induction k with
  | nil _ => exact k'
  | skip hn _ ih => exact .skip hn (ih k')
  | move ha hb hr hg _ ih => exact .move ha hb hr hg (ih k')

def rems (W : CWorld) (n : ℕ) : ℚ := (W.node n).flowRem

/-- Record and clock of the signal. -/
def CNode.sgn (N : CNode) : List ℕ × ℚ := (N.sigLog, N.sigT)

/-- What a history does at the nodes after the generate stage. -/
structure NodeTr (W W' : CWorld) (h : List Pass) : Prop where
  sig : ∀ n, (W'.node n).sigPhase = (W.node n).sigPhase ∧
    (W'.node n).sgn = (W.node n).sgn
  rep : NRep W (rems W) h (rems W')

/-- No vehicle leaves a link in the generate stage. -/
def Nodes (s : Stage) (W W' : CWorld) (h : List Pass) : Prop :=
  (s = .gen ∧ ∀ e ∈ h, e.leaves = none) ∨ (s ≠ .gen ∧ NodeTr W W' h)

theorem Nodes.other {s : Stage} {W W' : CWorld} {h : List Pass} (hs : s ≠ .gen) (n : NodeTr W W' h) :
    Nodes s W W' h := Or.inr ⟨hs, n⟩

def CNode.tv (N : CNode) : ℕ × (List ℕ × ℚ) × ℚ := (N.sigPhase, N.sgn, N.flowRem)

theorem Nodes.gen {W W' : CWorld} : Nodes .gen W W' [] := Or.inl ⟨rfl, fun e he => by simp at he⟩

theorem NodeTr.of {W W' : CWorld} (h : ∀ n, (W'.node n).tv = (W.node n).tv) : NodeTr W W' [] := by
  refine ⟨fun n => ⟨congrArg (·.1) (h n), congrArg (·.2.1) (h n)⟩, ?_⟩
  have : rems W' = rems W := funext (fun n => congrArg (·.2.2) (h n))
  rw [this]; exact .nil _

theorem NodeTr.finish {W W' : CWorld} {e : Pass} (he : e.enters = none)
    (h : ∀ n, (W'.node n).tv = (W.node n).tv) : NodeTr W W' [e] := by
  refine ⟨fun n => ⟨congrArg (·.1) (h n), congrArg (·.2.1) (h n)⟩, ?_⟩
  have : rems W' = rems W := funext (fun n => congrArg (·.2.2) (h n))
  rw [this]; exact .skip (Or.inr he) (.nil _)

theorem setN_tv {W : CWorld} {n : ℕ} {f : CNode → CNode} (h : ∀ N, (f N).tv = N.tv) (m : ℕ) :
    ((W.setN n f).node m).tv = (W.node m).tv := by
  rw [setN_node]; split
  · rename_i e; rw [h, e]
  · rfl

theorem logData_ntv (W : CWorld) (v : ℕ) (s : Option ℕ) (m : ℕ) :
    ((W.logData v s).node m).tv = (W.node m).tv := by
  have h1 : ((W.logStats v).node m).tv = (W.node m).tv := by
    unfold logStats
    split
    · rfl
    · refine setN_tv ?_ m
      intro N; rfl
    · rfl
  unfold logData logPush
  split
  · exact h1
  · exact h1

theorem endTripOn_ntv (W : CWorld) (v l m : ℕ) : ((W.endTripOn v l).node m).tv = (W.node m).tv := by
  simp only [CWorld.endTripOn]
  rw [logData_ntv, setV_node, detach_node]
  rfl

theorem leave_ntv (W : CWorld) (n v a b m : ℕ) : ((W.leave n v a b).node m).tv =
    ((W.node m).sigPhase, (W.node m).sgn,
      if 0 ≤ (W.node n).flowCap ∧ m = n then W.g.fl ((W.node n).flowRem - W.g.deltaN)
      else (W.node m).flowRem) := by
  simp only [CWorld.leave, setV_node, detach_node]
  split
  · rename_i hc
    rw [setN_node]
    by_cases e : m = n
    · subst e; simp [CNode.tv, CNode.sgn, hc]
    · simp [CNode.tv, CNode.sgn, e]
  · rename_i hc
    rw [if_neg (fun h => hc h.1)]
    rfl

theorem moved_ntv (W : CWorld) (n v a b m : ℕ) : ((W.moved n v a b).node m).tv =
    ((W.leave n v a b).node m).tv := by
  simp [CWorld.moved, place]

theorem moveVeh_ntv {W : CWorld} {n v a b : ℕ} {t : List ℕ} (i : Inv W none none)
    (hq : (W.link a).vehs = v :: t) (m : ℕ) : ((W.moveVeh n v a b).node m).tv =
    ((W.node m).sigPhase, (W.node m).sgn,
      if 0 ≤ (W.node n).flowCap ∧ m = n then W.g.fl ((W.node n).flowRem - W.g.deltaN)
      else (W.node m).flowRem) := by
  rw [moveVeh_eq, ← leave_ntv W n v a b m, ← moved_ntv]
  refine (setN_tv (f := fun N => { N with incoming := N.incoming.filter (· ≠ v) }) (fun N => rfl) m).trans ?_
  rw [setL_node]
  rcases moved_endFront (n := n) (b := b) i hq with e | ⟨h, t', _, _, _, e⟩
  · rw [e]
  · rw [e, endTripOn_ntv]

/-- A move, with or without the end of a trip behind it. -/
theorem NodeTr.move {W : CWorld} {n v a b : ℕ} {t : List ℕ} {h : List Pass} (i : Inv W none none)
    (hq : (W.link a).vehs = v :: t) (ha : a ∈ (W.node n).inLinks) (hr : ¬ (W.node n).flowRem < W.g.deltaN)
    (hs : (W.node n).sigPhase ∈ (W.link a).group ∨ (W.node n).sigInt.length ≤ 1)
    (hh : ∀ e ∈ h, e.enters = none) :
    NodeTr W (W.moveVeh n v a b) (⟨W.g.timestep, v, some a, some b⟩ :: h) := by
  have key := moveVeh_ntv (n := n) (b := b) i hq
  obtain ⟨_, hd⟩ := (i.inL n a).1 ha
  refine ⟨fun m => ⟨congrArg (·.1) (key m), congrArg (·.2.1) (key m)⟩, ?_⟩
  have e : rems (W.moveVeh n v a b) = if 0 ≤ (W.node (W.link a).dst).flowCap
      then upd (rems W) (W.link a).dst (W.g.fl (rems W (W.link a).dst - W.g.deltaN)) else rems W := by
    funext m
    refine (congrArg (·.2.2) (key m)).trans ?_
    rw [hd]
    by_cases hc : 0 ≤ (W.node n).flowCap
    · simp [hc, upd, rems]
    · simp [hc, rems]
  refine .move (a := a) rfl (by simp) (by rw [hd]; exact hr) ?_ ?_
  · intro a' ha' _
    cases ha'
    rw [hd]; exact hs
  · rw [e]
    have : ∀ (g : List Pass) (r : ℕ → ℚ), (∀ e ∈ g, e.enters = none) → NRep W r g r := by
      intro g
      induction g with
      | nil => intro r _; exact .nil _
      | cons x g ih =>
        intro r hx
        exact .skip (Or.inr (hx x (by simp))) (ih r (fun e he => hx e (by simp [he])))
    exact this h _ hh

/-- The history of an action. -/
structure Traced (W W' : CWorld) (h : List Pass) : Prop where
  rep : Rep W.g (tst W) h (tst W')
  road : ∀ e ∈ h, OnRoad W e

theorem Traced.none {W W' : CWorld} (e : tst W' = tst W) : Traced W W' [] := by
  refine ⟨?_, fun e he => by simp at he⟩
  rw [e]; exact .nil _

theorem traced_endTripOn {W : CWorld} {v l : ℕ} {t : List ℕ} (i : Inv W none none)
    (hq : (W.link l).vehs = v :: t) (hf : (W.veh v).flagWait = true) :
    ∃ h, Traced W (W.endTripOn v l) h ∧ NodeTr W (W.endTripOn v l) h := by
  have hva : v ∈ (W.link l).vehs := by rw [hq]; simp
  refine ⟨_, ⟨rep_endTripOn i hq, fun e he => ?_⟩, .finish rfl (endTripOn_ntv W v l)⟩
  rw [List.mem_singleton] at he
  subst he
  exact ⟨(i.mem l v hva).2.2.1, i.flag l v hva hf⟩

theorem Act.traced {s : Stage} {W W' : CWorld} (h : Act s W W') : ∃ tr, Traced W W' tr ∧ Nodes s W W' tr := by
  cases h with
  | genErr _ n e => exact ⟨_, .none rfl, .gen⟩
  | choose _ n v t o rng i hi hq hc =>
    exact ⟨_, .none (tst_setV (W := W.setN n _) (fun _ => ⟨rfl, rfl⟩)), .gen⟩
  | depart _ n v l t i hi hq hl hn hc =>
    obtain ⟨hvn, hst, hor⟩ := (i.gen n v).1 (by rw [hq]; simp)
    have hnot : ∀ m, v ∉ (W.link m).vehs := fun m hm => by
      have := (i.mem m v hm).2.1; rw [hst] at this; simp at this
    refine ⟨[⟨W.g.timestep, v, Option.none, some l⟩], ⟨?_, fun e he => ?_⟩, Or.inl ⟨rfl, by simp⟩⟩
    · rw [tst_depart hnot]
      refine .cons ⟨rfl, i.idle v hvn (by rw [hst]; simp), ?_, ?_, ?_⟩ (.nil _)
      · intro m hm; simp at hm
      · intro m hm
        cases hm
        unfold canEnter at hc
        rw [Bool.and_eq_true, Bool.not_eq_true', decide_eq_false_iff_not] at hc
        exact hc.2
      · intro m hm; simp at hm
    · rw [List.mem_singleton] at he
      subst he
      obtain ⟨p, q⟩ := (i.outL n l).1 hl
      exact ⟨p, q.trans hor.symm⟩
  | signal _ n => exact ⟨_, .none rfl, .gen⟩
  | flow _ n => exact ⟨_, .none rfl, .gen⟩
  | collect _ n i hi =>
    refine ⟨_, .none (tst_congr (fun k => ?_) (fun w => ?_) (fun w => ?_)), Nodes.other nofun (.of fun m => ?_)⟩
    · rw [collect_link]; split <;> rfl
    · rw [collect_veh]
    · rw [collect_veh]
    · rw [collect_node]; split <;> rfl
  | draw _ n rng => exact ⟨_, .none rfl, Nodes.other nofun (.of (setN_tv (fun _ => rfl)))⟩
  | move _ n v a b t k ha hq hb hn hf hc hr ho hs =>
    have i := k.inv
    have hva : v ∈ (W.link a).vehs := by rw [hq]; simp
    obtain ⟨ba, bs⟩ := (i.outL n b).1 hb
    obtain ⟨aa, ad⟩ := (i.inL n a).1 ha
    have ok : (tst W).Ok W.g ⟨W.g.timestep, v, some a, some b⟩ := by
      refine ⟨rfl, (i.mem a v hva).1, ?_, ?_, ?_⟩
      · intro m hm; cases hm; exact queue_front hq
      · intro m hm
        cases hm
        unfold canEnter at hc
        rw [Bool.and_eq_true, Bool.not_eq_true', decide_eq_false_iff_not] at hc
        exact hc.2
      · intro m hm _; cases hm; exact ho
    have r1 : OnRoad W ⟨W.g.timestep, v, some a, some b⟩ := ⟨aa, ba, ad.trans bs.symm⟩
    have hm' := tst_moved' (n := n) (b := b) i hq
    have hfin : tst (W.moveVeh n v a b) =
        tst (((W.moved n v a b).endFront a).1.setL b (fun L => { L with vehs := L.vehs ++ [v] })) := by
      rw [moveVeh_eq]; rfl
    rcases moved_endFront (n := n) (b := b) i hq with e | ⟨h, t', e1, hne, hfl, e⟩
    · refine ⟨[⟨W.g.timestep, v, some a, some b⟩], ⟨?_, fun e he => ?_⟩,
        Nodes.other nofun (.move i hq ha hr hs (by simp))⟩
      · rw [hfin, e]
        refine .cons ok ?_
        rw [← hm']
        exact .nil _
      · rw [List.mem_singleton] at he; subst he; exact r1
    · subst e1
      have hha : h ∈ (W.link a).vehs := by rw [hq]; simp
      have hnd := i.nd a
      rw [hq] at hnd
      refine ⟨[⟨W.g.timestep, v, some a, some b⟩, ⟨W.g.timestep, h, some a, Option.none⟩],
        ⟨?_, fun e he => ?_⟩, Nodes.other nofun (.move i hq ha hr hs (by simp))⟩
      · refine .cons ok ?_
        rw [← hm', hfin, e]
        have hfr := moved_front (n := n) (b := b) i hq
        rw [tst_endTrip_push (by rw [hfr]; simp)]
        have hvq : ∀ m, ((W.moved' n v a b).link m).vehs =
            if m = b then (if m = a then (W.link m).vehs.tail else (W.link m).vehs) ++ [v]
              else if m = a then (W.link m).vehs.tail else (W.link m).vehs := fun m =>
          congrArg (·.1) (moved'_tv W n v a b m)
        have hqa : ∃ r, ((W.moved' n v a b).link a).vehs = h :: r ∧ h ∉ r := by
          rw [hvq]
          have hht : h ∉ t' := fun hm => by
            have := (List.nodup_cons.1 hnd).2
            exact (List.nodup_cons.1 this).1 hm
          split
          · refine ⟨t' ++ [v], by simp [hq], ?_⟩
            simp [hht, hne]
          · exact ⟨t', by simp [hq], hht⟩
        obtain ⟨r, hr1, hr2⟩ := hqa
        have hoth : ∀ m, m ≠ a → h ∉ ((W.moved' n v a b).link m).vehs := by
          intro m hm hmem
          rw [hvq, if_neg hm] at hmem
          have hnm : h ∉ (W.link m).vehs := fun hx => hm (i.uniq hx hha)
          split at hmem
          · simp [hnm, hne] at hmem
          · exact hnm hmem
        have hg : (W.moved' n v a b).g = W.g := by simp [CWorld.moved', moved_g]
        have := tst_endTripOn hr1 hr2 hoth
        rw [hg] at this
        show Rep W.g (tst (W.moved' n v a b)) _ (tst ((W.moved' n v a b).endTripOn h a))
        rw [this]
        refine .cons ⟨rfl, ?_, ?_, ?_, ?_⟩ (.nil _)
        · show ((W.moved' n v a b).veh h).link = some a
          rw [(moved'_since i hq h).2, if_neg hne]
          exact (i.mem a h hha).1
        · intro m hm; cases hm; exact queue_front hr1
        · intro m hm; simp at hm
        · intro m _ hm; simp at hm
      · rw [List.mem_cons, List.mem_singleton] at he
        rcases he with rfl | rfl
        · exact r1
        · exact ⟨aa, i.flag a h hha hfl⟩
  | endFront _ v l t i hq hna hni hf =>
    obtain ⟨tr, a, b⟩ := traced_endTripOn i hq hf
    exact ⟨tr, a, Nodes.other nofun b⟩
  | finish _ n => exact ⟨_, .none rfl, Nodes.other nofun (.of (setN_tv (fun _ => rfl)))⟩
  | follow _ v l i hv =>
    refine ⟨_, .none ?_, Nodes.other nofun (.of fun m => ?_)⟩
    · unfold carFollow
      split
      · rfl
      · split <;> exact tst_setV (fun _ => ⟨rfl, rfl⟩)
    · unfold carFollow
      split
      · rfl
      · split <;> rfl
  | log _ v l s i hv => exact ⟨_, .none (tst_logData W v s), Nodes.other nofun (.of (logData_ntv W v s))⟩
  | advance _ v l i hv => exact ⟨_, .none (tst_setV (fun _ => ⟨rfl, rfl⟩)), Nodes.other nofun (.of fun _ => rfl)⟩
  | abort _ v l i hv hd ho ha => exact ⟨_, .none (tst_setV (fun _ => ⟨rfl, rfl⟩)), Nodes.other nofun (.of fun _ => rfl)⟩
  | flag _ v l i hv hc => exact ⟨_, .none (tst_setV (fun _ => ⟨rfl, rfl⟩)), Nodes.other nofun (.of fun _ => rfl)⟩
  | endRun _ v l t i hq hna hi hf =>
    obtain ⟨tr, a, b⟩ := traced_endTripOn i hq hf
    exact ⟨tr, a, Nodes.other nofun b⟩
  | reqErr _ l e => exact ⟨_, .none (tst_setL (fun _ => rfl)), Nodes.other nofun (.of fun _ => rfl)⟩
  | req _ v l o rng i hv hd hc =>
    refine ⟨_, .none (tst_congr (fun m => ?_) (fun w => ?_) (fun w => ?_)), Nodes.other nofun (.of fun _ => rfl)⟩
    · refine setL_tv (W := W.setV v _) ?_ m
      intro L; rfl
    · rw [setL_veh, setV_veh]; split
      · rename_i e; rw [e]
      · rfl
    · rw [setL_veh, setV_veh]; split
      · rename_i e; rw [e]
      · rfl
  | waitLog _ n v i hv => exact ⟨_, .none (tst_logData W v Option.none), Nodes.other nofun (.of (logData_ntv W v Option.none))⟩

end UX.Cpp
