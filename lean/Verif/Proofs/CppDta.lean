import Verif.Proofs.CppLifeInv
import Verif.Props.CppTimes
import Verif.Spec.CppDta
import Verif.Model.CppDta

/-!
# Travel times of links and costs of routes in the C++ engine
-/

namespace UX.Cpp
open CWorld Relation Spec

/-! ## The array of travel times -/

theorem SamePar.ttReal {W W' : CWorld} (s : SamePar W W') (l : ℕ) : (W'.link l).ttReal = (W.link l).ttReal :=
  show (W'.link l).par.ttReal = (W.link l).par.ttReal by rw [s.link]

theorem SamePar.ttApplied {W W' : CWorld} (s : SamePar W W') (l : ℕ) :
    (W'.link l).ttApplied = (W.link l).ttApplied :=
  show (W'.link l).par.ttApplied = (W.link l).par.ttApplied by rw [s.link]

theorem SamePar.len' {W W' : CWorld} (s : SamePar W W') (l : ℕ) : (W'.link l).len = (W.link l).len :=
  show (W'.link l).par.len = (W.link l).par.len by rw [s.link]

/-- What an edit keeps of a link. -/
def CLink.arrs (L : CLink) : List ℚ × ℕ × ℚ := (L.ttReal, L.ttApplied, L.len)

theorem setL_arrs {W : CWorld} {l : ℕ} {f : CLink → CLink} (h : ∀ L, (f L).arrs = L.arrs) (m : ℕ) :
    ((W.setL l f).link m).arrs = (W.link m).arrs := by
  rw [setL_link]; split
  · rename_i e; rw [h, e]
  · rfl

theorem edit_arrs (W : CWorld) (e : Edit) (m : ℕ) : ((W.edit e).link m).arrs = (W.link m).arrs := by
  cases e <;> simp only [CWorld.edit] <;>
    first
    | rfl
    | (unfold changeFreeFlow; split <;> first | rfl | (refine setL_arrs ?_ m; intro L; rfl))
    | (unfold changeJam; split <;> first | rfl | (refine setL_arrs ?_ m; intro L; rfl))
    | (refine setL_arrs ?_ m; intro L; rfl)

theorem addLink_link_eq (W : CWorld) (src dst : ℕ) (a : LinkArgs) (m : ℕ) :
    (W.addLink src dst a).link m = if m = W.g.nLinks then W.newLink src dst a else W.link m := rfl

/-- No record has been replayed, and the arrays have an entry for every time step. -/
structure TTFresh (W : CWorld) : Prop where
  app : ∀ l, (W.link l).ttApplied = 0
  len : ∀ l, l < W.g.nLinks → (W.link l).ttReal.length = W.g.totalSteps

theorem TTFresh.call {W W' : CWorld} (c : Call W W') (f : TTFresh W) : TTFresh W' := by
  cases c with
  | node r p ints off cap lanes rng => exact ⟨f.app, f.len⟩
  | link r src dst a hs hd hl hr =>
    refine ⟨fun l => ?_, fun l hl' => ?_⟩
    · rw [addLink_link_eq]; split
      · rfl
      · exact f.app l
    · rw [addLink_link_eq]; split
      · exact List.length_replicate
      · exact f.len l (by have : l < W.g.nLinks + 1 := hl'; omega)
  | vehicle r dep orig dest prefer ho hd => exact ⟨f.app, f.len⟩
  | tmax r t =>
    refine ⟨fun l => ?_, fun l hl => ?_⟩
    · simp only [CWorld.setTMax]; split <;> exact f.app l
    · have hl' : l < W.g.nLinks := hl
      simp only [CWorld.setTMax, if_pos hl', List.length_append, List.length_take, List.length_replicate]
      omega
  | init r =>
    obtain ⟨_, hl, hg, _⟩ := initAdj_same W
    exact ⟨fun l => by rw [hl]; exact f.app l, fun l h => by
      rw [hl, CGlob.fix_totalSteps hg]
      exact f.len l (by rw [← CGlob.fix_nLinks hg]; exact h)⟩
  | edit r e =>
    refine ⟨fun l => ?_, fun l hl => ?_⟩
    · exact (congrArg (·.2.1) (edit_arrs W e l)).trans (f.app l)
    · rw [edit_g] at hl ⊢
      exact (congrArg (fun x : List ℚ × ℕ × ℚ => x.1.length) (edit_arrs W e l)).trans (f.len l hl)

theorem CReach.ttFresh {W : CWorld} (h : CReach W) : TTFresh W := by
  refine CReach.invariant (P := TTFresh) ?_ (fun _ _ c f => f.call c) (fun W W' e f => ?_) h
  · intros
    exact ⟨fun _ => rfl, fun l hl => absurd hl (Nat.not_lt_zero l)⟩
  · have hg : W'.g.fix = W.g.fix := Evs.fix (.single e)
    refine ⟨fun l => (e.samePar.ttApplied l).trans (f.app l), fun l hl => ?_⟩
    rw [e.samePar.ttReal l, CGlob.fix_totalSteps hg]
    exact f.len l (by rw [← CGlob.fix_nLinks hg]; exact hl)

/-! ## Indices without a vehicle -/

theorem Ev.big {W W' : CWorld} (e : Ev W W') {v : ℕ} (hv : W.g.nVehs ≤ v) (hs : (W.veh v).state = .home) :
    W'.veh v = W.veh v := by
  cases e with
  | act a => exact a.keep.home v hs
  | clear => rfl
  | update l => rfl
  | home w r hw hs => exact (r.homeVeh hw hs).2.2.2 v (by omega)
  | reconcile r => rfl
  | route r => rw [(routeStep_same W).2.1]
  | tick r => rfl

theorem Evs.big {W W' : CWorld} (e : Evs W W') {v : ℕ} (hv : W.g.nVehs ≤ v) (hs : (W.veh v).state = .home) :
    W'.veh v = W.veh v := by
  have := e.lift (P := fun X => X.g.nVehs ≤ v ∧ X.veh v = W.veh v) (fun X Y a ⟨h1, h2⟩ =>
    ⟨by rw [CGlob.fix_nVehs a.fix]; exact h1, (a.big h1 (by rw [h2]; exact hs)).trans h2⟩) ⟨hv, rfl⟩
  exact this.2

/-! ## Position of a time -/

theorem timeIdx_eq {W : CWorld} (hfl : W.g.fl = id) (hT : 0 < W.g.deltaT) (t : ℚ) {n : ℕ} (hn : 0 < n) :
    W.timeIdx t n = stepIn W.g.deltaT t n := by
  unfold timeIdx stepIn
  simp only [hfl, id]
  generalize t / W.g.deltaT = q
  have e : (if pyInt q < 0 then 0 else pyInt q) = ((⌊q⌋₊ : ℕ) : ℤ) := by
    unfold pyInt
    split
    · rename_i h
      have h1 : 0 ≤ ⌊q⌋ := Int.floor_nonneg.2 h
      rw [if_neg (by omega)]
      exact (Int.natCast_floor_eq_floor h).symm
    · rename_i h
      have h1 : ⌈q⌉ ≤ 0 := Int.ceil_le.2 (by push_cast; linarith)
      have h2 : ⌊q⌋₊ = 0 := Nat.floor_of_nonpos (by linarith)
      rw [h2]
      split <;> omega
  rw [e]
  split <;> omega

theorem dtaToll_eq {W : CWorld} (hfl : W.g.fl = id) (hT : 0 < W.g.deltaT) (l : ℕ) (t : ℚ) :
    W.dtaToll l t = tollAt W l t := by
  unfold dtaToll tollAt
  split
  · rename_i h
    rw [timeIdx_eq hfl hT t (List.length_pos_iff.2 h)]
  · rename_i h
    rw [if_pos (not_not.1 h)]

theorem replay_length (evs : List (ℕ × ℚ)) (xs : List ℚ) : (replay evs xs).length = xs.length := by
  rw [replay_eq]
  induction evs generalizing xs with
  | nil => rfl
  | cons e t ih => rw [List.foldl_cons, ih]; simp [overwrite]

theorem ensureTT_length (L : CLink) : L.ensureTT.ttReal.length = L.ttReal.length := by
  unfold CLink.ensureTT
  split
  · rfl
  · exact replay_length _ _

theorem ensureTT_getD {L : CLink} (h0 : L.ttApplied = 0) {i : ℕ} (hi : i < L.ttReal.length) (d x : ℚ) :
    L.ensureTT.ttReal.getD i d = lastAt (L.ttReal.getD i x) i L.ttEvents := by
  have e : L.ttReal[i]? = some (L.ttReal.getD i x) := by
    rw [List.getD_eq_getElem?_getD, List.getElem?_eq_getElem hi]; rfl
  rw [List.getD_eq_getElem?_getD, C76_value L h0 i _ e]
  rfl

theorem dtaTime_eq {W : CWorld} (h : CReach W) (hfl : W.g.fl = id) (hT : 0 < W.g.deltaT) {l : ℕ}
    (hl : l < W.g.nLinks) (hn : 0 < W.g.totalSteps) (t : ℚ) : W.dtaTime l t = linkTime W l t := by
  have hlen := h.ttFresh.len l hl
  unfold dtaTime linkTime recordAt
  simp only
  rw [ensureTT_length, if_neg (by omega), timeIdx_eq hfl hT t (by omega)]
  exact ensureTT_getD (h.ttFresh.app l) (by unfold stepIn; omega) _ _

/-! ## The value a link is created with -/

/-- The array holds the free-flow time of the link. -/
def TTFree (W : CWorld) (l : ℕ) : Prop :=
  ∀ x ∈ (W.link l).ttReal, x = W.g.fl ((W.link l).len / (W.link l).vmax)

theorem TTFree.new (W : CWorld) (src dst : ℕ) (a : LinkArgs) : TTFree (W.addLink src dst a) W.g.nLinks := by
  intro x hx
  rw [addLink_link_eq, if_pos rfl] at hx ⊢
  exact List.eq_of_mem_replicate hx

theorem TTFree.congr {W W' : CWorld} {l : ℕ} (f : TTFree W l) (e1 : (W'.link l).ttReal = (W.link l).ttReal)
    (e2 : (W'.link l).len = (W.link l).len) (e3 : (W'.link l).vmax = (W.link l).vmax)
    (e4 : W'.g.fl = W.g.fl) : TTFree W' l := by
  intro x hx
  rw [e1] at hx
  rw [e2, e3, e4]
  exact f x hx

theorem TTFree.step {W W' : CWorld} (h : CReach W) (s : CStep W W') {l : ℕ} (hl : l < W.g.nLinks)
    (hv : (W'.link l).vmax = (W.link l).vmax) (f : TTFree W l) : TTFree W' l := by
  rcases s.split h.rest with c | e
  · have hfl : W'.g.fl = W.g.fl := c.glob.1
    cases c with
    | node r p ints off cap lanes rng => exact f.congr rfl rfl rfl rfl
    | link r src dst a hs hd hl' hr =>
      have e : (W.addLink src dst a).link l = W.link l := by
        rw [addLink_link_eq, if_neg (by omega)]
      exact f.congr (by rw [e]) (by rw [e]) (by rw [e]) rfl
    | vehicle r dep orig dest prefer ho hd => exact f.congr rfl rfl rfl rfl
    | tmax r t =>
      intro x hx
      simp only [CWorld.setTMax, if_pos hl] at hx ⊢
      rcases List.mem_append.1 hx with hx | hx
      · exact f x (List.mem_of_mem_take hx)
      · exact List.eq_of_mem_replicate hx
    | init r =>
      obtain ⟨_, e, _⟩ := initAdj_same W
      exact f.congr (by rw [e]) (by rw [e]) hv hfl
    | edit r e =>
      exact f.congr (congrArg (·.1) (edit_arrs W e l)) (congrArg (·.2.2) (edit_arrs W e l)) hv hfl
  · exact f.congr (e.par.ttReal l) (e.par.len' l) hv (CGlob.fix_fl e.fix)

theorem linkTime_free {W : CWorld} {l : ℕ} (hfl : W.g.fl = id) (f : TTFree W l) (t : ℚ)
    (hn : ∀ e ∈ (W.link l).ttEvents, stepIn W.g.deltaT t (W.link l).ttReal.length < e.1) :
    linkTime W l t = (W.link l).len / (W.link l).vmax := by
  unfold linkTime recordAt lastAt
  have e : (W.link l).ttEvents.filter
      (fun e => decide (e.1 ≤ stepIn W.g.deltaT t (W.link l).ttReal.length)) = [] := by
    rw [List.filter_eq_nil_iff]
    intro e he
    have := hn e he
    simpa using this
  rw [e]
  simp only [List.getLast?_nil]
  rw [List.getD_eq_getElem?_getD]
  cases hx : (W.link l).ttReal[stepIn W.g.deltaT t (W.link l).ttReal.length]? with
  | none => rfl
  | some x =>
    have := f x (List.mem_of_getElem? hx)
    rw [hfl] at this
    exact this

/-! ## Costs of routes -/

theorem routeTime_eq {W : CWorld} (hfl : W.g.fl = id) (ls : List ℕ) (t s : ℚ) :
    W.routeTime ls t s = (s + total W.dtaTime W.dtaTime ls t, (drive W.dtaTime ls t).map (fun p => W.dtaTime p.1 p.2)) := by
  induction ls generalizing t s with
  | nil => simp [routeTime, total, drive]
  | cons l ls ih =>
    simp only [routeTime, hfl, id, total, drive, ih, List.map_cons, List.sum_cons]
    rw [add_assoc]

theorem costLoop_eq {W : CWorld} (hfl : W.g.fl = id) (c : ℕ → ℚ → ℚ) (ls : List ℕ) (t s x : ℚ) :
    W.costLoop c ls t s x = s + x + total W.dtaTime (fun l t => W.dtaTime l t + c l t) ls t := by
  induction ls generalizing t s x with
  | nil => simp [costLoop, total, drive, hfl]
  | cons l ls ih =>
    simp only [costLoop, hfl, id, total, drive, ih, List.map_cons, List.sum_cons]
    ring

theorem costOwn_eq {W : CWorld} (hfl : W.g.fl = id) (ls : List ℕ) (ts : List ℚ) (t s : ℚ)
    (hl : ts.length = ls.length) :
    W.costOwn ls ts t s = s + total W.dtaTime W.dtaTime ls t + (List.zipWith W.dtaToll ls ts).sum := by
  induction ls generalizing ts t s with
  | nil => simp [costOwn, total, drive]
  | cons l ls ih =>
    cases ts with
    | nil => simp at hl
    | cons u us =>
      simp only [costOwn, hfl, id, total, drive, List.map_cons, List.sum_cons, List.tail_cons, List.headD_cons,
        List.zipWith_cons_cons, ih us _ _ (by simpa using hl)]
      ring

theorem drive_congr {q q' : ℕ → ℚ → ℚ} {ls : List ℕ} (h : ∀ l ∈ ls, ∀ t, q l t = q' l t) (t : ℚ) :
    drive q ls t = drive q' ls t := by
  induction ls generalizing t with
  | nil => rfl
  | cons l ls ih =>
    simp only [drive]
    rw [h l (by simp), ih (fun m hm => h m (by simp [hm]))]

theorem drive_mem {q : ℕ → ℚ → ℚ} {ls : List ℕ} {t : ℚ} {p : ℕ × ℚ} (h : p ∈ drive q ls t) : p.1 ∈ ls := by
  induction ls generalizing t with
  | nil => simp [drive] at h
  | cons l ls ih =>
    simp only [drive, List.mem_cons] at h ⊢
    rcases h with rfl | h
    · exact Or.inl rfl
    · exact Or.inr (ih h)

theorem total_congr {q q' c c' : ℕ → ℚ → ℚ} {ls : List ℕ} (h : ∀ l ∈ ls, ∀ t, q l t = q' l t)
    (hc : ∀ l ∈ ls, ∀ t, c l t = c' l t) (t : ℚ) : total q c ls t = total q' c' ls t := by
  unfold total
  rw [drive_congr h]
  congr 1
  exact List.map_congr_left (fun p hp => hc _ (drive_mem hp) _)

end UX.Cpp
