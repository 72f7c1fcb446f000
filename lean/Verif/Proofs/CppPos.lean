import Verif.Proofs.CppHistory
import Verif.Proofs.CppDta

/-!
# Recorded travel times are not negative
-/

namespace UX.Cpp
open CWorld Spec

/-- Vehicles entered by now, and records are not negative. -/
def TimesOK (g : CGlob) (q tt : List (ℕ × ℚ)) : Prop :=
  (∀ p ∈ q, p.2 ≤ clock g g.timestep) ∧ ∀ e ∈ tt, 0 ≤ e.2

theorem fl_nonneg {fl : ℚ → ℚ} (h : FlOK fl) {x : ℚ} (hx : 0 ≤ x) : 0 ≤ fl x := by
  have := h.mono hx
  rwa [h.zero] at this

theorem clock_mono {g : CGlob} (hfl : FlOK g.fl) (hT : 0 ≤ g.deltaT) {s t : ℕ} (h : s ≤ t) : clock g s ≤ clock g t := by
  unfold clock
  exact hfl.mono (mul_le_mul_of_nonneg_right (by exact_mod_cast h) hT)

theorem record_nonneg {g : CGlob} (hfl : FlOK g.fl) (hT : 0 ≤ g.deltaT) {e : Pass} (he : e.time = g.timestep) {t : ℚ}
    (ht : t ≤ clock g g.timestep) : 0 ≤ (record g e t).2 := by
  unfold record
  refine fl_nonneg hfl (sub_nonneg.2 (ht.trans ?_))
  rw [he]
  split
  · exact clock_mono hfl hT (by omega)
  · exact le_rfl

theorem Rep.times {g : CGlob} (hfl : FlOK g.fl) (hT : 0 ≤ g.deltaT) {X Y : TS} {h : List Pass} (r : Rep g X h Y)
    (l : ℕ) (hx : TimesOK g (X.lk l).q (X.lk l).tt) : TimesOK g (Y.lk l).q (Y.lk l).tt := by
  induction r with
  | nil X => exact hx
  | @cons X Y e h ok _ ih =>
    apply ih
    have hout : TimesOK g ((X.lk l).out g e).q ((X.lk l).out g e).tt := by
      refine ⟨fun p hp => hx.1 p (List.mem_of_mem_tail hp), fun q hq => ?_⟩
      rcases List.mem_append.1 hq with hq | hq
      · exact hx.2 q hq
      · obtain ⟨p, hp, rfl⟩ := List.mem_map.1 hq
        rw [Option.mem_toList] at hp
        exact record_nonneg hfl hT ok.time (hx.1 p (List.mem_of_mem_head? hp))
    have hin : ∀ Z : LV, TimesOK g Z.q Z.tt → TimesOK g (Z.into g e).q (Z.into g e).tt := by
      intro Z hz
      refine ⟨fun p hp => ?_, hz.2⟩
      rcases List.mem_append.1 hp with hp | hp
      · exact hz.1 p hp
      · rw [List.mem_singleton] at hp
        rw [hp]
    show TimesOK g ((X.lk l).pass g l e).q ((X.lk l).pass g l e).tt
    unfold LV.pass
    split
    · apply hin
      split
      · exact hout
      · exact hx
    · split
      · exact hout
      · exact hx

/-- The invariant of a world. -/
def Punctual (W : CWorld) : Prop :=
  FlOK W.g.fl → 0 ≤ W.g.deltaT → ∀ l, TimesOK W.g (queue W l) (W.link l).ttEvents

theorem Punctual.congr {W W' : CWorld} (p : Punctual W) (h1 : W'.g.fl = W.g.fl) (h2 : W'.g.deltaT = W.g.deltaT)
    (h3 : W'.g.timestep = W.g.timestep) (h4 : ∀ l, queue W' l = queue W l)
    (h5 : ∀ l, (W'.link l).ttEvents = (W.link l).ttEvents) : Punctual W' := by
  intro hfl hT l
  rw [h1] at hfl
  rw [h2] at hT
  have := p hfl hT l
  unfold TimesOK clock at *
  rw [h1, h2, h3, h4, h5]
  exact this

theorem queue_congr {W W' : CWorld} {l : ℕ} (h1 : (W'.link l).vehs = (W.link l).vehs)
    (h2 : ∀ v ∈ (W.link l).vehs, (W'.veh v).arrTimeLink = (W.veh v).arrTimeLink) : queue W' l = queue W l := by
  unfold queue
  rw [h1]
  exact List.map_congr_left (fun v hv => by rw [h2 v hv])

theorem Punctual.ev {W W' : CWorld} (e : Ev W W') (p : Punctual W) : Punctual W' := by
  have hfix := e.fix
  cases e with
  | act a =>
    intro hfl hT l
    obtain ⟨tr, t, _⟩ := a.traced
    have hg := a.keep.g
    rw [hg] at hfl hT ⊢
    exact t.rep.times hfl hT l (p hfl hT l)
  | clear => exact p.congr rfl rfl rfl (fun l => rfl) (fun l => rfl)
  | update m =>
    refine p.congr rfl rfl rfl (fun l => ?_) (fun l => ?_)
    · refine queue_congr ?_ (fun _ _ => rfl)
      simp only [CWorld.linkUpdate]; rw [setL_link]; split
      · rename_i e; subst e; rfl
      · rfl
    · simp only [CWorld.linkUpdate]; rw [setL_link]; split
      · rename_i e; subst e; rfl
      · rfl
  | home v r hv hs =>
    have hg : (W.vehUpdate v none).g = W.g := (r.homeVeh hv hs).2.2.1
    have e := fun l => congrFun (congrArg TS.lk (vehUpdate_tst hs).1) l
    exact p.congr (by rw [hg]) (by rw [hg]) (by rw [hg]) (fun l => congrArg LV.q (e l)) (fun l => congrArg LV.tt (e l))
  | reconcile r =>
    refine p.congr rfl rfl rfl (fun l => queue_congr ?_ (fun _ _ => rfl)) (fun l => ?_)
    · simp only [CWorld.reconcile]; split <;> rfl
    · simp only [CWorld.reconcile]; split <;> rfl
  | route r =>
    obtain ⟨a, hv, _, _, _, ht, _, _, hc⟩ := routeStep_same W
    refine p.congr (CGlob.fix_fl hfix) (CGlob.fix_deltaT hfix) ht (fun l => queue_congr ?_ (fun _ _ => by rw [hv])) (fun l => ?_)
    · exact (congrArg CLink.vehs (hc l) : _)
    · obtain ⟨x, e⟩ := routeStep_link W l
      rw [e]
  | tick r =>
    intro hfl hT l
    refine ⟨fun q hq => ((p hfl hT l).1 q hq).trans ?_, (p hfl hT l).2⟩
    exact clock_mono (g := W.g) hfl hT (by simp)

theorem CVeh.life_arrTimeLink {V V' : CVeh} (h : V'.life = V.life) : V'.arrTimeLink = V.arrTimeLink :=
  (congrArg CVeh.arrTimeLink h : _)

theorem edit_tt (W : CWorld) (e : Edit) (m : ℕ) : ((W.edit e).link m).vehs = (W.link m).vehs ∧
    ((W.edit e).link m).ttEvents = (W.link m).ttEvents := by
  cases e <;> simp only [CWorld.edit] <;>
    first
    | exact ⟨rfl, rfl⟩
    | (unfold changeFreeFlow; split <;> first | exact ⟨rfl, rfl⟩ | (rw [setL_link]; split <;> simp_all))
    | (unfold changeJam; split <;> first | exact ⟨rfl, rfl⟩ | (rw [setL_link]; split <;> simp_all))
    | (rw [setL_link]; split <;> simp_all)

theorem Punctual.call {W W' : CWorld} (c : Call W W') (p : Punctual W) : Punctual W' := by
  obtain ⟨h1, h2, _, h3⟩ := c.glob
  have hv := c.veh
  cases c with
  | node r q ints off cap lanes rng => exact p.congr h1 h2 h3 (fun _ => rfl) (fun _ => rfl)
  | link r src dst a hs hd hl hr =>
    intro hfl hT l
    have := p hfl hT l
    unfold queue
    rw [addLink_link_eq]; split
    · exact ⟨fun q hq => by simp [newLink] at hq, fun q hq => by simp [newLink] at hq⟩
    · exact this
  | vehicle r dep orig dest prefer ho hd =>
    refine p.congr h1 h2 h3 (fun l => queue_congr rfl (fun v hm => ?_)) (fun _ => rfl)
    have := (r.inv.mem l v hm).2.2.2.1
    show (if v = W.g.nVehs then _ else W.veh v : CVeh).arrTimeLink = _
    rw [if_neg (by intro e; rw [e] at this; exact lt_irrefl _ this)]
  | tmax r t =>
    refine p.congr h1 h2 h3 (fun l => queue_congr ?_ (fun _ _ => rfl)) (fun l => ?_)
    · simp only [CWorld.setTMax]; split <;> rfl
    · simp only [CWorld.setTMax]; split <;> rfl
  | init r =>
    obtain ⟨hv, a, _⟩ := initAdj_same W
    refine p.congr h1 h2 h3 (fun l => queue_congr ?_ (fun v _ => ?_)) (fun l => ?_)
    · rw [a]
    · rw [hv]
    · rw [a]
  | edit r e =>
    refine p.congr h1 h2 h3 (fun l => queue_congr (edit_tt W e l).1 (fun v _ => ?_)) (fun l => (edit_tt W e l).2)
    exact CVeh.life_arrTimeLink (edit_life W e v)

theorem CReach.punctual {W : CWorld} (h : CReach W) : Punctual W := by
  refine CReach.invariant (fun _ _ _ _ _ _ _ _ _ _ _ _ _ => ?_) (fun _ _ c p => p.call c) (fun _ _ e p => p.ev e) h
  intro _ _ l
  exact ⟨fun q hq => by simp [queue, CWorld.empty] at hq, fun q hq => by simp [CWorld.empty] at hq⟩

theorem lastAt_nonneg {d : ℚ} (hd : 0 ≤ d) {i : ℕ} {es : List (ℕ × ℚ)} (h : ∀ e ∈ es, 0 ≤ e.2) :
    0 ≤ lastAt d i es := by
  unfold lastAt
  split
  · rename_i e he
    exact h e (List.mem_of_mem_filter (List.mem_of_getLast? he))
  · exact hd

theorem recordAt_nonneg {W : CWorld} (h : CReach W) (hfl : W.g.fl = id) (hT : 0 < W.g.deltaT) {l : ℕ}
    (hl : l < W.g.nLinks) (hp : ∀ x ∈ (W.link l).ttReal, 0 ≤ x) {i : ℕ} (hi : i < W.g.totalSteps) :
    0 ≤ recordAt W l i := by
  refine lastAt_nonneg ?_ (h.punctual (by rw [hfl]; exact ⟨monotone_id, rfl, fun _ => rfl⟩) hT.le l).2
  have hlt : i < (W.link l).ttReal.length := by rw [h.ttFresh.len l hl]; exact hi
  rw [List.getD_eq_getElem?_getD, List.getElem?_eq_getElem hlt]
  exact hp _ (List.getElem_mem _)

end UX.Cpp
