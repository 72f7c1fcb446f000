import Verif.Model.Logs
import Verif.Spec.Logs
import Verif.Proofs.Phase
import Verif.Proofs.Shape
import Verif.Proofs.Exec

/-! # How vehicle logs grow in a time step -/

namespace UX
open World

/-- State of the log of `v` before the vehicle-update phase, compared with the start `W` of the step. -/
structure EarlyLog (v : VehId) (W X : World) : Prop where
  static : Static W X
  alive : v ∈ X.living → v ∈ W.living ∧ X.V.log v = W.V.log v
  gone : v ∉ X.living → (v ∉ W.living ∧ X.V.log v = W.V.log v) ∨
    (v ∈ W.living ∧ ∃ e, X.V.log v = e :: W.V.log v ∧ e.t = W.now ∧
      (e.state = .ended ∨ e.state = .abort) ∧ e.link = none)
  moved : (X.V.link v = W.V.link v ∧ X.V.x v = W.V.x v) ∨ v ∉ X.living ∨
    (∃ n l, Event.depart W.T v n l ∈ X.trace) ∨ ∃ n a b ph, Event.pass W.T v n a b ph ∈ X.trace

theorem Static.now {W X : World} (h : Static W X) : X.now = W.now := by
  unfold World.now World.fl World.dt; rw [h.T, h.cfg]

theorem logDue_one {W : World} (h : W.cfg.logInterval = 1) (e : Bool) : W.logDue e = true := by
  simp [logDue, h]

theorem endRow_spec (W : World) (v : VehId) :
    (W.endRow v).t = W.now ∧ ((W.endRow v).state = .ended ∨ (W.endRow v).state = .abort) ∧
      (W.endRow v).link = none := by
  refine ⟨rfl, ?_, rfl⟩
  unfold endRow; dsimp only
  split
  · exact .inr rfl
  · exact .inl rfl

theorem EarlyLog.prim {v : VehId} {W X Y : World} {a : Act} (ha : isEarly a) (hc : Core X)
    (hp : Prim a X Y) (h1 : W.cfg.logInterval = 1) (h : EarlyLog v W X) : EarlyLog v W Y := by
  obtain ⟨hs, hal, hg, hm⟩ := h
  have hst := hs.trans (Prim.static hp)
  have hsh := hp.shape hc.s
  have hnd := hc.s.living_nodup
  clear hp
  cases hsh with
  | @depart _ n u t cs l o hn hq hcs hl hout hent hcum hlead =>
    refine ⟨hst, hal, hg, ?_⟩
    by_cases hu : v = u
    · subst hu
      exact .inr (.inr (.inl ⟨n, l, by rw [← hs.T]; exact List.mem_cons_self⟩))
    · simp only [upd_ne _ _ hu]
      rcases hm with h | h | ⟨n, l, h⟩ | ⟨n, a, b, ph, h⟩
      · exact .inl h
      · exact .inr (.inl h)
      · exact .inr (.inr (.inl ⟨n, l, List.mem_cons_of_mem _ h⟩))
      · exact .inr (.inr (.inr ⟨n, a, b, ph, List.mem_cons_of_mem _ h⟩))
  | @move _ n u a b t o q nl fc tta =>
    refine ⟨hst, hal, hg, ?_⟩
    by_cases hu : v = u
    · subst hu
      exact .inr (.inr (.inr ⟨n, a, b, _, by rw [← hs.T]; exact List.mem_cons_self⟩))
    · simp only [upd_ne _ _ hu]
      rcases hm with h | h | ⟨n, l, h⟩ | ⟨n, a, b, ph, h⟩
      · exact .inl h
      · exact .inr (.inl h)
      · exact .inr (.inr (.inl ⟨n, l, List.mem_cons_of_mem _ h⟩))
      · exact .inr (.inr (.inr ⟨n, a, b, ph, List.mem_cons_of_mem _ h⟩))
  | @endTrip _ u l t log s c lt tta hl hv hf hcd hrun hliv hlt hlog htta =>
    have hdue : X.logDue true = true := logDue_one (by rw [hs.cfg]; exact h1) true
    rw [if_pos hdue] at hlog
    subst hlog
    by_cases hu : v = u
    · subst hu
      have hne : v ∉ X.living.erase v := fun hm => (List.Nodup.mem_erase_iff hnd).1 hm |>.1 rfl
      refine ⟨hst, fun hm => absurd hm hne, fun _ => .inr ⟨(hal hliv).1, X.endRow v, ?_, ?_⟩, .inr (.inl hne)⟩
      · show upd X.V.log v _ v = _
        rw [upd_same, (hal hliv).2]
      · rw [← hs.now]; exact endRow_spec X v
    · have hmem : v ∈ X.living.erase u ↔ v ∈ X.living := by
        rw [List.Nodup.mem_erase_iff hnd]; exact ⟨fun h => h.2, fun h => ⟨hu, h⟩⟩
      refine ⟨hst, fun hm => ?_, fun hm => ?_, ?_⟩
      · show _ ∧ upd X.V.log u _ v = _
        rw [upd_ne _ _ hu]; exact hal (hmem.1 hm)
      · have := hg (fun h => hm (hmem.2 h))
        show (_ ∧ upd X.V.log u _ v = _) ∨ (_ ∧ ∃ e, upd X.V.log u _ v = _ ∧ _)
        rw [upd_ne _ _ hu]; exact this
      · simp only [upd_ne _ _ hu]
        rcases hm with h | h | ⟨n, l, h⟩ | ⟨n, a, b, ph, h⟩
        · exact .inl h
        · exact .inr (.inl (fun hm => h (hmem.1 hm)))
        · exact .inr (.inr (.inl ⟨n, l, List.mem_cons_of_mem _ h⟩))
        · exact .inr (.inr (.inr ⟨n, a, b, ph, List.mem_cons_of_mem _ h⟩))
  | record => exact ha.elim
  | startWait => exact ha.elim
  | noWait => exact ha.elim
  | advance => exact ha.elim
  | event => exact ha.elim
  | nextDest => exact ha.elim
  | flagEnd => exact ha.elim
  | flagAbort => exact ha.elim
  | choose => exact ha.elim
  | pushInc => exact ha.elim
  | _ => exact ⟨hst, hal, hg, hm⟩

/-! ## The vehicle-update phase -/

/-- Nothing recorded about `v` differs. -/
structure SameVeh (v : VehId) (X Y : World) : Prop where
  log : Y.V.log v = X.V.log v
  link : Y.V.link v = X.V.link v
  x : Y.V.x v = X.V.x v
  xOld : Y.V.xOld v = X.V.xOld v
  lane : Y.V.lane v = X.V.lane v
  state : Y.V.state v = X.V.state v
  living : v ∈ Y.living ↔ v ∈ X.living

theorem SameVeh.refl (v : VehId) (X : World) : SameVeh v X X := ⟨rfl, rfl, rfl, rfl, rfl, rfl, Iff.rfl⟩

theorem SameVeh.trans {v : VehId} {X Y Z : World} (h : SameVeh v X Y) (k : SameVeh v Y Z) :
    SameVeh v X Z :=
  ⟨k.log.trans h.log, k.link.trans h.link, k.x.trans h.x, k.xOld.trans h.xOld, k.lane.trans h.lane,
    k.state.trans h.state, k.living.trans h.living⟩

theorem SameVeh.updOf {u v : VehId} (huv : v ≠ u) {X Y : World} {a : Act} (ha : isUpd u a) (hc : Core X)
    (hp : Prim a X Y) : SameVeh v X Y := by
  have hsh := hp.shape hc.s
  have hnd := hc.s.living_nodup
  clear hp
  cases hsh with
  | @endTrip _ w l t log s c lt tta hl hv hf hcd hrun hliv hlt hlog htta =>
    have : w = u := ha
    subst this
    have hlog' : log v = X.V.log v := by
      rw [hlog]; split
      · rw [upd_ne _ _ huv]
      · rfl
    refine ⟨hlog', upd_ne _ _ huv, upd_ne _ _ huv, rfl, rfl, upd_ne _ _ huv, ?_⟩
    show v ∈ X.living.erase w ↔ _
    rw [List.Nodup.mem_erase_iff hnd]; exact ⟨fun h => h.2, fun h => ⟨huv, h⟩⟩
  | @record _ w log s c lt hliv hlt hlog =>
    have : w = u := ha
    subst this
    have hlog' : log v = X.V.log v := by
      rw [hlog]; split
      · rw [upd_ne _ _ huv]
      · rfl
    exact ⟨hlog', rfl, rfl, rfl, rfl, rfl, Iff.rfl⟩
  | @startWait _ w =>
    have : w = u := ha
    subst this
    exact ⟨rfl, rfl, rfl, rfl, rfl, upd_ne _ _ huv, Iff.rfl⟩
  | @advance _ w =>
    have : w = u := ha
    subst this
    exact ⟨rfl, rfl, upd_ne _ _ huv, upd_ne _ _ huv, rfl, rfl, Iff.rfl⟩
  | depart => exact ha.elim
  | move => exact ha.elim
  | _ => exact ⟨rfl, rfl, rfl, rfl, rfl, rfl, Iff.rfl⟩

theorem SameVeh.routing {v : VehId} {X Y : World} {a : Act} (ha : isRouting a) (hc : Core X)
    (hp : Prim a X Y) : SameVeh v X Y := by
  have hsh := hp.shape hc.s
  clear hp
  cases hsh with
  | routing => exact ⟨rfl, rfl, rfl, rfl, rfl, rfl, Iff.rfl⟩
  | _ => exact ha.elim

theorem PStar.sameVeh {v : VehId} {A : Act → Prop} {X Y : World} (hs : PStar A X Y) (hc : Core X)
    (h : ∀ a X Y, A a → Core X → Prim a X Y → SameVeh v X Y) : SameVeh v X Y :=
  hs.inv_core (P := fun Z => SameVeh v X Z) (fun a A B ha hc hp ih => ih.trans (h a A B ha hc hp)) hc
    (SameVeh.refl v X)

/-- The log of `v` after its own update, compared with the world `X` before it. -/
structure Updated (v : VehId) (X Y : World) : Prop where
  alive : v ∈ Y.living → ∃ r, Y.V.log v = r :: X.V.log v ∧ r.t = X.now ∧
    (Y.V.state v = .run → r.state = .run ∧ r.link = Y.V.link v ∧ r.x = Y.V.xOld v ∧ r.lane = Y.V.lane v ∧
      Y.V.link v = X.V.link v ∧ Y.V.xOld v = X.V.x v) ∧
    (Y.V.state v ≠ .run → r.link = none)
  gone : v ∉ Y.living → ∃ e r, Y.V.log v = e :: r :: X.V.log v ∧ r.t = X.now ∧ e.t = X.now ∧
    (e.state = .ended ∨ e.state = .abort) ∧ e.link = none ∧
    r.link = X.V.link v ∧ r.x = X.V.x v
  stays : v ∈ Y.living → (Y.V.log v).head?.map (·.state) = some (X.V.state v) ∧
    Y.V.state v = if X.V.state v = .home ∧ X.V.depTime v ≤ X.T then .wait else X.V.state v
  ends : v ∉ Y.living → ((Y.V.log v).take 2).map (·.state) = [Y.V.state v, X.V.state v] ∧
    X.V.state v = .run

theorem Updated.same {v : VehId} {X Y Z : World} (h : Updated v X Y) (k : SameVeh v Y Z) :
    Updated v X Z := by
  refine ⟨fun hm => ?_, fun hm => ?_, fun hm => ?_, fun hm => ?_⟩
  · rw [k.log, k.link, k.xOld, k.lane, k.state]
    exact h.alive (k.living.1 hm)
  · rw [k.log]; exact h.gone (fun hh => hm (k.living.2 hh))
  · rw [k.log, k.state]; exact h.stays (k.living.1 hm)
  · rw [k.log, k.state]; exact h.ends (fun hh => hm (k.living.2 hh))

theorem updSpec_log {v : VehId} {X Y : World} (hc : Core X) (hv : v ∈ X.living)
    (h1 : X.cfg.logInterval = 1) (h : UpdSpec v X Y) : Updated v X Y := by
  obtain ⟨W1, hW1, p1, p2, h⟩ := h
  obtain ⟨log, s, c, hr, hlog⟩ := recordLog_shape X v false
  rw [if_pos (logDue_one h1 false)] at hlog
  have hc1 := (hc.prim p1).prim p2
  have hS1 := (Prim.static p1).trans (Prim.static p2)
  have hl1 : W1.V.log v = X.logRow v :: X.V.log v := by
    rw [hW1, hr, hlog]; unfold World.startWait
    split <;> simp only [upd_same]
  have hlv1 : v ∈ W1.living := by
    rw [hW1, hr]; unfold World.startWait; split <;> exact hv
  have hrowt : (X.logRow v).t = X.now := by unfold logRow; split <;> rfl
  have hx1 : W1.V.x v = X.V.x v ∧ W1.V.link v = X.V.link v ∧ W1.V.lane v = X.V.lane v := by
    rw [hW1, hr]; unfold World.startWait; split <;> exact ⟨rfl, rfl, rfl⟩
  have hst1 : W1.V.state v = .run ↔ X.V.state v = .run := by
    rw [hW1, hr]; unfold World.startWait
    split
    · rename_i hh
      have : X.V.state v = .home := hh.1
      simp [upd_same, this]
    · exact Iff.rfl
  have hrows : (X.logRow v).state = X.V.state v := by
    unfold logRow; split
    · rename_i hh; exact hh.symm
    · rfl
  have hst2 : W1.V.state v = if X.V.state v = .home ∧ X.V.depTime v ≤ X.T then .wait else X.V.state v := by
    rw [hW1, hr]; unfold World.startWait
    by_cases hh : X.V.state v = .home ∧ X.V.depTime v ≤ X.T
    · rw [if_pos hh, if_pos hh]; exact upd_same _ _ _
    · rw [if_neg hh, if_neg hh]
  rcases h with ⟨hn, h⟩ | ⟨hrun, pa, hs⟩
  · have hSame : SameVeh v W1 Y := by
      rcases h with rfl | h
      · exact SameVeh.refl v _
      · exact SameVeh.routing (a := .routing) trivial hc1 h
    have hnr : X.V.state v ≠ .run := fun hh => hn (hst1.2 hh)
    refine Updated.same ⟨fun _ => ⟨_, hl1, hrowt, fun hh => absurd hh hn, fun _ => ?_⟩,
      fun hh => absurd hlv1 hh, fun _ => ⟨by rw [hl1]; simp [hrows], hst2⟩, fun hh => absurd hlv1 hh⟩ hSame
    unfold logRow; rw [if_neg hnr]
  · have hc2 := hc1.prim pa
    have hXrun := hst1.1 hrun
    have hrow : (X.logRow v).state = .run ∧ (X.logRow v).link = X.V.link v ∧ (X.logRow v).x = X.V.x v ∧
        (X.logRow v).lane = X.V.lane v := by
      unfold logRow; rw [if_pos hXrun]; exact ⟨rfl, rfl, rfl, rfl⟩
    -- after the move: either still living with everything in place, or one end row more
    let P : World → Prop := fun Z => (W1.advance v).cfg = Z.cfg ∧ Z.now = X.now ∧
      ((v ∈ Z.living ∧ Z.V.log v = X.logRow v :: X.V.log v ∧ Z.V.link v = X.V.link v ∧
        Z.V.xOld v = X.V.x v ∧ Z.V.lane v = X.V.lane v ∧ Z.V.state v = .run) ∨
       (v ∉ Z.living ∧ ∃ e, Z.V.log v = e :: X.logRow v :: X.V.log v ∧ e.t = X.now ∧
        (e.state = .ended ∨ e.state = .abort) ∧ e.link = none ∧ e.state = Z.V.state v))
    have hP0 : P (W1.advance v) := by
      refine ⟨rfl, (Static.now (Prim.static pa)).trans (Static.now hS1), .inl ⟨hlv1, hl1, hx1.2.1, ?_, hx1.2.2, hrun⟩⟩
      show upd W1.V.xOld v (W1.V.x v) v = _
      rw [upd_same]; exact hx1.1
    have hPY : P Y := by
      refine hs.inv_core (P := P) ?_ hc2 hP0
      intro a A B ha hcA hp hPA
      obtain ⟨hcfg, hnow, hPA⟩ := hPA
      have hsA := Prim.static hp
      have hsh := hp.shape hcA.s
      have hnd := hcA.s.living_nodup
      have hcA1 : A.cfg.logInterval = 1 := by
        rw [← hcfg, (Prim.static pa).cfg, hS1.cfg]; exact h1
      refine ⟨hcfg.trans hsA.cfg.symm, hsA.now.trans hnow, ?_⟩
      clear hp
      cases hsh with
      | @endTrip _ w l t lg s c lt tta hl hv hf hcd hrun hliv hlt hlg htta =>
        have : w = v := ha
        subst this
        rcases hPA with ⟨_, hl, _⟩ | ⟨hn, _⟩
        · right
          refine ⟨fun hm => (List.Nodup.mem_erase_iff hnd).1 hm |>.1 rfl, A.endRow w, ?_, ?_⟩
          · show lg w = _
            rw [hlg, if_pos (logDue_one hcA1 true), upd_same, hl]
          · rw [← hnow]
            exact ⟨(endRow_spec A w).1, (endRow_spec A w).2.1, (endRow_spec A w).2.2, (upd_same _ _ _).symm⟩
        · exact absurd hliv hn
      | record => exact ha.elim
      | startWait => exact ha.elim
      | noWait => exact ha.elim
      | advance => exact ha.elim
      | depart => exact ha.elim
      | move => exact ha.elim
      | _ => exact hPA
    obtain ⟨_, _, hP⟩ := hPY
    refine ⟨fun hm => ?_, fun hm => ?_, fun hm => ?_, fun hm => ?_⟩
    · rcases hP with ⟨_, hl, hlk, hxo, hln, hst⟩ | ⟨hn, _⟩
      · exact ⟨_, hl, hrowt, fun _ => ⟨hrow.1, hrow.2.1.trans hlk.symm, hrow.2.2.1.trans hxo.symm,
          by rw [hrow.2.2.2, hln], hlk, hxo⟩, fun hn => absurd hst hn⟩
      · exact absurd hm hn
    · rcases hP with ⟨hh, _⟩ | ⟨_, e, hl, ht, he⟩
      · exact absurd hh hm
      · exact ⟨e, _, hl, hrowt, ht, he.1, he.2.1, hrow.2.1, hrow.2.2.1⟩
    · rcases hP with ⟨_, hl, _, _, _, hst⟩ | ⟨hn, _⟩
      · rw [hl, hst, hXrun]; simp [hrows, hXrun]
      · exact absurd hm hn
    · rcases hP with ⟨hh, _⟩ | ⟨_, e, hl, ht, he⟩
      · exact absurd hh hm
      · rw [hl]; exact ⟨by simp [he.2.2, hrows], hXrun⟩

theorem updates_log {v : VehId} {X Y : World} (hc : Core X) (hi : ∀ n, X.N.incoming n = [])
    (h1 : X.cfg.logInterval = 1) (h : X.living.foldlM vehUpdateLiving X = .ok Y) :
    (v ∈ X.living → Updated v X Y) ∧ (v ∉ X.living → SameVeh v X Y) := by
  have := (updates_inv (P := fun pre Z => Static X Z ∧ (v ∉ pre → SameVeh v X Z) ∧
    (v ∈ pre → Updated v X Z)) hc hi ?_ ⟨Static.refl X, fun _ => SameVeh.refl v X, by simp⟩ h).1
  · exact ⟨this.2.2, this.2.1⟩
  · intro pre u A B hup huX huA hcA _ hsp ⟨hst, hno, hyes⟩
    have hstB : Static A B := hsp.star.static
    refine ⟨hst.trans hstB, fun hm => ?_, fun hm => ?_⟩
    · have h3 : v ∉ pre ∧ v ≠ u := by simpa using hm
      exact (hno h3.1).trans (hsp.star.sameVeh hcA (fun a X Y ha hc hp => SameVeh.updOf h3.2 ha hc hp))
    · by_cases hvu : v = u
      · subst hvu
        have hs := hno hup
        have := updSpec_log hcA huA (by rw [hst.cfg]; exact h1) hsp
        refine ⟨fun hb => ?_, fun hb => ?_, fun hb => ?_, fun hb => ?_⟩
        · have := this.alive hb
          rw [hs.log, hst.now, hs.link, hs.x] at this; exact this
        · have := this.gone hb
          rw [hs.log, hst.now, hs.link, hs.x] at this; exact this
        · have := this.stays hb
          rw [hs.state, hst.T, hst.depTime] at this; exact this
        · have := this.ends hb
          rw [hs.state] at this; exact this
      · have : v ∈ pre := by
          rcases List.mem_append.1 hm with h | h
          · exact h
          · exact absurd (by simpa using h) hvu
        exact (hyes this).same
          (hsp.star.sameVeh hcA (fun a X Y ha hc hp => SameVeh.updOf hvu ha hc hp))

/-! ## A whole step -/

theorem trace_keep {X Y : World} {a : Act} (hc : Core X) (hp : Prim a X Y) {e : Event}
    (he : e ∈ X.trace) : e ∈ Y.trace := by
  have hsh := hp.shape hc.s
  clear hp
  cases hsh with
  | depart => exact List.mem_cons_of_mem _ he
  | move => exact List.mem_cons_of_mem _ he
  | endTrip => exact List.mem_cons_of_mem _ he
  | startWait => exact List.mem_cons_of_mem _ he
  | _ => exact he

/-- The log of `v` over one time step from `W` to `W'`. -/
structure TickLog (v : VehId) (W W' : World) : Prop where
  alive : v ∈ W'.living → v ∈ W.living ∧ ∃ r, W'.V.log v = r :: W.V.log v ∧ r.t = W.now ∧
    (W'.V.state v = .run → r.state = .run ∧ r.link = W'.V.link v ∧ r.x = W'.V.xOld v ∧
      r.lane = W'.V.lane v ∧
      ((r.link = W.V.link v ∧ r.x = W.V.x v) ∨ (∃ n l, Event.depart W.T v n l ∈ W'.trace) ∨
        ∃ n a b ph, Event.pass W.T v n a b ph ∈ W'.trace)) ∧
    (W'.V.state v ≠ .run → r.link = none)
  gone : v ∉ W'.living → (v ∉ W.living ∧ W'.V.log v = W.V.log v) ∨
    (v ∈ W.living ∧ ∃ e, e.t = W.now ∧ (e.state = .ended ∨ e.state = .abort) ∧
      (W'.V.log v = e :: W.V.log v ∨ ∃ r, r.t = W.now ∧ W'.V.log v = e :: r :: W.V.log v))

/-- The log through the phases of a step. -/
theorem Phases.log {v : VehId} {W W1 W2 W3 W4 W5 W6 : World} (ph : Phases W W1 W2 W3 W4 W5 W6) (hc : Core W)
    (h1 : W.cfg.logInterval = 1) :
    EarlyLog v W W4 ∧ (v ∈ W4.living → Updated v W4 W6) ∧ (v ∉ W4.living → SameVeh v W4 W6) := by
  have hE : EarlyLog v W W4 := by
    have := hc
    have e0 : EarlyLog v W W := ⟨Static.refl W, fun h => ⟨h, rfl⟩, fun h => .inl ⟨h, rfl⟩, .inl ⟨rfl, rfl⟩⟩
    have e1 := ph.s1.inv_core (P := EarlyLog v W)
      (fun a X Y ha hc hp ih => ih.prim (isEarly_of (.inl ha)) hc hp h1) this e0
    have e2 := ph.s2.inv_core (P := EarlyLog v W)
      (fun a X Y ha hc hp ih => ih.prim (isEarly_of (.inr (.inl ha))) hc hp h1) ph.c1 e1
    have e3 := ph.s3.inv_core (P := EarlyLog v W)
      (fun a X Y ha hc hp ih => ih.prim (isEarly_of (.inr (.inr (.inl ha)))) hc hp h1) ph.c2 e2
    exact ph.s4.inv_core (P := EarlyLog v W)
      (fun a X Y ha hc hp ih => ih.prim (isEarly_of (.inr (.inr (.inr ha)))) hc hp h1) ph.c3 e3
  have hU := updates_log (v := v) ph.c4 ph.i4 (by rw [hE.static.cfg]; exact h1) ph.p5
  have hR : SameVeh v W5 W6 := ph.s6.sameVeh ph.c5 (fun a X Y ha hc hp => SameVeh.routing ha hc hp)
  exact ⟨hE, fun h => (hU.1 h).same hR, fun h => (hU.2 h).trans hR⟩

theorem tick_log {v : VehId} {W W' : World} (hi : Inv W) (hf : W.finalized = true)
    (h1 : W.cfg.logInterval = 1) (h : W.tick = .ok W') : TickLog v W W' := by
  obtain ⟨W0, h0, rfl⟩ := tick_ok h
  obtain ⟨W1, W2, W3, W4, W5, W6, ph, rfl⟩ := step_phases (hi.core hf) h0
  obtain ⟨hE, hU1, hU2⟩ := ph.log (v := v) (hi.core hf) h1
  have htr : ∀ e ∈ W4.trace, e ∈ W6.trace := by
    intro e he
    have h5 := ph.s5.inv_core (P := fun Z => e ∈ Z.trace)
      (fun a X Y ha hc hp ih => trace_keep hc hp ih) ph.c4 he
    exact ph.s6.inv_core (P := fun Z => e ∈ Z.trace)
      (fun a X Y ha hc hp ih => trace_keep hc hp ih) ph.c5 h5
  by_cases hv4 : v ∈ W4.living
  · obtain ⟨hvW, hl⟩ := hE.alive hv4
    have hU' := hU1 hv4
    refine ⟨fun hm => ⟨hvW, ?_⟩, fun hm => .inr ⟨hvW, ?_⟩⟩
    · obtain ⟨r, hr, ht, hrun, hnot⟩ := hU'.alive hm
      refine ⟨r, by rw [← hl]; exact hr, ht.trans hE.static.now, fun hs => ?_, hnot⟩
      obtain ⟨a1, a2, a3, a4, a5, a6⟩ := hrun hs
      refine ⟨a1, a2, a3, a4, ?_⟩
      rcases hE.moved with ⟨b1, b2⟩ | b | ⟨n, l, b⟩ | ⟨n, a, b', phs, b⟩
      · exact .inl ⟨a2.trans (a5.trans b1), a3.trans (a6.trans b2)⟩
      · exact absurd hv4 b
      · exact .inr (.inl ⟨n, l, htr _ b⟩)
      · exact .inr (.inr ⟨n, a, b', phs, htr _ b⟩)
    · obtain ⟨e, r, hr, ht, he, hst, -, -, -⟩ := hU'.gone hm
      exact ⟨e, he.trans hE.static.now, hst, .inr ⟨r, ht.trans hE.static.now, by rw [← hl]; exact hr⟩⟩
  · have hs := hU2 hv4
    have hn6 : v ∉ W6.living := fun hh => hv4 (hs.living.1 hh)
    refine ⟨fun hm => absurd hm hn6, fun _ => ?_⟩
    show (_ ∧ W6.V.log v = _) ∨ (_ ∧ ∃ e, _ ∧ _ ∧ (W6.V.log v = _ ∨ _))
    rcases hE.gone hv4 with ⟨a, b⟩ | ⟨a, e, b, c, d⟩
    · exact .inl ⟨a, hs.log.trans b⟩
    · exact .inr ⟨a, e, c, d.1, .inl (hs.log.trans b)⟩

end UX
