import Verif.Proofs.Logs
import Verif.Proofs.Inv

/-! # The links in the log of a vehicle are the links it has entered -/

namespace UX
open World

/-- The vehicle `v` has entered link `l`. -/
def HasEntered (v : VehId) (l : LinkId) (tr : List Event) : Prop := v ∈ history (enters l) tr

theorem hasEntered_cons {v l e tr} : HasEntered v l (e :: tr) ↔ enters l e = some v ∨ HasEntered v l tr := by
  unfold HasEntered
  cases h : enters l e with
  | none => rw [history_cons_none h]; simp
  | some u => rw [history_cons_some h]; simp [eq_comm, or_comm]

/-- During the phases before the vehicle updates of a step from `W`. -/
def EarlyEnt (v : VehId) (W X : World) : Prop :=
  ((v ∈ X.living → X.V.link v = W.V.link v) ∧ ∀ l, HasEntered v l X.trace ↔ HasEntered v l W.trace) ∨
  (X.V.flagEnd v = false ∧ (∀ n, v ∉ X.N.incoming n) ∧ v ∈ X.living ∧ ∃ l, X.V.link v = some l ∧
    ∀ k, HasEntered v k X.trace ↔ HasEntered v k W.trace ∨ k = l)

theorem EarlyEnt.prim {v : VehId} {W X Y : World} {act : Act} (ha : isEarly act) (hc : Core X)
    (hp : Prim act X Y) (h : EarlyEnt v W X) : EarlyEnt v W Y := by
  have hs := hp.shape hc.s
  have hnd := hc.s.living_nodup
  clear hp
  cases hs with
  | @depart _ n u t cs l o hn' hq hcs hl' hout hent hcum hlead =>
    by_cases e : v = u
    · subst e
      have hwt := (hc.s.genq_mem n v (by simp [hq])).1
      have hnl : X.V.link v = none := by
        cases hl : X.V.link v with
        | none => rfl
        | some l => have := (hc.s.link_run v l hl).1; rw [hwt] at this; cases this
      rcases h with ⟨-, h2⟩ | ⟨-, -, -, k, h2, -⟩
      · refine .inr ⟨hc.f.young v (.inr hwt), fun m hm => (hc.s.inc_old m v hm).2 hwt, ?_, l, upd_same _ _ _, fun k => ?_⟩
        · refine (hc.s.living_iff v).2 ⟨?_, by rw [hwt]; simp, by rw [hwt]; simp⟩
          by_contra hlt
          have := hc.s.fresh v (Nat.le_of_not_lt hlt)
          rw [hwt] at this; cases this
        · rw [hasEntered_cons, h2]
          simp only [enters, Option.ite_none_right_eq_some, and_true]
          rw [or_comm, eq_comm (a := l)]
      · rw [hnl] at h2; cases h2
    · have hkeep : ∀ k, HasEntered v k (Event.depart X.T u n l :: X.trace) ↔ HasEntered v k X.trace := by
        intro k; rw [hasEntered_cons]; simp [enters, Ne.symm e]
      rcases h with ⟨h1, h2⟩ | ⟨h1, h3, h4, k, h5, h6⟩
      · exact .inl ⟨fun hl => (upd_ne _ _ e).trans (h1 hl), fun k => (hkeep k).trans (h2 k)⟩
      · exact .inr ⟨h1, h3, h4, k, (upd_ne _ _ e).trans h5, fun k => (hkeep k).trans (h6 k)⟩
  | @move _ n u a b t o q nl fc tta hn' hinc hla hv hr hsig hout hfl hent hcd hca hu hlead hnl hq hfc htta =>
    by_cases e : v = u
    · subst e
      have hi := hc.s.inc_run n v a hinc hla
      rcases h with ⟨h1, h2⟩ | ⟨-, h2, -⟩
      · refine .inr ⟨?_, fun m hm => ?_, ?_, b, upd_same _ _ _, fun k => ?_⟩
        · cases hfe : X.V.flagEnd v with
          | false => rfl
          | true =>
            rcases (hc.f.flag v a hla hfe).2 with ⟨-, -, -, h⟩ | ⟨-, -, -, h, -⟩
            · exact absurd hinc (h n)
            · rw [hr] at h; cases h
        · dsimp only at hm
          rw [upd_apply] at hm
          split at hm
          · exact (List.Nodup.mem_erase_iff (hc.s.inc_nodup _)).1 hm |>.1 rfl
          · rename_i hne
            exact hne ((hc.s.inc_run m v a hm hla).1.symm.trans hi.1)
        · have hst := (hc.s.link_run v a hla).1
          refine (hc.s.living_iff v).2 ⟨?_, by rw [hst]; simp, by rw [hst]; simp⟩
          by_contra hlt
          have := hc.s.fresh v (Nat.le_of_not_lt hlt)
          rw [hst] at this; cases this
        · rw [hasEntered_cons, h2]
          simp only [enters, Option.ite_none_right_eq_some, and_true]
          rw [or_comm, eq_comm (a := b)]
      · exact absurd hinc (h2 n)
    · have hkeep : ∀ k, HasEntered v k (Event.pass X.T u n a b (X.N.phase n) :: X.trace) ↔ HasEntered v k X.trace := by
        intro k; rw [hasEntered_cons]; simp [enters, Ne.symm e]
      rcases h with ⟨h1, h2⟩ | ⟨h1, h3, h4, k, h5, h6⟩
      · exact .inl ⟨fun hl => (upd_ne _ _ e).trans (h1 hl), fun k => (hkeep k).trans (h2 k)⟩
      · refine .inr ⟨h1, fun m hm => h3 m ?_, h4, k, (upd_ne _ _ e).trans h5, fun k => (hkeep k).trans (h6 k)⟩
        dsimp only at hm
        rw [upd_apply] at hm
        split at hm
        · rename_i e; subst e; exact List.mem_of_mem_erase hm
        · exact hm
  | @endTrip _ u l t log s c lt tta hl hv hf hcd hrun hliv hlt hlog htta =>
    have hkeep : ∀ k e, enters k e = none → (HasEntered v k (e :: X.trace) ↔ HasEntered v k X.trace) := by
      intro k e he; rw [hasEntered_cons, he]; simp
    by_cases e : v = u
    · subst e
      rcases h with ⟨h1, h2⟩ | ⟨h1, -⟩
      · refine .inl ⟨fun hm => ?_, fun k => (hkeep k _ rfl).trans (h2 k)⟩
        exact absurd rfl ((List.Nodup.mem_erase_iff hnd).1 hm).1
      · rw [h1] at hf; cases hf
    · have hmem : v ∈ X.living.erase u ↔ v ∈ X.living := by
        rw [List.Nodup.mem_erase_iff hnd]; exact ⟨fun h => h.2, fun h => ⟨e, h⟩⟩
      rcases h with ⟨h1, h2⟩ | ⟨h1, h3, h4, k, h5, h6⟩
      · exact .inl ⟨fun hl => (upd_ne _ _ e).trans (h1 (hmem.1 hl)), fun k => (hkeep k _ rfl).trans (h2 k)⟩
      · exact .inr ⟨h1, h3, hmem.2 h4, k, (upd_ne _ _ e).trans h5, fun k => (hkeep k _ rfl).trans (h6 k)⟩
  | @clearInc _ n hn =>
    rcases h with h | ⟨h1, h3, h4, k, h5, h6⟩
    · exact .inl h
    · refine .inr ⟨h1, fun m hm => h3 m ?_, h4, k, h5, h6⟩
      dsimp only at hm
      rw [upd_apply] at hm
      split at hm
      · simp at hm
      · exact hm
  | linkTick => exact h
  | nodeTick => exact h
  | carfollow => exact h
  | routing => exact h
  | _ => exact ha.elim

theorem HasEntered.late {v : VehId} {k : LinkId} {X Y : World} {act : Act} (ha : isLate act) (hc : Core X)
    (hp : Prim act X Y) : HasEntered v k Y.trace ↔ HasEntered v k X.trace := by
  have hs := hp.shape hc.s
  clear hp
  cases hs with
  | depart => exact ha.elim
  | move => exact ha.elim
  | endTrip => rw [hasEntered_cons]; simp [enters]
  | startWait => rw [hasEntered_cons]; simp [enters]
  | _ => exact Iff.rfl

/-- The links in the log are those entered. -/
structure LogEnt (W : World) : Prop where
  log : ∀ v l, (∃ r ∈ W.V.log v, r.link = some l) ↔ HasEntered v l W.trace
  young : ∀ v, W.nVeh ≤ v → ∀ l, ¬ HasEntered v l W.trace
  lt : ∀ v l, HasEntered v l W.trace → l < W.nLinks

/-- A vehicle that runs before its update runs afterwards or is gone. -/
theorem run_late {v : VehId} {X Y : World} {act : Act} (ha : isLate act) (hc : Core X)
    (hp : Prim act X Y) (h : X.V.state v = .run ∨ v ∉ X.living) : Y.V.state v = .run ∨ v ∉ Y.living := by
  have hnd := hc.s.living_nodup
  have hs := hp.shape hc.s
  clear hp
  cases hs with
  | depart => exact ha.elim
  | move => exact ha.elim
  | @endTrip _ u l t log s c lt tta hl hv hf hcd hrun hliv hlt hlog htta =>
    by_cases e : v = u
    · subst e
      exact .inr fun hm => ((List.Nodup.mem_erase_iff hnd).1 hm).1 rfl
    · rcases h with h | h
      · exact .inl ((upd_ne _ _ e).trans h)
      · exact .inr fun hm => h (List.mem_of_mem_erase hm)
  | @startWait _ u hliv hs hd =>
    by_cases e : v = u
    · subst e
      rcases h with h | h
      · rw [hs] at h; cases h
      · exact absurd hliv h
    · rcases h with h | h
      · exact .inl ((upd_ne _ _ e).trans h)
      · exact .inr h
  | _ => exact h

theorem LogEnt.tick {W W1 : World} (hi : Inv W) (hf : W.finalized = true) (ht : TInv W) (h1 : W.cfg.logInterval = 1)
    (h : W.step = .ok W1) (h0 : LogEnt W) : LogEnt { W1 with T := W1.T + 1 } := by
  obtain ⟨A, B, C, D, E, F, ph, rfl⟩ := step_phases (hi.core hf) h
  have hc := hi.core hf
  have hstF : Static W F := ((((ph.s1.static.trans ph.s2.static).trans ph.s3.static).trans ph.s4.static).trans
    ph.s5.static).trans ph.s6.static
  suffices main : ∀ v l, ((∃ r ∈ F.V.log v, r.link = some l) ↔ HasEntered v l F.trace) ∧
      (F.nVeh ≤ v → ¬ HasEntered v l F.trace) ∧ (HasEntered v l F.trace → l < F.nLinks) from
    ⟨fun v l => (main v l).1, fun v hv l => (main v l).2.1 hv, fun v l => (main v l).2.2⟩
  intro v l
  show ((∃ r ∈ F.V.log v, r.link = some l) ↔ _) ∧ _
  obtain ⟨hE, hU1, hU2⟩ := ph.log (v := v) hc h1
  have hD : EarlyEnt v W D := by
    have e0 : EarlyEnt v W W := .inl ⟨fun _ => rfl, fun _ => Iff.rfl⟩
    have e1 := ph.s1.inv_core (P := EarlyEnt v W)
      (fun a X Y ha hc hp ih => ih.prim (isEarly_of (.inl ha)) hc hp) hc e0
    have e2 := ph.s2.inv_core (P := EarlyEnt v W)
      (fun a X Y ha hc hp ih => ih.prim (isEarly_of (.inr (.inl ha))) hc hp) ph.c1 e1
    have e3 := ph.s3.inv_core (P := EarlyEnt v W)
      (fun a X Y ha hc hp ih => ih.prim (isEarly_of (.inr (.inr (.inl ha)))) hc hp) ph.c2 e2
    exact ph.s4.inv_core (P := EarlyEnt v W)
      (fun a X Y ha hc hp ih => ih.prim (isEarly_of (.inr (.inr (.inr ha)))) hc hp) ph.c3 e3
  have hF : HasEntered v l F.trace ↔ HasEntered v l D.trace := by
    have h5 := ph.s5.inv_core (P := fun Z => HasEntered v l Z.trace ↔ HasEntered v l D.trace)
      (fun a X Y ha hc hp ih => (HasEntered.late (isUpdAny_late a ha) hc hp).trans ih) ph.c4 Iff.rfl
    exact ph.s6.inv_core (P := fun Z => HasEntered v l Z.trace ↔ HasEntered v l D.trace)
      (fun a X Y ha hc hp ih => (HasEntered.late (isRouting_late a ha) hc hp).trans ih) ph.c5 h5
  rw [hF]
  have hon : ∀ k, W.V.link v = some k → HasEntered v k W.trace := by
    intro k hk
    have := (hi.s.link_run v k hk).2.1
    unfold HasEntered
    rw [ht.fifo k]
    exact List.mem_append_right _ this
  -- what the new row and the old rows show
  have hnew : v ∈ D.living → (HasEntered v l D.trace ↔ HasEntered v l W.trace ∨ D.V.link v = some l) := by
    intro hv
    rcases hD with ⟨d1, d2⟩ | ⟨-, -, -, k, d3, d4⟩
    · rw [d2 l, d1 hv]
      exact ⟨.inl, fun h => h.elim id (hon l)⟩
    · rw [d4 l, d3]; simp [eq_comm]
  refine ⟨?_, fun hlt => ?_, fun he => ?_⟩
  rotate_left
  · have hWn : W.nVeh ≤ v := by rw [← hstF.nVeh]; exact hlt
    rcases hD with ⟨-, d2⟩ | ⟨-, -, d, -⟩
    · rw [d2]; exact h0.young v hWn l
    · exact absurd ((hi.s.living_iff v).1 (hE.alive d).1).1 (Nat.not_lt.2 hWn)
  · rw [hstF.nLinks]
    rcases hD with ⟨-, d2⟩ | ⟨-, -, -, k, d3, d4⟩
    · exact h0.lt v l ((d2 l).1 he)
    · rcases (d4 l).1 he with he | rfl
      · exact h0.lt v l he
      · have hstD : Static W D := ((ph.s1.static.trans ph.s2.static).trans ph.s3.static).trans ph.s4.static
        rw [← hstD.nLinks]
        exact (ph.c4.s.link_run v l d3).2.2
  by_cases hv : v ∈ D.living
  · obtain ⟨hvW, hlog⟩ := hE.alive hv
    rw [hnew hv, ← h0.log v l]
    have hU := hU1 hv
    by_cases hvF : v ∈ F.living
    · obtain ⟨r, hr, -, hrun, hnot⟩ := hU.alive hvF
      rw [hr, hlog]
      simp only [List.mem_cons, exists_eq_or_imp]
      rw [or_comm]
      refine or_congr_right ?_
      by_cases hs : F.V.state v = .run
      · obtain ⟨-, b2, -, -, b5, -⟩ := hrun hs
        rw [b2, b5]
      · rw [hnot hs]
        have hS : D.V.link v = none := by
          cases hl : D.V.link v with
          | none => rfl
          | some k =>
            have hr := (ph.c4.s.link_run v k hl).1
            have h5 := ph.s5.inv_core (P := fun Z => Z.V.state v = .run ∨ v ∉ Z.living)
              (fun a X Y ha hc hp ih => run_late (isUpdAny_late a ha) hc hp ih) ph.c4 (.inl hr)
            have h6 := ph.s6.inv_core (P := fun Z => Z.V.state v = .run ∨ v ∉ Z.living)
              (fun a X Y ha hc hp ih => run_late (isRouting_late a ha) hc hp ih) ph.c5 h5
            rcases h6 with h | h
            · exact absurd h hs
            · exact absurd hvF h
        rw [hS]
    · obtain ⟨e, r, hr, -, -, -, hel, hrl, -⟩ := hU.gone hvF
      rw [hr, hlog]
      simp only [List.mem_cons, exists_eq_or_imp, hel, hrl]
      simp [or_comm]
  · have hS := hU2 hv
    rw [hS.log]
    have hDW : HasEntered v l D.trace ↔ HasEntered v l W.trace := by
      rcases hD with ⟨-, d2⟩ | ⟨-, -, d, -⟩
      · exact d2 l
      · exact absurd d hv
    rw [hDW, ← h0.log v l]
    rcases hE.gone hv with ⟨-, b⟩ | ⟨a, e, b, -, -, d⟩
    · rw [b]
    · rw [b]; simp [d]

theorem LogEnt.reach {OK : World → Prop} (hO : ∀ W, OK W → W.cfg.logInterval = 1) {W : World}
    (h : Reachable OK W) : LogEnt W := by
  have h' := h.strengthen (Q := TInv) (fun W h => TInv.reach h)
  clear h
  refine Reachable.induct (P := LogEnt) ?_ ?_ ?_ ?_ ?_ ?_ ?_ ?_ h'
  · intro cfg tmax rng
    constructor <;> simp [World.new, HasEntered, history]
  · intro W a ph t soff hi hf hn _ _ hT
    exact ⟨hT.log, hT.young, hT.lt⟩
  · intro W W' a hi hf ha _ _ hT
    obtain ⟨s, e, nm, k, p, -, -, -, -, -, -, rfl⟩ := addLink_ok ha
    exact ⟨hT.log, hT.young, fun v l h => (hT.lt v l h).trans (Nat.lt_succ_self _)⟩
  · intro W W' a hi ha hok _ hT
    obtain ⟨o, d, dep, pref, cache, lp, la, nm, -, -, -, -, -, -, -, -, rfl⟩ := addVehicle_ok ha
    refine ⟨fun v l => ?_, fun v hv l => hT.young v ((Nat.le_succ _).trans hv) l, hT.lt⟩
    by_cases e : v = W.nVeh
    · subst e
      have h1 : (W.addVehRes a o d dep pref cache lp la nm).V.log W.nVeh = [] := upd_same _ _ _
      rw [h1]
      have := hT.young W.nVeh le_rfl l
      show (∃ r ∈ ([] : List LogRow), r.link = some l) ↔ HasEntered W.nVeh l W.trace
      simpa using this
    · have h1 : (W.addVehRes a o d dep pref cache lp la nm).V.log v = W.V.log v := upd_ne _ _ e
      rw [h1]; exact hT.log v l
  · intro W tm hi hf _ _ hT
    obtain ⟨ts, tta, fc, fr, la, hr⟩ := finalize_frame W tm
    rw [hr]
    exact ⟨hT.log, hT.young, hT.lt⟩
  · intro W W' _ _ _ hs hT
    obtain ⟨_, _, _, _, _, _, _, rfl, -⟩ := hs
    exact ⟨hT.log, hT.young, hT.lt⟩
  · intro W W' _ _ _ hs hT
    obtain ⟨_, _, _, _, _, _, _, _, _, _, _, _, _, _, _, _, _, _, _, rfl, -⟩ := hs
    exact ⟨hT.log, hT.young, hT.lt⟩
  · intro W W1 W' hi hf _ hok _ h1 hW hT
    subst hW
    exact hT.tick hi hf hok.2 (hO _ hok.1) h1

/-- Only rows of running vehicles show a link. -/
def RowRun (W : World) : Prop := ∀ v, ∀ r ∈ W.V.log v, r.link ≠ none → r.state = .run

theorem RowRun.prim {X Y : World} {act : Act} (hc : Core X) (hp : Prim act X Y) (h : RowRun X) : RowRun Y := by
  have hrow : ∀ v, (X.logRow v).link ≠ none → (X.logRow v).state = .run := by
    intro v; unfold logRow; split
    · intro _; rfl
    · intro h; exact absurd rfl h
  have hs := hp.shape hc.s
  clear hp
  cases hs with
  | @endTrip _ u l t log s c lt tta hl hv hf hcd hrun hliv hlt hlog htta =>
    intro v r hr hl'
    have hr : r ∈ log v := hr
    rw [hlog] at hr
    split at hr
    · by_cases e : v = u
      · subst e
        rw [upd_same] at hr
        rcases List.mem_cons.1 hr with rfl | hr
        · exact absurd rfl hl'
        · exact h v r hr hl'
      · rw [upd_ne _ _ e] at hr; exact h v r hr hl'
    · exact h v r hr hl'
  | @record _ u log s c lt hliv hlt hlog =>
    intro v r hr hl'
    have hr : r ∈ log v := hr
    rw [hlog] at hr
    split at hr
    · by_cases e : v = u
      · subst e
        rw [upd_same] at hr
        rcases List.mem_cons.1 hr with rfl | hr
        · exact hrow v hl'
        · exact h v r hr hl'
      · rw [upd_ne _ _ e] at hr; exact h v r hr hl'
    · exact h v r hr hl'
  | _ => exact h

theorem RowRun.reach {OK : World → Prop} {W : World} (h : Reachable OK W) : RowRun W := by
  refine Reachable.induct (P := RowRun) ?_ ?_ ?_ ?_ ?_ ?_ ?_ ?_ h
  · intro cfg tmax rng v r hr
    simp [World.new] at hr
  · intro W a ph t soff hi hf hn _ _ hT
    exact hT
  · intro W W' a hi hf ha _ _ hT
    obtain ⟨s, e, nm, k, p, -, -, -, -, -, -, rfl⟩ := addLink_ok ha
    exact hT
  · intro W W' a hi ha hok _ hT
    obtain ⟨o, d, dep, pref, cache, lp, la, nm, -, -, -, -, -, -, -, -, rfl⟩ := addVehicle_ok ha
    intro v r hr
    by_cases e : v = W.nVeh
    · subst e
      have h1 : (W.addVehRes a o d dep pref cache lp la nm).V.log W.nVeh = [] := upd_same _ _ _
      rw [h1] at hr; cases hr
    · have h1 : (W.addVehRes a o d dep pref cache lp la nm).V.log v = W.V.log v := upd_ne _ _ e
      rw [h1] at hr; exact hT v r hr
  · intro W tm hi hf _ _ hT
    obtain ⟨ts, tta, fc, fr, la, hr⟩ := finalize_frame W tm
    rw [hr]
    exact hT
  · intro W W' _ _ _ hs hT
    obtain ⟨_, _, _, _, _, _, _, rfl, -⟩ := hs
    exact hT
  · intro W W' _ _ _ hs hT
    obtain ⟨_, _, _, _, _, _, _, _, _, _, _, _, _, _, _, _, _, _, _, rfl, -⟩ := hs
    exact hT
  · intro W W1 W' hi hf _ hok _ h1 hW hT
    subst hW
    exact step_prim hi hf (fun a X Y hc hp => RowRun.prim hc hp) (fun _ _ _ _ h => h) h1 hT

end UX
