import Verif.Proofs.Carry

/-! The turns of the nodes in a time step, and the movement at its end (C106). -/

namespace UX
open World

theorem departs_star {W W' : World} {n : ℕ} (hn : n ≤ W.nNodes)
    (h : (List.range n).foldlM (fun W n => do (← W.generate n).nodeUpdate n) W = .ok W') :
    PStar isGen W W' := by
  have := foldlM_inv (P := fun W1 => W1.nNodes = W.nNodes ∧ PStar isGen W W1)
    (fun s m s' hm ⟨hc, hs⟩ hfa => by
      have hm' : m < s.nNodes := by
        have := List.mem_range.1 hm
        rw [hc]; omega
      simp only [bind_ok] at hfa
      obtain ⟨s1, h1, h2⟩ := hfa
      have hg := generateLoop_star hm' h1
      have hp : Prim (.nodeTick m) s1 s' := .nodeTick (by rw [hg.static.nNodes]; exact hm') h2
      have := hg.tail (a := .nodeTick m) trivial hp
      exact ⟨this.static.nNodes.trans hc, hs.trans this⟩)
    ⟨rfl, PStar.refl⟩ h
  exact this.2

def isLinkGen (a : Act) : Prop := isLinkTick a ∨ isGen a

theorem departTurn_star {W X : World} {n : ℕ} (hn : n ≤ W.nNodes)
    (h : PySpec.departTurn W n = .ok X) : PStar isLinkGen W X := by
  unfold PySpec.departTurn at h
  rw [bind_ok] at h
  obtain ⟨W1, h1, h2⟩ := h
  have s1 := links_star h1
  exact (s1.mono (fun _ h => .inl h)).trans
    ((departs_star (by rw [s1.static.nNodes]; exact hn) h2).mono (fun _ h => .inr h))

theorem turn_succ {W X : World} {n : ℕ} (h : PySpec.turn W n = .ok X) :
    PySpec.turn W (n + 1) = X.transfer n := by
  unfold PySpec.turn at h ⊢
  rw [bind_ok] at h
  obtain ⟨W2, h1, h2⟩ := h
  rw [h1]
  change (List.range (n + 1)).foldlM transfer W2 = _
  rw [List.range_succ, List.foldlM_append, h2]
  change [n].foldlM transfer X = _
  simp

theorem turn_pred {W Y : World} {n : ℕ} (h : PySpec.turn W (n + 1) = .ok Y) :
    ∃ X, PySpec.turn W n = .ok X ∧ X.transfer n = .ok Y := by
  cases hx : PySpec.turn W n with
  | ok X => exact ⟨X, rfl, by rw [← turn_succ hx]; exact h⟩
  | error e =>
    exfalso
    unfold PySpec.turn at h hx
    rw [bind_ok] at h
    obtain ⟨W2, h1, h2⟩ := h
    rw [h1] at hx
    change (List.range n).foldlM transfer W2 = _ at hx
    rw [List.range_succ, List.foldlM_append, hx] at h2
    cases h2

theorem turn_le {W Y : World} {m n : ℕ} (hmn : m ≤ n) (h : PySpec.turn W n = .ok Y) :
    ∃ X, PySpec.turn W m = .ok X := by
  induction n generalizing Y with
  | zero => obtain rfl : m = 0 := by omega
            exact ⟨Y, h⟩
  | succ n ih =>
    by_cases e : m = n + 1
    · subst e; exact ⟨Y, h⟩
    · obtain ⟨X, hx, _⟩ := turn_pred h
      exact ih (by omega) hx

theorem turn_zero (W : World) : PySpec.turn W 0 = PySpec.departTurn W W.nNodes := by
  unfold PySpec.turn
  cases PySpec.departTurn W W.nNodes <;> rfl

theorem turn_core {W X : World} {n : ℕ} (hc : Core W) (hn : n ≤ W.nNodes) (h : PySpec.turn W n = .ok X) :
    Core X ∧ Static W X := by
  induction n generalizing X with
  | zero =>
    rw [turn_zero] at h
    have s := departTurn_star (Nat.le_refl _) h
    exact ⟨hc.star s, s.static⟩
  | succ n ih =>
    obtain ⟨X0, h0, h1⟩ := turn_pred h
    obtain ⟨c0, s0⟩ := ih (by omega) h0
    have s := transfer_at c0 (by rw [s0.nNodes]; exact hn) h1
    exact ⟨c0.star s, s0.trans s.static⟩

/-- An invariant of the primitives holds at every turn. -/
theorem turn_inv {P : World → Prop} {W X : World} {n : ℕ} (hc : Core W) (hn : n ≤ W.nNodes)
    (hP : ∀ a Z Z', isEarly a → Core Z → Prim a Z Z' → P Z → P Z') (h0 : P W)
    (h : PySpec.turn W n = .ok X) : P X := by
  induction n generalizing X with
  | zero =>
    rw [turn_zero] at h
    exact (departTurn_star (Nat.le_refl _) h).inv_core (P := P)
      (fun a Z Z' ha => hP a Z Z' (isEarly_of (ha.elim .inl (fun h => .inr (.inl h))))) hc h0
  | succ n ih =>
    obtain ⟨X0, h1, h2⟩ := turn_pred h
    obtain ⟨c0, s0⟩ := turn_core hc (by omega) h1
    refine (transfer_at c0 (by rw [s0.nNodes]; exact hn) h2).inv_core (P := P)
      (fun a Z Z' ha => hP a Z Z' ?_) c0 (ih (by omega) h1)
    cases a <;> simp_all [isTrN, isEarly]

theorem turn_kept {W X : World} {n : ℕ} {a : LinkId} (hc : Core W) (ha : W.L.endN a < W.nNodes)
    (hn : n ≤ W.L.endN a) (h : PySpec.turn W n = .ok X) : Kept a W X := by
  induction n generalizing X with
  | zero =>
    rw [turn_zero] at h
    refine (Kept.refl a W).star hc ?_ (departTurn_star (Nat.le_refl _) h)
    rintro act (h | h) <;> cases act <;> simp_all [isLinkTick, isGen, isCalm]
  | succ n ih =>
    obtain ⟨X0, h1, h2⟩ := turn_pred h
    obtain ⟨c0, s0⟩ := turn_core hc (Nat.le_trans (Nat.le_of_succ_le hn) (Nat.le_of_lt ha)) h1
    refine (ih (Nat.le_of_succ_le hn) h1).star c0 ?_
      (transfer_at c0 (by rw [s0.nNodes]; exact Nat.lt_trans hn ha) h2)
    intro act hact
    rw [s0.endN] at hact
    cases act <;> simp only [isTrN, isCalm] at hact ⊢
    · rw [hact]; exact Nat.ne_of_lt hn
    · rw [hact]; exact Nat.ne_of_lt hn

/-! ### Movement -/

/-- Nothing but `advance` moves a vehicle in the second half of a step. -/
theorem late_same {act : Act} {Z Z' : World} (ha : isLate act) (hc : Core Z) (hp : Prim act Z Z') :
    Z'.V.xNext = Z.V.xNext ∧ Z'.V.moveRemain = Z.V.moveRemain ∧
    (∀ u, Z'.V.link u = none ∨ Z'.V.link u = Z.V.link u) ∧
    ∀ u, act ≠ .advance u → Z'.V.link u = none ∨
      (Z'.V.x u = Z.V.x u ∧ Z'.V.xOld u = Z.V.xOld u) := by
  have hs := hp.shape hc.s
  clear hp
  cases hs with
  | @endTrip _ v l t log s c lt tta hl hv hf hcd hrun hliv hlt hlog htta =>
    refine ⟨rfl, rfl, fun u => ?_, fun u _ => ?_⟩
    · dsimp only; rw [upd_apply]; split <;> simp
    · dsimp only
      by_cases e : u = v
      · subst e; simp
      · simp [upd_ne _ _ e]
  | @advance _ v hs hlo hinc =>
    refine ⟨rfl, rfl, fun u => .inr rfl, fun u hu => ?_⟩
    have e : u ≠ v := fun e => hu (by rw [e])
    dsimp only
    simp [upd_ne _ _ e]
  | @depart _ n v t cs l o hn hq hcs hl hout hent hcum hlead => exact ha.elim
  | @move _ n v a b t o q nl fc tta hn hinc hla hv hr hsig hout hfl hent hcd hca hu hlead hnl hq hfc htta =>
    exact ha.elim
  | @carfollow _ v l mr xn hrun hl hx => exact ha.elim
  | _ => exact ⟨rfl, rfl, fun _ => .inr rfl, fun _ _ => .inr ⟨rfl, rfl⟩⟩

/-- Progress of the update phase that starts with `D`, for the vehicles `pre` already updated. -/
structure Went (D : World) (pre : List VehId) (Z : World) : Prop where
  nxt : Z.V.xNext = D.V.xNext
  rem : Z.V.moveRemain = D.V.moveRemain
  link : ∀ u l, Z.V.link u = some l → D.V.link u = some l
  todo : ∀ u l, u ∉ pre → Z.V.link u = some l → Z.V.x u = D.V.x u
  done : ∀ u l, u ∈ pre → Z.V.link u = some l → Z.V.x u = D.V.xNext u ∧ Z.V.xOld u = D.V.x u

theorem Went.prim {D Z Z' : World} {pre : List VehId} {act : Act} (w : Went D pre Z) (ha : isLate act)
    (hna : ∀ u, act ≠ .advance u) (hc : Core Z) (hp : Prim act Z Z') : Went D pre Z' := by
  obtain ⟨h1, h2, h3, h4⟩ := late_same ha hc hp
  have hl : ∀ u l, Z'.V.link u = some l → Z.V.link u = some l := by
    intro u l h
    rcases h3 u with h' | h'
    · rw [h'] at h; cases h
    · rw [← h']; exact h
  have hx : ∀ u l, Z'.V.link u = some l → Z'.V.x u = Z.V.x u ∧ Z'.V.xOld u = Z.V.xOld u := by
    intro u l h
    rcases h4 u (hna u) with h' | h'
    · rw [h'] at h; cases h
    · exact h'
  refine ⟨h1.trans w.nxt, h2.trans w.rem, fun u l h => w.link u l (hl u l h), fun u l hu h => ?_,
    fun u l hu h => ?_⟩
  · rw [(hx u l h).1]; exact w.todo u l hu (hl u l h)
  · rw [(hx u l h).1, (hx u l h).2]; exact w.done u l hu (hl u l h)

theorem Went.star {A : Act → Prop} {D Z Z' : World} {pre : List VehId} (w : Went D pre Z) (hc : Core Z)
    (hA : ∀ a, A a → isLate a ∧ ∀ u, a ≠ .advance u) (hp : PStar A Z Z') : Went D pre Z' :=
  hp.inv_core (P := Went D pre) (fun a _ _ ha hcZ hp hz => hz.prim (hA a ha).1 (hA a ha).2 hcZ hp) hc w

theorem updates_went {D E : World} (hc : Core D) (hi : ∀ n, D.N.incoming n = [])
    (h : D.living.foldlM vehUpdateLiving D = .ok E) : Went D D.living E := by
  refine (updates_inv (P := Went D) hc hi ?_ ?_ h).1
  · intro pre v Z Z' hvp hvW hv1 hc1 hinc hu w
    obtain ⟨X, rfl, p1, p2, hX⟩ := hu
    have cA := hc1.prim p1
    have cX := cA.prim p2
    have wX : Went D pre ((Z.recordLog v false).startWait v) :=
      (w.prim (act := .record v) trivial (by simp) hc1 p1).prim (act := .startWait v) trivial (by simp) cA p2
    generalize (Z.recordLog v false).startWait v = X at *
    have hstop : ∀ {Y : World}, Core Y → Y.V.state v ≠ .run → Went D pre Y → Went D (pre ++ [v]) Y := by
      intro Y cY hs wY
      refine ⟨wY.nxt, wY.rem, wY.link, fun u l hu => wY.todo u l (fun h => hu (List.mem_append_left _ h)),
        fun u l hu hl => ?_⟩
      rcases List.mem_append.1 hu with hu | hu
      · exact wY.done u l hu hl
      · obtain rfl : u = v := by simpa using hu
        exact absurd (cY.s.link_run u l hl).1 hs
    rcases hX with ⟨hs, rfl | hr⟩ | ⟨hs, p3, hr⟩
    · exact hstop cX hs wX
    · have cR := cX.prim hr
      have hs' : Z'.V.state v ≠ .run := by
        have := hr.shape cX.s
        cases this
        exact hs
      exact hstop cR hs' (wX.prim (act := .routing) trivial (by simp) cX hr)
    · refine Went.star ?_ (cX.prim p3) (fun a ha => isAft_late a ha) hr
      refine ⟨wX.nxt, wX.rem, wX.link, fun u l hu hl => ?_, fun u l hu hl => ?_⟩
      · have e : u ≠ v := by rintro rfl; simp at hu
        simp only [advance, upd_ne _ _ e]
        exact wX.todo u l (fun h => hu (List.mem_append_left _ h)) hl
      · by_cases e : u = v
        · subst e
          simp only [advance, upd_same]
          exact ⟨congrFun wX.nxt u, wX.todo u l hvp hl⟩
        · simp only [advance, upd_ne _ _ e]
          exact wX.done u l (by simpa [e] using hu) hl
  · exact ⟨rfl, rfl, fun _ _ h => h, fun _ _ _ _ => rfl, by simp⟩

/-- The step through the last turn. -/
theorem step_turn {W W1 : World} (hc : Core W) (h : W.step = .ok W1) :
    ∃ A B C D E F, Phases W A B C D E F ∧ W1 = { F with time := F.now } ∧
      PySpec.turn W W.nNodes = .ok C := by
  obtain ⟨A, B, C, D, E, F, hp, rfl⟩ := step_phases hc h
  refine ⟨A, B, C, D, E, F, hp, rfl, ?_⟩
  have e1 : A.nNodes = W.nNodes := hp.s1.static.nNodes
  have e2 : B.nNodes = W.nNodes := hp.s2.static.nNodes.trans e1
  unfold PySpec.turn PySpec.departTurn
  rw [hp.p1]
  have := hp.p2
  rw [e1] at this
  simp only [Except.bind, bind] at this ⊢
  rw [this]
  have h3 := hp.p3
  rw [e2] at h3
  exact h3

theorem nextPos_eq {W : World} (hL : LInv W) (hc : Core W) {v : VehId} {l : LinkId}
    (hv : W.V.link v = some l) : ∃ i, (W.L.vehs l)[i]? = some v ∧
      W.followPos v l = PySpec.beyond W l (W.V.x v) ((PySpec.ahead W l i).map W.V.x) := by
  obtain ⟨-, hm, hlt⟩ := hc.s.link_run v l hv
  obtain ⟨i, hi⟩ := List.mem_iff_getElem?.mp hm
  refine ⟨i, hi, ?_⟩
  have hlead := (hL.ok l hlt).lead i v hi
  have e : PySpec.ahead W l i = W.V.leader v := by
    rw [hlead]
    unfold PySpec.ahead
    split
    · rw [if_neg (by omega)]
    · rw [if_pos (by omega)]
  rw [e, followPos_eq]
  cases W.V.leader v with
  | none => rfl
  | some w => exact min_comm _ _

/-- Movement at the end of a step, from the state `C` after the transfers. -/
theorem Phases.went {W A B C D E F : World} (hp : Phases W A B C D E F) (hL : LInv C) {v : VehId}
    {l : LinkId} (hv : F.V.link v = some l) : ∃ i, (C.L.vehs l)[i]? = some v ∧
      let p := PySpec.beyond C l (C.V.x v) ((PySpec.ahead C l i).map C.V.x)
      F.V.x v = min (C.L.length l) p ∧ F.V.xOld v = C.V.x v ∧
      F.V.moveRemain v = if C.L.length l < p then C.cfg.fl (p - C.L.length l) else C.V.moveRemain v := by
  have wE := updates_went hp.c4 hp.i4 hp.p5
  have wF : Went D D.living F := wE.star hp.c5 (fun a ha => ⟨isRouting_late a ha, by
    rintro u rfl; exact ha⟩) hp.s6
  have hD := wF.link v l hv
  obtain ⟨mr, xn, rfl, h1, -⟩ := carfollow_all hp.c3 hp.p4
  have hC : C.V.link v = some l := hD
  obtain ⟨h2, h3⟩ := h1 v l hC
  obtain ⟨i, hi, hb⟩ := nextPos_eq hL hp.c3 hC
  have hliv : v ∈ C.living := by
    have hr := (hp.c3.s.link_run v l hC).1
    refine (hp.c3.s.living_iff v).2 ⟨?_, by rw [hr]; decide⟩
    by_contra hge
    have := hp.c3.s.fresh v (not_lt.1 hge)
    rw [hr] at this; cases this
  obtain ⟨h4, h5⟩ := wF.done v l hliv hv
  refine ⟨i, hi, ?_, h5, ?_⟩
  · rw [h4]
    dsimp only
    rw [h2, ← hb]
    unfold nextPos
    grind
  · rw [wF.rem]
    dsimp only
    rw [h3, ← hb]
    rfl

end UX

namespace UX
open World

/-- Vehicles have left link `a` at its end; nothing has happened to the ones behind them. -/
structure Leaves (a : LinkId) (X Z : World) : Prop where
  ex : ∃ k es, Z.L.vehs a = (X.L.vehs a).drop k ++ es ∧ ∀ w ∈ (X.L.vehs a).drop k,
    Z.V.x w = X.V.x w ∧ Z.V.moveRemain w = X.V.moveRemain w

theorem drop_tail {k : ℕ} {l es t : List VehId} {v : VehId} (h : l.drop k ++ es = v :: t) :
    ∃ es', t = l.drop (k + 1) ++ es' := by
  by_cases hk : k < l.length
  · rw [List.drop_eq_getElem_cons hk, List.cons_append] at h
    exact ⟨es, (List.cons.inj h).2.symm⟩
  · exact ⟨t, by rw [List.drop_eq_nil_of_le (by omega), List.nil_append]⟩

theorem Leaves.prim {n : NodeId} {a : LinkId} {X Z Z' : World} {act : Act} (k : Leaves a X Z)
    (hc : Core Z) (E : LinkId → NodeId) (ha : isTrN E n act) (hp : Prim act Z Z') : Leaves a X Z' := by
  have hs := hp.shape hc.s
  clear hp
  obtain ⟨k, es, hvs, hsame⟩ := k
  have hnd := hc.s.vehs_nodup a
  cases hs with
  | @move _ m v c d t o q nl fc tta hn hinc hla hv hr hsig hout hfl hent hcd hca hu hlead hnl hq hfc htta =>
    have key : ∃ k' es', upd Z.L.vehs c t a = (X.L.vehs a).drop k' ++ es' ∧ v ∉ (X.L.vehs a).drop k' ∧
        ∀ w ∈ (X.L.vehs a).drop k', w ∈ (X.L.vehs a).drop k := by
      by_cases e : a = c
      · subst e
        rw [hvs] at hv
        obtain ⟨es', he⟩ := drop_tail hv
        refine ⟨k + 1, es', by rw [upd_same]; exact he, fun hm => ?_, fun w hw => ?_⟩
        · rw [hvs, hv, List.nodup_cons] at hnd
          exact hnd.1 (by rw [he]; exact List.mem_append_left _ hm)
        · rw [← List.drop_drop] at hw
          exact List.mem_of_mem_drop hw
      · refine ⟨k, es, by rw [upd_ne _ _ e]; exact hvs, fun hm => ?_, fun w hw => hw⟩
        have := (hc.s.vehs_link a v (by rw [hvs]; exact List.mem_append_left _ hm)).symm.trans hla
        simp at this; exact e this
    obtain ⟨k', es', h1, h2, h3⟩ := key
    have hx : ∀ w ∈ (X.L.vehs a).drop k', w ≠ v := by rintro w hw rfl; exact h2 hw
    by_cases e : a = d
    · subst e
      refine ⟨k', es' ++ [v], ?_, fun w hw => ?_⟩
      · dsimp only; rw [upd_same, h1, List.append_assoc]
      · dsimp only; rw [upd_ne _ _ (hx w hw), upd_ne _ _ (hx w hw)]; exact hsame w (h3 w hw)
    · refine ⟨k', es', ?_, fun w hw => ?_⟩
      · dsimp only; rw [upd_ne _ _ e, h1]
      · dsimp only; rw [upd_ne _ _ (hx w hw), upd_ne _ _ (hx w hw)]; exact hsame w (h3 w hw)
  | @endTrip _ v c t log s cc lt tta hl hv hf hcd hrun hliv hlt hlog htta =>
    by_cases e : a = c
    · subst e
      rw [hvs] at hv
      obtain ⟨es', he⟩ := drop_tail hv
      refine ⟨k + 1, es', ?_, fun w hw => ?_⟩
      · dsimp only; rw [upd_same]; exact he
      · have hwv : w ≠ v := by
          rintro rfl
          rw [hvs, hv, List.nodup_cons] at hnd
          exact hnd.1 (by rw [he]; exact List.mem_append_left _ hw)
        dsimp only
        rw [upd_ne _ _ hwv]
        refine hsame w ?_
        rw [← List.drop_drop] at hw
        exact List.mem_of_mem_drop hw
    · refine ⟨k, es, ?_, fun w hw => ?_⟩
      · dsimp only; rw [upd_ne _ _ e]; exact hvs
      · have hwv : w ≠ v := by
          rintro rfl
          have := (hc.s.vehs_link a w (by rw [hvs]; exact List.mem_append_left _ hw)).symm.trans hl
          simp at this; exact e this
        dsimp only
        rw [upd_ne _ _ hwv]
        exact hsame w hw
  | clearInc => exact ⟨k, es, hvs, hsame⟩
  | routing => exact ⟨k, es, hvs, hsame⟩
  | _ => exact ha.elim

theorem transfer_leaves {n : NodeId} {a : LinkId} {X Y : World} (hX : Core X) (hn : n < X.nNodes)
    (h : X.transfer n = .ok Y) : Leaves a X Y :=
  (transfer_at hX hn h).inv_core (P := Leaves a X)
    (fun _ _ _ ha hc hp k => k.prim hc X.L.endN ha hp) hX ⟨0, [], by simp, fun _ _ => ⟨rfl, rfl⟩⟩

theorem isTrN_old {E : LinkId → NodeId} {n : NodeId} {X Y : World} (h : PStar (isTrN E n) X Y)
    (hX : Core X) : Y.V.xOld = X.V.xOld := by
  refine h.inv_core (P := fun Z => Z.V.xOld = X.V.xOld) (fun a Z Z' ha hc hp hz => ?_) hX rfl
  have hs := hp.shape hc.s
  cases hs <;> first | exact hz | exact ha.elim

end UX
