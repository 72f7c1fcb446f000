import Verif.Proofs.CppLifeInv
import Verif.Proofs.CppEvents
import Verif.Props.CppExample
import Verif.Spec.CppShown
import Mathlib.Tactic.FieldSimp
import Mathlib.Tactic.LinearCombination
import Mathlib.Tactic.Positivity

/-!
# C123: link objects of the C++ mode show the engine's flow parameters
-/

namespace UX.Cpp
open CWorld Spec

/-- The parameters of a link that link objects copy. -/
def flowOf (L : CLink) : ℕ × ℚ × ℚ × ℚ × ℚ × ℚ × ℚ × ℚ × ℚ :=
  (L.lanes, L.len, L.vmax, L.kappa, L.tau, L.bws, L.cap, L.delta, L.deltaLane)

/-- How the engine derives parameters from one another. -/
structure Derived (g : CGlob) (L : CLink) : Prop where
  lanes : 1 ≤ L.lanes
  kappa : 0 < g.fl (1 / 5) → 0 < L.kappa
  tau : L.tau = g.fl (g.tau / L.lanes)
  bws : L.bws = g.fl (g.fl (1 / L.tau) / L.kappa)
  cap : L.cap = capOf g.fl L.vmax L.bws L.kappa
  delta : L.delta = g.fl (1 / L.kappa)
  lane : L.deltaLane = g.fl (L.delta * L.lanes)

theorem Derived.congr {g g' : CGlob} {L L' : CLink} (h : Derived g L) (hf : g'.fl = g.fl) (ht : g'.tau = g.tau)
    (e : flowOf L' = flowOf L) : Derived g' L' := by
  unfold flowOf at e
  simp only [Prod.mk.injEq] at e
  obtain ⟨e1, -, e3, e4, e5, e6, e7, e8, e9⟩ := e
  exact ⟨by rw [e1]; exact h.lanes, by rw [hf, e4]; exact h.kappa, by rw [hf, ht, e5, e1]; exact h.tau,
    by rw [hf, e6, e5, e4]; exact h.bws, by rw [hf, e7, e3, e6, e4]; exact h.cap, by rw [hf, e8, e4]; exact h.delta,
    by rw [hf, e9, e8, e1]; exact h.lane⟩

theorem Plain.toStep {W W' : CWorld} (h : Plain W W') : CStep W W' := by
  cases h with
  | node _ ints off cap lanes rng fuel h => exact .node _ _ ints off cap lanes rng fuel h
  | vehicle dep orig dest prefer ho hd => exact .vehicle _ dep orig dest prefer ho hd
  | tmax t => exact .tmax _ t
  | init => exact .init _
  | edit e _ => exact .edit _ e
  | run endTs sched hs => exact .run _ endTs sched hs

theorem ShownReach.reach {S : Shown} (h : ShownReach S) : CReach S.c := by
  induction h with
  | empty => exact .empty _ _ _ _ _ _ _ _ _ _ _ _ _
  | step _ s ih =>
    cases s with
    | add src dst a p hs hd hl hr =>
      refine ih.step ?_
      unfold Shown.addLink
      dsimp only
      split <;> exact .link _ _ _ _ hs hd hl hr
    | speed l q => exact ih.step (.edit _ (.freeFlow l q))
    | jam l q _ => exact ih.step (.edit _ (.jam l q))
    | plain c h => exact ih.step h.toStep

theorem Plain.keeps {W W' : CWorld} (r : CReach W) (h : Plain W W') :
    (∀ l, flowOf (W'.link l) = flowOf (W.link l)) ∧ W'.g.nLinks = W.g.nLinks ∧ W'.g.fl = W.g.fl ∧
      W'.g.tau = W.g.tau := by
  cases h with
  | node _ ints off cap lanes rng fuel h =>
    unfold CWorld.addNode at h
    obtain ⟨p, _, rfl⟩ := Option.map_eq_some_iff.1 h
    exact ⟨fun _ => rfl, rfl, rfl, rfl⟩
  | vehicle => exact ⟨fun _ => rfl, rfl, rfl, rfl⟩
  | tmax t =>
    refine ⟨fun l => ?_, rfl, rfl, rfl⟩
    unfold CWorld.setTMax
    dsimp only
    split <;> rfl
  | init =>
    have h := initAdj_same W
    refine ⟨fun l => by rw [h.2.1], ?_⟩
    have hg : ∀ (xs : List ℕ) (V : CWorld), (xs.foldl adjustNode V).g = V.g := by
      intro xs
      induction xs with
      | nil => intro V; rfl
      | cons n xs ih =>
        intro V
        rw [List.foldl_cons, ih]
        unfold adjustNode
        split <;> rfl
    unfold CWorld.initAdj
    dsimp only
    split
    · rw [hg]; exact ⟨rfl, rfl, rfl⟩
    · exact ⟨rfl, rfl, rfl⟩
  | edit e he =>
    cases e <;> first
      | (simp [Edit.plain] at he; done)
      | exact ⟨fun _ => rfl, rfl, rfl, rfl⟩
      | (refine ⟨fun m => ?_, rfl, rfl, rfl⟩
         simp only [CWorld.edit, CWorld.setL, upd]
         split
         · rename_i e; subst e; rfl
         · rfl)
  | run endTs sched hs =>
    have e := mainLoop_evs r.rest (sched := sched) (fun t V _ => (hs t V).2.2.2.1.nodup_iff.2 List.nodup_range) endTs
    refine ⟨fun l => ?_, CGlob.fix_nLinks e.fix, CGlob.fix_fl e.fix, ?_⟩
    · exact show flowOf ((W.mainLoop sched endTs).1.link l).par = flowOf (W.link l).par by rw [e.par.link l]
    · exact show (W.mainLoop sched endTs).1.g.fix.tau = W.g.fix.tau by rw [e.fix]

/-- What holds of every link and its object. -/
structure ShownOK (S : Shown) : Prop where
  derived : ∀ l, l < S.c.g.nLinks → Derived S.c.g (S.c.link l)
  object : ∀ l o, S.obj l = some o → l < S.c.g.nLinks ∧ Mirrors (S.c.link l) o ∧
    (0 < o.u → o.kStar = S.c.g.fl (o.capacity / o.u)) ∧ (o.u = 0 → o.kStar = 0)

theorem readObj_mirrors {fl : ℚ → ℚ} {L : CLink} {o : LinkObj} (hl : o.lanes = L.lanes) (hn : o.length = L.len) :
    Mirrors L (Shown.readObj fl L o) ∧
      (0 < (Shown.readObj fl L o).u → (Shown.readObj fl L o).kStar =
        fl ((Shown.readObj fl L o).capacity / (Shown.readObj fl L o).u)) ∧
      ((Shown.readObj fl L o).u = 0 → (Shown.readObj fl L o).kStar = 0) := by
  refine ⟨⟨rfl, rfl, rfl, rfl, rfl, rfl, rfl, hl, hn, rfl, rfl, rfl⟩, fun h => ?_, fun h => ?_⟩
  · exact if_pos h
  · have h' : L.vmax = 0 := h
    show (if 0 < L.vmax then fl (L.cap / L.vmax) else 0) = 0
    rw [if_neg (by rw [h']; exact lt_irrefl 0)]

theorem Spec.Mirrors.congr {L L' : CLink} {o : LinkObj} (h : Mirrors L o) (e : flowOf L' = flowOf L) : Mirrors L' o := by
  unfold flowOf at e
  simp only [Prod.mk.injEq] at e
  obtain ⟨e1, e2, e3, e4, e5, e6, e7, e8, e9⟩ := e
  exact ⟨h.u.trans e3.symm, h.kappa.trans e4.symm, h.tau.trans e5.symm, h.w.trans e6.symm, h.capacity.trans e7.symm,
    h.delta.trans e8.symm, h.deltaLane.trans e9.symm, h.lanes.trans e1.symm, h.length.trans e2.symm, h.speed, h.jam,
    h.apex⟩

/-- A change of one link and a fresh reading of its parameters. -/
theorem ShownOK.reread {S : Shown} (ok : ShownOK S) {c : CWorld} {l : ℕ} (hg : c.g = S.c.g)
    (hne : ∀ m, m ≠ l → c.link m = S.c.link m) (hd : Derived S.c.g (S.c.link l) → Derived S.c.g (c.link l))
    (hl : (c.link l).lanes = (S.c.link l).lanes ∧ (c.link l).len = (S.c.link l).len) :
    ShownOK ⟨c, upd S.obj l ((S.obj l).map (Shown.readObj c.g.fl (c.link l)))⟩ := by
  refine ⟨fun m hm => ?_, fun m o ho => ?_⟩
  · show Derived c.g (c.link m)
    rw [hg] at hm ⊢
    by_cases e : m = l
    · subst e; exact hd (ok.derived m hm)
    · rw [hne m e]; exact ok.derived m hm
  · show m < c.g.nLinks ∧ Mirrors (c.link m) o ∧ (0 < o.u → o.kStar = c.g.fl (o.capacity / o.u)) ∧ (o.u = 0 → o.kStar = 0)
    have ho' : upd S.obj l ((S.obj l).map (Shown.readObj c.g.fl (c.link l))) m = some o := ho
    by_cases e : m = l
    · subst e
      simp only [upd, if_true] at ho'
      obtain ⟨o0, h0, rfl⟩ := Option.map_eq_some_iff.1 ho'
      obtain ⟨a, b, _⟩ := ok.object m o0 h0
      exact ⟨by rw [hg]; exact a, readObj_mirrors (b.lanes.trans hl.1.symm) (b.length.trans hl.2.symm)⟩
    · simp only [upd, if_neg e] at ho'
      rw [hg, hne m e]
      exact ok.object m o ho'

theorem setL_ne (W : CWorld) {l m : ℕ} (f : CLink → CLink) (h : m ≠ l) : (W.setL l f).link m = W.link m := by
  simp [CWorld.setL, upd, h]

theorem setL_eq (W : CWorld) (l : ℕ) (f : CLink → CLink) : (W.setL l f).link l = f (W.link l) := by
  simp [CWorld.setL, upd]

theorem ShownReach.ok {S : Shown} (h : ShownReach S) : ShownOK S := by
  induction h with
  | empty => exact ⟨fun l hl => absurd hl (Nat.not_lt_zero l), fun _ _ h => by cases h⟩
  | @step S _ hr s ih =>
    cases s with
    | add src dst a p hs hd hl hr =>
      have hn : (S.addLink src dst a p).1.c = S.c.addLink src dst { a with kappa := Shown.givenKappa S.c.g.fl a p } := by
        unfold Shown.addLink; dsimp only; split <;> rfl
      have hnew : ∀ a', (S.c.addLink src dst a').link S.c.g.nLinks = S.c.newLink src dst a' := by
        intro a'; simp [CWorld.addLink, CWorld.setN, upd]
      have hold : ∀ a' m, m ≠ S.c.g.nLinks → (S.c.addLink src dst a').link m = S.c.link m := by
        intro a' m hm; simp [CWorld.addLink, CWorld.setN, upd, hm]
      refine ⟨fun m hm => ?_, fun m o ho => ?_⟩
      · rw [hn] at hm ⊢
        have hm' : m < S.c.g.nLinks + 1 := hm
        by_cases e : m = S.c.g.nLinks
        · subst e
          rw [hnew]
          refine ⟨hl, fun h5 => ?_, rfl, rfl, rfl, rfl, rfl⟩
          show 0 < if Shown.givenKappa S.c.g.fl a p ≤ 0 then S.c.g.fl (1 / 5) else Shown.givenKappa S.c.g.fl a p
          split
          · exact h5
          · rename_i h; exact not_le.1 h
        · rw [hold _ m e]
          exact (ih.derived m (by omega)).congr rfl rfl rfl
      · rw [hn]
        show m < S.c.g.nLinks + 1 ∧ _
        by_cases e : m = S.c.g.nLinks
        · subst e
          refine ⟨Nat.lt_succ_self _, ?_⟩
          rw [hnew]
          unfold Shown.addLink Shown.newObj at ho
          dsimp only at ho
          rw [hnew] at ho
          split at ho
          · rename_i o1 h1
            simp only [upd, if_true, Option.some.injEq] at ho
            subst ho
            split at h1
            · cases h1
            · rename_i hv
              cases h1
              exact ⟨⟨rfl, rfl, rfl, rfl, rfl, rfl, rfl, rfl, rfl, rfl, rfl, rfl⟩, fun _ => rfl, fun h0 => absurd h0 hv⟩
          · simp [upd] at ho
        · rw [hold _ m e]
          have : S.obj m = some o := by
            unfold Shown.addLink at ho
            dsimp only at ho
            split at ho <;> simpa [upd, e] using ho
          obtain ⟨x, y⟩ := ih.object m o this
          exact ⟨by omega, y⟩
    | speed l q =>
      have key : ∀ c : CWorld, c = S.c.changeFreeFlow l q → c.g = S.c.g ∧ (∀ m, m ≠ l → c.link m = S.c.link m) ∧
          (Derived S.c.g (S.c.link l) → Derived S.c.g (c.link l)) ∧
          ((c.link l).lanes = (S.c.link l).lanes ∧ (c.link l).len = (S.c.link l).len) := by
        rintro c rfl
        unfold CWorld.changeFreeFlow
        split
        · refine ⟨rfl, fun m hm => setL_ne _ _ hm, fun d => ?_, ?_⟩
          · rw [setL_eq]
            exact ⟨d.lanes, d.kappa, d.tau, rfl, rfl, rfl, by rw [d.lane, d.delta]⟩
          · rw [setL_eq]; exact ⟨rfl, rfl⟩
        · exact ⟨rfl, fun _ _ => rfl, id, rfl, rfl⟩
      obtain ⟨a, b, c, d⟩ := key _ rfl
      exact ih.reread a b c d
    | jam l q hq =>
      have key : ∀ c : CWorld, c = S.c.changeJam l q → c.g = S.c.g ∧ (∀ m, m ≠ l → c.link m = S.c.link m) ∧
          (Derived S.c.g (S.c.link l) → Derived S.c.g (c.link l)) ∧
          ((c.link l).lanes = (S.c.link l).lanes ∧ (c.link l).len = (S.c.link l).len) := by
        rintro c rfl
        unfold CWorld.changeJam
        split
        · rename_i h0
          refine ⟨rfl, fun m hm => setL_ne _ _ hm, fun d => ?_, ?_⟩
          · rw [setL_eq]
            exact ⟨d.lanes, fun _ => lt_of_le_of_ne h0 hq.symm, d.tau, rfl, rfl, rfl, rfl⟩
          · rw [setL_eq]; exact ⟨rfl, rfl⟩
        · exact ⟨rfl, fun _ _ => rfl, id, rfl, rfl⟩
      obtain ⟨a, b, c, d⟩ := key _ rfl
      exact ih.reread a b c d
    | plain c h =>
      obtain ⟨a, b, d, t⟩ := h.keeps hr.reach
      refine ⟨fun m hm => ?_, fun m o ho => ?_⟩
      · have hm' : m < S.c.g.nLinks := by rw [← b]; exact hm
        exact (ih.derived m hm').congr d t (a m)
      · obtain ⟨x, y, z⟩ := ih.object m o ho
        exact ⟨by show m < c.g.nLinks; rw [b]; exact x, y.congr (a m), by show (0 < o.u → o.kStar = c.g.fl _) ∧ _; rw [d]; exact z⟩

/-- C123: at every moment of every sequence of calls, the flow attributes of a link object are the numbers with which the
engine moves the vehicles on that link. -/
theorem C123_shown {S : Shown} (h : ShownReach S) {l : ℕ} {o : LinkObj} (ho : S.obj l = some o) :
    l < S.c.g.nLinks ∧ Mirrors (S.c.link l) o :=
  ⟨(h.ok.object l o ho).1, (h.ok.object l o ho).2.1⟩

/-- C123: without rounding they describe one triangular relation of flow and density with the world's reaction time. -/
theorem C123_triangle {S : Shown} (h : ShownReach S) (hfl : S.c.g.fl = id) (htau : 0 < S.c.g.tau) {l : ℕ} {o : LinkObj}
    (ho : S.obj l = some o) (hu : 0 < o.u) : Triangle S.c.g.tau o := by
  obtain ⟨hl, m, hk, -⟩ := h.ok.object l o ho
  have d := h.ok.derived l hl
  have e := d.tau
  have hlanes : (0 : ℚ) < (S.c.link l).lanes := by exact_mod_cast d.lanes
  have hkap := d.kappa (by rw [hfl]; norm_num)
  have e1 := d.tau; have e2 := d.bws; have e3 := d.cap; have e4 := d.delta; have e5 := d.lane
  have hks := hk hu
  unfold capOf at e3
  rw [hfl] at e1 e2 e3 e4 e5 hks
  simp only [id] at e1 e2 e3 e4 e5 hks
  have ht : 0 < (S.c.link l).tau := by rw [e1]; exact div_pos htau hlanes
  have hb : 0 < (S.c.link l).bws := by rw [e2]; positivity
  have hu' : 0 < (S.c.link l).vmax := by rw [← m.u]; exact hu
  have hw : (S.c.link l).bws * (S.c.link l).tau * (S.c.link l).kappa = 1 := by rw [e2]; field_simp
  have hcap : (S.c.link l).cap * ((S.c.link l).vmax + (S.c.link l).bws) =
      (S.c.link l).vmax * (S.c.link l).bws * (S.c.link l).kappa := by rw [e3]; field_simp
  have hkstar : o.kStar * (S.c.link l).vmax = (S.c.link l).cap := by rw [hks, m.capacity, m.u]; field_simp
  have hkv : o.kStar * ((S.c.link l).vmax + (S.c.link l).bws) = (S.c.link l).bws * (S.c.link l).kappa := by
    have : (o.kStar * ((S.c.link l).vmax + (S.c.link l).bws)) * (S.c.link l).vmax =
        ((S.c.link l).bws * (S.c.link l).kappa) * (S.c.link l).vmax := by
      linear_combination ((S.c.link l).vmax + (S.c.link l).bws) * hkstar + hcap
    exact mul_right_cancel₀ hu'.ne' this
  have hkpos : 0 < o.kStar := by
    have : 0 < o.kStar * ((S.c.link l).vmax + (S.c.link l).bws) := by rw [hkv]; positivity
    exact pos_of_mul_pos_left this (by positivity)
  refine ⟨?_, ?_, ⟨hkpos, ?_⟩, m.apex.symm, ?_, ?_, ?_, ?_⟩
  · rw [m.u, m.apex, m.capacity]; linear_combination hkstar
  · rw [m.w, m.kappa, m.apex, m.capacity]; linear_combination hkstar - hkv
  · rw [m.kappa]
    have : o.kStar * (S.c.link l).bws < (S.c.link l).kappa * (S.c.link l).bws := by
      have := mul_pos hkpos hu'
      nlinarith
    exact lt_of_mul_lt_mul_right this hb.le
  · rw [m.tau, m.lanes, e1]; field_simp
  · rw [m.w, m.tau, m.delta, e4, eq_div_iff hkap.ne']; exact hw
  · rw [m.delta, m.kappa, e4]; field_simp
  · rw [m.deltaLane, m.delta, m.lanes]; exact e5

/-- C123: `change_free_flow_speed` with a value that is not negative sets the speed and leaves jam density, reaction time,
spacing and all other links alone; with a negative value it changes nothing. -/
theorem C123_speed {S : Shown} (h : ShownReach S) {l : ℕ} {o : LinkObj} (ho : S.obj l = some o) (q : ℚ) :
    (0 ≤ q → ∃ o', (S.changeSpeed l q).obj l = some o' ∧ o'.u = q ∧ o'.freeFlow = q ∧ o'.kappa = o.kappa ∧ o'.tau = o.tau ∧
      o'.w = o.w ∧ o'.delta = o.delta ∧ o'.deltaLane = o.deltaLane ∧ (q = 0 → o'.kStar = 0)) ∧
    (q < 0 → (S.changeSpeed l q).c = S.c ∧ (0 < o.u → (S.changeSpeed l q).obj = S.obj)) ∧
    ∀ m, m ≠ l → (S.changeSpeed l q).obj m = S.obj m ∧ (S.changeSpeed l q).c.link m = S.c.link m := by
  obtain ⟨hl, mi, hk, -⟩ := h.ok.object l o ho
  have d := h.ok.derived l hl
  refine ⟨fun hq => ?_, fun hq => ?_, fun m hm => ?_⟩
  · refine ⟨_, by show upd S.obj l _ l = some _; simp only [upd, if_true, ho, Option.map_some]; rfl, ?_⟩
    have e : (S.c.changeFreeFlow l q).link l = { S.c.link l with
        vmax := q
        bws := S.c.g.fl (S.c.g.fl (1 / (S.c.link l).tau) / (S.c.link l).kappa)
        cap := capOf S.c.g.fl q (S.c.g.fl (S.c.g.fl (1 / (S.c.link l).tau) / (S.c.link l).kappa)) (S.c.link l).kappa
        delta := S.c.g.fl (1 / (S.c.link l).kappa) } := by
      unfold CWorld.changeFreeFlow; rw [if_pos hq, setL_eq]
    rw [e]
    refine ⟨rfl, rfl, mi.kappa.symm, mi.tau.symm, (mi.w.trans d.bws).symm, (mi.delta.trans d.delta).symm,
      mi.deltaLane.symm, fun h0 => ?_⟩
    subst h0
    unfold Shown.readObj
    dsimp only
    rw [if_neg (lt_irrefl (0 : ℚ))]
  · have hc : S.c.changeFreeFlow l q = S.c := by unfold CWorld.changeFreeFlow; rw [if_neg (not_le.2 hq)]
    refine ⟨hc, fun hu => ?_⟩
    funext m
    show upd S.obj l ((S.obj l).map (Shown.readObj (S.c.changeFreeFlow l q).g.fl ((S.c.changeFreeFlow l q).link l))) m = _
    rw [hc]
    by_cases e : m = l
    · subst e
      simp only [upd, if_true, ho, Option.map_some, Option.some.injEq]
      unfold Shown.readObj
      have hv : 0 < (S.c.link m).vmax := by rw [← mi.u]; exact hu
      have hk' := hk hu
      rw [mi.capacity, mi.u] at hk'
      rw [if_pos hv, ← hk', ← mi.u, ← mi.kappa, ← mi.tau, ← mi.w, ← mi.capacity, ← mi.delta, ← mi.deltaLane]
      obtain ⟨o1, o2, o3, o4, o5, o6, o7, o8, o9, o10, o11, o12, o13, o14⟩ := o
      have a := mi.speed; have b := mi.jam; have c := mi.apex
      simp only at a b c
      subst a b c
      rfl
    · simp [upd, e]
  · refine ⟨by show upd S.obj l _ m = _; simp [upd, hm], ?_⟩
    show (S.c.changeFreeFlow l q).link m = _
    unfold CWorld.changeFreeFlow
    split
    · exact setL_ne _ _ hm
    · rfl

/-- C123: `change_jam_density` likewise sets the jam density and the spacings, and leaves speed and reaction time. -/
theorem C123_jam {S : Shown} (h : ShownReach S) {l : ℕ} {o : LinkObj} (ho : S.obj l = some o) (q : ℚ) :
    (0 ≤ q → ∃ o', (S.changeJam l q).obj l = some o' ∧ o'.kappa = q ∧ o'.jam = q ∧ o'.u = o.u ∧ o'.freeFlow = o.u ∧
      o'.tau = o.tau ∧ o'.delta = S.c.g.fl (1 / q) ∧ o'.deltaLane = S.c.g.fl (S.c.g.fl (1 / q) * o.lanes)) ∧
    (q < 0 → (S.changeJam l q).c = S.c) ∧
    ∀ m, m ≠ l → (S.changeJam l q).obj m = S.obj m ∧ (S.changeJam l q).c.link m = S.c.link m := by
  obtain ⟨hl, mi, -, -⟩ := h.ok.object l o ho
  refine ⟨fun hq => ?_, fun hq => ?_, fun m hm => ?_⟩
  · refine ⟨_, by show upd S.obj l _ l = some _; simp only [upd, if_true, ho, Option.map_some]; rfl, ?_⟩
    have e : (S.c.changeJam l q).link l = { S.c.link l with
        kappa := q
        bws := S.c.g.fl (S.c.g.fl (1 / (S.c.link l).tau) / q)
        cap := capOf S.c.g.fl (S.c.link l).vmax (S.c.g.fl (S.c.g.fl (1 / (S.c.link l).tau) / q)) q
        delta := S.c.g.fl (1 / q)
        deltaLane := S.c.g.fl (S.c.g.fl (1 / q) * (S.c.link l).lanes) } := by
      unfold CWorld.changeJam; rw [if_pos hq, setL_eq]
    rw [e]
    exact ⟨rfl, rfl, mi.u.symm, mi.u.symm, mi.tau.symm, rfl, by rw [mi.lanes]; rfl⟩
  · show S.c.changeJam l q = S.c
    unfold CWorld.changeJam; rw [if_neg (not_le.2 hq)]
  · refine ⟨by show upd S.obj l _ m = _; simp [upd, hm], ?_⟩
    show (S.c.changeJam l q).link m = _
    unfold CWorld.changeJam
    split
    · exact setL_ne _ _ hm
    · rfl

/-- C123: no other call that reaches the engine, be it a run of the simulation, changes what a link object shows. -/
theorem C123_other {S S' : Shown} (h : ShownReach S) {c : CWorld} (hp : Plain S.c c) (e : S' = { S with c := c }) :
    S'.obj = S.obj ∧ ∀ l o, S.obj l = some o → Mirrors (c.link l) o := by
  subst e
  exact ⟨rfl, fun l o ho => ((h.ok.object l o ho).2.1).congr ((hp.keeps h.reach).1 l)⟩

/-! ## Concrete cases -/

/-- A link of 2 lanes with a jam density of 1/5 per lane. -/
def shownRoad : Shown :=
  let W := ((CWorld.empty id 100 5 1 10 (1/2) 0 true false false false true 1).addNodeWith (0, 0) [0] 0 (-1) 0
    (fun _ => 0)).addNodeWith (0, 0) [0] 0 (-1) 0 (fun _ => 0)
  (Shown.addLink ⟨W, fun _ => none⟩ 0 1 { cppExArgs with lanes := 2 } (some (1 / 5))).1

theorem shownRoad_reach : ShownReach shownRoad := by
  unfold shownRoad
  refine ShownReach.step ?_ (ShownStep.add _ 0 1 _ _ (by decide) (by decide) (by decide) (by decide))
  refine ShownReach.step ?_ (ShownStep.plain ⟨_, _⟩ _ (.node _ _ [0] 0 (-1) 0 (fun _ => 0) 1 rfl))
  refine ShownReach.step ?_ (ShownStep.plain ⟨_, _⟩ _ (.node _ _ [0] 0 (-1) 0 (fun _ => 0) 1 rfl))
  exact ShownReach.empty id 100 5 1 10 (1/2) 0 true false false false true 1

/-- C123: the link of 2 lanes has a capacity of 8/5 vehicles per second at 20 m/s and of 4/3 at 10 m/s. -/
theorem C123_case : ShownReach (shownRoad.changeSpeed 0 10) ∧
    shownRoad.obj 0 = some
      { lanes := 2, length := 300, u := 20, kappa := 2 / 5, tau := 1 / 2, w := 5, capacity := 8 / 5, delta := 5 / 2
        deltaLane := 5, freeFlow := 20, jam := 2 / 5, jamLane := some (1 / 5), qStar := 8 / 5, kStar := 2 / 25 } ∧
    (shownRoad.changeSpeed 0 10).obj 0 = some
      { lanes := 2, length := 300, u := 10, kappa := 2 / 5, tau := 1 / 2, w := 5, capacity := 4 / 3, delta := 5 / 2
        deltaLane := 5, freeFlow := 10, jam := 2 / 5, jamLane := some (1 / 5), qStar := 4 / 3, kStar := 2 / 15 } :=
  ⟨shownRoad_reach.step (.speed _ 0 10), by decide +kernel, by decide +kernel⟩

/-- C123: it is false that `jam_density_per_lane` follows `change_jam_density`. -/
theorem C123_per_lane_false : ¬ ∀ S, ShownReach S → ∀ l o p, S.obj l = some o → o.jamLane = some p →
    p * o.lanes = o.kappa := by
  intro h
  have r := shownRoad_reach.step (.jam _ 0 1 (by norm_num))
  have hs : ((shownRoad.changeJam 0 1).obj 0).isSome := by decide +kernel
  obtain ⟨o, ho⟩ := Option.isSome_iff_exists.1 hs
  have hk : ((shownRoad.changeJam 0 1).obj 0).map (fun o => (o.jamLane, o.lanes, o.kappa)) = some (some (1 / 5), 2, 1) := by
    decide +kernel
  rw [ho] at hk
  simp only [Option.map_some, Option.some.injEq, Prod.mk.injEq] at hk
  have := h _ r 0 o (1 / 5) ho hk.1
  rw [hk.2.1, hk.2.2] at this
  norm_num at this

/-- C123: it is false that a failed constructor leaves no link behind: a speed of 0 raises after the engine has the
link. -/
theorem C123_zero_false : ∃ (S : Shown) (a : LinkArgs), ShownReach S ∧
    (S.addLink 0 1 a none).2 = some .zeroDivision ∧ (S.addLink 0 1 a none).1.c.g.nLinks = S.c.g.nLinks + 1 ∧
    (S.addLink 0 1 a none).1.obj S.c.g.nLinks = none :=
  ⟨shownRoad, { cppExArgs with vmax := 0 }, shownRoad_reach, by decide +kernel, by decide +kernel, by decide +kernel⟩

/-- C123: it is false that assigning to `u` changes the engine's speed, unlike in the Python mode. -/
theorem C123_assign_false : ∃ S, ShownReach S ∧ ((S.assignU 0 10).obj 0).map LinkObj.u = some 10 ∧
    ((S.assignU 0 10).c.link 0).vmax = 20 :=
  ⟨shownRoad, shownRoad_reach, by decide +kernel, by decide +kernel⟩

end UX.Cpp
