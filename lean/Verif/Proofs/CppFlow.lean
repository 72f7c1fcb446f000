import Verif.Proofs.CppActs
import Verif.Proofs.CppChunk
import Verif.Proofs.CppInvBuild
import Verif.Spec.CppFlow

/-!
# Cumulative counts of the C++ engine
-/

namespace UX.Cpp
open CWorld Relation Spec

/-! ## `moveVeh` in parts -/

theorem leave_g (W : CWorld) (n v a b : ℕ) : (W.leave n v a b).g = W.g := by
  simp only [CWorld.leave, setV_g, detach_g]; split <;> rfl

theorem leave_link (W : CWorld) (n v a b : ℕ) : (W.leave n v a b).link =
    ((W.setL a (fun L => { L with
      capOutRem := W.g.fl (L.capOutRem - W.g.deltaN)
      dep := upd L.dep W.g.timestep (W.g.fl (L.dep W.g.timestep + W.g.deltaN))
      ttEvents := L.ttEvents ++ [(W.eventIdx v, W.g.fl (W.now - (W.veh v).arrTimeLink))]
      vehs := L.vehs.tail })).setL b (fun L => { L with
      capInRem := W.g.fl (L.capInRem - W.g.deltaN)
      arr := upd L.arr W.g.timestep (W.g.fl (L.arr W.g.timestep + W.g.deltaN)) })).link := by
  simp only [CWorld.leave, setV_link, detach_link]; split <;> rfl

theorem leave_veh (W : CWorld) (n v a b w : ℕ) : (W.leave n v a b).veh w =
    if w = v then { (W.detach v).veh v with
      arrTimeLink := W.now, link := some b, x := 0
      visited := upd ((W.detach v).veh v).visited (W.link b).src true
      count := ((W.detach v).veh v).count + 1, follower := none }
    else (W.detach v).veh w := by
  have h : ∀ X : CWorld, X.veh = W.veh → (X.detach v).veh = (W.detach v).veh := by
    intro X hX
    funext u
    rw [detach_veh, detach_veh, hX]
  simp only [CWorld.leave, setV_veh]
  rw [h]
  split <;> rfl

/-- The world in which `moveVeh` looks at the new front of the link that `v` has left. -/
def CWorld.moved (W : CWorld) (n v a b : ℕ) : CWorld :=
  ((W.leave n v a b).attach v b).place v (((W.leave n v a b).attach v b).carry v a b)

theorem moveVeh_eq (W : CWorld) (n v a b : ℕ) : W.moveVeh n v a b =
    (((W.moved n v a b).endFront a).1.setL b (fun L => { L with vehs := L.vehs ++ [v] })).setN n
      (fun N => { N with incoming := N.incoming.filter (· ≠ v) }) := rfl

theorem moved_g (W : CWorld) (n v a b : ℕ) : (W.moved n v a b).g = W.g := by
  simp [CWorld.moved, place, leave_g]

theorem moved_link (W : CWorld) (n v a b : ℕ) : (W.moved n v a b).link = (W.leave n v a b).link := by
  simp [CWorld.moved, place]

theorem attach_fix (W : CWorld) (v l w : ℕ) : ∃ a b c, (W.attach v l).veh w =
    { W.veh w with lane := a, leader := b, follower := c } := by
  rw [attach_eq]
  cases W.newLeader l with
  | none =>
    simp only [setV_veh]
    split
    · rename_i e; subst e; exact ⟨_, _, _, rfl⟩
    · exact ⟨(W.veh w).lane, (W.veh w).leader, (W.veh w).follower, rfl⟩
  | some u =>
    simp only [setV_veh]
    split
    · rename_i e; subst e
      split
      · rename_i e; subst e; exact ⟨_, _, _, rfl⟩
      · exact ⟨(W.veh w).lane, (W.veh w).leader, _, rfl⟩
    · split
      · rename_i e; subst e; exact ⟨_, _, (W.veh w).follower, rfl⟩
      · exact ⟨(W.veh w).lane, (W.veh w).leader, (W.veh w).follower, rfl⟩

/-- Vehicles other than the moving one: only lane and pointers change. -/
theorem moved_veh_ne (W : CWorld) (n v a b w : ℕ) (h : w ≠ v) : ∃ p q r, (W.moved n v a b).veh w =
    { W.veh w with lane := p, leader := q, follower := r } := by
  obtain ⟨p, q, r, e⟩ := attach_fix (W.leave n v a b) v b w
  refine ⟨p, q, r, ?_⟩
  simp only [CWorld.moved, place, setV_veh, if_neg h]
  rw [e, leave_veh, if_neg h, detach_veh]

theorem moved_vehLink (W : CWorld) (n v a b w : ℕ) : ((W.moved n v a b).veh w).link =
    if w = v then some b else (W.veh w).link := by
  have h : ∀ (X : CWorld) u m, ((X.attach u m).veh w).link = (X.veh w).link := by
    intro X u m
    obtain ⟨p, q, r, e⟩ := attach_fix X u m w
    rw [e]
  simp only [CWorld.moved, place, setV_veh]
  split
  · rename_i e; subst e
    rw [h, leave_veh, if_pos rfl]
  · rename_i e
    rw [h, leave_veh, if_neg e, detach_veh]

theorem moved_front {W : CWorld} {n v a b : ℕ} {t : List ℕ} (i : Inv W none none)
    (hq : (W.link a).vehs = v :: t) : ((W.moved n v a b).link a).vehs = t := by
  rw [moved_link, leave_link, setL_link]
  split
  · rename_i e; subst e
    simp only [setL_link, if_pos, hq, List.tail_cons]
  · simp only [setL_link, if_pos, hq, List.tail_cons]

/-- The front of the link after the move either stays or ends its trip. -/
theorem moved_endFront {W : CWorld} {n v a b : ℕ} {t : List ℕ} (i : Inv W none none)
    (hq : (W.link a).vehs = v :: t) :
    ((W.moved n v a b).endFront a).1 = W.moved n v a b ∨
    ∃ h t', t = h :: t' ∧ h ≠ v ∧ (W.veh h).flagWait = true ∧
      ((W.moved n v a b).endFront a).1 = (W.moved n v a b).endTripOn h a := by
  unfold endFront
  rw [moved_front i hq]
  cases t with
  | nil => exact Or.inl rfl
  | cons h t' =>
    have hne : h ≠ v := by
      have := i.nd a
      rw [hq] at this
      intro e; subst e
      simp at this
    simp only
    split
    · rename_i hf
      right
      refine ⟨h, t', rfl, hne, ?_, ?_⟩
      · obtain ⟨p, q, r, e⟩ := moved_veh_ne W n v a b h hne
        rw [e] at hf; exact hf
      · simp only
        rw [endTrip, moved_vehLink, if_neg hne, (i.mem a h (by rw [hq]; simp)).1]
    · exact Or.inl rfl

/-! ## Counts -/

/-- What the cumulative curves are made of. -/
def CLink.flow (L : CLink) : (ℕ → ℚ) × (ℕ → ℚ) × List ℕ := (L.arr, L.dep, L.vehs)

/-- Counts of a time step in progress, relative to the world `W1` after the link updates, where the
counts were `a0` and `d0`; `δ l` arrivals on `l` are counted and not yet in the queue. -/
structure Mid (W1 : CWorld) (a0 d0 δ : ℕ → ℕ) (V : CWorld) : Prop where
  g : V.g = W1.g
  old : ∀ l s, s ≠ W1.g.timestep → (V.link l).arr s = (W1.link l).arr s ∧
    (V.link l).dep s = (W1.link l).dep s
  cnt : ∀ l, l < W1.g.nLinks → ∃ a d, a0 l ≤ a ∧ d0 l ≤ d ∧ (V.link l).arr W1.g.timestep = a * W1.g.deltaN ∧
    (V.link l).dep W1.g.timestep = d * W1.g.deltaN ∧ a = d + (V.link l).vehs.length + δ l

theorem Mid.congr {W1 V V' : CWorld} {a0 d0 δ : ℕ → ℕ} (m : Mid W1 a0 d0 δ V) (hg : V'.g = V.g)
    (h : ∀ l, (V'.link l).flow = (V.link l).flow) : Mid W1 a0 d0 δ V' := by
  have h1 : ∀ l, (V'.link l).arr = (V.link l).arr := fun l => congrArg (·.1) (h l)
  have h2 : ∀ l, (V'.link l).dep = (V.link l).dep := fun l => congrArg (·.2.1) (h l)
  have h3 : ∀ l, (V'.link l).vehs = (V.link l).vehs := fun l => congrArg (·.2.2) (h l)
  refine ⟨hg.trans m.g, fun l s hs => ?_, fun l hl => ?_⟩
  · rw [h1, h2]; exact m.old l s hs
  · rw [h1, h2, h3]; exact m.cnt l hl

theorem setL_flow {W : CWorld} {l : ℕ} {f : CLink → CLink} (h : ∀ L, (f L).flow = L.flow) (m : ℕ) :
    ((W.setL l f).link m).flow = (W.link m).flow := by
  rw [setL_link]; split
  · rename_i e; rw [h, e]
  · rfl

/-- An arrival is counted. -/
theorem Mid.arrive {W1 V : CWorld} {a0 d0 δ : ℕ → ℕ} (hfl : ExactCounts W1.g) (m : Mid W1 a0 d0 δ V)
    (l : ℕ) {f : CLink → CLink}
    (hf : ∀ L, (f L).flow = (upd L.arr W1.g.timestep (W1.g.fl (L.arr W1.g.timestep + W1.g.deltaN)), L.dep, L.vehs)) :
    Mid W1 a0 d0 (upd δ l (δ l + 1)) (V.setL l f) := by
  have h1 : ∀ L, (f L).arr = upd L.arr W1.g.timestep (W1.g.fl (L.arr W1.g.timestep + W1.g.deltaN)) :=
    fun L => congrArg (·.1) (hf L)
  have h2 : ∀ L, (f L).dep = L.dep := fun L => congrArg (·.2.1) (hf L)
  have h3 : ∀ L, (f L).vehs = L.vehs := fun L => congrArg (·.2.2) (hf L)
  refine ⟨m.g, fun k s hs => ?_, fun k hk => ?_⟩
  · rw [setL_link]; split
    · rename_i e; subst e
      rw [h1, h2]
      simp only [upd, if_neg hs]
      exact m.old k s hs
    · exact m.old k s hs
  · rw [setL_link]; split
    · rename_i e; subst e
      obtain ⟨a, d, p, q, r, s, u⟩ := m.cnt k hk
      refine ⟨a + 1, d, by omega, q, ?_, by rw [h2]; exact s, ?_⟩
      · rw [h1]
        simp only [upd, if_true]
        rw [r]
        have := hfl (a + 1)
        push_cast at this ⊢
        rw [← this]; congr 1; ring
      · rw [h3]; simp only [upd, if_true]; omega
    · rename_i e
      obtain ⟨a, d, p, q, r, s, u⟩ := m.cnt k hk
      exact ⟨a, d, p, q, r, s, by simp only [upd, if_neg e]; exact u⟩

/-- The first vehicle of a queue leaves and is counted. -/
theorem Mid.departs {W1 V : CWorld} {a0 d0 δ : ℕ → ℕ} (hfl : ExactCounts W1.g) (m : Mid W1 a0 d0 δ V)
    (l : ℕ) {f : CLink → CLink} (hne : (V.link l).vehs ≠ [])
    (hf : ∀ L, (f L).flow =
      (L.arr, upd L.dep W1.g.timestep (W1.g.fl (L.dep W1.g.timestep + W1.g.deltaN)), L.vehs.tail)) :
    Mid W1 a0 d0 δ (V.setL l f) := by
  have h1 : ∀ L, (f L).arr = L.arr := fun L => congrArg (·.1) (hf L)
  have h2 : ∀ L, (f L).dep = upd L.dep W1.g.timestep (W1.g.fl (L.dep W1.g.timestep + W1.g.deltaN)) :=
    fun L => congrArg (·.2.1) (hf L)
  have h3 : ∀ L, (f L).vehs = L.vehs.tail := fun L => congrArg (·.2.2) (hf L)
  refine ⟨m.g, fun k s hs => ?_, fun k hk => ?_⟩
  · rw [setL_link]; split
    · rename_i e; subst e
      rw [h1, h2]
      simp only [upd, if_neg hs]
      exact m.old k s hs
    · exact m.old k s hs
  · rw [setL_link]; split
    · rename_i e; subst e
      obtain ⟨a, d, p, q, r, s, u⟩ := m.cnt k hk
      refine ⟨a, d + 1, p, by omega, by rw [h1]; exact r, ?_, ?_⟩
      · rw [h2]
        simp only [upd, if_true]
        rw [s]
        have := hfl (d + 1)
        push_cast at this ⊢
        rw [← this]; congr 1; ring
      · rw [h3, List.length_tail]
        have := List.length_pos_iff.2 hne
        omega
    · exact m.cnt k hk

/-- A counted arrival enters the queue. -/
theorem Mid.push {W1 V : CWorld} {a0 d0 δ : ℕ → ℕ} (l v : ℕ) (m : Mid W1 a0 d0 (upd δ l (δ l + 1)) V)
    {f : CLink → CLink} (hf : ∀ L, (f L).flow = (L.arr, L.dep, L.vehs ++ [v])) :
    Mid W1 a0 d0 δ (V.setL l f) := by
  have h1 : ∀ L, (f L).arr = L.arr := fun L => congrArg (·.1) (hf L)
  have h2 : ∀ L, (f L).dep = L.dep := fun L => congrArg (·.2.1) (hf L)
  have h3 : ∀ L, (f L).vehs = L.vehs ++ [v] := fun L => congrArg (·.2.2) (hf L)
  refine ⟨m.g, fun k s hs => ?_, fun k hk => ?_⟩
  · rw [setL_link]; split
    · rename_i e; subst e
      rw [h1, h2]
      exact m.old k s hs
    · exact m.old k s hs
  · rw [setL_link]; split
    · rename_i e; subst e
      obtain ⟨a, d, p, q, r, s, u⟩ := m.cnt k hk
      refine ⟨a, d, p, q, by rw [h1]; exact r, by rw [h2]; exact s, ?_⟩
      rw [h3, List.length_append, List.length_singleton]
      simp only [upd, if_true] at u
      omega
    · rename_i e
      obtain ⟨a, d, p, q, r, s, u⟩ := m.cnt k hk
      exact ⟨a, d, p, q, r, s, by simp only [upd, if_neg e] at u; exact u⟩

theorem logData_flow (W : CWorld) (v : ℕ) (s : Option ℕ) :
    (W.logData v s).g = W.g ∧ ∀ m, ((W.logData v s).link m).flow = (W.link m).flow := by
  have h1 : (W.logStats v).g = W.g ∧ ∀ m, ((W.logStats v).link m).flow = (W.link m).flow := by
    unfold logStats
    split
    · exact ⟨rfl, setL_flow (fun _ => rfl)⟩
    · exact ⟨rfl, fun _ => rfl⟩
    · exact ⟨rfl, fun _ => rfl⟩
  unfold logData logPush
  split
  · exact h1
  · exact h1

theorem Mid.endTripOn {W1 V : CWorld} {a0 d0 δ : ℕ → ℕ} (hfl : ExactCounts W1.g)
    (m : Mid W1 a0 d0 δ V) (v l : ℕ) (hne : (V.link l).vehs ≠ []) :
    Mid W1 a0 d0 δ (V.endTripOn v l) := by
  have hg := m.g
  simp only [CWorld.endTripOn]
  obtain ⟨p, q⟩ := logData_flow (((V.setL l (fun L => { L with
    trips := V.g.fl (L.trips + 1)
    dep := upd L.dep V.g.timestep (V.g.fl (L.dep V.g.timestep + V.g.deltaN))
    ttEvents := L.ttEvents ++ [(V.eventIdx v,
      V.g.fl (V.g.fl ((V.g.timestep + 1 : ℕ) * V.g.deltaT) - (V.veh v).arrTimeLink))]
    ended := L.ended ++ [v]
    vehs := L.vehs.tail })).detach v).setV v (fun X => { X with
      state := if X.flagAbort then .abort else .ended
      arrTimeLink := V.now
      arrivalTime := if X.flagAbort then -1 else V.now
      travelTime := if X.flagAbort then -1 else V.g.fl (V.now - X.depTime)
      link := none
      x := 0
      flagWait := false })) v none
  refine Mid.congr ?_ p q
  refine Mid.congr (V := V.setL l _) (m.departs hfl l hne (f := fun L => { L with
    trips := V.g.fl (L.trips + 1)
    dep := upd L.dep V.g.timestep (V.g.fl (L.dep V.g.timestep + V.g.deltaN))
    ttEvents := L.ttEvents ++ [(V.eventIdx v,
      V.g.fl (V.g.fl ((V.g.timestep + 1 : ℕ) * V.g.deltaT) - (V.veh v).arrTimeLink))]
    ended := L.ended ++ [v]
    vehs := L.vehs.tail }) ?_) ?_ ?_
  · intro L; rw [hg]; rfl
  · simp
  · intro k; simp

/-- Every action keeps the counts right. -/
theorem Mid.act {W1 V V' : CWorld} {a0 d0 : ℕ → ℕ} {s : Stage} (hfl : ExactCounts W1.g)
    (h : Act s V V') (m : Mid W1 a0 d0 (fun _ => 0) V) : Mid W1 a0 d0 (fun _ => 0) V' := by
  have hg := m.g
  cases h with
  | genErr _ n e => exact m.congr rfl (fun _ => rfl)
  | choose _ n v t o rng i hi hq hc => exact m.congr rfl (fun _ => rfl)
  | depart _ n v l t i hi hq hl hn hc =>
    have m1 : Mid W1 a0 d0 (fun _ => 0) (((V.setN n (fun N =>
        { N with genQ := N.genQ.tail, runBuf := N.runBuf ++ [v] })).setV v (fun X => { X with
          state := .run, link := some l, x := 0, v := (V.link l).vmax, arrTimeLink := V.now
          visited := upd X.visited (V.link l).src true, count := X.count + 1 })).attach v l) :=
      m.congr (by simp) (fun k => by simp)
    have m2 := Mid.push l v (m1.arrive hfl l (f := fun L => { L with
      arr := upd L.arr V.g.timestep (V.g.fl (L.arr V.g.timestep + V.g.deltaN))
      capInRem := V.g.fl (L.capInRem - V.g.deltaN) }) (fun L => by rw [hg]; rfl))
      (f := fun L => { L with vehs := L.vehs ++ [v] }) (fun L => rfl)
    refine m2.congr ?_ ?_
    · simp [CWorld.depart]
    · intro k
      simp only [CWorld.depart, setL_link]
      split <;> rfl
  | signal _ n => exact m.congr rfl (fun _ => rfl)
  | flow _ n => exact m.congr rfl (fun _ => rfl)
  | collect _ n i hi =>
    refine m.congr (collect_g V n) (fun k => ?_)
    rw [collect_link]; split <;> rfl
  | draw _ n rng => exact m.congr rfl (fun _ => rfl)
  | move _ n v a b t k ha hq hb hn hf hc hr ho hs =>
    have m1 := m.departs hfl a (by rw [hq]; simp) (f := fun L => { L with
      capOutRem := V.g.fl (L.capOutRem - V.g.deltaN)
      dep := upd L.dep V.g.timestep (V.g.fl (L.dep V.g.timestep + V.g.deltaN))
      ttEvents := L.ttEvents ++ [(V.eventIdx v, V.g.fl (V.now - (V.veh v).arrTimeLink))]
      vehs := L.vehs.tail }) (fun L => by rw [hg]; rfl)
    have m2 := m1.arrive hfl b (f := fun L => { L with
      capInRem := V.g.fl (L.capInRem - V.g.deltaN)
      arr := upd L.arr V.g.timestep (V.g.fl (L.arr V.g.timestep + V.g.deltaN)) })
      (fun L => by rw [hg]; rfl)
    have m3 : Mid W1 a0 d0 (upd (fun _ => 0) b (0 + 1)) (V.moved n v a b) :=
      m2.congr (by rw [moved_g]; rfl) (fun k => by rw [moved_link, leave_link])
    rw [moveVeh_eq]
    have m4 : Mid W1 a0 d0 (upd (fun _ => 0) b (0 + 1)) ((V.moved n v a b).endFront a).1 := by
      rcases moved_endFront (n := n) (b := b) k.inv hq with e | ⟨h, t', e1, _, _, e⟩
      · rw [e]; exact m3
      · rw [e]
        exact m3.endTripOn hfl h a (by rw [moved_front k.inv hq, e1]; simp)
    have m5 := Mid.push b v m4 (f := fun L => { L with vehs := L.vehs ++ [v] }) (fun L => rfl)
    exact m5.congr rfl (fun _ => rfl)
  | endFront _ v l t i hq hna hni hf => exact m.endTripOn hfl v l (by rw [hq]; simp)
  | finish _ n => exact m.congr rfl (fun _ => rfl)
  | follow _ v l i hv =>
    refine m.congr (core_g (core_carFollow V v)) (fun k => ?_)
    unfold carFollow; split
    · rfl
    · split <;> rfl
  | log _ v l s i hv => exact m.congr (logData_flow V v s).1 (logData_flow V v s).2
  | advance _ v l i hv => exact m.congr rfl (fun _ => rfl)
  | abort _ v l i hv hd ho ha => exact m.congr rfl (fun _ => rfl)
  | flag _ v l i hv hc => exact m.congr rfl (fun _ => rfl)
  | endRun _ v l t i hq hna hi hf => exact m.endTripOn hfl v l (by rw [hq]; simp)
  | reqErr _ l e => exact m.congr rfl (setL_flow (fun _ => rfl))
  | req _ v l o rng i hv hd hc => exact m.congr rfl (setL_flow (W := V.setV v _) (fun _ => rfl))
  | waitLog _ n v i hv => exact m.congr (logData_flow V v none).1 (logData_flow V v none).2

/-! ## A time step -/

theorem linkUpdates_flow (xs : List ℕ) (W : CWorld) :
    (xs.foldl CWorld.linkUpdate W).g = W.g ∧ ∀ l,
      ((xs.foldl CWorld.linkUpdate W).link l).vehs = (W.link l).vehs ∧
      (∀ s, s ≠ W.g.timestep → ((xs.foldl CWorld.linkUpdate W).link l).arr s = (W.link l).arr s ∧
        ((xs.foldl CWorld.linkUpdate W).link l).dep s = (W.link l).dep s) ∧
      ((xs.foldl CWorld.linkUpdate W).link l).arr W.g.timestep =
        (if l ∈ xs ∧ W.g.timestep ≠ 0 then (W.link l).arr (W.g.timestep - 1)
          else (W.link l).arr W.g.timestep) ∧
      ((xs.foldl CWorld.linkUpdate W).link l).dep W.g.timestep =
        (if l ∈ xs ∧ W.g.timestep ≠ 0 then (W.link l).dep (W.g.timestep - 1)
          else (W.link l).dep W.g.timestep) := by
  induction xs generalizing W with
  | nil => exact ⟨rfl, fun l => ⟨rfl, fun _ _ => ⟨rfl, rfl⟩, by simp, by simp⟩⟩
  | cons k t ih =>
    obtain ⟨g, h⟩ := ih (W.linkUpdate k)
    rw [List.foldl_cons]
    have hgk : (W.linkUpdate k).g = W.g := rfl
    rw [hgk] at g h
    refine ⟨g, fun l => ?_⟩
    obtain ⟨h1, h2, h3, h4⟩ := h l
    by_cases e : l = k
    · subst e
      have hl : (W.linkUpdate l).link l = { W.link l with
          ttInst := upd (W.link l).ttInst W.g.timestep (W.newTt l)
          arr := if W.g.timestep ≠ 0 then upd (W.link l).arr W.g.timestep
            ((W.link l).arr (W.g.timestep - 1)) else (W.link l).arr
          dep := if W.g.timestep ≠ 0 then upd (W.link l).dep W.g.timestep
            ((W.link l).dep (W.g.timestep - 1)) else (W.link l).dep
          capOutRem := W.refill (W.link l).lanes (W.link l).capOut (W.link l).capOutRem
          capInRem := W.refill (W.link l).lanes (W.link l).capIn (W.link l).capInRem } := by
        simp only [CWorld.linkUpdate, setL_link, if_pos]
      rw [hl] at h1 h2 h3 h4
      simp only at h1 h2 h3 h4
      have hne : ∀ h : W.g.timestep ≠ 0, W.g.timestep - 1 ≠ W.g.timestep := fun h => by omega
      refine ⟨h1, fun s hs => ?_, ?_, ?_⟩
      · obtain ⟨p, q⟩ := h2 s hs
        rw [p, q]
        constructor
        · split
          · simp only [upd, if_neg hs]
          · rfl
        · split
          · simp only [upd, if_neg hs]
          · rfl
      · rw [h3]
        by_cases h0 : W.g.timestep = 0
        · simp [h0]
        · simp [h0, upd, hne h0]
      · rw [h4]
        by_cases h0 : W.g.timestep = 0
        · simp [h0]
        · simp [h0, upd, hne h0]
    · have hl : (W.linkUpdate k).link l = W.link l := by
        simp only [CWorld.linkUpdate, setL_link, if_neg e]
      rw [hl] at h1 h2 h3 h4
      have hm : l ∈ k :: t ↔ l ∈ t := by simp [e]
      exact ⟨h1, h2, by rw [h3]; simp only [hm], by rw [h4]; simp only [hm]⟩

/-- Counts between time steps: `A l s`, `D l s` vehicles had entered and left `l` after time step
`s`. -/
structure Flow (A D : ℕ → ℕ → ℕ) (W : CWorld) : Prop where
  past : ∀ l s, l < W.g.nLinks → s < W.g.timestep → (W.link l).arr s = A l s * W.g.deltaN ∧
    (W.link l).dep s = D l s * W.g.deltaN
  mono : ∀ l s, l < W.g.nLinks → s + 1 < W.g.timestep → A l s ≤ A l (s + 1) ∧ D l s ≤ D l (s + 1)
  le : ∀ l s, l < W.g.nLinks → s < W.g.timestep → D l s ≤ A l s
  bal : ∀ l s, l < W.g.nLinks → s + 1 = W.g.timestep → A l s = D l s + (W.link l).vehs.length
  empty : W.g.timestep = 0 → ∀ l, (W.link l).vehs = []
  fut : ∀ l s, l < W.g.nLinks → W.g.timestep ≤ s → (W.link l).arr s = 0 ∧ (W.link l).dep s = 0

/-- The parallel region of a time step, also when an exception is pending. -/
theorem Flow.region {W : CWorld} {A D : ℕ → ℕ → ℕ} (hfl : ExactCounts W.g) (r : Rest W)
    (f : Flow A D W) (σ : Sched) (hσ : σ.run.Nodup) (hu : ∀ l, l < W.g.nLinks → l ∈ σ.update) :
    (CWorld.region σ W).g = W.g ∧ (∀ l s, s ≠ W.g.timestep →
      ((CWorld.region σ W).link l).arr s = (W.link l).arr s ∧
      ((CWorld.region σ W).link l).dep s = (W.link l).dep s) ∧
    ∀ l, l < W.g.nLinks → ∃ a d : ℕ, (∀ s, s + 1 = W.g.timestep → A l s ≤ a ∧ D l s ≤ d) ∧
      ((CWorld.region σ W).link l).arr W.g.timestep = a * W.g.deltaN ∧
      ((CWorld.region σ W).link l).dep W.g.timestep = d * W.g.deltaN ∧
      a = d + ((CWorld.region σ W).link l).vehs.length := by
  obtain ⟨g1, h1⟩ := linkUpdates_flow σ.update W
  have m0 : Mid (σ.update.foldl CWorld.linkUpdate W)
      (fun l => if W.g.timestep = 0 then 0 else A l (W.g.timestep - 1))
      (fun l => if W.g.timestep = 0 then 0 else D l (W.g.timestep - 1)) (fun _ => 0)
      (σ.update.foldl CWorld.linkUpdate W) := by
    refine ⟨rfl, fun _ _ _ => ⟨rfl, rfl⟩, fun l hl => ?_⟩
    obtain ⟨p, q, u, v⟩ := h1 l
    rw [g1] at hl
    rw [g1, p, u, v]
    by_cases h0 : W.g.timestep = 0
    · have e := f.empty h0 l
      obtain ⟨e1, e2⟩ := f.fut l W.g.timestep hl le_rfl
      refine ⟨0, 0, by simp [h0], by simp [h0], ?_, ?_, by rw [e]; rfl⟩
      · rw [if_neg (by simp [h0]), e1]; simp
      · rw [if_neg (by simp [h0]), e2]; simp
    · obtain ⟨e1, e2⟩ := f.past l (W.g.timestep - 1) hl (by omega)
      have e3 := f.bal l (W.g.timestep - 1) hl (by omega)
      refine ⟨A l (W.g.timestep - 1), D l (W.g.timestep - 1), by simp [h0], by simp [h0], ?_, ?_, e3⟩
      · rw [if_pos ⟨hu l hl, h0⟩]; exact e1
      · rw [if_pos ⟨hu l hl, h0⟩]; exact e2
  have hfl1 : ExactCounts (σ.update.foldl CWorld.linkUpdate W).g := by rw [g1]; exact hfl
  have m := region_preserves r σ hσ _ (fun s V V' h m => Mid.act hfl1 h m) m0
  refine ⟨m.g.trans g1, fun l s hs => ?_, fun l hl => ?_⟩
  · obtain ⟨p, q⟩ := m.old l s (by rw [g1]; exact hs)
    obtain ⟨_, q', _, _⟩ := h1 l
    exact ⟨p.trans (q' s hs).1, q.trans (q' s hs).2⟩
  · obtain ⟨a, d, p, q, u, v, w⟩ := m.cnt l (by rw [g1]; exact hl)
    rw [g1] at u v
    refine ⟨a, d, fun s hs => ?_, u, v, w⟩
    have h0 : W.g.timestep ≠ 0 := by omega
    have hs' : W.g.timestep - 1 = s := by omega
    simp only [if_neg h0, hs'] at p q
    exact ⟨p, q⟩

theorem vehUpdate_flow {W : CWorld} {v : ℕ} (hst : (W.veh v).state = .home) (m : ℕ) :
    ((W.vehUpdate v none).link m).flow = (W.link m).flow := by
  have h1 : ((W.logData v none).veh v).state = .home := by
    rw [core_state (core_logData W v none)]; exact hst
  unfold vehUpdate
  simp only [h1]
  split
  · exact (logData_flow W v none).2 m
  · exact (logData_flow W v none).2 m

theorem homePass_flow (xs : List ℕ) (hnd : xs.Nodup) {W : CWorld} (r : Rest W)
    (hx : ∀ v ∈ xs, v < W.g.nVehs ∧ (W.veh v).state = .home) (m : ℕ) :
    ((xs.foldl (fun W v => W.vehUpdate v none) W).link m).flow = (W.link m).flow := by
  induction xs generalizing W with
  | nil => rfl
  | cons v t ih =>
    obtain ⟨hv, ht⟩ := List.nodup_cons.1 hnd
    obtain ⟨p, q, g, e⟩ := r.homeVeh (hx v (by simp)).1 (hx v (by simp)).2
    rw [List.foldl_cons, ih ht p (fun w hw => by
      rw [g, e w (fun h => hv (h ▸ hw))]; exact hx w (by simp [hw]))]
    exact vehUpdate_flow (hx v (by simp)).2 m

theorem routeStep_flow (W : CWorld) (m : ℕ) : (W.routeStep.link m).flow = (W.link m).flow := by
  have h : ∀ V : CWorld, (V.updateAdj.link m).flow = (V.link m).flow := by
    intro V
    simp only [CWorld.updateAdj]
    split
    · rfl
    · simp only []
      split <;> rfl
  unfold CWorld.routeStep
  split
  · split
    · exact h W
    · rfl
  · split
    · exact h W
    · rfl

theorem reconcile_flow (W : CWorld) (m : ℕ) : (W.reconcile.link m).flow = (W.link m).flow := by
  simp only [CWorld.reconcile]; split <;> rfl

/-- Both ways a time step can end leave the counts right for the time step it worked on. -/
theorem Flow.stepWith {W : CWorld} {A D : ℕ → ℕ → ℕ} (hfl : ExactCounts W.g) (r : Rest W)
    (f : Flow A D W) (σ : Sched) (hσ : σ.run.Nodup) (hu : ∀ l, l < W.g.nLinks → l ∈ σ.update)
    (home : List ℕ) (hnd : home.Nodup) (hh : ∀ v ∈ home, v < W.g.nVehs ∧ (W.veh v).state = .home) :
    (∀ l s, s ≠ W.g.timestep → ((CWorld.stepWith σ home W).1.link l).arr s = (W.link l).arr s ∧
      ((CWorld.stepWith σ home W).1.link l).dep s = (W.link l).dep s) ∧
    ∀ l, l < W.g.nLinks → ∃ a d : ℕ, (∀ s, s + 1 = W.g.timestep → A l s ≤ a ∧ D l s ≤ d) ∧
      ((CWorld.stepWith σ home W).1.link l).arr W.g.timestep = a * W.g.deltaN ∧
      ((CWorld.stepWith σ home W).1.link l).dep W.g.timestep = d * W.g.deltaN ∧
      a = d + ((CWorld.stepWith σ home W).1.link l).vehs.length := by
  have r0 : Rest W.clearExc := r.congr (core_clearExc W).symm
  have f0 : Flow A D W.clearExc := ⟨f.past, f.mono, f.le, f.bal, f.empty, f.fut⟩
  obtain ⟨r1, k1⟩ := r0.region σ hσ
  have k := (Keep.clearExc W).trans k1
  have key := Flow.region (W := W.clearExc) hfl r0 f0 σ hσ hu
  unfold CWorld.stepWith
  simp only
  generalize CWorld.region σ W.clearExc = W1 at *
  obtain ⟨_, key1, key2⟩ := key
  have hg : W1.g = W.g := k.g
  split
  · exact ⟨key1, key2⟩
  · have hx : ∀ v ∈ home, v < W1.g.nVehs ∧ (W1.veh v).state = .home := fun v hv => by
      rw [hg, k.home v (hh v hv).2]; exact hh v hv
    have fl2 := fun m => homePass_flow home hnd r1 hx m
    simp only
    generalize home.foldl (fun (W : CWorld) v => W.vehUpdate v none) W1 = W2 at *
    have e : ∀ m, (W2.reconcile.routeStep.link m).flow = (W1.link m).flow := fun m =>
      (routeStep_flow _ m).trans ((reconcile_flow _ m).trans (fl2 m))
    have e1 : ∀ m, (W2.reconcile.routeStep.link m).arr = (W1.link m).arr := fun m => congrArg (·.1) (e m)
    have e2 : ∀ m, (W2.reconcile.routeStep.link m).dep = (W1.link m).dep := fun m => congrArg (·.2.1) (e m)
    have e3 : ∀ m, (W2.reconcile.routeStep.link m).vehs = (W1.link m).vehs := fun m => congrArg (·.2.2) (e m)
    refine ⟨fun l s hs => ?_, fun l hl => ?_⟩
    · rw [e1, e2]; exact key1 l s hs
    · rw [e1, e2, e3]; exact key2 l hl

/-- One completed time step. -/
theorem Flow.next {W W' : CWorld} {A D : ℕ → ℕ → ℕ} (f : Flow A D W)
    (hN : W'.g.deltaN = W.g.deltaN) (hL : W'.g.nLinks = W.g.nLinks)
    (hT : W'.g.timestep = W.g.timestep + 1)
    (h1 : ∀ l s, s ≠ W.g.timestep → (W'.link l).arr s = (W.link l).arr s ∧
      (W'.link l).dep s = (W.link l).dep s)
    (h2 : ∀ l, l < W.g.nLinks → ∃ a d : ℕ, (∀ s, s + 1 = W.g.timestep → A l s ≤ a ∧ D l s ≤ d) ∧
      (W'.link l).arr W.g.timestep = a * W.g.deltaN ∧
      (W'.link l).dep W.g.timestep = d * W.g.deltaN ∧ a = d + (W'.link l).vehs.length) :
    ∃ A' D', Flow A' D' W' := by
  have h2' : ∀ l, ∃ p : ℕ × ℕ, l < W.g.nLinks →
      (∀ s, s + 1 = W.g.timestep → A l s ≤ p.1 ∧ D l s ≤ p.2) ∧
      (W'.link l).arr W.g.timestep = p.1 * W.g.deltaN ∧
      (W'.link l).dep W.g.timestep = p.2 * W.g.deltaN ∧ p.1 = p.2 + (W'.link l).vehs.length := by
    intro l
    by_cases hl : l < W.g.nLinks
    · obtain ⟨a, d, p, q, u, v⟩ := h2 l hl
      exact ⟨(a, d), fun _ => ⟨p, q, u, v⟩⟩
    · exact ⟨(0, 0), fun h => absurd h hl⟩
  choose c hc using h2'
  refine ⟨fun l s => if s = W.g.timestep then (c l).1 else A l s,
    fun l s => if s = W.g.timestep then (c l).2 else D l s, ⟨?_, ?_, ?_, ?_, ?_, ?_⟩⟩
  · intro l s hl hs
    rw [hL] at hl
    rw [hN]
    by_cases e : s = W.g.timestep
    · subst e; simp only [if_true]; exact ⟨(hc l hl).2.1, (hc l hl).2.2.1⟩
    · simp only [if_neg e]
      obtain ⟨p, q⟩ := h1 l s e
      rw [p, q]; exact f.past l s hl (by omega)
  · intro l s hl hs
    rw [hL] at hl
    have e0 : s ≠ W.g.timestep := by omega
    by_cases e : s + 1 = W.g.timestep
    · simp only [if_neg e0, if_pos e]; exact (hc l hl).1 s e
    · simp only [if_neg e0, if_neg e]; exact f.mono l s hl (by omega)
  · intro l s hl hs
    rw [hL] at hl
    by_cases e : s = W.g.timestep
    · simp only [if_pos e]; have := (hc l hl).2.2.2; omega
    · simp only [if_neg e]; exact f.le l s hl (by omega)
  · intro l s hl hs
    rw [hL] at hl
    have e : s = W.g.timestep := by omega
    simp only [if_pos e]; exact (hc l hl).2.2.2
  · intro h; omega
  · intro l s hl hs
    rw [hL] at hl
    obtain ⟨p, q⟩ := h1 l s (by omega)
    rw [p, q]; exact f.fut l s hl (by omega)

/-! ## Runs and calls -/

theorem CGlob.fix_deltaN {g g' : CGlob} (h : g.fix = g'.fix) : g.deltaN = g'.deltaN :=
  show g.fix.deltaN = g'.fix.deltaN by rw [h]
theorem CGlob.fix_nLinks {g g' : CGlob} (h : g.fix = g'.fix) : g.nLinks = g'.nLinks :=
  show g.fix.nLinks = g'.fix.nLinks by rw [h]

theorem ExactCounts.of_fix {g g' : CGlob} (h : g.fix = g'.fix) (e : ExactCounts g) : ExactCounts g' := by
  intro k
  rw [← CGlob.fix_fl h, ← CGlob.fix_deltaN h]
  exact e k

/-- A run, completed or not, changes only the time step and the route tables of the globals. -/
theorem Rest.loopFix {sched : ℕ → CWorld → Sched} (hs : ∀ t V, (sched t V).Valid V)
    {b : ℕ → List ℕ} (hb : ∀ t, (b t).Nodup) (hd : ∀ s t v, s ≠ t → v ∈ b s → v ∉ b t) (k : ℕ)
    {W : CWorld} (r : Rest W)
    (hh : ∀ t, W.g.timestep ≤ t → ∀ v ∈ b t, v < W.g.nVehs ∧ (W.veh v).state = .home) :
    (CWorld.loopFrom sched b k W).1.g.fix = W.g.fix := by
  induction k generalizing W with
  | zero => rfl
  | succ k ih =>
    have hns : (sched W.g.timestep W).run.Nodup :=
      (hs W.g.timestep W).2.2.2.1.nodup_iff.2 List.nodup_range
    obtain ⟨r1, k1⟩ := r.stepWith (sched W.g.timestep W) hns (b W.g.timestep) (hb _) (hh _ le_rfl)
    obtain ⟨k2, _⟩ := r.stepWith2 (sched W.g.timestep W) hns (b W.g.timestep) (hb _) (hh _ le_rfl)
    rw [CWorld.loopFrom]
    cases he : CWorld.stepWith (sched W.g.timestep W) (b W.g.timestep) W with
    | mk W1 e =>
      rw [he] at r1 k1 k2
      simp only at r1 k1 k2
      cases e with
      | some e => exact k2.fix
      | none =>
        simp only
        have hh1 : ∀ t, W.g.timestep + 1 ≤ t → ∀ v ∈ b t, v < W1.g.nVehs ∧ (W1.veh v).state = .home := by
          intro t ht v hv
          obtain ⟨p, q⟩ := hh t (by omega) v hv
          have hv' := k1.home v (fun h => hd _ _ v (by omega) h hv) q
          exact ⟨by rw [k1.nVehs]; exact p, by rw [hv']; exact q⟩
        exact (ih (W := { W1 with g := { W1.g with timestep := W.g.timestep + 1 } })
          (r1.setG _ rfl rfl rfl rfl rfl) hh1).trans k2.fix

theorem Rest.mainFix {sched : ℕ → CWorld → Sched} (hs : ∀ t V, (sched t V).Valid V) {W : CWorld}
    (r : Rest W) (endTs : ℕ) : (W.mainLoop sched endTs).1.g.fix = W.g.fix := by
  refine Rest.loopFix hs (fun t => bucket_nodup W _ t) ?_ _ r ?_
  · intro s t v hne h h'
    exact hne ((mem_bucket.1 h).2.2.symm.trans (mem_bucket.1 h').2.2)
  · intro t _ v hv
    exact ⟨(mem_bucket.1 hv).1, (mem_bucket.1 hv).2.1⟩

/-- A run: completed or not, it does not change the entries of earlier time steps; completed, the
counts are right; not completed, they are right for the time step that failed. -/
theorem Flow.loopFrom {sched : ℕ → CWorld → Sched} (hs : ∀ t V, (sched t V).Valid V)
    {b : ℕ → List ℕ} (hb : ∀ t, (b t).Nodup) (hd : ∀ s t v, s ≠ t → v ∈ b s → v ∉ b t) (k : ℕ)
    {A D : ℕ → ℕ → ℕ} {W : CWorld} (hfl : ExactCounts W.g) (r : Rest W) (f : Flow A D W)
    (hh : ∀ t, W.g.timestep ≤ t → ∀ v ∈ b t, v < W.g.nVehs ∧ (W.veh v).state = .home) :
    (∀ l s, s < W.g.timestep → ((CWorld.loopFrom sched b k W).1.link l).arr s = (W.link l).arr s ∧
      ((CWorld.loopFrom sched b k W).1.link l).dep s = (W.link l).dep s) ∧
    (CWorld.loopFrom sched b k W).1.g.fix = W.g.fix ∧
    ((CWorld.loopFrom sched b k W).2 = none →
      ∃ A' D', Flow A' D' (CWorld.loopFrom sched b k W).1) ∧
    ((CWorld.loopFrom sched b k W).2 ≠ none → ∀ l, l < W.g.nLinks → ∃ a d : ℕ,
      ((CWorld.loopFrom sched b k W).1.link l).arr (CWorld.loopFrom sched b k W).1.g.timestep =
        a * W.g.deltaN ∧
      ((CWorld.loopFrom sched b k W).1.link l).dep (CWorld.loopFrom sched b k W).1.g.timestep =
        d * W.g.deltaN ∧
      a = d + ((CWorld.loopFrom sched b k W).1.link l).vehs.length) := by
  induction k generalizing W A D with
  | zero => exact ⟨fun _ _ _ => ⟨rfl, rfl⟩, rfl, fun _ => ⟨A, D, f⟩, fun h => absurd rfl h⟩
  | succ k ih =>
    have hv := hs W.g.timestep W
    have hns : (sched W.g.timestep W).run.Nodup := hv.2.2.2.1.nodup_iff.2 List.nodup_range
    have hup : ∀ l, l < W.g.nLinks → l ∈ (sched W.g.timestep W).update := fun l hl =>
      hv.1.mem_iff.2 (List.mem_range.2 hl)
    obtain ⟨r1, k1⟩ := r.stepWith (sched W.g.timestep W) hns (b W.g.timestep) (hb _) (hh _ le_rfl)
    obtain ⟨k2, _⟩ := r.stepWith2 (sched W.g.timestep W) hns (b W.g.timestep) (hb _) (hh _ le_rfl)
    obtain ⟨f1, f2⟩ := f.stepWith hfl r (sched W.g.timestep W) hns hup (b W.g.timestep) (hb _)
      (hh _ le_rfl)
    rw [CWorld.loopFrom]
    cases he : CWorld.stepWith (sched W.g.timestep W) (b W.g.timestep) W with
    | mk W1 e =>
      rw [he] at r1 k1 k2 f1 f2
      simp only at r1 k1 k2 f1 f2
      cases e with
      | some e =>
        simp only
        refine ⟨fun l s hs => f1 l s (by omega), k2.fix, fun h => by simp at h, fun _ l hl => ?_⟩
        obtain ⟨a, d, _, p, q, u⟩ := f2 l hl
        rw [k1.timestep]
        exact ⟨a, d, p, q, u⟩
      | none =>
        simp only
        have hfix : ({ W1.g with timestep := W.g.timestep + 1 } : CGlob).fix = W.g.fix := k2.fix
        have hh1 : ∀ t, W.g.timestep + 1 ≤ t → ∀ v ∈ b t, v < W1.g.nVehs ∧ (W1.veh v).state = .home := by
          intro t ht v hv
          obtain ⟨p, q⟩ := hh t (by omega) v hv
          have hv' := k1.home v (fun h => hd _ _ v (by omega) h hv) q
          exact ⟨by rw [k1.nVehs]; exact p, by rw [hv']; exact q⟩
        obtain ⟨A', D', f'⟩ := Flow.next (W' := { W1 with g := { W1.g with timestep := W.g.timestep + 1 } })
          f (CGlob.fix_deltaN hfix) (CGlob.fix_nLinks hfix) rfl f1 f2
        obtain ⟨q1, q2, q3, q4⟩ := ih (W := { W1 with g := { W1.g with timestep := W.g.timestep + 1 } })
          (ExactCounts.of_fix hfix.symm hfl) (r1.setG _ rfl rfl rfl rfl rfl) f' hh1
        refine ⟨fun l s hs => ?_, q2.trans hfix, q3, fun h l hl => ?_⟩
        · obtain ⟨p, q⟩ := q1 l s (by show s < W.g.timestep + 1; omega)
          obtain ⟨p', q'⟩ := f1 l s (by omega)
          exact ⟨p.trans p', q.trans q'⟩
        · obtain ⟨a, d, p, q, u⟩ := q4 h l (by show l < W1.g.nLinks; rw [k1.nLinks]; exact hl)
          refine ⟨a, d, ?_, ?_, u⟩
          · rw [p]; exact congrArg (fun z => (a : ℚ) * z) (CGlob.fix_deltaN hfix)
          · rw [q]; exact congrArg (fun z => (d : ℚ) * z) (CGlob.fix_deltaN hfix)

theorem Flow.mainLoop {sched : ℕ → CWorld → Sched} (hs : ∀ t V, (sched t V).Valid V)
    {A D : ℕ → ℕ → ℕ} {W : CWorld} (hfl : ExactCounts W.g) (r : Rest W) (f : Flow A D W) (endTs : ℕ) :
    (∀ l s, s < W.g.timestep → ((W.mainLoop sched endTs).1.link l).arr s = (W.link l).arr s ∧
      ((W.mainLoop sched endTs).1.link l).dep s = (W.link l).dep s) ∧
    (W.mainLoop sched endTs).1.g.fix = W.g.fix ∧
    ((W.mainLoop sched endTs).2 = none → ∃ A' D', Flow A' D' (W.mainLoop sched endTs).1) ∧
    ((W.mainLoop sched endTs).2 ≠ none → ∀ l, l < W.g.nLinks → ∃ a d : ℕ,
      ((W.mainLoop sched endTs).1.link l).arr (W.mainLoop sched endTs).1.g.timestep = a * W.g.deltaN ∧
      ((W.mainLoop sched endTs).1.link l).dep (W.mainLoop sched endTs).1.g.timestep = d * W.g.deltaN ∧
      a = d + ((W.mainLoop sched endTs).1.link l).vehs.length) := by
  refine Flow.loopFrom hs (fun t => bucket_nodup W _ t) ?_ _ hfl r f ?_
  · intro s t v hne h h'
    exact hne ((mem_bucket.1 h).2.2.symm.trans (mem_bucket.1 h').2.2)
  · intro t _ v hv
    exact ⟨(mem_bucket.1 hv).1, (mem_bucket.1 hv).2.1⟩

/-- Calls that do not touch queues, curves, time or `delta_n`. -/
theorem Flow.congr {A D : ℕ → ℕ → ℕ} {W W' : CWorld} (f : Flow A D W)
    (h1 : W'.g.timestep = W.g.timestep) (h2 : W'.g.deltaN = W.g.deltaN) (h3 : W'.g.nLinks = W.g.nLinks)
    (h : ∀ l, (W'.link l).flow = (W.link l).flow) : Flow A D W' := by
  have e1 : ∀ l, (W'.link l).arr = (W.link l).arr := fun l => congrArg (·.1) (h l)
  have e2 : ∀ l, (W'.link l).dep = (W.link l).dep := fun l => congrArg (·.2.1) (h l)
  have e3 : ∀ l, (W'.link l).vehs = (W.link l).vehs := fun l => congrArg (·.2.2) (h l)
  refine ⟨?_, ?_, ?_, ?_, ?_, ?_⟩
  · intro l s; rw [h1, h2, h3, e1, e2]; exact f.past l s
  · intro l s; rw [h1, h3]; exact f.mono l s
  · intro l s; rw [h1, h3]; exact f.le l s
  · intro l s; rw [h1, h3, e3]; exact f.bal l s
  · intro ht l; rw [e3]; exact f.empty (h1 ▸ ht) l
  · intro l s; rw [h1, h3, e1, e2]; exact f.fut l s

theorem edit_flow (W : CWorld) (e : Edit) : (W.edit e).g = W.g ∧
    ∀ l, ((W.edit e).link l).flow = (W.link l).flow := by
  cases e with
  | freeFlow l q =>
    simp only [CWorld.edit, changeFreeFlow]; split
    · exact ⟨rfl, setL_flow (fun _ => rfl)⟩
    · exact ⟨rfl, fun _ => rfl⟩
  | jam l q =>
    simp only [CWorld.edit, changeJam]; split
    · exact ⟨rfl, setL_flow (fun _ => rfl)⟩
    · exact ⟨rfl, fun _ => rfl⟩
  | _ => first
    | exact ⟨rfl, fun _ => rfl⟩
    | (refine ⟨rfl, fun k => ?_⟩
       simp only [CWorld.edit]
       refine setL_flow ?_ k
       intro L; rfl)

theorem adjustNode_flow (W : CWorld) (n : ℕ) : (W.adjustNode n).g = W.g ∧ (W.adjustNode n).link = W.link := by
  unfold CWorld.adjustNode; split
  · exact ⟨rfl, rfl⟩
  · exact ⟨rfl, rfl⟩

theorem initAdj_flow (W : CWorld) : W.initAdj.g.fix = W.g.fix ∧ W.initAdj.g.timestep = W.g.timestep ∧
    W.initAdj.link = W.link := by
  have h : ∀ (xs : List ℕ) (V : CWorld), (xs.foldl adjustNode V).g = V.g ∧
      (xs.foldl adjustNode V).link = V.link := by
    intro xs
    induction xs with
    | nil => intro V; exact ⟨rfl, rfl⟩
    | cons n t ih =>
      intro V
      obtain ⟨p, q⟩ := ih (V.adjustNode n)
      obtain ⟨p', q'⟩ := adjustNode_flow V n
      exact ⟨p.trans p', q.trans q'⟩
  simp only [CWorld.initAdj]
  split
  · obtain ⟨p, q⟩ := h (List.range W.g.nNodes) W
    rw [p]
    exact ⟨rfl, rfl, q⟩
  · exact ⟨rfl, rfl, rfl⟩

theorem Flow.step {A D : ℕ → ℕ → ℕ} {W W' : CWorld} (s : CleanStep W W') (r : Rest W)
    (hfl : ExactCounts W.g) (htot : W.g.timestep ≤ W.g.totalSteps)
    (f : Flow A D W) : ∃ A' D', Flow A' D' W' := by
  cases s with
  | node _ ints off cap lanes rng fuel h =>
    unfold addNode at h
    rw [Option.map_eq_some_iff] at h
    obtain ⟨p, _, rfl⟩ := h
    exact ⟨A, D, f.congr rfl rfl rfl (fun _ => rfl)⟩
  | link src dst a hs hd hl hr =>
    have hlink : ∀ l, (W.addLink src dst a).link l =
        if l = W.g.nLinks then W.newLink src dst a else W.link l := by
      intro l; simp only [CWorld.addLink, setN_link, upd]
    refine ⟨fun l s => if l = W.g.nLinks then 0 else A l s,
      fun l s => if l = W.g.nLinks then 0 else D l s, ⟨?_, ?_, ?_, ?_, ?_, ?_⟩⟩
    · intro l s hl' ht
      have hl2 : l < W.g.nLinks + 1 := hl'
      rw [hlink]
      by_cases e : l = W.g.nLinks
      · simp [e, newLink]
      · simp only [if_neg e]; exact f.past l s (by omega) ht
    · intro l s hl' ht
      have hl2 : l < W.g.nLinks + 1 := hl'
      by_cases e : l = W.g.nLinks
      · simp [e]
      · simp only [if_neg e]; exact f.mono l s (by omega) ht
    · intro l s hl' ht
      have hl2 : l < W.g.nLinks + 1 := hl'
      by_cases e : l = W.g.nLinks
      · simp [e]
      · simp only [if_neg e]; exact f.le l s (by omega) ht
    · intro l s hl' ht
      have hl2 : l < W.g.nLinks + 1 := hl'
      rw [hlink]
      by_cases e : l = W.g.nLinks
      · simp [e, newLink]
      · simp only [if_neg e]; exact f.bal l s (by omega) ht
    · intro ht l
      rw [hlink]
      split
      · rfl
      · exact f.empty ht l
    · intro l s hl' ht
      have hl2 : l < W.g.nLinks + 1 := hl'
      rw [hlink]
      by_cases e : l = W.g.nLinks
      · simp [e, newLink]
      · simp only [if_neg e]; exact f.fut l s (by omega) ht
  | vehicle dep orig dest prefer ho hd => exact ⟨A, D, f.congr rfl rfl rfl (fun _ => rfl)⟩
  | tmax t h =>
    have hlk : ∀ l, l < W.g.nLinks → ∀ s, s < W.g.timestep →
        ((W.setTMax t).link l).arr s = (W.link l).arr s ∧ ((W.setTMax t).link l).dep s = (W.link l).dep s := by
      intro l hl s hs
      have hs2 : s < (pyInt (W.g.fl (t / W.g.deltaT))).toNat := lt_of_lt_of_le hs h
      simp only [CWorld.setTMax, if_pos hl, resizeFn]
      have h1 : s < W.g.totalSteps := lt_of_lt_of_le hs htot
      rw [if_pos ⟨h1, hs2⟩, if_pos ⟨h1, hs2⟩]
      exact ⟨rfl, rfl⟩
    have hv : ∀ l, ((W.setTMax t).link l).vehs = (W.link l).vehs := by
      intro l; simp only [CWorld.setTMax]; split <;> rfl
    refine ⟨A, D, ⟨fun l s hl hs => ?_, f.mono, f.le, fun l s hl hs => ?_, fun ht l => ?_, fun l s hl hs => ?_⟩⟩
    · obtain ⟨p, q⟩ := hlk l hl s hs
      rw [p, q]; exact f.past l s hl hs
    · rw [hv]; exact f.bal l s hl hs
    · rw [hv]; exact f.empty ht l
    · obtain ⟨p, q⟩ := f.fut l s hl hs
      have hl' : l < W.g.nLinks := hl
      simp only [CWorld.setTMax, if_pos hl', resizeFn]
      rw [p, q]; simp
  | init =>
    obtain ⟨p, q, u⟩ := initAdj_flow W
    exact ⟨A, D, f.congr q (CGlob.fix_deltaN p) (CGlob.fix_nLinks p) (fun l => by rw [u])⟩
  | edit e =>
    obtain ⟨p, q⟩ := edit_flow W e
    exact ⟨A, D, f.congr (by rw [p]) (by rw [p]) (by rw [p]) q⟩
  | run _ endTs sched hs h =>
    have := (Flow.mainLoop hs hfl r f endTs).2.2.1
    rw [h] at this
    exact this rfl

theorem Spec.CleanStep.tot {W W' : CWorld} (s : CleanStep W W') (r : Rest W)
    (htot : W.g.timestep ≤ W.g.totalSteps) : W'.g.timestep ≤ W'.g.totalSteps := by
  cases s with
  | node _ ints off cap lanes rng fuel h =>
    unfold addNode at h
    rw [Option.map_eq_some_iff] at h
    obtain ⟨p, _, rfl⟩ := h
    exact htot
  | link src dst a hs hd hl hr => exact htot
  | vehicle dep orig dest prefer ho hd => exact htot
  | tmax t h => exact h
  | init =>
    obtain ⟨p, q, _⟩ := initAdj_flow W
    rw [q, CGlob.fix_totalSteps p]; exact htot
  | edit e => rw [(edit_flow W e).1]; exact htot
  | run _ endTs sched hs h =>
    obtain ⟨k, kt⟩ := mainLoop_keep r (fun t V _ => (hs t V).2.2.2.1.nodup_iff.2 List.nodup_range) h
    rw [CGlob.fix_totalSteps k.fix]
    omega

theorem Spec.CleanStep.exact {W W' : CWorld} (s : CleanStep W W') (r : Rest W) :
    W'.g.fl = W.g.fl ∧ W'.g.deltaN = W.g.deltaN := by
  cases s with
  | node _ ints off cap lanes rng fuel h =>
    unfold addNode at h
    rw [Option.map_eq_some_iff] at h
    obtain ⟨p, _, rfl⟩ := h
    exact ⟨rfl, rfl⟩
  | link src dst a hs hd hl hr => exact ⟨rfl, rfl⟩
  | vehicle dep orig dest prefer ho hd => exact ⟨rfl, rfl⟩
  | tmax t h => exact ⟨rfl, rfl⟩
  | init =>
    obtain ⟨p, q, _⟩ := initAdj_flow W
    exact ⟨CGlob.fix_fl p, CGlob.fix_deltaN p⟩
  | edit e => rw [(edit_flow W e).1]; exact ⟨rfl, rfl⟩
  | run _ endTs sched hs h =>
    obtain ⟨k, kt⟩ := mainLoop_keep r (fun t V _ => (hs t V).2.2.2.1.nodup_iff.2 List.nodup_range) h
    exact ⟨CGlob.fix_fl k.fix, CGlob.fix_deltaN k.fix⟩

theorem Spec.CleanReach.flow {W : CWorld} (h : CleanReach W) (hfl : ExactCounts W.g) :
    (∃ A D, Flow A D W) ∧ W.g.timestep ≤ W.g.totalSteps := by
  induction h with
  | empty fl tMax deltaN tau duoTime duoWeight noise hardDet gradual noCyclic adjustCap logMode ttInterval =>
    refine ⟨⟨fun _ _ => 0, fun _ _ => 0, ⟨?_, ?_, ?_, ?_, ?_, ?_⟩⟩, Nat.zero_le _⟩
    · intro l s hl; exact absurd hl (Nat.not_lt_zero _)
    · intro l s hl; exact absurd hl (Nat.not_lt_zero _)
    · intro l s hl; exact absurd hl (Nat.not_lt_zero _)
    · intro l s hl; exact absurd hl (Nat.not_lt_zero _)
    · intro _ l; rfl
    · intro l s hl; exact absurd hl (Nat.not_lt_zero _)
  | @step W W' h s ih =>
    have r := h.toReach.rest
    obtain ⟨e1, e2⟩ := s.exact r
    have hfl' : ExactCounts W.g := by
      intro k; rw [← e1, ← e2]; exact hfl k
    obtain ⟨⟨A, D, f⟩, ht⟩ := ih hfl'
    exact ⟨f.step s r hfl' ht, s.tot r ht⟩

end UX.Cpp
