import Verif.Proofs.CppEvents
import Verif.Proofs.CppFlow

/-!
# What an action does to a vehicle of the C++ engine
-/

namespace UX.Cpp
open CWorld Relation

/-- A vehicle without its log. -/
def CVeh.noLog (V : CVeh) : CVeh :=
  { V with log := [], logFirst := 0, logLast := 0, logWait := 0, logEnd := 0, eager := [] }

/-- `w` is in the queue of `l` and knows it. -/
structure OnRun (W : CWorld) (w l : ℕ) : Prop where
  mem : w ∈ (W.link l).vehs
  state : (W.veh w).state = .run
  link : (W.veh w).link = some l
  lt : l < W.g.nLinks
  veh : w < W.g.nVehs

theorem Inv.onRun {W : CWorld} {x y : Option ℕ} (i : Inv W x y) {w l : ℕ} (h : w ∈ (W.link l).vehs) :
    OnRun W w l := by
  obtain ⟨p, q, r, s, _⟩ := i.mem l w h
  exact ⟨h, q, p, r, s⟩

/-- What is known of the position `q` that a vehicle coming from `a` gets on link `b`: it is on the link
and at most the rest of the last movement, turned into a distance at the speed of `b`. -/
def CarryOK (W : CWorld) (w a b : ℕ) (q : ℚ) : Prop :=
  0 ≤ (W.link b).len → 0 ≤ q ∧ q ≤ (W.link b).len ∧
    q ≤ max 0 (W.g.fl (W.g.fl ((W.veh w).moveRem * (W.link b).vmax) / (W.link a).vmax))

theorem clamp_bounds {L : ℚ} (hL : 0 ≤ L) (y : ℚ) :
    0 ≤ (if (if L ≤ y then L else y) < 0 then 0 else (if L ≤ y then L else y)) ∧
    (if (if L ≤ y then L else y) < 0 then 0 else (if L ≤ y then L else y)) ≤ L := by
  have h1 : (if L ≤ y then L else y) ≤ L := by
    split
    · exact le_rfl
    · rename_i h; exact (not_le.1 h).le
  generalize (if L ≤ y then L else y) = z at *
  split
  · exact ⟨le_rfl, hL⟩
  · rename_i h; exact ⟨not_lt.1 h, h1⟩

theorem carry_le (W : CWorld) (v a b : ℕ) (hx : (W.veh v).x = 0) : W.carry v a b ≤
    max 0 (W.g.fl (W.g.fl ((W.veh v).moveRem * (W.link b).vmax) / (W.link a).vmax)) := by
  simp only [CWorld.carry]
  generalize W.g.fl (W.g.fl ((W.veh v).moveRem * (W.link b).vmax) / (W.link a).vmax) = z
  have h1 : ∀ y : ℚ, y ≤ z → (if (if (W.link b).len ≤ y then (W.link b).len else y) < 0 then 0
      else if (W.link b).len ≤ y then (W.link b).len else y) ≤ max 0 z := by
    intro y hy
    have : (if (W.link b).len ≤ y then (W.link b).len else y) ≤ z := by
      split
      · rename_i h; exact h.trans hy
      · exact hy
    generalize (if (W.link b).len ≤ y then (W.link b).len else y) = c at *
    split
    · exact le_max_left _ _
    · exact this.trans (le_max_right _ _)
  split
  · rename_i u hu
    apply h1
    generalize (if W.g.fl ((W.veh u).xOld - W.gap b) < (W.veh v).x then (W.veh v).x
      else W.g.fl ((W.veh u).xOld - W.gap b)) = c
    split
    · rename_i h; exact h.le
    · exact le_rfl
  · exact h1 z le_rfl

/-- The ways in which an action can change the vehicle `w`. -/
inductive VehCh (W : CWorld) (w : ℕ) (V' : CVeh) : Prop
  | same (h : V' = W.veh w)
  | ptr (l : ℕ) (q r : Option ℕ) (hl : OnRun W w l)
      (h : V' = { W.veh w with leader := q, follower := r })
  | nextGen (o : Option ℕ) (hs : (W.veh w).state = .wait) (h : V' = { W.veh w with next := o })
  | nextRun (l : ℕ) (o : Option ℕ) (hl : OnRun W w l) (hd : (W.link l).dst ≠ (W.veh w).dest)
      (ho : (W.node (W.link l).dst).outLinks = [] → o = none) (h : V' = { W.veh w with next := o })
  | depart (l ln : ℕ) (ld : Option ℕ) (hs : (W.veh w).state = .wait) (hl : l < W.g.nLinks)
      (hn : (W.veh w).next = some l) (ho : (W.link l).src = (W.veh w).orig)
      (h : V' = { W.veh w with
        state := .run, link := some l, x := 0, v := (W.link l).vmax, arrTimeLink := W.now
        visited := upd (W.veh w).visited (W.link l).src true, count := (W.veh w).count + 1
        lane := ln, leader := ld })
  | move (a b ln : ℕ) (ld : Option ℕ) (q : ℚ) (ha : OnRun W w a) (hb : b < W.g.nLinks)
      (hf : (W.veh w).flagWait = false) (hn : (W.veh w).next = some b)
      (he : (W.link a).dst = (W.link b).src)
      (h : V' = { W.veh w with
        link := some b, x := q, v := W.g.fl ((W.veh w).v + W.g.fl (q / W.g.deltaT)), moveRem := 0
        arrTimeLink := W.now, visited := upd (W.veh w).visited (W.link b).src true
        count := (W.veh w).count + 1, lane := ln, leader := ld, follower := none })
      (hq : CarryOK W w a b q) (hm : ∃ n, w ∈ (W.node n).incoming)
  | ends (l : ℕ) (q r : Option ℕ) (hl : OnRun W w l) (hf : (W.veh w).flagWait = true)
      (h : V'.noLog = CVeh.noLog { W.veh w with
        leader := q, follower := r, state := if (W.veh w).flagAbort then .abort else .ended
        arrTimeLink := W.now, arrivalTime := if (W.veh w).flagAbort then -1 else W.now
        travelTime := if (W.veh w).flagAbort then -1 else W.g.fl (W.now - (W.veh w).depTime)
        link := none, x := 0, flagWait := false })
  | log (hs : (W.veh w).state = .wait ∨ ∃ l, OnRun W w l) (h : V'.noLog = (W.veh w).noLog)
  | follow (l : ℕ) (p q : ℚ) (hl : OnRun W w l) (h : V' = { W.veh w with xNext := p, moveRem := q })
  | advance (l : ℕ) (hl : OnRun W w l) (h : V' = (W.advance w).veh w)
  | abort (l : ℕ) (hl : OnRun W w l) (hd : (W.link l).dst ≠ (W.veh w).dest)
      (ho : (W.node (W.link l).dst).outLinks = []) (ha : (W.veh w).tripAbort = true)
      (h : V' = { W.veh w with flagAbort := true, next := none })
  | flag (l : ℕ) (hl : OnRun W w l) (hc : (W.link l).dst = (W.veh w).dest ∨
        (W.node (W.link l).dst).outLinks = [] ∧ (W.veh w).flagAbort = true)
      (h : V' = { W.veh w with flagWait := true }) (hlg : Logged W w l)

/-- What an action of the stages `gen` and `trans` does to the vehicle `w`. -/
inductive EarlyCh (W : CWorld) (w : ℕ) (V' : CVeh) : Prop
  | same (h : V' = W.veh w)
  | ptr (l : ℕ) (q r : Option ℕ) (hl : OnRun W w l)
      (h : V' = { W.veh w with leader := q, follower := r })
  | nextGen (o : Option ℕ) (hs : (W.veh w).state = .wait) (h : V' = { W.veh w with next := o })
  | depart (l ln : ℕ) (ld : Option ℕ) (hs : (W.veh w).state = .wait) (hl : l < W.g.nLinks)
      (hn : (W.veh w).next = some l) (ho : (W.link l).src = (W.veh w).orig)
      (h : V' = { W.veh w with
        state := .run, link := some l, x := 0, v := (W.link l).vmax, arrTimeLink := W.now
        visited := upd (W.veh w).visited (W.link l).src true, count := (W.veh w).count + 1
        lane := ln, leader := ld })
  | move (a b ln : ℕ) (ld : Option ℕ) (q : ℚ) (ha : OnRun W w a) (hb : b < W.g.nLinks)
      (hf : (W.veh w).flagWait = false) (hn : (W.veh w).next = some b)
      (he : (W.link a).dst = (W.link b).src)
      (h : V' = { W.veh w with
        link := some b, x := q, v := W.g.fl ((W.veh w).v + W.g.fl (q / W.g.deltaT)), moveRem := 0
        arrTimeLink := W.now, visited := upd (W.veh w).visited (W.link b).src true
        count := (W.veh w).count + 1, lane := ln, leader := ld, follower := none })
      (hq : CarryOK W w a b q) (hm : ∃ n, w ∈ (W.node n).incoming)
  | ends (l : ℕ) (q r : Option ℕ) (hl : OnRun W w l) (hf : (W.veh w).flagWait = true)
      (h : V'.noLog = CVeh.noLog { W.veh w with
        leader := q, follower := r, state := if (W.veh w).flagAbort then .abort else .ended
        arrTimeLink := W.now, arrivalTime := if (W.veh w).flagAbort then -1 else W.now
        travelTime := if (W.veh w).flagAbort then -1 else W.g.fl (W.now - (W.veh w).depTime)
        link := none, x := 0, flagWait := false })

theorem EarlyCh.veh {W : CWorld} {w : ℕ} {V' : CVeh} (h : EarlyCh W w V') : VehCh W w V' := by
  cases h with
  | same h => exact .same h
  | ptr l q r hl h => exact .ptr l q r hl h
  | nextGen o hs h => exact .nextGen o hs h
  | depart l ln ld hs hl hn ho h => exact .depart l ln ld hs hl hn ho h
  | move a b ln ld q ha hb hf hn he h hq hm => exact .move a b ln ld q ha hb hf hn he h hq hm
  | ends l q r hl hf h => exact .ends l q r hl hf h

theorem logData_noLog (W : CWorld) (v : ℕ) (s : Option ℕ) (w : ℕ) :
    ((W.logData v s).veh w).noLog = (W.veh w).noLog := by
  have h1 : (W.logStats v).veh = W.veh := by
    unfold logStats; split <;> rfl
  unfold logData logPush
  split
  · rw [setV_veh]
    split
    · rename_i e; subst e; rw [← h1]; rfl
    · rw [h1]
  · rw [h1]

theorem logData_veh_of_ne (W : CWorld) (v w : ℕ) (s : Option ℕ) (h : w ≠ v) :
    (W.logData v s).veh w = W.veh w := by
  have h1 : (W.logStats v).veh = W.veh := by
    unfold logStats; split <;> rfl
  unfold logData logPush
  split
  · rw [setV_veh, if_neg h, h1]
  · rw [h1]

/-- Other vehicles than the one that ends its trip: at most the follower loses its leader. -/
theorem endTripOn_veh_ne (W : CWorld) (v l w : ℕ) (h : w ≠ v) :
    (W.endTripOn v l).veh w = { W.veh w with
      leader := if (W.veh v).follower = some w then none else (W.veh w).leader } := by
  simp only [CWorld.endTripOn]
  rw [logData_veh_of_ne _ _ _ _ h, setV_veh, if_neg h, detach_veh]
  rfl

theorem endTripOn_veh_self (W : CWorld) (v l : ℕ) :
    ((W.endTripOn v l).veh v).noLog = CVeh.noLog { W.veh v with
      leader := if (W.veh v).follower = some v then none else (W.veh v).leader
      state := if (W.veh v).flagAbort then .abort else .ended
      arrTimeLink := W.now, arrivalTime := if (W.veh v).flagAbort then -1 else W.now
      travelTime := if (W.veh v).flagAbort then -1 else W.g.fl (W.now - (W.veh v).depTime)
      link := none, x := 0, flagWait := false } := by
  simp only [CWorld.endTripOn]
  rw [logData_noLog, setV_veh, if_pos rfl, detach_veh]
  rfl

theorem endTripOn_ch {W : CWorld} {v l : ℕ} {y : Option ℕ} (i : Inv W none y) (hv : v ∈ (W.link l).vehs)
    (hf : (W.veh v).flagWait = true) (w : ℕ) : EarlyCh W w ((W.endTripOn v l).veh w) := by
  by_cases h : w = v
  · subst h
    exact .ends l _ _ (i.onRun hv) hf (endTripOn_veh_self W w l)
  · rw [endTripOn_veh_ne W v l w h]
    by_cases hw : (W.veh v).follower = some w
    · exact .ptr l _ (W.veh w).follower (i.onRun (i.follower_mem hv hw)) rfl
    · exact .same (by rw [if_neg hw])

theorem leave_link_vehs {W : CWorld} {n v a b : ℕ} (m : ℕ) :
    ((W.leave n v a b).link m).vehs = if m = a then (W.link a).vehs.tail else (W.link m).vehs := by
  rw [leave_link, setL_link]
  split
  · rename_i e; subst e
    simp only [setL_link]; split
    · rename_i e; subst e; rfl
    · rfl
  · simp only [setL_link]; split
    · rename_i e; subst e; rfl
    · rfl

/-- The vehicle that moves, before the front of the link it left is looked at. -/
theorem moved_veh_carry {W : CWorld} {n v a b : ℕ} {t : List ℕ} (i : Inv W none none)
    (hq : (W.link a).vehs = v :: t) : ∃ ln ld q, (W.moved n v a b).veh v = { W.veh v with
        link := some b, x := q, v := W.g.fl ((W.veh v).v + W.g.fl (q / W.g.deltaT)), moveRem := 0
        arrTimeLink := W.now, visited := upd (W.veh v).visited (W.link b).src true
        count := (W.veh v).count + 1, lane := ln, leader := ld, follower := none } ∧ CarryOK W v a b q := by
  have hva : v ∈ (W.link a).vehs := by rw [hq]; simp
  have hnd := i.nd a
  rw [hq] at hnd
  have hvb : v ∉ ((W.leave n v a b).link b).vehs := by
    rw [leave_link_vehs]
    split
    · rw [hq]; exact (List.nodup_cons.1 hnd).1
    · rename_i e; intro hm; exact e (i.uniq hm hva)
  simp only [CWorld.moved, place, setV_veh, if_pos]
  rw [attach_veh _ _ _ _ hvb]
  simp only [leave_veh, if_pos]
  rw [attach_g, leave_g]
  rw [if_neg (fun h => hvb (newLeader_mem h))]
  rw [detach_veh]
  refine ⟨_, _, _, rfl, fun hlen => ?_⟩
  have hx : (((W.leave n v a b).attach v b).veh v).x = 0 ∧
      (((W.leave n v a b).attach v b).veh v).moveRem = (W.veh v).moveRem := by
    rw [attach_veh _ _ _ _ hvb]
    simp only [leave_veh, if_pos]
    rw [detach_veh]
    exact ⟨trivial, rfl⟩
  have hl : ∀ m, (((W.leave n v a b).attach v b).link m).len = (W.link m).len ∧
      (((W.leave n v a b).attach v b).link m).vmax = (W.link m).vmax := fun m => by
    rw [attach_link, leave_link, setL_link]
    split
    · rename_i e; subst e
      simp only [setL_link]; split
      · rename_i e; subst e; exact ⟨rfl, rfl⟩
      · exact ⟨rfl, rfl⟩
    · simp only [setL_link]; split
      · rename_i e; subst e; exact ⟨rfl, rfl⟩
      · exact ⟨rfl, rfl⟩
  have h3 := carry_le ((W.leave n v a b).attach v b) v a b hx.1
  rw [hx.2, (hl a).2, (hl b).2, attach_g, leave_g] at h3
  have h4 : 0 ≤ ((W.leave n v a b).attach v b).carry v a b ∧
      ((W.leave n v a b).attach v b).carry v a b ≤ (((W.leave n v a b).attach v b).link b).len := by
    simp only [CWorld.carry]
    exact clamp_bounds (by rw [(hl b).1]; exact hlen) _
  exact ⟨h4.1, by rw [← (hl b).1]; exact h4.2, h3⟩

theorem moved_veh_self {W : CWorld} {n v a b : ℕ} {t : List ℕ} (i : Inv W none none)
    (hq : (W.link a).vehs = v :: t) : ∃ ln ld q, (W.moved n v a b).veh v = { W.veh v with
        link := some b, x := q, v := W.g.fl ((W.veh v).v + W.g.fl (q / W.g.deltaT)), moveRem := 0
        arrTimeLink := W.now, visited := upd (W.veh v).visited (W.link b).src true
        count := (W.veh v).count + 1, lane := ln, leader := ld, follower := none } := by
  obtain ⟨ln, ld, q, h, _⟩ := moved_veh_carry (n := n) (b := b) i hq
  exact ⟨ln, ld, q, h⟩

theorem moved_veh_other {W : CWorld} {n v a b : ℕ} {t : List ℕ} (i : Inv W none none)
    (hq : (W.link a).vehs = v :: t) (w : ℕ) (h : w ≠ v) : (W.moved n v a b).veh w = { W.veh w with
      leader := if (W.veh v).follower = some w then none else (W.veh w).leader
      follower := if (W.leave n v a b).newLeader b = some w then some v else (W.veh w).follower } := by
  have hva : v ∈ (W.link a).vehs := by rw [hq]; simp
  have hnd := i.nd a
  rw [hq] at hnd
  have hvb : v ∉ ((W.leave n v a b).link b).vehs := by
    rw [leave_link_vehs]
    split
    · rw [hq]; exact (List.nodup_cons.1 hnd).1
    · rename_i e; intro hm; exact e (i.uniq hm hva)
  simp only [CWorld.moved, place, setV_veh, if_neg h]
  rw [attach_veh _ _ _ _ hvb]
  simp only [leave_veh, if_neg h]
  rw [detach_veh]

theorem moved_ch_ne {W : CWorld} {n v a b : ℕ} {t : List ℕ} (i : Inv W none none)
    (hq : (W.link a).vehs = v :: t) (w : ℕ) (h : w ≠ v) :
    (W.moved n v a b).veh w = W.veh w ∨ (∃ l, w ∈ (W.link l).vehs) ∧ ∃ q r,
      (W.moved n v a b).veh w = { W.veh w with leader := q, follower := r } := by
  have hva : v ∈ (W.link a).vehs := by rw [hq]; simp
  have e := moved_veh_other (n := n) (b := b) i hq w h
  by_cases h1 : (W.veh v).follower = some w
  · exact Or.inr ⟨⟨a, i.follower_mem hva h1⟩, _, _, e⟩
  · by_cases h2 : (W.leave n v a b).newLeader b = some w
    · refine Or.inr ⟨⟨b, ?_⟩, _, _, e⟩
      have := newLeader_mem h2
      rw [leave_link_vehs] at this
      split at this
      · rename_i eb; subst eb; exact List.mem_of_mem_tail this
      · exact this
    · left; rw [e, if_neg h1, if_neg h2]

theorem moveVeh_ch {W : CWorld} {n v a b : ℕ} {t : List ℕ} (k : AtNode n W)
    (ha : a ∈ (W.node n).inLinks) (hq : (W.link a).vehs = v :: t) (hb : b ∈ (W.node n).outLinks)
    (hn : (W.veh v).next = some b) (hf : (W.veh v).flagWait = false) (hm : v ∈ (W.node n).incoming) (w : ℕ) :
    EarlyCh W w ((W.moveVeh n v a b).veh w) := by
  have i := k.inv
  have hva : v ∈ (W.link a).vehs := by rw [hq]; simp
  have hbl := (i.outL n b).1 hb
  have hal := (i.inL n a).1 ha
  have hv0 : (W.moveVeh n v a b).veh = ((W.moved n v a b).endFront a).1.veh := rfl
  rw [hv0]
  obtain ⟨ln, ld, q, ev, cq⟩ := moved_veh_carry (n := n) (b := b) i hq
  rcases moved_endFront (n := n) (b := b) i hq with e | ⟨h, t', e1, hne, hfh, e⟩
  · rw [e]
    by_cases hw : w = v
    · subst hw
      exact .move a b ln ld q (i.onRun hva) hbl.1 hf hn (hal.2.trans hbl.2.symm) ev cq ⟨n, hm⟩
    · rcases moved_ch_ne (n := n) (b := b) i hq w hw with h | ⟨⟨l, hl⟩, p, r, h⟩
      · exact .same h
      · exact .ptr l p r (i.onRun hl) h
  · rw [e]
    have hha : h ∈ (W.link a).vehs := by rw [hq, e1]; simp
    by_cases hwh : w = h
    · subst hwh
      have hs := endTripOn_veh_self (W.moved n v a b) w a
      obtain ⟨p, r, hpr⟩ : ∃ p r, (W.moved n v a b).veh w = { W.veh w with leader := p, follower := r } := by
        rcases moved_ch_ne (n := n) (b := b) i hq w hne with h | ⟨_, p, r, h⟩
        · exact ⟨(W.veh w).leader, (W.veh w).follower, h⟩
        · exact ⟨p, r, h⟩
      have hnow : (W.moved n v a b).now = W.now := by unfold now; rw [moved_g]
      rw [hpr, hnow, moved_g] at hs
      exact .ends a _ _ (i.onRun hha) hfh hs
    · rw [endTripOn_veh_ne _ _ _ _ hwh]
      by_cases hw : w = v
      · subst hw
        rw [ev]
        exact .move a b ln _ q (i.onRun hva) hbl.1 hf hn (hal.2.trans hbl.2.symm) rfl cq ⟨n, hm⟩
      · rcases moved_ch_ne (n := n) (b := b) i hq w hw with h1 | ⟨⟨l, hl⟩, p, r, h1⟩
        · by_cases hfo : ((W.moved n v a b).veh h).follower = some w
          · rw [h1, if_pos hfo]
            -- the follower of `h` before or after the move is on a link
            have : ∃ l, w ∈ (W.link l).vehs := by
              rw [moved_veh_other (n := n) (b := b) i hq h hne] at hfo
              simp only at hfo
              split at hfo
              · exact absurd (Option.some.inj hfo).symm hw
              · exact ⟨a, i.follower_mem hha hfo⟩
            obtain ⟨l, hl⟩ := this
            exact .ptr l _ (W.veh w).follower (i.onRun hl) rfl
          · rw [h1, if_neg hfo]; exact .same rfl
        · rw [h1]
          exact .ptr l _ r (i.onRun hl) rfl

theorem depart_ch {W : CWorld} {n v l : ℕ} {t : List ℕ} (i : Inv W none none)
    (hq : (W.node n).genQ = v :: t) (hl : l ∈ (W.node n).outLinks) (hn : (W.veh v).next = some l)
    (w : ℕ) : EarlyCh W w ((W.depart n v l).veh w) := by
  obtain ⟨hvn, hst, hor⟩ := (i.gen n v).1 (by rw [hq]; simp)
  have hlo := (i.outL n l).1 hl
  have hnot : ∀ m, v ∉ (W.link m).vehs := fun m hm => by
    have := (i.mem m v hm).2.1; rw [hst] at this; simp at this
  simp only [CWorld.depart, setL_veh]
  rw [attach_veh _ _ _ _ (by simpa using hnot l)]
  simp only [setV_veh, setN_veh]
  by_cases hw : w = v
  · subst hw
    simp only [if_pos]
    rw [if_neg (fun h => by have := newLeader_mem h; exact hnot l (by simpa using this))]
    exact .depart l _ _ hst hlo.1 hn (hlo.2.trans hor.symm) rfl
  · simp only [if_neg hw]
    split
    · rename_i h
      exact .ptr l _ _ (i.onRun (by simpa using newLeader_mem h)) rfl
    · exact .same rfl

theorem carFollow_ch {W : CWorld} {v l : ℕ} (i : Inv W none none) (hv : v ∈ (W.link l).vehs) (w : ℕ) :
    VehCh W w ((W.carFollow v).veh w) := by
  unfold carFollow
  rw [(i.mem l v hv).1]
  simp only
  split
  · rw [setV_veh]; split
    · rename_i e; subst e; exact .follow l _ _ (i.onRun hv) rfl
    · exact .same rfl
  · rw [setV_veh]; split
    · rename_i e; subst e; exact .follow l _ (W.veh w).moveRem (i.onRun hv) rfl
    · exact .same rfl

/-- Every action changes every vehicle in one of the ways of `VehCh`. -/
theorem Act.veh {s : Stage} {W W' : CWorld} (h : Act s W W') (w : ℕ) : VehCh W w (W'.veh w) := by
  cases h with
  | genErr _ n e => exact .same rfl
  | choose _ n v t o rng i hi hq hc =>
    rw [setV_veh]; split
    · rename_i e; subst e
      exact .nextGen o ((i.gen n w).1 (by rw [hq]; simp)).2.1 rfl
    · exact .same rfl
  | depart _ n v l t i hi hq hl hn hc => exact (depart_ch i hq hl hn w).veh
  | signal _ n => exact .same rfl
  | flow _ n => exact .same rfl
  | collect _ n i hi => exact .same (by rw [collect_veh])
  | draw _ n rng => exact .same rfl
  | move _ n v a b t k ha hq hb hn hf hc hr ho hs hm => exact (moveVeh_ch k ha hq hb hn hf hm w).veh
  | endFront _ v l t i hq hna hni hf => exact (endTripOn_ch i (by rw [hq]; simp) hf w).veh
  | finish _ n => exact .same rfl
  | follow _ v l i hv => exact carFollow_ch i hv w
  | log _ v l s i hv =>
    by_cases e : w = v
    · subst e; exact .log (Or.inr ⟨l, i.onRun hv⟩) (logData_noLog W w s w)
    · exact .same (logData_veh_of_ne W v w s e)
  | advance _ v l i hv =>
    by_cases e : w = v
    · subst e; exact .advance l (i.onRun hv) rfl
    · exact .same (by unfold CWorld.advance; rw [setV_veh, if_neg e])
  | abort _ v l i hv hd ho ha =>
    rw [setV_veh]; split
    · rename_i e; subst e; exact .abort l (i.onRun hv) hd ho ha rfl
    · exact .same rfl
  | flag _ v l i hv hc hlg =>
    rw [setV_veh]; split
    · rename_i e; subst e; exact .flag l (i.onRun hv) hc rfl hlg
    · exact .same rfl
  | endRun _ v l t i hq hna hi hf => exact (endTripOn_ch i (by rw [hq]; simp) hf w).veh
  | reqErr _ l e => exact .same rfl
  | req _ v l o rng i hv hd hc =>
    rw [setL_veh, setV_veh]; split
    · rename_i e; subst e
      refine .nextRun l o (i.onRun hv) hd (fun hnil => ?_) rfl
      rw [hnil, chooseNext_nil] at hc
      exact (congrArg Prod.fst (Except.ok.inj hc)).symm
    · exact .same rfl
  | waitLog _ n v i hv =>
    by_cases e : w = v
    · subst e; exact .log (Or.inl ((i.gen n w).1 hv).2.1) (logData_noLog W w none w)
    · exact .same (logData_veh_of_ne W v w none e)

/-- Every action of the first two stages changes every vehicle in one of the ways of `EarlyCh`. -/
theorem Act.early {s : Stage} {W W' : CWorld} (hs : s = .gen ∨ s = .trans) (h : Act s W W') (w : ℕ) :
    EarlyCh W w (W'.veh w) := by
  cases h with
  | genErr _ n e => exact .same rfl
  | choose _ n v t o rng i hi hq hc =>
    rw [setV_veh]; split
    · rename_i e; subst e
      exact .nextGen o ((i.gen n w).1 (by rw [hq]; simp)).2.1 rfl
    · exact .same rfl
  | depart _ n v l t i hi hq hl hn hc => exact depart_ch i hq hl hn w
  | signal _ n => exact .same rfl
  | flow _ n => exact .same rfl
  | collect _ n i hi => exact .same (by rw [collect_veh])
  | draw _ n rng => exact .same rfl
  | move _ n v a b t k ha hq hb hn hf hc hr ho hs hm => exact moveVeh_ch k ha hq hb hn hf hm w
  | endFront _ v l t i hq hna hni hf => exact endTripOn_ch i (by rw [hq]; simp) hf w
  | finish _ n => exact .same rfl
  | _ => simp at hs

theorem Act.keep {s : Stage} {W W' : CWorld} (h : Act s W W') : Keep W W' := by
  cases h with
  | genErr _ n e => exact Keep.setN (fun _ => rfl)
  | choose _ n v t o rng i hi hq hc =>
    refine Keep.thenV (Keep.setN (fun _ => rfl)) (fun _ => rfl) ?_
    rw [setN_veh, ((i.gen n v).1 (by rw [hq]; simp)).2.1]; simp
  | depart _ n v l t i hi hq hl hn hc =>
    exact (i.depart hq ((i.outL n l).1 hl).1 (fun m hm => by rw [hi m] at hm; simp at hm)).2
  | signal _ n => simp only [CWorld.signalUpdate]; exact Keep.setN (fun _ => rfl)
  | flow _ n => exact Keep.setN (fun _ => rfl)
  | collect _ n i hi => exact Keep.collect W n
  | draw _ n rng => exact Keep.setN (fun _ => rfl)
  | move _ n v a b t k ha hq hb hn hf hc hr ho hs =>
    exact (k.moveVeh ha hq ((k.inv.outL n b).1 hb).1 hf).2.1
  | endFront _ v l t i hq hna hni hf =>
    exact Keep.endTripOn (i.run_ne_home (l := l) (by rw [hq]; simp))
      (fun u hu => i.run_ne_home (i.follower_mem (l := l) (by rw [hq]; simp) hu))
  | finish _ n => exact Keep.setN (fun _ => rfl)
  | follow _ v l i hv => exact Keep.carFollow (i.run_ne_home hv)
  | log _ v l s i hv => exact Keep.logData W v s (i.run_ne_home hv)
  | advance _ v l i hv => exact Keep.setV (fun _ => rfl) (i.run_ne_home hv)
  | abort _ v l i hv hd ho ha => exact Keep.setV (fun _ => rfl) (i.run_ne_home hv)
  | flag _ v l i hv hc => exact Keep.setV (fun _ => rfl) (i.run_ne_home hv)
  | endRun _ v l t i hq hna hi hf =>
    exact Keep.endTripOn (i.run_ne_home (l := l) (by rw [hq]; simp))
      (fun u hu => i.run_ne_home (i.follower_mem (l := l) (by rw [hq]; simp) hu))
  | reqErr _ l e => exact Keep.setL (fun _ => rfl)
  | req _ v l o rng i hv hd hc =>
    exact Keep.thenL (Keep.setV (fun _ => rfl) (i.run_ne_home hv)) (fun _ => rfl)
  | waitLog _ n v i hv =>
    exact Keep.logData W v none (by rw [((i.gen n v).1 hv).2.1]; simp)

end UX.Cpp
