import Verif.Spec.CppPace
import Verif.Proofs.CppKinStep
import Verif.Proofs.CppArr

/-!
# No vehicle is faster than the free flow: one action
-/

namespace UX.Cpp
open CWorld Relation Spec

/-! ## Times and logs -/

theorem freeTime_nonneg {W : CWorld} (p : Roads W) {l : ℕ} (hl : l < W.g.nLinks) : 0 ≤ freeTime W l := by
  obtain ⟨a, b⟩ := p.link l hl
  exact div_nonneg (by linarith) a.le

/-- The time that `V` has spent driving before link `l` at the least. -/
def base (W : CWorld) (V : CVeh) (l : ℕ) : ℚ :=
  freeTimes W V.trace - if V.seen = some l then freeTime W l else 0

theorem freeTimes_keep {W W' : CWorld} (k : SamePar W W') : freeTime W' = freeTime W ∧ freeTimes W' = freeTimes W := by
  have h : freeTime W' = freeTime W := by
    funext l; unfold freeTime; rw [k.len, k.vmax]
  refine ⟨h, ?_⟩
  funext ls; unfold freeTimes; rw [h]

theorem base_keep {W W' : CWorld} (k : SamePar W W') (V : CVeh) (l : ℕ) : base W' V l = base W V l := by
  unfold base; rw [(freeTimes_keep k).1, (freeTimes_keep k).2]

theorem base_log {W : CWorld} {V V' : CVeh} (h : V'.log = V.log) (l : ℕ) : base W V' l = base W V l := by
  unfold base CVeh.trace CVeh.seen; rw [h]

theorem base_le {W : CWorld} {V : CVeh} {l : ℕ} (h : 0 ≤ freeTime W l) :
    base W V l ≤ freeTimes W V.trace ∧ freeTimes W V.trace ≤ base W V l + freeTime W l := by
  unfold base; split <;> constructor <;> linarith

theorem freeTimes_snoc (W : CWorld) (ls : List ℕ) (l : ℕ) : freeTimes W (ls ++ [l]) = freeTimes W ls + freeTime W l := by
  unfold freeTimes; simp

/-- A log entry without a link, or a vehicle that is not on a link. -/
theorem LogCh.fresh {V V' : CVeh} (h : LogCh V V') (hs : V.state ≠ .run) :
    V'.trace = V.trace ∧ V'.seen = V.seen := by
  rcases h with h | ⟨e, h, h'⟩
  · unfold CVeh.trace CVeh.seen; rw [h]; exact ⟨rfl, rfl⟩
  · have hn : e.link = none := h'.resolve_right (fun h => hs h.1)
    unfold CVeh.trace CVeh.seen
    rw [h, List.map_append, List.map_cons, hn, List.map_nil, names_none, lastLink_snoc]
    exact ⟨rfl, rfl⟩

theorem LogCh.base {W : CWorld} {V V' : CVeh} (h : LogCh V V') {l : ℕ} (hl : V.link = some l) :
    base W V' l = base W V l := by
  rcases h with h | ⟨e, h, h'⟩
  · exact base_log h l
  · rcases h' with hn | ⟨_, hn⟩
    · unfold UX.Cpp.base CVeh.trace CVeh.seen
      rw [h, List.map_append, List.map_cons, hn, List.map_nil, names_none, lastLink_snoc]
    · rw [hl] at hn
      unfold UX.Cpp.base CVeh.trace CVeh.seen
      rw [h, List.map_append, List.map_cons, hn, List.map_nil, names_some, lastLink_snoc]
      simp only [if_true]
      split
      · rw [List.append_nil]
      · rw [freeTimes_snoc]; ring

/-! ## A vehicle before the car following -/

/-- The vehicle `V` is not ahead of the free flow at the beginning `c` of a time step, one step of which it has
waited; `r` says that it waits in a transfer buffer. -/
structure Pace (W : CWorld) (c : ℚ) (r : Prop) (V : CVeh) : Prop where
  fresh : V.state = .home ∨ V.state = .wait →
    V.trace = [] ∧ V.seen = none ∧ V.moveRem = 0 ∧ V.flagWait = false ∧ V.link = none
  wait : V.state = .wait → V.depTime + W.g.deltaT ≤ c
  on : V.state = .run → ∀ l, V.link = some l → l < W.g.nLinks ∧ 0 ≤ V.x ∧ V.x ≤ (W.link l).len ∧ 0 ≤ V.moveRem ∧
    (V.moveRem ≠ 0 → V.x = (W.link l).len) ∧
    base W V l + (V.x + V.moveRem) / (W.link l).vmax ≤ c - W.g.deltaT - V.depTime
  tip : V.flagWait = true ∨ r → ∀ l, V.link = some l → (W.link l).len - 1 / 1000000000 ≤ V.x
  fin : V.state = .ended → freeTimes W V.trace ≤ V.travelTime

theorem Pace.keep {W W' : CWorld} (k : SamePar W W') (hd : W'.g.deltaT = W.g.deltaT) (hn : W'.g.nLinks = W.g.nLinks)
    {c : ℚ} {r : Prop} {V : CVeh} (h : Pace W c r V) : Pace W' c r V := by
  refine ⟨h.fresh, by rw [hd]; exact h.wait, fun hs l hl => ?_, fun hf l hl => ?_, fun hs => ?_⟩
  · rw [base_keep k, k.len, k.vmax, hn, hd]; exact h.on hs l hl
  · rw [k.len]; exact h.tip hf l hl
  · rw [(freeTimes_keep k).2]; exact h.fin hs

/-- The fields that matter. -/
def CVeh.pace (V : CVeh) := (V.state, V.link, V.x, V.moveRem, V.flagWait, V.depTime, V.travelTime)

theorem Pace.over {W : CWorld} {c : ℚ} {r r' : Prop} {V V' : CVeh} (h : Pace W c r V) (hr : r' → r)
    (hp : V'.pace = V.pace) (hl : LogCh V V') : Pace W c r' V' := by
  simp only [CVeh.pace, Prod.mk.injEq] at hp
  obtain ⟨h1, h2, h3, h4, h5, h6, h7⟩ := hp
  refine ⟨fun hs => ?_, fun hs => ?_, fun hs l hl' => ?_, fun hf l hl' => ?_, fun hs => ?_⟩
  · rw [h1] at hs
    obtain ⟨a, b⟩ := hl.fresh (by rcases hs with h | h <;> rw [h] <;> simp)
    rw [a, b, h4, h5, h2]; exact h.fresh hs
  · rw [h6]; exact h.wait (h1 ▸ hs)
  · rw [h2] at hl'
    rw [hl.base hl', h3, h4, h6]; exact h.on (h1 ▸ hs) l hl'
  · rw [h2] at hl'
    rw [h3]; exact h.tip (by rw [h5] at hf; exact hf.imp id hr) l hl'
  · rw [h1] at hs
    rw [(hl.fresh (by rw [hs]; simp)).1, h7]; exact h.fin hs

/-- A trip ends. -/
theorem Pace.ends {W : CWorld} {c : ℚ} {V V' : CVeh} {l : ℕ} (p : Roads W)
    (hl : V.link = some l) (hb : base W V l + V.x / (W.link l).vmax ≤ c - V.depTime)
    (hlt : l < W.g.nLinks) (ht : (W.link l).len - 1 / 1000000000 ≤ V.x)
    (hlog : LogCh V V') : freeTimes W V'.trace ≤ c - V.depTime := by
  obtain ⟨hu, he⟩ := p.link l hlt
  have h1 := (base_le (V := V') (freeTime_nonneg p hlt)).2
  rw [hlog.base hl] at h1
  have h2 : freeTime W l ≤ V.x / (W.link l).vmax := by
    unfold freeTime
    exact div_le_div_of_nonneg_right ht hu.le
  linarith

theorem Pace.early {W : CWorld} {r r' : Prop} {w : ℕ} {V' : CVeh} (p : Roads W) (h : Pace W W.now r (W.veh w))
    (hc : EarlyCh W w V') (hl : LogCh (W.veh w) V') (hr : r' → r) (hn : r' → V'.count = (W.veh w).count)
    (hreq : (∃ n, w ∈ (W.node n).incoming) → r) :
    Pace W W.now r' V' := by
  cases hc with
  | same e => subst e; exact h.over hr rfl (Or.inl rfl)
  | ptr l q s ho e => subst e; exact h.over hr rfl (Or.inl rfl)
  | nextGen o hs e => subst e; exact h.over hr rfl (Or.inl rfl)
  | depart l ln ld hs hlt hnx ho e =>
    obtain ⟨f1, f2, f3, f4, f5⟩ := h.fresh (Or.inr hs)
    have hno : ¬ r' := fun hr' => by have := hn hr'; rw [e] at this; simp at this
    have eT : V'.trace = (W.veh w).trace := by rw [e]; rfl
    have eS : V'.seen = (W.veh w).seen := by rw [e]; rfl
    subst e
    refine ⟨fun hs => by simp at hs, fun hs => by simp at hs, fun _ m hm => ?_, fun hf m hm => ?_,
      fun hs => by simp at hs⟩
    · obtain rfl := Option.some.inj hm
      obtain ⟨hu, he⟩ := p.link l hlt
      refine ⟨hlt, le_rfl, ?_, ?_, fun h => absurd f3 h, ?_⟩
      · show 0 ≤ (W.link l).len; linarith
      · exact le_of_eq f3.symm
      · unfold base
        rw [eT, eS, f1, f2]
        simp only [f3]
        have := h.wait hs
        simp only [freeTimes, List.map_nil, List.sum_nil, reduceCtorEq, if_false]
        norm_num
        linarith
    · rcases hf with hf | hf
      · have : (W.veh w).flagWait = true := hf
        rw [f4] at this; simp at this
      · exact absurd hf hno
  | move a b ln ld q ha hb hf hnx he e hq hm =>
    have hno : ¬ r' := fun hr' => by have := hn hr'; rw [e] at this; simp at this
    have eb : base W V' b = base W (W.veh w) b := base_log (by rw [e]) b
    have hst := ha.state
    obtain ⟨o1, o2, o3, o4, o5, o6⟩ := h.on hst a ha.link
    have ht := h.tip (Or.inr (hreq hm)) a ha.link
    obtain ⟨hu, hlen⟩ := p.link a ha.lt
    obtain ⟨hub, hlenb⟩ := p.link b hb
    obtain ⟨q1, q2, q3⟩ := hq (by linarith)
    subst e
    refine ⟨fun hs => ?_, fun hs => ?_, fun _ m hm => ?_, fun hf' m hm => ?_, fun hs => ?_⟩
    · have : (W.veh w).state = .home ∨ (W.veh w).state = .wait := hs
      rw [hst] at this; simp at this
    · have : (W.veh w).state = .wait := hs
      rw [hst] at this; simp at this
    · obtain rfl := Option.some.inj hm
      refine ⟨hb, q1, q2, le_rfl, fun h => absurd rfl h, ?_⟩
      rw [eb]
      simp only [add_zero]
      have b1 := (base_le (V := W.veh w) (freeTime_nonneg p hb)).1
      have b2 := (base_le (V := W.veh w) (freeTime_nonneg p ha.lt)).2
      have h2 : freeTime W a ≤ (W.veh w).x / (W.link a).vmax := by
        unfold freeTime
        exact div_le_div_of_nonneg_right ht hu.le
      have h3 : q / (W.link b).vmax ≤ (W.veh w).moveRem / (W.link a).vmax := by
        rw [p.fl] at q3
        simp only [id] at q3
        rw [max_eq_right (div_nonneg (mul_nonneg o4 hub.le) hu.le)] at q3
        rw [div_le_iff₀ hub]
        calc q ≤ _ := q3
          _ = _ := by ring
      rw [add_div] at o6
      show base W (W.veh w) b + q / (W.link b).vmax ≤ W.now - W.g.deltaT - (W.veh w).depTime
      linarith
    · rcases hf' with hf' | hf'
      · have : (W.veh w).flagWait = true := hf'
        rw [hf] at this; simp at this
      · exact absurd hf' hno
    · have : (W.veh w).state = .ended := hs
      rw [hst] at this; simp at this
  | ends l q s ho hf e =>
    have hst := ho.state
    have e1 : V'.state = if (W.veh w).flagAbort then .abort else .ended := congrArg CVeh.state e
    have e2 : V'.link = none := congrArg CVeh.link e
    have e3 : V'.travelTime = if (W.veh w).flagAbort then -1 else W.g.fl (W.now - (W.veh w).depTime) :=
      congrArg CVeh.travelTime e
    have hnot : V'.state = .abort ∨ V'.state = .ended := by
      rw [e1]; split
      · exact Or.inl rfl
      · exact Or.inr rfl
    refine ⟨fun hs => ?_, fun hs => ?_, fun hs => ?_, fun _ m hm => ?_, fun hs => ?_⟩
    · rcases hnot with h | h <;> rw [h] at hs <;> simp at hs
    · rcases hnot with h | h <;> rw [h] at hs <;> simp at hs
    · rcases hnot with h | h <;> rw [h] at hs <;> simp at hs
    · rw [e2] at hm; simp at hm
    · have hab : (W.veh w).flagAbort ≠ true := fun hc => by
        rw [e1, hc] at hs; simp at hs
      rw [e3, if_neg hab, p.fl]
      obtain ⟨o1, o2, o3, o4, o5, o6⟩ := h.on hst l ho.link
      refine Pace.ends p ho.link ?_ ho.lt (h.tip (Or.inl hf) l ho.link) hl
      · have := p.dt
        have : (W.veh w).x / (W.link l).vmax ≤ ((W.veh w).x + (W.veh w).moveRem) / (W.link l).vmax :=
          div_le_div_of_nonneg_right (by linarith) (p.link l ho.lt).1.le
        linarith

/-- Transfer buffers in the first two stages: a vehicle that has just entered a link is in none. -/
theorem Act.reqEarly {s : Stage} {W W' : CWorld} (hs : s = .gen ∨ s = .trans) (a : Act s W W') (w : ℕ)
    (h : Req W' w) : Req W w ∧ (W'.veh w).count = (W.veh w).count := by
  cases a with
  | genErr _ n e => exact ⟨req_setN (by intro N hN; exact hN) h, rfl⟩
  | choose _ n v t o rng i hi hq hc =>
    refine ⟨req_setN (n := n) (f := fun N => { N with rng := rng }) (by intro N hN; exact hN) h, ?_⟩
    rw [setV_veh]; split
    · rename_i e; subst e; rfl
    · rfl
  | depart _ n v l t i hi hq hl hn hc hch =>
    obtain ⟨hvn, hst, hor⟩ := (i.gen n v).1 (by rw [hq]; simp)
    have hnot : ∀ m, v ∉ (W.link m).vehs := fun m hm => by
      have := (i.mem m v hm).2.1; rw [hst] at this; simp at this
    refine ⟨req_depart h, ?_⟩
    by_cases e : w = v
    · subst e; exact absurd (req_depart h) (wait_not_req i hi hst)
    · simp only [CWorld.depart, setL_veh]
      rw [attach_veh _ _ _ _ (by simpa using hnot l)]
      simp only [setV_veh, setN_veh, if_neg e]
  | signal _ n =>
    refine ⟨Req.of_eq (W' := W.signalUpdate n) (fun _ => rfl) (fun m hm => ?_) h, rfl⟩
    unfold CWorld.signalUpdate at hm
    revert hm
    simp only [setN_node]
    split
    · rename_i e; subst e; exact fun hm => hm
    · exact fun hm => hm
  | flow _ n =>
    refine ⟨Req.of_eq (W' := W.flowUpdate n) (fun _ => rfl) (fun m hm => ?_) h, rfl⟩
    unfold CWorld.flowUpdate at hm
    revert hm
    simp only [setN_node]
    split
    · rename_i e; subst e; exact fun hm => hm
    · exact fun hm => hm
  | collect _ n i hi => exact ⟨collect_req h, by rw [collect_veh]⟩
  | draw _ n rng => exact ⟨req_setN (by intro N hN; exact hN) h, rfl⟩
  | move _ n v a b t k ha hq hb hn hf hc hr ho hs hm =>
    obtain ⟨h1, h2⟩ := req_move k ha hq h
    refine ⟨h1, ?_⟩
    have hv0 : (W.moveVeh n v a b).veh = ((W.moved n v a b).endFront a).1.veh := rfl
    have hm' : ((W.moved n v a b).veh w).count = (W.veh w).count := by
      rw [moved_veh_other (n := n) (b := b) k.inv hq w h2]
    rw [hv0]
    rcases moved_endFront (n := n) (b := b) k.inv hq with e' | ⟨h', t', e1, hne, hfh, e'⟩
    · rw [e']; exact hm'
    · rw [e']
      by_cases e2 : w = h'
      · subst e2
        have a := congrArg CVeh.count (endTripOn_veh_self (W.moved n v a b) w a)
        exact Eq.trans a hm'
      · rw [endTripOn_veh_ne _ _ _ _ e2]; exact hm'
  | endFront _ v l t i hq hna hni hf =>
    refine ⟨req_endTripOn h, ?_⟩
    by_cases e : w = v
    · subst e
      have a := congrArg CVeh.count (endTripOn_veh_self W w l)
      exact a
    · rw [endTripOn_veh_ne _ _ _ _ e]
  | finish _ n => exact ⟨req_setN (by intro N hN; simp at hN) h, rfl⟩
  | _ => simp at hs

theorem Spec.Roads.keep {W W' : CWorld} (p : Roads W) (k : Keep W W') : Roads W' := by
  refine ⟨by rw [k.g]; exact p.fl, by rw [k.g]; exact p.dt, fun l hl => ?_⟩
  rw [k.samePar.len, k.samePar.vmax]
  exact p.link l (by rw [← k.g]; exact hl)

theorem Keep.nowEq {W W' : CWorld} (k : Keep W W') : W'.now = W.now := by
  unfold CWorld.now; rw [k.g]

theorem Acts.early {s : Stage} {W W' : CWorld} (hs : s = .gen ∨ s = .trans) (a : Acts s W W') (p : Roads W) {w : ℕ}
    (h : Pace W W.now (Req W w) (W.veh w)) : Pace W' W'.now (Req W' w) (W'.veh w) := by
  induction a with
  | refl => exact h
  | tail b c ih =>
    have k := c.keep
    have hnow := k.nowEq
    have q := ih.early (p.keep (Acts.keep b)) (c.early hs w) (c.logs w) (fun h => (c.reqEarly hs w h).1)
      (fun h => (c.reqEarly hs w h).2) (fun h => Or.inr h)
    rw [hnow]
    exact q.keep k.samePar (by rw [k.g]) (by rw [k.g])

/-! ## Car following -/

/-- The part of the movement that `car_follow_newell` leaves for the next link. -/
def CWorld.rest (W : CWorld) (v l : ℕ) : ℚ :=
  if (W.link l).len < W.followPos v l then W.g.fl (W.followPos v l - (W.link l).len) else (W.veh v).moveRem

/-- `V` is `W` with targets and rests; they are known for the vehicles in `D`. -/
structure Aimed (W V : CWorld) (D : ℕ → Prop) : Prop where
  placed : Placed W V
  veh : ∀ w, ∃ p q, V.veh w = { W.veh w with xNext := p, moveRem := q } ∧
    (q = (W.veh w).moveRem ∨ ∃ l, (W.veh w).link = some l ∧ q = W.rest w l) ∧
    (D w → ∀ l, (W.veh w).link = some l → p = W.aim w l ∧ q = W.rest w l)

theorem Aimed.carFollow {W V : CWorld} {D : ℕ → Prop} (h : Aimed W V D) (v : ℕ) :
    Aimed W (V.carFollow v) (fun w => D w ∨ w = v) := by
  refine ⟨carFollow_placed h.placed v, fun w => ?_⟩
  obtain ⟨p, q, e, hq, hd⟩ := h.veh w
  by_cases hw : w = v
  · subst hw
    cases hl : (W.veh w).link with
    | none =>
      refine ⟨p, q, ?_, hq.imp id (fun ⟨l, h, h'⟩ => by rw [hl] at h; simp at h), fun _ l h => by simp at h⟩
      have hl' : (V.veh w).link = none := by rw [e]; exact hl
      unfold CWorld.carFollow
      rw [hl']
      exact e
    | some l =>
      have hl' : (V.veh w).link = some l := by rw [e]; exact hl
      have hf := h.placed.follow w l
      have hr : q = (W.veh w).moveRem ∨ q = W.rest w l := hq.imp id (fun ⟨m, h, h'⟩ => by
        rw [hl] at h; obtain rfl := Option.some.inj h; exact h')
      have ev : (V.carFollow w).veh w = { W.veh w with xNext := W.aim w l, moveRem := W.rest w l } := by
        unfold CWorld.carFollow
        rw [hl']
        simp only [hf, h.placed.link, h.placed.g]
        unfold CWorld.aim
        by_cases hlen : (W.link l).len < W.followPos w l
        · rw [if_pos hlen, if_pos hlen, setV_veh, if_pos rfl, e]
          unfold CWorld.rest
          rw [if_pos hlen]
        · rw [if_neg hlen, if_neg hlen, setV_veh, if_pos rfl, e]
          unfold CWorld.rest at hr ⊢
          rw [if_neg hlen] at hr ⊢
          rw [show q = (W.veh w).moveRem from hr.elim id id]
      refine ⟨_, _, ev, Or.inr ⟨l, rfl, rfl⟩, fun _ m hm => ?_⟩
      obtain rfl := Option.some.inj hm
      exact ⟨rfl, rfl⟩
  · refine ⟨p, q, ?_, hq, fun hD l hl => hd (hD.resolve_right hw) l hl⟩
    rw [← e]
    unfold CWorld.carFollow
    split
    · rfl
    · split <;> rw [setV_veh, if_neg hw]

theorem Aimed.weaken {W V : CWorld} {D D' : ℕ → Prop} (h : Aimed W V D) (hd : ∀ w, D' w → D w) : Aimed W V D' :=
  ⟨h.placed, fun w => by
    obtain ⟨p, q, e, hq, hd'⟩ := h.veh w
    exact ⟨p, q, e, hq, fun hD => hd' (hd w hD)⟩⟩

theorem Aimed.fold {W V : CWorld} {D : ℕ → Prop} (xs : List ℕ) (h : Aimed W V D) :
    Aimed W (xs.foldl CWorld.carFollow V) (fun w => D w ∨ w ∈ xs) := by
  induction xs generalizing V D with
  | nil => exact h.weaken (by simp)
  | cons v t ih =>
    refine (ih (h.carFollow v)).weaken (fun w hw => ?_)
    rcases hw with hw | hw
    · exact Or.inl (Or.inl hw)
    · rcases List.mem_cons.1 hw with hw | hw
      · exact Or.inl (Or.inr hw)
      · exact Or.inr hw

theorem Aimed.passes {W V : CWorld} {D : ℕ → Prop} (ls : List ℕ) (h : Aimed W V D) :
    Aimed W (ls.foldl CWorld.followPass V) (fun w => D w ∨ ∃ m ∈ ls, w ∈ (W.link m).vehs) := by
  induction ls generalizing V D with
  | nil => exact h.weaken (by simp)
  | cons m t ih =>
    have h1 := h.fold (V.link m).vehs
    refine (ih (V := V.followPass m) h1).weaken (fun w hw => ?_)
    rcases hw with hw | ⟨m', hm', hw⟩
    · exact Or.inl (Or.inl hw)
    · rcases List.mem_cons.1 hm' with e | e
      · subst e
        exact Or.inl (Or.inr (by rw [h.placed.link]; exact hw))
      · exact Or.inr ⟨m', e, hw⟩

theorem Aimed.refl (W : CWorld) : Aimed W W (fun _ => False) :=
  ⟨Placed.refl W, fun w => ⟨(W.veh w).xNext, (W.veh w).moveRem, rfl, Or.inl rfl, fun h => h.elim⟩⟩

theorem followPos_le {W : CWorld} {v l : ℕ} (hx : 0 ≤ W.g.fl (W.g.fl ((W.link l).vmax * W.g.deltaT)))
    (hfl : W.g.fl = id) :
    (W.veh v).x ≤ W.followPos v l ∧ W.followPos v l ≤ (W.veh v).x + (W.link l).vmax * W.g.deltaT := by
  simp only [hfl, id] at hx
  unfold followPos
  extract_lets x0 x1
  have h0 : x0 = (W.veh v).x + (W.link l).vmax * W.g.deltaT := by
    show W.g.fl _ = _
    rw [hfl]; rfl
  have h1 : x1 ≤ x0 := by
    show (match (W.veh v).leader with | some u => _ | none => _) ≤ x0
    split
    · extract_lets c c'
      generalize c' = y
      split
      · rename_i h; exact h.le
      · exact le_rfl
    · exact le_rfl
  rw [← h0]
  generalize x1 = y at *
  split
  · rename_i h; exact ⟨le_rfl, by rw [h0]; linarith⟩
  · rename_i h; exact ⟨not_lt.1 h, h1⟩

/-! ## The RUN pass -/

/-- A vehicle in the RUN pass at time `c`: as `Pace`, and with a target it reaches within the time step. -/
structure Race (W : CWorld) (c : ℚ) (r : Prop) (V : CVeh) : Prop where
  fresh : V.state = .home ∨ V.state = .wait →
    V.trace = [] ∧ V.seen = none ∧ V.moveRem = 0 ∧ V.flagWait = false ∧ V.link = none
  wait : V.state = .wait → V.depTime + W.g.deltaT ≤ c
  on : V.state = .run → ∀ l, V.link = some l → l < W.g.nLinks ∧ 0 ≤ V.x ∧ V.x ≤ V.xNext ∧ V.xNext ≤ (W.link l).len ∧
    0 ≤ V.moveRem ∧ (V.moveRem ≠ 0 → V.xNext = (W.link l).len) ∧
    base W V l + (V.xNext + V.moveRem) / (W.link l).vmax ≤ c - V.depTime
  tip : V.flagWait = true ∨ r → ∀ l, V.link = some l → (W.link l).len - 1 / 1000000000 ≤ V.x
  fin : V.state = .ended → freeTimes W V.trace ≤ V.travelTime

theorem Race.keep {W W' : CWorld} (k : SamePar W W') (hd : W'.g.deltaT = W.g.deltaT) (hn : W'.g.nLinks = W.g.nLinks)
    {c : ℚ} {r : Prop} {V : CVeh} (h : Race W c r V) : Race W' c r V := by
  refine ⟨h.fresh, by rw [hd]; exact h.wait, fun hs l hl => ?_, fun hf l hl => ?_, fun hs => ?_⟩
  · rw [base_keep k, k.len, k.vmax, hn]; exact h.on hs l hl
  · rw [k.len]; exact h.tip hf l hl
  · rw [(freeTimes_keep k).2]; exact h.fin hs

theorem Pace.aimed {W V : CWorld} {D : ℕ → Prop} {r : Prop} {w : ℕ} (p : Roads W) (h : Pace W W.now r (W.veh w))
    (a : Aimed W V D) (hD : (W.veh w).state = .run → D w) :
    Race W W.now r (V.veh w) := by
  obtain ⟨xn, q, e, hq, hd⟩ := a.veh w
  have hb : ∀ l, base W (V.veh w) l = base W (W.veh w) l := fun l => base_log (by rw [e]) l
  have hT : (V.veh w).trace = (W.veh w).trace := by rw [e]; rfl
  have hS : (V.veh w).seen = (W.veh w).seen := by rw [e]; rfl
  refine ⟨fun hs => ?_, fun hs => ?_, fun hs l hl => ?_, fun hf l hl => ?_, fun hs => ?_⟩
  · rw [hT, hS]
    have hs' : (W.veh w).state = .home ∨ (W.veh w).state = .wait := by rw [e] at hs; exact hs
    obtain ⟨f1, f2, f3, f4, f5⟩ := h.fresh hs'
    have hq' : q = (W.veh w).moveRem := hq.resolve_right (fun ⟨l, hl, _⟩ => by rw [f5] at hl; simp at hl)
    rw [e]
    exact ⟨f1, f2, hq'.trans f3, f4, f5⟩
  · have hs' : (W.veh w).state = .wait := by rw [e] at hs; exact hs
    rw [e]; exact h.wait hs'
  · have hs' : (W.veh w).state = .run := by rw [e] at hs; exact hs
    have hl' : (W.veh w).link = some l := by rw [e] at hl; exact hl
    obtain ⟨o1, o2, o3, o4, o5, o6⟩ := h.on hs' l hl'
    obtain ⟨rfl, rfl⟩ := hd (hD hs') l hl'
    obtain ⟨hu, hlen⟩ := p.link l o1
    have hud : 0 ≤ (W.link l).vmax * W.g.deltaT := mul_nonneg hu.le p.dt
    obtain ⟨g1, g2⟩ := followPos_le (v := w) (l := l) (by rw [p.fl]; exact hud) p.fl
    obtain ⟨a1, a2⟩ := aim_bounds (v := w) (l := l) o3
    rw [hb, e]
    simp only
    have key : base W (W.veh w) l + ((W.veh w).x + (W.link l).vmax * W.g.deltaT) / (W.link l).vmax ≤
        W.now - (W.veh w).depTime := by
      have h1 : ((W.veh w).x + (W.link l).vmax * W.g.deltaT) / (W.link l).vmax =
          (W.veh w).x / (W.link l).vmax + W.g.deltaT := by field_simp
      have h2 : (W.veh w).x / (W.link l).vmax ≤ ((W.veh w).x + (W.veh w).moveRem) / (W.link l).vmax :=
        div_le_div_of_nonneg_right (by linarith) hu.le
      rw [h1]; linarith
    refine ⟨o1, o2, a1, a2, ?_, ?_, ?_⟩
    · unfold CWorld.rest; split
      · rename_i hlt; rw [p.fl]; simp only [id]; linarith
      · exact o4
    · unfold CWorld.rest CWorld.aim
      split
      · exact fun _ => rfl
      · rename_i hlt
        intro hr
        have := o5 hr
        linarith
    · unfold CWorld.rest CWorld.aim
      split
      · rw [p.fl]; simp only [id]
        have : ((W.link l).len + (W.followPos w l - (W.link l).len)) / (W.link l).vmax ≤
            ((W.veh w).x + (W.link l).vmax * W.g.deltaT) / (W.link l).vmax :=
          div_le_div_of_nonneg_right (by linarith) hu.le
        linarith
      · rename_i hlt
        by_cases hr : (W.veh w).moveRem = 0
        · have : (W.followPos w l + (W.veh w).moveRem) / (W.link l).vmax ≤
              ((W.veh w).x + (W.link l).vmax * W.g.deltaT) / (W.link l).vmax :=
            div_le_div_of_nonneg_right (by linarith) hu.le
          linarith
        · have hx := o5 hr
          have he : W.followPos w l = (W.veh w).x := by linarith
          rw [he]
          have := p.dt
          linarith
  · have hl' : (W.veh w).link = some l := by rw [e] at hl; exact hl
    rw [e] at hf ⊢
    exact h.tip hf l hl'
  · rw [hT]
    have hs' : (W.veh w).state = .ended := by rw [e] at hs; exact hs
    rw [e]; exact h.fin hs'

/-- The fields that matter in the RUN pass. -/
def CVeh.race (V : CVeh) := (V.state, V.link, V.x, V.xNext, V.moveRem, V.flagWait, V.depTime, V.travelTime)

theorem Race.over {W : CWorld} {c : ℚ} {r r' : Prop} {V V' : CVeh} (h : Race W c r V) (hr : r' → r)
    (hp : V'.race = V.race) (hl : LogCh V V') : Race W c r' V' := by
  simp only [CVeh.race, Prod.mk.injEq] at hp
  obtain ⟨h1, h2, h3, h3', h4, h5, h6, h7⟩ := hp
  refine ⟨fun hs => ?_, fun hs => ?_, fun hs l hl' => ?_, fun hf l hl' => ?_, fun hs => ?_⟩
  · rw [h1] at hs
    obtain ⟨a, b⟩ := hl.fresh (by rcases hs with h | h <;> rw [h] <;> simp)
    rw [a, b, h4, h5, h2]; exact h.fresh hs
  · rw [h6]; exact h.wait (h1 ▸ hs)
  · rw [h2] at hl'
    rw [hl.base hl', h3, h3', h4, h6]; exact h.on (h1 ▸ hs) l hl'
  · rw [h2] at hl'
    rw [h3]; exact h.tip (by rw [h5] at hf; exact hf.imp id hr) l hl'
  · rw [h1] at hs
    rw [(hl.fresh (by rw [hs]; simp)).1, h7]; exact h.fin hs

theorem atTip_le {W : CWorld} (p : Roads W) {v l : ℕ} (h : AtTip W v l) :
    (W.link l).len - 1 / 1000000000 ≤ (W.veh v).x := by
  unfold AtTip at h
  rw [p.fl] at h
  have := (abs_lt.1 h).1
  simp only [id] at this
  linarith

theorem Act.race {W W' : CWorld} (a : Act .run W W') (p : Roads W) {w : ℕ}
    (h : Race W W.now (Req W w) (W.veh w)) : Race W W.now (Req W' w) (W'.veh w) := by
  have hlog := a.logs w
  cases a with
  | log _ v l s i hv =>
    have hc := core_logData W v s
    refine h.over (Req.of_eq (fun m => core_arrived hc m) (fun n hn => by rw [core_incoming hc] at hn; exact hn)) ?_ hlog
    have e := logData_noLog W v s w
    have := congrArg CVeh.race e
    exact this
  | advance _ v l i hv =>
    have hreq : Req (W.advance v) w → Req W w := Req.of_eq (fun _ => rfl) (fun _ h => h)
    by_cases e : w = v
    · subst e
      have ho := i.onRun hv
      unfold CWorld.advance
      rw [setV_veh, if_pos rfl]
      refine ⟨fun hs => ?_, fun hs => ?_, fun hs l hl => ?_, fun hf l hl => ?_, fun hs => ?_⟩
      · exact h.fresh hs
      · exact h.wait hs
      · obtain ⟨o1, o2, o3, o4, o5, o6, o7⟩ := h.on hs l hl
        exact ⟨o1, o2.trans o3, le_rfl, o4, o5, o6, o7⟩
      · exact (h.tip (hf.imp id hreq) l hl).trans (h.on ho.state l hl).2.2.1
      · exact h.fin hs
    · exact h.over hreq (by unfold CWorld.advance; rw [setV_veh, if_neg e]) hlog
  | abort _ v l i hv hd ho ha =>
    refine h.over (Req.of_eq (fun _ => rfl) (fun _ h => h)) ?_ hlog
    rw [setV_veh]; split
    · rename_i e; subst e; rfl
    · rfl
  | flag _ v l i hv hc hlg hx =>
    by_cases e : w = v
    · subst e
      have ho := i.onRun hv
      rw [setV_veh, if_pos rfl]
      refine ⟨fun hs => ?_, h.wait, h.on, fun hf m hm => ?_, h.fin⟩
      · have : (W.veh w).state = .home ∨ (W.veh w).state = .wait := hs
        rw [ho.state] at this; simp at this
      · have : (W.veh w).link = some m := hm
        rw [ho.link] at this
        obtain rfl := Option.some.inj this
        exact atTip_le p hx
    · exact h.over (Req.of_eq (fun _ => rfl) (fun _ h => h)) (by rw [setV_veh, if_neg e]) hlog
  | endRun _ v l t i hq hna hi hf =>
    have hv : v ∈ (W.link l).vehs := by rw [hq]; simp
    by_cases e : w = v
    · subst e
      have ho := i.onRun hv
      have hst := ho.state
      have e := endTripOn_veh_self W w l
      have e1 : ((W.endTripOn w l).veh w).state = if (W.veh w).flagAbort then .abort else .ended := congrArg CVeh.state e
      have e2 : ((W.endTripOn w l).veh w).link = none := congrArg CVeh.link e
      have e3 : ((W.endTripOn w l).veh w).travelTime =
        if (W.veh w).flagAbort then -1 else W.g.fl (W.now - (W.veh w).depTime) := congrArg CVeh.travelTime e
      have hnot : ((W.endTripOn w l).veh w).state = .abort ∨ ((W.endTripOn w l).veh w).state = .ended := by
        rw [e1]; split
        · exact Or.inl rfl
        · exact Or.inr rfl
      refine ⟨fun hs => ?_, fun hs => ?_, fun hs => ?_, fun _ m hm => ?_, fun hs => ?_⟩
      · rcases hnot with h | h <;> rw [h] at hs <;> simp at hs
      · rcases hnot with h | h <;> rw [h] at hs <;> simp at hs
      · rcases hnot with h | h <;> rw [h] at hs <;> simp at hs
      · rw [e2] at hm; simp at hm
      · have hab : (W.veh w).flagAbort ≠ true := fun hc => by
          rw [e1, hc] at hs; simp at hs
        rw [e3, if_neg hab, p.fl]
        obtain ⟨o1, o2, o3, o4, o5, o6, o7⟩ := h.on hst l ho.link
        refine Pace.ends p ho.link ?_ ho.lt (h.tip (Or.inl hf) l ho.link) hlog
        have : (W.veh w).x / (W.link l).vmax ≤ ((W.veh w).xNext + (W.veh w).moveRem) / (W.link l).vmax :=
          div_le_div_of_nonneg_right (by linarith) (p.link l ho.lt).1.le
        linarith
    · exact h.over req_endTripOn (by rw [endTripOn_veh_ne _ _ _ _ e]; rfl) hlog
  | reqErr _ l e =>
    refine h.over (Req.of_eq (fun m => ?_) (fun _ h => h)) rfl hlog
    rw [setL_link]; split
    · rename_i e; subst e; rfl
    · rfl
  | req _ v l o rng i hv hd hc hx =>
    by_cases e : w = v
    · subst e
      have ho := i.onRun hv
      rw [setL_veh, setV_veh, if_pos rfl]
      refine ⟨h.fresh, h.wait, h.on, fun hf m hm => ?_, h.fin⟩
      have : (W.veh w).link = some m := hm
      rw [ho.link] at this
      obtain rfl := Option.some.inj this
      exact atTip_le p hx
    · refine h.over ?_ (by rw [setL_veh, setV_veh, if_neg e]) hlog
      rintro (⟨m, hm⟩ | ⟨n, hn⟩)
      · rw [setL_link] at hm
        split at hm
        · rename_i e'; subst e'
          rcases List.mem_append.1 hm with hm | hm
          · exact Or.inl ⟨m, hm⟩
          · exact absurd (List.mem_singleton.1 hm) e
        · exact Or.inl ⟨m, hm⟩
      · exact Or.inr ⟨n, hn⟩

theorem Acts.race {W W' : CWorld} (a : Acts .run W W') (p : Roads W) {w : ℕ}
    (h : Race W W.now (Req W w) (W.veh w)) : Race W' W'.now (Req W' w) (W'.veh w) := by
  induction a with
  | refl => exact h
  | tail b c ih =>
    have k := c.keep
    have q := c.race (p.keep (Acts.keep b)) ih
    rw [k.nowEq]
    exact q.keep k.samePar (by rw [k.g]) (by rw [k.g])

/-- After the RUN pass. -/
theorem Race.pace {W : CWorld} {c : ℚ} {r : Prop} {V : CVeh} (h : Race W c r V)
    (hx : V.state = .run → V.x = V.xNext) (hd : 0 ≤ W.g.deltaT) : Pace W (c + W.g.deltaT) r V := by
  refine ⟨h.fresh, fun hs => (h.wait hs).trans (by linarith), fun hs l hl => ?_, h.tip, h.fin⟩
  obtain ⟨o1, o2, o3, o4, o5, o6, o7⟩ := h.on hs l hl
  rw [hx hs]
  exact ⟨o1, o2.trans o3, o4, o5, o6, by rw [add_sub_cancel_right]; exact o7⟩

theorem Act.paceWait {W W' : CWorld} (a : Act .wait W W') {c : ℚ} {w : ℕ}
    (h : Pace W c (Req W w) (W.veh w)) : Pace W c (Req W' w) (W'.veh w) := by
  have hlog := a.logs w
  cases a with
  | waitLog _ n v i hv =>
    have hc := core_logData W v none
    refine h.over (Req.of_eq (fun m => core_arrived hc m) (fun n hn => by rw [core_incoming hc] at hn; exact hn)) ?_ hlog
    have := congrArg CVeh.pace (logData_noLog W v none w)
    exact this

theorem Acts.paceWait {W W' : CWorld} (a : Acts .wait W W') {c : ℚ} {w : ℕ}
    (h : Pace W c (Req W w) (W.veh w)) : Pace W' c (Req W' w) (W'.veh w) := by
  induction a with
  | refl => exact h
  | tail b c ih =>
    have k := c.keep
    exact (c.paceWait ih).keep k.samePar (by rw [k.g]) (by rw [k.g])

end UX.Cpp
