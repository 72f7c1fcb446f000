import Verif.Proofs.CppTrips
import Verif.Spec.CppLife
import Mathlib.Algebra.BigOperators.Intervals

/-!
# Life cycle, times, destinations and ended trips of the C++ engine
-/

namespace UX.Cpp
open CWorld Relation Spec

/-! ## Calls -/

/-- What a call that builds or edits a world leaves alone in a vehicle. -/
def CVeh.life (V : CVeh) : CVeh := { V with prefer := [], avoid := [], route := [], tripAbort := true }

theorem setV_life {W : CWorld} {v : ℕ} {f : CVeh → CVeh} (h : ∀ V, (f V).life = V.life) (w : ℕ) :
    ((W.setV v f).veh w).life = (W.veh w).life := by
  rw [setV_veh]; split
  · rename_i e; rw [h, e]
  · rfl

theorem adjustNode_same (W : CWorld) (n : ℕ) : (W.adjustNode n).g = W.g ∧ (W.adjustNode n).link = W.link ∧
    (W.adjustNode n).veh = W.veh ∧ ∀ m, ((W.adjustNode n).node m).outLinks = (W.node m).outLinks := by
  unfold CWorld.adjustNode
  split
  · refine ⟨rfl, rfl, rfl, fun m => ?_⟩
    simp only
    rw [setN_node]; split
    · rename_i e; subst e; rfl
    · rfl
  · exact ⟨rfl, rfl, rfl, fun _ => rfl⟩

theorem adjustNodes_same (ns : List ℕ) (W : CWorld) : (ns.foldl adjustNode W).g = W.g ∧
    (ns.foldl adjustNode W).link = W.link ∧ (ns.foldl adjustNode W).veh = W.veh ∧
    ∀ m, ((ns.foldl adjustNode W).node m).outLinks = (W.node m).outLinks := by
  induction ns generalizing W with
  | nil => exact ⟨rfl, rfl, rfl, fun _ => rfl⟩
  | cons n t ih =>
    obtain ⟨a, b, c, d⟩ := ih (W.adjustNode n)
    obtain ⟨a', b', c', d'⟩ := adjustNode_same W n
    exact ⟨a.trans a', b.trans b', c.trans c', fun m => (d m).trans (d' m)⟩

theorem initAdj_same (W : CWorld) : W.initAdj.veh = W.veh ∧ W.initAdj.link = W.link ∧
    W.initAdj.g.fix = W.g.fix ∧ W.initAdj.g.timestep = W.g.timestep ∧
    ∀ m, (W.initAdj.node m).outLinks = (W.node m).outLinks := by
  unfold CWorld.initAdj
  simp only
  split
  · obtain ⟨a, b, c, d⟩ := adjustNodes_same (List.range W.g.nNodes) W
    exact ⟨c, b, (show _ = (List.foldl adjustNode W (List.range W.g.nNodes)).g.fix from rfl).trans (congrArg CGlob.fix a),
      by rw [a], d⟩
  · exact ⟨rfl, rfl, rfl, rfl, fun _ => rfl⟩

theorem edit_g (W : CWorld) (e : Edit) : (W.edit e).g = W.g := by
  cases e <;> simp only [CWorld.edit] <;> try rfl
  · unfold changeFreeFlow; split <;> rfl
  · unfold changeJam; split <;> rfl

theorem edit_life (W : CWorld) (e : Edit) (w : ℕ) : ((W.edit e).veh w).life = (W.veh w).life := by
  cases e <;> simp only [CWorld.edit] <;> try rfl
  · unfold changeFreeFlow; split <;> rfl
  · unfold changeJam; split <;> rfl
  all_goals (refine setV_life ?_ w; intro V; rfl)

/-- Ends of a link and its ended trips. -/
def CLink.geo (L : CLink) : ℕ × ℕ × ℚ × List ℕ := (L.src, L.dst, L.trips, L.ended)

theorem setL_geo {W : CWorld} {l : ℕ} {f : CLink → CLink} (h : ∀ L, (f L).geo = L.geo) (m : ℕ) :
    ((W.setL l f).link m).geo = (W.link m).geo := by
  rw [setL_link]; split
  · rename_i e; rw [h, e]
  · rfl

theorem edit_geo (W : CWorld) (e : Edit) (m : ℕ) : ((W.edit e).link m).geo = (W.link m).geo := by
  cases e <;> simp only [CWorld.edit] <;>
    first
    | rfl
    | (unfold changeFreeFlow; split <;> first | rfl | (refine setL_geo ?_ m; intro L; rfl))
    | (unfold changeJam; split <;> first | rfl | (refine setL_geo ?_ m; intro L; rfl))
    | (refine setL_geo ?_ m; intro L; rfl)

theorem edit_outLinks (W : CWorld) (e : Edit) (m : ℕ) :
    ((W.edit e).node m).outLinks = (W.node m).outLinks := by
  cases e <;> simp only [CWorld.edit] <;>
    first
    | rfl
    | (unfold changeFreeFlow; split <;> rfl)
    | (unfold changeJam; split <;> rfl)
    | (rw [setN_node]; split
       · rename_i e; subst e; rfl
       · rfl)

theorem Call.glob {W W' : CWorld} (c : Call W W') : W'.g.fl = W.g.fl ∧ W'.g.deltaT = W.g.deltaT ∧
    W'.g.deltaN = W.g.deltaN ∧ W'.g.timestep = W.g.timestep := by
  cases c with
  | node r p ints off cap lanes rng => exact ⟨rfl, rfl, rfl, rfl⟩
  | link r src dst a hs hd hl hr => exact ⟨rfl, rfl, rfl, rfl⟩
  | vehicle r dep orig dest prefer ho hd => exact ⟨rfl, rfl, rfl, rfl⟩
  | tmax r t => exact ⟨rfl, rfl, rfl, rfl⟩
  | init r =>
    obtain ⟨_, _, h, ht, _⟩ := initAdj_same W
    exact ⟨CGlob.fix_fl h, CGlob.fix_deltaT h, show W.initAdj.g.fix.deltaN = W.g.fix.deltaN by rw [h], ht⟩
  | edit r e => rw [edit_g]; exact ⟨rfl, rfl, rfl, rfl⟩

theorem Call.veh {W W' : CWorld} (c : Call W W') :
    (W'.g.nVehs = W.g.nVehs ∧ ∀ w, (W'.veh w).life = (W.veh w).life) ∨
    (W'.g.nVehs = W.g.nVehs + 1 ∧ ∃ dep orig dest prefer, ∀ w, W'.veh w =
      if w = W.g.nVehs then newVeh dep orig dest prefer else W.veh w) := by
  cases c with
  | node r p ints off cap lanes rng => exact Or.inl ⟨rfl, fun _ => rfl⟩
  | link r src dst a hs hd hl hr => exact Or.inl ⟨rfl, fun _ => rfl⟩
  | vehicle r dep orig dest prefer ho hd =>
    exact Or.inr ⟨rfl, dep, orig, dest, prefer, fun w => rfl⟩
  | tmax r t => exact Or.inl ⟨rfl, fun _ => rfl⟩
  | init r =>
    obtain ⟨hv, _, h, _, _⟩ := initAdj_same W
    exact Or.inl ⟨CGlob.fix_nVehs h, fun w => by rw [hv]⟩
  | edit r e => exact Or.inl ⟨by rw [edit_g], edit_life W e⟩

/-! ## States only go forward -/

theorem Forward.rfl' (s : VState) : Forward s s := by cases s <;> simp [Forward]

theorem Forward.trans {a b c : VState} (h : Forward a b) (h' : Forward b c) : Forward a c := by
  cases a <;> cases b <;> cases c <;> simp_all [Forward]

theorem VehCh.forward {W : CWorld} {w : ℕ} {V' : CVeh} (h : VehCh W w V') :
    Forward (W.veh w).state V'.state := by
  cases h with
  | same h => rw [h]; exact Forward.rfl' _
  | ptr l q r hl h => rw [h]; exact Forward.rfl' _
  | nextGen o hs h => rw [h]; exact Forward.rfl' _
  | nextRun l o hl hd ho h => rw [h]; exact Forward.rfl' _
  | depart l ln ld hs hl hn ho h => rw [h, hs]; simp [Forward]
  | move a b ln ld q ha hb hf hn he h => rw [h]; exact Forward.rfl' _
  | ends l q r hl hf h =>
    rw [noLog_state h, hl.state]
    simp only
    split <;> simp [Forward]
  | log hs h => rw [noLog_state h]; exact Forward.rfl' _
  | follow l p q hl h => rw [h]; exact Forward.rfl' _
  | advance l hl h => rw [h, core_state (core_advance W w) w]; exact Forward.rfl' _
  | abort l hl hd ho ha h => rw [h]; exact Forward.rfl' _
  | flag l hl hc h => rw [h]; exact Forward.rfl' _

theorem EvCh.forward {W : CWorld} {w : ℕ} {V' : CVeh} (h : EvCh W w V') :
    Forward (W.veh w).state V'.state := by
  cases h with
  | act h => exact h.forward
  | stay hw hs h => rw [noLog_state h]; exact Forward.rfl' _
  | wake hw hs ht h => rw [hs]; trivial

theorem Evs.forward {W W' : CWorld} (e : Evs W W') (w : ℕ) : Forward (W.veh w).state (W'.veh w).state := by
  induction e with
  | refl => exact Forward.rfl' _
  | tail _ b ih => exact Forward.trans ih (b.veh w).forward

theorem Evs.par {W W' : CWorld} (e : Evs W W') : SamePar W W' := by
  induction e with
  | refl => exact SamePar.refl _
  | tail _ b ih => exact ih.trans b.samePar

theorem Evs.fix {W W' : CWorld} (e : Evs W W') : W'.g.fix = W.g.fix := by
  induction e with
  | refl => rfl
  | tail _ b ih => exact b.fix.trans ih

/-- A vehicle whose trip is over is never touched again. -/
theorem EvCh.final {W : CWorld} {w : ℕ} {V' : CVeh} (h : EvCh W w V') (ho : (W.veh w).over) :
    V' = W.veh w := by
  have hr : (W.veh w).state ≠ .run := by rcases ho with h | h <;> rw [h] <;> simp
  have hw : (W.veh w).state ≠ .wait := by rcases ho with h | h <;> rw [h] <;> simp
  have hh : (W.veh w).state ≠ .home := by rcases ho with h | h <;> rw [h] <;> simp
  cases h with
  | act h =>
    cases h with
    | same h => exact h
    | ptr l q r hl h => exact absurd hl.state hr
    | nextGen o hs h => exact absurd hs hw
    | nextRun l o hl hd ho h => exact absurd hl.state hr
    | depart l ln ld hs hl hn ho h => exact absurd hs hw
    | move a b ln ld q ha hb hf hn he h => exact absurd ha.state hr
    | ends l q r hl hf h => exact absurd hl.state hr
    | log hs h =>
      rcases hs with hs | ⟨l, hl⟩
      · exact absurd hs hw
      · exact absurd hl.state hr
    | follow l p q hl h => exact absurd hl.state hr
    | advance l hl h => exact absurd hl.state hr
    | abort l hl hd ho ha h => exact absurd hl.state hr
    | flag l hl hc h => exact absurd hl.state hr
  | stay hw' hs h => exact absurd hs hh
  | wake hw' hs ht h => exact absurd hs hh

theorem Evs.final {W W' : CWorld} (e : Evs W W') {w : ℕ} (ho : (W.veh w).over) : W'.veh w = W.veh w := by
  induction e with
  | refl => rfl
  | tail _ b ih => rw [(b.veh w).final (by rw [ih]; exact ho), ih]

/-! ## Times -/

/-- Members of a vehicle that the log does not touch. -/
theorem noLog_all {V V' : CVeh} (h : V.noLog = V'.noLog) : V.state = V'.state ∧ V.link = V'.link ∧
    V.next = V'.next ∧ V.flagWait = V'.flagWait ∧ V.flagAbort = V'.flagAbort ∧ V.dest = V'.dest ∧
    V.depTime = V'.depTime ∧ V.arrivalTime = V'.arrivalTime ∧ V.travelTime = V'.travelTime := by
  refine ⟨?_, ?_, ?_, ?_, ?_, ?_, ?_, ?_, ?_⟩
  · show V.noLog.state = V'.noLog.state; rw [h]
  · show V.noLog.link = V'.noLog.link; rw [h]
  · show V.noLog.next = V'.noLog.next; rw [h]
  · show V.noLog.flagWait = V'.noLog.flagWait; rw [h]
  · show V.noLog.flagAbort = V'.noLog.flagAbort; rw [h]
  · show V.noLog.dest = V'.noLog.dest; rw [h]
  · show V.noLog.depTime = V'.noLog.depTime; rw [h]
  · show V.noLog.arrivalTime = V'.noLog.arrivalTime; rw [h]
  · show V.noLog.travelTime = V'.noLog.travelTime; rw [h]

/-- `TimesOK` with the values it reads from the world as arguments. -/
structure TimesV (fl : ℚ → ℚ) (dT : ℚ) (ts : ℕ) (V : CVeh) : Prop where
  started : V.state ≠ .home → V.depTime ≤ fl (ts * dT)
  ended : V.state = .ended → ∃ t, t ≤ ts ∧ V.arrivalTime = fl (t * dT) ∧ V.depTime ≤ V.arrivalTime ∧
    V.travelTime = fl (V.arrivalTime - V.depTime)
  other : V.state ≠ .ended → V.arrivalTime = -1 ∧ V.travelTime = -1

theorem TimesV.congr {fl : ℚ → ℚ} {dT : ℚ} {ts : ℕ} {V V' : CVeh} (t : TimesV fl dT ts V)
    (h1 : V'.state = V.state) (h2 : V'.depTime = V.depTime) (h3 : V'.arrivalTime = V.arrivalTime)
    (h4 : V'.travelTime = V.travelTime) : TimesV fl dT ts V' :=
  ⟨by rw [h1, h2]; exact t.started, by rw [h1, h2, h3, h4]; exact t.ended,
    by rw [h1, h3, h4]; exact t.other⟩

theorem TimesV.ch {W : CWorld} {w : ℕ} {V' : CVeh}
    (t : TimesV W.g.fl W.g.deltaT W.g.timestep (W.veh w)) (h : EvCh W w V') :
    TimesV W.g.fl W.g.deltaT W.g.timestep V' := by
  have keep : ∀ {V' : CVeh}, V'.noLog = (W.veh w).noLog →
      TimesV W.g.fl W.g.deltaT W.g.timestep V' := by
    intro V' h
    obtain ⟨a, _, _, _, _, _, b, c, d⟩ := noLog_all h
    exact t.congr a b c d
  cases h with
  | act h =>
    cases h with
    | same h => rw [h]; exact t
    | ptr l q r hl h => rw [h]; exact t.congr rfl rfl rfl rfl
    | nextGen o hs h => rw [h]; exact t.congr rfl rfl rfl rfl
    | nextRun l o hl hd ho h => rw [h]; exact t.congr rfl rfl rfl rfl
    | depart l ln ld hs hl hn ho h =>
      rw [h]
      exact ⟨fun _ => t.started (by rw [hs]; simp), fun h => by simp at h,
        fun _ => t.other (by rw [hs]; simp)⟩
    | move a b ln ld q ha hb hf hn he h => rw [h]; exact t.congr rfl rfl rfl rfl
    | ends l q r hl hf h =>
      obtain ⟨a, _, _, _, _, _, b, c, d⟩ := noLog_all h
      simp only at a b c d
      have h0 := t.started (by rw [hl.state]; simp)
      cases hab : (W.veh w).flagAbort with
      | true =>
        simp only [hab, if_true] at a c d
        exact ⟨fun _ => by rw [b]; exact h0, fun h => by rw [a] at h; simp at h, fun _ => ⟨c, d⟩⟩
      | false =>
        simp only [hab] at a c d
        refine ⟨fun _ => by rw [b]; exact h0, fun _ => ⟨W.g.timestep, le_rfl, c, ?_, ?_⟩,
          fun h => absurd a h⟩
        · rw [b, c]; exact h0
        · rw [d, c, b]; rfl
    | log hs h => exact keep h
    | follow l p q hl h => rw [h]; exact t.congr rfl rfl rfl rfl
    | advance l hl h => rw [h, CWorld.advance, setV_veh, if_pos rfl]; exact t.congr rfl rfl rfl rfl
    | abort l hl hd ho ha h => rw [h]; exact t.congr rfl rfl rfl rfl
    | flag l hl hc h => rw [h]; exact t.congr rfl rfl rfl rfl
  | stay hw hs h => exact keep h
  | wake hw hs ht h =>
    obtain ⟨a, _, _, _, _, _, b, c, d⟩ := noLog_all h
    simp only at a b c d
    refine ⟨fun _ => by rw [b]; exact ht, fun h => by rw [a] at h; simp at h, fun _ => ?_⟩
    rw [c, d]; exact t.other (by rw [hs]; simp)

theorem TimesV.tick {fl : ℚ → ℚ} {dT : ℚ} {ts : ℕ} {V : CVeh} (hf : Monotone fl) (hd : 0 ≤ dT)
    (t : TimesV fl dT ts V) : TimesV fl dT (ts + 1) V := by
  refine ⟨fun h => (t.started h).trans (hf ?_), fun h => ?_, t.other⟩
  · push_cast; nlinarith
  · obtain ⟨s, hs, h⟩ := t.ended h
    exact ⟨s, by omega, h⟩

theorem CReach.times {W : CWorld} (h : CReach W) : Monotone W.g.fl → 0 ≤ W.g.deltaT →
    ∀ v, TimesV W.g.fl W.g.deltaT W.g.timestep (W.veh v) := by
  refine CReach.invariant (P := fun W => Monotone W.g.fl → 0 ≤ W.g.deltaT →
    ∀ v, TimesV W.g.fl W.g.deltaT W.g.timestep (W.veh v)) ?_ ?_ ?_ h
  · intros
    exact ⟨fun h => absurd rfl h, fun h => by simp [CWorld.empty] at h, fun _ => ⟨rfl, rfl⟩⟩
  · intro W W' c p hf hd v
    obtain ⟨a, b, _, d⟩ := c.glob
    rw [a] at hf; rw [b] at hd
    rw [a, b, d]
    have t := p hf hd v
    rcases c.veh with ⟨_, e⟩ | ⟨_, dep, orig, dest, prefer, e⟩
    · have e := e v
      exact t.congr (show (W'.veh v).life.state = (W.veh v).life.state by rw [e])
        (show (W'.veh v).life.depTime = (W.veh v).life.depTime by rw [e])
        (show (W'.veh v).life.arrivalTime = (W.veh v).life.arrivalTime by rw [e])
        (show (W'.veh v).life.travelTime = (W.veh v).life.travelTime by rw [e])
    · rw [e v]
      split
      · exact ⟨fun h => absurd rfl h, fun h => by simp [newVeh] at h, fun _ => ⟨rfl, rfl⟩⟩
      · exact t
  · intro W W' e p hf hd v
    rw [CGlob.fix_fl e.fix] at hf ⊢
    rw [CGlob.fix_deltaT e.fix] at hd ⊢
    have t := (p hf hd v).ch (e.veh v)
    rcases e.timestep with h | ⟨h, _⟩
    · rw [h]; exact t
    · rw [h]; exact t.tick hf hd

/-! ## Ended trips -/

theorem card_overSet_one {W W' : CWorld} {v : ℕ} (hn : W'.g.nVehs = W.g.nVehs) (hv : v < W.g.nVehs)
    (h0 : ¬ (W.veh v).over) (h1 : (W'.veh v).over) (ho : ∀ w, w ≠ v → ((W'.veh w).over ↔ (W.veh w).over)) :
    (overSet W').card = (overSet W).card + 1 := by
  have : overSet W' = insert v (overSet W) := by
    ext w
    simp only [overSet, Finset.mem_filter, Finset.mem_range, Finset.mem_insert, hn]
    by_cases hw : w = v
    · subst hw
      exact ⟨fun _ => Or.inl rfl, fun _ => ⟨hv, h1⟩⟩
    · have := ho w hw
      unfold CVeh.over at this
      rw [this]
      simp [hw]
  rw [this, Finset.card_insert_of_notMem]
  intro h
  simp only [overSet, Finset.mem_filter] at h
  exact h0 h.2

theorem overSet_congr {W W' : CWorld} (hn : W'.g.nVehs = W.g.nVehs)
    (h : ∀ w, (W'.veh w).over ↔ (W.veh w).over) : overSet W' = overSet W := by
  unfold overSet
  rw [hn]
  exact Finset.filter_congr (fun w _ => h w)

/-- Every trip that is over was counted once, by one link. -/
def TripsInv (W : CWorld) : Prop :=
  (∀ k : ℕ, W.g.fl k = k) → ∃ f : ℕ → ℕ, (∀ l, (W.link l).trips = f l) ∧
    (∑ l ∈ Finset.range W.g.nLinks, f l) = (overSet W).card

theorem TripsInv.endCh {W W' : CWorld} (p : TripsInv W) (hf : W'.g.fl = W.g.fl)
    (hn : W'.g.nVehs = W.g.nVehs) (hl : W'.g.nLinks = W.g.nLinks) (h : EndCh W W') : TripsInv W' := by
  intro hk
  rw [hf] at hk
  obtain ⟨f, a, b⟩ := p hk
  cases h with
  | none h hv =>
    exact ⟨f, fun l => by rw [← a l]; exact congrArg (·.1) (h l), by rw [hl, b, overSet_congr hn hv]⟩
  | one v l hv hfl hs h ho =>
    refine ⟨fun m => if m = l then f m + 1 else f m, fun m => ?_, ?_⟩
    · have := congrArg (·.1) (h m)
      show (W'.link m).ends.1 = _
      rw [h m]
      split
      · rename_i e; subst e
        show W.g.fl _ = _
        rw [a m]
        have := hk (f m + 1)
        beta_reduce
        rw [if_pos rfl]
        push_cast at this ⊢
        exact this
      · rename_i e
        beta_reduce
        rw [if_neg e]; exact a m
    · rw [card_overSet_one hn hv.veh (by unfold CVeh.over; rw [hv.state]; simp)
        (by unfold CVeh.over; rw [hs]; split <;> simp) ho, hl, ← b]
      have hmem : l ∈ Finset.range W.g.nLinks := Finset.mem_range.2 hv.lt
      rw [← Finset.add_sum_erase _ _ hmem, ← Finset.add_sum_erase (Finset.range W.g.nLinks) f hmem,
        if_pos rfl, Finset.sum_congr rfl (fun m hm => if_neg (Finset.ne_of_mem_erase hm))]
      ring

theorem CReach.trips {W : CWorld} (h : CReach W) : TripsInv W := by
  refine CReach.invariant (P := TripsInv) ?_ ?_ ?_ h
  · intros; intro _
    exact ⟨fun _ => 0, fun _ => by simp [CWorld.empty], by simp [CWorld.empty, overSet]⟩
  · intro W W' c p hk
    rw [c.glob.1] at hk
    obtain ⟨f, a, b⟩ := p hk
    have hover : (overSet W').card = (overSet W).card := by
      rcases c.veh with ⟨n, e⟩ | ⟨n, dep, orig, dest, prefer, e⟩
      · rw [overSet_congr n (fun w => over_congr
          (show (W'.veh w).life.state = (W.veh w).life.state by rw [e w]))]
      · have : overSet W' = overSet W := by
          ext w
          simp only [overSet, Finset.mem_filter, Finset.mem_range, n, e w]
          by_cases hw : w = W.g.nVehs
          · rw [if_pos hw]; simp [newVeh, hw]
          · rw [if_neg hw]
            constructor
            · rintro ⟨h, h'⟩; exact ⟨by omega, h'⟩
            · rintro ⟨h, h'⟩; exact ⟨by omega, h'⟩
        rw [this]
    rw [hover, ← b]
    cases c with
    | node r p ints off cap lanes rng => exact ⟨f, a, rfl⟩
    | link r src dst la hs hd hl hr =>
      refine ⟨fun m => if m = W.g.nLinks then 0 else f m, fun m => ?_, ?_⟩
      · show (upd W.link W.g.nLinks (W.newLink src dst la) m).trips = _
        unfold upd
        split
        · rename_i e; simp [CWorld.newLink, e]
        · rename_i e; beta_reduce; rw [if_neg e]; exact a m
      · show ∑ l ∈ Finset.range (W.g.nLinks + 1), _ = _
        rw [Finset.sum_range_succ, if_pos rfl, add_zero]
        exact Finset.sum_congr rfl (fun m hm => if_neg (by rw [Finset.mem_range] at hm; omega))
    | vehicle r dep orig dest prefer ho hd => exact ⟨f, a, rfl⟩
    | tmax r t =>
      refine ⟨f, fun l => ?_, rfl⟩
      rw [← a l]; simp only [CWorld.setTMax]; split <;> rfl
    | init r =>
      obtain ⟨_, hl, hg, _, _⟩ := initAdj_same W
      refine ⟨f, fun l => by rw [hl]; exact a l, ?_⟩
      rw [show W.initAdj.g.nLinks = W.g.nLinks from
        show W.initAdj.g.fix.nLinks = W.g.fix.nLinks by rw [hg]]
    | edit r e =>
      refine ⟨f, fun l => ?_, by rw [edit_g]⟩
      rw [← a l]; exact congrArg (·.2.2.1) (edit_geo W e l)
  · intro W W' e p
    have hf := CGlob.fix_fl e.fix
    have hn := CGlob.fix_nVehs e.fix
    have hl : W'.g.nLinks = W.g.nLinks := show W'.g.fix.nLinks = W.g.fix.nLinks by rw [e.fix]
    rcases e.ends with h | ⟨h1, h2⟩
    · exact p.endCh hf hn hl h
    · intro hk
      rw [hf] at hk
      obtain ⟨f, a, b⟩ := p hk
      exact ⟨f, fun l => by rw [h1]; exact a l, by rw [hl, b, overSet_congr hn h2]⟩

/-- The sum over the links, as the engine computes it. -/
theorem tripsCount_eq {W : CWorld} (hk : ∀ k : ℕ, W.g.fl k = k) {f : ℕ → ℕ}
    (a : ∀ l, (W.link l).trips = f l) :
    W.tripsCount = ((∑ l ∈ Finset.range W.g.nLinks, f l : ℕ) : ℚ) := by
  unfold CWorld.tripsCount
  generalize W.g.nLinks = n
  induction n with
  | zero => rfl
  | succ n ih =>
    rw [List.range_succ, List.foldl_append, ih, Finset.sum_range_succ]
    simp only [List.foldl_cons, List.foldl_nil]
    rw [a n, ← Nat.cast_add, hk]

/-! ## Destinations -/

/-- A vehicle that waits for the end of its trip is on a link that ends at its destination, or it gave
up on a link that ends at a dead end. -/
structure FlagOK (W : CWorld) (v : ℕ) : Prop where
  wait : (W.veh v).flagWait = true → (W.veh v).state = .run ∧ ∃ l, (W.veh v).link = some l ∧
    ((W.link l).dst = (W.veh v).dest ∨ (W.veh v).flagAbort = true)
  abort : (W.veh v).flagAbort = true → (W.veh v).state = .abort ∨ ((W.veh v).state = .run ∧
    (W.veh v).next = none ∧ ∃ l, (W.veh v).link = some l ∧
      (W.link l).dst ≠ (W.veh v).dest ∧ (W.node (W.link l).dst).outLinks = [])
  big : W.g.nVehs ≤ v → (W.veh v).state = .home

/-- `FlagOK` with another vehicle record in place. -/
structure FlagV (W : CWorld) (v : ℕ) (V : CVeh) : Prop where
  wait : V.flagWait = true → V.state = .run ∧ ∃ l, V.link = some l ∧
    ((W.link l).dst = V.dest ∨ V.flagAbort = true)
  abort : V.flagAbort = true → V.state = .abort ∨ (V.state = .run ∧
    V.next = none ∧ ∃ l, V.link = some l ∧
      (W.link l).dst ≠ V.dest ∧ (W.node (W.link l).dst).outLinks = [])
  big : W.g.nVehs ≤ v → V.state = .home

theorem FlagV.congr {W : CWorld} {w : ℕ} {V V' : CVeh} (f : FlagV W w V) (h1 : V'.state = V.state)
    (h2 : V'.link = V.link) (h3 : V'.next = V.next) (h4 : V'.flagWait = V.flagWait)
    (h5 : V'.flagAbort = V.flagAbort) (h6 : V'.dest = V.dest) : FlagV W w V' :=
  ⟨by rw [h1, h2, h4, h5, h6]; exact f.wait, by rw [h1, h2, h3, h5, h6]; exact f.abort,
    by rw [h1]; exact f.big⟩

theorem FlagV.ch {W : CWorld} {w : ℕ} {V' : CVeh} (f : FlagV W w (W.veh w)) (h : EvCh W w V') :
    FlagV W w V' := by
  have keep : ∀ {V' : CVeh}, V'.noLog = (W.veh w).noLog → FlagV W w V' := by
    intro V' h
    obtain ⟨a, b, c, d, e, g, _⟩ := noLog_all h
    exact f.congr a b c d e g
  have hbig : (W.veh w).state ≠ .home → w < W.g.nVehs := fun h => by
    by_contra hc; exact h (f.big (by omega))
  cases h with
  | act h =>
    cases h with
    | same h => rw [h]; exact f
    | ptr l q r hl h => rw [h]; exact f.congr rfl rfl rfl rfl rfl rfl
    | nextGen o hs h =>
      rw [h]
      refine ⟨fun h => ?_, fun h => ?_, f.big⟩
      · exact absurd (f.wait h).1 (by rw [hs]; simp)
      · rcases f.abort h with h | ⟨h, _⟩ <;> rw [hs] at h <;> simp at h
    | nextRun l o hl hd ho h =>
      rw [h]
      refine ⟨f.wait, fun h => ?_, f.big⟩
      rcases f.abort h with h | ⟨h1, h2, m, h3, h4, h5⟩
      · exact Or.inl h
      · refine Or.inr ⟨h1, ?_, m, h3, h4, h5⟩
        have : m = l := by rw [hl.link] at h3; exact (Option.some.inj h3).symm
        subst this
        exact ho h5
    | depart l ln ld hs hl hn ho h =>
      rw [h]
      refine ⟨fun h => ?_, fun h => ?_, fun h => ?_⟩
      · exact absurd (f.wait h).1 (by rw [hs]; simp)
      · rcases f.abort h with h | ⟨h, _⟩ <;> rw [hs] at h <;> simp at h
      · exact absurd (hbig (by rw [hs]; simp)) (by omega)
    | move a b ln ld q ha hb hf hn he h =>
      rw [h]
      refine ⟨fun h => ?_, fun h => ?_, fun h => ?_⟩
      · simp only at h; rw [hf] at h; simp at h
      · rcases f.abort h with h | ⟨_, h, _⟩
        · exact Or.inl h
        · rw [hn] at h; simp at h
      · exact absurd ha.veh (by omega)
    | ends l q r hl hf h =>
      obtain ⟨a, b, c, d, e, g, _⟩ := noLog_all h
      simp only at a b c d e g
      refine ⟨fun h => by rw [d] at h; simp at h, fun h => ?_, fun h => absurd hl.veh (by omega)⟩
      rw [e] at h
      rw [a, if_pos h]
      exact Or.inl rfl
    | log hs h => exact keep h
    | follow l p q hl h => rw [h]; exact f.congr rfl rfl rfl rfl rfl rfl
    | advance l hl h => rw [h, CWorld.advance, setV_veh, if_pos rfl]; exact f.congr rfl rfl rfl rfl rfl rfl
    | abort l hl hd ho ha h =>
      rw [h]
      refine ⟨fun h => ?_, fun h => Or.inr ⟨hl.state, rfl, l, hl.link, hd, ho⟩, f.big⟩
      exact ⟨hl.state, l, hl.link, Or.inr rfl⟩
    | flag l hl hc h =>
      rw [h]
      refine ⟨fun _ => ⟨hl.state, l, hl.link, hc.imp id And.right⟩, f.abort, f.big⟩
  | stay hw hs h => exact keep h
  | wake hw hs ht h =>
    obtain ⟨a, b, c, d, e, g, _⟩ := noLog_all h
    simp only at a b c d e g
    refine ⟨fun h => ?_, fun h => ?_, fun h => absurd hw (by omega)⟩
    · rw [d] at h; exact absurd (f.wait h).1 (by rw [hs]; simp)
    · rw [e] at h; rcases f.abort h with h | ⟨h, _⟩ <;> rw [hs] at h <;> simp at h

theorem SamePar.dst {W W' : CWorld} (k : SamePar W W') (l : ℕ) : (W'.link l).dst = (W.link l).dst :=
  show (W'.link l).par.dst = (W.link l).par.dst by rw [k.link]
theorem SamePar.outLinks {W W' : CWorld} (k : SamePar W W') (n : ℕ) :
    (W'.node n).outLinks = (W.node n).outLinks :=
  show (W'.node n).par.outLinks = (W.node n).par.outLinks by rw [k.node]

theorem FlagOK.ev {W W' : CWorld} (f : ∀ v, FlagOK W v) (e : Ev W W') (v : ℕ) : FlagOK W' v := by
  have h := FlagV.ch ⟨(f v).wait, (f v).abort, (f v).big⟩ (e.veh v)
  have p := e.samePar
  refine ⟨fun hw => ?_, fun ha => ?_, fun hb => h.big (by rw [← CGlob.fix_nVehs e.fix]; exact hb)⟩
  · obtain ⟨a, l, b, c⟩ := h.wait hw
    exact ⟨a, l, b, by rw [p.dst]; exact c⟩
  · rcases h.abort ha with h | ⟨a, b, l, c, d, e⟩
    · exact Or.inl h
    · exact Or.inr ⟨a, b, l, c, by rw [p.dst]; exact d, by rw [p.dst, p.outLinks]; exact e⟩

theorem FlagOK.transport {W W' : CWorld} {v : ℕ} (f : FlagOK W v) (hn : W'.g.nVehs = W.g.nVehs)
    (hv : (W'.veh v).life = (W.veh v).life)
    (hl : ∀ l, (W.veh v).state = .run → (W.veh v).link = some l → (W'.link l).dst = (W.link l).dst ∧
      ((W.node (W.link l).dst).outLinks = [] → (W'.node (W.link l).dst).outLinks = [])) : FlagOK W' v := by
  have e1 : (W'.veh v).state = (W.veh v).state := show (W'.veh v).life.state = (W.veh v).life.state by rw [hv]
  have e2 : (W'.veh v).link = (W.veh v).link := show (W'.veh v).life.link = (W.veh v).life.link by rw [hv]
  have e3 : (W'.veh v).next = (W.veh v).next := show (W'.veh v).life.next = (W.veh v).life.next by rw [hv]
  have e4 : (W'.veh v).flagWait = (W.veh v).flagWait :=
    show (W'.veh v).life.flagWait = (W.veh v).life.flagWait by rw [hv]
  have e5 : (W'.veh v).flagAbort = (W.veh v).flagAbort :=
    show (W'.veh v).life.flagAbort = (W.veh v).life.flagAbort by rw [hv]
  have e6 : (W'.veh v).dest = (W.veh v).dest := show (W'.veh v).life.dest = (W.veh v).life.dest by rw [hv]
  refine ⟨fun h => ?_, fun h => ?_, fun h => ?_⟩
  · rw [e4] at h
    obtain ⟨a, l, b, c⟩ := f.wait h
    exact ⟨by rw [e1]; exact a, l, by rw [e2]; exact b, by rw [(hl l a b).1, e5, e6]; exact c⟩
  · rw [e5] at h
    rcases f.abort h with h | ⟨a, b, l, c, d, e⟩
    · exact Or.inl (by rw [e1]; exact h)
    · exact Or.inr ⟨by rw [e1]; exact a, by rw [e3]; exact b, l, by rw [e2]; exact c,
        by rw [(hl l a c).1, e6]; exact d, by rw [(hl l a c).1]; exact (hl l a c).2 e⟩
  · rw [e1]; exact f.big (by rw [← hn]; exact h)

theorem CReach.flags {W : CWorld} (h : CReach W) : ∀ v, FlagOK W v := by
  refine CReach.invariant (P := fun W => ∀ v, FlagOK W v) ?_ ?_ (fun _ _ e f => FlagOK.ev f e) h
  · intros
    exact ⟨fun h => by simp [CWorld.empty] at h, fun h => by simp [CWorld.empty] at h, fun _ => rfl⟩
  · intro W W' c f v
    have hc := c.veh
    cases c with
    | node r p ints off cap lanes rng =>
      refine (f v).transport rfl rfl (fun l _ _ => ⟨rfl, fun h => ?_⟩)
      show (upd W.node W.g.nNodes _ _).outLinks = []
      unfold upd
      split
      · rfl
      · exact h
    | link r src dst a hs hd hl hr =>
      refine (f v).transport rfl rfl (fun l hrun _ => ?_)
      exfalso
      by_cases hv : v < W.g.nVehs
      · exact hr v hv hrun
      · rw [(f v).big (by omega)] at hrun; simp at hrun
    | vehicle r dep orig dest prefer ho hd =>
      by_cases hv : v = W.g.nVehs
      · have e : (W.addVehicle dep orig dest prefer).veh v = newVeh dep orig dest prefer := by
          rw [hv]; exact if_pos rfl
        exact ⟨fun h => by rw [e] at h; simp [newVeh] at h, fun h => by rw [e] at h; simp [newVeh] at h,
          fun _ => by rw [e]; rfl⟩
      · have e : (W.addVehicle dep orig dest prefer).veh v = W.veh v := if_neg hv
        refine ⟨fun h => ?_, fun h => ?_, fun h => ?_⟩
        · rw [e] at h ⊢; exact (f v).wait h
        · rw [e] at h ⊢; exact (f v).abort h
        · rw [e]; exact (f v).big (by have : W.g.nVehs + 1 ≤ v := h; omega)
    | tmax r t =>
      refine (f v).transport rfl rfl (fun l _ _ => ⟨?_, id⟩)
      simp only [CWorld.setTMax]; split <;> rfl
    | init r =>
      obtain ⟨hv, hl, hg, _, ho⟩ := initAdj_same W
      exact (f v).transport (CGlob.fix_nVehs hg) (by rw [hv]) (fun l _ _ => ⟨by rw [hl], fun h => by
        rw [ho]; exact h⟩)
    | edit r e =>
      exact (f v).transport (by rw [edit_g]) (edit_life W e v) (fun l _ _ =>
        ⟨congrArg (·.2.1) (edit_geo W e l), fun h => by rw [edit_outLinks]; exact h⟩)

/-- Trips that ended since the time step began are in the buffer of the link they ended on. -/
structure EndAt (W0 W : CWorld) : Prop where
  flag : ∀ v, FlagOK W v
  par : SamePar W0 W
  nLinks : W.g.nLinks = W0.g.nLinks
  done : ∀ v, (W.veh v).over → (W0.veh v).over ∨ ∃ l, l < W0.g.nLinks ∧ v ∈ (W.link l).ended ∧
    ((W.veh v).state = .ended → (W0.link l).dst = (W0.veh v).dest) ∧
    ((W.veh v).state = .abort → (W0.link l).dst ≠ (W0.veh v).dest ∧
      (W0.node (W0.link l).dst).outLinks = [])

theorem SamePar.dest {W W' : CWorld} (k : SamePar W W') (v : ℕ) : (W'.veh v).dest = (W.veh v).dest :=
  show (W'.veh v).par.dest = (W.veh v).par.dest by rw [k.veh]

theorem EndAt.act {W0 W W' : CWorld} {s : Stage} (p : EndAt W0 W) (a : Act s W W') : EndAt W0 W' := by
  have k := a.keep
  refine ⟨FlagOK.ev p.flag (.act a), p.par.trans k.samePar, by rw [k.g]; exact p.nLinks, fun w hw => ?_⟩
  have old : (W.veh w).over → (∀ l, w ∈ (W.link l).ended → w ∈ (W'.link l).ended) →
      (W0.veh w).over ∨ ∃ l, l < W0.g.nLinks ∧ w ∈ (W'.link l).ended ∧
        ((W'.veh w).state = .ended → (W0.link l).dst = (W0.veh w).dest) ∧
        ((W'.veh w).state = .abort → (W0.link l).dst ≠ (W0.veh w).dest ∧
          (W0.node (W0.link l).dst).outLinks = []) := by
    intro ho hm
    have e := ((Ev.act a).veh w).final ho
    rcases p.done w ho with h | ⟨l, h1, h2, h3, h4⟩
    · exact Or.inl h
    · exact Or.inr ⟨l, h1, hm l h2, by rw [e]; exact h3, by rw [e]; exact h4⟩
  cases a.ends with
  | none h hv =>
    exact old ((hv w).1 hw) (fun l hl => by
      have : (W'.link l).ended = (W.link l).ended := congrArg (·.2) (h l)
      rw [this]; exact hl)
  | one v l hv hf hs h ho =>
    have hend : ∀ m, (W'.link m).ended = if m = l then (W.link l).ended ++ [v] else (W.link m).ended := by
      intro m
      have := congrArg (·.2) (h m)
      refine this.trans ?_
      split <;> rfl
    by_cases hwv : w = v
    · subst hwv
      refine Or.inr ⟨l, by rw [← p.nLinks]; exact hv.lt, by rw [hend, if_pos rfl]; simp, ?_, ?_⟩
      · intro he
        rw [hs] at he
        have hna : (W.veh w).flagAbort = false := by
          cases hb : (W.veh w).flagAbort with
          | true => rw [hb] at he; simp at he
          | false => rfl
        obtain ⟨_, m, hm, h1 | h1⟩ := (p.flag w).wait hf
        · have : m = l := by rw [hv.link] at hm; exact (Option.some.inj hm).symm
          subst this
          rw [p.par.dst, p.par.dest] at h1; exact h1
        · rw [hna] at h1; simp at h1
      · intro he
        rw [hs] at he
        have hab : (W.veh w).flagAbort = true := by
          cases hb : (W.veh w).flagAbort with
          | true => rfl
          | false => rw [hb] at he; simp at he
        rcases (p.flag w).abort hab with h | ⟨_, _, m, hm, h1, h2⟩
        · rw [hv.state] at h; simp at h
        · have : m = l := by rw [hv.link] at hm; exact (Option.some.inj hm).symm
          subst this
          rw [p.par.dst, p.par.dest] at h1
          rw [p.par.dst, p.par.outLinks] at h2
          exact ⟨h1, h2⟩
    · refine old ((ho w hwv).1 hw) (fun m hm => ?_)
      rw [hend]
      split
      · rename_i e; subst e; simp [hm]
      · exact hm

theorem EndAt.region {W : CWorld} (h : CReach W) {σ : Sched} (hσ : σ.run.Nodup) :
    EndAt W (region σ W.clearExc) := by
  have r0 : Rest W.clearExc := h.rest.congr (core_clearExc W).symm
  have f0 : ∀ v, FlagOK W.clearExc v := FlagOK.ev h.flags (.clear W)
  refine region_preserves r0 σ hσ (EndAt W) (fun s V V' a p => p.act a) ?_
  have base : EndAt W W.clearExc := ⟨f0, (Keep.clearExc W).samePar, rfl, fun v hv => Or.inl hv⟩
  generalize W.clearExc = V at base
  clear r0 f0
  induction σ.update generalizing V with
  | nil => exact base
  | cons l t ih =>
    rw [List.foldl_cons]
    refine ih _ ⟨FlagOK.ev base.flag (.update V l), base.par.trans (linkUpdate_samePar V l), base.nLinks,
      fun v hv => ?_⟩
    rcases base.done v hv with h | ⟨m, h1, h2, h3⟩
    · exact Or.inl h
    · refine Or.inr ⟨m, h1, ?_, h3⟩
      unfold CWorld.linkUpdate
      rw [setL_link]; split
      · rename_i e; subst e; exact h2
      · exact h2

end UX.Cpp
