import Verif.Proofs.CppInvRun

/-!
# Transfers at nodes: the structural invariant of the C++ engine
-/

namespace UX.Cpp
open CWorld

/-! ## Lists of incoming vehicles -/

/-- Shortening the list of incoming vehicles of `n`, all of the exempted vehicle included. -/
theorem Inv.shrinkIncoming {W : CWorld} {y : Option ℕ} {n : ℕ} {f : CNode → CNode} {q : List ℕ}
    (i : Inv W none y) (hf : ∀ N, (f N).core = ({ N with incoming := q } : CNode).core)
    (hq : ∀ v ∈ q, v ∈ (W.node n).incoming ∧ y ≠ some v)
    (hy : ∀ v, y = some v → ∀ m, m ≠ n → v ∉ (W.node m).incoming) :
    Inv (W.setN n f) none none := by
  refine Inv.congr (W := W.setN n (fun N => { N with incoming := q })) ?_ ?_
  · refine core_setN_congr rfl n (fun N N' h => ?_)
    rw [hf N']
    show ({ N.core with incoming := q } : CNode) = { N'.core with incoming := q }
    rw [h]
  · have hn : ∀ m, (W.setN n (fun N => { N with incoming := q })).node m =
        { W.node m with incoming := if m = n then q else (W.node m).incoming } := by
      intro m; rw [setN_node]; split
      · rename_i e; subst e; rfl
      · rfl
    refine ⟨?_, ?_, i.ends, i.orig, i.mem, i.run, i.idle, i.nd, i.linked, ?_, ?_, i.fresh, i.limbo, ?_, ?_,
      ?_, ?_, i.reg2, ?_⟩
    · intro m; rw [hn]; exact i.outL m
    · intro m; rw [hn]; exact i.inL m
    · intro m; rw [hn]; exact i.gen m
    · intro m; rw [hn]; exact i.gnd m
    · intro m w; rw [hn]; exact i.flag m w
    · intro m w; rw [hn]; exact i.arr m w
    · intro m w hw
      rw [hn] at hw
      rw [hn]
      simp only at hw
      have key : w ∈ (W.node m).incoming ∧ y ≠ some w := by
        split at hw
        · rename_i e; subst e; exact hq w hw
        · rename_i e; exact ⟨hw, fun h => hy w h m e hw⟩
      rcases i.inc m w key.1 with h | h | h
      · exact absurd h key.2
      · exact Or.inr (Or.inl h)
      · exact Or.inr (Or.inr h)
    · intro w hw
      simp only [hn]
      exact i.reg1 w hw
    · intro w; rw [setN_g]; simp only [hn]; exact i.big w

theorem clearArrived_link (ls : List ℕ) (W : CWorld) (m : ℕ) :
    ((ls.foldl (fun W a => W.setL a (fun L => { L with arrived := [] })) W).link m) =
      if m ∈ ls then { W.link m with arrived := [] } else W.link m := by
  induction ls generalizing W with
  | nil => simp
  | cons a t ih =>
    rw [List.foldl_cons, ih, setL_link]
    by_cases h1 : m = a
    · subst h1; simp
    · simp [h1]

theorem clearArrived_rest (ls : List ℕ) (W : CWorld) :
    let W' := ls.foldl (fun W a => W.setL a (fun L => { L with arrived := [] })) W
    W'.g = W.g ∧ W'.node = W.node ∧ W'.veh = W.veh := by
  induction ls generalizing W with
  | nil => exact ⟨rfl, rfl, rfl⟩
  | cons a t ih => rw [List.foldl_cons]; exact ih _

theorem mem_sortIds {xs : List ℕ} {v : ℕ} : v ∈ sortIds xs ↔ v ∈ xs :=
  (List.perm_insertionSort (· ≤ ·) xs).mem_iff

theorem collect_link (W : CWorld) (n m : ℕ) : (W.collect n).link m =
    if m ∈ (W.node n).inLinks then { W.link m with arrived := [] } else W.link m := by
  simp only [collect, setN_link]
  exact clearArrived_link _ W m

theorem collect_veh (W : CWorld) (n : ℕ) : (W.collect n).veh = W.veh := by
  simp only [collect, setN_veh]
  exact (clearArrived_rest _ W).2.2

theorem collect_g (W : CWorld) (n : ℕ) : (W.collect n).g = W.g := by
  simp only [collect, setN_g]
  exact (clearArrived_rest _ W).1

theorem collect_node (W : CWorld) (n m : ℕ) : (W.collect n).node m = { W.node m with
    incoming := if m = n then sortIds ((W.node n).incoming ++
      (W.node n).inLinks.flatMap (fun a => (W.link a).arrived)) else (W.node m).incoming } := by
  simp only [collect, setN_node, (clearArrived_rest _ W).2.1]
  split
  · rename_i e; subst e; rfl
  · rfl

theorem Keep.collect (W : CWorld) (n : ℕ) : Keep W (W.collect n) := by
  refine ⟨collect_g W n, fun m => ?_, fun m => ?_, fun v => by rw [collect_veh],
    fun v _ => by rw [collect_veh], fun v h => by rwa [collect_veh] at h⟩
  · rw [collect_node]; rfl
  · rw [collect_link]; split <;> rfl

theorem Inv.collect {W : CWorld} {n : ℕ} (i : Inv W none none) (hinc : (W.node n).incoming = []) :
    Inv (W.collect n) none none := by
  have hl : ∀ m, (W.collect n).link m = { W.link m with
      arrived := if m ∈ (W.node n).inLinks then [] else (W.link m).arrived } := by
    intro m; rw [collect_link]; split <;> rfl
  have hn := collect_node W n
  have hv := collect_veh W n
  have hg := collect_g W n
  refine ⟨?_, ?_, ?_, ?_, ?_, ?_, ?_, ?_, ?_, ?_, ?_, ?_, ?_, ?_, ?_, ?_, ?_, ?_, ?_⟩
  · intro m k; rw [hn, hl, hg]; exact i.outL m k
  · intro m k; rw [hn, hl, hg]; exact i.inL m k
  · intro m; rw [hl, hg]; exact i.ends m
  · rw [hg, hv]; exact i.orig
  · intro m w; rw [hl, hg, hv]; exact i.mem m w
  · intro w; rw [hg, hv]
    intro h1 h2
    rcases i.run w h1 h2 with h | ⟨m, h⟩
    · exact Or.inl h
    · exact Or.inr ⟨m, by rw [hl]; exact h⟩
  · rw [hg, hv]; exact i.idle
  · intro m; rw [hl]; exact i.nd m
  · intro m; rw [hl, hg, hv]; exact i.linked m
  · intro m w; rw [hn, hg, hv]; exact i.gen m w
  · intro m; rw [hn]; exact i.gnd m
  · rw [hg, hv]; exact i.fresh
  · intro w h; simp at h
  · intro m w; rw [hl, hv, hn]; exact i.flag m w
  · intro m w h
    rw [hl] at h
    rw [hl, hv, hn]
    simp only at h
    split at h
    · simp at h
    · exact i.arr m w h
  · intro m w hw
    rw [hn] at hw
    rw [hv, hn]
    simp only at hw
    split at hw
    · rename_i e; subst e
      rw [mem_sortIds, hinc, List.nil_append, List.mem_flatMap] at hw
      obtain ⟨a, ha, hwa⟩ := hw
      obtain ⟨p, q, r⟩ := i.arr a w hwa
      have hd : (W.link a).dst = m := ((i.inL m a).1 ha).2
      cases hf : (W.veh w).flagWait with
      | true => exact Or.inr (Or.inl (q hf))
      | false =>
        refine Or.inr (Or.inr ⟨⟨a, by rw [hl]; exact p, by rw [hl]; exact hd⟩, rfl, ?_, fun k hk => ?_⟩)
        · rw [← hd]; exact r
        · rw [hl] at hk
          simp only at hk
          split at hk
          · simp at hk
          · rename_i hk'
            exact hk' (i.uniq p (i.arr k w hk).1 ▸ ha)
    · rcases i.inc m w hw with h | h | ⟨⟨a, ha, hd⟩, p, q, r⟩
      · exact Or.inl h
      · exact Or.inr (Or.inl h)
      · refine Or.inr (Or.inr ⟨⟨a, by rw [hl]; exact ha, by rw [hl]; exact hd⟩, p, q, fun k hk => ?_⟩)
        rw [hl] at hk
        simp only at hk
        split at hk
        · simp at hk
        · exact r k hk
  · intro w; rw [hg, hv]; simp only [hn, hl]; exact i.reg1 w
  · intro w; rw [hg, hv]; simp only [hl]; exact i.reg2 w
  · intro w; rw [hg]; simp only [hl, hn]; exact i.big w

/-! ## One transfer -/

/-- What holds while the node `n` is being processed. -/
structure AtNode (n : ℕ) (W : CWorld) : Prop where
  inv : Inv W none none
  arr : ∀ a ∈ (W.node n).inLinks, (W.link a).arrived = []
  inc : ∀ m, m ≠ n → (W.node m).incoming = []

theorem AtNode.congr {n : ℕ} {W W' : CWorld} (h : W.core = W'.core) (k : AtNode n W) : AtNode n W' := by
  have hin : (W.node n).inLinks = (W'.node n).inLinks :=
    show (W.node n).core.inLinks = (W'.node n).core.inLinks by rw [core_node h]
  exact ⟨k.inv.congr h, fun a ha => by rw [← core_arrived h]; exact k.arr a (hin ▸ ha),
    fun m hm => by rw [← core_incoming h]; exact k.inc m hm⟩

/-- Pushing a vehicle onto a queue and ending the trip of the first vehicle of a queue commute. -/
theorem endC_push (W : CWorld) (h l b v : ℕ) (hne : (W.link l).vehs ≠ []) :
    (W.endC h l).setL b (fun L => { L with vehs := L.vehs ++ [v] }) =
      (W.setL b (fun L => { L with vehs := L.vehs ++ [v] })).endC h l := by
  refine ext' ?_ (fun n => ?_) (fun m => ?_) (fun w => ?_)
  · simp [CWorld.endC]
  · simp [CWorld.endC]
  · simp only [CWorld.endC, setL_link, setV_link, detach_link]
    by_cases h1 : m = b
    · subst h1
      by_cases h2 : m = l
      · subst h2
        simp only [if_pos, CLink.mk.injEq, true_and, and_true]
        cases hq : (W.link m).vehs with
        | nil => exact absurd hq hne
        | cons a t => simp
      · simp [h2]
    · by_cases h2 : m = l
      · subst h2; simp [h1]
      · simp [h1, h2]
  · rw [setL_veh]
    simp only [CWorld.endC, setV_veh, detach_veh, setL_veh]
    rfl

theorem core_endC {W W' : CWorld} (hW : W.core = W'.core) (v l : ℕ) :
    (W.endC v l).core = (W'.endC v l).core := by
  refine core_setV_congr (core_detach (core_setL_congr hW l (fun L L' h => ?_)) v) v (fun V V' h => ?_)
  · show ({ L.core with ended := L.core.ended ++ [v], vehs := L.core.vehs.tail } : CLink) =
      { L'.core with ended := L'.core.ended ++ [v], vehs := L'.core.vehs.tail }
    rw [h]
  · show ({ V.core with state := if V.core.flagAbort then .abort else .ended, link := none, flagWait := false } : CVeh) =
      { V'.core with state := if V'.core.flagAbort then .abort else .ended, link := none, flagWait := false }
    rw [h]

theorem core_push {W W' : CWorld} (hW : W.core = W'.core) (v b : ℕ) :
    (W.setL b (fun L => { L with vehs := L.vehs ++ [v] })).core =
      (W'.setL b (fun L => { L with vehs := L.vehs ++ [v] })).core :=
  core_setL_congr hW b (fun L L' h => by
    show ({ L.core with vehs := L.core.vehs ++ [v] } : CLink) = { L'.core with vehs := L'.core.vehs ++ [v] }
    rw [h])

/-- Members of `endC` that matter for `AtNode`. -/
theorem endC_arrived (W : CWorld) (v l m : ℕ) : ((W.endC v l).link m).arrived = (W.link m).arrived := by
  simp only [CWorld.endC, setV_link, detach_link, setL_link]
  split
  · rename_i e; rw [e]
  · rfl

theorem endC_node (W : CWorld) (v l : ℕ) : (W.endC v l).node = W.node := by simp [CWorld.endC]

theorem Inv.frontOK {W : CWorld} {y : Option ℕ} {n a h : ℕ} (i : Inv W none y)
    (harr : ∀ c ∈ (W.node n).inLinks, (W.link c).arrived = []) (ha : a ∈ (W.node n).inLinks)
    (hh : h ∈ (W.link a).vehs) (hf : (W.veh h).flagWait = true) :
    (∀ m, h ∉ (W.link m).arrived) ∧ ∀ m, h ∈ (W.node m).incoming → y = some h ∨ (W.veh h).next = none := by
  refine ⟨fun m hm => ?_, fun m hm => ?_⟩
  · have := i.uniq hh (i.arr m h hm).1
    subst this
    rw [harr _ ha] at hm; simp at hm
  · rcases i.inc m h hm with h' | h' | ⟨_, p, _⟩
    · exact Or.inl h'
    · exact Or.inr h'
    · rw [hf] at p; simp at p

/-- `endFront`, spelled out. -/
theorem endFront_cases {W : CWorld} {y : Option ℕ} (i : Inv W none y) (a : ℕ) :
    (W.endFront a = (W, false)) ∨
    ∃ h t, (W.link a).vehs = h :: t ∧ (W.veh h).flagWait = true ∧
      W.endFront a = (W.endTripOn h a, true) := by
  unfold endFront
  cases hq : (W.link a).vehs with
  | nil => exact Or.inl rfl
  | cons h t =>
    simp only
    by_cases hf : (W.veh h).flagWait = true
    · refine Or.inr ⟨h, t, rfl, hf, ?_⟩
      rw [if_pos hf, endTrip, (i.mem a h (by rw [hq]; simp)).1]
    · exact Or.inl (if_neg hf)

theorem AtNode.endFront {n a : ℕ} {W : CWorld} (k : AtNode n W) (ha : a ∈ (W.node n).inLinks) :
    AtNode n (W.endFront a).1 ∧ Keep W (W.endFront a).1 ∧
      ∀ m, ((W.endFront a).1.link m).arrived = (W.link m).arrived := by
  rcases endFront_cases k.inv a with h | ⟨h, t, hq, hf, he⟩
  · rw [h]; exact ⟨k, Keep.refl W, fun m => rfl⟩
  · rw [he]
    obtain ⟨h1, h2⟩ := k.inv.frontOK k.arr ha (by rw [hq]; simp) hf
    obtain ⟨i1, k1⟩ := k.inv.endTripOn hq h1 h2
    refine ⟨⟨i1, fun c hc => ?_, fun m hm => ?_⟩, k1, fun m => endTripOn_arrived W h a m⟩
    · rw [endTripOn_arrived]
      rw [k1.inLinks] at hc
      exact k.arr c hc
    · rw [endTripOn_incoming]; exact k.inc m hm

theorem Keep.endFront {W : CWorld} {a : ℕ} (h1 : ∀ h, (W.link a).vehs.head? = some h →
    (W.veh h).state ≠ .home ∧ ∀ u, (W.veh h).follower = some u → (W.veh u).state ≠ .home) :
    Keep W (W.endFront a).1 := by
  unfold CWorld.endFront
  cases hq : (W.link a).vehs with
  | nil => exact Keep.refl W
  | cons h t =>
    simp only
    obtain ⟨p, q⟩ := h1 h (by rw [hq]; rfl)
    split
    · unfold endTrip
      split
      · exact Keep.refl W
      · exact Keep.endTripOn p q
    · exact Keep.refl W

theorem Keep.leave {W : CWorld} {n v a b : ℕ} (hv : (W.veh v).state ≠ .home)
    (hf : ∀ u, (W.veh v).follower = some u → (W.veh u).state ≠ .home) : Keep W (W.leave n v a b) := by
  simp only [CWorld.leave]
  have hk : ∀ X : CWorld, Keep X (if 0 ≤ (W.node n).flowCap
      then X.setN n (fun N => { N with flowRem := W.g.fl (N.flowRem - W.g.deltaN) }) else X) := by
    intro X
    split
    · exact Keep.setN (fun _ => rfl)
    · exact Keep.refl X
  have hvv : ∀ X : CWorld, (if 0 ≤ (W.node n).flowCap
      then X.setN n (fun N => { N with flowRem := W.g.fl (N.flowRem - W.g.deltaN) }) else X).veh = X.veh := by
    intro X; split <;> rfl
  refine Keep.thenV (Keep.thenDetach (Keep.trans ?_ (hk _)) ?_) (fun _ => rfl) ?_
  · exact Keep.thenL (Keep.thenL (Keep.refl W) (fun _ => rfl)) (fun _ => rfl)
  · rw [hvv]; exact hf
  · rw [detach_veh, hvv]; exact hv

theorem AtNode.moveVeh {n v a b : ℕ} {W : CWorld} {t : List ℕ} (k : AtNode n W)
    (ha : a ∈ (W.node n).inLinks) (hq : (W.link a).vehs = v :: t) (hb : b < W.g.nLinks)
    (hfw : (W.veh v).flagWait = false) :
    AtNode n (W.moveVeh n v a b) ∧ Keep W (W.moveVeh n v a b) ∧
      ∀ m, ((W.moveVeh n v a b).link m).arrived = (W.link m).arrived := by
  have i := k.inv
  have hva : v ∈ (W.link a).vehs := by rw [hq]; simp
  have hna : ∀ m, v ∉ (W.link m).arrived := fun m hm => by
    have := i.uniq hva (i.arr m v hm).1
    subst this
    rw [k.arr _ ha] at hm; simp at hm
  have i1 : Inv (W.leave n v a b) (some v) (some v) :=
    (i.leaveC hq hb hna hfw).congr (core_leave W n v a b).symm
  have k1 : Keep W (W.leave n v a b) :=
    Keep.leave (i.run_ne_home hva) (fun u hu => i.run_ne_home (i.follower_mem hva hu))
  have hl1 : ((W.leave n v a b).veh v).link = some b := by
    simp only [CWorld.leave, setV_veh, if_pos]
  have harr1 : ∀ m, ((W.leave n v a b).link m).arrived = (W.link m).arrived := by
    intro m
    rw [core_arrived (core_leave W n v a b) m]
    simp only [CWorld.leaveC, setV_link, detach_link, setL_link]
    split
    · rename_i e; rw [e]
    · rfl
  have hinc1 : ∀ m, ((W.leave n v a b).node m).incoming = (W.node m).incoming := by
    intro m
    rw [core_incoming (core_leave W n v a b) m]
    simp [CWorld.leaveC]
  simp only [CWorld.moveVeh]
  generalize hW1 : W.leave n v a b = W1 at *
  have hst1 := (i1.limbo v rfl).2.1
  have k2 : Keep W (W1.attach v b) :=
    k1.thenAttach (by rw [hst1]; simp) (fun u hu => i1.run_ne_home hu)
  have iq1 : Inv ((W1.attach v b).setL b (fun L => { L with vehs := L.vehs ++ [v] })) none (some v) :=
    i1.enterQ hl1
  have hnode2 : (W1.attach v b).node = W1.node := attach_node ..
  have hlink2 : (W1.attach v b).link = W1.link := attach_link ..
  have hst2 : ((W1.attach v b).veh v).state ≠ .home := by
    have : v ∈ (((W1.attach v b).setL b (fun L => { L with vehs := L.vehs ++ [v] })).link b).vehs := by
      rw [setL_link, if_pos rfl]; simp
    have := iq1.run_ne_home this
    simpa using this
  generalize hW2 : W1.attach v b = W2 at *
  have hc3 : (W2.place v (W2.carry v a b)).core = W2.core := core_place ..
  have k3 : Keep W (W2.place v (W2.carry v a b)) := k2.thenV (fun _ => rfl) hst2
  have hnode3 : (W2.place v (W2.carry v a b)).node = W2.node := rfl
  have hlink3 : (W2.place v (W2.carry v a b)).link = W2.link := rfl
  generalize hW3 : W2.place v (W2.carry v a b) = W3 at *
  have iq : Inv (W3.setL b (fun L => { L with vehs := L.vehs ++ [v] })) none (some v) :=
    iq1.congr (core_push hc3.symm v b)
  have harr3 : ∀ m, (W3.link m).arrived = (W.link m).arrived := fun m => by
    rw [hlink3, hlink2]; exact harr1 m
  have hinc3 : ∀ m, (W3.node m).incoming = (W.node m).incoming := fun m => by
    rw [hnode3, hnode2]; exact hinc1 m
  have hpush : ∀ X : CWorld, ∀ m, ((X.setL b (fun L => { L with vehs := L.vehs ++ [v] })).link m).arrived =
      (X.link m).arrived := by
    intro X m; rw [setL_link]; split
    · rename_i e; rw [e]
    · rfl
  have hin3 : (W3.node n).inLinks = (W.node n).inLinks := k3.inLinks n
  -- the head of `a` afterwards
  obtain ⟨i5, k4, harr4, hinc4⟩ : Inv ((W3.endFront a).1.setL b (fun L => { L with vehs := L.vehs ++ [v] }))
      none (some v) ∧ Keep W3 (W3.endFront a).1 ∧
      (∀ m, ((W3.endFront a).1.link m).arrived = (W3.link m).arrived) ∧
      ∀ m, ((W3.endFront a).1.node m).incoming = (W3.node m).incoming := by
    cases hq3 : (W3.link a).vehs with
    | nil =>
      have : W3.endFront a = (W3, false) := by simp [CWorld.endFront, hq3]
      rw [this]
      exact ⟨iq, Keep.refl _, fun _ => rfl, fun _ => rfl⟩
    | cons h t' =>
      have hqq : ((W3.setL b (fun L => { L with vehs := L.vehs ++ [v] })).link a).vehs =
          h :: (t' ++ if a = b then [v] else []) := by
        rw [setL_link]; split
        · rename_i e; rw [← e]; simp only [hq3]; rfl
        · simp [hq3]
      have hha : h ∈ ((W3.setL b (fun L => { L with vehs := L.vehs ++ [v] })).link a).vehs := by
        rw [hqq]; simp
      by_cases hf : (W3.veh h).flagWait = true
      · have hlk : (W3.veh h).link = some a := (iq.mem a h hha).1
        have he : W3.endFront a = (W3.endTripOn h a, true) := by
          simp only [CWorld.endFront, hq3, if_pos hf, endTrip, hlk]
        rw [he]
        simp only
        obtain ⟨f1, f2⟩ := iq.frontOK (n := n) (a := a) (h := h)
          (fun c hc => by
            rw [hpush, harr3]
            exact k.arr c (by rw [← hin3]; exact hc))
          (by rw [setL_node, hin3]; exact ha) hha hf
        have i6 := iq.endC hqq f1 f2
        refine ⟨i6.congr ?_, Keep.endTripOn (iq.run_ne_home hha)
          (fun u hu => iq.run_ne_home (iq.follower_mem hha hu)), fun m => endTripOn_arrived W3 h a m,
          fun m => endTripOn_incoming W3 h a m⟩
        rw [← endC_push W3 h a b v (by rw [hq3]; simp)]
        exact core_push (core_endTripOn W3 h a).symm v b
      · have he : W3.endFront a = (W3, false) := by
          simp only [CWorld.endFront, hq3, if_neg hf]
        rw [he]
        exact ⟨iq, Keep.refl _, fun _ => rfl, fun _ => rfl⟩
  generalize (W3.endFront a).1 = W4 at *
  have k5 : Keep W (W4.setL b (fun L => { L with vehs := L.vehs ++ [v] })) :=
    (k3.trans k4).thenL (fun _ => rfl)
  have harr5 : ∀ m, ((W4.setL b (fun L => { L with vehs := L.vehs ++ [v] })).link m).arrived =
      (W.link m).arrived := fun m => by rw [hpush, harr4, harr3]
  have hinc5 : ∀ m, ((W4.setL b (fun L => { L with vehs := L.vehs ++ [v] })).node m).incoming =
      (W.node m).incoming := fun m => by rw [setL_node, hinc4, hinc3]
  generalize W4.setL b (fun L => { L with vehs := L.vehs ++ [v] }) = W5 at *
  have hsn : W5.setN n (fun N => { N with incoming := N.incoming.filter (· ≠ v) }) =
      W5.setN n (fun N => { N with incoming := (W5.node n).incoming.filter (· ≠ v) }) := by
    refine ext' rfl (fun m => ?_) (fun _ => rfl) (fun _ => rfl)
    rw [setN_node, setN_node]
  have i6 : Inv (W5.setN n (fun N => { N with incoming := N.incoming.filter (· ≠ v) })) none none := by
    rw [hsn]
    refine i5.shrinkIncoming (q := (W5.node n).incoming.filter (· ≠ v)) (fun N => rfl) ?_ ?_
    · intro w hw
      rw [List.mem_filter] at hw
      refine ⟨hw.1, fun e => ?_⟩
      have := Option.some.inj e
      subst this
      simp at hw
    · intro w e m hm
      have h0 := k.inc m hm
      rw [hinc5, h0]; simp
  have k6 : Keep W (W5.setN n (fun N => { N with incoming := N.incoming.filter (· ≠ v) })) :=
    k5.thenN (fun _ => rfl)
  refine ⟨⟨i6, fun c hc => ?_, fun m hm => ?_⟩, k6, fun m => ?_⟩
  · rw [k6.inLinks] at hc
    rw [setN_link, harr5]; exact k.arr c hc
  · rw [setN_node, if_neg hm, hinc5]; exact k.inc m hm
  · rw [setN_link]; exact harr5 m

theorem pickMerge_core (W : CWorld) (n : ℕ) (vs : List ℕ) :
    (W.pickMerge n vs).2.core = W.core ∧ Keep W (W.pickMerge n vs).2 ∧
      ∀ v, (W.pickMerge n vs).1 = some v → v ∈ vs := by
  unfold pickMerge
  split
  · refine ⟨rfl, Keep.refl W, fun v hv => ?_⟩
    obtain ⟨w, hw⟩ := firstMax_mem hv
    exact (List.of_mem_zip hw).2
  · rcases h : randomChoice W.g.fl vs (vs.map W.priOf) (W.node n).rng with ⟨o, rng⟩
    simp only
    refine ⟨core_setN (fun _ => rfl), Keep.setN (fun _ => rfl), fun v hv => ?_⟩
    refine randomChoice_mem (fl := W.g.fl) (ws := vs.map W.priOf) (rng := (W.node n).rng) ?_
    rw [h]; exact hv

/-- Everything one call changes while node `n` is processed. -/
structure NodePost (n : ℕ) (W W' : CWorld) : Prop where
  at' : AtNode n W'
  keep : Keep W W'
  same : ∀ m, (W'.link m).arrived = (W.link m).arrived

theorem NodePost.refl {n : ℕ} {W : CWorld} (k : AtNode n W) : NodePost n W W :=
  ⟨k, Keep.refl W, fun _ => rfl⟩

theorem NodePost.trans {n : ℕ} {W W' W'' : CWorld} (h : NodePost n W W') (h' : NodePost n W' W'') :
    NodePost n W W'' :=
  ⟨h'.at', h.keep.trans h'.keep, fun m => (h'.same m).trans (h.same m)⟩

theorem AtNode.transferOne {n b : ℕ} {W : CWorld} (k : AtNode n W) :
    NodePost n W (CWorld.transferOne n W b) := by
  unfold CWorld.transferOne
  split
  · split
    · exact NodePost.refl k
    · rename_i v0 vs hvs
      obtain ⟨hc, kp, hm⟩ := pickMerge_core W n (v0 :: vs)
      split
      · rename_i W1 he
        rw [he] at hc kp
        exact ⟨k.congr hc.symm, kp, fun m => core_arrived hc m⟩
      · rename_i v W1 he
        rw [he] at hc kp hm
        have k1 := k.congr hc.symm
        have hv := hm v rfl
        rw [← hvs, List.mem_filter] at hv
        obtain ⟨hvi, hmay⟩ := hv
        split
        · exact ⟨k1, kp, fun m => core_arrived hc m⟩
        · rename_i a hl
          rw [core_linkOf hc v] at hl
          unfold mayMove at hmay
          rw [hl] at hmay
          simp only [Bool.and_eq_true, decide_eq_true_eq] at hmay
          obtain ⟨⟨⟨hn, hh⟩, _⟩, _⟩ := hmay
          obtain ⟨t, ht⟩ : ∃ t, (W.link a).vehs = v :: t := by
            cases hq : (W.link a).vehs with
            | nil => rw [hq] at hh; simp at hh
            | cons u t => rw [hq] at hh; simp at hh; exact ⟨t, by rw [hh]⟩
          have hva : v ∈ (W.link a).vehs := by rw [ht]; simp
          rcases k.inv.inc n v hvi with h | h | ⟨⟨a', ha', hd⟩, hfw, hb, _⟩
          · simp at h
          · rw [hn] at h; simp at h
          · obtain rfl : a' = a := k.inv.uniq ha' hva
            have hin : a' ∈ (W.node n).inLinks := (k.inv.inL n a').2 ⟨(k.inv.mem a' v hva).2.2.1, hd⟩
            have hbl : b < W.g.nLinks := ((k.inv.outL n b).1 (hb b hn)).1
            have hg : W1.g = W.g := core_g hc
            have hfw1 : (W1.veh v).flagWait = false := by
              rw [show (W1.veh v).flagWait = (W.veh v).flagWait from
                show (W1.veh v).core.flagWait = (W.veh v).core.flagWait by rw [core_veh hc]]
              exact hfw
            obtain ⟨p, q, r⟩ := k1.moveVeh (n := n) (v := v) (a := a') (b := b) (t := t)
              (by rw [kp.inLinks]; exact hin) (by rw [core_vehs hc]; exact ht) (by rw [hg]; exact hbl) hfw1
            exact ⟨p, kp.trans q, fun m => (r m).trans (core_arrived hc m)⟩
  · exact NodePost.refl k

theorem AtNode.endFronts {n a : ℕ} (j : ℕ) {W : CWorld} (k : AtNode n W) (ha : a ∈ (W.node n).inLinks) :
    NodePost n W (CWorld.endFronts a j W) := by
  induction j generalizing W with
  | zero => exact NodePost.refl k
  | succ j ih =>
    simp only [CWorld.endFronts]
    split
    · obtain ⟨p, q, r⟩ := k.endFront ha
      exact NodePost.trans ⟨p, q, r⟩ (ih p (by rw [q.inLinks]; exact ha))
    · exact NodePost.refl k

theorem AtNode.foldl {α : Type} {n : ℕ} {f : CWorld → α → CWorld} (xs : List α) {W : CWorld}
    (h : ∀ W' x, x ∈ xs → AtNode n W' → Keep W W' → NodePost n W' (f W' x)) (k : AtNode n W) :
    NodePost n W (xs.foldl f W) := by
  have gen : ∀ (ys : List α) (V : CWorld), (∀ x ∈ ys, x ∈ xs) → AtNode n V → Keep W V →
      NodePost n V (ys.foldl f V) := by
    intro ys
    induction ys with
    | nil => intro V _ kV _; exact NodePost.refl kV
    | cons y t ih =>
      intro V hsub kV kp
      have h1 := h V y (hsub y (by simp)) kV kp
      exact h1.trans (ih _ (fun x hx => hsub x (by simp [hx])) h1.at' (kp.trans h1.keep))
  exact gen xs W (fun _ h => h) k (Keep.refl W)

theorem shuffleSlots_core (W : CWorld) (n : ℕ) :
    (W.shuffleSlots n).2.core = W.core ∧ Keep W (W.shuffleSlots n).2 := by
  unfold shuffleSlots
  split
  · exact ⟨rfl, Keep.refl W⟩
  · rcases fisherYates ((W.slots n).length - 1) (W.slots n) (W.node n).rng with ⟨p, rng⟩
    simp only
    exact ⟨core_setN (fun _ => rfl), Keep.setN (fun _ => rfl)⟩

theorem Inv.transfer {W : CWorld} {n : ℕ} (i : Inv W none none)
    (hinc : ∀ m, (W.node m).incoming = []) :
    Inv (W.transfer n) none none ∧ Keep W (W.transfer n) ∧
      (∀ m, ((W.transfer n).node m).incoming = []) ∧
      (∀ a ∈ (W.node n).inLinks, ((W.transfer n).link a).arrived = []) ∧
      ∀ m, (W.link m).arrived = [] → ((W.transfer n).link m).arrived = [] := by
  have i1 := i.collect (hinc n)
  have k1 := Keep.collect W n
  have a1 : AtNode n (W.collect n) := by
    refine ⟨i1, fun a ha => ?_, fun m hm => ?_⟩
    · rw [k1.inLinks] at ha; rw [collect_link, if_pos ha]
    · rw [collect_node]; simp [hm, hinc m]
  simp only [CWorld.transfer]
  obtain ⟨hc, kc⟩ := shuffleSlots_core (W.collect n) n
  have a2 : AtNode n ((W.collect n).shuffleSlots n).2 := a1.congr hc.symm
  have k2 := k1.trans kc
  have s2 : ∀ m, (((W.collect n).shuffleSlots n).2.link m).arrived = ((W.collect n).link m).arrived :=
    fun m => core_arrived hc m
  generalize ((W.collect n).shuffleSlots n).2 = W2 at *
  generalize ((W.collect n).shuffleSlots n).1 = order at *
  have p3 : NodePost n W2 (order.foldl (CWorld.transferOne n) W2) :=
    AtNode.foldl order (fun W' x _ h _ => h.transferOne) a2
  generalize order.foldl (CWorld.transferOne n) W2 = W3 at *
  have p4 : NodePost n W3 ((W3.node n).inLinks.foldl
      (fun W a => CWorld.endFronts a (W.link a).lanes W) W3) :=
    AtNode.foldl _ (fun W' x hx h kp => h.endFronts _ (by rw [kp.inLinks]; exact hx)) p3.at'
  generalize (W3.node n).inLinks.foldl (fun W a => CWorld.endFronts a (W.link a).lanes W) W3 = W4 at *
  have p := p3.trans p4
  have hs : ∀ m, (W4.link m).arrived = if m ∈ (W.node n).inLinks then [] else (W.link m).arrived := by
    intro m
    rw [p.same, s2, collect_link]; split <;> rfl
  have k4 := k2.trans p.keep
  have i4 := p.at'.inv
  have i5 : Inv (W4.setN n (fun N => { N with incoming := [] })) none none :=
    i4.shrinkIncoming (q := []) (fun _ => rfl) (fun v hv => by simp at hv) (fun v h => by simp at h)
  refine ⟨i5, k4.thenN (fun _ => rfl), fun m => ?_, fun a ha => ?_, fun m hm => ?_⟩
  · rw [setN_node]; split
    · rfl
    · rename_i e; exact p.at'.inc m e
  · rw [setN_link, hs, if_pos ha]
  · rw [setN_link, hs, hm]; simp

end UX.Cpp
