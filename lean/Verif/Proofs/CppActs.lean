import Verif.Proofs.CppInvStep
import Mathlib.Logic.Relation

/-!
# The primitive actions of a time step of the C++ engine

Every stage of a time step is a sequence of the actions listed in `Act`, each taken in a world that
satisfies the structural invariant. A new invariant of the engine is proved by checking the actions.
-/

namespace UX.Cpp
open CWorld Relation

/-- The stages of the parallel region after `Link::update`. -/
inductive Stage
  | gen | trans | follow | run | wait

/-- The last log entry of `v` is on link `l`. -/
def Logged (W : CWorld) (v l : ℕ) : Prop :=
  W.g.logMode = true → ∃ e : CLog, (W.veh v).log.getLast? = some e ∧ e.link = some l

/-- `v` is at the end of link `l`, within the tolerance of `Vehicle::update` (traffi.cpp:856). -/
def AtTip (W : CWorld) (v l : ℕ) : Prop := |W.g.fl ((W.veh v).x - (W.link l).len)| < 1 / 1000000000

theorem logStats_veh (W : CWorld) (v : ℕ) : (W.logStats v).veh = W.veh := by
  unfold logStats; split <;> rfl

theorem logStats_g (W : CWorld) (v : ℕ) : (W.logStats v).g = W.g := by
  unfold logStats; split <;> rfl

theorem logEntry_link (W : CWorld) (v : ℕ) (s : Option ℕ) :
    (W.logEntry v s).link = if (W.veh v).state = .run then (W.veh v).link else none := by
  unfold logEntry; split <;> rfl

theorem logData_logged {W : CWorld} {v l : ℕ} {s : Option ℕ} (hm : W.g.logMode = true)
    (hs : (W.veh v).state = .run) (hl : (W.veh v).link = some l) :
    ∃ e : CLog, ((W.logData v s).veh v).log.getLast? = some e ∧ e.link = some l := by
  refine ⟨(W.logStats v).logEntry v s, ?_, by rw [logEntry_link, logStats_veh, if_pos hs, hl]⟩
  unfold logData logPush
  rw [logStats_g, hm, if_pos rfl, setV_veh, if_pos rfl]
  simp

/-- An action with the conditions under which it is taken. -/
inductive Act : Stage → CWorld → CWorld → Prop
  | genErr (W : CWorld) (n : ℕ) (e : CErr) (v : ℕ) (t : List ℕ) (i : Inv W none none)
      (hq : (W.node n).genQ = v :: t)
      (hc : W.chooseNext v (W.node n).outLinks (W.node n).rng = .error e) :
      Act .gen W (W.setN n (fun N => { N with exc := some e }))
  | choose (W : CWorld) (n v : ℕ) (t : List ℕ) (o : Option ℕ) (rng : ℕ → ℕ) (i : Inv W none none)
      (hi : ∀ m, (W.node m).incoming = [])
      (hq : (W.node n).genQ = v :: t)
      (hc : W.chooseNext v (W.node n).outLinks (W.node n).rng = .ok (o, rng)) :
      Act .gen W ((W.setN n (fun N => { N with rng := rng })).setV v (fun V => { V with next := o }))
  | depart (W : CWorld) (n v l : ℕ) (t : List ℕ) (i : Inv W none none)
      (hi : ∀ m, (W.node m).incoming = [])
      (hq : (W.node n).genQ = v :: t) (hl : l ∈ (W.node n).outLinks) (hn : (W.veh v).next = some l)
      (hc : W.canEnter l = true)
      (hch : (W.veh v).route ≠ [] → (W.veh v).route[(W.veh v).count]? = some l)
      (hpk : (W.veh v).route = [] →
        l ∈ W.cyclicFilter v (W.avoidFilter v (W.preferFilter v (W.node n).outLinks))) :
      Act .gen W (W.depart n v l)
  | signal (W : CWorld) (n : ℕ) : Act .gen W (W.signalUpdate n)
  | flow (W : CWorld) (n : ℕ) : Act .gen W (W.flowUpdate n)
  | collect (W : CWorld) (n : ℕ) (i : Inv W none none) (hi : ∀ m, (W.node m).incoming = []) :
      Act .trans W (W.collect n)
  | draw (W : CWorld) (n : ℕ) (rng : ℕ → ℕ) : Act .trans W (W.setN n (fun N => { N with rng := rng }))
  | move (W : CWorld) (n v a b : ℕ) (t : List ℕ) (k : AtNode n W) (ha : a ∈ (W.node n).inLinks)
      (hq : (W.link a).vehs = v :: t) (hb : b ∈ (W.node n).outLinks) (hn : (W.veh v).next = some b)
      (hf : (W.veh v).flagWait = false) (hc : W.canEnter b = true)
      (hr : ¬ (W.node n).flowRem < W.g.deltaN) (ho : W.g.deltaN ≤ (W.link a).capOutRem)
      (hs : (W.node n).sigPhase ∈ (W.link a).group ∨ (W.node n).sigInt.length ≤ 1)
      (hm : v ∈ (W.node n).incoming) : Act .trans W (W.moveVeh n v a b)
  | endFront (W : CWorld) (v l : ℕ) (t : List ℕ) (i : Inv W none none) (hq : (W.link l).vehs = v :: t)
      (hna : ∀ m, v ∉ (W.link m).arrived)
      (hni : ∀ n, v ∈ (W.node n).incoming → (none : Option ℕ) = some v ∨ (W.veh v).next = none)
      (hf : (W.veh v).flagWait = true) : Act .trans W (W.endTripOn v l)
  | finish (W : CWorld) (n : ℕ) : Act .trans W (W.setN n (fun N => { N with incoming := [] }))
  | follow (W : CWorld) (v l : ℕ) (i : Inv W none none) (hv : v ∈ (W.link l).vehs) :
      Act .follow W (W.carFollow v)
  | log (W : CWorld) (v l : ℕ) (s : Option ℕ) (i : Inv W none none) (hv : v ∈ (W.link l).vehs) :
      Act .run W (W.logData v s)
  | advance (W : CWorld) (v l : ℕ) (i : Inv W none none) (hv : v ∈ (W.link l).vehs) :
      Act .run W (W.advance v)
  | abort (W : CWorld) (v l : ℕ) (i : Inv W none none) (hv : v ∈ (W.link l).vehs)
      (hd : (W.link l).dst ≠ (W.veh v).dest) (ho : (W.node (W.link l).dst).outLinks = [])
      (ha : (W.veh v).tripAbort = true) :
      Act .run W (W.setV v (fun V => { V with flagAbort := true, next := none }))
  | flag (W : CWorld) (v l : ℕ) (i : Inv W none none) (hv : v ∈ (W.link l).vehs)
      (hc : (W.link l).dst = (W.veh v).dest ∨
        (W.node (W.link l).dst).outLinks = [] ∧ (W.veh v).flagAbort = true)
      (hlg : Logged W v l) (hx : AtTip W v l) :
      Act .run W (W.setV v (fun V => { V with flagWait := true }))
  | endRun (W : CWorld) (v l : ℕ) (t : List ℕ) (i : Inv W none none) (hq : (W.link l).vehs = v :: t)
      (hna : ∀ m, v ∉ (W.link m).arrived)
      (hi : ∀ m, (W.node m).incoming = [])
      (hf : (W.veh v).flagWait = true) : Act .run W (W.endTripOn v l)
  | reqErr (W : CWorld) (l : ℕ) (e : CErr) (v : ℕ) (i : Inv W none none) (hv : v ∈ (W.link l).vehs)
      (hd : (W.link l).dst ≠ (W.veh v).dest)
      (hc : W.chooseNext v (W.node (W.link l).dst).outLinks (W.link l).rng = .error e) :
      Act .run W (W.setL l (fun L => { L with exc := some e }))
  | req (W : CWorld) (v l : ℕ) (o : Option ℕ) (rng : ℕ → ℕ) (i : Inv W none none)
      (hv : v ∈ (W.link l).vehs) (hd : (W.link l).dst ≠ (W.veh v).dest)
      (hc : W.chooseNext v (W.node (W.link l).dst).outLinks (W.link l).rng = .ok (o, rng)) (hx : AtTip W v l)
      (hlg : Logged W v l) :
      Act .run W ((W.setV v (fun V => { V with next := o })).setL l
        (fun L => { L with rng := rng, arrived := L.arrived ++ [v] }))
  | waitLog (W : CWorld) (n v : ℕ) (i : Inv W none none) (hv : v ∈ (W.node n).genQ) :
      Act .wait W (W.logData v none)

/-- A sequence of actions of one stage. -/
abbrev Acts (s : Stage) : CWorld → CWorld → Prop := ReflTransGen (Act s)

/-- A specified route decides. -/
theorem chooseNext_route {W : CWorld} {v : ℕ} {ls : List ℕ} {rng rng' : ℕ → ℕ} {a : ℕ}
    (h : W.chooseNext v ls rng = .ok (some a, rng')) (hr : (W.veh v).route ≠ []) :
    (W.veh v).route[(W.veh v).count]? = some a := by
  unfold chooseNext at h
  split at h
  · simp at h
  · split at h
    · simp at h
    · rename_i f hf
      split at h
      · simp only [Except.ok.injEq, Prod.mk.injEq, Option.some.injEq] at h
        rw [hf, h.1]
      · simp at h

/-- Without a specified route the choice is among the links left by the filters. -/
theorem chooseNext_pick {W : CWorld} {v : ℕ} {ls : List ℕ} {rng rng' : ℕ → ℕ} {a : ℕ}
    (h : W.chooseNext v ls rng = .ok (some a, rng')) (hr : (W.veh v).route = []) :
    a ∈ W.cyclicFilter v (W.avoidFilter v (W.preferFilter v ls)) := by
  unfold chooseNext at h
  split at h
  · simp at h
  · rw [if_neg (fun hc => hc hr)] at h
    simp only at h
    split at h
    · simp at h
    · simp only [Except.ok.injEq] at h
      exact drawLink_mem (show (W.drawLink v _ rng).1 = some a by rw [h])

/-! ## The node stage -/

theorem genLoop_acts {n : ℕ} (k : ℕ) {W : CWorld} (i : Inv W none none)
    (hinc : ∀ m, (W.node m).incoming = []) : Acts .gen W (CWorld.genLoop n k W) := by
  induction k generalizing W with
  | zero => exact .refl
  | succ k ih =>
    simp only [CWorld.genLoop]
    cases hq : (W.node n).genQ with
    | nil => exact .refl
    | cons v t =>
      simp only
      obtain ⟨hvn, hst, hor⟩ := (i.gen n v).1 (by rw [hq]; simp)
      have hnot : ∀ m, v ∉ (W.link m).vehs := fun m hm => by
        have := (i.mem m v hm).2.1; rw [hst] at this; simp at this
      cases hc : W.chooseNext v (W.node n).outLinks (W.node n).rng with
      | error e => exact .single (Act.genErr W n e v t i hq hc)
      | ok p =>
        obtain ⟨o, rng⟩ := p
        simp only
        have a1 := Act.choose W n v t o rng i hinc hq hc
        have hcore : (W.setN n (fun N => { N with rng := rng })).core = W.core :=
          core_setN (fun _ => rfl)
        have i0 := i.congr hcore.symm
        have hinc0 : ∀ m, ((W.setN n (fun N => { N with rng := rng })).node m).incoming = [] :=
          fun m => by rw [core_incoming hcore m]; exact hinc m
        have hq0 : ((W.setN n (fun N => { N with rng := rng })).node n).genQ = v :: t := by
          rw [core_genQ hcore n]; exact hq
        have hout : ((W.setN n (fun N => { N with rng := rng })).node n).outLinks =
            (W.node n).outLinks := by rw [setN_node, if_pos rfl]
        have hnot0 : ∀ m, v ∉ ((W.setN n (fun N => { N with rng := rng })).link m).vehs := hnot
        have hg0 : (W.setN n (fun N => { N with rng := rng })).g = W.g := rfl
        have hveh0 : W.veh = (W.setN n (fun N => { N with rng := rng })).veh := rfl
        have hlink0 : (W.setN n (fun N => { N with rng := rng })).link = W.link := rfl
        generalize W.setN n (fun N => { N with rng := rng }) = W0 at *
        have i1 : Inv (W0.setV v (fun V => { V with next := o })) none none := by
          refine Inv.setFree i0 (fun V => ⟨rfl, rfl, rfl, rfl, rfl, rfl⟩) (i0.not_arrived hnot0) ?_
            (fun h => Or.inl h)
          intro m hm
          rw [hinc0 m] at hm
          simp at hm
        cases o with
        | none => exact .single a1
        | some l =>
          simp only
          split
          · rename_i hcan
            have hlo := chooseNext_mem hc
            have hl : l < W.g.nLinks := ((i.outL n l).1 hlo).1
            have hd := i1.depart (n := n) (v := v) (l := l) (t := t) hq0 (by rw [setV_g, hg0]; exact hl)
              (fun m hm => by rw [setV_node, hinc0 m] at hm; simp at hm)
            have hinc2 : ∀ m, (((W0.setV v (fun V => { V with next := some l })).depart n v l).node
                m).incoming = [] := by
              intro m
              rw [core_incoming (core_depart _ n v l) m]
              simp only [CWorld.enterQ, CWorld.departPre, setL_node, attach_node, setV_node, setN_node]
              have h0 := hinc0 m
              split
              · rename_i e; subst e; simpa using h0
              · exact h0
            have a2 : Act .gen (W0.setV v (fun V => { V with next := some l })) _ :=
              Act.depart _ n v l t i1 hinc0 hq0 (by rw [setV_node, hout]; exact hlo)
                (by rw [setV_veh, if_pos rfl]) hcan
                (by rw [setV_veh, if_pos rfl, ← hveh0]; exact chooseNext_route hc)
                (by
                  rw [setV_veh, if_pos rfl, ← hveh0]
                  intro hr
                  have := chooseNext_pick hc hr
                  simp only [cyclicFilter, avoidFilter, preferFilter, setV_veh, if_pos, setV_node, setV_link,
                    setV_g, hout, hlink0, hg0, ← hveh0] at this ⊢
                  exact this)
            exact (ReflTransGen.single a1).trans ((ReflTransGen.single a2).trans (ih hd.1 hinc2))
          · exact .single a1

theorem nodeStage_acts {W : CWorld} (r : Rest W) (n : ℕ) : Acts .gen W (W.nodeStage n) := by
  have h1 : Acts .gen W (W.generate n) := by
    unfold generate
    split
    · exact .refl
    · exact genLoop_acts _ r.inv r.inc
  exact h1.trans ((ReflTransGen.single (Act.signal _ n)).trans (.single (Act.flow _ n)))

theorem foldl_acts {α : Type} {s : Stage} {f : CWorld → α → CWorld}
    (hr : ∀ W a, Rest W → Rest (f W a) ∧ Keep W (f W a))
    (h : ∀ W a, Rest W → Acts s W (f W a)) (xs : List α) {W : CWorld} (r : Rest W) :
    Acts s W (xs.foldl f W) := by
  induction xs generalizing W with
  | nil => exact .refl
  | cons a t ih => exact (h W a r).trans (ih (hr W a r).1)

/-! ## Transfers -/

theorem pickMerge_acts (W : CWorld) (n : ℕ) (vs : List ℕ) : Acts .trans W (W.pickMerge n vs).2 := by
  unfold pickMerge
  split
  · exact .refl
  · rcases h : randomChoice W.g.fl vs (vs.map W.priOf) (W.node n).rng with ⟨o, rng⟩
    exact .single (Act.draw W n rng)

theorem pickMerge_same (W : CWorld) (n : ℕ) (vs : List ℕ) :
    (W.pickMerge n vs).2.link = W.link ∧ (W.pickMerge n vs).2.veh = W.veh ∧
      (W.pickMerge n vs).2.g = W.g ∧
      ∀ m, ((W.pickMerge n vs).2.node m).flowRem = (W.node m).flowRem ∧
        ((W.pickMerge n vs).2.node m).sigPhase = (W.node m).sigPhase ∧
        ((W.pickMerge n vs).2.node m).sigInt = (W.node m).sigInt ∧
        ((W.pickMerge n vs).2.node m).outLinks = (W.node m).outLinks ∧
        ((W.pickMerge n vs).2.node m).inLinks = (W.node m).inLinks := by
  unfold pickMerge
  split
  · exact ⟨rfl, rfl, rfl, fun _ => ⟨rfl, rfl, rfl, rfl, rfl⟩⟩
  · rcases h : randomChoice W.g.fl vs (vs.map W.priOf) (W.node n).rng with ⟨o, rng⟩
    refine ⟨rfl, rfl, rfl, fun m => ?_⟩
    simp only [setN_node]
    split
    · rename_i e; subst e; exact ⟨rfl, rfl, rfl, rfl, rfl⟩
    · exact ⟨rfl, rfl, rfl, rfl, rfl⟩

theorem canEnter_congr {W W' : CWorld} (hl : W'.link = W.link) (hv : W'.veh = W.veh) (hg : W'.g = W.g)
    (b : ℕ) : W'.canEnter b = W.canEnter b := by
  unfold canEnter gap
  rw [hl, hv, hg]

theorem transferOne_acts {n b : ℕ} {W : CWorld} (k : AtNode n W) :
    Acts .trans W (CWorld.transferOne n W b) := by
  unfold CWorld.transferOne
  split
  · rename_i hcond
    rw [Bool.and_eq_true, Bool.not_eq_true', decide_eq_false_iff_not] at hcond
    split
    · exact .refl
    · rename_i v0 vs hvs
      have hpm := pickMerge_acts W n (v0 :: vs)
      obtain ⟨sl, sv, sg, sn⟩ := pickMerge_same W n (v0 :: vs)
      obtain ⟨hc, kp, hm⟩ := pickMerge_core W n (v0 :: vs)
      split
      · rename_i W1 he
        rw [he] at hpm; exact hpm
      · rename_i v W1 he
        rw [he] at hc kp hm hpm sl sv sg sn
        simp only at hc kp hm hpm sl sv sg sn
        have k1 := k.congr hc.symm
        have hv := hm v rfl
        rw [← hvs, List.mem_filter] at hv
        obtain ⟨hvi, hmay⟩ := hv
        split
        · exact hpm
        · rename_i a hl
          rw [sv] at hl
          unfold mayMove at hmay
          rw [hl] at hmay
          simp only [Bool.and_eq_true, Bool.or_eq_true, decide_eq_true_eq] at hmay
          obtain ⟨⟨⟨hn, hh⟩, hout⟩, hsig⟩ := hmay
          obtain ⟨t, ht⟩ : ∃ t, (W.link a).vehs = v :: t := by
            cases hq : (W.link a).vehs with
            | nil => rw [hq] at hh; simp at hh
            | cons u t => rw [hq] at hh; simp at hh; exact ⟨t, by rw [hh]⟩
          have hva : v ∈ (W.link a).vehs := by rw [ht]; simp
          rcases k.inv.inc n v hvi with h | h | ⟨⟨a', ha', hd⟩, hfw, hb, _⟩
          · simp at h
          · rw [hn] at h; simp at h
          · obtain rfl : a' = a := k.inv.uniq ha' hva
            have hin : a' ∈ (W.node n).inLinks := (k.inv.inL n a').2 ⟨(k.inv.mem a' v hva).2.2.1, hd⟩
            refine hpm.tail (Act.move W1 n v a' b t k1 ?_ ?_ ?_ ?_ ?_ ?_ ?_ ?_ ?_ ?_)
            · rw [(sn n).2.2.2.2]; exact hin
            · rw [sl]; exact ht
            · rw [(sn n).2.2.2.1]; exact hb b hn
            · rw [sv]; exact hn
            · rw [sv]; exact hfw
            · rw [canEnter_congr sl sv sg]; exact hcond.1
            · rw [(sn n).1, sg]; exact hcond.2
            · rw [sl, sg]; exact hout
            · rw [(sn n).2.1, (sn n).2.2.1, sl]; exact hsig
            · rw [core_incoming hc]; exact hvi
  · exact .refl

theorem endFront_acts {n a : ℕ} {W : CWorld} (k : AtNode n W) (ha : a ∈ (W.node n).inLinks) :
    Acts .trans W (W.endFront a).1 := by
  rcases endFront_cases k.inv a with h | ⟨h, t, hq, hf, he⟩
  · rw [h]
  · rw [he]
    obtain ⟨h1, h2⟩ := k.inv.frontOK k.arr ha (by rw [hq]; simp) hf
    exact .single (Act.endFront W h a t k.inv hq h1 h2 hf)

theorem endFronts_acts {n a : ℕ} (j : ℕ) {W : CWorld} (k : AtNode n W) (ha : a ∈ (W.node n).inLinks) :
    Acts .trans W (CWorld.endFronts a j W) := by
  induction j generalizing W with
  | zero => exact .refl
  | succ j ih =>
    simp only [CWorld.endFronts]
    split
    · obtain ⟨p, q, _⟩ := k.endFront ha
      exact (endFront_acts k ha).trans (ih p (by rw [q.inLinks]; exact ha))
    · exact .refl

theorem AtNode.foldl_acts {α : Type} {n : ℕ} {f : CWorld → α → CWorld} (xs : List α) {W : CWorld}
    (h : ∀ W' x, x ∈ xs → AtNode n W' → Keep W W' → NodePost n W' (f W' x))
    (ha : ∀ W' x, x ∈ xs → AtNode n W' → Keep W W' → Acts .trans W' (f W' x)) (k : AtNode n W) :
    Acts .trans W (xs.foldl f W) := by
  have gen : ∀ (ys : List α) (V : CWorld), (∀ x ∈ ys, x ∈ xs) → AtNode n V → Keep W V →
      Acts .trans V (ys.foldl f V) := by
    intro ys
    induction ys with
    | nil => intro V _ _ _; exact .refl
    | cons y t ih =>
      intro V hsub kV kp
      have h1 := h V y (hsub y (by simp)) kV kp
      exact (ha V y (hsub y (by simp)) kV kp).trans
        (ih _ (fun x hx => hsub x (by simp [hx])) h1.at' (kp.trans h1.keep))
  exact gen xs W (fun _ h => h) k (Keep.refl W)

theorem shuffleSlots_acts (W : CWorld) (n : ℕ) : Acts .trans W (W.shuffleSlots n).2 := by
  unfold shuffleSlots
  split
  · exact .refl
  · rcases fisherYates ((W.slots n).length - 1) (W.slots n) (W.node n).rng with ⟨p, rng⟩
    exact .single (Act.draw W n rng)

theorem transfer_acts {W : CWorld} {n : ℕ} (r : Rest W) : Acts .trans W (W.transfer n) := by
  have i := r.inv
  have i1 := i.collect (r.inc n)
  have k1 := Keep.collect W n
  have a1 : AtNode n (W.collect n) := by
    refine ⟨i1, fun a ha => ?_, fun m hm => ?_⟩
    · rw [k1.inLinks] at ha; rw [collect_link, if_pos ha]
    · rw [collect_node]; simp [hm, r.inc m]
  simp only [CWorld.transfer]
  obtain ⟨hc, kc⟩ := shuffleSlots_core (W.collect n) n
  have s1 : Acts .trans W ((W.collect n).shuffleSlots n).2 :=
    (ReflTransGen.single (Act.collect W n i r.inc)).trans (shuffleSlots_acts _ n)
  have a2 : AtNode n ((W.collect n).shuffleSlots n).2 := a1.congr hc.symm
  generalize ((W.collect n).shuffleSlots n).2 = W2 at *
  generalize ((W.collect n).shuffleSlots n).1 = order at *
  have p3 : NodePost n W2 (order.foldl (CWorld.transferOne n) W2) :=
    AtNode.foldl order (fun W' x _ h _ => h.transferOne) a2
  have s3 : Acts .trans W2 (order.foldl (CWorld.transferOne n) W2) :=
    AtNode.foldl_acts order (fun W' x _ h _ => h.transferOne) (fun W' x _ h _ => transferOne_acts h) a2
  generalize order.foldl (CWorld.transferOne n) W2 = W3 at *
  have s4 : Acts .trans W3 ((W3.node n).inLinks.foldl
      (fun W a => CWorld.endFronts a (W.link a).lanes W) W3) :=
    AtNode.foldl_acts _ (fun W' x hx h kp => h.endFronts _ (by rw [kp.inLinks]; exact hx))
      (fun W' x hx h kp => endFronts_acts _ h (by rw [kp.inLinks]; exact hx)) p3.at'
  exact s1.trans (s3.trans (s4.tail (Act.finish _ n)))

theorem transferAll_acts (xs : List ℕ) {W : CWorld} (r : Rest W) :
    Acts .trans W (xs.foldl CWorld.transfer W) := by
  induction xs generalizing W with
  | nil => exact .refl
  | cons n t ih =>
    obtain ⟨a, _, c, _⟩ := r.inv.transfer (n := n) r.inc
    exact (transfer_acts r).trans (ih ⟨a, c⟩)

/-! ## Car following -/

theorem followPass_acts {W : CWorld} (r : Rest W) (l : ℕ) : Acts .follow W (W.followPass l) := by
  unfold CWorld.followPass
  have gen : ∀ (xs : List ℕ) (V : CWorld), V.core = W.core → (∀ v ∈ xs, v ∈ (W.link l).vehs) →
      Acts .follow V (xs.foldl CWorld.carFollow V) := by
    intro xs
    induction xs with
    | nil => intro V _ _; exact .refl
    | cons v t ih =>
      intro V hc hs
      exact (ReflTransGen.single (Act.follow V v l (r.inv.congr hc.symm)
        (by rw [core_vehs hc]; exact hs v (by simp)))).trans
        (ih _ ((core_carFollow V v).trans hc) (fun w hw => hs w (by simp [hw])))
  exact gen _ W rfl (fun _ h => h)

/-! ## The RUN pass -/

theorem waitEnd_acts {W : CWorld} {v l : ℕ} (i : Inv W none none) (hinc : ∀ n, (W.node n).incoming = [])
    (hv : v ∈ (W.link l).vehs) (hna : ∀ m, v ∉ (W.link m).arrived)
    (hc : (W.link l).dst = (W.veh v).dest ∨
      (W.node (W.link l).dst).outLinks = [] ∧ (W.veh v).flagAbort = true) (hlg : Logged W v l)
    (hx : AtTip W v l) : Acts .run W (W.waitEnd v l) := by
  have a1 := Act.flag W v l i hv hc hlg hx
  have i1 : Inv (W.setV v (fun V => { V with flagWait := true })) none none :=
    i.setFree (fun V => ⟨rfl, rfl, rfl, rfl, rfl, rfl⟩) hna (fun n hn => by rw [hinc n] at hn; simp at hn)
      (fun _ => Or.inr ⟨l, hv, hc.imp id And.left⟩)
  simp only [CWorld.waitEnd]
  split
  · rename_i hh
    have hq : ∃ t, (W.link l).vehs = v :: t := by
      rw [setV_link] at hh
      cases hc : (W.link l).vehs with
      | nil => rw [hc] at hh; simp at hh
      | cons a t => rw [hc] at hh; simp at hh; exact ⟨t, by rw [hh]⟩
    obtain ⟨t, hq⟩ := hq
    have hlk : ((W.setV v (fun V => { V with flagWait := true })).veh v).link = some l := by
      rw [setV_veh, if_pos rfl]; exact (i.mem l v hv).1
    rw [endTrip, hlk]
    exact (ReflTransGen.single a1).tail (Act.endRun _ v l t i1 hq hna hinc (by rw [setV_veh, if_pos rfl]))
  · exact .single a1

theorem request_acts {W : CWorld} {v l : ℕ} (i : Inv W none none) (hv : v ∈ (W.link l).vehs)
    (hd : (W.link l).dst ≠ (W.veh v).dest) (hx : AtTip W v l) (hlg : Logged W v l) :
    Acts .run W (W.request v l) := by
  unfold CWorld.request
  cases hc : W.chooseNext v (W.node (W.link l).dst).outLinks (W.link l).rng with
  | error e => exact .single (Act.reqErr W l e v i hv hd hc)
  | ok p => exact .single (Act.req W v l p.1 p.2 i hv hd hc hx hlg)

theorem atEnd_acts {W : CWorld} {v l : ℕ} (i : Inv W none none) (hinc : ∀ n, (W.node n).incoming = [])
    (hv : v ∈ (W.link l).vehs) (hna : ∀ m, v ∉ (W.link m).arrived) (hlg : Logged W v l)
    (hx : AtTip W v l) : Acts .run W (W.atEnd v l) := by
  unfold CWorld.atEnd
  split
  · rename_i h; exact waitEnd_acts i hinc hv hna (Or.inl h) hlg hx
  · rename_i hd
    split
    · rename_i h
      have i1 : Inv (W.setV v (fun V => { V with flagAbort := true, next := none })) none none :=
        i.setFree (fun V => ⟨rfl, rfl, rfl, rfl, rfl, rfl⟩) hna
          (fun n hn => by rw [hinc n] at hn; simp at hn) (fun h => Or.inl h)
      exact (ReflTransGen.single (Act.abort W v l i hv hd h.1 h.2)).trans
        (waitEnd_acts i1 hinc hv hna (Or.inr ⟨h.1, by rw [setV_veh, if_pos rfl]⟩)
          (fun hm => by rw [setV_veh, if_pos rfl]; exact hlg hm)
          (by unfold AtTip; rw [setV_veh, if_pos rfl]; exact hx))
    · exact request_acts i hv hd hx hlg

theorem vehRun_acts {W : CWorld} {v l : ℕ} {s : Option ℕ} (i : Inv W none none)
    (hinc : ∀ n, (W.node n).incoming = []) (hv : v ∈ (W.link l).vehs)
    (hna : ∀ m, v ∉ (W.link m).arrived) : Acts .run W (W.vehUpdate v s) := by
  have hst := (i.mem l v hv).2.1
  have hlk := (i.mem l v hv).1
  have hc1 : (W.logData v s).core = W.core := core_logData W v s
  have hc2 : ((W.logData v s).advance v).core = W.core := (core_advance _ v).trans hc1
  have hst1 : ((W.logData v s).veh v).state = .run := by rw [core_state hc1]; exact hst
  have hlk2 : (((W.logData v s).advance v).veh v).link = some l := by rw [core_linkOf hc2]; exact hlk
  have a1 : Acts .run W ((W.logData v s).advance v) :=
    (ReflTransGen.single (Act.log W v l s i hv)).tail (Act.advance _ v l (i.congr hc1.symm)
      (by rw [core_vehs hc1]; exact hv))
  simp only [CWorld.vehUpdate, hst1, hlk2]
  split
  · rename_i hx
    exact a1.trans (atEnd_acts (i.congr hc2.symm) (fun n => by rw [core_incoming hc2]; exact hinc n)
      (by rw [core_vehs hc2]; exact hv) (fun m => by rw [core_arrived hc2]; exact hna m)
      (fun hm => by
        have e1 : (((W.logData v s).advance v).veh v).log = ((W.logData v s).veh v).log := by
          unfold CWorld.advance; rw [setV_veh, if_pos rfl]
        rw [e1]
        exact logData_logged (by rw [← hm]; exact congrArg CGlob.logMode (core_g hc2).symm) hst hlk) hx)
  · exact a1

theorem runFold_acts {l : ℕ} (ps : List (ℕ × Option ℕ)) {W : CWorld} (i : Inv W none none)
    (hinc : ∀ n, (W.node n).incoming = []) (hnd : (ps.map Prod.fst).Nodup)
    (hv : ∀ p ∈ ps, p.1 ∈ (W.link l).vehs ∧ ∀ m, p.1 ∉ (W.link m).arrived) :
    Acts .run W (ps.foldl (runVeh l) W) := by
  induction ps generalizing W with
  | nil => exact .refl
  | cons p ps ih =>
    simp only [List.foldl_cons]
    obtain ⟨hp1, hp2⟩ := hv p (by simp)
    have hnd' : (ps.map Prod.fst).Nodup := by
      rw [List.map_cons] at hnd; exact (List.nodup_cons.1 hnd).2
    have hne : ∀ q ∈ ps, q.1 ≠ p.1 := fun q hq e => by
      rw [List.map_cons] at hnd
      exact (List.nodup_cons.1 hnd).1 (e ▸ List.mem_map_of_mem hq)
    by_cases he : (W.link l).exc = none
    · have hr : runVeh l W p = W.vehUpdate p.1 p.2 := by simp [runVeh, he]
      rw [hr]
      have h := i.vehRun (s := p.2) hinc hp1 hp2
      exact (vehRun_acts i hinc hp1 hp2).trans (ih h.inv h.inc hnd' (fun q hq =>
        ⟨h.mem q.1 (hne q hq) (hv q (by simp [hq])).1, fun m =>
          h.arr q.1 (hne q hq) m ((hv q (by simp [hq])).2 m)⟩))
    · have hr : runVeh l W p = W := by simp [runVeh, he]
      rw [hr]
      exact ih i hinc hnd' (fun q hq => hv q (by simp [hq]))

theorem runPass_acts {l : ℕ} {W : CWorld} (r : Rest W) (ha : Clear W l) : Acts .run W (W.runPass l) := by
  have hmap := snapPairs_map (W.link l).lanes (W.link l).vehs
  exact runFold_acts (l := l) (snapPairs (W.link l).lanes (W.link l).vehs) r.inv r.inc
    (by rw [hmap]; exact r.inv.nd l) (fun p hp => by
      have hm : p.1 ∈ (W.link l).vehs := by
        rw [← hmap]; exact List.mem_map_of_mem hp
      refine ⟨hm, fun m h => ?_⟩
      have := r.inv.uniq hm (r.inv.arr m p.1 h).1
      subst this
      rw [ha] at h; simp at h)

theorem runAll_acts (xs : List ℕ) (hnd : xs.Nodup) {W : CWorld} (r : Rest W)
    (hc : ∀ l ∈ xs, Clear W l) : Acts .run W (xs.foldl CWorld.runPass W) := by
  induction xs generalizing W with
  | nil => exact .refl
  | cons l t ih =>
    obtain ⟨a, b, c, d⟩ := r.inv.runPass (l := l) r.inc (hc l (by simp))
    obtain ⟨hl, ht⟩ := List.nodup_cons.1 hnd
    exact (runPass_acts r (hc l (by simp))).trans (ih ht ⟨a, c⟩ (fun m hm => by
      unfold Clear
      rw [d m (fun e => hl (e ▸ hm))]; exact hc m (by simp [hm])))

/-! ## The WAIT pass -/

theorem waitPass_acts {W : CWorld} (r : Rest W) (n : ℕ) : Acts .wait W (W.waitPass n) := by
  unfold CWorld.waitPass
  have gen : ∀ (xs : List ℕ) (V : CWorld), V.core = W.core → (∀ v ∈ xs, v ∈ (W.node n).genQ) →
      Acts .wait V (xs.foldl (fun W v => W.vehUpdate v none) V) := by
    intro xs
    induction xs with
    | nil => intro V _ _; exact .refl
    | cons v t ih =>
      intro V hc hs
      have hm := hs v (by simp)
      have hst : (V.veh v).state = .wait := by
        rw [core_state hc]; exact ((r.inv.gen n v).1 hm).2.1
      rw [List.foldl_cons, vehUpdate_wait hst]
      exact (ReflTransGen.single (Act.waitLog V n v (r.inv.congr hc.symm)
        (by rw [core_genQ hc]; exact hm))).trans (ih (V.logData v none) ((core_logData V v none).trans hc)
        (fun w hw => hs w (by simp [hw])))
  exact gen (W.node n).genQ W rfl (fun v hv => hv)

/-! ## The whole region -/

/-- The parallel region, whatever the order of its iterations: link updates, then the actions of the
five stages in order. -/
theorem region_acts {W : CWorld} (r : Rest W) (σ : Sched) (hσ : σ.run.Nodup) :
    ∃ W2 W3 W4 W5, Acts .gen (σ.update.foldl CWorld.linkUpdate W) W2 ∧ Acts .trans W2 W3 ∧
      Acts .follow W3 W4 ∧ Acts .run W4 W5 ∧ Acts .wait W5 (region σ W) ∧
      Rest W2 ∧ Rest W3 ∧ Rest W4 ∧ Rest W5 := by
  unfold CWorld.region
  obtain ⟨r1, k1⟩ := Rest.foldl (fun W l r => Rest.linkUpdate r l) σ.update r
  simp only
  generalize σ.update.foldl CWorld.linkUpdate W = W1 at *
  obtain ⟨r2, k2⟩ := Rest.foldl (fun W n r => Rest.nodeStage r n) σ.gen r1
  have s2 : Acts .gen W1 (σ.gen.foldl CWorld.nodeStage W1) :=
    foldl_acts (fun W n r => Rest.nodeStage r n) (fun W n r => nodeStage_acts r n) σ.gen r1
  generalize σ.gen.foldl CWorld.nodeStage W1 = W2 at *
  obtain ⟨r3, k3, c3⟩ := transferAll r2
  have s3 := transferAll_acts (List.range W2.g.nNodes) r2
  generalize (List.range W2.g.nNodes).foldl CWorld.transfer W2 = W3 at *
  obtain ⟨r4, k4⟩ := Rest.foldl (fun W l r => Rest.followPass r l) σ.follow r3
  have s4 : Acts .follow W3 (σ.follow.foldl CWorld.followPass W3) :=
    foldl_acts (fun W l r => Rest.followPass r l) (fun W l r => followPass_acts r l) σ.follow r3
  have hc4 : (σ.follow.foldl CWorld.followPass W3).core = W3.core :=
    core_foldl _ (fun W l => core_followPass W l) σ.follow W3
  have c4 : ∀ l, Clear (σ.follow.foldl CWorld.followPass W3) l := fun l => by
    unfold Clear; rw [core_arrived hc4]; exact c3 l
  generalize σ.follow.foldl CWorld.followPass W3 = W4 at *
  obtain ⟨r5, k5⟩ := runAll σ.run hσ r4 (fun l _ => c4 l)
  have s5 := runAll_acts σ.run hσ r4 (fun l _ => c4 l)
  generalize σ.run.foldl CWorld.runPass W4 = W5 at *
  exact ⟨W2, W3, W4, W5, s2, s3, s4, s5,
    foldl_acts (fun W n r => Rest.waitPass r n) (fun W n r => waitPass_acts r n) σ.wait r5,
    r2, r3, r4, r5⟩

/-- A property that every action preserves survives the stages after the link updates. -/
theorem region_preserves {W : CWorld} (r : Rest W) (σ : Sched) (hσ : σ.run.Nodup)
    (P : CWorld → Prop) (h : ∀ s V V', Act s V V' → P V → P V')
    (h0 : P (σ.update.foldl CWorld.linkUpdate W)) : P (region σ W) := by
  obtain ⟨W2, W3, W4, W5, s2, s3, s4, s5, s6, _⟩ := region_acts r σ hσ
  have lift : ∀ {s : Stage} {V V' : CWorld}, Acts s V V' → P V → P V' := by
    intro s V V' a p
    induction a with
    | refl => exact p
    | tail _ b ih => exact h _ _ _ b ih
  exact lift s6 (lift s5 (lift s4 (lift s3 (lift s2 h0))))

end UX.Cpp
