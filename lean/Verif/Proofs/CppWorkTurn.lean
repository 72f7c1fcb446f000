import Verif.Proofs.CppWork

/-!
# The turn of a node within a time step
-/

namespace UX.Cpp
open CWorld Spec Relation

/-! ## The node stage, seen from one link -/

theorem Act.gen_aside {W W' : CWorld} (h : Act .gen W W') (c : ℕ) :
    ∃ es, Aside c es W W' ∧ (W'.link c).arrived = (W.link c).arrived := by
  cases h with
  | genErr _ n e v t i hq hc => exact ⟨[], Aside.of_eq rfl rfl, rfl⟩
  | signal _ n => exact ⟨[], Aside.of_eq rfl rfl, rfl⟩
  | flow _ n => exact ⟨[], Aside.of_eq rfl rfl, rfl⟩
  | choose _ n v t o rng i hi hq hc =>
    obtain ⟨hvn, hst, hor⟩ := (i.gen n v).1 (by rw [hq]; simp)
    refine ⟨[], ⟨by simp, rfl, fun w hw => ?_, fun _ => rfl⟩, rfl⟩
    have hne : w ≠ v := by
      rintro rfl
      have := (i.mem c w hw).2.1; rw [hst] at this; simp at this
    rw [setV_veh, if_neg hne]
    exact ⟨rfl, rfl⟩
  | depart _ n v l t i hi hq hl hn hc hch hpk =>
    obtain ⟨hvn, hst, hor⟩ := (i.gen n v).1 (by rw [hq]; simp)
    have hnot : ∀ m, v ∉ (W.link m).vehs := fun m hm => by
      have := (i.mem m v hm).2.1; rw [hst] at this; simp at this
    have e := depart_tv W n v l c
    have harr : ((W.depart n v l).link c).arrived = (W.link c).arrived := by
      simp only [CWorld.depart, setL_link, attach_link, setV_link, setN_link]
      split
      · rename_i e; subst e; rfl
      · rfl
    have hnext : ∀ w ∈ (W.link c).vehs, ((W.depart n v l).veh w).x = (W.veh w).x ∧
        ((W.depart n v l).veh w).next = (W.veh w).next := by
      intro w hw
      have hne : w ≠ v := fun e => hnot c (e ▸ hw)
      simp only [CWorld.depart, setL_veh]
      rw [attach_veh _ _ _ _ (by simpa using hnot l)]
      simp only [setV_veh, setN_veh, if_neg hne]
      constructor <;> trivial
    by_cases hcl : c = l
    · subst hcl
      rw [if_pos rfl] at e
      exact ⟨[v], ⟨congrArg (·.1) e, congrArg (·.2.2.2.2.2) e, hnext, fun h => by simp at h⟩, harr⟩
    · rw [if_neg hcl] at e
      exact ⟨[], ⟨by rw [List.append_nil]; exact congrArg (·.1) e, congrArg (·.2.2.2.2.2) e, hnext,
        fun _ => congrArg (·.2.2.2.2.1) e⟩, harr⟩

theorem Acts.gen_aside {W W' : CWorld} (h : Acts .gen W W') (c : ℕ) :
    ∃ es, Aside c es W W' ∧ (W'.link c).arrived = (W.link c).arrived := by
  induction h with
  | refl => exact ⟨[], Aside.refl c W, rfl⟩
  | tail _ h2 ih =>
    obtain ⟨es, a, b⟩ := ih
    obtain ⟨fs, a', b'⟩ := h2.gen_aside c
    exact ⟨es ++ fs, a.trans a', b'.trans b⟩

/-! ## The worlds at the turn of a node -/

theorem Rest.updates {W : CWorld} (r : Rest W) (σ : Sched) :
    Rest (σ.update.foldl CWorld.linkUpdate W.clearExc) ∧ Keep W (σ.update.foldl CWorld.linkUpdate W.clearExc) := by
  obtain ⟨r1, k1⟩ := Rest.foldl (fun W l r => Rest.linkUpdate r l) σ.update
    (r.congr (core_clearExc W).symm : Rest W.clearExc)
  exact ⟨r1, (Keep.clearExc W).trans k1⟩

theorem Rest.departTurn {W : CWorld} (r : Rest W) (σ : Sched) (n : ℕ) :
    Rest (Spec.departTurn σ W n) ∧ Keep W (Spec.departTurn σ W n) := by
  obtain ⟨r1, k1⟩ := r.updates σ
  obtain ⟨r2, k2⟩ := Rest.foldl (fun W n r => Rest.nodeStage r n) (σ.gen.takeWhile (· ≠ n)) r1
  exact ⟨r2, k1.trans k2⟩

theorem Rest.nodeTurn {W : CWorld} (r : Rest W) (σ : Sched) (n : ℕ) :
    Rest (Spec.nodeTurn σ W n) ∧ Keep W (Spec.nodeTurn σ W n) := by
  obtain ⟨r1, k1⟩ := r.updates σ
  obtain ⟨r2, k2⟩ := Rest.foldl (fun W n r => Rest.nodeStage r n) σ.gen r1
  obtain ⟨r3, k3⟩ := Rest.foldl (f := CWorld.transfer) (fun W n r => by
    obtain ⟨a, b, c, _⟩ := r.inv.transfer (n := n) r.inc
    exact ⟨⟨a, c⟩, b⟩) (List.range n) r2
  exact ⟨r3, (k1.trans k2).trans k3⟩

theorem nodeTurn_succ (σ : Sched) (W : CWorld) (n : ℕ) : nodeTurn σ W (n + 1) = (nodeTurn σ W n).transfer n := by
  unfold nodeTurn
  rw [List.range_succ, List.foldl_append]
  rfl

/-- What the turn of a node sees of a link: the vehicles on it, those that have arrived, where they want to go. -/
structure Seen (c : ℕ) (W W' : CWorld) : Prop where
  vehs : ∃ es, (W'.link c).vehs = (W.link c).vehs ++ es
  arrived : (W'.link c).arrived = (W.link c).arrived
  next : ∀ w ∈ (W.link c).vehs, (W'.veh w).next = (W.veh w).next

theorem Seen.trans {c : ℕ} {W W' W'' : CWorld} (h : Seen c W W') (h' : Seen c W' W'') : Seen c W W'' := by
  obtain ⟨es, e⟩ := h.vehs
  obtain ⟨fs, f⟩ := h'.vehs
  exact ⟨⟨es ++ fs, by rw [f, e, List.append_assoc]⟩, h'.arrived.trans h.arrived, fun w hw =>
    (h'.next w (by rw [e]; exact List.mem_append_left _ hw)).trans (h.next w hw)⟩

theorem Seen.of_eq {c : ℕ} {W W' : CWorld} (h : (W'.link c).vehs = (W.link c).vehs)
    (h' : (W'.link c).arrived = (W.link c).arrived) (hv : W'.veh = W.veh) : Seen c W W' :=
  ⟨⟨[], by rw [h, List.append_nil]⟩, h', fun _ _ => by rw [hv]⟩

theorem Seen.of_aside {c : ℕ} {W W' : CWorld} (h : ∃ es, Aside c es W W' ∧ (W'.link c).arrived = (W.link c).arrived) :
    Seen c W W' := by
  obtain ⟨es, a, b⟩ := h
  exact ⟨⟨es, a.vehs⟩, b, fun w hw => (a.same w hw).2⟩

theorem seen_foldl {α : Type} {c : ℕ} {f : CWorld → α → CWorld}
    (hr : ∀ W a, Rest W → Rest (f W a) ∧ Keep W (f W a)) (xs : List α)
    (h : ∀ W a, a ∈ xs → Rest W → Seen c W (f W a)) {W : CWorld} (r : Rest W) : Seen c W (xs.foldl f W) := by
  induction xs generalizing W with
  | nil => exact Seen.of_eq rfl rfl rfl
  | cons a t ih =>
    exact (h W a (by simp) r).trans (ih (fun W b hb => h W b (by simp [hb])) (hr W a r).1)

theorem linkUpdate_seen (W : CWorld) (c l : ℕ) : Seen c W (W.linkUpdate l) := by
  have e : (W.linkUpdate l).link c = if c = l then _ else W.link c := setL_link ..
  refine Seen.of_eq ?_ ?_ rfl
  · rw [e]; split
    · rename_i e; subst e; rfl
    · rfl
  · rw [e]; split
    · rename_i e; subst e; rfl
    · rfl

/-- Up to the turn of the node at the end of link `a` nothing happens to the vehicles on it. -/
theorem nodeTurn_seen {W : CWorld} (r : Rest W) (σ : Sched) {n a : ℕ} (ha : a < W.g.nLinks)
    (hn : n ≤ (W.link a).dst) : Seen a W (nodeTurn σ W n) := by
  have s0 : Seen a W W.clearExc := Seen.of_eq rfl rfl rfl
  have r0 : Rest W.clearExc := r.congr (core_clearExc W).symm
  have s1 := seen_foldl (c := a) (fun W l r => Rest.linkUpdate r l) σ.update
    (fun W l _ _ => linkUpdate_seen W a l) r0
  obtain ⟨r1, k1⟩ := r.updates σ
  have s2 := seen_foldl (c := a) (fun W n r => Rest.nodeStage r n) σ.gen
    (fun W m _ r => Seen.of_aside ((nodeStage_acts r m).gen_aside a)) r1
  obtain ⟨r2, k2⟩ := Rest.foldl (fun W n r => Rest.nodeStage r n) σ.gen r1
  refine (s0.trans s1).trans (s2.trans ?_)
  have k12 := k1.trans k2
  have hd : ((σ.gen.foldl CWorld.nodeStage (σ.update.foldl CWorld.linkUpdate W.clearExc)).link a).dst =
      (W.link a).dst :=
    (congrArg CLink.dst (k12.link a) : _)
  unfold Spec.nodeTurn
  generalize σ.gen.foldl CWorld.nodeStage (σ.update.foldl CWorld.linkUpdate W.clearExc) = X at *
  clear s0 s1 s2 r0 r1 k1 k2
  rw [← hd] at hn
  clear k12 hd
  induction n with
  | zero => exact Seen.of_eq rfl rfl rfl
  | succ m ih =>
    rw [List.range_succ, List.foldl_append]
    have h1 := ih (by omega)
    refine h1.trans ?_
    obtain ⟨r3, k3⟩ := Rest.foldl (f := CWorld.transfer) (fun W n r => by
      obtain ⟨a, b, c, _⟩ := r.inv.transfer (n := n) r.inc
      exact ⟨⟨a, c⟩, b⟩) (List.range m) r2
    have hni : a ∉ (((List.range m).foldl CWorld.transfer X).node m).inLinks := by
      rw [k3.inLinks]
      intro h
      have := ((r2.inv.inL m a).1 h).2
      omega
    obtain ⟨es, h1, _, h2, _⟩ := transfer_work r3 hni
    exact Seen.of_aside ⟨es, h1, h2⟩

theorem Seen.firstFor {W W' : CWorld} {v a b : ℕ} (s : Seen a W W') (hn : W'.g.nLinks = W.g.nLinks)
    (h : FirstFor W v a b) : FirstFor W' v a b := by
  obtain ⟨es, e⟩ := s.vehs
  refine ⟨by rw [hn]; exact h.on, ?_, by rw [s.arrived]; exact h.arrived, ?_⟩
  · rw [e, List.head?_append, h.first]; rfl
  · rw [s.next v (List.mem_of_head? h.first)]; exact h.next

/-! ## Departures -/

theorem chooseNext_link {W : CWorld} {v : ℕ} {ls : List ℕ} {rng rng' : ℕ → ℕ} {o : Option ℕ} (hl : ls ≠ [])
    (h : W.chooseNext v ls rng = .ok (o, rng')) : ∃ l, o = some l := by
  cases o with
  | some l => exact ⟨l, rfl⟩
  | none =>
    exfalso
    unfold chooseNext at h
    rw [if_neg hl] at h
    split at h
    · split at h
      · simp at h
      · split at h <;> simp at h
    · simp only at h
      split at h
      · simp at h
      · rename_i ho
        simp only [Except.ok.injEq] at h
        obtain ⟨b, hb⟩ := drawLink_some (W := W) (v := v) (cyclicFilter_ne (W := W) (v := v) ho) rng
        rw [h] at hb
        simp at hb

theorem genLoop_work {n : ℕ} (k : ℕ) {W : CWorld} (i : Inv W none none) (hinc : ∀ m, (W.node m).incoming = [])
    (ho : (W.node n).outLinks ≠ []) :
    ∃ ds rest, (W.node n).genQ = ds ++ rest ∧ ((genLoop n k W).node n).genQ = rest ∧ ds.length ≤ k ∧
      (∀ v ∈ ds, ∃ l ∈ (W.node n).outLinks, v ∈ ((genLoop n k W).link l).vehs) ∧
      (rest = [] ∨ ds.length = k ∨ ((genLoop n k W).node n).exc ≠ none ∨
        ∃ v t l, rest = v :: t ∧ ((genLoop n k W).veh v).next = some l ∧ l ∈ (W.node n).outLinks ∧
          ¬ HasRoom (genLoop n k W) l) := by
  induction k generalizing W with
  | zero => exact ⟨[], _, rfl, rfl, Nat.le_refl _, by simp, Or.inr (Or.inl rfl)⟩
  | succ k ih =>
    simp only [CWorld.genLoop]
    cases hq : (W.node n).genQ with
    | nil => exact ⟨[], [], rfl, hq, Nat.zero_le _, by simp, Or.inl rfl⟩
    | cons v t =>
      simp only
      obtain ⟨hvn, hst, hor⟩ := (i.gen n v).1 (by rw [hq]; simp)
      have hnot : ∀ m, v ∉ (W.link m).vehs := fun m hm => by
        have := (i.mem m v hm).2.1; rw [hst] at this; simp at this
      cases hc : W.chooseNext v (W.node n).outLinks (W.node n).rng with
      | error e =>
        refine ⟨[], v :: t, rfl, ?_, Nat.zero_le _, by simp, Or.inr (Or.inr (Or.inl ?_))⟩
        · rw [setN_node, if_pos rfl]; exact hq
        · rw [setN_node, if_pos rfl]; exact Option.some_ne_none e
      | ok p =>
        obtain ⟨o, rng⟩ := p
        obtain ⟨l, rfl⟩ := chooseNext_link ho hc
        have hlo := chooseNext_mem hc
        simp only
        have hcore : (W.setN n (fun N => { N with rng := rng })).core = W.core :=
          core_setN (fun _ => rfl)
        have i0 := i.congr hcore.symm
        have hinc0 : ∀ m, ((W.setN n (fun N => { N with rng := rng })).node m).incoming = [] :=
          fun m => by rw [core_incoming hcore m]; exact hinc m
        have hq0 : ((W.setN n (fun N => { N with rng := rng })).node n).genQ = v :: t := by
          rw [core_genQ hcore n]; exact hq
        have hout : ((W.setN n (fun N => { N with rng := rng })).node n).outLinks =
            (W.node n).outLinks := by rw [setN_node, if_pos rfl]
        have hnot0 : ∀ m, v ∉ ((W.setN n (fun N => { N with rng := rng })).link m).vehs := hnot
        have hg0 : (W.setN n (fun N => { N with rng := rng })).g = W.g := rfl
        generalize W.setN n (fun N => { N with rng := rng }) = W0 at *
        have i1 : Inv (W0.setV v (fun V => { V with next := some l })) none none := by
          refine Inv.setFree i0 (fun V => ⟨rfl, rfl, rfl, rfl, rfl, rfl⟩) (i0.not_arrived hnot0) ?_
            (fun h => Or.inl h)
          intro m hm
          rw [hinc0 m] at hm
          simp at hm
        split
        · have hl : l < W.g.nLinks := ((i.outL n l).1 hlo).1
          have hd := i1.depart (n := n) (v := v) (l := l) (t := t) hq0 (by rw [setV_g, hg0]; exact hl)
            (fun m hm => by rw [setV_node, hinc0 m] at hm; simp at hm)
          have hinc2 : ∀ m, (((W0.setV v (fun V => { V with next := some l })).depart n v l).node
              m).incoming = [] := by
            intro m
            rw [core_incoming (core_depart _ n v l) m]
            simp only [CWorld.enterQ, CWorld.departPre, setL_node, attach_node, setV_node, setN_node]
            have h0 := hinc0 m
            split
            · rename_i e; subst e; simpa using h0
            · exact h0
          have hout2 : (((W0.setV v (fun V => { V with next := some l })).depart n v l).node n).outLinks =
              (W.node n).outLinks := by
            simp only [CWorld.depart, setL_node, attach_node, setV_node, setN_node, if_pos]
            exact hout
          have hq2 : (((W0.setV v (fun V => { V with next := some l })).depart n v l).node n).genQ = t := by
            simp only [CWorld.depart, setL_node, attach_node, setV_node, setN_node, if_pos, hq0]
            rfl
          have hv2 : v ∈ (((W0.setV v (fun V => { V with next := some l })).depart n v l).link l).vehs := by
            rw [depart_vehs, if_pos rfl]; simp
          generalize (W0.setV v (fun V => { V with next := some l })).depart n v l = W2 at *
          obtain ⟨ds, rest, e1, e2, e3, e4, e5⟩ := ih hd.1 hinc2 (by rw [hout2]; exact ho)
          rw [hout2] at e4 e5
          refine ⟨v :: ds, rest, ?_, e2, by simpa using e3, ?_, ?_⟩
          · rw [List.cons_append, ← e1, hq2]
          · intro w hw
            rcases List.mem_cons.1 hw with rfl | hw
            · obtain ⟨es, a, _⟩ := Acts.gen_aside (genLoop_acts (n := n) k hd.1 hinc2) l
              exact ⟨l, hlo, by rw [a.vehs]; exact List.mem_append_left _ hv2⟩
            · exact e4 w hw
          · rcases e5 with e | e | e | e
            · exact Or.inl e
            · exact Or.inr (Or.inl (by simpa using e))
            · exact Or.inr (Or.inr (Or.inl e))
            · exact Or.inr (Or.inr (Or.inr e))
        · rename_i hce
          refine ⟨[], v :: t, rfl, hq0, Nat.zero_le _, by simp, Or.inr (Or.inr (Or.inr ?_))⟩
          exact ⟨v, t, l, rfl, by rw [setV_veh, if_pos rfl], hlo, fun h => hce (hasRoom_iff.2 h)⟩

/-- The departures at one node. -/
theorem nodeStage_work {X : CWorld} (r : Rest X) (n : ℕ) :
    ∃ ds rest, (X.node n).genQ = ds ++ rest ∧ ((X.nodeStage n).node n).genQ = rest ∧
      ds.length ≤ ((X.node n).outLinks.map (fun l => (X.link l).lanes)).sum ∧
      (∀ v ∈ ds, ∃ l ∈ (X.node n).outLinks, v ∈ ((X.nodeStage n).link l).vehs) ∧
      (rest = [] ∨ (X.node n).outLinks = [] ∨
        ds.length = ((X.node n).outLinks.map (fun l => (X.link l).lanes)).sum ∨
        ((X.nodeStage n).node n).exc ≠ none ∨
        ∃ v t l, rest = v :: t ∧ ((X.nodeStage n).veh v).next = some l ∧ l ∈ (X.node n).outLinks ∧
          ¬ HasRoom (X.nodeStage n) l) := by
  have hl : (X.nodeStage n).link = (X.generate n).link := rfl
  have hv : (X.nodeStage n).veh = (X.generate n).veh := rfl
  have hq : ((X.nodeStage n).node n).genQ = ((X.generate n).node n).genQ := by
    simp only [CWorld.nodeStage, CWorld.flowUpdate, CWorld.signalUpdate, setN_node, if_true]
  have he : ((X.nodeStage n).node n).exc = ((X.generate n).node n).exc := by
    simp only [CWorld.nodeStage, CWorld.flowUpdate, CWorld.signalUpdate, setN_node, if_true]
  have hr : ∀ l, HasRoom (X.nodeStage n) l ↔ HasRoom (X.generate n) l := fun l => Iff.rfl
  rw [hl, hv, hq, he]
  simp only [hr]
  clear hl hv hq he hr
  unfold CWorld.generate
  split
  · rename_i h
    refine ⟨[], (X.node n).genQ, rfl, rfl, Nat.zero_le _, by simp, ?_⟩
    rcases h with h | h
    · exact Or.inl h
    · exact Or.inr (Or.inl h)
  · rename_i h
    push Not at h
    obtain ⟨ds, rest, e1, e2, e3, e4, e5⟩ := genLoop_work (n := n)
      ((X.node n).outLinks.map (fun l => (X.link l).lanes)).sum r.inv r.inc h.2
    refine ⟨ds, rest, e1, e2, e3, e4, ?_⟩
    rcases e5 with e | e
    · exact Or.inl e
    · exact Or.inr (Or.inr e)

end UX.Cpp
