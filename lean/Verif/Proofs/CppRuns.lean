import Verif.Proofs.CppHistory

/-!
# The history of a run of the C++ engine
-/

namespace UX.Cpp
open CWorld Relation Spec

/-- The clock moves on. -/
def CWorld.next (W : CWorld) : CWorld := { W with g := { W.g with timestep := W.g.timestep + 1 } }

/-- A run with its history. -/
inductive RunHist : CWorld → List Pass → CWorld → Prop
  | nil (W : CWorld) : RunHist W [] W
  | cons {W V W' : CWorld} {h h' : List Pass} (s : StepHist W V h) (r : RunHist V.next h' W') :
      RunHist W (h ++ h') W'

theorem loop_hist {sched : ℕ → CWorld → Sched} (hs : ∀ t V, (sched t V).Valid V)
    {b : ℕ → List ℕ} (hb : ∀ t, (b t).Nodup) (hd : ∀ s t v, s ≠ t → v ∈ b s → v ∉ b t) (k : ℕ)
    {W W' : CWorld} (r : Rest W)
    (hh : ∀ t, W.g.timestep ≤ t → ∀ v ∈ b t, v < W.g.nVehs ∧ (W.veh v).state = .home)
    (hW : CWorld.loopFrom sched b k W = (W', none)) : ∃ h, RunHist W h W' := by
  induction k generalizing W with
  | zero =>
    rw [CWorld.loopFrom] at hW
    obtain rfl := congrArg Prod.fst hW
    exact ⟨[], .nil _⟩
  | succ k ih =>
    have hv := hs W.g.timestep W
    have hns : (sched W.g.timestep W).run.Nodup := hv.2.2.2.1.nodup_iff.2 List.nodup_range
    obtain ⟨r1, k1⟩ := r.stepWith (sched W.g.timestep W) hns (b W.g.timestep) (hb _) (hh _ le_rfl)
    rw [CWorld.loopFrom] at hW
    cases he : CWorld.stepWith (sched W.g.timestep W) (b W.g.timestep) W with
    | mk W1 e =>
      rw [he] at r1 k1 hW
      simp only at r1 k1 hW
      cases e with
      | some e => simp at hW
      | none =>
        simp only at hW
        obtain ⟨h, s⟩ := step_hist r hv (hb _) (hh _ le_rfl) he
        have hh1 : ∀ t, W.g.timestep + 1 ≤ t → ∀ v ∈ b t, v < W1.g.nVehs ∧ (W1.veh v).state = .home := by
          intro t ht v hv
          obtain ⟨p, q⟩ := hh t (by omega) v hv
          have hv' := k1.home v (fun h => hd _ _ v (by omega) h hv) q
          exact ⟨by rw [k1.nVehs]; exact p, by rw [hv']; exact q⟩
        have e1 : W1.next = { W1 with g := { W1.g with timestep := W.g.timestep + 1 } } := by
          unfold CWorld.next; rw [s.time]
        obtain ⟨h', r'⟩ := ih (W := { W1 with g := { W1.g with timestep := W.g.timestep + 1 } })
          (r1.setG _ rfl rfl rfl rfl rfl) hh1 hW
        exact ⟨h ++ h', .cons s (by rw [e1]; exact r')⟩

theorem main_hist {sched : ℕ → CWorld → Sched} (hs : ∀ t V, (sched t V).Valid V) {W W' : CWorld}
    (r : Rest W) {endTs : ℕ} (h : W.mainLoop sched endTs = (W', none)) : ∃ h, RunHist W h W' := by
  refine loop_hist hs (fun t => bucket_nodup W _ t) ?_ _ r ?_ h
  · intro s t v hne h h'
    exact hne ((mem_bucket.1 h).2.2.symm.trans (mem_bucket.1 h').2.2)
  · intro t _ v hv
    exact ⟨(mem_bucket.1 hv).1, (mem_bucket.1 hv).2.1⟩

/-! ## What does not change -/

theorem SamePar.next (W : CWorld) : SamePar W W.next := ⟨fun _ => rfl, fun _ => rfl, fun _ => rfl⟩
theorem next_fix (W : CWorld) : W.next.g.fix = W.g.fix := rfl

theorem StepHist.fixn {W V : CWorld} {h : List Pass} (s : StepHist W V h) : V.next.g.fix = W.g.fix :=
  (next_fix V).trans s.fix

theorem StepHist.parn {W V : CWorld} {h : List Pass} (s : StepHist W V h) : SamePar W V.next :=
  s.par.trans (SamePar.next V)

theorem StepHist.timen {W V : CWorld} {h : List Pass} (s : StepHist W V h) :
    V.next.g.timestep = W.g.timestep + 1 := by
  show V.g.timestep + 1 = _; rw [s.time]

theorem RunHist.keep {W W' : CWorld} {h : List Pass} (r : RunHist W h W') :
    SamePar W W' ∧ W'.g.fix = W.g.fix ∧ W.g.timestep ≤ W'.g.timestep := by
  induction r with
  | nil W => exact ⟨SamePar.refl W, rfl, le_rfl⟩
  | cons s _ ih =>
    have := s.timen
    exact ⟨s.parn.trans ih.1, ih.2.1.trans s.fixn, by omega⟩

theorem CGlob.fix_nNodes {g g' : CGlob} (h : g.fix = g'.fix) : g.nNodes = g'.nNodes :=
  show g.fix.nNodes = g'.fix.nNodes by rw [h]

/-! ## Time, positions, roads -/

theorem StepHist.time_eq {W V : CWorld} {h : List Pass} (s : StepHist W V h) :
    ∀ e ∈ h, e.time = W.g.timestep := by
  obtain ⟨X, r, _⟩ := s.rep
  exact r.time

theorem RunHist.timed {W W' : CWorld} {h : List Pass} (r : RunHist W h W') :
    Timed W.g.timestep W'.g.timestep h := by
  induction r with
  | nil W => exact ⟨fun e he => by simp at he, List.Pairwise.nil⟩
  | @cons W V W' h h' s r ih =>
    have ht := s.timen
    have hle := r.keep.2.2
    refine ⟨fun e he => ?_, List.pairwise_append.2 ⟨?_, ih.2, fun e he f hf => ?_⟩⟩
    · rcases List.mem_append.1 he with he | he
      · have := s.time_eq e he; omega
      · have := ih.1 e he; omega
    · refine List.pairwise_of_forall_mem_list ?_
      intro e he f hf
      rw [s.time_eq e he, s.time_eq f hf]
    · have := s.time_eq e he
      have := ih.1 f hf
      omega

theorem Spec.Travel.trans {v : ℕ} {p q r : Option ℕ} {h h' : List Pass} (w : Travel v p h q)
    (w' : Travel v q h' r) : Travel v p (h ++ h') r := by
  induction w with
  | nil _ => exact w'
  | own hv hp _ ih => exact .own hv hp (ih w')
  | other hv _ ih => exact .other hv (ih w')

theorem StepHist.walk {W V : CWorld} {h : List Pass} (s : StepHist W V h) (v : ℕ) :
    Travel v (W.veh v).link h (V.veh v).link := by
  obtain ⟨X, r, hp, _⟩ := s.rep
  have := r.walk v
  rw [hp] at this
  exact this

theorem RunHist.walk {W W' : CWorld} {h : List Pass} (r : RunHist W h W') (v : ℕ) :
    Travel v (W.veh v).link h (W'.veh v).link := by
  induction r with
  | nil W => exact .nil _
  | cons s _ ih => exact (s.walk v).trans ih

theorem RunHist.road {W W' : CWorld} {h : List Pass} (r : RunHist W h W') : ∀ e ∈ h, OnRoad W e := by
  induction r with
  | nil W => intro e he; simp at he
  | cons s _ ih =>
    intro e he
    rcases List.mem_append.1 he with he | he
    · exact s.road e he
    · exact (ih e he).congr s.parn (CGlob.fix_nLinks s.fixn)

/-! ## Queues -/

theorem StepHist.fifo {W V : CWorld} {h : List Pass} (s : StepHist W V h) (l : ℕ) :
    ∃ ts, Fifo W V l h ts := by
  obtain ⟨X, r, _, hq, _⟩ := s.rep
  obtain ⟨ts, h1, h2, h3⟩ := r.fifo l
  rw [(hq l).1] at h2
  rw [(hq l).2] at h3
  exact ⟨ts, h1, h2, h3⟩

theorem clock_fix {g g' : CGlob} (h : g.fix = g'.fix) : clock g = clock g' := by
  funext s; unfold clock
  rw [CGlob.fix_fl h, CGlob.fix_deltaT h]

theorem record_fix {g g' : CGlob} (h : g.fix = g'.fix) : record g = record g' := by
  funext e t; unfold record
  rw [CGlob.fix_fl h, CGlob.fix_deltaT h, clock_fix h]

theorem Spec.Fifo.trans {W V W' : CWorld} {l : ℕ} {h h' : List Pass} {ts ts' : List ℚ}
    (hg : V.g.fix = W.g.fix) (f : Fifo W V l h ts) (f' : Fifo V W' l h' ts') :
    Fifo W W' l (h ++ h') (ts ++ ts') := by
  have ho : outOf l (h ++ h') = outOf l h ++ outOf l h' := by simp [outOf]
  have hi : into l (h ++ h') = into l h ++ into l h' := by simp [into]
  refine ⟨?_, ?_, ?_⟩
  · rw [ho]; simp [f.length, f'.length]
  · have e := f'.order
    rw [clock_fix hg] at e
    rw [ho, hi, List.map_append, List.map_append, ← List.append_assoc, f.order, List.append_assoc, e,
      List.zip_append (by simp [f.length]), List.append_assoc]
  · have e := f'.records
    rw [record_fix hg] at e
    rw [ho, e, f.records, List.zipWith_append (by simp [f.length]), List.append_assoc]

theorem RunHist.fifo {W W' : CWorld} {h : List Pass} (r : RunHist W h W') (l : ℕ) :
    ∃ ts, Fifo W W' l h ts := by
  induction r with
  | nil W => exact ⟨[], by simp [outOf], by simp [into, outOf], by simp [outOf]⟩
  | @cons W V W' h h' s r ih =>
    obtain ⟨ts, f⟩ := s.fifo l
    obtain ⟨ts', f'⟩ := ih
    exact ⟨ts ++ ts', Fifo.trans (V := V.next) s.fixn ⟨f.length, f.order, f.records⟩ f'⟩

/-! ## Curves -/

/-- The counts of link `l` are whole numbers of platoons. -/
def Whole (W : CWorld) (l : ℕ) : Prop :=
  (∃ a d : ℕ, countIn W l = a * W.g.deltaN ∧ countOut W l = d * W.g.deltaN) ∧
    (W.g.timestep = 0 → (W.link l).arr 0 = 0 ∧ (W.link l).dep 0 = 0)

theorem StepHist.counts {W V : CWorld} {h : List Pass} (s : StepHist W V h) {l : ℕ}
    (hl : l < W.g.nLinks) (hx : ExactCounts W.g) (hw : Whole W l) :
    (V.link l).arr W.g.timestep = countIn W l + (into l h).length * W.g.deltaN ∧
    (V.link l).dep W.g.timestep = countOut W l + (outOf l h).length * W.g.deltaN ∧
    ∀ t, t ≠ W.g.timestep → (V.link l).arr t = (W.link l).arr t ∧ (V.link l).dep t = (W.link l).dep t := by
  obtain ⟨X, r, _, _, hc⟩ := s.rep
  obtain ⟨c1, c2⟩ := hc l
  obtain ⟨c3, c4, _, _⟩ := c2 hl
  obtain ⟨r1, r2, r3, _, _⟩ := r.counts l
  obtain ⟨⟨a, d, ha, hd⟩, h0⟩ := hw
  have i1 : (X.lk l).arr W.g.timestep = countIn W l := by
    rw [c3]; unfold countIn; split
    · rename_i e; exact (h0 e).1
    · rfl
  have i2 : (X.lk l).dep W.g.timestep = countOut W l := by
    rw [c4]; unfold countOut; split
    · rename_i e; exact (h0 e).2
    · rfl
  refine ⟨?_, ?_, fun t ht => ?_⟩
  · have : (V.link l).arr W.g.timestep = addN W.g (into l h).length ((X.lk l).arr W.g.timestep) := r2
    rw [this, i1, ha, addN_exact hx]; push_cast; ring
  · have : (V.link l).dep W.g.timestep = addN W.g (outOf l h).length ((X.lk l).dep W.g.timestep) := r3
    rw [this, i2, hd, addN_exact hx]; push_cast; ring
  · obtain ⟨p, q⟩ := r1 t ht
    obtain ⟨p', q'⟩ := c1 t ht
    exact ⟨p.trans p', q.trans q'⟩

theorem StepHist.whole {W V : CWorld} {h : List Pass} (s : StepHist W V h) {l : ℕ}
    (hl : l < W.g.nLinks) (hx : ExactCounts W.g) (hw : Whole W l) :
    Whole V.next l ∧ countIn V.next l = countIn W l + (into l h).length * W.g.deltaN ∧
      countOut V.next l = countOut W l + (outOf l h).length * W.g.deltaN := by
  obtain ⟨c1, c2, _⟩ := s.counts hl hx hw
  obtain ⟨⟨a, d, ha, hd⟩, h0⟩ := hw
  have ht := s.timen
  have hn : V.next.g.timestep ≠ 0 := by omega
  have e1 : countIn V.next l = countIn W l + (into l h).length * W.g.deltaN := by
    unfold countIn at c1 ⊢
    rw [if_neg hn, ht]; exact c1
  have e2 : countOut V.next l = countOut W l + (outOf l h).length * W.g.deltaN := by
    unfold countOut at c2 ⊢
    rw [if_neg hn, ht]; exact c2
  refine ⟨⟨⟨a + (into l h).length, d + (outOf l h).length, ?_, ?_⟩, fun h => absurd h hn⟩, e1, e2⟩
  · rw [e1, ha, CGlob.fix_deltaN s.fixn]; push_cast; ring
  · rw [e2, hd, CGlob.fix_deltaN s.fixn]; push_cast; ring

theorem filter_all {α : Type} {p : α → Bool} {xs : List α} (h : ∀ x ∈ xs, p x = true) :
    xs.filter p = xs := List.filter_eq_self.2 h
theorem filter_none {α : Type} {p : α → Bool} {xs : List α} (h : ∀ x ∈ xs, p x = false) :
    xs.filter p = [] := List.filter_eq_nil_iff.2 (fun x hx => by simp [h x hx])

theorem mem_into {l : ℕ} {h : List Pass} {e : Pass} (he : e ∈ into l h) : e ∈ h := (List.mem_filter.1 he).1
theorem mem_outOf {l : ℕ} {h : List Pass} {e : Pass} (he : e ∈ outOf l h) : e ∈ h := (List.mem_filter.1 he).1

theorem RunHist.frozen {W W' : CWorld} {h : List Pass} (r : RunHist W h W') (l : ℕ) :
    ∀ t, t < W.g.timestep → (W'.link l).arr t = (W.link l).arr t ∧ (W'.link l).dep t = (W.link l).dep t := by
  induction r with
  | nil W => exact fun _ _ => ⟨rfl, rfl⟩
  | @cons W V W' h h' s r ih =>
    intro t ht
    obtain ⟨X, rr, _, _, hc⟩ := s.rep
    obtain ⟨c1, _⟩ := hc l
    obtain ⟨r1, _⟩ := rr.counts l
    obtain ⟨p, q⟩ := ih t (by have := s.timen; omega)
    obtain ⟨p1, q1⟩ := r1 t (by omega)
    obtain ⟨p2, q2⟩ := c1 t (by omega)
    exact ⟨p.trans (p1.trans p2), q.trans (q1.trans q2)⟩

theorem RunHist.curves {W W' : CWorld} {h : List Pass} (r : RunHist W h W') {l : ℕ}
    (hl : l < W.g.nLinks) (hx : ExactCounts W.g) (hw : Whole W l) : Curves W W' l h := by
  induction r with
  | nil W => intro s h1 h2; omega
  | @cons W V W' h h' s r ih =>
    have hL : l < V.next.g.nLinks := by rw [CGlob.fix_nLinks s.fixn]; exact hl
    have hx' := ExactCounts.of_fix s.fixn.symm hx
    obtain ⟨w', e1, e2⟩ := s.whole hl hx hw
    have tl := ih hL hx' w'
    have ht := s.timen
    have tm := r.timed
    intro t h1 h2
    have hi : into l (h ++ h') = into l h ++ into l h' := by simp [into]
    have ho : outOf l (h ++ h') = outOf l h ++ outOf l h' := by simp [outOf]
    have fi : (into l h).filter (fun e => e.time ≤ t) = into l h := filter_all (fun e he => by
      have := s.time_eq e (mem_into he); simp; omega)
    have fo : (outOf l h).filter (fun e => e.time ≤ t) = outOf l h := filter_all (fun e he => by
      have := s.time_eq e (mem_outOf he); simp; omega)
    rw [hi, ho, List.filter_append, List.filter_append, fi, fo]
    by_cases e : t = W.g.timestep
    · have gi : (into l h').filter (fun e => e.time ≤ t) = [] := filter_none (fun x hx => by
        have := (tm.1 x (mem_into hx)).1; simp; omega)
      have go : (outOf l h').filter (fun e => e.time ≤ t) = [] := filter_none (fun x hx => by
        have := (tm.1 x (mem_outOf hx)).1; simp; omega)
      rw [gi, go, List.append_nil, List.append_nil]
      obtain ⟨p, q⟩ := r.frozen l t (by omega)
      obtain ⟨c1, c2, _⟩ := s.counts hl hx hw
      rw [p, q, e]
      exact ⟨c1, c2⟩
    · obtain ⟨p, q⟩ := tl t (by omega) h2
      rw [p, q, e1, e2, CGlob.fix_deltaN s.fixn]
      simp only [List.length_append]
      push_cast
      constructor <;> ring

theorem Flow.whole {A D : ℕ → ℕ → ℕ} {W : CWorld} (f : Flow A D W) {l : ℕ} (hl : l < W.g.nLinks) :
    Whole W l := by
  refine ⟨?_, fun h => f.fut l 0 hl (by omega)⟩
  unfold countIn countOut
  by_cases h0 : W.g.timestep = 0
  · exact ⟨0, 0, by simp [h0], by simp [h0]⟩
  · obtain ⟨p, q⟩ := f.past l (W.g.timestep - 1) hl (by omega)
    exact ⟨_, _, by rw [if_neg h0]; exact p, by rw [if_neg h0]; exact q⟩

end UX.Cpp
