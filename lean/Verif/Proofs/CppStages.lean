import Verif.Proofs.CppPace
import Verif.Proofs.CppKinReach
import Verif.Proofs.CppFollowReach

/-!
# The stages of a time step of the C++ engine
-/

namespace UX.Cpp
open CWorld Relation Spec

/-! ## The RUN pass -/

/-- Actions of the RUN pass in which nothing but ends of trips is logged. -/
def Tail (W W' : CWorld) : Prop := Act .run W W' ∧ ∀ w, Mute (W.veh w).log (W'.veh w).log

theorem mute_setV {W : CWorld} {v : ℕ} {f : CVeh → CVeh} (h : ∀ V, (f V).log = V.log) (w : ℕ) :
    Mute (W.veh w).log ((W.setV v f).veh w).log := by
  left; rw [setV_veh]; split
  · rename_i e; subst e; exact h _
  · rfl

theorem waitEnd_tails {W : CWorld} {v l : ℕ} (i : Inv W none none) (hinc : ∀ n, (W.node n).incoming = [])
    (hv : v ∈ (W.link l).vehs) (hna : ∀ m, v ∉ (W.link m).arrived)
    (hc : (W.link l).dst = (W.veh v).dest ∨
      (W.node (W.link l).dst).outLinks = [] ∧ (W.veh v).flagAbort = true) (hlg : Logged W v l)
    (hx : AtTip W v l) : ReflTransGen Tail W (W.waitEnd v l) := by
  have a1 : Tail W _ := ⟨Act.flag W v l i hv hc hlg hx, mute_setV (fun _ => rfl)⟩
  have i1 : Inv (W.setV v (fun V => { V with flagWait := true })) none none :=
    i.setFree (fun V => ⟨rfl, rfl, rfl, rfl, rfl, rfl⟩) hna (fun n hn => by rw [hinc n] at hn; simp at hn)
      (fun _ => Or.inr ⟨l, hv, hc.imp id And.left⟩)
  simp only [CWorld.waitEnd]
  split
  · rename_i hh
    have hq : ∃ t, (W.link l).vehs = v :: t := by
      rw [setV_link] at hh
      cases hc : (W.link l).vehs with
      | nil => rw [hc] at hh; simp at hh
      | cons a t => rw [hc] at hh; simp at hh; exact ⟨t, by rw [hh]⟩
    obtain ⟨t, hq⟩ := hq
    have hlk : ((W.setV v (fun V => { V with flagWait := true })).veh v).link = some l := by
      rw [setV_veh, if_pos rfl]; exact (i.mem l v hv).1
    rw [endTrip, hlk]
    refine (ReflTransGen.single a1).tail
      ⟨Act.endRun _ v l t i1 hq hna hinc (by rw [setV_veh, if_pos rfl]), fun w => ?_⟩
    by_cases e : w = v
    · subst e; exact endTripOn_quiet _ w l
    · exact Or.inl (pkey_log (endTripOn_pkey_ne _ e))
  · exact .single a1

theorem request_tails {W : CWorld} {v l : ℕ} (i : Inv W none none) (hv : v ∈ (W.link l).vehs)
    (hd : (W.link l).dst ≠ (W.veh v).dest) (hx : AtTip W v l) (hlg : Logged W v l) :
    ReflTransGen Tail W (W.request v l) := by
  unfold CWorld.request
  cases hc : W.chooseNext v (W.node (W.link l).dst).outLinks (W.link l).rng with
  | error e => exact .single ⟨Act.reqErr W l e v i hv hd hc, fun w => Or.inl rfl⟩
  | ok p =>
    exact .single ⟨Act.req W v l p.1 p.2 i hv hd hc hx hlg, fun w => by
      rw [setL_veh]; exact mute_setV (by intro V; rfl) w⟩

theorem atEnd_tails {W : CWorld} {v l : ℕ} (i : Inv W none none) (hinc : ∀ n, (W.node n).incoming = [])
    (hv : v ∈ (W.link l).vehs) (hna : ∀ m, v ∉ (W.link m).arrived) (hlg : Logged W v l)
    (hx : AtTip W v l) : ReflTransGen Tail W (W.atEnd v l) := by
  unfold CWorld.atEnd
  split
  · rename_i h; exact waitEnd_tails i hinc hv hna (Or.inl h) hlg hx
  · rename_i hd
    split
    · rename_i h
      have i1 : Inv (W.setV v (fun V => { V with flagAbort := true, next := none })) none none :=
        i.setFree (fun V => ⟨rfl, rfl, rfl, rfl, rfl, rfl⟩) hna
          (fun n hn => by rw [hinc n] at hn; simp at hn) (fun h => Or.inl h)
      exact (ReflTransGen.single ⟨Act.abort W v l i hv hd h.1 h.2, mute_setV (fun _ => rfl)⟩).trans
        (waitEnd_tails i1 hinc hv hna (Or.inr ⟨h.1, by rw [setV_veh, if_pos rfl]⟩)
          (fun hm => by rw [setV_veh, if_pos rfl]; exact hlg hm)
          (by unfold AtTip; rw [setV_veh, if_pos rfl]; exact hx))
    · exact request_tails i hv hd hx hlg

theorem vehRun_tails {W : CWorld} {v l : ℕ} {s : Option ℕ} (i : Inv W none none)
    (hinc : ∀ n, (W.node n).incoming = []) (hv : v ∈ (W.link l).vehs)
    (hna : ∀ m, v ∉ (W.link m).arrived) :
    ReflTransGen Tail ((W.logData v s).advance v) (W.vehUpdate v s) := by
  have hst := (i.mem l v hv).2.1
  have hlk := (i.mem l v hv).1
  have hc1 : (W.logData v s).core = W.core := core_logData W v s
  have hc2 : ((W.logData v s).advance v).core = W.core := (core_advance _ v).trans hc1
  have hst1 : ((W.logData v s).veh v).state = .run := by rw [core_state hc1]; exact hst
  have hlk2 : (((W.logData v s).advance v).veh v).link = some l := by rw [core_linkOf hc2]; exact hlk
  simp only [CWorld.vehUpdate, hst1, hlk2]
  split
  · rename_i hx
    exact atEnd_tails (i.congr hc2.symm) (fun n => by rw [core_incoming hc2]; exact hinc n)
      (by rw [core_vehs hc2]; exact hv) (fun m => by rw [core_arrived hc2]; exact hna m)
      (fun hm => by
        have e1 : (((W.logData v s).advance v).veh v).log = ((W.logData v s).veh v).log := by
          unfold CWorld.advance; rw [setV_veh, if_pos rfl]
        rw [e1]
        exact logData_logged (by rw [← hm]; exact congrArg CGlob.logMode (core_g hc2).symm) hst hlk) hx
  · exact .refl

/-- What may be carried through the RUN pass; the second argument tells which vehicles have moved. -/
structure RunLaw (J : CWorld → (ℕ → Prop) → Prop) : Prop where
  weaken : ∀ {W : CWorld} {D D' : ℕ → Prop}, J W D → (∀ w, D' w → D w) → J W D'
  act : ∀ {W W' : CWorld} {D : ℕ → Prop}, Act .run W W' → (∀ w, Mute (W.veh w).log (W'.veh w).log) → J W D → J W' D
  move : ∀ {W : CWorld} {D : ℕ → Prop} {v l : ℕ} (s : Option ℕ), Inv W none none → v ∈ (W.link l).vehs → J W D →
    J ((W.logData v s).advance v) (fun w => D w ∨ w = v)

section
variable {J : CWorld → (ℕ → Prop) → Prop} (law : RunLaw J)
include law

theorem RunLaw.acts {W W' : CWorld} {D : ℕ → Prop} (a : ReflTransGen Tail W W') (h : J W D) : J W' D := by
  induction a with
  | refl => exact h
  | tail _ c ih => exact law.act c.1 c.2 ih

theorem RunLaw.fold {l : ℕ} (ps : List (ℕ × Option ℕ)) {W : CWorld} (i : Inv W none none)
    (hinc : ∀ n, (W.node n).incoming = []) (hnd : (ps.map Prod.fst).Nodup)
    (hv : ∀ p ∈ ps, p.1 ∈ (W.link l).vehs ∧ ∀ m, p.1 ∉ (W.link m).arrived)
    {D : ℕ → Prop} (h : J W D) :
    J (ps.foldl (runVeh l) W) (fun w => D w ∨ w ∈ ps.map Prod.fst ∧
      ((ps.foldl (runVeh l) W).link l).exc = none) := by
  induction ps generalizing W D with
  | nil => exact law.weaken h (fun w hw => hw.resolve_right (by simp))
  | cons p ps ih =>
    have hrest := runFold_acts (p :: ps) i hinc hnd hv
    simp only [List.foldl_cons] at hrest ⊢
    obtain ⟨hp1, hp2⟩ := hv p (by simp)
    have hnd' : (ps.map Prod.fst).Nodup := by
      rw [List.map_cons] at hnd; exact (List.nodup_cons.1 hnd).2
    have hne : ∀ q ∈ ps, q.1 ≠ p.1 := fun q hq e => by
      rw [List.map_cons] at hnd
      exact (List.nodup_cons.1 hnd).1 (e ▸ List.mem_map_of_mem hq)
    by_cases he : (W.link l).exc = none
    · have hr : runVeh l W p = W.vehUpdate p.1 p.2 := by simp [runVeh, he]
      rw [hr]
      have hu := i.vehRun (s := p.2) hinc hp1 hp2
      have h2 := law.move p.2 i hp1 h
      have h3 := law.acts (vehRun_tails (s := p.2) i hinc hp1 hp2) h2
      have h4 := ih hu.inv hu.inc hnd' (fun q hq =>
        ⟨hu.mem q.1 (hne q hq) (hv q (by simp [hq])).1, fun m =>
          hu.arr q.1 (hne q hq) m ((hv q (by simp [hq])).2 m)⟩) h3
      refine law.weaken h4 (fun w hw => ?_)
      rcases hw with hw | ⟨hw, hex⟩
      · exact Or.inl (Or.inl hw)
      · rw [List.map_cons] at hw
        rcases List.mem_cons.1 hw with e | e
        · exact Or.inl (Or.inr e)
        · exact Or.inr ⟨e, hex⟩
    · have hr : runVeh l W p = W := by simp [runVeh, he]
      rw [hr] at hrest ⊢
      refine law.weaken (ih i hinc hnd' (fun q hq => hv q (by simp [hq])) h) (fun w hw => ?_)
      rcases hw with hw | ⟨_, hex⟩
      · exact Or.inl hw
      · exact absurd (Acts.exc (Or.inl rfl) hrest l hex) he

theorem RunLaw.pass {l : ℕ} {W : CWorld} (r : Rest W) (ha : Clear W l) {D : ℕ → Prop} (h : J W D) :
    J (W.runPass l) (fun w => D w ∨ w ∈ (W.link l).vehs ∧ ((W.runPass l).link l).exc = none) := by
  have hmap := snapPairs_map (W.link l).lanes (W.link l).vehs
  have := law.fold (l := l) (snapPairs (W.link l).lanes (W.link l).vehs) r.inv r.inc
    (by rw [hmap]; exact r.inv.nd l) (fun p hp => by
      have hm : p.1 ∈ (W.link l).vehs := by
        rw [← hmap]; exact List.mem_map_of_mem hp
      refine ⟨hm, fun m h => ?_⟩
      have := r.inv.uniq hm (r.inv.arr m p.1 h).1
      subst this
      rw [ha] at h; simp at h) h
  rw [hmap] at this
  exact this

omit law in
/-- Vehicles only leave links in the RUN pass. -/
theorem Acts.runVehs {W W' : CWorld} (a : Acts .run W W') (l w : ℕ) (h : w ∈ (W'.link l).vehs) :
    w ∈ (W.link l).vehs := by
  induction a with
  | refl => exact h
  | tail _ c ih =>
    refine ih ?_
    cases c with
    | log _ v l s i hv => rw [core_vehs (core_logData _ v s)] at h; exact h
    | advance _ v l i hv => exact h
    | abort _ v l i hv hd ho ha => exact h
    | flag _ v l i hv hc => exact h
    | endRun _ v l t i hq hna hi hf =>
      rw [endTripOn_vehs] at h
      split at h
      · rename_i e; subst e; exact List.mem_of_mem_tail h
      · exact h
    | reqErr _ l e =>
      rw [setL_link] at h; split at h
      · rename_i e; subst e; exact h
      · exact h
    | req _ v l o rng i hv hd hc =>
      rw [setL_link] at h; split at h
      · rename_i e; subst e; exact h
      · exact h

theorem RunLaw.all (xs : List ℕ) (hnd : xs.Nodup) {W : CWorld} (r : Rest W)
    (hc : ∀ l ∈ xs, Clear W l) {D : ℕ → Prop} (h : J W D)
    (hex : ∀ l ∈ xs, ((xs.foldl CWorld.runPass W).link l).exc = none) :
    J (xs.foldl CWorld.runPass W) (fun w => D w ∨
      ∃ l ∈ xs, w ∈ ((xs.foldl CWorld.runPass W).link l).vehs) := by
  induction xs generalizing W D with
  | nil => exact law.weaken h (fun w hw => hw.resolve_right (by simp))
  | cons l t ih =>
    obtain ⟨hl, ht⟩ := List.nodup_cons.1 hnd
    have hcl := hc l (by simp)
    obtain ⟨a, b, c, d⟩ := r.inv.runPass (l := l) r.inc hcl
    have hct : ∀ m ∈ t, Clear (W.runPass l) m := fun m hm => by
      unfold Clear
      rw [d m (fun e => hl (e ▸ hm))]; exact hc m (by simp [hm])
    have aall := runAll_acts (l :: t) hnd r hc
    have arest := runAll_acts t ht ⟨a, c⟩ hct
    rw [List.foldl_cons] at aall hex ⊢
    have h1 := law.pass r hcl h
    have he := Acts.exc (Or.inl rfl) arest l (hex l (by simp))
    have h2 := ih ht ⟨a, c⟩ hct h1 (fun m hm => hex m (by simp [hm]))
    refine law.weaken h2 (fun w hw => ?_)
    rcases hw with hw | ⟨m, hm', hw⟩
    · exact Or.inl (Or.inl hw)
    · rcases List.mem_cons.1 hm' with e | e
      · subst e
        exact Or.inl (Or.inr ⟨Acts.runVehs aall m w hw, he⟩)
      · exact Or.inr ⟨m, e, hw⟩

end

/-! ## All stages -/

/-- The worlds between the stages of the parallel region of a time step without exceptions. -/
structure Stages (W W1 W2 W3 W4 W5 W6 : CWorld) : Prop where
  r1 : Rest W1
  k1 : Keep W W1
  veh1 : W1.veh = W.veh
  tt1 : ∀ l, (∀ t, t ≠ W.g.timestep → (W1.link l).ttInst t = (W.link l).ttInst t) ∧
    (l < W.g.nLinks → (W1.link l).ttInst W.g.timestep = W.newTt l)
  req1 : ∀ v, Req W1 v → Req W v
  gen : Acts .gen W1 W2
  r2 : Rest W2
  trans : Acts .trans W2 W3
  r3 : Rest W3
  clear : ∀ v, ¬ Req W3 v
  aim : Aimed W3 W4 (fun w => ∃ l, w ∈ (W3.link l).vehs)
  r4 : Rest W4
  req4 : ∀ v, ¬ Req W4 v
  k4 : Keep W3 W4
  run : Acts .run W4 W5
  moved : ∀ J : CWorld → (ℕ → Prop) → Prop, RunLaw J → J W4 (fun _ => False) →
    J W5 (fun w => ∃ l, w ∈ (W5.link l).vehs)
  r5 : Rest W5
  wait : Acts .wait W5 W6
  r6 : Rest W6

theorem linkUpdates_tt (xs : List ℕ) (hnd : xs.Nodup) (W : CWorld) (l : ℕ) :
    (∀ t, t ≠ W.g.timestep → ((xs.foldl CWorld.linkUpdate W).link l).ttInst t = (W.link l).ttInst t) ∧
    ((xs.foldl CWorld.linkUpdate W).link l).ttInst W.g.timestep =
      if l ∈ xs then W.newTt l else (W.link l).ttInst W.g.timestep := by
  induction xs generalizing W with
  | nil => exact ⟨fun _ _ => rfl, by simp⟩
  | cons m t ih =>
    obtain ⟨hm, ht⟩ := List.nodup_cons.1 hnd
    obtain ⟨a, b⟩ := ih ht (W.linkUpdate m)
    have eg : (W.linkUpdate m).g = W.g := rfl
    have ev : (W.linkUpdate m).veh = W.veh := rfl
    rw [List.foldl_cons]
    rw [eg] at a b
    by_cases e : l = m
    · subst e
      rw [if_neg hm] at b
      have el : ((W.linkUpdate l).link l).ttInst = upd (W.link l).ttInst W.g.timestep (W.newTt l) := by
        unfold CWorld.linkUpdate; rw [setL_link, if_pos rfl]
      rw [el] at a b
      refine ⟨fun s hs => ?_, ?_⟩
      · rw [a s hs]; unfold upd; rw [if_neg hs]
      · rw [b, if_pos (by simp)]; unfold upd; rw [if_pos rfl]
    · have el : (W.linkUpdate m).link l = W.link l := by
        unfold CWorld.linkUpdate; rw [setL_link, if_neg e]
      have en : (W.linkUpdate m).newTt l = W.newTt l := by
        unfold CWorld.newTt; rw [el, ev, eg]
      rw [el, en] at b
      rw [el] at a
      refine ⟨a, ?_⟩
      rw [b]
      simp [e]

theorem region_split {W : CWorld} (r : Rest W) (σ : Sched) (hσ : σ.Valid W)
    (hex : ∀ l, l < W.g.nLinks → ((region σ W).link l).exc = none) :
    ∃ W1 W2 W3 W4 W5, Stages W W1 W2 W3 W4 W5 (region σ W) := by
  have hrun : σ.run.Nodup := hσ.2.2.2.1.nodup_iff.2 List.nodup_range
  have hupd : σ.update.Nodup := hσ.1.nodup_iff.2 List.nodup_range
  unfold CWorld.region at hex ⊢
  obtain ⟨r1, k1⟩ := Rest.foldl (fun W l r => Rest.linkUpdate r l) σ.update r
  obtain ⟨_, u2, u3, u4⟩ := linkUpdates_par σ.update W
  have htt := linkUpdates_tt σ.update hupd W
  have hreq : ∀ v, Req (σ.update.foldl CWorld.linkUpdate W) v → Req W v := by
    have : ∀ v (ls : List ℕ) (W : CWorld), Req (ls.foldl CWorld.linkUpdate W) v → Req W v := by
      intro v ls
      induction ls with
      | nil => exact fun _ h => h
      | cons l t ih =>
        intro W h
        exact Req.of_eq (W' := W.linkUpdate l) (linkUpdate_arrived W l) (fun _ h => h) (ih _ h)
    exact fun v => this v _ _
  have htt' : ∀ l, (∀ t, t ≠ W.g.timestep →
      ((σ.update.foldl CWorld.linkUpdate W).link l).ttInst t = (W.link l).ttInst t) ∧
      (l < W.g.nLinks → ((σ.update.foldl CWorld.linkUpdate W).link l).ttInst W.g.timestep = W.newTt l) := fun l =>
    ⟨(htt l).1, fun hl => by rw [(htt l).2, if_pos (hσ.1.mem_iff.2 (List.mem_range.2 hl))]⟩
  simp only at hex ⊢
  generalize σ.update.foldl CWorld.linkUpdate W = W1 at *
  obtain ⟨r2, k2⟩ := Rest.foldl (fun W n r => Rest.nodeStage r n) σ.gen r1
  have s2 : Acts .gen W1 (σ.gen.foldl CWorld.nodeStage W1) :=
    foldl_acts (fun W n r => Rest.nodeStage r n) (fun W n r => nodeStage_acts r n) σ.gen r1
  generalize σ.gen.foldl CWorld.nodeStage W1 = W2 at *
  obtain ⟨r3, k3, c3⟩ := transferAll r2
  have s3 := transferAll_acts (List.range W2.g.nNodes) r2
  generalize (List.range W2.g.nNodes).foldl CWorld.transfer W2 = W3 at *
  have k13 := (k1.trans k2).trans k3
  have nr3 : ∀ v, ¬ Req W3 v := fun v h => by
    rcases h with ⟨l, h⟩ | ⟨n, h⟩
    · have := c3 l; unfold Clear at this; rw [this] at h; simp at h
    · rw [r3.inc n] at h; simp at h
  obtain ⟨r4, k4⟩ := Rest.foldl (fun W l r => Rest.followPass r l) σ.follow r3
  have hc4 : (σ.follow.foldl CWorld.followPass W3).core = W3.core :=
    core_foldl _ (fun W l => core_followPass W l) σ.follow W3
  have c4 : ∀ l, Clear (σ.follow.foldl CWorld.followPass W3) l := fun l => by
    unfold Clear; rw [core_arrived hc4]; exact c3 l
  have nr4 : ∀ v, ¬ Req (σ.follow.foldl CWorld.followPass W3) v := fun v h => nr3 v
    (Req.of_eq (fun m => core_arrived hc4 m) (fun n hn => by rw [core_incoming hc4] at hn; exact hn) h)
  have hls : ∀ l, l < W3.g.nLinks → l ∈ σ.follow := fun l hl =>
    hσ.2.2.1.mem_iff.2 (List.mem_range.2 (by rw [← k13.g]; exact hl))
  have am := (Aimed.passes σ.follow (Aimed.refl W3)).weaken (D' := fun w => ∃ l, w ∈ (W3.link l).vehs)
    (fun w ⟨l, hl⟩ => Or.inr ⟨l, hls l (r3.inv.mem l w hl).2.2.1, hl⟩)
  generalize σ.follow.foldl CWorld.followPass W3 = W4 at *
  have k14 := k13.trans k4
  obtain ⟨r5, k5⟩ := runAll σ.run hrun r4 (fun l _ => c4 l)
  have s5 := runAll_acts σ.run hrun r4 (fun l _ => c4 l)
  obtain ⟨r6, k6⟩ := Rest.foldl (fun W n r => Rest.waitPass r n) σ.wait r5
  have s6 : Acts .wait (σ.run.foldl CWorld.runPass W4) (σ.wait.foldl CWorld.waitPass (σ.run.foldl CWorld.runPass W4)) :=
    foldl_acts (fun W n r => Rest.waitPass r n) (fun W n r => waitPass_acts r n) σ.wait r5
  have hrl : ∀ l ∈ σ.run, l < W.g.nLinks := fun l hl => List.mem_range.1 (hσ.2.2.2.1.mem_iff.1 hl)
  have hm : ∀ J : CWorld → (ℕ → Prop) → Prop, RunLaw J → J W4 (fun _ => False) →
      J (σ.run.foldl CWorld.runPass W4) (fun w => ∃ l, w ∈ ((σ.run.foldl CWorld.runPass W4).link l).vehs) :=
    fun J law h => law.weaken (law.all σ.run hrun r4 (fun l _ => c4 l) h
      (fun l hl => Acts.exc (Or.inr rfl) s6 l (hex l (hrl l hl)))) (fun w ⟨l, hl⟩ =>
        Or.inr ⟨l, hσ.2.2.2.1.mem_iff.2 (List.mem_range.2 (by
          rw [← (k14.trans k5).g]; exact (r5.inv.mem l w hl).2.2.1)), hl⟩)
  exact ⟨W1, W2, W3, W4, _, r1, k1, u4, htt', hreq, s2, r2, s3, r3, nr3, am, r4, nr4, k4, s5, hm, r5, s6, r6⟩

/-! ## Time steps and runs -/

/-- What may be carried through a run: `P` holds at the beginning of a time step. -/
theorem loop_induct {P : CWorld → Prop}
    (hstep : ∀ {W W' : CWorld} {σ : Sched} {home : List ℕ}, Rest W → σ.Valid W → home.Nodup →
      (∀ v ∈ home, v < W.g.nVehs ∧ (W.veh v).state = .home) → CWorld.stepWith σ home W = (W', none) →
      KPar W → KAll W (fun _ => 0) → P W → P { W' with g := { W'.g with timestep := W.g.timestep + 1 } })
    {sched : ℕ → CWorld → Sched} (hs : ∀ t V, (sched t V).Valid V)
    {b : ℕ → List ℕ} (hb : ∀ t, (b t).Nodup) (hd : ∀ s t v, s ≠ t → v ∈ b s → v ∉ b t) (k : ℕ)
    {W W' : CWorld} (r : Rest W)
    (hh : ∀ t, W.g.timestep ≤ t → ∀ v ∈ b t, v < W.g.nVehs ∧ (W.veh v).state = .home)
    (hW : CWorld.loopFrom sched b k W = (W', none)) (p : KPar W) (h : KAll W (fun _ => 0)) (hp : P W) : P W' := by
  induction k generalizing W with
  | zero =>
    rw [CWorld.loopFrom] at hW
    obtain rfl := congrArg Prod.fst hW
    exact hp
  | succ k ih =>
    have hvs := hs W.g.timestep W
    have hns : (sched W.g.timestep W).run.Nodup := hvs.2.2.2.1.nodup_iff.2 List.nodup_range
    obtain ⟨r1, k1⟩ := r.stepWith (sched W.g.timestep W) hns (b W.g.timestep) (hb _) (hh _ le_rfl)
    rw [CWorld.loopFrom] at hW
    cases he : CWorld.stepWith (sched W.g.timestep W) (b W.g.timestep) W with
    | mk W1 e =>
      rw [he] at r1 k1 hW
      simp only at r1 k1 hW
      cases e with
      | some e => simp at hW
      | none =>
        simp only at hW
        obtain ⟨p1, h1, f1⟩ := step_kin r hvs (hb _) (hh _ le_rfl) he p h
        have g1 := hstep r hvs (hb _) (hh _ le_rfl) he p h hp
        have hh1 : ∀ t, W.g.timestep + 1 ≤ t → ∀ v ∈ b t, v < W1.g.nVehs ∧ (W1.veh v).state = .home := by
          intro t ht v hv
          obtain ⟨p, q⟩ := hh t (by omega) v hv
          have hv' := k1.home v (fun h => hd _ _ v (by omega) h hv) q
          exact ⟨by rw [k1.nVehs]; exact p, by rw [hv']; exact q⟩
        exact ih (W := { W1 with g := { W1.g with timestep := W.g.timestep + 1 } })
          (r1.setG _ rfl rfl rfl rfl rfl) hh1 hW ⟨p1.fl, p1.len, p1.gap⟩ (fun m hm => h1 m hm) g1

theorem main_induct {P : CWorld → Prop}
    (hstep : ∀ {W W' : CWorld} {σ : Sched} {home : List ℕ}, Rest W → σ.Valid W → home.Nodup →
      (∀ v ∈ home, v < W.g.nVehs ∧ (W.veh v).state = .home) → CWorld.stepWith σ home W = (W', none) →
      KPar W → KAll W (fun _ => 0) → P W → P { W' with g := { W'.g with timestep := W.g.timestep + 1 } })
    {sched : ℕ → CWorld → Sched} (hs : ∀ t V, (sched t V).Valid V) {W W' : CWorld}
    (r : Rest W) {endTs : ℕ} (hr : W.mainLoop sched endTs = (W', none)) (p : KPar W)
    (h : KAll W (fun _ => 0)) (hp : P W) : P W' :=
  loop_induct hstep hs (fun t => bucket_nodup W _ t) (fun s t v hne h h' =>
    hne ((mem_bucket.1 h).2.2.symm.trans (mem_bucket.1 h').2.2)) _ r (fun t _ v hv =>
    ⟨(mem_bucket.1 hv).1, (mem_bucket.1 hv).2.1⟩) hr p h hp

/-- A completed time step: the parallel region, departures, registries and routes. -/
theorem step_split {W W' : CWorld} {σ : Sched} {home : List ℕ} (r : Rest W) (hσ : σ.Valid W)
    (he : CWorld.stepWith σ home W = (W', none)) :
    ∃ W1 W2 W3 W4 W5 W6, Stages W.clearExc W1 W2 W3 W4 W5 W6 ∧
      W' = (home.foldl (fun (W : CWorld) v => W.vehUpdate v none) W6).reconcile.routeStep := by
  have hrun : σ.run.Nodup := hσ.2.2.2.1.nodup_iff.2 List.nodup_range
  have r0 : Rest W.clearExc := r.congr (core_clearExc W).symm
  obtain ⟨r1, k1⟩ := r0.region σ hrun
  unfold CWorld.stepWith at he
  simp only at he
  split at he
  · simp at he
  rename_i hex
  obtain ⟨W1, W2, W3, W4, W5, st⟩ := region_split r0 σ hσ
    (fun l hl => firstExc_none hex l (by rw [k1.g]; exact hl))
  exact ⟨W1, W2, W3, W4, W5, _, st, (congrArg Prod.fst he).symm⟩

end UX.Cpp
