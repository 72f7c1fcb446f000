import Verif.Proofs.CppInvMove

/-!
# The passes of a time step: the structural invariant of the C++ engine
-/

namespace UX.Cpp
open CWorld

/-- A request for a transfer is stored. -/
theorem Inv.pushArrived {W : CWorld} {v l : ℕ} {f : CLink → CLink} (i : Inv W none none)
    (hf : ∀ L, (f L).core = ({ L with arrived := L.arrived ++ [v] } : CLink).core)
    (hv : v ∈ (W.link l).vehs) (h1 : (W.veh v).flagWait = true → (W.veh v).next = none)
    (h2 : ∀ b, (W.veh v).next = some b → b ∈ (W.node (W.link l).dst).outLinks)
    (h3 : ∀ n, v ∉ (W.node n).incoming) : Inv (W.setL l f) none none := by
  refine Inv.congr (W := W.setL l (fun L => { L with arrived := L.arrived ++ [v] })) ?_ ?_
  · refine core_setL_congr rfl l (fun L L' h => ?_)
    rw [hf L']
    show ({ L.core with arrived := L.core.arrived ++ [v] } : CLink) =
      { L'.core with arrived := L'.core.arrived ++ [v] }
    rw [h]
  · have hl : ∀ m, (W.setL l (fun L => { L with arrived := L.arrived ++ [v] })).link m =
        { W.link m with
          arrived := if m = l then (W.link m).arrived ++ [v] else (W.link m).arrived } := by
      intro m; rw [setL_link]; split
      · rename_i e; subst e; rfl
      · rfl
    refine ⟨?_, ?_, ?_, i.orig, ?_, ?_, i.idle, ?_, ?_, i.gen, i.gnd, i.fresh, i.limbo, ?_, ?_, ?_, ?_, ?_, ?_⟩
    · intro n m; rw [hl]; exact i.outL n m
    · intro n m; rw [hl]; exact i.inL n m
    · intro m; rw [hl]; exact i.ends m
    · intro m; rw [hl]; exact i.mem m
    · intro w hw hr
      rcases i.run w hw hr with h | ⟨m, hm⟩
      · exact Or.inl h
      · exact Or.inr ⟨m, by rw [hl]; exact hm⟩
    · intro m; rw [hl]; exact i.nd m
    · intro m; rw [hl]; exact i.linked m
    · intro m w; rw [hl]; exact i.flag m w
    · intro m w hw
      rw [hl] at hw
      rw [hl]
      simp only at hw
      split at hw
      · rename_i e; subst e
        rcases List.mem_append.1 hw with h | h
        · exact i.arr m w h
        · obtain rfl := List.mem_singleton.1 h
          exact ⟨hv, h1, h2⟩
      · exact i.arr m w hw
    · intro n w hw
      rcases i.inc n w hw with h | h | ⟨⟨a, ha, hd⟩, p, q, r⟩
      · exact Or.inl h
      · exact Or.inr (Or.inl h)
      · refine Or.inr (Or.inr ⟨⟨a, by rw [hl]; exact ha, by rw [hl]; exact hd⟩, p, q, fun m hm => ?_⟩)
        rw [hl] at hm
        simp only at hm
        split at hm
        · rcases List.mem_append.1 hm with h | h
          · exact r m h
          · obtain rfl := List.mem_singleton.1 h
            exact h3 n hw
        · exact r m hm
    · intro w hw
      rw [setL_g] at hw ⊢
      simp only [hl]
      exact i.reg1 w hw
    · intro w hw
      rw [setL_g] at hw ⊢
      simp only [hl]
      exact i.reg2 w hw
    · intro w; rw [setL_g]; simp only [hl]; exact i.big w

/-- What processing vehicle `v` of link `l` in the RUN pass leaves true. -/
structure RunPost (l v : ℕ) (W W' : CWorld) : Prop where
  inv : Inv W' none none
  keep : Keep W W'
  inc : ∀ n, (W'.node n).incoming = []
  mem : ∀ w, w ≠ v → w ∈ (W.link l).vehs → w ∈ (W'.link l).vehs
  arr : ∀ w, w ≠ v → ∀ m, w ∉ (W.link m).arrived → w ∉ (W'.link m).arrived
  same : ∀ m, m ≠ l → (W'.link m).arrived = (W.link m).arrived

theorem Inv.endTripOn {W : CWorld} {y : Option ℕ} {v l : ℕ} {t : List ℕ} (i : Inv W none y)
    (hq : (W.link l).vehs = v :: t) (hna : ∀ m, v ∉ (W.link m).arrived)
    (hni : ∀ n, v ∈ (W.node n).incoming → y = some v ∨ (W.veh v).next = none) :
    Inv (W.endTripOn v l) none y ∧ Keep W (W.endTripOn v l) := by
  have hv : v ∈ (W.link l).vehs := by rw [hq]; simp
  exact ⟨(i.endC hq hna hni).congr (core_endTripOn W v l).symm,
    Keep.endTripOn (i.run_ne_home hv) (fun u hu => i.run_ne_home (i.follower_mem hv hu))⟩

theorem endTripOn_node_core (W : CWorld) (v l n : ℕ) :
    ((W.endTripOn v l).node n).core = (W.node n).core := by
  rw [core_node (core_endTripOn W v l) n]; simp [CWorld.endC]

theorem endTripOn_incoming (W : CWorld) (v l n : ℕ) :
    ((W.endTripOn v l).node n).incoming = (W.node n).incoming :=
  show ((W.endTripOn v l).node n).core.incoming = (W.node n).core.incoming by rw [endTripOn_node_core]

theorem endTripOn_vehs (W : CWorld) (v l m : ℕ) :
    ((W.endTripOn v l).link m).vehs = if m = l then (W.link l).vehs.tail else (W.link m).vehs := by
  rw [core_vehs (core_endTripOn W v l) m]
  simp only [CWorld.endC, setV_link, detach_link, setL_link]
  split <;> rfl

theorem endTripOn_arrived (W : CWorld) (v l m : ℕ) :
    ((W.endTripOn v l).link m).arrived = (W.link m).arrived := by
  rw [core_arrived (core_endTripOn W v l) m]
  simp only [CWorld.endC, setV_link, detach_link, setL_link]
  split
  · rename_i e; rw [e]
  · rfl

theorem Inv.waitEnd {W : CWorld} {v l : ℕ} (i : Inv W none none) (hinc : ∀ n, (W.node n).incoming = [])
    (hv : v ∈ (W.link l).vehs) (hna : ∀ m, v ∉ (W.link m).arrived)
    (hc : (W.link l).dst = (W.veh v).dest ∨ (W.node (W.link l).dst).outLinks = []) :
    RunPost l v W (W.waitEnd v l) := by
  have i1 : Inv (W.setV v (fun V => { V with flagWait := true })) none none :=
    i.setFree (fun V => ⟨rfl, rfl, rfl, rfl, rfl, rfl⟩) hna (fun n hn => by rw [hinc n] at hn; simp at hn)
      (fun _ => Or.inr ⟨l, hv, hc⟩)
  have k1 : Keep W (W.setV v (fun V => { V with flagWait := true })) :=
    Keep.setV (fun _ => rfl) (i.run_ne_home hv)
  simp only [CWorld.waitEnd]
  split
  · rename_i hh
    have hq : ∃ t, (W.link l).vehs = v :: t := by
      rw [setV_link] at hh
      cases hc : (W.link l).vehs with
      | nil => rw [hc] at hh; simp at hh
      | cons a t => rw [hc] at hh; simp at hh; exact ⟨t, by rw [hh]⟩
    obtain ⟨t, hq⟩ := hq
    have hlk : ((W.setV v (fun V => { V with flagWait := true })).veh v).link = some l := by
      rw [setV_veh, if_pos rfl]; exact (i.mem l v hv).1
    rw [endTrip, hlk]
    obtain ⟨i2, k2⟩ := i1.endTripOn hq hna (fun n hn => by rw [setV_node, hinc n] at hn; simp at hn)
    refine ⟨i2, k1.trans k2, fun n => ?_, fun w hw hm => ?_, fun w hw m hm => ?_,
      fun m _ => by rw [endTripOn_arrived]; rfl⟩
    · rw [endTripOn_incoming]; exact hinc n
    · rw [endTripOn_vehs, if_pos rfl, setV_link]
      rw [hq] at hm ⊢
      exact (List.mem_cons.1 hm).resolve_left hw
    · rw [endTripOn_arrived]; exact hm
  · exact ⟨i1, k1, hinc, fun w _ hm => hm, fun w _ m hm => hm, fun m _ => rfl⟩

theorem RunPost.after {l v : ℕ} {W W1 W' : CWorld} (k : Keep W W1)
    (hv : ∀ w, w ∈ (W.link l).vehs → w ∈ (W1.link l).vehs)
    (ha : ∀ m, (W1.link m).arrived = (W.link m).arrived) (h : RunPost l v W1 W') :
    RunPost l v W W' :=
  ⟨h.inv, k.trans h.keep, h.inc, fun w hw hm => h.mem w hw (hv w hm),
    fun w hw m hm => h.arr w hw m (by rw [ha m]; exact hm), fun m hm => (h.same m hm).trans (ha m)⟩

theorem Inv.request {W : CWorld} {v l : ℕ} (i : Inv W none none) (hinc : ∀ n, (W.node n).incoming = [])
    (hv : v ∈ (W.link l).vehs) (hna : ∀ m, v ∉ (W.link m).arrived)
    (hd : (W.link l).dst ≠ (W.veh v).dest) :
    RunPost l v W (W.request v l) := by
  unfold CWorld.request
  cases hc : W.chooseNext v (W.node (W.link l).dst).outLinks (W.link l).rng with
  | error e =>
    simp only
    have hcore : (W.setL l (fun L => { L with exc := some e })).core = W.core :=
      core_setL (fun _ => rfl)
    refine ⟨i.congr hcore.symm, Keep.setL (fun _ => rfl), hinc, fun w _ hm => ?_, fun w _ m hm => ?_,
      fun m _ => core_arrived hcore m⟩
    · rw [core_vehs hcore l]; exact hm
    · rw [core_arrived hcore m]; exact hm
  | ok p =>
    obtain ⟨o, rng⟩ := p
    simp only
    have hst := i.run_ne_home hv
    have i1 : Inv (W.setV v (fun V => { V with next := o })) none none :=
      i.setFree (fun V => ⟨rfl, rfl, rfl, rfl, rfl, rfl⟩) hna
        (fun n hn => by rw [hinc n] at hn; simp at hn) (fun h => Or.inl h)
    have hn : ((W.setV v (fun V => { V with next := o })).veh v).next = o := by
      rw [setV_veh, if_pos rfl]
    have hfw : ((W.setV v (fun V => { V with next := o })).veh v).flagWait = (W.veh v).flagWait := by
      rw [setV_veh, if_pos rfl]
    refine ⟨i1.pushArrived (v := v) (fun _ => rfl) hv ?_ ?_ (fun n hn => by
        rw [setV_node, hinc n] at hn; simp at hn),
      Keep.thenL (Keep.setV (fun _ => rfl) hst) (fun _ => rfl), hinc, fun w _ hm => ?_,
      fun w hw m hm => ?_, fun m hm => by rw [setL_link, if_neg hm]; rfl⟩
    · intro h
      rw [hfw] at h
      rw [hn]
      rcases i.flag l v hv h with h' | h'
      · exact absurd h' hd
      · rw [h', chooseNext_nil] at hc
        simp only [Except.ok.injEq, Prod.mk.injEq] at hc
        exact hc.1.symm
    · intro b hb
      rw [hn] at hb
      subst hb
      exact chooseNext_mem hc
    · rw [setL_link, if_pos rfl]; exact hm
    · rw [setL_link]
      split
      · rename_i e; subst e
        simp only [List.mem_append, List.mem_singleton, not_or]
        exact ⟨hm, hw⟩
      · exact hm

theorem Inv.atEnd {W : CWorld} {v l : ℕ} (i : Inv W none none) (hinc : ∀ n, (W.node n).incoming = [])
    (hv : v ∈ (W.link l).vehs) (hna : ∀ m, v ∉ (W.link m).arrived) :
    RunPost l v W (W.atEnd v l) := by
  unfold CWorld.atEnd
  split
  · rename_i h; exact i.waitEnd hinc hv hna (Or.inl h)
  · rename_i hd
    split
    · rename_i h
      have i1 : Inv (W.setV v (fun V => { V with flagAbort := true, next := none })) none none :=
        i.setFree (fun V => ⟨rfl, rfl, rfl, rfl, rfl, rfl⟩) hna
          (fun n hn => by rw [hinc n] at hn; simp at hn) (fun h => Or.inl h)
      have k1 : Keep W (W.setV v (fun V => { V with flagAbort := true, next := none })) :=
        Keep.setV (fun _ => rfl) (i.run_ne_home hv)
      refine RunPost.after k1 (fun w h => h) (fun m => rfl)
        (i1.waitEnd hinc hv hna (Or.inr h.1))
    · exact i.request hinc hv hna hd

theorem Inv.vehRun {W : CWorld} {v l : ℕ} {s : Option ℕ} (i : Inv W none none)
    (hinc : ∀ n, (W.node n).incoming = []) (hv : v ∈ (W.link l).vehs)
    (hna : ∀ m, v ∉ (W.link m).arrived) : RunPost l v W (W.vehUpdate v s) := by
  have hst := (i.mem l v hv).2.1
  have hlk := (i.mem l v hv).1
  have hc1 : (W.logData v s).core = W.core := core_logData W v s
  have hc2 : ((W.logData v s).advance v).core = W.core := (core_advance _ v).trans hc1
  have hst1 : ((W.logData v s).veh v).state = .run := by rw [core_state hc1]; exact hst
  have hlk2 : (((W.logData v s).advance v).veh v).link = some l := by rw [core_linkOf hc2]; exact hlk
  have k2 : Keep W ((W.logData v s).advance v) :=
    Keep.thenV (Keep.logData W v s (by rw [hst]; simp)) (fun _ => rfl) (by rw [hst1]; simp)
  simp only [CWorld.vehUpdate, hst1, hlk2]
  have base : RunPost l v W ((W.logData v s).advance v) :=
    ⟨i.congr hc2.symm, k2, fun n => by rw [core_incoming hc2]; exact hinc n,
      fun w _ hm => by rw [core_vehs hc2]; exact hm, fun w _ m hm => by rw [core_arrived hc2]; exact hm,
      fun m _ => core_arrived hc2 m⟩
  split
  · refine RunPost.after k2 (fun w hw => by rw [core_vehs hc2]; exact hw)
      (fun m => core_arrived hc2 m)
      (base.inv.atEnd base.inc (by rw [core_vehs hc2]; exact hv) (fun m => by
        rw [core_arrived hc2]; exact hna m))
  · exact base

theorem snapPairs_map (lanes : ℕ) (q : List ℕ) : (snapPairs lanes q).map Prod.fst = q := by
  apply List.ext_getElem?
  intro k
  simp only [snapPairs, List.map_map, List.getElem?_map]
  by_cases h : k < q.length
  · rw [List.getElem?_range h]
    simp [List.getD_eq_getElem?_getD, List.getElem?_eq_getElem h]
  · rw [List.getElem?_eq_none (by simpa using Nat.le_of_not_lt h),
      List.getElem?_eq_none (Nat.le_of_not_lt h)]
    rfl

/-- The RUN pass over a part of a queue. -/
theorem Inv.runFold {l : ℕ} (ps : List (ℕ × Option ℕ)) {W : CWorld} (i : Inv W none none)
    (hinc : ∀ n, (W.node n).incoming = []) (hnd : (ps.map Prod.fst).Nodup)
    (hv : ∀ p ∈ ps, p.1 ∈ (W.link l).vehs ∧ ∀ m, p.1 ∉ (W.link m).arrived) :
    let W' := ps.foldl (runVeh l) W
    Inv W' none none ∧ Keep W W' ∧ (∀ n, (W'.node n).incoming = []) ∧
      ∀ m, m ≠ l → (W'.link m).arrived = (W.link m).arrived := by
  induction ps generalizing W with
  | nil => exact ⟨i, Keep.refl W, hinc, fun m _ => rfl⟩
  | cons p ps ih =>
    simp only [List.foldl_cons]
    obtain ⟨hp1, hp2⟩ := hv p (by simp)
    have hnd' : (ps.map Prod.fst).Nodup := by
      rw [List.map_cons] at hnd; exact (List.nodup_cons.1 hnd).2
    have hne : ∀ q ∈ ps, q.1 ≠ p.1 := fun q hq e => by
      rw [List.map_cons] at hnd
      exact (List.nodup_cons.1 hnd).1 (e ▸ List.mem_map_of_mem hq)
    by_cases he : (W.link l).exc = none
    · have hr : runVeh l W p = W.vehUpdate p.1 p.2 := by simp [runVeh, he]
      rw [hr]
      have h := i.vehRun (s := p.2) hinc hp1 hp2
      obtain ⟨a, b, c, d⟩ := ih h.inv h.inc hnd' (fun q hq =>
        ⟨h.mem q.1 (hne q hq) (hv q (by simp [hq])).1, fun m =>
          h.arr q.1 (hne q hq) m ((hv q (by simp [hq])).2 m)⟩)
      exact ⟨a, h.keep.trans b, c, fun m hm => (d m hm).trans (h.same m hm)⟩
    · have hr : runVeh l W p = W := by simp [runVeh, he]
      rw [hr]
      exact ih i hinc hnd' (fun q hq => hv q (by simp [hq]))

theorem Inv.runPass {l : ℕ} {W : CWorld} (i : Inv W none none) (hinc : ∀ n, (W.node n).incoming = [])
    (ha : (W.link l).arrived = []) :
    Inv (W.runPass l) none none ∧ Keep W (W.runPass l) ∧ (∀ n, ((W.runPass l).node n).incoming = []) ∧
      ∀ m, m ≠ l → ((W.runPass l).link m).arrived = (W.link m).arrived := by
  have hmap := snapPairs_map (W.link l).lanes (W.link l).vehs
  exact i.runFold (l := l) (snapPairs (W.link l).lanes (W.link l).vehs) hinc
    (by rw [hmap]; exact i.nd l) (fun p hp => by
      have hm : p.1 ∈ (W.link l).vehs := by
        rw [← hmap]; exact List.mem_map_of_mem hp
      refine ⟨hm, fun m h => ?_⟩
      have := i.uniq hm (i.arr m p.1 h).1
      subst this
      rw [ha] at h; simp at h)

end UX.Cpp
