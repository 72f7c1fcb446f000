import Verif.Proofs.CppInvOps

/-!
# Leaving a link, ending a trip, requests: the structural invariant of the C++ engine
-/

namespace UX.Cpp
open CWorld

theorem Keep.detach {W : CWorld} {v : ℕ} (h : ∀ u, (W.veh v).follower = some u → (W.veh u).state ≠ .home) :
    Keep W (W.detach v) := by
  unfold CWorld.detach
  split
  · rename_i f hf; exact Keep.setV (fun _ => rfl) (h f hf)
  · exact Keep.refl W

theorem Keep.thenDetach {W W' : CWorld} {v : ℕ} (k : Keep W W')
    (h : ∀ u, (W'.veh v).follower = some u → (W'.veh u).state ≠ .home) : Keep W (W'.detach v) :=
  k.trans (Keep.detach h)

/-! ## Leaving a link -/

/-- The structural part of `leave`. -/
def CWorld.leaveC (W : CWorld) (v a b : ℕ) : CWorld :=
  ((W.setL a (fun L => { L with vehs := L.vehs.tail })).detach v).setV v
    (fun V => { V with link := some b, follower := none })

theorem core_leave (W : CWorld) (n v a b : ℕ) : (W.leave n v a b).core = (W.leaveC v a b).core := by
  simp only [leave, CWorld.leaveC]
  refine core_setV_congr (core_detach ?_ v) v (fun V V' h => ?_)
  · have h1 : ∀ X : CWorld, (if 0 ≤ (W.node n).flowCap
        then X.setN n (fun N => { N with flowRem := W.g.fl (N.flowRem - W.g.deltaN) }) else X).core = X.core := by
      intro X
      split
      · exact core_setN (fun _ => rfl)
      · rfl
    rw [h1]
    refine (core_setL ?_).trans ?_
    · intro _; rfl
    exact core_setL_congr rfl a (fun L L' h => by
      show ({ L.core with vehs := L.core.vehs.tail } : CLink) = { L'.core with vehs := L'.core.vehs.tail }
      rw [h])
  · show ({ V.core with link := some b, follower := none } : CVeh) =
      { V'.core with link := some b, follower := none }
    rw [h]

theorem Inv.leaveC {W : CWorld} {v a b : ℕ} {t : List ℕ} (i : Inv W none none)
    (hq : (W.link a).vehs = v :: t) (hb : b < W.g.nLinks) (hna : ∀ m, v ∉ (W.link m).arrived)
    (hfw : (W.veh v).flagWait = false) : Inv (W.leaveC v a b) (some v) (some v) := by
  have hva : v ∈ (W.link a).vehs := by rw [hq]; simp
  obtain ⟨hlk, hst, han, hvn, _⟩ := i.mem a v hva
  have hnd : (v :: t).Nodup := hq ▸ i.nd a
  have hvt : v ∉ t := (List.nodup_cons.1 hnd).1
  have hveh : ∀ w, w ≠ v → (W.leaveC v a b).veh w =
      { W.veh w with leader := if (W.veh v).follower = some w then none else (W.veh w).leader } := by
    intro w hw
    rw [CWorld.leaveC, setV_veh, if_neg hw, detach_veh]; rfl
  have hvv : (W.leaveC v a b).veh v =
      { W.veh v with
        leader := if (W.veh v).follower = some v then none else (W.veh v).leader
        link := some b
        follower := none } := by
    rw [CWorld.leaveC, setV_veh, if_pos rfl, detach_veh]; rfl
  have hg : (W.leaveC v a b).g = W.g := by simp [CWorld.leaveC]
  have hnode : (W.leaveC v a b).node = W.node := by simp [CWorld.leaveC]
  have hlink : ∀ m, (W.leaveC v a b).link m = if m = a then { W.link a with vehs := t } else W.link m := by
    intro m
    simp only [CWorld.leaveC, setV_link, detach_link, setL_link, hq, List.tail_cons]
  have hvehs : ∀ m, ((W.leaveC v a b).link m).vehs = if m = a then t else (W.link m).vehs := by
    intro m; rw [hlink]; split <;> rfl
  have hsrc : ∀ m, ((W.leaveC v a b).link m).src = (W.link m).src := fun m => by
    rw [hlink]; split
    · rename_i e; rw [e]
    · rfl
  have hdst : ∀ m, ((W.leaveC v a b).link m).dst = (W.link m).dst := fun m => by
    rw [hlink]; split
    · rename_i e; rw [e]
    · rfl
  have hlanes : ∀ m, ((W.leaveC v a b).link m).lanes = (W.link m).lanes := fun m => by
    rw [hlink]; split
    · rename_i e; rw [e]
    · rfl
  have harr : ∀ m, ((W.leaveC v a b).link m).arrived = (W.link m).arrived := fun m => by
    rw [hlink]; split
    · rename_i e; rw [e]
    · rfl
  have hend : ∀ m, ((W.leaveC v a b).link m).ended = (W.link m).ended := fun m => by
    rw [hlink]; split
    · rename_i e; rw [e]
    · rfl
  have hmem : ∀ m w, w ∈ ((W.leaveC v a b).link m).vehs ↔ w ∈ (W.link m).vehs ∧ w ≠ v := by
    intro m w
    rw [hvehs]
    split
    · rename_i e; subst e
      rw [hq]
      constructor
      · intro h; exact ⟨List.mem_cons_of_mem _ h, fun e => hvt (e ▸ h)⟩
      · rintro ⟨h, e⟩; exact (List.mem_cons.1 h).resolve_left e
    · rename_i e
      constructor
      · intro h; exact ⟨h, fun e' => e (i.uniq (e' ▸ h) hva)⟩
      · exact fun h => h.1
  refine ⟨?_, ?_, ?_, ?_, ?_, ?_, ?_, ?_, ?_, ?_, ?_, ?_, ?_, ?_, ?_, ?_, ?_, ?_, ?_⟩
  · intro n m; rw [hnode, hg, hsrc]; exact i.outL n m
  · intro n m; rw [hnode, hg, hdst]; exact i.inL n m
  · intro m hm; rw [hg] at hm ⊢; rw [hsrc, hdst, hlanes]; exact i.ends m hm
  · intro w hw; rw [hg] at hw ⊢
    by_cases e : w = v
    · subst e; rw [hvv]; exact i.orig w hw
    · rw [hveh w e]; exact i.orig w hw
  · intro m w hw
    obtain ⟨h, e⟩ := (hmem m w).1 hw
    rw [hveh w e, hg]
    obtain ⟨p, q, r, s, _⟩ := i.mem m w h
    exact ⟨p, q, r, s, fun h => e (Option.some.inj h).symm⟩
  · intro w hw hr
    rw [hg] at hw
    by_cases e : w = v
    · exact Or.inl (by rw [e])
    · rw [hveh w e] at hr
      rcases i.run w hw hr with h | ⟨m, hm⟩
      · simp at h
      · exact Or.inr ⟨m, (hmem m w).2 ⟨hm, e⟩⟩
  · intro w hw hr
    rw [hg] at hw
    by_cases e : w = v
    · subst e; rw [hvv] at hr; exact absurd hst hr
    · rw [hveh w e] at hr ⊢; exact i.idle w hw hr
  · intro m
    rw [hvehs]; split
    · exact (List.nodup_cons.1 hnd).2
    · exact i.nd m
  · intro m hm
    rw [hg] at hm
    rw [hlanes, hvehs]
    split
    · rename_i e; subst e
      refine Linked.pop (i.ends m hm).2.2 (hq ▸ i.linked m hm) hnd ?_ ?_
      · intro w hw
        have e : w ≠ v := fun e => hvt (e ▸ hw)
        simp only [hveh w e]
      · intro w hw
        have e : w ≠ v := fun e => hvt (e ▸ hw)
        simp only [hveh w e]
    · rename_i hma
      refine (i.linked m hm).congr ?_ ?_
      · intro w hw
        have e : w ≠ v := fun e => hma (i.uniq (e ▸ hw) hva)
        have hf : (W.veh v).follower ≠ some w := fun h => hma (i.uniq hw (i.follower_mem hva h))
        simp only [hveh w e, if_neg hf]
      · intro w hw
        have e : w ≠ v := fun e => hma (i.uniq (e ▸ hw) hva)
        simp only [hveh w e]
  · intro n w
    rw [hnode, hg]
    by_cases e : w = v
    · subst e; rw [hvv]; exact i.gen n w
    · rw [hveh w e]; exact i.gen n w
  · intro n; rw [hnode]; exact i.gnd n
  · intro w hw hs
    rw [hg] at hw
    by_cases e : w = v
    · subst e; rw [hvv] at hs; simp only [hst] at hs; simp at hs
    · rw [hveh w e] at hs ⊢; exact i.fresh w hw hs
  · intro w hw
    obtain rfl := Option.some.inj hw
    rw [hvv, hg]
    exact ⟨hvn, hst, rfl, hfw, b, hb, rfl⟩
  · intro m w hw hf
    obtain ⟨h, e⟩ := (hmem m w).1 hw
    rw [hveh w e] at hf ⊢
    rw [hdst, hnode]; exact i.flag m w h hf
  · intro m w hw
    rw [harr] at hw
    have e : w ≠ v := fun e => hna m (e ▸ hw)
    obtain ⟨p, q, r⟩ := i.arr m w hw
    rw [hveh w e, hdst, hnode]
    exact ⟨(hmem m w).2 ⟨p, e⟩, q, r⟩
  · intro n w hw
    rw [hnode] at hw
    by_cases e : w = v
    · exact Or.inl (by rw [e])
    · rw [hveh w e, hnode]
      rcases i.inc n w hw with h | h | ⟨⟨c, hc, hd⟩, p, q, r⟩
      · simp at h
      · exact Or.inr (Or.inl h)
      · exact Or.inr (Or.inr ⟨⟨c, (hmem c w).2 ⟨hc, e⟩, by rw [hdst]; exact hd⟩, p, q,
          fun m => by rw [harr]; exact r m⟩)
  · intro w hw
    rw [hg] at hw ⊢
    rw [hnode]
    simp only [hend]
    by_cases e : w = v
    · subst e; rw [hvv]; exact i.reg1 w hw
    · rw [hveh w e]; exact i.reg1 w hw
  · intro w hw
    rw [hg] at hw ⊢
    simp only [hend]
    by_cases e : w = v
    · subst e; rw [hvv]; exact i.reg2 w hw
    · rw [hveh w e]; exact i.reg2 w hw
  · intro w; rw [hg, hnode]; simp only [hend]; exact i.big w

/-! ## The end of a trip -/

/-- The structural part of `endTripOn`. -/
def CWorld.endC (W : CWorld) (v l : ℕ) : CWorld :=
  ((W.setL l (fun L => { L with ended := L.ended ++ [v], vehs := L.vehs.tail })).detach v).setV v
    (fun V => { V with state := if V.flagAbort then .abort else .ended, link := none, flagWait := false })

theorem core_endTripOn (W : CWorld) (v l : ℕ) : (W.endTripOn v l).core = (W.endC v l).core := by
  simp only [endTripOn, CWorld.endC]
  rw [core_logData]
  refine core_setV_congr (core_detach (core_setL_congr rfl l (fun L L' h => ?_)) v) v (fun V V' h => ?_)
  · show ({ L.core with ended := L.core.ended ++ [v], vehs := L.core.vehs.tail } : CLink) =
      { L'.core with ended := L'.core.ended ++ [v], vehs := L'.core.vehs.tail }
    rw [h]
  · show ({ V.core with state := if V.core.flagAbort then .abort else .ended, link := none, flagWait := false } : CVeh) =
      { V'.core with state := if V'.core.flagAbort then .abort else .ended, link := none, flagWait := false }
    rw [h]

theorem Inv.endC {W : CWorld} {y : Option ℕ} {v l : ℕ} {t : List ℕ} (i : Inv W none y)
    (hq : (W.link l).vehs = v :: t) (hna : ∀ m, v ∉ (W.link m).arrived)
    (hni : ∀ n, v ∈ (W.node n).incoming → y = some v ∨ (W.veh v).next = none) :
    Inv (W.endC v l) none y := by
  have hva : v ∈ (W.link l).vehs := by rw [hq]; simp
  obtain ⟨hlk, hst, han, hvn, _⟩ := i.mem l v hva
  have hnd : (v :: t).Nodup := hq ▸ i.nd l
  have hvt : v ∉ t := (List.nodup_cons.1 hnd).1
  have hveh : ∀ w, w ≠ v → (W.endC v l).veh w =
      { W.veh w with leader := if (W.veh v).follower = some w then none else (W.veh w).leader } := by
    intro w hw
    rw [CWorld.endC, setV_veh, if_neg hw, detach_veh]; rfl
  have hvv : (W.endC v l).veh v =
      { W.veh v with
        leader := if (W.veh v).follower = some v then none else (W.veh v).leader
        state := if (W.veh v).flagAbort then .abort else .ended
        link := none
        flagWait := false } := by
    rw [CWorld.endC, setV_veh, if_pos rfl, detach_veh]; rfl
  have hvs : ((W.endC v l).veh v).state = .ended ∨ ((W.endC v l).veh v).state = .abort := by
    rw [hvv]
    cases (W.veh v).flagAbort <;> simp
  have hg : (W.endC v l).g = W.g := by simp [CWorld.endC]
  have hnode : (W.endC v l).node = W.node := by simp [CWorld.endC]
  have hlink : ∀ m, (W.endC v l).link m =
      if m = l then { W.link l with ended := (W.link l).ended ++ [v], vehs := t } else W.link m := by
    intro m
    simp only [CWorld.endC, setV_link, detach_link, setL_link, hq, List.tail_cons]
  have hvehs : ∀ m, ((W.endC v l).link m).vehs = if m = l then t else (W.link m).vehs := by
    intro m; rw [hlink]; split <;> rfl
  have hsrc : ∀ m, ((W.endC v l).link m).src = (W.link m).src := fun m => by
    rw [hlink]; split
    · rename_i e; rw [e]
    · rfl
  have hdst : ∀ m, ((W.endC v l).link m).dst = (W.link m).dst := fun m => by
    rw [hlink]; split
    · rename_i e; rw [e]
    · rfl
  have hlanes : ∀ m, ((W.endC v l).link m).lanes = (W.link m).lanes := fun m => by
    rw [hlink]; split
    · rename_i e; rw [e]
    · rfl
  have harr : ∀ m, ((W.endC v l).link m).arrived = (W.link m).arrived := fun m => by
    rw [hlink]; split
    · rename_i e; rw [e]
    · rfl
  have hend : ∀ m w, w ∈ ((W.endC v l).link m).ended ↔ w ∈ (W.link m).ended ∨ (m = l ∧ w = v) := by
    intro m w
    rw [hlink]; split
    · rename_i e; subst e; simp
    · rename_i e; simp [e]
  have hmem : ∀ m w, w ∈ ((W.endC v l).link m).vehs ↔ w ∈ (W.link m).vehs ∧ w ≠ v := by
    intro m w
    rw [hvehs]
    split
    · rename_i e; subst e
      rw [hq]
      constructor
      · intro h; exact ⟨List.mem_cons_of_mem _ h, fun e => hvt (e ▸ h)⟩
      · rintro ⟨h, e⟩; exact (List.mem_cons.1 h).resolve_left e
    · rename_i e
      constructor
      · intro h; exact ⟨h, fun e' => e (i.uniq (e' ▸ h) hva)⟩
      · exact fun h => h.1
  refine ⟨?_, ?_, ?_, ?_, ?_, ?_, ?_, ?_, ?_, ?_, ?_, ?_, ?_, ?_, ?_, ?_, ?_, ?_, ?_⟩
  · intro n m; rw [hnode, hg, hsrc]; exact i.outL n m
  · intro n m; rw [hnode, hg, hdst]; exact i.inL n m
  · intro m hm; rw [hg] at hm ⊢; rw [hsrc, hdst, hlanes]; exact i.ends m hm
  · intro w hw; rw [hg] at hw ⊢
    by_cases e : w = v
    · subst e; rw [hvv]; exact i.orig w hw
    · rw [hveh w e]; exact i.orig w hw
  · intro m w hw
    obtain ⟨h, e⟩ := (hmem m w).1 hw
    rw [hveh w e, hg]
    obtain ⟨p, q, r, s, _⟩ := i.mem m w h
    exact ⟨p, q, r, s, by simp⟩
  · intro w hw hr
    rw [hg] at hw
    by_cases e : w = v
    · subst e; rcases hvs with h | h <;> (rw [h] at hr; simp at hr)
    · rw [hveh w e] at hr
      rcases i.run w hw hr with h | ⟨m, hm⟩
      · simp at h
      · exact Or.inr ⟨m, (hmem m w).2 ⟨hm, e⟩⟩
  · intro w hw hr
    rw [hg] at hw
    by_cases e : w = v
    · subst e; rw [hvv]
    · rw [hveh w e] at hr ⊢; exact i.idle w hw hr
  · intro m
    rw [hvehs]; split
    · exact (List.nodup_cons.1 hnd).2
    · exact i.nd m
  · intro m hm
    rw [hg] at hm
    rw [hlanes, hvehs]
    split
    · rename_i e; subst e
      refine Linked.pop (i.ends m hm).2.2 (hq ▸ i.linked m hm) hnd ?_ ?_
      · intro w hw
        have e : w ≠ v := fun e => hvt (e ▸ hw)
        simp only [hveh w e]
      · intro w hw
        have e : w ≠ v := fun e => hvt (e ▸ hw)
        simp only [hveh w e]
    · rename_i hma
      refine (i.linked m hm).congr ?_ ?_
      · intro w hw
        have e : w ≠ v := fun e => hma (i.uniq (e ▸ hw) hva)
        have hf : (W.veh v).follower ≠ some w := fun h => hma (i.uniq hw (i.follower_mem hva h))
        simp only [hveh w e, if_neg hf]
      · intro w hw
        have e : w ≠ v := fun e => hma (i.uniq (e ▸ hw) hva)
        simp only [hveh w e]
  · intro n w
    rw [hnode, hg]
    by_cases e : w = v
    · subst e
      have h1 : w ∉ (W.node n).genQ := fun h => by
        have := ((i.gen n w).1 h).2.1; rw [hst] at this; simp at this
      have h2 : ((W.endC w l).veh w).state ≠ .wait := by
        rcases hvs with h | h <;> (rw [h]; simp)
      tauto
    · rw [hveh w e]; exact i.gen n w
  · intro n; rw [hnode]; exact i.gnd n
  · intro w hw hs
    rw [hg] at hw
    by_cases e : w = v
    · subst e; rcases hvs with h | h <;> (rw [h] at hs; simp at hs)
    · rw [hveh w e] at hs ⊢; exact i.fresh w hw hs
  · intro w hw; simp at hw
  · intro m w hw hf
    obtain ⟨h, e⟩ := (hmem m w).1 hw
    rw [hveh w e] at hf ⊢
    rw [hdst, hnode]; exact i.flag m w h hf
  · intro m w hw
    rw [harr] at hw
    have e : w ≠ v := fun e => hna m (e ▸ hw)
    obtain ⟨p, q, r⟩ := i.arr m w hw
    rw [hveh w e, hdst, hnode]
    exact ⟨(hmem m w).2 ⟨p, e⟩, q, r⟩
  · intro n w hw
    rw [hnode] at hw
    by_cases e : w = v
    · subst e
      rcases hni n hw with h | h
      · exact Or.inl h
      · right; left; rw [hvv]; exact h
    · rw [hveh w e, hnode]
      rcases i.inc n w hw with h | h | ⟨⟨c, hc, hd⟩, p, q, r⟩
      · exact Or.inl h
      · exact Or.inr (Or.inl h)
      · exact Or.inr (Or.inr ⟨⟨c, (hmem c w).2 ⟨hc, e⟩, by rw [hdst]; exact hd⟩, p, q,
          fun m => by rw [harr]; exact r m⟩)
  · intro w hw
    rw [hg] at hw ⊢
    rw [hnode]
    simp only [hend]
    by_cases e : w = v
    · subst e
      constructor
      · intro h; rcases hvs with h' | h' <;> (rw [h'] at h; simp at h)
      · rintro ⟨_, h⟩; exact absurd (Or.inr ⟨rfl, rfl⟩) (h l han)
    · rw [hveh w e]; simp only [e, and_false, or_false]; exact i.reg1 w hw
  · intro w hw
    rw [hg] at hw ⊢
    simp only [hend]
    by_cases e : w = v
    · subst e
      exact ⟨fun _ => Or.inr ⟨l, han, Or.inr ⟨rfl, rfl⟩⟩, fun _ => hvs⟩
    · rw [hveh w e]; simp only [e, and_false, or_false]; exact i.reg2 w hw
  · intro w hw
    rw [hg] at hw
    obtain ⟨p, q, r⟩ := i.big w hw
    have e : w ≠ v := fun e => absurd (e ▸ hvn) (not_lt.2 hw)
    rw [hg, hnode]
    refine ⟨p, q, fun m hm => ?_⟩
    rcases (hend m w).1 hm with h | h
    · exact r m h
    · exact e h.2

theorem Keep.logData (W : CWorld) (v : ℕ) (s : Option ℕ) (h : (W.veh v).state ≠ .home) :
    Keep W (W.logData v s) := by
  have h1 : Keep W (W.logStats v) := by
    unfold logStats
    split
    · exact Keep.setL (fun _ => rfl)
    · exact Keep.setN (fun _ => rfl)
    · exact Keep.refl W
  have h2 : ((W.logStats v).veh v).state ≠ .home := by
    rw [core_state (core_logStats W v) v]; exact h
  unfold CWorld.logData
  unfold logPush
  split
  · exact h1.thenV (fun _ => rfl) h2
  · exact h1

theorem Keep.thenLog {W W' : CWorld} {v : ℕ} {s : Option ℕ} (k : Keep W W')
    (h : (W'.veh v).state ≠ .home) : Keep W (W'.logData v s) := k.trans (Keep.logData W' v s h)

theorem Keep.endTripOn {W : CWorld} {v l : ℕ} (hv : (W.veh v).state ≠ .home)
    (hf : ∀ u, (W.veh v).follower = some u → (W.veh u).state ≠ .home) : Keep W (W.endTripOn v l) := by
  simp only [CWorld.endTripOn]
  refine Keep.thenLog (Keep.thenV (Keep.thenDetach (Keep.thenL (Keep.refl W) (fun _ => rfl)) ?_)
    (fun _ => rfl) ?_) ?_
  · exact hf
  · rw [detach_veh]; exact hv
  · rw [setV_veh, if_pos rfl]
    simp only
    split <;> simp

end UX.Cpp
