import Verif.Proofs.CppKinRun

/-!
# Vehicles that stay on their link
-/

namespace UX.Cpp
open CWorld Relation Spec

/-- What happens to vehicles that enter no link: those still in a queue were there before, have not
moved, and have the same leader unless that one left. -/
structure Stay (W W' : CWorld) : Prop where
  mono : ∀ w, (W.veh w).count ≤ (W'.veh w).count
  stay : ∀ l w, w ∈ (W'.link l).vehs → (W'.veh w).count = (W.veh w).count →
    w ∈ (W.link l).vehs ∧ (W'.veh w).x = (W.veh w).x ∧
    ((W'.veh w).leader = (W.veh w).leader ∧
        (∀ u, (W.veh w).leader = some u → (W'.veh u).count = (W.veh u).count) ∨
      (W'.veh w).leader = none ∧ ∃ u, (W.veh w).leader = some u ∧
        ∀ m, u ∈ (W'.link m).vehs → (W'.veh u).count ≠ (W.veh u).count)

theorem Stay.refl (W : CWorld) : Stay W W :=
  ⟨fun _ => le_rfl, fun _ _ h _ => ⟨h, rfl, Or.inl ⟨rfl, fun _ _ => rfl⟩⟩⟩

theorem Stay.trans {W W' W'' : CWorld} (s : Stay W W') (t : Stay W' W'') : Stay W W'' := by
  refine ⟨fun w => (s.mono w).trans (t.mono w), fun l w hw hc => ?_⟩
  have hm := s.mono w
  have hm' := t.mono w
  obtain ⟨a, b, c⟩ := t.stay l w hw (by omega)
  obtain ⟨a', b', c'⟩ := s.stay l w a (by omega)
  refine ⟨a', b.trans b', ?_⟩
  have lift : ∀ u, (∀ m, u ∈ (W'.link m).vehs → (W'.veh u).count ≠ (W.veh u).count) →
      ∀ m, u ∈ (W''.link m).vehs → (W''.veh u).count ≠ (W.veh u).count := fun u hu m hm hcu => by
    have h1 := s.mono u
    have h2 := t.mono u
    exact hu m (t.stay m u hm (by omega)).1 (by omega)
  rcases c with ⟨c, cu⟩ | ⟨c, u, hu, hu'⟩
  · rcases c' with ⟨c', cu'⟩ | ⟨c', u, hu, hu'⟩
    · refine Or.inl ⟨c.trans c', fun u hu => ?_⟩
      rw [cu u (by rw [c']; exact hu), cu' u hu]
    · exact Or.inr ⟨c.trans c', u, hu, lift u hu'⟩
  · rcases c' with ⟨c', cu'⟩ | ⟨c', u', _, _⟩
    · refine Or.inr ⟨c, u, by rw [← c']; exact hu, fun m hm hcu => ?_⟩
      have h1 := s.mono u
      have h2 := t.mono u
      exact hu' m hm (by omega)
    · rw [c'] at hu; simp at hu

/-- One action, `L` being the vehicles that leave their place. -/
theorem Stay.of {W W' : CWorld} (L : ℕ → Prop) (hL : ∀ w, L w → (W.veh w).count ≤ (W'.veh w).count ∧
      ∀ m, w ∈ (W'.link m).vehs → (W'.veh w).count ≠ (W.veh w).count)
    (h : ∀ w, ¬ L w → (W'.veh w).count = (W.veh w).count ∧ (W'.veh w).x = (W.veh w).x ∧
      ∀ m, w ∈ (W'.link m).vehs → w ∈ (W.link m).vehs ∧ ((W'.veh w).leader = (W.veh w).leader ∧
        (∀ u, (W.veh w).leader = some u → ¬ L u) ∨
        (W'.veh w).leader = none ∧ ∃ u, L u ∧ (W.veh w).leader = some u)) : Stay W W' := by
  refine ⟨fun w => ?_, fun l w hw hc => ?_⟩
  · by_cases hw : L w
    · exact (hL w hw).1
    · exact ((h w hw).1).ge
  · have hn : ¬ L w := fun hl => (hL w hl).2 l hw hc
    obtain ⟨_, b, c⟩ := h w hn
    obtain ⟨c, d⟩ := c l hw
    refine ⟨c, b, ?_⟩
    rcases d with ⟨d, hu⟩ | ⟨d, u, hu, e⟩
    · exact Or.inl ⟨d, fun u h' => (h u (hu u h')).1⟩
    · exact Or.inr ⟨d, u, e, (hL u hu).2⟩

theorem follower_leader {W : CWorld} {x y : Option ℕ} (i : Inv W x y) {l v w : ℕ} (hv : v ∈ (W.link l).vehs)
    (h : (W.veh v).follower = some w) : (W.veh w).leader = some v := by
  obtain ⟨k, hk⟩ := List.getElem?_of_mem hv
  have hl := (i.mem l v hv).2.2.1
  have h1 := (i.linked l hl k v hk).2
  have h2 := (i.linked l hl (k + (W.link l).lanes) w (by rw [← h1]; exact h)).1
  rw [if_pos (by omega), Nat.add_sub_cancel, hk] at h2
  exact h2

theorem leader_follower {W : CWorld} {x y : Option ℕ} (i : Inv W x y) {l v w : ℕ} (hw : w ∈ (W.link l).vehs)
    (h : (W.veh w).leader = some v) : (W.veh v).follower = some w := by
  obtain ⟨k, hk⟩ := List.getElem?_of_mem hw
  have hl := (i.mem l w hw).2.2.1
  have h1 := (i.linked l hl k w hk).1
  split at h1
  · rename_i hle
    have h2 := (i.linked l hl (k - (W.link l).lanes) v (by rw [← h1]; exact h)).2
    rw [Nat.sub_add_cancel hle, hk] at h2
    exact h2
  · simp only [h] at h1; simp at h1

/-- The vehicle that becomes the leader of the one entering `b` has nobody behind it. -/
theorem newLeader_last {W : CWorld} {n v a b h : ℕ} {t : List ℕ} (i : Inv W none none)
    (hq : (W.link a).vehs = v :: t) (hn : (W.leave n v a b).newLeader b = some h) :
    (W.veh h).follower = none := by
  unfold newLeader at hn
  rw [(leave_par W n v a b b).2.2, leave_link_vehs] at hn
  have hold : ∃ j, (W.link b).vehs[j]? = some h ∧ j + (W.link b).lanes = (W.link b).vehs.length := by
    split at hn
    · rename_i e
      subst e
      rw [hq, List.tail_cons] at hn
      split at hn
      · refine ⟨t.length - (W.link b).lanes + 1, ?_, ?_⟩
        · rw [hq]; simpa using hn
        · rw [hq, List.length_cons]; omega
      · simp at hn
    · split at hn
      · exact ⟨_, hn, by omega⟩
      · simp at hn
  obtain ⟨j, hj, hlen⟩ := hold
  have hl := (i.mem b h (List.mem_of_getElem? hj)).2.2.1
  have := (i.linked b hl j h hj).2
  rw [hlen, List.getElem?_eq_none le_rfl] at this
  exact this

theorem depart_stay {W : CWorld} {n v l : ℕ} {t : List ℕ} (i : Inv W none none)
    (hq : (W.node n).genQ = v :: t) : Stay W (W.depart n v l) := by
  obtain ⟨hvn, hst, hor⟩ := (i.gen n v).1 (by rw [hq]; simp)
  have hnot : ∀ m, v ∉ (W.link m).vehs := fun m hm => by
    have := (i.mem m v hm).2.1; rw [hst] at this; simp at this
  have hx := fun w => depart_x W n v l w (hnot l)
  refine Stay.of (fun w => w = v) (fun w hw => ?_) (fun w hw => ?_)
  · subst hw
    rw [(hx w).2.2, if_pos rfl]
    exact ⟨by omega, fun m _ => by omega⟩
  · refine ⟨?_, ?_, fun m hm => ?_⟩
    · rw [(hx w).2.2, if_neg hw]
    · rw [(hx w).1, if_neg hw]
    have hwm : w ∈ (W.link m).vehs := by
      rw [depart_vehs] at hm
      split at hm
      · rename_i e; subst e
        rcases List.mem_append.1 hm with h | h
        · exact h
        · exact absurd (by simpa using h) hw
      · exact hm
    refine ⟨hwm, Or.inl ⟨?_, fun u hu e => ?_⟩⟩
    · simp only [CWorld.depart, setL_veh]
      rw [attach_veh _ _ _ _ (by simpa using hnot l)]
      simp only [setV_veh, setN_veh, if_neg hw]
    · subst e; exact hnot m (i.leader_mem hwm hu)

theorem endTripOn_stay {W : CWorld} {x y : Option ℕ} (i : Inv W x y) {v l : ℕ} {t : List ℕ}
    (hq : (W.link l).vehs = v :: t) : Stay W (W.endTripOn v l) := by
  have hva : v ∈ (W.link l).vehs := by rw [hq]; simp
  have hnt : v ∉ t := by have := i.nd l; rw [hq] at this; exact (List.nodup_cons.1 this).1
  have hmem : ∀ m w, w ∈ ((W.endTripOn v l).link m).vehs → w ∈ (W.link m).vehs ∧ w ≠ v := fun m w hw => by
    rw [endTripOn_vehs] at hw
    split at hw
    · rename_i e; subst e
      refine ⟨List.mem_of_mem_tail hw, fun e => ?_⟩
      rw [hq, List.tail_cons] at hw; exact hnt (e ▸ hw)
    · rename_i e
      exact ⟨hw, fun h => e (i.uniq (h ▸ hw) hva)⟩
  refine Stay.of (fun w => w = v) (fun w hw => ⟨?_, fun m hm => absurd hw (hmem m w hm).2⟩) (fun w hw => ?_)
  · subst hw
    have := congrArg (fun V : CVeh => V.count) (endTripOn_veh_self W w l)
    exact (this : ((W.endTripOn w l).veh w).count = (W.veh w).count).ge
  · have e := endTripOn_veh_ne W v l w hw
    rw [e]
    refine ⟨rfl, rfl, fun m hm => ⟨(hmem m w hm).1, ?_⟩⟩
    by_cases hf : (W.veh v).follower = some w
    · exact Or.inr ⟨by simp [hf], v, rfl, follower_leader i hva hf⟩
    · refine Or.inl ⟨by simp [hf], fun u hu e => ?_⟩
      subst e; exact hf (leader_follower i (hmem m w hm).1 hu)

theorem moveVeh_stay {W : CWorld} {n v a b : ℕ} {t : List ℕ} (i : Inv W none none)
    (hq : (W.link a).vehs = v :: t) : Stay W (W.moveVeh n v a b) := by
  have hva : v ∈ (W.link a).vehs := by rw [hq]; simp
  have hnd := i.nd a
  rw [hq] at hnd
  have hveh : (W.moveVeh n v a b).veh = ((W.moved n v a b).endFront a).1.veh := rfl
  have hvehs : ∀ m, ((W.moveVeh n v a b).link m).vehs =
      if m = b then (((W.moved n v a b).endFront a).1.link b).vehs ++ [v]
      else (((W.moved n v a b).endFront a).1.link m).vehs := by
    intro m
    rw [moveVeh_eq, setN_link, setL_link]; split <;> rfl
  have hself : ((W.moved n v a b).veh v).count = (W.veh v).count + 1 := by
    have hvb : v ∉ ((W.leave n v a b).link b).vehs := by
      rw [leave_link_vehs]
      split
      · rw [hq]; exact (List.nodup_cons.1 hnd).1
      · rename_i e; intro hm; exact e (i.uniq hm hva)
    simp only [CWorld.moved, place, setV_veh, if_pos]
    rw [attach_veh _ _ _ _ hvb]
    simp only [leave_veh, if_pos]
    rw [detach_veh]
  have hMm : ∀ m w, w ∈ ((W.moved n v a b).link m).vehs → w ∈ (W.link m).vehs ∧ w ≠ v := fun m w hw => by
    rw [moved_link, leave_link_vehs] at hw
    split at hw
    · rename_i e; subst e
      refine ⟨List.mem_of_mem_tail hw, fun e => ?_⟩
      rw [hq, List.tail_cons] at hw; exact (List.nodup_cons.1 hnd).1 (e ▸ hw)
    · rename_i e
      exact ⟨hw, fun h => e (i.uniq (h ▸ hw) hva)⟩
  rcases moved_endFront (n := n) (b := b) i hq with e | ⟨h, t', e1, hne, hfh, e⟩
  · rw [e] at hveh hvehs
    refine Stay.of (fun w => w = v) (fun w hw => ?_) (fun w hw => ?_)
    · subst hw
      rw [hveh, hself]
      exact ⟨by omega, fun m _ => by omega⟩
    · rw [hveh, moved_veh_other (n := n) (b := b) i hq w hw]
      refine ⟨rfl, rfl, fun m hm => ?_⟩
      have hwm : w ∈ (W.link m).vehs := by
        rw [hvehs] at hm
        split at hm
        · rename_i e; subst e
          rcases List.mem_append.1 hm with h | h
          · exact (hMm _ w h).1
          · exact absurd (by simpa using h) hw
        · exact (hMm _ w hm).1
      refine ⟨hwm, ?_⟩
      by_cases hf : (W.veh v).follower = some w
      · exact Or.inr ⟨by simp [hf], v, rfl, follower_leader i hva hf⟩
      · refine Or.inl ⟨by simp [hf], fun u hu e => ?_⟩
        subst e; exact hf (leader_follower i hwm hu)
  · rw [e] at hveh hvehs
    have hha : h ∈ (W.link a).vehs := by rw [hq, e1]; simp
    have hqa : ((W.moved n v a b).link a).vehs = h :: t' := by
      rw [moved_link, leave_link_vehs, if_pos rfl, hq, List.tail_cons, e1]
    have hout : ∀ m w, w ∈ (((W.moved n v a b).endTripOn h a).link m).vehs →
        w ∈ (W.link m).vehs ∧ w ≠ v ∧ w ≠ h := by
      intro m w hw
      rw [endTripOn_vehs] at hw
      split at hw
      · rename_i em; subst em
        obtain ⟨p, q⟩ := hMm _ w (List.mem_of_mem_tail hw)
        refine ⟨p, q, fun ew => ?_⟩
        subst ew
        rw [hqa, List.tail_cons] at hw
        rw [e1] at hnd
        exact (List.nodup_cons.1 (List.nodup_cons.1 hnd).2).1 hw
      · rename_i em
        obtain ⟨p, q⟩ := hMm _ w hw
        exact ⟨p, q, fun ew => em (i.uniq p (ew ▸ hha))⟩
    refine Stay.of (fun w => w = v ∨ w = h) (fun w hw => ?_) (fun w hw => ?_)
    · rcases hw with hw | hw
      · subst hw
        rw [hveh, endTripOn_veh_ne _ _ _ _ (Ne.symm hne)]
        show _ ≤ ((W.moved n w a b).veh w).count ∧ ∀ m, _ → ((W.moved n w a b).veh w).count ≠ _
        rw [hself]
        exact ⟨by omega, fun m _ => by omega⟩
      · subst hw
        constructor
        · rw [hveh]
          have h1 := congrArg (fun V : CVeh => V.count) (endTripOn_veh_self (W.moved n v a b) w a)
          have h2 : (((W.moved n v a b).endTripOn w a).veh w).count = ((W.moved n v a b).veh w).count := h1
          rw [h2, moved_veh_other (n := n) (b := b) i hq w hne]
        · intro m hm
          rw [hvehs] at hm
          split at hm
          · rcases List.mem_append.1 hm with h' | h'
            · exact absurd rfl (hout _ w h').2.2
            · exact absurd (by simpa using h') hne
          · exact absurd rfl (hout _ w hm).2.2
    · have hwv : w ≠ v := fun e => hw (Or.inl e)
      have hwh : w ≠ h := fun e => hw (Or.inr e)
      rw [hveh, endTripOn_veh_ne _ _ _ _ hwh]
      simp only [moved_veh_other (n := n) (b := b) i hq w hwv,
        moved_veh_other (n := n) (b := b) i hq h hne]
      refine ⟨trivial, trivial, fun m hm => ?_⟩
      have hwm : w ∈ (W.link m).vehs := by
        rw [hvehs] at hm
        split at hm
        · rename_i em; subst em
          rcases List.mem_append.1 hm with h' | h'
          · exact (hout _ w h').1
          · exact absurd (by simpa using h') hwv
        · exact (hout _ w hm).1
      refine ⟨hwm, ?_⟩
      by_cases hb : (if (W.leave n v a b).newLeader b = some h then some v else (W.veh h).follower) = some w
      · have hfw : (W.veh h).follower = some w := by
          split at hb
          · exact absurd (Option.some.inj hb).symm hwv
          · exact hb
        exact Or.inr ⟨by rw [if_pos hb], h, Or.inr rfl, follower_leader i hha hfw⟩
      · rw [if_neg hb]
        by_cases hf : (W.veh v).follower = some w
        · exact Or.inr ⟨by rw [if_pos hf], v, Or.inl rfl, follower_leader i hva hf⟩
        · refine Or.inl ⟨by rw [if_neg hf], fun u hu e => ?_⟩
          have hfu := leader_follower i hwm hu
          rcases e with e | e
          · subst e; exact hf hfu
          · subst e
            split at hb
            · rename_i hl; rw [newLeader_last i hq hl] at hfu; simp at hfu
            · exact hb hfu

theorem Stay.same {W W' : CWorld} (hl : ∀ l, (W'.link l).vehs = (W.link l).vehs)
    (hv : ∀ w, (W'.veh w).x = (W.veh w).x ∧ (W'.veh w).count = (W.veh w).count ∧
      (W'.veh w).leader = (W.veh w).leader) : Stay W W' :=
  Stay.of (fun _ => False) (fun _ h => h.elim) (fun w _ => ⟨(hv w).2.1, (hv w).1,
    fun m hm => by rw [hl] at hm; exact ⟨hm, Or.inl ⟨(hv w).2.2, fun _ _ h => h⟩⟩⟩)

theorem Act.stay {s : Stage} {W W' : CWorld} (hs : s = .gen ∨ s = .trans) (a : Act s W W') : Stay W W' := by
  cases a with
  | genErr _ n e => exact Stay.same (fun _ => rfl) (fun _ => ⟨rfl, rfl, rfl⟩)
  | choose _ n v t o rng i hi hq hc =>
    refine Stay.same (fun _ => rfl) (fun w => ?_)
    rw [setV_veh]; split
    · rename_i e; subst e; exact ⟨rfl, rfl, rfl⟩
    · exact ⟨rfl, rfl, rfl⟩
  | depart _ n v l t i hi hq hl hn hc => exact depart_stay i hq
  | signal _ n => exact Stay.same (W' := W.signalUpdate n) (fun _ => rfl) (fun _ => ⟨rfl, rfl, rfl⟩)
  | flow _ n => exact Stay.same (W' := W.flowUpdate n) (fun _ => rfl) (fun _ => ⟨rfl, rfl, rfl⟩)
  | collect _ n i hi =>
    refine Stay.same (fun l => ?_) (fun w => ?_)
    · rw [collect_link]; split <;> rfl
    · rw [collect_veh]; exact ⟨rfl, rfl, rfl⟩
  | draw _ n rng => exact Stay.same (fun _ => rfl) (fun _ => ⟨rfl, rfl, rfl⟩)
  | move _ n v a b t k ha hq hb hn hf hc hr ho hs => exact moveVeh_stay k.inv hq
  | endFront _ v l t i hq hna hni hf => exact endTripOn_stay i hq
  | finish _ n => exact Stay.same (fun _ => rfl) (fun _ => ⟨rfl, rfl, rfl⟩)
  | _ => simp at hs

theorem Acts.stay {s : Stage} {W W' : CWorld} (hs : s = .gen ∨ s = .trans) (a : Acts s W W') : Stay W W' := by
  induction a with
  | refl => exact Stay.refl W
  | tail _ c ih => exact ih.trans (c.stay hs)

end UX.Cpp
