import Verif.Proofs.CppKin
import Verif.Proofs.Gap

/-!
# Positions and spacing: the loop of `transfer`
-/

namespace UX.Cpp
open CWorld Relation Spec

theorem swapAt_perm {xs : List ℕ} {i j : ℕ} (hi : i < xs.length) (hj : j < xs.length) :
    (swapAt xs i j).Perm xs := by
  unfold swapAt
  have e1 : xs.getD i 0 = xs[i] := by simp [List.getD, hi]
  have e2 : xs.getD j 0 = xs[j] := by simp [List.getD, hj]
  rw [e1, e2]
  exact List.set_set_perm hi hj

theorem fisherYates_perm (i : ℕ) (xs : List ℕ) (rng : ℕ → ℕ) (h : i < xs.length ∨ i = 0) :
    (fisherYates i xs rng).1.Perm xs := by
  induction i generalizing xs rng with
  | zero => exact List.Perm.refl _
  | succ i ih =>
    have hi : i + 1 < xs.length := by omega
    have hj : uniInt (rng 0) (i + 1) < xs.length :=
      lt_of_lt_of_le (Nat.mod_lt _ (by omega)) (by omega)
    have hp := swapAt_perm hi hj
    exact (ih _ _ (Or.inl (by rw [hp.length_eq]; omega))).trans hp

theorem shuffleSlots_count (W : CWorld) (n m : ℕ) :
    (W.shuffleSlots n).1.count m ≤ (W.link m).lanes := by
  have h0 : (W.slots n).count m ≤ (W.link m).lanes := count_slots (uniqFirst_nodup _) _ _
  unfold shuffleSlots
  split
  · exact h0
  · have := fisherYates_perm ((W.slots n).length - 1) (W.slots n) (W.node n).rng (by omega)
    simp only
    rw [this.count_eq]; exact h0

theorem shuffleSlots_same (W : CWorld) (n : ℕ) :
    (W.shuffleSlots n).2.link = W.link ∧ (W.shuffleSlots n).2.veh = W.veh := by
  unfold shuffleSlots
  split <;> exact ⟨rfl, rfl⟩

/-- One slot of `transfer`: nothing moves, or one vehicle does. -/
theorem transferOne_cases {n b : ℕ} {W : CWorld} (k : AtNode n W) :
    ((CWorld.transferOne n W b).link = W.link ∧ (CWorld.transferOne n W b).veh = W.veh) ∨
    ∃ (W1 : CWorld) (v a : ℕ) (t : List ℕ), AtNode n W1 ∧ W1.link = W.link ∧ W1.veh = W.veh ∧
      Keep W W1 ∧ (W1.link a).vehs = v :: t ∧ a ∈ (W1.node n).inLinks ∧
      b ∈ (W1.node n).outLinks ∧ (W1.veh v).flagWait = false ∧ W1.canEnter b = true ∧
      CWorld.transferOne n W b = W1.moveVeh n v a b := by
  unfold CWorld.transferOne
  split
  · rename_i hcond
    rw [Bool.and_eq_true, Bool.not_eq_true', decide_eq_false_iff_not] at hcond
    split
    · exact Or.inl ⟨rfl, rfl⟩
    · rename_i v0 vs hvs
      obtain ⟨sl, sv, sg, sn⟩ := pickMerge_same W n (v0 :: vs)
      obtain ⟨hc, kp, hm⟩ := pickMerge_core W n (v0 :: vs)
      split
      · rename_i W1 he
        rw [he] at sl sv; exact Or.inl ⟨sl, sv⟩
      · rename_i v W1 he
        rw [he] at hc kp hm sl sv sg sn
        simp only at hc kp hm sl sv sg sn
        have k1 := k.congr hc.symm
        have hv := hm v rfl
        rw [← hvs, List.mem_filter] at hv
        obtain ⟨hvi, hmay⟩ := hv
        split
        · exact Or.inl ⟨sl, sv⟩
        · rename_i a hl
          rw [sv] at hl
          unfold mayMove at hmay
          rw [hl] at hmay
          simp only [Bool.and_eq_true, Bool.or_eq_true, decide_eq_true_eq] at hmay
          obtain ⟨⟨⟨hn, hh⟩, hout⟩, hsig⟩ := hmay
          obtain ⟨t, ht⟩ : ∃ t, (W.link a).vehs = v :: t := by
            cases hq : (W.link a).vehs with
            | nil => rw [hq] at hh; simp at hh
            | cons u t => rw [hq] at hh; simp at hh; exact ⟨t, by rw [hh]⟩
          have hva : v ∈ (W.link a).vehs := by rw [ht]; simp
          rcases k.inv.inc n v hvi with h | h | ⟨⟨a', ha', hd⟩, hfw, hb, _⟩
          · simp at h
          · rw [hn] at h; simp at h
          · obtain rfl : a' = a := k.inv.uniq ha' hva
            have hin : a' ∈ (W.node n).inLinks := (k.inv.inL n a').2 ⟨(k.inv.mem a' v hva).2.2.1, hd⟩
            refine Or.inr ⟨W1, v, a', t, k1, sl, sv, kp, ?_, ?_, ?_, ?_, ?_, rfl⟩
            · rw [sl]; exact ht
            · rw [(sn n).2.2.2.2]; exact hin
            · rw [(sn n).2.2.2.1]; exact hb b hn
            · rw [sv]; exact hfw
            · rw [canEnter_congr sl sv sg]; exact hcond.1
  · exact Or.inl ⟨rfl, rfl⟩

/-- All queues, with the numbers of vehicles that have not moved yet on their link. -/
def KAll (W : CWorld) (κ : ℕ → ℕ) : Prop := ∀ m, m < W.g.nLinks → KL W m (κ m)

theorem KAll.quiet {W W' : CWorld} {κ : ℕ → ℕ} (h : KAll W κ) (kp : Keep W W') (q : Quiet W W') :
    KAll W' κ := fun m hm => q.kl kp (h m (by rw [← kp.g]; exact hm))

theorem Quiet.of_eq {W W' : CWorld} (hl : W'.link = W.link) (hv : W'.veh = W.veh) : Quiet W W' :=
  ⟨fun _ => by rw [hl], fun _ => by rw [hv]; exact ⟨rfl, rfl, rfl⟩⟩

theorem transferFold_kl {n : ℕ} (order : List ℕ) {W : CWorld} (k : AtNode n W) (p : KPar W) {κ : ℕ → ℕ}
    (h : KAll W κ)
    (hc : ∀ m, m < W.g.nLinks → (W.link m).src = n → κ m + order.count m ≤ (W.link m).lanes) :
    ∃ κ', KAll (order.foldl (CWorld.transferOne n) W) κ' ∧ ∀ m, (W.link m).src ≠ n → κ' m = κ m := by
  induction order generalizing W κ with
  | nil => exact ⟨κ, h, fun _ _ => rfl⟩
  | cons b t ih =>
    rw [List.foldl_cons]
    have post := k.transferOne (b := b)
    have hsrc : ∀ m, ((CWorld.transferOne n W b).link m).src = (W.link m).src :=
      fun m => post.keep.samePar.src m
    have hlan : ∀ m, ((CWorld.transferOne n W b).link m).lanes = (W.link m).lanes :=
      fun m => post.keep.samePar.lanes m
    rcases transferOne_cases (b := b) k with ⟨el, ev⟩ | ⟨W1, v, a, t', k1, e1, e2, kp1, hq, ha, hb, hf, hen, e⟩
    · obtain ⟨κ', h', hκ⟩ := ih post.at' (p.keep post.keep) (h.quiet post.keep (Quiet.of_eq el ev))
        (fun m hm hs => by
          rw [post.keep.g] at hm; rw [hsrc] at hs; rw [hlan]
          have := hc m hm hs
          have : t.count m ≤ (b :: t).count m := List.count_le_count_cons ..
          omega)
      exact ⟨κ', h', fun m hm => hκ m (by rw [hsrc]; exact hm)⟩
    · have hbo := (k1.inv.outL n b).1 hb
      have hbn : b < W.g.nLinks := by rw [← kp1.g]; exact hbo.1
      have hbs : (W.link b).src = n := by rw [← e1]; exact hbo.2
      have hcb := hc b hbn hbs
      rw [List.count_cons_self] at hcb
      have h1 : KAll W1 κ := h.quiet kp1 (Quiet.of_eq e1 e2)
      have p1 := p.keep kp1
      have kpm : Keep W1 (W1.moveVeh n v a b) := (k1.moveVeh ha hq hbo.1 hf).2.1
      obtain ⟨g1, g2⟩ := moveVeh_kl k1.inv p1 hq hbo.1 hen kpm (h1 b hbo.1) (by rw [e1]; omega)
      have h2 : KAll (CWorld.transferOne n W b) (fun m => if m = b then κ b + 1 else κ m) := by
        intro m hm
        rw [e] at hm ⊢
        beta_reduce
        by_cases em : m = b
        · subst em; rw [if_pos rfl]; exact g2
        · rw [if_neg em]; exact g1 m _ em (h1 m (by rw [← kpm.g]; exact hm))
      obtain ⟨κ', h', hκ⟩ := ih post.at' (p.keep post.keep) h2
        (fun m hm hs => by
          rw [post.keep.g] at hm; rw [hsrc] at hs; rw [hlan]
          have := hc m hm hs
          by_cases em : m = b
          · subst em; rw [if_pos rfl]; omega
          · rw [if_neg em]
            rw [List.count_cons_of_ne (fun e => em e.symm)] at this; exact this)
      refine ⟨κ', h', fun m hm => ?_⟩
      rw [hκ m (by rw [hsrc]; exact hm), if_neg (fun e => hm (by rw [e]; exact hbs))]

theorem endFronts_kl {n a : ℕ} (j : ℕ) {W : CWorld} (k : AtNode n W) (ha : a ∈ (W.node n).inLinks)
    {κ : ℕ → ℕ} (h : KAll W κ) : KAll (CWorld.endFronts a j W) κ := by
  induction j generalizing W with
  | zero => exact h
  | succ j ih =>
    simp only [CWorld.endFronts]
    split
    · obtain ⟨p, q, _⟩ := k.endFront ha
      refine ih p (by rw [q.inLinks]; exact ha) ?_
      rcases endFront_cases k.inv a with e | ⟨h', t, hq, hf, he⟩
      · rw [e]; exact h
      · rw [he] at q ⊢
        exact fun m hm => endTripOn_kl k.inv hq q (h m (by rw [← q.g]; exact hm))
    · exact h

theorem endFrontsFold_kl {n : ℕ} (xs : List ℕ) {W : CWorld} (k : AtNode n W)
    (hx : ∀ a ∈ xs, a ∈ (W.node n).inLinks) {κ : ℕ → ℕ} (h : KAll W κ) :
    KAll (xs.foldl (fun W a => CWorld.endFronts a (W.link a).lanes W) W) κ := by
  induction xs generalizing W with
  | nil => exact h
  | cons a t ih =>
    rw [List.foldl_cons]
    have ha := hx a (by simp)
    have post := k.endFronts (W.link a).lanes ha
    exact ih post.at' (fun c hc => by rw [post.keep.inLinks]; exact hx c (by simp [hc]))
      (endFronts_kl _ k ha h)

theorem transfer_kl {W : CWorld} {n : ℕ} (r : Rest W) (p : KPar W) {κ : ℕ → ℕ} (h : KAll W κ)
    (h0 : ∀ m, m < W.g.nLinks → (W.link m).src = n → κ m = 0) :
    ∃ κ', KAll (W.transfer n) κ' ∧ ∀ m, (W.link m).src ≠ n → κ' m = κ m := by
  have i := r.inv
  have i1 := i.collect (r.inc n)
  have k1 := Keep.collect W n
  have a1 : AtNode n (W.collect n) := by
    refine ⟨i1, fun a ha => ?_, fun m hm => ?_⟩
    · rw [k1.inLinks] at ha; rw [collect_link, if_pos ha]
    · rw [collect_node]; simp [hm, r.inc m]
  have hfin := (i.transfer (n := n) r.inc).2.1
  simp only [CWorld.transfer] at hfin ⊢
  obtain ⟨hc, kc⟩ := shuffleSlots_core (W.collect n) n
  obtain ⟨sl, sv⟩ := shuffleSlots_same (W.collect n) n
  have hcnt := fun m => shuffleSlots_count (W.collect n) n m
  have a2 : AtNode n ((W.collect n).shuffleSlots n).2 := a1.congr hc.symm
  have q1 : Quiet W (W.collect n) := ⟨fun m => by rw [collect_link]; split <;> rfl, fun w => by
    rw [collect_veh]; exact ⟨rfl, rfl, rfl⟩⟩
  have h2 : KAll ((W.collect n).shuffleSlots n).2 κ := (h.quiet k1 q1).quiet kc (Quiet.of_eq sl sv)
  have k2 := k1.trans kc
  generalize ((W.collect n).shuffleSlots n).2 = W2 at *
  generalize ((W.collect n).shuffleSlots n).1 = order at *
  have p3 : NodePost n W2 (order.foldl (CWorld.transferOne n) W2) :=
    AtNode.foldl order (fun W' x _ h _ => h.transferOne) a2
  obtain ⟨κ', h3, hκ⟩ := transferFold_kl order a2 (p.keep k2) h2 (fun m hm hs => by
    rw [k2.g] at hm
    rw [k2.samePar.src] at hs
    rw [h0 m hm hs, Nat.zero_add, k2.samePar.lanes]
    have := hcnt m
    rw [k1.samePar.lanes] at this; exact this)
  generalize order.foldl (CWorld.transferOne n) W2 = W3 at *
  have h4 := endFrontsFold_kl (W3.node n).inLinks p3.at' (fun _ h => h) h3
  refine ⟨κ', fun m hm => ?_, fun m hm => hκ m (by rw [k2.samePar.src]; exact hm)⟩
  have h5 := h4 m (by
    have := (AtNode.foldl (W := W3) (n := n) (W3.node n).inLinks
      (f := fun W a => CWorld.endFronts a (W.link a).lanes W)
      (fun W' x hx h kp => h.endFronts _ (by rw [kp.inLinks]; exact hx)) p3.at').keep.g
    rw [this]
    have e1 := hfin.g
    rw [hfin.g] at hm
    rw [p3.keep.g, k2.g]; exact hm)
  exact h5

theorem transferAll_kl (xs : List ℕ) (hnd : xs.Nodup) {W : CWorld} (r : Rest W) (p : KPar W) {κ : ℕ → ℕ}
    (h : KAll W κ) (h0 : ∀ m, m < W.g.nLinks → (W.link m).src ∈ xs → κ m = 0) :
    ∃ κ', KAll (xs.foldl CWorld.transfer W) κ' := by
  induction xs generalizing W κ with
  | nil => exact ⟨κ, h⟩
  | cons n t ih =>
    obtain ⟨hn, ht⟩ := List.nodup_cons.1 hnd
    obtain ⟨a, kp, c, _⟩ := r.inv.transfer (n := n) r.inc
    obtain ⟨κ', h', hκ⟩ := transfer_kl (n := n) r p h (fun m hm hs => h0 m hm (by rw [hs]; simp))
    refine ih ht ⟨a, c⟩ (p.keep kp) h' (fun m hm hs => ?_)
    rw [kp.g] at hm
    rw [kp.samePar.src] at hs
    rw [hκ m (fun e => hn (e ▸ hs))]
    exact h0 m hm (by simp [hs])

end UX.Cpp
