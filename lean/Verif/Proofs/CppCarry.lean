import Verif.Proofs.CppWorkTurn
import Verif.Proofs.CppKinStep
import Verif.Spec.CppCarry

/-!
# What a vehicle carries over the end of a link
-/

namespace UX.Cpp
open CWorld Spec

theorem carry_eq (W : CWorld) (v a b : ℕ) (hx : (W.veh v).x = 0) : W.carry v a b =
    entryPos W a b (W.veh v).moveRem ((W.veh v).leader.map (fun u => (W.veh u).xOld)) := by
  simp only [CWorld.carry, entryPos, hx]
  generalize W.g.fl (W.g.fl ((W.veh v).moveRem * (W.link b).vmax) / (W.link a).vmax) = s
  have hcl : ∀ y : ℚ, (if (if (W.link b).len ≤ y then (W.link b).len else y) < 0 then 0
      else if (W.link b).len ≤ y then (W.link b).len else y) = max 0 (min (W.link b).len y) := by
    intro y
    have : (if (W.link b).len ≤ y then (W.link b).len else y) = min (W.link b).len y := by
      split
      · rename_i h; exact (min_eq_left h).symm
      · rename_i h; exact (min_eq_right (not_le.1 h).le).symm
    rw [this]; exact max_if _ _
  cases (W.veh v).leader with
  | none => exact hcl s
  | some u =>
    simp only [Option.map_some]
    rw [hcl, max_if, min_if]
    rfl

/-- Rests and former positions. -/
structure Rems (A : ℕ → Prop) (W W' : CWorld) : Prop where
  old : ∀ w, (W'.veh w).xOld = (W.veh w).xOld
  rem : ∀ w, A w → (W'.veh w).moveRem = (W.veh w).moveRem

theorem Rems.of_eq {A : ℕ → Prop} {W W' : CWorld} (h : W'.veh = W.veh) : Rems A W W' :=
  ⟨fun w => by rw [h], fun w _ => by rw [h]⟩

theorem Rems.trans {A B : ℕ → Prop} {W W' W'' : CWorld} (h : Rems A W W') (h' : Rems B W' W'')
    (hs : ∀ w, A w → B w) : Rems A W W'' :=
  ⟨fun w => (h'.old w).trans (h.old w), fun w hw => (h'.rem w (hs w hw)).trans (h.rem w hw)⟩

theorem Rems.mono {A B : ℕ → Prop} {W W' : CWorld} (h : Rems A W W') (hs : ∀ w, B w → A w) : Rems B W W' :=
  ⟨h.old, fun w hw => h.rem w (hs w hw)⟩

theorem endTripOn_rems (W : CWorld) (v l : ℕ) : Rems (fun _ => True) W (W.endTripOn v l) := by
  have key : ∀ w, ((W.endTripOn v l).veh w).xOld = (W.veh w).xOld ∧
      ((W.endTripOn v l).veh w).moveRem = (W.veh w).moveRem := by
    intro w
    by_cases e : w = v
    · subst e
      have h := endTripOn_veh_self W w l
      exact ⟨(congrArg CVeh.xOld h : _), (congrArg CVeh.moveRem h : _)⟩
    · rw [endTripOn_veh_ne _ _ _ _ e]; exact ⟨rfl, rfl⟩
  exact ⟨fun w => (key w).1, fun w _ => (key w).2⟩

theorem leave_newLeader {W : CWorld} {n v a b : ℕ} (hba : b ≠ a) :
    (W.leave n v a b).newLeader b = placesAhead W b (W.link b).vehs.length := by
  have h1 : ((W.leave n v a b).link b).vehs = (W.link b).vehs := by
    rw [leave_link_vehs, if_neg hba]
  have h2 : ((W.leave n v a b).link b).lanes = (W.link b).lanes := by
    rw [leave_link, setL_link, if_pos rfl, setL_link, if_neg hba]
  unfold newLeader placesAhead
  rw [h1, h2]

theorem moveVeh_rems {W : CWorld} {n v a b : ℕ} {t : List ℕ} (i : Inv W none none)
    (hq : (W.link a).vehs = v :: t) :
    Rems (· ≠ v) W (W.moveVeh n v a b) ∧ ((W.moveVeh n v a b).veh v).moveRem = 0 ∧
    ((W.moveVeh n v a b).veh v).x = ((W.moved n v a b).veh v).x := by
  obtain ⟨ln, ld, q, e, _⟩ := moved_veh_carry (n := n) (b := b) i hq
  have hm : ((W.moved n v a b).veh v).moveRem = 0 := by rw [e]
  have r1 : Rems (· ≠ v) W (W.moved n v a b) := by
    refine ⟨fun w => ?_, fun w hw => ?_⟩
    · by_cases ew : w = v
      · subst ew; rw [e]
      · rw [moved_veh_other i hq w ew]
    · rw [moved_veh_other i hq w hw]
  have hf : Rems (fun _ => True) (W.moved n v a b) ((W.moved n v a b).endFront a).1 ∧
      (((W.moved n v a b).endFront a).1.veh v).x = ((W.moved n v a b).veh v).x := by
    rcases moved_endFront (n := n) (b := b) i hq with e | ⟨h, t', _, hne, _, e⟩
    · rw [e]; exact ⟨Rems.of_eq rfl, rfl⟩
    · rw [e]
      refine ⟨endTripOn_rems _ _ _, ?_⟩
      rw [endTripOn_veh_ne _ _ _ _ (Ne.symm hne)]
  rw [moveVeh_eq]
  exact ⟨(r1.trans hf.1 (fun _ _ => trivial)).trans (Rems.of_eq (A := fun _ => True) rfl) (fun _ _ => trivial),
    (hf.1.rem v trivial).trans hm, hf.2⟩

/-- A move to a link that does not end at the node. -/
theorem moveVeh_entry {W : CWorld} {n v a b : ℕ} {t : List ℕ} (i : Inv W none none)
    (hq : (W.link a).vehs = v :: t) (hba : b ≠ a) :
    ((W.moveVeh n v a b).veh v).x = entryPos W a b (W.veh v).moveRem
      ((placesAhead W b (W.link b).vehs.length).map (fun u => (W.veh u).xOld)) := by
  have hva : v ∈ (W.link a).vehs := by rw [hq]; simp
  have hvb : v ∉ ((W.leave n v a b).link b).vehs := by
    rw [leave_link_vehs, if_neg hba]
    intro hm; exact hba (i.uniq hm hva)
  have hx : ((W.moved n v a b).veh v).x = entryPos W a b (W.veh v).moveRem
      ((placesAhead W b (W.link b).vehs.length).map (fun u => (W.veh u).xOld)) := by
    simp only [CWorld.moved, place, setV_veh, if_pos]
    have h1 : ∀ w, (((W.leave n v a b).attach v b).veh w).xOld = (W.veh w).xOld := by
      intro w
      rw [attach_veh _ _ _ _ hvb, leave_veh]
      split
      · rename_i e; subst e; rw [detach_veh]
      · rw [detach_veh]
    have h2 : (((W.leave n v a b).attach v b).veh v).x = 0 ∧
        (((W.leave n v a b).attach v b).veh v).moveRem = (W.veh v).moveRem ∧
        (((W.leave n v a b).attach v b).veh v).leader = placesAhead W b (W.link b).vehs.length := by
      rw [attach_veh _ _ _ _ hvb]
      simp only [leave_veh, if_pos]
      rw [detach_veh, leave_newLeader hba]
      exact ⟨trivial, rfl, rfl⟩
    rw [carry_eq _ _ _ _ h2.1, h2.2.1, h2.2.2]
    simp only [h1]
    have hl : ∀ m, (((W.leave n v a b).attach v b).link m).len = (W.link m).len ∧
        (((W.leave n v a b).attach v b).link m).vmax = (W.link m).vmax ∧
        (((W.leave n v a b).attach v b).link m).deltaLane = (W.link m).deltaLane := fun m => by
      rw [attach_link, leave_link, setL_link]
      split
      · rename_i e; subst e
        simp only [setL_link]; split
        · rename_i e; subst e; exact ⟨rfl, rfl, rfl⟩
        · exact ⟨rfl, rfl, rfl⟩
      · simp only [setL_link]; split
        · rename_i e; subst e; exact ⟨rfl, rfl, rfl⟩
        · exact ⟨rfl, rfl, rfl⟩
    unfold entryPos jamGap
    rw [attach_g, leave_g, (hl a).2.1, (hl b).1, (hl b).2.1, (hl b).2.2]
  exact (moveVeh_rems i hq).2.2.trans hx

theorem moveVeh_mem {W : CWorld} {n v a b : ℕ} {t : List ℕ} (i : Inv W none none)
    (hq : (W.link a).vehs = v :: t) {w d : ℕ} (hw : w ∈ ((W.moveVeh n v a b).link d).vehs) :
    w ∈ (W.link d).vehs ∨ w = v ∧ d = b := by
  have h1 : ∀ d, w ∈ (((W.moved n v a b).endFront a).1.link d).vehs → w ∈ (W.link d).vehs := by
    intro d hd
    have h0 : ∀ d, w ∈ ((W.moved n v a b).link d).vehs → w ∈ (W.link d).vehs := by
      intro d hd
      rw [moved_link, leave_link_vehs] at hd
      split at hd
      · rename_i e; subst e; exact List.mem_of_mem_tail hd
      · exact hd
    rcases moved_endFront (n := n) (b := b) i hq with e | ⟨h, t', _, _, _, e⟩
    · rw [e] at hd; exact h0 d hd
    · rw [e] at hd
      have e2 := congrArg (·.1) (endTripOn_tv (W.moved n v a b) h a d)
      refine h0 d ?_
      by_cases hda : d = a
      · subst hda
        rw [if_pos rfl] at e2
        have e3 : (((W.moved n v d b).endTripOn h d).link d).vehs = ((W.moved n v d b).link d).vehs.tail := e2
        rw [e3] at hd
        exact List.mem_of_mem_tail hd
      · rw [if_neg hda] at e2
        have e3 : (((W.moved n v a b).endTripOn h a).link d).vehs = ((W.moved n v a b).link d).vehs := e2
        rw [e3] at hd; exact hd
  rw [moveVeh_eq, setN_link, setL_link] at hw
  split at hw
  · rename_i e; subst e
    rcases List.mem_append.1 hw with hw | hw
    · exact Or.inl (h1 _ hw)
    · exact Or.inr ⟨by simpa using hw, rfl⟩
  · exact Or.inl (h1 _ hw)

theorem entryPos_congr {W W' : CWorld} (k : Keep W W') (a b : ℕ) (m : ℚ) (y : Option ℚ) :
    entryPos W' a b m y = entryPos W a b m y := by
  have s := k.samePar
  unfold entryPos jamGap
  rw [s.len, s.vmax, s.vmax, s.dlane, k.g]

theorem placesAhead_append {W W' : CWorld} {l i : ℕ} {es : List ℕ} (hl : (W'.link l).lanes = (W.link l).lanes)
    (h1 : 1 ≤ (W.link l).lanes) (hi : i ≤ (W.link l).vehs.length)
    (h : (W'.link l).vehs = (W.link l).vehs ++ es) : placesAhead W' l i = placesAhead W l i := by
  unfold placesAhead
  rw [hl, h]
  split
  · rw [List.getElem?_append_left (by omega)]
  · rfl

/-- The vehicles that `n` lets into link `b`. -/
def Enter (n b : ℕ) (es : List ℕ) (W V : CWorld) : Prop :=
  ∀ j v, es[j]? = some v → ∃ a ∈ (W.node n).inLinks, v ∈ (W.link a).vehs ∧ v ∈ (W.node n).incoming ∧
    (V.veh v).x = entryPos W a b (W.veh v).moveRem
      ((placesAhead V b ((W.link b).vehs.length + j)).map (fun u => (W.veh u).xOld)) ∧
    (V.veh v).moveRem = 0

theorem foldl_enter {n b : ℕ} (order : List ℕ) {W : CWorld} (k : AtNode n W) (hb : b ∉ (W.node n).inLinks)
    (hbl : b < W.g.nLinks) :
    ∃ es, Aside b es W (order.foldl (CWorld.transferOne n) W) ∧
      Enter n b es W (order.foldl (CWorld.transferOne n) W) ∧
      Rems (fun w => ∀ a ∈ (W.node n).inLinks, w ∉ (W.link a).vehs) W (order.foldl (CWorld.transferOne n) W) := by
  induction order generalizing W with
  | nil => exact ⟨[], Aside.refl b W, fun j v h => by simp at h, Rems.of_eq rfl⟩
  | cons c t ih =>
    rw [List.foldl_cons]
    rcases transferOne_slot (c := c) k with ⟨e, _⟩ | ⟨W1, u, a', t', k1, sl, sv, kp, sn, hq, ha', hn, hce, hfr, hui, e⟩
    · rw [e]; exact ih k hb hbl
    · have post := k.transferOne (b := c)
      have i1 := k1.inv
      have hq1 : (W1.link a').vehs = u :: t' := by rw [sl]; exact hq
      have hba : b ≠ a' := fun e => hb (e ▸ ha')
      have as1 : Aside b (if b = c then [u] else []) W (CWorld.transferOne n W c) := by
        rw [e]
        have := (Aside.of_eq (c := b) sl sv).trans (moveVeh_aside (n := n) (b := c) i1 hq1 hba)
        simpa using this
      have rm : Rems (· ≠ u) W (CWorld.transferOne n W c) := by
        rw [e]
        exact (Rems.of_eq sv).trans (moveVeh_rems (n := n) (b := c) i1 hq1).1 (fun _ h => h)
      have hmem : ∀ w d, w ∈ ((CWorld.transferOne n W c).link d).vehs → w ≠ u → w ∈ (W.link d).vehs := by
        intro w d hw hne
        rw [e] at hw
        rcases moveVeh_mem (n := n) i1 hq1 hw with h | h
        · rw [sl] at h; exact h
        · exact absurd h.1 hne
      have hinc : ∀ w, w ∈ ((CWorld.transferOne n W c).node n).incoming → w ∈ (W.node n).incoming ∧ w ≠ u := by
        intro w hw
        rw [e, moveVeh_eq, setN_node, if_pos rfl] at hw
        have hw' : w ∈ (((W1.moved n u a' c).endFront a').1.node n).incoming.filter (· ≠ u) := hw
        rw [endFront_incoming i1 hq1, (sn n).2.2, List.mem_filter] at hw'
        exact ⟨hw'.1, by simpa using hw'.2⟩
      obtain ⟨es, h1, h2, h3⟩ := ih (W := CWorld.transferOne n W c) post.at'
        (by rw [post.keep.inLinks]; exact hb) (by rw [post.keep.g]; exact hbl)
      have hu0 : ¬ ∀ a ∈ (W.node n).inLinks, u ∉ (W.link a).vehs := fun h => h a' ha' (by rw [hq]; simp)
      refine ⟨_, as1.trans h1, ?_, ?_⟩
      · have later : ∀ j v, es[j]? = some v → ∃ a ∈ (W.node n).inLinks, v ∈ (W.link a).vehs ∧
            v ∈ (W.node n).incoming ∧
            ((t.foldl (CWorld.transferOne n) (CWorld.transferOne n W c)).veh v).x = entryPos W a b (W.veh v).moveRem
              ((placesAhead (t.foldl (CWorld.transferOne n) (CWorld.transferOne n W c)) b
                (((CWorld.transferOne n W c).link b).vehs.length + j)).map (fun u => (W.veh u).xOld)) ∧
            ((t.foldl (CWorld.transferOne n) (CWorld.transferOne n W c)).veh v).moveRem = 0 := by
          intro j v hj
          obtain ⟨a, ha, hva, hvi, hx, hm⟩ := h2 j v hj
          obtain ⟨hvi', hne⟩ := hinc v hvi
          refine ⟨a, by rw [← post.keep.inLinks]; exact ha, hmem v a hva hne, hvi', ?_, hm⟩
          rw [hx, entryPos_congr post.keep, rm.rem v hne]
          simp only [rm.old]
        by_cases hcb : b = c
        · subst hcb
          rw [if_pos rfl] at as1 ⊢
          have hub : u ∈ ((CWorld.transferOne n W b).link b).vehs := by rw [as1.vehs]; simp
          have hout : ∀ a ∈ ((CWorld.transferOne n W b).node n).inLinks,
              u ∉ ((CWorld.transferOne n W b).link a).vehs := fun a ha hm => by
            have := post.at'.inv.uniq hm hub
            rw [post.keep.inLinks] at ha
            exact hb (this ▸ ha)
          intro j v hj
          cases j with
          | zero =>
            have hj' : u = v := by simpa using hj
            subst hj'
            refine ⟨a', ha', by rw [hq]; simp, hui, ?_, ?_⟩
            · have e0 : ((CWorld.transferOne n W b).veh u).x = ((W1.moveVeh n u a' b).veh u).x := by rw [e]
              rw [(h1.same u hub).1, e0, moveVeh_entry (n := n) i1 hq1 hba, entryPos_congr kp, sv, Nat.add_zero]
              have p1 : placesAhead W1 b (W1.link b).vehs.length = placesAhead W b (W.link b).vehs.length := by
                unfold placesAhead; rw [sl]
              have hall := as1.trans h1
              have kk : ((t.foldl (CWorld.transferOne n) (CWorld.transferOne n W b)).link b).lanes = (W.link b).lanes := by
                have pf : NodePost n (CWorld.transferOne n W b) (t.foldl (CWorld.transferOne n) (CWorld.transferOne n W b)) :=
                  AtNode.foldl _ (fun W' x _ h _ => h.transferOne) post.at'
                exact (congrArg CLink.lanes ((post.keep.trans pf.keep).link b) : _)
              rw [p1, ← placesAhead_append kk (k.inv.ends b hbl).2.2 le_rfl hall.vehs]
            · rw [h3.rem u hout, e]
              exact (moveVeh_rems (n := n) (b := b) i1 hq1).2.1
          | succ j =>
            obtain ⟨a, ha, hva, hvi, hx, hm⟩ := later j v (by simpa using hj)
            refine ⟨a, ha, hva, hvi, ?_, hm⟩
            rw [hx, as1.vehs]
            rw [List.length_append, List.length_singleton, Nat.add_assoc, Nat.add_comm 1 j]
        · rw [if_neg hcb] at as1 ⊢
          intro j v hj
          obtain ⟨a, ha, hva, hvi, hx, hm⟩ := later j v (by simpa using hj)
          refine ⟨a, ha, hva, hvi, ?_, hm⟩
          rw [hx, as1.vehs, List.append_nil]
      · refine (rm.mono (B := fun w => ∀ a ∈ (W.node n).inLinks, w ∉ (W.link a).vehs) ?_).trans h3 ?_
        · intro w hw e; subst e; exact hu0 hw
        · intro w hw a ha hm
          rw [post.keep.inLinks] at ha
          have hne : w ≠ u := fun e => by subst e; exact hu0 hw
          exact hw a ha (hmem w a hm hne)

theorem endFronts_rems (a j : ℕ) (W : CWorld) {n : ℕ} (k : AtNode n W) (ha : a ∈ (W.node n).inLinks) :
    Rems (fun _ => True) W (CWorld.endFronts a j W) := by
  induction j generalizing W with
  | zero => exact Rems.of_eq rfl
  | succ j ih =>
    simp only [CWorld.endFronts]
    split
    · obtain ⟨p, q, _⟩ := k.endFront ha
      have h0 : Rems (fun _ => True) W (W.endFront a).1 := by
        rcases endFront_cases k.inv a with h | ⟨h, t, hq, hf, he⟩
        · rw [h]; exact Rems.of_eq rfl
        · rw [he]; exact endTripOn_rems W h a
      exact h0.trans (ih _ p (by rw [q.inLinks]; exact ha)) (fun _ _ => trivial)
    · exact Rems.of_eq rfl

theorem foldl_endFronts_rems {n : ℕ} (xs : List ℕ) {W : CWorld} (k : AtNode n W)
    (hx : ∀ a ∈ xs, a ∈ (W.node n).inLinks) :
    Rems (fun _ => True) W (xs.foldl (fun W a => CWorld.endFronts a (W.link a).lanes W) W) := by
  induction xs generalizing W with
  | nil => exact Rems.of_eq rfl
  | cons a t ih =>
    rw [List.foldl_cons]
    have ha := hx a (by simp)
    have p := k.endFronts (W.link a).lanes ha
    exact (endFronts_rems a _ W k ha).trans
      (ih p.at' (fun d hd => by rw [p.keep.inLinks]; exact hx d (by simp [hd]))) (fun _ _ => trivial)

/-- The turn of node `n`, seen from a link `b` that does not end there. -/
theorem transfer_enter {X : CWorld} {n b : ℕ} (r : Rest X) (hb : b ∉ (X.node n).inLinks) (hbl : b < X.g.nLinks) :
    ∃ es, Aside b es X (X.transfer n) ∧
      (∀ j v, es[j]? = some v → ∃ a ∈ (X.node n).inLinks, v ∈ (X.link a).vehs ∧ v ∈ (X.link a).arrived ∧
        ((X.transfer n).veh v).x = entryPos X a b (X.veh v).moveRem
          ((placesAhead (X.transfer n) b ((X.link b).vehs.length + j)).map (fun u => (X.veh u).xOld)) ∧
        ((X.transfer n).veh v).moveRem = 0) ∧
      Rems (fun w => ∀ a ∈ (X.node n).inLinks, w ∉ (X.link a).vehs) X (X.transfer n) := by
  have i := r.inv
  have i1 := i.collect (r.inc n)
  have k1 := Keep.collect X n
  have a1 : AtNode n (X.collect n) := by
    refine ⟨i1, fun a ha => ?_, fun m hm => ?_⟩
    · rw [k1.inLinks] at ha; rw [collect_link, if_pos ha]
    · rw [collect_node]; simp [hm, r.inc m]
  have hvs : ∀ c, ((X.collect n).link c).vehs = (X.link c).vehs := fun c => by
    rw [collect_link]; split <;> rfl
  have hb0 : (X.collect n).link b = X.link b := by rw [collect_link, if_neg hb]
  simp only [CWorld.transfer]
  obtain ⟨hc, kc⟩ := shuffleSlots_core (X.collect n) n
  obtain ⟨sl, sv⟩ := shuffleSlots_same (X.collect n) n
  have a2 : AtNode n ((X.collect n).shuffleSlots n).2 := a1.congr hc.symm
  have k2 := k1.trans kc
  have hin2 : (((X.collect n).shuffleSlots n).2.node n).inLinks = (X.node n).inLinks := k2.inLinks n
  have hinc2 : ∀ v a, a ∈ (X.node n).inLinks → v ∈ (X.link a).vehs →
      v ∈ (((X.collect n).shuffleSlots n).2.node n).incoming → v ∈ (X.link a).arrived := by
    intro v a ha hva hv
    rw [core_incoming hc, collect_node, if_pos rfl] at hv
    have hv' : v ∈ sortIds ((X.node n).incoming ++ (X.node n).inLinks.flatMap (fun a => (X.link a).arrived)) := hv
    unfold sortIds at hv'
    rw [List.mem_insertionSort, List.mem_append, r.inc n] at hv'
    obtain ⟨a', ha', hm⟩ := List.mem_flatMap.1 (hv'.resolve_left (by simp))
    obtain rfl : a' = a := i.uniq (i.arr a' v hm).1 hva
    exact hm
  obtain ⟨es, f1, f2, f3⟩ := foldl_enter ((X.collect n).shuffleSlots n).1 a2 (b := b)
    (by rw [hin2]; exact hb) (by rw [k2.g]; exact hbl)
  have p3 : NodePost n ((X.collect n).shuffleSlots n).2
      (((X.collect n).shuffleSlots n).1.foldl (CWorld.transferOne n) ((X.collect n).shuffleSlots n).2) :=
    AtNode.foldl _ (fun W' x _ h _ => h.transferOne) a2
  have hve : ((X.collect n).shuffleSlots n).2.veh = X.veh := by rw [sv]; exact funext fun w => by rw [collect_veh]
  have hlv : ∀ c, (((X.collect n).shuffleSlots n).2.link c).vehs = (X.link c).vehs := fun c => by rw [sl, hvs]
  have as0 : Aside b [] X ((X.collect n).shuffleSlots n).2 := by
    refine ⟨?_, ?_, fun w _ => ?_, fun _ => ?_⟩
    · rw [sl, hb0, List.append_nil]
    · rw [sl, hb0]
    · rw [hve]; exact ⟨rfl, rfl⟩
    · rw [sl, hb0]
  generalize ((X.collect n).shuffleSlots n).2 = W2 at *
  generalize ((X.collect n).shuffleSlots n).1 = order at *
  have kk := k2.trans p3.keep
  have hin3 : ((order.foldl (CWorld.transferOne n) W2).node n).inLinks = (X.node n).inLinks := kk.inLinks n
  obtain ⟨g1, _⟩ := foldl_endFronts (c := b) ((order.foldl (CWorld.transferOne n) W2).node n).inLinks p3.at'
    (fun a ha => ha) (by rw [hin3]; exact hb)
  have g2 := foldl_endFronts_rems ((order.foldl (CWorld.transferOne n) W2).node n).inLinks p3.at' (fun a ha => ha)
  have p4 : NodePost n (order.foldl (CWorld.transferOne n) W2)
      (((order.foldl (CWorld.transferOne n) W2).node n).inLinks.foldl
      (fun W a => CWorld.endFronts a (W.link a).lanes W) (order.foldl (CWorld.transferOne n) W2)) :=
    AtNode.foldl _ (fun W' x hx h kp => h.endFronts _ (by rw [kp.inLinks]; exact hx)) p3.at'
  have hla4 := (congrArg CLink.lanes (p4.keep.link b) : _)
  generalize order.foldl (CWorld.transferOne n) W2 = W3 at *
  generalize hW4 : (W3.node n).inLinks.foldl (fun W a => CWorld.endFronts a (W.link a).lanes W) W3 = W4 at *
  have all := (as0.trans f1).trans g1
  rw [List.nil_append, List.append_nil] at all
  refine ⟨es, ⟨all.vehs, all.out, all.same, all.room⟩, fun j v hj => ?_, ?_⟩
  · obtain ⟨a, ha, hva, hvi, hx, hm⟩ := f2 j v hj
    rw [hin2] at ha
    rw [hlv] at hva
    have hvb : v ∈ (W3.link b).vehs := by
      rw [f1.vehs]; exact List.mem_append_right _ (List.mem_of_getElem? hj)
    refine ⟨a, ha, hva, hinc2 v a ha hva hvi, ?_, ?_⟩
    · show (W4.veh v).x = _
      rw [(g1.same v hvb).1, hx, entryPos_congr k2, hve, hlv]
      have : placesAhead (W4.setN n fun N => { N with incoming := [] }) b ((X.link b).vehs.length + j) =
          placesAhead W3 b ((X.link b).vehs.length + j) := by
        unfold placesAhead
        have e1 : ((W4.setN n fun N => { N with incoming := [] }).link b).vehs = (W3.link b).vehs := by
          rw [setN_link, g1.vehs, List.append_nil]
        have e2 : ((W4.setN n fun N => { N with incoming := [] }).link b).lanes = (W3.link b).lanes := by
          rw [setN_link]; exact hla4
        rw [e1, e2]
      rw [this]
    · show (W4.veh v).moveRem = 0
      rw [g2.rem v trivial]; exact hm
  · refine ((Rems.of_eq (A := fun w => ∀ a ∈ (X.node n).inLinks, w ∉ (X.link a).vehs) hve).trans f3 ?_).trans
      (g2.trans (Rems.of_eq (A := fun _ => True) (by simp)) (fun _ _ => trivial)) (fun _ _ => trivial)
    intro w hw a ha hm
    rw [hin2] at ha
    rw [hlv] at hm
    exact hw a ha hm

end UX.Cpp
