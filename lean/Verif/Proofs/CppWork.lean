import Verif.Proofs.CppTrace
import Verif.Proofs.CppKinMove
import Verif.Proofs.CppChoice
import Verif.Spec.CppWork

/-!
# The transfers of one node, seen from one link
-/

namespace UX.Cpp
open CWorld Spec

/-- Between `W` and `W'` link `c` has got the vehicles `es`; the others on it are where they were. -/
structure Aside (c : ℕ) (es : List ℕ) (W W' : CWorld) : Prop where
  vehs : (W'.link c).vehs = (W.link c).vehs ++ es
  out : (W'.link c).capOutRem = (W.link c).capOutRem
  same : ∀ w ∈ (W.link c).vehs, (W'.veh w).x = (W.veh w).x ∧ (W'.veh w).next = (W.veh w).next
  room : es = [] → (W'.link c).capInRem = (W.link c).capInRem

theorem Aside.refl (c : ℕ) (W : CWorld) : Aside c [] W W :=
  ⟨by simp, rfl, fun _ _ => ⟨rfl, rfl⟩, fun _ => rfl⟩

theorem Aside.trans {c : ℕ} {es fs : List ℕ} {W W' W'' : CWorld} (h : Aside c es W W') (h' : Aside c fs W' W'') :
    Aside c (es ++ fs) W W'' := by
  refine ⟨by rw [h'.vehs, h.vehs, List.append_assoc], h'.out.trans h.out, fun w hw => ?_, fun e => ?_⟩
  · obtain ⟨a, b⟩ := h.same w hw
    obtain ⟨a', b'⟩ := h'.same w (by rw [h.vehs]; exact List.mem_append_left _ hw)
    exact ⟨a'.trans a, b'.trans b⟩
  · obtain ⟨e1, e2⟩ := List.append_eq_nil_iff.1 e
    exact (h'.room e2).trans (h.room e1)

theorem Aside.of_eq {c : ℕ} {W W' : CWorld} (hl : W'.link = W.link) (hv : W'.veh = W.veh) : Aside c [] W W' :=
  ⟨by rw [hl]; simp, by rw [hl], fun _ _ => by rw [hv]; exact ⟨rfl, rfl⟩, fun _ => by rw [hl]⟩

theorem endTripOn_aside {W : CWorld} {x y : Option ℕ} (i : Inv W x y) {h a c : ℕ} (hh : h ∈ (W.link a).vehs)
    (hc : c ≠ a) : Aside c [] W (W.endTripOn h a) := by
  have e := endTripOn_tv W h a c
  rw [if_neg hc] at e
  refine ⟨?_, congrArg (·.2.2.2.2.2) e, fun w hw => ?_, fun _ => congrArg (·.2.2.2.2.1) e⟩
  · rw [List.append_nil]; exact congrArg (·.1) e
  · have hne : w ≠ h := fun e => hc (i.uniq hw (e ▸ hh))
    rw [endTripOn_veh_ne _ _ _ _ hne]
    exact ⟨rfl, rfl⟩

theorem moveVeh_aside {W : CWorld} {n v a b c : ℕ} {t : List ℕ} (i : Inv W none none)
    (hq : (W.link a).vehs = v :: t) (hc : c ≠ a) :
    Aside c (if c = b then [v] else []) W (W.moveVeh n v a b) := by
  have hva : v ∈ (W.link a).vehs := by rw [hq]; simp
  have hl : (((W.moved n v a b).endFront a).1.link c).tv = ((W.moved n v a b).link c).tv := by
    rcases moved_endFront (n := n) (b := b) i hq with e | ⟨h, t', _, _, _, e⟩
    · rw [e]
    · rw [e, endTripOn_tv, if_neg hc]
  have hv : ∀ w ∈ (W.link c).vehs, (((W.moved n v a b).endFront a).1.veh w).x = (W.veh w).x ∧
      (((W.moved n v a b).endFront a).1.veh w).next = (W.veh w).next := by
    intro w hw
    have hne : w ≠ v := fun e => hc (i.uniq hw (e ▸ hva))
    have hm := moved_veh_other (n := n) (b := b) i hq w hne
    rcases moved_endFront (n := n) (b := b) i hq with e | ⟨h, t', e1, _, _, e⟩
    · rw [e, hm]; exact ⟨rfl, rfl⟩
    · have hne' : w ≠ h := fun e => hc (i.uniq hw (e ▸ (by rw [hq, e1]; simp)))
      rw [e, endTripOn_veh_ne _ _ _ _ hne']
      constructor
      · show ((W.moved n v a b).veh w).x = _
        rw [hm]
      · show ((W.moved n v a b).veh w).next = _
        rw [hm]
  have hl0 : ((W.moved n v a b).link c).vehs = (W.link c).vehs ∧
      ((W.moved n v a b).link c).capOutRem = (W.link c).capOutRem ∧
      (c ≠ b → ((W.moved n v a b).link c).capInRem = (W.link c).capInRem) := by
    rw [moved_link, leave_link, setL_link]
    by_cases e : c = b
    · subst e
      rw [if_pos rfl, setL_link, if_neg hc]
      exact ⟨rfl, rfl, fun h => absurd rfl h⟩
    · rw [if_neg e, setL_link, if_neg hc]
      exact ⟨rfl, rfl, fun _ => rfl⟩
  rw [moveVeh_eq]
  have h1 : (((W.moved n v a b).endFront a).1.link c).vehs = (W.link c).vehs := (congrArg (·.1) hl).trans hl0.1
  have h2 : (((W.moved n v a b).endFront a).1.link c).capOutRem = (W.link c).capOutRem :=
    (congrArg (·.2.2.2.2.2) hl).trans hl0.2.1
  have h3 : (((W.moved n v a b).endFront a).1.link c).capInRem = ((W.moved n v a b).link c).capInRem :=
    congrArg (·.2.2.2.2.1) hl
  refine ⟨?_, ?_, hv, fun e => ?_⟩
  · rw [setN_link, setL_link]
    split
    · rename_i e; subst e; show _ ++ [v] = _; rw [h1]
    · rw [h1, List.append_nil]
  · rw [setN_link, setL_link]
    split
    · rename_i e; subst e; exact h2
    · exact h2
  · have hcb : c ≠ b := fun e' => by rw [if_pos e'] at e; simp at e
    rw [setN_link, setL_link, if_neg hcb, h3]
    exact hl0.2.2 hcb

/-- Whether a link accepts a vehicle depends on that link only. -/
theorem Aside.canEnter {c : ℕ} {W W' : CWorld} (h : Aside c [] W W') (k : Keep W W') :
    W'.canEnter c = W.canEnter c := by
  have h1 : (W'.link c).vehs = (W.link c).vehs := by rw [h.vehs, List.append_nil]
  have h2 : (W'.link c).lanes = (W.link c).lanes :=
    (congrArg CLink.lanes (k.link c) : (W'.link c).par.lanes = (W.link c).par.lanes)
  have h3 : W'.gap c = W.gap c := by
    have : (W'.link c).deltaLane = (W.link c).deltaLane :=
      (congrArg CLink.deltaLane (k.link c) : (W'.link c).par.deltaLane = (W.link c).par.deltaLane)
    unfold gap; rw [k.g, this]
  unfold CWorld.canEnter
  rw [h1, h2, h3, h.room rfl, k.g]
  cases hu : (W.link c).vehs[(W.link c).vehs.length - (W.link c).lanes]? with
  | none => rfl
  | some u => simp only; rw [(h.same u (List.mem_of_getElem? hu)).1]

/-- Whether `v` may move. -/
theorem mayMove_iff {W : CWorld} {n b v a : ℕ} (hl : (W.veh v).link = some a) : W.mayMove n b v = true ↔
    (W.veh v).next = some b ∧ (W.link a).vehs.head? = some v ∧ W.g.deltaN ≤ (W.link a).capOutRem ∧
      ((W.node n).sigPhase ∈ (W.link a).group ∨ (W.node n).sigInt.length ≤ 1) := by
  unfold mayMove
  rw [hl]
  simp [and_assoc]

/-- What one slot for link `b` does while vehicle `v` on link `a` waits for its turn. -/
structure Waits (n v a b : ℕ) (W : CWorld) : Prop where
  at' : AtNode n W
  ha : a ∈ (W.node n).inLinks
  first : (W.link a).vehs.head? = some v
  inc : v ∈ (W.node n).incoming
  next : (W.veh v).next = some b
  out : W.g.deltaN ≤ (W.link a).capOutRem
  green : (W.node n).sigPhase ∈ (W.link a).group ∨ (W.node n).sigInt.length ≤ 1

/-- The node does not let anybody into `b` any more. -/
def Shut (n b : ℕ) (W : CWorld) : Prop := W.canEnter b = false ∨ (W.node n).flowRem < W.g.deltaN

theorem pickMerge_some {W : CWorld} {n : ℕ} {vs : List ℕ} (h : vs ≠ []) : ∃ u, (W.pickMerge n vs).1 = some u := by
  unfold pickMerge
  split
  · refine firstMax_some ?_
    cases vs with
    | nil => exact absurd rfl h
    | cons v t => simp
  · obtain ⟨u, hu⟩ := randomChoice_some (fl := W.g.fl) (ws := vs.map W.priOf) (W.node n).rng h (by simp)
    exact ⟨u, hu⟩

/-- One slot of `transfer`: nothing moves because nothing can, or one vehicle does. -/
theorem transferOne_slot {n c : ℕ} {W : CWorld} (k : AtNode n W) :
    (CWorld.transferOne n W c = W ∧ (W.canEnter c = true → ¬ (W.node n).flowRem < W.g.deltaN →
      ∀ u ∈ (W.node n).incoming, W.mayMove n c u = false)) ∨
    ∃ (W1 : CWorld) (u a : ℕ) (t : List ℕ), AtNode n W1 ∧ W1.link = W.link ∧ W1.veh = W.veh ∧ Keep W W1 ∧
      (∀ m, (W1.node m).flowRem = (W.node m).flowRem ∧ (W1.node m).sigPhase = (W.node m).sigPhase ∧
        (W1.node m).incoming = (W.node m).incoming) ∧
      (W.link a).vehs = u :: t ∧ a ∈ (W.node n).inLinks ∧ (W.veh u).next = some c ∧ W.canEnter c = true ∧
      ¬ (W.node n).flowRem < W.g.deltaN ∧ u ∈ (W.node n).incoming ∧
      CWorld.transferOne n W c = W1.moveVeh n u a c := by
  unfold CWorld.transferOne
  split
  · rename_i hcond
    rw [Bool.and_eq_true, Bool.not_eq_true', decide_eq_false_iff_not] at hcond
    split
    · rename_i hvs
      refine Or.inl ⟨rfl, fun _ _ u hu => ?_⟩
      by_contra hne
      have : u ∈ (W.node n).incoming.filter (W.mayMove n c) := List.mem_filter.2 ⟨hu, by simpa using hne⟩
      rw [hvs] at this; simp at this
    · rename_i v0 vs hvs
      obtain ⟨sl, sv, sg, sn⟩ := pickMerge_same W n (v0 :: vs)
      obtain ⟨hc, kp, hm⟩ := pickMerge_core W n (v0 :: vs)
      obtain ⟨u, hu⟩ := pickMerge_some (W := W) (n := n) (vs := v0 :: vs) (by simp)
      split
      · rename_i W1 he
        rw [he] at hu; simp at hu
      · rename_i v W1 he
        rw [he] at hc kp hm sl sv sg sn
        simp only at hc kp hm sl sv sg sn
        have hv := hm v rfl
        rw [← hvs, List.mem_filter] at hv
        obtain ⟨hvi, hmay⟩ := hv
        split
        · rename_i hl
          rw [sv] at hl
          unfold mayMove at hmay
          rw [hl] at hmay; simp at hmay
        · rename_i a hl
          rw [sv] at hl
          obtain ⟨hn, hh, hout, hsig⟩ := (mayMove_iff hl).1 hmay
          obtain ⟨t, ht⟩ : ∃ t, (W.link a).vehs = v :: t := by
            cases hq : (W.link a).vehs with
            | nil => rw [hq] at hh; simp at hh
            | cons u t => rw [hq] at hh; simp at hh; exact ⟨t, by rw [hh]⟩
          have hva : v ∈ (W.link a).vehs := by rw [ht]; simp
          have hin : a ∈ (W.node n).inLinks := by
            rcases k.inv.inc n v hvi with h | h | ⟨⟨a', ha', hd⟩, _⟩
            · simp at h
            · rw [hn] at h; simp at h
            · obtain rfl : a' = a := k.inv.uniq ha' hva
              exact (k.inv.inL n a').2 ⟨(k.inv.mem a' v hva).2.2.1, hd⟩
          exact Or.inr ⟨W1, v, a, t, k.congr hc.symm, sl, sv, kp,
            fun m => ⟨(sn m).1, (sn m).2.1, core_incoming hc m⟩, ht, hin, hn, hcond.1, hcond.2, hvi, rfl⟩
  · rename_i hcond
    refine Or.inl ⟨rfl, fun h1 h2 => absurd ?_ hcond⟩
    rw [h1]; simpa using h2

theorem endFront_incoming {W : CWorld} {n v a b : ℕ} {t : List ℕ} (i : Inv W none none)
    (hq : (W.link a).vehs = v :: t) (m : ℕ) :
    (((W.moved n v a b).endFront a).1.node m).incoming = (W.node m).incoming := by
  have h1 : ((W.moved n v a b).node m).incoming = (W.node m).incoming := by
    have : (W.moved n v a b).node = (W.leave n v a b).node := by simp [CWorld.moved, place]
    rw [this, core_incoming (core_leave W n v a b) m]
    simp [CWorld.leaveC]
  rcases moved_endFront (n := n) (b := b) i hq with e | ⟨h, t', _, _, _, e⟩
  · rw [e]; exact h1
  · rw [e, endTripOn_incoming]; exact h1

theorem foldl_slots {n b : ℕ} (order : List ℕ) {W : CWorld} (k : AtNode n W) (hb : b ∉ (W.node n).inLinks) :
    ∃ es, Aside b es W (order.foldl (CWorld.transferOne n) W) ∧ es.length ≤ order.count b ∧
      (Shut n b W → Shut n b (order.foldl (CWorld.transferOne n) W)) ∧
      ∀ v a, Waits n v a b W → v ∈ es ∨ es.length = order.count b ∨
        Shut n b (order.foldl (CWorld.transferOne n) W) := by
  induction order generalizing W with
  | nil => exact ⟨[], Aside.refl b W, by simp, id, fun v a _ => Or.inr (Or.inl rfl)⟩
  | cons c t ih =>
    rw [List.foldl_cons]
    rcases transferOne_slot (c := c) k with ⟨e, hno⟩ | ⟨W1, u, a', t', k1, sl, sv, kp, sn, hq, ha', hn, hce, hfr, _, e⟩
    · rw [e]
      obtain ⟨es, h1, h2, h3, h4⟩ := ih k hb
      refine ⟨es, h1, h2.trans (List.count_le_count_cons), h3, fun v a hw => ?_⟩
      by_cases hcb : c = b
      · refine Or.inr (Or.inr (h3 ?_))
        subst hcb
        by_contra hs
        unfold Shut at hs
        push Not at hs
        obtain ⟨s1, s2⟩ := hs
        have hva : v ∈ (W.link a).vehs := List.mem_of_head? hw.first
        have := hno (by simpa using s1) (not_lt.2 s2) v hw.inc
        rw [Bool.eq_false_iff] at this
        exact this ((mayMove_iff (hw.at'.inv.mem a v hva).1).2 ⟨hw.next, hw.first, hw.out, hw.green⟩)
      · rw [List.count_cons_of_ne hcb]
        exact h4 v a hw
    · have post := k.transferOne (b := c)
      have i1 := k1.inv
      have hq1 : (W1.link a').vehs = u :: t' := by rw [sl]; exact hq
      have hba : b ≠ a' := fun e => hb (e ▸ ha')
      have as1 : ∀ d, d ≠ a' → Aside d (if d = c then [u] else []) W (CWorld.transferOne n W c) := fun d hd => by
        rw [e]
        have := (Aside.of_eq (c := d) sl sv).trans (moveVeh_aside (n := n) (b := c) i1 hq1 hd)
        simpa using this
      obtain ⟨es, h1, h2, h3, h4⟩ := ih (W := CWorld.transferOne n W c) post.at'
        (by rw [post.keep.inLinks]; exact hb)
      refine ⟨_, (as1 b hba).trans h1, ?_, fun hs => h3 ?_, fun v a hw => ?_⟩
      · by_cases hcb : b = c
        · subst hcb; rw [if_pos rfl]; simp; omega
        · rw [if_neg hcb, List.count_cons_of_ne (Ne.symm hcb)]; simpa using h2
      · rcases hs with hs | hs
        · have hcb : b ≠ c := fun e => by rw [e, hce] at hs; simp at hs
          have := as1 b hba
          rw [if_neg hcb] at this
          exact Or.inl ((this.canEnter post.keep).trans hs)
        · exact absurd hs hfr
      · by_cases huv : u = v
        · subst huv
          have hcb : b = c := by
            have := hn.symm.trans hw.next
            exact (Option.some.inj this).symm
          left; rw [if_pos hcb]; simp
        · have haa : a ≠ a' := fun e => by
            have := hw.first
            rw [e, hq] at this
            exact huv (Option.some.inj this)
          have hva : v ∈ (W.link a).vehs := List.mem_of_head? hw.first
          have asa := as1 a haa
          have hac : a ≠ c ∨ a = c := ne_or_eq a c
          have hw' : Waits n v a b (CWorld.transferOne n W c) := by
            refine ⟨post.at', by rw [post.keep.inLinks]; exact hw.ha, ?_, ?_, ?_, ?_, ?_⟩
            · rw [asa.vehs, List.head?_append, hw.first]; rfl
            · rw [e, moveVeh_eq, setN_node, if_pos rfl]
              show v ∈ (((W1.moved n u a' c).endFront a').1.node n).incoming.filter (· ≠ u)
              have : (((W1.moved n u a' c).endFront a').1.node n).incoming = (W.node n).incoming := by
                rw [endFront_incoming i1 hq1]; exact (sn n).2.2
              rw [this]
              exact List.mem_filter.2 ⟨hw.inc, by simpa using fun e => huv e.symm⟩
            · rw [(asa.same v hva).2]; exact hw.next
            · rw [asa.out, post.keep.g]; exact hw.out
            · have h5 : ((CWorld.transferOne n W c).node n).sigPhase = (W.node n).sigPhase := by
                rw [e]
                refine (congrArg (·.1) (moveVeh_ntv (n := n) (b := c) i1 hq1 n)).trans (sn n).2.1
              rw [h5]
              have h6 : ((CWorld.transferOne n W c).link a).group = (W.link a).group :=
                (congrArg CLink.group (post.keep.link a) :
                  ((CWorld.transferOne n W c).link a).par.group = (W.link a).par.group)
              have h7 : ((CWorld.transferOne n W c).node n).sigInt = (W.node n).sigInt :=
                (congrArg CNode.sigInt (post.keep.node n) :
                  ((CWorld.transferOne n W c).node n).par.sigInt = (W.node n).par.sigInt)
              rw [h6, h7]; exact hw.green
          rcases h4 v a hw' with h | h | h
          · exact Or.inl (List.mem_append_right _ h)
          · right; left
            by_cases hcb : b = c
            · subst hcb; rw [if_pos rfl]; simp; omega
            · rw [if_neg hcb, List.count_cons_of_ne (Ne.symm hcb)]; simpa using h
          · exact Or.inr (Or.inr h)

theorem endFronts_aside {n a c : ℕ} (j : ℕ) {W : CWorld} (k : AtNode n W) (ha : a ∈ (W.node n).inLinks) (hc : c ≠ a) :
    Aside c [] W (CWorld.endFronts a j W) ∧
      ((CWorld.endFronts a j W).node n).flowRem = (W.node n).flowRem := by
  induction j generalizing W with
  | zero => exact ⟨Aside.refl c W, rfl⟩
  | succ j ih =>
    simp only [CWorld.endFronts]
    split
    · obtain ⟨p, q, _⟩ := k.endFront ha
      obtain ⟨e1, e2⟩ := ih p (by rw [q.inLinks]; exact ha)
      have h0 : Aside c [] W (W.endFront a).1 ∧ ((W.endFront a).1.node n).flowRem = (W.node n).flowRem := by
        rcases endFront_cases k.inv a with h | ⟨h, t, hq, hf, he⟩
        · rw [h]; exact ⟨Aside.refl c W, rfl⟩
        · rw [he]
          exact ⟨endTripOn_aside k.inv (by rw [hq]; simp) hc, congrArg (·.2.2) (endTripOn_ntv W h a n)⟩
      exact ⟨by simpa using h0.1.trans e1, e2.trans h0.2⟩
    · exact ⟨Aside.refl c W, rfl⟩

theorem foldl_endFronts {n c : ℕ} (xs : List ℕ) {W : CWorld} (k : AtNode n W) (hx : ∀ a ∈ xs, a ∈ (W.node n).inLinks)
    (hc : c ∉ xs) :
    Aside c [] W (xs.foldl (fun W a => CWorld.endFronts a (W.link a).lanes W) W) ∧
      ((xs.foldl (fun W a => CWorld.endFronts a (W.link a).lanes W) W).node n).flowRem = (W.node n).flowRem := by
  induction xs generalizing W with
  | nil => exact ⟨Aside.refl c W, rfl⟩
  | cons a t ih =>
    rw [List.foldl_cons]
    have ha := hx a (by simp)
    have hca : c ≠ a := fun e => hc (by simp [e])
    obtain ⟨e1, e2⟩ := endFronts_aside (W.link a).lanes k ha hca
    have p := k.endFronts (W.link a).lanes ha
    obtain ⟨f1, f2⟩ := ih p.at' (fun d hd => by rw [p.keep.inLinks]; exact hx d (by simp [hd]))
      (fun h => hc (by simp [h]))
    exact ⟨by simpa using e1.trans f1, f2.trans e2⟩

theorem hasRoom_iff {W : CWorld} {l : ℕ} : W.canEnter l = true ↔ HasRoom W l := by
  unfold CWorld.canEnter HasRoom
  rw [Bool.and_eq_true, Bool.or_eq_true, decide_eq_true_eq, Bool.not_eq_true', decide_eq_false_iff_not, not_lt]
  refine and_congr (or_congr Iff.rfl ?_) Iff.rfl
  cases (W.link l).vehs[(W.link l).vehs.length - (W.link l).lanes]? with
  | none => simp
  | some u =>
    simp only [Option.some.injEq, exists_eq_left', jamGap, gap]
    exact decide_eq_true_iff

theorem count_slots_eq {keys : List ℕ} (hn : keys.Nodup) (f : ℕ → ℕ) {b : ℕ} (hb : b ∈ keys) :
    (keys.flatMap (fun l => List.replicate (f l) l)).count b = f b := by
  induction keys with
  | nil => simp at hb
  | cons a t ih =>
    obtain ⟨h1, h2⟩ := List.nodup_cons.1 hn
    rw [List.flatMap_cons, List.count_append, List.count_replicate]
    rcases List.mem_cons.1 hb with rfl | hb
    · have : (t.flatMap (fun l => List.replicate (f l) l)).count b = 0 := by
        rw [List.count_eq_zero]
        intro h
        obtain ⟨l, hl, hm⟩ := List.mem_flatMap.1 h
        exact h1 (by rw [List.eq_of_mem_replicate hm]; exact hl)
      simp [this]
    · rw [ih h2 hb, if_neg (by simpa using fun e : a = b => h1 (e ▸ hb))]; simp

theorem shuffleSlots_perm (W : CWorld) (n : ℕ) : (W.shuffleSlots n).1.Perm (W.slots n) := by
  unfold shuffleSlots
  split
  · exact List.Perm.refl _
  · exact fisherYates_perm ((W.slots n).length - 1) (W.slots n) (W.node n).rng (by omega)

theorem shuffleSlots_phase (W : CWorld) (n : ℕ) :
    ((W.shuffleSlots n).2.node n).sigPhase = (W.node n).sigPhase := by
  unfold shuffleSlots
  split
  · rfl
  · simp only [setN_node, if_pos]

theorem transfer_work {X : CWorld} {n b : ℕ} (r : Rest X) (hb : b ∉ (X.node n).inLinks) :
    ∃ es, Aside b es X (X.transfer n) ∧ es.length ≤ (X.link b).lanes ∧
      ((X.transfer n).link b).arrived = (X.link b).arrived ∧
      ∀ v a, FirstFor X v a b → (X.link a).dst = n → MayLeave X a →
        v ∈ es ∨ es.length = (X.link b).lanes ∨ ¬ HasRoom (X.transfer n) b ∨
        ((X.transfer n).node n).flowRem < X.g.deltaN := by
  have i := r.inv
  have i1 := i.collect (r.inc n)
  have k1 := Keep.collect X n
  have a1 : AtNode n (X.collect n) := by
    refine ⟨i1, fun a ha => ?_, fun m hm => ?_⟩
    · rw [k1.inLinks] at ha; rw [collect_link, if_pos ha]
    · rw [collect_node]; simp [hm, r.inc m]
  have hb0 : (X.collect n).link b = X.link b := by rw [collect_link, if_neg hb]
  simp only [CWorld.transfer]
  obtain ⟨hc, kc⟩ := shuffleSlots_core (X.collect n) n
  obtain ⟨sl, sv⟩ := shuffleSlots_same (X.collect n) n
  have sp := shuffleSlots_perm (X.collect n) n
  have hcl := shuffleSlots_count (X.collect n) n b
  have a2 : AtNode n ((X.collect n).shuffleSlots n).2 := a1.congr hc.symm
  have hin2 : (((X.collect n).shuffleSlots n).2.node n).inLinks = (X.node n).inLinks :=
    (kc.inLinks n).trans (k1.inLinks n)
  obtain ⟨es, f1, f2, _, f4⟩ := foldl_slots ((X.collect n).shuffleSlots n).1 a2 (b := b) (by rw [hin2]; exact hb)
  have p3 : NodePost n ((X.collect n).shuffleSlots n).2
      (((X.collect n).shuffleSlots n).1.foldl (CWorld.transferOne n) ((X.collect n).shuffleSlots n).2) :=
    AtNode.foldl _ (fun W' x _ h _ => h.transferOne) a2
  have as0 : Aside b [] X ((X.collect n).shuffleSlots n).2 := by
    refine ⟨?_, ?_, fun w _ => ?_, fun _ => ?_⟩
    · rw [sl, hb0, List.append_nil]
    · rw [sl, hb0]
    · rw [sv, collect_veh]; exact ⟨rfl, rfl⟩
    · rw [sl, hb0]
  have har0 : (((X.collect n).shuffleSlots n).2.link b).arrived = (X.link b).arrived := by rw [sl, hb0]
  have hwait : ∀ v a, FirstFor X v a b → (X.link a).dst = n → MayLeave X a →
      Waits n v a b ((X.collect n).shuffleSlots n).2 ∧
        ((X.collect n).shuffleSlots n).1.count b = (X.link b).lanes := by
    intro v a hf hd hm
    have ha : a ∈ (X.node n).inLinks := (i.inL n a).2 ⟨hf.on, hd⟩
    have hinc : v ∈ ((X.collect n).node n).incoming := by
      rw [collect_node, if_pos rfl]
      show v ∈ sortIds _
      unfold sortIds
      rw [List.mem_insertionSort, List.mem_append]
      exact Or.inr (List.mem_flatMap.2 ⟨a, ha, hf.arrived⟩)
    have hla : ((X.collect n).link a) = { X.link a with arrived := [] } := by rw [collect_link, if_pos ha]
    refine ⟨⟨a2, by rw [hin2]; exact ha, ?_, ?_, ?_, ?_, ?_⟩, ?_⟩
    · rw [sl, hla]; exact hf.first
    · rw [core_incoming hc]; exact hinc
    · rw [sv, collect_veh]; exact hf.next
    · rw [sl, hla, kc.g, k1.g]; exact hm.1
    · have h5 : (((X.collect n).shuffleSlots n).2.node n).sigPhase = (X.node n).sigPhase := by
        rw [(shuffleSlots_phase (X.collect n) n), collect_node]
      have h7 : (((X.collect n).shuffleSlots n).2.node n).sigInt = (X.node n).sigInt :=
        (congrArg CNode.sigInt ((k1.trans kc).node n) :
          (((X.collect n).shuffleSlots n).2.node n).par.sigInt = (X.node n).par.sigInt)
      rw [h5, h7, sl, hla]
      have := hm.2
      rw [hd] at this
      exact this
    · rw [sp.count_eq]
      unfold CWorld.slots
      rw [count_slots_eq (uniqFirst_nodup _) (fun l => ((X.collect n).link l).lanes), hb0]
      rw [uniqFirst_mem, List.mem_filterMap]
      exact ⟨v, hinc, by rw [collect_veh]; exact hf.next⟩
  generalize ((X.collect n).shuffleSlots n).2 = W2 at *
  generalize ((X.collect n).shuffleSlots n).1 = order at *
  have kk := (k1.trans kc).trans p3.keep
  have hin3 : ((order.foldl (CWorld.transferOne n) W2).node n).inLinks = (X.node n).inLinks := kk.inLinks n
  obtain ⟨g1, g2⟩ := foldl_endFronts (c := b) ((order.foldl (CWorld.transferOne n) W2).node n).inLinks p3.at'
    (fun a ha => ha) (by rw [hin3]; exact hb)
  have p4 : NodePost n (order.foldl (CWorld.transferOne n) W2)
      (((order.foldl (CWorld.transferOne n) W2).node n).inLinks.foldl
      (fun W a => CWorld.endFronts a (W.link a).lanes W) (order.foldl (CWorld.transferOne n) W2)) :=
    AtNode.foldl _ (fun W' x hx h kp => h.endFronts _ (by rw [kp.inLinks]; exact hx)) p3.at'
  have all := (as0.trans f1).trans g1
  rw [List.nil_append, List.append_nil] at all
  refine ⟨es, ⟨all.vehs, all.out, all.same, all.room⟩, ?_, ?_, fun v a hf hd hm => ?_⟩
  · exact f2.trans (hcl.trans (by rw [hb0]))
  · rw [setN_link, p4.same, p3.same]; exact har0
  · obtain ⟨hw, hcount⟩ := hwait v a hf hd hm
    rcases f4 v a hw with h | h | h
    · exact Or.inl h
    · exact Or.inr (Or.inl (h.trans hcount))
    · rcases h with h | h
      · right; right; left
        have e := (g1.canEnter p4.keep).trans h
        intro hh
        have hh' := hasRoom_iff.2 hh
        have := e.symm.trans hh'
        simp at this
      · right; right; right
        rw [setN_node, if_pos rfl]
        show _ < _
        rw [g2]
        rw [kk.g] at h
        exact h

end UX.Cpp
