import Verif.Spec.Lone
import Verif.Proofs.Safe
import Verif.Proofs.Quiet
import Verif.Proofs.Forward

/-!
# A vehicle with a link of its own (C50)

Vehicle `v` starts at a node `n` that no link enters and no other vehicle starts from; the only link `l`
out of `n` leads to the destination of `v`. Nothing else in the network can touch `v` or `l`.
-/

namespace UX
open World

structure Keep (v : VehId) (n : NodeId) (l : LinkId) (W W' : World) : Prop where
  st : Static W W'
  state : W'.V.state v = W.V.state v
  link : W'.V.link v = W.V.link v
  x : W'.V.x v = W.V.x v
  xNext : W'.V.xNext v = W.V.xNext v
  flagEnd : W'.V.flagEnd v = W.V.flagEnd v
  flagAborted : W'.V.flagAborted v = W.V.flagAborted v
  dest : W'.V.dest v = W.V.dest v
  arr : W'.V.arrTime v = W.V.arrTime v
  vehs : W'.L.vehs l = W.L.vehs l
  genq : W'.N.genq n = W.N.genq n
  cap : W.L.capInRem l ≤ W'.L.capInRem l

variable {v : VehId} {n : NodeId} {l : LinkId}

theorem Keep.refl (W : World) : Keep v n l W W := by
  refine ⟨Static.refl W, ?_, ?_, ?_, ?_, ?_, ?_, ?_, ?_, ?_, ?_, le_refl _⟩ <;> rfl

theorem Keep.trans {W1 W2 W3 : World} (h1 : Keep v n l W1 W2) (h2 : Keep v n l W2 W3) : Keep v n l W1 W3 :=
  ⟨h1.st.trans h2.st, h2.state.trans h1.state, h2.link.trans h1.link, h2.x.trans h1.x,
    h2.xNext.trans h1.xNext, h2.flagEnd.trans h1.flagEnd, h2.flagAborted.trans h1.flagAborted,
    h2.dest.trans h1.dest, h2.arr.trans h1.arr, h2.vehs.trans h1.vehs, h2.genq.trans h1.genq,
    h1.cap.trans h2.cap⟩

theorem Alone.static {W W' : World} (h : Alone v n l W) (hs : Static W W')
    (hd : W'.V.dest v = W.V.dest v) (ho : ∀ u ∈ W'.L.vehs l, u = v) : Alone v n l W' := by
  obtain ⟨a1, a2, a3, a4, a5, a6, a7, a8, a9, a10, a11⟩ := h
  refine ⟨?_, ?_, ?_, ?_, ?_, ?_, ?_, ho, ?_, ?_, ?_⟩
  · rw [hs.nVeh]; exact a1
  · rw [hs.orig]; exact a2
  · rw [hs.outlinks]; exact a3
  · rw [hs.inlinks]; exact a4
  · rw [hs.nVeh, hs.orig]; exact a5
  · rw [hs.mode]; exact a6
  · rw [hd, hs.endN]; exact a7
  · rw [hs.cfg]; exact a9
  · rw [hs.capIn]; exact a10
  · unfold World.dt at *; rw [hs.cfg]; exact a11

theorem Keep.priv {W W' : World} (h : Keep v n l W W') (hp : Alone v n l W) : Alone v n l W' :=
  hp.static h.st h.dest (by rw [h.vehs]; exact hp.only)

/-- What the vehicle itself does. -/
def isMine (v : VehId) : Act → Prop
  | .depart _ u _ => u = v | .move _ u _ _ => u = v | .endTrip u _ => u = v | .carfollow u => u = v
  | .startWait u => u = v | .advance u => u = v | .flagEnd u => u = v | .flagAbort u => u = v
  | .nextDest u => u = v
  | _ => False

theorem Alone.l_lt {W : World} (h : Alone v n l W) (hS : SInv W) : l < W.nLinks ∧ W.L.startN l = n :=
  (hS.out_iff n l).1 (by rw [h.out]; simp)

theorem Alone.queue {W : World} (h : Alone v n l W) (hS : SInv W) {u : VehId} (hu : u ∈ W.N.genq n) : u = v := by
  by_contra hne
  obtain ⟨h1, h2⟩ := hS.genq_mem n u hu
  refine h.others u ?_ hne h2
  by_contra hh
  have := hS.fresh u (not_lt.1 hh)
  rw [h1] at this; cases this

theorem Prim.keep {act : Act} {W W' : World} (hc : Core W) (h : Alone v n l W)
    (hm : ¬ isMine v act) (hns : (∃ m u a b, act = .move m u a b) → NoStale W) (hp : Prim act W W') :
    Keep v n l W W' := by
  have hst := hp.static
  have hS := hc.s
  have hs := hp.shape hS
  clear hp
  obtain ⟨hll, hln⟩ := h.l_lt hS
  cases hs with
  | @linkTick _ m co ci q hl hco hci hq =>
    refine ⟨hst, rfl, rfl, rfl, rfl, rfl, rfl, rfl, rfl, rfl, rfl, ?_⟩
    show _ ≤ upd W.L.capInRem m ci l
    by_cases e : l = m
    · subst e
      rw [upd_same, hci]
      unfold World.fl
      rw [h.exact_]
      split
      · have := mul_nonneg h.capIn h.dt.le
        simp only [id]; linarith
      · exact le_refl _
    · rw [upd_ne _ _ e]
  | nodeTick =>
    exact ⟨hst, rfl, rfl, rfl, rfl, rfl, rfl, rfl, rfl, rfl, rfl, le_refl _⟩
  | @depart _ m u t cs k o hn hq hcs hl hout hent hcum hlead =>
    have huv : v ≠ u := fun e => hm e.symm
    have hmn : n ≠ m := by
      rintro rfl
      exact huv (h.queue hS (by rw [hq]; simp)).symm
    have hlk : l ≠ k := by
      rintro rfl
      exact hmn (hln.symm.trans ((hS.out_iff m l).1 hout).2)
    refine ⟨hst, ?_, ?_, ?_, rfl, rfl, rfl, rfl, rfl, ?_, ?_, ?_⟩
    · exact upd_ne _ _ huv
    · exact upd_ne _ _ huv
    · exact upd_ne _ _ huv
    · exact upd_ne _ _ hlk
    · exact upd_ne _ _ hmn
    · show _ ≤ upd W.L.capInRem k _ l
      rw [upd_ne _ _ hlk]
  | @move _ m u a b t o q nl fc tta hn hinc hla hv hr hsig hout hfl hent hcd hca hu hlead hnl hq hfc htta =>
    have huv : v ≠ u := fun e => hm e.symm
    have hla' : l ≠ a := by
      rintro rfl
      exact huv (h.only u (by rw [hv]; simp)).symm
    have hlb : l ≠ b := by
      rintro rfl
      have h1 := hns ⟨m, u, a, l, rfl⟩ m u l hinc hr
      have h2 := (hS.inc_run m u a hinc hla).1
      have h3 : a ∈ W.N.inlinks n :=
        (hS.in_iff n a).2 ⟨(hS.link_run u a hla).2.2, by rw [h2, ← h1, hln]⟩
      rw [h.inn] at h3; cases h3
    refine ⟨hst, rfl, ?_, ?_, rfl, rfl, rfl, rfl, rfl, ?_, rfl, ?_⟩
    · exact upd_ne _ _ huv
    · exact upd_ne _ _ huv
    · show upd (upd W.L.vehs a t) b _ l = _
      rw [upd_ne _ _ hlb, upd_ne _ _ hla']
    · show _ ≤ upd W.L.capInRem b _ l
      rw [upd_ne _ _ hlb]
  | @endTrip _ u k t log s c lt tta hl hv hf hcd hrun hliv hlt hlog htta =>
    have huv : v ≠ u := fun e => hm e.symm
    have hlk : l ≠ k := by
      rintro rfl
      exact huv (h.only u (by rw [hv]; simp)).symm
    refine ⟨hst, ?_, ?_, ?_, rfl, rfl, rfl, rfl, ?_, ?_, rfl, le_refl _⟩
    all_goals first
      | exact upd_ne _ _ huv
      | exact upd_ne _ _ hlk
  | @carfollow _ u k mr xn hrun hl hx =>
    have huv : v ≠ u := fun e => hm e.symm
    exact ⟨hst, rfl, rfl, rfl, upd_ne _ _ huv, rfl, rfl, rfl, rfl, rfl, rfl, le_refl _⟩
  | @startWait _ u hliv hsu hd =>
    have huv : v ≠ u := fun e => hm e.symm
    have hn' : n ≠ W.V.orig u := by
      intro e
      exact h.others u ((hS.living_iff u).1 hliv).1 huv.symm e.symm
    exact ⟨hst, upd_ne _ _ huv, rfl, rfl, rfl, rfl, rfl, rfl, rfl, rfl, upd_ne _ _ hn', le_refl _⟩
  | noWait => exact Keep.refl W
  | @advance _ u _ _ _ =>
    have huv : v ≠ u := fun e => hm e.symm
    exact ⟨hst, rfl, rfl, upd_ne _ _ huv, rfl, rfl, rfl, rfl, rfl, rfl, rfl, le_refl _⟩
  | @event _ u a e rng R H dest destList nodeEvent pref ha he hr hd =>
    exact ⟨hst, rfl, rfl, rfl, rfl, rfl, rfl, hd v h.mode, rfl, rfl, rfl, le_refl _⟩
  | @nextDest _ u a d dl ha hd hm' hdl =>
    have huv : v ≠ u := fun e => hm e.symm
    exact ⟨hst, rfl, rfl, rfl, rfl, rfl, rfl, upd_ne _ _ huv, rfl, rfl, rfl, le_refl _⟩
  | @flagEnd _ u a ha hd hm' =>
    have huv : v ≠ u := fun e => hm e.symm
    exact ⟨hst, rfl, rfl, rfl, rfl, upd_ne _ _ huv, rfl, rfl, rfl, rfl, rfl, le_refl _⟩
  | @flagAbort _ u a ha hd ho ht =>
    have huv : v ≠ u := fun e => hm e.symm
    exact ⟨hst, rfl, rfl, rfl, rfl, upd_ne _ _ huv, upd_ne _ _ huv, rfl, rfl, rfl, rfl, le_refl _⟩
  | _ => exact ⟨hst, rfl, rfl, rfl, rfl, rfl, rfl, rfl, rfl, rfl, rfl, le_refl _⟩

/-- A sequence of acts of which none is the vehicle's own. -/
theorem PStar.keep {A : Act → Prop} {W W' : World} (hc : Core W) (h : Alone v n l W)
    (hA : ∀ a, A a → ¬ ∃ m u a' b, a = .move m u a' b)
    (hm : ∀ a W1 W2, A a → Core W1 → Keep v n l W W1 → Prim a W1 W2 → ¬ isMine v a) (hp : PStar A W W') :
    Keep v n l W W' := by
  refine (hp.inv (P := fun W1 => Core W1 ∧ Keep v n l W W1) ?_ ⟨hc, Keep.refl W⟩).2
  rintro a W1 W2 ha ⟨h1, h2⟩ hp1
  exact ⟨h1.prim hp1, h2.trans (hp1.keep h1 (h2.priv h) (hm a W1 W2 ha h1 h2 hp1)
    (fun e => (hA a ha e).elim))⟩

/-! ### The phases of a time step -/

theorem Alone.vehs_run {W : World} (h : Alone v n l W) (hS : SInv W) (hl : W.V.link v = some l) :
    W.L.vehs l = [v] := by
  have hm := (hS.link_run v l hl).2.1
  have hnd := hS.vehs_nodup l
  have ho := h.only
  match hv : W.L.vehs l with
  | [] => rw [hv] at hm; cases hm
  | [a] => rw [hv] at ho; rw [ho a (by simp)]
  | a :: b :: t =>
    rw [hv] at ho hnd
    have h1 := ho a (by simp)
    have h2 := ho b (by simp)
    simp [h1, h2] at hnd

theorem Alone.genq_wait {W : World} (h : Alone v n l W) (hS : SInv W) (hw : W.V.state v = .wait) :
    W.N.genq n = [v] := by
  have hm := hS.wait_genq v hw
  rw [h.orig] at hm
  have hnd := hS.genq_nodup n
  have ho : ∀ u ∈ W.N.genq n, u = v := fun u hu => h.queue hS hu
  match hv : W.N.genq n with
  | [] => rw [hv] at hm; cases hm
  | [a] => rw [hv] at ho; rw [ho a (by simp)]
  | a :: b :: t =>
    rw [hv] at ho hnd
    have h1 := ho a (by simp)
    have h2 := ho b (by simp)
    simp [h1, h2] at hnd

theorem Alone.vehs_wait {W : World} (h : Alone v n l W) (hS : SInv W) (hw : W.V.state v ≠ .run) :
    W.L.vehs l = [] := by
  rw [List.eq_nil_iff_forall_not_mem]
  intro u hu
  have := h.only u hu
  subst this
  exact hw (hS.link_run u l (hS.vehs_link l u hu)).1

/-- Phase 1: links. -/
theorem lone_links {W W1 : World} (hc : Core W) (h : Alone v n l W) (s1 : PStar isLinkTick W W1) :
    Keep v n l W W1 :=
  s1.keep hc h (fun a ha => by rintro ⟨m, u, a', b, rfl⟩; exact ha)
    (fun a _ _ ha _ _ _ => by cases a <;> simp_all [isLinkTick, isMine])

/-- Phase 2: origins, for a vehicle that does not wait. -/
theorem lone_gen_other {W W' : World} (hc : Core W) (h : Alone v n l W) (hw : W.V.state v ≠ .wait)
    (s : PStar isGen W W') : Keep v n l W W' := by
  refine s.keep hc h (fun a ha => by rintro ⟨m, u, a', b, rfl⟩; exact ha) ?_
  intro a W1 W2 ha hc1 hk hp hm
  have hs := hp.shape hc1.s
  cases hs with
  | @depart _ m u t cs k o hn hq hcs hl hout hent hcum hlead =>
    have hm : u = v := hm
    subst hm
    exact hw (hk.state ▸ (hc1.s.genq_mem m u (by rw [hq]; simp)).1)
  | _ => first | exact hm | exact ha

/-- The vehicle has just entered its link. -/
structure Entered (v : VehId) (n : NodeId) (l : LinkId) (W W' : World) : Prop where
  st : Static W W'
  priv : Alone v n l W'
  state : W'.V.state v = .run
  link : W'.V.link v = some l
  x : W'.V.x v = 0
  flagEnd : W'.V.flagEnd v = false
  flagAborted : W'.V.flagAborted v = false

theorem Entered.keep {W W1 W2 : World} (h : Entered v n l W W1) (hk : Keep v n l W1 W2) :
    Entered v n l W W2 :=
  ⟨h.st.trans hk.st, hk.priv h.priv, hk.state.trans h.state, hk.link.trans h.link, hk.x.trans h.x,
    hk.flagEnd.trans h.flagEnd, hk.flagAborted.trans h.flagAborted⟩

theorem lone_enter {W W' : World} {k : ℕ} (hc : Core W) (h : Alone v n l W)
    (hw : W.V.state v = .wait) (hcap : (W.dn : ℚ) ≤ W.L.capInRem l)
    (hg : generateLoop n (k + 1) W = .ok W') : Entered v n l W W' := by
  have hq := h.genq_wait hc.s hw
  have hv0 := h.vehs_wait hc.s (by rw [hw]; decide)
  have hnn : n < W.nNodes := h.orig ▸ hc.s.orig_lt v h.vlt
  simp only [generateLoop] at hg
  rw [hq] at hg
  dsimp only at hg
  rw [bind_ok] at hg
  obtain ⟨cs, hcs, hg⟩ := hg
  rw [bind_ok] at hg
  obtain ⟨⟨b, W1⟩, hch, hg⟩ := hg
  obtain ⟨hb, r, rfl⟩ := chooseLink_spec hch
  dsimp only at hg
  have hbl : b = l := by
    have := SInv.mem_originCandidates hcs hb
    rw [h.out] at this
    simpa using this
  subst hbl
  have hp0 := rng_prim W r
  have hent : ({ W with rng := r } : World).canEnter b = true := by
    unfold canEnter
    have hl1 := hc.s.lanes_pos b (h.l_lt hc.s).1
    have e1 : decide ((W.L.vehs b).length < W.L.lanes b) = true := by
      rw [hv0]; simpa using Nat.lt_of_lt_of_le Nat.zero_lt_one hl1
    have e2 : decide ((W.dn : ℚ) ≤ W.L.capInRem b) = true := by simpa using hcap
    show ((decide ((W.L.vehs b).length < W.L.lanes b) || _) && decide ((W.dn : ℚ) ≤ W.L.capInRem b)) = true
    rw [e1, e2]; rfl
  rw [if_pos hent, bind_ok] at hg
  obtain ⟨W2, hd, hg⟩ := hg
  have hp : Prim (.depart n v b) ({ W with rng := r } : World) W2 :=
    .depart (t := []) hnn hq hcs hb hent hd
  have hc0 := hc.prim hp0
  have hc2 := hc0.prim hp
  have hst : Static W W2 := hp0.static.trans hp.static
  have hs := hp.shape hc0.s
  clear hp
  have key : Entered v n b W W2 ∧ W2.N.genq n = [] := by
    cases hs with
    | @depart _ m u t cs k o hn hq' hcs hl hout hent hcum hlead =>
      have hq'' : W.N.genq n = v :: t := hq'
      obtain rfl : t = [] := by rw [hq] at hq''; simpa using hq''.symm
      have hy := hc.f.young v
      refine ⟨⟨hst, h.static hst rfl ?_, upd_same _ _ _, upd_same _ _ _, upd_same _ _ _, ?_, ?_⟩, upd_same _ _ _⟩
      · show ∀ u ∈ upd W.L.vehs b (W.L.vehs b ++ [v]) b, u = v
        rw [upd_same, hv0]; simp
      · exact hy (.inr hw)
      · have := hc.f.aborted_flag v
        have h2 := hy (.inr hw)
        show W.V.flagAborted v = false
        cases hh : W.V.flagAborted v
        · rfl
        · rw [this hh] at h2; cases h2
  obtain ⟨he, hgq⟩ := key
  have : W' = W2 := by
    cases k with
    | zero => simp [generateLoop] at hg; exact hg.symm
    | succ k => simp only [generateLoop] at hg; rw [hgq] at hg; simp at hg; exact hg.symm
  rw [this]; exact he

/-- What `Node.generate` of node `n` does. -/
def isGenAt (n : NodeId) : Act → Prop | .depart m _ _ => m = n | .routing => True | _ => False

theorem generateLoop_starAt {n : NodeId} {k : ℕ} {W W' : World} (hn : n < W.nNodes)
    (h : generateLoop n k W = .ok W') : PStar (isGenAt n) W W' := by
  induction k generalizing W with
  | zero => simp [generateLoop] at h; subst h; exact PStar.refl
  | succ k ih =>
    simp only [generateLoop] at h
    split at h
    · simp at h; subst h; exact PStar.refl
    · rename_i v t hq
      rw [bind_ok] at h
      obtain ⟨cs, hcs, h⟩ := h
      rw [bind_ok] at h
      obtain ⟨⟨l, W1⟩, hch, h⟩ := h
      obtain ⟨hl, r, rfl⟩ := chooseLink_spec hch
      dsimp only at h
      have hr := rng_prim W r
      split at h
      · rename_i hce
        rw [bind_ok] at h
        obtain ⟨W2, hd, h⟩ := h
        have hp : Prim (.depart n v l) { W with rng := r } W2 :=
          .depart (t := t) (cs := cs) hn hq hcs hl hce hd
        have h2 := (PStar.one (A := isGenAt n) (a := .routing) trivial hr).tail
          (a := .depart n v l) rfl hp
        exact h2.trans (ih (by rw [h2.static.nNodes]; exact hn) h)
      · simp at h; subst h; exact PStar.one (a := .routing) trivial hr

/-- Another origin does not touch the vehicle. -/
theorem lone_gen_at {W W' : World} {m : NodeId} (hc : Core W) (h : Alone v n l W) (hm : m ≠ n)
    (s : PStar (isGenAt m) W W') : Keep v n l W W' := by
  refine s.keep hc h (fun a ha => by rintro ⟨m, u, a', b, rfl⟩; exact ha) ?_
  intro a W1 W2 ha hc1 hk hp hmine
  have hs := hp.shape hc1.s
  cases hs with
  | @depart _ m' u t cs k o hn hq hcs hl hout hent hcum hlead =>
    have hu : u = v := hmine
    subst hu
    have h1 : m' = m := ha
    have h2 := (hc1.s.genq_mem m' u (by rw [hq]; simp)).2
    rw [hk.st.orig, h.orig] at h2
    exact hm (h1.symm.trans h2.symm)
  | _ => first | exact hmine | exact ha

/-- Phase 2: origins, for a waiting vehicle. -/
theorem lone_gen_wait {W W' : World} (hc : Core W) (h : Alone v n l W) (hw : W.V.state v = .wait)
    (hcap : (W.dn : ℚ) ≤ W.L.capInRem l)
    (hg : (List.range W.nNodes).foldlM (fun W n => do (← W.generate n).nodeUpdate n) W = .ok W') :
    Entered v n l W W' := by
  have hnn : n < W.nNodes := h.orig ▸ hc.s.orig_lt v h.vlt
  have := foldlM_inv_pre (P := fun pre W1 => Core W1 ∧ Static W W1 ∧ (n ∉ pre → Keep v n l W W1) ∧
    (n ∈ pre → Entered v n l W W1)) ?_ ⟨hc, Static.refl W, fun _ => Keep.refl W, by simp⟩ hg
  · exact this.2.2.2 (by simpa using hnn)
  intro pre m post s s' hl ⟨hcs, hst, h1, h2⟩ hfs
  have hmm : m < s.nNodes := by
    rw [hst.nNodes]
    have : m ∈ List.range W.nNodes := by rw [hl]; simp
    simpa using this
  have hmp : m ∉ pre := by
    have hnd : (List.range W.nNodes).Nodup := List.nodup_range
    rw [hl] at hnd
    intro hm
    rw [List.nodup_append] at hnd
    exact hnd.2.2 m hm m (by simp) rfl
  rw [bind_ok] at hfs
  obtain ⟨s1, hg1, hg2⟩ := hfs
  have hgs := generateLoop_starAt hmm hg1
  have hp : Prim (.nodeTick m) s1 s' := .nodeTick (by rw [hgs.static.nNodes]; exact hmm) hg2
  have hcs1 := hcs.star hgs
  have hnt : ∀ {W0 : World}, Alone v n l s1 → Keep v n l s1 s' := fun hpr =>
    Prim.keep (act := .nodeTick m) hcs1 hpr (fun e => e) (by rintro ⟨_, _, _, _, e⟩; cases e) hp
  refine ⟨hcs1.prim hp, hst.trans (hgs.static.trans hp.static), ?_, ?_⟩
  · intro hn
    simp only [List.mem_append, List.mem_singleton, not_or] at hn
    have hk := h1 hn.1
    have hk1 := lone_gen_at hcs (hk.priv h) (Ne.symm hn.2) hgs
    exact (hk.trans hk1).trans (hnt (W0 := W) (hk1.priv (hk.priv h)))
  · intro hn
    by_cases hmn : n = m
    · subst hmn
      have hk := h1 hmp
      have hpr := hk.priv h
      have hpos : ∃ k, ((s.N.outlinks n).map s.L.lanes).sum = k + 1 := by
        rw [hpr.out]
        have := hcs.s.lanes_pos l (hpr.l_lt hcs.s).1
        exact ⟨s.L.lanes l - 1, by simp; omega⟩
      obtain ⟨k, hk'⟩ := hpos
      unfold generate at hg1
      rw [hk'] at hg1
      have hcap' : (s.dn : ℚ) ≤ s.L.capInRem l := by
        have : s.dn = W.dn := by unfold World.dn; rw [hst.cfg]
        rw [this]; exact hcap.trans hk.cap
      have he := lone_enter hcs hpr (hk.state.trans hw) hcap' hg1
      have he' : Entered v n l W s1 := ⟨hst.trans he.st, he.priv, he.state, he.link, he.x, he.flagEnd, he.flagAborted⟩
      exact he'.keep (hnt (W0 := W) he.priv)
    · have hn' : n ∈ pre := by simpa [hmn] using hn
      have he := h2 hn'
      have hk1 := lone_gen_at hcs he.priv (Ne.symm hmn) hgs
      exact (he.keep hk1).keep (hnt (W0 := W) (hk1.priv he.priv))

/-- The vehicle is not at the end of its link. -/
def Midway (v : VehId) (l : LinkId) (W : World) : Prop :=
  W.V.link v = none ∨ (W.V.link v = some l ∧ W.V.x v ≠ W.L.length l ∧ W.V.flagEnd v = false)

/-- Phase 3: transfers. -/
theorem lone_transfers {W W' : World} (hc : Core W) (h : Alone v n l W) (hns : NoStale W)
    (hmid : Midway v l W) (s : PStar isTrAny W W') : Keep v n l W W' := by
  refine (s.inv (P := fun W1 => Core W1 ∧ NoStale W1 ∧ Keep v n l W W1) ?_ ⟨hc, hns, Keep.refl W⟩).2.2
  rintro a W1 W2 ha ⟨hc1, hn1, hk⟩ hp
  have hearly : isEarly a := by cases a <;> simp_all [isTrAny, isEarly]
  refine ⟨hc1.prim hp, hn1.early hearly hc1 hp, hk.trans (hp.keep hc1 (hk.priv h) ?_ (fun _ => hn1))⟩
  intro hmine
  have hs := hp.shape hc1.s
  cases hs with
  | @move _ m u a b t o q nl fc tta hn hinc hla hv hr hsig hout hfl hent hcd hca hu hlead hnl hq hfc htta =>
    have hu : u = v := hmine
    subst hu
    rcases hmid with h0 | ⟨h0, h1, -⟩
    · rw [hk.link, h0] at hla; cases hla
    · have hla' := hla
      rw [hk.link, h0] at hla'
      obtain rfl : l = a := by simpa using hla'
      have := (hc1.s.inc_run m u l hinc hla).2.1
      rw [hk.x, hk.st.length] at this
      exact h1 this
  | @endTrip _ u k t log s c lt tta hl hv hf hcd hrun hliv hlt hlog htta =>
    have hu : u = v := hmine
    subst hu
    rcases hmid with h0 | ⟨-, -, h0⟩
    · rw [hk.link, h0] at hl; cases hl
    · rw [hk.flagEnd, h0] at hf; cases hf
  | _ => first | exact hmine | exact ha

/-- Phase 4: car following, for a vehicle that is not on the road. -/
theorem lone_cars_other {W W' : World} (hc : Core W) (h : Alone v n l W) (hw : W.V.state v ≠ .run)
    (s : PStar isCf W W') : Keep v n l W W' := by
  refine s.keep hc h (fun a ha => by rintro ⟨m, u, a', b, rfl⟩; exact ha) ?_
  intro a W1 W2 ha hc1 hk hp hmine
  have hs := hp.shape hc1.s
  cases hs with
  | @carfollow _ u k mr xn hrun hl hx =>
    have hu : u = v := hmine
    subst hu
    exact hw (hk.state ▸ (hc1.s.running_iff u).1 hrun)
  | _ => first | exact hmine | exact ha

/-- Where the vehicle goes in one step. -/
def nextPos (W : World) (v : VehId) (l : LinkId) : ℚ := min (W.V.x v + W.L.u l * W.dt) (W.L.length l)

/-- The vehicle drives on its link and is about to move to `q`. -/
structure Bound (v : VehId) (n : NodeId) (l : LinkId) (q : ℚ) (W W' : World) : Prop where
  st : Static W W'
  priv : Alone v n l W'
  state : W'.V.state v = .run
  link : W'.V.link v = some l
  xNext : W'.V.xNext v = q
  flagEnd : W'.V.flagEnd v = false
  flagAborted : W'.V.flagAborted v = false

theorem Bound.keep {q : ℚ} {W W1 W2 : World} (h : Bound v n l q W W1) (hk : Keep v n l W1 W2) :
    Bound v n l q W W2 :=
  ⟨h.st.trans hk.st, hk.priv h.priv, hk.state.trans h.state, hk.link.trans h.link, hk.xNext.trans h.xNext,
    hk.flagEnd.trans h.flagEnd, hk.flagAborted.trans h.flagAborted⟩

theorem lone_follow {W W' : World} (hc : LaneGood W) (h : Alone v n l W) (hl : W.V.link v = some l)
    (hf : W.V.flagEnd v = false) (ha : W.V.flagAborted v = false)
    (hcf : W.carfollow v = .ok W') : Bound v n l (nextPos W v l) W W' := by
  have hS := hc.1.s
  have hrun := (hS.link_run v l hl).1
  have hp : Prim (.carfollow v) W W' := .carfollow ((hS.running_iff v).2 hrun) hcf
  obtain ⟨l', mr, xn, hl', rfl, hx⟩ := carfollow_ok hcf
  obtain rfl : l = l' := by rw [hl] at hl'; simpa using hl'
  have hlead : W.V.leader v = none := by
    cases hh : W.V.leader v with
    | none => rfl
    | some w =>
      obtain ⟨h1, -, h2⟩ := hc.2.lead hS hl hh
      exact (h2 (h.only w (hS.link_run w l h1).2.1)).elim
  have hfp : W.followPos v l = W.V.x v + W.L.u l * W.dt := by
    unfold followPos World.fl
    rw [hlead, h.exact_]; rfl
  rw [hfp] at hx
  refine ⟨hp.static, h.static hp.static rfl h.only, hrun, hl, ?_, hf, ha⟩
  show upd W.V.xNext v xn v = _
  rw [upd_same]
  unfold nextPos
  rcases hx with ⟨h1, rfl, -⟩ | ⟨h1, rfl, -⟩
  · rw [min_eq_right h1.le]
  · rw [min_eq_left h1]

/-- Phase 4: car following, for a vehicle on its link. -/
theorem lone_cars_run {W W' : World} (hc : LaneGood W) (h : Alone v n l W) (hl : W.V.link v = some l)
    (hf : W.V.flagEnd v = false) (ha : W.V.flagAborted v = false)
    (hcf : W.running.foldlM carfollow W = .ok W') : Bound v n l (nextPos W v l) W W' := by
  have hrun := (hc.1.s.running_iff v).2 (hc.1.s.link_run v l hl).1
  have := foldlM_inv_pre (P := fun pre W1 => LaneGood W1 ∧ W1.running = W.running ∧ Static W W1 ∧
    (v ∉ pre → Keep v n l W W1) ∧ (v ∈ pre → Bound v n l (nextPos W v l) W W1)) ?_
    ⟨hc, rfl, Static.refl W, fun _ => Keep.refl W, by simp⟩ hcf
  · exact this.2.2.2.2 hrun
  intro pre u post s s' hl' ⟨hcs, hr, hst, h1, h2⟩ hfs
  have hu : u ∈ s.running := by rw [hr, hl']; simp
  have hup : u ∉ pre := by
    have hnd := hc.1.s.running_nodup
    rw [hl'] at hnd
    intro hm
    rw [List.nodup_append] at hnd
    exact hnd.2.2 u hm u (by simp) rfl
  have hp : Prim (.carfollow u) s s' := .carfollow hu hfs
  refine ⟨hcs.prim hp, ?_, hst.trans hp.static, ?_, ?_⟩
  · obtain ⟨_, _, _, _, rfl, _⟩ := carfollow_ok hfs
    exact hr
  · intro hv
    simp only [List.mem_append, List.mem_singleton, not_or] at hv
    have hk := h1 hv.1
    exact hk.trans (Prim.keep (act := .carfollow u) hcs.1 (hk.priv h) (fun e => hv.2 (show u = v from e).symm)
      (by rintro ⟨_, _, _, _, e⟩; cases e) hp)
  · intro hv
    by_cases hvu : v = u
    · subst hvu
      have hk := h1 hup
      have hb := lone_follow hcs (hk.priv h) (hk.link.trans hl) (hk.flagEnd.trans hf) (hk.flagAborted.trans ha) hfs
      have e : nextPos s v l = nextPos W v l := by
        unfold nextPos World.dt
        rw [hk.x, hst.u, hst.length, hst.cfg]
      rw [e] at hb
      exact ⟨hst.trans hb.st, hb.priv, hb.state, hb.link, hb.xNext, hb.flagEnd, hb.flagAborted⟩
    · have hb := h2 (by simpa [hvu] using hv)
      exact hb.keep (Prim.keep (act := .carfollow u) hcs.1 hb.priv (fun e => hvu (show u = v from e).symm)
        (by rintro ⟨_, _, _, _, e⟩; cases e) hp)

/-- Phase 5: vehicle updates. The vehicle's own update establishes `R`, which the others keep. -/
theorem lone_updates {R : World → Prop} {W W' : World} (hc : Core W) (h : Alone v n l W)
    (hi : ∀ n, W.N.incoming n = [])
    (hown : ∀ W1 W2, Core W1 → Keep v n l W W1 → v ∈ W1.living → (∀ n, v ∉ W1.N.incoming n) →
      W1.vehUpdate v = .ok W2 → R W2)
    (hR : ∀ W1 W2, R W1 → Keep v n l W1 W2 → R W2) (hP : ∀ W1, R W1 → Alone v n l W1)
    (hu : W.living.foldlM vehUpdateLiving W = .ok W') :
    (v ∈ W.living → R W') ∧ (v ∉ W.living → Keep v n l W W') := by
  have := updates_inv' (P := fun pre W1 => (v ∉ pre → Keep v n l W W1) ∧ (v ∈ pre → R W1)) hc hi ?_
    ⟨fun _ => Keep.refl W, by simp⟩ hu
  · exact ⟨this.2, this.1⟩
  intro pre u W1 W2 hup _ hul hc1 hinc hupd ⟨h1, h2⟩
  have hstar := (vehUpdate_spec hc1 hul hinc hupd).star
  have hkeep : u ≠ v → Alone v n l W1 → Keep v n l W1 W2 := by
    intro hne hpr
    refine hstar.keep hc1 hpr (fun a ha => by rintro ⟨m, u, a', b, rfl⟩; exact ha) ?_
    intro a _ _ ha _ _ _ hm
    cases a <;> simp_all [isUpd, isMine]
  constructor
  · intro hv
    simp only [List.mem_append, List.mem_singleton, not_or] at hv
    have hk := h1 hv.1
    exact hk.trans (hkeep (Ne.symm hv.2) (hk.priv h))
  · intro hv
    by_cases hvu : v = u
    · subst hvu
      exact hown W1 W2 hc1 (h1 hup) hul hinc hupd
    · have hr := h2 (by simpa [hvu] using hv)
      exact hR _ _ hr (hkeep (Ne.symm hvu) (hP _ hr))

/-- The vehicle is at home or in the queue of its origin. -/
structure Off (v : VehId) (n : NodeId) (l : LinkId) (s : VState) (W W' : World) : Prop where
  st : Static W W'
  priv : Alone v n l W'
  state : W'.V.state v = s
  cap : W.L.capInRem l ≤ W'.L.capInRem l

theorem Off.keep {s : VState} {W W1 W2 : World} (h : Off v n l s W W1) (hk : Keep v n l W1 W2) :
    Off v n l s W W2 :=
  ⟨h.st.trans hk.st, hk.priv h.priv, hk.state.trans h.state, h.cap.trans hk.cap⟩

/-- The vehicle drives at `q`. -/
structure Driving (v : VehId) (n : NodeId) (l : LinkId) (q : ℚ) (W W' : World) : Prop where
  st : Static W W'
  priv : Alone v n l W'
  state : W'.V.state v = .run
  link : W'.V.link v = some l
  x : W'.V.x v = q
  flagEnd : W'.V.flagEnd v = false
  flagAborted : W'.V.flagAborted v = false

theorem Driving.keep {q : ℚ} {W W1 W2 : World} (h : Driving v n l q W W1) (hk : Keep v n l W1 W2) :
    Driving v n l q W W2 :=
  ⟨h.st.trans hk.st, hk.priv h.priv, hk.state.trans h.state, hk.link.trans h.link, hk.x.trans h.x,
    hk.flagEnd.trans h.flagEnd, hk.flagAborted.trans h.flagAborted⟩

/-- The vehicle has arrived in step `t`. -/
structure Arrived (v : VehId) (n : NodeId) (l : LinkId) (t : ℤ) (W W' : World) : Prop where
  st : Static W W'
  priv : Alone v n l W'
  state : W'.V.state v = .ended
  arr : W'.V.arrTime v = t

theorem Arrived.keep {t : ℤ} {W W1 W2 : World} (h : Arrived v n l t W W1) (hk : Keep v n l W1 W2) :
    Arrived v n l t W W2 :=
  ⟨h.st.trans hk.st, hk.priv h.priv, hk.state.trans h.state, hk.arr.trans h.arr⟩

theorem lone_own_home {W W' : World} (hc : Core W) (h : Alone v n l W) (hv : v ∈ W.living)
    (hs : W.V.state v = .home) (hu : W.vehUpdate v = .ok W') :
    Off v n l (if W.V.depTime v ≤ W.T then .wait else .home) W W' := by
  have p1 : Prim (.record v) W (W.recordLog v false) := .record hv
  have hc1 := hc.prim p1
  have k1 := Prim.keep (act := .record v) hc h (fun e => e) (by rintro ⟨_, _, _, _, e⟩; cases e) p1
  have hpr := k1.priv h
  unfold vehUpdate at hu
  dsimp only at hu
  generalize W.recordLog v false = X at *
  have hX : X.V.state v = .home := k1.state.trans hs
  have hd : X.V.depTime v ≤ X.T ↔ W.V.depTime v ≤ W.T := by rw [k1.st.depTime, k1.st.T]
  have hliv : v ∈ X.living := (hc1.s.living_iff v).2 ⟨hpr.vlt, by rw [hX]; decide, by rw [hX]; decide⟩
  have p2 : Prim (.startWait v) X (X.startWait v) := .startWait hliv
  have hst2 := p2.static
  have hc2 := hc1.prim p2
  by_cases hdep : W.V.depTime v ≤ W.T
  · rw [if_pos hdep]
    have hY : X.startWait v = _ := if_pos ⟨hX, hd.2 hdep⟩
    have hoff : Off v n l .wait W (X.startWait v) := by
      refine ⟨k1.st.trans hst2, hpr.static hst2 ?_ ?_, ?_, ?_⟩ <;> rw [hY]
      · exact hpr.only
      · exact upd_same _ _ _
      · exact k1.cap
    generalize X.startWait v = Y at *
    rw [hoff.state] at hu
    dsimp only at hu
    split at hu
    · have pr := routing_pref hu
      exact hoff.keep (Prim.keep (act := .routing) hc2 hoff.priv (fun e => e) (by rintro ⟨_, _, _, _, e⟩; cases e) pr)
    · simp only [Except.ok.injEq] at hu
      rw [← hu]; exact hoff
  · rw [if_neg hdep]
    have hY : X.startWait v = X := if_neg (fun hh => hdep (hd.1 hh.2))
    rw [hY, hX] at hu
    simp only [Except.ok.injEq] at hu
    rw [← hu]
    exact ⟨k1.st, hpr, hX, k1.cap⟩

/-- The outcome of a movement to `q` in step `t`. -/
def LoneMoved (v : VehId) (n : NodeId) (l : LinkId) (q : ℚ) (t : ℤ) (W W' : World) : Prop :=
  (q ≠ W.L.length l → Driving v n l q W W') ∧ (q = W.L.length l → Arrived v n l t W W')

theorem lone_waitEnd {W W' : World} (hc : Core W) (h : Alone v n l W) (ha : AtEnd W v l)
    (hf : W.V.flagAborted v = false) (hw : W.waitEnd v l = .ok W') : Arrived v n l W.T W W' := by
  have p1 : Prim (.flagEnd v) W { W with V := { W.V with flagEnd := upd W.V.flagEnd v true } } :=
    .flagEnd ha h.dest h.mode
  have hc1 := hc.prim p1
  have hv1 := h.vehs_run hc.s ha.2.1
  unfold waitEnd at hw
  dsimp only at hw
  rw [hv1] at hw
  dsimp only at hw
  rw [if_pos rfl] at hw
  have p2 : Prim (.endTrip v l) { W with V := { W.V with flagEnd := upd W.V.flagEnd v true } } W' :=
    .endTrip (t := []) ha.2.1 hv1 (upd_same _ _ _) hw
  have hst : Static W W' := p1.static.trans p2.static
  have hs := p2.shape hc1.s
  clear p2 hw
  cases hs with
  | @endTrip _ u k t log s c lt tta hl hv hf' hcd hrun hliv hlt hlog htta =>
    have hv' : W.L.vehs l = v :: t := hv
    obtain rfl : t = [] := by rw [hv1] at hv'; simpa using hv'.symm
    refine ⟨hst, h.static hst rfl ?_, ?_, ?_⟩
    · show ∀ u ∈ upd W.L.vehs l [] l, u = v
      rw [upd_same]; simp
    · show upd W.V.state v (if W.V.flagAborted v then .abort else .ended) v = _
      rw [upd_same, hf]; rfl
    · show upd W.V.arrTime v (if W.V.flagAborted v then -1 else (W.T : ℤ)) v = _
      rw [upd_same, hf]; rfl

theorem lone_own_run {W W' : World} (hc : Core W) (h : Alone v n l W) (hv : v ∈ W.living)
    (hi : ∀ n, v ∉ W.N.incoming n) (hl : W.V.link v = some l)
    (hf : W.V.flagEnd v = false) (ha : W.V.flagAborted v = false)
    (hu : W.vehUpdate v = .ok W') : LoneMoved v n l (W.V.xNext v) W.T W W' := by
  have hrun := (hc.s.link_run v l hl).1
  have p1 : Prim (.record v) W (W.recordLog v false) := .record hv
  have hc1 := hc.prim p1
  have k1 := Prim.keep (act := .record v) hc h (fun e => e) (by rintro ⟨_, _, _, _, e⟩; cases e) p1
  have hpr := k1.priv h
  have hlo : (W.recordLog v false).V.linkOld v = some l := by
    rw [recordLog_linkOld, upd_same]; exact hl
  have hinc : ∀ n, v ∉ (W.recordLog v false).N.incoming n := by
    obtain ⟨_, _, _, _, _, hr⟩ := recordLog_frame W v false
    rw [hr]; exact hi
  unfold vehUpdate at hu
  dsimp only at hu
  generalize W.recordLog v false = X at *
  have hX : X.V.state v = .run := k1.state.trans hrun
  have hY : X.startWait v = X := if_neg (fun hh => by rw [hX] at hh; cases hh.1)
  rw [hY, hX] at hu
  dsimp only at hu
  have p3 : Prim (.advance v) X (X.advance v) := .advance hX (hlo.trans (k1.link.trans hl).symm) hinc
  have hc3 := hc1.prim p3
  have hst3 := k1.st.trans p3.static
  have hd : Driving v n l (W.V.xNext v) W (X.advance v) :=
    ⟨hst3, hpr.static p3.static rfl hpr.only, hX, k1.link.trans hl,
      (upd_same _ _ _).trans k1.xNext, k1.flagEnd.trans hf, k1.flagAborted.trans ha⟩
  obtain ⟨a, h1, h2⟩ := runUpdate_ok hu
  obtain rfl : l = a := by rw [hd.link] at h1; simpa using h1
  have hlen : (X.advance v).L.length l = W.L.length l := by rw [hst3.length]
  rcases h2 with ⟨h2, rfl⟩ | ⟨h2, W2, W3, h3, h4, h5⟩
  · rw [hlen, hd.x] at h2
    exact ⟨fun _ => hd, fun e => (h2 e).elim⟩
  have hae : AtEnd (X.advance v) v l := ⟨hX, hd.link, h2, hlo, hinc⟩
  rw [hlen, hd.x] at h2
  refine ⟨fun e => (e h2).elim, fun _ => ?_⟩
  generalize X.advance v = Z at *
  have e2 : Core W2 ∧ Keep v n l Z W2 ∧ Soft Z W2 := by
    cases he : Z.V.nodeEvent v (Z.L.endN l) with
    | none =>
      rw [he] at h3; simp only [pure_ok] at h3; subst h3
      exact ⟨hc3, Keep.refl _, Soft.refl _⟩
    | some e =>
      rw [he] at h3
      have p : Prim (.event v) Z W2 := .event hae he h3
      exact ⟨hc3.prim p, Prim.keep (act := .event v) hc3 hd.priv (fun e => e)
        (by rintro ⟨_, _, _, _, e⟩; cases e) p, runEvent_soft h3⟩
  obtain ⟨c2, k2, s2⟩ := e2
  have e3 : Core W3 ∧ Keep v n l Z W3 ∧ Soft W2 W3 := by
    split at h4
    · have p := routing_pref h4
      exact ⟨c2.prim p, k2.trans (Prim.keep (act := .routing) c2 (k2.priv hd.priv) (fun e => e)
        (by rintro ⟨_, _, _, _, e⟩; cases e) p), routePref_soft h4⟩
    · simp only [pure_ok] at h4; subst h4
      exact ⟨c2, k2, Soft.refl _⟩
  obtain ⟨c3, k3, s3⟩ := e3
  have hae3 := (hae.soft s2).soft s3
  have hp3 := k3.priv hd.priv
  unfold atLinkEnd at h5
  dsimp only at h5
  rw [if_pos hp3.dest, hp3.mode] at h5
  dsimp only at h5
  have hA := lone_waitEnd c3 hp3 hae3 (k3.flagAborted.trans hd.flagAborted) h5
  refine ⟨(hd.st.trans k3.st).trans hA.st, hA.priv, hA.state, ?_⟩
  rw [hA.arr, k3.st.T, hd.st.T]

/-- Phase 6: routing. -/
theorem lone_routing {W W' : World} (hc : Core W) (h : Alone v n l W) (s : PStar isRouting W W') :
    Keep v n l W W' :=
  s.keep hc h (fun a ha => by rintro ⟨m, u, a', b, rfl⟩; exact ha)
    (fun a _ _ ha _ _ _ => by cases a <;> simp_all [isRouting, isMine])

/-! ### Whole steps -/

theorem lone_start {W W1 W2 W3 W4 W5 W6 : World} (hc : LaneGood W) (h : Alone v n l W) (hns : NoStale W)
    (hph : Phases W W1 W2 W3 W4 W5 W6) (hw : W.V.state v ≠ .wait) (hmid : Midway v l W) :
    Keep v n l W W3 ∧ LaneGood W3 := by
  have k1 := lone_links hc.1 h hph.s1
  have hp1 := k1.priv h
  have k2 := lone_gen_other hph.c1 hp1 (by rw [k1.state]; exact hw) hph.s2
  have k12 := k1.trans k2
  have ns : NoStale W2 := by
    have h1 := (hph.s1.inv (P := fun W => Core W ∧ NoStale W) (fun a W W' ha hP hp =>
      ⟨hP.1.prim hp, hP.2.early (by cases a <;> simp_all [isLinkTick, isEarly]) hP.1 hp⟩) ⟨hc.1, hns⟩).2
    exact (hph.s2.inv (P := fun W => Core W ∧ NoStale W) (fun a W W' ha hP hp =>
      ⟨hP.1.prim hp, hP.2.early (by cases a <;> simp_all [isGen, isEarly]) hP.1 hp⟩) ⟨hph.c1, h1⟩).2
  have hmid2 : Midway v l W2 := by
    unfold Midway at *
    rw [k12.link, k12.x, k12.flagEnd, k12.st.length]; exact hmid
  have k3 := lone_transfers hph.c2 (k12.priv h) ns hmid2 hph.s3
  exact ⟨k12.trans k3, ((hc.star hph.s1).star hph.s2).star hph.s3⟩

theorem lone_step_home {W W1 W2 W3 W4 W5 W6 : World} (hc : LaneGood W) (h : Alone v n l W) (hns : NoStale W)
    (hph : Phases W W1 W2 W3 W4 W5 W6) (hs : W.V.state v = .home) :
    Off v n l (if W.V.depTime v ≤ W.T then .wait else .home) W W6 := by
  have hln : W.V.link v = none := by
    cases hh : W.V.link v with
    | none => rfl
    | some a => have := (hc.1.s.link_run v a hh).1; rw [hs] at this; cases this
  obtain ⟨k3, c3⟩ := lone_start hc h hns hph (by rw [hs]; decide) (.inl hln)
  have k4 := k3.trans (lone_cars_other hph.c3 (k3.priv h) (by rw [k3.state, hs]; decide) hph.s4)
  have hp4 := k4.priv h
  have hliv : v ∈ W4.living := (hph.c4.s.living_iff v).2 ⟨hp4.vlt, by rw [k4.state, hs]; decide, by rw [k4.state, hs]; decide⟩
  have := (lone_updates (R := Off v n l (if W.V.depTime v ≤ W.T then .wait else .home) W) hph.c4 hp4 hph.i4
    (fun X Y hX hk hl hi hu => by
      have ho := lone_own_home hX (hk.priv hp4) hl ((hk.state.trans k4.state).trans hs) hu
      rw [hk.st.depTime, hk.st.T, k4.st.depTime, k4.st.T] at ho
      exact ⟨(k4.st.trans hk.st).trans ho.st, ho.priv, ho.state, (k4.cap.trans hk.cap).trans ho.cap⟩)
    (fun _ _ h1 h2 => h1.keep h2) (fun _ h => h.priv) hph.p5).1 hliv
  exact this.keep (lone_routing hph.c5 this.priv hph.s6)

theorem lone_step_end {q : ℚ} {W W3 W4 W5 W6 : World} (c3 : LaneGood W3) (h : Alone v n l W3)
    (hst : Static W W3) (i4 : ∀ n, W4.N.incoming n = []) (c4 : Core W4) (c5 : Core W5)
    (p4 : W3.running.foldlM carfollow W3 = .ok W4)
    (p5 : W4.living.foldlM vehUpdateLiving W4 = .ok W5) (s6 : PStar isRouting W5 W6)
    (hl : W3.V.link v = some l) (hx : W3.V.x v = q)
    (hf : W3.V.flagEnd v = false) (ha : W3.V.flagAborted v = false) :
    LoneMoved v n l (min (q + W.L.u l * W.dt) (W.L.length l)) W.T W W6 := by
  have b4 := lone_cars_run c3 h hl hf ha p4
  have e : nextPos W3 v l = min (q + W.L.u l * W.dt) (W.L.length l) := by
    unfold nextPos World.dt; rw [hx, hst.u, hst.length, hst.cfg]
  rw [e] at b4
  generalize min (q + W.L.u l * W.dt) (W.L.length l) = r at *
  have hst4 := hst.trans b4.st
  have hliv : v ∈ W4.living := (c4.s.living_iff v).2 ⟨b4.priv.vlt, by rw [b4.state]; decide, by rw [b4.state]; decide⟩
  have := (lone_updates (R := fun X => LoneMoved v n l r W.T W X ∧ Alone v n l X) c4 b4.priv i4
    (fun X Y hX hk hl hi hu => by
      have hm := lone_own_run hX (hk.priv b4.priv) hl hi (hk.link.trans b4.link)
        (hk.flagEnd.trans b4.flagEnd) (hk.flagAborted.trans b4.flagAborted) hu
      have hs := hst4.trans hk.st
      rw [hk.xNext, b4.xNext, hs.T] at hm
      unfold LoneMoved at *
      rw [hs.length] at hm
      have hm' : (r ≠ W.L.length l → Driving v n l r W Y) ∧ (r = W.L.length l → Arrived v n l W.T W Y) :=
        ⟨fun e => let d := hm.1 e; ⟨hs.trans d.st, d.priv, d.state, d.link, d.x, d.flagEnd, d.flagAborted⟩,
         fun e => let d := hm.2 e; ⟨hs.trans d.st, d.priv, d.state, d.arr⟩⟩
      refine ⟨hm', ?_⟩
      by_cases e : r = W.L.length l
      · exact (hm'.2 e).priv
      · exact (hm'.1 e).priv)
    (fun _ _ h1 h2 => ⟨⟨fun e => (h1.1.1 e).keep h2, fun e => (h1.1.2 e).keep h2⟩, h2.priv h1.2⟩)
    (fun _ h => h.2) p5).1 hliv
  have k6 := lone_routing c5 this.2 s6
  exact ⟨fun e => (this.1.1 e).keep k6, fun e => (this.1.2 e).keep k6⟩

theorem lone_step_wait {W W1 W2 W3 W4 W5 W6 : World} (hc : LaneGood W) (h : Alone v n l W) (hns : NoStale W)
    (hph : Phases W W1 W2 W3 W4 W5 W6) (hs : W.V.state v = .wait) (hcap : (W.dn : ℚ) ≤ W.L.capInRem l)
    (hlen : 0 < W.L.length l) :
    LoneMoved v n l (min (0 + W.L.u l * W.dt) (W.L.length l)) W.T W W6 := by
  have k1 := lone_links hc.1 h hph.s1
  have hcap1 : (W1.dn : ℚ) ≤ W1.L.capInRem l := by
    have : W1.dn = W.dn := by unfold World.dn; rw [k1.st.cfg]
    rw [this]; exact hcap.trans k1.cap
  have e2 := lone_gen_wait hph.c1 (k1.priv h) (k1.state.trans hs) hcap1 hph.p2
  have hst2 := k1.st.trans e2.st
  have ns : NoStale W2 := by
    have h1 := (hph.s1.inv (P := fun W => Core W ∧ NoStale W) (fun a W W' ha hP hp =>
      ⟨hP.1.prim hp, hP.2.early (by cases a <;> simp_all [isLinkTick, isEarly]) hP.1 hp⟩) ⟨hc.1, hns⟩).2
    exact (hph.s2.inv (P := fun W => Core W ∧ NoStale W) (fun a W W' ha hP hp =>
      ⟨hP.1.prim hp, hP.2.early (by cases a <;> simp_all [isGen, isEarly]) hP.1 hp⟩) ⟨hph.c1, h1⟩).2
  have hmid : Midway v l W2 := .inr ⟨e2.link, by rw [e2.x, hst2.length]; exact hlen.ne, e2.flagEnd⟩
  have k3 := lone_transfers hph.c2 e2.priv ns hmid hph.s3
  have e3 := e2.keep k3
  exact lone_step_end (((hc.star hph.s1).star hph.s2).star hph.s3) e3.priv (k1.st.trans e3.st) hph.i4 hph.c4
    hph.c5 hph.p4 hph.p5 hph.s6 e3.link e3.x e3.flagEnd e3.flagAborted

theorem lone_step_run {q : ℚ} {W W1 W2 W3 W4 W5 W6 : World} (hc : LaneGood W) (h : Alone v n l W) (hns : NoStale W)
    (hph : Phases W W1 W2 W3 W4 W5 W6) (hl : W.V.link v = some l) (hx : W.V.x v = q) (hq : q < W.L.length l)
    (hf : W.V.flagEnd v = false) (ha : W.V.flagAborted v = false) :
    LoneMoved v n l (min (q + W.L.u l * W.dt) (W.L.length l)) W.T W W6 := by
  have hs := (hc.1.s.link_run v l hl).1
  obtain ⟨k3, c3⟩ := lone_start hc h hns hph (by rw [hs]; decide) (.inr ⟨hl, by rw [hx]; exact hq.ne, hf⟩)
  exact lone_step_end c3 (k3.priv h) k3.st hph.i4 hph.c4 hph.c5 hph.p4 hph.p5 hph.s6
    (k3.link.trans hl) (k3.x.trans hx) (k3.flagEnd.trans hf) (k3.flagAborted.trans ha)

theorem lone_step_ended {W W1 W2 W3 W4 W5 W6 : World} (hc : LaneGood W) (h : Alone v n l W) (hns : NoStale W)
    (hph : Phases W W1 W2 W3 W4 W5 W6) (hs : W.V.state v = .ended) : Keep v n l W W6 := by
  have hln : W.V.link v = none := by
    cases hh : W.V.link v with
    | none => rfl
    | some a => have := (hc.1.s.link_run v a hh).1; rw [hs] at this; cases this
  obtain ⟨k3, c3⟩ := lone_start hc h hns hph (by rw [hs]; decide) (.inl hln)
  have k4 := k3.trans (lone_cars_other hph.c3 (k3.priv h) (by rw [k3.state, hs]; decide) hph.s4)
  have hp4 := k4.priv h
  have hliv : v ∉ W4.living := fun hh => ((hph.c4.s.living_iff v).1 hh).2.1 (k4.state.trans hs)
  have := (lone_updates (R := fun X => Keep v n l X X ∧ Alone v n l X) hph.c4 hp4 hph.i4
    (fun X Y hX hk hl hi hu => (((hX.s.living_iff v).1 hl).2.1 ((hk.state.trans k4.state).trans hs)).elim)
    (fun _ _ h1 h2 => ⟨Keep.refl _, h2.priv h1.2⟩) (fun _ h => h.2) hph.p5).2 hliv
  have k5 := k4.trans this
  exact k5.trans (lone_routing hph.c5 (k5.priv h) hph.s6)

/-- The timetable as an invariant of time steps. -/
structure Timed (v : VehId) (n : NodeId) (l : LinkId) (D : ℤ) (d len : ℚ) (W : World) : Prop where
  priv : Alone v n l W
  dep : W.V.depTime v = D
  stepLen : W.L.u l * W.dt = d
  len_eq : W.L.length l = len
  at_ : ((W.T : ℤ) ≤ D ∧ W.V.state v = .home ∧ (W.dn : ℚ) ≤ W.L.capInRem l) ∨
    ((W.T : ℤ) = D + 1 ∧ W.V.state v = .wait ∧ (W.dn : ℚ) ≤ W.L.capInRem l) ∨
    (∃ j : ℕ, 1 ≤ j ∧ (W.T : ℤ) = D + 1 + j ∧ j * d < len ∧ W.V.state v = .run ∧ W.V.link v = some l ∧
      W.V.x v = j * d ∧ W.V.flagEnd v = false ∧ W.V.flagAborted v = false) ∨
    (∃ j : ℕ, 1 ≤ j ∧ (W.T : ℤ) = D + 1 + j ∧ len ≤ j * d ∧ W.V.state v = .ended ∧
      W.V.arrTime v = D + ⌈len / d⌉)

theorem ceil_of_between {len d : ℚ} {j : ℕ} (hd : 0 < d) (h1 : j * d < len) (h2 : len ≤ (j + 1 : ℕ) * d) :
    ⌈len / d⌉ = j + 1 := by
  rw [Int.ceil_eq_iff]
  push_cast at *
  constructor
  · rw [lt_div_iff₀ hd]; linarith
  · rw [div_le_iff₀ hd]; linarith

theorem Timed.moved {D : ℤ} {d len : ℚ} {j : ℕ} {W W' : World} (h : Alone v n l W) (hdep : W.V.depTime v = D)
    (hd : W.L.u l * W.dt = d) (hlen : W.L.length l = len) (hd0 : 0 < d) (hT : (W.T : ℤ) = D + 1 + j)
    (hj : j * d < len)
    (hm : LoneMoved v n l (min (j * d + W.L.u l * W.dt) (W.L.length l)) W.T W W') (t : ℚ) :
    Timed v n l D d len { W' with time := t, T := W'.T + 1 } := by
  have e : (j : ℚ) * d + d = (j + 1 : ℕ) * d := by push_cast; ring
  unfold LoneMoved at hm
  rw [hd, hlen, e] at hm
  by_cases hlt : (j + 1 : ℕ) * d < len
  · have hk := hm.1 (by rw [min_eq_left hlt.le]; exact hlt.ne)
    rw [min_eq_left hlt.le] at hk
    have hs := hk.st
    refine ⟨⟨hk.priv.vlt, hk.priv.orig, hk.priv.out, hk.priv.inn, hk.priv.others, hk.priv.mode, hk.priv.dest,
      hk.priv.only, hk.priv.exact_, hk.priv.capIn, hk.priv.dt⟩, ?_, ?_, ?_, ?_⟩
    · show W'.V.depTime v = D; rw [hs.depTime]; exact hdep
    · show W'.L.u l * W'.cfg.deltat = d; rw [hs.u, hs.cfg]; exact hd
    · show W'.L.length l = len; rw [hs.length]; exact hlen
    · refine .inr (.inr (.inl ⟨j + 1, by omega, ?_, hlt, hk.state, hk.link, hk.x, hk.flagEnd, hk.flagAborted⟩))
      show ((W'.T + 1 : ℕ) : ℤ) = _
      rw [hs.T]; push_cast; rw [hT]; ring
  · have hle := not_lt.1 hlt
    have hk := hm.2 (min_eq_right hle)
    have hs := hk.st
    refine ⟨⟨hk.priv.vlt, hk.priv.orig, hk.priv.out, hk.priv.inn, hk.priv.others, hk.priv.mode, hk.priv.dest,
      hk.priv.only, hk.priv.exact_, hk.priv.capIn, hk.priv.dt⟩, ?_, ?_, ?_, ?_⟩
    · show W'.V.depTime v = D; rw [hs.depTime]; exact hdep
    · show W'.L.u l * W'.cfg.deltat = d; rw [hs.u, hs.cfg]; exact hd
    · show W'.L.length l = len; rw [hs.length]; exact hlen
    · refine .inr (.inr (.inr ⟨j + 1, by omega, ?_, hle, hk.state, ?_⟩))
      · show ((W'.T + 1 : ℕ) : ℤ) = _
        rw [hs.T]; push_cast; rw [hT]; ring
      · show W'.V.arrTime v = _
        rw [hk.arr, ceil_of_between hd0 hj hle, hT]; ring

theorem Timed.tick {D : ℤ} {d len : ℚ} {W W' : World} (h : Timed v n l D d len W) (hd0 : 0 < d) (hlen0 : 0 < len)
    (hg : LaneGood W) (hns : NoStale W) (ht : W.tick = .ok W') : Timed v n l D d len W' := by
  obtain ⟨W1, h1, rfl⟩ := tick_ok ht
  obtain ⟨X1, X2, X3, X4, X5, X6, hph, rfl⟩ := step_phases hg.1 h1
  obtain ⟨hp, hdep, hd, hlen, hat⟩ := h
  rcases hat with ⟨hT, hs, hcap⟩ | ⟨hT, hs, hcap⟩ | ⟨j, hj, hT, hlt, hs, hl, hx, hf, ha⟩ | ⟨j, hj, hT, hle, hs, harr⟩
  · have ho := lone_step_home hg hp hns hph hs
    have hst := ho.st
    refine ⟨⟨ho.priv.vlt, ho.priv.orig, ho.priv.out, ho.priv.inn, ho.priv.others, ho.priv.mode, ho.priv.dest,
      ho.priv.only, ho.priv.exact_, ho.priv.capIn, ho.priv.dt⟩, ?_, ?_, ?_, ?_⟩
    · show X6.V.depTime v = D; rw [hst.depTime]; exact hdep
    · show X6.L.u l * X6.cfg.deltat = d; rw [hst.u, hst.cfg]; exact hd
    · show X6.L.length l = len; rw [hst.length]; exact hlen
    · have hcap' : (X6.cfg.deltan : ℚ) ≤ X6.L.capInRem l := by rw [hst.cfg]; exact hcap.trans ho.cap
      have hs' := ho.state
      rw [hdep] at hs'
      rcases hT.lt_or_eq with hlt | heq
      · rw [if_neg (not_le.2 hlt)] at hs'
        refine .inl ⟨?_, hs', hcap'⟩
        show ((X6.T + 1 : ℕ) : ℤ) ≤ D
        rw [hst.T]; push_cast; omega
      · rw [if_pos heq.ge] at hs'
        refine .inr (.inl ⟨?_, hs', hcap'⟩)
        show ((X6.T + 1 : ℕ) : ℤ) = D + 1
        rw [hst.T]; push_cast; omega
  · have hm := lone_step_wait hg hp hns hph hs hcap (by rw [hlen]; exact hlen0)
    exact Timed.moved (W' := X6) (j := 0) hp hdep hd hlen hd0 (by rw [hT]; simp) (by simpa using hlen0)
      (by simpa using hm) _
  · have hm := lone_step_run hg hp hns hph hl hx (by rw [hlen]; exact hlt) hf ha
    exact Timed.moved (W' := X6) (j := j) hp hdep hd hlen hd0 hT hlt hm _
  · have hk := lone_step_ended hg hp hns hph hs
    have hst := hk.st
    have hp' := hk.priv hp
    refine ⟨⟨hp'.vlt, hp'.orig, hp'.out, hp'.inn, hp'.others, hp'.mode, hp'.dest,
      hp'.only, hp'.exact_, hp'.capIn, hp'.dt⟩, ?_, ?_, ?_, ?_⟩
    · show X6.V.depTime v = D; rw [hst.depTime]; exact hdep
    · show X6.L.u l * X6.cfg.deltat = d; rw [hst.u, hst.cfg]; exact hd
    · show X6.L.length l = len; rw [hst.length]; exact hlen
    · refine .inr (.inr (.inr ⟨j + 1, by omega, ?_, ?_, hk.state.trans hs, hk.arr.trans harr⟩))
      · show ((X6.T + 1 : ℕ) : ℤ) = _
        rw [hst.T]; push_cast; rw [hT]; ring
      · push_cast; linarith

end UX
