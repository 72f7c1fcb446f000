import Verif.Props.Agree

/-!
# A time step up to car following (C127)

The rules of `Props/Agree` put together: link updates, departures, signals, node capacities, transfers
at all nodes and car following of all vehicles, each stage in the order of its engine.
-/

namespace UX
open Agree Cpp

section stages
variable {P P' : World} {C : CWorld}

/-! ### What a rule of the Python engine leaves alone -/

/-- Waiting vehicles of nodes other than `n`, requests and user parameters are untouched; movement
left over stays or becomes zero. -/
structure PStill (n : ℕ) (P P' : World) : Prop where
  inc : ∀ m, m ≠ n → P'.N.incoming m = P.N.incoming m
  rnl : P'.V.rnl = P.V.rnl
  rem : ∀ v, P'.V.moveRemain v = P.V.moveRemain v ∨ P'.V.moveRemain v = 0
  u : P'.L.u = P.L.u
  len : P'.L.length = P.L.length
  pri : P'.L.mergePriority = P.L.mergePriority
  cfg : P'.cfg = P.cfg
  nv : P'.nVeh = P.nVeh
  nl : P'.nLinks = P.nLinks
  nn : P'.nNodes = P.nNodes

theorem PStill.refl (n : ℕ) (P : World) : PStill n P P :=
  ⟨fun _ _ => rfl, rfl, fun _ => .inl rfl, rfl, rfl, rfl, rfl, rfl, rfl, rfl⟩

theorem PStill.trans {n : ℕ} {A B D : World} (h : PStill n A B) (k : PStill n B D) : PStill n A D := by
  refine ⟨fun m hm => (k.inc m hm).trans (h.inc m hm), k.rnl.trans h.rnl, fun v => ?_, k.u.trans h.u,
    k.len.trans h.len, k.pri.trans h.pri, k.cfg.trans h.cfg, k.nv.trans h.nv, k.nl.trans h.nl,
    k.nn.trans h.nn⟩
  rcases k.rem v with e | e
  · rw [e]; exact h.rem v
  · exact .inr e

theorem PStill.fit {n : ℕ} (s : PStill n P P') (k : Fit P) : Fit P' := by
  refine ⟨by rw [s.cfg]; exact k.ok, fun v hv => ?_, fun l hl => ?_⟩
  · rcases s.rem v with e | e
    · rw [e]; exact k.left v (by rw [← s.nv]; exact hv)
    · rw [e]
  · rw [s.u, s.len, s.pri]; exact k.links l (by rw [← s.nl]; exact hl)

theorem endTrip_still {n v : ℕ} (hp : P.endTrip v = .ok P') : PStill n P P' := by
  obtain ⟨l, -, -, -, -, -, rfl⟩ := World.endTrip_ok hp
  obtain ⟨x1, x2, x3, x4, x5, hx⟩ := World.recordLog_frame (P.endTripCore v l) v true
  rw [hx]
  exact ⟨fun _ _ => rfl, rfl, fun _ => .inl rfl, rfl, rfl, rfl, rfl, rfl, rfl, rfl⟩

theorem endHead_still {n l : ℕ} {r : World × Bool} (hp : P.endHead l = .ok r) : PStill n P r.1 := by
  unfold World.endHead at hp
  split at hp
  · cases hp; exact PStill.refl n P
  · split at hp
    · rw [map_ok] at hp
      obtain ⟨W5, h5, h6⟩ := hp
      rw [← h6]
      exact endTrip_still h5
    · cases hp; exact PStill.refl n P

theorem endHeads_still {n l : ℕ} : ∀ (j : ℕ) {P P' : World}, World.endHeads l j P = .ok P' → PStill n P P'
  | 0, P, P', hp => by simp [World.endHeads] at hp; subst hp; exact PStill.refl n P
  | j + 1, P, P', hp => by
    simp only [World.endHeads] at hp
    rw [bind_ok] at hp
    obtain ⟨⟨W1, b⟩, h1, hp⟩ := hp
    have s1 := endHead_still (n := n) h1
    dsimp only at hp s1
    split_ifs at hp
    · exact s1.trans (endHeads_still j hp)
    · simp only [pure_ok] at hp; subst hp; exact s1

theorem moveVeh_still {n v a b : ℕ} (hp : P.moveVeh n v a b = .ok P') : PStill n P P' := by
  unfold World.moveVeh at hp
  by_cases h1 : P.L.cumDep a = [] ∨ P.L.cumArr b = []
  · simp [h1, bind, Except.bind, throw, throwThe, MonadExceptOf.throw] at hp
  by_cases h2 : P.L.u a = 0
  · simp [h1, h2, bind, Except.bind, throw, throwThe, MonadExceptOf.throw, pure, Except.pure] at hp
  simp only [h1, h2, if_false, pure_bind] at hp
  rw [bind_ok] at hp
  obtain ⟨W2, hW2, hp⟩ := hp
  rw [bind_ok] at hp
  obtain ⟨⟨W4, r⟩, hW4, hp⟩ := hp
  simp only [pure_ok] at hp
  obtain ⟨la, le, fo, hf⟩ := attach_form hW2
  have s1 : PStill n P (W2.placeOn v (W2.carryOver v a b)) := by
    rw [hf]
    refine ⟨fun _ _ => rfl, rfl, fun w => ?_, rfl, rfl, rfl, rfl, rfl, rfl, rfl⟩
    by_cases e : w = v
    · right; simp [World.placeOn, upd, e]
    · left; simp [World.placeOn, World.leaveLink, upd, e]
  have s2 := s1.trans (endHead_still (n := n) hW4)
  refine s2.trans ?_
  subst hp
  exact ⟨fun m hm => by simp [upd, hm], rfl, fun _ => .inl rfl, rfl, rfl, rfl, rfl, rfl, rfl, rfl⟩

theorem transferOne_still {n b : ℕ} (hp : World.transferOne n P b = .ok P') : PStill n P P' := by
  unfold World.transferOne at hp
  split at hp
  · rw [bind_ok] at hp
    obtain ⟨vs, -, hp⟩ := hp
    split at hp
    · simp only [pure_ok] at hp; subst hp; exact PStill.refl n P
    · rw [bind_ok] at hp
      obtain ⟨⟨v, W1⟩, hm, hp⟩ := hp
      obtain ⟨-, r, rfl⟩ := pickMerge_spec hm
      dsimp only at hp
      split at hp
      · cases hp
      · have s1 := moveVeh_still hp
        exact ⟨s1.inc, s1.rnl, s1.rem, s1.u, s1.len, s1.pri, s1.cfg, s1.nv, s1.nl, s1.nn⟩
  · cases hp; exact PStill.refl n P

theorem transfer_still {n : ℕ} (hp : P.transfer n = .ok P') : PStill n P P' := by
  unfold World.transfer at hp
  rw [bind_ok] at hp
  obtain ⟨ls, -, hp⟩ := hp
  have key : ∀ (ss : List ℕ) (W1 : World), PStill n P W1 →
      ((do
        let W2 ← ss.foldlM (World.transferOne n) W1
        let W3 ← (W2.N.inlinks n).foldlM (fun W l => World.endHeads l (W.L.lanes l) W) W2
        pure { W3 with N := { W3.N with incoming := upd W3.N.incoming n [] } } : M World) = .ok P') →
      PStill n P P' := by
    intro ss W1 s0 hp
    rw [bind_ok] at hp
    obtain ⟨P2, h2, hp⟩ := hp
    rw [bind_ok] at hp
    obtain ⟨P3, h3, hp⟩ := hp
    simp only [pure_ok] at hp
    have s2 : PStill n P P2 := foldlM_inv (P := PStill n P)
      (fun _ _ _ _ h1 h2 => h1.trans (transferOne_still h2)) s0 h2
    have s3 : PStill n P P3 := foldlM_inv (P := PStill n P)
      (fun _ _ _ _ h1 h2 => h1.trans (endHeads_still _ h2)) s2 h3
    refine s3.trans ?_
    subst hp
    exact ⟨fun m hm => by simp [upd, hm], rfl, fun _ => .inl rfl, rfl, rfl, rfl, rfl, rfl, rfl, rfl⟩
  by_cases hd : P.cfg.hardDet = true
  · simp only [hd, if_true] at hp
    exact key _ _ (PStill.refl n P) hp
  · simp only [hd, Bool.false_eq_true, if_false] at hp
    refine key _ _ ?_ hp
    exact ⟨fun _ _ => rfl, rfl, fun _ => .inl rfl, rfl, rfl, rfl, rfl, rfl, rfl, rfl⟩

/-! ### What a rule of the C++ engine leaves alone -/

/-- Like `CStill`, except for the vehicles waiting at node `n`. -/
structure CNear (n : ℕ) (A B : CWorld) : Prop where
  next : ∀ w, (B.veh w).next = (A.veh w).next
  inc : ∀ m, m ≠ n → (B.node m).incoming = (A.node m).incoming
  arr : ∀ l, (B.link l).arrived = (A.link l).arrived
  ins : ∀ m, (B.node m).inLinks = (A.node m).inLinks
  g : B.g = A.g

theorem CStill.near {A B : CWorld} (h : CStill A B) (n : ℕ) : CNear n A B :=
  ⟨h.1, fun m _ => h.2.1 m, h.2.2.1, h.2.2.2.1, h.2.2.2.2⟩

theorem CNear.trans {n : ℕ} {A B D : CWorld} (h : CNear n A B) (k : CNear n B D) : CNear n A D :=
  ⟨fun w => (k.next w).trans (h.next w), fun m hm => (k.inc m hm).trans (h.inc m hm),
    fun l => (k.arr l).trans (h.arr l), fun m => (k.ins m).trans (h.ins m), k.g.trans h.g⟩

theorem near_inc (n : ℕ) (C : CWorld) (f : List ℕ → List ℕ) :
    CNear n C (C.setN n (fun N => { N with incoming := f N.incoming })) := by
  refine ⟨fun _ => rfl, fun m hm => by simp [CWorld.setN, upd, hm], fun _ => rfl, fun m => ?_, rfl⟩
  simp only [CWorld.setN, upd]; split
  · next e => subst e; rfl
  · rfl

theorem near_moveVeh (C : CWorld) (n v a b : ℕ) : CNear n C (C.moveVeh n v a b) := by
  unfold CWorld.moveVeh
  extract_lets W2 W3 W4
  have h4 : CStill C W4 := (((still_leave C n v a b).trans (still_attach _ v b)).trans
    (still_place _ v _)).trans (still_endFront _ a)
  exact ((h4.trans (still_setL _ _ _ rfl)).near n).trans (near_inc n _ _)

theorem near_transferOne (C : CWorld) (n b : ℕ) : CNear n C (CWorld.transferOne n C b) := by
  have hp : ∀ vs, CNear n C (C.pickMerge n vs).2 := by
    intro vs
    unfold CWorld.pickMerge
    split
    · exact (CStill.refl C).near n
    · generalize randomChoice C.g.fl vs (vs.map C.priOf) (C.node n).rng = r
      obtain ⟨o, rng⟩ := r
      exact CStill.near (still_setN C n (fun N => { N with rng := rng }) rfl rfl) n
  unfold CWorld.transferOne
  split
  · split
    · exact (CStill.refl C).near n
    · rename_i v0 vs _
      have h1 := hp (v0 :: vs)
      split
      · rename_i W1 e; rw [e] at h1; exact h1
      · rename_i v W1 e
        rw [e] at h1
        split
        · exact h1
        · exact h1.trans (near_moveVeh _ _ _ _ _)
  · exact (CStill.refl C).near n

theorem still_endFronts (l : ℕ) : ∀ (j : ℕ) (C : CWorld), CStill C (CWorld.endFronts l j C)
  | 0, C => CStill.refl C
  | j + 1, C => by
    unfold CWorld.endFronts
    split
    · exact (still_endFront C l).trans (still_endFronts l j _)
    · exact CStill.refl C

theorem foldl_rel {α : Type} {R : CWorld → CWorld → Prop} (hr : ∀ A, R A A)
    (ht : ∀ A B D, R A B → R B D → R A D) {f : CWorld → α → CWorld} (hf : ∀ A a, R A (f A a)) :
    ∀ (xs : List α) (A : CWorld), R A (xs.foldl f A)
  | [], A => hr A
  | x :: xs, A => ht _ _ _ (hf A x) (foldl_rel hr ht hf xs (f A x))

theorem near_transfer (C : CWorld) (n : ℕ) : CNear n (C.collect n) (C.transfer n) := by
  unfold CWorld.transfer
  have h1 : CNear n (C.collect n) ((C.collect n).shuffleSlots n).2 := by
    unfold CWorld.shuffleSlots
    split
    · exact (CStill.refl _).near n
    · generalize fisherYates _ _ _ = r
      obtain ⟨o, rng⟩ := r
      exact CStill.near (still_setN _ n (fun N => { N with rng := rng }) rfl rfl) n
  generalize (C.collect n).shuffleSlots n = r at h1 ⊢
  obtain ⟨order, W1⟩ := r
  dsimp only at h1 ⊢
  have h2 : CNear n (C.collect n) (order.foldl (CWorld.transferOne n) W1) := h1.trans
    (foldl_rel (fun A => (CStill.refl A).near n) (fun _ _ _ => CNear.trans)
      (fun A b => near_transferOne A n b) _ _)
  generalize order.foldl (CWorld.transferOne n) W1 = W2 at h2 ⊢
  have h3 : CNear n (C.collect n) ((W2.node n).inLinks.foldl
      (fun W a => CWorld.endFronts a (W.link a).lanes W) W2) := h2.trans
    ((foldl_rel CStill.refl (fun _ _ _ => CStill.trans) (fun A a => still_endFronts a _ A) _ _).near n)
  exact h3.trans (near_inc n _ (fun _ => []))

/-- The vehicles waiting at `m` stay the same if neither engine touches them. -/
theorem wait_keep {m : ℕ} {C C' : CWorld} (hs : SameWait m P (C.collect m))
    (hi : P'.N.incoming m = P.N.incoming m) (hr : P'.V.rnl = P.V.rnl)
    (hn : ∀ v ∈ P.N.incoming m, (C'.veh v).next = (C.veh v).next)
    (hc : (C'.node m).incoming = (C.node m).incoming) (hl : (C'.node m).inLinks = (C.node m).inLinks)
    (ha : ∀ l ∈ (C.node m).inLinks, (C'.link l).arrived = (C.link l).arrived) :
    SameWait m P' (C'.collect m) := by
  refine ⟨?_, fun v hv b => ?_⟩
  · have := hs.list
    rw [collect_node, if_pos rfl] at this ⊢
    rw [hi, this]
    dsimp only
    rw [hc, hl]
    congr 2
    have key : ∀ ls : List ℕ, (∀ l ∈ ls, (C'.link l).arrived = (C.link l).arrived) →
        ls.flatMap (fun a => (C.link a).arrived) = ls.flatMap (fun a => (C'.link a).arrived) := by
      intro ls hls
      induction ls with
      | nil => rfl
      | cons x t ih =>
        simp only [List.flatMap_cons]
        rw [hls x (by simp), ih (fun l hl => hls l (List.mem_cons_of_mem _ hl))]
    exact key _ ha
  · rw [hi] at hv
    have := hs.next v hv b
    rw [collect_veh] at this ⊢
    rw [hr, hn v hv]; exact this

/-! ### All transfers -/

/-- In the deterministic mode the transfers at all nodes, one after the other, have the same effect. -/
theorem C127_transfers : ∀ (ns : List ℕ) {P P' : World} {C : CWorld}, Alike P C → Core P → Fit P →
    P.cfg.hardDet = true → ns.Nodup → (∀ n ∈ ns, n < P.nNodes) →
    (∀ n ∈ ns, SameWait n P (C.collect n)) → ns.foldlM World.transfer P = .ok P' →
    Alike P' (ns.foldl CWorld.transfer C) ∧ Core P' ∧ Fit P'
  | [], P, P', C, h, hc, k, _, _, _, _, hp => by simp at hp; subst hp; exact ⟨h, hc, k⟩
  | n :: t, P, P', C, h, hc, k, hd, hnd, hlt, hs, hp => by
    rw [List.foldlM_cons, bind_ok] at hp
    obtain ⟨P1, h1, hp⟩ := hp
    have hn := hlt n (by simp)
    have a1 := C126_transfer h hc k n P1 hd hn (hs n (by simp)) h1
    have st := transfer_still h1
    have hc1 := hc.star (transfer_star hc hn h1)
    obtain ⟨hnt, hndt⟩ := List.nodup_cons.1 hnd
    have nr := near_transfer C n
    refine C127_transfers t a1 hc1 (st.fit k) (by rw [st.cfg]; exact hd) hndt
      (fun m hm => by rw [st.nn]; exact hlt m (List.mem_cons_of_mem _ hm)) (fun m hm => ?_) hp
    have hmn : m ≠ n := fun e => hnt (e ▸ hm)
    refine wait_keep (hs m (List.mem_cons_of_mem _ hm)) (st.inc m hmn) st.rnl (fun v _ => ?_) ?_ ?_ ?_
    · rw [nr.next, collect_veh]
    · rw [nr.inc m hmn, collect_node]; simp [hmn]
    · rw [nr.ins, collect_node]
    · intro l hl
      rw [nr.arr, collect_link, if_neg]
      intro hl2
      rw [← h.inLinks] at hl hl2
      exact hmn (((hc.s.in_iff m l).1 hl).2.symm.trans ((hc.s.in_iff n l).1 hl2).2)

/-! ### Car following of all vehicles -/

/-- The vehicle after car following. -/
def aimed (C : CWorld) (v : ℕ) : CVeh := (C.carFollow v).veh v

theorem carFollow_form (C : CWorld) (v : ℕ) : C.carFollow v = { C with veh := upd C.veh v (aimed C v) } := by
  unfold aimed CWorld.carFollow
  split
  · have : upd C.veh v (C.veh v) = C.veh := by
      funext w; simp only [upd]; split
      · next e => rw [e]
      · rfl
    rw [this]
  · split <;> simp [CWorld.setV, upd]

theorem aimed_x (C : CWorld) (v : ℕ) : (aimed C v).x = (C.veh v).x := by
  unfold aimed CWorld.carFollow
  split
  · rfl
  · split <;> simp [CWorld.setV, upd]

theorem aimed_other (C : CWorld) {u v : ℕ} (h : u ≠ v) : aimed (C.carFollow u) v = aimed C v := by
  have hv : (C.carFollow u).veh v = C.veh v := by rw [carFollow_form]; simp [upd, Ne.symm h]
  have hx : ∀ w, ((C.carFollow u).veh w).x = (C.veh w).x := by
    intro w
    rw [carFollow_form]
    simp only [upd]; split
    · next e => subst e; exact aimed_x C w
    · rfl
  have hg : (C.carFollow u).g = C.g := by rw [carFollow_form]
  have hl : (C.carFollow u).link = C.link := by rw [carFollow_form]
  have hf : ∀ l, (C.carFollow u).followPos v l = C.followPos v l := by
    intro l
    unfold CWorld.followPos CWorld.gap
    simp only [hv, hx, hg, hl]
  generalize C.carFollow u = D at *
  unfold aimed CWorld.carFollow
  rw [hv]
  cases (C.veh v).link with
  | none => exact hv
  | some l =>
    dsimp only
    rw [hf, hl, hg]
    split <;> simp [CWorld.setV, upd, hv]

theorem carFollow_comm (C : CWorld) (u v : ℕ) :
    (C.carFollow u).carFollow v = (C.carFollow v).carFollow u := by
  by_cases h : u = v
  · subst h; rfl
  · rw [carFollow_form (C.carFollow u) v, carFollow_form (C.carFollow v) u, aimed_other C h,
      aimed_other C (Ne.symm h), carFollow_form C u, carFollow_form C v]
    congr 1
    funext w
    simp only [upd]
    split_ifs <;> first | rfl | (subst_vars; exact absurd rfl h)

theorem foldl_perm {xs ys : List ℕ} (h : xs.Perm ys) :
    ∀ C : CWorld, xs.foldl CWorld.carFollow C = ys.foldl CWorld.carFollow C := by
  induction h with
  | nil => intro C; rfl
  | cons x _ ih => intro C; exact ih _
  | swap x y l => intro C; simp only [List.foldl_cons]; rw [carFollow_comm]
  | trans _ _ ih1 ih2 => intro C; exact (ih1 C).trans (ih2 C)

theorem carFollows_link (xs : List ℕ) : ∀ C : CWorld, (xs.foldl CWorld.carFollow C).link = C.link := by
  induction xs with
  | nil => intro C; rfl
  | cons x t ih => intro C; rw [List.foldl_cons, ih, carFollow_form]

theorem followPasses_flat : ∀ (ls : List ℕ) (C : CWorld), ls.foldl CWorld.followPass C =
    (ls.flatMap (fun l => (C.link l).vehs)).foldl CWorld.carFollow C
  | [], C => rfl
  | l :: t, C => by
    rw [List.foldl_cons, followPasses_flat t, List.flatMap_cons, List.foldl_append]
    unfold CWorld.followPass
    rw [carFollows_link]

theorem alike_follows : ∀ (vs : List ℕ) {P P' : World} {C : CWorld}, Alike P C → FlOK P.cfg.fl →
    (∀ v l, P.V.link v = some l → P.cfg.fl (P.V.x v) = P.V.x v ∧ 0 ≤ P.L.u l * P.dt) →
    vs.foldlM World.carfollow P = .ok P' → Alike P' (vs.foldl CWorld.carFollow C)
  | [], P, P', C, h, _, _, hp => by simp at hp; subst hp; exact h
  | v :: t, P, P', C, h, hf, hx, hp => by
    rw [List.foldlM_cons, bind_ok] at hp
    obtain ⟨P1, h1, hp⟩ := hp
    obtain ⟨l, mr, xn, hl, he, -⟩ := World.carfollow_ok h1
    have a1 := C126_follow h hf v l P1 hl (hx v l hl).1 (hx v l hl).2 h1
    subst he
    exact alike_follows t a1 hf hx hp

/-- The running vehicles are the vehicles in the queues of the links. -/
theorem running_queues (hc : Core P) :
    P.running.Perm ((List.range P.nLinks).flatMap P.L.vehs) := by
  refine (List.perm_ext_iff_of_nodup hc.s.running_nodup ?_).2 (fun v => ?_)
  · rw [List.nodup_flatMap]
    refine ⟨fun l _ => hc.s.vehs_nodup l, List.Pairwise.imp (fun {a b} hab => ?_) List.nodup_range⟩
    intro v ha hb
    have h1 := hc.s.vehs_link a v ha
    have h2 := hc.s.vehs_link b v hb
    rw [h1] at h2
    exact hab (Option.some.inj h2)
  · rw [hc.s.running_iff, List.mem_flatMap]
    constructor
    · intro hr
      cases hl : P.V.link v with
      | none => exact absurd hl (hc.s.run_link v hr)
      | some l =>
        obtain ⟨-, hm, hlt⟩ := hc.s.link_run v l hl
        exact ⟨l, List.mem_range.2 hlt, hm⟩
    · rintro ⟨l, -, hm⟩
      exact (hc.s.link_run v l (hc.s.vehs_link l v hm)).1

/-- Car following of all vehicles has the same effect, although the Python engine goes through the
running vehicles and the C++ engine through the queues of the links. -/
theorem C127_follows (h : Alike P C) (hc : Core P) (hf : FlOK P.cfg.fl)
    (hx : ∀ v l, P.V.link v = some l → P.cfg.fl (P.V.x v) = P.V.x v ∧ 0 ≤ P.L.u l * P.dt)
    (hp : P.running.foldlM World.carfollow P = .ok P') :
    Alike P' ((List.range P.nLinks).foldl CWorld.followPass C) := by
  rw [followPasses_flat]
  have hq : (fun l => (C.link l).vehs) = P.L.vehs := funext fun l => (h.queue l).symm
  rw [hq, ← foldl_perm (running_queues hc)]
  exact alike_follows _ h hf hx hp

/-! ### Departures and node updates at all nodes -/

/-- What departures at node `n` leave alone. -/
structure DepartFrame (n : ℕ) (P : World) (C : CWorld) (P' : World) (C' : CWorld) : Prop where
  still : ∀ m, PStill m P P'
  genq : ∀ m, m ≠ n → P'.N.genq m = P.N.genq m
  caps : P'.L.capOut = P.L.capOut ∧ P'.L.capIn = P.L.capIn
  choice : ∀ w, w ∉ P.N.genq n → SameChoice P C w → SameChoice P' C' w
  next : ∀ w, w ∉ P.N.genq n → (C'.veh w).next = (C.veh w).next
  inc : ∀ m, (C'.node m).incoming = (C.node m).incoming
  arr : ∀ l, (C'.link l).arrived = (C.link l).arrived
  ins : ∀ m, (C'.node m).inLinks = (C.node m).inLinks
  g : C'.g = C.g

theorem DepartFrame.refl (n : ℕ) (P : World) (C : CWorld) : DepartFrame n P C P C :=
  ⟨fun m => PStill.refl m P, fun _ _ => rfl, ⟨rfl, rfl⟩, fun _ _ h => h, fun _ _ => rfl, fun _ => rfl,
    fun _ => rfl, fun _ => rfl, rfl⟩

theorem depart_still {n v l m : ℕ} (hp : P.depart n v l = .ok P') :
    PStill m P P' ∧ P'.L.capOut = P.L.capOut ∧ P'.L.capIn = P.L.capIn := by
  unfold World.depart at hp
  by_cases hc : P.L.cumArr l = []
  · simp [hc, bind, Except.bind, throw, throwThe, MonadExceptOf.throw] at hp
  simp only [hc, if_false, bind, Except.bind, pure, Except.pure] at hp
  split at hp
  · cases hp
  · next W2 hW2 =>
    cases hp
    obtain ⟨a, b, c, rfl⟩ := attach_form hW2
    exact ⟨⟨fun _ _ => rfl, rfl, fun _ => .inl rfl, rfl, rfl, rfl, rfl, rfl, rfl, rfl⟩, rfl, rfl⟩

theorem still_depart (C : CWorld) (n v l : ℕ) : CStill C (C.depart n v l) := by
  unfold CWorld.depart
  extract_lets W1 W2
  have h2 : CStill C W2 := (still_setN _ _ _ rfl rfl).trans (still_setV _ _ _ rfl)
  exact (h2.trans (still_attach _ _ _)).trans (still_setL _ _ _ rfl)

theorem keepChoice {P : World} {C : CWorld} {n v l w : ℕ} {r : ℕ → ℕ} (hw : w ≠ v)
    (h : SameChoice P C w) : SameChoice P ((C.setN n (fun N => { N with rng := r })).setV v
      (fun V => { V with next := some l })) w :=
  ⟨⟨h.prefer.1, by simpa [CWorld.setV, CWorld.setN, upd, hw] using h.prefer.2⟩,
    ⟨h.avoid.1, by simpa [CWorld.setV, CWorld.setN, upd, hw] using h.avoid.2⟩,
    ⟨h.route.1, by simpa [CWorld.setV, CWorld.setN, upd, hw] using h.route.2⟩,
    fun k => by simpa [CWorld.setV, CWorld.setN, upd, hw] using h.weight k,
    by simpa [CWorld.setV, CWorld.setN, upd, hw] using h.open_⟩

theorem gen_frame (n : ℕ) : ∀ (k : ℕ) {P P' : World} {C : CWorld}, Alike P C →
    P.cfg.hardDet = true → (P.N.genq n).Nodup →
    (∀ v ∈ P.N.genq n, P.V.state v = .wait ∧ SameChoice P C v) →
    (∀ l ∈ P.N.outlinks n, 0 < P.L.lanes l) →
    World.generateLoop n k P = .ok P' → DepartFrame n P C P' (CWorld.genLoop n k C)
  | 0, P, P', C, h, _, _, _, _, hp => by
    simp [World.generateLoop] at hp; subst hp; exact DepartFrame.refl n P C
  | k + 1, P, P', C, h, hd, hnd, hq, hl, hp => by
    unfold World.generateLoop at hp
    unfold CWorld.genLoop
    rw [← h.gen]
    cases hg : P.N.genq n with
    | nil => rw [hg] at hp; cases hp; exact DepartFrame.refl n P C
    | cons v t =>
      rw [hg] at hp
      dsimp only at hp ⊢
      rw [bind_ok] at hp
      obtain ⟨cs, hcs, hp⟩ := hp
      rw [bind_ok] at hp
      obtain ⟨⟨l, W1⟩, hch, hp⟩ := hp
      obtain ⟨hst, hsc⟩ := hq v (by rw [hg]; simp)
      obtain ⟨rfl, hmem, hcn⟩ := C126_choice h n v l W1 (C.node n).rng hd hsc cs hcs hch
      rw [hcn]
      dsimp only at hp ⊢
      have h1 : Alike W1 ((C.setN n (fun N => { N with rng := (C.node n).rng })).setV v
          (fun V => { V with next := some l })) :=
        alike_setV_same (alike_setN_same h _ _ rfl) _ _ rfl
      have f1 : DepartFrame n W1 C W1 ((C.setN n (fun N => { N with rng := (C.node n).rng })).setV v
          (fun V => { V with next := some l })) := by
        have hw : ∀ w, w ∉ W1.N.genq n → w ≠ v := by
          intro w hw e
          rw [hg, e] at hw
          exact hw List.mem_cons_self
        have hn := still_setN C n (fun N => { N with rng := (C.node n).rng }) rfl rfl
        refine ⟨fun m => PStill.refl m W1, fun _ _ => rfl, ⟨rfl, rfl⟩, fun w hwq hs2 => ?_,
          fun w hwq => ?_, fun m => hn.2.1 m, fun _ => rfl, fun m => hn.2.2.2.1 m, rfl⟩
        · exact keepChoice (hw w hwq) hs2
        · simp [CWorld.setV, CWorld.setN, upd, hw w hwq]
      rw [← C126_enter h1 l (hl l hmem)]
      have kc : ∀ w, w ≠ v → SameChoice W1 C w → SameChoice W1
          ((C.setN n (fun N => { N with rng := (C.node n).rng })).setV v
            (fun V => { V with next := some l })) w := fun w => keepChoice
      generalize (C.setN n (fun N => { N with rng := (C.node n).rng })).setV v
          (fun V => { V with next := some l }) = D at h1 f1 kc ⊢
      split_ifs at hp ⊢ with hce
      · rw [bind_ok] at hp
        obtain ⟨P2, h2, hp⟩ := hp
        have h3 := C126_depart h1 n v l P2 (hl l hmem) hst h2
        obtain ⟨e1, e2, e3, e4, e5⟩ := depart_frame h2
        have hgt : P2.N.genq n = t := by rw [e2]; simp [upd, hg]
        have hvt : v ∉ t ∧ t.Nodup := by rw [hg] at hnd; exact List.nodup_cons.1 hnd
        have sd := still_depart D n v l
        have f2 : ∀ w, w ≠ v → SameChoice W1 D w → SameChoice P2 (D.depart n v l) w :=
          fun w hw => depart_choice hw h2
        have hch : ∀ w, w ∉ W1.N.genq n → SameChoice W1 C w → SameChoice P2 (D.depart n v l) w := by
          intro w hw hs
          refine f2 w (fun e => hw ?_) (f1.choice w hw hs)
          rw [hg, e]; exact List.mem_cons_self
        have f3 := gen_frame n k h3 (by rw [e1]; exact hd) (by rw [hgt]; exact hvt.2) (by
          intro w hw
          rw [hgt] at hw
          have hwv : w ≠ v := fun e => hvt.1 (e ▸ hw)
          obtain ⟨hs1, hs2⟩ := hq w (by rw [hg]; exact List.mem_cons_of_mem _ hw)
          refine ⟨by rw [e3]; simp [upd, hwv, hs1], f2 w hwv ?_⟩
          exact kc w hwv hs2) (by
          intro x hx
          rw [e4] at hx; rw [e5]; exact hl x hx) hp
        have hsub : ∀ w, w ∉ W1.N.genq n → w ∉ P2.N.genq n := by
          intro w hw hm
          rw [hgt] at hm
          rw [hg] at hw
          exact hw (List.mem_cons_of_mem _ hm)
        have dk := fun m => depart_still (m := m) h2
        refine ⟨fun m => (dk m).1.trans (f3.still m), fun m hm => ?_, ?_, fun w hw hs => ?_, fun w hw => ?_,
          fun m => ?_, fun x => ?_, fun m => ?_, ?_⟩
        · rw [f3.genq m hm, e2]; simp [upd, hm]
        · exact ⟨f3.caps.1.trans (dk 0).2.1, f3.caps.2.trans (dk 0).2.2⟩
        · exact f3.choice w (hsub w hw) (hch w hw hs)
        · rw [f3.next w (hsub w hw), sd.1, f1.next w hw]
        · rw [f3.inc, sd.2.1, f1.inc]
        · rw [f3.arr, sd.2.2.1, f1.arr]
        · rw [f3.ins, sd.2.2.2.1, f1.ins]
        · rw [f3.g, sd.2.2.2.2, f1.g]
      · simp only [pure_ok] at hp; subst hp; exact f1


theorem generate_frame (h : Alike P C) (hc : Core P) (n : ℕ) (hd : P.cfg.hardDet = true)
    (hs : ∀ v ∈ P.N.genq n, SameChoice P C v) (hp : P.generate n = .ok P') :
    DepartFrame n P C P' (C.generate n) := by
  unfold World.generate at hp
  unfold CWorld.generate
  have hk : ((C.node n).outLinks.map (fun l => (C.link l).lanes)).sum =
      ((P.N.outlinks n).map P.L.lanes).sum := by
    rw [← h.outLinks]
    congr 1
    apply List.map_congr_left
    intro l _
    exact (h.lanes l).symm
  rw [hk]
  split_ifs with he
  · rw [← h.gen, ← h.outLinks] at he
    rcases he with he | he
    · cases hj : ((P.N.outlinks n).map P.L.lanes).sum with
      | zero => rw [hj] at hp; simp [World.generateLoop] at hp; subst hp; exact DepartFrame.refl n P C
      | succ j =>
        rw [hj] at hp; unfold World.generateLoop at hp; rw [he] at hp; cases hp; exact DepartFrame.refl n P C
    · rw [he] at hp; simp [World.generateLoop] at hp; subst hp; exact DepartFrame.refl n P C
  · exact gen_frame n _ h hd (hc.s.genq_nodup n)
      (fun v hv => ⟨(hc.s.genq_mem n v hv).1, hs v hv⟩)
      (fun l hl => hc.s.lanes_pos l ((hc.s.out_iff n l).1 hl).1) hp

theorem nodeUpdate_alike (h : Alike P C) (n : ℕ) (hl : ∀ k : ℕ, P.cfg.fl (P.dn * k) = P.dn * k)
    (hp : P.nodeUpdate n = .ok P') : Alike P' ((C.signalUpdate n).flowUpdate n) := by
  unfold World.nodeUpdate at hp
  split at hp
  · cases hp
  · rename_i W1 h1
    cases hp
    have a1 := C126_signal h n W1 h1
    have hcfg : W1.cfg = P.cfg := by
      unfold World.signalControl at h1
      split at h1
      · cases h1
      · cases h1; rfl
    exact C126_nodecap a1 n (by intro k; unfold World.dn; rw [hcfg]; exact hl k)

/-- The hypotheses under which the two engines agree stay true from rule to rule. -/
structure StepReady (P : World) (C : CWorld) : Prop where
  alike : Alike P C
  core : Core P
  fit : Fit P
  det : P.cfg.hardDet = true
  exact_ : ∀ k : ℕ, P.cfg.fl (P.dn * k) = P.dn * k
  caps : ∀ l, l < P.nLinks → P.L.capOut l < 10000000000 ∧ P.L.capIn l < 10000000000
  wait : ∀ n, n < P.nNodes → SameWait n P (C.collect n)
  nodes : C.g.nNodes = P.nNodes
  links : C.g.nLinks = P.nLinks

theorem ready_node (r : StepReady P C) (n : ℕ) (hn : n < P.nNodes)
    (hs : ∀ m, m < P.nNodes → ∀ v ∈ P.N.genq m, m = n → SameChoice P C v)
    (hp : (P.generate n >>= fun W => W.nodeUpdate n) = .ok P') :
    StepReady P' (C.nodeStage n) ∧ P'.nNodes = P.nNodes ∧ (∀ m, m ≠ n → P'.N.genq m = P.N.genq m) ∧
      ∀ w, w ∉ P.N.genq n → SameChoice P C w → SameChoice P' (C.nodeStage n) w := by
  rw [bind_ok] at hp
  obtain ⟨P1, h1, hp⟩ := hp
  have hs' : ∀ v ∈ P.N.genq n, SameChoice P C v := fun v hv => hs n hn v hv rfl
  have a1 := C126_generate r.alike r.core n P1 r.det hs' h1
  have f1 := generate_frame r.alike r.core n r.det hs' h1
  have s1 := f1.still n
  have a2 := nodeUpdate_alike a1 n (by
    intro k; unfold World.dn; rw [s1.cfg]; exact r.exact_ k) hp
  have hst1 : PStar isGen P P1 := generateLoop_star hn (by unfold World.generate at h1; exact h1)
  have hc1 := r.core.star hst1
  have hc2 : Core P' := hc1.prim (.nodeTick (by rw [s1.nn]; exact hn) hp)
  obtain ⟨ph, sg, sl, fc, rfl⟩ := World.nodeUpdate_ok hp
  have c2 : CStill (C.generate n) (C.nodeStage n) := by
    unfold CWorld.nodeStage
    refine CStill.trans (B := (C.generate n).signalUpdate n) ?_ ?_
    · unfold CWorld.signalUpdate
      exact still_setN _ _ _ rfl rfl
    · unfold CWorld.flowUpdate
      exact still_setN _ _ _ rfl rfl
  have hveh : (C.nodeStage n).veh = (C.generate n).veh := rfl
  have hg : (C.nodeStage n).g = (C.generate n).g := rfl
  refine ⟨⟨a2, hc2, ?_, by rw [← r.det, ← s1.cfg], fun k => ?_, fun l hl => ?_, fun m hm => ?_, ?_, ?_⟩,
    s1.nn, fun m hm => f1.genq m hm, fun w hw hs => ?_⟩
  · have := s1.fit r.fit
    exact ⟨this.ok, this.left, this.links⟩
  · show P1.cfg.fl (P1.dn * k) = P1.dn * k
    unfold World.dn
    rw [s1.cfg]; exact r.exact_ k
  · show P1.L.capOut l < _ ∧ P1.L.capIn l < _
    rw [f1.caps.1, f1.caps.2]
    exact r.caps l (by rw [← s1.nl]; exact hl)
  · have hm' : m < P.nNodes := by rw [← s1.nn]; exact hm
    refine wait_keep (r.wait m hm') ?_ s1.rnl (fun v hv => ?_) ?_ ?_ (fun l _ => ?_)
    · exact (f1.still (m + 1)).inc m (by omega)
    · rw [hveh]
      refine f1.next v (fun hq => ?_)
      have h1 := (r.core.s.genq_mem n v hq).1
      exact (r.core.s.inc_old m v hv).2 h1
    · rw [c2.2.1, f1.inc]
    · rw [c2.2.2.2.1, f1.ins]
    · rw [c2.2.2.1, f1.arr]
  · rw [hg, f1.g, r.nodes]; exact s1.nn.symm
  · rw [hg, f1.g, r.links]; exact s1.nl.symm
  · have := f1.choice w hw hs
    exact ⟨this.prefer, this.avoid, this.route, this.weight, this.open_⟩

/-- In the deterministic mode departures, signals and node capacities at all nodes have the same
effect. -/
theorem C127_nodes : ∀ (ns : List ℕ) {P P' : World} {C : CWorld}, StepReady P C → ns.Nodup →
    (∀ n ∈ ns, n < P.nNodes) → (∀ n ∈ ns, ∀ v ∈ P.N.genq n, SameChoice P C v) →
    ns.foldlM (fun W n => do (← World.generate W n).nodeUpdate n) P = .ok P' →
    StepReady P' (ns.foldl CWorld.nodeStage C)
  | [], P, P', C, r, _, _, _, hp => by simp at hp; subst hp; exact r
  | n :: t, P, P', C, r, hnd, hlt, hs, hp => by
    rw [List.foldlM_cons, bind_ok] at hp
    obtain ⟨P1, h1, hp⟩ := hp
    obtain ⟨hnt, hndt⟩ := List.nodup_cons.1 hnd
    obtain ⟨r1, e1, e2, e3⟩ := ready_node r n (hlt n (by simp))
      (fun m _ v hv e => by subst e; exact hs m (by simp) v hv) h1
    refine C127_nodes t r1 hndt (fun m hm => by rw [e1]; exact hlt m (List.mem_cons_of_mem _ hm))
      (fun m hm v hv => ?_) hp
    have hmn : m ≠ n := fun e => hnt (e ▸ hm)
    rw [e2 m hmn] at hv
    refine e3 v (fun hq => hmn ?_) (hs m (List.mem_cons_of_mem _ hm) v hv)
    rw [← (r.core.s.genq_mem m v hv).2, (r.core.s.genq_mem n v hq).2]

/-! ### Link updates -/

theorem ready_link (r : StepReady P C) (l : ℕ) (hl : l < P.nLinks) (hp : P.linkUpdate l = .ok P') :
    StepReady P' (C.linkUpdate l) ∧ P'.nLinks = P.nLinks ∧ P'.nNodes = P.nNodes ∧ P'.N = P.N ∧
      ∀ w, SameChoice P C w → SameChoice P' (C.linkUpdate l) w := by
  have a1 := C126_link r.alike l P' (r.exact_ _) (r.caps l hl).1 (r.caps l hl).2 hp
  have hc1 : Core P' := r.core.prim (.linkTick hl hp)
  obtain ⟨q, rfl⟩ := World.linkUpdate_ok hp
  have cs : CStill C (C.linkUpdate l) := still_setL _ _ _ rfl
  refine ⟨⟨a1, hc1, ⟨r.fit.ok, r.fit.left, r.fit.links⟩, r.det, r.exact_, r.caps, fun m hm => ?_,
    r.nodes, r.links⟩, rfl, rfl, rfl, fun w h => ⟨h.prefer, h.avoid, h.route, h.weight, h.open_⟩⟩
  exact wait_keep (r.wait m hm) rfl rfl (fun v _ => cs.1 v) (cs.2.1 m) (cs.2.2.2.1 m)
    (fun x _ => cs.2.2.1 x)

/-- Link updates of all links have the same effect. -/
theorem C127_links : ∀ (ls : List ℕ) {P P' : World} {C : CWorld}, StepReady P C → (∀ l ∈ ls, l < P.nLinks) →
    ls.foldlM World.linkUpdate P = .ok P' →
    StepReady P' (ls.foldl CWorld.linkUpdate C) ∧ P'.N = P.N ∧ P'.nNodes = P.nNodes ∧
      ∀ w, SameChoice P C w → SameChoice P' (ls.foldl CWorld.linkUpdate C) w
  | [], P, P', C, r, _, hp => by simp at hp; subst hp; exact ⟨r, rfl, rfl, fun _ h => h⟩
  | l :: t, P, P', C, r, hl, hp => by
    rw [List.foldlM_cons, bind_ok] at hp
    obtain ⟨P1, h1, hp⟩ := hp
    obtain ⟨r1, e1, e2, e3, e4⟩ := ready_link r l (hl l (by simp)) h1
    obtain ⟨r2, f1, f2, f3⟩ := C127_links t r1
      (fun x hx => by rw [e1]; exact hl x (List.mem_cons_of_mem _ hx)) hp
    exact ⟨r2, f1.trans e3, f2.trans e2, fun w h => f3 w (e4 w h)⟩

/-! ### The first four stages of a time step -/

/-- The first four stages of `World.step` (uxsim.py:2461–2476). -/
def pFour (P : World) : M World := do
  let P1 ← (List.range P.nLinks).foldlM World.linkUpdate P
  let P2 ← (List.range P1.nNodes).foldlM (fun W n => do (← W.generate n).nodeUpdate n) P1
  let P3 ← (List.range P2.nNodes).foldlM World.transfer P2
  P3.running.foldlM World.carfollow P3

/-- The first four stages of `CWorld.region` in the order of a single thread (traffi.cpp:1704–1752). -/
def cFour (C : CWorld) : CWorld :=
  let C1 := (List.range C.g.nLinks).foldl CWorld.linkUpdate C
  let C2 := (List.range C.g.nNodes).foldl CWorld.nodeStage C1
  let C3 := (List.range C2.g.nNodes).foldl CWorld.transfer C2
  (List.range C.g.nLinks).foldl CWorld.followPass C3

/-- The four stages are the beginning of the time step of either engine. -/
theorem C127_shape (P : World) (C : CWorld) :
    P.step = (do
      let P4 ← pFour P
      let P5 ← P4.living.foldlM World.vehUpdateLiving P4
      let P6 ← P5.routeStep
      pure { P6 with time := P6.now }) ∧
    CWorld.region C.seqSched C = (List.range C.g.nNodes).foldl CWorld.waitPass
      ((List.range C.g.nLinks).foldl CWorld.runPass (cFour C)) := by
  refine ⟨?_, rfl⟩
  unfold World.step pFour
  simp only [bind_assoc]

/-- In the deterministic mode and with exact arithmetic, the first four stages of a time step (link
updates, node updates with departures, transfers, car following) lead from worlds that hold the same
traffic to worlds that hold the same traffic. -/
theorem C127_step (r : StepReady P C) (hfl : P.cfg.fl = id) (hdt : 0 ≤ P.cfg.deltat)
    (hs : ∀ n, n < P.nNodes → ∀ v ∈ P.N.genq n, SameChoice P C v) (P4 : World)
    (hp : pFour P = .ok P4) : Alike P4 (cFour C) := by
  unfold pFour at hp
  rw [bind_ok] at hp
  obtain ⟨P1, h1, hp⟩ := hp
  rw [bind_ok] at hp
  obtain ⟨P2, h2, hp⟩ := hp
  rw [bind_ok] at hp
  obtain ⟨P3, h3, h4⟩ := hp
  unfold cFour
  extract_lets C1 C2 C3
  obtain ⟨r1, e1, e2, e3⟩ := C127_links _ r (fun l hl => List.mem_range.1 hl) h1
  have hC1 : C1 = (List.range P.nLinks).foldl CWorld.linkUpdate C := by simp only [C1]; rw [r.links]
  rw [← hC1] at r1 e3
  have r2 := C127_nodes (List.range P1.nNodes) r1 List.nodup_range
    (fun n hn => List.mem_range.1 hn)
    (fun n hn v hv => e3 v (hs n (by rw [← e2]; exact List.mem_range.1 hn) v (by rw [← e1]; exact hv))) h2
  have hC2 : C2 = (List.range P1.nNodes).foldl CWorld.nodeStage C1 := by
    simp only [C2]; rw [r.nodes, ← e2]
  rw [← hC2] at r2
  have hC3 : C3 = (List.range P2.nNodes).foldl CWorld.transfer C2 := by
    simp only [C3]; rw [r2.nodes]
  obtain ⟨a3, c3, f3⟩ := C127_transfers (List.range P2.nNodes) r2.alike r2.core r2.fit r2.det
    List.nodup_range (fun n hn => List.mem_range.1 hn) (fun n hn => r2.wait n (List.mem_range.1 hn)) h3
  rw [← hC3] at a3
  have s12 : Static P P3 := by
    exact ((links_star h1).static.trans (gen_star h2).static).trans (transfers_star r2.core h3).1.static
  have hl3 : P3.nLinks = C.g.nLinks := by rw [s12.nLinks, r.links]
  rw [← hl3]
  refine C127_follows a3 c3 f3.ok (fun v l hv => ?_) h4
  have hcfg : P3.cfg = P.cfg := s12.cfg
  refine ⟨by rw [hcfg, hfl]; rfl, ?_⟩
  have hlt := (c3.s.link_run v l hv).2.2
  have h0 := (f3.links l hlt).1
  have : 0 ≤ P3.dt := by unfold World.dt; rw [hcfg]; exact hdt
  exact mul_nonneg h0 this

/-- What the case below checks of a world. -/
def stepCheck (P : World) : Bool :=
  decide (P.finalized = true) &&
  decide (∀ v < P.nVeh, P.V.dest v ≠ none ∧ 0 ≤ P.V.moveRemain v) &&
  decide (∀ l < P.nLinks, 0 ≤ P.L.u l ∧ 0 ≤ P.L.length l ∧ 0 ≤ P.L.mergePriority l) &&
  decide (∀ l < P.nLinks, P.L.capOut l < 10000000000 ∧ P.L.capIn l < 10000000000) &&
  decide (∀ n < P.nNodes, P.N.flowCap n = none ∧ (P.N.incoming n).Pairwise (· ≤ ·)) &&
  decide (∀ n < P.nNodes, ∀ v ∈ P.N.genq n, v < P.nVeh ∧ P.V.linksPrefer v = [] ∧ P.V.linksAvoid v = [] ∧
    P.V.specRoute v = none ∧
    (match P.V.pref v with | .duo k => decide (P.V.dest v = some k) | _ => false) = true) &&
  decide (P.N.genq 0 = [0, 1]) &&
  obs (pFour (padded P)) (fun Q => decide (Q.V.link 0 = some 0) && decide (0 < Q.V.xNext 0))

set_option maxRecDepth 10000 in
/-- A case: two vehicles wait at the origin of a scenario; in the next time step the first one departs
and gets a position ahead of it, in both engines. -/
theorem C127_case : ∃ (W P Q : World) (C : CWorld), Reachable Any W ∧ P = padded W ∧ StepReady P C ∧
    P.cfg.fl = id ∧ 0 ≤ P.cfg.deltat ∧ (∀ n, n < P.nNodes → ∀ v ∈ P.N.genq n, SameChoice P C v) ∧
    pFour P = .ok Q ∧ Alike Q (cFour C) ∧ (C.veh 0).link = none ∧ ((cFour C).veh 0).link = some 0 ∧
    0 < ((cFour C).veh 0).xNext := by
  have h : obs (runCmds agreeCfg (fun _ => 0) (demo1 1)) (fun W => stepCheck W &&
      decide (W.V.link 0 = none)) = true := by decide +kernel
  obtain ⟨W, hW, hchk⟩ := obs_ok h
  have hr := runCmds_reachable hW
  have hcfg : W.cfg = agreeCfg := runCmds_cfg hW
  simp only [stepCheck, Bool.and_eq_true, decide_eq_true_eq] at hchk
  obtain ⟨⟨⟨⟨⟨⟨⟨⟨hfin, hv⟩, hl⟩, hcap⟩, hnode⟩, hq⟩, -⟩, hfour⟩, hlink⟩ := hchk
  have hcore : Core W := hr.inv.core hfin
  obtain ⟨Q, hQ, hpos⟩ := obs_ok hfour
  simp only [Bool.and_eq_true, decide_eq_true_eq] at hpos
  obtain ⟨hA, hS⟩ := C126_exists W hcore (fun v h => (hv v h).1)
    (fun n h c hc => by rw [(hnode n h).1] at hc; cases hc) (fun n h => (hnode n h).2)
  have hid : W.cfg.fl = id := by rw [hcfg]; rfl
  have hr2 : StepReady (padded W) (mirror (padded W)) := by
    refine ⟨hA, padded_core hcore, ⟨?_, fun v h => (hv v h).2, hl⟩, ?_, fun k => ?_, hcap,
      fun n _ => hS n, rfl, rfl⟩
    · show FlOK W.cfg.fl
      rw [hid]; exact ⟨fun _ _ h => h, rfl, fun _ => rfl⟩
    · show W.cfg.hardDet = true
      rw [hcfg]; rfl
    · show W.cfg.fl _ = _
      rw [hid]; rfl
  have hdt : 0 ≤ (padded W).cfg.deltat := by
    show 0 ≤ W.cfg.deltat
    rw [hcfg]; decide +kernel
  have hsc : ∀ n, n < (padded W).nNodes → ∀ v ∈ (padded W).N.genq n,
      SameChoice (padded W) (mirror (padded W)) v := by
    intro n hn v hvq
    obtain ⟨q0, q1, q2, q3, q4⟩ := hq n hn v hvq
    refine ⟨⟨q1, rfl⟩, ⟨q2, rfl⟩, ⟨q3, rfl⟩, fun l => ?_, .inl rfl⟩
    unfold World.prefOf
    show (match W.V.pref v with
      | .dict f => _
      | .duo k => (.ok (W.R.pref k l) : M ℚ)) = .ok (W.R.pref (((padded W).V.dest v).getD 0) l)
    cases hp : W.V.pref v with
    | dict f => rw [hp] at q4; cases q4
    | duo k =>
      rw [hp] at q4
      simp only [decide_eq_true_eq] at q4
      simp [padded, q0, q4]
  have hT := C127_step hr2 hid hdt hsc Q hQ
  exact ⟨W, padded W, Q, mirror (padded W), hr, rfl, hr2, hid, hdt, hsc, hQ, hT, hlink,
    by rw [← hT.vlink]; exact hpos.1, by rw [← hT.xNext]; exact hpos.2⟩

end stages
end UX
