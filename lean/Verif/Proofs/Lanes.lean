import Verif.Proofs.Shape

/-! Invariant of lanes, leaders and followers. -/

namespace UX
open World

/-- Lanes go round robin along the link; leader and follower are `k` places ahead and behind. -/
structure LaneOK (k : ℕ) (vs : List VehId) (lane : VehId → ℕ) (leader follower : VehId → Option VehId) :
    Prop where
  lt : ∀ v ∈ vs, lane v < k
  nxt : ∀ i v w, vs[i]? = some v → vs[i + 1]? = some w → lane w = (lane v + 1) % k
  lead : ∀ i v, vs[i]? = some v → leader v = if i < k then none else vs[i - k]?
  foll : ∀ i v, vs[i]? = some v → follower v = vs[i + k]?

namespace LaneOK

variable {k : ℕ} {vs : List VehId} {lane lane' : VehId → ℕ}
  {leader follower leader' follower' : VehId → Option VehId}

theorem empty : LaneOK k [] lane leader follower := by
  constructor <;> simp

theorem congr (h : LaneOK k vs lane leader follower) (h1 : ∀ v ∈ vs, lane' v = lane v)
    (h2 : ∀ v ∈ vs, leader' v = leader v) (h3 : ∀ v ∈ vs, follower' v = follower v) :
    LaneOK k vs lane' leader' follower' := by
  obtain ⟨a, b, c, d⟩ := h
  refine ⟨fun v hv => h1 v hv ▸ a v hv, fun i v w hv hw => ?_, fun i v hv => ?_, fun i v hv => ?_⟩
  · rw [h1 v (List.mem_of_getElem? hv), h1 w (List.mem_of_getElem? hw)]; exact b i v w hv hw
  · rw [h2 v (List.mem_of_getElem? hv)]; exact c i v hv
  · rw [h3 v (List.mem_of_getElem? hv)]; exact d i v hv

theorem follower_mem (h : LaneOK k vs lane leader follower) {v f} (hv : v ∈ vs)
    (hf : follower v = some f) : f ∈ vs := by
  obtain ⟨i, hi⟩ := List.mem_iff_getElem?.mp hv
  rw [h.foll i v hi] at hf
  exact List.mem_of_getElem? hf

theorem tail {v : VehId} {t : List VehId} (h : LaneOK k (v :: t) lane leader follower) (hk : 1 ≤ k)
    (hn : (v :: t).Nodup) : LaneOK k t lane (detachL leader (follower v)) follower := by
  have hfv : follower v = t[k - 1]? := by
    rw [h.foll 0 v rfl, Nat.zero_add, show k = (k - 1) + 1 by omega, List.getElem?_cons_succ]; simp
  refine ⟨fun w hw => h.lt w (List.mem_cons_of_mem _ hw), fun i u w hu hw => h.nxt (i + 1) u w hu hw,
    fun i w hw => ?_, fun i w hw => ?_⟩
  · have h1 := h.lead (i + 1) w hw
    rw [detachL_apply, hfv]
    split
    · rename_i he
      have hi : i = k - 1 := by
        have hl1 := (List.getElem?_eq_some_iff.mp hw).1
        exact (List.getElem?_inj hl1 (List.Nodup.of_cons hn)).mp (hw.trans he.symm)
      rw [if_pos (by omega)]
    · rename_i he
      rw [h1]
      have hik : i + 1 ≠ k := by
        rintro rfl
        exact he hw
      by_cases hlt : i < k
      · rw [if_pos hlt, if_pos (by omega)]
      · rw [if_neg hlt, if_neg (by omega), show i + 1 - k = (i - k) + 1 by omega,
          List.getElem?_cons_succ]
  · have h1 := h.foll (i + 1) w hw
    rw [h1, show i + 1 + k = (i + k) + 1 by omega, List.getElem?_cons_succ]

theorem lane_add (h : LaneOK k vs lane leader follower) {i : ℕ} {v : VehId} (hv : vs[i]? = some v)
    (j : ℕ) {w : VehId} (hw : vs[i + j]? = some w) : lane w = (lane v + j) % k := by
  induction j generalizing w with
  | zero =>
    obtain rfl : v = w := by simpa [hv] using hw
    rw [Nat.add_zero, Nat.mod_eq_of_lt (h.lt _ (List.mem_of_getElem? hv))]
  | succ j ih =>
    have hl := (List.getElem?_eq_some_iff.mp hw).1
    have h2 : vs[i + j]? = some (vs[i + j]'(by omega)) := List.getElem?_eq_getElem (by omega)
    rw [h.nxt (i + j) _ w h2 hw, ih h2, Nat.mod_add_mod, Nat.add_assoc]

/-- Lane of a vehicle that enters the link. -/
theorem new_lane (h : LaneOK k vs lane leader follower) (hk : 1 ≤ k) {nl : ℕ}
    (hnl : nl = (match (generalizing := false) vs.getLast? with
      | some w => (lane w + 1) % k | none => 0)) {w : VehId} (hlen : k ≤ vs.length)
    (hw : backN vs k = some w) : lane w = nl := by
  rw [backN, if_pos ⟨hk, hlen⟩] at hw
  have hne : vs ≠ [] := by rintro rfl; simp at hlen; omega
  have hl : vs[(vs.length - k) + (k - 1)]? = some (vs.getLast hne) := by
    rw [show vs.length - k + (k - 1) = vs.length - 1 by omega, ← List.getLast?_eq_getElem?,
      List.getLast?_eq_some_getLast hne]
  have h1 := h.lane_add hw (k - 1) hl
  have hlt := h.lt w (List.mem_of_getElem? hw)
  rw [hnl, List.getLast?_eq_some_getLast hne]
  dsimp only
  rw [h1, Nat.mod_add_mod, show lane w + (k - 1) + 1 = lane w + k by omega, Nat.add_mod_right,
    Nat.mod_eq_of_lt hlt]

theorem append (h : LaneOK k vs lane leader follower) (hk : 1 ≤ k) {v : VehId} (hv : v ∉ vs)
    (hn : vs.Nodup) (hf : follower v = none) {nl : ℕ} {o : Option VehId}
    (hnl : nl = (match (generalizing := false) vs.getLast? with
      | some w => (lane w + 1) % k | none => 0))
    (ho : (o = none ∧ vs.length < k) ∨ ∃ w, o = some w ∧ k ≤ vs.length ∧ backN vs k = some w) :
    LaneOK k (vs ++ [v]) (upd lane v nl) (upd leader v o) (attachF follower o v) := by
  have hnlk : nl < k := by
    rw [hnl]; split
    · exact Nat.mod_lt _ (by omega)
    · omega
  have hne : ∀ w ∈ vs, w ≠ v := fun w hw e => hv (e ▸ hw)
  refine ⟨fun w hw => ?_, fun i u w hu hw => ?_, fun i u hu => ?_, fun i u hu => ?_⟩
  · rw [upd_apply]
    split
    · exact hnlk
    · rename_i hwv
      simp only [List.mem_append, List.mem_singleton] at hw
      exact h.lt w (hw.resolve_right hwv)
  · have hil := (List.getElem?_eq_some_iff.mp hw).1
    simp only [List.length_append, List.length_singleton] at hil
    have hu' : vs[i]? = some u := by rwa [List.getElem?_append_left (by omega)] at hu
    rw [upd_ne _ _ (hne u (List.mem_of_getElem? hu'))]
    by_cases hi : i + 1 < vs.length
    · rw [List.getElem?_append_left hi] at hw
      rw [upd_ne _ _ (hne w (List.mem_of_getElem? hw))]
      exact h.nxt i u w hu' hw
    · have hie : i + 1 = vs.length := by omega
      rw [List.getElem?_append_right (by omega)] at hw
      simp only [hie, Nat.sub_self, List.getElem?_cons_zero, Option.some.injEq] at hw
      subst hw
      rw [upd_same, hnl, List.getLast?_eq_getElem?, show vs.length - 1 = i by omega, hu']
  · have hil := (List.getElem?_eq_some_iff.mp hu).1
    simp only [List.length_append, List.length_singleton] at hil
    by_cases hi : i < vs.length
    · rw [List.getElem?_append_left hi] at hu
      rw [upd_ne _ _ (hne u (List.mem_of_getElem? hu)), h.lead i u hu]
      split
      · rfl
      · rw [List.getElem?_append_left (by omega)]
    · have hie : i = vs.length := by omega
      rw [List.getElem?_append_right (by omega)] at hu
      simp only [hie, Nat.sub_self, List.getElem?_cons_zero, Option.some.injEq] at hu
      subst hu
      rw [upd_same, hie]
      rcases ho with ⟨rfl, hlt⟩ | ⟨w, rfl, hle, hb⟩
      · rw [if_pos hlt]
      · rw [if_neg (by omega), List.getElem?_append_left (by omega)]
        rw [backN, if_pos ⟨hk, hle⟩] at hb
        exact hb.symm
  · have hil := (List.getElem?_eq_some_iff.mp hu).1
    simp only [List.length_append, List.length_singleton] at hil
    rw [attachF_apply]
    by_cases hi : i < vs.length
    · rw [List.getElem?_append_left hi] at hu
      rcases ho with ⟨rfl, hlt⟩ | ⟨w, rfl, hle, hb⟩
      · rw [if_neg (by simp), h.foll i u hu, List.getElem?_eq_none (by omega),
          List.getElem?_eq_none (by simp; omega)]
      · rw [backN, if_pos ⟨hk, hle⟩] at hb
        by_cases hw : w = u
        · subst hw
          have : vs.length - k = i := (List.getElem?_inj (by omega) hn).mp (hb.trans hu.symm)
          rw [if_pos rfl, List.getElem?_append_right (by omega), show i + k - vs.length = 0 by omega]
          rfl
        · rw [if_neg (by simpa using hw), h.foll i u hu]
          by_cases hik : i + k < vs.length
          · rw [List.getElem?_append_left hik]
          · have : i + k ≠ vs.length := by
              intro he
              have : vs.length - k = i := by omega
              rw [this, hu] at hb
              exact hw (by simpa using hb.symm)
            rw [List.getElem?_eq_none (by omega), List.getElem?_eq_none (by simp; omega)]
    · have hie : i = vs.length := by omega
      rw [List.getElem?_append_right (by omega)] at hu
      simp only [hie, Nat.sub_self, List.getElem?_cons_zero, Option.some.injEq] at hu
      subst hu
      rw [if_neg, hf, List.getElem?_eq_none (by simp; omega)]
      rcases ho with ⟨rfl, hlt⟩ | ⟨w, rfl, hle, hb⟩
      · simp
      · rw [backN, if_pos ⟨hk, hle⟩] at hb
        simpa using hne w (List.mem_of_getElem? hb)

end LaneOK

structure LInv (W : World) : Prop where
  ok : ∀ l, l < W.nLinks → LaneOK (W.L.lanes l) (W.L.vehs l) W.V.lane W.V.leader W.V.follower
  young : ∀ v, W.V.state v = .home ∨ W.V.state v = .wait → W.V.follower v = none

namespace LInv

theorem congr {W W' : World} (h : LInv W) (h1 : W'.nLinks = W.nLinks) (h2 : W'.L.lanes = W.L.lanes)
    (h3 : W'.L.vehs = W.L.vehs) (h4 : W'.V.lane = W.V.lane) (h5 : W'.V.leader = W.V.leader)
    (h6 : W'.V.follower = W.V.follower) (h7 : W'.V.state = W.V.state) : LInv W' := by
  obtain ⟨a, b⟩ := h
  exact ⟨by rw [h1, h2, h3, h4, h5, h6]; exact a, by rw [h6, h7]; exact b⟩

theorem prim {W W' : World} {act : Act} (h : LInv W) (hc : Core W) (hp : Prim act W W') : LInv W' := by
  have hs := hp.shape hc.s
  clear hp
  have hdisj : ∀ {l m : LinkId} {v : VehId}, v ∈ W.L.vehs l → v ∈ W.L.vehs m → l = m := by
    intro l m v h1 h2
    have := (hc.s.vehs_link l v h1).symm.trans (hc.s.vehs_link m v h2)
    simpa using this
  cases hs with
  | @depart _ n v t cs l o hn hq hcs hl hout hent hcum hlead =>
    have hw : W.V.state v = .wait := (hc.s.genq_mem n v (by simp [hq])).1
    have hl' : l < W.nLinks := ((hc.s.out_iff n l).mp hout).1
    have hvn : ∀ m, v ∉ W.L.vehs m := fun m hm => by
      have := (hc.s.link_run v m (hc.s.vehs_link m v hm)).1
      rw [hw] at this; cases this
    have hfv := h.young v (.inr hw)
    have homem : ∀ w, o = some w → w ∈ W.L.vehs l := by
      rintro w rfl
      rcases hlead with ⟨h1, -⟩ | ⟨w', h1, h2, h3⟩
      · cases h1
      · obtain rfl : w = w' := by simpa using h1
        unfold backN at h3; split at h3
        · exact List.mem_of_getElem? h3
        · cases h3
    refine ⟨fun m hm => ?_, fun u hu => ?_⟩
    · dsimp only
      by_cases hml : m = l
      · subst hml
        rw [upd_same]
        exact (h.ok m hm).append (hc.s.lanes_pos m hm) (hvn m) (hc.s.vehs_nodup m) hfv rfl hlead
      · rw [upd_ne _ _ hml]
        refine (h.ok m hm).congr (fun u hu => ?_) (fun u hu => ?_) (fun u hu => ?_)
        · exact upd_ne _ _ (fun e => hvn m (e ▸ hu))
        · exact upd_ne _ _ (fun e => hvn m (e ▸ hu))
        · rw [attachF_apply, if_neg]
          intro ho
          exact hml (hdisj hu (homem u ho))
    · dsimp only at hu ⊢
      rw [attachF_apply]
      rw [upd_apply] at hu
      split at hu
      · simp at hu
      · rw [if_neg]
        · exact h.young u hu
        · intro ho
          have := (hc.s.link_run u l (hc.s.vehs_link l u (homem u ho))).1
          rw [this] at hu; simp at hu
  | @move _ n v a b t o q nl fc tta hn hinc hla hv hr hsig hout hfl hent hcd hca hu hlead hnl hq hfc htta =>
    have hal : a < W.nLinks := (hc.s.link_run v a hla).2.2
    have hbl : b < W.nLinks := hc.s.rnl_lt v b hr
    have hrun := (hc.s.link_run v a hla).1
    have hva : v ∈ W.L.vehs a := by simp [hv]
    have hnd := hc.s.vehs_nodup a
    rw [hv] at hnd
    have hvt : v ∉ t := (List.nodup_cons.mp hnd).1
    -- first: removal
    have h1 : ∀ m, m < W.nLinks → LaneOK (W.L.lanes m) (upd W.L.vehs a t m) W.V.lane
        (detachL W.V.leader (W.V.follower v)) (upd W.V.follower v none) := by
      intro m hm
      by_cases hma : m = a
      · subst hma
        have hok := h.ok m hm
        rw [hv] at hok
        rw [upd_same]
        refine (hok.tail (hc.s.lanes_pos m hm) hnd).congr (fun _ _ => rfl) (fun _ _ => rfl) ?_
        intro u hu
        exact upd_ne _ _ (fun e => hvt (e ▸ hu))
      · rw [upd_ne _ _ hma]
        refine (h.ok m hm).congr (fun _ _ => rfl) (fun u hu => ?_) (fun u hu => ?_)
        · rw [detachL_apply, if_neg]
          intro hf
          exact hma (hdisj hu ((h.ok a hal).follower_mem hva hf))
        · exact upd_ne _ _ (fun e => hma (hdisj (e ▸ hu) hva))
    have hvn : ∀ m, v ∉ upd W.L.vehs a t m := by
      intro m
      rw [upd_apply]
      split
      · exact hvt
      · rename_i hma; exact fun hm => hma (hdisj hm hva)
    have hsub : ∀ m u, u ∈ upd W.L.vehs a t m → u ∈ W.L.vehs m := by
      intro m u
      rw [upd_apply]
      split
      · rename_i hma; subst hma; rw [hv]; exact List.mem_cons_of_mem _
      · exact id
    have homem : ∀ w, o = some w → w ∈ upd W.L.vehs a t b := by
      rintro w rfl
      rcases hlead with ⟨h1, -⟩ | ⟨w', h1, h2, h3⟩
      · cases h1
      · obtain rfl : w = w' := by simpa using h1
        unfold backN at h3; split at h3
        · exact List.mem_of_getElem? h3
        · cases h3
    have hndb : (upd W.L.vehs a t b).Nodup := by
      rw [upd_apply]; split
      · exact (List.nodup_cons.mp hnd).2
      · exact hc.s.vehs_nodup b
    refine ⟨fun m hm => ?_, fun u hu => ?_⟩
    · dsimp only
      by_cases hmb : m = b
      · subst hmb
        rw [upd_same]
        exact (h1 m hm).append (hc.s.lanes_pos m hm) (hvn m) hndb (upd_same _ _ _) hnl hlead
      · rw [upd_ne _ _ hmb]
        refine (h1 m hm).congr (fun u hu => ?_) (fun u hu => ?_) (fun u hu => ?_)
        · exact upd_ne _ _ (fun e => hvn m (e ▸ hu))
        · exact upd_ne _ _ (fun e => hvn m (e ▸ hu))
        · rw [attachF_apply, if_neg]
          intro ho
          exact hmb (hdisj (hsub m u hu) (hsub b u (homem u ho)))
    · dsimp only at hu ⊢
      rw [attachF_apply, if_neg]
      · rw [upd_apply]; split
        · rfl
        · exact h.young u hu
      · intro ho
        have := (hc.s.link_run u b (hc.s.vehs_link b u (hsub b u (homem u ho)))).1
        rw [this] at hu; simp at hu
  | @endTrip _ v l t log s c lt tta hl hv hf hcd hrun hliv hlt hlog htta =>
    have hal : l < W.nLinks := (hc.s.link_run v l hl).2.2
    have hva : v ∈ W.L.vehs l := by simp [hv]
    have hnd := hc.s.vehs_nodup l
    rw [hv] at hnd
    refine ⟨fun m hm => ?_, fun u hu => ?_⟩
    · dsimp only
      by_cases hma : m = l
      · subst hma
        have hok := h.ok m hm
        rw [hv] at hok
        rw [upd_same]
        exact hok.tail (hc.s.lanes_pos m hm) hnd
      · rw [upd_ne _ _ hma]
        refine (h.ok m hm).congr (fun _ _ => rfl) (fun u hu => ?_) (fun _ _ => rfl)
        rw [detachL_apply, if_neg]
        intro hf
        exact hma (hdisj hu ((h.ok l hal).follower_mem hva hf))
    · dsimp only at hu ⊢
      rw [upd_apply] at hu
      split at hu
      · split at hu <;> simp at hu
      · exact h.young u hu
  | @startWait _ v hliv hs hd =>
    refine ⟨h.ok, fun u hu => ?_⟩
    dsimp only at hu ⊢
    rw [upd_apply] at hu
    split at hu
    · rename_i e; subst e; exact h.young u (.inl hs)
    · exact h.young u hu
  | _ => exact h.congr rfl rfl rfl rfl rfl rfl rfl

theorem reach {OK : World → Prop} {W : World} (h : Reachable OK W) : LInv W := by
  refine Reachable.induct (P := LInv) ?_ ?_ ?_ ?_ ?_ ?_ ?_ ?_ h
  · intro cfg tmax rng
    constructor <;> simp [World.new]
  · intro W a ph t soff hi hf hn _ _ hT
    exact hT.congr rfl rfl rfl rfl rfl rfl rfl
  · intro W W' a hi hf ha _ _ hT
    obtain ⟨s, e, nm, k, p, -, -, -, -, -, -, rfl⟩ := addLink_ok ha
    refine ⟨fun l hl => ?_, hT.young⟩
    simp only [addLinkRes, upd_apply] at hl ⊢
    split
    · exact LaneOK.empty
    · rename_i hne; exact hT.ok l (Nat.lt_of_le_of_ne (Nat.le_of_lt_succ hl) hne)
  · intro W W' a hi ha _ _ hT
    obtain ⟨o, d, dep, pref, cache, lp, la, nm, -, -, -, -, -, -, -, -, rfl⟩ := addVehicle_ok ha
    have hfr := hi.s.fresh W.nVeh le_rfl
    have hnv : ∀ m, W.nVeh ∉ W.L.vehs m := fun m hm => by
      have := (hi.s.link_run _ m (hi.s.vehs_link m _ hm)).1
      rw [hfr] at this; cases this
    have hy := hT.young
    refine ⟨fun l hl => (hT.ok l hl).congr (fun u hu => ?_) (fun u hu => ?_) (fun u hu => ?_), fun u hu => ?_⟩
    · have : u ≠ W.nVeh := fun e => hnv l (e ▸ hu)
      simp [addVehRes, upd_apply, this]
    · have : u ≠ W.nVeh := fun e => hnv l (e ▸ hu)
      simp [addVehRes, upd_apply, this]
    · have : u ≠ W.nVeh := fun e => hnv l (e ▸ hu)
      simp [addVehRes, upd_apply, this]
    · simp only [addVehRes, upd_apply] at hu ⊢
      grind
  · intro W tm hi hf _ _ hT
    obtain ⟨ts, tta, fc, fr, la, hr⟩ := finalize_frame W tm
    rw [hr]
    exact hT.congr rfl rfl rfl rfl rfl rfl rfl
  · intro W W' _ _ _ hs hT
    obtain ⟨_, _, _, _, _, _, _, rfl, -⟩ := hs
    exact hT.congr rfl rfl rfl rfl rfl rfl rfl
  · intro W W' _ _ _ hs hT
    obtain ⟨_, _, _, _, _, _, _, _, _, _, _, _, _, _, _, _, _, _, _, rfl, -⟩ := hs
    exact hT.congr rfl rfl rfl rfl rfl rfl rfl
  · intro W W1 W' hi hf _ _ _ h1 hW hT
    subst hW
    exact step_prim hi hf (fun _ _ _ hc hp h => h.prim hc hp)
      (fun W t k _ h => h.congr rfl rfl rfl rfl rfl rfl rfl) h1 hT

end LInv
end UX
