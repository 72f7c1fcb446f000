import Verif.Proofs.Gap
import Verif.Spec.Carry

/-! What vehicles keep through the phases of a time step, and where they enter links (C106). -/

namespace UX
open World

/-- What may happen at the turn of node `n`; `E` gives the ends of the links. -/
def isTrN (E : LinkId → NodeId) (n : NodeId) : Act → Prop
  | .move m _ _ _ => m = n | .endTrip _ l => E l = n | .routing => True | .clearInc m => m = n
  | _ => False

theorem endHeads_at {l : LinkId} {k : ℕ} {W W' : World} (hc : Core W) (h : endHeads l k W = .ok W') :
    PStar (fun a => ∃ v, a = .endTrip v l) W W' := by
  induction k generalizing W with
  | zero => simp [endHeads] at h; subst h; exact PStar.refl
  | succ k ih =>
    simp only [endHeads] at h
    rw [bind_ok] at h
    obtain ⟨⟨W1, b⟩, h1, h⟩ := h
    have hs : PStar (fun a => ∃ v, a = .endTrip v l) W W1 := by
      rcases endHead_spec hc.s h1 with rfl | ⟨v, hp⟩
      · exact PStar.refl
      · exact PStar.one (a := .endTrip v l) ⟨v, rfl⟩ hp
    dsimp only at h
    split at h
    · exact hs.trans (ih (hc.star hs) h)
    · simp at h; subst h; exact hs

/-- The parts of `transfer`. -/
theorem transfer_parts {n : NodeId} {W W' : World} (h : W.transfer n = .ok W') :
    ∃ (slots0 slots : List LinkId) (r : ℕ → ℕ) (W2 W3 : World), W.transferSlots n = .ok slots0 ∧
      slots.Perm slots0 ∧ slots.foldlM (transferOne n) { W with rng := r } = .ok W2 ∧
      (W2.N.inlinks n).foldlM (fun W l => endHeads l (W.L.lanes l) W) W2 = .ok W3 ∧
      W' = { W3 with N := { W3.N with incoming := upd W3.N.incoming n [] } } := by
  unfold transfer at h
  rw [bind_ok] at h
  obtain ⟨slots0, h0, h⟩ := h
  obtain ⟨slots, r, hperm, h⟩ : ∃ (slots : List LinkId) (r : ℕ → ℕ), slots.Perm slots0 ∧ (do
      let W2 ← slots.foldlM (transferOne n) { W with rng := r }
      let W3 ← (W2.N.inlinks n).foldlM (fun W l => endHeads l (W.L.lanes l) W) W2
      pure { W3 with N := { W3.N with incoming := upd W3.N.incoming n [] } } : M World) = .ok W' := by
    split at h
    rename_i x slots W1 heq
    split at heq
    · simp only [Prod.mk.injEq] at heq
      obtain ⟨rfl, rfl⟩ := heq
      exact ⟨_, W.rng, List.Perm.refl _, h⟩
    · simp only [Prod.mk.injEq] at heq
      obtain ⟨rfl, rfl⟩ := heq
      exact ⟨_, _, shuffle_perm _ _, h⟩
  rw [bind_ok] at h
  obtain ⟨W2, h2, h⟩ := h
  rw [bind_ok] at h
  obtain ⟨W3, h3, h⟩ := h
  simp only [pure_ok] at h
  exact ⟨slots0, slots, r, W2, W3, h0, hperm, h2, h3, h.symm⟩

theorem transferOne_at {n : NodeId} {W W' : World} {b : LinkId} (hc : Core W) (hn : n < W.nNodes)
    (h : transferOne n W b = .ok W') : PStar (isTrN W.L.endN n) W W' := by
  rcases transferOne_spec hc hn h with rfl | ⟨r, v, a, W1, hm, h2⟩
  · exact PStar.refl
  · have h1 := (PStar.one (A := isTrN W.L.endN n) (a := .routing) trivial (rng_prim W r)).tail
      (a := .move n v a b) rfl hm
    have ha : W.L.endN a = n := by
      cases hm with
      | move _ hi hl => exact (hc.s.inc_run n v a hi hl).1
    rcases h2 with rfl | ⟨w, h2⟩
    · exact h1
    · exact h1.tail (a := .endTrip w a) ha h2

theorem slots_at {n : NodeId} {W W' : World} {slots : List LinkId} (hc : Core W) (hn : n < W.nNodes)
    (h : slots.foldlM (transferOne n) W = .ok W') : PStar (isTrN W.L.endN n) W W' := by
  have := foldlM_inv (P := fun W1 => Core W1 ∧ PStar (isTrN W.L.endN n) W W1)
    (fun s b s' _ ⟨hc, hs⟩ hfa => by
      have := transferOne_at hc (by rw [hs.static.nNodes]; exact hn) hfa
      rw [hs.static.endN] at this
      exact ⟨hc.star this, hs.trans this⟩)
    ⟨hc, PStar.refl⟩ h
  exact this.2

theorem ends_at {n : NodeId} {W W' : World} (hc : Core W)
    (h : (W.N.inlinks n).foldlM (fun W l => endHeads l (W.L.lanes l) W) W = .ok W') :
    PStar (fun a => ∃ v l, a = .endTrip v l ∧ W.L.endN l = n) W W' :=
  PStar.fold (fun Z l Z' hl hcZ hz => (endHeads_at hcZ hz).mono (by
    rintro a ⟨v, rfl⟩
    exact ⟨v, l, rfl, ((hc.s.in_iff n l).1 hl).2⟩)) hc h

/-- The turn of node `n` involves its own vehicles only. -/
theorem transfer_at {n : NodeId} {W W' : World} (hc : Core W) (hn : n < W.nNodes)
    (h : W.transfer n = .ok W') : PStar (isTrN W.L.endN n) W W' := by
  obtain ⟨slots0, slots, r, W2, W3, _, _, h2, h3, rfl⟩ := transfer_parts h
  have hc1 : Core { W with rng := r } := hc.prim (rng_prim W r)
  have s2 := slots_at hc1 hn h2
  have hc2 := hc1.star s2
  have s3 := ends_at hc2 h3
  have hn3 : n < W3.nNodes := by rw [s3.static.nNodes, s2.static.nNodes]; exact hn
  refine ((PStar.one (a := .routing) trivial (rng_prim W r)).trans s2).trans ?_
  refine (s3.mono ?_).tail (a := .clearInc n) rfl (.clearInc hn3)
  rintro a ⟨v, l, rfl, hl⟩
  rw [s2.static.endN] at hl
  exact hl

/-! ### Vehicles that keep where they are -/

/-- Nothing has happened to the vehicles of link `a`; others may have entered. -/
structure Kept (a : LinkId) (X Z : World) : Prop where
  st : Static X Z
  vehs : ∃ es, Z.L.vehs a = X.L.vehs a ++ es
  same : ∀ v ∈ X.L.vehs a, Z.V.x v = X.V.x v ∧ Z.V.moveRemain v = X.V.moveRemain v
  old : Z.V.xOld = X.V.xOld

theorem Kept.refl (a : LinkId) (X : World) : Kept a X X :=
  ⟨Static.refl X, ⟨[], by simp⟩, fun _ _ => ⟨rfl, rfl⟩, rfl⟩

/-- Actions that leave the vehicles of links that end at `m` where they are. -/
def isCalm (E : LinkId → NodeId) (m : NodeId) : Act → Prop
  | .linkTick _ => True | .depart _ _ _ => True | .routing => True | .nodeTick _ => True
  | .clearInc _ => True | .move n _ _ _ => n ≠ m | .endTrip _ l => E l ≠ m
  | _ => False

theorem Kept.mem {a : LinkId} {X Z : World} (k : Kept a X Z) {v : VehId} (h : v ∈ X.L.vehs a) :
    v ∈ Z.L.vehs a := by
  obtain ⟨es, he⟩ := k.vehs
  rw [he]; exact List.mem_append_left _ h

theorem Kept.prim {a : LinkId} {X Z Z' : World} {act : Act} (k : Kept a X Z) (hc : Core Z)
    (ha : isCalm X.L.endN (X.L.endN a) act) (hp : Prim act Z Z') : Kept a X Z' := by
  have hst := k.st.trans hp.static
  have hs := hp.shape hc.s
  clear hp
  have hmem := fun v hv => k.mem (v := v) hv
  obtain ⟨_, ⟨es, he⟩, hsame, hold⟩ := k
  cases hs with
  | @depart _ n v t cs l o hn hq hcs hl hout hent hcum hlead =>
    have hw : Z.V.state v = .wait := (hc.s.genq_mem n v (by simp [hq])).1
    have hne : ∀ u ∈ X.L.vehs a, u ≠ v := by
      rintro u hu rfl
      have := (hc.s.link_run u a (hc.s.vehs_link a u (hmem u hu))).1
      rw [hw] at this; cases this
    refine ⟨hst, ?_, fun u hu => ?_, hold⟩
    · by_cases e : a = l
      · subst e
        exact ⟨es ++ [v], by simp only [upd_same, he, List.append_assoc]⟩
      · exact ⟨es, by simp only [upd_ne _ _ e, he]⟩
    · simp only [upd_ne _ _ (hne u hu)]
      exact hsame u hu
  | @move _ n v c b t o q nl fc tta hn hinc hla hv hr hsig hout hfl hent hcd hca hu hlead hnl hq hfc htta =>
    have hcn : Z.L.endN c = n := (hc.s.inc_run n v c hinc hla).1
    have hca' : a ≠ c := by
      rintro rfl
      apply ha
      have : Z.L.endN = X.L.endN := hst.endN
      rw [← hcn, this]
    have hne : ∀ u ∈ X.L.vehs a, u ≠ v := by
      rintro u hu rfl
      have := (hc.s.vehs_link a u (hmem u hu)).symm.trans hla
      simp at this; exact hca' this
    refine ⟨hst, ?_, fun u hu => ?_, hold⟩
    · by_cases e : a = b
      · subst e
        exact ⟨es ++ [v], by simp only [upd_same, upd_ne _ _ hca', he, List.append_assoc]⟩
      · exact ⟨es, by simp only [upd_ne _ _ e, upd_ne _ _ hca', he]⟩
    · simp only [upd_ne _ _ (hne u hu)]
      exact hsame u hu
  | @endTrip _ v l t log s c lt tta hl hv hf hcd hrun hliv hlt hlog htta =>
    have hla : a ≠ l := by rintro rfl; exact ha rfl
    have hne : ∀ u ∈ X.L.vehs a, u ≠ v := by
      rintro u hu rfl
      have := (hc.s.vehs_link a u (hmem u hu)).symm.trans hl
      simp at this; exact hla this
    refine ⟨hst, ⟨es, by simp only [upd_ne _ _ hla, he]⟩, fun u hu => ?_, hold⟩
    simp only [upd_ne _ _ (hne u hu)]
    exact hsame u hu
  | linkTick => exact ⟨hst, ⟨es, he⟩, hsame, hold⟩
  | nodeTick => exact ⟨hst, ⟨es, he⟩, hsame, hold⟩
  | clearInc => exact ⟨hst, ⟨es, he⟩, hsame, hold⟩
  | routing => exact ⟨hst, ⟨es, he⟩, hsame, hold⟩
  | _ => exact ha.elim

theorem Kept.star {A : Act → Prop} {a : LinkId} {X Z Z' : World} (k : Kept a X Z) (hc : Core Z)
    (hA : ∀ act, A act → isCalm X.L.endN (X.L.endN a) act) (hp : PStar A Z Z') : Kept a X Z' :=
  hp.inv_core (P := Kept a X) (fun act _ _ ha hcZ hp hz => hz.prim hcZ (hA act ha) hp) hc k

/-! ### Entries -/

theorem ahead_append {W W' : World} {b : LinkId} {es : List VehId} (hl : W'.L.lanes = W.L.lanes)
    (hv : W'.L.vehs b = W.L.vehs b ++ es) (hpos : 1 ≤ W.L.lanes b) {i : ℕ}
    (hi : i ≤ (W.L.vehs b).length) : PySpec.ahead W' b i = PySpec.ahead W b i := by
  unfold PySpec.ahead
  rw [hl, hv]
  split
  · rw [List.getElem?_append_left (by omega)]
  · rfl

theorem carryPos_entry (W : World) (v : VehId) (a b : LinkId) (o : Option VehId) :
    W.carryPos v a b o = PySpec.entryPos W a b (W.V.moveRemain v) (o.map W.V.xOld) := by
  have key : ∀ L x : ℚ, (if L ≤ x then L else x) = min L x := by intro L x; grind
  unfold carryPos PySpec.entryPos
  dsimp only
  rw [key]
  congr 1
  cases o with
  | none => rfl
  | some w =>
    have key : ∀ x p : ℚ, (if (if p < 0 then 0 else p) < x then (if p < 0 then 0 else p) else x) =
        min x (max 0 p) := by
      intro x p; grind
    exact key _ _

theorem entryPos_static {W W' : World} (hs : Static W W') (a b : LinkId) (m : ℚ) (y : Option ℚ) :
    PySpec.entryPos W' a b m y = PySpec.entryPos W a b m y := by
  unfold PySpec.entryPos PySpec.jam
  rw [hs.cfg, hs.u, hs.length, hs.deltaPerLane]

/-- The vehicles `es` have entered link `b` at the turn of node `n`. -/
structure Enters (n : NodeId) (b : LinkId) (X Z : World) (es : List VehId) : Prop where
  vehs : Z.L.vehs b = X.L.vehs b ++ es
  same : ∀ w ∈ X.L.vehs b, Z.V.x w = X.V.x w ∧ Z.V.moveRemain w = X.V.moveRemain w
  pos : ∀ j v, es[j]? = some v → ∃ a, X.L.endN a = n ∧ v ∈ X.L.vehs a ∧ v ∈ X.N.incoming n ∧
    Z.V.x v = PySpec.entryPos X a b (X.V.moveRemain v)
      ((PySpec.ahead Z b ((X.L.vehs b).length + j)).map X.V.xOld) ∧ Z.V.moveRemain v = 0

structure Ent (n : NodeId) (b : LinkId) (X Z : World) : Prop where
  st : Static X Z
  old : Z.V.xOld = X.V.xOld
  inc : ∀ u a, u ∈ Z.N.incoming n → Z.V.link u = some a →
    u ∈ X.N.incoming n ∧ X.V.link u = some a ∧ Z.V.moveRemain u = X.V.moveRemain u
  ex : ∃ es, Enters n b X Z es

theorem Ent.refl (n : NodeId) (b : LinkId) (X : World) : Ent n b X X :=
  ⟨Static.refl X, rfl, fun _ _ h1 h2 => ⟨h1, h2, rfl⟩,
    [], by simp, fun _ _ => ⟨rfl, rfl⟩, by simp⟩

theorem Ent.prim {n : NodeId} {b : LinkId} {X Z Z' : World} {act : Act} (k : Ent n b X Z)
    (hX : Core X) (hc : Core Z) (hb : b < X.nLinks) (hbn : X.L.endN b ≠ n) (ha : isTrN X.L.endN n act)
    (hp : Prim act Z Z') : Ent n b X Z' := by
  have hst := k.st.trans hp.static
  have hst0 := k.st
  have hs := hp.shape hc.s
  clear hp
  obtain ⟨Y, hY⟩ : ∃ Y, Y = Z' := ⟨_, rfl⟩
  obtain ⟨_, hold, hinc0, es, hvs, hsame, hpos⟩ := k
  have hmem : ∀ w, w ∈ X.L.vehs b → Z.V.link w = some b := fun w hw =>
    hc.s.vehs_link b w (by rw [hvs]; exact List.mem_append_left _ hw)
  have hmem' : ∀ w, w ∈ es → Z.V.link w = some b := fun w hw =>
    hc.s.vehs_link b w (by rw [hvs]; exact List.mem_append_right _ hw)
  have hlan : 1 ≤ X.L.lanes b := hX.s.lanes_pos b hb
  have hEn : Z.L.endN = X.L.endN := hst0.endN
  cases hs with
  | @move _ m v c d t o q nl fc tta hn hinc hla hv hr hsig hout hfl hent hcd hca hu hlead hnl hq hfc htta =>
    obtain rfl : m = n := ha
    have hcn : Z.L.endN c = m := (hc.s.inc_run m v c hinc hla).1
    have hbc : b ≠ c := by
      rintro rfl
      exact hbn (by rw [← hEn]; exact hcn)
    have hne : ∀ w, Z.V.link w = some b → w ≠ v := by
      rintro w hw rfl
      have := hw.symm.trans hla
      simp at this; exact hbc this
    have hvb : v ∉ es := fun h => hne v (hmem' v h) rfl
    obtain ⟨i1, i2, i3⟩ := hinc0 v c hinc hla
    refine ⟨hst, hold, fun u a hu hl => ?_, ?_⟩
    · dsimp only at hu hl ⊢
      rw [upd_same] at hu
      have huv : u ≠ v := by
        rintro rfl
        exact (List.Nodup.not_mem_erase (hc.s.inc_nodup m)) hu
      rw [upd_ne _ _ huv] at hl ⊢
      exact hinc0 u a (List.mem_of_mem_erase hu) hl
    · by_cases e : b = d
      · subst e
        have hvs' : upd (upd Z.L.vehs c t) b (upd Z.L.vehs c t b ++ [v]) b = X.L.vehs b ++ (es ++ [v]) := by
          rw [upd_same, upd_ne _ _ hbc, hvs, List.append_assoc]
        have hah : ∀ W'' : World, W''.L.lanes = Z.L.lanes → W''.L.vehs b = Z.L.vehs b ++ [v] →
            ∀ i, i ≤ (Z.L.vehs b).length → PySpec.ahead W'' b i = PySpec.ahead Z b i :=
          fun W'' h1 h2 i hi => ahead_append h1 h2 (by rw [hst0.lanes]; exact hlan) hi
        refine ⟨es ++ [v], hvs', fun w hw => ?_, fun j w hj => ?_⟩
        · simp only [upd_ne _ _ (hne w (hmem w hw))]
          exact hsame w hw
        · rw [← hY, hah Y (by rw [hY]) (by rw [hY]; dsimp only; rw [upd_same, upd_ne _ _ hbc])]
          · have hYx : Y.V.x = upd Z.V.x v q := by rw [hY]
            have hYm : Y.V.moveRemain = upd Z.V.moveRemain v 0 := by rw [hY]
            rw [hYx, hYm]
            by_cases hjl : j < es.length
            · rw [List.getElem?_append_left hjl] at hj
              obtain ⟨a, p1, p2, p3, p4, p5⟩ := hpos j w hj
              have hwv : w ≠ v := hne w (hmem' w (List.mem_of_getElem? hj))
              refine ⟨a, p1, p2, p3, ?_, ?_⟩
              · rw [upd_ne _ _ hwv]; exact p4
              · rw [upd_ne _ _ hwv]; exact p5
            · rw [List.getElem?_append_right (by omega)] at hj
              have hj0 : j = es.length := by
                by_contra hne'
                have : 1 ≤ j - es.length := by omega
                rw [List.getElem?_eq_none (by simpa using this)] at hj
                cases hj
              subst hj0
              obtain rfl : v = w := by simpa using hj
              refine ⟨c, by rw [← hEn]; exact hcn, (hX.s.link_run v c i2).2.1, i1, ?_, ?_⟩
              · rw [upd_same, hq, carryOver_eq, carryPos_entry, entryPos_static hst0, i3, hold]
                congr 2
                have hlen : (X.L.vehs b).length + es.length = (Z.L.vehs b).length := by
                  rw [hvs, List.length_append]
                rw [hlen]
                rw [upd_ne _ _ hbc] at hlead
                unfold PySpec.ahead
                rcases hlead with ⟨h1, h2⟩ | ⟨w, h1, h2, h3⟩
                · rw [if_neg (by omega), h1]
                · rw [if_pos h2, h1, ← h3]
                  unfold backN
                  rw [if_pos ⟨by rw [hst0.lanes]; exact hlan, h2⟩]
              · rw [upd_same]
          · rw [hvs, List.length_append]
            have := (List.getElem?_eq_some_iff.mp hj).1
            simp at this; omega
      · have hvs' : upd (upd Z.L.vehs c t) d (upd Z.L.vehs c t d ++ [v]) b = Z.L.vehs b := by
          rw [upd_ne _ _ e, upd_ne _ _ hbc]
        refine ⟨es, hvs'.trans hvs, fun w hw => ?_, fun j w hj => ?_⟩
        · simp only [upd_ne _ _ (hne w (hmem w hw))]
          exact hsame w hw
        · obtain ⟨a, p1, p2, p3, p4, p5⟩ := hpos j w hj
          have hwv : w ≠ v := hne w (hmem' w (List.mem_of_getElem? hj))
          refine ⟨a, p1, p2, p3, ?_, ?_⟩
          · dsimp only; rw [upd_ne _ _ hwv, p4]
            unfold PySpec.ahead
            dsimp only
            rw [hvs']
          · dsimp only; rw [upd_ne _ _ hwv]; exact p5
  | @endTrip _ v l t log s c lt tta hl hv hf hcd hrun hliv hlt hlog htta =>
    have hbl : b ≠ l := by rintro rfl; exact hbn ha
    have hne : ∀ w, Z.V.link w = some b → w ≠ v := by
      rintro w hw rfl
      have := hw.symm.trans hl
      simp at this; exact hbl this
    refine ⟨hst, hold, fun u a hu hl' => ?_, ?_⟩
    · dsimp only at hu hl' ⊢
      have huv : u ≠ v := by rintro rfl; rw [upd_same] at hl'; cases hl'
      rw [upd_ne _ _ huv] at hl'
      exact hinc0 u a hu hl'
    · have hvs' : upd Z.L.vehs l t b = Z.L.vehs b := upd_ne _ _ hbl
      refine ⟨es, hvs'.trans hvs, fun w hw => ?_, fun j w hj => ?_⟩
      · simp only [upd_ne _ _ (hne w (hmem w hw))]
        exact hsame w hw
      · obtain ⟨a, p1, p2, p3, p4, p5⟩ := hpos j w hj
        have hwv : w ≠ v := hne w (hmem' w (List.mem_of_getElem? hj))
        refine ⟨a, p1, p2, p3, ?_, p5⟩
        dsimp only; rw [upd_ne _ _ hwv, p4]
        unfold PySpec.ahead
        dsimp only
        rw [hvs']
  | @clearInc _ m hn =>
    obtain rfl : m = n := ha
    refine ⟨hst, hold, fun u a hu => ?_, es, hvs, hsame, hpos⟩
    dsimp only at hu
    rw [upd_same] at hu
    cases hu
  | routing => exact ⟨hst, hold, hinc0, es, hvs, hsame, hpos⟩
  | _ => exact ha.elim

theorem transfer_enters {n : NodeId} {b : LinkId} {X Y : World} (hX : Core X) (hn : n < X.nNodes)
    (hb : b < X.nLinks) (hbn : X.L.endN b ≠ n) (h : X.transfer n = .ok Y) : Ent n b X Y :=
  (transfer_at hX hn h).inv_core (P := Ent n b X)
    (fun _ _ _ ha hc hp k => k.prim hX hc hb hbn ha hp) hX (Ent.refl n b X)

end UX
