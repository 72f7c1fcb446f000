import Verif.Proofs.CppStats
import Mathlib.Algebra.BigOperators.Ring.Finset
import Mathlib.Algebra.Order.BigOperators.Group.Finset
import Mathlib.Algebra.Field.Rat
import Mathlib.Tactic.Ring
import Mathlib.Tactic.FieldSimp

/-!
# Statistics of the C++ engine: all executions
-/

namespace UX.Cpp
open CWorld Relation Spec

theorem sum_one {M : Type} [AddCommMonoid M] {k v : ℕ} (hv : v < k) {f f' : ℕ → M} {c : M}
    (h : ∀ w, f' w = f w + if w = v then c else 0) : ∑ w ∈ Finset.range k, f' w = ∑ w ∈ Finset.range k, f w + c := by
  rw [Finset.sum_congr rfl (fun w _ => h w), Finset.sum_add_distrib, Finset.sum_ite_eq' (Finset.range k) v,
    if_pos (Finset.mem_range.2 hv)]

theorem Hush.entries {V V' : CVeh} (h : Hush V V') (l : ℕ) : entriesOn V' l = entriesOn V l := by
  obtain ⟨_, es, b, c⟩ := h
  unfold entriesOn
  have h0 : es.filter (fun e => decide (e.link = some l)) = [] :=
    List.filter_eq_nil_iff.2 (fun e he => by simp [c e he])
  rw [b, List.filter_append, h0, List.append_nil]

/-- Waiting entries of vehicles from `n`. -/
def waits (W : CWorld) (n : ℕ) : ℕ := ∑ v ∈ Finset.range W.g.nVehs, if (W.veh v).orig = n then (W.veh v).logWait else 0

/-- The statistics agree with the logs. -/
structure Counted (W : CWorld) : Prop where
  aveV : ∀ l < W.g.nLinks, (W.link l).aveV = speedOn W l
  stat : ∀ l < W.g.nLinks, (W.link l).stat = countOn W l
  wait : ∀ n < W.g.nNodes, (W.node n).stat = waits W n
  links : ∀ v < W.g.nVehs, ∀ e ∈ (W.veh v).log, ∀ l, e.link = some l → l < W.g.nLinks

theorem orig_par {W W' : CWorld} (k : SamePar W W') (v : ℕ) : (W'.veh v).orig = (W.veh v).orig :=
  show (W'.veh v).par.orig = (W.veh v).par.orig by rw [k.veh v]

theorem snoc_entries (V V' : CVeh) (e : CLog) (h : V'.log = V.log ++ [e]) (l : ℕ) :
    entriesOn V' l = entriesOn V l ++ if e.link = some l then [e] else [] := by
  unfold entriesOn
  rw [h, List.filter_append]
  congr 1
  by_cases he : e.link = some l <;> simp [he]

theorem Counted.tally {W W' : CWorld} (c : Counted W) (t : Tally W W') (hf : W.g.fl = id) (hv : W'.g.nVehs = W.g.nVehs)
    (hl : W'.g.nLinks = W.g.nLinks) (hn : W'.g.nNodes = W.g.nNodes) (ho : ∀ v, (W'.veh v).orig = (W.veh v).orig) :
    Counted W' := by
  cases t with
  | still h =>
    have e : ∀ v l, entriesOn (W'.veh v) l = entriesOn (W.veh v) l := fun v l => (h.veh v).entries l
    refine ⟨fun l hl' => ?_, fun l hl' => ?_, fun n hn' => ?_, fun v hv' x hx l hxl => ?_⟩
    · have := congrArg (fun p => p.1) (h.link l)
      simp only [CLink.tally] at this
      rw [this, c.aveV l (hl ▸ hl')]; unfold speedOn; simp only [e, hv]
    · have := congrArg (fun p => p.2.2) (h.link l)
      simp only [CLink.tally] at this
      rw [this, c.stat l (hl ▸ hl')]; unfold countOn; simp only [e, hv]
    · rw [h.node, c.wait n (hn ▸ hn')]; unfold waits
      simp only [hv, ho, fun v => (h.veh v).1]
    · obtain ⟨_, es, b, q⟩ := h.veh v
      rw [b] at hx
      rcases List.mem_append.1 hx with hx | hx
      · rw [hl]; exact c.links v (hv ▸ hv') x hx l hxl
      · rw [q x hx] at hxl; simp at hxl
  | run v l hvn hln e he link node veh =>
    have en : ∀ m w, entriesOn (W'.veh w) m = entriesOn (W.veh w) m ++ if w = v ∧ m = l then [e] else [] := fun m w => by
      by_cases hw : w = v
      · subst hw
        have := (veh w).2
        rw [if_pos rfl] at this
        rw [snoc_entries _ _ e this, he]
        by_cases hm : m = l
        · subst hm; simp
        · rw [if_neg (fun h => hm (Option.some.inj h).symm), if_neg (fun h => hm h.2)]
      · have := (veh w).2
        rw [if_neg hw] at this
        rw [if_neg (fun h => hw h.1), List.append_nil]
        unfold entriesOn; rw [this]
    refine ⟨fun m hm => ?_, fun m hm => ?_, fun n hn' => ?_, fun w hw x hx m hxm => ?_⟩
    · have h1 := congrArg (fun p => p.1) (link m)
      have h2 : speedOn W' m = speedOn W m + if m = l then e.v else 0 := by
        unfold speedOn; rw [hv]
        refine sum_one hvn (fun w => ?_)
        rw [en]
        by_cases hw : w = v <;> by_cases hm : m = l <;> simp [hw, hm]
      rw [h2, ← c.aveV m (hl ▸ hm)]
      by_cases hm : m = l
      · subst hm; simp only [CLink.tally, if_true, hf, id] at h1 ⊢; exact h1
      · simp only [CLink.tally, if_neg hm] at h1 ⊢; rw [h1, add_zero]
    · have h1 := congrArg (fun p => p.2.2) (link m)
      have h2 : countOn W' m = countOn W m + if m = l then 1 else 0 := by
        unfold countOn; rw [hv]
        refine sum_one hvn (fun w => ?_)
        rw [en]
        by_cases hw : w = v <;> by_cases hm : m = l <;> simp [hw, hm]
      rw [h2]; push_cast
      rw [← c.stat m (hl ▸ hm)]
      by_cases hm : m = l
      · subst hm; simp only [CLink.tally, if_true, hf, id] at h1 ⊢; exact h1
      · simp only [CLink.tally, if_neg hm] at h1 ⊢; rw [h1, add_zero]
    · rw [node, c.wait n (hn ▸ hn')]; unfold waits
      simp only [hv, ho, fun v => (veh v).1]
    · have := (veh w).2
      rw [this] at hx
      rw [hl]
      split at hx
      · rename_i ew; subst ew
        rcases List.mem_append.1 hx with hx | hx
        · exact c.links w (hv ▸ hw) x hx m hxm
        · rw [List.mem_singleton.1 hx, he] at hxm
          cases hxm; exact hln
      · exact c.links w (hv ▸ hw) x hx m hxm
  | wait v hvn link node e he veh =>
    have en : ∀ m w, entriesOn (W'.veh w) m = entriesOn (W.veh w) m := fun m w => by
      have := (veh w).2
      by_cases hw : w = v
      · subst hw
        rw [if_pos rfl] at this
        rw [snoc_entries _ _ e this, he]; simp
      · rw [if_neg hw] at this
        unfold entriesOn; rw [this]
    refine ⟨fun l hl' => ?_, fun l hl' => ?_, fun n hn' => ?_, fun w hw x hx m hxm => ?_⟩
    · have := congrArg (fun p => p.1) (link l)
      simp only [CLink.tally] at this
      rw [this, c.aveV l (hl ▸ hl')]; unfold speedOn; simp only [en, hv]
    · have := congrArg (fun p => p.2.2) (link l)
      simp only [CLink.tally] at this
      rw [this, c.stat l (hl ▸ hl')]; unfold countOn; simp only [en, hv]
    · have h2 : waits W' n = waits W n + if (W.veh v).orig = n then 1 else 0 := by
        unfold waits; rw [hv]
        refine sum_one hvn (fun w => ?_)
        rw [ho, (veh w).1]
        by_cases hw : w = v
        · subst hw; simp only [if_true]; split <;> simp
        · simp [hw]
      rw [h2, node, hf]; push_cast
      rw [← c.wait n (hn ▸ hn')]
      by_cases hw : (W.veh v).orig = n
      · rw [if_pos hw.symm, if_pos hw]; rfl
      · rw [if_neg (fun h => hw h.symm), if_neg hw, add_zero]
    · have := (veh w).2
      rw [this] at hx
      rw [hl]
      split at hx
      · rename_i ew; subst ew
        rcases List.mem_append.1 hx with hx | hx
        · exact c.links w (hv ▸ hw) x hx m hxm
        · rw [List.mem_singleton.1 hx, he] at hxm; simp at hxm
      · exact c.links w (hv ▸ hw) x hx m hxm

theorem Ev.counted {W W' : CWorld} (e : Ev W W') (hf : W.g.fl = id) (hm : W.g.logMode = true) (c : Counted W) : Counted W' :=
  c.tally (e.tally hm) hf (CGlob.fix_nVehs e.fix) (CGlob.fix_nLinks e.fix) (CGlob.fix_nNodes e.fix) (orig_par e.samePar)

theorem adjustNode_stat (W : CWorld) (n m : ℕ) : ((W.adjustNode n).node m).stat = (W.node m).stat := by
  unfold CWorld.adjustNode
  split
  · simp only
    rw [setN_node]; split
    · rename_i e; subst e; rfl
    · rfl
  · rfl

theorem adjustNodes_stat (ns : List ℕ) (W : CWorld) (m : ℕ) : ((ns.foldl adjustNode W).node m).stat = (W.node m).stat := by
  induction ns generalizing W with
  | nil => rfl
  | cons n t ih => exact (ih _).trans (adjustNode_stat W n m)

theorem initAdj_stat (W : CWorld) (m : ℕ) : (W.initAdj.node m).stat = (W.node m).stat := by
  unfold CWorld.initAdj
  simp only
  split
  · exact adjustNodes_stat _ W m
  · rfl

theorem setL_tally {W : CWorld} {l : ℕ} {f : CLink → CLink} (h : ∀ L, (f L).tally = L.tally) (m : ℕ) :
    ((W.setL l f).link m).tally = (W.link m).tally := by
  rw [setL_link]; split
  · rename_i e; rw [h, e]
  · rfl

theorem edit_unc (W : CWorld) (e : Edit) : Uncounted W (W.edit e) := by
  cases e <;> simp only [CWorld.edit] <;>
    first
    | exact unc_setL _ _ (by intro L; rfl)
    | exact unc_setV _ _ (by intro L; rfl)
    | exact unc_setN _ _ (by intro L; rfl)
    | (unfold changeFreeFlow; split <;> first | exact .refl _ | exact unc_setL _ _ (by intro L; rfl))
    | (unfold changeJam; split <;> first | exact .refl _ | exact unc_setL _ _ (by intro L; rfl))

theorem Call.counted {W W' : CWorld} (h : Call W W') (hf : W.g.fl = id) (c : Counted W) : Counted W' := by
  cases h with
  | node r p ints off cap lanes rng =>
    refine ⟨c.aveV, c.stat, fun n hn => ?_, c.links⟩
    show ((upd W.node W.g.nNodes _) n).stat = ((waits W n : ℕ) : ℚ)
    have hn' : n < W.g.nNodes + 1 := hn
    unfold upd
    split
    · rename_i e
      have : waits W n = 0 := by
        unfold waits
        refine Finset.sum_eq_zero (fun v hv => ?_)
        have := r.inv.orig v (Finset.mem_range.1 hv)
        rw [if_neg (by omega)]
      rw [this]; rfl
    · exact c.wait n (by omega)
  | link r src dst a hs hd hl hr =>
    have key : ∀ v l, v < W.g.nVehs → W.g.nLinks ≤ l → entriesOn (W.veh v) l = [] := fun v l hv hl => by
      unfold entriesOn
      refine List.filter_eq_nil_iff.2 (fun e he => ?_)
      intro h
      have := c.links v hv e he l (by simpa using h)
      omega
    have lk : ∀ l, (W.addLink src dst a).link l = if l = W.g.nLinks then W.newLink src dst a else W.link l := fun l => rfl
    have nd : ∀ n, ((W.addLink src dst a).node n).stat = (W.node n).stat := fun n => by
      have := ((unc_setN ({ W with
          g := { W.g with nLinks := W.g.nLinks + 1 }
          link := upd W.link W.g.nLinks (W.newLink src dst a) } : CWorld) src (f := fun N => { N with outLinks := N.outLinks ++ [W.g.nLinks] }) (by intro N; rfl)).trans
        (unc_setN _ dst (f := fun N => { N with inLinks := N.inLinks ++ [W.g.nLinks] }) (by intro N; rfl))).node n
      exact this
    refine ⟨fun l hl => ?_, fun l hl => ?_, fun n hn => (nd n).trans (c.wait n hn), fun v hv e he l hel =>
      Nat.lt_succ_of_lt (c.links v hv e he l hel)⟩
    · have hl' : l < W.g.nLinks + 1 := hl
      show _ = speedOn W l
      rw [lk]; split
      · rename_i e
        show (0 : ℚ) = _
        unfold speedOn
        rw [Finset.sum_eq_zero (fun v hv => by rw [key v l (Finset.mem_range.1 hv) (by omega)]; rfl)]
      · exact c.aveV l (by omega)
    · have hl' : l < W.g.nLinks + 1 := hl
      show _ = ((countOn W l : ℕ) : ℚ)
      rw [lk]; split
      · rename_i e
        show (0 : ℚ) = _
        unfold countOn
        rw [Finset.sum_eq_zero (fun v hv => by rw [key v l (Finset.mem_range.1 hv) (by omega)]; rfl)]; rfl
      · exact c.stat l (by omega)
  | vehicle r dep orig dest prefer ho hd =>
    have vh : ∀ w, (W.addVehicle dep orig dest prefer).veh w = if w = W.g.nVehs then newVeh dep orig dest prefer else W.veh w :=
      fun w => rfl
    have vlt : ∀ w ∈ Finset.range W.g.nVehs, (W.addVehicle dep orig dest prefer).veh w = W.veh w := fun w hw => by
      have := Finset.mem_range.1 hw
      rw [vh, if_neg (by omega)]
    have vnew : (W.addVehicle dep orig dest prefer).veh W.g.nVehs = newVeh dep orig dest prefer := by rw [vh, if_pos rfl]
    refine ⟨fun l hl => (c.aveV l hl).trans ?_, fun l hl => (c.stat l hl).trans ?_, fun n hn => (c.wait n hn).trans ?_,
      fun v hv e he l hel => ?_⟩
    · unfold speedOn
      rw [show (W.addVehicle dep orig dest prefer).g.nVehs = W.g.nVehs + 1 from rfl, Finset.sum_range_succ, vnew]
      have z : entriesOn (newVeh dep orig dest prefer) l = [] := rfl
      rw [z]
      simp only [List.map_nil, List.sum_nil, List.length_nil, add_zero]
      refine Finset.sum_congr rfl (fun w hw => ?_)
      rw [vlt w hw]
    · unfold countOn
      rw [show (W.addVehicle dep orig dest prefer).g.nVehs = W.g.nVehs + 1 from rfl, Finset.sum_range_succ, vnew]
      have z : entriesOn (newVeh dep orig dest prefer) l = [] := rfl
      rw [z]
      simp only [List.map_nil, List.sum_nil, List.length_nil, add_zero]
      congr 1
      exact Finset.sum_congr rfl (fun w hw => by rw [vlt w hw])
    · unfold waits
      rw [show (W.addVehicle dep orig dest prefer).g.nVehs = W.g.nVehs + 1 from rfl, Finset.sum_range_succ, vnew]
      have z : (if (newVeh dep orig dest prefer).orig = n then (newVeh dep orig dest prefer).logWait else 0) = 0 := by
        split <;> rfl
      rw [z, add_zero]
      congr 1
      refine Finset.sum_congr rfl (fun w hw => ?_)
      rw [vlt w hw]
    · rw [vh] at he
      have hv' : v < W.g.nVehs + 1 := hv
      split at he
      · simp [newVeh] at he
      · exact c.links v (by omega) e he l hel
  | tmax r t =>
    refine c.tally (.still ⟨fun l => ?_, fun _ => rfl, fun _ => Hush.refl _⟩) hf rfl rfl rfl (fun _ => rfl)
    simp only [CWorld.setTMax]; split <;> rfl
  | init r =>
    obtain ⟨hv, hl, h, _, _⟩ := initAdj_same W
    refine c.tally (.still ⟨fun l => by rw [hl], initAdj_stat W, fun v => by rw [hv]; exact Hush.refl _⟩) hf
      (CGlob.fix_nVehs h) (CGlob.fix_nLinks h) (CGlob.fix_nNodes h) (fun v => by rw [hv])
  | edit r e =>
    refine c.tally (.still (edit_unc W e)) hf (by rw [edit_g]) (by rw [edit_g]) (by rw [edit_g]) (fun v => ?_)
    have := edit_life W e v
    have a := congrArg (fun V : CVeh => V.orig) this
    exact a

theorem CReach.counted {W : CWorld} (h : CReach W) (hf : W.g.fl = id) (hm : W.g.logMode = true) : Counted W := by
  refine CReach.invariant (P := fun W => W.g.fl = id → W.g.logMode = true → Counted W) ?_ ?_ ?_ h hf hm
  · intros
    exact ⟨fun l hl => absurd hl (Nat.not_lt_zero l), fun l hl => absurd hl (Nat.not_lt_zero l),
      fun l hl => absurd hl (Nat.not_lt_zero l), fun l hl => absurd hl (Nat.not_lt_zero l)⟩
  · intro W W' c ih hf hm
    have hf' : W.g.fl = id := by rw [← c.glob.1]; exact hf
    exact c.counted hf' (ih hf' (by rw [← c.logMode]; exact hm))
  · intro W W' e ih hf hm
    have hf' : W.g.fl = id := by rw [← CGlob.fix_fl e.fix]; exact hf
    have hm' : W.g.logMode = true := by rw [← CGlob.fix_logMode e.fix]; exact hm
    exact e.counted hf' hm' (ih hf' hm')

end UX.Cpp
