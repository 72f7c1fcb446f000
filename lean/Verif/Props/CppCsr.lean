import Verif.Proofs.CppCsr
import Verif.Props.CppWrap
import Verif.Props.CppWrapExample
import Verif.Props.CppNames

/-!
# C119: routes between Python and the C++ engine in traffic assignment
-/

namespace UX.Cpp
open Spec Osm

/-- **C119.** The routes that the engine returned for the next iteration are read back unchanged. -/
theorem C119_flat (routes : List (List ℕ)) : ofCsr (toCsr routes).1 (toCsr routes).2 = routes := by
  rw [toCsr_eq]
  unfold ofCsr
  dsimp only
  rw [offs_length, Nat.add_sub_cancel]
  apply List.ext_getElem (by simp)
  intro i h1 h2
  rw [List.getElem_map, List.getElem_range]
  obtain ⟨a, b⟩ := slice_offs routes [] i h2
  simp only [List.nil_append, List.length_nil] at a b
  have hg : routes.getD i [] = routes[i] := by rw [List.getD_eq_getElem?_getD, List.getElem?_eq_getElem h2]; rfl
  split
  · rw [a, hg]
  · rename_i hle
    rw [hg] at b
    symm
    rw [← List.length_eq_zero_iff]
    omega

theorem forall₂_of_get {α β : Type} {R : α → β → Prop} {xs : List α} {ys : List β} (hl : xs.length = ys.length)
    (h : ∀ (i : ℕ) (h1 : i < xs.length) (h2 : i < ys.length), R xs[i] ys[i]) : List.Forall₂ R xs ys :=
  List.forall₂_iff_get.2 ⟨hl, fun i h1 h2 => h i h1 h2⟩

theorem forall₂_mem_left {α β : Type} {R : α → β → Prop} {xs : List α} {ys : List β} (h : List.Forall₂ R xs ys) {x : α}
    (hx : x ∈ xs) : ∃ y ∈ ys, R x y := by
  induction h with
  | nil => simp at hx
  | cons h1 _ ih =>
    rcases List.mem_cons.1 hx with rfl | hx
    · exact ⟨_, List.mem_cons_self, h1⟩
    · obtain ⟨y, hy, h2⟩ := ih hx
      exact ⟨y, List.mem_cons_of_mem _ hy, h2⟩

theorem sameRoute_exists {links : List String} {r : List ℕ} (h : ∀ l ∈ r, l < links.length) : ∃ t, SameRoute links r t := by
  induction r with
  | nil => exact ⟨[], .nil⟩
  | cons l r ih =>
    obtain ⟨t, ht⟩ := ih (fun x hx => h x (List.mem_cons_of_mem _ hx))
    have hl := h l List.mem_cons_self
    exact ⟨links[l] :: t, .cons (List.getElem?_eq_getElem hl) ht⟩

theorem sameRoutes_exists {links : List String} {rs : List (List ℕ)} (h : ∀ r ∈ rs, ∀ l ∈ r, l < links.length) :
    ∃ ts, List.Forall₂ (SameRoute links) rs ts := by
  induction rs with
  | nil => exact ⟨[], .nil⟩
  | cons r rs ih =>
    obtain ⟨ts, hts⟩ := ih (fun x hx => h x (List.mem_cons_of_mem _ hx))
    obtain ⟨t, ht⟩ := sameRoute_exists (h r List.mem_cons_self)
    exact ⟨t :: ts, .cons ht hts⟩

theorem sameSets_exists {nodes links : List String} {S : Store} (h : InRange nodes links S) :
    ∃ D, SameSets nodes links S D := by
  induction S with
  | nil => exact ⟨[], .nil⟩
  | cons e S ih =>
    obtain ⟨D, hD⟩ := ih (fun x hx => h x (List.mem_cons_of_mem _ hx))
    obtain ⟨h1, h2, h3⟩ := h e List.mem_cons_self
    obtain ⟨ts, hts⟩ := sameRoutes_exists h3
    exact ⟨((nodes[e.1.1], nodes[e.1.2]), ts) :: D,
      .cons ⟨List.getElem?_eq_getElem h1, List.getElem?_eq_getElem h2, hts⟩ hD⟩

theorem named_inj {names : List String} (hn : names.Nodup) {i j : ℕ} {s : String} (h1 : Named names i s)
    (h2 : Named names j s) : i = j := by
  obtain ⟨a, b⟩ := List.getElem?_eq_some_iff.1 h1
  obtain ⟨c, d⟩ := List.getElem?_eq_some_iff.1 h2
  exact (List.Nodup.getElem_inj_iff hn).1 (b.trans d.symm)

theorem sameSets_keys {nodes links : List String} (hn : nodes.Nodup) {S : Store} {D : NameDict}
    (h : SameSets nodes links S D) : (S.map Prod.fst).Nodup ↔ (D.map Prod.fst).Nodup := by
  induction h with
  | nil => simp
  | cons h1 h2 ih =>
    rename_i e f S D
    simp only [List.map_cons, List.nodup_cons, ih]
    refine and_congr_left fun _ => not_congr ?_
    constructor
    · intro hm
      obtain ⟨e', he', ee⟩ := List.mem_map.1 hm
      obtain ⟨f', hf', hs⟩ := forall₂_mem_left h2 he'
      refine List.mem_map.2 ⟨f', hf', Prod.ext ?_ ?_⟩
      · have a := hs.orig; have b := h1.orig
        rw [ee] at a
        exact Option.some.inj (a.symm.trans b)
      · have a := hs.dest; have b := h1.dest
        rw [ee] at a
        exact Option.some.inj (a.symm.trans b)
    · intro hm
      obtain ⟨f', hf', ee⟩ := List.mem_map.1 hm
      obtain ⟨e', he', hs⟩ := forall₂_mem_left (List.Forall₂.flip h2) hf'
      change SamePair nodes links e' f' at hs
      refine List.mem_map.2 ⟨e', he', Prod.ext ?_ ?_⟩
      · have a := hs.orig; have b := h1.orig
        rw [ee] at a
        exact named_inj hn a b
      · have a := hs.dest; have b := h1.dest
        rw [ee] at a
        exact named_inj hn a b

/-- **C119.** In a world in which Python and the engine agree (C117), the route sets of the engine, in whatever order its
hash table has them, appear in Python under the names of their nodes and links. -/
theorem C119_names {W : Names} (h : Names.Built W) {S : Store} (hk : (S.map Prod.fst).Nodup)
    (hr : InRange W.nodes W.links S) :
    ∃ D, csrNames W.nodes W.links (Store.toCsr S) = .ok D ∧ SameSets W.nodes W.links S D := by
  have ag := Names.C117_agree h
  obtain ⟨D, hD⟩ := sameSets_exists hr
  refine ⟨D, ?_, hD⟩
  have hlen := hD.length_eq
  unfold csrNames
  refine foldlM_dict (csrPair W.nodes W.links (Store.toCsr S)) ?_ ((sameSets_keys ag.nNames hD).1 hk)
  rw [store_toCsr]
  refine forall₂_of_get (by simpa using hlen) fun p h1 h2 => ?_
  have hp : p < S.length := by simpa using h1
  rw [List.getElem_range]
  have hpair : SamePair W.nodes W.links S[p] D[p] := (List.forall₂_iff_get.1 hD).2 p hp h2
  unfold csrPair
  simp only [List.getD_eq_getElem?_getD, List.getElem?_map, List.getElem?_eq_getElem hp, Option.map_some,
    Option.getD_some]
  rw [nameOf_ok hpair.orig, nameOf_ok hpair.dest]
  obtain ⟨a, b⟩ := slice_offs (S.map Prod.snd) [] p (by simpa using hp)
  have hS : (S.map Prod.snd).getD p [] = S[p].2 := by
    rw [List.getD_eq_getElem?_getD, List.getElem?_map, List.getElem?_eq_getElem hp]; rfl
  simp only [List.nil_append, List.length_nil, hS] at a b
  rw [← List.flatMap_def] at a
  simp only [List.getD_eq_getElem?_getD] at a b
  generalize (offs 0 (S.map Prod.snd))[p]?.getD 0 = r0 at a b
  generalize (offs 0 (S.map Prod.snd))[p + 1]?.getD 0 = r1 at a b
  subst b
  have hroutes : (List.range (r0 + S[p].2.length - r0)).mapM (fun k =>
      (slice (S.flatMap Prod.snd).flatten ((offs 0 (S.flatMap Prod.snd))[r0 + k]?.getD 0)
        ((offs 0 (S.flatMap Prod.snd))[r0 + k + 1]?.getD 0)).mapM (nameOf W.links)) = .ok D[p].2 := by
    have hl := hpair.routes.length_eq
    refine mapM_ok _ (forall₂_of_get (by simp [hl]) fun k h3 h4 => ?_)
    rw [List.getElem_range]
    have hk2 : k < S[p].2.length := by omega
    have hget : (S.flatMap Prod.snd).getD (r0 + k) [] = S[p].2[k] := by
      have := congrArg (fun l => l[k]?) a
      unfold slice at this
      simp only [Nat.add_sub_cancel_left, List.getElem?_take, hk2, if_true, List.getElem?_drop,
        List.getElem?_eq_getElem hk2] at this
      rw [List.getD_eq_getElem?_getD, this]; rfl
    have hlt : r0 + k < (S.flatMap Prod.snd).length := by
      by_contra hge
      have := congrArg (fun l => l[k]?) a
      unfold slice at this
      simp only [Nat.add_sub_cancel_left, List.getElem?_take, hk2, if_true, List.getElem?_drop,
        List.getElem?_eq_getElem hk2] at this
      rw [List.getElem?_eq_none (by omega)] at this
      simp at this
    obtain ⟨a2, _⟩ := slice_offs (S.flatMap Prod.snd) [] (r0 + k) hlt
    simp only [List.nil_append, List.length_nil, hget] at a2
    simp only [List.getD_eq_getElem?_getD] at a2
    rw [a2]
    have hroute : SameRoute W.links S[p].2[k] D[p].2[k] := (List.forall₂_iff_get.1 hpair.routes).2 k hk2 h4
    exact mapM_ok _ (hroute.imp fun _ _ h => nameOf_ok h)
  change ((List.range _).mapM _ >>= fun routes => Except.ok ((D[p].1.1, D[p].1.2), routes) : M _) = _
  rw [hroutes]; rfl

/-- A concrete case: the routes between two nodes. -/
theorem C119_case : ∃ W, Names.Built W ∧ InRange W.nodes W.links [((0, 1), [[0], [2]]), ((1, 0), [[1], []])] ∧
    csrNames W.nodes W.links (Store.toCsr [((0, 1), [[0], [2]]), ((1, 0), [[1], []])]) =
      .ok [(("a", "b"), [["l"], ["a-b"]]), (("b", "a"), [["l_renamedZz"], []])] := by
  obtain ⟨W, h, h1, h2, _⟩ := Names.C117_case
  refine ⟨W, h, ?_, ?_⟩
  · rw [h1, h2]; unfold InRange; decide
  · rw [h1, h2]; decide +kernel

/-- **C119.** Route sets given by name reach the engine as the same sets by number. -/
theorem C119_ids {W : Names} (h : Names.Built W) {S : Store} {D : NameDict} (hs : SameSets W.nodes W.links S D)
    (hk : (D.map Prod.fst).Nodup) : (namesIds W.nodes W.links D).map makeStore = .ok S := by
  have ag := Names.C117_agree h
  have hk2 := (sameSets_keys ag.nNames hs).2 hk
  have h1 : namesIds W.nodes W.links D = .ok S := by
    unfold namesIds
    refine foldlM_dict (namesPair W.nodes W.links) ?_ hk2
    refine List.Forall₂.flip (hs.imp fun e f hp => ?_)
    change namesPair W.nodes W.links f = .ok e
    unfold namesPair
    rw [idOf_ok ag.nNames hp.orig, idOf_ok ag.nNames hp.dest]
    have : f.2.mapM (fun r => r.mapM (idOf W.links)) = .ok e.2 :=
      mapM_ok _ (List.Forall₂.flip (hp.routes.imp fun r t hr =>
        mapM_ok _ (List.Forall₂.flip (hr.imp fun _ _ hl => idOf_ok ag.lNames hl))))
    change (f.2.mapM (fun r => r.mapM (idOf W.links)) >>= fun routes => Except.ok ((e.1.1, e.1.2), routes) : M _) = _
    rw [this]; rfl
  rw [h1]
  show Except.ok (makeStore S) = _
  congr 1
  unfold makeStore
  suffices H : ∀ (rest pre : Store), ((pre ++ rest).map Prod.fst).Nodup →
      rest.foldl (fun T e => if e.1 ∈ T.map Prod.fst then T else T ++ [e]) pre = pre ++ rest from H S [] hk2
  intro rest
  induction rest with
  | nil => intro pre _; simp
  | cons e rest ih =>
    intro pre hp
    have hx : e.1 ∉ pre.map Prod.fst := by
      rw [List.map_append, List.nodup_append] at hp
      intro hm
      exact hp.2.2 e.1 hm e.1 (by simp) rfl
    rw [List.foldl_cons, if_neg hx, ih (pre ++ [e]) (by simpa using hp)]
    simp

/-- **C119.** A node name that is not in the world raises `KeyError`. -/
theorem C119_unknown {W : Names} (h : Names.Built W) {f : (String × String) × List (List String)} (D : NameDict)
    (hf : f.1.1 ∉ W.nodes) : namesIds W.nodes W.links (f :: D) = .error .keyError := by
  unfold namesIds namesPair
  rw [List.foldlM_cons, idOf_unknown (Names.C117_agree h).nNames hf]; rfl

/-- **C119.** If every call that names a vehicle adds one vehicle, `VEHICLES` has the vehicles in the order of the
engine. -/
theorem C119_order {W : Wrap} (h : OneReach W) : InOrder W := by
  induction h with
  | new fl tmax deltaN tau duoTime duoWeight noise hardDet gradual noCyclic adjustCap logMode ttInterval => rfl
  | step h s a ih => exact step_order h.toReach.inv ih s a

/-- In every call without exception a user's name comes with one vehicle. -/
def wOne (W : Wrap) : List WCmd → Bool
  | [] => true
  | c :: cs => match wApply W c with
    | some V => (V.names.all (fun s => decide (s ∈ W.names)) || decide (V.c.g.nVehs = W.c.g.nVehs + 1)) && wOne V cs
    | none => true

theorem wOne_reach {cs : List WCmd} {W W' : Wrap} (hr : OneReach W) (hn : ∀ c ∈ cs, c.Named NotNumber)
    (h1 : wOne W cs = true) (h : wRun W cs = some W') : OneReach W' := by
  induction cs generalizing W with
  | nil => rw [← Option.some.inj h]; exact hr
  | cons c cs ih =>
    unfold wRun at h
    rw [Option.bind_eq_some_iff] at h
    obtain ⟨V, h2, h3⟩ := h
    unfold wOne at h1
    rw [h2] at h1
    simp only [Bool.and_eq_true, Bool.or_eq_true] at h1
    refine ih (.step hr (wApply_step (hn c List.mem_cons_self) h2) ?_) (fun d hd => hn d (List.mem_cons_of_mem _ hd))
      h1.2 h3
    intro s hs hs2 _
    rcases h1.1 with h4 | h4
    · exact absurd (of_decide_eq_true (List.all_eq_true.1 h4 s hs)) hs2
    · exact of_decide_eq_true h4

/-- A concrete case for the order of vehicles: three vehicles, the second with a name. -/
theorem C119_case_order : ∃ W, OneReach W ∧ W.names = ["0", "truck", "2"] ∧ W.c.g.nVehs = 3 := by
  have h : wObs (wRun (wNew id 100 5 1) wDemo) (fun W => decide (W.names = ["0", "truck", "2"] ∧ W.c.g.nVehs = 3)) =
    true := by decide +kernel
  obtain ⟨W, e, h1⟩ := wObs_ok h
  exact ⟨W, wOne_reach (.new ..) wDemo_named (by decide +kernel) e, of_decide_eq_true h1⟩

/-- **C119.** In exact arithmetic a call of `addVehicle` adds one vehicle. -/
theorem C119_one {W W' : Wrap} (h : WReach NotNumber W) (hfl : W.c.g.fl = id) (hdt : 0 < W.c.g.deltaT)
    (hdn : 0 < W.c.g.deltaN) {t : ℚ} (ht : 0 ≤ t) {orig dest : ℕ} {prefer : List ℕ} {s : String} {fuel : ℕ}
    (hf : 2 ≤ fuel) (hs : NotNumber s) (e : W.addVehicle t orig dest prefer (some s) fuel = some (.ok W')) :
    W'.c.g.nVehs = W.c.g.nVehs + 1 := by
  by_cases hm : s ∈ W.names
  · rw [C108_used h hm] at e; simp at e
  · obtain ⟨V, h1, h2, _⟩ := C108_one h hfl hdt hdn ht (orig := orig) (dest := dest) (prefer := prefer) hf
      (name := some s) (fun x hx => by cases hx; exact ⟨hs, hm⟩)
    rw [h1] at e
    obtain rfl : V = W' := by simpa using e
    rw [h2]; rfl

/-- **C119.** With `VEHICLES` in the order of the engine, `route_log` and `cost_log` have for each vehicle under its name
its own route and cost. -/
theorem C119_log {W : Wrap} (h : WReach NotNumber W) (ho : InOrder W) {links : List String} {routes : List (List ℕ)}
    {cost : List ℚ} (hn : routes.length = W.c.g.nVehs) (hr : ∀ r ∈ routes, ∀ l ∈ r, l < links.length) :
    (∃ D, routeLog links (W.vehs.map Prod.fst) (toCsr routes).1 (toCsr routes).2 = .ok D ∧
      D.map Prod.fst = W.names ∧ List.Forall₂ (fun r (e : String × List String) => SameRoute links r e.2) routes D) ∧
    costLog (W.vehs.map Prod.fst) cost = W.names.mapIdx (fun i s => (s, cost.getD i 0)) := by
  have i := h.inv
  have hv : W.vehs.map Prod.fst = W.names := by rw [show W.vehs = _ from ho, List.zipIdx_map_fst]
  have hnd : W.names.Nodup := by
    rw [List.nodup_iff_injective_get]
    intro a b e
    exact Fin.ext (i.ok.distinct a b _ (List.getElem?_eq_getElem a.2) (by
      rw [List.getElem?_eq_getElem b.2]; exact congrArg some e.symm))
  have hlen : W.names.length = routes.length := by rw [hn, i.len]
  rw [hv]
  constructor
  · obtain ⟨ts, hts⟩ := sameRoutes_exists hr
    have htl := hts.length_eq
    have hz : (W.names.zip ts).map Prod.fst = W.names := List.map_fst_zip (by omega)
    refine ⟨W.names.zip ts, ?_, hz, forall₂_of_get (by simp; omega) fun k h1 h2 => ?_⟩
    · unfold routeLog
      have := foldlM_dict (fun p : String × ℕ => (do
        let r ← (slice (toCsr routes).1 ((toCsr routes).2.getD p.2 0) ((toCsr routes).2.getD (p.2 + 1) 0)).mapM
          (nameOf links)
        .ok (p.1, r) : M (String × List String))) (xs := W.names.zipIdx) (ys := W.names.zip ts) ?_ (by rw [hz]; exact hnd)
      · rw [← this]
        congr 1
        funext D p
        cases (slice (toCsr routes).1 ((toCsr routes).2.getD p.2 0) ((toCsr routes).2.getD (p.2 + 1) 0)).mapM
          (nameOf links) <;> rfl
      · refine forall₂_of_get (by simp; omega) fun k h1 h2 => ?_
        have hk : k < routes.length := by rw [List.length_zipIdx] at h1; omega
        rw [List.getElem_zipIdx, List.getElem_zip, toCsr_eq]
        simp only [Nat.zero_add]
        obtain ⟨a, _⟩ := slice_offs routes [] k hk
        simp only [List.nil_append, List.length_nil] at a
        rw [a]
        have hg : routes.getD k [] = routes[k] := by
          rw [List.getD_eq_getElem?_getD, List.getElem?_eq_getElem hk]; rfl
        rw [hg]
        have hroute : SameRoute links routes[k] (ts[k]'(by omega)) := (List.forall₂_iff_get.1 hts).2 k hk (by omega)
        rw [mapM_ok _ (hroute.imp fun _ _ h => nameOf_ok h)]; rfl
    · rw [List.getElem_zip]
      exact (List.forall₂_iff_get.1 hts).2 k h1 (by omega)
  · unfold costLog
    have hk : (W.names.zipIdx.map Prod.fst).Nodup := by rw [List.zipIdx_map_fst]; exact hnd
    have H : ∀ (rest : List (String × ℕ)) (pre : List (String × ℚ)), (pre.map Prod.fst ++ rest.map Prod.fst).Nodup →
        rest.foldl (fun D p => dSet D p.1 (cost.getD p.2 0)) pre =
          pre ++ rest.map (fun p => (p.1, cost.getD p.2 0)) := by
      intro rest
      induction rest with
      | nil => intro pre _; simp
      | cons p rest ih =>
        intro pre hp
        have hx : p.1 ∉ pre.map Prod.fst := by
          rw [List.nodup_append] at hp
          intro hm
          exact hp.2.2 p.1 hm p.1 (by simp) rfl
        rw [List.foldl_cons, dSet_new _ hx, ih _ (by simpa using hp)]
        simp
    rw [H _ [] (by simpa using hk), List.nil_append]
    apply List.ext_getElem (by simp)
    intro k h1 h2
    simp

/-- **C119, finding.** With rounding `addVehicle` can make two vehicles and renames the first of them, which moves it to the
end of `VEHICLES`: the log then has the route of vehicle "car" under the name "1" and the other way round. -/
theorem C119_log_false : ∃ W : Wrap, WReach NotNumber W ∧ FlOK W.c.g.fl ∧ W.names = ["car", "1"] ∧
    routeLog ["a", "b"] (W.vehs.map Prod.fst) (toCsr [[0], [1]]).1 (toCsr [[0], [1]]).2 =
      .ok [("1", ["a"]), ("car", ["b"])] := by
  have h : wObs (wRun (wNew coarse 100 4 1) (wRoad ++ [.vehicle (18/5) 0 2 (some "car")]))
      (fun W => decide (W.names = ["car", "1"] ∧ W.vehs = [("1", 1), ("car", 0)])) = true := by decide +kernel
  obtain ⟨W, e, h1⟩ := wObs_ok h
  have hn : ∀ c ∈ wRoad ++ [WCmd.vehicle (18/5) 0 2 (some "car")], c.Named NotNumber := by
    intro c hc
    rcases List.mem_append.1 hc with h | h
    · exact wRoad_named _ c h
    · rw [List.mem_singleton] at h
      subst h
      exact notNumber_of_char (c := 'c') (by decide) (by decide)
  obtain ⟨h2, h3⟩ := of_decide_eq_true h1
  refine ⟨W, wRun_reach (wNew_reach NotNumber coarse 100 4 1) hn e, ?_, h2, ?_⟩
  · rw [wRun_fl (wNew_reach _ _ _ _ _) hn e]; exact coarse_ok
  · rw [h3]; decide +kernel

end UX.Cpp
