import Verif.Spec.Osm2
import Verif.Proofs.Osm
import Mathlib.Algebra.Order.Ring.Rat
import Mathlib.Tactic.NormNum
import Mathlib.Tactic.Linarith

/-!
# C118: the second importer of OpenStreetMap data
-/

namespace UX
namespace Osm2
open Spec Osm

/-! ## Nodes -/

/-- What holds of the nodes after the points `seen`. -/
structure NInv (rnd : ℚ × ℚ → ℚ × ℚ) (seen : List (ℚ × ℚ)) (S : Net) : Prop where
  get : ∀ e ∈ S.map, ∃ q, S.nodes[e.2]? = some q ∧ rnd q = e.1
  key : ∀ p ∈ seen, rnd p ∈ S.map.map Prod.fst
  from_ : ∀ q ∈ S.nodes, q ∈ seen
  all : ∀ i q, S.nodes[i]? = some q → (rnd q, i) ∈ S.map

theorem NInv.add {rnd : ℚ × ℚ → ℚ × ℚ} {seen : List (ℚ × ℚ)} {S : Net} (h : NInv rnd seen S) (p : ℚ × ℚ) :
    NInv rnd (seen ++ [p]) (addPoint rnd S p) := by
  unfold addPoint
  split
  · rename_i c
    refine ⟨h.get, fun q hq => ?_, fun q hq => List.mem_append_left _ (h.from_ q hq), h.all⟩
    rcases List.mem_append.1 hq with hq | hq
    · exact h.key q hq
    · rw [List.mem_singleton] at hq; subst hq; exact c
  · rename_i c
    refine ⟨fun e he => ?_, fun q hq => ?_, fun q hq => ?_, fun i q hi => ?_⟩
    · rcases dSet_mem he with rfl | he
      · exact ⟨p, by simp, rfl⟩
      · obtain ⟨q, h1, h2⟩ := h.get e he
        refine ⟨q, ?_, h2⟩
        change (S.nodes ++ [p])[e.2]? = some q
        rw [List.getElem?_append_left (List.getElem?_eq_some_iff.1 h1).1]; exact h1
    · change rnd q ∈ (dSet S.map (rnd p) S.nodes.length).map Prod.fst
      rw [dSet_keys]
      rcases List.mem_append.1 hq with hq | hq
      · exact .inr (h.key q hq)
      · rw [List.mem_singleton] at hq; subst hq; exact .inl rfl
    · rcases List.mem_append.1 hq with hq | hq
      · exact List.mem_append_left _ (h.from_ q hq)
      · exact List.mem_append_right _ hq
    · change (S.nodes ++ [p])[i]? = some q at hi
      change (rnd q, i) ∈ dSet S.map (rnd p) S.nodes.length
      rw [List.getElem?_append] at hi
      split at hi
      · have := h.all i q hi
        exact dSet_keep this (fun e => c (e ▸ List.mem_map_of_mem this))
      · rename_i hge
        have hi0 : i - S.nodes.length = 0 := by
          have := (List.getElem?_eq_some_iff.1 hi).1
          simpa using this
        rw [hi0] at hi
        obtain rfl : p = q := by simpa using hi
        have hi' : i = S.nodes.length := by omega
        subst hi'
        obtain ⟨v, hv⟩ := dGet_some ((dSet_keys S.map (rnd p) S.nodes.length (rnd p)).2 (.inl rfl))
        have hm := dGet_mem hv
        rcases dSet_mem hm with e | e
        · rw [Prod.mk.injEq] at e; rw [e.2] at hm; exact hm
        · exact absurd (List.mem_map_of_mem (f := Prod.fst) e) c

/-- The end points of the roads. -/
def points (roads : List Road) : List (ℚ × ℚ) := roads.flatMap (fun r => [r.a, r.b])

theorem extract_inv (rnd : ℚ × ℚ → ℚ × ℚ) (roads : List Road) : NInv rnd (points roads) (extractNet rnd roads) := by
  unfold extractNet
  suffices H : ∀ (rest : List Road) (seen : List (ℚ × ℚ)) (S : Net), NInv rnd seen S →
      NInv rnd (seen ++ points rest) (rest.foldl (fun S r => addPoint rnd (addPoint rnd S r.a) r.b) S) by
    simpa using H roads [] _ ⟨by simp, by simp, by simp, by simp⟩
  intro rest
  induction rest with
  | nil => intro seen S h; simpa [points] using h
  | cons r rest ih =>
    intro seen S h
    have := ih _ _ ((h.add r.a).add r.b)
    simpa [points] using this

theorem NInv.at {rnd : ℚ × ℚ → ℚ × ℚ} {seen : List (ℚ × ℚ)} {S : Net} (h : NInv rnd seen S) {p : ℚ × ℚ} (hp : p ∈ seen) :
    At rnd S.nodes (nodeId rnd S p) p := by
  obtain ⟨v, hv⟩ := dGet_some (h.key p hp)
  obtain ⟨q, h1, h2⟩ := h.get _ (dGet_mem hv)
  unfold nodeId
  rw [hv]
  exact ⟨q, h1, h2⟩

/-- C118: every end of a road is a node (up to rounding); two ends are the same node exactly if they are equal after
rounding; and every node is the end of a road. -/
theorem C118_nodes (c : Settings) (roads : List Road) :
    (∀ p ∈ points roads, At c.rnd (importAll c roads).1 (nodeId c.rnd (extractNet c.rnd roads) p) p) ∧
    (∀ p ∈ points roads, ∀ q ∈ points roads, nodeId c.rnd (extractNet c.rnd roads) p =
      nodeId c.rnd (extractNet c.rnd roads) q ↔ c.rnd p = c.rnd q) ∧
    ∀ q ∈ (importAll c roads).1, q ∈ points roads := by
  have h := extract_inv c.rnd roads
  refine ⟨fun p hp => h.at hp, fun p hp q hq => ⟨fun e => ?_, fun e => ?_⟩, h.from_⟩
  · obtain ⟨x, h1, h2⟩ := h.at hp
    obtain ⟨y, h3, h4⟩ := h.at hq
    rw [e, h3] at h1
    cases h1
    rw [← h2, h4]
  · unfold nodeId; rw [e]

/-! ## Settings per road type -/

theorem dSet_keys_list {β : Type} (d : List (String × β)) (k : String) (v : β) :
    ∃ x, (dSet d k v).map Prod.fst = d.map Prod.fst ++ x := by
  induction d with
  | nil => exact ⟨[k], rfl⟩
  | cons p r ih =>
    unfold dSet
    split
    · rename_i e; exact ⟨[], by simp [e]⟩
    · obtain ⟨x, hx⟩ := ih; exact ⟨x, by simp [hx]⟩

theorem override_keys {α : Type} (user : List (String × α)) : ∀ d : List (String × α),
    ∃ x, (override d user).map Prod.fst = d.map Prod.fst ++ x := by
  unfold override
  induction user with
  | nil => intro d; exact ⟨[], by simp⟩
  | cons p r ih =>
    intro d
    obtain ⟨x, hx⟩ := dSet_keys_list d p.1 p.2
    obtain ⟨y, hy⟩ := ih (dSet d p.1 p.2)
    exact ⟨x ++ y, by rw [List.foldl_cons, hy, hx, List.append_assoc]⟩

/-- Searching a dictionary by a property of keys. -/
theorem find_key {α : Type} (f : String → Bool) (k : String) : ∀ (d : List (String × α)) (ks : List String),
    d.map Prod.fst = ks → ks.find? f = some k →
    (d.find? (fun p => f p.1)).map Prod.snd = (d.find? (fun p => decide (p.1 = k))).map Prod.snd := by
  intro d
  induction d with
  | nil => intro ks h1 h2; subst h1; simp at h2
  | cons p r ih =>
    intro ks h1 h2
    subst h1
    rw [List.map_cons, List.find?_cons] at h2
    rw [List.find?_cons, List.find?_cons]
    cases hf : f p.1 with
    | true =>
      rw [hf] at h2
      have : p.1 = k := by simpa using h2
      simp [this]
    | false =>
      rw [hf] at h2
      have hk := List.find?_some h2
      have : p.1 ≠ k := by intro e; rw [e, hk] at hf; simp at hf
      simp only [decide_eq_false this]
      exact ih _ rfl h2

/-- C118: for a road of one of the eight types, and for its junctions (`_link`), the entry of that type is used, with the
value of the user if there is one, whatever else the user set. -/
theorem C118_types {α : Type} (d user : List (String × α)) (hd : d.map Prod.fst = typeNames ++ ["others"]) :
    ∀ t ∈ typeNames, typeEntry (override d user) t = dGet (override d user) t ∧
      typeEntry (override d user) (t ++ "_link") = dGet (override d user) t := by
  obtain ⟨x, hx⟩ := override_keys user d
  rw [hd] at hx
  have key : ∀ t s : String, (typeNames ++ ["others"]).find? (fun k => decide (k.toList <:+: s.toList)) = some t →
      typeEntry (override d user) s = dGet (override d user) t := by
    intro t s h
    unfold typeEntry dGet
    refine find_key (fun k => decide (k.toList <:+: s.toList)) t _ _ hx ?_
    rw [List.find?_append, h]; rfl
  intro t ht
  refine ⟨key t t ?_, key t _ ?_⟩
  · revert t; decide +kernel
  · revert t; decide +kernel

/-- The value of the user, the last one if a type is given twice, else the default. -/
theorem dGet_dSet {β : Type} (d : List (String × β)) (k : String) (v : β) (t : String) :
    dGet (dSet d k v) t = if t = k then some v else dGet d t := by
  unfold dGet
  induction d with
  | nil =>
    by_cases h : k = t
    · simp [dSet, h]
    · simp [dSet, h, Ne.symm h]
  | cons p r ih =>
    unfold dSet
    by_cases h1 : p.1 = k
    · rw [if_pos h1]
      by_cases h2 : t = k
      · rw [if_pos h2]; simp [h2]
      · rw [if_neg h2]
        simp [Ne.symm h2, h1]
    · rw [if_neg h1, List.find?_cons]
      by_cases h3 : p.1 = t
      · rw [if_neg (by rw [← h3]; exact h1)]; simp [h3]
      · simp only [decide_eq_false h3]
        rw [ih, List.find?_cons]
        simp only [decide_eq_false h3]

/-- C118: the entry used is the value that the user gave for the type last, else the default. -/
theorem C118_value {α : Type} (d user : List (String × α)) (t : String) :
    dGet (override d user) t = setting d user t := by
  have hl : ∀ d : List (String × α), d.lookup t = dGet d t := by
    intro d
    unfold dGet
    induction d with
    | nil => rfl
    | cons p r ih =>
      rw [List.lookup_cons, List.find?_cons]
      by_cases e : t = p.1
      · simp [e]
      · rw [show (t == p.1) = false from by simp [e], decide_eq_false (Ne.symm e)]; exact ih
  unfold setting override
  rw [hl, hl]
  induction user generalizing d with
  | nil => rfl
  | cons p r ih =>
    rw [List.foldl_cons, ih, dGet_dSet, List.reverse_cons]
    have happ : dGet (r.reverse ++ [p]) t = (dGet r.reverse t).or (if t = p.1 then some p.2 else none) := by
      unfold dGet
      rw [List.find?_append]
      cases h : List.find? (fun q => decide (q.1 = t)) r.reverse with
      | none =>
        by_cases e : t = p.1
        · simp [e]
        · simp [e, Ne.symm e]
      | some q => rfl
    rw [happ]
    cases dGet r.reverse t with
    | none => by_cases e : t = p.1 <;> simp [e]
    | some _ => rfl

/-! ## Links -/

theorem roadTypes_length (ends : List (ℕ × ℕ)) (hw : List Cell) (n : ℕ) : (roadTypes ends hw n).1.length = n := by
  induction n with
  | zero => rfl
  | succ n ih => unfold roadTypes; simp [ih]

theorem roadType_later (ends : List (ℕ × ℕ)) (hw : List Cell) (i j : ℕ) (h : i ≠ j) :
    (roadType ends hw i).2[j]? = hw[j]? := by
  unfold roadType
  split
  · rfl
  · split
    · rw [List.getElem?_set_ne h]
    · rfl
  · dsimp only
    split_ifs
    · rw [List.getElem?_set_ne h]
    · split
      · rw [List.getElem?_set_ne h]
      · rfl
    · rfl

theorem roadTypes_later (ends : List (ℕ × ℕ)) (hw : List Cell) (n j : ℕ) (h : n ≤ j) :
    (roadTypes ends hw n).2[j]? = hw[j]? := by
  induction n with
  | zero => rfl
  | succ n ih =>
    unfold roadTypes
    dsimp only
    rw [roadType_later _ _ _ _ (by omega)]
    exact ih (by omega)

/-- A road keeps its type. -/
theorem roadTypes_keep (ends : List (ℕ × ℕ)) (hw : List Cell) (n i : ℕ) (hi : i < n) {s : String}
    (h : hw[i]? = some (.str s)) : (roadTypes ends hw n).1[i]? = some s := by
  induction n with
  | zero => omega
  | succ n ih =>
    unfold roadTypes
    dsimp only
    have hl := roadTypes_length ends hw n
    rcases Nat.lt_succ_iff_lt_or_eq.1 hi with h1 | rfl
    · rw [List.getElem?_append_left (by omega)]; exact ih h1
    · rw [List.getElem?_append_right (by omega), hl, Nat.sub_self]
      have hg : (roadTypes ends hw i).2.getD i .none = .str s := by
        rw [List.getD_eq_getElem?_getD, roadTypes_later _ _ _ _ le_rfl, h]; rfl
      unfold roadType
      rw [hg]; rfl

theorem halfLanes_spec (n : ℤ) : 1 ≤ halfLanes n ∧ (1 ≤ n → n ≤ 2 * halfLanes n + 1 ∧ (2 ≤ n → 2 * halfLanes n ≤ n)) := by
  unfold halfLanes
  rcases lt_or_ge n 0 with h | h
  · have h2 : n.tdiv 2 ≤ 0 := by
      obtain ⟨k, rfl⟩ : ∃ k : ℕ, n = -(k : ℤ) := ⟨n.natAbs, by omega⟩
      rw [Int.neg_tdiv, Int.tdiv_eq_ediv_of_nonneg (by omega)]
      omega
    rw [if_pos h2]
    omega
  · rw [Int.tdiv_eq_ediv_of_nonneg h]
    split_ifs <;> omega

theorem linkCalls_ok (c : Settings) {nodes : List (ℚ × ℚ)} {r : Road} {s e : ℕ} (hs : At c.rnd nodes s r.a)
    (he : At c.rnd nodes e r.b) (t : String) (ht : ∀ u, r.highway = .str u → t = u) :
    RoadOK c nodes r (linkCalls r s e (roadSpeed c.num (override speedDict c.speeds) c.ignore r.maxspeed t)
      (roadLanes c.int (override lanesDict c.lanes) c.ignore r.oneway r.lanes t)) := by
  generalize hds : override speedDict c.speeds = ds
  generalize hdl : override lanesDict c.lanes = dl
  have hss : ∀ u, HasType r u → c.ignore = true ∨ r.maxspeed = .none →
      setting speedDict c.speeds u = some (roadSpeed c.num ds c.ignore r.maxspeed t) := by
    rintro u ⟨hu, hh⟩ hi
    have h1 := C118_types speedDict c.speeds rfl u hu
    rw [C118_value, hds] at h1
    have h2 : typeEntry ds t = setting speedDict c.speeds u := by
      rcases hh with hh | hh
      · rw [ht _ hh]; exact h1.1
      · rw [ht _ hh]; exact h1.2
    have h3 : (setting speedDict c.speeds u).isSome := by
      unfold setting
      rw [Option.isSome_or, Bool.or_eq_true]
      right
      exact (show ∀ u ∈ typeNames, (List.lookup u speedDict).isSome = true by decide +kernel) u hu
    have h4 : roadSpeed c.num ds c.ignore r.maxspeed t = (typeEntry ds t).getD ((dGet ds "others").getD 0) := by
      unfold roadSpeed
      rcases hi with hi | hi
      · rw [hi]; cases r.maxspeed <;> rfl
      · rw [hi]
    rw [h4, h2]
    cases hx : setting speedDict c.speeds u with
    | none => rw [hx] at h3; simp at h3
    | some v => rfl
  have hll : ∀ u, HasType r u → c.ignore = true ∨ r.lanes = .none → ∃ v, setting lanesDict c.lanes u = some v ∧
      roadLanes c.int dl c.ignore r.oneway r.lanes t = if r.oneway then v else v * 2 := by
    rintro u ⟨hu, hh⟩ hi
    have h1 := C118_types lanesDict c.lanes rfl u hu
    rw [C118_value, hdl] at h1
    have h2 : typeEntry dl t = setting lanesDict c.lanes u := by
      rcases hh with hh | hh
      · rw [ht _ hh]; exact h1.1
      · rw [ht _ hh]; exact h1.2
    have h3 : (setting lanesDict c.lanes u).isSome := by
      unfold setting
      rw [Option.isSome_or, Bool.or_eq_true]
      right
      exact (show ∀ u ∈ typeNames, (List.lookup u lanesDict).isSome = true by decide +kernel) u hu
    obtain ⟨v, hv⟩ := Option.isSome_iff_exists.1 h3
    rw [hv] at h2
    refine ⟨v, hv, ?_⟩
    unfold roadLanes
    rcases hi with hi | hi
    · rw [hi]; cases r.lanes <;> simp only [h2]
    · rw [hi]; simp only [h2]
  have hsp : ∀ s v, c.ignore = false → r.maxspeed = .str s → c.num s = some v →
      roadSpeed c.num ds c.ignore r.maxspeed t * (18 / 5) = v := by
    intro s v h1 h2 h3
    unfold roadSpeed
    rw [h1, h2]
    simp only [h3]
    exact div_mul_cancel₀ _ (by norm_num)
  have hla : ∀ s n, c.ignore = false → r.lanes = .str s → c.int s = some n →
      roadLanes c.int dl c.ignore r.oneway r.lanes t = n := by
    intro s n h1 h2 h3
    unfold roadLanes
    rw [h1, h2]
    simp only [h3]
  unfold linkCalls
  split
  · rename_i ho
    refine .one _ ho hs he rfl rfl hla hsp hss (fun u hu hi => ?_)
    obtain ⟨v, h1, h2⟩ := hll u hu hi
    rw [if_pos ho] at h2
    rw [h1]; exact congrArg some h2.symm
  · rename_i ho
    refine .two _ _ (by simpa using ho) hs he rfl rfl rfl ⟨rfl, rfl, rfl, rfl, rfl⟩ (halfLanes_spec _).1 ?_ hsp hss ?_
    · intro s n h1 h2 h3 h4
      have := (halfLanes_spec n).2 h4
      simpa only [hla s n h1 h2 h3] using this
    · intro u n hu hi hn h1
      obtain ⟨v, h2, h3⟩ := hll u hu hi
      rw [if_neg ho] at h3
      rw [h2] at hn
      cases hn
      change halfLanes (roadLanes c.int dl c.ignore r.oneway r.lanes t) = n
      rw [h3]
      have h5 := (halfLanes_spec (n * 2)).2 (by omega)
      omega

/-- C118: the links come road by road in order, those of each road as `RoadOK` says. -/
theorem C118_links (c : Settings) (roads : List Road) : ∃ parts : List (List LinkCall),
    (importAll c roads).2 = parts.flatten ∧ List.Forall₂ (RoadOK c (importAll c roads).1) roads parts := by
  have h := extract_inv c.rnd roads
  have hlen := roadTypes_length (roads.map (fun r => (nodeId c.rnd (extractNet c.rnd roads) r.a,
    nodeId c.rnd (extractNet c.rnd roads) r.b))) (roads.map Road.highway) roads.length
  have hkeep := roadTypes_keep (roads.map (fun r => (nodeId c.rnd (extractNet c.rnd roads) r.a,
    nodeId c.rnd (extractNet c.rnd roads) r.b))) (roads.map Road.highway) roads.length
  unfold importAll attach
  dsimp only
  generalize (roadTypes _ _ _).1 = types at hlen hkeep
  generalize hS : extractNet c.rnd roads = S at h
  refine ⟨_, List.flatMap_def, ?_⟩
  have hp : ∀ r ∈ roads, r.a ∈ points roads ∧ r.b ∈ points roads := fun r hr =>
    ⟨List.mem_flatMap.2 ⟨r, hr, by simp⟩, List.mem_flatMap.2 ⟨r, hr, by simp⟩⟩
  have key : ∀ (rs : List Road) (ts : List String), (∀ r ∈ rs, r ∈ roads) → ts.length = rs.length →
      (∀ (i : ℕ) (r : Road) (s : String), rs[i]? = some r → r.highway = .str s → ts[i]? = some s) →
      List.Forall₂ (RoadOK c S.nodes) rs ((rs.zip ts).map (fun p => linkCalls p.1 (nodeId c.rnd S p.1.a)
        (nodeId c.rnd S p.1.b) (roadSpeed c.num (override speedDict c.speeds) c.ignore p.1.maxspeed p.2)
        (roadLanes c.int (override lanesDict c.lanes) c.ignore p.1.oneway p.1.lanes p.2))) := by
    intro rs
    induction rs with
    | nil => intro ts _ _ _; simp
    | cons r rs ih =>
      intro ts hr ht hk
      cases ts with
      | nil => simp at ht
      | cons t ts =>
        rw [List.zip_cons_cons, List.map_cons]
        have hrr := hp r (hr r List.mem_cons_self)
        exact .cons (linkCalls_ok c (h.at hrr.1) (h.at hrr.2) t (fun u hu => by
            have := hk 0 r u rfl hu; simpa using this))
          (ih ts (fun x hx => hr x (List.mem_cons_of_mem _ hx)) (by simpa using ht)
            (fun i x u hx hu => hk (i + 1) x u (by simpa using hx) hu))
  refine key roads types (fun _ h => h) hlen (fun i r s hr hs => hkeep i (List.getElem?_eq_some_iff.1 hr).1 ?_)
  rw [List.getElem?_map, hr, ← hs]; rfl

/-! ## Capacities of nodes -/

theorem forall₂_left {α β : Type} {R : α → β → Prop} {xs : List α} {ys : List β} (h : List.Forall₂ R xs ys) {x : α}
    (hx : x ∈ xs) : ∃ y ∈ ys, R x y := by
  induction h with
  | nil => simp at hx
  | cons h1 _ ih =>
    rcases List.mem_cons.1 hx with rfl | hx
    · exact ⟨_, List.mem_cons_self, h1⟩
    · obtain ⟨y, hy, h2⟩ := ih hx
      exact ⟨y, List.mem_cons_of_mem _ hy, h2⟩

theorem foldl_max_spec (r : List ℤ) : ∀ x : ℤ, (r.foldl max x = x ∨ r.foldl max x ∈ r) ∧ x ≤ r.foldl max x ∧
    ∀ y ∈ r, y ≤ r.foldl max x := by
  induction r with
  | nil => intro x; simp
  | cons a r ih =>
    intro x
    obtain ⟨h1, h2, h3⟩ := ih (max x a)
    rw [List.foldl_cons]
    refine ⟨?_, le_trans (le_max_left _ _) h2, fun y hy => ?_⟩
    · rcases h1 with h1 | h1
      · rcases max_choice x a with e | e
        · left; rw [h1, e]
        · right; rw [h1, e]; exact List.mem_cons_self
      · exact .inr (List.mem_cons_of_mem _ h1)
    · rcases List.mem_cons.1 hy with rfl | hy
      · exact le_trans (le_max_right _ _) h2
      · exact h3 y hy

theorem maxOf_spec {l : List ℤ} (h : l ≠ []) : ∃ m, maxOf l = some m ∧ m ∈ l ∧ ∀ y ∈ l, y ≤ m := by
  cases l with
  | nil => exact absurd rfl h
  | cons x r =>
    obtain ⟨h1, h2, h3⟩ := foldl_max_spec r x
    refine ⟨_, rfl, ?_, fun y hy => ?_⟩
    · rcases h1 with h1 | h1
      · rw [h1]; exact List.mem_cons_self
      · exact List.mem_cons_of_mem _ h1
    · rcases List.mem_cons.1 hy with rfl | hy
      · exact h2
      · exact h3 y hy

/-- C118: `set_node_capacity` finds a link at every node and gives it 1.6 veh/s and two lanes per lane of the widest link
there. -/
theorem C118_capacity (c : Settings) (roads : List Road) {n : ℕ} (hn : n < (importAll c roads).1.length) :
    ∃ m : ℤ, nodeCapacity (importAll c roads).2 n = some ((m : ℚ) * (8 / 5), 2 * m) ∧
      (∃ l ∈ (importAll c roads).2, Touches n l ∧ l.lanes = m) ∧
      ∀ l ∈ (importAll c roads).2, Touches n l → l.lanes ≤ m := by
  have h := extract_inv c.rnd roads
  obtain ⟨q, hq⟩ : ∃ q, (importAll c roads).1[n]? = some q := ⟨_, List.getElem?_eq_getElem hn⟩
  have hseen := h.from_ q (List.mem_of_getElem? hq)
  obtain ⟨r, hr, hqr⟩ := List.mem_flatMap.1 hseen
  have hmap := h.all n q hq
  obtain ⟨parts, e, hF⟩ := C118_links c roads
  -- the number of an end point
  have hid : ∀ k, At c.rnd (importAll c roads).1 k q → k = n := by
    rintro k ⟨x, hx, ex⟩
    have h1 := h.all k x hx
    rw [ex] at h1
    -- both entries have the same key
    have hnod : ((extractNet c.rnd roads).map.map Prod.fst).Nodup := by
      unfold extractNet
      suffices H : ∀ (rest : List Road) (S : Net), (S.map.map Prod.fst).Nodup →
          ((rest.foldl (fun S r => addPoint c.rnd (addPoint c.rnd S r.a) r.b) S).map.map Prod.fst).Nodup from
        H roads _ (by simp)
      have hadd : ∀ (S : Net) (p : ℚ × ℚ), (S.map.map Prod.fst).Nodup → ((addPoint c.rnd S p).map.map Prod.fst).Nodup := by
        intro S p hS
        unfold addPoint
        split
        · exact hS
        · exact dSet_nodup _ _ _ hS
      intro rest
      induction rest with
      | nil => intro S hS; exact hS
      | cons r rest ih => intro S hS; exact ih _ (hadd _ _ (hadd _ _ hS))
    have := List.inj_on_of_nodup_map hnod h1 hmap rfl
    rw [Prod.mk.injEq] at this
    exact this.2
  have hex : ∃ l ∈ (importAll c roads).2, Touches n l := by
    have hpart : ∃ p ∈ parts, RoadOK c (importAll c roads).1 r p := by
      obtain ⟨p, hp, h2⟩ := forall₂_left hF hr
      exact ⟨p, hp, h2⟩
    obtain ⟨p, hp, hok⟩ := hpart
    simp only [List.mem_cons, List.not_mem_nil, or_false] at hqr
    cases hok with
    | one l ho ha hb =>
      refine ⟨l, by rw [e]; exact List.mem_flatten.2 ⟨_, hp, by simp⟩, ?_⟩
      rcases hqr with rfl | rfl
      · exact .inl (hid _ ha)
      · exact .inr (hid _ hb)
    | two l m ho ha hb =>
      refine ⟨l, by rw [e]; exact List.mem_flatten.2 ⟨_, hp, by simp⟩, ?_⟩
      rcases hqr with rfl | rfl
      · exact .inl (hid _ ha)
      · exact .inr (hid _ hb)
  have hmem : ∀ y, y ∈ ((importAll c roads).2.filter (fun l => decide (l.dst = n))).map LinkCall.lanes ++
      ((importAll c roads).2.filter (fun l => decide (l.src = n))).map LinkCall.lanes ↔
      ∃ l ∈ (importAll c roads).2, Touches n l ∧ l.lanes = y := by
    intro y
    simp only [List.mem_append, List.mem_map, List.mem_filter, decide_eq_true_eq]
    constructor
    · rintro (⟨l, ⟨hl, h1⟩, h2⟩ | ⟨l, ⟨hl, h1⟩, h2⟩)
      · exact ⟨l, hl, .inr h1, h2⟩
      · exact ⟨l, hl, .inl h1, h2⟩
    · rintro ⟨l, hl, h1 | h1, h2⟩
      · exact .inr ⟨l, ⟨hl, h1⟩, h2⟩
      · exact .inl ⟨l, ⟨hl, h1⟩, h2⟩
  obtain ⟨l0, hl0, ht0⟩ := hex
  obtain ⟨m, hm, hm1, hm2⟩ := maxOf_spec (List.ne_nil_of_mem ((hmem l0.lanes).2 ⟨l0, hl0, ht0, rfl⟩))
  refine ⟨m, ?_, (hmem m).1 hm1, fun l hl ht => hm2 _ ((hmem _).2 ⟨l, hl, ht, rfl⟩)⟩
  unfold nodeCapacity maxLanes
  rw [hm]
  simp only [Option.map_some, Option.some.injEq, Prod.mk.injEq]
  constructor
  · ring
  · ring

/-- C118, finding: a setting for a kind of junction of its own is never used: for a road "motorway_link" the entry
"motorway" comes first, whatever the user sets for "motorway_link". -/
theorem C118_key_false (v : ℤ) (user : List (String × ℤ)) (h : user = [("motorway_link", v)]) :
    typeEntry (override lanesDict user) "motorway_link" = some 3 := by
  subst h
  have := (C118_types lanesDict [("motorway_link", v)] rfl "motorway" (by decide)).2
  rw [show "motorway" ++ "_link" = "motorway_link" from rfl] at this
  rw [this]; rfl

/-- Conversions for the cases: only "60" and "4" are numbers. -/
def caseSettings (lanes : List (String × ℤ)) : Settings :=
  { rnd := id, num := fun s => if s = "60" then some 60 else none, int := fun s => if s = "5" then some 5 else none
    ignore := false, speeds := [], lanes := lanes }

/-- Three roads: a two-way road with data, a one-way trunk road without, a one-way road without a type. -/
def caseRoads : List Road :=
  [⟨(0, 0), (1, 0), 100, "a", .str "primary", .str "60", .str "5", false⟩,
   ⟨(1, 0), (2, 0), 100, "b", .str "trunk", .none, .none, true⟩,
   ⟨(2, 0), (0, 0), 200, "c", .none, .none, .none, true⟩]

/-- C118 is not vacuous: of the five lanes of road "a" each direction gets two; road "c" gets the type of "b", which
leads to it. -/
theorem C118_case : importAll (caseSettings []) caseRoads =
    ([(0, 0), (1, 0), (2, 0)],
     [⟨"a", 0, 1, 100, 50 / 3, 2⟩, ⟨"a-reverse", 1, 0, 100, 50 / 3, 2⟩, ⟨"b", 1, 2, 100, 200 / 9, 3⟩,
      ⟨"c", 2, 0, 200, 200 / 9, 3⟩]) := by
  decide +kernel

/-- C118, finding: the setting for other roads is divided between the directions of a two-way road, the setting of a road
type is not. -/
theorem C118_others_false :
    (importAll (caseSettings [("others", 4), ("service", 4)])
      [⟨(0, 0), (1, 0), 100, "a", .str "track", .none, .none, false⟩,
       ⟨(1, 0), (2, 0), 100, "b", .str "service", .none, .none, false⟩]).2.map LinkCall.lanes = [2, 2, 4, 4] := by
  decide +kernel

/-- C118, finding: the type of a road without type is estimated from the links at its first end only; a trunk road that
begins at its other end does not count. -/
theorem C118_type_false :
    (roadType [(0, 1), (1, 2)] [.none, .str "trunk"] 0).1 = "None" := by
  decide +kernel

end Osm2
end UX
