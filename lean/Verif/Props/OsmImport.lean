import Verif.Props.Osm

/-!
# C116: what `import_osm_data` makes of the downloaded graph
-/

namespace UX
namespace Osm
open Spec

theorem importNodes_aux (pos : ℕ → ℚ × ℚ) (es : List OEdge) : ∀ d : List (ℕ × ONode),
    (d.map Prod.fst).Nodup → (∀ p ∈ d, p.2 = ⟨p.1, (pos p.1).1, (pos p.1).2⟩) →
    let r := es.foldl (fun d e => match e.highway with
      | none => d
      | some _ => dSet (dSet d e.u ⟨e.u, (pos e.u).1, (pos e.u).2⟩) e.v ⟨e.v, (pos e.v).1, (pos e.v).2⟩) d
    (r.map Prod.fst).Nodup ∧ (∀ p ∈ r, p.2 = ⟨p.1, (pos p.1).1, (pos p.1).2⟩) ∧
    ∀ i, i ∈ r.map Prod.fst ↔ i ∈ d.map Prod.fst ∨ ∃ e ∈ es, e.highway ≠ none ∧ (e.u = i ∨ e.v = i) := by
  induction es with
  | nil => intro d h1 h2; exact ⟨h1, h2, fun i => by simp⟩
  | cons e r ih =>
    intro d h1 h2
    dsimp only
    rw [List.foldl_cons]
    cases hh : e.highway with
    | none =>
      dsimp only
      obtain ⟨a, b, c⟩ := ih d h1 h2
      refine ⟨a, b, fun i => (c i).trans (or_congr_right ⟨?_, ?_⟩)⟩
      · rintro ⟨x, hx, h⟩; exact ⟨x, List.mem_cons_of_mem _ hx, h⟩
      · rintro ⟨x, hx, h, h'⟩
        rcases List.mem_cons.1 hx with rfl | hx
        · exact absurd hh h
        · exact ⟨x, hx, h, h'⟩
    | some rt =>
      dsimp only
      obtain ⟨a, b, c⟩ := ih _ (dSet_nodup _ e.v ⟨e.v, (pos e.v).1, (pos e.v).2⟩ (dSet_nodup _ e.u
        ⟨e.u, (pos e.u).1, (pos e.u).2⟩ h1)) (fun p hp => by
          rcases dSet_mem hp with rfl | hp
          · rfl
          · rcases dSet_mem hp with rfl | hp
            · rfl
            · exact h2 p hp)
      refine ⟨a, b, fun i => (c i).trans ?_⟩
      rw [dSet_keys, dSet_keys]
      constructor
      · rintro ((rfl | rfl | h) | ⟨x, hx, h⟩)
        · exact .inr ⟨e, List.mem_cons_self, by simp [hh], .inr rfl⟩
        · exact .inr ⟨e, List.mem_cons_self, by simp [hh], .inl rfl⟩
        · exact .inl h
        · exact .inr ⟨x, List.mem_cons_of_mem _ hx, h⟩
      · rintro (h | ⟨x, hx, h, h'⟩)
        · exact .inl (.inr (.inr h))
        · rcases List.mem_cons.1 hx with rfl | hx
          · rcases h' with rfl | rfl
            · exact .inl (.inr (.inl rfl))
            · exact .inl (.inl rfl)
          · exact .inr ⟨x, hx, h, h'⟩

theorem importData_ids (dl : Defaults ℤ) (ds : Defaults ℚ) (pos : ℕ → ℚ × ℚ) (es : List OEdge) :
    (importData dl ds pos es).1.map ONode.id = (importNodes pos es).map Prod.fst := by
  unfold importData
  rw [List.map_map]
  refine List.map_congr_left (fun p hp => ?_)
  have := (importNodes_aux pos es [] (by simp) (by simp)).2.1 p hp
  simp only [Function.comp_apply, this]

/-- C116: the nodes of the result are the ends of the edges with a road type, each once and with its coordinates. -/
theorem C116_nodes (dl : Defaults ℤ) (ds : Defaults ℚ) (pos : ℕ → ℚ × ℚ) (es : List OEdge) :
    ((importData dl ds pos es).1.map ONode.id).Nodup ∧
    (∀ n ∈ (importData dl ds pos es).1, (n.x, n.y) = pos n.id) ∧
    ∀ i, (∃ n ∈ (importData dl ds pos es).1, n.id = i) ↔ ∃ e ∈ es, e.highway ≠ none ∧ (e.u = i ∨ e.v = i) := by
  obtain ⟨a, b, c⟩ := importNodes_aux pos es [] (by simp) (by simp)
  refine ⟨by rw [importData_ids]; exact a, fun n hn => ?_, fun i => ?_⟩
  · obtain ⟨p, hp, rfl⟩ := List.mem_map.1 hn
    rw [b p hp]
  · have := c i
    simp only [List.map_nil, List.not_mem_nil, false_or] at this
    rw [← this]
    change _ ↔ i ∈ (importNodes pos es).map Prod.fst
    rw [← importData_ids dl ds pos es, List.mem_map]

/-- C116: each edge with a road type gives one link, in order, from its first to its second end; its number of lanes and
its speed (in m/s) are those of the data, or else the default of `pick`, at least one lane. -/
theorem C116_links (dl : Defaults ℤ) (ds : Defaults ℚ) (pos : ℕ → ℚ × ℚ) (es : List OEdge) :
    List.Forall₂ (fun (e : OEdge) (l : OLink) => l.src = e.u ∧ l.dst = e.v ∧ l.name = e.name ∧
      ∃ r, e.highway = some r ∧ (∀ n, e.lanes = some n → l.lanes = n) ∧
        (e.lanes = none → l.lanes = max 1 (dl.pick r)) ∧ (∀ v, e.speed = some v → l.speed * (18 / 5) = v) ∧
        (e.speed = none → l.speed * (18 / 5) = ds.pick r))
      (es.filter (fun e => e.highway.isSome)) (importData dl ds pos es).2 := by
  change List.Forall₂ _ _ (es.filterMap (importLink dl ds))
  induction es with
  | nil => exact .nil
  | cons e r ih =>
    cases hh : e.highway with
    | none =>
      rw [List.filter_cons_of_neg (by simp [hh]), List.filterMap_cons_none (by simp [importLink, hh])]
      exact ih
    | some rt =>
      rw [List.filter_cons_of_pos (by simp [hh])]
      rw [List.filterMap_cons_some (b := _) (by simp only [importLink, hh]; rfl)]
      refine .cons ⟨rfl, rfl, rfl, rt, hh, fun n hn => ?_, fun hn => ?_, fun n hn => ?_, fun hn => ?_⟩ ih
      · simp only [hn]
      · simp only [hn]
        rcases lt_or_ge (dl.pick rt) 1 with h | h
        · rw [if_pos h, max_eq_left h.le]
        · rw [if_neg (not_lt.2 h), max_eq_right h]
      · simp only [hn]
        exact div_mul_cancel₀ _ (by norm_num)
      · simp only [hn]
        exact div_mul_cancel₀ _ (by norm_num)

/-- C116: the result is a network, so that the post-processing (C115) succeeds if no road is a loop. -/
theorem C116_sound (dl : Defaults ℤ) (ds : Defaults ℚ) (pos : ℕ → ℚ × ℚ) (es : List OEdge) :
    Sound (importData dl ds pos es) ∧
    ((∀ e ∈ es, e.u ≠ e.v) → ∀ (dist : ℚ × ℚ → ℚ × ℚ → ℚ), (∀ p q, dist p q = dist q p) → ∀ thr both k,
      ∃ N', postprocess dist thr both k (importData dl ds pos es) = .ok N' ∧ Sound N') := by
  obtain ⟨a, b, c⟩ := C116_nodes dl ds pos es
  have hof : ∀ l ∈ (importData dl ds pos es).2, ∃ e ∈ es, e.highway ≠ none ∧ l.src = e.u ∧ l.dst = e.v := by
    intro l hl
    obtain ⟨e, he, h⟩ := List.mem_filterMap.1 hl
    unfold importLink at h
    cases hh : e.highway with
    | none => rw [hh] at h; simp at h
    | some rt =>
      rw [hh] at h
      refine ⟨e, he, by simp [hh], ?_, ?_⟩ <;> · simp only [Option.some.injEq] at h; rw [← h]
  have hS : Sound (importData dl ds pos es) := by
    refine ⟨a, fun l hl => ?_, fun l hl => ?_⟩
    · obtain ⟨e, he, h, e1, _⟩ := hof l hl
      exact (c _).2 ⟨e, he, h, .inl e1.symm⟩
    · obtain ⟨e, he, h, _, e2⟩ := hof l hl
      exact (c _).2 ⟨e, he, h, .inr e2.symm⟩
  refine ⟨hS, fun hne dist hsym thr both k => ?_⟩
  obtain ⟨N', h1, h2, _⟩ := C115_network dist hsym thr both k hS (fun l hl => by
    obtain ⟨e, he, _, e1, e2⟩ := hof l hl
    rw [e1, e2]; exact hne e he)
  exact ⟨N', h1, h2⟩

/-- The road types that the importer knows and the argument that is meant for each. -/
def kinds {α : Type} : List (String × (Defaults α → α)) :=
  [("motorway", Defaults.motorway), ("trunk", Defaults.trunk), ("primary", Defaults.primary),
   ("secondary", Defaults.secondary), ("residential", Defaults.residential), ("tertiary", Defaults.tertiary)]

/-- C116: a road of one of the types trunk to tertiary gets the default of its type. -/
theorem C116_default {α : Type} (d : Defaults α) :
    ∀ k ∈ kinds (α := α), k.1 ≠ "motorway" → d.pick (.one k.1) = k.2 d ∧ d.pick (.many [k.1]) = k.2 d := by
  intro k hk
  simp only [kinds, List.mem_cons, List.not_mem_nil, or_false] at hk
  rcases hk with rfl | rfl | rfl | rfl | rfl | rfl
  · intro h; exact absurd rfl h
  all_goals
    intro _
    constructor <;>
    · unfold Defaults.pick
      simp only [show ∀ s t, RoadType.has (.one s) t = decide (t.toList <:+: s.toList) from fun _ _ => rfl,
        show ∀ s t, RoadType.has (.many s) t = decide (t ∈ s) from fun _ _ => rfl]
      rfl

/-- C116, finding: the default for motorways is never used for a motorway (the code tests for "mortorway"): a motorway or
a motorway junction gets the default of other roads, whatever the arguments are. -/
theorem C116_motorway_false {α : Type} (d : Defaults α) :
    d.pick (.one "motorway") = d.others ∧ d.pick (.one "motorway_link") = d.others ∧
    d.pick (.many ["motorway", "motorway_link"]) = d.others := by
  refine ⟨?_, ?_, ?_⟩ <;> rfl

/-- Three edges: a trunk road with data, a motorway without, and one without road type. -/
def downloaded : List OEdge :=
  [⟨1, 2, some (.one "trunk"), "A-7", some 4, some 72⟩, ⟨2, 3, some (.one "motorway"), "", none, none⟩,
   ⟨3, 4, none, "", none, none⟩]

/-- C116 is not vacuous; with the default arguments of the code the motorway has one lane and 30 km/h. -/
theorem C116_case :
    importData ⟨3, 3, 2, 2, 1, 1, 1⟩ ⟨100, 60, 50, 50, 30, 30, 30⟩ (fun i => (i, 0)) downloaded =
      ([⟨1, 1, 0⟩, ⟨2, 2, 0⟩, ⟨3, 3, 0⟩], [⟨"A-7", 1, 2, 4, 20, 0⟩, ⟨"", 2, 3, 1, 25 / 3, 0⟩]) := by
  decide +kernel

end Osm
end UX
