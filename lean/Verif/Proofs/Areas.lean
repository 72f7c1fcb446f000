import Verif.Model.Areas
import Verif.Model.Reach
import Verif.Spec.Areas
import Verif.Proofs.Demand
import Mathlib.Logic.Relation
import Mathlib.Tactic.Push

/-!
# Nearest nodes and demand between areas
-/

namespace UX
open World Relation

/-- What the search for the nearest node has found after the nodes `ns`. -/
theorem nearest_fold (W : World) (x y : ℚ) (ns : List NodeId) : ∀ b : ℚ × Option NodeId,
    let r := ns.foldl (W.nearestStep x y) b
    r.1 ≤ b.1 ∧ (∀ n ∈ ns, r.1 ≤ W.nodeSqDist n x y) ∧
      (r = b ∨ ∃ n ∈ ns, r = (W.nodeSqDist n x y, some n) ∧ W.nodeSqDist n x y < b.1) := by
  induction ns with
  | nil => intro b; exact ⟨le_rfl, by simp, .inl rfl⟩
  | cons m ns ih =>
    intro b
    simp only [List.foldl_cons]
    obtain ⟨h1, h2, h3⟩ := ih (W.nearestStep x y b m)
    have hs : (W.nearestStep x y b m).1 ≤ b.1 ∧ (W.nearestStep x y b m).1 ≤ W.nodeSqDist m x y := by
      unfold nearestStep
      split
      · rename_i h; exact ⟨h.le, le_rfl⟩
      · rename_i h; exact ⟨le_rfl, not_lt.1 h⟩
    refine ⟨h1.trans hs.1, ?_, ?_⟩
    · intro n hn
      rcases List.mem_cons.1 hn with rfl | hn
      · exact h1.trans hs.2
      · exact h2 n hn
    · rcases h3 with h3 | ⟨n, hn, h3, h4⟩
      · rw [h3]
        unfold nearestStep
        split
        · rename_i h
          exact .inr ⟨m, by simp, rfl, h⟩
        · exact .inl rfl
      · exact .inr ⟨n, by simp [hn], h3, lt_of_lt_of_le h4 hs.1⟩

theorem Made.refl (W : World) : Made [] W W :=
  ⟨rfl, by simp, fun _ _ => ⟨rfl, rfl, rfl, rfl, rfl⟩, fun j t h => by simp at h⟩

theorem Made.trans {s t} {A B C : World} (h : Made s A B) (k : Made t B C) : Made (s ++ t) A C := by
  refine ⟨by rw [k.number, h.number, List.length_append, Nat.add_assoc], ?_, ?_, ?_⟩
  · rw [k.living, h.living, h.number, List.length_append, List.range_add]
    simp [Nat.add_assoc]
  · intro i hi
    obtain ⟨a1, a2, a3, a4, a5⟩ := h.old i hi
    obtain ⟨b1, b2, b3, b4, b5⟩ := k.old i (by have := h.number; omega)
    exact ⟨b1.trans a1, b2.trans a2, b3.trans a3, b4.trans a4, b5.trans a5⟩
  · intro j x hx
    rcases Nat.lt_or_ge j s.length with hj | hj
    · rw [List.getElem?_append_left hj] at hx
      obtain ⟨a1, a2, a3, a4⟩ := h.new j x hx
      obtain ⟨b1, b2, b3, b4, -⟩ := k.old (A.nVeh + j) (by have := h.number; omega)
      exact ⟨b1.trans a1, b2.trans a2, b3.trans a3, b4.trans a4⟩
    · rw [List.getElem?_append_right hj] at hx
      have := k.new _ x hx
      rwa [show B.nVeh + (j - s.length) = A.nVeh + j by have := h.number; omega] at this

theorem Generated.made {o d ts} {W W' : World} (h : Generated o d ts W W') :
    Made (ts.map fun t => ⟨o, d, t⟩) W W' := by
  refine ⟨by simpa using h.number, by simpa using h.living, h.old, ?_⟩
  intro j t ht
  rw [List.getElem?_map, Option.map_eq_some_iff] at ht
  obtain ⟨a, ha, rfl⟩ := ht
  obtain ⟨h1, h2, h3, h4, -⟩ := h.new j a ha
  exact ⟨h1, h2, h3, h4⟩

/-- What all demand functions keep: network, parameters, clock. -/
structure Net (W W' : World) : Prop where
  cfg : W'.cfg = W.cfg
  nodes : W'.nNodes = W.nNodes
  links : W'.nLinks = W.nLinks
  N : W'.N = W.N
  L : W'.L = W.L
  T : W'.T = W.T
  dict : W'.nodeDict = W.nodeDict

theorem Net.refl (W : World) : Net W W := ⟨rfl, rfl, rfl, rfl, rfl, rfl, rfl⟩

theorem Net.trans {A B C : World} (h : Net A B) (k : Net B C) : Net A C :=
  ⟨k.cfg.trans h.cfg, k.nodes.trans h.nodes, k.links.trans h.links, k.N.trans h.N, k.L.trans h.L,
    k.T.trans h.T, k.dict.trans h.dict⟩

theorem Net.getNode {W W' : World} (h : Net W W') (r : Ref) : W'.getNode r = W.getNode r := by
  cases r <;> simp [World.getNode, h.nodes, h.dict]

theorem addVehicle_net {W W' : World} {a : VehArgs} (h : W.addVehicle a = .ok W') : Net W W' := by
  obtain ⟨on, d', dep, pref, cache, lp, la, nm, -, -, -, -, -, -, -, -, rfl⟩ := addVehicle_ok h
  exact ⟨rfl, rfl, rfl, rfl, rfl, rfl, rfl⟩

theorem addVehicle_made {W W' : World} {o d : NodeId} {t : ℚ}
    (h : W.addVehicle { orig := .obj o, dest := some (.obj d), dep := .sec t } = .ok W') :
    Made [⟨o, d, pyInt (W.fl (t / W.dt))⟩] W W' := by
  obtain ⟨on, d', dep, pref, cache, lp, la, nm, h1, h2, h3, -, -, -, h4, h5, rfl⟩ := addVehicle_ok h
  obtain ⟨dn, h2, rfl⟩ := h2
  dsimp only at h3 h4
  have e1 : on = o := by
    unfold World.getNode at h1; dsimp only at h1; split at h1 <;> cases h1; rfl
  have e2 : dn = d := by
    unfold World.getNode at h2; dsimp only at h2; split at h2 <;> cases h2; rfl
  subst h3 h4 e1 e2
  refine ⟨rfl, by simp [addVehRes], ?_, ?_⟩
  · intro i hi
    have : i ≠ W.nVeh := Nat.ne_of_lt hi
    simp [addVehRes, upd_ne _ _ this]
  · intro j x hx
    rcases j with _ | j
    · simp at hx; subst hx
      simp [addVehRes, upd_same]
    · simp at hx

/-! ## The generators are histories of `addVehicle` calls -/

theorem demandWhile_path {o d : Ref} {t : ℤ} : ∀ {k : ℕ} {W W' : World} {f f' : ℚ},
    demandWhile o d t k W f = .ok (W', f') → ReflTransGen ApiStep W W' ∧ Net W W'
  | 0, W, W', f, f', h => by
    unfold demandWhile at h
    split at h
    · cases h
    · cases h; exact ⟨.refl, .refl _⟩
  | k + 1, W, W', f, f', h => by
    unfold demandWhile at h
    split at h
    · split at h
      · rename_i W1 h1
        obtain ⟨p, q⟩ := demandWhile_path h
        exact ⟨.head (.addVehicle h1) p, (addVehicle_net h1).trans q⟩
      · cases h
    · cases h; exact ⟨.refl, .refl _⟩

theorem demandLoop_path {o d : Ref} {flow : ℚ} : ∀ {ts : List ℤ} {W W' : World} {f f' : ℚ},
    demandLoop o d flow ts W f = .ok (W', f') → ReflTransGen ApiStep W W' ∧ Net W W'
  | [], W, W', f, f', h => by unfold demandLoop at h; cases h; exact ⟨.refl, .refl _⟩
  | t :: ts, W, W', f, f', h => by
    unfold demandLoop at h
    dsimp only at h
    split at h
    · rename_i W1 f1 h1
      obtain ⟨p, q⟩ := demandWhile_path h1
      obtain ⟨p', q'⟩ := demandLoop_path h
      exact ⟨p.trans p', q.trans q'⟩
    · cases h

theorem addDemand_path {W W' : World} {o d : Ref} {ts te flow volume : ℚ}
    (h : W.addDemand o d ts te flow volume = .ok W') : ReflTransGen ApiStep W W' ∧ Net W W' := by
  have key : ∃ q f, demandLoop o d q
      (pyRange (pyInt (W.fl (ts / W.dt))) (pyInt (W.fl (te / W.dt)))) W 0 = .ok (W', f) := by
    unfold World.addDemand at h
    dsimp only at h
    split at h
    · rw [bind_ok] at h
      obtain ⟨q, -, h⟩ := h
      rw [bind_ok] at h
      obtain ⟨⟨W1, f⟩, h1, h⟩ := h
      exact ⟨q, f, by rw [pure_ok] at h; rw [← h]; exact h1⟩
    · rw [bind_ok] at h
      obtain ⟨q, -, h⟩ := h
      rw [bind_ok] at h
      obtain ⟨⟨W1, f⟩, h1, h⟩ := h
      exact ⟨q, f, by rw [pure_ok] at h; rw [← h]; exact h1⟩
  obtain ⟨q, f, h1⟩ := key
  exact demandLoop_path h1

theorem demandPairs_path {ts te flow volume : ℚ} : ∀ {ps : List (NodeId × NodeId)} {W W' : World},
    demandPairs ts te flow volume ps W = .ok W' → ReflTransGen ApiStep W W' ∧ Net W W'
  | [], W, W', h => by unfold demandPairs at h; cases h; exact ⟨.refl, .refl _⟩
  | p :: ps, W, W', h => by
    unfold demandPairs at h
    rw [bind_ok] at h
    obtain ⟨W1, h1, h⟩ := h
    obtain ⟨p, q⟩ := addDemand_path h1
    obtain ⟨p', q'⟩ := demandPairs_path h
    exact ⟨p.trans p', q.trans q'⟩

theorem demandEach_path {W W' : World} {os ds : List NodeId} {ts te flow volume : ℚ}
    (h : W.demandEach os ds ts te flow volume = .ok W') : ReflTransGen ApiStep W W' ∧ Net W W' := by
  unfold World.demandEach at h
  dsimp only at h
  split at h
  · rw [bind_ok] at h; obtain ⟨_, h1, -⟩ := h; cases h1
  · exact demandPairs_path h

theorem draw_path (W : World) : ApiStep W W.draw.2 := .reseed
theorem draw_net (W : World) : Net W W.draw.2 := ⟨rfl, rfl, rfl, rfl, rfl, rfl, rfl⟩

/-- Drawing changes nothing but the random numbers. -/
theorem drawMany_spec {α : Type} {xs : List α} : ∀ {n : ℕ} {W W' : World} {as : List α},
    drawMany xs n W = .ok (as, W') → as.length = n ∧ (∀ a ∈ as, a ∈ xs) ∧
      (∃ r, W' = { W with rng := r })
  | 0, W, W', as, h => by
    unfold drawMany at h; cases h; exact ⟨rfl, by simp, W.rng, rfl⟩
  | n + 1, W, W', as, h => by
    unfold drawMany at h
    rw [bind_ok] at h
    obtain ⟨a, ha, h⟩ := h
    rw [bind_ok] at h
    obtain ⟨⟨bs, W1⟩, h1, h⟩ := h
    dsimp only at h
    rw [pure_ok] at h
    cases h
    obtain ⟨e1, e2, r, e3⟩ := drawMany_spec h1
    refine ⟨by simp [e1], ?_, r, by rw [e3]; rfl⟩
    intro b hb
    rcases List.mem_cons.1 hb with rfl | hb
    · exact choiceU_mem ha
    · exact e2 b hb

theorem Made.reseed {ts} {W W' : World} {r} (h : Made ts { W with rng := r } W') : Made ts W W' :=
  ⟨h.number, h.living, h.old, h.new⟩

/-- The vehicles made by the loop of the newer demand functions. -/
theorem demandOnes_spec {dests : List NodeId} : ∀ {ps : List (ℚ × NodeId × NodeId)} {W W' : World},
    demandOnes dests ps W = .ok W' → (∀ p ∈ ps, p.2.2 ∈ dests) →
    ReflTransGen ApiStep W W' ∧ Net W W' ∧ ∃ ts : List Trip, Made ts W W' ∧
      ts.map (fun t => (t.orig, t.step)) = ps.map (fun p => (p.2.1, pyInt (W.fl (p.1 / W.dt)))) ∧
      (∀ t ∈ ts, t.dest ∈ dests ∧ t.orig ≠ t.dest) ∧
      (∀ (j : ℕ) (p : ℚ × NodeId × NodeId) (t : Trip), ps[j]? = some p → ts[j]? = some t → p.2.1 ≠ p.2.2 → t.dest = p.2.2)
  | [], W, W', h, _ => by
    unfold demandOnes at h; cases h
    exact ⟨.refl, .refl _, [], Made.refl _, rfl, by simp, by simp⟩
  | (t, o, d) :: ps, W, W', h, hd => by
    unfold demandOnes at h
    rw [bind_ok] at h
    obtain ⟨⟨d2, W1⟩, h1, h⟩ := h
    dsimp only at h
    rw [bind_ok] at h
    obtain ⟨W2, h2, h⟩ := h
    have key : d2 ∈ dests ∧ o ≠ d2 ∧ (o ≠ d → d2 = d) ∧ (W1 = W ∨ W1 = W.draw.2) := by
      unfold otherDest at h1
      split at h1
      · rename_i he
        rw [map_ok] at h1
        obtain ⟨a, ha, h1⟩ := h1
        cases h1
        have := choiceU_mem ha
        rw [List.mem_filter] at this
        refine ⟨this.1, ?_, fun hn => absurd he hn, .inr rfl⟩
        have h2 := this.2
        simp only [ne_eq, decide_eq_true_eq] at h2
        rw [he]; exact fun e => h2 e.symm
      · rename_i he
        cases h1
        exact ⟨hd (t, o, d) (by simp), he, fun _ => rfl, .inl rfl⟩
    obtain ⟨k1, k2, k3, k4⟩ := key
    have hp1 : ReflTransGen ApiStep W W1 := by
      rcases k4 with rfl | rfl
      · exact .refl
      · exact .single (draw_path W)
    have hn1 : Net W W1 := by
      rcases k4 with rfl | rfl
      · exact .refl _
      · exact draw_net W
    have hn2 := addVehicle_net h2
    obtain ⟨p, q, ts, m, e, g1, g2⟩ := demandOnes_spec h (fun p hp => hd p (by simp [hp]))
    have hm := addVehicle_made h2
    have hm' : Made [⟨o, d2, pyInt (W.fl (t / W.dt))⟩] W W2 := by
      have hc : pyInt (W1.fl (t / W1.dt)) = pyInt (W.fl (t / W.dt)) := by
        unfold World.fl World.dt; rw [hn1.cfg]
      rw [hc] at hm
      rcases k4 with rfl | rfl
      · exact hm
      · exact Made.reseed hm
    refine ⟨hp1.trans (.head (.addVehicle h2) p), hn1.trans (hn2.trans q), _, hm'.trans m, ?_, ?_, ?_⟩
    · simp only [List.cons_append, List.nil_append, List.map_cons, e]
      have hc : ∀ x, pyInt (W2.fl (x / W2.dt)) = pyInt (W.fl (x / W.dt)) := by
        intro x; unfold World.fl World.dt; rw [hn2.cfg, hn1.cfg]
      simp only [hc]
    · intro x hx
      simp only [List.cons_append, List.nil_append, List.mem_cons] at hx
      rcases hx with rfl | hx
      · exact ⟨k1, k2⟩
      · exact g1 x hx
    · intro j p' t' hj ht hne
      rcases j with _ | j
      · simp at hj ht; subst hj ht; exact k3 hne
      · simp at hj ht
        exact g2 j p' t' hj ht hne

theorem linspace_length (fl : ℚ → ℚ) (a b : ℚ) (n : ℕ) : (linspace fl a b n).length = n := by
  simp [linspace]

theorem demandSmooth_spec {W W' : World} {os ds : List NodeId} {ts te flow volume : ℚ}
    (h : W.demandSmooth os ds ts te flow volume = .ok W') :
    0 ≤ W.demandSize ts te flow volume ∧ ReflTransGen ApiStep W W' ∧ Net W W' ∧
    ∃ trips : List Trip, Made trips W W' ∧
      trips.map (·.step) = (linspace W.fl ts te (W.demandSize ts te flow volume).toNat).map
        (fun t => pyInt (W.fl (t / W.dt))) ∧
      ∀ t ∈ trips, t.orig ∈ os ∧ t.dest ∈ ds ∧ t.orig ≠ t.dest := by
  unfold World.demandSmooth at h
  dsimp only at h
  split at h
  · rw [bind_ok] at h; obtain ⟨_, h1, -⟩ := h; cases h1
  rename_i hs
  rw [bind_ok] at h
  obtain ⟨⟨os', W1⟩, h1, h⟩ := h
  dsimp only at h
  rw [bind_ok] at h
  obtain ⟨⟨ds', W2⟩, h2, h⟩ := h
  dsimp only at h
  obtain ⟨l1, m1, r1, rfl⟩ := drawMany_spec h1
  obtain ⟨l2, m2, r2, rfl⟩ := drawMany_spec h2
  obtain ⟨p, q, trips, hm, e, g, -⟩ := demandOnes_spec h (fun x hx =>
    m2 _ (List.of_mem_zip (List.of_mem_zip hx).2).2)
  refine ⟨not_lt.1 hs, .head (.reseed (r := r2)) p, ⟨q.cfg, q.nodes, q.links, q.N, q.L, q.T, q.dict⟩,
    trips, ⟨hm.number, hm.living, hm.old, hm.new⟩, ?_, ?_⟩
  · have e2 := congrArg (List.map Prod.snd) e
    rw [List.map_map, List.map_map] at e2
    have e3 : trips.map (·.step) = ((linspace W.fl ts te (W.demandSize ts te flow volume).toNat).zip
        (os'.zip ds')).map ((fun t => pyInt (W.fl (t / W.dt))) ∘ Prod.fst) := e2
    rw [e3, ← List.map_map, List.map_fst_zip]
    rw [linspace_length, List.length_zip, l1, l2, Nat.min_self]
  · intro t ht
    obtain ⟨g1, g2⟩ := g t ht
    refine ⟨?_, g1, g2⟩
    have : (t.orig, t.step) ∈ trips.map (fun t => (t.orig, t.step)) := List.mem_map_of_mem ht
    rw [e, List.mem_map] at this
    obtain ⟨x, hx, hx2⟩ := this
    have := (List.of_mem_zip (List.of_mem_zip hx).2).1
    rw [Prod.mk.injEq] at hx2
    rw [← hx2.1]
    exact m1 _ this

end UX
