import Verif.Spec.CppWrap
import Verif.Proofs.CppFlow
import Verif.Proofs.CppChunk
import Verif.Proofs.CppLifeInv
import Verif.Proofs.Demand

/-! Registries of the Python side of the C++ engine (C108). -/

namespace UX.Cpp
open CWorld Spec

/-! ### Dicts -/

theorem mem_odPop {d : List (String × ℕ)} {k s : String} {i : ℕ} :
    (s, i) ∈ odPop d k ↔ (s, i) ∈ d ∧ s ≠ k := by
  unfold odPop; simp

theorem odSet_new {d : List (String × ℕ)} {k : String} (h : ∀ i, (k, i) ∉ d) (i : ℕ) :
    odSet d k i = d ++ [(k, i)] := by
  unfold odSet
  rw [if_neg]
  simp only [List.mem_map, Prod.exists, exists_and_right, exists_eq_right, not_exists]
  exact h

theorem odSet_same {d : List (String × ℕ)} {k : String} {i : ℕ} (h : (k, i) ∈ d)
    (hu : ∀ j, (k, j) ∈ d → j = i) : odSet d k i = d := by
  unfold odSet
  rw [if_pos (List.mem_map.2 ⟨_, h, rfl⟩)]
  conv_rhs => rw [← List.map_id d]
  refine List.map_congr_left fun p hp => ?_
  split
  · rename_i e
    have := hu p.2 (by rw [← e]; exact hp)
    rw [← e, ← this]; rfl
  · rfl

theorem Spec.Holds.nil {P : ℕ → Prop} : Holds [] P [] := ⟨List.nodup_nil, by simp⟩

/-- Registering a vehicle under a new name. -/
theorem Spec.Holds.add {names : List String} {P : ℕ → Prop} {d : List (String × ℕ)} (h : Holds names P d) {s : String}
    (hs : s ∉ names) (hp : P names.length) : Holds (names ++ [s]) P (odSet d s names.length) := by
  have hn : ∀ i, (s, i) ∉ d := fun i hi => hs (List.mem_of_getElem? ((h.mem s i).1 hi).1)
  rw [odSet_new hn]
  refine ⟨?_, fun t i => ?_⟩
  · rw [List.nodup_append]
    refine ⟨h.nodup, by simp, ?_⟩
    rintro p hp q hq rfl
    rw [List.mem_singleton.1 hq] at hp
    exact hn _ hp
  · simp only [List.mem_append, h.mem, List.mem_singleton, Prod.mk.injEq]
    rcases Nat.lt_trichotomy i names.length with hi | rfl | hi
    · rw [List.getElem?_append_left hi]
      constructor
      · rintro (h | ⟨_, rfl⟩)
        · exact h
        · omega
      · exact .inl
    · rw [List.getElem?_append_right (Nat.le_refl _)]
      simp only [List.getElem?_eq_none (Nat.le_refl _), Nat.sub_self, List.getElem?_cons_zero, Option.some.injEq]
      constructor
      · rintro (⟨h, _⟩ | ⟨rfl, _⟩)
        · cases h
        · exact ⟨rfl, hp⟩
      · rintro ⟨rfl, _⟩; exact .inr ⟨rfl, trivial⟩
    · rw [List.getElem?_eq_none (by omega), List.getElem?_eq_none (by simp; omega)]
      constructor
      · rintro (⟨h, _⟩ | ⟨_, rfl⟩)
        · cases h
        · omega
      · rintro ⟨h, _⟩; cases h

theorem Spec.Holds.skip {names : List String} {P : ℕ → Prop} {d : List (String × ℕ)} (h : Holds names P d) {s : String}
    (hp : ¬ P names.length) : Holds (names ++ [s]) P d := by
  refine ⟨h.nodup, fun t i => ?_⟩
  rw [h.mem]
  refine and_congr_left fun hpi => ?_
  rcases Nat.lt_trichotomy i names.length with hi | rfl | hi
  · rw [List.getElem?_append_left hi]
  · exact absurd hpi hp
  · rw [List.getElem?_eq_none (by omega), List.getElem?_eq_none (by simp; omega)]

/-- Giving vehicle `n` the new name `s`. -/
theorem Spec.Holds.rename {names : List String} {P : ℕ → Prop} {d : List (String × ℕ)} (h : Holds names P d)
    (hd : Distinct names) {n : ℕ} {old s : String} (ho : names[n]? = some old) (hs : s ∉ names) (hp : P n) :
    Holds (names.set n s) P (odSet (odPop d old) s n) := by
  have hlt : n < names.length := (List.getElem?_eq_some_iff.1 ho).1
  have hn : ∀ i, (s, i) ∉ odPop d old := fun i hi =>
    hs (List.mem_of_getElem? ((h.mem s i).1 (mem_odPop.1 hi).1).1)
  rw [odSet_new hn]
  refine ⟨?_, fun t i => ?_⟩
  · rw [List.nodup_append]
    refine ⟨List.Nodup.filter _ h.nodup, by simp, ?_⟩
    rintro p hp q hq rfl
    rw [List.mem_singleton.1 hq] at hp
    exact hn _ hp
  · simp only [List.mem_append, mem_odPop, h.mem, List.mem_singleton, Prod.mk.injEq]
    by_cases e : n = i
    · subst e
      rw [List.getElem?_set_self hlt]
      constructor
      · rintro (⟨⟨h1, _⟩, h2⟩ | ⟨rfl, _⟩)
        · rw [ho] at h1; exact absurd (Option.some.inj h1).symm h2
        · exact ⟨rfl, hp⟩
      · rintro ⟨h1, _⟩; exact .inr ⟨(Option.some.inj h1).symm, rfl⟩
    · rw [List.getElem?_set_ne e]
      constructor
      · rintro (⟨h1, _⟩ | ⟨_, rfl⟩)
        · exact h1
        · exact absurd rfl e
      · intro h1
        refine .inl ⟨h1, ?_⟩
        rintro rfl
        exact e (hd n i t ho h1.1)

theorem Spec.Holds.rename_skip {names : List String} {P : ℕ → Prop} {d : List (String × ℕ)} (h : Holds names P d)
    {n : ℕ} {s : String} (hp : ¬ P n) : Holds (names.set n s) P d := by
  refine ⟨h.nodup, fun t i => ?_⟩
  rw [h.mem]
  refine and_congr_left fun hpi => ?_
  rw [List.getElem?_set_ne]
  rintro rfl; exact hp hpi

theorem Spec.Distinct.add {names : List String} (h : Distinct names) {s : String} (hs : s ∉ names) :
    Distinct (names ++ [s]) := by
  intro i j t hi hj
  have key : ∀ k, (names ++ [s])[k]? = some t → (k < names.length ∧ names[k]? = some t) ∨
      (k = names.length ∧ t = s) := by
    intro k hk
    rcases Nat.lt_trichotomy k names.length with h1 | rfl | h1
    · rw [List.getElem?_append_left h1] at hk; exact .inl ⟨h1, hk⟩
    · rw [List.getElem?_append_right (Nat.le_refl _)] at hk
      simp at hk; exact .inr ⟨rfl, hk.symm⟩
    · rw [List.getElem?_eq_none (by simp; omega)] at hk; cases hk
  rcases key i hi with ⟨a1, a2⟩ | ⟨a1, a2⟩ <;> rcases key j hj with ⟨b1, b2⟩ | ⟨b1, b2⟩
  · exact h i j t a2 b2
  · subst b2; exact absurd (List.mem_of_getElem? a2) hs
  · subst a2; exact absurd (List.mem_of_getElem? b2) hs
  · rw [a1, b1]

theorem Spec.Distinct.rename {names : List String} (h : Distinct names) {n : ℕ} {s : String} (hs : s ∉ names) :
    Distinct (names.set n s) := by
  intro i j t hi hj
  have key : ∀ k, (names.set n s)[k]? = some t → (k = n ∧ t = s) ∨ (k ≠ n ∧ names[k]? = some t) := by
    intro k hk
    by_cases e : n = k
    · subst e
      left
      rw [List.getElem?_set] at hk
      simp only [if_true] at hk
      split at hk
      · exact ⟨rfl, (Option.some.inj hk).symm⟩
      · cases hk
    · rw [List.getElem?_set_ne e] at hk
      exact .inr ⟨Ne.symm e, hk⟩
  rcases key i hi with ⟨a1, a2⟩ | ⟨a1, a2⟩ <;> rcases key j hj with ⟨b1, b2⟩ | ⟨b1, b2⟩
  · rw [a1, b1]
  · subst a2; exact absurd (List.mem_of_getElem? b2) hs
  · subst b2; exact absurd (List.mem_of_getElem? a2) hs
  · exact h i j t a2 b2

/-! ### `add_demand` -/

/-- `c'` is `c` with vehicles added that are at home. -/
structure Adds (c c' : CWorld) : Prop where
  clean : CleanReach c → CleanReach c'
  n : c.g.nVehs ≤ c'.g.nVehs
  old : ∀ v, v < c.g.nVehs → c'.veh v = c.veh v
  home : ∀ v, c.g.nVehs ≤ v → v < c'.g.nVehs → (c'.veh v).state = .home
  fl : c'.g.fl = c.g.fl
  dt : c'.g.deltaT = c.g.deltaT
  dn : c'.g.deltaN = c.g.deltaN
  ts : c'.g.timestep = c.g.timestep
  tot : c'.g.totalSteps = c.g.totalSteps
  nodes : c'.g.nNodes = c.g.nNodes

theorem Adds.refl (c : CWorld) : Adds c c :=
  ⟨id, Nat.le_refl _, fun _ _ => rfl, fun _ h1 h2 => absurd h2 (by omega), rfl, rfl, rfl, rfl, rfl, rfl⟩

theorem Adds.trans {a b c : CWorld} (h : Adds a b) (k : Adds b c) : Adds a c where
  clean := k.clean ∘ h.clean
  n := h.n.trans k.n
  old v hv := (k.old v (lt_of_lt_of_le hv h.n)).trans (h.old v hv)
  home v h1 h2 := by
    by_cases e : v < b.g.nVehs
    · rw [k.old v e]; exact h.home v h1 e
    · exact k.home v (not_lt.1 e) h2
  fl := k.fl.trans h.fl
  dt := k.dt.trans h.dt
  dn := k.dn.trans h.dn
  ts := k.ts.trans h.ts
  tot := k.tot.trans h.tot
  nodes := k.nodes.trans h.nodes

theorem Adds.one (c : CWorld) (dep : ℚ) {orig dest : ℕ} (prefer : List ℕ) (ho : orig < c.g.nNodes)
    (hd : dest < c.g.nNodes) : Adds c (c.addVehicle dep orig dest prefer) where
  clean h := .step h (.vehicle c dep orig dest prefer ho hd)
  n := by show c.g.nVehs ≤ c.g.nVehs + 1; omega
  old v hv := by
    show upd c.veh c.g.nVehs _ v = _
    rw [upd_ne _ _ (by omega)]
  home v h1 h2 := by
    have h2 : v < c.g.nVehs + 1 := h2
    have : v = c.g.nVehs := by omega
    subst this
    show (upd c.veh c.g.nVehs (newVeh dep orig dest prefer) c.g.nVehs).state = _
    rw [upd_same]; rfl
  fl := rfl
  dt := rfl
  dn := rfl
  ts := rfl
  tot := rfl
  nodes := rfl

theorem demandWhile_adds {orig dest : ℕ} {prefer : List ℕ} {ts : ℤ} {k : ℕ} {c c' : CWorld} {d d' : ℚ}
    (ho : orig < c.g.nNodes) (hd : dest < c.g.nNodes)
    (h : CWorld.demandWhile orig dest prefer ts k (c, d) = some (c', d')) : Adds c c' := by
  induction k generalizing c d with
  | zero => simp [CWorld.demandWhile] at h
  | succ k ih =>
    unfold CWorld.demandWhile at h
    split at h
    · exact (Adds.one c _ prefer ho hd).trans (ih ho hd h)
    · simp at h; rw [h.1]; exact Adds.refl _

theorem demandFor_adds {orig dest : ℕ} {prefer : List ℕ} {flow : ℚ} {fuel k : ℕ} {ts : ℤ} {c c' : CWorld} {d d' : ℚ}
    (ho : orig < c.g.nNodes) (hd : dest < c.g.nNodes)
    (h : CWorld.demandFor orig dest prefer flow fuel k ts (c, d) = some (c', d')) : Adds c c' := by
  induction k generalizing c d ts with
  | zero => simp [CWorld.demandFor] at h; rw [h.1]; exact Adds.refl _
  | succ k ih =>
    unfold CWorld.demandFor at h
    rw [Option.bind_eq_some_iff] at h
    obtain ⟨⟨c1, d1⟩, h1, h2⟩ := h
    have a := demandWhile_adds ho hd h1
    exact a.trans (ih (by rw [a.nodes]; exact ho) (by rw [a.nodes]; exact hd) h2)

theorem addDemand_adds {orig dest : ℕ} {prefer : List ℕ} {t0 t1 flow : ℚ} {fuel : ℕ} {c c' : CWorld}
    (ho : orig < c.g.nNodes) (hd : dest < c.g.nNodes)
    (h : c.addDemand orig dest t0 t1 flow prefer fuel = some c') : Adds c c' := by
  unfold CWorld.addDemand at h
  rw [Option.map_eq_some_iff] at h
  obtain ⟨⟨c1, d1⟩, h1, rfl⟩ := h
  exact demandFor_adds ho hd h1

/-! ### The registries -/

theorem Spec.Holds.congr {names : List String} {P Q : ℕ → Prop} {d : List (String × ℕ)} (h : Holds names P d)
    (hq : ∀ i, i < names.length → (Q i ↔ P i)) : Holds names Q d :=
  ⟨h.nodup, fun s i => (h.mem s i).trans (and_congr_right fun hi =>
    (hq i (List.getElem?_eq_some_iff.1 hi).1).symm)⟩

/-- `d[name] = vehicle` for vehicle `i`. -/
theorem Spec.Holds.put {names : List String} {P Q : ℕ → Prop} {d : List (String × ℕ)} (h : Holds names P d)
    (hd : Distinct names) {i : ℕ} {s : String} (hs : names[i]? = some s) (hi : Q i)
    (hq : ∀ j, j ≠ i → (Q j ↔ P j)) : Holds names Q (odSet d s i) := by
  by_cases hp : P i
  · rw [odSet_same ((h.mem s i).2 ⟨hs, hp⟩) (fun j hj => hd j i s ((h.mem s j).1 hj).1 hs)]
    refine h.congr fun j _ => ?_
    by_cases e : j = i
    · rw [e]; exact iff_of_true hi hp
    · exact hq j e
  · have hn : ∀ j, (s, j) ∉ d := fun j hj => by
      have := (h.mem s j).1 hj
      have e := hd j i s this.1 hs
      rw [e] at this
      exact hp this.2
    rw [odSet_new hn]
    refine ⟨?_, fun t j => ?_⟩
    · rw [List.nodup_append]
      refine ⟨h.nodup, by simp, ?_⟩
      rintro p hp q hq rfl
      rw [List.mem_singleton.1 hq] at hp
      exact hn _ hp
    · simp only [List.mem_append, h.mem, List.mem_singleton, Prod.mk.injEq]
      by_cases e : j = i
      · subst e
        constructor
        · rintro (h | ⟨rfl, _⟩)
          · exact absurd h.2 hp
          · exact ⟨hs, hi⟩
        · rintro ⟨h1, _⟩
          rw [hs] at h1; exact .inr ⟨(Option.some.inj h1).symm, rfl⟩
      · rw [hq j e]
        constructor
        · rintro (h | ⟨_, h⟩)
          · exact h
          · exact absurd h e
        · exact .inl

/-- `d.pop(name, None)` for vehicle `i`. -/
theorem Spec.Holds.pop {names : List String} {P Q : ℕ → Prop} {d : List (String × ℕ)} (h : Holds names P d)
    (hd : Distinct names) {i : ℕ} {s : String} (hs : names[i]? = some s) (hi : ¬ Q i)
    (hq : ∀ j, j ≠ i → (Q j ↔ P j)) : Holds names Q (odPop d s) := by
  refine ⟨List.Nodup.filter _ h.nodup, fun t j => ?_⟩
  rw [mem_odPop, h.mem]
  by_cases e : j = i
  · subst e
    constructor
    · rintro ⟨⟨h1, _⟩, h2⟩
      rw [hs] at h1; exact absurd (Option.some.inj h1).symm h2
    · rintro ⟨_, h⟩; exact absurd h hi
  · rw [hq j e]
    refine ⟨fun h => h.1, fun h1 => ⟨h1, ?_⟩⟩
    rintro rfl
    exact e (hd j i t h1.1 hs)

/-- A dict of all vehicles has as many entries as there are names. -/
theorem Spec.Holds.length {names : List String} {d : List (String × ℕ)} (h : Holds names (fun _ => True) d) :
    d.length = names.length := by
  have hn : (d.map Prod.snd).Nodup := by
    refine (List.nodup_map_iff_inj_on h.nodup).2 ?_
    rintro ⟨s, i⟩ hp ⟨t, j⟩ hq (e : i = j)
    subst e
    have a := ((h.mem s i).1 hp).1
    rw [((h.mem t i).1 hq).1] at a
    rw [Option.some.inj a]
  have : (d.map Prod.snd).Perm (List.range names.length) := by
    refine (List.perm_ext_iff_of_nodup hn List.nodup_range).2 fun i => ?_
    rw [List.mem_range, List.mem_map]
    constructor
    · rintro ⟨⟨s, j⟩, hp, rfl⟩
      exact (List.getElem?_eq_some_iff.1 ((h.mem s j).1 hp).1).1
    · intro hi
      exact ⟨(names[i], i), (h.mem _ _).2 ⟨List.getElem?_eq_getElem hi, trivial⟩, rfl⟩
  have := this.length_eq
  simpa using this

/-- The names: those of the engine, or one that is not a number. -/
structure NamesOK (W : Wrap) : Prop where
  ids : W.ids = List.range W.names.length
  distinct : Distinct W.names
  shape : ∀ (i : ℕ) (s : String), W.names[i]? = some s → s = toString i ∨ NotNumber s
  vehs : Holds W.names (fun _ => True) W.vehs

theorem NamesOK.fresh {W : Wrap} (h : NamesOK W) : toString W.names.length ∉ W.names := by
  intro hm
  obtain ⟨i, hi, e⟩ := List.getElem_of_mem hm
  rcases h.shape i _ (List.getElem?_eq_getElem hi) with a | a
  · rw [e] at a
    exact absurd (toString_nat_inj a) (by omega)
  · exact a _ e

/-- Registering further vehicles, all of them at home. -/
structure Registered (n : ℕ) (P R : ℕ → Prop) (W W' : Wrap) : Prop where
  ok : NamesOK W'
  len : W'.names.length = W.names.length + n
  pre : ∀ i, i < W.names.length → W'.names[i]? = W.names[i]?
  new : ∀ i, W.names.length ≤ i → i < W'.names.length → W'.names[i]? = some (toString i)
  living : Holds W'.names P W'.living
  running : Holds W'.names R W'.running
  c : W'.c = W.c
  T : W'.T = W.T
  tsize : W'.tsize = W.tsize
  fin : W'.finalized = W.finalized
  tmax : W'.tmax = W.tmax

theorem registerOne_ok {n id0 : ℕ} {P R : ℕ → Prop} {W W1 : Wrap} (h : Registered n P R W W1)
    (hid : id0 = W.names.length) (hp : P (W.names.length + n)) (hr : ¬ R (W.names.length + n)) :
    Registered (n + 1) P R W (Wrap.registerOne id0 W1 n) := by
  have hl := h.len
  have hf := h.ok.fresh
  have hids := h.ok.ids
  have e1 : (Wrap.registerOne id0 W1 n).names = W1.names ++ [toString W1.names.length] := rfl
  constructor
  · constructor
    · show W1.ids ++ [id0 + n] = List.range (W1.names ++ [toString W1.names.length]).length
      rw [hids, List.length_append, List.length_singleton, List.range_succ, hid, hl]
    · exact h.ok.distinct.add hf
    · intro i s hs
      rw [e1] at hs
      by_cases hi : i < W1.names.length
      · rw [List.getElem?_append_left hi] at hs
        exact h.ok.shape i s hs
      · rw [List.getElem?_append_right (not_lt.1 hi)] at hs
        have hz : i - W1.names.length = 0 := by
          by_contra hne
          rw [List.getElem?_eq_none (by simp; omega)] at hs; cases hs
        rw [hz] at hs
        simp at hs
        left
        rw [← hs]
        congr 1
        omega
    · exact h.ok.vehs.add hf trivial
  · rw [e1, List.length_append, List.length_singleton, hl]; omega
  · intro i hi
    rw [e1, List.getElem?_append_left (by omega), h.pre i hi]
  · intro i h1 h2
    rw [e1] at h2 ⊢
    rw [List.length_append, List.length_singleton] at h2
    by_cases hi : i < W1.names.length
    · rw [List.getElem?_append_left hi]; exact h.new i h1 hi
    · have : i = W1.names.length := by omega
      subst this
      rw [List.getElem?_append_right (Nat.le_refl _)]; simp
  · exact h.living.add hf (by rw [hl]; exact hp)
  · exact h.running.skip (by rw [hl]; exact hr)
  · exact h.c
  · exact h.T
  · exact h.tsize
  · exact h.fin
  · exact h.tmax

theorem register_ok {P R : ℕ → Prop} {W : Wrap} (ok : NamesOK W) (hl : Holds W.names P W.living)
    (hr : Holds W.names R W.running) (hle : W.names.length ≤ W.c.g.nVehs)
    (hnew : ∀ i, W.names.length ≤ i → i < W.c.g.nVehs → P i ∧ ¬ R i) :
    Registered (W.c.g.nVehs - W.names.length) P R W W.register := by
  unfold Wrap.register
  have key : ∀ n, n ≤ W.c.g.nVehs - W.names.length →
      Registered n P R W ((List.range n).foldl (Wrap.registerOne W.vehs.length) W) := by
    intro n
    induction n with
    | zero => intro _; exact ⟨ok, rfl, fun _ _ => rfl, fun i h1 h2 => absurd h2 (by simpa using h1),
        hl, hr, rfl, rfl, rfl, rfl, rfl⟩
    | succ n ih =>
      intro hn
      rw [List.range_succ, List.foldl_append]
      have := hnew (W.names.length + n) (by omega) (by omega)
      exact registerOne_ok (ih (by omega)) ok.vehs.length this.1 this.2
  exact key _ (Nat.le_refl _)

/-! ### `_sync_from_cpp` -/

/-- Everything but the registries of living and running vehicles. -/
structure SameRest (W W' : Wrap) : Prop where
  c : W'.c = W.c
  names : W'.names = W.names
  ids : W'.ids = W.ids
  vehs : W'.vehs = W.vehs
  cache : W'.cache = W.cache
  T : W'.T = W.T
  tsize : W'.tsize = W.tsize
  fin : W'.finalized = W.finalized
  tmax : W'.tmax = W.tmax

theorem syncOne_ok {W : Wrap} {P R P' R' : ℕ → Prop} (hd : Distinct W.names) {i : ℕ} (hi : i < W.names.length)
    (hl : Holds W.names P W.living) (hr : Holds W.names R W.running)
    (hP : P' i ↔ ¬ Over W.c i) (hR : R' i ↔ (W.c.veh i).state = .run)
    (hPj : ∀ j, j ≠ i → (P' j ↔ P j)) (hRj : ∀ j, j ≠ i → (R' j ↔ R j)) :
    SameRest W (Wrap.syncOne W i) ∧ Holds W.names P' (Wrap.syncOne W i).living ∧
      Holds W.names R' (Wrap.syncOne W i).running := by
  have hs : W.names[i]? = some W.names[i] := List.getElem?_eq_getElem hi
  unfold Spec.Over at hP
  unfold Wrap.syncOne
  simp only [hs]
  generalize W.names[i] = s at hs
  cases e : (W.c.veh i).state <;> rw [e] at hP hR <;> simp only <;>
    refine ⟨⟨rfl, rfl, rfl, rfl, rfl, rfl, rfl, rfl, rfl⟩, ?_, ?_⟩
  · exact hl.put hd hs (hP.2 (by simp)) hPj
  · exact hr.pop hd hs (fun h => by simpa using hR.1 h) hRj
  · exact hl.put hd hs (hP.2 (by simp)) hPj
  · exact hr.pop hd hs (fun h => by simpa using hR.1 h) hRj
  · exact hl.put hd hs (hP.2 (by simp)) hPj
  · exact hr.put hd hs (hR.2 rfl) hRj
  · exact hl.pop hd hs (fun h => by simpa using hP.1 h) hPj
  · exact hr.pop hd hs (fun h => by simpa using hR.1 h) hRj
  · exact hl.pop hd hs (fun h => by simpa using hP.1 h) hPj
  · exact hr.pop hd hs (fun h => by simpa using hR.1 h) hRj

theorem sync_ok {W : Wrap} {P R : ℕ → Prop} (hd : Distinct W.names) (hn : W.names.length = W.c.g.nVehs)
    (hl : Holds W.names P W.living) (hr : Holds W.names R W.running) :
    SameRest W W.sync ∧ Holds W.names (fun i => ¬ Over W.c i) W.sync.living ∧
      Holds W.names (fun i => (W.c.veh i).state = .run) W.sync.running := by
  have key : ∀ n, n ≤ W.c.g.nVehs →
      SameRest W ((List.range n).foldl Wrap.syncOne W) ∧
      Holds W.names (fun i => (i < n ∧ ¬ Over W.c i) ∨ (n ≤ i ∧ P i)) ((List.range n).foldl Wrap.syncOne W).living ∧
      Holds W.names (fun i => (i < n ∧ (W.c.veh i).state = .run) ∨ (n ≤ i ∧ R i))
        ((List.range n).foldl Wrap.syncOne W).running := by
    intro n
    induction n with
    | zero =>
      intro _
      refine ⟨⟨rfl, rfl, rfl, rfl, rfl, rfl, rfl, rfl, rfl⟩, hl.congr fun i _ => ?_, hr.congr fun i _ => ?_⟩ <;> simp
    | succ n ih =>
      intro hle
      rw [List.range_succ, List.foldl_append]
      obtain ⟨a, b, c⟩ := ih (by omega)
      generalize (List.range n).foldl Wrap.syncOne W = W1 at a b c
      show SameRest W (Wrap.syncOne W1 n) ∧ _
      rw [← a.names] at b c
      have := syncOne_ok (W := W1) (i := n)
        (P' := fun i => (i < n + 1 ∧ ¬ Over W.c i) ∨ (n + 1 ≤ i ∧ P i))
        (R' := fun i => (i < n + 1 ∧ (W.c.veh i).state = .run) ∨ (n + 1 ≤ i ∧ R i))
        (by rw [a.names]; exact hd) (by rw [a.names]; omega) b c
        (by rw [a.c]; simp) (by rw [a.c]; simp)
        (fun j hj => by
          have h1 : j < n + 1 ↔ j < n := by omega
          have h2 : n + 1 ≤ j ↔ n ≤ j := by omega
          rw [h1, h2])
        (fun j hj => by
          have h1 : j < n + 1 ↔ j < n := by omega
          have h2 : n + 1 ≤ j ↔ n ≤ j := by omega
          rw [h1, h2])
      rw [a.names] at this
      obtain ⟨d, e, f⟩ := this
      exact ⟨⟨d.c.trans a.c, d.names.trans a.names, d.ids.trans a.ids, d.vehs.trans a.vehs, d.cache.trans a.cache,
        d.T.trans a.T, d.tsize.trans a.tsize, d.fin.trans a.fin, d.tmax.trans a.tmax⟩, e, f⟩
  obtain ⟨a, b, c⟩ := key _ (Nat.le_refl _)
  refine ⟨a, b.congr fun i hi => ?_, c.congr fun i hi => ?_⟩ <;>
  · have h1 : i < W.c.g.nVehs := by omega
    have h2 : ¬ W.c.g.nVehs ≤ i := by omega
    simp [h1, h2]

/-! ### All calls -/

/-- What holds between the calls. -/
structure WInv (W : Wrap) : Prop where
  clean : CleanReach W.c
  ok : NamesOK W
  len : W.names.length = W.c.g.nVehs
  living : Holds W.names (fun i => ¬ Over W.c i) W.living
  running : Holds W.names (fun i => (W.c.veh i).state = .run) W.running
  T : W.T = W.c.g.timestep
  begin : W.finalized = false → W.c.g.timestep = 0 ∧ ∀ v, v < W.c.g.nVehs → (W.c.veh v).state = .home
  steps : W.finalized = true → W.c.g.totalSteps = W.tsize.toNat ∧ W.T ≤ W.tsize.toNat

/-- The engine changes, but no vehicle's state. -/
theorem WInv.engine {W : Wrap} (i : WInv W) {c : CWorld} (hc : CleanReach c) (hn : c.g.nVehs = W.c.g.nVehs)
    (hs : ∀ v, (c.veh v).state = (W.c.veh v).state) (ht : c.g.timestep = W.c.g.timestep)
    (hk : c.g.totalSteps = W.c.g.totalSteps) : WInv { W with c := c } where
  clean := hc
  ok := ⟨i.ok.ids, i.ok.distinct, i.ok.shape, i.ok.vehs⟩
  len := i.len.trans hn.symm
  living := i.living.congr fun v _ => by unfold Spec.Over; simp only [hs]
  running := i.running.congr fun v _ => by simp only [hs]
  T := i.T.trans ht.symm
  begin hf := by
    obtain ⟨a, b⟩ := i.begin hf
    exact ⟨ht.trans a, fun v hv => (hs v).trans (b v (by simpa only [hn] using hv))⟩
  steps hf := ⟨hk.trans (i.steps hf).1, (i.steps hf).2⟩

/-- Vehicles are added to the engine and registered. -/
theorem WInv.register {W : Wrap} (i : WInv W) {c : CWorld} (a : Adds W.c c) :
    WInv (W.addDemand c) ∧ (W.addDemand c).c = c ∧
      (∀ v, v < W.names.length → (W.addDemand c).names[v]? = W.names[v]?) ∧
      (∀ v, W.names.length ≤ v → v < c.g.nVehs → (W.addDemand c).names[v]? = some (toString v)) := by
  have hlen := i.len
  have han := a.n
  have hnew : ∀ v, W.names.length ≤ v → v < c.g.nVehs → (c.veh v).state = .home := fun v h1 h2 =>
    a.home v (by omega) h2
  have r := register_ok (W := { W with c := c }) (P := fun v => ¬ Over c v) (R := fun v => (c.veh v).state = .run)
    ⟨i.ok.ids, i.ok.distinct, i.ok.shape, i.ok.vehs⟩
    (i.living.congr fun v hv => by unfold Spec.Over; rw [a.old v (by omega)])
    (i.running.congr fun v hv => by rw [a.old v (by omega)])
    (show W.names.length ≤ c.g.nVehs by omega)
    (fun v h1 h2 => by
      have := hnew v h1 h2
      unfold Spec.Over
      rw [this]; simp)
  change Registered _ _ _ _ (W.addDemand c) at r
  generalize W.addDemand c = W1 at r
  have hc : W1.c = c := r.c
  have hl : W1.names.length = c.g.nVehs := by
    have := r.len
    change W1.names.length = W.names.length + (c.g.nVehs - W.names.length) at this
    omega
  refine ⟨⟨by rw [hc]; exact a.clean i.clean, r.ok, by rw [hc]; exact hl, by rw [hc]; exact r.living,
    by rw [hc]; exact r.running, ?_, ?_, ?_⟩, hc, r.pre, fun v h1 h2 => r.new v h1 (by omega)⟩
  · rw [hc, a.ts, ← i.T]; exact r.T
  · intro hf
    obtain ⟨b, d⟩ := i.begin (r.fin.symm.trans hf)
    rw [hc]
    refine ⟨a.ts.trans b, fun v hv => ?_⟩
    by_cases e : v < W.c.g.nVehs
    · rw [a.old v e]; exact d v e
    · exact a.home v (not_lt.1 e) hv
  · intro hf
    obtain ⟨b, d⟩ := i.steps (r.fin.symm.trans hf)
    rw [hc, a.tot, r.tsize, r.T]
    exact ⟨b, d⟩

theorem WInv.named {W W' : Wrap} (i : WInv W) {c : CWorld} (a : Adds W.c c) {name : Option String}
    (hn : ∀ s, name = some s → NotNumber s) (hu : W.nameUsed name = false)
    (h : W.named W.c.g.nVehs c name = .ok W') : WInv W' := by
  obtain ⟨j, hc, hpre, hnew⟩ := i.register a
  have hlen := i.len
  unfold Wrap.named at h
  simp only [] at h
  change (match (W.addDemand c).names[W.c.g.nVehs]? with
    | none => _ | some old => _) = _ at h
  change WInv (W.addDemand c) at j
  change ∀ v, v < W.names.length → (W.addDemand c).names[v]? = W.names[v]? at hpre
  have e0 : Wrap.register { W with c := c } = W.addDemand c := rfl
  rw [e0] at h
  generalize hW1 : W.addDemand c = W1 at j hc hpre hnew h
  cases ho : W1.names[W.c.g.nVehs]? with
  | none => rw [ho] at h; cases h
  | some old =>
    rw [ho] at h
    cases name with
    | none => simp only [Except.ok.injEq] at h; rw [← h]; exact j
    | some s =>
      simp only [Except.ok.injEq] at h
      have hnn := hn s rfl
      have hs : s ∉ W1.names := by
        intro hm
        obtain ⟨k, hk, e⟩ := List.getElem_of_mem hm
        have hk' := List.getElem?_eq_getElem hk
        rw [e] at hk'
        by_cases hkl : k < W.names.length
        · rw [hpre k hkl] at hk'
          have : (s, k) ∈ W.vehs := (i.ok.vehs.mem s k).2 ⟨hk', trivial⟩
          unfold Wrap.nameUsed at hu
          simp only [decide_eq_false_iff_not, List.mem_map, not_exists] at hu
          exact hu (s, k) ⟨this, rfl⟩
        · rw [hnew k (not_lt.1 hkl) (by rw [← hc, ← j.len]; exact hk)] at hk'
          exact hnn k (Option.some.inj hk').symm
      have hlt : W.c.g.nVehs < W1.c.g.nVehs := by
        rw [← j.len]; exact (List.getElem?_eq_some_iff.1 ho).1
      have hhome : (W1.c.veh W.c.g.nVehs).state = .home := by
        rw [hc] at hlt ⊢; exact a.home _ (Nat.le_refl _) hlt
      rw [← h]
      refine ⟨j.clean, ⟨?_, j.ok.distinct.rename hs, ?_, j.ok.vehs.rename j.ok.distinct ho hs trivial⟩, ?_,
        j.living.rename j.ok.distinct ho hs ?_, j.running.rename_skip ?_, j.T, j.begin, j.steps⟩
      · show W1.ids = List.range (W1.names.set W.c.g.nVehs s).length
        rw [List.length_set]; exact j.ok.ids
      · intro k t hk
        change (W1.names.set W.c.g.nVehs s)[k]? = some t at hk
        by_cases e : W.c.g.nVehs = k
        · rw [e, List.getElem?_set] at hk
          simp only [if_true] at hk
          split at hk
          · right; rw [← Option.some.inj hk]; exact hnn
          · cases hk
        · rw [List.getElem?_set_ne e] at hk
          exact j.ok.shape k t hk
      · show (W1.names.set W.c.g.nVehs s).length = W1.c.g.nVehs
        rw [List.length_set]; exact j.len
      · unfold Spec.Over; rw [hhome]; simp
      · rw [hhome]; simp

theorem WInv.finalize {W : Wrap} (i : WInv W) (hf : W.finalized = false) (t : Option ℚ) : WInv (W.finalize t) := by
  obtain ⟨h0, hh⟩ := i.begin hf
  unfold Wrap.finalize
  extract_lets q
  clear_value q
  have c1 : CleanReach (W.c.setTMax q) := .step i.clean (.tmax W.c q (by rw [h0]; exact Nat.zero_le _))
  have c2 : CleanReach (W.c.setTMax q).initAdj := .step c1 (.init _)
  obtain ⟨a, _, b, d, _⟩ := initAdj_same (W.c.setTMax q)
  have e1 : (W.c.setTMax q).initAdj.g.nVehs = W.c.g.nVehs := (CGlob.fix_nVehs b).trans rfl
  have e2 : (W.c.setTMax q).initAdj.veh = W.c.veh := a.trans rfl
  have e3 : (W.c.setTMax q).initAdj.g.timestep = 0 := d.trans h0
  refine ⟨c2, ⟨i.ok.ids, i.ok.distinct, i.ok.shape, i.ok.vehs⟩, i.len.trans e1.symm,
    i.living.congr fun v _ => by unfold Spec.Over; simp only [e2],
    i.running.congr fun v _ => by simp only [e2], e3.symm, fun h => by simp at h, fun _ => ⟨?_, Nat.zero_le _⟩⟩
  exact (CGlob.fix_totalSteps b).trans rfl

theorem WInv.readLogs {W : Wrap} (i : WInv W) : WInv W.readLogs :=
  ⟨i.clean, ⟨i.ok.ids, i.ok.distinct, i.ok.shape, i.ok.vehs⟩, i.len, i.living, i.running, i.T, i.begin, i.steps⟩

/-- The main part of `exec_simulation`. -/
theorem WInv.run {W W' : Wrap} (i : WInv W) (hf : W.finalized = true) {sched : ℕ → CWorld → CWorld.Sched}
    (hs : ∀ t V, (sched t V).Valid V) {e : ℤ} {r : ℕ} (h : W.run sched e = .ok (W', r)) :
    WInv W' ∧ W.c.mainLoop sched (W.cppEnd e) = (W'.c, none) ∧ W'.finalized = true ∧ W'.tsize = W.tsize ∧
      W'.tmax = W.tmax ∧ W'.names = W.names ∧ (r = if W'.tsize ≤ W'.T then 1 else 0) ∧
      (W'.T < W'.tsize → W'.cache = W.cache) ∧
      (W'.tsize ≤ W'.T → ∃ S : Wrap, W' = S.readLogs ∧ S.cache = W.cache ∧ S.names = W.names) := by
  unfold Wrap.run at h
  obtain ⟨hst, hle⟩ := i.steps hf
  cases hm : W.c.mainLoop sched (W.cppEnd e) with
  | mk c x =>
    rw [hm] at h
    cases x with
    | some x => cases h
    | none =>
      simp only at h
      have hclean : CleanReach c := .step i.clean (.run W.c c _ sched hs hm)
      obtain ⟨k, kt⟩ := mainLoop_keep i.clean.toReach.rest
        (fun t V _ => (hs t V).2.2.2.1.nodup_iff.2 List.nodup_range) hm
      have hn : W.names.length = c.g.nVehs := i.len.trans (CGlob.fix_nVehs k.fix).symm
      obtain ⟨s1, s2, s3⟩ := sync_ok (W := { W with c := c }) i.ok.distinct hn i.living i.running
      generalize Wrap.sync { W with c := c } = S at s1 s2 s3 h
      have hc : S.c = c := s1.c
      have hN : S.names = W.names := s1.names
      have htot : c.g.totalSteps = W.c.g.totalSteps := CGlob.fix_totalSteps k.fix
      have j : WInv { S with T := c.g.timestep } := by
        refine ⟨by show CleanReach S.c; rw [hc]; exact hclean, ⟨?_, ?_, ?_, ?_⟩, ?_, ?_, ?_, ?_, ?_, ?_⟩
        · show S.ids = List.range S.names.length
          rw [hN]; exact s1.ids.trans i.ok.ids
        · show Distinct S.names
          rw [hN]; exact i.ok.distinct
        · show ∀ (i : ℕ) (s : String), S.names[i]? = some s → _
          rw [hN]; exact i.ok.shape
        · show Holds S.names _ S.vehs
          rw [hN, show S.vehs = W.vehs from s1.vehs]; exact i.ok.vehs
        · show S.names.length = S.c.g.nVehs
          rw [hN, hc]; exact hn
        · show Holds S.names (fun i => ¬ Over S.c i) S.living
          rw [hN, hc]; exact s2
        · show Holds S.names (fun i => (S.c.veh i).state = .run) S.running
          rw [hN, hc]; exact s3
        · show c.g.timestep = S.c.g.timestep
          rw [hc]
        · intro h1
          have : S.finalized = W.finalized := s1.fin
          change S.finalized = false at h1
          rw [this, hf] at h1; cases h1
        · intro _
          show S.c.g.totalSteps = S.tsize.toNat ∧ c.g.timestep ≤ S.tsize.toNat
          rw [hc, show S.tsize = W.tsize from s1.tsize, htot, hst]
          refine ⟨rfl, ?_⟩
          have := i.T
          rw [kt, hst]
          omega
      have hfin : S.finalized = true := s1.fin.trans hf
      split at h <;> rename_i hcnd <;> simp only [Except.ok.injEq, Prod.mk.injEq] at h <;> obtain ⟨rfl, rfl⟩ := h
      · refine ⟨j.readLogs, congrArg (·, none) hc.symm, hfin, s1.tsize, s1.tmax, hN, ?_, ?_,
          fun _ => ⟨_, rfl, s1.cache, hN⟩⟩
        · exact (if_pos hcnd).symm
        · intro hlt
          change (c.g.timestep : ℤ) < S.tsize at hlt
          exact absurd hcnd (not_le.2 hlt)
      · refine ⟨j, congrArg (·, none) hc.symm, hfin, s1.tsize, s1.tmax, hN, ?_, fun _ => s1.cache,
          fun hle => absurd hle hcnd⟩
        exact (if_neg hcnd).symm

theorem WInv.exec {W W' : Wrap} (i : WInv W) {sched : ℕ → CWorld → CWorld.Sched}
    (hs : ∀ t V, (sched t V).Valid V) {u : Wrap.Until} {r : ℕ} (h : W.exec sched u = .ok (W', r)) : WInv W' := by
  unfold Wrap.exec at h
  simp only [] at h
  have key : ∀ V : Wrap, WInv V → V.finalized = true →
      (if (V.T : ℤ) = V.endTs u ∧ V.endTs u = V.tsize then .ok (V.readLogs, 1)
        else if V.endTs u < V.T then .error .exception
        else Wrap.run sched V (V.endTs u)) = Except.ok (W', r) → WInv W' := by
    intro V iV hV hh
    split at hh
    · simp only [Except.ok.injEq, Prod.mk.injEq] at hh
      rw [← hh.1]; exact iV.readLogs
    · split at hh
      · cases hh
      · exact (iV.run hV hs hh).1
  cases hf : W.finalized with
  | true => rw [if_pos hf] at h; exact key W i hf h
  | false =>
    rw [hf] at h
    exact key (W.finalize none) (i.finalize hf none) rfl h

theorem WStep.inv {W W' : Wrap} (i : WInv W) (s : WStep NotNumber W W') : WInv W' := by
  cases s with
  | node c ints off cap lanes rng fuel hf h =>
    have hc : CleanReach c := .step i.clean (.node W.c c ints off cap lanes rng fuel h)
    unfold CWorld.addNode at h
    rw [Option.map_eq_some_iff] at h
    obtain ⟨p, _, rfl⟩ := h
    exact i.engine hc rfl (fun _ => rfl) rfl rfl
  | link src dst a hf hs hd hl =>
    refine i.engine (.step i.clean (.link W.c src dst a hs hd hl ?_)) rfl (fun _ => rfl) rfl rfl
    intro v hv
    rw [(i.begin hf).2 v hv]; simp
  | demand c orig dest t0 t1 flow fuel ho hd h => exact (i.register (addDemand_adds ho hd h)).1
  | vehicle _ t orig dest prefer name fuel ho hd hn h =>
    unfold Wrap.addVehicle at h
    split at h
    · simp at h
    · rename_i hu
      rw [Option.map_eq_some_iff] at h
      obtain ⟨c, h1, h2⟩ := h
      exact i.named (addDemand_adds ho hd h1) hn (by simpa using hu) h2
  | edit e =>
    refine i.engine (.step i.clean (.edit W.c e)) ?_ (fun v => ?_) ?_ ?_
    · rw [edit_g]
    · have := congrArg CVeh.state (edit_life W.c e v)
      exact this
    · rw [edit_g]
    · rw [edit_g]
  | finalize t hf => exact i.finalize hf t
  | exec _ u r sched hs h => exact i.exec hs h
  | logs => exact i.readLogs

theorem WReach.inv {W : Wrap} (h : WReach NotNumber W) : WInv W := by
  induction h with
  | new fl tmax deltaN tau duoTime duoWeight noise hardDet gradual noCyclic adjustCap logMode ttInterval =>
    refine ⟨.empty .., ⟨rfl, by intro i j s h; simp [Wrap.new] at h, by intro i s h; simp [Wrap.new] at h, .nil⟩,
      rfl, .nil, .nil, rfl, fun _ => ⟨rfl, fun v hv => ?_⟩, fun h => by simp [Wrap.new] at h⟩
    exact absurd hv (by simp [Wrap.new, CWorld.empty])
  | step _ s ih => exact s.inv ih

/-! ### `addVehicle` -/

theorem oneVehicle_exact {W : Wrap} (hfl : W.c.g.fl = id) (hdt : 0 < W.c.g.deltaT)
    (hdn : 0 < W.c.g.deltaN) {t : ℚ} (ht : 0 ≤ t) (orig dest : ℕ) (prefer : List ℕ) {fuel : ℕ} (hf : 2 ≤ fuel) :
    W.oneVehicle t orig dest prefer fuel =
      some (W.c.addVehicle (⌊t / W.c.g.deltaT⌋ * W.c.g.deltaT) orig dest prefer) := by
  have h0 : 0 ≤ t / W.c.g.deltaT := div_nonneg ht hdt.le
  have h1 : (t + W.c.g.deltaT) / W.c.g.deltaT = t / W.c.g.deltaT + 1 := by
    rw [add_div, div_self hdt.ne']
  have h2 : pyInt (t / W.c.g.deltaT + 1) = ⌊t / W.c.g.deltaT⌋ + 1 := by
    unfold pyInt; rw [if_pos (by linarith), Int.floor_add_one]
  have h3 : pyInt (t / W.c.g.deltaT) = ⌊t / W.c.g.deltaT⌋ := by
    unfold pyInt; rw [if_pos h0]
  obtain ⟨k, rfl⟩ : ∃ k, fuel = k + 2 := ⟨fuel - 2, by omega⟩
  unfold Wrap.oneVehicle CWorld.addDemand
  rw [hfl]
  simp only [id]
  rw [h1, h2, h3, show (⌊t / W.c.g.deltaT⌋ + 1 - ⌊t / W.c.g.deltaT⌋).toNat = 1 by omega]
  have h4 : (0 : ℚ) + W.c.g.deltaN / W.c.g.deltaT * W.c.g.deltaT = W.c.g.deltaN := by
    rw [div_mul_cancel₀ _ hdt.ne', zero_add]
  simp only [CWorld.demandFor, hfl, id, h4, CWorld.demandWhile, le_refl, if_true]
  rw [if_neg]
  · simp
  · show ¬ W.c.g.deltaN ≤ W.c.g.deltaN - W.c.g.deltaN
    rw [sub_self]; exact not_le.2 hdn

theorem WInv.one {W : Wrap} (i : WInv W) (hfl : W.c.g.fl = id) (hdt : 0 < W.c.g.deltaT)
    (hdn : 0 < W.c.g.deltaN) {t : ℚ} (ht : 0 ≤ t) {orig dest : ℕ} {prefer : List ℕ} {name : Option String} {fuel : ℕ}
    (hf : 2 ≤ fuel) (hn : ∀ s, name = some s → NotNumber s ∧ s ∉ W.names) :
    ∃ W', W.addVehicle t orig dest prefer name fuel = some (.ok W') ∧
      W'.c = W.c.addVehicle (⌊t / W.c.g.deltaT⌋ * W.c.g.deltaT) orig dest prefer ∧
      W'.names = W.names ++ [name.getD (toString W.c.g.nVehs)] ∧
      W'.vehs = W.vehs ++ [(name.getD (toString W.c.g.nVehs), W.c.g.nVehs)] := by
  have hu : W.nameUsed name = false := by
    cases name with
    | none => rfl
    | some s =>
      unfold Wrap.nameUsed
      simp only [decide_eq_false_iff_not, List.mem_map, not_exists]
      rintro ⟨s', k⟩ ⟨h1, h2⟩
      change s' = s at h2
      subst h2
      exact (hn s' rfl).2 (List.mem_of_getElem? ((i.ok.vehs.mem s' k).1 h1).1)
  unfold Wrap.addVehicle
  rw [hu, oneVehicle_exact hfl hdt hdn ht orig dest prefer hf]
  simp only [Bool.false_eq_true, if_false, Option.map_some]
  set c := W.c.addVehicle (⌊t / W.c.g.deltaT⌋ * W.c.g.deltaT) orig dest prefer with hcdef
  have hcn : c.g.nVehs = W.c.g.nVehs + 1 := rfl
  have hlen := i.len
  have hno : ∀ k, (toString W.c.g.nVehs, k) ∉ W.vehs := fun k hk => by
    have := i.ok.fresh
    rw [hlen] at this
    exact this (List.mem_of_getElem? ((i.ok.vehs.mem _ k).1 hk).1)
  have hreg : Wrap.register { W with c := c } = Wrap.registerOne W.vehs.length { W with c := c } 0 := by
    unfold Wrap.register
    show (List.range (c.g.nVehs - W.names.length)).foldl _ _ = _
    rw [hcn, hlen, show W.c.g.nVehs + 1 - W.c.g.nVehs = 1 by omega]
    rfl
  have e1 : (Wrap.register { W with c := c }).names = W.names ++ [toString W.c.g.nVehs] := by
    rw [hreg]
    show W.names ++ [toString W.names.length] = _
    rw [hlen]
  have e2 : (Wrap.register { W with c := c }).vehs = W.vehs ++ [(toString W.c.g.nVehs, W.c.g.nVehs)] := by
    rw [hreg]
    show odSet W.vehs (toString W.names.length) W.names.length = _
    rw [hlen, odSet_new hno]
  have e3 : (Wrap.register { W with c := c }).c = c := by rw [hreg]; rfl
  have e4 : (W.names ++ [toString W.c.g.nVehs])[W.c.g.nVehs]? = some (toString W.c.g.nVehs) := by
    rw [← hlen, List.getElem?_append_right (Nat.le_refl _)]; simp
  unfold Wrap.named
  generalize Wrap.register { W with c := c } = W1 at e1 e2 e3
  simp only [e1, e4]
  cases name with
  | none => exact ⟨W1, rfl, e3, e1, e2⟩
  | some s =>
    refine ⟨_, rfl, e3, ?_, ?_⟩
    · show (W.names ++ [toString W.c.g.nVehs]).set W.c.g.nVehs s = _
      rw [← hlen, List.set_append_right _ _ (Nat.le_refl _)]
      simp
    · show odSet (odPop W1.vehs (toString W.c.g.nVehs)) s W.c.g.nVehs = _
      have e5 : odPop W1.vehs (toString W.c.g.nVehs) = W.vehs := by
        rw [e2]
        unfold odPop
        rw [List.filter_append, List.filter_eq_self.2]
        · simp
        · rintro ⟨s', k⟩ hk
          simp only [ne_eq, decide_not, Bool.not_eq_true', decide_eq_false_iff_not]
          rintro rfl
          exact hno k hk
      rw [e5, odSet_new]
      · rfl
      · intro k hk
        exact (hn s rfl).2 (List.mem_of_getElem? ((i.ok.vehs.mem s k).1 hk).1)

/-! ### Logs that have been read -/

theorem register_cache (W : Wrap) {v : ℕ} (hv : v < W.names.length) : W.register.cache v = W.cache v := by
  have key : ∀ (xs : List ℕ) (k : ℕ) (V : Wrap), v < V.names.length →
      (xs.foldl (Wrap.registerOne k) V).cache v = V.cache v := by
    intro xs k
    induction xs with
    | nil => intro V _; rfl
    | cons x xs ih =>
      intro V h
      refine (ih (Wrap.registerOne k V x) (by
        show v < (V.names ++ [toString V.names.length]).length
        simp; omega)).trans ?_
      show upd V.cache V.names.length none v = _
      rw [upd_ne _ _ (by omega)]
  exact key _ _ _ hv

theorem sync_cache (W : Wrap) : W.sync.cache = W.cache := by
  have key : ∀ (xs : List ℕ) (V : Wrap), (xs.foldl Wrap.syncOne V).cache = V.cache := by
    intro xs
    induction xs with
    | nil => intro V; rfl
    | cons x xs ih =>
      intro V
      refine (ih (Wrap.syncOne V x)).trans ?_
      unfold Wrap.syncOne
      split
      · rfl
      · split <;> rfl
  exact key _ _

theorem readLogs_cache {W : Wrap} {v : ℕ} {L : WLog} (h : W.cache v = some L) : W.readLogs.cache v = some L := by
  unfold Wrap.readLogs
  simp only [h]

theorem exec_cache {W W' : Wrap} {sched : ℕ → CWorld → CWorld.Sched} {u : Wrap.Until} {r : ℕ}
    (h : W.exec sched u = .ok (W', r)) {v : ℕ} {L : WLog} (hc : W.cache v = some L) : W'.cache v = some L := by
  have key : ∀ V : Wrap, V.cache v = some L →
      (if (V.T : ℤ) = V.endTs u ∧ V.endTs u = V.tsize then .ok (V.readLogs, 1)
        else if V.endTs u < V.T then .error .exception
        else Wrap.run sched V (V.endTs u)) = Except.ok (W', r) → W'.cache v = some L := by
    intro V hV hh
    split at hh
    · cases hh; exact readLogs_cache hV
    · split at hh
      · cases hh
      · unfold Wrap.run at hh
        split at hh
        · cases hh
        · rename_i c _
          have e : ({ Wrap.sync { V with c := c } with T := c.g.timestep } : Wrap).cache v = some L := by
            show (Wrap.sync { V with c := c }).cache v = _
            rw [sync_cache]; exact hV
          simp only at hh
          split at hh <;> cases hh
          · exact readLogs_cache e
          · exact e
  unfold Wrap.exec at h
  simp only [] at h
  cases hf : W.finalized with
  | true => rw [if_pos hf] at h; exact key W hc h
  | false => rw [hf] at h; exact key (W.finalize none) hc h

end UX.Cpp
