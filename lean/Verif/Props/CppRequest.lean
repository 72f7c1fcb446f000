import Verif.Spec.CppRequest
import Verif.Props.CppNames
import Verif.Model.CppLog
import Verif.Proofs.Basic
import Mathlib.Data.List.Dedup

/-!
# C121: requests to the C++ mode
-/

namespace UX.Cpp
open Spec Ask CWorld Names

section
variable {W : Ask} {v : ℕ} {rs : List LRef} {ks : List ℕ}

theorem agree_c {N : Names} {c : CWorld} (h : Agree N) (h1 : c.g.nNodes = N.c.g.nNodes) (h2 : c.g.nLinks = N.c.g.nLinks)
    (h3 : ∀ j, (c.link j).src = (N.c.link j).src ∧ (c.link j).dst = (N.c.link j).dst) : Agree { N with c := c } :=
  ⟨h1.trans h.nNum, h.nPtr, h2.trans h.lNum, h.lPtr, h.nNames, h.lNames, h.nLook, h.lLook, h.nEnds, fun j hj => by
    obtain ⟨s, hs, e, he, a, b, d⟩ := h.ends j hj
    exact ⟨s, hs, e, he, a, (h3 j).1.trans b, (h3 j).2.trans d⟩⟩

theorem means_getLink (h : Agree W.n) {r : LRef} {k : ℕ} (hm : Means W.n r k) :
    W.getLink r = some k ∧ W.n.lPtr[k]? = some k := by
  have key : k < W.n.links.length → W.n.lPtr[k]? = some k := fun hk => by
    rw [h.lPtr, List.getElem?_range hk]
  cases r with
  | name s =>
    have hm : W.n.links[k]? = some s := hm
    exact ⟨(h.lLook s k).1.2 hm, key (List.getElem?_eq_some_iff.1 hm).1⟩
  | obj i =>
    obtain ⟨rfl, hk⟩ := hm
    exact ⟨rfl, key hk⟩
  | none => exact hm.elim

theorem unknown_getLink (h : Agree W.n) {r : LRef} (hu : Unknown W.n r) : W.getLink r = none := by
  cases r with
  | name s =>
    change W.n.lDict s = none
    cases hd : W.n.lDict s with
    | none => rfl
    | some k => exact (hu (List.mem_of_getElem? ((h.lLook s k).1.1 hd))).elim
  | obj i => exact hu.elim
  | none => rfl

theorem ptrs_known (h : Agree W.n) (hr : List.Forall₂ (Means W.n) rs ks) :
    rs.map W.getLink = ks.map some ∧ W.ptrs (rs.map W.getLink) = some ks := by
  induction hr with
  | nil => exact ⟨rfl, rfl⟩
  | cons hm _ ih =>
    obtain ⟨a, b⟩ := means_getLink h hm
    refine ⟨by simp [a, ih.1], ?_⟩
    rw [List.map_cons, Ask.ptrs, a, ih.2]
    simp [b]

theorem ptrs_unknown (h : Agree W.n) (hu : ∃ r ∈ rs, Unknown W.n r) :
    none ∈ rs.map W.getLink ∧ W.ptrs (rs.map W.getLink) = none := by
  obtain ⟨r, hr, hu⟩ := hu
  have e := unknown_getLink h hu
  have hm : none ∈ rs.map W.getLink := List.mem_map.2 ⟨r, hr, e⟩
  refine ⟨hm, ?_⟩
  generalize rs.map W.getLink = os at hm
  induction os with
  | nil => cases hm
  | cons o os ih =>
    rw [Ask.ptrs]
    rcases List.mem_cons.1 hm with rfl | hm
    · simp
    · rw [ih hm]; split <;> simp_all

/-- **C121.** `enforce_route`: the engine gets the links that were named, the Python vehicle shows the same, and nothing
else changes. -/
theorem C121_route (h : Agree W.n) (hr : List.Forall₂ (Means W.n) rs ks) :
    ((W.enforceRoute v rs).n.c.veh v).route = ks ∧ ((W.enforceRoute v rs).n.c.veh v).prefer = ks ∧
    (W.enforceRoute v rs).route v = some (ks.map some) ∧ OnlyVeh v W.n.c (W.enforceRoute v rs).n.c ∧
    OnlyPy v W (W.enforceRoute v rs) ∧ Agree (W.enforceRoute v rs).n := by
  obtain ⟨a, b⟩ := ptrs_known h hr
  unfold Ask.enforceRoute
  extract_lets py W1
  rw [show W.ptrs py = some ks from b]
  refine ⟨?_, ?_, ?_, ⟨rfl, rfl, rfl, fun u hu => ?_⟩,
    ⟨rfl, fun u hu => ?_, fun _ _ => rfl, fun _ _ => rfl, fun _ _ => rfl, rfl, rfl⟩, ?_⟩
  · simp [Ask.engine, CWorld.edit, CWorld.setV, upd]
  · simp [Ask.engine, CWorld.edit, CWorld.setV, upd]
  · show upd W.route v (some py) v = _
    rw [show py = ks.map some from a]; simp [upd]
  · simp [Ask.engine, CWorld.edit, CWorld.setV, upd, hu, W1]
  · simp [Ask.engine, W1, upd, hu]
  · exact agree_c h rfl rfl (fun _ => ⟨rfl, rfl⟩)

/-- **C121.** `set_links_prefer`. -/
theorem C121_prefer (h : Agree W.n) (hr : List.Forall₂ (Means W.n) rs ks) :
    ((W.setPrefer v rs).n.c.veh v).prefer = ks ∧ (W.setPrefer v rs).prefer v = ks.map some ∧
    { (W.setPrefer v rs).n.c.veh v with prefer := (W.n.c.veh v).prefer } = W.n.c.veh v ∧
    OnlyVeh v W.n.c (W.setPrefer v rs).n.c ∧ OnlyPy v W (W.setPrefer v rs) ∧ Agree (W.setPrefer v rs).n := by
  obtain ⟨a, b⟩ := ptrs_known h hr
  have E : W.setPrefer v rs = { W with prefer := upd W.prefer v (ks.map some) }.engine (.prefer v ks) := by
    unfold Ask.setPrefer
    simp only [b]
    rw [a]
  rw [E]
  refine ⟨?_, ?_, ?_, ⟨rfl, rfl, rfl, fun u hu => ?_⟩,
    ⟨rfl, fun _ _ => rfl, fun u hu => ?_, fun _ _ => rfl, fun _ _ => rfl, rfl, rfl⟩, ?_⟩
  · simp [Ask.engine, CWorld.edit, CWorld.setV, upd]
  · simp [Ask.engine, upd]
  · simp [Ask.engine, CWorld.edit, CWorld.setV, upd]
  · simp [Ask.engine, CWorld.edit, CWorld.setV, upd, hu]
  · simp [Ask.engine, upd, hu]
  · exact agree_c h rfl rfl (fun _ => ⟨rfl, rfl⟩)

/-- **C121.** `set_links_avoid`. -/
theorem C121_avoid (h : Agree W.n) (hr : List.Forall₂ (Means W.n) rs ks) :
    ((W.setAvoid v rs).n.c.veh v).avoid = ks ∧ (W.setAvoid v rs).avoid v = ks.map some ∧
    { (W.setAvoid v rs).n.c.veh v with avoid := (W.n.c.veh v).avoid } = W.n.c.veh v ∧
    OnlyVeh v W.n.c (W.setAvoid v rs).n.c ∧ OnlyPy v W (W.setAvoid v rs) ∧ Agree (W.setAvoid v rs).n := by
  obtain ⟨a, b⟩ := ptrs_known h hr
  have E : W.setAvoid v rs = { W with avoid := upd W.avoid v (ks.map some) }.engine (.avoid v ks) := by
    unfold Ask.setAvoid
    simp only [b]
    rw [a]
  rw [E]
  refine ⟨?_, ?_, ?_, ⟨rfl, rfl, rfl, fun u hu => ?_⟩,
    ⟨rfl, fun _ _ => rfl, fun _ _ => rfl, fun u hu => ?_, fun _ _ => rfl, rfl, rfl⟩, ?_⟩
  · simp [Ask.engine, CWorld.edit, CWorld.setV, upd]
  · simp [Ask.engine, upd]
  · simp [Ask.engine, CWorld.edit, CWorld.setV, upd]
  · simp [Ask.engine, CWorld.edit, CWorld.setV, upd, hu]
  · simp [Ask.engine, upd, hu]
  · exact agree_c h rfl rfl (fun _ => ⟨rfl, rfl⟩)

/-- **C121, finding.** If one of the links is unknown, nothing is raised, the engine keeps what it had, and the Python
vehicle shows a list with `None`. -/
theorem C121_unknown_false (h : Agree W.n) (hu : ∃ r ∈ rs, Unknown W.n r) :
    ((W.enforceRoute v rs).n = W.n ∧ ∃ l, (W.enforceRoute v rs).route v = some l ∧ none ∈ l) ∧
    ((W.setPrefer v rs).n = W.n ∧ none ∈ (W.setPrefer v rs).prefer v) ∧
    ((W.setAvoid v rs).n = W.n ∧ none ∈ (W.setAvoid v rs).avoid v) := by
  obtain ⟨a, b⟩ := ptrs_unknown h hu
  refine ⟨?_, ?_, ?_⟩
  · unfold Ask.enforceRoute
    extract_lets py W1
    rw [show W.ptrs py = none from b]
    exact ⟨rfl, py, by simp [W1, upd], a⟩
  · unfold Ask.setPrefer
    extract_lets py W1
    rw [show W.ptrs py = none from b]
    refine ⟨rfl, ?_⟩
    rw [show W1.prefer v = py by simp [W1, upd]]; exact a
  · unfold Ask.setAvoid
    extract_lets py W1
    rw [show W.ptrs py = none from b]
    refine ⟨rfl, ?_⟩
    rw [show W1.avoid v = py by simp [W1, upd]]; exact a

/-- **C121.** `add_dest` and `add_dests` do not tell the engine. -/
theorem C121_dest (d : Names.Ref) (order : ℤ) (ds : List Names.Ref) :
    (W.addDest v d order).n = W.n ∧ (W.addDests v ds).n = W.n ∧
    (W.addDests v ds).dests v = W.dests v ++ ds.map W.n.getNode := by
  refine ⟨rfl, ?_⟩
  unfold Ask.addDests
  induction ds generalizing W with
  | nil => simp
  | cons x ds ih =>
    obtain ⟨a, b⟩ := ih (W := W.addDest v x (-1))
    rw [List.foldl_cons, a, b]
    exact ⟨rfl, by simp [Ask.addDest, upd]⟩

/-- C121: with a position other than -1 the new destination stands at this position of the list, counted from the end
if it is negative, or at the nearest end of the list if there is no such position; the others keep their order. -/
theorem C121_insert (d : Names.Ref) {order : ℤ} (ho : order ≠ -1) :
    ∃ p : ℕ, p ≤ (W.dests v).length ∧ (W.addDest v d order).dests v = (W.dests v).insertIdx p (W.n.getNode d) ∧
      (0 ≤ order → order ≤ (W.dests v).length → (p : ℤ) = order) ∧ ((W.dests v).length < order → p = (W.dests v).length) ∧
      (order < 0 → -(W.dests v).length ≤ order → (p : ℤ) = (W.dests v).length + order) ∧
      (order < -(W.dests v).length → p = 0) := by
  have key : ∀ (l : List (Option ℕ)) (i : ℕ) (x : Option ℕ),
      l.take i ++ x :: l.drop i = l.insertIdx (min i l.length) x := by
    intro l
    induction l with
    | nil => intro i x; simp
    | cons a l ih =>
      intro i x
      cases i with
      | zero => simp
      | succ i => simp [Nat.succ_min_succ, ih]
  refine ⟨min (if 0 ≤ order then order else max 0 ((W.dests v).length + order)).toNat (W.dests v).length,
    min_le_right _ _, ?_, ?_⟩
  · simp only [Ask.addDest, ho, if_false, upd, pyInsert, if_true]
    exact key _ _ _
  · split_ifs <;> omega


/-! ### Signals -/

theorem setGroups_eq {ps : List (ℕ × ℕ)} {ls : List ℕ} {W : Ask} (hl : ∀ l ∈ ls, W.n.lPtr.getD l 0 = l) :
    setGroups ps ls W = { W with
      n := { W.n with c := { W.n.c with link := fun l =>
        if l ∈ ls then { W.n.c.link l with group := phasesOf ps l } else W.n.c.link l } }
      group := fun l => if l ∈ ls then phasesOf ps l else W.group l } := by
  induction ls generalizing W with
  | nil => simp [setGroups]
  | cons l ls ih =>
    rw [setGroups]
    rw [hl l List.mem_cons_self]
    refine (ih (W := { W with group := upd W.group l (phasesOf ps l) }.engine (.group l (phasesOf ps l)))
      (fun m hm => hl m (List.mem_cons_of_mem _ hm))).trans ?_
    simp only [Ask.engine, CWorld.edit, CWorld.setL]
    have e1 : (fun m => if m ∈ ls then
        { upd W.n.c.link l { W.n.c.link l with group := phasesOf ps l } m with group := phasesOf ps m }
        else upd W.n.c.link l { W.n.c.link l with group := phasesOf ps l } m) =
        (fun m => if m ∈ l :: ls then { W.n.c.link m with group := phasesOf ps m } else W.n.c.link m) := by
      funext m
      by_cases hm : m = l
      · subst hm; simp [upd]
      · simp [upd, hm]
    have e2 : (fun m => if m ∈ ls then phasesOf ps m else upd W.group l (phasesOf ps l) m) =
        (fun m => if m ∈ l :: ls then phasesOf ps m else W.group m) := by
      funext m
      by_cases hm : m = l
      · subst hm; simp [upd]
      · simp [upd, hm]
    rw [e1, e2]

/-- What `phase_info` holds. -/
def listed : ℕ → List (List ℕ) → List (ℕ × ℕ)
  | _, [] => []
  | i, g :: gs => g.map (fun l => (l, i)) ++ listed (i + 1) gs

theorem mem_listed {ks : List (List ℕ)} {i l : ℕ} : (∃ j, (l, j) ∈ listed i ks) ↔ l ∈ ks.flatten := by
  induction ks generalizing i with
  | nil => simp [listed]
  | cons g gs ih =>
    rw [List.flatten_cons, List.mem_append, ← ih (i := i + 1)]
    simp only [listed, List.mem_append, List.mem_map, Prod.mk.injEq, exists_or]
    constructor
    · rintro (⟨j, m, h1, h2, h3⟩ | h)
      · exact .inl (h2 ▸ h1)
      · exact .inr h
    · rintro (h | h)
      · exact .inl ⟨i, l, h, rfl, rfl⟩
      · exact .inr h

theorem phasesOf_listed (ks : List (List ℕ)) (l : ℕ) : Phases ks l (phasesOf (listed 0 ks) l) := by
  have key : ∀ (ks : List (List ℕ)) (i : ℕ), (phasesOf (listed i ks) l).Pairwise (· ≤ ·) ∧
      (∀ j ∈ phasesOf (listed i ks) l, i ≤ j) ∧
      ∀ j, (phasesOf (listed i ks) l).count (i + j) = (ks.getD j []).count l := by
    intro ks
    induction ks with
    | nil => intro i; simp [listed, phasesOf]
    | cons g gs ih =>
      intro i
      obtain ⟨a, b, c⟩ := ih (i + 1)
      have e : phasesOf (listed i (g :: gs)) l = List.replicate (g.count l) i ++ phasesOf (listed (i + 1) gs) l := by
        unfold phasesOf
        rw [listed, List.filter_append, List.map_append]
        congr 1
        clear a b c ih
        induction g with
        | nil => rfl
        | cons m g ih =>
          rw [List.map_cons, List.filter_cons, List.count_cons]
          by_cases hm : m = l
          · simp [hm, ih, List.replicate_succ]
          · simp [hm, ih]
      rw [e]
      refine ⟨List.pairwise_append.2 ⟨List.pairwise_replicate.2 (.inr le_rfl), a, fun x hx y hy => ?_⟩, fun j hj => ?_, fun j => ?_⟩
      · rw [List.eq_of_mem_replicate hx]; have := b y hy; omega
      · rcases List.mem_append.1 hj with hj | hj
        · rw [List.eq_of_mem_replicate hj]
        · have := b j hj; omega
      · rw [List.count_append, List.count_replicate]
        cases j with
        | zero =>
          rw [show i + 0 = i from rfl, List.count_eq_zero_of_not_mem (a := i) (l := phasesOf (listed (i + 1) gs) l)
            (fun hm => by have := b _ hm; omega)]
          simp
        | succ j =>
          have := c j
          rw [show i + (j + 1) = i + 1 + j by omega, this]
          rw [if_neg (by simp; omega)]
          simp
  obtain ⟨a, _, c⟩ := key ks 0
  exact ⟨a, fun i => by simpa using c i⟩

theorem ends_dst {N : Names} (h : Agree N) {l n : ℕ} (hl : l < N.links.length) :
    N.ends[l]?.bind Prod.snd = some n ↔ (N.c.link l).dst = n := by
  obtain ⟨s, _, e, _, a, _, d⟩ := h.ends l hl
  rw [a, d]; simp

theorem means_lt {N : Names} {r : LRef} {k : ℕ} (h : Means N r k) : k < N.links.length := by
  cases r with
  | name s => exact (List.getElem?_eq_some_iff.1 (show N.links[k]? = some s from h)).1
  | obj i => exact h.2
  | none => exact h.elim

theorem phaseInfo_ok {W : Ask} (h : Agree W.n) {n : ℕ} {gs : List (List LRef)} {ks : List (List ℕ)}
    (hk : List.Forall₂ (List.Forall₂ (Means W.n)) gs ks) (he : ∀ l ∈ ks.flatten, (W.n.c.link l).dst = n) (i : ℕ) :
    W.phaseInfo n i gs = .ok (listed i ks) := by
  have one : ∀ {rs : List LRef} {g : List ℕ} (j : ℕ), List.Forall₂ (Means W.n) rs g →
      (∀ l ∈ g, (W.n.c.link l).dst = n) → phaseInfo.go W n j rs = .ok (g.map (fun l => (l, j))) := by
    intro rs g j hf
    induction hf with
    | nil => intro _; rfl
    | cons hm _ ih =>
      intro hd
      rw [phaseInfo.go, (means_getLink h hm).1]
      simp only
      rw [if_pos ((ends_dst h (means_lt hm)).2 (hd _ List.mem_cons_self)),
        ih (fun l hl => hd l (List.mem_cons_of_mem _ hl))]
      rfl
  induction hk generalizing i with
  | nil => rfl
  | cons hg _ ih =>
    rw [phaseInfo, one i hg (fun l hl => he l (by simp [hl])), ih (fun l hl => he l (by
      rw [List.flatten_cons]; exact List.mem_append_right _ hl))]
    rfl

theorem phaseInfo_bad {W : Ask} (h : Agree W.n) {n : ℕ} {gs : List (List LRef)}
    (hb : ∃ g ∈ gs, ∃ r ∈ g, Unknown W.n r ∨ ∃ k, Means W.n r k ∧ (W.n.c.link k).dst ≠ n) (i : ℕ) :
    ∃ e, W.phaseInfo n i gs = .error e := by
  have one : ∀ {rs : List LRef} (j : ℕ), (∃ r ∈ rs, Unknown W.n r ∨ ∃ k, Means W.n r k ∧ (W.n.c.link k).dst ≠ n) →
      ∃ e, phaseInfo.go W n j rs = .error e := by
    intro rs j
    induction rs with
    | nil => rintro ⟨r, hr, _⟩; cases hr
    | cons r rs ih =>
      rintro ⟨q, hq, hb⟩
      rw [phaseInfo.go]
      rcases List.mem_cons.1 hq with rfl | hq
      · rcases hb with hu | ⟨k, hk, hd⟩
        · rw [unknown_getLink h hu]; exact ⟨_, rfl⟩
        · rw [(means_getLink h hk).1]
          simp only
          rw [if_neg (fun hc => hd ((ends_dst h (means_lt hk)).1 hc))]
          exact ⟨_, rfl⟩
      · obtain ⟨e, he⟩ := ih ⟨q, hq, hb⟩
        rw [he]
        split
        · exact ⟨_, rfl⟩
        · split <;> exact ⟨_, rfl⟩
  obtain ⟨g, hg, hb⟩ := hb
  induction gs generalizing i with
  | nil => cases hg
  | cons g' gs ih =>
    rw [phaseInfo]
    rcases List.mem_cons.1 hg with rfl | hg
    · obtain ⟨e, he⟩ := one i hb
      rw [he]; exact ⟨_, rfl⟩
    · obtain ⟨e, he⟩ := ih (i + 1) hg
      rw [he]
      split
      · exact ⟨_, rfl⟩
      · exact ⟨_, rfl⟩
      · rename_i heq; cases heq

/-- The offset that `override_signal` sets. -/
def newOffset (signal : List ℚ) (off : ℚ) : Option ℚ → ℚ
  | some o => signal.sum - o
  | none => off

/-- State before the groups are looked at. -/
theorem signal_mid {W : Ask} (hfl : W.n.c.g.fl = id) (n : ℕ) (signal : List ℚ) (off : ℚ) (reset : Bool)
    (offOld : Option ℚ) : ∃ W2, Signal n signal (newOffset signal off offOld) reset W W2 ∧ W2.group = W.group ∧
      W2.n.c.link = W.n.c.link ∧ ∀ groups, W.overrideSignal n signal groups off reset offOld =
        match groups with
        | none => (W2, none)
        | some gs =>
          if gs.length ≠ signal.length then (W2, some .valueError)
          else match W2.phaseInfo n 0 gs with
            | .error e => (W2, some e)
            | .ok ps => (setGroups ps (ps.map Prod.fst).dedup W2, none) := by
  have hoff : (match offOld with
      | some o => W.n.c.g.fl (signal.foldl (fun a q => W.n.c.g.fl (a + q)) 0 - o)
      | none => off) = newOffset signal off offOld := by
    cases offOld with
    | none => rfl
    | some o => simp only [hfl, id, newOffset, List.sum_eq_foldl]
  let W1 := W.setSignal n signal
  let N1 := W1.n.c.node n
  let W2 : Ask := { W1.engine (.signal n N1.sigInt (newOffset signal off offOld) (if reset then 0 else N1.sigPhase)
    (if reset then 0 else N1.sigT)) with offset := upd W.offset n (newOffset signal off offOld) }
  refine ⟨W2, ?_, ?_, ?_, fun groups => ?_⟩
  · have e1 : W1.n.c.node n = { W.n.c.node n with
        sigInt := signal
        sigPhase := if signal.length ≤ (W.n.c.node n).sigPhase then 0 else (W.n.c.node n).sigPhase
        sigT := if signal.length ≤ (W.n.c.node n).sigPhase then 0 else (W.n.c.node n).sigT } := by
      show ((W.setSignal n signal).n.c.node n) = _
      unfold Ask.setSignal
      simp only
      split <;> simp [Ask.engine, CWorld.edit, CWorld.setN, upd]
    have e2 : W2.n.c.node n = { W.n.c.node n with
        sigInt := signal
        sigOff := newOffset signal off offOld
        sigPhase := if reset then 0 else if signal.length ≤ (W.n.c.node n).sigPhase then 0
          else (W.n.c.node n).sigPhase
        sigT := if reset then 0 else if signal.length ≤ (W.n.c.node n).sigPhase then 0 else (W.n.c.node n).sigT } := by
      simp only [W2, N1, Ask.engine, CWorld.edit, CWorld.setN, upd, if_pos, e1]
    have e3 : ∀ m, m ≠ n → W2.n.c.node m = W.n.c.node m := by
      intro m hm
      simp only [W2, W1, Ask.engine, CWorld.edit, CWorld.setN, upd, if_neg hm, Ask.setSignal]
      split <;> simp [upd, hm]
    have e4 : W1.n.c.g = W.n.c.g ∧ W1.n.c.veh = W.n.c.veh ∧ W1.n.c.link = W.n.c.link ∧
        W1.n = { W.n with c := W1.n.c } := by
      simp only [W1, Ask.setSignal]
      split <;> exact ⟨rfl, rfl, rfl, rfl⟩
    refine ⟨by rw [e2], ⟨by rw [e2], by simp [W2, upd]⟩, fun hr hp => ?_, fun hr => ?_, by rw [e2],
      fun m hm => ⟨e3 m hm, by simp [W2, upd, hm]⟩, e4.1, e4.2.1, fun l => ?_, ?_⟩
    · rw [e2, hr]
      simp [not_le.2 hp]
    · rw [e2]
      rcases hr with rfl | hr
      · simp
      · simp [hr]
    · rw [show W2.n.c.link = W.n.c.link from e4.2.2.1]
    · show { W1.n with c := W2.n.c } = _
      rw [e4.2.2.2]
  · show W1.group = W.group
    simp only [W1, Ask.setSignal]
    split <;> rfl
  · show W1.n.c.link = W.n.c.link
    simp only [W1, Ask.setSignal]
    split <;> rfl
  · simp only [W2, N1, W1, ← hoff]
    rfl

theorem signal_groups {n : ℕ} {ints : List ℚ} {off : ℚ} {reset : Bool} {W W2 : Ask} (h : Signal n ints off reset W W2)
    (ps : List (ℕ × ℕ)) (ls : List ℕ) : Signal n ints off reset W (setGroups ps ls W2) := by
  induction ls generalizing W2 with
  | nil => exact h
  | cons l ls ih =>
    refine ih ⟨h.plan, h.shift, h.keep, h.anew, h.rest, h.others, h.g, h.veh, fun m => ?_, ?_⟩
    · have := h.links m
      simp only [Ask.engine, CWorld.edit, CWorld.setL, upd]
      split
      · rename_i hm; subst hm; exact this
      · exact this
    · have := h.names
      simp only [Ask.engine]
      rw [this]

/-- **C121.** `override_signal` replaces the plan, in the engine and for Python, whether or not it raises an exception. -/
theorem C121_signal {W : Ask} (hfl : W.n.c.g.fl = id) (n : ℕ) (signal : List ℚ) (groups : Option (List (List LRef)))
    (off : ℚ) (reset : Bool) (offOld : Option ℚ) :
    Signal n signal (newOffset signal off offOld) reset W (W.overrideSignal n signal groups off reset offOld).1 := by
  obtain ⟨W2, h1, _, _, h2⟩ := signal_mid hfl n signal off reset offOld
  rw [h2]
  cases groups with
  | none => exact h1
  | some gs =>
    simp only
    split
    · exact h1
    · split
      · exact h1
      · exact signal_groups h1 _ _

/-- **C121.** Afterwards the phase is one of the plan. -/
theorem C121_phase {W : Ask} (hfl : W.n.c.g.fl = id) (n : ℕ) {signal : List ℚ} (hs : signal ≠ [])
    (groups : Option (List (List LRef))) (off : ℚ) (reset : Bool) (offOld : Option ℚ) :
    ((W.overrideSignal n signal groups off reset offOld).1.n.c.node n).sigPhase < signal.length := by
  have h := C121_signal hfl n signal groups off reset offOld
  have h0 := List.length_pos_of_ne_nil hs
  by_cases hp : (W.n.c.node n).sigPhase < signal.length
  · cases reset with
    | true => rw [(h.anew (.inl rfl)).1]; exact h0
    | false => rw [(h.keep rfl hp).1]; exact hp
  · rw [(h.anew (.inr (not_lt.1 hp))).1]; exact h0

/-- **C121.** `override_signal` with groups: a link has green in the phases whose group lists it. -/
theorem C121_groups {W : Ask} (hfl : W.n.c.g.fl = id) (h : Agree W.n) (n : ℕ) {signal : List ℚ} {gs : List (List LRef)}
    {ks : List (List ℕ)} (hk : List.Forall₂ (List.Forall₂ (Means W.n)) gs ks)
    (he : ∀ l ∈ ks.flatten, (W.n.c.link l).dst = n) (hl : gs.length = signal.length) (off : ℚ) (reset : Bool)
    (offOld : Option ℚ) :
    ∃ W', W.overrideSignal n signal (some gs) off reset offOld = (W', none) ∧ Agree W'.n ∧
      ∀ l, (l ∈ ks.flatten → Phases ks l (W'.n.c.link l).group ∧ W'.group l = (W'.n.c.link l).group) ∧
        (l ∉ ks.flatten → (W'.n.c.link l).group = (W.n.c.link l).group ∧ W'.group l = W.group l) := by
  obtain ⟨W2, h1, hg, hlk, h2⟩ := signal_mid hfl n signal off reset offOld
  have hA : Agree W2.n := by
    rw [h1.names]
    exact agree_c h (by rw [h1.g]) (by rw [h1.g]) (fun j => by rw [hlk]; exact ⟨rfl, rfl⟩)
  have hk2 : List.Forall₂ (List.Forall₂ (Means W2.n)) gs ks := by
    rw [h1.names]; exact hk
  have hp := phaseInfo_ok hA hk2 (fun l hl => by rw [hlk]; exact he l hl) 0 (n := n)
  rw [h2]
  simp only
  rw [if_neg (by simpa using hl), hp]
  have hm : ∀ l, l ∈ ((listed 0 ks).map Prod.fst).dedup ↔ l ∈ ks.flatten := by
    intro l
    rw [List.mem_dedup, ← mem_listed (i := 0), List.mem_map]
    constructor
    · rintro ⟨⟨a, j⟩, h1, rfl⟩; exact ⟨j, h1⟩
    · rintro ⟨j, h1⟩; exact ⟨(l, j), h1, rfl⟩
  have hlt : ∀ l ∈ ks.flatten, l < W2.n.links.length := by
    intro l hl
    obtain ⟨g, hg1, hg2⟩ := List.mem_flatten.1 hl
    obtain ⟨i, hi⟩ := List.mem_iff_getElem.1 hg1
    obtain ⟨hi1, rfl⟩ := hi
    have hi0 : i < gs.length := by rw [hk2.length_eq]; exact hi1
    have f := (List.forall₂_iff_get.1 hk2).2 i hi0 hi1
    simp only [List.get_eq_getElem] at f
    obtain ⟨j, hj, rfl⟩ := List.mem_iff_getElem.1 hg2
    have hj0 : j < gs[i].length := by rw [f.length_eq]; exact hj
    have := (List.forall₂_iff_get.1 f).2 j hj0 hj
    exact means_lt this
  simp only
  rw [setGroups_eq (fun l hl => by
    have := hlt l ((hm l).1 hl)
    rw [hA.lPtr, List.getD_eq_getElem?_getD, List.getElem?_range this]; rfl)]
  refine ⟨_, rfl, ?_, fun l => ⟨fun hl => ?_, fun hl => ?_⟩⟩
  · refine agree_c hA rfl rfl (fun j => ?_)
    dsimp only
    split <;> exact ⟨rfl, rfl⟩
  · simp only [if_pos ((hm l).2 hl)]
    exact ⟨phasesOf_listed ks l, trivial⟩
  · simp only [if_neg (fun hc => hl ((hm l).1 hc))]
    exact ⟨by rw [hlk], by rw [hg]⟩

/-- **C121.** If the number of groups is wrong, or a group lists an unknown link or one that ends elsewhere, the call
raises an exception and sets no group; but the plan is replaced all the same (`C121_signal`). -/
theorem C121_raise {W : Ask} (hfl : W.n.c.g.fl = id) (h : Agree W.n) (n : ℕ) {signal : List ℚ} {gs : List (List LRef)}
    (hb : gs.length ≠ signal.length ∨
      ∃ g ∈ gs, ∃ r ∈ g, Unknown W.n r ∨ ∃ k, Means W.n r k ∧ (W.n.c.link k).dst ≠ n) (off : ℚ) (reset : Bool)
    (offOld : Option ℚ) :
    ∃ W' e, W.overrideSignal n signal (some gs) off reset offOld = (W', some e) ∧ W'.group = W.group ∧
      W'.n.c.link = W.n.c.link ∧ (W'.n.c.node n).sigInt = signal := by
  obtain ⟨W2, h1, hg, hlk, h2⟩ := signal_mid hfl n signal off reset offOld
  have hA : Agree W2.n := by
    rw [h1.names]
    exact agree_c h (by rw [h1.g]) (by rw [h1.g]) (fun j => by rw [hlk]; exact ⟨rfl, rfl⟩)
  rw [h2]
  simp only
  split
  · exact ⟨W2, _, rfl, hg, hlk, h1.plan⟩
  · rename_i hne
    obtain ⟨e, he⟩ := phaseInfo_bad hA (n := n) (gs := gs) (by
      rcases hb with hb | hb
      · exact (hne hb).elim
      · rw [h1.names, hlk]; exact hb) 0
    rw [he]
    exact ⟨W2, e, rfl, hg, hlk, h1.plan⟩

/-! ### New vehicles -/

theorem added_refl (o d : ℕ) (p av : List ℕ) (c : CWorld) : Added o d p av c c :=
  ⟨le_rfl, fun _ _ => rfl, fun _ h1 h2 => absurd h2 (by omega), rfl, rfl, rfl, rfl⟩

theorem added_one {o d : ℕ} {p : List ℕ} {c c1 : CWorld} (h : Added o d p [] c c1) (q : ℚ) :
    Added o d p [] c (c1.addVehicle q o d p) := by
  have hm := h.more
  refine ⟨?_, fun i hi => ?_, fun i h1 h2 => ?_, h.node, h.link, h.nNodes, h.nLinks⟩
  · show _ ≤ c1.g.nVehs + 1; omega
  · show upd c1.veh c1.g.nVehs _ i = _
    rw [show upd c1.veh c1.g.nVehs _ i = c1.veh i from by simp only [upd]; rw [if_neg (by omega)]]
    exact h.old i hi
  · have h2 : i < c1.g.nVehs + 1 := h2
    by_cases he : i = c1.g.nVehs
    · subst he
      rw [show (c1.addVehicle q o d p).veh c1.g.nVehs = CWorld.newVeh q o d p from by
        simp [CWorld.addVehicle, upd]]
      exact ⟨rfl, rfl, rfl, rfl, rfl⟩
    · rw [show (c1.addVehicle q o d p).veh i = c1.veh i from by simp [CWorld.addVehicle, upd, he]]
      exact h.new i h1 (by omega)

theorem demandWhile_added {o d : ℕ} {p : List ℕ} {ts : ℤ} {c : CWorld} {fuel : ℕ} {x y : CWorld × ℚ}
    (h : Added o d p [] c x.1) (e : CWorld.demandWhile o d p ts fuel x = some y) : Added o d p [] c y.1 := by
  induction fuel generalizing x with
  | zero => cases e
  | succ k ih =>
    obtain ⟨c1, q⟩ := x
    rw [CWorld.demandWhile] at e
    split at e
    · exact ih (added_one h _) e
    · rw [← Option.some.inj e]; exact h

theorem demandFor_added {o d : ℕ} {p : List ℕ} {flow : ℚ} {fuel k : ℕ} {ts : ℤ} {c : CWorld} {x y : CWorld × ℚ}
    (h : Added o d p [] c x.1) (e : CWorld.demandFor o d p flow fuel k ts x = some y) : Added o d p [] c y.1 := by
  induction k generalizing x ts with
  | zero =>
    rw [CWorld.demandFor] at e
    rw [← Option.some.inj e]; exact h
  | succ k ih =>
    obtain ⟨c1, q⟩ := x
    rw [CWorld.demandFor, Option.bind_eq_some_iff] at e
    obtain ⟨z, h1, h2⟩ := e
    exact ih (demandWhile_added (x := (c1, c1.g.fl (q + c1.g.fl (flow * c1.g.deltaT)))) h h1) h2

theorem addDemand_added {o d : ℕ} {p : List ℕ} {t0 t1 flow : ℚ} {fuel : ℕ} {c c' : CWorld}
    (e : c.addDemand o d t0 t1 flow p fuel = some c') : Added o d p [] c c' := by
  unfold CWorld.addDemand at e
  rw [Option.map_eq_some_iff] at e
  obtain ⟨y, h1, rfl⟩ := e
  exact demandFor_added (x := (c, 0)) (added_refl ..) h1

theorem avoid_fold (av : List ℕ) (ns : List ℕ) (c : CWorld) :
    ns.foldl (fun c i => c.edit (.avoid i av)) c =
      { c with veh := fun i => if i ∈ ns then { c.veh i with avoid := av } else c.veh i } := by
  induction ns generalizing c with
  | nil => simp
  | cons n ns ih =>
    rw [List.foldl_cons, ih]
    simp only [CWorld.edit, CWorld.setV]
    congr 1
    funext i
    by_cases hi : i = n
    · subst hi; simp [upd]
    · simp [upd, hi]

/-- **C121.** `addVehicle` with `links_prefer` and `links_avoid`: the engine gets both. -/
theorem C121_add {W W' : Ask} (h : Agree W.n) {t : ℚ} {o d : ℕ} {pref av : List LRef} {pk ak : List ℕ}
    (hp : List.Forall₂ (Means W.n) pref pk) (ha : List.Forall₂ (Means W.n) av ak) {fuel : ℕ}
    (e : W.addVehicle t o d pref av fuel = some W') : Added o d pk ak W.n.c W'.n.c ∧ Agree W'.n := by
  unfold Ask.addVehicle at e
  extract_lets fl nameOf cav at e
  have e1 : pref.filterMap (fun r => W.n.lMap (nameOf r)) = pk := by
    clear e
    induction hp with
    | nil => rfl
    | @cons r k rs ks hm _ ih =>
      have : W.n.lMap (nameOf r) = some k := by
        cases r with
        | name s => exact (h.lLook s k).2.2 hm
        | obj i =>
          obtain ⟨rfl, hk⟩ := hm
          refine (h.lLook _ i).2.2 ?_
          show W.n.links[i]? = some (W.n.links.getD i "")
          rw [List.getElem?_eq_getElem hk, List.getD_eq_getElem?_getD, List.getElem?_eq_getElem hk]; rfl
        | none => exact hm.elim
      rw [List.filterMap_cons_some (f := fun r => W.n.lMap (nameOf r)) this, ih]
  have e2 : cav = ak := by
    show av.filterMap _ = ak
    clear e
    induction ha with
    | nil => rfl
    | @cons r k rs ks hm _ ih =>
      obtain ⟨a, b⟩ := means_getLink h hm
      rw [List.filterMap_cons_some (b := k) (by rw [a]; exact b), ih]
  rw [e1, e2] at e
  split at e
  · cases e
  rename_i c hc
  have hA := addDemand_added hc
  rw [Option.some.injEq] at e
  have key : Added o d pk ak W.n.c W'.n.c := by
    rw [← e]
    dsimp only
    split
    · rename_i hav
      subst hav
      cases ha
      exact hA
    · rw [avoid_fold]
      refine ⟨hA.more, fun i hi => ?_, fun i h1 h2 => ?_, hA.node, hA.link, hA.nNodes, hA.nLinks⟩
      · dsimp only
        rw [if_neg (by rw [List.mem_range']; rintro ⟨j, _, rfl⟩; omega)]
        exact hA.old i hi
      · have h2 : i < c.g.nVehs := h2
        dsimp only
        rw [if_pos (by rw [List.mem_range']; exact ⟨i - W.n.c.g.nVehs, by omega, by omega⟩)]
        obtain ⟨a, b, x, _, y⟩ := hA.new i h1 h2
        exact ⟨a, b, x, rfl, y⟩
  refine ⟨key, ?_⟩
  have := agree_c h key.nNodes key.nLinks (fun j => by rw [key.link]; exact ⟨rfl, rfl⟩)
  rw [← e] at this ⊢
  exact this

end

/-! ### Concrete cases -/

/-- Calls of which all succeed. -/
def callAll : Names → List Names.Call → Option Names
  | W, [] => some W
  | W, x :: xs => match W.call x with
    | some (W', none) => callAll W' xs
    | _ => none

/-- Links are given by names of nodes. -/
def plain : Names.Call → Bool
  | .link (some _) (.name _) (.name _) false _ _ => true
  | .link .. => false
  | .node .. => true

/-- The name that `auto_rename` would choose is unused. -/
def freshOne (W : Names) : Names.Call → Bool
  | .node n _ suf _ _ _ _ _ _ => decide (W.nDict (n ++ "_renamed" ++ suf) = none)
  | .link (some n) _ _ _ suf _ => decide (W.lDict (n ++ "_renamed" ++ suf) = none)
  | .link none .. => false

def fresh (W : Names) : List Names.Call → Bool
  | [] => true
  | x :: xs => freshOne W x &&
    match W.call x with
    | some (W', none) => fresh W' xs
    | _ => true

theorem callAll_built {W W' : Names} {xs : List Names.Call} (h : Names.Built W) (hp : ∀ x ∈ xs, plain x = true)
    (hf : fresh W xs = true) (e : callAll W xs = some W') : Names.Built W' := by
  induction xs generalizing W with
  | nil => rw [← Option.some.inj e]; exact h
  | cons x xs ih =>
    rw [callAll] at e
    rw [fresh, Bool.and_eq_true] at hf
    obtain ⟨f1, f2⟩ := hf
    split at e
    · rename_i V hV
      rw [hV] at f2
      refine ih (.step h ?_ hV) (fun y hy => hp y (List.mem_cons_of_mem _ hy)) f2 e
      have := hp x List.mem_cons_self
      cases x with
      | node n au suf ints off cap lanes rng fuel =>
        exact (of_decide_eq_true f1 : W.nDict (n ++ "_renamed" ++ suf) = none)
      | link n s t au suf a =>
        cases n with
        | none => cases f1
        | some n =>
          refine ⟨fun i hi => ?_, fun n0 h0 => ?_⟩
          · cases s <;> cases t <;> simp [plain] at this hi
          · cases h0; exact of_decide_eq_true f1
    · cases e

/-- Nodes `a`, `b`, `c`; links `ab`, `cb`, `bc`. -/
def reqCalls : List Names.Call := [mkNode "a" false, mkNode "b" false, mkNode "c" false,
  .link (some "ab") (.name "a") (.name "b") false "" anyLink, .link (some "cb") (.name "c") (.name "b") false "" anyLink,
  .link (some "bc") (.name "b") (.name "c") false "" anyLink]

def reqNames : Names := (callAll world0 reqCalls).getD world0

theorem reqNames_agree : Agree reqNames := by
  refine C117_agree (callAll_built (xs := reqCalls) world0_built ?_ ?_ ?_)
  · decide +kernel
  · decide +kernel
  · have h : (callAll world0 reqCalls).isSome = true := by decide +kernel
    obtain ⟨W, hW⟩ := Option.isSome_iff_exists.1 h
    unfold reqNames; rw [hW]; rfl

/-- A vehicle from `a` to `b`. -/
def reqW : Ask :=
  { n := { reqNames with c := (reqNames.c.addVehicle 0 0 1 []).initAdj }
    route := fun _ => none, prefer := fun _ => [], avoid := fun _ => [], dests := fun _ => [], offset := fun _ => 0
    group := fun _ => [0] }

theorem reqW_agree : Agree reqW.n := agree_c reqNames_agree rfl rfl (fun _ => ⟨rfl, rfl⟩)

theorem reqW_links : reqW.n.links = ["ab", "cb", "bc"] := by decide +kernel

theorem reqW_fl : reqW.n.c.g.fl = id := rfl

/-- C121 is not vacuous: a route by name and by object, and an unknown link. -/
theorem C121_case : Agree reqW.n ∧ List.Forall₂ (Means reqW.n) [.name "ab", .obj 2] [0, 2] ∧
    ((reqW.enforceRoute 0 [.name "ab", .obj 2]).n.c.veh 0).route = [0, 2] ∧
    (∃ r ∈ [LRef.name "ab", .name "ba"], Unknown reqW.n r) ∧
    (reqW.enforceRoute 0 [.name "ab", .name "ba"]).route 0 = some [some 0, none] ∧
    ((reqW.enforceRoute 0 [.name "ab", .name "ba"]).n.c.veh 0).route = [] := by
  refine ⟨reqW_agree, .cons ?_ (.cons ?_ .nil), by decide +kernel, ⟨.name "ba", by simp, show "ba" ∉ reqW.n.links from ?_⟩,
    by decide +kernel, by decide +kernel⟩
  · show reqW.n.links[0]? = some "ab"
    rw [reqW_links]; rfl
  · refine ⟨rfl, ?_⟩
    rw [reqW_links]; decide
  · rw [reqW_links]; decide

/-- C121 is not vacuous: two phases, the first for `ab`, the second for both links to `b`. -/
theorem C121_case_signal : ∃ W', reqW.overrideSignal 1 [30, 20] (some [[.name "ab"], [.name "cb", .name "ab"]]) 0 true none =
    (W', none) ∧ (W'.n.c.link 0).group = [0, 1] ∧ (W'.n.c.link 1).group = [1] ∧ (W'.n.c.node 1).sigInt = [30, 20] ∧
    (reqW.overrideSignal 1 [30, 20] (some [[.name "bc"], []]) 0 true none).2 = some .valueError := by
  refine ⟨(reqW.overrideSignal 1 [30, 20] (some [[.name "ab"], [.name "cb", .name "ab"]]) 0 true none).1,
    Prod.ext rfl ?_, by decide +kernel, by decide +kernel, by decide +kernel, by decide +kernel⟩
  decide +kernel

/-- **C121, finding.** Extra destinations have no effect: a vehicle ends its trip although it has not been there. -/
theorem C121_dest_false : ¬ ∀ (W : Ask) (v d k : ℕ), Agree W.n → v < W.n.c.g.nVehs → d < W.n.nodes.length →
    let c := ((W.addDest v (.obj d) (-1)).n.c.mainLoop (fun _ V => V.seqSched) k).1
    (c.veh v).state = .ended → ∃ l ∈ (c.enterLog v).map Prod.fst, (c.link l).dst = d := by
  intro h
  have := h reqW 0 2 20 reqW_agree (by decide +kernel) (by decide +kernel) (by decide +kernel)
  revert this
  decide +kernel

/-- **C121, finding.** A link that no group lists keeps its old phases: `cb` has green in the first phase although the
first group is `ab` alone. -/
theorem C121_unlisted_false : ¬ ∀ (W W' : Ask) (n : ℕ) (signal : List ℚ) (gs : List (List LRef)) (ks : List (List ℕ))
    (off : ℚ) (reset : Bool), Agree W.n → List.Forall₂ (List.Forall₂ (Means W.n)) gs ks →
    W.overrideSignal n signal (some gs) off reset none = (W', none) →
    ∀ l < W.n.links.length, (W.n.c.link l).dst = n → ∀ i ∈ (W'.n.c.link l).group, l ∈ ks.getD i [] := by
  intro h
  have h1 : (reqW.overrideSignal 1 [30, 20] (some [[.name "ab"], [.name "ab"]]) 0 true none).2 = none := by
    decide +kernel
  have hm : Means reqW.n (.name "ab") 0 := by
    show reqW.n.links[0]? = some "ab"
    rw [reqW_links]; rfl
  have := h reqW _ 1 [30, 20] [[.name "ab"], [.name "ab"]] [[0], [0]] 0 true reqW_agree
    (.cons (.cons hm .nil) (.cons (.cons hm .nil) .nil)) (Prod.ext rfl h1) 1 (by rw [reqW_links]; decide)
    (by decide +kernel) 0 (by decide +kernel)
  exact absurd this (by decide)

/-- **C121, finding.** The preferred links given to `addVehicle` are not shown by the Python vehicle. -/
theorem C121_shown_false {W W' : Ask} {t : ℚ} {o d : ℕ} {pref av : List LRef} {fuel : ℕ}
    (e : W.addVehicle t o d pref av fuel = some W') :
    ∀ i, W.n.c.g.nVehs ≤ i → i < W'.n.c.g.nVehs → W'.prefer i = [] ∧ W'.avoid i = [] := by
  unfold Ask.addVehicle at e
  extract_lets fl nameOf cav at e
  split at e
  · cases e
  rename_i c hc
  rw [Option.some.injEq] at e
  intro i h1 h2
  have h3 : i < c.g.nVehs := by
    rw [← e] at h2
    dsimp only at h2
    split at h2
    · exact h2
    · rw [avoid_fold] at h2; exact h2
  have hm : i ∈ List.range' W.n.c.g.nVehs (c.g.nVehs - W.n.c.g.nVehs) := by
    rw [List.mem_range']; exact ⟨i - W.n.c.g.nVehs, by omega, by omega⟩
  rw [← e]
  exact ⟨if_pos hm, if_pos hm⟩

/-- There is such a vehicle. -/
example : ∃ W', reqW.addVehicle 10 2 1 [.name "cb"] [.obj 0] 10 = some W' ∧ W'.n.c.g.nVehs = 2 ∧
    (W'.n.c.veh 1).prefer = [1] ∧ (W'.n.c.veh 1).avoid = [0] ∧ W'.prefer 1 = [] := by
  have h : (reqW.addVehicle 10 2 1 [.name "cb"] [.obj 0] 10).any (fun W' => decide (W'.n.c.g.nVehs = 2 ∧
      (W'.n.c.veh 1).prefer = [1] ∧ (W'.n.c.veh 1).avoid = [0] ∧ W'.prefer 1 = [])) = true := by decide +kernel
  cases e : reqW.addVehicle 10 2 1 [.name "cb"] [.obj 0] 10 with
  | none => rw [e] at h; cases h
  | some W' => rw [e] at h; exact ⟨W', rfl, of_decide_eq_true h⟩

end UX.Cpp
