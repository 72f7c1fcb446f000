import Verif.Spec.Csv
import Verif.Proofs.Scenario
import Verif.Props.Demo
import Mathlib.Tactic.NormNum

/-!
# C124: scenarios from CSV files
-/

namespace UX.Csv
open Spec World

variable {σ : Type} {A : Api σ} {num : String → Option ℚ}

theorem rows_of {α : Type} {row : σ → List String → σ × Option Err} {f : σ → α → σ × Option Err}
    {File : List (List String) → List α → Prop}
    (cons : ∀ {r rs as}, File (r :: rs) as →
      (File rs as ∧ ∀ s, row s r = (s, none)) ∨ ∃ a bs, as = a :: bs ∧ File rs bs ∧ ∀ s, row s r = f s a)
    (nil : ∀ {as}, File [] as → as = []) :
    ∀ {rs : List (List String)} {as : List α} {s s' : σ} {e : Option Err}, File rs as →
      (rows row rs s = (s', e) ↔ Does f as s s' e) := by
  intro rs
  induction rs with
  | nil =>
    intro as s s' e h
    rw [nil h]
    constructor
    · intro k
      simp only [rows, Prod.mk.injEq] at k
      rw [← k.1, ← k.2]; exact .nil s
    · intro k; cases k; rfl
  | cons r rs ih =>
    intro as s s' e h
    rcases cons h with ⟨h1, h2⟩ | ⟨a, bs, rfl, h1, h2⟩
    · rw [rows, h2]; exact ih h1
    · rw [rows, h2]
      rcases hf : f s a with ⟨s1, e1⟩
      cases e1 with
      | none =>
        dsimp only
        rw [ih h1]
        constructor
        · intro k; exact .next hf k
        · intro k
          cases k with
          | fail k => rw [hf] at k; simp at k
          | next k r => rw [hf] at k; simp only [Prod.mk.injEq, and_true] at k; subst k; exact r
      | some e1 =>
        dsimp only
        constructor
        · intro k
          simp only [Prod.mk.injEq] at k
          rw [← k.1, ← k.2]; exact .fail hf
        · intro k
          cases k with
          | fail k => rw [hf] at k; simp only [Prod.mk.injEq, Option.some.injEq] at k; rw [k.1, k.2]
          | next k r => rw [hf] at k; simp at k

/-- C124: a file of nodes makes exactly the calls of `addNode` its rows describe, in order, until one raises; titles are
skipped. In both modes. -/
theorem C124_nodes {rs : List (List String)} {as : List (String × ℚ × ℚ)} (h : NodeFile num rs as) (s s' : σ)
    (e : Option Err) : rows (nodeRow A num) rs s = (s', e) ↔ Does (nodeCall A) as s s' e := by
  refine rows_of (File := NodeFile num) (fun {r rs as} h => ?_) (fun h => by cases h; rfl) h
  cases h with
  | title h => exact .inl ⟨h, fun s => rfl⟩
  | @data n sx sy x y rest _ as hx hy ht h =>
    refine .inr ⟨_, _, rfl, h, fun s => ?_⟩
    simp [nodeRow, withArgs, cell, number, ht, hx, hy, nodeCall, bind, Except.bind, pure, Except.pure]

/-- C124: likewise a file of links. -/
theorem C124_links {rs : List (List String)} {as : List LinkLine} (h : LinkFile num rs as) (s s' : σ) (e : Option Err) :
    rows (linkRow A num) rs s = (s', e) ↔ Does (linkCall A) as s s' e := by
  refine rows_of (File := LinkFile num) (fun {r rs as} h => ?_) (fun h => by cases h; rfl) h
  cases h with
  | title h => exact .inl ⟨h, fun s => rfl⟩
  | data L h1 h2 h3 h4 ht h =>
    refine .inr ⟨_, _, rfl, h, fun s => ?_⟩
    simp [linkRow, withArgs, cell, number, ht, h1, h2, h3, h4, linkCall, bind, Except.bind, pure, Except.pure]

theorem demandLong_six {r o d s1 s2 s3 s4 : _} {rest : List String} {t0 t1 q v : ℚ} (hr : r = o :: d :: s1 :: s2 :: s3 :: s4 :: rest)
    (h1 : num s1 = some t0) (h2 : num s2 = some t1) (h3 : num s3 = some q) (h4 : num s4 = some v) (s : σ) :
    demandLong A num s r = A.addDemand s o d t0 t1 q (some v) := by
  subst hr
  simp [demandLong, withArgs, cell, number, h1, h2, h3, h4, bind, Except.bind, pure, Except.pure]

theorem demandShort_five {r o d s1 s2 s3 : _} {rest : List String} {t0 t1 q : ℚ} (hr : r = o :: d :: s1 :: s2 :: s3 :: rest)
    (h1 : num s1 = some t0) (h2 : num s2 = some t1) (h3 : num s3 = some q) (s : σ) :
    demandShort A num s r = A.addDemand s o d t0 t1 q none := by
  subst hr
  simp [demandShort, withArgs, cell, number, h1, h2, h3, bind, Except.bind, pure, Except.pure]

theorem demandRow_data {o d s1 : String} {rest : List String} (ht : s1 ≠ "start_t") (s : σ) :
    demandRow A num s (o :: d :: s1 :: rest) = match demandLong A num s (o :: d :: s1 :: rest) with
      | (s', none) => (s', none)
      | (s', some _) => demandShort A num s' (o :: d :: s1 :: rest) := by
  simp [demandRow, withArgs, cell, ht]
  rfl

theorem demandRow_five {o d s1 s2 s3 : String} {t0 t1 q : ℚ} (ht : s1 ≠ "start_t") (h1 : num s1 = some t0)
    (h2 : num s2 = some t1) (h3 : num s3 = some q) (s : σ) :
    demandRow A num s [o, d, s1, s2, s3] = A.addDemand s o d t0 t1 q none := by
  rw [demandRow_data ht]
  have : demandLong A num s [o, d, s1, s2, s3] = (s, some .indexError) := by
    simp [demandLong, withArgs, cell, number, h1, h2, h3, bind, Except.bind]
  rw [this]
  exact demandShort_five rfl h1 h2 h3 s

/-- C124: a file of demands of which no call raises makes exactly the calls of `adddemand` its rows describe. -/
theorem C124_demand {rs : List (List String)} {as : List DemandLine} (h : DemandFile num rs as) {s s' : σ}
    (d : Does (demandCall A) as s s' none) : rows (demandRow A num) rs s = (s', none) := by
  induction h generalizing s with
  | nil => cases d; rfl
  | title _ ih => rw [rows]; exact ih d
  | flow L h1 h2 h3 hv ht _ ih =>
    cases d with
    | next k r =>
      rw [rows, demandRow_five ht h1 h2 h3]
      unfold demandCall at k
      rw [hv] at k
      rw [k]
      exact ih r
  | volume L h1 h2 h3 h4 hv ht _ ih =>
    cases d with
    | next k r =>
      unfold demandCall at k
      rw [hv] at k
      rw [rows, demandRow_data ht, demandLong_six rfl h1 h2 h3 h4, k]
      exact ih r

/-- C124: a file of demands without volumes makes the calls its rows describe until one raises. -/
theorem C124_flow {rs : List (List String)} {as : List DemandLine} (h : DemandFile num rs as)
    (hn : ∀ r ∈ rs, r.length ≤ 5) (s s' : σ) (e : Option Err) :
    rows (demandRow A num) rs s = (s', e) ↔ Does (demandCall A) as s s' e := by
  refine rows_of (File := fun rs as => DemandFile num rs as ∧ ∀ r ∈ rs, r.length ≤ 5) (fun {r rs as} h => ?_)
    (fun h => by cases h.1; rfl) ⟨h, hn⟩
  obtain ⟨h, hn⟩ := h
  have hn' : ∀ r ∈ rs, r.length ≤ 5 := fun r hr => hn r (List.mem_cons_of_mem _ hr)
  cases h with
  | title h => exact .inl ⟨⟨h, hn'⟩, fun s => rfl⟩
  | flow L h1 h2 h3 hv ht h =>
    refine .inr ⟨_, _, rfl, ⟨h, hn'⟩, fun s => ?_⟩
    rw [demandRow_five ht h1 h2 h3, demandCall, hv]
  | volume L h1 h2 h3 h4 hv ht h =>
    have := hn _ List.mem_cons_self
    simp at this

/-- C124: the whole load makes the calls for all nodes, then for all links, then for all demands, and sets `TMAX` if one
is given. -/
theorem C124_load {ns ls ds : List (List String)} {as : List (String × ℚ × ℚ)} {bs : List LinkLine} {cs : List DemandLine}
    (hn : NodeFile num ns as) (hl : LinkFile num ls bs) (hd : DemandFile num ds cs) {s s1 s2 s3 : σ}
    (h1 : Does (nodeCall A) as s s1 none) (h2 : Does (linkCall A) bs s1 s2 none) (h3 : Does (demandCall A) cs s2 s3 none)
    (tmax : Option ℚ) : load A num ns ls ds tmax s = (match tmax with | some t => A.setTmax s3 t | none => s3, none) := by
  unfold load
  rw [(C124_nodes hn s s1 none).2 h1]
  dsimp only
  rw [(C124_links hl s1 s2 none).2 h2]
  dsimp only
  rw [C124_demand hd h3]
  cases tmax <;> rfl

/-- C124: what is written as a file can be read: for every way of writing numbers that `float` reads back, files made of a
title and one row per node, link and demand have these contents. -/
theorem C124_written (text : ℚ → String) (hnum : ∀ q, num (text q) = some q) (hx : num "x" = none)
    (hl : num "length" = none) (hs : num "start_t" = none) (as : List (String × ℚ × ℚ)) (bs : List LinkLine)
    (cs : List DemandLine) :
    NodeFile num (["name", "x", "y"] :: as.map (fun a => [a.1, text a.2.1, text a.2.2])) as ∧
    LinkFile num (["name", "start", "end", "length", "u", "kappa", "merge_priority"] :: bs.map (fun L =>
      [L.name, L.start, L.stop, text L.length, text L.speed, text L.jam, text L.priority])) bs ∧
    DemandFile num (["orig", "dest", "start_t", "end_t", "q"] :: cs.map (fun L =>
      [L.orig, L.dest, text L.start, text L.stop, text L.flow] ++ (L.volume.map text).toList)) cs := by
  have ne : ∀ {w : String} (_ : num w = none) (q : ℚ), text q ≠ w := by
    intro w hw q e
    have := hnum q
    rw [e, hw] at this
    cases this
  refine ⟨.title ?_, .title ?_, .title ?_⟩
  · induction as with
    | nil => exact .nil
    | cons a as ih => exact .data (hnum _) (hnum _) (ne hx _) ih
  · induction bs with
    | nil => exact .nil
    | cons L bs ih => exact .data L (hnum _) (hnum _) (hnum _) (hnum _) (ne hl _) ih
  · induction cs with
    | nil => exact .nil
    | cons L cs ih =>
      rcases hv : L.volume with _ | v
      · simp only [List.map_cons, hv, Option.map_none, Option.toList_none, List.append_nil]
        exact .flow L (hnum _) (hnum _) (hnum _) hv (ne hs _) ih
      · simp only [List.map_cons, hv, Option.map_some, Option.toList_some, List.cons_append, List.nil_append]
        exact .volume L (hnum _) (hnum _) (hnum _) (hnum v) hv (ne hs _) ih

theorem rows_append {row : σ → List String → σ × Option Err} {more : List (List String)} {r : List String} {s2 : σ} {e : Err} :
    ∀ {rs : List (List String)} {s s1 : σ}, rows row rs s = (s1, none) → row s1 r = (s2, some e) →
      rows row (rs ++ r :: more) s = (s2, some e)
  | [], s, s1, h, hr => by
    simp only [rows, Prod.mk.injEq, and_true] at h
    subst h
    rw [List.nil_append, rows, hr]
  | x :: rs, s, s1, h, hr => by
    rw [List.cons_append, rows]
    rw [rows] at h
    rcases hf : row s x with ⟨s', e'⟩
    rw [hf] at h
    cases e' with
    | none => exact rows_append (rs := rs) h hr
    | some e' => simp at h

/-- C124: a row of a file of nodes that is too short (a blank line, too) or holds no number ends the load with an
exception; the nodes of the rows before remain, the rows after are not read. -/
theorem C124_bad {rs : List (List String)} {as : List (String × ℚ × ℚ)} (h : NodeFile num rs as) {s s1 : σ}
    (d : Does (nodeCall A) as s s1 none) (more : List (List String)) :
    (∀ r : List String, r.length < 2 → rows (nodeRow A num) (rs ++ r :: more) s = (s1, some .indexError)) ∧
    (∀ n sx rest, sx ≠ "x" → num sx = none →
      rows (nodeRow A num) (rs ++ (n :: sx :: rest) :: more) s = (s1, some .valueError)) ∧
    ∀ n sx x, sx ≠ "x" → num sx = some x →
      rows (nodeRow A num) (rs ++ [n, sx] :: more) s = (s1, some .indexError) := by
  have hg := (C124_nodes h s s1 none).2 d
  refine ⟨fun r hr => rows_append hg ?_, fun n sx rest hx hn => rows_append hg ?_, fun n sx x hx hn => rows_append hg ?_⟩
  · have : r[1]? = none := List.getElem?_eq_none_iff.2 (by omega)
    simp [nodeRow, withArgs, cell, this]
  · simp [nodeRow, withArgs, cell, number, hx, hn, bind, Except.bind]
  · simp [nodeRow, withArgs, cell, number, hx, hn, bind, Except.bind]

/-! ## The Python mode -/

theorem kept_ok {W W' : World} {m : M World} {e : Option Err} (h : kept W m = (W', e)) (he : e = none) : m = .ok W' := by
  cases m with
  | ok V => simp only [kept, Prod.mk.injEq] at h; rw [h.1]
  | error x => subst he; simp [kept] at h

/-- C124: in the Python mode the new nodes have the names and coordinates of the file, in its order, and are found by
their names; the names are new and differ from each other. -/
theorem C124_python_nodes {as : List (String × ℚ × ℚ)} {W W' : World} (d : Does (nodeCall python) as W W' none) :
    W'.nNodes = W.nNodes + as.length ∧ W'.nLinks = W.nLinks ∧ W'.nVeh = W.nVeh ∧ W'.L = W.L ∧ (as.map Prod.fst).Nodup ∧
    (∀ n, W'.nodeDict n = W.nodeDict n ∨ W.nodeDict n = none) ∧
    (∀ i, i < W.nNodes → W'.N.name i = W.N.name i ∧ W'.N.x i = W.N.x i ∧ W'.N.y i = W.N.y i) ∧
    ∀ i (h : i < as.length), W'.N.name (W.nNodes + i) = as[i].1 ∧ W'.N.x (W.nNodes + i) = as[i].2.1 ∧
      W'.N.y (W.nNodes + i) = as[i].2.2 ∧ W.nodeDict as[i].1 = none ∧ W'.nodeDict as[i].1 = some (W.nNodes + i) := by
  generalize he : (none : Option Err) = e at d
  induction d with
  | nil s => exact ⟨rfl, rfl, rfl, rfl, List.nodup_nil, fun _ => .inl rfl, fun _ _ => ⟨rfl, rfl, rfl⟩, fun i h => absurd h (Nat.not_lt_zero i)⟩
  | fail h => cases he
  | @next a as W W1 W' e h r ih =>
    have h1 := kept_ok h rfl
    unfold World.addNode at h1
    have hs : initSignal W.cfg.fl 1 { name := a.1, x := a.2.1, y := a.2.2 } = .ok (0, 0, 0) := by
      unfold initSignal; simp
    rw [hs] at h1
    dsimp only at h1
    cases hd : W.nodeDict a.1 with
    | some k => rw [hd] at h1; cases h1
    | none =>
      rw [hd] at h1
      simp only [Except.ok.injEq] at h1
      obtain ⟨i1, i2, i3, i4, i5, i6, i7, i8⟩ := ih he
      subst h1
      dsimp only at i1 i2 i3 i4 i6 i7 i8
      have hne : ∀ i (h : i < as.length), as[i].1 ≠ a.1 := by
        intro i h e
        have := (i8 i h).2.2.2.1
        rw [e] at this
        simp [upd] at this
      have h0 := i7 W.nNodes (Nat.lt_succ_self _)
      refine ⟨by rw [i1]; simp only [List.length_cons]; omega, i2, i3, i4, ?_, ?_, ?_, ?_⟩
      · rw [List.map_cons, List.nodup_cons]
        refine ⟨fun hm => ?_, i5⟩
        obtain ⟨b, hb, e⟩ := List.mem_map.1 hm
        obtain ⟨i, hi, rfl⟩ := List.mem_iff_getElem.1 hb
        exact hne i hi e
      · intro n
        by_cases e : n = a.1
        · subst e; exact .inr hd
        · rcases i6 n with k | k
          · left; rw [k]; simp [upd, e]
          · right; simpa [upd, e] using k
      · intro i hi
        obtain ⟨a1, a2, a3⟩ := i7 i (by omega)
        have : i ≠ W.nNodes := by omega
        exact ⟨by simpa [upd, this] using a1, by simpa [upd, this] using a2, by simpa [upd, this] using a3⟩
      · intro i hi
        cases i with
        | zero =>
          refine ⟨by simpa [upd] using h0.1, by simpa [upd] using h0.2.1, by simpa [upd] using h0.2.2, hd, ?_⟩
          show W'.nodeDict a.1 = some W.nNodes
          rcases i6 a.1 with k | k
          · rw [k]; simp [upd]
          · simp [upd] at k
        | succ i =>
          have hi' : i < as.length := by simp only [List.length_cons] at hi; omega
          obtain ⟨b1, b2, b3, b4, b5⟩ := i8 i hi'
          have e : W.nNodes + 1 + i = W.nNodes + (i + 1) := by omega
          rw [e] at b1 b2 b3 b5
          refine ⟨b1, b2, b3, ?_, b5⟩
          simpa [upd, hne i hi'] using b4

/-- A call of `addLink` with these arguments that succeeds. -/
theorem addLink_line {L : LinkLine} {W W' : World} (h : linkCall python W L = (W', none)) :
    W'.nLinks = W.nLinks + 1 ∧ W'.nNodes = W.nNodes ∧ W'.nVeh = W.nVeh ∧ W'.nodeDict = W.nodeDict ∧ W'.N.name = W.N.name ∧
    W.linkDict L.name = none ∧ W'.linkDict = upd W.linkDict L.name (some W.nLinks) ∧
    (∀ i, i < W.nLinks → W'.L.name i = W.L.name i ∧ W'.L.startN i = W.L.startN i ∧ W'.L.endN i = W.L.endN i ∧
      W'.L.length i = W.L.length i ∧ W'.L.u i = W.L.u i ∧ W'.L.kappa i = W.L.kappa i ∧
      W'.L.mergePriority i = W.L.mergePriority i) ∧
    W'.L.name W.nLinks = L.name ∧ W.nodeDict L.start = some (W'.L.startN W.nLinks) ∧
    W.nodeDict L.stop = some (W'.L.endN W.nLinks) ∧ W'.L.length W.nLinks = L.length ∧ W'.L.u W.nLinks = L.speed ∧
    W'.L.kappa W.nLinks = L.jam ∧ W'.L.mergePriority W.nLinks = L.priority := by
  have h1 := kept_ok h rfl
  unfold World.addLink at h1
  simp only [getNode, bind, Except.bind, pure, Except.pure] at h1
  cases hs : W.nodeDict L.start with
  | none => rw [hs] at h1; cases h1
  | some a =>
    cases he : W.nodeDict L.stop with
    | none => rw [hs, he] at h1; cases h1
    | some b =>
      rw [hs, he] at h1
      dsimp only at h1
      have h1' : pyInt (1 : ℚ) = 1 := by unfold pyInt; norm_num
      rw [h1'] at h1
      norm_num at h1
      cases hp : linkParams W.cfg.fl W.cfg.reactionTime 1 L.speed L.jam with
      | error e => rw [hp] at h1; cases h1
      | ok p =>
        rw [hp] at h1
        have hk : p.1 = L.jam := by
          unfold linkParams at hp
          dsimp only at hp
          split at hp
          · cases hp
          · split at hp
            · cases hp
            · split at hp
              · cases hp
              · cases hp; rfl
        dsimp only at h1
        cases hd : W.linkDict L.name with
        | some k => rw [hd] at h1; cases h1
        | none =>
          rw [hd] at h1
          simp only [Except.ok.injEq] at h1
          subst h1
          refine ⟨rfl, rfl, rfl, rfl, rfl, rfl, rfl, fun i hi => ?_, ?_⟩
          · have : i ≠ W.nLinks := by omega
            simp [upd, this]
          · simp [upd, hk]

/-- C124: in the Python mode the new links have the names, ends, lengths, speeds, jam densities and merge priorities of
the file, in its order. -/
theorem C124_python_links {as : List LinkLine} {W W' : World} (d : Does (linkCall python) as W W' none) :
    W'.nLinks = W.nLinks + as.length ∧ W'.nNodes = W.nNodes ∧ W'.nVeh = W.nVeh ∧ W'.nodeDict = W.nodeDict ∧
    W'.N.name = W.N.name ∧ (as.map LinkLine.name).Nodup ∧
    (∀ i, i < W.nLinks → W'.L.name i = W.L.name i ∧ W'.L.startN i = W.L.startN i ∧ W'.L.endN i = W.L.endN i ∧
      W'.L.length i = W.L.length i ∧ W'.L.u i = W.L.u i ∧ W'.L.kappa i = W.L.kappa i ∧
      W'.L.mergePriority i = W.L.mergePriority i) ∧
    ∀ i (h : i < as.length), W.linkDict as[i].name = none ∧ W'.L.name (W.nLinks + i) = as[i].name ∧
      W.nodeDict as[i].start = some (W'.L.startN (W.nLinks + i)) ∧
      W.nodeDict as[i].stop = some (W'.L.endN (W.nLinks + i)) ∧ W'.L.length (W.nLinks + i) = as[i].length ∧
      W'.L.u (W.nLinks + i) = as[i].speed ∧ W'.L.kappa (W.nLinks + i) = as[i].jam ∧
      W'.L.mergePriority (W.nLinks + i) = as[i].priority := by
  generalize he : (none : Option Err) = e at d
  induction d with
  | nil s => exact ⟨rfl, rfl, rfl, rfl, rfl, List.nodup_nil, fun _ _ => ⟨rfl, rfl, rfl, rfl, rfl, rfl, rfl⟩,
      fun i h => absurd h (Nat.not_lt_zero i)⟩
  | fail h => cases he
  | @next L as W W1 W' e h r ih =>
    obtain ⟨a1, a2, a3, a4, a5, a6, a7, a8, a9⟩ := addLink_line h
    obtain ⟨i1, i2, i3, i4, i5, i6, i7, i8⟩ := ih he
    have hne : ∀ i (h : i < as.length), as[i].name ≠ L.name := by
      intro i h e
      have := (i8 i h).1
      rw [a7, e] at this
      simp [upd] at this
    have h0 := i7 W.nLinks (by omega)
    refine ⟨by rw [i1, a1]; simp only [List.length_cons]; omega, i2.trans a2, i3.trans a3, i4.trans a4, i5.trans a5, ?_, ?_, ?_⟩
    · rw [List.map_cons, List.nodup_cons]
      refine ⟨fun hm => ?_, i6⟩
      obtain ⟨b, hb, e⟩ := List.mem_map.1 hm
      obtain ⟨i, hi, rfl⟩ := List.mem_iff_getElem.1 hb
      exact hne i hi e
    · intro i hi
      obtain ⟨x1, x2, x3, x4, x5, x6, x7⟩ := i7 i (by omega)
      obtain ⟨y1, y2, y3, y4, y5, y6, y7⟩ := a8 i hi
      exact ⟨x1.trans y1, x2.trans y2, x3.trans y3, x4.trans y4, x5.trans y5, x6.trans y6, x7.trans y7⟩
    · intro i hi
      cases i with
      | zero =>
        obtain ⟨x1, x2, x3, x4, x5, x6, x7⟩ := h0
        obtain ⟨y1, y2, y3, y4, y5, y6, y7⟩ := a9
        show W.linkDict L.name = none ∧ W'.L.name W.nLinks = L.name ∧ W.nodeDict L.start = some (W'.L.startN W.nLinks) ∧
          W.nodeDict L.stop = some (W'.L.endN W.nLinks) ∧ W'.L.length W.nLinks = L.length ∧ W'.L.u W.nLinks = L.speed ∧
          W'.L.kappa W.nLinks = L.jam ∧ W'.L.mergePriority W.nLinks = L.priority
        rw [x2, x3]
        exact ⟨a6, x1.trans y1, y2, y3, x4.trans y4, x5.trans y5, x6.trans y6, x7.trans y7⟩
      | succ i =>
        have hi' : i < as.length := by simp only [List.length_cons] at hi; omega
        obtain ⟨b1, b2, b3, b4, b5⟩ := i8 i hi'
        have e : W1.nLinks + i = W.nLinks + (i + 1) := by omega
        rw [e] at b2 b3 b4 b5
        rw [a4] at b3 b4
        refine ⟨?_, b2, b3, b4, b5⟩
        rw [a7] at b1
        simpa [upd, hne i hi'] using b1

/-- C124: it is false that a volume that cannot be read is reported: the row counts as one without a volume. -/
theorem C124_typo_false {o d s1 s2 s3 s4 : String} {rest : List String} {t0 t1 q : ℚ} (ht : s1 ≠ "start_t")
    (h1 : num s1 = some t0) (h2 : num s2 = some t1) (h3 : num s3 = some q) (h4 : num s4 = none) (s : σ) :
    demandRow A num s (o :: d :: s1 :: s2 :: s3 :: s4 :: rest) = A.addDemand s o d t0 t1 q none := by
  rw [demandRow_data ht]
  have : demandLong A num s (o :: d :: s1 :: s2 :: s3 :: s4 :: rest) = (s, some .valueError) := by
    simp [demandLong, withArgs, cell, number, h1, h2, h3, h4, bind, Except.bind]
  rw [this]
  exact demandShort_five rfl h1 h2 h3 s

/-- C124: it is false that an exception of `adddemand` with a volume is reported: `adddemand` is called again without the
volume, in the state the first call left behind, and only its exception counts. -/
theorem C124_retry_false {o d s1 s2 s3 s4 : String} {rest : List String} {t0 t1 q v : ℚ} (ht : s1 ≠ "start_t")
    (h1 : num s1 = some t0) (h2 : num s2 = some t1) (h3 : num s3 = some q) (h4 : num s4 = some v) {s s' : σ} {e : Err}
    (hr : A.addDemand s o d t0 t1 q (some v) = (s', some e)) :
    demandRow A num s (o :: d :: s1 :: s2 :: s3 :: s4 :: rest) = A.addDemand s' o d t0 t1 q none := by
  rw [demandRow_data ht, demandLong_six rfl h1 h2 h3 h4, hr]
  exact demandShort_five rfl h1 h2 h3 s'

/-- C124: so in the Python mode a volume that is to depart at one moment raises no exception and gives no vehicle. -/
theorem C124_moment_false {o d s1 s3 s4 : String} {rest : List String} {t q v : ℚ} (ht : s1 ≠ "start_t")
    (h1 : num s1 = some t) (h3 : num s3 = some q) (h4 : num s4 = some v) (hv : 0 < v) {W : World} (hfl : W.cfg.fl = id) :
    demandRow python num W (o :: d :: s1 :: s1 :: s3 :: s4 :: rest) = (W, none) := by
  have hb : python.addDemand W o d t t q (some v) = (W, some .zeroDivision) := by
    simp [python, World.addDemand, kept, hv, World.fl, hfl, bind, Except.bind, throw, throwThe, MonadExceptOf.throw]
  rw [C124_retry_false ht h1 h1 h3 h4 hb]
  have hn : ¬ (0 : ℚ) < -1 := by norm_num
  simp only [python, World.addDemand, kept, bind, Except.bind, pure, Except.pure, Option.getD_none, if_neg hn]
  simp [pyRange, demandLoop]

/-! ## Concrete cases -/

/-- A reader of a few numbers. -/
def csvNum : String → Option ℚ
  | "0" => some 0
  | "1" => some 1
  | "0.2" => some (1 / 5)
  | "20" => some 20
  | "100" => some 100
  | "1000" => some 1000
  | _ => none

def csvNodes : List (List String) := [["name", "x", "y"], ["a", "0", "0"], ["b", "1", "0"]]

def csvLinks : List (List String) :=
  [["name", "start", "end", "length", "u", "kappa", "merge_priority"], ["ab", "a", "b", "1000", "20", "0.2", "1"]]

def csvDemand : List (List String) :=
  [["orig", "dest", "start_t", "end_t", "q"], ["a", "b", "0", "100", "0.2"], ["a", "b", "0", "100", "0", "100"]]

/-- C124: two nodes, a link and a demand of 20 and of 100 vehicles, in platoons of 5. -/
theorem C124_case :
    NodeFile csvNum csvNodes [("a", 0, 0), ("b", 1, 0)] ∧ LinkFile csvNum csvLinks [⟨"ab", "a", "b", 1000, 20, 1 / 5, 1⟩] ∧
    DemandFile csvNum csvDemand [⟨"a", "b", 0, 100, 1 / 5, none⟩, ⟨"a", "b", 0, 100, 0, some 100⟩] ∧
    (load python csvNum csvNodes csvLinks csvDemand (some 100) (World.new demoCfg none (fun _ => 0))).2 = none ∧
    (load python csvNum csvNodes csvLinks csvDemand (some 100) (World.new demoCfg none (fun _ => 0))).1.nVeh = 24 ∧
    (load python csvNum csvNodes csvLinks csvDemand (some 100) (World.new demoCfg none (fun _ => 0))).1.tmax = some 100 := by
  refine ⟨.title (.data rfl rfl (by decide) (.data rfl rfl (by decide) .nil)),
    .title (.data ⟨"ab", "a", "b", 1000, 20, 1 / 5, 1⟩ rfl rfl rfl rfl (by decide) .nil),
    .title (.flow ⟨"a", "b", 0, 100, 1 / 5, none⟩ rfl rfl rfl rfl (by decide)
      (.volume ⟨"a", "b", 0, 100, 0, some 100⟩ rfl rfl rfl rfl rfl (by decide) .nil)), ?_, ?_, ?_⟩ <;> decide +kernel

/-- C124: it is false that a blank line at the end of a file is ignored. -/
theorem C124_blank_false :
    (rows (nodeRow python csvNum) (csvNodes ++ [[]]) (World.new demoCfg none (fun _ => 0))).2 = some .indexError := by
  decide +kernel

end UX.Csv
