import Verif.Spec.CppNames
import Mathlib.Data.List.Nodup
import Mathlib.Tactic.Common

/-!
# C117: the names of nodes and links in the C++ mode
-/

namespace UX
namespace Cpp
namespace Names
open Spec

theorem renamed_ne (n suf : String) : n ++ "_renamed" ++ suf ≠ n := by
  intro h
  have := congrArg (fun s => s.toList.length) h
  simp only [String.toList_append, List.length_append] at this
  have h2 : "_renamed".toList.length = 8 := by decide
  omega

/-- Appending a name that is not in the dictionary. -/
theorem look_append {l : List String} {d : String → Option ℕ} (h : ∀ s i, d s = some i ↔ l[i]? = some s) {nm : String}
    (hn : d nm = none) : ∀ s i, upd d nm (some l.length) s = some i ↔ (l ++ [nm])[i]? = some s := by
  intro s i
  unfold upd
  rw [List.getElem?_append]
  split
  · rename_i e
    subst e
    constructor
    · intro h1; cases h1; simp
    · intro h1
      split at h1
      · have := (h s i).2 h1
        rw [hn] at this; exact absurd this (by simp)
      · rename_i h2
        rcases Nat.lt_or_ge (i - l.length) 1 with h3 | h3
        · have : l.length = i := by omega
          rw [this]
        · rw [List.getElem?_eq_none (by simpa using h3)] at h1
          exact absurd h1 (by simp)
  · rename_i e
    rw [h s i]
    split
    · exact Iff.rfl
    · rename_i h2
      rw [List.getElem?_eq_none (by omega)]
      constructor
      · simp
      · intro h1
        have := List.mem_of_getElem? h1
        rw [List.mem_singleton] at this
        exact absurd this e

theorem nodup_append {l : List String} {d : String → Option ℕ} (h : ∀ s i, d s = some i ↔ l[i]? = some s) {nm : String}
    (hn : d nm = none) (hl : l.Nodup) : (l ++ [nm]).Nodup := by
  refine List.nodup_append.2 ⟨hl, by simp, fun a ha b hb => ?_⟩
  rw [List.mem_singleton] at hb
  subst hb
  intro e
  subst e
  obtain ⟨i, hi⟩ := List.mem_iff_getElem?.1 ha
  rw [(h a i).2 hi] at hn
  exact absurd hn (by simp)

theorem map_eq {l : List String} {d m : String → Option ℕ}
    (h : ∀ s i, (d s = some i ↔ l[i]? = some s) ∧ (m s = some i ↔ l[i]? = some s)) : m = d := by
  funext s
  cases e : d s with
  | none =>
    cases e2 : m s with
    | none => rfl
    | some i =>
      have := (h s i).1.2 ((h s i).2.1 e2)
      rw [e] at this; exact absurd this (by simp)
  | some i => exact (h s i).2.2 ((h s i).1.1 e)

theorem agree_empty (c : CWorld) (h : c.g.nNodes = 0 ∧ c.g.nLinks = 0) : Agree (Names.empty c) := by
  refine ⟨h.1, rfl, h.2, rfl, by simp [Names.empty], by simp [Names.empty], ?_, ?_, rfl, ?_⟩
  · intro s i; simp [Names.empty]
  · intro s i; simp [Names.empty]
  · intro j hj; simp [Names.empty] at hj

/-- What the engine's constructor changes. -/
theorem addNode_c {c c' : CWorld} {ints : List ℚ} {off cap : ℚ} {lanes : ℤ} {rng : ℕ → ℕ} {fuel : ℕ}
    (h : c.addNode ints off cap lanes rng fuel = some c') :
    c'.g.nNodes = c.g.nNodes + 1 ∧ c'.g.nLinks = c.g.nLinks ∧ c'.link = c.link := by
  unfold CWorld.addNode at h
  obtain ⟨p, _, rfl⟩ := Option.map_eq_some_iff.1 h
  exact ⟨rfl, rfl, rfl⟩

theorem addLink_c (c : CWorld) (i j : ℕ) (a : CWorld.LinkArgs) :
    (c.addLink i j a).g.nNodes = c.g.nNodes ∧ (c.addLink i j a).g.nLinks = c.g.nLinks + 1 ∧
    (c.addLink i j a).link = upd c.link c.g.nLinks (c.newLink i j a) := ⟨rfl, rfl, rfl⟩

theorem agree_node {W W' : Names} {name : String} {auto : Bool} {suf : String} {ints : List ℚ} {off cap : ℚ} {lanes : ℤ}
    {rng : ℕ → ℕ} {fuel : ℕ} (hA : Agree W) (hf : W.nDict (name ++ "_renamed" ++ suf) = none)
    (h : W.addNode name auto suf ints off cap lanes rng fuel = some (W', none)) :
    W.nDict name = none ∧ Agree W' ∧ W'.nodes = W.nodes ++ [name] ∧ W'.links = W.links ∧ W'.ends = W.ends := by
  have hmap : W.nMap = W.nDict := map_eq hA.nLook
  unfold addNode newName at h
  by_cases hu : (W.nDict name).isSome = true
  · rw [if_pos hu] at h
    cases auto with
    | false => simp at h
    | true =>
      simp only [if_true] at h
      split at h
      · exact absurd h (by simp)
      · split at h
        · exact absurd h (by simp)
        · rename_i i hi
          rw [show upd W.nMap name (some W.c.g.nNodes) (name ++ "_renamed" ++ suf) = W.nMap (name ++ "_renamed" ++ suf)
            from by unfold upd; rw [if_neg (renamed_ne _ _)], hmap, hf] at hi
          exact absurd hi (by simp)
  · rw [if_neg hu] at h
    have hn : W.nDict name = none := by simpa using hu
    dsimp only at h
    split at h
    · exact absurd h (by simp)
    · rename_i c hc
      obtain ⟨c1, c2, c3⟩ := addNode_c hc
      split at h
      · exact absurd h (by simp)
      · rename_i i hi
        have hi2 : i = W.c.g.nNodes := by
          rw [show upd W.nMap name (some W.c.g.nNodes) name = some W.c.g.nNodes from by unfold upd; rw [if_pos rfl]] at hi
          exact (Option.some.inj hi).symm
        subst hi2
        simp only [Option.some.injEq, Prod.mk.injEq, and_true] at h
        subst h
        have hl1 := look_append (fun s i => (hA.nLook s i).1) hn
        have hl2 := look_append (fun s i => (hA.nLook s i).2) (by rw [hmap]; exact hn)
        refine ⟨hn, ⟨?_, ?_, ?_, hA.lPtr, nodup_append (fun s i => (hA.nLook s i).1) hn hA.nNames, hA.lNames, ?_,
          hA.lLook, hA.nEnds, ?_⟩, rfl, rfl, rfl⟩
        · simp [c1, hA.nNum]
        · simp [hA.nPtr, hA.nNum, List.range_succ]
        · rw [show _ = c.g.nLinks from rfl, c2]; exact hA.lNum
        · intro s i
          refine ⟨hl1 s i, ?_⟩
          have := hl2 s i
          rw [← hA.nNum] at this
          exact this
        · intro j hj
          obtain ⟨s, hs, e, he, h1, h2, h3⟩ := hA.ends j hj
          refine ⟨s, by simp; omega, e, by simp; omega, h1, ?_, ?_⟩
          · change (c.link j).src = s; rw [c3]; exact h2
          · change (c.link j).dst = e; rw [c3]; exact h3

theorem getNode_lt {W : Names} (hA : Agree W) {r : Ref} {i : ℕ} (h : W.getNode r = some i)
    (ho : ∀ k, r = .obj k → k < W.nodes.length) : i < W.nodes.length := by
  cases r with
  | name s =>
    have := (hA.nLook s i).1.1 h
    exact (List.getElem?_eq_some_iff.1 this).1
  | obj k => cases h; exact ho _ rfl

theorem nMap_of {W : Names} (hA : Agree W) {i : ℕ} (h : i < W.nodes.length) : W.nMap (W.nodes.getD i "") = some i := by
  refine (hA.nLook _ i).2.2 ?_
  rw [List.getD_eq_getElem?_getD, List.getElem?_eq_getElem h]; rfl

theorem agree_link {W W' : Names} {name : Option String} {start stop : Ref} {auto : Bool} {suf : String}
    {a : CWorld.LinkArgs} (hA : Agree W) (hp : W.Proper (.link name start stop auto suf a))
    (h : W.addLink name start stop auto suf a = some (W', none)) :
    Agree W' ∧ ∃ nm s e, W.getNode start = some s ∧ W.getNode stop = some e ∧ W'.nodes = W.nodes ∧
      W'.links = W.links ++ [nm] ∧ W'.ends = W.ends ++ [(some s, some e)] ∧ W'.c = W.c.addLink s e a ∧
      (∀ n, name = some n → nm = n ∨ auto = true ∧ n ∈ W.links ∧ nm = n ++ "_renamed" ++ suf) := by
  obtain ⟨ho, hf⟩ := hp
  have hmap : W.lMap = W.lDict := map_eq hA.lLook
  unfold addLink at h
  dsimp only at h
  split at h
  · exact absurd h (by simp)
  · rename_i n0 hn0
    split at h
    · exact absurd h (by simp)
    · rename_i nm hnm
      split at h
      · rename_i s e hs he
        have hsl := getNode_lt hA hs (fun k hk => ho k (.inl hk))
        have hel := getNode_lt hA he (fun k hk => ho k (.inr hk))
        rw [nMap_of hA hsl, nMap_of hA hel] at h
        dsimp only at h
        have hupd : upd W.lMap nm (some W.c.g.nLinks) nm = some W.c.g.nLinks := by unfold upd; rw [if_pos rfl]
        rw [hupd] at h
        simp only [Option.some.injEq, Prod.mk.injEq, and_true] at h
        subst h
        have hfree : W.lDict nm = none ∧ (nm = n0 ∨ auto = true ∧ n0 ∈ W.links ∧ nm = n0 ++ "_renamed" ++ suf) := by
          unfold newName at hnm
          split at hnm
          · rename_i hu
            split at hnm
            · rename_i hau
              cases hnm
              obtain ⟨j, hj⟩ := Option.isSome_iff_exists.1 hu
              exact ⟨hf n0 hn0, .inr ⟨hau, List.mem_of_getElem? ((hA.lLook n0 j).1.1 hj), rfl⟩⟩
            · exact absurd hnm (by simp)
          · rename_i hu
            cases hnm
            exact ⟨by simpa using hu, .inl rfl⟩
        have hl1 := look_append (fun s i => (hA.lLook s i).1) hfree.1
        have hl2 := look_append (fun s i => (hA.lLook s i).2) (by rw [hmap]; exact hfree.1)
        refine ⟨⟨hA.nNum, hA.nPtr, ?_, ?_, hA.nNames, nodup_append (fun s i => (hA.lLook s i).1) hfree.1 hA.lNames,
          hA.nLook, ?_, ?_, ?_⟩, nm, s, e, hs, he, rfl, rfl, by rw [hs, he], rfl, ?_⟩
        · simp [(addLink_c W.c s e a).2.1, hA.lNum]
        · simp [hA.lPtr, hA.lNum, List.range_succ]
        · intro s' i
          refine ⟨hl1 s' i, ?_⟩
          have := hl2 s' i
          rw [← hA.lNum] at this
          exact this
        · simp [hA.nEnds]
        · intro j hj
          simp only [List.length_append, List.length_singleton] at hj
          rcases Nat.lt_succ_iff_lt_or_eq.1 hj with hj | rfl
          · obtain ⟨s', hs', e', he', h1, h2, h3⟩ := hA.ends j hj
            have hne : (W.c.addLink s e a).link j = W.c.link j := by
              rw [(addLink_c W.c s e a).2.2]; unfold upd; rw [if_neg (by rw [hA.lNum]; omega)]
            refine ⟨s', hs', e', he', ?_, ?_, ?_⟩
            · rw [List.getElem?_append_left (by rw [hA.nEnds]; exact hj)]; exact h1
            · change ((W.c.addLink s e a).link j).src = s'; rw [hne]; exact h2
            · change ((W.c.addLink s e a).link j).dst = e'; rw [hne]; exact h3
          · have heq : (W.c.addLink s e a).link W.links.length = W.c.newLink s e a := by
              rw [(addLink_c W.c s e a).2.2, hA.lNum]; unfold upd; rw [if_pos rfl]
            refine ⟨s, hsl, e, hel, ?_, ?_, ?_⟩
            · rw [List.getElem?_append_right (by rw [hA.nEnds]), hA.nEnds, hs, he]; simp
            · change ((W.c.addLink s e a).link W.links.length).src = s; rw [heq]; rfl
            · change ((W.c.addLink s e a).link W.links.length).dst = e; rw [heq]; rfl
        · intro n hn
          subst hn
          cases hn0
          exact hfree.2
      · exact absurd h (by simp)

/-- C117: in every world built by calls that succeed, Python and the engine agree: the same nodes and links under the same
numbers, distinct names that both registries resolve to the same object, and links with the same ends. -/
theorem C117_agree {W : Names} (h : Built W) : Agree W := by
  induction h with
  | empty c h => exact agree_empty c h
  | step _ hp hc ih =>
    rename_i x _
    cases x with
    | node n au suf ints off cap lanes rng fuel => exact (agree_node ih hp hc).2.1
    | link n s e au suf a => exact (agree_link ih hp hc).1

/-- C117: a successful call of `addNode` adds one node under the given name, which was not in use. -/
theorem C117_node {W W' : Names} (h : Built W) {name : String} {auto : Bool} {suf : String} {ints : List ℚ} {off cap : ℚ}
    {lanes : ℤ} {rng : ℕ → ℕ} {fuel : ℕ} (hp : W.Proper (.node name auto suf ints off cap lanes rng fuel))
    (hc : W.addNode name auto suf ints off cap lanes rng fuel = some (W', none)) :
    name ∉ W.nodes ∧ W'.nodes = W.nodes ++ [name] ∧ W'.links = W.links ∧ W'.ends = W.ends := by
  have hA := C117_agree h
  obtain ⟨h1, _, h2, h3, h4⟩ := agree_node hA hp hc
  refine ⟨fun hm => ?_, h2, h3, h4⟩
  obtain ⟨i, hi⟩ := List.mem_iff_getElem?.1 hm
  rw [(hA.nLook name i).1.2 hi] at h1
  exact absurd h1 (by simp)

/-- C117: a successful call of `addLink` adds one link, in the engine between the nodes that the arguments mean in
Python, under the given name or, if that is in use and `auto_rename` is set, under a new one. -/
theorem C117_link {W W' : Names} (h : Built W) {name : Option String} {start stop : Ref} {auto : Bool} {suf : String}
    {a : CWorld.LinkArgs} (hp : W.Proper (.link name start stop auto suf a))
    (hc : W.addLink name start stop auto suf a = some (W', none)) :
    ∃ nm s e, W.getNode start = some s ∧ W.getNode stop = some e ∧ W'.nodes = W.nodes ∧
      W'.links = W.links ++ [nm] ∧ W'.ends = W.ends ++ [(some s, some e)] ∧ W'.c = W.c.addLink s e a ∧
      (∀ n, name = some n → nm = n ∨ auto = true ∧ n ∈ W.links ∧ nm = n ++ "_renamed" ++ suf) :=
  (agree_link (C117_agree h) hp hc).2

/-- C117: without `auto_rename` a name in use raises `ValueError` and nothing changes. -/
theorem C117_used {W : Names} (h : Built W) {name : String} (hu : name ∈ W.nodes) (suf : String) (ints : List ℚ)
    (off cap : ℚ) (lanes : ℤ) (rng : ℕ → ℕ) (fuel : ℕ) :
    W.addNode name false suf ints off cap lanes rng fuel = some (W, some .valueError) := by
  obtain ⟨i, hi⟩ := List.mem_iff_getElem?.1 hu
  have := ((C117_agree h).nLook name i).1.2 hi
  unfold addNode newName
  rw [this]; rfl

/-- C117: the same for links, whatever their end nodes are. -/
theorem C117_used_link {W : Names} (h : Built W) {name : String} (hu : name ∈ W.links) (start stop : Ref) (suf : String)
    (a : CWorld.LinkArgs) : W.addLink (some name) start stop false suf a = some (W, some .valueError) := by
  obtain ⟨i, hi⟩ := List.mem_iff_getElem?.1 hu
  have := ((C117_agree h).lLook name i).1.2 hi
  unfold addLink linkName newName
  simp only [this]; rfl

/-- C117, finding: `auto_rename=True` does not work for nodes. In every world, if the name is in use, the call raises
`RuntimeError`: the engine is given the old name and asked for the new one. The node stays in `NODES`, and the old name now
means another node in the engine than in Python. -/
theorem C117_rename_false {W : Names} (h : Built W) {name : String} {i : ℕ} (hu : W.nodes[i]? = some name) {suf : String}
    (hf : W.nDict (name ++ "_renamed" ++ suf) = none) (ints : List ℚ) (off cap : ℚ) (lanes : ℤ) (rng : ℕ → ℕ) (fuel : ℕ)
    {r : Names × Option Err} (hr : W.addNode name true suf ints off cap lanes rng fuel = some r) :
    r.2 = some .exception ∧ r.1.nodes = W.nodes ++ [name ++ "_renamed" ++ suf] ∧
    r.1.nDict name = some i ∧ r.1.nMap name = some W.nodes.length ∧ i ≠ W.nodes.length := by
  have hA := C117_agree h
  have hd := (hA.nLook name i).1.2 hu
  have hmap : W.nMap = W.nDict := map_eq hA.nLook
  unfold addNode newName at hr
  rw [hd] at hr
  simp only [Option.isSome_some, if_true] at hr
  split at hr
  · exact absurd hr (by simp)
  · rw [show upd W.nMap name (some W.c.g.nNodes) (name ++ "_renamed" ++ suf) = none from by
      unfold upd; rw [if_neg (renamed_ne _ _), hmap, hf]] at hr
    cases hr
    refine ⟨rfl, rfl, ?_, ?_, ?_⟩
    · change upd W.nDict _ _ name = _
      unfold upd; rw [if_neg (fun e => renamed_ne _ _ e.symm)]; exact hd
    · change upd W.nMap _ _ name = _
      unfold upd; rw [if_pos rfl, hA.nNum]
    · have := (List.getElem?_eq_some_iff.1 hu).1
      omega

/-! ## Cases -/

/-- Arguments of a link. -/
def anyLink : CWorld.LinkArgs :=
  { vmax := 20, kappa := 1 / 5, len := 1000, lanes := 1, mergePri := 1, capOut := -1, capIn := -1, group := [0]
    rng := fun _ => 0 }

/-- An empty world. -/
def world0 : Names := Names.empty (CWorld.empty id 1000 5 1 300 (1 / 2) 0 false false false false true 1)

/-- `addNode(n, …)`. -/
def mkNode (n : String) (auto : Bool) : Call := .node n auto "Xy" [0] 0 (-1) (-1) (fun _ => 0) 1

theorem world0_built : Built world0 := .empty _ ⟨rfl, rfl⟩

/-- C117 is not vacuous: three links, the second renamed, the third with the default name. -/
theorem C117_case : ∃ W, Built W ∧ W.nodes = ["a", "b"] ∧ W.links = ["l", "l_renamedZz", "a-b"] ∧
    W.ends = [(some 0, some 1), (some 1, some 0), (some 0, some 1)] := by
  have step : ∀ {W W' : Names} {x : Call}, Built W → W.Proper x → W.call x = some (W', none) → Built W' :=
    fun h hp hc => .step h hp hc
  refine ⟨_, step (x := .link none (.name "a") (.name "b") false "" anyLink)
    (step (x := .link (some "l") (.name "b") (.name "a") true "Zz" anyLink)
    (step (x := .link (some "l") (.name "a") (.obj 1) false "" anyLink)
    (step (x := mkNode "b" true) (step (x := mkNode "a" false) world0_built ?_ rfl) ?_ rfl) ?_ rfl) ?_ rfl) ?_ rfl,
    rfl, rfl, rfl⟩
  · rfl
  · rfl
  · refine ⟨fun i hi => ?_, fun n0 h0 => ?_⟩
    · rcases hi with hi | hi
      · exact absurd hi (by simp)
      · cases hi; decide
    · cases h0; rfl
  · refine ⟨fun i hi => ?_, fun n0 h0 => ?_⟩
    · rcases hi with hi | hi <;> exact absurd hi (by simp)
    · cases h0; rfl
  · refine ⟨fun i hi => ?_, fun n0 h0 => ?_⟩
    · rcases hi with hi | hi <;> exact absurd hi (by simp)
    · cases h0; rfl

/-- C117, finding: after a link with an unknown node the numbers of Python and the engine differ, if the script goes on:
the link is in `LINKS` but not in the engine, and the next link has another number there. -/
theorem C117_unknown_false : ∃ W W1 W2 : Names, Built W ∧
    W.addLink (some "l") (.name "a") (.name "nowhere") false "" anyLink = some (W1, some .attributeError) ∧
    W1.addLink (some "m") (.name "a") (.name "b") false "" anyLink = some (W2, none) ∧
    W2.lDict "m" = some 1 ∧ W2.lMap "m" = some 0 ∧ W2.links.length = 2 ∧ W2.c.g.nLinks = 1 := by
  have step : ∀ {W W' : Names} {x : Call}, Built W → W.Proper x → W.call x = some (W', none) → Built W' :=
    fun h hp hc => .step h hp hc
  exact ⟨_, _, _, step (x := mkNode "b" false) (step (x := mkNode "a" false) world0_built rfl rfl) rfl rfl,
    rfl, rfl, rfl, rfl, rfl, rfl⟩

end Names
end Cpp
end UX
