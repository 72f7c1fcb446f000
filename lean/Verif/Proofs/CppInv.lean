import Verif.Proofs.CppBasic

/-!
# Structural invariant of the C++ engine
-/

namespace UX.Cpp
open CWorld

/-- Every vehicle is at home, waiting in the queue of its origin, on the queue of exactly one link, or
gone; leader pointers follow the queue positions; buffers and registries agree with the states.
`x` is a vehicle that has been taken off a queue and not yet put on another one, `y` one that is about
to be removed from the list of incoming vehicles. -/
structure Inv (W : CWorld) (x y : Option ℕ) : Prop where
  outL : ∀ n l, l ∈ (W.node n).outLinks ↔ l < W.g.nLinks ∧ (W.link l).src = n
  inL : ∀ n l, l ∈ (W.node n).inLinks ↔ l < W.g.nLinks ∧ (W.link l).dst = n
  ends : ∀ l, l < W.g.nLinks → (W.link l).src < W.g.nNodes ∧ (W.link l).dst < W.g.nNodes ∧
    1 ≤ (W.link l).lanes
  orig : ∀ v, v < W.g.nVehs → (W.veh v).orig < W.g.nNodes
  mem : ∀ l v, v ∈ (W.link l).vehs → (W.veh v).link = some l ∧ (W.veh v).state = .run ∧
    l < W.g.nLinks ∧ v < W.g.nVehs ∧ x ≠ some v
  run : ∀ v, v < W.g.nVehs → (W.veh v).state = .run → x = some v ∨ ∃ l, v ∈ (W.link l).vehs
  idle : ∀ v, v < W.g.nVehs → (W.veh v).state ≠ .run → (W.veh v).link = none
  nd : ∀ l, (W.link l).vehs.Nodup
  linked : ∀ l, l < W.g.nLinks → Linked (W.link l).lanes (W.link l).vehs
    (fun v => (W.veh v).leader) (fun v => (W.veh v).follower)
  gen : ∀ n v, v ∈ (W.node n).genQ ↔ v < W.g.nVehs ∧ (W.veh v).state = .wait ∧ (W.veh v).orig = n
  gnd : ∀ n, (W.node n).genQ.Nodup
  fresh : ∀ v, v < W.g.nVehs → (W.veh v).state = .home ∨ (W.veh v).state = .wait →
    (W.veh v).follower = none ∧ (W.veh v).flagWait = false
  limbo : ∀ v, x = some v → v < W.g.nVehs ∧ (W.veh v).state = .run ∧ (W.veh v).follower = none ∧
    (W.veh v).flagWait = false ∧ ∃ l, l < W.g.nLinks ∧ (W.veh v).link = some l
  flag : ∀ l v, v ∈ (W.link l).vehs → (W.veh v).flagWait = true →
    (W.link l).dst = (W.veh v).dest ∨ (W.node (W.link l).dst).outLinks = []
  arr : ∀ l v, v ∈ (W.link l).arrived → v ∈ (W.link l).vehs ∧
    ((W.veh v).flagWait = true → (W.veh v).next = none) ∧
    ∀ b, (W.veh v).next = some b → b ∈ (W.node (W.link l).dst).outLinks
  inc : ∀ n v, v ∈ (W.node n).incoming → y = some v ∨ (W.veh v).next = none ∨
    ((∃ a, v ∈ (W.link a).vehs ∧ (W.link a).dst = n) ∧ (W.veh v).flagWait = false ∧
      (∀ b, (W.veh v).next = some b → b ∈ (W.node n).outLinks) ∧ ∀ l, v ∉ (W.link l).arrived)
  reg1 : ∀ v, v < W.g.nVehs → ((W.veh v).state = .run ↔
    (W.g.running v = true ∨ ∃ n, n < W.g.nNodes ∧ v ∈ (W.node n).runBuf) ∧
      ∀ l, l < W.g.nLinks → v ∉ (W.link l).ended)
  reg2 : ∀ v, v < W.g.nVehs → (((W.veh v).state = .ended ∨ (W.veh v).state = .abort) ↔
    (W.g.living v = false ∨ ∃ l, l < W.g.nLinks ∧ v ∈ (W.link l).ended))
  big : ∀ v, W.g.nVehs ≤ v → W.g.running v = false ∧ (∀ n, v ∉ (W.node n).runBuf) ∧
    ∀ l, v ∉ (W.link l).ended

theorem Inv.congr {W W' : CWorld} {x y : Option ℕ} (h : W.core = W'.core) (i : Inv W x y) :
    Inv W' x y := by
  have i' : Inv W.core x y := ⟨i.outL, i.inL, i.ends, i.orig, i.mem, i.run, i.idle, i.nd, i.linked,
    i.gen, i.gnd, i.fresh, i.limbo, i.flag, i.arr, i.inc, i.reg1, i.reg2, i.big⟩
  rw [h] at i'
  exact ⟨i'.outL, i'.inL, i'.ends, i'.orig, i'.mem, i'.run, i'.idle, i'.nd, i'.linked,
    i'.gen, i'.gnd, i'.fresh, i'.limbo, i'.flag, i'.arr, i'.inc, i'.reg1, i'.reg2, i'.big⟩

theorem Inv.uniq {W : CWorld} {x y : Option ℕ} (i : Inv W x y) {v l l' : ℕ}
    (h : v ∈ (W.link l).vehs) (h' : v ∈ (W.link l').vehs) : l = l' := by
  have h1 := (i.mem l v h).1
  have h2 := (i.mem l' v h').1
  rw [h1] at h2
  exact Option.some.inj h2

theorem Inv.on {W : CWorld} {x y : Option ℕ} (i : Inv W x y) {v l : ℕ} (hv : v < W.g.nVehs)
    (hx : x ≠ some v) (h : (W.veh v).link = some l) : v ∈ (W.link l).vehs := by
  by_cases hr : (W.veh v).state = .run
  · rcases i.run v hv hr with e | ⟨m, hm⟩
    · exact absurd e hx
    · have := (i.mem m v hm).1
      rw [h] at this
      rw [Option.some.inj this]; exact hm
  · rw [i.idle v hv hr] at h; simp at h

/-- Leaders and followers are on the same queue. -/
theorem Inv.leader_mem {W : CWorld} {x y : Option ℕ} (i : Inv W x y) {v u l : ℕ}
    (h : v ∈ (W.link l).vehs) (hu : (W.veh v).leader = some u) : u ∈ (W.link l).vehs := by
  obtain ⟨k, hk⟩ := List.mem_iff_getElem?.1 h
  have := (i.linked l (i.mem l v h).2.2.1 k v hk).1
  simp only [hu] at this
  split at this
  · exact List.mem_of_getElem? this.symm
  · simp at this

theorem Inv.follower_mem {W : CWorld} {x y : Option ℕ} (i : Inv W x y) {v u l : ℕ}
    (h : v ∈ (W.link l).vehs) (hu : (W.veh v).follower = some u) : u ∈ (W.link l).vehs := by
  obtain ⟨k, hk⟩ := List.mem_iff_getElem?.1 h
  have := (i.linked l (i.mem l v h).2.2.1 k v hk).2
  simp only [hu] at this
  exact List.mem_of_getElem? this.symm

/-! ## Entering a queue -/

/-- `attach` and `push_back`. -/
def CWorld.enterQ (W : CWorld) (v l : ℕ) : CWorld :=
  (W.attach v l).setL l (fun L => { L with vehs := L.vehs ++ [v] })

theorem Inv.enterQ {W : CWorld} {v l : ℕ} {y : Option ℕ} (i : Inv W (some v) y)
    (hl : (W.veh v).link = some l) : Inv (W.enterQ v l) none y := by
  obtain ⟨hvn, hst, hfo, hfw, l', hl', hlk⟩ := i.limbo v rfl
  obtain rfl : l' = l := Option.some.inj (hlk.symm.trans hl)
  have hnot : ∀ m, v ∉ (W.link m).vehs := fun m hm => (i.mem m v hm).2.2.2.2 rfl
  have hveh := fun w => attach_veh W v l' w (hnot l')
  have hvehs : ∀ m, ((W.enterQ v l').link m).vehs =
      if m = l' then (W.link l').vehs ++ [v] else (W.link m).vehs := by
    intro m
    simp only [CWorld.enterQ, setL_link, attach_link]
    split <;> rfl
  have hsrc : ∀ m, ((W.enterQ v l').link m).src = (W.link m).src := by
    intro m; simp only [CWorld.enterQ, setL_link, attach_link]; split
    · rename_i e; rw [e]
    · rfl
  have hdst : ∀ m, ((W.enterQ v l').link m).dst = (W.link m).dst := by
    intro m; simp only [CWorld.enterQ, setL_link, attach_link]; split
    · rename_i e; rw [e]
    · rfl
  have hlanes : ∀ m, ((W.enterQ v l').link m).lanes = (W.link m).lanes := by
    intro m; simp only [CWorld.enterQ, setL_link, attach_link]; split
    · rename_i e; rw [e]
    · rfl
  have harr : ∀ m, ((W.enterQ v l').link m).arrived = (W.link m).arrived := by
    intro m; simp only [CWorld.enterQ, setL_link, attach_link]; split
    · rename_i e; rw [e]
    · rfl
  have hend : ∀ m, ((W.enterQ v l').link m).ended = (W.link m).ended := by
    intro m; simp only [CWorld.enterQ, setL_link, attach_link]; split
    · rename_i e; rw [e]
    · rfl
  have hnode : (W.enterQ v l').node = W.node := by simp [CWorld.enterQ]
  have hg : (W.enterQ v l').g = W.g := by simp [CWorld.enterQ]
  have hv' : ∀ w, ((W.enterQ v l').veh w) = (W.attach v l').veh w := by intro w; simp [CWorld.enterQ]
  have hmem : ∀ m w, w ∈ ((W.enterQ v l').link m).vehs ↔ w ∈ (W.link m).vehs ∨ (m = l' ∧ w = v) := by
    intro m w
    rw [hvehs]
    split
    · rename_i e; subst e; simp
    · rename_i e; simp [e]
  refine ⟨?_, ?_, ?_, ?_, ?_, ?_, ?_, ?_, ?_, ?_, ?_, ?_, ?_, ?_, ?_, ?_, ?_, ?_, ?_⟩
  · intro n m; rw [hnode, hg, hsrc]; exact i.outL n m
  · intro n m; rw [hnode, hg, hdst]; exact i.inL n m
  · intro m hm; rw [hg] at hm ⊢; rw [hsrc, hdst, hlanes]; exact i.ends m hm
  · intro w hw; rw [hg] at hw ⊢; rw [hv', hveh]; exact i.orig w hw
  · intro m w hw
    rw [hv', hveh, hg]
    rcases (hmem m w).1 hw with h | ⟨rfl, rfl⟩
    · obtain ⟨a, b, c, d, _⟩ := i.mem m w h
      exact ⟨a, b, c, d, by simp⟩
    · exact ⟨hlk, hst, hl', hvn, by simp⟩
  · intro w hw hr
    right
    rw [hg] at hw
    rw [hv', hveh] at hr
    rcases i.run w hw hr with e | ⟨m, hm⟩
    · obtain rfl := Option.some.inj e
      exact ⟨l', (hmem _ _).2 (Or.inr ⟨rfl, rfl⟩)⟩
    · exact ⟨m, (hmem _ _).2 (Or.inl hm)⟩
  · intro w hw hr
    rw [hg] at hw
    rw [hv', hveh] at hr ⊢
    exact i.idle w hw hr
  · intro m
    rw [hvehs]
    split
    · exact List.nodup_append.2 ⟨i.nd l', by simp, by
        intro a ha b hb hab
        rw [List.mem_singleton] at hb
        rw [hab, hb] at ha
        exact hnot l' ha⟩
    · exact i.nd m
  · intro m hm
    rw [hg] at hm
    rw [hlanes, hvehs]
    split
    · rename_i e; subst e
      refine Linked.push (i.ends m hm).2.2 (i.linked m hm) (i.nd m) (hnot m) hfo ?_ ?_
      · intro w; simp only [hv', hveh]; rfl
      · intro w; simp only [hv', hveh]; rfl
    · rename_i e
      refine (i.linked m hm).congr ?_ ?_
      · intro w hw
        have : w ≠ v := fun e => hnot m (e ▸ hw)
        simp only [hv', hveh, if_neg this]
      · intro w hw
        have : W.newLeader l' ≠ some w := fun h => e (i.uniq hw (newLeader_mem h))
        simp only [hv', hveh, if_neg this]
  · intro n w; rw [hnode, hg, hv', hveh]; exact i.gen n w
  · intro n; rw [hnode]; exact i.gnd n
  · intro w hw hs
    rw [hg] at hw
    rw [hv', hveh] at hs ⊢
    have : W.newLeader l' ≠ some w := fun h => by
      have := (i.mem l' w (newLeader_mem h)).2.1
      rw [this] at hs; simp at hs
    simp only [if_neg this]
    exact i.fresh w hw hs
  · intro w hw; simp at hw
  · intro m w hw hf
    rw [hv', hveh] at hf ⊢
    rw [hdst, hnode]
    rcases (hmem m w).1 hw with h | ⟨rfl, rfl⟩
    · exact i.flag m w h hf
    · rw [hfw] at hf; simp at hf
  · intro m w hw
    rw [harr] at hw
    obtain ⟨a, b, c⟩ := i.arr m w hw
    rw [hv', hveh, hnode, hdst]
    exact ⟨(hmem m w).2 (Or.inl a), b, c⟩
  · intro n w hw
    rw [hnode] at hw
    rcases i.inc n w hw with e | e | ⟨⟨a, ha, hd⟩, b, c, d⟩
    · exact Or.inl e
    · right; left; rw [hv', hveh]; exact e
    · right; right
      rw [hv', hveh, hnode]
      exact ⟨⟨a, (hmem a w).2 (Or.inl ha), by rw [hdst]; exact hd⟩, b, c, fun m => by rw [harr]; exact d m⟩
  · intro w hw
    rw [hg] at hw ⊢
    rw [hv', hveh, hnode]
    simp only [hend]
    exact i.reg1 w hw
  · intro w hw
    rw [hg] at hw ⊢
    rw [hv', hveh]
    simp only [hend]
    exact i.reg2 w hw
  · intro w; rw [hg, hnode]; simp only [hend]; exact i.big w

end UX.Cpp
