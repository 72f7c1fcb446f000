import Verif.Model.CppSim
import Verif.Proofs.Basic

/-!
# Elementary facts about the C++ world
-/

namespace UX.Cpp
namespace CWorld

@[simp] theorem setV_g (W : CWorld) (v f) : (W.setV v f).g = W.g := rfl
@[simp] theorem setV_node (W : CWorld) (v f) : (W.setV v f).node = W.node := rfl
@[simp] theorem setV_link (W : CWorld) (v f) : (W.setV v f).link = W.link := rfl
@[simp] theorem setL_g (W : CWorld) (l f) : (W.setL l f).g = W.g := rfl
@[simp] theorem setL_node (W : CWorld) (l f) : (W.setL l f).node = W.node := rfl
@[simp] theorem setL_veh (W : CWorld) (l f) : (W.setL l f).veh = W.veh := rfl
@[simp] theorem setN_g (W : CWorld) (n f) : (W.setN n f).g = W.g := rfl
@[simp] theorem setN_link (W : CWorld) (n f) : (W.setN n f).link = W.link := rfl
@[simp] theorem setN_veh (W : CWorld) (n f) : (W.setN n f).veh = W.veh := rfl

theorem setV_veh (W : CWorld) (v f w) :
    (W.setV v f).veh w = if w = v then f (W.veh v) else W.veh w := by
  by_cases h : w = v
  · subst h; simp [setV]
  · simp [setV, upd_ne _ _ h, h]

theorem setL_link (W : CWorld) (l f m) :
    (W.setL l f).link m = if m = l then f (W.link l) else W.link m := by
  by_cases h : m = l
  · subst h; simp [setL]
  · simp [setL, upd_ne _ _ h, h]

theorem setN_node (W : CWorld) (n f m) :
    (W.setN n f).node m = if m = n then f (W.node n) else W.node m := by
  by_cases h : m = n
  · subst h; simp [setN]
  · simp [setN, upd_ne _ _ h, h]

theorem ext' {W W' : CWorld} (hg : W.g = W'.g) (hn : ∀ n, W.node n = W'.node n)
    (hl : ∀ l, W.link l = W'.link l) (hv : ∀ v, W.veh v = W'.veh v) : W = W' := by
  obtain ⟨g, n, l, v⟩ := W
  obtain ⟨g', n', l', v'⟩ := W'
  simp only at hg hn hl hv
  subst hg
  obtain rfl : n = n' := funext hn
  obtain rfl : l = l' := funext hl
  obtain rfl : v = v' := funext hv
  rfl

/-! ## The part of the state that positions and records do not touch -/

/-- Members that take part in the structure of the network state; the others are set to fixed
values. -/
def _root_.UX.Cpp.CVeh.core (V : CVeh) : CVeh :=
  { V with
    arrivalTime := 0, travelTime := 0, dist := 0, x := 0, xNext := 0, xOld := 0, v := 0, moveRem := 0
    lane := 0, arrTimeLink := 0, visited := fun _ => false, count := 0, log := [], logFirst := 0
    logLast := 0, logWait := 0, logEnd := 0, eager := [] }

def _root_.UX.Cpp.CLink.core (L : CLink) : CLink :=
  { L with
    capOutRem := 0, capInRem := 0, arr := fun _ => 0, dep := fun _ => 0, ttEvents := []
    ttInst := fun _ => 0, aveV := 0, aveVr := 0, stat := 0, trips := 0
    rng := fun _ => 0, exc := none }

def _root_.UX.Cpp.CNode.core (N : CNode) : CNode :=
  { N with sigT := 0, sigPhase := 0, sigLog := [], flowRem := 0, stat := 0, rng := fun _ => 0, exc := none }

def core (W : CWorld) : CWorld :=
  { g := W.g, node := fun n => (W.node n).core, link := fun l => (W.link l).core,
    veh := fun v => (W.veh v).core }

theorem core_setV {W : CWorld} {v : ℕ} {f : CVeh → CVeh} (h : ∀ V, (f V).core = V.core) :
    (W.setV v f).core = W.core := by
  refine ext' rfl (fun _ => rfl) (fun _ => rfl) (fun w => ?_)
  simp only [core, setV_veh]
  split
  · rename_i e; rw [h, e]
  · rfl

theorem core_setL {W : CWorld} {l : ℕ} {f : CLink → CLink} (h : ∀ L, (f L).core = L.core) :
    (W.setL l f).core = W.core := by
  refine ext' rfl (fun _ => rfl) (fun w => ?_) (fun _ => rfl)
  simp only [core, setL_link]
  split
  · rename_i e; rw [h, e]
  · rfl

theorem core_setN {W : CWorld} {n : ℕ} {f : CNode → CNode} (h : ∀ N, (f N).core = N.core) :
    (W.setN n f).core = W.core := by
  refine ext' rfl (fun w => ?_) (fun _ => rfl) (fun _ => rfl)
  simp only [core, setN_node]
  split
  · rename_i e; rw [h, e]
  · rfl

theorem core_linkUpdate (W : CWorld) (l : ℕ) : (W.linkUpdate l).core = W.core :=
  core_setL (fun _ => rfl)

theorem core_signalUpdate (W : CWorld) (n : ℕ) : (W.signalUpdate n).core = W.core :=
  core_setN (fun _ => rfl)

theorem core_flowUpdate (W : CWorld) (n : ℕ) : (W.flowUpdate n).core = W.core :=
  core_setN (fun _ => rfl)

theorem core_logStats (W : CWorld) (v : ℕ) : (W.logStats v).core = W.core := by
  unfold logStats
  split
  · exact core_setL (fun _ => rfl)
  · exact core_setN (fun _ => rfl)
  · rfl

theorem core_logPush (W : CWorld) (v : ℕ) (s : Option ℕ) : (W.logPush v s).core = W.core := by
  unfold logPush
  split
  · exact core_setV (fun _ => rfl)
  · rfl

theorem core_logData (W : CWorld) (v : ℕ) (s : Option ℕ) : (W.logData v s).core = W.core := by
  unfold logData
  rw [core_logPush, core_logStats]

theorem core_advance (W : CWorld) (v : ℕ) : (W.advance v).core = W.core := core_setV (fun _ => rfl)

theorem core_place (W : CWorld) (v : ℕ) (q : ℚ) : (W.place v q).core = W.core :=
  core_setV (fun _ => rfl)

theorem core_carFollow (W : CWorld) (v : ℕ) : (W.carFollow v).core = W.core := by
  unfold carFollow
  split
  · rfl
  · split <;> exact core_setV (fun _ => rfl)

theorem core_foldl {α : Type} (f : CWorld → α → CWorld) (h : ∀ W a, (f W a).core = W.core)
    (xs : List α) (W : CWorld) : (xs.foldl f W).core = W.core := by
  induction xs generalizing W with
  | nil => rfl
  | cons a t ih => rw [List.foldl_cons, ih, h]

theorem core_followPass (W : CWorld) (l : ℕ) : (W.followPass l).core = W.core :=
  core_foldl _ core_carFollow _ _

theorem core_g {W W' : CWorld} (h : W.core = W'.core) : W.g = W'.g :=
  show W.core.g = W'.core.g by rw [h]
theorem core_veh {W W' : CWorld} (h : W.core = W'.core) (v : ℕ) :
    (W.veh v).core = (W'.veh v).core :=
  show W.core.veh v = W'.core.veh v by rw [h]
theorem core_link {W W' : CWorld} (h : W.core = W'.core) (l : ℕ) :
    (W.link l).core = (W'.link l).core :=
  show W.core.link l = W'.core.link l by rw [h]
theorem core_node {W W' : CWorld} (h : W.core = W'.core) (n : ℕ) :
    (W.node n).core = (W'.node n).core :=
  show W.core.node n = W'.core.node n by rw [h]

/-! ## attach and detach -/

/-- The leader that `attach` gives. -/
def newLeader (W : CWorld) (l : ℕ) : Option ℕ :=
  if (W.link l).lanes ≤ (W.link l).vehs.length then
    (W.link l).vehs[(W.link l).vehs.length - (W.link l).lanes]?
  else none

/-- The lane that `attach` gives. -/
def newLane (W : CWorld) (l : ℕ) : ℕ :=
  match (W.link l).vehs.getLast? with
  | some u => ((W.veh u).lane + 1) % (W.link l).lanes
  | none => 0

@[simp] theorem attach_g (W : CWorld) (v l) : (W.attach v l).g = W.g := by
  simp only [attach]
  split
  · split <;> rfl
  · rfl
@[simp] theorem attach_node (W : CWorld) (v l) : (W.attach v l).node = W.node := by
  simp only [attach]
  split
  · split <;> rfl
  · rfl
@[simp] theorem attach_link (W : CWorld) (v l) : (W.attach v l).link = W.link := by
  simp only [attach]
  split
  · split <;> rfl
  · rfl

theorem attach_eq (W : CWorld) (v l : ℕ) : W.attach v l =
    match W.newLeader l with
    | some u => ((W.setV v (fun V => { V with lane := W.newLane l, leader := none })).setV v
        (fun V => { V with leader := some u })).setV u (fun V => { V with follower := some v })
    | none => W.setV v (fun V => { V with lane := W.newLane l, leader := none }) := by
  have hlane : (match (W.link l).vehs.getLast? with
    | some u => ((W.veh u).lane + 1) % (W.link l).lanes
    | none => 0) = W.newLane l := rfl
  simp only [attach, hlane]
  by_cases h : (W.link l).lanes ≤ (W.link l).vehs.length
  · have e : W.newLeader l = (W.link l).vehs[(W.link l).vehs.length - (W.link l).lanes]? := if_pos h
    rw [if_pos h, e]
    cases (W.link l).vehs[(W.link l).vehs.length - (W.link l).lanes]? <;> rfl
  · have e : W.newLeader l = none := if_neg h
    rw [if_neg h, e]
    rfl

theorem newLeader_mem {W : CWorld} {l u : ℕ} (h : W.newLeader l = some u) : u ∈ (W.link l).vehs := by
  unfold newLeader at h
  split at h
  · exact List.mem_of_getElem? h
  · simp at h

theorem attach_veh (W : CWorld) (v l w : ℕ) (hv : v ∉ (W.link l).vehs) :
    (W.attach v l).veh w = { W.veh w with
      lane := if w = v then W.newLane l else (W.veh w).lane
      leader := if w = v then W.newLeader l else (W.veh w).leader
      follower := if W.newLeader l = some w then some v else (W.veh w).follower } := by
  rw [attach_eq]
  cases hu : W.newLeader l with
  | none =>
    simp only [setV_veh]
    split
    · rename_i e; subst e; simp
    · simp
  | some u =>
    have hne : u ≠ v := fun e => hv (e ▸ newLeader_mem hu)
    simp only [setV_veh, Option.some.injEq]
    by_cases h1 : w = u
    · subst h1; simp [hne]
    · by_cases h2 : w = v
      · subst h2; simp [hne, h1]
      · simp [h1, h2, Ne.symm h1]

@[simp] theorem detach_g (W : CWorld) (v) : (W.detach v).g = W.g := by
  unfold detach; split <;> rfl
@[simp] theorem detach_node (W : CWorld) (v) : (W.detach v).node = W.node := by
  unfold detach; split <;> rfl
@[simp] theorem detach_link (W : CWorld) (v) : (W.detach v).link = W.link := by
  unfold detach; split <;> rfl

theorem detach_veh (W : CWorld) (v w : ℕ) :
    (W.detach v).veh w = { W.veh w with
      leader := if (W.veh v).follower = some w then none else (W.veh w).leader } := by
  unfold detach
  cases h : (W.veh v).follower with
  | none => simp
  | some f =>
    simp only [setV_veh, Option.some.injEq]
    by_cases e : w = f
    · subst e; simp
    · simp [e, Ne.symm e]

end CWorld

/-! ## Queues and their leader pointers -/

/-- In the queue `q` the leader of a vehicle is the one `lanes` places ahead, its follower the one
`lanes` places behind. -/
def Linked (lanes : ℕ) (q : List ℕ) (ld fo : ℕ → Option ℕ) : Prop :=
  ∀ i v, q[i]? = some v → ld v = (if lanes ≤ i then q[i - lanes]? else none) ∧ fo v = q[i + lanes]?

theorem Linked.congr {lanes : ℕ} {q : List ℕ} {ld fo ld' fo' : ℕ → Option ℕ}
    (h : Linked lanes q ld fo) (h1 : ∀ v ∈ q, ld' v = ld v) (h2 : ∀ v ∈ q, fo' v = fo v) :
    Linked lanes q ld' fo' := by
  intro i v hv
  have hm := List.mem_of_getElem? hv
  rw [h1 v hm, h2 v hm]
  exact h i v hv

theorem Linked.pop {lanes : ℕ} {h : ℕ} {t : List ℕ} {ld fo ld' fo' : ℕ → Option ℕ}
    (hl : 1 ≤ lanes) (hL : Linked lanes (h :: t) ld fo) (hnd : (h :: t).Nodup)
    (h1 : ∀ v ∈ t, ld' v = if fo h = some v then none else ld v) (h2 : ∀ v ∈ t, fo' v = fo v) :
    Linked lanes t ld' fo' := by
  intro i v hv
  have hm := List.mem_of_getElem? hv
  have hi : (h :: t)[i + 1]? = some v := by simpa using hv
  obtain ⟨g1, g2⟩ := hL (i + 1) v hi
  have g0 := (hL 0 h (by simp)).2
  refine ⟨?_, ?_⟩
  · rw [h1 v hm]
    by_cases hlt : lanes ≤ i
    · rw [if_pos hlt, if_neg]
      · rw [g1, if_pos (by omega)]
        have : i + 1 - lanes = (i - lanes) + 1 := by omega
        rw [this]; simp
      · rw [g0, Nat.zero_add]
        intro e
        -- positions are unique
        have := (List.getElem?_inj (i := i + 1) (by
          have := (List.getElem?_eq_some_iff.1 hi).1; exact this) hnd).1 (hi.trans e.symm)
        omega
    · rw [if_neg hlt]
      by_cases he : i + 1 = lanes
      · rw [if_pos]
        rw [g0, Nat.zero_add, ← he]; exact hi
      · have : ld v = none := by rw [g1, if_neg (by omega)]
        simp [this]
  · rw [h2 v hm, g2]
    have : i + 1 + lanes = (i + lanes) + 1 := by omega
    rw [this]; simp

theorem Linked.push {lanes : ℕ} {q : List ℕ} {v : ℕ} {ld fo ld' fo' : ℕ → Option ℕ}
    (hl : 1 ≤ lanes) (hL : Linked lanes q ld fo) (hnd : q.Nodup) (hv : v ∉ q)
    (hf : fo v = none)
    (h1 : ∀ w, ld' w = if w = v then (if lanes ≤ q.length then q[q.length - lanes]? else none)
      else ld w)
    (h2 : ∀ w, fo' w = if (if lanes ≤ q.length then q[q.length - lanes]? else none) = some w
      then some v else fo w) :
    Linked lanes (q ++ [v]) ld' fo' := by
  intro i w hw
  rw [List.getElem?_append] at hw
  by_cases hi : i < q.length
  · rw [if_pos hi] at hw
    have hm := List.mem_of_getElem? hw
    have hwv : w ≠ v := fun e => hv (e ▸ hm)
    obtain ⟨g1, g2⟩ := hL i w hw
    refine ⟨?_, ?_⟩
    · rw [h1, if_neg hwv, g1]
      by_cases hli : lanes ≤ i
      · rw [if_pos hli, if_pos hli, List.getElem?_append, if_pos (by omega)]
      · rw [if_neg hli, if_neg hli]
    · rw [h2, g2, List.getElem?_append]
      by_cases he : i + lanes < q.length
      · rw [if_pos he, if_neg]
        intro e
        have hlt : lanes ≤ q.length := by omega
        rw [if_pos hlt] at e
        have := (List.getElem?_inj hi hnd).1 (hw.trans e.symm)
        omega
      · rw [if_neg he]
        by_cases he2 : i + lanes = q.length
        · rw [if_pos]
          · simp [he2]
          · rw [if_pos (by omega), ← hw]
            congr 1; omega
        · rw [if_neg]
          · have a1 : q[i + lanes]? = none := by rw [List.getElem?_eq_none_iff]; omega
            have a2 : ([v] : List ℕ)[i + lanes - q.length]? = none := by
              rw [List.getElem?_eq_none_iff]; simp; omega
            rw [a1, a2]
          · intro e
            split at e
            · have := (List.getElem?_inj hi hnd).1 (hw.trans e.symm)
              omega
            · simp at e
  · rw [if_neg hi] at hw
    have hi2 : i = q.length := by
      have := (List.getElem?_eq_some_iff.1 hw).1
      simp at this; omega
    subst hi2
    have hwv : v = w := by simpa using hw
    subst hwv
    refine ⟨?_, ?_⟩
    · rw [h1, if_pos rfl]
      by_cases hle : lanes ≤ q.length
      · rw [if_pos hle, if_pos hle, List.getElem?_append, if_pos (by omega)]
      · rw [if_neg hle, if_neg hle]
    · rw [h2, if_neg, hf]
      · symm
        rw [List.getElem?_eq_none_iff]; simp; omega
      · intro e
        split at e
        · exact hv (List.mem_of_getElem? e)
        · simp at e

end UX.Cpp
