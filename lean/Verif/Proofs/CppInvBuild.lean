import Verif.Proofs.CppInvStep

/-!
# Every reachable world of the C++ engine satisfies the structural invariant
-/

namespace UX.Cpp
open CWorld

theorem Rest.empty (fl : ℚ → ℚ) (tMax deltaN tau duoTime duoWeight noise : ℚ)
    (hardDet gradual noCyclic adjustCap logMode : Bool) (ttInterval : ℕ) :
    Rest (CWorld.empty fl tMax deltaN tau duoTime duoWeight noise hardDet gradual noCyclic
      adjustCap logMode ttInterval) := by
  constructor
  · constructor <;> simp [CWorld.empty]
  · intro n; rfl

theorem Rest.addNodeWith {W : CWorld} (r : Rest W) (p : ℕ × ℚ) (ints : List ℚ) (off cap : ℚ) (lanes : ℤ)
    (rng : ℕ → ℕ) : Rest (W.addNodeWith p ints off cap lanes rng) := by
  have i := r.inv
  have hnew : ∀ n, n = W.g.nNodes → ((W.addNodeWith p ints off cap lanes rng).node n).outLinks = [] ∧
      ((W.addNodeWith p ints off cap lanes rng).node n).inLinks = [] ∧
      ((W.addNodeWith p ints off cap lanes rng).node n).genQ = [] ∧
      ((W.addNodeWith p ints off cap lanes rng).node n).runBuf = [] ∧
      ((W.addNodeWith p ints off cap lanes rng).node n).incoming = [] := by
    intro n hn; subst hn; simp [CWorld.addNodeWith]
  have hold : ∀ n, n ≠ W.g.nNodes → (W.addNodeWith p ints off cap lanes rng).node n = W.node n := by
    intro n hn; simp [CWorld.addNodeWith, upd_ne _ _ hn]
  have hlink : (W.addNodeWith p ints off cap lanes rng).link = W.link := rfl
  have hveh : (W.addNodeWith p ints off cap lanes rng).veh = W.veh := rfl
  have hnn : (W.addNodeWith p ints off cap lanes rng).g.nNodes = W.g.nNodes + 1 := rfl
  have hnl : (W.addNodeWith p ints off cap lanes rng).g.nLinks = W.g.nLinks := rfl
  have hnv : (W.addNodeWith p ints off cap lanes rng).g.nVehs = W.g.nVehs := rfl
  have hru : (W.addNodeWith p ints off cap lanes rng).g.running = W.g.running := rfl
  have hli : (W.addNodeWith p ints off cap lanes rng).g.living = W.g.living := rfl
  generalize W.addNodeWith p ints off cap lanes rng = W' at *
  have hdst : ∀ l v, v ∈ (W.link l).vehs → W'.node (W.link l).dst = W.node (W.link l).dst := by
    intro l v hv
    have := (i.ends l (i.mem l v hv).2.2.1).2.1
    exact hold _ (by omega)
  refine ⟨⟨?_, ?_, ?_, ?_, ?_, ?_, ?_, ?_, ?_, ?_, ?_, ?_, ?_, ?_, ?_, ?_, ?_, ?_, ?_⟩, fun n => ?_⟩
  · intro n l
    rw [hlink, hnl]
    by_cases e : n = W.g.nNodes
    · rw [(hnew n e).1]
      simp only [List.not_mem_nil, false_iff, not_and]
      intro h h'
      have := (i.ends l h).1
      omega
    · rw [hold n e]; exact i.outL n l
  · intro n l
    rw [hlink, hnl]
    by_cases e : n = W.g.nNodes
    · rw [(hnew n e).2.1]
      simp only [List.not_mem_nil, false_iff, not_and]
      intro h h'
      have := (i.ends l h).2.1
      omega
    · rw [hold n e]; exact i.inL n l
  · intro l hl
    rw [hnl] at hl
    have := i.ends l hl
    rw [hlink, hnn]
    exact ⟨by omega, by omega, this.2.2⟩
  · intro v hv
    rw [hnv] at hv
    have := i.orig v hv
    rw [hveh, hnn]; omega
  · rw [hlink, hveh, hnl, hnv]; exact i.mem
  · rw [hlink, hveh, hnv]; exact i.run
  · rw [hveh, hnv]; exact i.idle
  · rw [hlink]; exact i.nd
  · rw [hlink, hveh, hnl]; exact i.linked
  · intro n v
    rw [hveh, hnv]
    by_cases e : n = W.g.nNodes
    · rw [(hnew n e).2.2.1]
      simp only [List.not_mem_nil, false_iff, not_and]
      intro h _ h'
      have := i.orig v h
      omega
    · rw [hold n e]; exact i.gen n v
  · intro n
    by_cases e : n = W.g.nNodes
    · rw [(hnew n e).2.2.1]; simp
    · rw [hold n e]; exact i.gnd n
  · rw [hveh, hnv]; exact i.fresh
  · intro v h; simp at h
  · intro l v hv
    rw [hlink] at hv
    rw [hlink, hveh, hdst l v hv]; exact i.flag l v hv
  · intro l v hv
    rw [hlink] at hv
    rw [hlink, hveh, hdst l v (i.arr l v hv).1]; exact i.arr l v hv
  · intro n v hv
    by_cases e : n = W.g.nNodes
    · rw [(hnew n e).2.2.2.2] at hv; simp at hv
    · rw [hold n e] at hv ⊢; rw [hveh, hlink]; exact i.inc n v hv
  · intro v hv
    rw [hnv] at hv
    rw [hveh, i.reg1 v hv, hru, hnl, hlink, hnn]
    refine and_congr_left' (or_congr_right ⟨?_, ?_⟩)
    · rintro ⟨n, hn, h⟩; exact ⟨n, by omega, by rw [hold n (by omega)]; exact h⟩
    · rintro ⟨n, hn, h⟩
      by_cases e : n = W.g.nNodes
      · rw [(hnew n e).2.2.2.1] at h; simp at h
      · exact ⟨n, by omega, by rw [hold n e] at h; exact h⟩
  · rw [hveh, hnv, hli, hnl, hlink]; exact i.reg2
  · intro v hv
    rw [hnv] at hv
    obtain ⟨a, b, c⟩ := i.big v hv
    rw [hru, hlink]
    refine ⟨a, fun n => ?_, c⟩
    by_cases e : n = W.g.nNodes
    · rw [(hnew n e).2.2.2.1]; simp
    · rw [hold n e]; exact b n
  · by_cases e : n = W.g.nNodes
    · exact (hnew n e).2.2.2.2
    · rw [hold n e]; exact r.inc n

theorem Rest.addLink {W : CWorld} (r : Rest W) {src dst : ℕ} (a : LinkArgs) (hs : src < W.g.nNodes)
    (hd : dst < W.g.nNodes) (hl : 1 ≤ a.lanes) (hr : ∀ v, v < W.g.nVehs → (W.veh v).state ≠ .run) :
    Rest (W.addLink src dst a) := by
  have i := r.inv
  have hnoV : ∀ l, (W.link l).vehs = [] := fun l => by
    cases h : (W.link l).vehs with
    | nil => rfl
    | cons v t =>
      obtain ⟨_, b, _, c, _⟩ := i.mem l v (by rw [h]; simp)
      exact absurd b (hr v c)
  have hnoA : ∀ l, (W.link l).arrived = [] := fun l => by
    cases h : (W.link l).arrived with
    | nil => rfl
    | cons v t =>
      have := (i.arr l v (by rw [h]; simp)).1
      rw [hnoV] at this; simp at this
  have hnewl : (W.addLink src dst a).link W.g.nLinks = W.newLink src dst a := by
    simp [CWorld.addLink]
  have hold : ∀ l, l ≠ W.g.nLinks → (W.addLink src dst a).link l = W.link l := by
    intro l h; simp [CWorld.addLink, upd_ne _ _ h]
  have hnode : ∀ n, (W.addLink src dst a).node n = { W.node n with
      outLinks := if n = src then (W.node n).outLinks ++ [W.g.nLinks] else (W.node n).outLinks
      inLinks := if n = dst then (W.node n).inLinks ++ [W.g.nLinks] else (W.node n).inLinks } := by
    intro n
    simp only [CWorld.addLink, setN_node]
    by_cases e1 : n = dst
    · subst e1
      by_cases e2 : n = src
      · subst e2; simp
      · simp [e2]
    · by_cases e2 : n = src
      · subst e2; simp [e1]
      · simp [e1, e2]
  have hveh : (W.addLink src dst a).veh = W.veh := rfl
  have hnn : (W.addLink src dst a).g.nNodes = W.g.nNodes := rfl
  have hnl : (W.addLink src dst a).g.nLinks = W.g.nLinks + 1 := rfl
  have hnv : (W.addLink src dst a).g.nVehs = W.g.nVehs := rfl
  have hru : (W.addLink src dst a).g.running = W.g.running := rfl
  have hli : (W.addLink src dst a).g.living = W.g.living := rfl
  generalize W.addLink src dst a = W' at *
  have hV : ∀ l, (W'.link l).vehs = [] := fun l => by
    by_cases e : l = W.g.nLinks
    · subst e; rw [hnewl]; rfl
    · rw [hold l e]; exact hnoV l
  have hA : ∀ l, (W'.link l).arrived = [] := fun l => by
    by_cases e : l = W.g.nLinks
    · subst e; rw [hnewl]; rfl
    · rw [hold l e]; exact hnoA l
  have hE : ∀ l, (W'.link l).ended = if l = W.g.nLinks then [] else (W.link l).ended := fun l => by
    by_cases e : l = W.g.nLinks
    · subst e; rw [hnewl, if_pos rfl]; rfl
    · rw [hold l e, if_neg e]
  refine ⟨⟨?_, ?_, ?_, ?_, ?_, ?_, ?_, ?_, ?_, ?_, ?_, ?_, ?_, ?_, ?_, ?_, ?_, ?_, ?_⟩, fun n => ?_⟩
  · intro n l
    rw [hnode, hnl]
    have h0 : W.g.nLinks ∉ (W.node n).outLinks := fun h => by
      have := ((i.outL n _).1 h).1; omega
    simp only
    by_cases e : l = W.g.nLinks
    · subst e
      rw [hnewl]
      show _ ↔ _ ∧ src = n
      split
      · rename_i h; subst h; simp
      · rename_i h; simp only [h0, false_iff]; rintro ⟨_, h'⟩; exact h h'.symm
    · rw [hold l e]
      have hlt : l < W.g.nLinks + 1 ↔ l < W.g.nLinks := by omega
      rw [hlt, ← i.outL n l]
      split
      · simp [e]
      · rfl
  · intro n l
    rw [hnode, hnl]
    have h0 : W.g.nLinks ∉ (W.node n).inLinks := fun h => by
      have := ((i.inL n _).1 h).1; omega
    simp only
    by_cases e : l = W.g.nLinks
    · subst e
      rw [hnewl]
      show _ ↔ _ ∧ dst = n
      split
      · rename_i h; subst h; simp
      · rename_i h; simp only [h0, false_iff]; rintro ⟨_, h'⟩; exact h h'.symm
    · rw [hold l e]
      have hlt : l < W.g.nLinks + 1 ↔ l < W.g.nLinks := by omega
      rw [hlt, ← i.inL n l]
      split
      · simp [e]
      · rfl
  · intro l hlt
    rw [hnl] at hlt
    rw [hnn]
    by_cases e : l = W.g.nLinks
    · subst e; rw [hnewl]; exact ⟨hs, hd, hl⟩
    · rw [hold l e]; exact i.ends l (by omega)
  · rw [hveh, hnn, hnv]; exact i.orig
  · intro l v h; rw [hV] at h; simp at h
  · intro v hv h; rw [hnv] at hv; rw [hveh] at h; exact absurd h (hr v hv)
  · rw [hveh, hnv]; exact i.idle
  · intro l; rw [hV]; simp
  · intro l _; rw [hV]; intro k v h; simp at h
  · intro n v; rw [hnode, hveh, hnv]; exact i.gen n v
  · intro n; rw [hnode]; exact i.gnd n
  · rw [hveh, hnv]; exact i.fresh
  · intro v h; simp at h
  · intro l v h; rw [hV] at h; simp at h
  · intro l v h; rw [hA] at h; simp at h
  · intro n v h; rw [hnode, r.inc n] at h; simp at h
  · intro v hv
    rw [hnv] at hv
    rw [hveh, i.reg1 v hv, hru, hnl, hnn]
    simp only [hnode, hE]
    refine and_congr_right fun _ => ⟨fun h l hl => ?_, fun h l hl => ?_⟩
    · split
      · simp
      · exact h l (by omega)
    · have := h l (by omega)
      rw [if_neg (by omega)] at this
      exact this
  · intro v hv
    rw [hnv] at hv
    rw [hveh, i.reg2 v hv, hli, hnl]
    simp only [hE]
    refine or_congr_right ⟨?_, ?_⟩
    · rintro ⟨l, h, h'⟩; exact ⟨l, by omega, by rw [if_neg (by omega)]; exact h'⟩
    · rintro ⟨l, h, h'⟩
      split at h'
      · simp at h'
      · exact ⟨l, by omega, h'⟩
  · intro v hv
    rw [hnv] at hv
    obtain ⟨p, q, s⟩ := i.big v hv
    rw [hru]
    refine ⟨p, fun n => by rw [hnode]; exact q n, fun l => ?_⟩
    rw [hE]; split
    · simp
    · exact s l
  · rw [hnode]; exact r.inc n

theorem Rest.addVehicle {W : CWorld} (r : Rest W) (dep : ℚ) {orig : ℕ} (dest : ℕ) (prefer : List ℕ)
    (ho : orig < W.g.nNodes) : Rest (W.addVehicle dep orig dest prefer) := by
  have i := r.inv
  have hnew : (W.addVehicle dep orig dest prefer).veh W.g.nVehs = newVeh dep orig dest prefer := by
    simp [CWorld.addVehicle]
  have hold : ∀ v, v ≠ W.g.nVehs → (W.addVehicle dep orig dest prefer).veh v = W.veh v := by
    intro v h; simp [CWorld.addVehicle, upd_ne _ _ h]
  have hliv : ∀ v, (W.addVehicle dep orig dest prefer).g.living v =
      if v = W.g.nVehs then true else W.g.living v := by
    intro v; simp only [CWorld.addVehicle]
    by_cases e : v = W.g.nVehs
    · subst e; simp
    · simp [upd_ne _ _ e, e]
  have hlink : (W.addVehicle dep orig dest prefer).link = W.link := rfl
  have hnode : (W.addVehicle dep orig dest prefer).node = W.node := rfl
  have hnn : (W.addVehicle dep orig dest prefer).g.nNodes = W.g.nNodes := rfl
  have hnl : (W.addVehicle dep orig dest prefer).g.nLinks = W.g.nLinks := rfl
  have hnv : (W.addVehicle dep orig dest prefer).g.nVehs = W.g.nVehs + 1 := rfl
  have hru : (W.addVehicle dep orig dest prefer).g.running = W.g.running := rfl
  generalize W.addVehicle dep orig dest prefer = W' at *
  have hon : ∀ l v, v ∈ (W.link l).vehs → W'.veh v = W.veh v := fun l v h =>
    hold v (fun e => by have := (i.mem l v h).2.2.2.1; omega)
  have case : ∀ {v}, v < W.g.nVehs + 1 → v ≠ W.g.nVehs → v < W.g.nVehs := fun h e => by omega
  obtain ⟨b1, b2, b3⟩ := i.big W.g.nVehs le_rfl
  refine ⟨⟨?_, ?_, ?_, ?_, ?_, ?_, ?_, ?_, ?_, ?_, ?_, ?_, ?_, ?_, ?_, ?_, ?_, ?_, ?_⟩, fun n => ?_⟩
  · rw [hnode, hlink, hnl]; exact i.outL
  · rw [hnode, hlink, hnl]; exact i.inL
  · rw [hlink, hnl, hnn]; exact i.ends
  · intro v hv
    rw [hnv] at hv
    rw [hnn]
    by_cases e : v = W.g.nVehs
    · subst e; rw [hnew]; exact ho
    · rw [hold v e]; exact i.orig v (case hv e)
  · intro l v h
    rw [hlink] at h
    obtain ⟨p, q, s, t, u⟩ := i.mem l v h
    rw [hon l v h, hnl, hnv]
    exact ⟨p, q, s, by omega, u⟩
  · intro v hv h
    rw [hnv] at hv
    rw [hlink]
    by_cases e : v = W.g.nVehs
    · subst e; rw [hnew] at h; simp [newVeh] at h
    · rw [hold v e] at h; exact i.run v (case hv e) h
  · intro v hv h
    rw [hnv] at hv
    by_cases e : v = W.g.nVehs
    · subst e; rw [hnew]; rfl
    · rw [hold v e] at h ⊢; exact i.idle v (case hv e) h
  · rw [hlink]; exact i.nd
  · intro l hl
    rw [hnl] at hl
    rw [hlink]
    exact (i.linked l hl).congr (fun v hv => by simp only [hon l v hv]) (fun v hv => by simp only [hon l v hv])
  · intro n v
    rw [hnode, hnv]
    by_cases e : v = W.g.nVehs
    · subst e
      rw [hnew]
      have : W.g.nVehs ∉ (W.node n).genQ := fun h => by
        have := ((i.gen n _).1 h).1; omega
      simp [this, newVeh]
    · rw [hold v e, i.gen n v]
      have : v < W.g.nVehs + 1 ↔ v < W.g.nVehs := by omega
      rw [this]
  · rw [hnode]; exact i.gnd
  · intro v hv h
    rw [hnv] at hv
    by_cases e : v = W.g.nVehs
    · subst e; rw [hnew]; exact ⟨rfl, rfl⟩
    · rw [hold v e] at h ⊢; exact i.fresh v (case hv e) h
  · intro v h; simp at h
  · intro l v h
    rw [hlink] at h
    rw [hon l v h, hlink, hnode]; exact i.flag l v h
  · intro l v h
    rw [hlink] at h
    have := i.arr l v h
    rw [hon l v this.1, hlink, hnode]; exact this
  · intro n v h; rw [hnode, r.inc n] at h; simp at h
  · intro v hv
    rw [hnv] at hv
    rw [hru, hnl, hnn, hlink, hnode]
    by_cases e : v = W.g.nVehs
    · subst e
      rw [hnew]
      simp [newVeh, b1, b2]
    · rw [hold v e]; exact i.reg1 v (case hv e)
  · intro v hv
    rw [hnv] at hv
    rw [hliv, hnl, hlink]
    by_cases e : v = W.g.nVehs
    · subst e
      rw [hnew]
      simp [newVeh, b3]
    · rw [hold v e, if_neg e]; exact i.reg2 v (case hv e)
  · intro v hv
    rw [hnv] at hv
    rw [hru, hnode, hlink]; exact i.big v (by omega)
  · rw [hnode]; exact r.inc n

/-- Parameters the invariant does not read. -/
theorem Rest.setN' {W : CWorld} (r : Rest W) (n : ℕ) (f : CNode → CNode)
    (hf : ∀ N, (f N).inLinks = N.inLinks ∧ (f N).outLinks = N.outLinks ∧ (f N).incoming = N.incoming ∧
      (f N).genQ = N.genQ ∧ (f N).runBuf = N.runBuf) : Rest (W.setN n f) := by
  have e : ∀ m, ((W.setN n f).node m).inLinks = (W.node m).inLinks ∧
      ((W.setN n f).node m).outLinks = (W.node m).outLinks ∧
      ((W.setN n f).node m).incoming = (W.node m).incoming ∧
      ((W.setN n f).node m).genQ = (W.node m).genQ ∧ ((W.setN n f).node m).runBuf = (W.node m).runBuf := by
    intro m; rw [setN_node]; split
    · rename_i h; rw [h]; exact hf _
    · exact ⟨rfl, rfl, rfl, rfl, rfl⟩
  have i := r.inv
  refine ⟨⟨?_, ?_, i.ends, i.orig, i.mem, i.run, i.idle, i.nd, i.linked, ?_, ?_, i.fresh, i.limbo, ?_, ?_, ?_,
    ?_, i.reg2, ?_⟩, fun m => by rw [(e m).2.2.1]; exact r.inc m⟩
  · intro m l; rw [(e m).2.1]; exact i.outL m l
  · intro m l; rw [(e m).1]; exact i.inL m l
  · intro m v; rw [(e m).2.2.2.1]; exact i.gen m v
  · intro m; rw [(e m).2.2.2.1]; exact i.gnd m
  · intro l v; rw [(e _).2.1]; exact i.flag l v
  · intro l v; rw [(e _).2.1]; exact i.arr l v
  · intro m v; rw [(e m).2.1, (e m).2.2.1]; exact i.inc m v
  · intro v; simp only [(e _).2.2.2.2]; exact i.reg1 v
  · intro v; simp only [(e _).2.2.2.2]; exact i.big v

theorem Rest.relink {W : CWorld} (r : Rest W) (lk : ℕ → CLink)
    (e : ∀ m, (lk m).src = (W.link m).src ∧ (lk m).dst = (W.link m).dst ∧ (lk m).lanes = (W.link m).lanes ∧
      (lk m).vehs = (W.link m).vehs ∧ (lk m).arrived = (W.link m).arrived ∧ (lk m).ended = (W.link m).ended) :
    Rest { W with link := lk } := by
  have e1 := fun m => (e m).1
  have e2 := fun m => (e m).2.1
  have e3 := fun m => (e m).2.2.1
  have e4 := fun m => (e m).2.2.2.1
  have e5 := fun m => (e m).2.2.2.2.1
  have e6 := fun m => (e m).2.2.2.2.2
  have i := r.inv
  refine ⟨⟨?_, ?_, ?_, i.orig, ?_, ?_, i.idle, ?_, ?_, i.gen, i.gnd, i.fresh, i.limbo, ?_, ?_, ?_, ?_, ?_, ?_⟩,
    r.inc⟩
  · intro n m; rw [e1]; exact i.outL n m
  · intro n m; rw [e2]; exact i.inL n m
  · intro m; rw [e1, e2, e3]; exact i.ends m
  · intro m; rw [e4]; exact i.mem m
  · simp only [e4]; exact i.run
  · intro m; rw [e4]; exact i.nd m
  · intro m; rw [e3, e4]; exact i.linked m
  · intro m v; rw [e4, e2]; exact i.flag m v
  · intro m v; rw [e5, e4, e2]; exact i.arr m v
  · simp only [e4, e2, e5]; exact i.inc
  · simp only [e6]; exact i.reg1
  · simp only [e6]; exact i.reg2
  · simp only [e6]; exact i.big

theorem Rest.setL' {W : CWorld} (r : Rest W) (l : ℕ) (f : CLink → CLink)
    (hf : ∀ L, (f L).src = L.src ∧ (f L).dst = L.dst ∧ (f L).lanes = L.lanes ∧ (f L).vehs = L.vehs ∧
      (f L).arrived = L.arrived ∧ (f L).ended = L.ended) : Rest (W.setL l f) := by
  refine r.relink (W.setL l f).link (fun m => ?_)
  rw [setL_link]; split
  · rename_i h; rw [h]; exact hf _
  · exact ⟨rfl, rfl, rfl, rfl, rfl, rfl⟩

theorem Rest.setTMax {W : CWorld} (r : Rest W) (t : ℚ) : Rest (W.setTMax t) := by
  refine (r.setG (W.setTMax t).g rfl rfl rfl rfl rfl).relink (W.setTMax t).link (fun l => ?_)
  simp only [CWorld.setTMax]
  split <;> exact ⟨rfl, rfl, rfl, rfl, rfl, rfl⟩

theorem Rest.setV' {W : CWorld} (r : Rest W) (v : ℕ) (f : CVeh → CVeh)
    (hf : ∀ V, (f V).orig = V.orig ∧ (f V).dest = V.dest ∧ (f V).link = V.link ∧ (f V).state = V.state ∧
      (f V).leader = V.leader ∧ (f V).follower = V.follower ∧ (f V).flagWait = V.flagWait ∧
      (f V).next = V.next) : Rest (W.setV v f) := by
  have e : ∀ w, ((W.setV v f).veh w).orig = (W.veh w).orig ∧ ((W.setV v f).veh w).dest = (W.veh w).dest ∧
      ((W.setV v f).veh w).link = (W.veh w).link ∧ ((W.setV v f).veh w).state = (W.veh w).state ∧
      ((W.setV v f).veh w).leader = (W.veh w).leader ∧ ((W.setV v f).veh w).follower = (W.veh w).follower ∧
      ((W.setV v f).veh w).flagWait = (W.veh w).flagWait ∧ ((W.setV v f).veh w).next = (W.veh w).next := by
    intro w; rw [setV_veh]; split
    · rename_i h; rw [h]; exact hf _
    · exact ⟨rfl, rfl, rfl, rfl, rfl, rfl, rfl, rfl⟩
  have e1 := fun m => (e m).1
  have e2 := fun m => (e m).2.1
  have e3 := fun m => (e m).2.2.1
  have e4 := fun m => (e m).2.2.2.1
  have e5 := fun m => (e m).2.2.2.2.1
  have e6 := fun m => (e m).2.2.2.2.2.1
  have e7 := fun m => (e m).2.2.2.2.2.2.1
  have e8 := fun m => (e m).2.2.2.2.2.2.2
  have i := r.inv
  refine ⟨⟨i.outL, i.inL, i.ends, ?_, ?_, ?_, ?_, i.nd, ?_, ?_, i.gnd, ?_, ?_, ?_, ?_, ?_, ?_, ?_, i.big⟩, r.inc⟩
  · simp only [e1]; exact i.orig
  · simp only [e3, e4]; exact i.mem
  · simp only [e4]; exact i.run
  · simp only [e3, e4]; exact i.idle
  · simp only [e5, e6]; exact i.linked
  · simp only [e1, e4]; exact i.gen
  · simp only [e4, e6, e7]; exact i.fresh
  · intro w h; simp at h
  · simp only [e2, e7]; exact i.flag
  · simp only [e7, e8]; exact i.arr
  · simp only [e7, e8]; exact i.inc
  · simp only [e4]; exact i.reg1
  · simp only [e4]; exact i.reg2

theorem Rest.edit {W : CWorld} (r : Rest W) (e : Edit) : Rest (W.edit e) := by
  cases e with
  | freeFlow l q =>
    simp only [CWorld.edit, changeFreeFlow]
    split
    · exact r.setL' l _ (fun _ => ⟨rfl, rfl, rfl, rfl, rfl, rfl⟩)
    · exact r
  | jam l q =>
    simp only [CWorld.edit, changeJam]
    split
    · exact r.setL' l _ (fun _ => ⟨rfl, rfl, rfl, rfl, rfl, rfl⟩)
    · exact r
  | enforce v ls => simp only [CWorld.edit]; exact r.setV' v _ (fun _ => ⟨rfl, rfl, rfl, rfl, rfl, rfl, rfl, rfl⟩)
  | prefer v ls => simp only [CWorld.edit]; exact r.setV' v _ (fun _ => ⟨rfl, rfl, rfl, rfl, rfl, rfl, rfl, rfl⟩)
  | avoid v ls => simp only [CWorld.edit]; exact r.setV' v _ (fun _ => ⟨rfl, rfl, rfl, rfl, rfl, rfl, rfl, rfl⟩)
  | tripAbort v b => simp only [CWorld.edit]; exact r.setV' v _ (fun _ => ⟨rfl, rfl, rfl, rfl, rfl, rfl, rfl, rfl⟩)
  | signal n ints off p t => simp only [CWorld.edit]; exact r.setN' n _ (fun _ => ⟨rfl, rfl, rfl, rfl, rfl⟩)
  | _ => simp only [CWorld.edit]; exact r.setL' _ _ (fun _ => ⟨rfl, rfl, rfl, rfl, rfl, rfl⟩)

theorem Rest.initAdj {W : CWorld} (r : Rest W) : Rest W.initAdj := by
  have h1 : Rest (if W.g.adjustCap then (List.range W.g.nNodes).foldl adjustNode W else W) := by
    split
    · have gen : ∀ (xs : List ℕ) (V : CWorld), Rest V → Rest (xs.foldl adjustNode V) := by
        intro xs
        induction xs with
        | nil => intro V h; exact h
        | cons n t ih =>
          intro V h
          refine ih _ ?_
          unfold adjustNode
          split
          · exact h.setN' n _ (fun _ => ⟨rfl, rfl, rfl, rfl, rfl⟩)
          · exact h
      exact gen _ W r
    · exact r
  exact h1.setG _ rfl rfl rfl rfl rfl

theorem Rest.step {W W' : CWorld} (r : Rest W) (s : CStep W W') : Rest W' := by
  cases s with
  | node =>
    rename_i h
    unfold addNode at h
    obtain ⟨p, _, rfl⟩ := Option.map_eq_some_iff.1 h
    exact r.addNodeWith p ..
  | link => exact r.addLink _ (by assumption) (by assumption) (by assumption) (by assumption)
  | vehicle => exact r.addVehicle _ _ _ (by assumption)
  | tmax => exact r.setTMax _
  | init => exact r.initAdj
  | edit => exact r.edit _
  | run =>
    rename_i hs
    exact r.mainLoop _ (fun t V _ => (hs t V).2.2.2.1.nodup_iff.2 List.nodup_range) _

theorem CReach.rest {W : CWorld} (h : CReach W) : Rest W := by
  induction h with
  | empty => exact Rest.empty ..
  | step _ s ih => exact ih.step s

end UX.Cpp
