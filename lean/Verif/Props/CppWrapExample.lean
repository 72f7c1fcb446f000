import Verif.Props.CppExample
import Verif.Proofs.CppWrap

/-!
# Histories of calls of the wrapper, used for the concrete cases of C108–C110
-/

namespace UX.Cpp
open CWorld Spec

/-- A call. -/
inductive WCmd
  | node
  | link (src dst : ℕ)
  | vehicle (t : ℚ) (orig dest : ℕ) (name : Option String)
  | demand (orig dest : ℕ) (t0 t1 flow : ℚ)
  | finalize
  | exec (u : Wrap.Until)
  | logs

/-- The name given in a call satisfies `OK`. -/
def WCmd.Named (OK : String → Prop) : WCmd → Prop
  | .vehicle _ _ _ (some s) => OK s
  | _ => True

def wApply (W : Wrap) : WCmd → Option Wrap
  | .node => if W.finalized then none else
      (W.c.addNode [0] 0 (-1) 0 (fun _ => 0) 1).map (fun c => { W with c := c })
  | .link s d => if W.finalized = false ∧ s < W.c.g.nNodes ∧ d < W.c.g.nNodes then
      some { W with c := W.c.addLink s d cppExArgs } else none
  | .vehicle t o d name => if o < W.c.g.nNodes ∧ d < W.c.g.nNodes then
      match W.addVehicle t o d [] name 10 with
      | some (.ok W') => some W'
      | _ => none else none
  | .demand o d t0 t1 f => if o < W.c.g.nNodes ∧ d < W.c.g.nNodes then
      (W.c.addDemand o d t0 t1 f [] 10).map W.addDemand else none
  | .finalize => if W.finalized then none else some (W.finalize none)
  | .exec u => match W.exec (fun _ V => V.seqSched) u with
      | .ok (W', _) => some W'
      | .error _ => none
  | .logs => some W.readLogs

theorem wApply_step {OK : String → Prop} {W W' : Wrap} {c : WCmd} (hn : c.Named OK) (h : wApply W c = some W') :
    WStep OK W W' := by
  cases c with
  | node =>
    unfold wApply at h
    simp only at h
    split at h
    · cases h
    · rename_i hf
      rw [Option.map_eq_some_iff] at h
      obtain ⟨c, h1, rfl⟩ := h
      exact .node W c _ _ _ _ _ _ (by simpa using hf) h1
  | link s d =>
    unfold wApply at h
    simp only at h
    split at h
    · rename_i hc
      rw [← Option.some.inj h]
      exact .link W s d cppExArgs hc.1 hc.2.1 hc.2.2 (by decide)
    · cases h
  | vehicle t o d name =>
    unfold wApply at h
    simp only at h
    split at h
    · rename_i hc
      split at h
      · rename_i V hV
        rw [← Option.some.inj h]
        refine .vehicle W V t o d [] name 10 hc.1 hc.2 ?_ hV
        rintro s rfl; exact hn
      · cases h
    · cases h
  | demand o d t0 t1 f =>
    unfold wApply at h
    simp only at h
    split at h
    · rename_i hc
      rw [Option.map_eq_some_iff] at h
      obtain ⟨c, h1, rfl⟩ := h
      exact .demand W c o d t0 t1 f 10 hc.1 hc.2 h1
    · cases h
  | finalize =>
    unfold wApply at h
    simp only at h
    split at h
    · cases h
    · rename_i hf
      rw [← Option.some.inj h]
      exact .finalize W none (by simpa using hf)
  | exec u =>
    unfold wApply at h
    simp only at h
    split at h
    · rename_i V r hV
      rw [← Option.some.inj h]
      exact .exec W V u r _ seqSched_valid hV
    · cases h
  | logs =>
    rw [← Option.some.inj h]
    exact .logs W

/-- A history of calls without exceptions. -/
def wRun (W : Wrap) : List WCmd → Option Wrap
  | [] => some W
  | c :: cs => (wApply W c).bind (fun V => wRun V cs)

theorem wRun_reach {OK : String → Prop} {cs : List WCmd} {W W' : Wrap} (hr : WReach OK W)
    (hn : ∀ c ∈ cs, c.Named OK) (h : wRun W cs = some W') : WReach OK W' := by
  induction cs generalizing W with
  | nil => rw [← Option.some.inj h]; exact hr
  | cons c cs ih =>
    unfold wRun at h
    rw [Option.bind_eq_some_iff] at h
    obtain ⟨V, h1, h2⟩ := h
    exact ih (.step hr (wApply_step (hn c List.mem_cons_self) h1)) (fun d hd => hn d (List.mem_cons_of_mem _ hd)) h2

theorem exec_fl {W W' : Wrap} {sched : ℕ → CWorld → Sched} {u : Wrap.Until} {r : ℕ} (i : WInv W)
    (hs : ∀ t V, (sched t V).Valid V) (h : W.exec sched u = .ok (W', r)) : W'.c.g.fl = W.c.g.fl := by
  have key : ∀ V : Wrap, WInv V → V.finalized = true →
      (if (V.T : ℤ) = V.endTs u ∧ V.endTs u = V.tsize then .ok (V.readLogs, 1)
        else if V.endTs u < V.T then .error .exception
        else Wrap.run sched V (V.endTs u)) = Except.ok (W', r) → W'.c.g.fl = V.c.g.fl := by
    intro V iV hV hh
    split at hh
    · simp only [Except.ok.injEq, Prod.mk.injEq] at hh
      rw [← hh.1]; rfl
    · split at hh
      · cases hh
      · have := (iV.run hV hs hh).2.1
        exact CGlob.fix_fl (mainLoop_keep iV.clean.toReach.rest
          (fun t V _ => (hs t V).2.2.2.1.nodup_iff.2 List.nodup_range) this).1.fix
  unfold Wrap.exec at h
  simp only [] at h
  cases hf : W.finalized with
  | true => rw [if_pos hf] at h; exact key W i hf h
  | false =>
    rw [hf] at h
    refine (key (W.finalize none) (i.finalize hf none) rfl h).trans ?_
    unfold Wrap.finalize
    extract_lets q
    exact (CGlob.fix_fl (initAdj_same (W.c.setTMax q)).2.2.1).trans rfl

theorem register_c (W : Wrap) : W.register.c = W.c := by
  have key : ∀ (xs : List ℕ) (k : ℕ) (V : Wrap), (xs.foldl (Wrap.registerOne k) V).c = V.c := by
    intro xs k
    induction xs with
    | nil => intro V; rfl
    | cons x xs ih => intro V; exact (ih _).trans rfl
  exact key _ _ _

theorem wApply_fl {W W' : Wrap} {c : WCmd} (hx : ∀ u, c = .exec u → WInv W) (h : wApply W c = some W') :
    W'.c.g.fl = W.c.g.fl := by
  cases c with
  | node =>
    unfold wApply at h
    simp only at h
    split at h
    · cases h
    · rw [Option.map_eq_some_iff] at h
      obtain ⟨c, h1, rfl⟩ := h
      unfold CWorld.addNode at h1
      rw [Option.map_eq_some_iff] at h1
      obtain ⟨p, _, rfl⟩ := h1
      rfl
  | link s d =>
    unfold wApply at h
    simp only at h
    split at h
    · rw [← Option.some.inj h]; rfl
    · cases h
  | vehicle t o d name =>
    unfold wApply at h
    simp only at h
    split at h
    · rename_i hc
      split at h
      · rename_i V hV
        rw [← Option.some.inj h]
        unfold Wrap.addVehicle at hV
        split at hV
        · simp at hV
        · rw [Option.map_eq_some_iff] at hV
          obtain ⟨c, h1, h2⟩ := hV
          have a := (addDemand_adds hc.1 hc.2 h1).fl
          have b : V.c = c := by
            unfold Wrap.named at h2
            simp only [] at h2
            split at h2
            · cases h2
            · split at h2 <;> (rw [← Except.ok.inj h2]; exact register_c _)
          rw [b, a]
      · cases h
    · cases h
  | demand o d t0 t1 f =>
    unfold wApply at h
    simp only at h
    split at h
    · rename_i hc
      rw [Option.map_eq_some_iff] at h
      obtain ⟨c, h1, rfl⟩ := h
      have a := (addDemand_adds hc.1 hc.2 h1).fl
      unfold Wrap.addDemand
      rw [register_c]; exact a
    · cases h
  | finalize =>
    unfold wApply at h
    simp only at h
    split at h
    · cases h
    · rw [← Option.some.inj h]
      unfold Wrap.finalize
      extract_lets q
      exact (CGlob.fix_fl (initAdj_same (W.c.setTMax q)).2.2.1).trans rfl
  | exec u =>
    unfold wApply at h
    simp only at h
    split at h
    · rename_i V r hV
      rw [← Option.some.inj h]
      exact exec_fl (hx u rfl) seqSched_valid hV
    · cases h
  | logs => rw [← Option.some.inj h]; rfl

theorem wRun_fl {cs : List WCmd} {W W' : Wrap} (hr : WReach NotNumber W) (hn : ∀ c ∈ cs, c.Named NotNumber)
    (h : wRun W cs = some W') : W'.c.g.fl = W.c.g.fl := by
  induction cs generalizing W with
  | nil => rw [← Option.some.inj h]
  | cons c cs ih =>
    unfold wRun at h
    rw [Option.bind_eq_some_iff] at h
    obtain ⟨V, h1, h2⟩ := h
    exact (ih (.step hr (wApply_step (hn c List.mem_cons_self) h1))
      (fun d hd => hn d (List.mem_cons_of_mem _ hd)) h2).trans (wApply_fl (fun _ _ => hr.inv) h1)

theorem wRun_fl' {cs : List WCmd} {W W' : Wrap} (hn : ∀ c ∈ cs, ∀ u, c ≠ .exec u)
    (h : wRun W cs = some W') : W'.c.g.fl = W.c.g.fl := by
  induction cs generalizing W with
  | nil => rw [← Option.some.inj h]
  | cons c cs ih =>
    unfold wRun at h
    rw [Option.bind_eq_some_iff] at h
    obtain ⟨V, h1, h2⟩ := h
    exact (ih (fun d hd => hn d (List.mem_cons_of_mem _ hd)) h2).trans
      (wApply_fl (fun u e => absurd e (hn c List.mem_cons_self u)) h1)

/-- What can be seen in the world at the end of a history. -/
def wObs (o : Option Wrap) (f : Wrap → Bool) : Bool :=
  match o with
  | some W => f W
  | none => false

theorem wObs_ok {o : Option Wrap} {f : Wrap → Bool} (h : wObs o f = true) : ∃ W, o = some W ∧ f W = true := by
  cases o with
  | none => cases h
  | some W => exact ⟨W, rfl, h⟩

/-- A new world: 100 s, the other parameters as in `cppEx0`. -/
def wNew (fl : ℚ → ℚ) (tmax deltaN tau : ℚ) : Wrap :=
  Wrap.new fl (some tmax) deltaN tau 10 (1/2) 0 true false false false true 1

theorem wNew_reach (OK : String → Prop) (fl : ℚ → ℚ) (tmax deltaN tau : ℚ) : WReach OK (wNew fl tmax deltaN tau) :=
  .new ..

/-- The road of `cppEx0`. -/
def wRoad : List WCmd := [.node, .node, .node, .link 0 1, .link 1 2]

theorem wRoad_named (OK : String → Prop) : ∀ c ∈ wRoad, c.Named OK := by
  intro c hc
  simp only [wRoad, List.mem_cons, List.not_mem_nil, or_false] at hc
  rcases hc with rfl | rfl | rfl | rfl | rfl <;> trivial

/-- A name with a character that is not a digit is not a number. -/
theorem notNumber_of_char {s : String} {c : Char} (hc : c ∈ s.toList) (hd : c.isDigit = false) : NotNumber s := by
  intro k e
  subst e
  rw [Nat.toString_eq_ofList_toDigits] at hc
  have := Nat.isDigit_of_mem_toDigits (b := 10) (by omega) (by omega) (by simpa using hc)
  rw [hd] at this; cases this

/-- Rounding to tenths below 4, to integers from 4 on. -/
def coarse (q : ℚ) : ℚ := if q < 4 then (⌊10 * q + 1/2⌋ : ℚ) / 10 else ⌊q + 1/2⌋

theorem floor_int_half (n : ℤ) : ⌊(n : ℚ) + 1/2⌋ = n := by
  rw [Int.floor_eq_iff]; constructor <;> norm_num

theorem coarse_ok : FlOK coarse := by
  have hlow : ∀ q : ℚ, q < 4 → ⌊10 * q + 1/2⌋ ≤ 40 := fun q hq => by
    rw [Int.floor_le_iff]; push_cast; linarith
  have hhigh : ∀ q : ℚ, 4 ≤ q → 4 ≤ ⌊q + 1/2⌋ := fun q hq => by
    rw [Int.le_floor]; push_cast; linarith
  refine ⟨fun q r h => ?_, ?_, fun q => ?_⟩
  · unfold coarse
    split <;> rename_i hq <;> split <;> rename_i hr
    · have : ⌊10 * q + 1/2⌋ ≤ ⌊10 * r + 1/2⌋ := Int.floor_le_floor (by linarith)
      have : (⌊10 * q + 1/2⌋ : ℚ) ≤ ⌊10 * r + 1/2⌋ := by exact_mod_cast this
      linarith
    · have h1 : (⌊10 * q + 1/2⌋ : ℚ) ≤ 40 := by exact_mod_cast hlow q hq
      have h2 : (4 : ℚ) ≤ ⌊r + 1/2⌋ := by exact_mod_cast hhigh r (not_lt.1 hr)
      linarith
    · exact absurd (lt_of_le_of_lt h hr) hq
    · exact_mod_cast Int.floor_le_floor (by linarith)
  · unfold coarse; norm_num
  · unfold coarse
    by_cases hq : q < 4
    · simp only [hq, if_true]
      have h1 := hlow q hq
      generalize ⌊10 * q + 1/2⌋ = n at h1
      by_cases hn : n = 40
      · subst hn; norm_num
      · have : n ≤ 39 := by omega
        have : (n : ℚ) ≤ 39 := by exact_mod_cast this
        rw [if_pos (by linarith), show 10 * ((n : ℚ) / 10) = n by ring, floor_int_half]
    · simp only [hq, if_false]
      have h2 : (4 : ℚ) ≤ ⌊q + 1/2⌋ := by exact_mod_cast hhigh q (not_lt.1 hq)
      rw [if_neg (not_lt.2 h2), floor_int_half]

end UX.Cpp
