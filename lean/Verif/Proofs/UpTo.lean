import Verif.Model.Reach
import Verif.Proofs.Basic

/-!
# Worlds equal up to the random generator, the clock shown to users, and taxi time stamps

`W.sub r t g a` replaces these parts of `W`. The time step commutes with it, apart from the uses of the
random generator (none in hard deterministic mode) and of the clock (taxi time stamps).
-/

namespace UX

/-- The two computations raise the same error or give related results. -/
inductive RM {α β : Type} (R : α → β → Prop) : M α → M β → Prop
  | ok {a b} : R a b → RM R (.ok a) (.ok b)
  | err {e} : RM R (.error e) (.error e)

namespace RM
variable {α β γ δ : Type} {R : α → β → Prop} {S : γ → δ → Prop}

theorem bind {m : M α} {m' : M β} {f : α → M γ} {f' : β → M δ} (h : RM R m m')
    (hf : ∀ a b, R a b → RM S (f a) (f' b)) : RM S (m >>= f) (m' >>= f') := by
  cases h with
  | ok h => exact hf _ _ h
  | err => exact .err

theorem foldlM {ι : Type} {f : α → ι → M α} {f' : β → ι → M β}
    (hf : ∀ a b i, R a b → RM R (f a i) (f' b i)) (l : List ι) :
    ∀ a b, R a b → RM R (l.foldlM f a) (l.foldlM f' b) := by
  induction l with
  | nil => intro a b h; exact .ok h
  | cons i t ih =>
    intro a b h
    rw [List.foldlM_cons, List.foldlM_cons]
    exact (hf a b i h).bind ih

theorem mono {R' : α → β → Prop} (hR : ∀ a b, R a b → R' a b) {m m'} (h : RM R m m') : RM R' m m' := by
  cases h with
  | ok h => exact .ok (hR _ _ h)
  | err => exact .err

theorem map {f : α → γ} {f' : β → δ} {m m'} (h : RM R m m') (hf : ∀ a b, R a b → S (f a) (f' b)) :
    RM S (m.map f) (m'.map f') := by
  cases h with
  | ok h => exact .ok (hf _ _ h)
  | err => exact .err

theorem refl (hR : ∀ a : α, Q a a) {m : M α} : RM Q m m := by
  cases m with
  | ok a => exact .ok (hR a)
  | error e => exact .err

theorem guard {p p' : Prop} [Decidable p] [Decidable p'] {e : Err} {X : M α} {Y : M β} (hp : p' ↔ p)
    (h : RM R X Y) : RM R (do if p then throw e
                              X) (do if p' then throw e
                                     Y) := by
  by_cases hc : p
  · have hc' := hp.2 hc
    simp only [hc, hc', if_true]; exact .err
  · have hc' : ¬ p' := fun h => hc (hp.1 h)
    simp only [hc, hc', if_false]; exact h

end RM

namespace World

/-- Replace the random generator, the clock and the taxi time stamps. -/
def sub (W : World) (r : ℕ → ℕ) (t : ℚ) (g a : ReqId → Option ℚ) : World :=
  { W with rng := r, time := t, H := { W.H with getTaxiTime := g, arrivalTime := a } }

variable (W : World) (r : ℕ → ℕ) (t : ℚ) (g a : ReqId → Option ℚ)

theorem linkUpdate_sub (l : LinkId) :
    (W.sub r t g a).linkUpdate l = (W.linkUpdate l).map (·.sub r t g a) := by
  have h : ((W.sub r t g a).refillCaps l).newTtInstant l = (W.refillCaps l).newTtInstant l := rfl
  unfold linkUpdate
  dsimp only
  rw [h]
  split <;> rfl

theorem linkUpdate_cfg {W W1 : World} {l} (h : W.linkUpdate l = .ok W1) : W1.cfg = W.cfg := by
  unfold linkUpdate at h
  dsimp only at h
  split at h
  · cases h
  · cases h; rfl

theorem recordRow_sub (v : VehId) (e : Bool) :
    (W.sub r t g a).recordRow v e = (W.recordRow v e).sub r t g a := by
  have h : (W.sub r t g a).logDue e = W.logDue e := rfl
  have h2 : (W.sub r t g a).V.state v = W.V.state v := rfl
  unfold recordRow
  dsimp only
  rw [h, h2]
  split
  · split <;> rfl
  · rfl

theorem recordRow_cfg (v : VehId) (e : Bool) : (W.recordRow v e).cfg = W.cfg := by
  unfold recordRow
  split
  · dsimp only; split <;> rfl
  · rfl

theorem recordRoute_sub (v : VehId) :
    (W.sub r t g a).recordRoute v = (W.recordRoute v).sub r t g a := by
  unfold recordRoute
  have h : ((W.sub r t g a).V.link v = (W.sub r t g a).V.linkOld v) = (W.V.link v = W.V.linkOld v) := rfl
  by_cases h1 : W.V.link v = W.V.linkOld v
  · rw [if_pos (h ▸ h1), if_pos h1]
  · rw [if_neg (h ▸ h1), if_neg h1]; rfl

theorem recordRoute_cfg (v : VehId) : (W.recordRoute v).cfg = W.cfg := by
  unfold recordRoute; split <;> rfl

theorem recordLog_sub (v : VehId) (e : Bool) :
    (W.sub r t g a).recordLog v e = (W.recordLog v e).sub r t g a := by
  unfold recordLog; rw [recordRow_sub, recordRoute_sub]

theorem recordLog_cfg (v : VehId) (e : Bool) : (W.recordLog v e).cfg = W.cfg := by
  unfold recordLog; rw [recordRoute_cfg, recordRow_cfg]

theorem endTrip_sub (v : VehId) :
    (W.sub r t g a).endTrip v = (W.endTrip v).map (·.sub r t g a) := by
  have h1 : (W.sub r t g a).V.link v = W.V.link v := rfl
  have h2 : ∀ l, (W.sub r t g a).endTripCore v l = (W.endTripCore v l).sub r t g a := fun _ => rfl
  have h3 : (W.sub r t g a).L = W.L := rfl
  have h4 : (W.sub r t g a).running = W.running := rfl
  have h5 : (W.sub r t g a).living = W.living := rfl
  unfold endTrip
  rw [h1, h3, h4, h5]
  split
  · rfl
  · split
    · rfl
    · split
      · rfl
      · rw [h2, recordLog_sub]; rfl

theorem endTrip_cfg {W W1 : World} {v} (h : W.endTrip v = .ok W1) : W1.cfg = W.cfg := by
  unfold endTrip at h
  split at h
  · cases h
  · split at h
    · cases h
    · split at h
      · cases h
      · cases h; rw [recordLog_cfg]; rfl

theorem attachLeader_sub (v : VehId) (l : LinkId) :
    (W.sub r t g a).attachLeader v l = (W.attachLeader v l).map (·.sub r t g a) := by
  have h1 : (W.sub r t g a).L = W.L := rfl
  have h2 : (W.sub r t g a).V = W.V := rfl
  have h3 : (W.sub r t g a).newLane l = W.newLane l := rfl
  unfold attachLeader
  dsimp only
  rw [h1, h2, h3]
  split
  · split
    · rfl
    · split <;> rfl
  · rfl

theorem attachLeader_cfg {W W1 : World} {v l} (h : W.attachLeader v l = .ok W1) : W1.cfg = W.cfg := by
  unfold attachLeader at h
  dsimp only at h
  split at h
  · split at h
    · cases h
    · split at h
      · cases h; rfl
      · cases h
  · cases h; rfl

theorem bind_comm {α α' β β' : Type} {m : M α} {m' : M α'} {s : α → α'} {k : α → M β} {k' : α' → M β'}
    {s' : β → β'} (hm : m.map s = m') (hk : ∀ x, k' (s x) = (k x).map s') :
    (m' >>= k') = (m >>= k).map s' := by
  subst hm
  cases m with
  | ok a => exact hk a
  | error e => rfl

theorem depart_sub (n : NodeId) (v : VehId) (l : LinkId) :
    (W.sub r t g a).depart n v l = (W.depart n v l).map (·.sub r t g a) := by
  unfold depart
  by_cases h : W.L.cumArr l = []
  · have h' : (W.sub r t g a).L.cumArr l = [] := h
    rw [if_pos h, if_pos h']; rfl
  · have h' : ¬ (W.sub r t g a).L.cumArr l = [] := h
    rw [if_neg h, if_neg h']
    simp only [pure_bind]
    exact bind_comm (attachLeader_sub _ r t g a v l).symm (fun x => rfl)

theorem depart_cfg {W W1 : World} {n v l} (h : W.depart n v l = .ok W1) : W1.cfg = W.cfg := by
  unfold depart at h
  split at h
  · cases h
  · simp only [pure_bind] at h
    rw [bind_ok] at h
    obtain ⟨W2, h2, h⟩ := h
    rw [pure_ok] at h
    subst h
    have := attachLeader_cfg h2
    exact this

theorem signalControl_sub (n : NodeId) :
    (W.sub r t g a).signalControl n = (W.signalControl n).map (·.sub r t g a) := by
  have h : (W.sub r t g a).N = W.N := rfl
  unfold signalControl
  rw [h]
  split <;> rfl

theorem flowCapUpdate_sub (n : NodeId) :
    (W.sub r t g a).flowCapUpdate n = (W.flowCapUpdate n).sub r t g a := by
  have h : (W.sub r t g a).N = W.N := rfl
  have h2 : (W.sub r t g a).dn = W.dn := rfl
  unfold flowCapUpdate
  rw [h, h2]
  split
  · split <;> rfl
  · rfl

theorem nodeUpdate_sub (n : NodeId) :
    (W.sub r t g a).nodeUpdate n = (W.nodeUpdate n).map (·.sub r t g a) := by
  unfold nodeUpdate
  rw [signalControl_sub]
  cases W.signalControl n with
  | error e => rfl
  | ok W1 => dsimp only [Except.map]; rw [flowCapUpdate_sub]

theorem nodeUpdate_cfg {W W1 : World} {n} (h : W.nodeUpdate n = .ok W1) : W1.cfg = W.cfg := by
  unfold nodeUpdate at h
  split at h
  · cases h
  · rename_i W2 h2
    cases h
    have e1 : W2.cfg = W.cfg := by
      unfold signalControl at h2
      split at h2
      · cases h2
      · cases h2; rfl
    rw [← e1]
    unfold flowCapUpdate
    split
    · split <;> rfl
    · rfl

theorem endHead_sub (l : LinkId) : (W.sub r t g a).endHead l =
    (W.endHead l).map (fun p => (p.1.sub r t g a, p.2)) := by
  have h1 : (W.sub r t g a).L = W.L := rfl
  have h2 : (W.sub r t g a).V = W.V := rfl
  unfold endHead
  rw [h1, h2]
  split
  · rfl
  · split
    · rw [endTrip_sub]
      cases W.endTrip _ <;> rfl
    · rfl

theorem endHead_cfg {W : World} {p : World × Bool} {l} (h : W.endHead l = .ok p) : p.1.cfg = W.cfg := by
  unfold endHead at h
  split at h
  · cases h; rfl
  · split at h
    · rw [map_ok] at h
      obtain ⟨W1, h1, rfl⟩ := h
      exact endTrip_cfg h1
    · cases h; rfl

theorem guard_comm {α α' : Type} {s : α → α'} {p p' : Prop} [Decidable p] [Decidable p'] {e : Err}
    {X : M α} {Y : M α'} (hp : p' ↔ p) (h : Y = X.map s) :
    (do if p' then throw e
        Y) = (do if p then throw e
                 X : M α).map s := by
  subst h
  by_cases hc : p
  · have hc' := hp.2 hc
    simp only [hc, hc', if_true]; rfl
  · have hc' : ¬ p' := fun h => hc (hp.1 h)
    simp only [hc, hc', if_false]

theorem moveVeh_sub (n : NodeId) (v : VehId) (b c : LinkId) :
    (W.sub r t g a).moveVeh n v b c = (W.moveVeh n v b c).map (·.sub r t g a) := by
  unfold moveVeh
  refine guard_comm Iff.rfl ?_
  refine guard_comm Iff.rfl ?_
  refine bind_comm (s := (·.sub r t g a)) (attachLeader_sub _ r t g a v c).symm (fun W2 => ?_)
  exact bind_comm (s := fun p => (p.1.sub r t g a, p.2)) (endHead_sub _ r t g a b).symm (fun _ => rfl)

theorem moveVeh_cfg {W W1 : World} {n v b c} (h : W.moveVeh n v b c = .ok W1) : W1.cfg = W.cfg := by
  unfold moveVeh at h
  dsimp only at h
  split at h
  · simp [bind, Except.bind, throw, throwThe, MonadExceptOf.throw] at h
  split at h
  · simp [bind, Except.bind, throw, throwThe, MonadExceptOf.throw] at h
  rw [bind_ok] at h
  obtain ⟨W2, h2, h⟩ := h
  rw [bind_ok] at h
  obtain ⟨W3, h3, h⟩ := h
  simp only [pure_ok] at h
  subst h
  have e1 := attachLeader_cfg h2
  have e2 := endHead_cfg h3
  exact e2.trans e1

theorem endHeads_sub (l : LinkId) (k : ℕ) : ∀ W : World, endHeads l k (W.sub r t g a) =
    (endHeads l k W).map (·.sub r t g a) := by
  induction k with
  | zero => intro W; rfl
  | succ k ih =>
    intro W
    unfold endHeads
    refine bind_comm (endHead_sub W r t g a l).symm (fun p => ?_)
    dsimp only
    split
    · exact ih p.1
    · rfl

theorem endHeads_cfg {l k} : ∀ {W W1 : World}, endHeads l k W = .ok W1 → W1.cfg = W.cfg := by
  induction k with
  | zero => intro W W1 h; cases h; rfl
  | succ k ih =>
    intro W W1 h
    unfold endHeads at h
    rw [bind_ok] at h
    obtain ⟨p, hp, h⟩ := h
    dsimp only at h
    have e := endHead_cfg hp
    split at h
    · exact (ih h).trans e
    · rw [pure_ok] at h; subst h; exact e

theorem carfollow_sub (v : VehId) :
    (W.sub r t g a).carfollow v = (W.carfollow v).map (·.sub r t g a) := by
  have h1 : (W.sub r t g a).V = W.V := rfl
  have h2 : ∀ l, (W.sub r t g a).followPos v l = W.followPos v l := fun _ => rfl
  have h3 : (W.sub r t g a).L = W.L := rfl
  unfold carfollow
  rw [h1]
  split
  · rfl
  · dsimp only; rw [h2, h3]; split <;> rfl

theorem carfollow_cfg {W W1 : World} {v} (h : W.carfollow v = .ok W1) : W1.cfg = W.cfg := by
  unfold carfollow at h
  split at h
  · cases h
  · dsimp only at h; split at h <;> cases h <;> rfl

theorem routePrefUpdate_sub (v : VehId) (q : ℚ) :
    (W.sub r t g a).routePrefUpdate v q = (W.routePrefUpdate v q).map (·.sub r t g a) := by
  have h1 : (W.sub r t g a).V = W.V := rfl
  have h2 : (W.sub r t g a).finalized = W.finalized := rfl
  unfold routePrefUpdate
  rw [h1, h2]
  split
  · split
    · split <;> rfl
    · rfl
  · split
    · rfl
    · split
      · rfl
      · split <;> rfl

theorem routePrefUpdate_cfg {W W1 : World} {v q} (h : W.routePrefUpdate v q = .ok W1) :
    W1.cfg = W.cfg := by
  unfold routePrefUpdate at h
  split at h
  · split at h
    · split at h <;> cases h; rfl
    · cases h; rfl
  · split at h
    · cases h
    · split at h
      · cases h
      · split at h
        · cases h
        · cases h; rfl

theorem addDest_sub (v : VehId) (d : NodeId) (o : Option ℕ) :
    (W.sub r t g a).addDest v d o = (W.addDest v d o).map (·.sub r t g a) := by
  have h1 : (W.sub r t g a).V = W.V := rfl
  unfold addDest
  rw [h1]
  split
  · rfl
  · split
    · exact routePrefUpdate_sub { W with V := { W.V with dest := upd W.V.dest v (some d) } } r t g a v 1
    · rfl

theorem addDest_cfg {W W1 : World} {v d o} (h : W.addDest v d o = .ok W1) : W1.cfg = W.cfg := by
  unfold addDest at h
  split at h
  · cases h
  · split at h
    · have := routePrefUpdate_cfg h; exact this
    · cases h; rfl

theorem waitEnd_sub (v : VehId) (l : LinkId) :
    (W.sub r t g a).waitEnd v l = (W.waitEnd v l).map (·.sub r t g a) := by
  have h1 : (W.sub r t g a).V = W.V := rfl
  have h2 : (W.sub r t g a).L = W.L := rfl
  unfold waitEnd
  rw [h1, h2]
  dsimp only
  split
  · rfl
  · split
    · exact endTrip_sub { W with V := { W.V with flagEnd := upd W.V.flagEnd v true } } r t g a v
    · rfl

theorem waitEnd_cfg {W W1 : World} {v l} (h : W.waitEnd v l = .ok W1) : W1.cfg = W.cfg := by
  unfold waitEnd at h
  dsimp only at h
  split at h
  · cases h
  · split at h
    · have := endTrip_cfg h; exact this
    · cases h; rfl

theorem startWait_sub (v : VehId) : (W.sub r t g a).startWait v = (W.startWait v).sub r t g a := by
  have h1 : (W.sub r t g a).V = W.V := rfl
  have h2 : (W.sub r t g a).T = W.T := rfl
  unfold startWait
  rw [h1, h2]
  split <;> rfl

theorem startWait_cfg (v : VehId) : (W.startWait v).cfg = W.cfg := by
  unfold startWait; split <;> rfl

theorem nextDest_sub (v : VehId) : (W.sub r t g a).nextDest v = (W.nextDest v).sub r t g a := by
  have h1 : (W.sub r t g a).V = W.V := rfl
  unfold nextDest
  rw [h1]
  split <;> rfl

theorem nextDest_cfg (v : VehId) : (W.nextDest v).cfg = W.cfg := by
  unfold nextDest; split <;> rfl

end World

/-- `W'` is `W` up to: the random generator (if `ρ` is false), the clock and taxi time stamps (if `τ` is
false). -/
def UpTo (c : Config) (τ ρ : Bool) (W W' : World) : Prop :=
  W.cfg = c ∧ ∃ r t g a, W' = W.sub r t g a ∧
    (τ = true → t = W.time ∧ g = W.H.getTaxiTime ∧ a = W.H.arrivalTime) ∧ (ρ = true → r = W.rng)

open World

theorem UpTo.of_fun {c τ ρ} {W W' : World} {f : World → World}
    (hf : ∀ W r t g a, f (W.sub r t g a) = (f W).sub r t g a) (hc : (f W).cfg = W.cfg)
    (h : UpTo c τ ρ W W') : UpTo c τ ρ (f W) (f W') := by
  obtain ⟨h1, r, t, g, a, rfl, h2, h3⟩ := h
  have hs : f W = (f W).sub W.rng W.time W.H.getTaxiTime W.H.arrivalTime := (hf W W.rng W.time _ _)
  have e1 : (f W).rng = W.rng := by rw [hs]; rfl
  have e2 : (f W).time = W.time := by rw [hs]; rfl
  have e3 : (f W).H.getTaxiTime = W.H.getTaxiTime := by rw [hs]; rfl
  have e4 : (f W).H.arrivalTime = W.H.arrivalTime := by rw [hs]; rfl
  exact ⟨hc.trans h1, r, t, g, a, hf W r t g a, by rw [e2, e3, e4]; exact h2, by rw [e1]; exact h3⟩

theorem UpTo.of_comm {c τ ρ} {W W' : World} {f : World → M World}
    (hf : ∀ W r t g a, f (W.sub r t g a) = (f W).map (·.sub r t g a))
    (hc : ∀ W1, f W = .ok W1 → W1.cfg = W.cfg)
    (h : UpTo c τ ρ W W') : RM (UpTo c τ ρ) (f W) (f W') := by
  obtain ⟨h1, r, t, g, a, rfl, h2, h3⟩ := h
  have hs : f W = (f W).map (·.sub W.rng W.time W.H.getTaxiTime W.H.arrivalTime) :=
    (hf W W.rng W.time _ _)
  rw [hf]
  cases hfw : f W with
  | error e => exact .err
  | ok W1 =>
    rw [hfw] at hs
    have hs' : W1 = W1.sub W.rng W.time W.H.getTaxiTime W.H.arrivalTime := by
      simpa [Except.map] using hs
    have e1 : W1.rng = W.rng := by rw [hs']; rfl
    have e2 : W1.time = W.time := by rw [hs']; rfl
    have e3 : W1.H.getTaxiTime = W.H.getTaxiTime := by rw [hs']; rfl
    have e4 : W1.H.arrivalTime = W.H.arrivalTime := by rw [hs']; rfl
    exact .ok ⟨(hc W1 hfw).trans h1, r, t, g, a, rfl, by rw [e2, e3, e4]; exact h2, by rw [e1]; exact h3⟩

theorem UpTo.refl (W : World) (τ ρ) : UpTo W.cfg τ ρ W W :=
  ⟨rfl, W.rng, W.time, _, _, rfl, fun _ => ⟨rfl, rfl, rfl⟩, fun _ => rfl⟩

section
variable {c : Config} {τ ρ : Bool} (hd : ρ = true ∨ c.hardDet = true)
include hd

theorem chooseLink_upTo {W W' : World} {v : VehId} {ls : List LinkId} (h : UpTo c τ ρ W W') :
    RM (fun p q => p.1 = q.1 ∧ UpTo c τ ρ p.2 q.2) (W.chooseLink v ls) (W'.chooseLink v ls) := by
  obtain ⟨h1, r, t, g, a, rfl, h2, h3⟩ := h
  unfold chooseLink
  have hp : ∀ l, (W.sub r t g a).prefOf v l = W.prefOf v l := fun _ => rfl
  have hcf : (W.sub r t g a).cfg = W.cfg := rfl
  simp only [hp, hcf]
  refine RM.bind (R := Eq) (RM.refl fun _ => rfl) ?_
  rintro ps _ rfl
  by_cases hh : W.cfg.hardDet = true
  · simp only [hh, if_true]
    refine RM.bind (R := Eq) (RM.refl fun _ => rfl) ?_
    rintro l _ rfl
    exact .ok ⟨rfl, h1, r, t, g, a, rfl, h2, h3⟩
  · have hr : r = W.rng := by
      rcases hd with h | h
      · exact h3 h
      · rw [h1] at hh; exact absurd h hh
    simp only [hh, Bool.false_eq_true, if_false]
    subst hr
    split
    all_goals
      refine RM.bind (R := Eq) (RM.refl fun _ => rfl) ?_
      rintro l _ rfl
      exact .ok ⟨rfl, h1, fun k => W.rng (k + 1), t, g, a, rfl, h2, fun _ => rfl⟩

theorem generateLoop_upTo (n : NodeId) (k : ℕ) : ∀ {W W' : World}, UpTo c τ ρ W W' →
    RM (UpTo c τ ρ) (generateLoop n k W) (generateLoop n k W') := by
  induction k with
  | zero => intro W W' h; exact .ok h
  | succ k ih =>
    intro W W' h
    unfold generateLoop
    have e1 : W'.N = W.N := by obtain ⟨h1, r, t, g, a, rfl, h2, h3⟩ := h; rfl
    have e2 : ∀ v, W'.originCandidates v n = W.originCandidates v n := by
      obtain ⟨h1, r, t, g, a, rfl, h2, h3⟩ := h; exact fun _ => rfl
    rw [e1]
    split
    · exact .ok h
    · rw [e2]
      refine RM.bind (R := Eq) (RM.refl fun _ => rfl) ?_
      rintro cs _ rfl
      refine RM.bind (chooseLink_upTo hd h) ?_
      rintro ⟨l, W1⟩ ⟨l', W1'⟩ ⟨rfl, h'⟩
      dsimp only
      have e3 : W1'.canEnter l = W1.canEnter l := by
        obtain ⟨h1, r, t, g, a, rfl, h2, h3⟩ := h'; rfl
      rw [e3]
      split
      · exact (h'.of_comm (f := fun W => W.depart n _ l) (fun W r t g a => depart_sub W r t g a n _ l)
          (fun _ h => depart_cfg h)).bind (fun _ _ h => ih h)
      · exact .ok h'

theorem pickMerge_upTo {W W' : World} {vs : List VehId} (h : UpTo c τ ρ W W') :
    RM (fun p q => p.1 = q.1 ∧ UpTo c τ ρ p.2 q.2) (W.pickMerge vs) (W'.pickMerge vs) := by
  obtain ⟨h1, r, t, g, a, rfl, h2, h3⟩ := h
  unfold pickMerge
  have hp : (W.sub r t g a).mergeOf = W.mergeOf := rfl
  have hcf : (W.sub r t g a).cfg = W.cfg := rfl
  simp only [hp, hcf]
  by_cases hh : W.cfg.hardDet = true
  · simp only [hh, if_true]
    refine RM.map (R := Eq) (RM.refl fun _ => rfl) ?_
    rintro l _ rfl
    exact ⟨rfl, h1, r, t, g, a, rfl, h2, h3⟩
  · have hr : r = W.rng := by
      rcases hd with h | h
      · exact h3 h
      · rw [h1] at hh; exact absurd h hh
    simp only [hh, Bool.false_eq_true, if_false]
    subst hr
    refine RM.map (R := Eq) (RM.refl fun _ => rfl) ?_
    rintro l _ rfl
    exact ⟨rfl, h1, fun k => W.rng (k + 1), t, g, a, rfl, h2, fun _ => rfl⟩

theorem transferOne_upTo (n : NodeId) {W W' : World} {b : LinkId} (h : UpTo c τ ρ W W') :
    RM (UpTo c τ ρ) (transferOne n W b) (transferOne n W' b) := by
  unfold transferOne
  have e1 : W'.canEnter b = W.canEnter b := by
    obtain ⟨h1, r, t, g, a, rfl, h2, h3⟩ := h; rfl
  have e2 : W'.N = W.N := by obtain ⟨h1, r, t, g, a, rfl, h2, h3⟩ := h; rfl
  have e3 : W'.dn = W.dn := by obtain ⟨h1, r, t, g, a, rfl, h2, h3⟩ := h; rfl
  have e4 : W'.eligible n b = W.eligible n b := by obtain ⟨h1, r, t, g, a, rfl, h2, h3⟩ := h; rfl
  rw [e1, e2, e3, e4]
  split
  · refine RM.bind (R := Eq) (RM.refl fun _ => rfl) ?_
    rintro vs _ rfl
    split
    · exact .ok h
    · refine RM.bind (pickMerge_upTo hd h) ?_
      rintro ⟨v, W1⟩ ⟨v', W1'⟩ ⟨rfl, h'⟩
      dsimp only
      have e5 : W1'.V = W1.V := by obtain ⟨h1, r, t, g, a, rfl, h2, h3⟩ := h'; rfl
      rw [e5]
      split
      · exact .err
      · exact h'.of_comm (f := fun W => W.moveVeh n v _ b) (fun W r t g a => moveVeh_sub W r t g a n v _ b)
          (fun _ h => moveVeh_cfg h)
  · exact .ok h

theorem transfer_upTo {W W' : World} {n : NodeId} (h : UpTo c τ ρ W W') :
    RM (UpTo c τ ρ) (W.transfer n) (W'.transfer n) := by
  unfold transfer
  have e1 : W'.transferSlots n = W.transferSlots n := by
    obtain ⟨h1, r, t, g, a, rfl, h2, h3⟩ := h; rfl
  rw [e1]
  refine RM.bind (R := Eq) (RM.refl fun _ => rfl) ?_
  rintro s _ rfl
  have key : ∀ (s : List LinkId) (W1 W1' : World), UpTo c τ ρ W1 W1' → RM (UpTo c τ ρ)
      (do let W2 ← s.foldlM (transferOne n) W1
          let W3 ← (W2.N.inlinks n).foldlM (fun W l => endHeads l (W.L.lanes l) W) W2
          pure { W3 with N := { W3.N with incoming := upd W3.N.incoming n [] } })
      (do let W2 ← s.foldlM (transferOne n) W1'
          let W3 ← (W2.N.inlinks n).foldlM (fun W l => endHeads l (W.L.lanes l) W) W2
          pure { W3 with N := { W3.N with incoming := upd W3.N.incoming n [] } }) := by
    intro s W1 W1' h
    refine RM.bind (RM.foldlM (f := transferOne n) (f' := transferOne n) (fun _ _ _ h => transferOne_upTo hd n h) s _ _ h) ?_
    intro W2 W2' h
    have e2 : W2'.N = W2.N := by obtain ⟨h1, r, t, g, a, rfl, h2, h3⟩ := h; rfl
    rw [e2]
    refine RM.bind (RM.foldlM (fun A B l h => ?_) _ _ _ h) ?_
    · exact h.of_comm (f := fun W => endHeads l (W.L.lanes l) W)
        (fun W r t g a => endHeads_sub r t g a l _ W) (fun _ h => endHeads_cfg h)
    · intro A B h
      exact .ok (h.of_fun (f := fun W => { W with N := { W.N with incoming := upd W.N.incoming n [] } })
        (fun W r t g a => rfl) rfl)
  by_cases hh : W.cfg.hardDet = true
  · have hh' : W'.cfg.hardDet = true := by obtain ⟨h1, r, t, g, a, rfl, h2, h3⟩ := h; exact hh
    simp only [hh, hh', if_true]
    exact key s W W' h
  · have hr : W'.rng = W.rng ∧ W'.cfg = W.cfg := by
      obtain ⟨h1, r, t, g, a, rfl, h2, h3⟩ := h
      rcases hd with h | h
      · exact ⟨h3 h, rfl⟩
      · rw [h1] at hh; exact absurd h hh
    rw [hr.1, hr.2]
    simp only [hh]
    refine key _ _ _ ?_
    obtain ⟨h1, r, t, g, a, rfl, h2, h3⟩ := h
    exact ⟨h1, _, t, g, a, rfl, h2, fun _ => rfl⟩

theorem nextLinkChoice_upTo {W W' : World} {v : VehId} (h : UpTo c τ ρ W W') :
    RM (UpTo c τ ρ) (W.nextLinkChoice v) (W'.nextLinkChoice v) := by
  unfold nextLinkChoice
  have e1 : W'.V = W.V := by obtain ⟨h1, r, t, g, a, rfl, h2, h3⟩ := h; rfl
  have e2 : W'.L = W.L := by obtain ⟨h1, r, t, g, a, rfl, h2, h3⟩ := h; rfl
  have e3 : W'.N = W.N := by obtain ⟨h1, r, t, g, a, rfl, h2, h3⟩ := h; rfl
  have e4 : ∀ n, W'.nextCandidates v n = W.nextCandidates v n := by
    obtain ⟨h1, r, t, g, a, rfl, h2, h3⟩ := h; exact fun _ => rfl
  have hset : ∀ (x : Rnl) {A B : World}, UpTo c τ ρ A B → UpTo c τ ρ (A.setRnl v x) (B.setRnl v x) :=
    fun x A B h => h.of_fun (f := fun W => W.setRnl v x) (fun _ _ _ _ _ => rfl) rfl
  rw [e1]
  split
  · exact .err
  · dsimp only
    rw [e2, e3]
    split
    · split
      · exact .ok h
      · split
        · exact .ok (hset _ h)
        · rw [e4]
          refine RM.bind (chooseLink_upTo hd h) ?_
          rintro ⟨l, W1⟩ ⟨l', W1'⟩ ⟨rfl, h'⟩
          exact .ok (hset _ h')
    · split
      · exact .ok (hset _ h)
      · split
        · exact .err
        · split
          · exact .ok (hset _ h)
          · exact .err

omit hd in
theorem runEvent_upTo {W W' : World} {e : TaxiEvent} (h : UpTo c τ ρ W W') :
    RM (UpTo c τ ρ) (W.runEvent e) (W'.runEvent e) := by
  have e0 : W'.H.taxi = W.H.taxi ∧ W'.H.dest = W.H.dest := by
    obtain ⟨h1, r, t, g, a, rfl, h2, h3⟩ := h; exact ⟨rfl, rfl⟩
  unfold runEvent
  cases e with
  | getOn q =>
    dsimp only
    rw [e0.1, e0.2]
    split
    · exact .err
    · rename_i tv _
      refine RM.bind (h.of_comm (f := fun W => W.addDest tv _ none)
        (fun W r t g a => addDest_sub W r t g a tv _ none) (fun _ h => addDest_cfg h)) ?_
      intro A B h
      obtain ⟨h1, r, t, g, a, rfl, h2, h3⟩ := h
      refine RM.guard Iff.rfl (.ok ⟨h1, r, t, upd g q (some t), a, rfl, fun hτ => ?_, h3⟩)
      obtain ⟨rfl, rfl, rfl⟩ := h2 hτ
      exact ⟨rfl, rfl, rfl⟩
  | arrive q =>
    dsimp only
    rw [e0.1]
    split
    · exact .err
    · rename_i tv _
      obtain ⟨h1, r, t, g, a, rfl, h2, h3⟩ := h
      refine RM.guard Iff.rfl (.ok ⟨h1, r, t, g, upd a q (some t), rfl, fun hτ => ?_, h3⟩)
      obtain ⟨rfl, rfl, rfl⟩ := h2 hτ
      exact ⟨rfl, rfl, rfl⟩

omit hd in
theorem routePref_upTo {W W' : World} {v q} (h : UpTo c τ ρ W W') :
    RM (UpTo c τ ρ) (W.routePrefUpdate v q) (W'.routePrefUpdate v q) :=
  h.of_comm (f := fun W => W.routePrefUpdate v q) (fun W r t g a => routePrefUpdate_sub W r t g a v q)
    (fun _ h => routePrefUpdate_cfg h)

omit hd in
theorem waitEnd_upTo {W W' : World} {v l} (h : UpTo c τ ρ W W') :
    RM (UpTo c τ ρ) (W.waitEnd v l) (W'.waitEnd v l) :=
  h.of_comm (f := fun W => W.waitEnd v l) (fun W r t g a => waitEnd_sub W r t g a v l)
    (fun _ h => waitEnd_cfg h)

theorem atLinkEnd_upTo {W W' : World} {v : VehId} {l : LinkId} (h : UpTo c τ ρ W W') :
    RM (UpTo c τ ρ) (W.atLinkEnd v l) (W'.atLinkEnd v l) := by
  have e1 : W'.V = W.V := by obtain ⟨h1, r, t, g, a, rfl, h2, h3⟩ := h; rfl
  have e2 : W'.L = W.L := by obtain ⟨h1, r, t, g, a, rfl, h2, h3⟩ := h; rfl
  have e3 : W'.N = W.N := by obtain ⟨h1, r, t, g, a, rfl, h2, h3⟩ := h; rfl
  have push : ∀ {A B : World}, UpTo c τ ρ A B →
      UpTo c τ ρ (A.pushIncoming (W.L.endN l) v) (B.pushIncoming (W.L.endN l) v) :=
    fun h => h.of_fun (f := fun W' => W'.pushIncoming (W.L.endN l) v) (fun _ _ _ _ _ => rfl) rfl
  have tail : ∀ {A B : World}, UpTo c τ ρ A B → RM (UpTo c τ ρ)
      (do let W1 ← A.nextLinkChoice v
          pure (W1.pushIncoming (W.L.endN l) v))
      (do let W1 ← B.nextLinkChoice v
          pure (W1.pushIncoming (W.L.endN l) v)) :=
    fun h => (nextLinkChoice_upTo hd h).bind fun _ _ h => .ok (push h)
  unfold atLinkEnd
  dsimp only
  rw [e1, e2, e3]
  split
  · split
    · exact waitEnd_upTo h
    · have h' := h.of_fun (f := fun W => W.nextDest v) (fun W r t g a => nextDest_sub W r t g a v)
        (nextDest_cfg W v)
      exact (routePref_upTo h').bind fun _ _ h => tail h
  · split
    · refine waitEnd_upTo ?_
      obtain ⟨h1, r, t, g, a, rfl, h2, h3⟩ := h
      exact ⟨h1, r, t, g, a, rfl, h2, h3⟩
    · exact tail h

theorem runUpdate_upTo {W W' : World} {v : VehId} (h : UpTo c τ ρ W W') :
    RM (UpTo c τ ρ) (W.runUpdate v) (W'.runUpdate v) := by
  have h' : UpTo c τ ρ (W.advance v) (W'.advance v) :=
    h.of_fun (f := fun W => W.advance v) (fun _ _ _ _ _ => rfl) rfl
  unfold runUpdate
  dsimp only
  generalize W.advance v = A at h'
  generalize W'.advance v = B at h'
  have e1 : B.V = A.V := by obtain ⟨h1, r, t, g, a, rfl, h2, h3⟩ := h'; rfl
  have e2 : B.L = A.L := by obtain ⟨h1, r, t, g, a, rfl, h2, h3⟩ := h'; rfl
  rw [e1, e2]
  split
  · exact .err
  · split
    · have tail : ∀ {A B : World} {l}, UpTo c τ ρ A B → RM (UpTo c τ ρ)
          (do let W3 ← if A.cfg.gradual then A.routePrefUpdate v 1 else pure A
              W3.atLinkEnd v l)
          (do let W3 ← if B.cfg.gradual then B.routePrefUpdate v 1 else pure B
              W3.atLinkEnd v l) := by
        intro A B l h
        have e3 : B.cfg = A.cfg := by obtain ⟨h1, r, t, g, a, rfl, h2, h3⟩ := h; rfl
        rw [e3]
        split
        · exact (routePref_upTo h).bind (fun _ _ h => atLinkEnd_upTo hd h)
        · exact atLinkEnd_upTo hd h
      split
      · exact (runEvent_upTo h').bind (fun _ _ h => tail h)
      · exact tail h'
    · exact .ok h'

theorem vehUpdate_upTo {W W' : World} {v : VehId} (h : UpTo c τ ρ W W') :
    RM (UpTo c τ ρ) (W.vehUpdate v) (W'.vehUpdate v) := by
  have h' : UpTo c τ ρ ((W.recordLog v false).startWait v) ((W'.recordLog v false).startWait v) :=
    (h.of_fun (f := fun W => W.recordLog v false) (fun W r t g a => recordLog_sub W r t g a v false)
      (recordLog_cfg W v false)).of_fun (f := fun W => W.startWait v)
        (fun W r t g a => startWait_sub W r t g a v) (startWait_cfg _ v)
  unfold vehUpdate
  dsimp only
  generalize (W.recordLog v false).startWait v = A at h'
  generalize (W'.recordLog v false).startWait v = B at h'
  have e1 : B.V = A.V := by obtain ⟨h1, r, t, g, a, rfl, h2, h3⟩ := h'; rfl
  have e2 : B.cfg = A.cfg := by obtain ⟨h1, r, t, g, a, rfl, h2, h3⟩ := h'; rfl
  rw [e1, e2]
  split
  · split
    · exact routePref_upTo h'
    · exact .ok h'
  · exact runUpdate_upTo hd h'
  · exact .ok h'

theorem vehUpdateLiving_upTo {W W' : World} {v : VehId} (h : UpTo c τ ρ W W') :
    RM (UpTo c τ ρ) (W.vehUpdateLiving v) (W'.vehUpdateLiving v) := by
  have e1 : W'.living = W.living := by obtain ⟨h1, r, t, g, a, rfl, h2, h3⟩ := h; rfl
  unfold vehUpdateLiving
  rw [e1]
  split
  · exact vehUpdate_upTo hd h
  · exact .err

theorem routeSearchAll_upTo {W W' : World} (h : UpTo c τ ρ W W') :
    RM (UpTo c τ ρ) W.routeSearchAll W'.routeSearchAll := by
  obtain ⟨h1, r, t, g, a, rfl, h2, h3⟩ := h
  have hs : ∀ q, (W.sub r t g a).adjStep q = W.adjStep q := fun _ => rfl
  have key : RM (fun (x y : AdjAcc) => x.adj = y.adj ∧ x.cnt = y.cnt ∧ (ρ = true → x.rng = y.rng))
      (W.adjMatrix W.now) ((W.sub r t g a).adjMatrix W.now) := by
    unfold adjMatrix
    rw [hs]
    refine RM.foldlM ?_ _ _ _ ⟨rfl, rfl, fun hρ => (h3 hρ).symm⟩
    rintro ⟨x1, x2, x3⟩ ⟨y1, y2, y3⟩ l ⟨hx1, hx2, hx3⟩
    dsimp only at hx1 hx2 hx3
    subst hx1 hx2
    unfold adjStep
    split
    · exact .err
    · by_cases hh : W.cfg.hardDet = true
      · simp only [hh, if_true]
        exact .ok ⟨rfl, rfl, hx3⟩
      · have hρ : ρ = true := by
          rcases hd with h | h
          · exact h
          · rw [h1] at hh; exact absurd h hh
        rw [hx3 hρ]
        exact .ok ⟨rfl, rfl, fun _ => rfl⟩
  unfold routeSearchAll
  refine RM.bind key ?_
  rintro ⟨x1, x2, x3⟩ ⟨y1, y2, y3⟩ ⟨hx1, hx2, hx3⟩
  dsimp only at hx1 hx2 hx3
  subst hx1 hx2
  exact .ok ⟨h1, y3, t, g, a, rfl, h2, fun hρ => (hx3 hρ).symm⟩

theorem routeStep_upTo {W W' : World} (h : UpTo c τ ρ W W') :
    RM (UpTo c τ ρ) W.routeStep W'.routeStep := by
  have e1 : W'.cfg = W.cfg := by obtain ⟨h1, r, t, g, a, rfl, h2, h3⟩ := h; rfl
  have e2 : W'.T = W.T := by obtain ⟨h1, r, t, g, a, rfl, h2, h3⟩ := h; rfl
  have duo : ∀ {A B : World}, UpTo c τ ρ A B → UpTo c τ ρ A.duoUpdate B.duoUpdate :=
    fun h => h.of_fun (f := fun W => W.duoUpdate) (fun _ _ _ _ _ => rfl) rfl
  unfold routeStep
  rw [e1, e2]
  split
  · split
    · exact (routeSearchAll_upTo hd h).bind (fun _ _ h => .ok (duo h))
    · exact .ok (duo h)
  · split
    · refine RM.bind (routeSearchAll_upTo hd h) ?_
      intro A B h
      have h := duo h
      dsimp only
      have e3 : B.duoUpdate.living = A.duoUpdate.living := by
        obtain ⟨h1, r, t, g, a, e, h2, h3⟩ := h; rw [e]; rfl
      rw [e3]
      refine RM.foldlM (fun A B v h => ?_) _ _ _ h
      have e4 : B.cfg = A.cfg := by obtain ⟨h1, r, t, g, a, rfl, h2, h3⟩ := h; rfl
      rw [e4]
      exact routePref_upTo h
    · exact .ok h

theorem generate_upTo {W W' : World} {n : NodeId} (h : UpTo c τ ρ W W') :
    RM (UpTo c τ ρ) (W.generate n) (W'.generate n) := by
  have e1 : W'.N = W.N := by obtain ⟨h1, r, t, g, a, rfl, h2, h3⟩ := h; rfl
  have e2 : W'.L = W.L := by obtain ⟨h1, r, t, g, a, rfl, h2, h3⟩ := h; rfl
  unfold generate
  rw [e1, e2]
  exact generateLoop_upTo hd n _ h

theorem step_upTo {W W' : World} (h : UpTo c τ ρ W W') : RM (UpTo c τ ρ) W.step W'.step := by
  have e1 : W'.nLinks = W.nLinks := by obtain ⟨h1, r, t, g, a, rfl, h2, h3⟩ := h; rfl
  unfold step
  rw [e1]
  refine RM.bind (RM.foldlM (fun A B l h => h.of_comm (f := fun W => W.linkUpdate l)
      (fun W r t g a => linkUpdate_sub W r t g a l) (fun _ h => linkUpdate_cfg h)) _ _ _ h) ?_
  clear h e1
  intro A B h
  have e1 : B.nNodes = A.nNodes := by obtain ⟨h1, r, t, g, a, rfl, h2, h3⟩ := h; rfl
  rw [e1]
  refine RM.bind (R := UpTo c τ ρ) ?_ ?_
  · refine RM.foldlM (fun A B n h => ?_) _ _ _ h
    exact (generate_upTo hd h).bind fun _ _ h => h.of_comm (f := fun W => W.nodeUpdate n)
      (fun W r t g a => nodeUpdate_sub W r t g a n) (fun _ h => nodeUpdate_cfg h)
  clear h e1
  intro A B h
  have e1 : B.nNodes = A.nNodes := by obtain ⟨h1, r, t, g, a, rfl, h2, h3⟩ := h; rfl
  rw [e1]
  refine RM.bind (R := UpTo c τ ρ) ?_ ?_
  · exact RM.foldlM (f := transfer) (f' := transfer) (fun A B n h => transfer_upTo hd h) _ _ _ h
  clear h e1
  intro A B h
  have e1 : B.running = A.running := by obtain ⟨h1, r, t, g, a, rfl, h2, h3⟩ := h; rfl
  rw [e1]
  refine RM.bind (R := UpTo c τ ρ) ?_ ?_
  · exact RM.foldlM (fun A B v h => h.of_comm (f := fun W => W.carfollow v)
      (fun W r t g a => carfollow_sub W r t g a v) (fun _ h => carfollow_cfg h)) _ _ _ h
  clear h e1
  intro A B h
  have e1 : B.living = A.living := by obtain ⟨h1, r, t, g, a, rfl, h2, h3⟩ := h; rfl
  rw [e1]
  refine RM.bind (R := UpTo c τ ρ) ?_ ?_
  · exact RM.foldlM (f := vehUpdateLiving) (f' := vehUpdateLiving) (fun A B n h => vehUpdateLiving_upTo hd h) _ _ _ h
  clear h e1
  intro A B h
  refine (routeStep_upTo hd h).bind fun A B h => ?_
  obtain ⟨h1, r, t, g, a, rfl, h2, h3⟩ := h
  refine .ok ⟨h1, r, A.now, g, a, rfl, fun hτ => ?_, h3⟩
  obtain ⟨rfl, rfl, rfl⟩ := h2 hτ
  exact ⟨rfl, rfl, rfl⟩

theorem tick_upTo {W W' : World} (h : UpTo c τ ρ W W') : RM (UpTo c τ ρ) W.tick W'.tick := by
  unfold tick
  exact (step_upTo hd h).bind fun _ _ h => .ok
    (h.of_fun (f := fun W => { W with T := W.T + 1 }) (fun _ _ _ _ _ => rfl) rfl)

end

end UX
