import Verif.Spec.Safe
import Verif.Proofs.Taxi
import Verif.Proofs.Lanes
import Verif.Proofs.Count
import Verif.Proofs.Signal
import Mathlib.Tactic.Linarith

/-! Absence of exceptions inside a simulation step. -/

namespace UX
open World

theorem ok_bind {α β : Type} (a : α) (f : α → M β) : ((Except.ok a : M α) >>= f) = f a := rfl

/-- A loop none of whose iterations raises does not raise. -/
theorem foldlM_safe {α σ : Type} {P : List α → σ → Prop} {f : σ → α → M σ} {l : List α}
    (hf : ∀ pre a post s, l = pre ++ a :: post → P pre s → ∃ s', f s a = .ok s' ∧ P (pre ++ [a]) s')
    {s : σ} (h0 : P [] s) : ∃ s', l.foldlM f s = .ok s' ∧ P l s' := by
  have key : ∀ (post pre : List α) (s : σ), l = pre ++ post → P pre s →
      ∃ s', post.foldlM f s = .ok s' ∧ P l s' := by
    intro post
    induction post with
    | nil => intro pre s he h; exact ⟨s, rfl, by rw [he, List.append_nil]; exact h⟩
    | cons a t ih =>
      intro pre s he h
      obtain ⟨s1, h1, h2⟩ := hf pre a t s he h
      obtain ⟨s2, h3, h4⟩ := ih (pre ++ [a]) s1 (by rw [he]; simp) h2
      exact ⟨s2, by rw [List.foldlM_cons, h1, ok_bind, h3], h4⟩
  exact key l [] s rfl h0

theorem foldlM_safe' {α σ : Type} {P : σ → Prop} {f : σ → α → M σ} {l : List α}
    (hf : ∀ a s, a ∈ l → P s → ∃ s', f s a = .ok s' ∧ P s') {s : σ} (h0 : P s) :
    ∃ s', l.foldlM f s = .ok s' ∧ P s' :=
  foldlM_safe (P := fun _ s => P s) (fun pre a post s he h => hf a s (by rw [he]; simp) h) h0

/-! ### Random choices -/

theorem choiceU_safe {α : Type} {xs : List α} (h : xs ≠ []) (r : ℕ) : ∃ a, choiceU xs r = .ok a := by
  have hl : r % xs.length < xs.length := Nat.mod_lt _ (List.length_pos_iff.2 h)
  unfold choiceU
  rw [List.getElem?_eq_getElem hl]
  exact ⟨_, rfl⟩

theorem choiceW_safe {α : Type} {xs : List (ℚ × α)} (h0 : ∀ p ∈ xs, 0 ≤ p.1)
    (hs : 0 < (xs.map (·.1)).sum) (r : ℕ) : ∃ a, choiceW xs r = .ok a := by
  unfold choiceW
  rw [if_neg]
  · apply choiceU_safe
    intro he
    rw [List.map_eq_nil_iff, List.filter_eq_nil_iff] at he
    have key : ∀ ys : List (ℚ × α), (∀ p ∈ ys, p.1 ≤ 0) → (ys.map (·.1)).sum ≤ 0 := by
      intro ys
      induction ys with
      | nil => intro _; simp
      | cons p t ih =>
        intro h
        rw [List.map_cons, List.sum_cons]
        have := h p List.mem_cons_self
        have := ih (fun q hq => h q (List.mem_cons_of_mem _ hq))
        linarith
    exact absurd hs (not_lt.2 (key xs (fun p hp => by simpa using he p hp)))
  · simp only [List.any_eq_true, decide_eq_true_eq, not_exists, not_and, not_lt]
    exact h0

theorem argmaxFirst_safe {α : Type} {xs : List (ℚ × α)} (h : xs ≠ []) : ∃ a, argmaxFirst xs = .ok a := by
  cases xs with
  | nil => exact absurd rfl h
  | cons p ps => exact ⟨_, rfl⟩

theorem mapM_safe {α β : Type} {f : α → M β} {l : List α} (h : ∀ a ∈ l, ∃ b, f a = .ok b) :
    ∃ bs, l.mapM f = .ok bs := by
  induction l with
  | nil => exact ⟨[], rfl⟩
  | cons a t ih =>
    obtain ⟨b, hb⟩ := h a List.mem_cons_self
    obtain ⟨bs, hbs⟩ := ih (fun a ha => h a (List.mem_cons_of_mem _ ha))
    exact ⟨b :: bs, by rw [List.mapM_cons, hb, ok_bind, hbs]; rfl⟩

theorem filterE_safe {α : Type} {p : α → M Bool} {l : List α} (h : ∀ a ∈ l, ∃ b, p a = .ok b) :
    ∃ r, filterE p l = .ok r := by
  induction l with
  | nil => exact ⟨[], rfl⟩
  | cons a t ih =>
    obtain ⟨b, hb⟩ := h a List.mem_cons_self
    obtain ⟨bs, hbs⟩ := ih (fun a ha => h a (List.mem_cons_of_mem _ ha))
    exact ⟨if b then a :: bs else bs, by simp only [filterE]; rw [hb, ok_bind, hbs]; rfl⟩

/-! ### Invariants inside a step -/

/-- What every primitive preserves. -/
structure Stab (W : World) : Prop where
  core : Core W
  lane : LInv W
  cum : ∀ l, l < W.nLinks → W.L.cumArr l ≠ [] ∧ W.L.cumDep l ≠ [] ∧ W.L.ttInstant l ≠ []
  speed : ∀ l, l < W.nLinks → W.L.u l ≠ 0
  merge : ∀ l, l < W.nLinks → 0 ≤ W.L.mergePriority l
  signal : ∀ n, n < W.nNodes → W.N.phase n < (W.N.signal n).length
  weight : 0 ≤ W.cfg.duoUpdateWeight ∧ W.cfg.duoUpdateWeight ≤ 1
  gradual : W.cfg.gradual = true → 0 ≤ W.cfg.deltat ∧ 0 < W.cfg.duoUpdateTime ∧
    W.cfg.deltat ≤ W.cfg.duoUpdateTime
  free : ∀ v, v < W.nVeh → W.V.specRoute v = none ∧ W.V.linksAvoid v = []
  hetero : ∀ v, v < W.nVeh → W.V.principle v = .heterogeneous →
    W.V.mode v = .single ∧ W.V.dest v ≠ none
  trip : ∀ r, r < W.H.nReq → W.H.orig r ≠ W.H.dest r

/-- Preferences of the world and of the vehicles. -/
structure Prefs (W : World) : Prop where
  pos : ∀ k l, 0 ≤ W.R.pref k l
  dict : ∀ v, v < W.nVeh → ∀ f, W.V.pref v = .dict f → ∀ l, l < W.nLinks → ∃ q, f l = some q ∧ 0 ≤ q
  own : ∀ v, v < W.nVeh → W.V.principle v = .heterogeneous → ∃ f, W.V.pref v = .dict f

/-- Vehicles waiting at a node have decided where to go. -/
def IncOK (W : World) : Prop :=
  ∀ n v, v ∈ W.N.incoming n → W.V.rnl v ≠ .unset ∧
    (W.N.outlinks n = [] → W.V.rnl v = .none) ∧ (W.N.outlinks n ≠ [] → W.V.link v ≠ none)

/-- Taxis have at most one destination. -/
def Queues (W : World) : Prop := ∀ v, v < W.nVeh → W.V.mode v = .taxi → W.V.destList v = []

theorem bumpHead_ne {k : ℕ} {l : List ℕ} (h : l ≠ []) : bumpHead k l ≠ [] := by
  cases l with
  | nil => exact absurd rfl h
  | cons a t => simp [bumpHead]

theorem pushCum_ne (l : List ℕ) : pushCum l ≠ [] := by cases l <;> simp [pushCum]

/-- The phase shown after an update is a phase of the plan. -/
theorem signalControl_valid {W W' : World} {n : NodeId} (h : W.signalControl n = .ok W') :
    W'.N.phase n < (W.N.signal n).length := by
  unfold signalControl at h
  split at h
  · simp at h
  · rename_i g hg
    have hlt := (List.getElem?_eq_some_iff.mp hg).1
    simp only [Except.ok.injEq] at h
    subst h
    dsimp only
    rw [upd_same]
    split
    · split
      · omega
      · omega
    · exact hlt

theorem runEvent_H {W W' : World} {e : TaxiEvent} (h : W.runEvent e = .ok W') :
    W'.H.nReq = W.H.nReq ∧ W'.H.orig = W.H.orig ∧ W'.H.dest = W.H.dest := by
  cases e with
  | getOn r =>
    simp only [World.runEvent] at h
    split at h
    · simp at h
    · rw [bind_ok] at h
      obtain ⟨W1, h1, h⟩ := h
      split at h
      · simp [bind, Except.bind, throw, throwThe, MonadExceptOf.throw] at h
      · simp only [pure_ok] at h
        have hH := (TaxiInv.addDest_effect h1).2.1
        subst h
        refine ⟨?_, ?_, ?_⟩
        · show W1.H.nReq = _; rw [hH]
        · show W1.H.orig = _; rw [hH]
        · show W1.H.dest = _; rw [hH]
  | arrive r =>
    simp only [World.runEvent] at h
    split at h
    · simp at h
    · split at h
      · simp [bind, Except.bind, throw, throwThe, MonadExceptOf.throw] at h
      · simp only [pure_bind, pure_ok] at h
        subst h
        exact ⟨rfl, rfl, rfl⟩

theorem Prim.reqs {a : Act} {W W' : World} (hc : Core W) (hp : Prim a W W') :
    W'.H.nReq = W.H.nReq ∧ W'.H.orig = W.H.orig ∧ W'.H.dest = W.H.dest := by
  have hs := hp.shape hc.s
  clear hp
  cases hs with
  | event _ _ hr => exact runEvent_H hr
  | _ => exact ⟨rfl, rfl, rfl⟩

theorem Prim.dest_single {a : Act} {W W' : World} (hc : Core W) (hp : Prim a W W') {v : VehId}
    (hv : W.V.mode v = .single) : W'.V.dest v = W.V.dest v := by
  have hs := hp.shape hc.s
  clear hp
  cases hs with
  | event _ _ _ hd => exact hd v hv
  | @nextDest _ u a d dl ha hd hm =>
    show upd W.V.dest u d v = _
    rw [upd_ne]
    rintro rfl; rw [hm] at hv; cases hv
  | _ => rfl

theorem Prim.cum {a : Act} {W W' : World} (hc : Core W) (hp : Prim a W W') {l : LinkId}
    (h : W.L.cumArr l ≠ [] ∧ W.L.cumDep l ≠ [] ∧ W.L.ttInstant l ≠ []) :
    W'.L.cumArr l ≠ [] ∧ W'.L.cumDep l ≠ [] ∧ W'.L.ttInstant l ≠ [] := by
  have hs := hp.shape hc.s
  clear hp
  obtain ⟨h1, h2, h3⟩ := h
  cases hs with
  | linkTick =>
    dsimp only
    simp only [upd_apply]
    refine ⟨?_, ?_, ?_⟩ <;> split <;> first | assumption | exact pushCum_ne _ | simp
  | depart =>
    dsimp only
    simp only [upd_apply]
    refine ⟨?_, h2, h3⟩
    split
    · rename_i e; subst e; exact bumpHead_ne h1
    · exact h1
  | move =>
    dsimp only
    simp only [upd_apply]
    refine ⟨?_, ?_, h3⟩
    · split
      · rename_i e; subst e; exact bumpHead_ne h1
      · exact h1
    · split
      · rename_i e; subst e; exact bumpHead_ne h2
      · exact h2
  | endTrip =>
    dsimp only
    simp only [upd_apply]
    refine ⟨h1, ?_, h3⟩
    split
    · rename_i e; subst e; exact bumpHead_ne h2
    · exact h2
  | _ => exact ⟨h1, h2, h3⟩

theorem Prim.phase {a : Act} {W W' : World} (hc : Core W) (hp : Prim a W W')
    (h : ∀ n, n < W.nNodes → W.N.phase n < (W.N.signal n).length) :
    ∀ n, n < W'.nNodes → W'.N.phase n < (W'.N.signal n).length := by
  have hs := hp.shape hc.s
  clear hp
  cases hs with
  | @nodeTick _ n ph st sl fc hn hsig hph hfc =>
    intro m hm
    by_cases e : m = n
    · subst e
      have := signalControl_valid hsig
      exact this
    · show ph m < _
      rw [hph m e]; exact h m hm
  | _ => exact h

namespace Stab

theorem prim {a : Act} {W W' : World} (h : Stab W) (hp : Prim a W W') : Stab W' := by
  have st := hp.static
  obtain ⟨r1, r2, r3⟩ := hp.reqs h.core
  refine ⟨h.core.prim hp, h.lane.prim h.core hp, ?_, ?_, ?_, hp.phase h.core h.signal, ?_, ?_, ?_, ?_, ?_⟩
  · intro l hl; rw [st.nLinks] at hl; exact hp.cum h.core (h.cum l hl)
  · rw [st.nLinks, st.u]; exact h.speed
  · rw [st.nLinks, st.mergePriority]; exact h.merge
  · rw [st.cfg]; exact h.weight
  · rw [st.cfg]; exact h.gradual
  · rw [st.nVeh, st.specRoute, st.linksAvoid]; exact h.free
  · intro v hv hpv
    rw [st.nVeh] at hv
    rw [st.principle] at hpv
    obtain ⟨h1, h2⟩ := h.hetero v hv hpv
    rw [st.mode, hp.dest_single h.core h1]; exact ⟨h1, h2⟩
  · rw [r1, r2, r3]; exact h.trip

theorem star {A : Act → Prop} {W W' : World} (h : Stab W) (hp : PStar A W W') : Stab W' :=
  hp.inv (P := Stab) (fun _ _ _ _ h hp => h.prim hp) h

theorem rng {W : World} (h : Stab W) (r : ℕ → ℕ) : Stab { W with rng := r } := h.prim (rng_prim W r)

end Stab

theorem Prefs.same {W W' : World} (h : Prefs W) (st : Static W W') (h1 : W'.V.pref = W.V.pref)
    (h2 : W'.R.pref = W.R.pref) : Prefs W' := by
  obtain ⟨a, b, c⟩ := h
  refine ⟨?_, ?_, ?_⟩
  · rw [h2]; exact a
  · rw [st.nVeh, st.nLinks, h1]; exact b
  · rw [st.nVeh, st.principle, h1]; exact c

/-- Acts that leave preferences and destinations alone. -/
def isQuiet : Act → Prop
  | .routing => False | .event _ => False | .nextDest _ => False | .pushInc _ _ => False | _ => True

/-- Everything that holds between the parts of a step. -/
structure Full (W : World) : Prop where
  stab : Stab W
  prefs : Prefs W
  inc : IncOK W
  queues : Queues W

theorem Prim.quiet {a : Act} {W W' : World} (ha : isQuiet a) (hc : Core W) (hp : Prim a W W') :
    W'.V.pref = W.V.pref ∧ W'.R = W.R ∧ W'.V.destList = W.V.destList := by
  have hs := hp.shape hc.s
  clear hp
  cases hs with
  | routing => exact ha.elim
  | event => exact ha.elim
  | nextDest => exact ha.elim
  | _ => exact ⟨rfl, rfl, rfl⟩

theorem IncOK.quiet {a : Act} {W W' : World} (h : IncOK W) (ha : isQuiet a) (hc : Core W)
    (hp : Prim a W W') : IncOK W' := by
  have hs := hp.shape hc.s
  clear hp
  cases hs with
  | routing => exact ha.elim
  | event => exact ha.elim
  | nextDest => exact ha.elim
  | pushInc => exact ha.elim
  | @depart _ n v t cs l o hn hq =>
    intro m u hu
    obtain ⟨h1, h2, h3⟩ := h m u hu
    refine ⟨h1, h2, fun ho => ?_⟩
    show upd W.V.link v (some l) u ≠ none
    rw [upd_apply]; split
    · simp
    · exact h3 ho
  | @move _ n v a b t o q nl fc tta hn hinc hla hv hr =>
    intro m u hu
    have hu' : u ∈ W.N.incoming m := by
      change u ∈ upd W.N.incoming n ((W.N.incoming n).erase v) m at hu
      rw [upd_apply] at hu
      split at hu
      · rename_i e; subst e; exact List.mem_of_mem_erase hu
      · exact hu
    obtain ⟨h1, h2, h3⟩ := h m u hu'
    refine ⟨h1, h2, fun ho => ?_⟩
    show upd W.V.link v (some b) u ≠ none
    rw [upd_apply]; split
    · simp
    · exact h3 ho
  | @endTrip _ v l t log s c lt tta hl hv hf hcd hrun hliv hlt hlog htta =>
    intro m u hu
    obtain ⟨h1, h2, h3⟩ := h m u hu
    refine ⟨h1, h2, fun ho => ?_⟩
    show upd W.V.link v none u ≠ none
    rw [upd_apply]; split
    · rename_i e
      subst e
      exfalso
      have hm := (hc.s.inc_run m u l hu hl).1
      obtain ⟨-, ⟨-, -, -, h4⟩ | ⟨-, -, h4, -⟩⟩ := hc.f.flag u l hl hf
      · exact h4 m hu
      · rw [hm] at h4; exact ho h4
    · exact h3 ho
  | @clearInc _ n hn =>
    intro m u hu
    apply h m u
    change u ∈ upd W.N.incoming n [] m at hu
    rw [upd_apply] at hu
    split at hu
    · cases hu
    · exact hu
  | @flagAbort _ v a ha' =>
    intro m u hu
    obtain ⟨h1, h2, h3⟩ := h m u hu
    have : u ≠ v := by rintro rfl; exact ha'.2.2.2.2 m hu
    show upd W.V.rnl v .none u ≠ _ ∧ (_ → upd W.V.rnl v .none u = _) ∧ _
    rw [upd_ne _ _ this]
    exact ⟨h1, h2, h3⟩
  | @choose _ v a r rnl ha' =>
    intro m u hu
    obtain ⟨h1, h2, h3⟩ := h m u hu
    have : u ≠ v := by rintro rfl; exact ha'.2.2.2.2 m hu
    show upd W.V.rnl v rnl u ≠ _ ∧ (_ → upd W.V.rnl v rnl u = _) ∧ _
    rw [upd_ne _ _ this]
    exact ⟨h1, h2, h3⟩
  | _ => exact h

namespace Full

theorem prim {a : Act} {W W' : World} (h : Full W) (ha : isQuiet a) (hp : Prim a W W') : Full W' := by
  have hc := h.stab.core
  obtain ⟨q1, q2, q3⟩ := hp.quiet ha hc
  refine ⟨h.stab.prim hp, h.prefs.same hp.static q1 (by rw [q2]), h.inc.quiet ha hc hp, ?_⟩
  unfold Queues
  rw [hp.static.nVeh, hp.static.mode, q3]; exact h.queues

theorem rng {W : World} (h : Full W) (r : ℕ → ℕ) : Full { W with rng := r } :=
  ⟨h.stab.rng r, ⟨h.prefs.pos, h.prefs.dict, h.prefs.own⟩, h.inc, h.queues⟩

end Full

/-! ### Choosing a link -/

theorem mem_sortByName {W : World} {ls : List LinkId} {l : LinkId} : l ∈ W.sortByName ls ↔ l ∈ ls := by
  unfold sortByName; rw [List.mem_mergeSort]

theorem preferAvoid_ne {W : World} {v : VehId} {ls : List LinkId} (ha : W.V.linksAvoid v = [])
    (h : ls ≠ []) : W.preferAvoid v ls ≠ [] := by
  unfold preferAvoid
  dsimp only
  rw [ha]
  rw [if_neg (by simp)]
  split
  · rename_i h1
    rw [List.any_eq_true] at h1
    obtain ⟨l, hl, hp⟩ := h1
    intro he
    have : l ∈ W.sortByName (ls.filter fun l => (W.V.linksPrefer v).contains l) :=
      mem_sortByName.2 (List.mem_filter.2 ⟨hl, hp⟩)
    rw [he] at this; cases this
  · exact h

theorem nextCandidates_ne {W : World} {v : VehId} {n : NodeId} (ha : W.V.linksAvoid v = [])
    (h : W.N.outlinks n ≠ []) : W.nextCandidates v n ≠ [] := by
  unfold nextCandidates
  dsimp only
  split
  · split
    · exact preferAvoid_ne ha h
    · assumption
  · exact preferAvoid_ne ha h

theorem mapM_pairs {f : LinkId → M ℚ} : ∀ {ls : List LinkId} {ps : List (ℚ × LinkId)},
    ls.mapM (fun l => (f l).map (fun q => (q, l))) = .ok ps →
    ps.map (·.2) = ls ∧ ∀ p ∈ ps, f p.2 = .ok p.1 := by
  intro ls
  induction ls with
  | nil => intro ps h; cases h; simp
  | cons l t ih =>
    intro ps h
    rw [List.mapM_cons, bind_ok] at h
    obtain ⟨p, hp, h⟩ := h
    rw [bind_ok] at h
    obtain ⟨ps', hps, h⟩ := h
    rw [pure_ok] at h
    subst h
    rw [map_ok] at hp
    obtain ⟨q, hq, rfl⟩ := hp
    obtain ⟨h1, h2⟩ := ih hps
    refine ⟨by rw [List.map_cons, h1], ?_⟩
    intro p hp
    rw [List.mem_cons] at hp
    rcases hp with rfl | hp
    · exact hq
    · exact h2 p hp

theorem Prefs.prefOf {W : World} (h : Prefs W) {v : VehId} (hv : v < W.nVeh) {l : LinkId} (hl : l < W.nLinks) :
    ∃ q, W.prefOf v l = .ok q ∧ 0 ≤ q := by
  unfold World.prefOf
  cases hp : W.V.pref v with
  | duo k => exact ⟨_, rfl, h.pos k l⟩
  | dict f =>
    obtain ⟨q, h1, h2⟩ := h.dict v hv f hp l hl
    dsimp only
    rw [h1]
    exact ⟨q, rfl, h2⟩

theorem chooseLink_safe {W : World} (h : Prefs W) {v : VehId} (hv : v < W.nVeh) {ls : List LinkId}
    (hne : ls ≠ []) (hls : ∀ l ∈ ls, l < W.nLinks) :
    ∃ l r, W.chooseLink v ls = .ok (l, { W with rng := r }) ∧ l ∈ ls := by
  obtain ⟨ps, hps⟩ := mapM_safe (f := fun l => (W.prefOf v l).map (fun q => (q, l))) (l := ls) (by
    intro l hl
    obtain ⟨q, h1, -⟩ := h.prefOf hv (hls l hl)
    exact ⟨(q, l), by rw [h1]; rfl⟩)
  obtain ⟨e1, e2⟩ := mapM_pairs hps
  have hpne : ps ≠ [] := by rintro rfl; exact hne e1.symm
  have hok : ∃ x, W.chooseLink v ls = .ok x := by
    unfold chooseLink
    rw [hps, ok_bind]
    split
    · obtain ⟨l, hl⟩ := argmaxFirst_safe hpne
      rw [hl]; exact ⟨_, rfl⟩
    · split
      · rename_i hs
        obtain ⟨l, hl⟩ := choiceW_safe (xs := ps) (by
          intro p hp
          have hm : p.2 ∈ ls := by rw [← e1]; exact List.mem_map_of_mem hp
          obtain ⟨q, h1, h2⟩ := h.prefOf hv (hls p.2 hm)
          have := (e2 p hp).symm.trans h1
          simp only [Except.ok.injEq] at this
          rw [this]; exact h2) hs (W.rng 0)
        rw [hl]; exact ⟨_, rfl⟩
      · obtain ⟨l, hl⟩ := choiceU_safe hne (W.rng 0)
        rw [hl]; exact ⟨_, rfl⟩
  obtain ⟨⟨l, W1⟩, hx⟩ := hok
  obtain ⟨hl, r, rfl⟩ := chooseLink_spec hx
  exact ⟨l, r, hx, hl⟩

/-! ### Entering a link -/

theorem attachLeader_safe {W : World} {v : VehId} {l : LinkId} (hk : 1 ≤ W.L.lanes l)
    {ld fo : VehId → Option VehId}
    (h : LaneOK (W.L.lanes l) (W.L.vehs l) W.V.lane ld fo) (hv : v ∉ W.L.vehs l) :
    ∃ W', W.attachLeader v l = .ok W' := by
  unfold attachLeader
  dsimp only
  split
  · rename_i hlen
    have hb : ∃ w, backN (W.L.vehs l) (W.L.lanes l) = some w := by
      unfold backN
      rw [if_pos ⟨hk, hlen⟩, List.getElem?_eq_getElem (by omega)]
      exact ⟨_, rfl⟩
    obtain ⟨w, hw⟩ := hb
    rw [hw]
    dsimp only
    have hwm : w ∈ W.L.vehs l := by
      unfold backN at hw
      rw [if_pos ⟨hk, hlen⟩] at hw
      exact List.mem_of_getElem? hw
    have hwv : w ≠ v := by rintro rfl; exact hv hwm
    have hln := h.new_lane hk (nl := W.newLane l) rfl hlen hw
    have e : upd W.V.lane v (W.newLane l) w = upd W.V.lane v (W.newLane l) v := by
      rw [upd_same, upd_ne _ _ hwv]; exact hln
    exact ⟨_, if_pos e⟩
  · exact ⟨_, rfl⟩

theorem depart_safe {W : World} (h : Stab W) {n : NodeId} {v : VehId} {t : List VehId} {l : LinkId}
    (hq : W.N.genq n = v :: t) (hl : l < W.nLinks) : ∃ W', W.depart n v l = .ok W' := by
  have hw : W.V.state v = .wait := (h.core.s.genq_mem n v (by simp [hq])).1
  have hvn : v ∉ W.L.vehs l := fun hm => by
    have := (h.core.s.link_run v l (h.core.s.vehs_link l v hm)).1
    rw [hw] at this; cases this
  unfold depart
  rw [if_neg (h.cum l hl).1]
  have := attachLeader_safe (W := { W with
    running := W.running ++ [v]
    N := { W.N with genq := upd W.N.genq n (W.N.genq n).tail }
    V := { W.V with
      state := upd W.V.state v .run
      link := upd W.V.link v (some l)
      x := upd W.V.x v 0
      v := upd W.V.v v (W.L.u l) } }) (v := v) (l := l) (h.core.s.lanes_pos l hl) (h.lane.ok l hl) hvn
  obtain ⟨W2, h2⟩ := this
  dsimp only at h2 ⊢
  rw [h2]
  exact ⟨_, rfl⟩

/-! ### Generation and node update -/

theorem generateLoop_safe {n : NodeId} (k : ℕ) : ∀ {W : World}, Full W → n < W.nNodes →
    (0 < k → W.N.outlinks n ≠ []) → ∃ W', generateLoop n k W = .ok W' ∧ Full W' := by
  induction k with
  | zero => intro W h _ _; exact ⟨W, rfl, h⟩
  | succ k ih =>
    intro W h hn ho
    have ho := ho (Nat.succ_pos k)
    simp only [generateLoop]
    split
    · exact ⟨W, rfl, h⟩
    · rename_i v t hq
      have hS := h.stab.core.s
      have hw := (hS.genq_mem n v (by simp [hq])).1
      have hv : v < W.nVeh := by
        by_contra hh
        have := hS.fresh v (not_lt.1 hh)
        rw [hw] at this; cases this
      obtain ⟨hsp, hav⟩ := h.stab.free v hv
      have hoc : W.originCandidates v n = .ok (W.preferAvoid v (W.N.outlinks n)) := by
        unfold originCandidates; rw [hsp]
      have hlt : ∀ l ∈ W.preferAvoid v (W.N.outlinks n), l < W.nLinks := fun l hl =>
        ((hS.out_iff n l).1 (SInv.mem_preferAvoid hl)).1
      obtain ⟨l, r, hc, hl⟩ := chooseLink_safe h.prefs hv (preferAvoid_ne hav ho) hlt
      rw [hoc, ok_bind, hc, ok_bind]
      dsimp only
      have h1 := h.rng r
      split
      · rename_i hent
        obtain ⟨W2, h2⟩ := depart_safe h1.stab (n := n) (v := v) (t := t) (l := l) hq (hlt l hl)
        have hp : Prim (.depart n v l) { W with rng := r } W2 := .depart (t := t) hn hq hoc hl hent h2
        rw [h2, ok_bind]
        refine ih (h1.prim (a := .depart n v l) trivial hp) ?_ (fun _ => ?_)
        · rw [hp.static.nNodes]; exact hn
        · rw [hp.static.outlinks]; exact ho
      · exact ⟨_, rfl, h1⟩

theorem generate_safe {W : World} (h : Full W) {n : NodeId} (hn : n < W.nNodes) :
    ∃ W', W.generate n = .ok W' ∧ Full W' ∧ W'.nNodes = W.nNodes := by
  unfold generate
  obtain ⟨W', h1, h2⟩ := generateLoop_safe (n := n) ((W.N.outlinks n).map W.L.lanes).sum h hn (by
    intro hp he
    rw [he] at hp; simp at hp)
  exact ⟨W', h1, h2, (generateLoop_star hn h1).static.nNodes⟩

theorem nodeUpdate_safe {W : World} (h : Full W) {n : NodeId} (hn : n < W.nNodes) :
    ∃ W', W.nodeUpdate n = .ok W' ∧ Full W' ∧ W'.nNodes = W.nNodes := by
  have hok : ∃ W', W.nodeUpdate n = .ok W' := by
    unfold nodeUpdate signalControl
    rw [List.getElem?_eq_getElem (h.stab.signal n hn)]
    exact ⟨_, rfl⟩
  obtain ⟨W', h1⟩ := hok
  have hp : Prim (.nodeTick n) W W' := .nodeTick hn h1
  exact ⟨W', h1, h.prim (a := .nodeTick n) trivial hp, hp.static.nNodes⟩

theorem gens_safe {W : World} (h : Full W) :
    ∃ W', (List.range W.nNodes).foldlM (fun W n => do (← W.generate n).nodeUpdate n) W = .ok W' ∧ Full W' := by
  obtain ⟨W', h1, h2, -⟩ := foldlM_safe' (P := fun X => Full X ∧ X.nNodes = W.nNodes)
    (f := fun (W : World) n => do (← W.generate n).nodeUpdate n) (l := List.range W.nNodes)
    (fun n X hn ⟨hX, hN⟩ => by
      rw [List.mem_range, ← hN] at hn
      obtain ⟨Y, g1, g2, g3⟩ := generate_safe hX hn
      obtain ⟨Z, k1, k2, k3⟩ := nodeUpdate_safe g2 (by rw [g3]; exact hn)
      exact ⟨Z, by rw [g1, ok_bind, k1], k2, by rw [k3, g3, hN]⟩) ⟨h, rfl⟩
  exact ⟨W', h1, h2⟩

/-! ### Transfer -/

theorem endTrip_safe {W : World} {v : VehId} {l : LinkId} (hl : W.V.link v = some l)
    (hc : W.L.cumDep l ≠ []) (hv : W.L.vehs l ≠ []) (hr : v ∈ W.running) (hli : v ∈ W.living) :
    ∃ W', W.endTrip v = .ok W' := by
  unfold endTrip
  rw [hl]
  dsimp only
  rw [if_neg (by simp only [not_or]; exact ⟨hc, hv⟩), if_neg (by simp only [not_or, not_not]; exact ⟨hr, hli⟩)]
  exact ⟨_, rfl⟩

theorem Stab.on_link {W : World} (h : Stab W) {v : VehId} {l : LinkId} (hv : v ∈ W.L.vehs l) :
    W.V.link v = some l ∧ l < W.nLinks ∧ v ∈ W.running ∧ v ∈ W.living ∧ v < W.nVeh := by
  have hS := h.core.s
  have h1 := hS.vehs_link l v hv
  obtain ⟨h2, -, h3⟩ := hS.link_run v l h1
  have hlt : v < W.nVeh := by
    by_contra hh
    have := hS.fresh v (not_lt.1 hh)
    rw [h2] at this; cases this
  exact ⟨h1, h3, (hS.running_iff v).2 h2,
    (hS.living_iff v).2 ⟨hlt, by rw [h2]; simp, by rw [h2]; simp⟩, hlt⟩

theorem moveVeh_safe {W : World} (h : Stab W) {n : NodeId} {v : VehId} {t : List VehId} {a b : LinkId}
    (hv : W.L.vehs a = v :: t) (hb : b < W.nLinks) : ∃ W', W.moveVeh n v a b = .ok W' := by
  have hS := h.core.s
  obtain ⟨hla, ha, hrun, hliv, hlt⟩ := h.on_link (v := v) (l := a) (by rw [hv]; simp)
  have hnd : v ∉ t := by have := hS.vehs_nodup a; rw [hv] at this; simp at this; exact this.1
  have hvb : (W.leaveLink n v a b).L.vehs b = upd W.L.vehs a t b := by
    simp [leaveLink, hv]
  have hatt : ∃ W2, (W.leaveLink n v a b).attachLeader v b = .ok W2 := by
    by_cases e : b = a
    · subst e
      have h1 := h.lane.ok b hb
      rw [hv] at h1
      have h2 := h1.tail (hS.lanes_pos b hb) (by have := hS.vehs_nodup b; rwa [hv] at this)
      refine attachLeader_safe (W := W.leaveLink n v b b) (hS.lanes_pos b hb)
        (ld := detachL W.V.leader (W.V.follower v)) (fo := W.V.follower) ?_ ?_
      · rw [hvb, upd_same]; exact h2
      · rw [hvb, upd_same]; exact hnd
    · refine attachLeader_safe (W := W.leaveLink n v a b) (hS.lanes_pos b hb) (ld := W.V.leader)
        (fo := W.V.follower) ?_ ?_
      · rw [hvb, upd_ne _ _ e]; exact h.lane.ok b hb
      · rw [hvb, upd_ne _ _ e]
        intro hm
        have := (hS.vehs_link b v hm).symm.trans hla
        simp at this; exact e this
  obtain ⟨W2, h2⟩ := hatt
  unfold moveVeh
  rw [if_neg (by simp only [not_or]; exact ⟨(h.cum a ha).2.1, (h.cum b hb).1⟩), if_neg (h.speed a ha)]
  dsimp only
  rw [h2, ok_bind]
  obtain ⟨o, rfl, -⟩ := attachLeader_ok h2
  generalize ((W.leaveLink n v a b).attachTo v b o).carryOver v a b = q
  have hva : (((W.leaveLink n v a b).attachTo v b o).placeOn v q).L.vehs a = t := by
    simp [leaveLink, attachTo, placeOn, hv]
  have hend : ∃ X, (((W.leaveLink n v a b).attachTo v b o).placeOn v q).endHead a = .ok X := by
    unfold endHead
    rw [hva]
    cases ht : t with
    | nil => exact ⟨_, rfl⟩
    | cons w s =>
      dsimp only
      split
      · have hw : w ∈ W.L.vehs a := by rw [hv, ht]; simp
        obtain ⟨k1, k2, k3, k4, k5⟩ := h.on_link hw
        have hwv : w ≠ v := by rintro rfl; rw [ht] at hnd; simp at hnd
        obtain ⟨W5, h5⟩ := endTrip_safe (W := ((W.leaveLink n v a b).attachTo v b o).placeOn v q) (v := w) (l := a)
          (by simp [leaveLink, attachTo, placeOn, upd_ne _ _ hwv, k1])
          (by
            show upd W.L.cumDep a (bumpHead W.dn (W.L.cumDep a)) a ≠ []
            rw [upd_same]; exact bumpHead_ne (h.cum a ha).2.1)
          (by rw [hva, ht]; simp) k3 k4
        rw [h5]; exact ⟨_, rfl⟩
      · exact ⟨_, rfl⟩
  obtain ⟨⟨W4, b4⟩, h4⟩ := hend
  rw [h4, ok_bind]
  exact ⟨_, rfl⟩

theorem mergeOf_nonneg {W : World} (h : Stab W) (v : VehId) : 0 ≤ W.mergeOf v := by
  unfold mergeOf
  cases hl : W.V.link v with
  | none => exact le_rfl
  | some a => exact h.merge a (h.core.s.link_run v a hl).2.2

theorem sum_nonneg_map {vs : List VehId} {f : VehId → ℚ} (h : ∀ v, 0 ≤ f v) : 0 ≤ (vs.map f).sum := by
  induction vs with
  | nil => simp
  | cons v t ih => rw [List.map_cons, List.sum_cons]; exact add_nonneg (h v) ih

theorem sum_scale (c : ℚ) (l : List ℚ) : (l.map (fun q => q * c)).sum = l.sum * c := by
  induction l with
  | nil => simp
  | cons a t ih => simp only [List.map_cons, List.sum_cons, ih]; ring

theorem pickMerge_safe {W : World} (h : Stab W) {vs : List VehId} (hne : vs ≠ []) :
    ∃ v r, W.pickMerge vs = .ok (v, { W with rng := r }) ∧ v ∈ vs := by
  have hok : ∃ x, W.pickMerge vs = .ok x := by
    have hs0 := sum_nonneg_map (vs := vs) (mergeOf_nonneg h)
    unfold pickMerge
    dsimp only
    obtain ⟨ws, hws, hpos, hsum, hwne⟩ : ∃ ws : List (ℚ × VehId),
        (if (vs.map W.mergeOf).sum = 0 then vs.map (fun v => ((1 : ℚ), v))
          else vs.map (fun v => (W.mergeOf v, v))) = ws ∧ (∀ p ∈ ws, 0 ≤ p.1) ∧
          0 < (ws.map (·.1)).sum ∧ ws ≠ [] := by
      split
      · refine ⟨_, rfl, ?_, ?_, by simpa using hne⟩
        · intro p hp
          rw [List.mem_map] at hp
          obtain ⟨v, -, rfl⟩ := hp
          exact zero_le_one
        · rw [List.map_map]
          have : ((vs.map ((fun p : ℚ × VehId => p.1) ∘ fun v => ((1 : ℚ), v)))) = vs.map (fun _ => (1:ℚ)) := rfl
          rw [this]
          simp only [List.map_const', List.sum_replicate]
          have := List.length_pos_iff.2 hne
          simpa using this
      · rename_i hz
        refine ⟨_, rfl, ?_, ?_, by simpa using hne⟩
        · intro p hp
          rw [List.mem_map] at hp
          obtain ⟨v, -, rfl⟩ := hp
          exact mergeOf_nonneg h v
        · rw [List.map_map]
          have : ((vs.map ((fun p : ℚ × VehId => p.1) ∘ fun v => (W.mergeOf v, v)))) = vs.map W.mergeOf := rfl
          rw [this]
          exact lt_of_le_of_ne hs0 (Ne.symm hz)
    rw [hws]
    split
    · obtain ⟨v, hv⟩ := argmaxFirst_safe hwne
      rw [hv]; exact ⟨_, rfl⟩
    · obtain ⟨v, hv⟩ := choiceW_safe (xs := ws.map (fun p => (p.1 / (ws.map (·.1)).sum, p.2))) (by
        intro p hp
        rw [List.mem_map] at hp
        obtain ⟨p', hp', rfl⟩ := hp
        exact div_nonneg (hpos p' hp') hsum.le) (by
        rw [List.map_map]
        have : ws.map ((fun p : ℚ × VehId => p.1) ∘ fun p => (p.1 / (ws.map (·.1)).sum, p.2)) =
            (ws.map (·.1)).map (fun q => q * (ws.map (·.1)).sum⁻¹) := by
          rw [List.map_map]
          apply List.map_congr_left
          intro p _
          simp [div_eq_mul_inv]
        rw [this, sum_scale, mul_inv_cancel₀ hsum.ne']
        exact zero_lt_one) (W.rng 0)
      rw [hv]; exact ⟨_, rfl⟩
  obtain ⟨⟨v, W1⟩, hx⟩ := hok
  obtain ⟨hv, r, rfl⟩ := pickMerge_spec hx
  exact ⟨v, r, hx, hv⟩

theorem transferOne_safe {n : NodeId} {W : World} {b : LinkId} (h : Full W) (hn : n < W.nNodes)
    (ho : W.N.outlinks n ≠ []) (hb : b < W.nLinks) : ∃ W', transferOne n W b = .ok W' ∧ Full W' := by
  have hok : ∃ W', transferOne n W b = .ok W' := by
    unfold transferOne
    split
    · obtain ⟨vs, hvs⟩ := filterE_safe (p := W.eligible n b) (l := W.N.incoming n) (by
        intro v hv
        have hl := (h.inc n v hv).2.2 ho
        unfold eligible
        cases hlv : W.V.link v with
        | none => exact absurd hlv hl
        | some a =>
          dsimp only
          have := (h.stab.core.s.link_run v a hlv).2.1
          cases hva : W.L.vehs a with
          | nil => rw [hva] at this; cases this
          | cons w t => exact ⟨_, rfl⟩)
      rw [hvs, ok_bind]
      cases hvs' : vs with
      | nil => exact ⟨_, rfl⟩
      | cons w t =>
        dsimp only
        rw [← hvs']
        obtain ⟨v, r, hp, hv⟩ := pickMerge_safe h.stab (vs := vs) (by rw [hvs']; simp)
        rw [hp, ok_bind]
        dsimp only
        rw [filterE_ok hvs] at hv
        obtain ⟨hinc, hel⟩ := hv
        unfold eligible at hel
        cases hlv : W.V.link v with
        | none => rw [hlv] at hel; simp at hel
        | some a =>
          rw [hlv] at hel
          dsimp only at hel ⊢
          split at hel
          · simp at hel
          · rename_i hd t hvt
            simp only [Except.ok.injEq, Bool.and_eq_true, Bool.or_eq_true, decide_eq_true_eq] at hel
            obtain ⟨⟨⟨rfl, hrnl⟩, hsig⟩, hco⟩ := hel
            exact moveVeh_safe (h.stab.rng r) (t := t) hvt hb
    · exact ⟨_, rfl⟩
  obtain ⟨W', h1⟩ := hok
  refine ⟨W', h1, ?_⟩
  rcases transferOne_spec h.stab.core hn h1 with rfl | ⟨r, v, a, W1, hm, h2⟩
  · exact h
  · have h3 := (h.rng r).prim (a := .move n v a b) trivial hm
    rcases h2 with rfl | ⟨w, h2⟩
    · exact h3
    · exact h3.prim (a := .endTrip w a) trivial h2

theorem endHead_safe {W : World} (h : Full W) (l : LinkId) : ∃ W' b, W.endHead l = .ok (W', b) ∧ Full W' := by
  have hok : ∃ x, W.endHead l = .ok x := by
    unfold endHead
    cases hv : W.L.vehs l with
    | nil => exact ⟨_, rfl⟩
    | cons v t =>
      dsimp only
      split
      · obtain ⟨h1, h2, h3, h4, h5⟩ := h.stab.on_link (v := v) (l := l) (by rw [hv]; simp)
        obtain ⟨W', h6⟩ := endTrip_safe h1 (h.stab.cum l h2).2.1 (by rw [hv]; simp) h3 h4
        rw [h6]; exact ⟨_, rfl⟩
      · exact ⟨_, rfl⟩
  obtain ⟨⟨W', b⟩, h1⟩ := hok
  refine ⟨W', b, h1, ?_⟩
  rcases endHead_spec h.stab.core.s h1 with rfl | ⟨v, hp⟩
  · exact h
  · exact h.prim (a := .endTrip v l) trivial hp

theorem endHeads_safe {l : LinkId} (k : ℕ) : ∀ {W : World}, Full W →
    ∃ W', endHeads l k W = .ok W' ∧ Full W' := by
  induction k with
  | zero => intro W h; exact ⟨W, rfl, h⟩
  | succ k ih =>
    intro W h
    obtain ⟨W1, b, h1, h2⟩ := endHead_safe h l
    simp only [endHeads]
    rw [h1, ok_bind]
    dsimp only
    split
    · exact ih h2
    · exact ⟨_, rfl, h2⟩

theorem mem_uniqFirst {α : Type} [DecidableEq α] {l : List α} {a : α} (h : a ∈ uniqFirst l) : a ∈ l := by
  induction l with
  | nil => simp [uniqFirst] at h
  | cons b t ih =>
    rw [uniqFirst, List.mem_cons] at h
    rcases h with rfl | h
    · exact List.mem_cons_self
    · exact List.mem_cons_of_mem _ (ih (List.mem_filter.1 h).1)

theorem transferSlots_safe {W : World} (h : Full W) (n : NodeId) :
    ∃ slots, W.transferSlots n = .ok slots ∧ ∀ b ∈ slots, b < W.nLinks ∧ W.N.outlinks n ≠ [] := by
  unfold transferSlots
  rw [if_neg]
  · refine ⟨_, rfl, ?_⟩
    intro b hb
    rw [List.mem_flatMap] at hb
    obtain ⟨l, hl, hb⟩ := hb
    have := List.eq_of_mem_replicate hb
    subst this
    have hl := mem_uniqFirst hl
    rw [List.mem_filterMap] at hl
    obtain ⟨v, hv, he⟩ := hl
    have hr : W.V.rnl v = .to b := by
      cases hx : W.V.rnl v <;> rw [hx] at he <;> simp at he
      rw [he]
    refine ⟨h.stab.core.s.rnl_lt v b hr, fun ho => ?_⟩
    have := (h.inc n v hv).2.1 ho
    rw [hr] at this; cases this
  · simp only [List.any_eq_true, decide_eq_true_eq, not_exists, not_and]
    intro v hv; exact (h.inc n v hv).1

theorem transfer_safe {W : World} (h : Full W) {n : NodeId} (hn : n < W.nNodes) :
    ∃ W', W.transfer n = .ok W' ∧ Full W' ∧ W'.nNodes = W.nNodes := by
  have hok : ∃ W', W.transfer n = .ok W' ∧ Full W' := by
    obtain ⟨slots0, hs0, hsl⟩ := transferSlots_safe h n
    have key : ∀ (slots : List LinkId) (r : ℕ → ℕ), slots.Perm slots0 → ∃ W', (do
        let W2 ← slots.foldlM (transferOne n) { W with rng := r }
        let W3 ← (W2.N.inlinks n).foldlM (fun W l => endHeads l (W.L.lanes l) W) W2
        pure { W3 with N := { W3.N with incoming := upd W3.N.incoming n [] } } : M World) = .ok W' ∧
        Full W' := by
      intro slots r hperm
      obtain ⟨W2, h2, ⟨f2, e1, e2, e3⟩⟩ := foldlM_safe' (P := fun X => Full X ∧ X.nNodes = W.nNodes ∧
          X.nLinks = W.nLinks ∧ X.N.outlinks = W.N.outlinks) (f := transferOne n) (l := slots)
        (fun b X hb ⟨hX, k1, k2, k3⟩ => by
          obtain ⟨b1, b2⟩ := hsl b (hperm.mem_iff.1 hb)
          obtain ⟨Y, y1, y2⟩ := transferOne_safe hX (by rw [k1]; exact hn) (by rw [k3]; exact b2)
            (by rw [k2]; exact b1)
          have st := (transferOne_star hX.stab.core (by rw [k1]; exact hn) y1).static
          exact ⟨Y, y1, y2, by rw [st.nNodes, k1], by rw [st.nLinks, k2], by rw [st.outlinks, k3]⟩)
        (s := { W with rng := r }) ⟨h.rng r, rfl, rfl, rfl⟩
      rw [h2, ok_bind]
      obtain ⟨W3, h3, ⟨f3, e4⟩⟩ := foldlM_safe' (P := fun X => Full X ∧ X.nNodes = W.nNodes)
        (f := fun (W : World) l => endHeads l (W.L.lanes l) W) (l := W2.N.inlinks n)
        (fun l X _ ⟨hX, k1⟩ => by
          obtain ⟨Y, y1, y2⟩ := endHeads_safe (l := l) (X.L.lanes l) hX
          have st := (endHeads_star hX.stab.core y1).static
          exact ⟨Y, y1, y2, by rw [st.nNodes, k1]⟩) (s := W2) ⟨f2, e1⟩
      rw [h3, ok_bind]
      exact ⟨_, rfl, f3.prim (a := .clearInc n) trivial (.clearInc (by rw [e4]; exact hn))⟩
    unfold transfer
    rw [hs0, ok_bind]
    split
    rename_i x slots W1 heq
    split at heq
    · simp only [Prod.mk.injEq] at heq
      obtain ⟨rfl, rfl⟩ := heq
      exact key _ W.rng (List.Perm.refl _)
    · simp only [Prod.mk.injEq] at heq
      obtain ⟨rfl, rfl⟩ := heq
      exact key _ _ (shuffle_perm _ _)
  obtain ⟨W', h1, h2⟩ := hok
  exact ⟨W', h1, h2, (transfer_star h.stab.core hn h1).static.nNodes⟩

theorem transfers_safe {W : World} (h : Full W) :
    ∃ W', (List.range W.nNodes).foldlM transfer W = .ok W' ∧ Full W' := by
  obtain ⟨W', h1, h2, -⟩ := foldlM_safe' (P := fun X => Full X ∧ X.nNodes = W.nNodes)
    (f := transfer) (l := List.range W.nNodes)
    (fun n X hn ⟨hX, hN⟩ => by
      rw [List.mem_range, ← hN] at hn
      obtain ⟨Y, g1, g2, g3⟩ := transfer_safe hX hn
      exact ⟨Y, g1, g2, by rw [g3, hN]⟩) ⟨h, rfl⟩
  exact ⟨W', h1, h2⟩

/-! ### Car following -/

theorem cars_safe {W : World} (h : Full W) :
    ∃ W', W.running.foldlM carfollow W = .ok W' ∧ Full W' := by
  obtain ⟨W', h1, h2, -⟩ := foldlM_safe' (P := fun X => Full X ∧ X.running = W.running)
    (f := carfollow) (l := W.running)
    (fun v X hv ⟨hX, hN⟩ => by
      rw [← hN] at hv
      have hok : ∃ Y, X.carfollow v = .ok Y := by
        have hr := (hX.stab.core.s.running_iff v).1 hv
        have := hX.stab.core.s.run_link v hr
        unfold carfollow
        cases hl : X.V.link v with
        | none => exact absurd hl this
        | some l =>
          dsimp only
          split <;> exact ⟨_, rfl⟩
      obtain ⟨Y, hY⟩ := hok
      have hp : Prim (.carfollow v) X Y := .carfollow hv hY
      refine ⟨Y, hY, hX.prim (a := .carfollow v) trivial hp, ?_⟩
      obtain ⟨_, _, _, _, rfl, _⟩ := carfollow_ok hY
      exact hN) ⟨h, rfl⟩
  exact ⟨W', h1, h2⟩

end UX
