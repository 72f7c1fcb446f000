import Verif.Proofs.TraceExt
import Verif.Model.Route
import Verif.Spec.Route

/-! Invariants of next-link choices and of route logs. -/

namespace UX
open World

theorem addDest_keeps {W W' : World} {v d k} (h : W.addDest v d k = .ok W') {u m}
    (hu : W.V.dest u = some m) : W'.V.dest u = some m := by
  unfold addDest at h
  split at h
  · simp at h
  · split at h
    · rename_i hd
      obtain ⟨p, rfl⟩ := routePrefUpdate_ok h
      have : u ≠ v := by rintro rfl; rw [hd] at hu; cases hu
      simpa [upd_ne _ _ this] using hu
    · simp only [Except.ok.injEq] at h; subst h; exact hu

theorem runEvent_keeps {W W' : World} {e : TaxiEvent} (h : W.runEvent e = .ok W') {u m}
    (hu : W.V.dest u = some m) : W'.V.dest u = some m := by
  cases e with
  | getOn r =>
    simp only [runEvent] at h
    split at h
    · simp at h
    · rw [bind_ok] at h
      obtain ⟨W1, h1, h⟩ := h
      split at h
      · simp [bind, Except.bind, throw, throwThe, MonadExceptOf.throw] at h
      · simp only [pure_ok] at h
        subst h
        exact addDest_keeps h1 hu
  | arrive r =>
    simp only [runEvent] at h
    split at h
    · simp at h
    · split at h
      · simp [bind, Except.bind, throw, throwThe, MonadExceptOf.throw] at h
      · simp only [pure_ok] at h
        subst h
        exact hu

/-- Every vehicle waiting at a node was handled by `route_next_link_choice` there. -/
def ChI (W : World) : Prop :=
  ∀ n v, v ∈ W.N.incoming n → W.V.link v ≠ none → Chosen W v n

/-- What `Chosen` reads. -/
theorem Chosen.congr {W W' : World} {v n} (h : Chosen W v n) (h1 : W'.V.specRoute v = W.V.specRoute v)
    (h2 : ∀ k, W.V.dest v = some k → W'.V.dest v = some k) (h3 : W'.V.mode v = W.V.mode v)
    (h4 : W'.V.rnl v = W.V.rnl v) (h5 : W'.N.outlinks n = W.N.outlinks n)
    (h6 : W'.nextCandidates v n = W.nextCandidates v n) (h7 : W'.V.logTLink v = W.V.logTLink v) :
    Chosen W' v n := by
  unfold Chosen at *
  rw [h1, h3, h4, h5, h6, h7]
  rcases h with ⟨a, b, c⟩ | h
  · exact .inl ⟨a, h2 _ b, c⟩
  · exact .inr h

theorem nextCandidates_congr {W W' : World} {v n} (h1 : W'.cfg = W.cfg) (h2 : W'.V.mode v = W.V.mode v)
    (h3 : W'.N.outlinks n = W.N.outlinks n) (h4 : W'.V.linksPrefer v = W.V.linksPrefer v)
    (h5 : W'.V.linksAvoid v = W.V.linksAvoid v) (h6 : W'.L.endN = W.L.endN)
    (h7 : W'.L.startN = W.L.startN) (h8 : W'.V.logTLink v = W.V.logTLink v)
    (h9 : W'.L.name = W.L.name) : W'.nextCandidates v n = W.nextCandidates v n := by
  unfold nextCandidates preferAvoid traveledNodes sortByName
  rw [h1, h2, h3, h4, h5, h6, h7, h8, h9]

theorem ChI.late {W W' : World} {act : Act} (h : ChI W) (ha : isLate act) (hc : Core W)
    (hp : Prim act W W') : ChI W' := by
  have hst := hp.static
  have hs := hp.shape hc.s
  clear hp
  -- same for all cases that leave the log of waiting vehicles alone
  have key : ∀ n v, Chosen W v n → (∀ k, W.V.dest v = some k → W'.V.dest v = some k) →
      W'.V.rnl v = W.V.rnl v → W'.V.logTLink v = W.V.logTLink v → Chosen W' v n := by
    intro n v h1 h2 h3 h4
    refine h1.congr (by rw [hst.specRoute]) h2 (by rw [hst.mode]) h3 (by rw [hst.outlinks]) ?_ h4
    exact nextCandidates_congr hst.cfg (by rw [hst.mode]) (by rw [hst.outlinks])
      (by rw [hst.linksPrefer]) (by rw [hst.linksAvoid]) hst.endN hst.startN h4 hst.lname
  cases hs with
  | @record _ v log s c lt hliv hlt hlog =>
    intro n u hu hl
    refine key n u (h n u hu hl) (fun _ h => h) rfl ?_
    dsimp only
    rw [upd_apply]
    split
    · rename_i e
      subst e
      have hl' : W.V.link u ≠ none := hl
      obtain ⟨a, ha⟩ := Option.ne_none_iff_exists'.mp hl'
      have := (hc.s.inc_run n u a hu ha).2.2
      rw [hlt, if_neg]
      rintro ⟨-, h2⟩
      exact h2 (ha.trans this.symm)
    · rfl
  | startWait => exact fun n u hu hl => key n u (h n u hu hl) (fun _ h => h) rfl rfl
  | noWait => exact h
  | advance => exact fun n u hu hl => key n u (h n u hu hl) (fun _ h => h) rfl rfl
  | routing => exact fun n u hu hl => key n u (h n u hu hl) (fun _ h => h) rfl rfl
  | flagEnd => exact fun n u hu hl => key n u (h n u hu hl) (fun _ h => h) rfl rfl
  | @flagAbort _ v a hae hd ho ht =>
    intro n u hu hl
    have : u ≠ v := by rintro rfl; exact hae.2.2.2.2 n hu
    exact key n u (h n u hu hl) (fun _ h => h) (upd_ne _ _ this) rfl
  | @event _ v a e rng R H dest destList nodeEvent pref hae he hr hd =>
    exact fun n u hu hl => key n u (h n u hu hl) (fun k hk => runEvent_keeps hr hk) rfl rfl
  | @nextDest _ v a d dl hae hd hm hdl =>
    intro n u hu hl
    have : u ≠ v := by rintro rfl; exact hae.2.2.2.2 n hu
    exact key n u (h n u hu hl) (fun k hk => (upd_ne _ _ this).trans hk) rfl rfl
  | @choose _ v a r rnl hae hd ho hr =>
    intro n u hu hl
    have : u ≠ v := by rintro rfl; exact hae.2.2.2.2 n hu
    exact key n u (h n u hu hl) (fun _ h => h) (upd_ne _ _ this) rfl
  | @pushInc _ v a n hae hne hg hch =>
    intro m u hu hl
    refine key m u ?_ (fun _ h => h) rfl rfl
    dsimp only at hu
    rw [upd_apply] at hu
    split at hu
    · rename_i e
      subst e
      rw [List.mem_append] at hu
      rcases hu with hu | hu
      · exact h m u hu hl
      · obtain rfl : u = v := by simpa using hu
        exact hch
    · exact h m u hu hl
  | @endTrip _ v l t log s c lt tta hl hv hf hcd hrun hliv hlt hlog htta =>
    intro n u hu hul
    dsimp only at hu hul
    rw [upd_apply] at hul
    split at hul
    · exact absurd rfl hul
    · rename_i hne
      exact key n u (h n u hu hul) (fun _ h => h) rfl (upd_ne _ _ hne)
  | _ => exact ha.elim

/-- After a time step every waiting vehicle has an up-to-date choice. -/
theorem ChI.tick {W W' : World} (hi : Inv W) (hf : W.finalized = true) (h : W.tick = .ok W') : ChI W' := by
  obtain ⟨W1, h1, rfl⟩ := tick_ok h
  obtain ⟨W6, hc, hs, h6, rfl⟩ := step_two (Pa := fun _ => True) (Pb := ChI) hi hf
    (fun _ _ _ _ _ _ _ => trivial) (fun W _ hi _ n v hv => by rw [hi n] at hv; cases hv)
    (fun _ _ _ ha hc hp h => h.late ha hc hp) h1 trivial
  exact h6

/-! ### Route log -/

/-- Links in a route log, newest first. -/
def logLinks (lg : List (ℚ × LogEntry)) : List LinkId :=
  lg.filterMap (fun p => match p.2 with | .link l => some l | _ => none)

/-- Node reached after the links `r` (newest first) from `o`. -/
def lastEnd (endN : LinkId → NodeId) (o : NodeId) : List LinkId → NodeId
  | [] => o
  | l :: _ => endN l

/-- Connected path, newest link first. -/
def NPath (startN endN : LinkId → NodeId) (o : NodeId) : List LinkId → Prop
  | [] => True
  | l :: r => startN l = lastEnd endN o r ∧ NPath startN endN o r

/-- A next link that was chosen earlier is the current link, or leaves the end of the current link. -/
structure StaleI (W : World) : Prop where
  rel : ∀ v l b, W.V.link v = some l → W.V.rnl v = .to b → b = l ∨ W.L.startN b = W.L.endN l
  unset : ∀ v, W.V.state v = .home ∨ W.V.state v = .wait → W.V.rnl v = .unset

namespace StaleI

theorem congr {W W' : World} (h : StaleI W) (h1 : W'.V.link = W.V.link) (h2 : W'.V.rnl = W.V.rnl)
    (h3 : W'.V.state = W.V.state) (h4 : W'.L.startN = W.L.startN) (h5 : W'.L.endN = W.L.endN) :
    StaleI W' := by
  obtain ⟨a, b⟩ := h
  exact ⟨by rw [h1, h2, h4, h5]; exact a, by rw [h2, h3]; exact b⟩

theorem prim {W W' : World} {act : Act} (h : StaleI W) (hc : Core W) (hp : Prim act W W') : StaleI W' := by
  have hs := hp.shape hc.s
  clear hp
  cases hs with
  | @depart _ n v t cs l o hn hq hcs hl hout hent hcum hlead =>
    have hw := (hc.s.genq_mem n v (by simp [hq])).1
    obtain ⟨a, b⟩ := h
    have hb := b v (.inr hw)
    refine ⟨?_, ?_⟩ <;> simp only [upd_apply] <;> grind
  | @move _ n v a b t o q nl fc tta hn hinc hla hv hr hsig hout hfl hent hcd hca hu hlead hnl hq hfc htta =>
    obtain ⟨a', b'⟩ := h
    refine ⟨?_, b'⟩
    simp only [upd_apply]; grind
  | @endTrip _ v l t log s c lt tta hl hv hf hcd hrun hliv hlt hlog htta =>
    obtain ⟨a, b⟩ := h
    refine ⟨?_, ?_⟩ <;> simp only [upd_apply] <;> grind
  | @startWait _ v hliv hs hd =>
    obtain ⟨a, b⟩ := h
    refine ⟨a, ?_⟩
    simp only [upd_apply]; grind
  | @flagAbort _ v a hae hd ho ht =>
    have hst := hae.1
    obtain ⟨a, b⟩ := h
    refine ⟨?_, ?_⟩ <;> simp only [upd_apply] <;> grind
  | @choose _ v a r rnl hae hd ho hr =>
    have hst := hae.1
    have hla := hae.2.1
    have hout : ∀ b, b ∈ W.N.outlinks (W.L.endN a) → W.L.startN b = W.L.endN a :=
      fun b hb => ((hc.s.out_iff _ b).mp hb).2
    obtain ⟨a', b'⟩ := h
    have hnew : ∀ b, rnl = .to b → b = a ∨ W.L.startN b = W.L.endN a := by
      intro b hb
      rcases hr with ⟨h1, -⟩ | ⟨h1, -⟩ | ⟨c, h1, -, h2, -⟩ | ⟨c, -, h1, h2, -⟩
      · exact a' v a b hla (h1 ▸ hb)
      · rw [h1] at hb; cases hb
      · obtain rfl : c = b := by rw [h1] at hb; simpa using hb
        exact .inr (hout c h2)
      · obtain rfl : c = b := by rw [h1] at hb; simpa using hb
        exact .inr (hout c h2)
    refine ⟨?_, ?_⟩
    · intro u l b hl hb
      dsimp only at hl hb ⊢
      rw [upd_apply] at hb
      split at hb
      · rename_i e; subst e
        obtain rfl : a = l := by rw [hla] at hl; simpa using hl
        exact hnew b hb
      · exact a' u l b hl hb
    · intro u hu
      dsimp only at hu ⊢
      rw [upd_apply]
      split
      · rename_i e; subst e; rw [hst] at hu; simp at hu
      · exact b' u hu
  | _ => exact h.congr rfl rfl rfl rfl rfl

theorem reach {OK : World → Prop} {W : World} (h : Reachable OK W) : StaleI W := by
  refine Reachable.induct (P := StaleI) ?_ ?_ ?_ ?_ ?_ ?_ ?_ ?_ h
  · intro cfg tmax rng
    constructor <;> simp [World.new]
  · intro W a ph t soff hi hf hn _ _ hT
    exact hT.congr rfl rfl rfl rfl rfl
  · intro W W' a hi hf ha _ _ hT
    obtain ⟨s, e, nm, k, p, -, -, -, -, -, -, rfl⟩ := addLink_ok ha
    refine ⟨fun v l b hl => ?_, hT.unset⟩
    have := (hi.s.link_run v l hl).1
    rw [hi.s.unfinal hf v] at this; cases this
  · intro W W' a hi ha _ _ hT
    obtain ⟨o, d, dep, pref, cache, lp, la, nm, -, -, -, -, -, -, -, -, rfl⟩ := addVehicle_ok ha
    obtain ⟨a, b⟩ := hT
    constructor <;> simp only [addVehRes, upd_apply] <;> grind
  · intro W tm hi hf _ _ hT
    obtain ⟨ts, tta, fc, fr, la, hr⟩ := finalize_frame W tm
    rw [hr]
    exact hT.congr rfl rfl rfl rfl rfl
  · intro W W' _ _ _ hs hT
    obtain ⟨_, _, _, _, _, _, _, rfl, hd⟩ := hs
    exact hT.congr rfl rfl rfl rfl rfl
  · intro W W' _ _ _ hs hT
    obtain ⟨_, _, _, _, _, _, _, _, _, _, _, _, _, _, _, _, _, _, _, rfl, -⟩ := hs
    exact hT.congr rfl rfl rfl rfl rfl
  · intro W W1 W' hi hf _ _ _ h1 hW hT
    subst hW
    exact step_prim hi hf (fun _ _ _ hc hp h => h.prim hc hp)
      (fun W t k _ h => h.congr rfl rfl rfl rfl rfl) h1 hT

end StaleI

structure RInv (W : World) : Prop where
  head : ∀ v a, W.V.linkOld v = some a → ∃ r, logLinks (W.V.logTLink v) = a :: r
  nil : ∀ v, W.V.linkOld v = none → W.V.state v ≠ .ended → W.V.state v ≠ .abort →
    logLinks (W.V.logTLink v) = []
  old : ∀ v, W.V.state v = .home ∨ W.V.state v = .wait → W.V.linkOld v = none
  cur : ∀ v l, W.V.link v = some l → W.V.linkOld v ≠ some l →
    W.L.startN l = lastEnd W.L.endN (W.V.orig v) (logLinks (W.V.logTLink v))
  path : ∀ v,
    NPath W.L.startN W.L.endN (W.V.orig v) (logLinks (W.V.logTLink v))
  fin : ∀ v, W.V.mode v = .single → W.V.state v = .ended →
    ∃ l r, logLinks (W.V.logTLink v) = l :: r ∧ W.V.dest v = some (W.L.endN l)
  log : ∀ v, v < W.nVeh → W.V.logTLink v ≠ []
  lnk : ∀ v, ∀ l ∈ logLinks (W.V.logTLink v), l < W.nLinks

namespace RInv

theorem congr {W W' : World} (h : RInv W) (h1 : W'.V.linkOld = W.V.linkOld)
    (h2 : W'.V.logTLink = W.V.logTLink) (h3 : W'.V.state = W.V.state) (h4 : W'.V.mode = W.V.mode)
    (h5 : W'.V.link = W.V.link) (h6 : W'.L.startN = W.L.startN) (h7 : W'.L.endN = W.L.endN)
    (h8 : W'.V.orig = W.V.orig)
    (h9 : ∀ v, W.V.mode v = .single → W'.V.dest v = W.V.dest v) (h10 : W'.nVeh = W.nVeh)
    (h11 : W'.nLinks = W.nLinks) : RInv W' := by
  obtain ⟨a, b, c, d, e, f, g, k⟩ := h
  refine ⟨?_, ?_, ?_, ?_, ?_, ?_, ?_, ?_⟩
  · rw [h1, h2]; exact a
  · rw [h1, h2, h3]; exact b
  · rw [h1, h3]; exact c
  · rw [h1, h2, h5, h6, h7, h8]; exact d
  · rw [h2, h6, h7, h8]; exact e
  · rw [h2, h3, h4, h7]
    intro v hm hs
    rw [h9 v hm]; exact f v hm hs
  · rw [h2, h10]; exact g
  · rw [h2, h11]; exact k

theorem prim {W W' : World} {act : Act} (h : RInv W) (hsl : StaleI W)
    (hc : Core W) (hp : Prim act W W') : RInv W' := by
  have hst := hp.static
  have hs := hp.shape hc.s
  clear hp
  cases hs with
  | @depart _ n v t cs l o hn hq hcs hl hout hent hcum hlead =>
    obtain ⟨hw, ho⟩ := hc.s.genq_mem n v (by simp [hq])
    have hlo := h.old v (.inr hw)
    have hnil := h.nil v hlo (by simp [hw]) (by simp [hw])
    have hsl := ((hc.s.out_iff n l).mp hout).2
    obtain ⟨a, b, c, d, e, f, g, k⟩ := h
    refine ⟨a, ?_, ?_, ?_, e, ?_, g, k⟩ <;> simp only [upd_apply] <;> grind [lastEnd]
  | @move _ n v a b t o q nl fc tta hn hinc hla hv hr hsig hout hfl hent hcd hca hu hlead hnl hq hfc htta =>
    obtain ⟨hen, -, hlo⟩ := hc.s.inc_run n v a hinc hla
    obtain ⟨rr, hrr⟩ := h.head v a hlo
    have hb := hsl.rel v a b hla hr
    obtain ⟨a', b', c, d, e, f, g, k⟩ := h
    refine ⟨a', b', c, ?_, e, f, g, k⟩
    simp only [upd_apply]
    intro u l hlu hlo'
    split at hlu
    · rename_i e; subst e
      obtain rfl : b = l := by simpa using hlu
      rw [hrr]
      rcases hb with rfl | hb
      · exact absurd hlo hlo'
      · exact hb
    · exact d u l hlu hlo'
  | @record _ v log s c lt hliv hlt hlog =>
    have hhead := h.head v
    have hnil := h.nil v
    have hcur := h.cur v
    have hpath := h.path v
    have hstl := (hc.s.living_iff v).mp hliv
    have hrl := hc.s.run_link v
    have hlr := hc.s.link_run v
    obtain ⟨a', b', c', d, e, f, g, k⟩ := h
    -- the new log
    by_cases hd : W.V.state v = .run ∧ W.V.link v ≠ W.V.linkOld v
    · obtain ⟨l, hl⟩ := Option.ne_none_iff_exists'.mp (hrl hd.1)
      have hltl : lt = (W.now, .link l) :: W.V.logTLink v := by
        rw [hlt, if_pos hd, hl]
      have hll : logLinks lt = l :: logLinks (W.V.logTLink v) := by rw [hltl]; rfl
      refine ⟨?_, ?_, ?_, ?_, ?_, ?_, ?_, ?_⟩ <;> simp only [upd_apply]
      · intro u a hu
        split at hu
        · rename_i e; subst e
          rw [if_pos rfl, hll]
          obtain rfl : l = a := by rw [hl] at hu; simpa using hu
          exact ⟨_, rfl⟩
        · rename_i hne; rw [if_neg hne]; exact a' u a hu
      · intro u hu h1 h2
        split at hu
        · rename_i e; subst e; rw [hl] at hu; cases hu
        · rename_i hne; rw [if_neg hne]; exact b' u hu h1 h2
      · intro u hu
        split
        · rename_i e; subst e; rw [hd.1] at hu; simp at hu
        · exact c' u hu
      · intro u m hm hne
        split
        · rename_i e; subst e; rw [if_pos rfl] at hne; exact absurd hm hne
        · rename_i e; rw [if_neg e] at hne; exact d u m hm hne
      · intro u
        split
        · rename_i e; subst e
          rw [hll]
          exact ⟨hcur l hl (fun h => hd.2 (hl.trans h.symm)), hpath⟩
        · exact e u
      · intro u hm hs
        split
        · rename_i e; subst e; rw [hd.1] at hs; cases hs
        · exact f u hm hs
      · intro u hu
        split
        · rw [hltl]; simp
        · exact g u hu
      · intro u l' hl'
        split at hl'
        · rw [hll, List.mem_cons] at hl'
          rcases hl' with rfl | hl'
          · exact (hlr l' hl).2.2
          · exact k v l' hl'
        · exact k u l' hl'
    · have hlt' : lt = W.V.logTLink v := by rw [hlt, if_neg hd]
      have hlo : W.V.link v = W.V.linkOld v := by
        by_cases hs : W.V.state v = .run
        · by_contra hne; exact hd ⟨hs, hne⟩
        · have h1 : W.V.link v = none := by
            cases hl : W.V.link v with
            | none => rfl
            | some l => exact absurd (hlr l hl).1 hs
          rw [h1]
          refine (c' v ?_).symm
          revert hs hstl
          cases W.V.state v <;> simp
      have e1 : upd W.V.logTLink v lt = W.V.logTLink := by rw [hlt', upd_eta]
      have e2 : upd W.V.linkOld v (W.V.link v) = W.V.linkOld := by rw [hlo, upd_eta]
      rw [e1, e2]
      exact ⟨a', b', c', d, e, f, g, k⟩
  | @endTrip _ v l t log s c lt tta hl hv hf hcd hrun hliv hlt hlog htta =>
    have hflag := hc.f.flag v l hl hf
    obtain ⟨rr, hrr⟩ := h.head v l hflag.1
    have hll : logLinks lt = logLinks (W.V.logTLink v) := by
      rw [hlt]; split
      · rfl
      · rfl
    obtain ⟨a', b', c', d, e, f, g, k⟩ := h
    have hupd : ∀ u, logLinks (upd W.V.logTLink v lt u) = logLinks (W.V.logTLink u) := by
      intro u; rw [upd_apply]; split
      · rename_i e; subst e; exact hll
      · rfl
    refine ⟨?_, ?_, ?_, ?_, ?_, ?_, ?_, ?_⟩ <;> simp only [hupd]
    · simp only [upd_apply]; grind
    · simp only [upd_apply]; grind
    · simp only [upd_apply]; grind
    · simp only [upd_apply]; grind
    · exact e
    · intro u hm hs
      rw [upd_apply] at hs
      split at hs
      · rename_i e; subst e
        refine ⟨l, rr, hrr, ?_⟩
        split at hs
        · cases hs
        · rename_i hab
          rcases hflag.2 with h2 | h2
          · exact h2.2.2.1
          · exact absurd h2.1 hab
      · exact f u hm hs
    · intro u hu
      rw [upd_apply]
      split
      · rename_i e; subst e
        rw [hlt]; split
        · exact g u hu
        · simp
      · exact g u hu
    · exact k
  | @startWait _ v hliv hs hd =>
    obtain ⟨a', b', c', d, e, f, g, k⟩ := h
    refine ⟨a', ?_, ?_, d, e, ?_, g, k⟩ <;> simp only [upd_apply] <;> grind
  | @event _ v a e rng R H dest destList nodeEvent pref hae he hr hd =>
    exact h.congr rfl rfl rfl rfl rfl rfl rfl rfl (fun v hv => hd v hv) rfl rfl
  | @nextDest _ v a d dl hae hd hm hdl =>
    refine h.congr rfl rfl rfl rfl rfl rfl rfl rfl (fun u hu => ?_) rfl rfl
    refine upd_ne _ _ ?_
    rintro rfl; rw [hm] at hu; cases hu
  | _ => exact h.congr rfl rfl rfl rfl rfl rfl rfl rfl (fun _ _ => rfl) rfl rfl

theorem reach {OK : World → Prop} {W : World} (h : Reachable OK W) : RInv W := by
  have h' := h.strengthen (Q := StaleI) (fun W h => StaleI.reach h)
  refine Reachable.induct (P := RInv) ?_ ?_ ?_ ?_ ?_ ?_ ?_ ?_ h'
  · intro cfg tmax rng
    constructor <;> simp [World.new, NPath, logLinks]
  · intro W a ph t soff hi hf hn _ _ hT
    exact hT.congr rfl rfl rfl rfl rfl rfl rfl rfl (fun _ _ => rfl) rfl rfl
  · intro W W' a hi hf ha _ _ hT
    obtain ⟨s, e, nm, k, p, -, -, -, -, -, -, rfl⟩ := addLink_ok ha
    have hu := hi.s.unfinal hf
    have hnl : ∀ v, W.V.link v = none := fun v => by
      cases hl : W.V.link v with
      | none => rfl
      | some l => have := (hi.s.link_run v l hl).1; rw [hu v] at this; cases this
    have hol : ∀ v, W.V.linkOld v = none := fun v => hT.old v (.inl (hu v))
    have hlg : ∀ v, logLinks (W.V.logTLink v) = [] :=
      fun v => hT.nil v (hol v) (by simp [hu v]) (by simp [hu v])
    refine ⟨?_, ?_, ?_, ?_, ?_, ?_, hT.log, ?_⟩
    · exact hT.head
    · exact hT.nil
    · exact hT.old
    · intro v l hl; have := (hnl v).symm.trans hl; cases this
    · intro v
      show NPath _ _ _ (logLinks (W.V.logTLink v))
      rw [hlg v]; trivial
    · intro v _ hs; have := (hu v).symm.trans hs; cases this
    · intro v l hl
      have hl : l ∈ logLinks (W.V.logTLink v) := hl
      rw [hlg v] at hl; cases hl
  · intro W W' a hi ha _ _ hT
    obtain ⟨o, d, dep, pref, cache, lp, la, nm, -, -, -, -, -, -, -, -, rfl⟩ := addVehicle_ok ha
    have hfr := hi.s.fresh W.nVeh le_rfl
    have hinc : ∀ n, W.nVeh ∉ W.N.incoming n := fun n hm => (hi.s.inc_old n _ hm).1 hfr
    · obtain ⟨a', b', c', d, e, f, g, k⟩ := hT
      constructor <;> simp only [addVehRes, upd_apply]
      · intro v a hv
        split at hv
        · cases hv
        · rename_i hne; rw [if_neg hne]; exact a' v a hv
      · intro v h1 h2 h3
        split
        · rfl
        · rename_i hne; rw [if_neg hne] at h1 h2 h3; exact b' v h1 h2 h3
      · intro v hv
        split
        · rfl
        · rename_i hne; rw [if_neg hne] at hv; exact c' v hv
      · intro v l hl hne
        split at hl
        · cases hl
        · rename_i h1; simp only [if_neg h1] at hne ⊢; exact d v l hl hne
      · intro v
        by_cases h1 : v = W.nVeh
        · subst h1; simp [logLinks, NPath]
        · simp only [if_neg h1]; exact e v
      · intro v hm hs
        by_cases h1 : v = W.nVeh
        · subst h1; simp at hs
        · simp only [if_neg h1] at hm hs ⊢; exact f v hm hs
      · intro v hv
        split
        · simp
        · rename_i hne
          exact g v (Nat.lt_of_le_of_ne (Nat.le_of_lt_succ hv) hne)
      · intro v l hl
        by_cases h1 : v = W.nVeh
        · subst h1; simp [logLinks] at hl
        · simp only [if_neg h1] at hl; exact k v l hl
  · intro W tm hi hf _ _ hT
    obtain ⟨ts, tta, fc, fr, la, hr⟩ := finalize_frame W tm
    rw [hr]
    exact hT.congr rfl rfl rfl rfl rfl rfl rfl rfl (fun _ _ => rfl) rfl rfl
  · intro W W' _ _ _ hs hT
    obtain ⟨_, _, _, _, _, _, _, rfl, hd⟩ := hs
    exact hT.congr rfl rfl rfl rfl rfl rfl rfl rfl (fun v hv => hd v hv) rfl rfl
  · intro W W' _ _ _ hs hT
    obtain ⟨_, _, _, _, _, _, _, _, _, _, _, _, _, _, _, _, _, _, _, rfl, -⟩ := hs
    exact hT.congr rfl rfl rfl rfl rfl rfl rfl rfl (fun _ _ => rfl) rfl rfl
  · intro W W1 W' hi hf _ hok _ h1 hW hT
    subst hW
    exact (step_prim (P := fun W => RInv W ∧ StaleI W) hi hf
      (fun _ _ _ hc hp h => ⟨h.1.prim h.2 hc hp, h.2.prim hc hp⟩)
      (fun W t k _ h => ⟨h.1.congr rfl rfl rfl rfl rfl rfl rfl rfl (fun _ _ => rfl) rfl rfl,
        h.2.congr rfl rfl rfl rfl rfl⟩) h1 ⟨hT, hok.2⟩).1

end RInv
end UX
