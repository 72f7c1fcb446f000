import Verif.Proofs.Decomp

/-! Decomposition of car-following, vehicle updates, route updates and of the whole step. -/

namespace UX
open World Relation

def isCf : Act → Prop | .carfollow _ => True | _ => False

theorem cars_star {W W' : World} (h : W.running.foldlM carfollow W = .ok W') : PStar isCf W W' := by
  have := foldlM_inv (P := fun W1 => W1.running = W.running ∧ PStar isCf W W1)
    (fun s a s' ha ⟨hc, hs⟩ hfa => by
      have hp : Prim (.carfollow a) s s' := .carfollow (by rw [hc]; exact ha) hfa
      refine ⟨?_, hs.tail (a := .carfollow a) trivial hp⟩
      obtain ⟨_, _, _, _, rfl, _⟩ := carfollow_ok hfa
      exact hc)
    ⟨rfl, PStar.refl⟩ h
  exact this.2

/-- What `Vehicle.update` of `v` may do after moving `v`. -/
def isAft (v : VehId) : Act → Prop
  | .routing => True | .event u => u = v | .nextDest u => u = v | .flagEnd u => u = v
  | .flagAbort u => u = v | .choose u => u = v | .pushInc _ u => u = v | .endTrip u _ => u = v
  | _ => False

theorem AtEnd.soft {W W' : World} {v a} (h : AtEnd W v a) (hs : Soft W W') : AtEnd W' v a := by
  obtain ⟨_, _, _, _, _, _, _, rfl, -⟩ := hs
  exact h

theorem routing_pref {W W' : World} {v w} (h : W.routePrefUpdate v w = .ok W') :
    Prim .routing W W' := by
  obtain ⟨p, rfl⟩ := routePrefUpdate_ok h
  exact .routing (W := W) (rng := W.rng) (R := W.R) (pref := p)

theorem routePref_soft {W W' : World} {v w} (h : W.routePrefUpdate v w = .ok W') : Soft W W' := by
  obtain ⟨p, rfl⟩ := routePrefUpdate_ok h
  exact ⟨_, _, _, _, _, _, _, rfl, fun _ _ => rfl⟩

theorem AtEnd.choose {W W' : World} {v a} (h : AtEnd W v a) (hc : W.nextLinkChoice v = .ok W') :
    AtEnd W' v a := by
  obtain ⟨_, _, _, _, rfl, _⟩ := nextLinkChoice_ok hc
  exact h

theorem waitEnd_star {W W' : World} {v : VehId} {a : LinkId} (W0 : World) {act : Act}
    (hact : isAft v act)
    (hp : Prim act W0 { W with V := { W.V with flagEnd := upd W.V.flagEnd v true } })
    (hc : Core W0)
    (h : W.waitEnd v a = .ok W') : PStar (isAft v) W0 W' := by
  have h1 := PStar.one (A := isAft v) hact hp
  have hc1 := hc.prim hp
  unfold waitEnd at h
  dsimp only at h
  split at h
  · simp at h
  · rename_i w t hw
    split at h
    · rename_i hwv
      subst hwv
      have hl := hc1.s.vehs_link a w (by
        show w ∈ W.L.vehs a
        rw [hw]; simp)
      have := Prim.endTrip hl hw (by simp) h
      exact h1.tail (a := .endTrip w a) rfl this
    · simp only [Except.ok.injEq] at h; subst h; exact h1

theorem Chosen.of_choice {W W' : World} {v a} (ha : AtEnd W v a) (h : W.nextLinkChoice v = .ok W')
    (hm : W.V.dest v = some (W.L.endN a) → W.V.mode v = .taxi) : Chosen W' v (W'.L.endN a) := by
  obtain ⟨a', r, rnl, hl, rfl, hr⟩ := nextLinkChoice_ok h
  obtain rfl : a = a' := by
    have := ha.2.1; rw [hl] at this; simpa using this.symm
  unfold Chosen
  simp only [upd_same]
  rcases hr with ⟨-, h2, h3⟩ | ⟨rfl, h2⟩ | ⟨b, rfl, h2, h3⟩ | ⟨b, route, rfl, h2, h3, h4⟩
  · exact .inl ⟨h3, h2, hm h2⟩
  · exact .inr (.inl ⟨rfl, h2⟩)
  · exact .inr (.inr (.inl ⟨b, rfl, h2, h3⟩))
  · exact .inr (.inr (.inr ⟨b, route, rfl, h2, h3, h4⟩))

theorem atLinkEnd_star {W W' : World} {v : VehId} {a : LinkId} (hc : Core W) (ha : AtEnd W v a)
    (h : W.atLinkEnd v a = .ok W') : PStar (isAft v) W W' := by
  unfold atLinkEnd at h
  dsimp only at h
  split at h
  · rename_i hd
    split at h
    · rename_i hm
      exact waitEnd_star (W := W) W (act := .flagEnd v) rfl (.flagEnd ha hd hm) hc h
    · rename_i hm
      rw [bind_ok] at h
      obtain ⟨W1, h1, h⟩ := h
      rw [bind_ok] at h
      obtain ⟨W2, h2, h⟩ := h
      simp only [pure_ok] at h
      subst h
      have p1 : Prim (.nextDest v) W (W.nextDest v) := .nextDest ha hd hm
      have p2 := routing_pref h1
      obtain ⟨d, dl, hnd⟩ := nextDest_frame W v
      have ha1 : AtEnd (W.nextDest v) v a := by rw [hnd]; exact ha
      have ha2 := ha1.soft (routePref_soft h1)
      have hm1 : W1.V.mode v = .taxi := by
        rw [p2.static.mode, p1.static.mode]; exact hm
      have p3 : Prim (.choose v) W1 W2 := .choose ha2 h2 (fun _ => hm1)
        (fun hs => by rw [hm1] at hs; cases hs)
      have ha3 := ha2.choose h2
      have hm2 : W2.V.mode v = .taxi := by rw [p3.static.mode]; exact hm1
      have p4 : Prim (.pushInc (W2.L.endN a) v) W2 (W2.pushIncoming (W2.L.endN a) v) :=
        .pushInc ha3 (fun hs => by rw [hm2] at hs; cases hs) (.of_choice ha2 h2 (fun _ => hm1))
      have hE : W2.L.endN a = W.L.endN a := by
        rw [p3.static.endN, p2.static.endN, p1.static.endN]
      rw [← hE]
      exact (((PStar.one (A := isAft v) (a := .nextDest v) rfl p1).tail (a := .routing) trivial p2).tail
        (a := .choose v) rfl p3).tail (a := .pushInc _ v) rfl p4
  · rename_i hd
    split at h
    · rename_i ho
      exact waitEnd_star (act := .flagAbort v) W rfl (.flagAbort ha hd ho.1 ho.2) hc h
    · rename_i ho
      rw [bind_ok] at h
      obtain ⟨W2, h2, h⟩ := h
      simp only [pure_ok] at h
      subst h
      have hto : W.V.tripAbort v = true → W.N.outlinks (W.L.endN a) ≠ [] :=
        fun h1 h2 => ho ⟨h2, h1⟩
      have p3 : Prim (.choose v) W W2 := .choose ha h2 (fun h => absurd h hd)
        (fun _ => hto)
      have ha3 := ha.choose h2
      have hE : W2.L.endN a = W.L.endN a := by rw [p3.static.endN]
      have p4 : Prim (.pushInc (W2.L.endN a) v) W2 (W2.pushIncoming (W2.L.endN a) v) := by
        refine .pushInc ha3 (fun _ => ?_) (.of_choice ha h2 (fun h => absurd h hd))
        obtain ⟨a', r, rnl, hl, rfl, hr⟩ := nextLinkChoice_ok h2
        obtain rfl : a = a' := by
          have := ha.2.1; rw [hl] at this; simpa using this.symm
        refine ⟨hd, hto, ?_⟩
        simp only [upd_same]
        rcases hr with ⟨_, hr, _⟩ | ⟨hr, _⟩ | ⟨c, hr, hc, _⟩ | ⟨c, _, hr, hc, _⟩
        · exact absurd hr hd
        · exact .inl hr
        · exact .inr ⟨c, SInv.mem_nextCandidates hc, hr⟩
        · exact .inr ⟨c, hc, hr⟩
      rw [← hE]
      exact (PStar.one (A := isAft v) (a := .choose v) rfl p3).tail (a := .pushInc _ v) rfl p4

/-- `Vehicle.update`: log, possible home→wait, and, for a running vehicle, one movement followed by
link-end processing. -/
def UpdSpec (v : VehId) (W W' : World) : Prop :=
  ∃ W1, W1 = (W.recordLog v false).startWait v ∧
    Prim (.record v) W (W.recordLog v false) ∧ Prim (.startWait v) (W.recordLog v false) W1 ∧
    ((W1.V.state v ≠ .run ∧ (W' = W1 ∨ Prim .routing W1 W')) ∨
     (W1.V.state v = .run ∧ Prim (.advance v) W1 (W1.advance v) ∧
        PStar (isAft v) (W1.advance v) W'))

theorem vehUpdate_spec {W W' : World} {v : VehId} (hc : Core W) (hv : v ∈ W.living)
    (hi : ∀ n, v ∉ W.N.incoming n) (h : W.vehUpdate v = .ok W') : UpdSpec v W W' := by
  have p1 : Prim (.record v) W (W.recordLog v false) := .record hv
  have hv1 : v ∈ (W.recordLog v false).living := by
    obtain ⟨_, _, _, _, _, hr⟩ := recordLog_frame W v false
    rw [hr]; exact hv
  have p2 : Prim (.startWait v) (W.recordLog v false) ((W.recordLog v false).startWait v) :=
    .startWait hv1
  refine ⟨_, rfl, p1, p2, ?_⟩
  have hc2 := (hc.prim p1).prim p2
  unfold vehUpdate at h
  dsimp only at h
  have hlo : ((W.recordLog v false).startWait v).V.linkOld v =
      ((W.recordLog v false).startWait v).V.link v := by
    have h1 := recordLog_linkOld W v false
    obtain ⟨_, _, _, _, _, hr⟩ := recordLog_frame W v false
    have h3 : ((W.recordLog v false).startWait v).V.linkOld = (W.recordLog v false).V.linkOld := by
      unfold startWait; split <;> rfl
    have h4 : ((W.recordLog v false).startWait v).V.link = (W.recordLog v false).V.link := by
      unfold startWait; split <;> rfl
    rw [h3, h4, h1, hr]; simp
  have hinc : ∀ n, v ∉ ((W.recordLog v false).startWait v).N.incoming n := by
    intro n
    have h3 : ((W.recordLog v false).startWait v).N.incoming = (W.recordLog v false).N.incoming := by
      unfold startWait; split <;> rfl
    obtain ⟨_, _, _, _, _, hr⟩ := recordLog_frame W v false
    rw [h3, hr]; exact hi n
  generalize (W.recordLog v false).startWait v = W1 at *
  split at h
  · rename_i hs
    left
    refine ⟨by rw [hs]; decide, ?_⟩
    split at h
    · exact .inr (routing_pref h)
    · simp only [Except.ok.injEq] at h; exact .inl h.symm
  · rename_i hs
    right
    have p3 : Prim (.advance v) W1 (W1.advance v) := .advance hs hlo hinc
    refine ⟨hs, p3, ?_⟩
    have hc3 := hc2.prim p3
    unfold runUpdate at h
    dsimp only at h
    split at h
    · simp at h
    · rename_i a ha
      split at h
      · rename_i hx
        have hae : AtEnd (W1.advance v) v a := ⟨hs, ha, hx, by
          show W1.V.linkOld v = some a
          rw [hlo]; exact ha, hinc⟩
        -- events
        have hev : ∀ (e : Option TaxiEvent) (W2 : World),
            (W1.advance v).V.nodeEvent v ((W1.advance v).L.endN a) = e →
            (match e with | some e => (W1.advance v).runEvent e | none => pure (W1.advance v)) = .ok W2 →
            PStar (isAft v) (W1.advance v) W2 ∧ Soft (W1.advance v) W2 := by
          intro e W2 he h2
          cases e with
          | none => simp only [pure_ok] at h2; subst h2; exact ⟨PStar.refl, Soft.refl _⟩
          | some e =>
            exact ⟨PStar.one (a := .event v) rfl (.event hae he h2), runEvent_soft h2⟩
        have hgr : ∀ W2 W3 : World, (if W2.cfg.gradual then W2.routePrefUpdate v 1 else pure W2) = .ok W3 →
            PStar (isAft v) W2 W3 ∧ Soft W2 W3 := by
          intro W2 W3 h3
          split at h3
          · exact ⟨PStar.one (a := .routing) trivial (routing_pref h3), routePref_soft h3⟩
          · simp only [pure_ok] at h3; subst h3; exact ⟨PStar.refl, Soft.refl _⟩
        have hfin : ∀ W2 W3 : World, PStar (isAft v) (W1.advance v) W2 → Soft (W1.advance v) W2 →
            (if W2.cfg.gradual then W2.routePrefUpdate v 1 else pure W2) = .ok W3 →
            W3.atLinkEnd v a = .ok W' → PStar (isAft v) (W1.advance v) W' := by
          intro W2 W3 h1 h2 h3 h4
          obtain ⟨h5, h6⟩ := hgr _ _ h3
          exact (h1.trans h5).trans
            (atLinkEnd_star ((hc3.star h1).star h5) ((hae.soft h2).soft h6) h4)
        have hcomb : ∃ W2 W3 : World,
            (match (W1.advance v).V.nodeEvent v ((W1.advance v).L.endN a) with
              | some e => (W1.advance v).runEvent e | none => pure (W1.advance v)) = .ok W2 ∧
            (if W2.cfg.gradual then W2.routePrefUpdate v 1 else pure W2) = .ok W3 ∧
            W3.atLinkEnd v a = .ok W' := by
          cases he : (W1.advance v).V.nodeEvent v ((W1.advance v).L.endN a) with
          | none =>
            rw [he] at h
            dsimp only at h
            simp only [pure_bind] at h
            split at h
            · rename_i hg
              rw [bind_ok] at h
              obtain ⟨W3, h3, h4⟩ := h
              exact ⟨W1.advance v, W3, rfl, by rw [if_pos hg]; exact h3, h4⟩
            · rename_i hg
              exact ⟨W1.advance v, W1.advance v, rfl, by rw [if_neg hg]; rfl, by simpa using h⟩
          | some e =>
            rw [he] at h
            dsimp only at h
            rw [bind_ok] at h
            obtain ⟨W2, h2, h⟩ := h
            split at h
            · rename_i hg
              rw [bind_ok] at h
              obtain ⟨W3, h3, h4⟩ := h
              exact ⟨W2, W3, h2, by rw [if_pos hg]; exact h3, h4⟩
            · rename_i hg
              exact ⟨W2, W2, h2, by rw [if_neg hg]; rfl, by simpa using h⟩
        obtain ⟨W2, W3, h2, h3, h4⟩ := hcomb
        obtain ⟨h5, h6⟩ := hev _ W2 rfl h2
        exact hfin W2 W3 h5 h6 h3 h4
      · simp only [Except.ok.injEq] at h; subst h; exact PStar.refl
  · rename_i hs1 hs2
    simp only [Except.ok.injEq] at h
    exact .inl ⟨hs2, .inl h.symm⟩

/-- Everything `Vehicle.update` may do. -/
def isUpd (v : VehId) : Act → Prop
  | .record u => u = v | .startWait u => u = v | .advance u => u = v
  | .routing => True | .event u => u = v | .nextDest u => u = v | .flagEnd u => u = v
  | .flagAbort u => u = v | .choose u => u = v | .pushInc _ u => u = v | .endTrip u _ => u = v
  | _ => False

theorem isAft_upd {v : VehId} : ∀ a, isAft v a → isUpd v a := by
  intro a; cases a <;> simp [isAft, isUpd]

theorem UpdSpec.star {v : VehId} {W W' : World} (h : UpdSpec v W W') : PStar (isUpd v) W W' := by
  obtain ⟨W1, -, p1, p2, h⟩ := h
  have h1 := (PStar.one (A := isUpd v) (a := .record v) rfl p1).tail (a := .startWait v) rfl p2
  rcases h with ⟨_, rfl | h⟩ | ⟨_, h, h2⟩
  · exact h1
  · exact h1.tail (a := .routing) trivial h
  · exact (h1.tail (a := .advance v) rfl h).trans (h2.mono isAft_upd)

theorem isUpd_incoming {v : VehId} {W W' : World} (h : PStar (isUpd v) W W') :
    ∀ n u, u ∈ W'.N.incoming n → u ∈ W.N.incoming n ∨ u = v := by
  refine h.inv (P := fun W1 => ∀ n u, u ∈ W1.N.incoming n → u ∈ W.N.incoming n ∨ u = v) ?_
    (fun _ _ h => .inl h)
  intro a W1 W2 ha h1 hp n u hu
  cases hp with
  | linkTick => exact ha.elim
  | nodeTick => exact ha.elim
  | depart => exact ha.elim
  | move => exact ha.elim
  | clearInc => exact ha.elim
  | carfollow => exact ha.elim
  | endTrip _ _ _ he =>
    obtain ⟨l', hl', -, -, h1', h2, rfl⟩ := endTrip_ok he
    obtain ⟨_, _, _, _, _, hr⟩ := recordLog_frame (W1.endTripCore _ l') _ true
    rw [hr] at hu; exact h1 n u hu
  | record =>
    obtain ⟨_, _, _, _, _, hr⟩ := recordLog_frame W1 _ false
    rw [hr] at hu; exact h1 n u hu
  | startWait =>
    unfold startWait at hu; split at hu <;> exact h1 n u hu
  | advance => exact h1 n u hu
  | routing => exact h1 n u hu
  | event _ _ he =>
    obtain ⟨_, _, _, _, _, _, _, rfl, -⟩ := runEvent_soft he
    exact h1 n u hu
  | nextDest =>
    obtain ⟨_, _, hr⟩ := nextDest_frame W1 _
    rw [hr] at hu; exact h1 n u hu
  | flagEnd => exact h1 n u hu
  | flagAbort => exact h1 n u hu
  | choose _ hc =>
    obtain ⟨_, _, _, _, rfl, _⟩ := nextLinkChoice_ok hc
    exact h1 n u hu
  | pushInc =>
    obtain rfl := ha
    simp only [pushIncoming, upd_apply] at hu
    split at hu
    · rename_i he
      rw [List.mem_append] at hu
      rcases hu with hu | hu
      · exact h1 n u (he ▸ hu)
      · exact .inr (by simpa using hu)
    · exact h1 n u hu

/-- Loop rule with the processed prefix. -/
theorem foldlM_inv_pre {α σ : Type} {P : List α → σ → Prop} {f : σ → α → M σ} {l : List α}
    (hf : ∀ pre a post s s', l = pre ++ a :: post → P pre s → f s a = .ok s' → P (pre ++ [a]) s')
    {s s' : σ} (h0 : P [] s) (h : l.foldlM f s = .ok s') : P l s' := by
  have key : ∀ (post pre : List α) (s : σ), l = pre ++ post → P pre s → post.foldlM f s = .ok s' →
      P l s' := by
    intro post
    induction post with
    | nil => intro pre s hl hp h; simp at h; subst h; simpa [hl] using hp
    | cons a t ih =>
      intro pre s hl hp h
      rw [List.foldlM_cons, bind_ok] at h
      obtain ⟨s1, h1, h2⟩ := h
      exact ih (pre ++ [a]) s1 (by simp [hl]) (hf pre a t s s1 hl hp h1) h2
  exact key l [] s rfl h0 h

/-- Loop rule for the vehicle-update phase. -/
theorem updates_inv {P : List VehId → World → Prop} {W W' : World} (hc : Core W)
    (hi : ∀ n, W.N.incoming n = [])
    (hf : ∀ pre v W1 W2, v ∉ pre → v ∈ W.living → v ∈ W1.living → Core W1 →
      (∀ n, ∀ u ∈ W1.N.incoming n, u ∈ pre) → UpdSpec v W1 W2 → P pre W1 → P (pre ++ [v]) W2)
    (h0 : P [] W) (h : W.living.foldlM vehUpdateLiving W = .ok W') :
    P W.living W' ∧ Core W' ∧ Static W W' ∧ (∀ n, ∀ u ∈ W'.N.incoming n, u ∈ W.living) := by
  have hnd := hc.s.living_nodup
  refine foldlM_inv_pre (P := fun pre W1 => P pre W1 ∧ Core W1 ∧ Static W W1 ∧
    ∀ n, ∀ u ∈ W1.N.incoming n, u ∈ pre) ?_ ⟨h0, hc, Static.refl W, by simp [hi]⟩ h
  intro pre v post s s' hl ⟨h1, h2, h3, h4⟩ hfs
  unfold vehUpdateLiving at hfs
  split at hfs
  · rename_i hv
    have hvp : v ∉ pre := by
      rw [hl] at hnd
      intro hm
      exact (List.nodup_append.mp hnd).2.2 _ hm _ (by simp) rfl
    have hu := vehUpdate_spec h2 hv (fun n hn => hvp (h4 n v hn)) hfs
    have hs := hu.star
    refine ⟨hf pre v s s' hvp (by rw [hl]; simp) hv h2 h4 hu h1, h2.star hs, h3.trans hs.static, ?_⟩
    intro n u hu'
    rcases isUpd_incoming hs n u hu' with h | rfl
    · exact List.mem_append_left _ (h4 n u h)
    · simp
  · simp at hfs

/-- Everything that can happen in the update phase. -/
def isUpdAny (a : Act) : Prop := ∃ v, isUpd v a

theorem updates_star {W W' : World} (hc : Core W) (hi : ∀ n, W.N.incoming n = [])
    (h : W.living.foldlM vehUpdateLiving W = .ok W') : PStar isUpdAny W W' :=
  (updates_inv (P := fun _ W1 => PStar isUpdAny W W1) hc hi
    (fun _ v _ _ _ _ _ _ _ hu hP => hP.trans (hu.star.mono (fun _ h => ⟨v, h⟩))) PStar.refl h).1

def isRouting : Act → Prop | .routing => True | _ => False

theorem routeSearchAll_ok {W W' : World} (h : W.routeSearchAll = .ok W') :
    ∃ r R, W' = { W with rng := r, R := R } := by
  unfold routeSearchAll at h
  rw [bind_ok] at h
  obtain ⟨acc, _, h⟩ := h
  simp only [pure_ok] at h
  exact ⟨_, _, h.symm⟩

theorem routeStep_star {W W' : World} (h : W.routeStep = .ok W') : PStar isRouting W W' := by
  have hs : ∀ {W W' : World}, W.routeSearchAll = .ok W' → PStar isRouting W W' := by
    intro W W' h
    obtain ⟨r, R, rfl⟩ := routeSearchAll_ok h
    exact PStar.one (a := .routing) trivial (.routing (W := W) (rng := r) (R := R) (pref := W.V.pref))
  have hd : ∀ W : World, PStar isRouting W W.duoUpdate := fun W =>
    PStar.one (a := .routing) trivial (.routing (W := W) (rng := W.rng) (pref := W.V.pref))
  unfold routeStep at h
  split at h
  · dsimp only at h
    split at h
    · rw [bind_ok] at h
      obtain ⟨W1, h1, h⟩ := h
      simp only [pure_ok] at h
      subst h
      exact (hs h1).trans (hd W1)
    · simp only [pure_bind, pure_ok] at h
      subst h
      exact hd W
  · split at h
    · rw [bind_ok] at h
      obtain ⟨W1, h1, h⟩ := h
      refine ((hs h1).trans (hd W1)).trans ?_
      exact foldlM_inv (P := fun W2 => PStar isRouting W1.duoUpdate W2)
        (fun s a s' ha hs hfa => hs.tail (a := .routing) trivial (routing_pref hfa)) PStar.refl h
    · simp only [pure_ok] at h; subst h; exact PStar.refl

theorem isCf_incoming {W W' : World} (h : PStar isCf W W') : W'.N = W.N ∧ W'.L = W.L := by
  refine h.inv (P := fun W1 => W1.N = W.N ∧ W1.L = W.L) ?_ ⟨rfl, rfl⟩
  intro a W1 W2 ha h1 hp
  cases hp <;> simp only [isCf] at ha
  case carfollow h2 => obtain ⟨_, _, _, _, rfl, _⟩ := carfollow_ok h2; exact h1

/-- The phases of a time step. -/
structure Phases (W W1 W2 W3 W4 W5 W6 : World) : Prop where
  p1 : (List.range W.nLinks).foldlM linkUpdate W = .ok W1
  p2 : (List.range W1.nNodes).foldlM (fun W n => do (← W.generate n).nodeUpdate n) W1 = .ok W2
  p3 : (List.range W2.nNodes).foldlM transfer W2 = .ok W3
  p4 : W3.running.foldlM carfollow W3 = .ok W4
  p5 : W4.living.foldlM vehUpdateLiving W4 = .ok W5
  p6 : W5.routeStep = .ok W6
  s1 : PStar isLinkTick W W1
  s2 : PStar isGen W1 W2
  s3 : PStar isTrAny W2 W3
  s4 : PStar isCf W3 W4
  s5 : PStar isUpdAny W4 W5
  s6 : PStar isRouting W5 W6
  c1 : Core W1
  c2 : Core W2
  c3 : Core W3
  c4 : Core W4
  c5 : Core W5
  c6 : Core W6
  i3 : ∀ n, W3.N.incoming n = []
  i4 : ∀ n, W4.N.incoming n = []

theorem step_phases {W W' : World} (hc : Core W) (h : W.step = .ok W') :
    ∃ W1 W2 W3 W4 W5 W6, Phases W W1 W2 W3 W4 W5 W6 ∧ W' = { W6 with time := W6.now } := by
  unfold step at h
  rw [bind_ok] at h
  obtain ⟨W1, h1, h⟩ := h
  rw [bind_ok] at h
  obtain ⟨W2, h2, h⟩ := h
  rw [bind_ok] at h
  obtain ⟨W3, h3, h⟩ := h
  rw [bind_ok] at h
  obtain ⟨W4, h4, h⟩ := h
  rw [bind_ok] at h
  obtain ⟨W5, h5, h⟩ := h
  rw [bind_ok] at h
  obtain ⟨W6, h6, h⟩ := h
  simp only [pure_ok] at h
  have s1 := links_star h1
  have c1 := hc.star s1
  have s2 := gen_star h2
  have c2 := c1.star s2
  obtain ⟨s3, i3⟩ := transfers_star c2 h3
  have c3 := c2.star s3
  have s4 := cars_star h4
  have c4 := c3.star s4
  have i4 : ∀ n, W4.N.incoming n = [] := by
    intro n; rw [(isCf_incoming s4).1]; exact i3 n
  have s5 := updates_star c4 i4 h5
  have c5 := c4.star s5
  have s6 := routeStep_star h6
  exact ⟨W1, W2, W3, W4, W5, W6, ⟨h1, h2, h3, h4, h5, h6, s1, s2, s3, s4, s5, s6, c1, c2, c3, c4,
    c5, c5.star s6, i3, i4⟩, h.symm⟩

/-- The whole step as a sequence of primitives, up to `TIME`. -/
theorem step_star {W W' : World} (hc : Core W) (h : W.step = .ok W') :
    ∃ W6, PStar (fun _ => True) W W6 ∧ W' = { W6 with time := W6.now } := by
  obtain ⟨W1, W2, W3, W4, W5, W6, hp, rfl⟩ := step_phases hc h
  refine ⟨W6, ?_, rfl⟩
  have t : ∀ {A : Act → Prop} {W W'}, PStar A W W' → PStar (fun _ => True) W W' :=
    fun h => h.mono (fun _ _ => trivial)
  exact (((((t hp.s1).trans (t hp.s2)).trans (t hp.s3)).trans (t hp.s4)).trans (t hp.s5)).trans
    (t hp.s6)

end UX
