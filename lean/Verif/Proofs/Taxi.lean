import Verif.Proofs.Exec

/-! # Trip requests, taxi events and taxi destinations -/

namespace UX
open World

/-! ### Raw forms of the vehicle update -/

theorem runUpdate_ok {W W' : World} {v : VehId} (h : W.runUpdate v = .ok W') :
    ∃ a, (W.advance v).V.link v = some a ∧
      (((W.advance v).V.x v ≠ (W.advance v).L.length a ∧ W' = W.advance v) ∨
      ((W.advance v).V.x v = (W.advance v).L.length a ∧ ∃ W2 W3 : World,
            (match (W.advance v).V.nodeEvent v ((W.advance v).L.endN a) with
              | some e => (W.advance v).runEvent e | none => pure (W.advance v)) = .ok W2 ∧
            (if W2.cfg.gradual then W2.routePrefUpdate v 1 else pure W2) = .ok W3 ∧
            W3.atLinkEnd v a = .ok W')) := by
  unfold runUpdate at h
  dsimp only at h
  split at h
  · simp at h
  · rename_i a ha
    refine ⟨a, ha, ?_⟩
    split at h
    · rename_i hx
      refine .inr ⟨hx, ?_⟩
      cases he : (W.advance v).V.nodeEvent v ((W.advance v).L.endN a) with
      | none =>
        rw [he] at h
        dsimp only at h
        simp only [pure_bind] at h
        split at h
        · rename_i hg
          rw [bind_ok] at h
          obtain ⟨W3, h3, h4⟩ := h
          exact ⟨W.advance v, W3, rfl, by rw [if_pos hg]; exact h3, h4⟩
        · rename_i hg
          exact ⟨W.advance v, W.advance v, rfl, by rw [if_neg hg]; rfl, by simpa using h⟩
      | some e =>
        rw [he] at h
        dsimp only at h
        rw [bind_ok] at h
        obtain ⟨W2, h2, h⟩ := h
        split at h
        · rename_i hg
          rw [bind_ok] at h
          obtain ⟨W3, h3, h4⟩ := h
          exact ⟨W2, W3, h2, by rw [if_pos hg]; exact h3, h4⟩
        · rename_i hg
          exact ⟨W2, W2, h2, by rw [if_neg hg]; rfl, by simpa using h⟩
    · rename_i hx
      simp only [Except.ok.injEq] at h; exact .inl ⟨hx, h.symm⟩

/-- Loop rule for the vehicle-update phase, raw form. -/
theorem updates_inv' {P : List VehId → World → Prop} {W W' : World} (hc : Core W)
    (hi : ∀ n, W.N.incoming n = [])
    (hf : ∀ pre v W1 W2, v ∉ pre → v ∈ W.living → v ∈ W1.living → Core W1 →
      (∀ n, v ∉ W1.N.incoming n) → W1.vehUpdate v = .ok W2 → P pre W1 → P (pre ++ [v]) W2)
    (h0 : P [] W) (h : W.living.foldlM vehUpdateLiving W = .ok W') : P W.living W' := by
  have hnd := hc.s.living_nodup
  refine (foldlM_inv_pre (P := fun pre W1 => P pre W1 ∧ Core W1 ∧
    ∀ n, ∀ u ∈ W1.N.incoming n, u ∈ pre) ?_ ⟨h0, hc, by simp [hi]⟩ h).1
  intro pre v post s s' hl ⟨h1, h2, h4⟩ hfs
  unfold vehUpdateLiving at hfs
  split at hfs
  · rename_i hv
    have hvp : v ∉ pre := by
      rw [hl] at hnd
      intro hm
      exact (List.nodup_append.mp hnd).2.2 _ hm _ (by simp) rfl
    have hni : ∀ n, v ∉ s.N.incoming n := fun n hn => hvp (h4 n v hn)
    have hs := (vehUpdate_spec h2 hv hni hfs).star
    refine ⟨hf pre v s s' hvp (by rw [hl]; simp) hv h2 hni hfs h1, h2.star hs, ?_⟩
    intro n u hu'
    rcases isUpd_incoming hs n u hu' with h | rfl
    · exact List.mem_append_left _ (h4 n u h)
    · simp
  · simp at hfs

/-! ### Taxi data -/

/-- The request an event belongs to. -/
def TaxiEvent.req : TaxiEvent → ReqId | .getOn r => r | .arrive r => r

/-- The parts of a world that matter for trip requests are equal. -/
structure TSame (W W' : World) : Prop where
  H : W'.H = W.H
  ev : W'.V.nodeEvent = W.V.nodeEvent
  dest : W'.V.dest = W.V.dest
  dl : W'.V.destList = W.V.destList
  mode : W'.V.mode = W.V.mode
  nVeh : W'.nVeh = W.nVeh
  time : W'.time = W.time

theorem TSame.refl (W : World) : TSame W W := by constructor <;> rfl

theorem TSame.trans {W1 W2 W3 : World} (h1 : TSame W1 W2) (h2 : TSame W2 W3) : TSame W1 W3 := by
  cases h1; cases h2; constructor <;> (apply Eq.trans <;> assumption)

/-- Acts that do not touch taxi data. -/
def isPlain : Act → Prop | .event _ => False | .nextDest _ => False | _ => True

theorem Prim.tsame {a : Act} {W W' : World} (hc : Core W) (ha : isPlain a) (hp : Prim a W W') :
    TSame W W' := by
  have hs := hp.shape hc.s
  clear hp
  cases hs with
  | event => exact ha.elim
  | nextDest => exact ha.elim
  | _ => exact ⟨rfl, rfl, rfl, rfl, rfl, rfl, rfl⟩

theorem PStar.tsame {A : Act → Prop} {W W' : World} (hA : ∀ a, A a → isPlain a) (hc : Core W)
    (h : PStar A W W') : TSame W W' :=
  PStar.inv_core (P := TSame W) (fun a _ _ ha hc hp h => h.trans (hp.tsame hc (hA a ha))) h hc (TSame.refl W)

/-- Invariant of trip requests. -/
structure TaxiInv (W : World) : Prop where
  nodup : W.H.pending.Nodup
  pend : ∀ r ∈ W.H.pending, r < W.H.nReq ∧ W.H.taxi r = none
  assigned : ∀ r, r < W.H.nReq → r ∉ W.H.pending → ∃ v, W.H.taxi r = some v
  taxi : ∀ r v, W.H.taxi r = some v → r < W.H.nReq ∧ v < W.nVeh ∧ W.V.mode v = .taxi
  got : ∀ r, W.H.getTaxiTime r ≠ none → W.H.taxi r ≠ none
  arr : ∀ r, W.H.arrivalTime r ≠ none → W.H.getTaxiTime r ≠ none
  on : ∀ v n r, W.V.nodeEvent v n = some (.getOn r) →
    W.H.taxi r = some v ∧ n = W.H.orig r ∧ W.H.getTaxiTime r = none
  off : ∀ v n r, W.V.nodeEvent v n = some (.arrive r) →
    W.H.taxi r = some v ∧ n = W.H.dest r ∧ W.H.getTaxiTime r ≠ none ∧ W.H.arrivalTime r = none
  todo : ∀ v n, W.V.nodeEvent v n ≠ none → W.V.dest v = some n ∨ n ∈ W.V.destList v
  idle : ∀ v, W.V.mode v = .taxi → W.V.dest v = none → W.V.destList v = []

namespace TaxiInv

theorem same {W W' : World} (h : TaxiInv W) (hs : TSame W W') : TaxiInv W' := by
  obtain ⟨e1, e2, e3, e4, e5, e6, e7⟩ := hs
  cases h
  constructor
  all_goals simp only [e1, e2, e3, e4, e5, e6]
  all_goals assumption

/-- What `add_dest` does. -/
theorem addDest_effect {W W' : World} {v d k} (h : W.addDest v d k = .ok W') :
    W.V.mode v = .taxi ∧ W'.H = W.H ∧ W'.V.nodeEvent = W.V.nodeEvent ∧ W'.V.mode = W.V.mode ∧
    W'.nVeh = W.nVeh ∧ W'.time = W.time ∧
    (∀ u, u ≠ v → W'.V.dest u = W.V.dest u ∧ W'.V.destList u = W.V.destList u) ∧
    (∀ n, n = d ∨ W.V.dest v = some n ∨ n ∈ W.V.destList v →
      W'.V.dest v = some n ∨ n ∈ W'.V.destList v) ∧ W'.V.dest v ≠ none := by
  unfold addDest at h
  split at h
  · simp at h
  · rename_i hm
    refine ⟨hm, ?_⟩
    split at h
    · rename_i hd
      obtain ⟨pref, rfl⟩ := routePrefUpdate_ok h
      refine ⟨rfl, rfl, rfl, rfl, rfl, fun u hu => ⟨upd_ne _ _ hu, rfl⟩, ?_, by simp⟩
      rintro n (rfl | h | h)
      · simp
      · rw [hd] at h; cases h
      · exact .inr h
    · rename_i d' hd
      dsimp only at h
      simp only [Except.ok.injEq] at h
      subst h
      refine ⟨rfl, rfl, rfl, rfl, rfl, fun u hu => ⟨rfl, upd_ne _ _ hu⟩, ?_, by simp [hd]⟩
      rintro n (rfl | h | h)
      · right; simp only [upd_same]
        cases k <;> simp
      · exact .inl h
      · right; simp only [upd_same]
        cases k with
        | none => exact List.mem_append_left _ h
        | some k =>
          have := List.take_append_drop k (W.V.destList v)
          rw [← this, List.mem_append] at h
          rw [List.mem_append, List.mem_cons]
          rcases h with h | h
          · exact .inl h
          · exact .inr (.inr h)

theorem addDest {W W' : World} (h : TaxiInv W) {v d k} (ha : W.addDest v d k = .ok W') : TaxiInv W' := by
  obtain ⟨a1, a2, a3, a4, a5, a6, a7, a8, a9⟩ := addDest_effect ha
  cases h
  constructor
  all_goals simp only [a2, a3, a4, a5]
  all_goals try assumption
  · rename_i todo idle
    intro u n hn
    by_cases e : u = v
    · subst e; exact a8 n (.inr (todo u n hn))
    · rw [(a7 u e).1, (a7 u e).2]; exact todo u n hn
  · rename_i todo idle
    intro u hm hd
    by_cases e : u = v
    · subst e; exact absurd hd a9
    · rw [(a7 u e).1] at hd; rw [(a7 u e).2]; exact idle u hm hd

theorem assignTaxi {W W' : World} (h : TaxiInv W) {v r} (hv : v < W.nVeh) (ha : W.assignTaxi v r = .ok W') :
    TaxiInv W' := by
  unfold World.assignTaxi at ha
  split at ha
  · simp at ha
  · rename_i hr
    rw [bind_ok] at ha
    obtain ⟨W1, h1, ha⟩ := ha
    simp only [pure_ok] at ha
    have hi := h.addDest h1
    obtain ⟨a1, a2, a3, a4, a5, a6, a7, a8, a9⟩ := addDest_effect h1
    have hr' : r ∈ W1.H.pending := by rw [a2]; simpa using hr
    have hd : W1.V.dest v = some (W1.H.orig r) ∨ W1.H.orig r ∈ W1.V.destList v := by
      rw [a2] at *; exact a8 _ (.inl rfl)
    have hv1 : v < W1.nVeh := by rw [a5]; exact hv
    have hm1 : W1.V.mode v = .taxi := by rw [a4]; exact a1
    clear a1 a2 a3 a4 a5 a6 a7 a8 a9 h1 hr hv h
    obtain ⟨nd, pend, asg, taxi, got, arr, on, off, todo, idle⟩ := hi
    have hrn := pend r hr'
    subst ha
    constructor
    · exact nd.erase r
    · intro s hs
      have hne : s ≠ r := by rintro rfl; exact nd.not_mem_erase hs
      have := pend s (List.mem_of_mem_erase hs)
      exact ⟨this.1, by show upd W1.H.taxi r (some v) s = none; rw [upd_ne _ _ hne]; exact this.2⟩
    · intro s hs hn
      by_cases e : s = r
      · subst e; exact ⟨v, upd_same _ _ _⟩
      · show ∃ u, upd W1.H.taxi r (some v) s = some u
        rw [upd_ne _ _ e]
        refine asg s hs (fun hp => hn ?_)
        exact (List.mem_erase_of_ne e).2 hp
    · intro s u hs
      have hs' : upd W1.H.taxi r (some v) s = some u := hs
      by_cases e : s = r
      · subst e; rw [upd_same] at hs'; cases hs'; exact ⟨hrn.1, hv1, hm1⟩
      · rw [upd_ne _ _ e] at hs'; exact taxi s u hs'
    · intro s hs
      show upd W1.H.taxi r (some v) s ≠ none
      by_cases e : s = r
      · subst e; rw [upd_same]; simp
      · rw [upd_ne _ _ e]; exact got s hs
    · exact arr
    · intro u n s hs
      have hs' : upd W1.V.nodeEvent v (upd (W1.V.nodeEvent v) (W1.H.orig r) (some (.getOn r))) u n =
        some (.getOn s) := hs
      have old : W1.V.nodeEvent u n = some (.getOn s) → upd W1.H.taxi r (some v) s = some u ∧
          n = W1.H.orig s ∧ W1.H.getTaxiTime s = none := by
        intro hs
        obtain ⟨b1, b2⟩ := on u n s hs
        have : s ≠ r := by rintro rfl; rw [hrn.2] at b1; cases b1
        rw [upd_ne _ _ this]; exact ⟨b1, b2⟩
      show upd W1.H.taxi r (some v) s = some u ∧ n = W1.H.orig s ∧ W1.H.getTaxiTime s = none
      by_cases e : u = v
      · subst e
        rw [upd_same] at hs'
        by_cases e2 : n = W1.H.orig r
        · subst e2
          rw [upd_same] at hs'
          cases hs'
          refine ⟨upd_same _ _ _, rfl, ?_⟩
          by_contra hg
          exact got r hg hrn.2
        · rw [upd_ne _ _ e2] at hs'; exact old hs'
      · rw [upd_ne _ _ e] at hs'; exact old hs'
    · intro u n s hs
      have hs' : upd W1.V.nodeEvent v (upd (W1.V.nodeEvent v) (W1.H.orig r) (some (.getOn r))) u n =
        some (.arrive s) := hs
      have old : W1.V.nodeEvent u n = some (.arrive s) → upd W1.H.taxi r (some v) s = some u ∧
          n = W1.H.dest s ∧ W1.H.getTaxiTime s ≠ none ∧ W1.H.arrivalTime s = none := by
        intro hs
        obtain ⟨b1, b2⟩ := off u n s hs
        have : s ≠ r := by rintro rfl; rw [hrn.2] at b1; cases b1
        rw [upd_ne _ _ this]; exact ⟨b1, b2⟩
      show upd W1.H.taxi r (some v) s = some u ∧
          n = W1.H.dest s ∧ W1.H.getTaxiTime s ≠ none ∧ W1.H.arrivalTime s = none
      by_cases e : u = v
      · subst e
        rw [upd_same] at hs'
        by_cases e2 : n = W1.H.orig r
        · subst e2
          rw [upd_same] at hs'
          cases hs'
        · rw [upd_ne _ _ e2] at hs'; exact old hs'
      · rw [upd_ne _ _ e] at hs'; exact old hs'
    · intro u n hs
      have hs' : upd W1.V.nodeEvent v (upd (W1.V.nodeEvent v) (W1.H.orig r) (some (.getOn r))) u n ≠
        none := hs
      show W1.V.dest u = some n ∨ n ∈ W1.V.destList u
      by_cases e : u = v
      · subst e
        rw [upd_same] at hs'
        by_cases e2 : n = W1.H.orig r
        · subst e2; exact hd
        · rw [upd_ne _ _ e2] at hs'; exact todo u n hs'
      · rw [upd_ne _ _ e] at hs'; exact todo u n hs'
    · exact idle

theorem addTripRequest {W W' : World} (h : TaxiInv W) {o d t} (ha : W.addTripRequest o d t = .ok W') :
    TaxiInv W' := by
  unfold World.addTripRequest at ha
  rw [bind_ok] at ha
  obtain ⟨o', _, ha⟩ := ha
  rw [bind_ok] at ha
  obtain ⟨d', _, ha⟩ := ha
  simp only [pure_ok] at ha
  obtain ⟨nd, pend, asg, taxi, got, arr, on, off, todo, idle⟩ := h
  have hnp : W.H.nReq ∉ W.H.pending := fun hp => (lt_irrefl _ (pend _ hp).1)
  have hnt : W.H.taxi W.H.nReq = none := by
    cases e : W.H.taxi W.H.nReq with
    | none => rfl
    | some v => exact absurd (taxi _ v e).1 (lt_irrefl _)
  subst ha
  constructor
  all_goals dsimp only
  · rw [List.nodup_append]
    exact ⟨nd, by simp, by rintro a ha b hb rfl; simp at hb; subst hb; exact hnp ha⟩
  · intro r hr
    rw [List.mem_append] at hr
    by_cases e : r = W.H.nReq
    · subst e; rw [upd_same]; exact ⟨Nat.lt_succ_self _, rfl⟩
    · rw [upd_ne _ _ e]
      have := pend r (hr.resolve_right (by simpa using e))
      exact ⟨Nat.lt_succ_of_lt this.1, this.2⟩
  · intro r hr hn
    rw [List.mem_append] at hn
    have e : r ≠ W.H.nReq := fun e => hn (.inr (by simp [e]))
    rw [upd_ne _ _ e]
    exact asg r (Nat.lt_of_le_of_ne (Nat.le_of_lt_succ hr) e) (fun h => hn (.inl h))
  · intro r v hr
    by_cases e : r = W.H.nReq
    · subst e; rw [upd_same] at hr; cases hr
    · rw [upd_ne _ _ e] at hr
      have := taxi r v hr
      exact ⟨Nat.lt_succ_of_lt this.1, this.2⟩
  · intro r hr
    by_cases e : r = W.H.nReq
    · subst e; rw [upd_same] at hr; exact absurd rfl hr
    · rw [upd_ne _ _ e] at hr ⊢; exact got r hr
  · intro r hr
    by_cases e : r = W.H.nReq
    · subst e; rw [upd_same] at hr; exact absurd rfl hr
    · rw [upd_ne _ _ e] at hr ⊢; exact arr r hr
  · intro v n r hr
    obtain ⟨b1, b2⟩ := on v n r hr
    have e : r ≠ W.H.nReq := by rintro rfl; rw [hnt] at b1; cases b1
    rw [upd_ne _ _ e, upd_ne _ _ e, upd_ne _ _ e]; exact ⟨b1, b2⟩
  · intro v n r hr
    obtain ⟨b1, b2⟩ := off v n r hr
    have e : r ≠ W.H.nReq := by rintro rfl; rw [hnt] at b1; cases b1
    rw [upd_ne _ _ e, upd_ne _ _ e, upd_ne _ _ e, upd_ne _ _ e]; exact ⟨b1, b2⟩
  · exact todo
  · exact idle

/-- An executed event of `v` at `n`. -/
theorem runEvent {W W' : World} (h : TaxiInv W) {v n e} (he : W.V.nodeEvent v n = some e)
    (ha : W.runEvent e = .ok W') : TaxiInv W' ∧ W'.V.nodeEvent v n = none ∧
      W'.H.taxi = W.H.taxi ∧ W'.H.pending = W.H.pending ∧ W'.H.nReq = W.H.nReq := by
  cases e with
  | getOn r =>
    obtain ⟨e1, e2, e3⟩ := h.on v n r he
    simp only [World.runEvent, e1] at ha
    rw [bind_ok] at ha
    obtain ⟨W1, h1, ha⟩ := ha
    split at ha
    · simp [bind, Except.bind, throw, throwThe, MonadExceptOf.throw] at ha
    · simp only [pure_ok] at ha
      have hi := h.addDest h1
      obtain ⟨a1, a2, a3, a4, a5, a6, a7, a8, a9⟩ := addDest_effect h1
      have hd : W1.V.dest v = some (W1.H.dest r) ∨ W1.H.dest r ∈ W1.V.destList v := by
        rw [a2] at *; exact a8 _ (.inl rfl)
      have he1 : W1.V.nodeEvent v n = some (.getOn r) := by rw [a3]; exact he
      have hn : n = W1.H.orig r := by rw [a2]; exact e2
      have ht : W1.H.taxi r = some v := by rw [a2]; exact e1
      have hg : W1.H.getTaxiTime r = none := by rw [a2]; exact e3
      rw [← a2]
      clear a1 a2 a3 a4 a5 a6 a7 a8 a9 h1 h he e1 e2 e3
      obtain ⟨nd, pend, asg, taxi, got, arr, on, off, todo, idle⟩ := hi
      have harr : W1.H.arrivalTime r = none := by
        by_contra hh; exact arr r hh hg
      have hev : ∀ u m, W'.V.nodeEvent u m = if u = v ∧ m = n then none else
          if u = v ∧ m = W1.H.dest r then some (.arrive r) else W1.V.nodeEvent u m := by
        intro u m
        subst ha
        simp only [setEvent, upd_same, ← hn, upd_apply]
        by_cases e : u = v
        · subst e; by_cases e : m = n <;> simp [e, upd_apply]
        · simp [e]
      have hH : W'.H = { W1.H with getTaxiTime := upd W1.H.getTaxiTime r (some W1.time) } := by
        subst ha; rfl
      have hV : W'.V.dest = W1.V.dest ∧ W'.V.destList = W1.V.destList ∧ W'.V.mode = W1.V.mode ∧
        W'.nVeh = W1.nVeh := by subst ha; exact ⟨rfl, rfl, rfl, rfl⟩
      clear ha
      refine ⟨?_, by rw [hev]; simp, by rw [hH], by rw [hH], by rw [hH]⟩
      constructor
      · rw [hH]; exact nd
      · rw [hH]; exact pend
      · rw [hH]; exact asg
      · rw [hH, hV.2.2.1, hV.2.2.2]; exact taxi
      · rw [hH]
        intro s hs
        dsimp only at hs ⊢
        by_cases e : s = r
        · subst e; rw [ht]; simp
        · rw [upd_ne _ _ e] at hs; exact got s hs
      · rw [hH]
        intro s hs
        dsimp only at hs ⊢
        by_cases e : s = r
        · subst e; rw [upd_same]; simp
        · rw [upd_ne _ _ e]; exact arr s hs
      · rw [hH]
        intro u m s hs
        rw [hev] at hs
        dsimp only
        split at hs
        · cases hs
        · rename_i e
          split at hs
          · cases hs
          · obtain ⟨b1, b2, b3⟩ := on u m s hs
            have : s ≠ r := by
              rintro rfl
              rw [ht] at b1; cases b1
              exact e ⟨rfl, by rw [b2, hn]⟩
            rw [upd_ne _ _ this]; exact ⟨b1, b2, b3⟩
      · rw [hH]
        intro u m s hs
        rw [hev] at hs
        dsimp only
        split at hs
        · cases hs
        · split at hs
          · rename_i e2
            cases hs
            rw [upd_same, e2.1, e2.2]
            exact ⟨ht, rfl, by simp, harr⟩
          · obtain ⟨b1, b2, b3⟩ := off u m s hs
            have : s ≠ r := by rintro rfl; exact b3.1 hg
            rw [upd_ne _ _ this]; exact ⟨b1, b2, b3⟩
      · rw [hV.1, hV.2.1]
        intro u m hs
        rw [hev] at hs
        split at hs
        · exact absurd rfl hs
        · split at hs
          · rename_i e2; rw [e2.1, e2.2]; exact hd
          · exact todo u m hs
      · rw [hV.1, hV.2.1, hV.2.2.1]; exact idle
  | arrive r =>
    obtain ⟨e1, e2, e3, e4⟩ := h.off v n r he
    simp only [World.runEvent, e1] at ha
    split at ha
    · simp [bind, Except.bind, throw, throwThe, MonadExceptOf.throw] at ha
    · simp only [pure_ok] at ha
      obtain ⟨nd, pend, asg, taxi, got, arr, on, off, todo, idle⟩ := h
      have hev : ∀ u m, W'.V.nodeEvent u m = if u = v ∧ m = n then none else W.V.nodeEvent u m := by
        intro u m
        subst ha
        simp only [setEvent, ← e2, upd_apply]
        by_cases e : u = v
        · subst e; by_cases e : m = n <;> simp [e, upd_apply]
        · simp [e]
      have hH : W'.H = { W.H with arrivalTime := upd W.H.arrivalTime r (some W.time) } := by
        subst ha; rfl
      have hV : W'.V.dest = W.V.dest ∧ W'.V.destList = W.V.destList ∧ W'.V.mode = W.V.mode ∧
        W'.nVeh = W.nVeh := by subst ha; exact ⟨rfl, rfl, rfl, rfl⟩
      clear ha
      refine ⟨?_, by rw [hev]; simp, by rw [hH], by rw [hH], by rw [hH]⟩
      constructor
      · rw [hH]; exact nd
      · rw [hH]; exact pend
      · rw [hH]; exact asg
      · rw [hH, hV.2.2.1, hV.2.2.2]; exact taxi
      · rw [hH]; exact got
      · rw [hH]
        intro s hs
        dsimp only at hs ⊢
        by_cases e : s = r
        · subst e; exact e3
        · rw [upd_ne _ _ e] at hs; exact arr s hs
      · rw [hH]
        intro u m s hs
        rw [hev] at hs
        split at hs
        · cases hs
        · exact on u m s hs
      · rw [hH]
        intro u m s hs
        rw [hev] at hs
        dsimp only
        split at hs
        · cases hs
        · rename_i e
          obtain ⟨b1, b2, b3⟩ := off u m s hs
          have : s ≠ r := by
            rintro rfl
            rw [e1] at b1; cases b1
            exact e ⟨rfl, by rw [b2, e2]⟩
          rw [upd_ne _ _ this]; exact ⟨b1, b2, b3⟩
      · rw [hV.1, hV.2.1]
        intro u m hs
        rw [hev] at hs
        split at hs
        · exact absurd rfl hs
        · exact todo u m hs
      · rw [hV.1, hV.2.1, hV.2.2.1]; exact idle

theorem nextDest {W : World} (h : TaxiInv W) {v n} (hd : W.V.dest v = some n)
    (he : W.V.nodeEvent v n = none) : TaxiInv (W.nextDest v) := by
  obtain ⟨nd, pend, asg, taxi, got, arr, on, off, todo, idle⟩ := h
  have key : ∀ d dl, (W.V.destList v = [] ∧ d = none ∧ dl = [] ∨
      ∃ a, W.V.destList v = a :: dl ∧ d = some a) →
      TaxiInv { W with V := { W.V with dest := upd W.V.dest v d, destList := upd W.V.destList v dl } } := by
    intro d dl hcase
    constructor
    all_goals dsimp only
    all_goals try assumption
    · intro u m hm
      by_cases e : u = v
      · subst e
        rw [upd_same, upd_same]
        rcases todo u m hm with h | h
        · rw [hd] at h; cases h; exact absurd he hm
        · rcases hcase with ⟨h1, -, -⟩ | ⟨a, h1, rfl⟩
          · rw [h1] at h; cases h
          · rw [h1, List.mem_cons] at h
            exact h.imp (fun h => by rw [h]) id
      · rw [upd_ne _ _ e, upd_ne _ _ e]; exact todo u m hm
    · intro u hm hu
      by_cases e : u = v
      · subst e
        rw [upd_same] at hu ⊢
        rcases hcase with ⟨-, -, h1⟩ | ⟨a, h1, rfl⟩
        · exact h1
        · cases hu
      · rw [upd_ne _ _ e] at hu ⊢; exact idle u hm hu
  unfold World.nextDest
  split
  · rename_i d ds h; exact key _ _ (.inr ⟨d, h, rfl⟩)
  · rename_i h; exact key _ _ (.inl ⟨h, rfl, rfl⟩)

/-- Everything that happens at the end of a link when no event is left there. -/
theorem atLinkEnd {W W' : World} (h : TaxiInv W) {v a} (hc : Core W) (ha : AtEnd W v a)
    (he : W.V.nodeEvent v (W.L.endN a) = none) (hr : W.atLinkEnd v a = .ok W') :
    TaxiInv W' ∧ W'.H = W.H ∧ W'.V.nodeEvent = W.V.nodeEvent := by
  unfold World.atLinkEnd at hr
  dsimp only at hr
  have plain : ∀ {W1 W2 : World}, PStar (isAft v) W1 W2 → (∀ a, isAft v a → isPlain a) → Core W1 →
      TSame W1 W2 := fun h1 h2 h3 => h1.tsame h2 h3
  split at hr
  · rename_i hd
    split at hr
    · rename_i hm
      have e1 : TSame W { W with V := { W.V with flagEnd := upd W.V.flagEnd v true } } :=
        ⟨rfl, rfl, rfl, rfl, rfl, rfl, rfl⟩
      have e2 : TSame W W' := by
        have p0 : Prim (.flagEnd v) W { W with V := { W.V with flagEnd := upd W.V.flagEnd v true } } :=
          .flagEnd ha hd hm
        unfold waitEnd at hr
        dsimp only at hr
        split at hr
        · simp at hr
        · rename_i w t hw
          split at hr
          · rename_i hwv
            subst hwv
            have hl := (hc.prim p0).s.vehs_link a w (by
              show w ∈ W.L.vehs a
              rw [hw]; simp)
            exact e1.trans ((Prim.endTrip hl hw (by simp) hr).tsame (a := .endTrip w a) (hc.prim p0) trivial)
          · simp only [Except.ok.injEq] at hr; subst hr; exact e1
      exact ⟨h.same e2, e2.H, e2.ev⟩
    · rename_i hm
      rw [bind_ok] at hr
      obtain ⟨W1, h1, hr⟩ := hr
      rw [bind_ok] at hr
      obtain ⟨W2, h2, hr⟩ := hr
      simp only [pure_ok] at hr
      have hn := h.nextDest hd he
      obtain ⟨p, rfl⟩ := routePrefUpdate_ok h1
      obtain ⟨_, _, _, -, rfl, -⟩ := nextLinkChoice_ok h2
      obtain ⟨d, dl, hf⟩ := nextDest_frame W v
      subst hr
      refine ⟨hn.same ⟨rfl, rfl, rfl, rfl, rfl, rfl, rfl⟩, ?_, ?_⟩
      · rw [hf]; rfl
      · rw [hf]; rfl
  · rename_i hd
    split at hr
    · rename_i ho
      have e1 : TSame W { W with V := { W.V with
            flagAborted := upd W.V.flagAborted v true, rnl := upd W.V.rnl v .none,
            flagEnd := upd W.V.flagEnd v true } } :=
        ⟨rfl, rfl, rfl, rfl, rfl, rfl, rfl⟩
      have e2 : TSame W W' := by
        have p0 : Prim (.flagAbort v) W { W with V := { W.V with
            flagAborted := upd W.V.flagAborted v true, rnl := upd W.V.rnl v .none,
            flagEnd := upd W.V.flagEnd v true } } :=
          .flagAbort ha hd ho.1 ho.2
        unfold waitEnd at hr
        dsimp only at hr
        split at hr
        · simp at hr
        · rename_i w t hw
          split at hr
          · rename_i hwv
            subst hwv
            have hl := (hc.prim p0).s.vehs_link a w (by
              show w ∈ W.L.vehs a
              rw [hw]; simp)
            exact e1.trans ((Prim.endTrip hl hw (by simp) hr).tsame (a := .endTrip w a) (hc.prim p0) trivial)
          · simp only [Except.ok.injEq] at hr; subst hr; exact e1
      exact ⟨h.same e2, e2.H, e2.ev⟩
    · rw [bind_ok] at hr
      obtain ⟨W2, h2, hr⟩ := hr
      simp only [pure_ok] at hr
      obtain ⟨_, _, _, -, rfl, -⟩ := nextLinkChoice_ok h2
      subst hr
      exact ⟨h.same ⟨rfl, rfl, rfl, rfl, rfl, rfl, rfl⟩, rfl, rfl⟩

theorem recordLog_same (W : World) (v : VehId) (b : Bool) : TSame W (W.recordLog v b) := by
  obtain ⟨_, _, _, _, _, hr⟩ := recordLog_frame W v b
  rw [hr]; exact ⟨rfl, rfl, rfl, rfl, rfl, rfl, rfl⟩

theorem startWait_same (W : World) (v : VehId) : TSame W (W.startWait v) := by
  unfold startWait; split <;> exact ⟨rfl, rfl, rfl, rfl, rfl, rfl, rfl⟩

theorem routePref_same {W W' : World} {v q} (h : W.routePrefUpdate v q = .ok W') : TSame W W' := by
  obtain ⟨p, rfl⟩ := routePrefUpdate_ok h; exact ⟨rfl, rfl, rfl, rfl, rfl, rfl, rfl⟩

end TaxiInv

/-- Effect of `Vehicle.update` on taxi data: nothing; or an event of this vehicle at the end `n` of its
link; in either case `atLinkEnd` may follow. -/
structure UpdTaxi (v : VehId) (W W' : World) : Prop where
  cases : TSame W W' ∨ ∃ (W1 W2 W3 : World) (a : LinkId), TSame W W1 ∧ AtEnd W1 v a ∧ Core W1 ∧
    ((W1.V.nodeEvent v (W1.L.endN a) = none ∧ W2 = W1) ∨
      ∃ e, W1.V.nodeEvent v (W1.L.endN a) = some e ∧ W1.runEvent e = .ok W2) ∧
    TSame W2 W3 ∧ AtEnd W3 v a ∧ Core W3 ∧ W3.L.endN a = W1.L.endN a ∧ W3.atLinkEnd v a = .ok W'

theorem vehUpdate_taxi {W W' : World} {v : VehId} (hc : Core W) (hv : v ∈ W.living)
    (hi : ∀ n, v ∉ W.N.incoming n) (h : W.vehUpdate v = .ok W') : UpdTaxi v W W' := by
  refine ⟨?_⟩
  have p1 : Prim (.record v) W (W.recordLog v false) := .record hv
  have hv1 : v ∈ (W.recordLog v false).living := by
    obtain ⟨_, _, _, _, _, hr⟩ := recordLog_frame W v false
    rw [hr]; exact hv
  have p2 : Prim (.startWait v) (W.recordLog v false) ((W.recordLog v false).startWait v) :=
    .startWait hv1
  have hc2 := (hc.prim p1).prim p2
  unfold vehUpdate at h
  dsimp only at h
  have hlo : ((W.recordLog v false).startWait v).V.linkOld v =
      ((W.recordLog v false).startWait v).V.link v := by
    have h1 := recordLog_linkOld W v false
    obtain ⟨_, _, _, _, _, hr⟩ := recordLog_frame W v false
    have h3 : ((W.recordLog v false).startWait v).V.linkOld = (W.recordLog v false).V.linkOld := by
      unfold startWait; split <;> rfl
    have h4 : ((W.recordLog v false).startWait v).V.link = (W.recordLog v false).V.link := by
      unfold startWait; split <;> rfl
    rw [h3, h4, h1, hr]; simp
  have hinc : ∀ n, v ∉ ((W.recordLog v false).startWait v).N.incoming n := by
    intro n
    have h3 : ((W.recordLog v false).startWait v).N.incoming = (W.recordLog v false).N.incoming := by
      unfold startWait; split <;> rfl
    obtain ⟨_, _, _, _, _, hr⟩ := recordLog_frame W v false
    rw [h3, hr]; exact hi n
  have hsame : TSame W ((W.recordLog v false).startWait v) :=
    (TaxiInv.recordLog_same _ _ _).trans (TaxiInv.startWait_same _ _)
  generalize (W.recordLog v false).startWait v = W1 at *
  split at h
  · left
    split at h
    · exact hsame.trans (TaxiInv.routePref_same h)
    · simp only [Except.ok.injEq] at h; subst h; exact hsame
  · rename_i hs
    have p3 : Prim (.advance v) W1 (W1.advance v) := .advance hs hlo hinc
    have hc3 := hc2.prim p3
    have hsame' : TSame W (W1.advance v) := hsame.trans ⟨rfl, rfl, rfl, rfl, rfl, rfl, rfl⟩
    obtain ⟨a, ha, ⟨hx, rfl⟩ | ⟨hx, W2, W3, h2, h3, h4⟩⟩ := runUpdate_ok h
    · exact .inl hsame'
    · right
      have hae : AtEnd (W1.advance v) v a := ⟨hs, ha, hx, by
        show W1.V.linkOld v = some a
        rw [hlo]; exact ha, hinc⟩
      have hc4 : Core W2 ∧ AtEnd W2 v a ∧ W2.L.endN a = (W1.advance v).L.endN a := by
        cases he : (W1.advance v).V.nodeEvent v ((W1.advance v).L.endN a) with
        | none => rw [he] at h2; simp only [pure_ok] at h2; subst h2; exact ⟨hc3, hae, rfl⟩
        | some e =>
          rw [he] at h2
          have := Prim.event hae he h2
          exact ⟨hc3.prim this, hae.soft (runEvent_soft h2), by rw [this.static.endN]⟩
      have hc5 : Core W3 ∧ AtEnd W3 v a ∧ W3.L.endN a = W2.L.endN a ∧ TSame W2 W3 := by
        split at h3
        · exact ⟨hc4.1.prim (routing_pref h3), hc4.2.1.soft (routePref_soft h3),
            by rw [(routing_pref h3).static.endN], TaxiInv.routePref_same h3⟩
        · simp only [pure_ok] at h3; subst h3; exact ⟨hc4.1, hc4.2.1, rfl, TSame.refl _⟩
      refine ⟨W1.advance v, W2, W3, a, hsame', hae, hc3, ?_, hc5.2.2.2, hc5.2.1, hc5.1,
        hc5.2.2.1.trans hc4.2.2, h4⟩
      cases he : (W1.advance v).V.nodeEvent v ((W1.advance v).L.endN a) with
      | none => rw [he] at h2; simp only [pure_ok] at h2; exact .inl ⟨rfl, h2.symm⟩
      | some e => rw [he] at h2; exact .inr ⟨e, rfl, h2⟩
  · simp only [Except.ok.injEq] at h; subst h; exact .inl hsame

/-- Loop rule for a whole time step: properties that depend only on taxi data need to be checked for
`Vehicle.update` only. -/
theorem step_taxi {P : World → Prop} {W W' : World} (hc : Core W)
    (hsame : ∀ W1 W2, TSame W1 W2 → P W1 → P W2)
    (hupd : ∀ v W1 W2, UpdTaxi v W1 W2 → P W1 → P W2) (h : W.step = .ok W') (h0 : P W) :
    ∃ W6, P W6 ∧ W' = { W6 with time := W6.now } := by
  obtain ⟨W1, W2, W3, W4, W5, W6, hp, rfl⟩ := step_phases hc h
  refine ⟨W6, ?_, rfl⟩
  have h1 := hsame _ _ (hp.s1.tsame (fun a => by cases a <;> simp [isLinkTick, isPlain]) hc) h0
  have h2 := hsame _ _ (hp.s2.tsame (fun a => by cases a <;> simp [isGen, isPlain]) hp.c1) h1
  have h3 := hsame _ _ (hp.s3.tsame (fun a => by cases a <;> simp [isTrAny, isPlain]) hp.c2) h2
  have h4 := hsame _ _ (hp.s4.tsame (fun a => by cases a <;> simp [isCf, isPlain]) hp.c3) h3
  have h5 : P W5 := updates_inv' (P := fun _ W => P W) hp.c4 hp.i4
    (fun pre v Wa Wb _ _ hv hca hni hu hP => hupd v Wa Wb (vehUpdate_taxi hca hv hni hu) hP) h4 hp.p5
  exact hsame _ _ (hp.s6.tsame (fun a => by cases a <;> simp [isRouting, isPlain]) hp.c5) h5

namespace TaxiInv

theorem update {v : VehId} {W W' : World} (hu : UpdTaxi v W W') (h : TaxiInv W) : TaxiInv W' := by
  rcases hu.cases with hs | ⟨W1, W2, W3, a, s1, -, -, h2, s2, ha, hc, he, h3⟩
  · exact h.same hs
  · have h1 := h.same s1
    have h2' : TaxiInv W2 ∧ W2.V.nodeEvent v (W1.L.endN a) = none := by
      rcases h2 with ⟨h2, rfl⟩ | ⟨e, h2, h4⟩
      · exact ⟨h1, h2⟩
      · exact ⟨(h1.runEvent h2 h4).1, (h1.runEvent h2 h4).2.1⟩
    refine ((h2'.1.same s2).atLinkEnd hc ha ?_ h3).1
    rw [he, s2.ev]; exact h2'.2

theorem step {W W' : World} (hc : Core W) (h : TaxiInv W) (hs : W.step = .ok W') : TaxiInv W' := by
  obtain ⟨W6, h6, rfl⟩ := step_taxi (P := TaxiInv) hc (fun _ _ hs h => h.same hs)
    (fun _ _ _ hu h => h.update hu) hs h
  obtain ⟨nd, pend, asg, taxi, got, arr, on, off, todo, idle⟩ := h6
  exact ⟨nd, pend, asg, taxi, got, arr, on, off, todo, idle⟩

end TaxiInv

/-- What an API step does to taxi data. -/
inductive TaxiStep (W W' : World) : Prop
  /-- nothing, except possibly setting the clock -/
  | plain (s : TSame { W with time := W'.time } W') (f : W'.finalized = W.finalized) (T : W'.T = W.T)
      (c : W'.cfg = W.cfg) (t : W'.time = W.time ∨ W.finalized = true ∧ W'.time = W.now)
  | finalize (s : TSame { W with time := W'.time } W') (f : W.finalized = false)
      (f' : W'.finalized = true) (T : W'.T = 0) (c : W'.cfg = W.cfg) (t : W'.time = 0)
  | addVehicle (a) (h : W.addVehicle a = .ok W')
  | addDest (v d k) (hv : v < W.nVeh) (h : W.addDest v d k = .ok W')
  | addTripRequest (o d t) (h : W.addTripRequest o d t = .ok W')
  | assignTaxi (v r) (hv : v < W.nVeh) (h : W.assignTaxi v r = .ok W')
  | tick (f : W.finalized = true) (hT : W.T < W.tsize) (h : W.tick = .ok W')

theorem finalize_taxi (W : World) (tm) : TSame { W with time := 0 } (W.finalize tm) ∧
    (W.finalize tm).cfg = W.cfg := by
  obtain ⟨_, _, _, _, _, h⟩ := W.finalize_frame tm
  rw [h]; exact ⟨⟨rfl, rfl, rfl, rfl, rfl, rfl, rfl⟩, rfl⟩

theorem ApiStep.taxi {W W' : World} (h : ApiStep W W') : TaxiStep W W' := by
  cases h with
  | addNode hf h =>
    obtain ⟨ph, t, soff, _, hn, rfl⟩ := addNode_ok h
    exact .plain ⟨rfl, rfl, rfl, rfl, rfl, rfl, rfl⟩ rfl rfl rfl (.inl rfl)
  | addLink hf ha =>
    obtain ⟨s, e, nm, k, p, -, -, -, -, -, -, rfl⟩ := addLink_ok ha
    exact .plain ⟨rfl, rfl, rfl, rfl, rfl, rfl, rfl⟩ rfl rfl rfl (.inl rfl)
  | addVehicle h => exact .addVehicle _ h
  | @finalize tm hf =>
    have h := finalize_taxi W tm
    have h2 := finalize_T W tm
    have h3 : (W.finalize tm).time = 0 := h.1.time
    exact .finalize (by rw [h3]; exact h.1) hf h2.2 h2.1 h.2 h3
  | tick f hT h => exact .tick f hT h
  | endExec hf => exact .plain ⟨rfl, rfl, rfl, rfl, rfl, rfl, rfl⟩ rfl rfl rfl (.inr ⟨hf, rfl⟩)
  | overrideSignal => exact .plain ⟨rfl, rfl, rfl, rfl, rfl, rfl, rfl⟩ rfl rfl rfl (.inl rfl)
  | overrideSignalGroups _ h =>
    unfold World.overrideSignalGroups at h
    split at h
    · simp at h
    · split at h
      · simp at h
      · simp only [Except.ok.injEq] at h
        subst h
        exact .plain ⟨rfl, rfl, rfl, rfl, rfl, rfl, rfl⟩ rfl rfl rfl (.inl rfl)
  | enforceRoute _ h =>
    unfold World.enforceRoute at h
    rw [bind_ok] at h
    obtain ⟨r, _, h⟩ := h
    simp only [pure_ok] at h
    subst h
    exact .plain ⟨rfl, rfl, rfl, rfl, rfl, rfl, rfl⟩ rfl rfl rfl (.inl rfl)
  | setLinksPrefer _ h =>
    unfold World.setLinksPrefer at h
    rw [bind_ok] at h
    obtain ⟨r, _, h⟩ := h
    simp only [pure_ok] at h
    subst h
    exact .plain ⟨rfl, rfl, rfl, rfl, rfl, rfl, rfl⟩ rfl rfl rfl (.inl rfl)
  | setLinksAvoid _ h =>
    unfold World.setLinksAvoid at h
    rw [bind_ok] at h
    obtain ⟨r, _, h⟩ := h
    simp only [pure_ok] at h
    subst h
    exact .plain ⟨rfl, rfl, rfl, rfl, rfl, rfl, rfl⟩ rfl rfl rfl (.inl rfl)
  | addDest hv hd h => exact .addDest _ _ _ hv h
  | addTripRequest h => exact .addTripRequest _ _ _ h
  | assignTaxi hv h => exact .assignTaxi _ _ hv h
  | setCapOut => exact .plain ⟨rfl, rfl, rfl, rfl, rfl, rfl, rfl⟩ rfl rfl rfl (.inl rfl)
  | setCapIn => exact .plain ⟨rfl, rfl, rfl, rfl, rfl, rfl, rfl⟩ rfl rfl rfl (.inl rfl)
  | changeFreeFlowSpeed _ h =>
    unfold World.changeFreeFlowSpeed at h
    split at h
    · split at h
      · simp at h
      · dsimp only at h
        split at h
        · simp at h
        · simp only [Except.ok.injEq] at h
          subst h
          exact .plain ⟨rfl, rfl, rfl, rfl, rfl, rfl, rfl⟩ rfl rfl rfl (.inl rfl)
    · simp only [Except.ok.injEq] at h
      subst h; exact .plain ⟨rfl, rfl, rfl, rfl, rfl, rfl, rfl⟩ rfl rfl rfl (.inl rfl)
  | changeJamDensity _ he h =>
    unfold World.changeJamDensity at h
    split at h
    · split at h
      · simp at h
      · dsimp only at h
        split at h
        · simp at h
        · simp only [Except.ok.injEq] at h
          subst h
          exact .plain ⟨rfl, rfl, rfl, rfl, rfl, rfl, rfl⟩ rfl rfl rfl (.inl rfl)
    · simp only [Except.ok.injEq] at h
      subst h; exact .plain ⟨rfl, rfl, rfl, rfl, rfl, rfl, rfl⟩ rfl rfl rfl (.inl rfl)
  | reseed => exact .plain ⟨rfl, rfl, rfl, rfl, rfl, rfl, rfl⟩ rfl rfl rfl (.inl rfl)

namespace TaxiInv

theorem setTime {W : World} (h : TaxiInv W) (t : ℚ) : TaxiInv { W with time := t } := by
  obtain ⟨nd, pend, asg, taxi, got, arr, on, off, todo, idle⟩ := h
  exact ⟨nd, pend, asg, taxi, got, arr, on, off, todo, idle⟩

theorem addVehicle {W W' : World} (h : TaxiInv W) {a} (ha : W.addVehicle a = .ok W') : TaxiInv W' := by
  obtain ⟨o, d, dep, pref, cache, lp, la, nm, -, -, -, -, -, -, -, -, rfl⟩ := addVehicle_ok ha
  obtain ⟨nd, pend, asg, taxi, got, arr, on, off, todo, idle⟩ := h
  have hev : ∀ v n e, upd W.V.nodeEvent W.nVeh (fun _ => none) v n = some e → W.V.nodeEvent v n = some e := by
    intro v n e hv
    rw [upd_apply] at hv
    split at hv
    · cases hv
    · exact hv
  constructor
  · exact nd
  · exact pend
  · exact asg
  · intro r v hr
    obtain ⟨h1, h2, h3⟩ := taxi r v hr
    exact ⟨h1, Nat.lt_succ_of_lt h2, by
      show upd W.V.mode W.nVeh a.mode v = .taxi
      rw [upd_ne _ _ (Nat.ne_of_lt h2)]; exact h3⟩
  · exact got
  · exact arr
  · intro v n r hv; exact on v n r (hev v n _ hv)
  · intro v n r hv; exact off v n r (hev v n _ hv)
  · intro v n hv
    have hv' : upd W.V.nodeEvent W.nVeh (fun _ => none) v n ≠ none := hv
    have hne : v ≠ W.nVeh := by rintro rfl; rw [upd_same] at hv'; exact hv' rfl
    show upd W.V.dest W.nVeh d v = some n ∨ n ∈ upd W.V.destList W.nVeh [] v
    rw [upd_ne _ _ hne] at hv' ⊢
    rw [upd_ne _ _ hne]
    exact todo v n hv'
  · intro v hm hd
    have hm' : upd W.V.mode W.nVeh a.mode v = .taxi := hm
    have hd' : upd W.V.dest W.nVeh d v = none := hd
    show upd W.V.destList W.nVeh [] v = []
    by_cases e : v = W.nVeh
    · subst e; rw [upd_same]
    · rw [upd_ne _ _ e] at hm' hd' ⊢; exact idle v hm' hd'

theorem api {W W' : World} (hi : Inv W) (h : TaxiInv W) (hs : ApiStep W W') : TaxiInv W' := by
  rcases hs.taxi with ⟨s, _⟩ | ⟨s, _⟩ | ⟨a, ha⟩ | ⟨v, d, k, hv, ha⟩ | ⟨o, d, t, ha⟩ | ⟨v, r, hv, ha⟩ | ⟨f, hT, ha⟩
  · exact (h.setTime _).same s
  · exact (h.setTime _).same s
  · exact h.addVehicle ha
  · exact h.addDest ha
  · exact h.addTripRequest ha
  · exact h.assignTaxi hv ha
  · obtain ⟨W1, h1, rfl⟩ := tick_ok ha
    obtain ⟨nd, pend, asg, taxi, got, arr, on, off, todo, idle⟩ := h.step (hi.core f) h1
    exact ⟨nd, pend, asg, taxi, got, arr, on, off, todo, idle⟩

theorem new (cfg tmax rng) : TaxiInv (World.new cfg tmax rng) := by
  constructor <;> simp [World.new]

end TaxiInv

theorem Reachable.taxi {OK : World → Prop} {W : World} (h : Reachable OK W) : TaxiInv W := by
  induction h with
  | new => exact TaxiInv.new _ _ _
  | next hr hs _ ih => exact ih.api hr.inv hs

theorem TaxiInv.noEvents {W : World} (h : TaxiInv W) (h0 : W.H.nReq = 0) : NoEvents W := by
  intro v n
  cases e : W.V.nodeEvent v n with
  | none => rfl
  | some e' =>
    exfalso
    have : ∃ r, W.H.taxi r = some v := by
      cases e' with
      | getOn r => exact ⟨r, (h.on v n r e).1⟩
      | arrive r => exact ⟨r, (h.off v n r e).1⟩
    obtain ⟨r, hr⟩ := this
    have := (h.taxi r v hr).1
    rw [h0] at this
    exact absurd this (Nat.not_lt_zero _)

/-! ### What is never undone -/

/-- The request data of `W` is still there in `W'`. -/
structure Keeps (W W' : World) : Prop where
  nReq : W.H.nReq ≤ W'.H.nReq
  taxi : ∀ r v, W.H.taxi r = some v → W'.H.taxi r = some v
  get : ∀ r t, W.H.getTaxiTime r = some t → W'.H.getTaxiTime r = some t
  arr : ∀ r t, W.H.arrivalTime r = some t → W'.H.arrivalTime r = some t
  orig : ∀ r, r < W.H.nReq → W'.H.orig r = W.H.orig r
  dest : ∀ r, r < W.H.nReq → W'.H.dest r = W.H.dest r
  dep : ∀ r, r < W.H.nReq → W'.H.departTime r = W.H.departTime r

theorem Keeps.refl (W : World) : Keeps W W :=
  ⟨le_rfl, fun _ _ h => h, fun _ _ h => h, fun _ _ h => h, fun _ _ => rfl, fun _ _ => rfl, fun _ _ => rfl⟩

theorem Keeps.of_eq {W W' : World} (h : W'.H = W.H) : Keeps W W' := by
  constructor <;> rw [h]
  · intro _ _ h; exact h
  · intro _ _ h; exact h
  · intro _ _ h; exact h
  · intro _ _; rfl
  · intro _ _; rfl
  · intro _ _; rfl

theorem Keeps.trans {A B C : World} (h1 : Keeps A B) (h2 : Keeps B C) : Keeps A C :=
  ⟨h1.nReq.trans h2.nReq, fun r v h => h2.taxi r v (h1.taxi r v h), fun r v h => h2.get r v (h1.get r v h),
   fun r v h => h2.arr r v (h1.arr r v h),
   fun r h => (h2.orig r (lt_of_lt_of_le h h1.nReq)).trans (h1.orig r h),
   fun r h => (h2.dest r (lt_of_lt_of_le h h1.nReq)).trans (h1.dest r h),
   fun r h => (h2.dep r (lt_of_lt_of_le h h1.nReq)).trans (h1.dep r h)⟩

/-- Effect of an event on the requests. -/
theorem TaxiInv.runEvent_H {W W' : World} (h : TaxiInv W) {v n e} (he : W.V.nodeEvent v n = some e)
    (ha : W.runEvent e = .ok W') :
    (∃ r, e = .getOn r ∧ W'.H = { W.H with getTaxiTime := upd W.H.getTaxiTime r (some W.time) } ∧
      W.H.getTaxiTime r = none) ∨
    (∃ r, e = .arrive r ∧ W'.H = { W.H with arrivalTime := upd W.H.arrivalTime r (some W.time) } ∧
      W.H.arrivalTime r = none ∧ W.H.getTaxiTime r ≠ none) := by
  cases e with
  | getOn r =>
    left
    obtain ⟨e1, e2, e3⟩ := h.on v n r he
    simp only [World.runEvent, e1] at ha
    rw [bind_ok] at ha
    obtain ⟨W1, h1, ha⟩ := ha
    split at ha
    · simp [bind, Except.bind, throw, throwThe, MonadExceptOf.throw] at ha
    · simp only [pure_ok] at ha
      obtain ⟨a1, a2, a3, a4, a5, a6, a7, a8, a9⟩ := addDest_effect h1
      refine ⟨r, rfl, ?_, e3⟩
      subst ha
      simp only [setEvent, a2, a6]
  | arrive r =>
    right
    obtain ⟨e1, e2, e3, e4⟩ := h.off v n r he
    simp only [World.runEvent, e1] at ha
    split at ha
    · simp [bind, Except.bind, throw, throwThe, MonadExceptOf.throw] at ha
    · simp only [pure_ok] at ha
      refine ⟨r, rfl, ?_, e4, e3⟩
      subst ha; rfl

theorem TaxiInv.runEvent_keeps {W W' : World} (h : TaxiInv W) {v n e} (he : W.V.nodeEvent v n = some e)
    (ha : W.runEvent e = .ok W') : Keeps W W' := by
  rcases h.runEvent_H he ha with ⟨r, -, hH, hn⟩ | ⟨r, -, hH, hn, -⟩
  all_goals
    constructor
    all_goals rw [hH]
    all_goals try (intro _ _ h; exact h)
    all_goals try (intro _ _; rfl)
  · intro s t hs
    have : s ≠ r := by rintro rfl; rw [hn] at hs; cases hs
    dsimp only; rw [upd_ne _ _ this]; exact hs
  · intro s t hs
    have : s ≠ r := by rintro rfl; rw [hn] at hs; cases hs
    dsimp only; rw [upd_ne _ _ this]; exact hs

theorem TaxiInv.update_keeps {v : VehId} {W W' : World} (hu : UpdTaxi v W W') (h : TaxiInv W) :
    Keeps W W' := by
  rcases hu.cases with hs | ⟨W1, W2, W3, a, s1, -, -, h2, s2, ha, hc, he, h3⟩
  · exact .of_eq hs.H
  · have h1 := h.same s1
    have h2' : TaxiInv W2 ∧ W2.V.nodeEvent v (W1.L.endN a) = none ∧ Keeps W1 W2 := by
      rcases h2 with ⟨h2, rfl⟩ | ⟨e, h2, h4⟩
      · exact ⟨h1, h2, .refl _⟩
      · exact ⟨(h1.runEvent h2 h4).1, (h1.runEvent h2 h4).2.1, h1.runEvent_keeps h2 h4⟩
    refine ((Keeps.of_eq s1.H).trans h2'.2.2).trans ((Keeps.of_eq s2.H).trans (.of_eq ?_))
    refine ((h2'.1.same s2).atLinkEnd hc ha ?_ h3).2.1
    rw [he, s2.ev]; exact h2'.2.1

theorem ApiStep.keeps {W W' : World} (hi : Inv W) (h : TaxiInv W) (hs : ApiStep W W') : Keeps W W' := by
  rcases hs.taxi with ⟨s, _⟩ | ⟨s, _⟩ | ⟨a, ha⟩ | ⟨v, d, k, hv, ha⟩ | ⟨o, d, t, ha⟩ | ⟨v, r, hv, ha⟩ | ⟨f, hT, ha⟩
  · exact .of_eq s.H
  · exact .of_eq s.H
  · obtain ⟨o, d, dep, pref, cache, lp, la, nm, -, -, -, -, -, -, -, -, rfl⟩ := addVehicle_ok ha
    exact .of_eq rfl
  · exact .of_eq (TaxiInv.addDest_effect ha).2.1
  · unfold World.addTripRequest at ha
    rw [bind_ok] at ha
    obtain ⟨o', _, ha⟩ := ha
    rw [bind_ok] at ha
    obtain ⟨d', _, ha⟩ := ha
    simp only [pure_ok] at ha
    have ht : W.H.taxi W.H.nReq = none := by
      cases e : W.H.taxi W.H.nReq with
      | none => rfl
      | some v => exact absurd (h.taxi _ v e).1 (lt_irrefl _)
    have hg : W.H.getTaxiTime W.H.nReq = none := by by_contra hh; exact h.got _ hh ht
    have hA : W.H.arrivalTime W.H.nReq = none := by by_contra hh; exact h.arr _ hh hg
    subst ha
    constructor
    · exact Nat.le_succ _
    · intro r v hr
      have : r ≠ W.H.nReq := by rintro rfl; rw [ht] at hr; cases hr
      dsimp only; rw [upd_ne _ _ this]; exact hr
    · intro r v hr
      have : r ≠ W.H.nReq := by rintro rfl; rw [hg] at hr; cases hr
      dsimp only; rw [upd_ne _ _ this]; exact hr
    · intro r v hr
      have : r ≠ W.H.nReq := by rintro rfl; rw [hA] at hr; cases hr
      dsimp only; rw [upd_ne _ _ this]; exact hr
    · intro r hr; dsimp only; rw [upd_ne _ _ (Nat.ne_of_lt hr)]
    · intro r hr; dsimp only; rw [upd_ne _ _ (Nat.ne_of_lt hr)]
    · intro r hr; dsimp only; rw [upd_ne _ _ (Nat.ne_of_lt hr)]
  · unfold World.assignTaxi at ha
    split at ha
    · simp at ha
    · rename_i hr
      rw [bind_ok] at ha
      obtain ⟨W1, h1, ha⟩ := ha
      simp only [pure_ok] at ha
      have e := (TaxiInv.addDest_effect h1).2.1
      have hn := (h.pend r (by simpa using hr)).2
      subst ha
      refine ⟨by simp [setEvent, e], ?_, by simp [setEvent, e], by simp [setEvent, e],
        by simp [setEvent, e], by simp [setEvent, e], by simp [setEvent, e]⟩
      intro s u hsu
      have : s ≠ r := by rintro rfl; rw [hn] at hsu; cases hsu
      simp only [setEvent, e]
      rw [upd_ne _ _ this]; exact hsu
  · obtain ⟨W1, h1, rfl⟩ := tick_ok ha
    obtain ⟨W6, ⟨h6, h7⟩, rfl⟩ := step_taxi (P := fun X => TaxiInv X ∧ Keeps W X) (hi.core f)
      (fun _ _ hs h => ⟨h.1.same hs, h.2.trans (.of_eq hs.H)⟩)
      (fun _ _ _ hu h => ⟨h.1.update hu, h.2.trans (h.1.update_keeps hu)⟩) h1 ⟨h, .refl W⟩
    exact h7.trans (.of_eq rfl)

/-! ### Times -/

/-- Stamps are in order. -/
structure StampInv (W : World) : Prop where
  get : ∀ r t, W.H.getTaxiTime r = some t → t ≤ W.time
  arr : ∀ r t, W.H.arrivalTime r = some t → ∃ t0, W.H.getTaxiTime r = some t0 ∧ t0 ≤ t ∧ t ≤ W.time

theorem StampInv.same {W W' : World} (h : StampInv W) (hs : W'.H = W.H) (ht : W.time ≤ W'.time) :
    StampInv W' := by
  constructor
  · rw [hs]; exact fun r t hr => (h.get r t hr).trans ht
  · rw [hs]; intro r t hr
    obtain ⟨t0, h1, h2, h3⟩ := h.arr r t hr
    exact ⟨t0, h1, h2, h3.trans ht⟩

theorem StampInv.update {v : VehId} {W W' : World} (hu : UpdTaxi v W W') (hI : TaxiInv W)
    (h : StampInv W) : StampInv W' ∧ W'.time = W.time := by
  rcases hu.cases with hs | ⟨W1, W2, W3, a, s1, -, -, h2, s2, ha, hc, he, h3⟩
  · exact ⟨h.same hs.H hs.time.ge, hs.time⟩
  · have h1 := hI.same s1
    have g1 := h.same s1.H s1.time.ge
    have h2' : TaxiInv W2 ∧ W2.V.nodeEvent v (W1.L.endN a) = none ∧ StampInv W2 ∧ W2.time = W1.time := by
      rcases h2 with ⟨h2, rfl⟩ | ⟨e, h2, h4⟩
      · exact ⟨h1, h2, g1, rfl⟩
      · have ht : W2.time = W1.time := by
          obtain ⟨_, _, _, _, _, _, _, rfl, -⟩ := runEvent_soft h4
          rfl
        refine ⟨(h1.runEvent h2 h4).1, (h1.runEvent h2 h4).2.1, ?_, ht⟩
        rcases h1.runEvent_H h2 h4 with ⟨r, -, hH, hn⟩ | ⟨r, -, hH, hn, hn2⟩
        · have hn2 : W1.H.arrivalTime r = none := by by_contra hh; exact h1.arr r hh hn
          constructor
          · rw [hH, ht]; dsimp only
            intro s t hs
            by_cases e : s = r
            · subst e; rw [upd_same] at hs; cases hs; exact le_rfl
            · rw [upd_ne _ _ e] at hs; exact g1.get s t hs
          · rw [hH, ht]; dsimp only
            intro s t hs
            have e : s ≠ r := by rintro rfl; rw [hn2] at hs; cases hs
            rw [upd_ne _ _ e]; exact g1.arr s t hs
        · constructor
          · rw [hH, ht]; exact g1.get
          · rw [hH, ht]; dsimp only
            intro s t hs
            by_cases e : s = r
            · subst e; rw [upd_same] at hs; cases hs
              cases e : W1.H.getTaxiTime s with
              | none => exact absurd e hn2
              | some t0 => exact ⟨t0, rfl, g1.get s t0 e, le_rfl⟩
            · rw [upd_ne _ _ e] at hs; exact g1.arr s t hs
    have h4 := (h2'.1.same s2).atLinkEnd hc ha (by rw [he, s2.ev]; exact h2'.2.1) h3
    have ht : W'.time = W3.time := by
      have := (atLinkEnd_star hc ha h3).static
      exact this.time
    refine ⟨h2'.2.2.1.same (h4.2.1.trans s2.H) ?_, ?_⟩
    · rw [ht, s2.time]
    · rw [ht, s2.time, h2'.2.2.2, s1.time]

/-- Before finalization nothing has happened; afterwards stamps are in order and not in the future. -/
theorem Reachable.stamps {OK : World → Prop} {W : World} (h : Reachable OK W)
    (hOK : ∀ W, OK W → FlOK W.cfg.fl ∧ 0 ≤ W.dt) :
    StampInv W ∧ W.time ≤ W.now ∧ (W.finalized = false → W.time = 0 ∧ ∀ r, W.H.getTaxiTime r = none) := by
  induction h with
  | @new cfg tmax rng hok =>
    have h0 : (World.new cfg tmax rng).now = 0 := by
      show cfg.fl (((0 : ℕ) : ℚ) * cfg.deltat) = 0
      rw [Nat.cast_zero, zero_mul]; exact (hOK _ hok).1.zero
    refine ⟨⟨?_, ?_⟩, ?_, ?_⟩
    · intro r t hr; cases hr
    · intro r t hr; cases hr
    · rw [h0]; exact le_rfl
    · intro _; exact ⟨rfl, fun _ => rfl⟩
  | @next W W' hr hs hok ih =>
    obtain ⟨i1, i2, i3⟩ := ih
    have hI := hr.taxi
    obtain ⟨hfl, hdt⟩ := hOK _ hok
    have now_eq : W'.T = W.T → W'.cfg = W.cfg → W'.now = W.now := by
      intro h1 h2; unfold World.now World.fl World.dt; rw [h1, h2]
    have k := hs.keeps hr.inv hI
    rcases hs.taxi with ⟨s, f, hT, c, t⟩ | ⟨s, f, f', hT, c, t⟩ | ⟨a, ha⟩ | ⟨v, d, k, hv, ha⟩ | ⟨o, d, t, ha⟩ | ⟨v, r, hv, ha⟩ | ⟨f, hT, ha⟩
    · rw [now_eq hT c, f, s.H]
      rcases t with t | ⟨f', t⟩
      · rw [t]; exact ⟨i1.same s.H t.ge, i2, i3⟩
      · refine ⟨i1.same s.H (t ▸ i2), t.le, fun h => ?_⟩
        rw [f'] at h; cases h
    · have e : W'.now = 0 := by
        unfold World.now World.fl; rw [hT, Nat.cast_zero, zero_mul]; exact hfl.zero
      refine ⟨i1.same s.H ?_, by rw [e, t], fun h => by rw [f'] at h; cases h⟩
      rw [t, (i3 f).1]
    · obtain ⟨o, d, dep, pref, cache, lp, la, nm, -, -, -, -, -, -, -, -, rfl⟩ := addVehicle_ok ha
      exact ⟨i1.same rfl le_rfl, i2, i3⟩
    · have e := TaxiInv.addDest_effect ha
      obtain ⟨_, dd, dl, pref, rfl⟩ := addDest_ok ha
      exact ⟨i1.same rfl le_rfl, i2, i3⟩
    · unfold World.addTripRequest at ha
      rw [bind_ok] at ha
      obtain ⟨o', _, ha⟩ := ha
      rw [bind_ok] at ha
      obtain ⟨d', _, ha⟩ := ha
      simp only [pure_ok] at ha
      subst ha
      refine ⟨⟨?_, ?_⟩, i2, ?_⟩
      · intro r t hr
        dsimp only at hr
        rw [upd_apply] at hr
        split at hr
        · cases hr
        · exact i1.get r t hr
      · intro r t hr
        dsimp only at hr ⊢
        rw [upd_apply] at hr ⊢
        split at hr
        · cases hr
        · rename_i e; rw [if_neg e]; exact i1.arr r t hr
      · intro hf
        refine ⟨(i3 hf).1, fun r => ?_⟩
        dsimp only
        rw [upd_apply]
        split
        · rfl
        · exact (i3 hf).2 r
    · unfold World.assignTaxi at ha
      split at ha
      · simp at ha
      · rw [bind_ok] at ha
        obtain ⟨W1, h1, ha⟩ := ha
        simp only [pure_ok] at ha
        obtain ⟨_, dd, dl, pref, rfl⟩ := addDest_ok h1
        subst ha
        exact ⟨⟨i1.get, i1.arr⟩, i2, i3⟩
    · obtain ⟨W1, h1, rfl⟩ := tick_ok ha
      obtain ⟨W6, h6, hs6⟩ := step_taxi (P := fun X => TaxiInv X ∧ StampInv X ∧ X.time = W.time)
        (hr.inv.core f)
        (fun _ _ hs h => ⟨h.1.same hs, h.2.1.same hs.H hs.time.ge, hs.time.trans h.2.2⟩)
        (fun _ _ _ hu h => ⟨h.1.update hu, (h.2.1.update hu h.1).1, (h.2.1.update hu h.1).2.trans h.2.2⟩)
        h1 ⟨hI, i1, rfl⟩
      obtain ⟨b1, b2, b3, b4, b5⟩ := tick_frame hr.inv f ha
      have n1 : W1.now = W.now := by
        have b1' : W1.T + 1 = W.T + 1 := b1
        have b4' : W1.cfg = W.cfg := b4
        unfold World.now World.fl World.dt
        rw [b4', Nat.add_right_cancel b1']
      have t1 : W1.time = W.now := by
        rw [← n1, hs6]; rfl
      have hle : W1.now ≤ ({ W1 with T := W1.T + 1 } : World).now := by
        refine hfl.mono ?_
        refine mul_le_mul_of_nonneg_right ?_ hdt
        show (W1.T : ℚ) ≤ ((W1.T + 1 : ℕ) : ℚ)
        exact_mod_cast Nat.le_succ _
      refine ⟨?_, ?_, fun h => ?_⟩
      · have : StampInv W1 := by
          rw [hs6]
          refine h6.2.1.same rfl ?_
          show W6.time ≤ W6.now
          have : W6.now = W.now := by
            rw [hs6] at t1; exact t1
          rw [this, h6.2.2]; exact i2
        exact ⟨this.get, this.arr⟩
      · show W1.time ≤ _
        rw [t1, ← n1]; exact hle
      · have b3' : W1.finalized = true := b3
        have : W1.finalized = false := h
        rw [b3'] at this; cases this

/-! ### Histories in which only the provided handlers assign taxis -/

/-- Every unfinished assigned request still has its event, and no taxi serves two at a time. -/
structure ServeInv (W : World) : Prop where
  ne : ∀ r, r < W.H.nReq → W.H.orig r ≠ W.H.dest r
  wait : ∀ r v, W.H.taxi r = some v → W.H.getTaxiTime r = none →
    W.V.nodeEvent v (W.H.orig r) = some (.getOn r)
  ride : ∀ r v, W.H.taxi r = some v → W.H.getTaxiTime r ≠ none → W.H.arrivalTime r = none →
    W.V.nodeEvent v (W.H.dest r) = some (.arrive r)
  one : ∀ r s v, W.H.taxi r = some v → W.H.taxi s = some v → W.H.arrivalTime r = none →
    W.H.arrivalTime s = none → r = s

namespace ServeInv

theorem same {W W' : World} (h : ServeInv W) (h1 : W'.H = W.H) (h2 : W'.V.nodeEvent = W.V.nodeEvent) :
    ServeInv W' := by
  cases h
  constructor <;> rw [h1] <;> try rw [h2]
  all_goals assumption

/-- A taxi without a pending event has no open request. -/
theorem closed {W : World} (h : ServeInv W) {v r} (hv : ∀ n, W.V.nodeEvent v n = none)
    (hr : W.H.taxi r = some v) : W.H.arrivalTime r ≠ none := by
  intro ha
  by_cases hg : W.H.getTaxiTime r = none
  · have := h.wait r v hr hg; rw [hv] at this; cases this
  · have := h.ride r v hr hg ha; rw [hv] at this; cases this

theorem runEvent {W W' : World} (hI : TaxiInv W) (h : ServeInv W) {v n e}
    (he : W.V.nodeEvent v n = some e) (ha : W.runEvent e = .ok W') : ServeInv W' := by
  cases e with
  | getOn r =>
    obtain ⟨e1, e2, e3⟩ := hI.on v n r he
    have hrn := (hI.taxi r v e1).1
    have hop : W.H.arrivalTime r = none := by by_contra hh; exact hI.arr r hh e3
    simp only [World.runEvent, e1] at ha
    rw [bind_ok] at ha
    obtain ⟨W1, h1, ha⟩ := ha
    split at ha
    · simp [bind, Except.bind, throw, throwThe, MonadExceptOf.throw] at ha
    · simp only [pure_ok] at ha
      obtain ⟨a1, a2, a3, a4, a5, a6, a7, a8, a9⟩ := TaxiInv.addDest_effect h1
      have hH : W'.H = { W.H with getTaxiTime := upd W.H.getTaxiTime r (some W.time) } := by
        subst ha; simp only [setEvent, a2, a6]
      have hev : ∀ u m, W'.V.nodeEvent u m = if u = v ∧ m = W.H.orig r then none else
          if u = v ∧ m = W.H.dest r then some (.arrive r) else W.V.nodeEvent u m := by
        intro u m
        subst ha
        simp only [setEvent, upd_same, a2, a3, upd_apply]
        by_cases e : u = v
        · subst e; by_cases e : m = W.H.orig r <;> simp [e, upd_apply]
        · simp [e]
      clear ha h1 a1 a2 a3 a4 a5 a6 a7 a8 a9
      have others : ∀ s, W.H.taxi s = some v → W.H.arrivalTime s = none → s = r :=
        fun s h1 h2 => h.one s r v h1 e1 h2 hop
      constructor
      · rw [hH]; exact h.ne
      · rw [hH]; dsimp only
        intro s u hs hg
        have e : s ≠ r := by rintro rfl; rw [upd_same] at hg; cases hg
        rw [upd_ne _ _ e] at hg
        have hu : u ≠ v := by
          rintro rfl
          exact e (others s hs (by by_contra hh; exact hI.arr s hh hg))
        rw [hev, if_neg (fun h => hu h.1), if_neg (fun h => hu h.1)]
        exact h.wait s u hs hg
      · rw [hH]; dsimp only
        intro s u hs hg hn
        by_cases e : s = r
        · subst e
          rw [e1] at hs; cases hs
          rw [hev, if_neg (fun hh => h.ne s hrn hh.2.symm), if_pos ⟨rfl, rfl⟩]
        · rw [upd_ne _ _ e] at hg
          have hu : u ≠ v := by rintro rfl; exact e (others s hs hn)
          rw [hev, if_neg (fun h => hu h.1), if_neg (fun h => hu h.1)]
          exact h.ride s u hs hg hn
      · rw [hH]; exact h.one
  | arrive r =>
    obtain ⟨e1, e2, e3, e4⟩ := hI.off v n r he
    simp only [World.runEvent, e1] at ha
    split at ha
    · simp [bind, Except.bind, throw, throwThe, MonadExceptOf.throw] at ha
    · simp only [pure_ok] at ha
      have hH : W'.H = { W.H with arrivalTime := upd W.H.arrivalTime r (some W.time) } := by
        subst ha; rfl
      have hev : ∀ u m, u ≠ v → W'.V.nodeEvent u m = W.V.nodeEvent u m := by
        intro u m hu
        subst ha
        simp only [setEvent]
        rw [upd_ne _ _ hu]
      clear ha
      have others : ∀ s, W.H.taxi s = some v → W.H.arrivalTime s = none → s = r :=
        fun s h1 h2 => h.one s r v h1 e1 h2 e4
      constructor
      · rw [hH]; exact h.ne
      · rw [hH]; dsimp only
        intro s u hs hg
        have hu : u ≠ v := by
          rintro rfl
          have := others s hs (by by_contra hh; exact hI.arr s hh hg)
          subst this; exact e3 hg
        rw [hev _ _ hu]
        exact h.wait s u hs hg
      · rw [hH]; dsimp only
        intro s u hs hg hn
        have e : s ≠ r := by rintro rfl; rw [upd_same] at hn; cases hn
        rw [upd_ne _ _ e] at hn
        have hu : u ≠ v := by rintro rfl; exact e (others s hs hn)
        rw [hev _ _ hu]
        exact h.ride s u hs hg hn
      · rw [hH]; dsimp only
        intro s s' u hs hs' hn hn'
        have e : s ≠ r := by rintro rfl; rw [upd_same] at hn; cases hn
        have e' : s' ≠ r := by rintro rfl; rw [upd_same] at hn'; cases hn'
        rw [upd_ne _ _ e] at hn
        rw [upd_ne _ _ e'] at hn'
        exact h.one s s' u hs hs' hn hn'

theorem update {v : VehId} {W W' : World} (hu : UpdTaxi v W W') (hI : TaxiInv W)
    (h : ServeInv W) : ServeInv W' := by
  rcases hu.cases with hs | ⟨W1, W2, W3, a, s1, -, -, h2, s2, ha, hc, he, h3⟩
  · exact h.same hs.H hs.ev
  · have h1 := hI.same s1
    have g1 := h.same s1.H s1.ev
    have h2' : TaxiInv W2 ∧ W2.V.nodeEvent v (W1.L.endN a) = none ∧ ServeInv W2 := by
      rcases h2 with ⟨h2, rfl⟩ | ⟨e, h2, h4⟩
      · exact ⟨h1, h2, g1⟩
      · exact ⟨(h1.runEvent h2 h4).1, (h1.runEvent h2 h4).2.1, g1.runEvent h1 h2 h4⟩
    have h4 := (h2'.1.same s2).atLinkEnd hc ha (by rw [he, s2.ev]; exact h2'.2.1) h3
    exact h2'.2.2.same (h4.2.1.trans s2.H) (h4.2.2.trans s2.ev)

theorem assignTaxi {W W' : World} (hI : TaxiInv W) (h : ServeInv W) {v r}
    (hv : ∀ n, W.V.nodeEvent v n = none) (ha : W.assignTaxi v r = .ok W') : ServeInv W' := by
  unfold World.assignTaxi at ha
  split at ha
  · simp at ha
  · rename_i hr
    rw [bind_ok] at ha
    obtain ⟨W1, h1, ha⟩ := ha
    simp only [pure_ok] at ha
    obtain ⟨a1, a2, a3, a4, a5, a6, a7, a8, a9⟩ := TaxiInv.addDest_effect h1
    have hrn := hI.pend r (by simpa using hr)
    have hg0 : W.H.getTaxiTime r = none := by by_contra hh; exact hI.got r hh hrn.2
    have hH : W'.H = { W.H with taxi := upd W.H.taxi r (some v), pending := W.H.pending.erase r } := by
      subst ha; simp only [setEvent, a2]
    have hev : W'.V.nodeEvent = upd W.V.nodeEvent v (upd (W.V.nodeEvent v) (W.H.orig r) (some (.getOn r))) := by
      subst ha; simp only [setEvent, a2, a3]
    clear ha h1 a1 a2 a3 a4 a5 a6 a7 a8 a9
    constructor
    · rw [hH]; exact h.ne
    · rw [hH, hev]; dsimp only
      intro s u hs hg
      by_cases e : s = r
      · subst e; rw [upd_same] at hs; cases hs; rw [upd_same, upd_same]
      · rw [upd_ne _ _ e] at hs
        have hu : u ≠ v := by
          rintro rfl
          exact h.closed hv hs (by by_contra hh; exact hI.arr s hh hg)
        rw [upd_ne _ _ hu]; exact h.wait s u hs hg
    · rw [hH, hev]; dsimp only
      intro s u hs hg hn
      have e : s ≠ r := by rintro rfl; exact hg hg0
      rw [upd_ne _ _ e] at hs
      have hu : u ≠ v := by rintro rfl; exact h.closed hv hs hn
      rw [upd_ne _ _ hu]; exact h.ride s u hs hg hn
    · rw [hH]; dsimp only
      intro s s' u hs hs' hn hn'
      by_cases e : s = r
      · by_cases e' : s' = r
        · rw [e, e']
        · subst e; rw [upd_same] at hs; cases hs
          rw [upd_ne _ _ e'] at hs'
          exact absurd hn' (h.closed hv hs')
      · rw [upd_ne _ _ e] at hs
        by_cases e' : s' = r
        · subst e'; rw [upd_same] at hs'; cases hs'
          exact absurd hn (h.closed hv hs)
        · rw [upd_ne _ _ e'] at hs'
          exact h.one s s' u hs hs' hn hn'

/-- Any API step that assigns no taxi. -/
theorem api {W W' : World} (hi : Inv W) (hI : TaxiInv W) (h : ServeInv W) (hs : ApiStep W W')
    (hno : ∀ r, W.H.taxi r = none → W'.H.taxi r = none)
    (hne : ∀ r, r < W'.H.nReq → W'.H.orig r ≠ W'.H.dest r) : ServeInv W' := by
  rcases hs.taxi with ⟨s, _⟩ | ⟨s, _⟩ | ⟨a, ha⟩ | ⟨v, d, k, hv, ha⟩ | ⟨o, d, t, ha⟩ | ⟨v, r, hv, ha⟩ | ⟨f, hT, ha⟩
  · exact h.same s.H s.ev
  · exact h.same s.H s.ev
  · obtain ⟨o, d, dep, pref, cache, lp, la, nm, -, -, -, -, -, -, -, -, rfl⟩ := addVehicle_ok ha
    constructor
    · exact h.ne
    · intro r v hr hg
      show upd W.V.nodeEvent W.nVeh (fun _ => none) v _ = _
      rw [upd_ne _ _ (Nat.ne_of_lt (hI.taxi r v hr).2.1)]; exact h.wait r v hr hg
    · intro r v hr hg hn
      show upd W.V.nodeEvent W.nVeh (fun _ => none) v _ = _
      rw [upd_ne _ _ (Nat.ne_of_lt (hI.taxi r v hr).2.1)]; exact h.ride r v hr hg hn
    · exact h.one
  · exact h.same (TaxiInv.addDest_effect ha).2.1 (TaxiInv.addDest_effect ha).2.2.1
  · unfold World.addTripRequest at ha
    rw [bind_ok] at ha
    obtain ⟨o', _, ha⟩ := ha
    rw [bind_ok] at ha
    obtain ⟨d', _, ha⟩ := ha
    simp only [pure_ok] at ha
    subst ha
    have hn : ∀ r v, upd W.H.taxi W.H.nReq none r = some v → r ≠ W.H.nReq := by
      rintro r v hr rfl; rw [upd_same] at hr; cases hr
    constructor
    · exact hne
    · dsimp only; intro r v hr
      have := hn r v hr
      rw [upd_ne _ _ this] at hr
      rw [upd_ne _ _ this, upd_ne _ _ this]; exact h.wait r v hr
    · dsimp only; intro r v hr
      have := hn r v hr
      rw [upd_ne _ _ this] at hr
      rw [upd_ne _ _ this, upd_ne _ _ this, upd_ne _ _ this]; exact h.ride r v hr
    · dsimp only; intro r s v hr hs'
      have n1 := hn r v hr
      have n2 := hn s v hs'
      rw [upd_ne _ _ n1] at hr
      rw [upd_ne _ _ n2] at hs'
      rw [upd_ne _ _ n1, upd_ne _ _ n2]; exact h.one r s v hr hs'
  · exfalso
    unfold World.assignTaxi at ha
    split at ha
    · simp at ha
    · rename_i hr
      rw [bind_ok] at ha
      obtain ⟨W1, h1, ha⟩ := ha
      simp only [pure_ok] at ha
      have := hno r (hI.pend r (by simpa using hr)).2
      rw [← ha] at this
      simp [upd_same] at this
  · obtain ⟨W1, h1, rfl⟩ := tick_ok ha
    obtain ⟨W6, ⟨h6, h7⟩, rfl⟩ := step_taxi (P := fun X => TaxiInv X ∧ ServeInv X) (hi.core f)
      (fun _ _ hs h => ⟨h.1.same hs, h.2.same hs.H hs.ev⟩)
      (fun _ _ _ hu h => ⟨h.1.update hu, h.2.update hu h.1⟩) h1 ⟨hI, h⟩
    exact h7.same rfl rfl

theorem new (cfg tmax rng) : ServeInv (World.new cfg tmax rng) := by
  constructor
  · intro r hr; exact absurd hr (Nat.not_lt_zero _)
  · intro r v hr; cases hr
  · intro r v hr; cases hr
  · intro r s v hr; cases hr

end ServeInv

/-- A taxi without destination has no pending event. -/
theorem TaxiInv.vacant {W : World} (h : TaxiInv W) {v} (hm : W.V.mode v = .taxi)
    (hd : W.V.dest v = none) (n) : W.V.nodeEvent v n = none := by
  by_contra hh
  rcases h.todo v n hh with h1 | h1
  · rw [hd] at h1; cases h1
  · rw [h.idle v hm hd] at h1; cases h1

end UX
