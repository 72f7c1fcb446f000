import Verif.Proofs.CppDta

/-!
# Travel times of links and the passages of a run
-/

namespace UX.Cpp
open CWorld Spec

theorem lastAt_of {x : ℚ} {i k : ℕ} {evs : List (ℕ × ℚ)} {e : ℕ × ℚ} (hk : evs[k]? = some e) (h1 : e.1 ≤ i)
    (h2 : ∀ k' e', k < k' → evs[k']? = some e' → i < e'.1) : lastAt x i evs = e.2 := by
  obtain ⟨hlt, rfl⟩ := List.getElem?_eq_some_iff.1 hk
  have e0 : evs = evs.take k ++ evs[k] :: evs.drop (k + 1) := by
    rw [← List.drop_eq_getElem_cons hlt, List.take_append_drop]
  have e1 : (evs.drop (k + 1)).filter (fun e => decide (e.1 ≤ i)) = [] := by
    rw [List.filter_eq_nil_iff]
    intro e' he'
    obtain ⟨j, hj, rfl⟩ := List.getElem_of_mem he'
    rw [List.getElem_drop]
    have := h2 (k + 1 + j) _ (by omega) (List.getElem?_eq_getElem (by rw [List.length_drop] at hj; omega))
    simpa using this
  unfold lastAt
  have e2 : evs.filter (fun e => decide (e.1 ≤ i)) =
      (evs.take k).filter (fun e => decide (e.1 ≤ i)) ++ [evs[k]] := by
    conv_lhs => rw [e0]
    rw [List.filter_append, List.filter_cons_of_pos (by simpa using h1), e1]
  rw [e2, List.getLast?_append]
  rfl

theorem clock_id {g : CGlob} (hfl : g.fl = id) (s : ℕ) : clock g s = s * g.deltaT := by
  unfold clock; rw [hfl]; rfl

theorem record_fst {g : CGlob} (hfl : g.fl = id) (hT : 0 < g.deltaT) (e : Pass) (s : ℕ) :
    (record g e (clock g s)).1 = s := by
  unfold record
  simp only [hfl, id, clock_id hfl]
  rw [mul_div_assoc, div_self hT.ne', mul_one]
  simp [pyInt]

theorem Spec.Fifo.pair {W W' : CWorld} {l : ℕ} {h : List Pass} {ts : List ℚ} (f : Fifo W W' l h ts)
    (hq : (W.link l).vehs = []) {k : ℕ} {a b : Pass} (ha : (into l h)[k]? = some a)
    (hb : (outOf l h)[k]? = some b) : a.veh = b.veh ∧ ts[k]? = some (clock W.g a.time) := by
  have ho := congrArg (fun xs : List (ℕ × ℚ) => xs[k]?) f.order
  have hk : k < (outOf l h).length := (List.getElem?_eq_some_iff.1 hb).1
  have hk' : k < ts.length := by rw [f.length]; exact hk
  simp only [queue, hq, List.map_nil, List.nil_append, List.getElem?_map, ha, Option.map_some] at ho
  rw [List.getElem?_append_left (by rw [List.length_zip, List.length_map]; omega),
    List.getElem?_zip_eq_some (z := (b.veh, ts[k])) |>.2 ⟨(by rw [List.getElem?_map, hb]; rfl), List.getElem?_eq_getElem hk'⟩] at ho
  simp only [Option.some.injEq, Prod.mk.injEq] at ho
  exact ⟨ho.1, by rw [List.getElem?_eq_getElem hk', ho.2]⟩

theorem Spec.Fifo.le {W W' : CWorld} {l : ℕ} {h : List Pass} {ts : List ℚ} (f : Fifo W W' l h ts)
    (hq : (W.link l).vehs = []) : (outOf l h).length ≤ (into l h).length := by
  have ho := congrArg List.length f.order
  simp only [queue, hq, List.map_nil, List.nil_append, List.length_map, List.length_append, List.length_zip,
    f.length] at ho
  omega

theorem Spec.Fifo.event {W W' : CWorld} {l : ℕ} {h : List Pass} {ts : List ℚ} (f : Fifo W W' l h ts)
    (hq : (W.link l).vehs = []) (he : (W.link l).ttEvents = []) {k : ℕ} {a b : Pass}
    (ha : (into l h)[k]? = some a) (hb : (outOf l h)[k]? = some b) :
    (W'.link l).ttEvents[k]? = some (record W.g b (clock W.g a.time)) := by
  rw [f.records, he, List.nil_append, List.getElem?_zipWith, hb, (f.pair hq ha hb).2]

/-- The time step at whose start, or end for the last link of a trip, a vehicle leaves with passage `b`. -/
def leaveStep (b : Pass) : ℕ := if b.enters = none then b.time + 1 else b.time

theorem Spec.Fifo.lastAt {W W' : CWorld} {l : ℕ} {h : List Pass} {ts : List ℚ} (f : Fifo W W' l h ts)
    (hfl : W.g.fl = id) (hT : 0 < W.g.deltaT)
    (hq : (W.link l).vehs = []) (he : (W.link l).ttEvents = []) {k : ℕ} {a b : Pass}
    (ha : (into l h)[k]? = some a) (hb : (outOf l h)[k]? = some b) {j : ℕ} (hj : a.time ≤ j)
    (hn : ∀ k' a', k < k' → k' < (outOf l h).length → (into l h)[k']? = some a' → j < a'.time) (x : ℚ) :
    Spec.lastAt x j (W'.link l).ttEvents = (leaveStep b : ℚ) * W.g.deltaT - a.time * W.g.deltaT := by
  rw [lastAt_of (f.event hq he ha hb) (by rw [record_fst hfl hT]; exact hj)]
  · unfold record leaveStep
    simp only [hfl, id]
    rw [clock_id hfl, clock_id hfl]
  · intro k' e' hk he'
    have hlen : k' < (outOf l h).length := by
      have := (List.getElem?_eq_some_iff.1 he').1
      rw [f.records, he, List.nil_append, List.length_zipWith] at this
      omega
    obtain ⟨a', ha'⟩ : ∃ a', (into l h)[k']? = some a' :=
      ⟨_, List.getElem?_eq_getElem (lt_of_lt_of_le hlen (f.le hq))⟩
    rw [f.event hq he ha' (List.getElem?_eq_getElem hlen), Option.some.injEq] at he'
    rw [← he', record_fst hfl hT]
    exact hn k' a' hk hlen ha'

/-! ## The passages of one vehicle -/

theorem Spec.Travel.own_filter {v : ℕ} {p q : Option ℕ} {h : List Pass} (t : Travel v p h q) :
    Travel v p (h.filter (fun e => e.veh = v)) q := by
  induction t with
  | nil p => exact .nil p
  | own hv hp w ih => rw [List.filter_cons_of_pos (by simpa using hv)]; exact .own hv hp ih
  | other hv w ih => rw [List.filter_cons_of_neg (by simpa using hv)]; exact ih

/-- The passages of a vehicle from its first link to the end of its trip. -/
inductive Trip (q : ℕ → ℚ → ℚ) (dt : ℚ) : List Pass → Prop
  | last (l : ℕ) (e f : Pass) (he : e.enters = some l) (hf : f.enters = none)
      (hq : q l (e.time * dt) = (leaveStep f : ℚ) * dt - e.time * dt) : Trip q dt [e, f]
  | go (l : ℕ) (e f : Pass) (h : List Pass) (he : e.enters = some l) (hf : f.enters ≠ none)
      (hq : q l (e.time * dt) = (leaveStep f : ℚ) * dt - e.time * dt) (t : Trip q dt (f :: h)) :
      Trip q dt (e :: f :: h)

theorem Trip.total {q : ℕ → ℚ → ℚ} {dt : ℚ} {h : List Pass} (t : Trip q dt h) (e f : Pass)
    (he : h.head? = some e) (hf : h.getLast? = some f) :
    total q q (h.filterMap Pass.enters) (e.time * dt) = ((f.time + 1 : ℕ) : ℚ) * dt - e.time * dt := by
  induction t generalizing e with
  | last l a b ha hb hq =>
    simp only [List.head?_cons, Option.some.injEq, List.getLast?_cons_cons, List.getLast?_singleton] at he hf
    subst he hf
    simp only [List.filterMap_cons, List.filterMap_nil, ha, hb]
    unfold Spec.total drive
    simp only [drive, List.map_cons, List.map_nil, List.sum_cons, List.sum_nil, add_zero, hq]
    unfold leaveStep
    rw [if_pos hb]
  | go l a b h ha hb hq t ih =>
    simp only [List.head?_cons, Option.some.injEq, List.getLast?_cons_cons] at he hf
    subst he
    have e1 := ih b rfl hf
    unfold leaveStep at hq
    rw [if_neg hb] at hq
    rw [List.filterMap_cons, ha]
    simp only
    unfold Spec.total at e1 ⊢
    simp only [drive, List.map_cons, List.sum_cons, hq]
    rw [add_sub_cancel, e1]
    ring

theorem trip_of {q : ℕ → ℚ → ℚ} {dt : ℚ} {v : ℕ} {h : List Pass} {e : Pass} {l : ℕ} {r : Option ℕ}
    (t : Travel v (some l) h r) (hr : r = none) (he : e.enters = some l) (hv : ∀ a ∈ h, a.veh = v)
    (hend : ∀ a ∈ h, a.leaves ≠ none)
    (hp : ∀ l a b, a ∈ e :: h → b ∈ h → a.enters = some l → b.leaves = some l →
      q l (a.time * dt) = (leaveStep b : ℚ) * dt - a.time * dt) : Trip q dt (e :: h) := by
  induction h generalizing e l with
  | nil => cases t with | nil => simp at hr
  | cons f h ih =>
    cases t with
    | other hf w => exact absurd (hv f (by simp)) hf
    | own hf hl w =>
      have hq := hp l e f (by simp) (by simp) he hl
      cases hfe : f.enters with
      | none =>
        cases h with
        | nil => exact .last l e f he hfe hq
        | cons g h =>
          rw [hfe] at w
          cases w with
          | other hg w => exact absurd (hv g (by simp)) hg
          | own hg hl' w => exact absurd hl' (hend g (by simp))
      | some m =>
        rw [hfe] at w
        exact .go l e f h he (by rw [hfe]; simp) hq (ih w hfe (fun a ha => hv a (by simp [ha]))
          (fun a ha => hend a (by simp [ha])) (fun l a b ha hb => hp l a b (by
            rcases List.mem_cons.1 ha with rfl | ha
            · simp
            · simp [ha]) (by simp [hb])))

theorem Spec.Travel.last {v : ℕ} {p q : Option ℕ} {h : List Pass} (t : Travel v p h q)
    (hv : ∀ a ∈ h, a.veh = v) {f : Pass} (hf : h.getLast? = some f) : q = f.enters := by
  induction t with
  | nil p => simp at hf
  | other hn w ih => exact absurd (hv _ (by simp)) hn
  | own hn hp w ih =>
    rename_i e h
    cases h with
    | nil =>
      simp only [List.getLast?_singleton, Option.some.injEq] at hf
      subst hf
      cases w; rfl
    | cons g h => exact ih (fun a ha => hv a (by simp [ha])) (by rw [List.getLast?_cons_cons] at hf; exact hf)

theorem filterMap_inj {α β : Type} {f : α → Option β} {xs : List α} (hn : (xs.filterMap f).Nodup) {a c : α}
    (ha : a ∈ xs) (hc : c ∈ xs) {b : β} (hfa : f a = some b) (hfc : f c = some b) : c = a := by
  induction xs with
  | nil => simp at ha
  | cons x xs ih =>
    have key : ∀ y ∈ xs, f x = some b → f y = some b → False := fun y hy h1 h2 => by
      rw [List.filterMap_cons, h1] at hn
      exact (List.nodup_cons.1 hn).1 (List.mem_filterMap.2 ⟨y, hy, h2⟩)
    have hn' : (xs.filterMap f).Nodup := by
      rw [List.filterMap_cons] at hn
      split at hn
      · exact hn
      · exact (List.nodup_cons.1 hn).2
    rcases List.mem_cons.1 ha with rfl | ha'
    · rcases List.mem_cons.1 hc with rfl | hc'
      · rfl
      · exact (key c hc' hfa hfc).elim
    · rcases List.mem_cons.1 hc with rfl | hc'
      · exact (key a ha' hfc hfa).elim
      · exact ih hn' ha' hc'

/-- The travel time read at the entry of a vehicle after which no other enters in the same time step. -/
theorem Spec.Fifo.lastAt_own {W W' : CWorld} {l v : ℕ} {h : List Pass} {ts : List ℚ} (f : Fifo W W' l h ts)
    (hfl : W.g.fl = id) (hT : 0 < W.g.deltaT)
    (hq : (W.link l).vehs = []) (he : (W.link l).ttEvents = []) {a b : Pass} (ha : a.enters = some l)
    (hb : b ∈ h) (hbl : b.leaves = some l) (hbv : b.veh = v)
    (hu : ∀ c ∈ h, c.veh = v → c.enters = some l → c = a)
    (ho : (Spec.into l h).Pairwise (fun c d => c.veh = v → c.time < d.time)) (x : ℚ) :
    Spec.lastAt x a.time (W'.link l).ttEvents = (leaveStep b : ℚ) * W.g.deltaT - a.time * W.g.deltaT := by
  have hb' : b ∈ outOf l h := List.mem_filter.2 ⟨hb, by simpa using hbl⟩
  obtain ⟨k, hk, rfl⟩ := List.getElem_of_mem hb'
  have hki : k < (Spec.into l h).length := lt_of_lt_of_le hk (f.le hq)
  have hp := f.pair hq (List.getElem?_eq_getElem hki) (List.getElem?_eq_getElem hk)
  have hmem : (Spec.into l h)[k] ∈ Spec.into l h := List.getElem_mem hki
  have hc := hu _ (List.mem_of_mem_filter hmem) (hp.1.trans hbv) (by simpa using (List.mem_filter.1 hmem).2)
  rw [← hc]
  refine f.lastAt hfl hT hq he (List.getElem?_eq_getElem hki) (List.getElem?_eq_getElem hk) le_rfl
    (fun k' a' hkk _ ha' => ?_) x
  obtain ⟨hk', rfl⟩ := List.getElem?_eq_some_iff.1 ha'
  exact List.pairwise_iff_getElem.1 ho k k' hki hk' hkk (hp.1.trans hbv)

end UX.Cpp
