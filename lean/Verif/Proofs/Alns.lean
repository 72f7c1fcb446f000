import Verif.Spec.Solvers
import Verif.Proofs.Random
import Mathlib.Algebra.Order.Field.Rat

/-! Proofs about the adaptive large neighbourhood search. -/

namespace UX
namespace ALNS

/-! ## Destroying -/

theorem blank_spec : ∀ (removed : List ℕ) {x xx : Vec}, Outcome (blank x removed) xx →
    Destroyed x removed xx
  | [], x, xx, h => by
    cases Outcome.pure h
    exact ⟨by simp, rfl, fun _ _ => rfl, by simp⟩
  | i :: is, x, xx, h => by
    unfold blank at h
    split at h
    · exact (Outcome.fail h).elim
    · next hi =>
      have ih := blank_spec is h
      push Not at hi
      refine ⟨fun j hj => ?_, by simpa using ih.length, fun j hj => ?_, fun j hj => ?_⟩
      · rcases List.mem_cons.mp hj with rfl | hj
        · exact hi
        · simpa using ih.valid j hj
      · rw [List.mem_cons, not_or] at hj
        rw [ih.other j hj.2, List.getElem?_set_ne (Ne.symm hj.1)]
      · by_cases hj' : j ∈ is
        · exact ih.blanked j hj'
        · rcases List.mem_cons.mp hj with rfl | hj
          · rw [ih.other _ hj', List.getElem?_set_self hi]
          · exact absurd hj hj'

theorem destroyRandom_spec {c : AlnsCfg} {s : AlnsState} {x : Vec} {p : List ℕ × Vec}
    (h : Outcome (destroyRandom c s x) p) :
    Destroyed x p.1 p.2 ∧ c.kMin ≤ p.1.length ∧ p.1.length ≤ s.kCur ∧ p.1.Nodup := by
  obtain ⟨k, hk, h⟩ := Outcome.bind h
  obtain ⟨rem, hr, h⟩ := Outcome.bind h
  obtain ⟨xx, hx, h⟩ := Outcome.bind h
  cases Outcome.pure h
  have hk := Outcome.randint hk
  obtain ⟨hl, hs⟩ := Outcome.sample hr
  dsimp only
  refine ⟨blank_spec _ hx, by omega, by omega, ?_⟩
  obtain ⟨l, hperm, hsub⟩ := hs
  exact hperm.nodup_iff.mp (hsub.nodup List.nodup_range)

theorem destroySegment_spec {c : AlnsCfg} {s : AlnsState} {x : Vec} {p : List ℕ × Vec}
    (h : Outcome (destroySegment c s x) p) (hk : 1 ≤ s.kCur) :
    Destroyed x p.1 p.2 ∧ p.1.length ≤ s.kCur ∧ p.1.Nodup ∧ (2 ≤ x.length → 1 ≤ p.1.length) := by
  unfold destroySegment at h
  split at h
  · obtain ⟨a, b, d, e⟩ := destroyRandom_spec h
    exact ⟨a, d, e, by omega⟩
  · obtain ⟨a, ha, h⟩ := Outcome.bind h
    obtain ⟨b, hb, h⟩ := Outcome.bind h
    obtain ⟨xx, hx, h⟩ := Outcome.bind h
    cases Outcome.pure h
    refine ⟨blank_spec _ hx, ?_, List.nodup_range.sublist (List.drop_sublist _ _), fun _ => ?_⟩
    · simp only [List.length_drop, List.length_range]
      unfold segmentEnd
      dsimp only
      split_ifs <;> omega
    · simp only [List.length_drop, List.length_range]
      have ha := Outcome.randint ha
      have hb := Outcome.randint hb
      unfold segmentEnd
      dsimp only
      split_ifs <;> omega

theorem destroyCongested_spec {c : AlnsCfg} {s : AlnsState} {x : Vec} {p : List ℕ × Vec}
    (h : Outcome (destroyCongested c s x) p) :
    Destroyed x p.1 p.2 ∧ c.kMin ≤ p.1.length ∧ p.1.length ≤ s.kCur := by
  obtain ⟨k, hk, h⟩ := Outcome.bind h
  obtain ⟨rem, hr, h⟩ := Outcome.bind h
  obtain ⟨xx, hx, h⟩ := Outcome.bind h
  cases Outcome.pure h
  have hk := Outcome.randint hk
  have hl := (Outcome.collect _ hr).length_eq
  rw [List.length_range] at hl
  dsimp only
  exact ⟨blank_spec _ hx, by omega, by omega⟩

theorem destroy_spec {c : AlnsCfg} {s : AlnsState} {x : Vec} {d : DOp} {p : List ℕ × Vec}
    (h : Outcome (destroy c s x d) p) (hk : 1 ≤ s.kCur) :
    Destroyed x p.1 p.2 ∧ p.1.length ≤ s.kCur := by
  cases d with
  | random => exact ⟨(destroyRandom_spec h).1, (destroyRandom_spec h).2.2.1⟩
  | earlyDep => exact ⟨(destroyRandom_spec h).1, (destroyRandom_spec h).2.2.1⟩
  | lateDep => exact ⟨(destroyRandom_spec h).1, (destroyRandom_spec h).2.2.1⟩
  | segment => exact ⟨(destroySegment_spec h hk).1, (destroySegment_spec h hk).2.1⟩
  | congestLink => exact ⟨(destroyCongested_spec h).1, (destroyCongested_spec h).2.2⟩

/-! ## Repairing -/

theorem choices_mem {dom : List ℕ} {cur : Option ℕ} {v : ℕ} (h : v ∈ choices dom cur) :
    v ∈ dom ∧ ((∃ w ∈ dom, some w ≠ cur) → dom.length ≠ 1 → some v ≠ cur) := by
  unfold choices at h
  split at h
  · dsimp only at h
    split at h
    · next he =>
      refine ⟨h, fun ⟨w, hw, hne⟩ _ => ?_⟩
      rw [List.isEmpty_iff, List.filter_eq_nil_iff] at he
      exact absurd hne (by simpa using he w hw)
    · rw [List.mem_filter] at h
      exact ⟨h.1, fun _ _ => by simpa using h.2⟩
  · next hl =>
    refine ⟨h, fun _ h1 => ?_⟩
    have := List.length_pos_of_mem h
    omega

/-- A completed vector: only removed positions differ from the base, and these have values of their
domains. -/
structure Repaired (doms : List (List ℕ)) (base : Vec) (removed : List ℕ) (x : Vec) : Prop where
  length : x.length = base.length
  other : ∀ i : ℕ, i ∉ removed → x[i]? = base[i]?
  value : ∀ i ∈ removed, ∃ v d, doms[i]? = some d ∧ v ∈ d ∧ x[i]? = some (some v)

theorem repairRandom_spec {c : AlnsCfg} {base px : Vec} {removed : List ℕ} {q : Vec × List ℕ}
    (hd : Destroyed base removed px) (h : Outcome (repairRandom c base px removed) q) :
    Repaired c.domains base removed q.1 ∧ q.2 = removed ∧
    ∀ i ∈ removed, ∀ d, c.domains[i]? = some d → 1 < d.length →
      (∃ w ∈ d, base[i]? ≠ some (some w)) → q.1[i]? ≠ base[i]? := by
  obtain ⟨x, hx, h⟩ := Outcome.bind h
  cases Outcome.pure h
  have key : ∀ (rs : List ℕ) (px : Vec) (x : Vec), px.length = base.length →
      (∀ i ∈ rs, i < base.length) →
      Outcome (RandM.loop (fun x i =>
        match base[i]?, c.domains[i]? with
        | some cur, some dom => do
          let v ← RandM.choice (choices dom cur)
          pure (x.set i (some v))
        | _, _ => RandM.fail .indexError) px rs) x →
      x.length = base.length ∧ (∀ i : ℕ, i ∉ rs → x[i]? = px[i]?) ∧
      ∀ i ∈ rs, ∃ cur dom v, base[i]? = some cur ∧ c.domains[i]? = some dom ∧ v ∈ choices dom cur ∧
        x[i]? = some (some v) := by
    intro rs
    induction rs with
    | nil =>
      intro px x hl _ h
      cases Outcome.pure h
      exact ⟨hl, fun _ _ => rfl, by simp⟩
    | cons i is ih =>
      intro px x hl hv h
      obtain ⟨y, hy, h⟩ := Outcome.bind h
      dsimp only at hy
      cases hb : base[i]? with
      | none => rw [hb] at hy; exact (Outcome.fail hy).elim
      | some cur =>
        cases hdm : c.domains[i]? with
        | none => rw [hb, hdm] at hy; exact (Outcome.fail hy).elim
        | some dom =>
          rw [hb, hdm] at hy
          obtain ⟨v, hvm, hy⟩ := Outcome.bind hy
          cases Outcome.pure hy
          have hvm := Outcome.choice hvm
          obtain ⟨l1, l2, l3⟩ := ih (px.set i (some v)) x (by simpa using hl)
            (fun j hj => hv j (List.mem_cons_of_mem _ hj)) h
          refine ⟨l1, fun j hj => ?_, fun j hj => ?_⟩
          · rw [List.mem_cons, not_or] at hj
            rw [l2 j hj.2, List.getElem?_set_ne (Ne.symm hj.1)]
          · by_cases hj' : j ∈ is
            · exact l3 j hj'
            · rcases List.mem_cons.mp hj with rfl | hj
              · refine ⟨cur, dom, v, hb, hdm, hvm, ?_⟩
                rw [l2 _ hj', List.getElem?_set_self]
                rw [hl]; exact hv _ (List.mem_cons_self ..)
              · exact absurd hj hj'
  obtain ⟨k1, k2, k3⟩ := key removed px x hd.length hd.valid hx
  refine ⟨⟨k1, fun i hi => (k2 i hi).trans (hd.other i hi), fun i hi => ?_⟩, rfl,
    fun i hi d hdm hl ⟨w, hw, hne⟩ => ?_⟩
  · obtain ⟨cur, dom, v, -, e2, e3, e4⟩ := k3 i hi
    exact ⟨v, dom, e2, (choices_mem e3).1, e4⟩
  · obtain ⟨cur, dom, v, e1, e2, e3, e4⟩ := k3 i hi
    rw [hdm] at e2; cases e2
    rw [e4, e1]
    intro e
    have e' : some v = cur := by simpa using e
    refine (choices_mem e3).2 ⟨w, hw, fun h => hne ?_⟩ (by omega) e'
    rw [e1, h]

theorem cheapest_spec (cost : ℕ → ℚ) : ∀ (vs : List ℕ) (q : ℚ) (b : ℕ), q = cost b →
    ∃ v, cheapest cost vs (some q) (some b) = (some (cost v), some v) ∧ v ∈ b :: vs ∧
      ∀ w ∈ b :: vs, cost v ≤ cost w
  | [], q, b, h => ⟨b, by simp [cheapest, h], by simp, by simp⟩
  | w :: vs, q, b, h => by
    unfold cheapest
    dsimp only
    by_cases hlt : cost w < q
    · obtain ⟨v, e, hm, hle⟩ := cheapest_spec cost vs (cost w) w rfl
      refine ⟨v, by rw [if_pos hlt]; exact e, List.mem_cons_of_mem _ hm, fun u hu => ?_⟩
      rcases List.mem_cons.mp hu with rfl | hu
      · exact (hle w (List.mem_cons_self ..)).trans (h ▸ hlt.le)
      · exact hle u hu
    · obtain ⟨v, e, hm, hle⟩ := cheapest_spec cost vs q b h
      refine ⟨v, by rw [if_neg hlt]; exact e, ?_, fun u hu => ?_⟩
      · rcases List.mem_cons.mp hm with rfl | hm
        · exact List.mem_cons_self ..
        · exact List.mem_cons_of_mem _ (List.mem_cons_of_mem _ hm)
      · rcases List.mem_cons.mp hu with rfl | hu
        · exact hle _ (List.mem_cons_self ..)
        · rcases List.mem_cons.mp hu with rfl | hu
          · exact (hle b (List.mem_cons_self ..)).trans (h ▸ not_lt.mp hlt)
          · exact hle u (List.mem_cons_of_mem _ hu)

theorem cheapest_start (cost : ℕ → ℚ) (vs : List ℕ) (hv : vs ≠ []) (b : Option ℕ) :
    ∃ v ∈ vs, (cheapest cost vs none b).2 = some v ∧ ∀ w ∈ vs, cost v ≤ cost w := by
  cases vs with
  | nil => exact absurd rfl hv
  | cons a t =>
    obtain ⟨v, e, hm, hle⟩ := cheapest_spec cost t (cost a) a rfl
    exact ⟨v, hm, by rw [cheapest, e], hle⟩

theorem repairMinCost_spec {c : AlnsCfg} {base : Vec} {removed : List ℕ} {q : Vec × List ℕ}
    (hdom : ∀ d ∈ c.domains, d ≠ []) (h : Outcome (repairMinCost c base removed) q) :
    Repaired c.domains base removed q.1 ∧ (∀ j ∈ q.2, j ∈ removed) ∧
    (∀ i ∈ removed, ∀ (d : List ℕ) (v : ℕ), c.domains[i]? = some d → q.1[i]? = some (some v) →
      ∀ w ∈ d, c.cost i v ≤ c.cost i w) ∧
    (q.1 ≠ base → q.2 ≠ []) := by
  obtain ⟨a, ha, h⟩ := Outcome.bind h
  cases Outcome.pure h
  have key : ∀ (rs : List ℕ) (a0 a : MinAcc), Outcome (RandM.loop (minStep c) a0 rs) a →
      a.x.length = a0.x.length ∧ (∀ i : ℕ, i ∉ rs → a.x[i]? = a0.x[i]?) ∧
      (∀ i ∈ rs, ∃ v d, c.domains[i]? = some d ∧ v ∈ d ∧ a.x[i]? = some (some v) ∧
        ∀ w ∈ d, c.cost i v ≤ c.cost i w) ∧
      (∀ j ∈ a.changed, j ∈ a0.changed ∨ j ∈ rs) ∧
      (a.x ≠ a0.x → a.changed ≠ []) ∧ (a0.changed ≠ [] → a.changed ≠ []) := by
    intro rs
    induction rs with
    | nil =>
      intro a0 a h
      cases Outcome.pure h
      exact ⟨rfl, fun _ _ => rfl, by simp, fun j hj => Or.inl hj, fun h => absurd rfl h, id⟩
    | cons i is ih =>
      intro a0 a h
      obtain ⟨b, hb, h⟩ := Outcome.bind h
      unfold minStep at hb
      cases hx : a0.x[i]? with
      | none => rw [hx] at hb; exact (Outcome.fail hb).elim
      | some orig =>
        cases hdm : c.domains[i]? with
        | none => rw [hx, hdm] at hb; exact (Outcome.fail hb).elim
        | some dom =>
          obtain ⟨v, hv, ev, hle⟩ :=
            cheapest_start (c.cost i) dom (hdom dom (List.mem_of_getElem? hdm)) a0.bestVal
          rw [hx, hdm] at hb
          dsimp only at hb
          rw [ev] at hb
          cases Outcome.pure hb
          obtain ⟨l1, l2, l3, l4, l5, l6⟩ := ih _ a h
          dsimp only at l1 l2 l4 l5 l6
          have hi := (List.getElem?_eq_some_iff.mp hx).1
          refine ⟨by simpa using l1, fun j hj => ?_, fun j hj => ?_, fun j hj => ?_, fun hne => ?_,
            fun hne => ?_⟩
          · rw [List.mem_cons, not_or] at hj
            rw [l2 j hj.2, List.getElem?_set_ne (Ne.symm hj.1)]
          · by_cases hj' : j ∈ is
            · exact l3 j hj'
            · rcases List.mem_cons.mp hj with rfl | hj
              · exact ⟨v, dom, hdm, hv, by rw [l2 _ hj', List.getElem?_set_self hi], hle⟩
              · exact absurd hj hj'
          · rcases l4 j hj with e | e
            · split at e
              · rcases List.mem_append.mp e with e | e
                · exact Or.inl e
                · rw [List.mem_singleton] at e; exact Or.inr (e ▸ List.mem_cons_self ..)
              · exact Or.inl e
            · exact Or.inr (List.mem_cons_of_mem _ e)
          · by_cases hvo : some v = orig
            · apply l5
              rw [show a0.x.set i (some v) = a0.x from by
                rw [hvo]
                have := List.set_getElem_self hi
                rw [(List.getElem?_eq_some_iff.mp hx).2] at this
                exact this]
              exact hne
            · exact l6 (by simp [hvo])
          · apply l6
            split
            · simp
            · exact hne
  obtain ⟨k1, k2, k3, k4, k5, -⟩ := key removed _ a ha
  dsimp only at k1 k2 k4 k5
  refine ⟨⟨k1, k2, fun i hi => ?_⟩, fun j hj => by simpa using k4 j hj, fun i hi d v hd hv => ?_, k5⟩
  · obtain ⟨v, d, e1, e2, e3, -⟩ := k3 i hi
    exact ⟨v, d, e1, e2, e3⟩
  · obtain ⟨v', d', e1, e2, e3, e4⟩ := k3 i hi
    rw [hd] at e1; cases e1
    dsimp only at hv
    rw [hv] at e3; cases e3
    exact e4

theorem repair_spec {c : AlnsCfg} {base px : Vec} {removed : List ℕ} {r : ROp} {q : Vec × List ℕ}
    (hdom : ∀ d ∈ c.domains, d ≠ []) (hd : Destroyed base removed px)
    (h : Outcome (repair c base px removed r) q) :
    Repaired c.domains base removed q.1 ∧ ∀ j ∈ q.2, j ∈ removed := by
  cases r with
  | random =>
    obtain ⟨a, b, -⟩ := repairRandom_spec hd h
    exact ⟨a, fun j hj => b ▸ hj⟩
  | minCost =>
    obtain ⟨a, b, -⟩ := repairMinCost_spec hdom h
    exact ⟨a, b⟩

theorem Repaired.inDomains {doms : List (List ℕ)} {base x : Vec} {removed : List ℕ}
    (hr : Repaired doms base removed x) (hb : InDomains doms base) : InDomains doms x := by
  refine ⟨hr.length.trans hb.1, fun i a d ha hd => ?_⟩
  by_cases hi : i ∈ removed
  · obtain ⟨v, d', e1, e2, e3⟩ := hr.value i hi
    rw [hd] at e1; cases e1
    rw [ha] at e3; cases e3
    exact ⟨v, e2, rfl⟩
  · exact hb.2 i a d (hr.other i hi ▸ ha) hd

/-! ## One step -/

theorem sizeNow_bounds (c : AlnsCfg) (it : ℕ) (h : c.kMin ≤ c.kMax) :
    c.kMin ≤ sizeNow c it ∧ sizeNow c it ≤ c.kMax := by
  unfold sizeNow
  dsimp only
  split_ifs <;> omega

theorem segmentUpdate_frame (c : AlnsCfg) (s : AlnsState) :
    let t := segmentUpdate c s
    t.kCur = s.kCur ∧ t.xCur = s.xCur ∧ t.xBest = s.xBest ∧ t.cur = s.cur ∧ t.best = s.best ∧
      t.it = s.it ∧ t.nEval = s.nEval ∧ t.steps = s.steps := by
  have hd : ∀ (ms : List DOp) (s : AlnsState),
      let t := ms.foldl (fun s m =>
        { s with
          dWeight := upd s.dWeight m (newWeight c (s.dWeight m) (s.dScore m) (s.dUses m))
          dScore := upd s.dScore m 0
          dUses := upd s.dUses m 0 }) s
      t.kCur = s.kCur ∧ t.xCur = s.xCur ∧ t.xBest = s.xBest ∧ t.cur = s.cur ∧ t.best = s.best ∧
        t.it = s.it ∧ t.nEval = s.nEval ∧ t.steps = s.steps := by
    intro ms
    induction ms with
    | nil => intro s; simp
    | cons m ms ih => intro s; exact ih _
  have hr : ∀ (ms : List ROp) (s : AlnsState),
      let t := ms.foldl (fun s m =>
        { s with
          rWeight := upd s.rWeight m (newWeight c (s.rWeight m) (s.rScore m) (s.rUses m))
          rScore := upd s.rScore m 0
          rUses := upd s.rUses m 0 }) s
      t.kCur = s.kCur ∧ t.xCur = s.xCur ∧ t.xBest = s.xBest ∧ t.cur = s.cur ∧ t.best = s.best ∧
        t.it = s.it ∧ t.nEval = s.nEval ∧ t.steps = s.steps := by
    intro ms
    induction ms with
    | nil => intro s; simp
    | cons m ms ih => intro s; exact ih _
  unfold segmentUpdate
  split
  · simp
  · dsimp only
    obtain ⟨a1, a2, a3, a4, a5, a6, a7, a8⟩ := hd c.destroySet s
    obtain ⟨b1, b2, b3, b4, b5, b6, b7, b8⟩ := hr c.repairSet (c.destroySet.foldl (fun s m =>
        { s with
          dWeight := upd s.dWeight m (newWeight c (s.dWeight m) (s.dScore m) (s.dUses m))
          dScore := upd s.dScore m 0
          dUses := upd s.dUses m 0 }) s)
    exact ⟨b1.trans a1, b2.trans a2, b3.trans a3, b4.trans a4, b5.trans a5, b6.trans a6, b7.trans a7,
      b8.trans a8⟩

/-- Acceptance and the best solution. -/
theorem finish_spec (c : AlnsCfg) (s : AlnsState) (d : DOp) (r : ROp) (x : Vec) (ch : List ℕ) (q : ℚ)
    (ok : Bool) :
    let t := finish c s d r x ch q ok
    let acc := (ok || c.alwaysAccept) && decide (0 < ch.length)
    (acc = true → t.xCur = x ∧ t.cur = q) ∧ (acc = false → t.xCur = s.xCur ∧ t.cur = s.cur) ∧
    (t.cur < s.best → t.best = t.cur ∧ t.xBest = t.xCur) ∧
    (s.best ≤ t.cur → t.best = s.best ∧ t.xBest = s.xBest) ∧
    t.nEval = s.nEval ∧ t.it = s.it + 1 ∧
    t.steps = { iter := t.it, changed := ch, delta := q - s.cur, accepted := acc
                objVal := if c.maximize then -t.cur else t.cur
                bestObj := if c.maximize then -t.best else t.best } :: s.steps := by
  intro t acc
  set s1 : AlnsState := if acc then { s with xCur := x, cur := q } else s with hs1
  set s2 : AlnsState := if decide (s1.cur < s1.best) then { s1 with best := s1.cur, xBest := s1.xCur }
    else s1 with hs2
  set s3 : AlnsState := { s2 with
    dScore := upd s2.dScore d (s2.dScore d + reward c (decide (s1.cur < s1.best)) acc (q - s.cur))
    rScore := upd s2.rScore r (s2.rScore r + reward c (decide (s1.cur < s1.best)) acc (q - s.cur))
    it := s2.it + 1
    segCount := s2.segCount - 1 } with hs3
  obtain ⟨f1, f2, f3, f4, f5, f6, f7, f8⟩ := segmentUpdate_frame c s3
  have ht : t = { segmentUpdate c s3 with
    steps := { iter := (segmentUpdate c s3).it, changed := ch, delta := q - s.cur, accepted := acc
               objVal := if c.maximize then -(segmentUpdate c s3).cur else (segmentUpdate c s3).cur
               bestObj := if c.maximize then -(segmentUpdate c s3).best
                 else (segmentUpdate c s3).best } :: (segmentUpdate c s3).steps } := rfl
  have e1 : t.xCur = s2.xCur := by rw [ht]; exact f2
  have e2 : t.cur = s2.cur := by rw [ht]; exact f4
  have e3 : t.best = s2.best := by rw [ht]; exact f5
  have e4 : t.xBest = s2.xBest := by rw [ht]; exact f3
  have e5 : t.nEval = s2.nEval := by rw [ht]; exact f7
  have e6 : t.it = s2.it + 1 := by rw [ht]; exact f6
  have e7 : (segmentUpdate c s3).steps = s2.steps := f8
  have g : s2.xCur = s1.xCur ∧ s2.cur = s1.cur ∧ s2.nEval = s1.nEval ∧ s2.it = s1.it ∧
      s2.steps = s1.steps := by
    rw [hs2]; split <;> simp
  have g1 : s1.best = s.best ∧ s1.xBest = s.xBest ∧ s1.nEval = s.nEval ∧ s1.it = s.it ∧
      s1.steps = s.steps := by
    rw [hs1]; split <;> simp
  refine ⟨fun h => ?_, fun h => ?_, fun h => ?_, fun h => ?_, ?_, ?_, ?_⟩
  · rw [e1, e2, g.1, g.2.1, hs1, if_pos h]; exact ⟨rfl, rfl⟩
  · rw [e1, e2, g.1, g.2.1, hs1, if_neg (by simp [h])]; exact ⟨rfl, rfl⟩
  · rw [e3, e2, e4, e1]
    rw [e2, g.2.1] at h
    rw [hs2, if_pos (by rw [g1.1]; simpa using h)]
    exact ⟨rfl, rfl⟩
  · rw [e3, e4]
    rw [e2, g.2.1] at h
    rw [hs2, if_neg (by rw [g1.1]; simpa using h)]
    exact ⟨g1.1, g1.2.1⟩
  · rw [e5, g.2.2.1, g1.2.2.1]
  · rw [e6, g.2.2.2.1, g1.2.2.2.1]
  · rw [ht]
    dsimp only
    rw [e7, g.2.2.2.2, g1.2.2.2.2]

/-- One step of the search, as far as the solutions are concerned. -/
structure StepSpec (c : AlnsCfg) (s t : AlnsState) : Prop where
  /-- the candidate: values of the domains at some valid positions, everything else unchanged -/
  cand : ∃ (x : Vec) (removed changed : List ℕ), removed.length ≤ c.kMax ∧
    Repaired c.domains s.xCur removed x ∧ (∀ j ∈ changed, j ∈ removed) ∧
    ((t.xCur = x ∧ t.cur = eval c s.nEval x ∧ changed ≠ []) ∨
      (t.xCur = s.xCur ∧ t.cur = s.cur ∧
        (changed ≠ [] → c.alwaysAccept = false ∧ s.cur < eval c s.nEval x)))
  nEval : t.nEval = s.nEval + 1
  it : t.it = s.it + 1
  better : t.cur < s.best → t.best = t.cur ∧ t.xBest = t.xCur
  same : s.best ≤ t.cur → t.best = s.best ∧ t.xBest = s.xBest
  log : ∃ l, t.steps = l :: s.steps ∧ l.iter = t.it ∧
    (l.accepted = true → l.delta = t.cur - s.cur) ∧
    (l.accepted = false → t.cur = s.cur ∧ t.xCur = s.xCur) ∧
    l.objVal = (if c.maximize then -t.cur else t.cur) ∧
    l.bestObj = (if c.maximize then -t.best else t.best)

theorem autoStep_spec {c : AlnsCfg} {s t : AlnsState} (hk : 1 ≤ c.kMin) (hkk : c.kMin ≤ c.kMax)
    (hdom : ∀ d ∈ c.domains, d ≠ []) (h : Outcome (autoStep c s) t) : StepSpec c s t := by
  unfold autoStep at h
  dsimp only at h
  obtain ⟨d, -, h⟩ := Outcome.bind h
  obtain ⟨r, -, h⟩ := Outcome.bind h
  obtain ⟨p, hp, h⟩ := Outcome.bind h
  obtain ⟨q, hq, h⟩ := Outcome.bind h
  obtain ⟨ok, hok, h⟩ := Outcome.bind h
  have ht := Outcome.pure h
  have hb := sizeNow_bounds c s.it hkk
  obtain ⟨hd, hlen⟩ := destroy_spec hp (by dsimp only; omega)
  obtain ⟨hr, hch⟩ := repair_spec hdom hd hq
  dsimp only at hlen hd hr hok
  obtain ⟨a1, a2, a3, a4, a5, a6, a7⟩ := finish_spec c
    { s with kCur := sizeNow c s.it, dUses := upd s.dUses d (s.dUses d + 1)
             rUses := upd s.rUses r (s.rUses r + 1), nEval := s.nEval + 1 }
    d r q.1 q.2 (eval c s.nEval q.1) ok
  dsimp only at a1 a2 a3 a4 a5 a6 a7
  rw [ht] at a1 a2 a3 a4 a5 a6 a7
  have hokf : ok = false → s.cur < eval c s.nEval q.1 := by
    intro hf
    unfold metropolis at hok
    split at hok
    · have := Outcome.pure hok; rw [hf] at this; cases this
    · next hlt => push Not at hlt; linarith
  refine ⟨⟨q.1, p.1, q.2, by omega, hr, hch, ?_⟩, a5, a6, a3, a4, ?_⟩
  · cases hc : (ok || c.alwaysAccept) && decide (0 < q.2.length) with
    | true =>
      left
      refine ⟨(a1 hc).1, (a1 hc).2, ?_⟩
      rw [Bool.and_eq_true, decide_eq_true_eq] at hc
      exact List.ne_nil_of_length_pos hc.2
    | false =>
      right
      refine ⟨(a2 hc).1, (a2 hc).2, fun hne => ?_⟩
      have hpos : decide (0 < q.2.length) = true := decide_eq_true (List.length_pos_of_ne_nil hne)
      rw [hpos, Bool.and_true, Bool.or_eq_false_iff] at hc
      exact ⟨hc.2, hokf hc.1⟩
  · refine ⟨_, a7, rfl, fun h => ?_, fun h => ⟨(a2 h).2, (a2 h).1⟩, rfl, rfl⟩
    dsimp only at h ⊢
    rw [(a1 h).2]

/-! ## Weights -/

theorem newWeight_pos {c : AlnsCfg} (h0 : 0 ≤ c.eta) (h1 : c.eta ≤ 1) {w q : ℚ} {n : ℕ} (hw : 0 < w) :
    0 < newWeight c w q n := by
  unfold newWeight
  have hm : (0 : ℚ) < max (1 / 10 ^ 6) (q / (max 1 n : ℕ)) := lt_max_of_lt_left (by norm_num)
  rcases h0.lt_or_eq with h | h
  · have := mul_pos h hm
    have := mul_nonneg (sub_nonneg.mpr h1) hw.le
    linarith
  · rw [← h]; simpa using hw

/-- The weights after a step. -/
theorem segmentUpdate_weights {c : AlnsCfg} (h0 : 0 ≤ c.eta) (h1 : c.eta ≤ 1) {s : AlnsState}
    (hd : ∀ m, 0 < s.dWeight m) (hr : ∀ m, 0 < s.rWeight m) :
    (∀ m, 0 < (segmentUpdate c s).dWeight m) ∧ ∀ m, 0 < (segmentUpdate c s).rWeight m := by
  have kd : ∀ (ms : List DOp) (s : AlnsState), (∀ m, 0 < s.dWeight m) →
      let t := ms.foldl (fun s m =>
        { s with
          dWeight := upd s.dWeight m (newWeight c (s.dWeight m) (s.dScore m) (s.dUses m))
          dScore := upd s.dScore m 0
          dUses := upd s.dUses m 0 }) s
      (∀ m, 0 < t.dWeight m) ∧ t.rWeight = s.rWeight := by
    intro ms
    induction ms with
    | nil => intro s h; exact ⟨h, rfl⟩
    | cons m ms ih =>
      intro s h
      refine ih _ fun j => ?_
      dsimp only
      rw [upd_apply]
      split
      · exact newWeight_pos h0 h1 (h m)
      · exact h j
  have kr : ∀ (ms : List ROp) (s : AlnsState), (∀ m, 0 < s.rWeight m) →
      let t := ms.foldl (fun s m =>
        { s with
          rWeight := upd s.rWeight m (newWeight c (s.rWeight m) (s.rScore m) (s.rUses m))
          rScore := upd s.rScore m 0
          rUses := upd s.rUses m 0 }) s
      (∀ m, 0 < t.rWeight m) ∧ t.dWeight = s.dWeight := by
    intro ms
    induction ms with
    | nil => intro s h; exact ⟨h, rfl⟩
    | cons m ms ih =>
      intro s h
      refine ih _ fun j => ?_
      dsimp only
      rw [upd_apply]
      split
      · exact newWeight_pos h0 h1 (h m)
      · exact h j
  unfold segmentUpdate
  split
  · exact ⟨hd, hr⟩
  · dsimp only
    obtain ⟨a1, a2⟩ := kd c.destroySet s hd
    obtain ⟨b1, b2⟩ := kr c.repairSet (c.destroySet.foldl (fun s m =>
        { s with
          dWeight := upd s.dWeight m (newWeight c (s.dWeight m) (s.dScore m) (s.dUses m))
          dScore := upd s.dScore m 0
          dUses := upd s.dUses m 0 }) s) (by rw [a2]; exact hr)
    exact ⟨by rw [b2]; exact a1, b1⟩

theorem finish_weights {c : AlnsCfg} (h0 : 0 ≤ c.eta) (h1 : c.eta ≤ 1) {s : AlnsState}
    (hd : ∀ m, 0 < s.dWeight m) (hr : ∀ m, 0 < s.rWeight m) (d : DOp) (r : ROp) (x : Vec)
    (ch : List ℕ) (q : ℚ) (ok : Bool) :
    (∀ m, 0 < (finish c s d r x ch q ok).dWeight m) ∧
      ∀ m, 0 < (finish c s d r x ch q ok).rWeight m := by
  unfold finish
  dsimp only
  apply segmentUpdate_weights h0 h1
  · dsimp only
    split <;> split <;> exact hd
  · dsimp only
    split <;> split <;> exact hr

end ALNS
end UX
