import Verif.Props.Alns

/-!
# The neighbourhood search raises no exception (C46)
-/

namespace UX

/-- The computation raises no exception, whatever the random numbers are. -/
def NeverRaises {α : Type} (f : RandM α) : Prop := ∀ r, ∃ a r', f r = .ok (a, r')

namespace NeverRaises
variable {α β : Type}

theorem bind {f : RandM α} {g : α → RandM β} (hf : NeverRaises f) (hg : ∀ a, Outcome f a → NeverRaises (g a)) :
    NeverRaises (f >>= g) := by
  intro r
  obtain ⟨a, r1, h1⟩ := hf r
  obtain ⟨b, r2, h2⟩ := hg a ⟨r, r1, h1⟩ r1
  refine ⟨b, r2, ?_⟩
  simp only [Bind.bind, StateT.bind, Except.bind]
  rw [h1]; exact h2

theorem pure (a : α) : NeverRaises (pure a) := fun r => ⟨a, r, rfl⟩

theorem raw : NeverRaises RandM.raw := fun _ => ⟨_, _, rfl⟩

theorem random : NeverRaises RandM.random := raw.bind fun _ _ => pure _

theorem randint {a b : ℕ} (h : a ≤ b) : NeverRaises (RandM.randint a b) := by
  unfold RandM.randint
  rw [if_neg (by omega)]
  exact raw.bind fun _ _ => pure _

theorem choice {xs : List α} (h : xs ≠ []) : NeverRaises (RandM.choice xs) := by
  refine raw.bind fun r _ => ?_
  have hl : r % xs.length < xs.length := Nat.mod_lt _ (List.length_pos_iff.2 h)
  rw [List.getElem?_eq_getElem hl]
  exact pure _

theorem sample {xs : List α} {k : ℕ} (h : k ≤ xs.length) : NeverRaises (RandM.sample xs k) := by
  unfold RandM.sample
  rw [if_neg (by omega)]
  exact fun r => ⟨_, _, rfl⟩

theorem loop {f : β → α → RandM β} (I : β → Prop) : ∀ (as : List α) {b : β},
    (∀ x, ∀ a ∈ as, I x → NeverRaises (f x a) ∧ ∀ y, Outcome (f x a) y → I y) → I b →
    NeverRaises (RandM.loop f b as)
  | [], b, _, _ => pure b
  | a :: as, b, hf, hb => by
    have h0 := hf b a List.mem_cons_self hb
    exact h0.1.bind fun c hc => loop I as (fun x a' ha' => hf x a' (List.mem_cons_of_mem _ ha')) (h0.2 c hc)

theorem times {f : β → RandM β} (I : β → Prop) : ∀ (n : ℕ) {b : β},
    (∀ x, I x → NeverRaises (f x) ∧ ∀ y, Outcome (f x) y → I y) → I b → NeverRaises (RandM.times f n b)
  | 0, b, _, _ => pure b
  | n + 1, b, hf, hb => (hf b hb).1.bind fun c hc => times I n hf ((hf b hb).2 c hc)

theorem collect {f : α → RandM β} : ∀ (as : List α), (∀ a ∈ as, NeverRaises (f a)) →
    NeverRaises (RandM.collect f as)
  | [], _ => pure _
  | a :: as, h => (h a List.mem_cons_self).bind fun _ _ =>
      (collect as fun a' ha' => h a' (List.mem_cons_of_mem _ ha')).bind fun _ _ => pure _

end NeverRaises

namespace ALNS

theorem blank_safe : ∀ (removed : List ℕ) {x : Vec}, (∀ i ∈ removed, i < x.length) →
    NeverRaises (blank x removed)
  | [], _, _ => .pure _
  | i :: is, x, h => by
    unfold blank
    rw [if_neg (by have := h i List.mem_cons_self; omega)]
    exact blank_safe is fun j hj => by
      rw [List.length_set]; exact h j (List.mem_cons_of_mem _ hj)

theorem destroyRandom_safe {c : AlnsCfg} {s : AlnsState} {x : Vec} (h1 : c.kMin ≤ s.kCur)
    (h2 : c.kMin ≤ x.length) : NeverRaises (destroyRandom c s x) := by
  unfold destroyRandom
  refine (NeverRaises.randint (by omega)).bind fun k hk => ?_
  have hk := Outcome.randint hk
  refine (NeverRaises.sample (by rw [List.length_range]; omega)).bind fun rem hr => ?_
  refine (blank_safe _ fun i hi => ?_).bind fun xx _ => .pure _
  exact List.mem_range.1 ((Outcome.sample hr).2.subset hi)

theorem destroySegment_safe {c : AlnsCfg} {s : AlnsState} {x : Vec} (h1 : c.kMin ≤ s.kCur)
    (h0 : 1 ≤ c.kMin) (h2 : c.kMin ≤ x.length) : NeverRaises (destroySegment c s x) := by
  unfold destroySegment
  split
  · exact destroyRandom_safe h1 h2
  · refine (NeverRaises.randint (by omega)).bind fun a ha => ?_
    refine (NeverRaises.randint (by omega)).bind fun b hb => ?_
    have ha := Outcome.randint ha
    have hb := Outcome.randint hb
    refine (blank_safe _ fun i hi => ?_).bind fun xx _ => .pure _
    have hi := List.mem_range.1 (List.mem_of_mem_drop hi)
    revert hi
    unfold segmentEnd
    dsimp only
    split_ifs <;> omega

/-- The vehicles found on delayed links are positions of the solution, and there is one on each. -/
def PoolsOK (c : AlnsCfg) (n : ℕ) : Prop :=
  DOp.congestLink ∈ c.destroySet → c.pools ≠ [] ∧ ∀ p ∈ c.pools, p ≠ [] ∧ ∀ i ∈ p, i < n

theorem destroyCongested_safe {c : AlnsCfg} {s : AlnsState} {x : Vec} (h1 : c.kMin ≤ s.kCur)
    (h2 : c.kMin ≤ x.length) (hp : c.pools ≠ [] ∧ ∀ p ∈ c.pools, p ≠ [] ∧ ∀ i ∈ p, i < x.length) :
    NeverRaises (destroyCongested c s x) := by
  unfold destroyCongested
  refine (NeverRaises.randint (by omega)).bind fun k _ => ?_
  refine (NeverRaises.collect _ fun _ _ => (NeverRaises.choice hp.1).bind fun p hpool =>
    NeverRaises.choice (hp.2 p (Outcome.choice hpool)).1).bind fun rem hr => ?_
  refine (blank_safe _ fun i hi => ?_).bind fun xx _ => .pure _
  have hF := Outcome.collect _ hr
  have : ∀ {as : List ℕ} {bs : List ℕ}, List.Forall₂ (fun _ b => Outcome (do
      let pool ← RandM.choice c.pools
      RandM.choice pool) b) as bs → ∀ i ∈ bs, i < x.length := by
    intro as bs hF
    induction hF with
    | nil => intro i hi; cases hi
    | cons hb _ ih =>
      intro i hi
      rcases List.mem_cons.1 hi with rfl | hi
      · obtain ⟨p, hpool, hb⟩ := Outcome.bind hb
        exact (hp.2 p (Outcome.choice hpool)).2 _ (Outcome.choice hb)
      · exact ih i hi
  exact this hF i hi

theorem choices_ne {dom : List ℕ} {cur : Option ℕ} (h : dom ≠ []) : choices dom cur ≠ [] := by
  unfold choices
  split
  · dsimp only
    split
    · exact h
    · next he => intro e; rw [e] at he; simp at he
  · exact h

theorem repairRandom_safe {c : AlnsCfg} {base px : Vec} {removed : List ℕ}
    (hlen : c.domains.length = base.length) (hdom : ∀ d ∈ c.domains, d ≠ [])
    (hr : ∀ i ∈ removed, i < base.length) : NeverRaises (repairRandom c base px removed) := by
  unfold repairRandom
  refine (NeverRaises.loop (fun _ => True) removed (fun x i hi _ => ⟨?_, fun _ _ => trivial⟩) trivial).bind
    fun _ _ => .pure _
  have h1 := hr i hi
  rw [List.getElem?_eq_getElem h1, List.getElem?_eq_getElem (by omega)]
  exact (NeverRaises.choice (choices_ne (hdom _ (List.getElem_mem _)))).bind fun _ _ => .pure _

theorem cheapest_some (cost : ℕ → ℚ) : ∀ (vs : List ℕ) (cm : Option ℚ) (b : ℕ),
    ∃ v, (cheapest cost vs cm (some b)).2 = some v
  | [], _, b => ⟨b, rfl⟩
  | v :: vs, cm, b => by
    unfold cheapest
    split
    · split
      · exact cheapest_some cost vs _ _
      · exact cheapest_some cost vs _ _
    · exact cheapest_some cost vs _ _

theorem repairMinCost_safe {c : AlnsCfg} {base : Vec} {removed : List ℕ}
    (hlen : c.domains.length = base.length) (hdom : ∀ d ∈ c.domains, d ≠ [])
    (hr : ∀ i ∈ removed, i < base.length) : NeverRaises (repairMinCost c base removed) := by
  unfold repairMinCost
  refine (NeverRaises.loop (fun a => a.x.length = base.length) removed (fun a i hi ha => ?_) rfl).bind
    fun _ _ => .pure _
  have h1 : i < a.x.length := by rw [ha]; exact hr i hi
  have h2 : i < c.domains.length := by omega
  have hne : c.domains[i] ≠ [] := hdom _ (List.getElem_mem _)
  unfold minStep
  rw [List.getElem?_eq_getElem h1, List.getElem?_eq_getElem h2]
  obtain ⟨bv, hbv⟩ : ∃ v, (cheapest (c.cost i) c.domains[i] none a.bestVal).2 = some v := by
    cases e : c.domains[i] with
    | nil => exact absurd e hne
    | cons v vs => exact cheapest_some (c.cost i) vs _ v
  dsimp only
  rw [hbv]
  dsimp only
  exact ⟨.pure _, fun y hy => by cases Outcome.pure hy; simpa using ha⟩

theorem roulette_some {κ : Type} (w : κ → ℚ) (r : ℚ) : ∀ (ks : List κ) (s : ℚ) (l : Option κ),
    (l.isSome ∨ ks ≠ []) → ∃ k, roulette w r ks s l = some k ∧ (k ∈ ks ∨ l = some k)
  | [], _, l, h => by
    rcases h with h | h
    · obtain ⟨k, rfl⟩ := Option.isSome_iff_exists.1 h
      exact ⟨k, rfl, .inr rfl⟩
    · exact absurd rfl h
  | k :: ks, s, l, _ => by
    unfold roulette
    split
    · exact ⟨k, rfl, .inl List.mem_cons_self⟩
    · obtain ⟨k', h1, h2⟩ := roulette_some w r ks (s + max (1 / 10 ^ 12) (w k)) (some k) (.inl rfl)
      refine ⟨k', h1, .inl ?_⟩
      rcases h2 with h2 | h2
      · exact List.mem_cons_of_mem _ h2
      · cases h2; exact List.mem_cons_self

theorem roulettePick_safe {κ : Type} [DecidableEq κ] {w : κ → ℚ} {keys : List κ} (h : keys ≠ []) :
    NeverRaises (roulettePick w keys) ∧ ∀ k, Outcome (roulettePick w keys) k → k ∈ keys := by
  have hne : keys.eraseDups ≠ [] := by
    cases keys with
    | nil => exact absurd rfl h
    | cons a t => rw [List.eraseDups_cons]; simp
  constructor
  · refine NeverRaises.random.bind fun q _ => ?_
    obtain ⟨k, h1, -⟩ := roulette_some w (q * (keys.eraseDups.map fun k => max (1 / 10 ^ 12) (w k)).sum)
      keys.eraseDups 0 none (.inr hne)
    dsimp only
    rw [h1]
    exact .pure _
  · intro k hk
    obtain ⟨q, -, hk⟩ := Outcome.bind hk
    obtain ⟨k', h1, h2⟩ := roulette_some w (q * (keys.eraseDups.map fun k => max (1 / 10 ^ 12) (w k)).sum)
      keys.eraseDups 0 none (.inr hne)
    dsimp only at hk
    rw [h1] at hk
    cases Outcome.pure hk
    rcases h2 with h2 | h2
    · simpa using h2
    · cases h2

theorem sizeNow_ge (c : AlnsCfg) (h : c.kMin ≤ c.kMax) (it : ℕ) : c.kMin ≤ sizeNow c it := by
  unfold sizeNow
  dsimp only
  split_ifs <;> omega

theorem autoStep_safe {c : AlnsCfg} (hk : 1 ≤ c.kMin ∧ c.kMin ≤ c.kMax) (hd : c.destroySet ≠ [])
    (hr : c.repairSet ≠ []) (hdom : ∀ d ∈ c.domains, d ≠ []) (hn : c.kMin ≤ c.domains.length)
    (hp : PoolsOK c c.domains.length) {s : AlnsState} (hs : s.xCur.length = c.domains.length) :
    NeverRaises (autoStep c s) := by
  have hsize := sizeNow_ge c hk.2 s.it
  unfold autoStep
  refine (roulettePick_safe hd).1.bind fun d hdm => ?_
  have hdm := (roulettePick_safe hd).2 d hdm
  refine (roulettePick_safe hr).1.bind fun r _ => ?_
  dsimp only
  refine NeverRaises.bind ?_ fun p hpo => ?_
  · cases d with
    | random => exact destroyRandom_safe hsize (by omega)
    | earlyDep => exact destroyRandom_safe hsize (by omega)
    | lateDep => exact destroyRandom_safe hsize (by omega)
    | segment => exact destroySegment_safe hsize hk.1 (by omega)
    | congestLink => exact destroyCongested_safe hsize (by omega) (by rw [hs]; exact hp hdm)
  have hD := (destroy_spec hpo (by dsimp only; omega)).1
  refine NeverRaises.bind ?_ fun q _ => ?_
  · cases r with
    | random => exact repairRandom_safe hs.symm hdom hD.valid
    | minCost => exact repairMinCost_safe hs.symm hdom hD.valid
  refine NeverRaises.bind ?_ fun ok _ => .pure _
  unfold metropolis
  split
  · exact .pure _
  · exact NeverRaises.random.bind fun _ _ => .pure _

theorem trial_safe {c : AlnsCfg} {x : Vec} (hk : c.kMin ≤ c.kMax) (hn : c.kMin ≤ x.length)
    (hlen : c.domains.length = x.length) (n : ℕ) : NeverRaises (trial c x n) := by
  unfold trial
  refine (NeverRaises.randint (by omega)).bind fun k hk' => ?_
  have hk' := Outcome.randint hk'
  refine (NeverRaises.sample (by rw [List.length_range]; omega)).bind fun idx hi => ?_
  refine (NeverRaises.loop (fun xx => xx.length = x.length) idx (fun xx j hj hxx => ?_) rfl).bind
    fun _ _ => .pure _
  have hj : j < x.length := List.mem_range.1 ((Outcome.sample hi).2.subset hj)
  rw [List.getElem?_eq_getElem (by omega), List.getElem?_eq_getElem (by omega)]
  dsimp only
  split
  · exact ⟨.pure _, fun y hy => by cases Outcome.pure hy; exact hxx⟩
  · next hne =>
    refine ⟨(NeverRaises.choice fun e => hne (by rw [e]; rfl)).bind fun _ _ => .pure _, fun y hy => ?_⟩
    obtain ⟨v, -, hy⟩ := Outcome.bind hy
    cases Outcome.pure hy
    rw [List.length_set]; exact hxx

end ALNS
open ALNS

/-- C46: the search raises no exception, whatever the random numbers are, if it starts with a solution that is
not empty, with one domain per entry, none of them empty, and with at least one operator of each kind. The
operator that looks for delayed links needs a vehicle on each of these. -/
theorem C46_never_raises (c : AlnsCfg) (x : Vec) (kMin : Option ℕ) (kMax trials n : ℕ)
    (hx : 1 ≤ x.length) (hlen : c.domains.length = x.length) (hdom : ∀ d ∈ c.domains, d ≠ [])
    (hd : c.destroySet ≠ []) (hr : c.repairSet ≠ []) (hp : PoolsOK c x.length) :
    NeverRaises (run c x kMin kMax trials n) := by
  have h1 : 1 ≤ (clampSizes c x.length kMin kMax).kMin := by
    unfold clampSizes; dsimp only; exact le_max_left _ _
  have h2 : (clampSizes c x.length kMin kMax).kMin ≤ (clampSizes c x.length kMin kMax).kMax := by
    unfold clampSizes; dsimp only; exact le_max_left _ _
  have h3 : (clampSizes c x.length kMin kMax).kMin ≤ x.length := by
    unfold clampSizes; dsimp only; omega
  have hinit : NeverRaises (init c x kMin kMax trials) := by
    unfold init
    rw [if_neg (by
      rintro (h | h | h)
      · rw [List.any_eq_true] at h
        obtain ⟨d, hd, he⟩ := h
        exact hdom d hd (List.isEmpty_iff.1 he)
      · exact hd h
      · exact hr h)]
    exact (NeverRaises.times (fun _ => True) trials
      (fun m _ => ⟨trial_safe h2 h3 hlen m, fun _ _ => trivial⟩) trivial).bind fun _ _ => .pure _
  unfold run
  refine hinit.bind fun p hp' => ?_
  have hc : p.1 = clampSizes c x.length kMin kMax ∧ p.2.xCur = x := by
    unfold init at hp'
    dsimp only at hp'
    split at hp'
    · exact (Outcome.fail hp').elim
    · obtain ⟨m, -, hp'⟩ := Outcome.bind hp'
      cases Outcome.pure hp'
      exact ⟨rfl, rfl⟩
  have hdoms : p.1.domains = c.domains := by rw [hc.1]; rfl
  have hok : 1 ≤ p.1.kMin ∧ p.1.kMin ≤ p.1.kMax := by rw [hc.1]; exact ⟨h1, h2⟩
  refine (NeverRaises.times (fun s => s.xCur.length = c.domains.length) n (fun s hs => ?_)
    (by rw [hc.2, hlen])).bind fun _ _ => .pure _
  refine ⟨autoStep_safe hok ?_ ?_ (by rw [hdoms]; exact hdom) ?_ ?_ (by rw [hdoms]; exact hs), fun t ht => ?_⟩
  · rw [hc.1]; exact hd
  · rw [hc.1]; exact hr
  · rw [hdoms, hlen, hc.1]; exact h3
  · rw [hdoms, hlen, hc.1]; exact hp
  · have := autoStep_spec hok.1 hok.2 (by rw [hdoms]; exact hdom) ht
    obtain ⟨y, rem, ch, -, h2, -, h4⟩ := this.cand
    rcases h4 with ⟨e, -⟩ | ⟨e, -⟩
    · rw [e, h2.length]; exact hs
    · rw [e]; exact hs

/-- The hypotheses of `C46_never_raises` are met by `alnsDemo`. -/
example : NeverRaises (run alnsDemo [some 1, some 1] none 1 3 20) :=
  C46_never_raises _ _ _ _ _ _ (by decide) (by decide) (by decide) (by decide) (by decide)
    (fun h => absurd h (by decide))

/-- The operator that looks for delayed links raises an exception if there is no vehicle on one of them. -/
theorem C46_pools_false : ∃ c x r e, c.domains.length = x.length ∧ (∀ d ∈ c.domains, d ≠ []) ∧ c.pools = [[]] ∧
    c.destroySet = [DOp.congestLink] ∧ run c x none 1 0 1 r = .error e := by
  have h : (match run { alnsDemo with destroySet := [.congestLink], pools := [[]] } [some 1, some 1] none 1 0 1
      (fun _ => 0) with | .error _ => true | .ok _ => false) = true := by decide +kernel
  split at h
  · next e he => exact ⟨_, _, _, e, by decide, by decide, rfl, rfl, he⟩
  · cases h

end UX
