import Verif.Model.Reach

/-! General lemmas: updates, exceptions, folds. -/

namespace UX

variable {ι α β σ : Type}

@[simp] theorem upd_same [DecidableEq ι] (f : ι → α) (i : ι) (a : α) : upd f i a i = a := by
  simp [upd]

theorem upd_ne [DecidableEq ι] (f : ι → α) {i j : ι} (a : α) (h : j ≠ i) : upd f i a j = f j := by
  simp [upd, h]

theorem upd_apply [DecidableEq ι] (f : ι → α) (i j : ι) (a : α) :
    upd f i a j = if j = i then a else f j := rfl

@[simp] theorem upd_eta [DecidableEq ι] (f : ι → α) (i : ι) : upd f i (f i) = f := by
  funext j; by_cases h : j = i <;> simp [upd, h]

theorem bind_ok {x : M α} {f : α → M β} {b : β} :
    (x >>= f) = .ok b ↔ ∃ a, x = .ok a ∧ f a = .ok b := by
  cases x <;> simp [bind, Except.bind]

theorem map_ok {x : M α} {f : α → β} {b : β} :
    x.map f = .ok b ↔ ∃ a, x = .ok a ∧ f a = b := by
  cases x <;> simp [Except.map]

@[simp] theorem pure_ok {a b : α} : (pure a : M α) = .ok b ↔ a = b := by
  simp [pure, Except.pure]

@[simp] theorem throw_ok {e : Err} {b : α} : (throw e : M α) = .ok b ↔ False := by
  simp [throw, throwThe, MonadExceptOf.throw]

/-- A property preserved by each iteration holds after the whole loop. -/
theorem foldlM_inv {P : σ → Prop} {f : σ → α → M σ} {l : List α}
    (hf : ∀ s a s', a ∈ l → P s → f s a = .ok s' → P s') {s s' : σ} (h0 : P s)
    (h : l.foldlM f s = .ok s') : P s' := by
  induction l generalizing s with
  | nil => simp at h; exact h ▸ h0
  | cons a t ih =>
    rw [List.foldlM_cons, bind_ok] at h
    obtain ⟨s1, h1, h2⟩ := h
    exact ih (fun s b s' hb => hf s b s' (List.mem_cons_of_mem _ hb))
      (hf s a s1 List.mem_cons_self h0 h1) h2

/-- Loop rule with an index: `P k` after `k` iterations. -/
theorem foldlM_inv_idx {P : ℕ → σ → Prop} {f : σ → α → M σ} {l : List α} {k0 : ℕ}
    (hf : ∀ k s a s', l[k]? = some a → P (k0 + k) s → f s a = .ok s' → P (k0 + k + 1) s')
    {s s' : σ} (h0 : P k0 s) (h : l.foldlM f s = .ok s') : P (k0 + l.length) s' := by
  induction l generalizing s k0 with
  | nil => simp at h; exact h ▸ h0
  | cons a t ih =>
    rw [List.foldlM_cons, bind_ok] at h
    obtain ⟨s1, h1, h2⟩ := h
    have := ih (k0 := k0 + 1) (fun k s b s' hb hP hs => by
      have := hf (k + 1) s b s' (by simpa using hb)
      rw [show k0 + 1 + k = k0 + (k + 1) by omega] at hP
      have := this hP hs
      rwa [show k0 + 1 + k + 1 = k0 + (k + 1) + 1 by omega]) (hf 0 s a s1 (by simp) h0 h1) h2
    rw [List.length_cons, show k0 + (t.length + 1) = k0 + 1 + t.length by omega]
    exact this

theorem foldl_inv {P : σ → Prop} {f : σ → α → σ} {l : List α}
    (hf : ∀ s a, a ∈ l → P s → P (f s a)) {s : σ} (h0 : P s) : P (l.foldl f s) := by
  induction l generalizing s with
  | nil => exact h0
  | cons a t ih =>
    exact ih (fun s b hb => hf s b (List.mem_cons_of_mem _ hb)) (hf s a List.mem_cons_self h0)

/-! ### Random choice -/

theorem choiceU_mem {xs : List α} {r : ℕ} {a : α} (h : choiceU xs r = .ok a) : a ∈ xs := by
  unfold choiceU at h
  split at h
  · rename_i b hb
    simp at h
    exact h ▸ List.mem_of_getElem? hb
  · simp at h

theorem choiceW_mem {xs : List (ℚ × α)} {r : ℕ} {a : α} (h : choiceW xs r = .ok a) :
    ∃ q, (q, a) ∈ xs ∧ 0 < q := by
  unfold choiceW at h
  split at h
  · simp at h
  · have := choiceU_mem h
    simp only [List.mem_map, List.mem_filter, decide_eq_true_eq] at this
    obtain ⟨⟨q, b⟩, ⟨h1, h2⟩, rfl⟩ := this
    exact ⟨q, h1, h2⟩

theorem foldl_pick_mem (ps : List (ℚ × α)) (p : ℚ × α) :
    ps.foldl (fun best q => if best.1 < q.1 then q else best) p ∈ p :: ps := by
  induction ps generalizing p with
  | nil => simp
  | cons q t ih =>
    simp only [List.foldl_cons]
    split
    · have := ih q; simp only [List.mem_cons] at this ⊢; tauto
    · have := ih p; simp only [List.mem_cons] at this ⊢; tauto

theorem argmaxFirst_mem {xs : List (ℚ × α)} {a : α} (h : argmaxFirst xs = .ok a) :
    ∃ q, (q, a) ∈ xs := by
  cases xs with
  | nil => simp [argmaxFirst] at h
  | cons p ps =>
    simp only [argmaxFirst, Except.ok.injEq] at h
    have := foldl_pick_mem ps p
    refine ⟨(ps.foldl (fun best q => if best.1 < q.1 then q else best) p).1, ?_⟩
    rw [← h]; exact this

theorem shuffle_perm (rng : ℕ → ℕ) (xs : List α) :
    (shuffle rng xs.length xs).1.Perm xs := by
  suffices ∀ k, ∀ xs : List α, xs.length = k → ∀ rng, (shuffle rng k xs).1.Perm xs from
    this _ xs rfl rng
  intro k
  induction k with
  | zero => intro xs h rng; simp [shuffle]
  | succ k ih =>
    intro xs h rng
    unfold shuffle
    split
    · exact List.Perm.refl _
    · rename_i a ha
      obtain ⟨hlt, hget⟩ := List.getElem?_eq_some_iff.mp ha
      have := ih (xs.eraseIdx (rng 0 % xs.length))
        (by rw [List.length_eraseIdx_of_lt hlt]; omega) (fun i => rng (i + 1))
      simp only
      refine (List.Perm.cons a this).trans ?_
      rw [← hget]
      exact List.getElem_cons_eraseIdx_perm hlt

theorem filterE_ok {p : α → M Bool} {l r : List α} (h : filterE p l = .ok r) :
    ∀ a, a ∈ r ↔ a ∈ l ∧ p a = .ok true := by
  induction l generalizing r with
  | nil => simp [filterE] at h; subst h; simp
  | cons a t ih =>
    simp only [filterE, bind_ok, pure_ok] at h
    obtain ⟨b, hb, r', hr', rfl⟩ := h
    intro c
    have := ih hr' c
    cases b with
    | true =>
      simp only [if_true, List.mem_cons, this]
      constructor
      · rintro (rfl | h); exacts [⟨.inl rfl, hb⟩, ⟨.inr h.1, h.2⟩]
      · rintro ⟨rfl | h, h2⟩; exacts [.inl rfl, .inr ⟨h, h2⟩]
    | false =>
      simp only [Bool.false_eq_true, if_false, List.mem_cons, this]
      constructor
      · rintro h; exact ⟨.inr h.1, h.2⟩
      · rintro ⟨rfl | h, h2⟩
        · rw [hb] at h2; simp at h2
        · exact ⟨h, h2⟩

/-- A Python list comprehension over a list preserves a sublist. -/
theorem filterE_sublist {p : α → M Bool} {l r : List α} (h : filterE p l = .ok r) :
    r.Sublist l := by
  induction l generalizing r with
  | nil => simp [filterE] at h; subst h; simp
  | cons a t ih =>
    simp only [filterE, bind_ok, pure_ok] at h
    obtain ⟨b, hb, r', hr', rfl⟩ := h
    cases b with
    | true => exact (ih hr').cons_cons a
    | false => exact (ih hr').cons a

theorem mapM_ok_forall {f : α → M β} {l : List α} {r : List β} (h : l.mapM f = .ok r) :
    List.Forall₂ (fun a b => f a = .ok b) l r := by
  induction l generalizing r with
  | nil => simp at h; subst h; exact .nil
  | cons a t ih =>
    rw [List.mapM_cons, bind_ok] at h
    obtain ⟨b, hb, h⟩ := h
    rw [bind_ok] at h
    obtain ⟨r', hr', h⟩ := h
    simp at h; subst h
    exact .cons hb (ih hr')

/-- The chosen link is one of the candidates; only the random stream changes. -/
theorem World.chooseLink_spec {W W' : World} {v : VehId} {ls : List LinkId} {l : LinkId}
    (h : W.chooseLink v ls = .ok (l, W')) : l ∈ ls ∧ ∃ r, W' = { W with rng := r } := by
  unfold World.chooseLink at h
  rw [bind_ok] at h
  obtain ⟨ps, hps, h⟩ := h
  have hmem : ∀ q l, (q, l) ∈ ps → l ∈ ls := by
    intro q l hl
    have := mapM_ok_forall hps
    clear hps h
    induction this with
    | nil => simp at hl
    | cons h1 _ ih =>
      rw [map_ok] at h1
      obtain ⟨q', _, h3⟩ := h1
      rcases List.mem_cons.mp hl with h | h
      · rw [← h3] at h; simp at h; simp [h.2]
      · exact List.mem_cons_of_mem _ (ih h)
  split at h
  · rw [bind_ok] at h
    obtain ⟨l', h1, h2⟩ := h
    simp at h2
    obtain ⟨rfl, rfl⟩ := h2
    obtain ⟨q, hq⟩ := argmaxFirst_mem h1
    exact ⟨hmem _ _ hq, W.rng, rfl⟩
  · dsimp only at h
    split at h
    · rw [bind_ok] at h
      obtain ⟨l', h1, h2⟩ := h
      simp at h2
      obtain ⟨rfl, rfl⟩ := h2
      obtain ⟨q, hq, _⟩ := choiceW_mem h1
      exact ⟨hmem _ _ hq, _, rfl⟩
    · rw [bind_ok] at h
      obtain ⟨l', h1, h2⟩ := h
      simp at h2
      obtain ⟨rfl, rfl⟩ := h2
      exact ⟨choiceU_mem h1, _, rfl⟩

end UX
