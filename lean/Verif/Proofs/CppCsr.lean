import Verif.Spec.CppCsr
import Verif.Proofs.Osm
import Verif.Proofs.CppWrap

/-!
# Lemmas on flat arrays of routes and names (C119)
-/

namespace UX.Cpp
open Spec Osm

/-! ### Offsets -/

/-- The offsets of consecutive lists, the first one beginning at `s`. -/
def offs {α : Type} : ℕ → List (List α) → List ℕ
  | s, [] => [s]
  | s, r :: rs => s :: offs (s + r.length) rs

theorem offs_length {α : Type} (rs : List (List α)) : ∀ s, (offs s rs).length = rs.length + 1 := by
  induction rs with
  | nil => intro s; rfl
  | cons r rs ih => intro s; simp [offs, ih]

theorem offs_zero {α : Type} (s : ℕ) (rs : List (List α)) : (offs s rs).getD 0 0 = s := by
  cases rs <;> rfl

theorem offs_snoc {α : Type} (rs : List (List α)) : ∀ s (r : List α),
    offs s (rs ++ [r]) = offs s rs ++ [s + (rs.flatten ++ r).length] := by
  induction rs with
  | nil => intro s r; simp [offs]
  | cons x rs ih =>
    intro s r
    simp only [List.cons_append, offs, ih, List.flatten_cons, List.length_append, List.append_assoc]
    congr 2
    simp only [List.cons.injEq, and_true]
    omega

theorem offs_last {α : Type} (rs : List (List α)) : ∀ s, (offs s rs).getLastD 0 = s + rs.flatten.length := by
  induction rs with
  | nil => intro s; rfl
  | cons x rs ih =>
    intro s
    have h := ih (s + x.length)
    have hne : offs (s + x.length) rs ≠ [] := by cases rs <;> simp [offs]
    rw [offs, List.getLastD_cons]
    rw [show (offs (s + x.length) rs).getLastD s = (offs (s + x.length) rs).getLastD 0 from by
      cases h' : offs (s + x.length) rs with
      | nil => exact absurd h' hne
      | cons a l => rw [List.getLastD_cons, List.getLastD_cons], h]
    simp only [List.flatten_cons, List.length_append]
    omega

/-- The piece between two offsets. -/
theorem slice_offs {α : Type} (rs : List (List α)) : ∀ (pre : List α) (i : ℕ), i < rs.length →
    slice (pre ++ rs.flatten) ((offs pre.length rs).getD i 0) ((offs pre.length rs).getD (i + 1) 0) = rs.getD i [] ∧
      (offs pre.length rs).getD (i + 1) 0 = (offs pre.length rs).getD i 0 + (rs.getD i []).length := by
  induction rs with
  | nil => intro pre i h; simp at h
  | cons r rs ih =>
    intro pre i hi
    cases i with
    | zero =>
      have h0 := offs_zero (pre.length + r.length) rs
      constructor
      · show slice (pre ++ (r ++ rs.flatten)) pre.length ((offs (pre.length + r.length) rs).getD 0 0) = r
        rw [h0]
        unfold slice
        simp
      · show (offs (pre.length + r.length) rs).getD 0 0 = pre.length + r.length
        exact h0
    | succ i =>
      have := ih (pre ++ r) i (by simpa using hi)
      rw [List.length_append, List.append_assoc] at this
      exact this

theorem toCsr_eq (routes : List (List ℕ)) : toCsr routes = (routes.flatten, offs 0 routes) := by
  unfold toCsr
  suffices H : ∀ (rest pre : List (List ℕ)), rest.foldl (fun a r => (a.1 ++ r, a.2 ++ [(a.1 ++ r).length]))
      (pre.flatten, offs 0 pre) = ((pre ++ rest).flatten, offs 0 (pre ++ rest)) by
    have := H routes []
    simpa [offs] using this
  intro rest
  induction rest with
  | nil => intro pre; simp
  | cons r rest ih =>
    intro pre
    rw [List.foldl_cons]
    have := ih (pre ++ [r])
    rw [offs_snoc, Nat.zero_add] at this
    simpa using this

/-! ### The nested arrays -/

theorem route_foldl (rs : List (List ℕ)) : ∀ (c : NestedCsr) (pre : List (List ℕ)), c.ids = pre.flatten →
    c.lo = offs 0 pre → rs.foldl NestedCsr.route c =
      { c with ids := (pre ++ rs).flatten, lo := offs 0 (pre ++ rs) } := by
  induction rs with
  | nil => intro c pre h1 h2; simp [← h1, ← h2]
  | cons r rs ih =>
    intro c pre h1 h2
    rw [List.foldl_cons, ih (c.route r) (pre ++ [r])]
    · simp [NestedCsr.route]
    · simp [NestedCsr.route, h1]
    · rw [offs_snoc]; simp [NestedCsr.route, h1, h2]

theorem store_toCsr (S : Store) : Store.toCsr S =
    { o := S.map (fun e => e.1.1), d := S.map (fun e => e.1.2), ro := offs 0 (S.map Prod.snd)
      lo := offs 0 (S.flatMap Prod.snd), ids := (S.flatMap Prod.snd).flatten } := by
  unfold Store.toCsr
  suffices H : ∀ (rest pre : Store), rest.foldl NestedCsr.pair
      { o := pre.map (fun e => e.1.1), d := pre.map (fun e => e.1.2), ro := offs 0 (pre.map Prod.snd)
        lo := offs 0 (pre.flatMap Prod.snd), ids := (pre.flatMap Prod.snd).flatten } =
      { o := (pre ++ rest).map (fun e => e.1.1), d := (pre ++ rest).map (fun e => e.1.2)
        ro := offs 0 ((pre ++ rest).map Prod.snd), lo := offs 0 ((pre ++ rest).flatMap Prod.snd)
        ids := ((pre ++ rest).flatMap Prod.snd).flatten } by
    have := H S []
    simpa [offs] using this
  intro rest
  induction rest with
  | nil => intro pre; simp
  | cons e rest ih =>
    intro pre
    rw [List.foldl_cons]
    have := ih (pre ++ [e])
    rw [List.append_assoc, List.singleton_append] at this
    rw [← this]
    congr 1
    unfold NestedCsr.pair
    rw [route_foldl e.2 _ (pre.flatMap Prod.snd) rfl rfl]
    simp only [List.map_append, List.map_cons, List.map_nil, List.flatMap_append, List.flatMap_cons, List.flatMap_nil,
      List.append_nil, NestedCsr.mk.injEq, true_and, and_true]
    rw [offs_snoc, offs_last]
    simp [Nat.add_assoc]

/-! ### Dictionaries -/

theorem dSet_new {α β : Type} [DecidableEq α] {d : List (α × β)} {k : α} (v : β) (h : k ∉ d.map Prod.fst) :
    dSet d k v = d ++ [(k, v)] := by
  induction d with
  | nil => rfl
  | cons p r ih =>
    simp only [List.map_cons, List.mem_cons, not_or] at h
    unfold dSet
    rw [if_neg (Ne.symm h.1), ih h.2]; rfl

/-- Items with different keys, computed one after the other. -/
theorem foldlM_dict {α β γ : Type} [DecidableEq α] (g : γ → M (α × β)) {xs : List γ} {ys : List (α × β)}
    (h : List.Forall₂ (fun x y => g x = .ok y) xs ys) (hn : (ys.map Prod.fst).Nodup) :
    xs.foldlM (fun D x => do let e ← g x; .ok (dSet D e.1 e.2)) [] = (.ok ys : M (List (α × β))) := by
  suffices H : ∀ (pre : List (α × β)), ((pre ++ ys).map Prod.fst).Nodup →
      xs.foldlM (fun D x => do let e ← g x; .ok (dSet D e.1 e.2)) pre = (.ok (pre ++ ys) : M (List (α × β))) by
    exact H [] hn
  clear hn
  induction h with
  | nil => intro pre _; simp
  | cons h1 _ ih =>
    rename_i x y xs ys _
    intro pre hp
    rw [List.foldlM_cons, h1]
    change (List.foldlM _ (dSet pre y.1 y.2) xs : M _) = _
    have hk : y.1 ∉ pre.map Prod.fst := by
      rw [List.map_append, List.nodup_append] at hp
      intro hm
      exact hp.2.2 y.1 hm y.1 (by simp) rfl
    rw [dSet_new _ hk, ih (pre ++ [y]) (by simpa using hp)]
    simp

theorem mapM_ok {α β : Type} (g : α → M β) {xs : List α} {ys : List β} (h : List.Forall₂ (fun x y => g x = .ok y) xs ys) :
    xs.mapM g = .ok ys := by
  induction h with
  | nil => rfl
  | cons h1 _ ih => rw [List.mapM_cons, h1, ih]; rfl

theorem nameOf_ok {names : List String} {i : ℕ} {s : String} (h : Named names i s) : nameOf names i = .ok s := by
  unfold nameOf; rw [h]

/-- The dictionary of names. -/
theorem nameToId_eq {names : List String} (hn : names.Nodup) : nameToId names = names.zipIdx := by
  unfold nameToId
  have hk : (names.zipIdx.map Prod.fst).Nodup := by rw [List.zipIdx_map_fst]; exact hn
  suffices H : ∀ (rest pre : List (String × ℕ)), ((pre ++ rest).map Prod.fst).Nodup →
      rest.foldl (fun d p => dSet d p.1 p.2) pre = pre ++ rest from H _ [] hk
  intro rest
  induction rest with
  | nil => intro pre _; simp
  | cons p rest ih =>
    intro pre hp
    have hx : p.1 ∉ pre.map Prod.fst := by
      rw [List.map_append, List.nodup_append] at hp
      intro hm
      exact hp.2.2 p.1 hm p.1 (by simp) rfl
    rw [List.foldl_cons, dSet_new _ hx, ih (pre ++ [p]) (by simpa using hp)]
    simp

theorem dGet_of_nodup {α β : Type} [DecidableEq α] {d : List (α × β)} (hn : (d.map Prod.fst).Nodup) {k : α} {v : β}
    (h : (k, v) ∈ d) : dGet d k = some v := by
  obtain ⟨w, hw⟩ := dGet_some (List.mem_map_of_mem (f := Prod.fst) h)
  have := List.inj_on_of_nodup_map hn (dGet_mem hw) h rfl
  rw [Prod.mk.injEq] at this
  rw [hw, this.2]

theorem idOf_ok {names : List String} (hn : names.Nodup) {i : ℕ} {s : String} (h : Named names i s) :
    idOf names s = .ok i := by
  unfold idOf
  rw [nameToId_eq hn, dGet_of_nodup (v := i) (by rw [List.zipIdx_map_fst]; exact hn)
    (List.mem_zipIdx_iff_getElem?.2 h)]

theorem idOf_unknown {names : List String} (hn : names.Nodup) {s : String} (h : s ∉ names) :
    idOf names s = .error .keyError := by
  unfold idOf
  rw [nameToId_eq hn, dGet_none.2 (by rw [List.zipIdx_map_fst]; exact h)]

/-! ### Vehicles in order -/

theorem zipIdx_snoc {α : Type} (l : List α) (a : α) : (l ++ [a]).zipIdx = l.zipIdx ++ [(a, l.length)] := by
  rw [List.zipIdx_append]; simp

theorem registerOne_order {W : Wrap} (ok : NamesOK W) (h : InOrder W) (id0 j : ℕ) : InOrder (W.registerOne id0 j) := by
  unfold InOrder at *
  show odSet W.vehs (toString W.names.length) W.names.length = (W.names ++ [toString W.names.length]).zipIdx
  rw [zipIdx_snoc, odSet_new, h]
  intro i hi
  exact ok.fresh (List.mem_of_getElem? ((ok.vehs.mem _ i).1 hi).1)

theorem register_order {W : Wrap} (i : WInv W) (h : InOrder W) {c : CWorld} (a : Adds W.c c) : InOrder (W.addDemand c) := by
  have hlen := i.len
  have han := a.n
  have hnew : ∀ v, W.names.length ≤ v → v < c.g.nVehs → (c.veh v).state = .home := fun v h1 h2 =>
    a.home v (by omega) h2
  unfold Wrap.addDemand Wrap.register
  have key : ∀ n, n ≤ c.g.nVehs - W.names.length →
      Registered n (fun v => ¬ Over c v) (fun v => (c.veh v).state = .run) { W with c := c }
        ((List.range n).foldl (Wrap.registerOne W.vehs.length) { W with c := c }) ∧
      InOrder ((List.range n).foldl (Wrap.registerOne W.vehs.length) { W with c := c }) := by
    intro n
    induction n with
    | zero =>
      intro _
      exact ⟨⟨⟨i.ok.ids, i.ok.distinct, i.ok.shape, i.ok.vehs⟩, rfl, fun _ _ => rfl,
        fun i h1 h2 => absurd h2 (by simpa using h1),
        i.living.congr fun v hv => by unfold Spec.Over; rw [a.old v (by omega)],
        i.running.congr fun v hv => by rw [a.old v (by omega)], rfl, rfl, rfl, rfl, rfl⟩, h⟩
    | succ n ih =>
      intro hn
      obtain ⟨r, o⟩ := ih (by omega)
      rw [List.range_succ, List.foldl_append]
      have hs := hnew (W.names.length + n) (by omega) (by omega)
      refine ⟨registerOne_ok r i.ok.vehs.length ?_ ?_, registerOne_order r.ok o _ _⟩
      · show ¬ Over c (W.names.length + n)
        unfold Spec.Over; rw [hs]; simp
      · show ¬ (c.veh (W.names.length + n)).state = .run
        rw [hs]; simp
  exact (key _ (Nat.le_refl _)).2

theorem named_order {W W' : Wrap} (i : WInv W) (h : InOrder W) {c : CWorld} (a : Adds W.c c) {name : Option String}
    (hn : ∀ s, name = some s → NotNumber s) (hu : W.nameUsed name = false)
    (h1 : ∀ s, name = some s → c.g.nVehs = W.c.g.nVehs + 1)
    (e : W.named W.c.g.nVehs c name = .ok W') : InOrder W' := by
  obtain ⟨j, hc, hpre, hnew⟩ := i.register a
  have o := register_order i h a
  have hlen := i.len
  unfold Wrap.named at e
  have e0 : Wrap.register { W with c := c } = W.addDemand c := rfl
  simp only [e0] at e
  generalize W.addDemand c = W1 at j hc hpre hnew o e
  cases ho : W1.names[W.c.g.nVehs]? with
  | none => rw [ho] at e; cases e
  | some old =>
    rw [ho] at e
    cases name with
    | none => simp only [Except.ok.injEq] at e; rw [← e]; exact o
    | some s =>
      simp only [Except.ok.injEq] at e
      have hone := h1 s rfl
      have hl1 : W1.names.length = W.names.length + 1 := by rw [j.len, hc, hone, hlen]
      have hnames : W1.names = W.names ++ [old] := by
        apply List.ext_getElem?
        intro k
        rcases Nat.lt_trichotomy k W.names.length with hk | hk | hk
        · rw [hpre k hk, List.getElem?_append_left hk]
        · subst hk
          rw [List.getElem?_append_right (Nat.le_refl _), hlen, ho]; simp
        · rw [List.getElem?_eq_none (by omega), List.getElem?_eq_none (by simp; omega)]
      have hold : old ∉ W.names := by
        intro hm
        obtain ⟨k, hk, e1⟩ := List.getElem_of_mem hm
        have := j.ok.distinct k W.c.g.nVehs old (by rw [hpre k hk, List.getElem?_eq_getElem hk, e1]) ho
        omega
      have hs : s ∉ W.names := by
        intro hm
        obtain ⟨k, hk, e1⟩ := List.getElem_of_mem hm
        have hm2 : (s, k) ∈ W.vehs := (i.ok.vehs.mem s k).2 ⟨by rw [List.getElem?_eq_getElem hk, e1], trivial⟩
        unfold Wrap.nameUsed at hu
        simp only [decide_eq_false_iff_not, List.mem_map, not_exists] at hu
        exact hu (s, k) ⟨hm2, rfl⟩
      have hmem : ∀ x k, (x, k) ∈ W.names.zipIdx → x ∈ W.names := fun x k hx =>
        List.mem_of_getElem? (List.mem_zipIdx_iff_getElem?.1 hx)
      rw [← e]
      show odSet (odPop W1.vehs old) s W.c.g.nVehs = (W1.names.set W.c.g.nVehs s).zipIdx
      have hp : odPop W1.vehs old = W.names.zipIdx := by
        rw [show W1.vehs = W1.names.zipIdx from o, hnames, zipIdx_snoc]
        unfold odPop
        rw [List.filter_append, List.filter_eq_self.2]
        · simp
        · rintro ⟨x, k⟩ hx
          simp only [ne_eq, decide_not, Bool.not_eq_true', decide_eq_false_iff_not]
          rintro rfl
          exact hold (hmem _ _ hx)
      rw [hp, odSet_new (fun k hk => hs (hmem _ _ hk)), hnames, ← hlen, List.set_append_right _ _ (Nat.le_refl _)]
      simp [zipIdx_snoc]

theorem exec_order {W W' : Wrap} (i : WInv W) (h : InOrder W) {sched : ℕ → CWorld → CWorld.Sched}
    {u : Wrap.Until} {r : ℕ} (e : W.exec sched u = .ok (W', r)) : InOrder W' := by
  have hsync : ∀ (V : Wrap) (l : List ℕ), (l.foldl Wrap.syncOne V).vehs = V.vehs ∧
      (l.foldl Wrap.syncOne V).names = V.names := by
    intro V l
    induction l generalizing V with
    | nil => exact ⟨rfl, rfl⟩
    | cons a l ih =>
      rw [List.foldl_cons, (ih _).1, (ih _).2]
      unfold Wrap.syncOne
      split
      · exact ⟨rfl, rfl⟩
      · split <;> exact ⟨rfl, rfl⟩
  have key : ∀ V : Wrap, InOrder V →
      (if (V.T : ℤ) = V.endTs u ∧ V.endTs u = V.tsize then .ok (V.readLogs, 1)
        else if V.endTs u < V.T then .error .exception
        else Wrap.run sched V (V.endTs u)) = Except.ok (W', r) → InOrder W' := by
    intro V o hh
    split at hh
    · simp only [Except.ok.injEq, Prod.mk.injEq] at hh
      rw [← hh.1]; exact o
    · split at hh
      · cases hh
      · unfold Wrap.run at hh
        split at hh
        · cases hh
        · rename_i c _
          have := hsync { V with c := c } (List.range c.g.nVehs)
          have o2 : InOrder (Wrap.sync { V with c := c }) := by
            unfold InOrder Wrap.sync
            rw [this.1, this.2]; exact o
          simp only at hh
          split at hh <;> simp only [Except.ok.injEq, Prod.mk.injEq] at hh <;> rw [← hh.1] <;> exact o2
  unfold Wrap.exec at e
  simp only [] at e
  cases hf : W.finalized with
  | true => rw [if_pos hf] at e; exact key W h e
  | false => rw [hf] at e; exact key (W.finalize none) h e

theorem step_order {W W' : Wrap} (i : WInv W) (h : InOrder W) (s : WStep NotNumber W W') (h1 : AddsOne W W') :
    InOrder W' := by
  cases s with
  | node c ints off cap lanes rng fuel hf e => exact h
  | link src dst a hf hs hd hl => exact h
  | demand c orig dest t0 t1 flow fuel ho hd e => exact register_order i h (addDemand_adds ho hd e)
  | vehicle _ t orig dest prefer name fuel ho hd hn e =>
    unfold Wrap.addVehicle at e
    split at e
    · simp at e
    · rename_i hu
      rw [Option.map_eq_some_iff] at e
      obtain ⟨c, h2, h3⟩ := e
      refine named_order i h (addDemand_adds ho hd h2) hn (by simpa using hu) (fun s hs => ?_) h3
      subst hs
      have hi := i
      obtain ⟨_, hc, _, _⟩ := i.register (addDemand_adds ho hd h2)
      unfold Wrap.named at h3
      have e0 : Wrap.register { W with c := c } = W.addDemand c := rfl
      simp only [e0] at h3
      split at h3
      · cases h3
      · rename_i old hold
        simp only [Except.ok.injEq] at h3
        have hc2 : W'.c = c := by rw [← h3]; exact hc
        rw [← hc2]
        refine h1 s ?_ ?_ (hn s rfl)
        · rw [← h3]
          exact List.mem_set (List.getElem?_eq_some_iff.1 hold).1 s
        · intro hm
          obtain ⟨k, hk, ek⟩ := List.getElem_of_mem hm
          have hm2 : (s, k) ∈ W.vehs := (hi.ok.vehs.mem s k).2 ⟨by rw [List.getElem?_eq_getElem hk, ek], trivial⟩
          apply hu
          unfold Wrap.nameUsed
          simp only [decide_eq_true_eq]
          exact List.mem_map.2 ⟨_, hm2, rfl⟩
  | edit e => exact h
  | finalize t hf => exact h
  | exec _ u r sched hs e => exact exec_order i h e
  | logs => exact h

theorem _root_.UX.Cpp.Spec.OneReach.toReach {W : Wrap} (h : OneReach W) : WReach NotNumber W := by
  induction h with
  | new fl tmax deltaN tau duoTime duoWeight noise hardDet gradual noCyclic adjustCap logMode ttInterval => exact .new ..
  | step _ s _ ih => exact .step ih s

end UX.Cpp
