import Verif.Lemmas.TNF

/-!
# Lemmas about `to_TNF`: composition of renamings, canonicity, order of first visits
-/

set_option linter.unusedSectionVars false

namespace Model.Permute
open Spec (Dir Instr Table Renaming Renamed run init Config AtCell InRange Fits TreeNormal)
open Model.IO

/-! ## Composition -/

/-- first `so`, then `so'` -/
def compose (so so' : List Nat) : List Nat := so'.map fun i => so.getD i 0

variable {n k : Nat} {so syo so' syo' : List Nat}

theorem range_map_getD (h : so.length = n) : (List.range n).map (fun i => so.getD i 0) = so := by
  apply List.ext_getElem
  · simp [h]
  · intro i h1 h2
    simp [h2]

theorem compose_perm (h : so.Perm (List.range n)) (h' : so'.Perm (List.range n)) : (compose so so').Perm (List.range n) := by
  have h1 : (compose so so').Perm ((List.range n).map fun i => so.getD i 0) := h'.map _
  rw [range_map_getD (by rw [h.length_eq, List.length_range])] at h1
  exact h1.trans h

theorem perm_nodup (h : so.Perm (List.range n)) : so.Nodup := h.nodup_iff.2 List.nodup_range

theorem perm_mem (h : so.Perm (List.range n)) {x : Nat} : x ∈ so ↔ x < n := by rw [h.mem_iff, List.mem_range]

theorem perm_length (h : so.Perm (List.range n)) : so.length = n := by rw [h.length_eq, List.length_range]

theorem idxOf_lt' (h : so.Perm (List.range n)) {x : Nat} (hx : x < n) : so.idxOf x < n := by
  have := List.idxOf_lt_length_of_mem ((perm_mem h).2 hx)
  rwa [perm_length h] at this

theorem getD_idxOf (h : so.Perm (List.range n)) {x : Nat} (hx : x < n) : so.getD (so.idxOf x) 0 = x := by
  have := List.idxOf_lt_length_of_mem ((perm_mem h).2 hx)
  simp [this]

theorem getD_lt (h : so.Perm (List.range n)) {i : Nat} (hi : i < n) : so.getD i 0 < n := by
  have h1 : i < so.length := by rw [perm_length h]; exact hi
  have : so.getD i 0 = so[i] := by simp [h1]
  rw [this, ← perm_mem h]
  exact List.getElem_mem h1

theorem idxOf_getD (h : so.Perm (List.range n)) {i : Nat} (hi : i < n) : so.idxOf (so.getD i 0) = i := by
  have h1 : i < so.length := by rw [perm_length h]; exact hi
  have : so.getD i 0 = so[i] := by simp [h1]
  rw [this]
  exact (perm_nodup h).idxOf_getElem i h1

theorem idxOf_compose (h : so.Perm (List.range n)) (h' : so'.Perm (List.range n)) {x : Nat} (hx : x < n) :
    (compose so so').idxOf x = so'.idxOf (so.idxOf x) := by
  have h1 := idxOf_lt' h' (idxOf_lt' h hx)
  have h2 : so'.idxOf (so.idxOf x) < (compose so so').length := by rw [perm_length (compose_perm h h')]; exact h1
  have h3 : (compose so so')[so'.idxOf (so.idxOf x)] = x := by
    have e1 : so'[so'.idxOf (so.idxOf x)]'(by rw [perm_length h']; exact h1) = so.idxOf x := List.getElem_idxOf _
    have e2 : (compose so so')[so'.idxOf (so.idxOf x)] = so.getD (so'[so'.idxOf (so.idxOf x)]'(by rw [perm_length h']; exact h1)) 0 :=
      List.getElem_map _
    rw [e2, e1]
    exact getD_idxOf h hx
  have := (perm_nodup (compose_perm h h')).idxOf_getElem _ h2
  rwa [h3] at this

theorem getD_compose (h' : so'.Perm (List.range n)) {i : Nat} (hi : i < n) :
    (compose so so').getD i 0 = so.getD (so'.getD i 0) 0 := by
  have h1 : i < so'.length := by rw [perm_length h']; exact hi
  unfold compose
  simp [h1]

theorem newTrans_comp (h : so.Perm (List.range n)) (h' : so'.Perm (List.range n)) (g : syo.Perm (List.range k))
    (g' : syo'.Perm (List.range k)) (b b' : Bool) {t : BTrans} (hw : t.WF n k) :
    newTrans so' syo' b' (newTrans so syo b t) = newTrans (compose so so') (compose syo syo') (xor b b') t := by
  obtain ⟨c, s, d, q⟩ := t
  unfold newTrans
  unfold BTrans.WF at hw
  cases c with
  | running =>
    simp only at hw ⊢
    obtain ⟨h1, h2, h3, h4⟩ := hw
    rw [idxOf_compose h h' (by omega), idxOf_compose g g' (by omega)]
    simp only [Int.toNat_natCast, BTrans.mk.injEq, true_and, and_true]
    cases b <;> cases b' <;> simp
  | halt => rfl
  | undefined => rfl

theorem permuted_comp {m : SM} (hm : m.WF) (h : so.Perm (List.range m.nStates)) (h' : so'.Perm (List.range m.nStates))
    (g : syo.Perm (List.range m.nSyms)) (g' : syo'.Perm (List.range m.nSyms)) (b b' : Bool) :
    permuted (permuted m so syo b) so' syo' b' = permuted m (compose so so') (compose syo syo') (xor b b') := by
  unfold permuted
  simp only [SM.mk.injEq, and_true]
  conv_rhs => unfold compose
  rw [List.map_map]
  apply List.map_congr_left
  intro i hi
  simp only [Function.comp_apply]
  rw [List.map_map]
  apply List.map_congr_left
  intro j hj
  have hi' := (perm_mem h').1 hi
  have hj' := (perm_mem g').1 hj
  have := permuted_cell (m := m) (swap := b) h g hi' hj'
  unfold permuted at this
  rw [this, newTrans_comp h h' g g' b b' (cell_wf hm (getD_lt h hi') (getD_lt g hj'))]
  rfl

/-! ## Canonicity -/

theorem table_fits {m : SM} (h : m.WF) : Fits m.table m.nStates m.nSyms := by
  intro q hq a ha
  rw [table_cell]
  have := cell_wf h hq ha
  generalize cell m q a = t at this
  obtain ⟨c, s, d, q⟩ := t
  unfold BTrans.WF at this
  unfold BTrans.instr
  cases c with
  | running => simp only at this ⊢; omega
  | halt => simp only at this ⊢; omega
  | undefined => simp only

theorem ordS_done_perm (hn : 0 < n) {T : Table} {t : Nat} (h : (ordS n T t).unordered = []) :
    (ordS n T t).order.Perm (List.range n) := by
  have := ordS_perm (T := T) hn t
  rwa [h, List.append_nil] at this

theorem ordY_done_perm (hn : 0 < k) {T : Table} {t : Nat} (h : (ordY k T t).unordered = []) :
    (ordY k T t).order.Perm (List.range k) := by
  have := ordY_perm (T := T) hn t
  rwa [h, List.append_nil] at this

theorem compose_map_idxOf {l : List Nat} (h : so.Perm (List.range n)) (hl : ∀ x ∈ l, x < n) :
    compose so (l.map fun q => so.idxOf q) = l := by
  unfold compose
  rw [List.map_map]
  conv_rhs => rw [← List.map_id l]
  apply List.map_congr_left
  intro x hx
  exact getD_idxOf h (hl x hx)

/-- the conversion succeeds, with these orders -/
theorem toTNF_ok {m : SM} (h : m.WF) (hd : m.Moves) {maxSteps : Int} {t : Nat} (ht : Done m.nStates m.nSyms m.table t)
    (hs : ∀ s < t, ¬ Done m.nStates m.nSyms m.table s ∧ (s : Int) ≤ maxSteps ∧ (run m.table s init).state ≠ none) :
    toTNF m maxSteps = .ok (permuted m (ordS m.nStates m.table t).order (ordY m.nSyms m.table t).order
      (decide ((cell m 0 0).dir = 0))) := by
  rcases toTNF_spec h maxSteps with ⟨t', a1, a2, a3⟩ | ⟨-, t', a2, a3⟩
  · have : t' = t := by
      rcases Nat.lt_trichotomy t' t with hlt | rfl | hlt
      · exact absurd a1 (hs t' hlt).1
      · rfl
      · exact absurd ht (a2 t hlt).1
    subst this
    rw [a3, permuteTable_eq h hd (ordS_done_perm h.states a1.1) (ordY_done_perm h.syms a1.2)]
    rfl
  · exfalso
    rcases Nat.lt_or_ge t' t with hlt | hle
    · have := hs t' hlt
      rcases a2 with a2 | a2
      · omega
      · exact this.2.2 a2
    · exact a3 t hle ht

theorem toTNF_cases {m : SM} (h : m.WF) (hd : m.Moves) (maxSteps : Int) :
    (∃ t, Done m.nStates m.nSyms m.table t ∧
      (∀ s < t, ¬ Done m.nStates m.nSyms m.table s ∧ (s : Int) ≤ maxSteps ∧ (run m.table s init).state ≠ none) ∧
      toTNF m maxSteps = .ok (permuted m (ordS m.nStates m.table t).order (ordY m.nSyms m.table t).order
        (decide ((cell m 0 0).dir = 0)))) ∨
    (toTNF m maxSteps = .failed ∧
      ∃ t' : Nat, ((t' : Int) > maxSteps ∨ (run m.table t' init).state = none) ∧ ∀ s ≤ t', ¬ Done m.nStates m.nSyms m.table s) := by
  rcases toTNF_spec h maxSteps with ⟨t', a1, a2, a3⟩ | h
  · exact Or.inl ⟨t', a1, a2, toTNF_ok h hd a1 a2⟩
  · exact Or.inr h

theorem not_done_zero (hk : 1 < k) {T : Table} : ¬ Done n k T 0 := by
  intro h
  have h2 : (Order.start k).unordered = [] := h.2
  have : 1 ∈ (Order.start k).unordered := by simp [Order.start, hk]
  rw [h2] at this
  simp at this

theorem dir_permuted {m : SM} (h : m.WF) (hd : m.Moves) (hso : so.Perm (List.range m.nStates)) (hsyo : syo.Perm (List.range m.nSyms))
    (h0 : so.head? = some 0) (h1 : syo.head? = some 0) (b : Bool) (hr : (cell m 0 0).cond = .running) :
    (xor b (decide ((cell (permuted m so syo b) 0 0).dir = 0))) = decide ((cell m 0 0).dir = 0) := by
  rw [permuted_cell hso hsyo h.states h.syms]
  have e0 : so.getD 0 0 = 0 := by cases so <;> simp_all
  have e1 : syo.getD 0 0 = 0 := by cases syo <;> simp_all
  rw [e0, e1]
  have := cell_moves h hd h.states h.syms
  unfold newTrans
  rw [hr]
  simp only
  rcases this with e | e <;> rw [e] <;> cases b <;> simp

theorem running_of_step {m : SM} (hh : (run m.table 1 init).state ≠ none) : (cell m 0 0).cond = .running := by
  rw [Spec.run_one, Spec.step_state (c := init) (q := 0) rfl] at hh
  have h1 : m.table 0 (init.tape init.pos) = (cell m 0 0).instr := table_cell 0 0
  rw [h1] at hh
  unfold BTrans.instr at hh
  cases hc : (cell m 0 0).cond with
  | running => rfl
  | halt => rw [hc] at hh; exact absurd rfl hh
  | undefined => rw [hc] at hh; exact absurd rfl hh

/-- Isomorphic machines are converted to the same machine, unless they halt early. -/
theorem toTNF_permuted {m : SM} (h : m.WF) (hd : m.Moves) (hk : 1 < m.nSyms) (hso : so.Perm (List.range m.nStates))
    (hsyo : syo.Perm (List.range m.nSyms)) (h0 : so.head? = some 0) (h1 : syo.head? = some 0) (b : Bool) {maxSteps : Int}
    (hh : (run m.table (maxSteps.toNat + 1) init).state ≠ none) :
    toTNF (permuted m so syo b) maxSteps = toTNF m maxSteps := by
  have hw' := permuted_wf (swap := b) h hd hk hso hsyo
  let ρ := Renaming.ofOrders so syo b hso hsyo
  have hr : Renamed ρ m.table (permuted m so syo b).table := permuted_renamed h hd hso hsyo
  have r0 : ρ.st 0 = 0 := idxOf_head h0
  have r1 : ρ.sy 0 = 0 := idxOf_head h1
  have hrun : ∀ s ≤ maxSteps.toNat + 1, (run m.table s init).state ≠ none := fun s hs => Spec.run_some_mono hs hh
  have hstate : ∀ s, (run (permuted m so syo b).table s init).state = (run m.table s init).state.map ρ.st := by
    intro s
    have := Spec.run_state_renamed ρ (table_fits h) hr (Spec.inRange_init h.states h.syms) s
    rwa [Spec.config_init ρ r0 r1] at this
  have hdone : ∀ s ≤ maxSteps.toNat + 1, (Done m.nStates m.nSyms (permuted m so syo b).table s ↔ Done m.nStates m.nSyms m.table s) :=
    fun s hs => done_iff ρ h.states h.syms r0 r1 (table_fits h) hr s (hrun s hs)
  rcases toTNF_cases h hd maxSteps with ⟨t, a1, a2, a3⟩ | ⟨a1, t', a2, a3⟩
  · have ht : t ≤ maxSteps.toNat + 1 := by
      rcases Nat.eq_zero_or_pos t with e | e
      · omega
      · have := (a2 (t - 1) (by omega)).2.1; omega
    have htpos : 1 ≤ t := by
      rcases Nat.eq_zero_or_pos t with e | e
      · subst e; exact absurd a1 (not_done_zero hk)
      · exact e
    have b1 : Done m.nStates m.nSyms (permuted m so syo b).table t := (hdone t ht).2 a1
    have b2 := toTNF_ok (maxSteps := maxSteps) hw'.1 hw'.2 (t := t) b1 (fun s hs => by
      obtain ⟨c1, c2, c3⟩ := a2 s hs
      refine ⟨fun hx => c1 ((hdone s (by omega)).1 hx), c2, ?_⟩
      rw [hstate]
      simpa using c3)
    rw [a3, b2]
    congr 1
    obtain ⟨i1, i2⟩ := ord_rel ρ h.states h.syms r0 r1 (table_fits h) hr t (hrun t ht)
    have p1 := ordS_done_perm h.states a1.1
    have p2 := ordY_done_perm h.syms a1.2
    have q1 := ordS_done_perm (T := (permuted m so syo b).table) h.states b1.1
    have q2 := ordY_done_perm (T := (permuted m so syo b).table) h.syms b1.2
    change permuted (permuted m so syo b) (ordS m.nStates (permuted m so syo b).table t).order
      (ordY m.nSyms (permuted m so syo b).table t).order _ = _
    rw [permuted_comp h hso q1 hsyo q2, i1.order, i2.order]
    have e1 : compose so ((ordS m.nStates m.table t).order.map ρ.st) = (ordS m.nStates m.table t).order :=
      compose_map_idxOf hso fun x hx => (perm_mem p1).1 hx
    have e2 : compose syo ((ordY m.nSyms m.table t).order.map ρ.sy) = (ordY m.nSyms m.table t).order :=
      compose_map_idxOf hsyo fun x hx => (perm_mem p2).1 hx
    rw [e1, e2, dir_permuted h hd hso hsyo h0 h1 b (running_of_step (hrun 1 (by omega)))]
  · rw [a1]
    have ht : ∃ t'' ≤ maxSteps.toNat + 1, (t'' : Int) > maxSteps ∧ ∀ s ≤ t'', ¬ Done m.nStates m.nSyms m.table s := by
      by_cases hm : 0 ≤ maxSteps
      · refine ⟨maxSteps.toNat + 1, le_refl _, by omega, fun s hs => a3 s ?_⟩
        rcases a2 with a2 | a2
        · omega
        · by_contra hc
          exact hrun t' (by omega) a2
      · exact ⟨0, by omega, by omega, fun s hs => a3 s (by omega)⟩
    obtain ⟨t'', c1, c2, c3⟩ := ht
    rcases toTNF_cases hw'.1 hw'.2 maxSteps with ⟨t, d1, d2, d3⟩ | ⟨d1, -⟩
    · exfalso
      have : t ≤ t'' := by
        by_contra hc
        have := (d2 t'' (by omega)).2.1
        omega
      exact c3 t this ((hdone t (by omega)).1 d1)
    · exact d1

/-! ## The order of first visits -/

/-- `o` is in the order of first occurrence in the sequence `f`, seen up to time `t` -/
structure OInv (f : Nat → Option Nat) (t : Nat) (o : Order) : Prop where
  seen : ∀ s ≤ t, ∀ x, f s = some x → x ∈ o.order
  sorted : ∀ i j : Nat, j < i → ∀ x y, o.order[i]? = some x → o.order[j]? = some y → ∀ s, f s = some x → ∃ s' ≤ s, f s' = some y
  visited : o.unordered ≠ [] → f t ≠ none → ∀ x ∈ o.order, ∃ s ≤ t, f s = some x

variable {f : Nat → Option Nat} {t : Nat} {o : Order}

theorem disjoint_of_perm (h : (o.order ++ o.unordered).Perm (List.range n)) {x : Nat} (hx : x ∈ o.unordered) : x ∉ o.order :=
  fun hx' => (List.nodup_append.1 (h.nodup_iff.2 List.nodup_range)).2.2 x hx' x hx rfl

theorem sorted_append {l : List Nat} {x : Nat}
    (hs : ∀ i j : Nat, j < i → ∀ x y, l[i]? = some x → l[j]? = some y → ∀ s, f s = some x → ∃ s' ≤ s, f s' = some y)
    (hx : ∀ s, f s = some x → ∀ y ∈ l, ∃ s' ≤ s, f s' = some y) :
    ∀ i j : Nat, j < i → ∀ x' y, (l ++ [x])[i]? = some x' → (l ++ [x])[j]? = some y → ∀ s, f s = some x' → ∃ s' ≤ s, f s' = some y := by
  intro i j hij x' y h1 h2 s h3
  have hi : i < l.length + 1 := by
    have := (List.getElem?_eq_some_iff.1 h1).1
    simpa using this
  rw [List.getElem?_append_left (by omega)] at h2
  by_cases e : i < l.length
  · rw [List.getElem?_append_left e] at h1
    exact hs i j hij x' y h1 h2 s h3
  · have : i = l.length := by omega
    subst this
    simp at h1
    subst h1
    exact hx s h3 y (List.mem_of_getElem? h2)

theorem OInv.note (h : OInv f t o) (hp : (o.order ++ o.unordered).Perm (List.range n)) (hr : f t ≠ none) {y : Nat} (hy : y < n)
    (hf : f (t + 1) = some y ∨ f (t + 1) = none) : OInv f (t + 1) (o.note y) := by
  rcases o.note_cases y with ⟨h1, e⟩ | ⟨h1, e⟩
  · rw [e]
    have hne : o.unordered ≠ [] := fun hx => by rw [hx] at h1; simp at h1
    refine ⟨?_, sorted_append h.sorted ?_, ?_⟩
    · intro s hs x hx
      rcases Nat.lt_or_ge s (t + 1) with hlt | hge
      · exact List.mem_append_left _ (h.seen s (by omega) x hx)
      · have : s = t + 1 := by omega
        subst this
        rcases hf with hf | hf
        · rw [hf] at hx; cases hx; simp
        · rw [hf] at hx; cases hx
    · intro s hs x hx
      have : t + 1 ≤ s := by
        by_contra hc
        exact disjoint_of_perm hp h1 (h.seen s (by omega) y hs)
      obtain ⟨s', h2, h3⟩ := h.visited hne hr x hx
      exact ⟨s', by omega, h3⟩
    · intro _ hr' x hx
      rw [List.mem_append, List.mem_singleton] at hx
      rcases hx with hx | rfl
      · obtain ⟨s', h2, h3⟩ := h.visited hne hr x hx
        exact ⟨s', by omega, h3⟩
      · rcases hf with hf | hf
        · exact ⟨t + 1, le_refl _, hf⟩
        · exact absurd hf hr'
  · rw [e]
    have hyo : y ∈ o.order := by
      have := hp.mem_iff.2 (List.mem_range.2 hy)
      rw [List.mem_append] at this
      exact this.resolve_right h1
    refine ⟨?_, h.sorted, ?_⟩
    · intro s hs x hx
      rcases Nat.lt_or_ge s (t + 1) with hlt | hge
      · exact h.seen s (by omega) x hx
      · have : s = t + 1 := by omega
        subst this
        rcases hf with hf | hf
        · rw [hf] at hx; cases hx; exact hyo
        · rw [hf] at hx; cases hx
    · intro hne _ x hx
      obtain ⟨s', h2, h3⟩ := h.visited hne hr x hx
      exact ⟨s', by omega, h3⟩

theorem OInv.skip (h : OInv f t o) (hf : f (t + 1) = none) : OInv f (t + 1) o := by
  refine ⟨?_, h.sorted, fun _ hr => absurd hf hr⟩
  intro s hs x hx
  rcases Nat.lt_or_ge s (t + 1) with hlt | hge
  · exact h.seen s (by omega) x hx
  · have : s = t + 1 := by omega
    subst this
    rw [hf] at hx; cases hx

theorem OInv.lone (h : OInv f t o) (hp : (o.order ++ o.unordered).Perm (List.range n))
    (hmono : ∀ s s', s ≤ s' → f s = none → f s' = none) : OInv f t o.lone := by
  rcases o.lone_cases with ⟨x, h1, e⟩ | ⟨-, e⟩
  · rw [e]
    refine ⟨fun s hs y hy => List.mem_append_left _ (h.seen s hs y hy), sorted_append h.sorted ?_, fun hx => absurd rfl hx⟩
    intro s hs y hy
    have hlt : t < s := by
      by_contra hc
      exact disjoint_of_perm hp (by rw [h1]; simp) (h.seen s (by omega) x hs)
    have hr : f t ≠ none := fun hx => by
      have := hmono t s (by omega) hx
      rw [this] at hs
      cases hs
    obtain ⟨s', h2, h3⟩ := h.visited (by rw [h1]; simp) hr y hy
    exact ⟨s', by omega, h3⟩
  · rw [e]; exact h

theorem OInv.start (h0 : f 0 = some 0) : OInv f 0 (Order.start n) := by
  refine ⟨?_, ?_, ?_⟩
  · intro s hs x hx
    have : s = 0 := by omega
    subst this
    rw [h0] at hx; cases hx
    simp [Order.start]
  · intro i j hij x y h1
    exfalso
    have := (List.getElem?_eq_some_iff.1 h1).1
    simp [Order.start] at this
    omega
  · intro _ _ x hx
    simp only [Order.start, List.mem_singleton] at hx
    subst hx
    exact ⟨0, le_refl _, h0⟩

/-- the symbol read at time `t` -/
def reads (T : Table) (t : Nat) : Option Nat :=
  (run T t init).state.map fun _ => (run T t init).tape (run T t init).pos

theorem ord_inv {T : Table} (hn : 0 < n) (hk : 0 < k) (hf : Fits T n k) (t : Nat) (hk1 : 1 < k)
    (hh : ∀ s < t, (run T s init).state ≠ none) :
    OInv (fun s => (run T s init).state) t (ordS n T t) ∧ OInv (reads T) t (ordY k T t) := by
  have mono1 : ∀ s s', s ≤ s' → (run T s init).state = none → (run T s' init).state = none := fun s s' h1 h2 =>
    Spec.run_none_mono h1 h2
  have mono2 : ∀ s s', s ≤ s' → reads T s = none → reads T s' = none := fun s s' h1 h2 => by
    unfold reads at h2 ⊢
    rw [Option.map_eq_none_iff] at h2 ⊢
    exact mono1 s s' h1 h2
  induction t with
  | zero => exact ⟨OInv.start rfl, OInv.start rfl⟩
  | succ t ih =>
    obtain ⟨i1, i2⟩ := ih fun s hs => hh s (by omega)
    have ht := hh t (by omega)
    have hrng := Spec.inRange_run hf (Spec.inRange_init hn hk) t ht
    constructor
    · unfold ordS
      cases hq : (run T (t + 1) init).state with
      | none => exact (i1.skip hq).lone (ordS_perm hn t) mono1
      | some q =>
        have hr' := Spec.inRange_run hf (Spec.inRange_init hn hk) (t + 1) (by rw [hq]; simp)
        exact (i1.note (ordS_perm hn t) ht (hr'.1 q hq) (Or.inl hq)).lone (note_perm _ (ordS_perm hn t)) mono1
    · have hlt : (run T (t + 1) init).tape (run T (t + 1) init).pos < k := by
        cases hq : (run T t init).state with
        | none => exact absurd hq ht
        | some q =>
          rw [Spec.run_succ', Spec.step_tape hq]
          have hfit := hf q (hrng.1 q hq) _ (hrng.2 (run T t init).pos)
          by_cases e : (Spec.step T (run T t init)).pos = (run T t init).pos
          · rw [e, Function.update_self]
            revert hfit
            cases T q ((run T t init).tape (run T t init).pos) <;> simp [Instr.write] <;> omega
          · rw [Function.update_of_ne e]
            exact hrng.2 _
      have hcase : reads T (t + 1) = some ((run T (t + 1) init).tape (run T (t + 1) init).pos) ∨ reads T (t + 1) = none := by
        unfold reads
        cases (run T (t + 1) init).state
        · right; rfl
        · left; rfl
      exact (i2.note (ordY_perm hk t) (by unfold reads; simpa using ht) hlt hcase).lone (note_perm _ (ordY_perm hk t)) mono2

/-- the result of a conversion is in tree normal form -/
theorem treeNormal {m : SM} (h : m.WF) (hd : m.Moves) (hk : 1 < m.nSyms) {t : Nat} (ht : Done m.nStates m.nSyms m.table t)
    (hs : ∀ s < t, (run m.table s init).state ≠ none) :
    TreeNormal (permuted m (ordS m.nStates m.table t).order (ordY m.nSyms m.table t).order (decide ((cell m 0 0).dir = 0))).table := by
  obtain ⟨i1, i2⟩ := ord_inv h.states h.syms (table_fits h) t hk hs
  have p1 := ordS_done_perm h.states ht.1
  have p2 := ordY_done_perm h.syms ht.2
  have o1 := ordS_head (n := m.nStates) (T := m.table) t
  have o2 := ordY_head (k := m.nSyms) (T := m.table) t
  generalize ordS m.nStates m.table t = o at *
  generalize ordY m.nSyms m.table t = p at *
  let ρ := Renaming.ofOrders o.order p.order (decide ((cell m 0 0).dir = 0)) p1 p2
  have hr : Renamed ρ m.table (permuted m o.order p.order (decide ((cell m 0 0).dir = 0))).table := permuted_renamed h hd p1 p2
  have r0 : ρ.st 0 = 0 := idxOf_head o1
  have r1 : ρ.sy 0 = 0 := idxOf_head o2
  have hfit := table_fits h
  have hin := Spec.inRange_init h.states h.syms
  have hstate : ∀ s, (run (permuted m o.order p.order (decide ((cell m 0 0).dir = 0))).table s init).state = (run m.table s init).state.map ρ.st := by
    intro s
    have := Spec.run_state_renamed ρ hfit hr hin s
    rwa [Spec.config_init ρ r0 r1] at this
  have hcfg : ∀ s, (run m.table s init).state ≠ none → 
      run (permuted m o.order p.order (decide ((cell m 0 0).dir = 0))).table s init = ρ.config (run m.table s init) := by
    intro s hs
    have := Spec.run_renamed ρ hfit hr hin s hs
    rwa [Spec.config_init ρ r0 r1] at this
  have hat : ∀ s q a, (run m.table s init).state = some q → (run m.table s init).tape (run m.table s init).pos = a →
      AtCell (run (permuted m o.order p.order (decide ((cell m 0 0).dir = 0))).table s init) (o.order.idxOf q) (p.order.idxOf a) := by
    intro s q a hq ha
    rw [hcfg s (by rw [hq]; simp)]
    refine ⟨?_, ?_⟩
    · show (run m.table s init).state.map ρ.st = _
      rw [hq]; rfl
    · rw [ρ.config_cell, ha]; rfl
  have inv : ∀ s q a, AtCell (run (permuted m o.order p.order (decide ((cell m 0 0).dir = 0))).table s init) q a →
      ∃ q0 a0, (run m.table s init).state = some q0 ∧ (run m.table s init).tape (run m.table s init).pos = a0 ∧
        q0 < m.nStates ∧ a0 < m.nSyms ∧ q = o.order.idxOf q0 ∧ a = p.order.idxOf a0 := by
    intro s q a ⟨h1, h2⟩
    rw [hstate] at h1
    cases hq : (run m.table s init).state with
    | none => rw [hq] at h1; cases h1
    | some q0 =>
      have hne : (run m.table s init).state ≠ none := by rw [hq]; simp
      have hi := Spec.inRange_run hfit hin s hne
      refine ⟨q0, _, rfl, rfl, hi.1 q0 hq, hi.2 _, ?_, ?_⟩
      · rw [hq] at h1; exact (Option.some.inj h1).symm
      · rw [← h2, hcfg s hne, ρ.config_cell]; rfl
  refine ⟨?_, ?_, ?_⟩
  · intro s q a hc q' hq'
    obtain ⟨q0, a0, e1, e2, l1, l2, e3, e4⟩ := inv s q a hc
    have hlen := perm_length p1
    have hlt : q < m.nStates := by rw [e3]; exact idxOf_lt' p1 l1
    have g1 : o.order[q]? = some q0 := by
      have := getD_idxOf p1 l1
      rw [← e3] at this
      rw [← this, List.getD_eq_getElem?_getD, List.getElem?_eq_getElem (by omega)]
      rfl
    have g2 : o.order[q']? = some (o.order[q']'(by omega)) := List.getElem?_eq_getElem _
    obtain ⟨s', h1, h2⟩ := i1.sorted q q' hq' _ _ g1 g2 s e1
    have := hat s' _ _ h2 rfl
    rw [(perm_nodup p1).idxOf_getElem q' (by omega)] at this
    exact ⟨s', h1, _, this⟩
  · intro s q a hc a' ha'
    obtain ⟨q0, a0, e1, e2, l1, l2, e3, e4⟩ := inv s q a hc
    have hlen := perm_length p2
    have hlt : a < m.nSyms := by rw [e4]; exact idxOf_lt' p2 l2
    have g1 : p.order[a]? = some a0 := by
      have := getD_idxOf p2 l2
      rw [← e4] at this
      rw [← this, List.getD_eq_getElem?_getD, List.getElem?_eq_getElem (by omega)]
      rfl
    have g2 : p.order[a']? = some (p.order[a']'(by omega)) := List.getElem?_eq_getElem _
    have e5 : reads m.table s = some a0 := by unfold reads; rw [e1, e2]; rfl
    obtain ⟨s', h1, h2⟩ := i2.sorted a a' ha' _ _ g1 g2 s e5
    unfold reads at h2
    rw [Option.map_eq_some_iff] at h2
    obtain ⟨q1, h2, h3⟩ := h2
    have := hat s' _ _ h2 h3
    rw [(perm_nodup p2).idxOf_getElem a' (by omega)] at this
    exact ⟨s', h1, _, this⟩
  · have h00 := hr 0 h.states 0 h.syms
    rw [r0, r1] at h00
    rw [h00, table_cell]
    have hmv := cell_moves h hd h.states h.syms
    have hmir : ρ.mirror = decide ((cell m 0 0).dir = 0) := rfl
    unfold BTrans.instr Renaming.instr Renaming.dir
    rw [hmir]
    cases (cell m 0 0).cond with
    | running => rcases hmv with e | e <;> rw [e] <;> rfl
    | halt => rfl
    | undefined => rfl

end Model.Permute
