import Verif.Lemmas.CPSCertOrder

/-!
# The numbers of edges and configurations that are reported
-/

namespace Model.CPS
open Spec

/-- number of pairs of blocks -/
def pairs (l : Conts Nat) : Nat := (l.map fun e => e.2.length).sum

/-- all pairs but the two that are there at the start were counted -/
def Counted (g : G) : Prop := pairs g.contL + pairs g.contR = g.edges + 2

theorem pairs_dset (l : Conts Nat) (src dst : List Nat) :
    pairs (Py.dset l src ((Py.dget l src).getD [] ++ [dst])) = pairs l + 1 := by
  induction l with
  | nil => rfl
  | cons e l ih =>
    unfold Py.dset
    by_cases h : e.1 = src
    · have : Py.dget (e :: l) src = some e.2 := by simp [Py.dget, h]
      rw [if_pos h, this]
      simp [pairs]; omega
    · have : Py.dget (e :: l) src = Py.dget l src := by simp [Py.dget, h]
      rw [if_neg h, this]
      unfold pairs at ih ⊢
      simp only [List.map_cons, List.sum_cons, ih]
      omega

theorem addEdge_counted {g : G} (h : Counted g) (d : Dir) (src dst : List Nat) : Counted (g.addEdge d src dst).1 := by
  unfold CGS.addEdge
  split
  · unfold Counted at h ⊢
    cases d
    · have := pairs_dset g.contL src dst
      show pairs (Py.dset g.contL src _) + pairs g.contR = g.edges + 1 + 2
      rw [show g.dsts .L src = (Py.dget g.contL src).getD [] from rfl]
      omega
    · have := pairs_dset g.contR src dst
      show pairs g.contL + pairs (Py.dset g.contR src _) = g.edges + 1 + 2
      rw [show g.dsts .R src = (Py.dget g.contR src).getD [] from rfl]
      omega
  · exact h

theorem addEdges_counted (l : List (List Nat)) {g : G} (h : Counted g) (d : Dir) (src : List Nat) :
    Counted (g.addEdges d src l).1 := by
  induction l generalizing g with
  | nil => exact h
  | cons x l ih => rw [addEdges_cons]; exact ih (addEdge_counted h _ _ _)

theorem addFronts_counted {k : Nat} (l : List (List Nat)) {g : G} (h : Counted g) (c : Cfg Nat (Option Nat)) :
    Counted (g.addFronts k c l).1 := by
  induction l generalizing g with
  | nil => exact h
  | cons x l ih =>
    rw [addFronts_cons]
    refine ih ?_
    unfold CGS.addConfig
    split <;> exact h

theorem updateSet_counted {k : Nat} {ordB : List (List Nat) → List (List Nat)} {g g' : G} (h : Counted g)
    {old : Cfg Nat (Option Nat)} {m : Bool} (he : g.updateSet k ordB old = some (g', m)) : Counted g' := by
  unfold CGS.updateSet at he
  split at he
  · cases he
  · split at he
    · cases he
      exact addFronts_counted _ (addEdges_counted _ (addEdge_counted h _ _ _) _ _) _
    · cases he; exact h

theorem simAll_counted {T : Table} {k : Nat} (lim : Lim) {ordB : List (List Nat) → List (List Nat)}
    (cs : List (Cfg Nat (Option Nat))) {g g' : G} (h : Counted g)
    (he : CGS.simAll (simple T) k lim ordB cs g = .go g') : Counted g' := by
  induction cs generalizing g with
  | nil => cases he; exact h
  | cons c cs ih =>
    unfold CGS.simAll at he
    have h1 : Counted (g.simConfig (simple T) lim c).1 := h
    revert he h1
    rcases g.simConfig (simple T) lim c with ⟨g1, cond⟩
    intro he h1
    simp only at he h1
    split at he
    · cases he
    · split at he
      · split at he
        · cases he
        · next g2 m hu => exact ih (updateSet_counted h1 hu) he
      · split at he
        · cases he
        · exact ih h1 he

theorem simTodo_counted {T : Table} {k : Nat} (lim : Lim)
    {ordC : List (Cfg Nat (Option Nat)) → List (Cfg Nat (Option Nat))}
    {ordB : List (List Nat) → List (List Nat)} (fuel : Nat) {g g' : G} (h : Counted g)
    (he : CGS.simTodo (simple T) k lim ordC ordB fuel g = .go g') : Counted g' := by
  induction fuel generalizing g with
  | zero => cases he
  | succ fuel ih =>
    unfold CGS.simTodo at he
    split at he
    · cases he; exact h
    · split at he
      · next g1 h1 => exact ih (simAll_counted lim _ (g := { g with todo := [] }) h h1) he
      · next hr => exact absurd he (hr _)

theorem recheck_counted {k : Nat} {ordB : List (List Nat) → List (List Nat)} (cs : List (Cfg Nat (Option Nat)))
    {g g' : G} {m m' : Bool} (h : Counted g) (he : CGS.recheck k ordB cs g m = some (g', m')) : Counted g' := by
  induction cs generalizing g m with
  | nil => cases he; exact h
  | cons c cs ih =>
    unfold CGS.recheck at he
    split at he
    · cases he
    · next g1 m1 hu => exact ih (updateSet_counted h hu) he

theorem runLoop_counted {T : Table} {k : Nat} (lim : Lim)
    {ordC : List (Cfg Nat (Option Nat)) → List (Cfg Nat (Option Nat))}
    {ordB : List (List Nat) → List (List Nat)} (fuel : Nat) {g g' : G} (h : Counted g)
    (he : CGS.runLoop (simple T) k lim ordC ordB fuel g = some (g', true)) : Counted g' := by
  induction fuel generalizing g with
  | zero => cases he
  | succ fuel ih =>
    unfold CGS.runLoop at he
    simp only at he
    split at he
    · cases he
    · cases he
    · next g1 h1 =>
      have H1 := simTodo_counted lim _ (g := { g with iters := g.iters + 1 }) h h1
      split at he
      · cases he
      · next g2 m h2 =>
        have H2 := recheck_counted _ H1 h2
        split at he
        · cases he; exact H2
        · split at he
          · simp at he
          · exact ih H2 he

theorem edgeList_length (g : G) (d : Dir) : (g.edgeList d).length = pairs (g.cont d) := by
  unfold CGS.edgeList
  rw [(sortBy_perm _ _).length_eq, List.length_flatMap]
  simp [pairs]

theorem run_counted {T : Table} {k w : Nat} (lim : Lim)
    {ordC : List (Cfg Nat (Option Nat)) → List (Cfg Nat (Option Nat))}
    {ordB : List (List Nat) → List (List Nat)} {g : G}
    (he : CGS.run (simple T) k w lim ordC ordB = some (g, true)) :
    (g.edgeList .L).length + (g.edgeList .R).length = g.edges + 2 := by
  rw [edgeList_length, edgeList_length]
  exact runLoop_counted lim _ (by rfl) he

/-! ## Configurations -/

/-- all configurations that were met are in a list as long as their number -/
def Listed (pl : List (Cfg Nat (Option Nat))) (g : G) : Prop :=
  ∃ L : List (Cfg Nat (Option Nat)), L.length ≤ g.configs + 1 ∧ (∀ c ∈ g.todo, c ∈ L) ∧ (∀ c ∈ pl, c ∈ L) ∧
    ∀ e ∈ g.trans, e.1 ∈ L

theorem addEdge_listed {pl : List (Cfg Nat (Option Nat))} {g : G} (h : Listed pl g) (d : Dir) (src dst : List Nat) :
    Listed pl (g.addEdge d src dst).1 := by
  unfold CGS.addEdge
  split
  · cases d <;> exact h
  · exact h

theorem addEdges_listed {pl : List (Cfg Nat (Option Nat))} (l : List (List Nat)) {g : G} (h : Listed pl g) (d : Dir)
    (src : List Nat) : Listed pl (g.addEdges d src l).1 := by
  induction l generalizing g with
  | nil => exact h
  | cons x l ih => rw [addEdges_cons]; exact ih (addEdge_listed h _ _ _)

theorem addFronts_listed {pl : List (Cfg Nat (Option Nat))} {k : Nat} (l : List (List Nat)) {g : G}
    (h : Listed pl g) (c : Cfg Nat (Option Nat)) : Listed pl (g.addFronts k c l).1 := by
  induction l generalizing g with
  | nil => exact h
  | cons x l ih =>
    rw [addFronts_cons]
    refine ih ?_
    unfold CGS.addConfig
    split
    · obtain ⟨L, h1, h2, h3, h4⟩ := h
      refine ⟨c.shiftFront k x :: L, by simp only [List.length_cons]; omega, fun y hy => ?_,
        fun y hy => List.mem_cons_of_mem _ (h3 y hy), fun e he => List.mem_cons_of_mem _ (h4 e he)⟩
      rcases List.mem_append.1 hy with hy | hy
      · exact List.mem_cons_of_mem _ (h2 y hy)
      · rw [List.mem_singleton.1 hy]; exact List.mem_cons_self
    · exact h

theorem updateSet_listed {pl : List (Cfg Nat (Option Nat))} {k : Nat} {ordB : List (List Nat) → List (List Nat)}
    {g g' : G} (h : Listed pl g) {old : Cfg Nat (Option Nat)} {m : Bool}
    (he : g.updateSet k ordB old = some (g', m)) : Listed pl g' := by
  unfold CGS.updateSet at he
  split at he
  · cases he
  · split at he
    · cases he
      exact addFronts_listed _ (addEdges_listed _ (addEdge_listed h _ _ _) _ _) _
    · cases he; exact h

theorem simAll_listed {T : Table} {k : Nat} (lim : Lim) {ordB : List (List Nat) → List (List Nat)}
    (cs : List (Cfg Nat (Option Nat))) {g g' : G} (h : Listed cs g)
    (he : CGS.simAll (simple T) k lim ordB cs g = .go g') : Listed [] g' := by
  induction cs generalizing g with
  | nil => cases he; exact h
  | cons c cs ih =>
    unfold CGS.simAll at he
    have h1 : Listed cs (g.simConfig (simple T) lim c).1 := by
      obtain ⟨L, h1, h2, h3, h4⟩ := h
      refine ⟨L, h1, h2, fun y hy => h3 y (List.mem_cons_of_mem _ hy), fun e he => ?_⟩
      rcases cert_mem_dset he with rfl | he
      · exact h3 _ List.mem_cons_self
      · exact h4 e he
    revert he h1
    rcases g.simConfig (simple T) lim c with ⟨g1, cond⟩
    intro he h1
    simp only at he h1
    split at he
    · cases he
    · split at he
      · split at he
        · cases he
        · next g2 m hu => exact ih (updateSet_listed h1 hu) he
      · split at he
        · cases he
        · exact ih h1 he

theorem simTodo_listed {T : Table} {k : Nat} (lim : Lim)
    {ordC : List (Cfg Nat (Option Nat)) → List (Cfg Nat (Option Nat))} (hC : ∀ l x, x ∈ ordC l ↔ x ∈ l)
    {ordB : List (List Nat) → List (List Nat)} (fuel : Nat) {g g' : G} (h : Listed [] g)
    (he : CGS.simTodo (simple T) k lim ordC ordB fuel g = .go g') : Listed [] g' := by
  induction fuel generalizing g with
  | zero => cases he
  | succ fuel ih =>
    unfold CGS.simTodo at he
    split at he
    · cases he; exact h
    · split at he
      · next g1 h1 =>
        obtain ⟨L, l1, l2, l3, l4⟩ := h
        exact ih (simAll_listed lim _ (g := { g with todo := [] })
          ⟨L, l1, (fun c hc => by cases hc), fun c hc => l2 c ((hC _ _).1 hc), l4⟩ h1) he
      · next hr => exact absurd he (hr _)

theorem recheck_listed {k : Nat} {ordB : List (List Nat) → List (List Nat)} (cs : List (Cfg Nat (Option Nat)))
    {g g' : G} {m m' : Bool} (h : Listed [] g) (he : CGS.recheck k ordB cs g m = some (g', m')) : Listed [] g' := by
  induction cs generalizing g m with
  | nil => cases he; exact h
  | cons c cs ih =>
    unfold CGS.recheck at he
    split at he
    · cases he
    · next g1 m1 hu => exact ih (updateSet_listed h hu) he

theorem runLoop_listed {T : Table} {k : Nat} (lim : Lim)
    {ordC : List (Cfg Nat (Option Nat)) → List (Cfg Nat (Option Nat))} (hC : ∀ l x, x ∈ ordC l ↔ x ∈ l)
    {ordB : List (List Nat) → List (List Nat)} (fuel : Nat) {g g' : G} (h : Listed [] g)
    (he : CGS.runLoop (simple T) k lim ordC ordB fuel g = some (g', true)) : Listed [] g' := by
  induction fuel generalizing g with
  | zero => cases he
  | succ fuel ih =>
    unfold CGS.runLoop at he
    simp only at he
    split at he
    · cases he
    · cases he
    · next g1 h1 =>
      have H1 := simTodo_listed lim hC _ (g := { g with iters := g.iters + 1 }) h h1
      split at he
      · cases he
      · next g2 m h2 =>
        have H2 := recheck_listed _ H1 h2
        split at he
        · cases he; exact H2
        · split at he
          · simp at he
          · exact ih H2 he

theorem run_listed {T : Table} {k w : Nat} (lim : Lim)
    {ordC : List (Cfg Nat (Option Nat)) → List (Cfg Nat (Option Nat))} (hC : ∀ l x, x ∈ ordC l ↔ x ∈ l)
    {ordB : List (List Nat) → List (List Nat)} {g : G} (nd : Py.NodupKeys g.trans)
    (he : CGS.run (simple T) k w lim ordC ordB = some (g, true)) : g.trans.length ≤ g.configs + 1 := by
  obtain ⟨L, h1, -, -, h4⟩ := runLoop_listed lim hC _
    ⟨[Cfg.new k (some 0) .R (List.replicate w 0)], Nat.le_refl _, fun c hc => hc, (fun c hc => by cases hc),
      fun e he => by cases he⟩ he
  have := (List.subperm_of_subset nd (fun c hc => by
    obtain ⟨e, he, rfl⟩ := List.mem_map.1 hc; exact h4 e he : g.trans.map (·.1) ⊆ L)).length_le
  rw [List.length_map] at this
  omega

end Model.CPS
