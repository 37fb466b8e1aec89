import Verif.Lemmas.Backtrack

/-! Backtracking: the reported depth and width against the limits. -/

namespace Model.Backtrack
open Spec (Table)

/-- A success is reported within the limits. -/
theorem singleLoop_within {M : Table} {nS nK W : Nat} (k : Nat) {i w nodes : Nat} {ps : List PC}
    (h : (singleLoop M nS nK W k i ps w nodes).success = true) :
    i < (singleLoop M nS nK W k i ps w nodes).maxSteps ∧
      (singleLoop M nS nK W k i ps w nodes).maxSteps ≤ i + k ∧
      w ≤ (singleLoop M nS nK W k i ps w nodes).maxWidth ∧
      (singleLoop M nS nK W k i ps w nodes).maxWidth ≤ max w W := by
  induction k generalizing i ps w nodes with
  | zero => cases h
  | succ k ih =>
    unfold singleLoop at h ⊢
    cases e : expandAll M nS nK ps nodes [] with
    | mk nodes' o =>
      rw [e] at h
      cases o with
      | none => cases h
      | some ps' =>
        simp only at h ⊢
        by_cases hl : ps'.length = 0
        · rw [if_pos hl]; simp only; omega
        · rw [if_neg hl] at h ⊢
          by_cases hw : max w ps'.length > W
          · rw [if_pos hw] at h; cases h
          · rw [if_neg hw] at h ⊢
            have := ih h
            omega

/-- The reported depth and width are enough to get the same success again. -/
theorem singleLoop_again {M : Table} {nS nK W : Nat} (k : Nat) {i w nodes : Nat} {ps : List PC}
    (h : (singleLoop M nS nK W k i ps w nodes).success = true) {k' W' : Nat}
    (hk : (singleLoop M nS nK W k i ps w nodes).maxSteps ≤ i + k')
    (hW : (singleLoop M nS nK W k i ps w nodes).maxWidth ≤ W') :
    singleLoop M nS nK W' k' i ps w nodes = singleLoop M nS nK W k i ps w nodes := by
  induction k generalizing i ps w nodes k' with
  | zero => cases h
  | succ k ih =>
    have hin := singleLoop_within (k + 1) h
    obtain ⟨k', rfl⟩ : ∃ j, k' = j + 1 := ⟨k' - 1, by omega⟩
    clear hin
    unfold singleLoop at h hk hW ⊢
    cases e : expandAll M nS nK ps nodes [] with
    | mk nodes' o =>
      rw [e] at h hk hW
      cases o with
      | none => cases h
      | some ps' =>
        simp only at h hk hW ⊢
        by_cases hl : ps'.length = 0
        · rw [if_pos hl, if_pos hl]
        · rw [if_neg hl] at h hk hW
          rw [if_neg hl, if_neg hl]
          by_cases hw : max w ps'.length > W
          · rw [if_pos hw] at h; cases h
          · rw [if_neg hw] at h hk hW
            have hin := singleLoop_within k h
            rw [if_neg hw, if_neg (by omega)]
            exact ih h (by omega) hW

/-- A conclusive answer does not change with larger limits. -/
theorem singleLoop_mono {M : Table} {nS nK W : Nat} (k : Nat) {i w nodes : Nat} {ps : List PC}
    (h : (singleLoop M nS nK W k i ps w nodes).success = true ∨
      (singleLoop M nS nK W k i ps w nodes).halted = true) {k' W' : Nat}
    (hk : k ≤ k') (hW : W ≤ W') :
    singleLoop M nS nK W' k' i ps w nodes = singleLoop M nS nK W k i ps w nodes := by
  induction k generalizing i ps w nodes k' with
  | zero => rcases h with h | h <;> cases h
  | succ k ih =>
    obtain ⟨k', rfl⟩ : ∃ j, k' = j + 1 := ⟨k' - 1, by omega⟩
    unfold singleLoop at h ⊢
    cases e : expandAll M nS nK ps nodes [] with
    | mk nodes' o =>
      rw [e] at h
      cases o with
      | none => rfl
      | some ps' =>
        simp only at h ⊢
        by_cases hl : ps'.length = 0
        · rw [if_pos hl, if_pos hl]
        · rw [if_neg hl] at h
          rw [if_neg hl, if_neg hl]
          by_cases hw : max w ps'.length > W
          · rw [if_pos hw] at h; rcases h with h | h <;> cases h
          · rw [if_neg hw] at h
            rw [if_neg hw, if_neg (by omega)]
            exact ih h (by omega)

/-- Without a conclusive answer one of the limits was met. -/
theorem singleLoop_open {M : Table} {nS nK W : Nat} (k : Nat) {i w nodes : Nat} {ps : List PC}
    (h : (singleLoop M nS nK W k i ps w nodes).success = false)
    (hh : (singleLoop M nS nK W k i ps w nodes).halted = false) :
    (singleLoop M nS nK W k i ps w nodes).maxSteps = i + k ∨
      W < (singleLoop M nS nK W k i ps w nodes).maxWidth := by
  induction k generalizing i ps w nodes with
  | zero => exact Or.inl rfl
  | succ k ih =>
    unfold singleLoop at h hh ⊢
    cases e : expandAll M nS nK ps nodes [] with
    | mk nodes' o =>
      rw [e] at h hh
      cases o with
      | none => cases hh
      | some ps' =>
        simp only at h hh ⊢
        by_cases hl : ps'.length = 0
        · rw [if_pos hl] at h; cases h
        · rw [if_neg hl] at h hh ⊢
          by_cases hw : max w ps'.length > W
          · rw [if_pos hw]; exact Or.inr hw
          · rw [if_neg hw] at h hh ⊢
            have := ih h hh
            omega

/-- Success over a list of halting cells: the depth and width reported bound those of every cell,
and are enough to get the same answer again. -/
theorem go_again {M : Table} {nS nK s W : Nat} {r : Result} (hr : r.success = true)
    (hs : List (Nat × Nat)) {comb : Option Result} (h : ttable.go M nS nK s W hs comb = some (some r)) :
    (∀ c, comb = some c → c.maxSteps ≤ r.maxSteps ∧ c.maxWidth ≤ r.maxWidth) ∧
    ((∀ c, comb = some c → c.maxSteps ≤ s ∧ c.maxWidth ≤ max 1 W) →
      r.maxSteps ≤ s ∧ r.maxWidth ≤ max 1 W) ∧
    ∀ s' W', r.maxSteps ≤ s' → r.maxWidth ≤ W' → ttable.go M nS nK s' W' hs comb = some (some r) := by
  induction hs generalizing comb with
  | nil =>
    simp only [ttable.go, Option.some.injEq] at h
    subst h
    exact ⟨fun c hc => by cases hc; exact ⟨Nat.le_refl _, Nat.le_refl _⟩, fun hc => hc _ rfl,
      fun _ _ _ _ => rfl⟩
  | cons x xs ih =>
    unfold ttable.go at h
    by_cases hl : hasSelfLoop M nK x.1 = true
    · rw [if_pos hl] at h
      simp only [Option.some.injEq] at h
      subst h
      cases hr
    · rw [if_neg hl] at h
      by_cases hz : s = 0
      · rw [singleHalt, if_pos hz] at h; cases h
      rw [singleHalt, if_neg hz, Option.bind_some] at h
      generalize hr' : singleLoop M nS nK W s 0
        [{ left := [], right := [], current := x.2, state := x.1 }] 1 0 = r' at h
      cases hsu : r'.success with
      | false =>
        simp only [hsu, Bool.not_false, if_true, Option.some.injEq] at h
        subst h
        rw [hr] at hsu; cases hsu
      | true =>
        simp only [hsu, Bool.not_true, Bool.false_eq_true, if_false] at h
        obtain ⟨i1, i2, i3⟩ := ih h
        have hin := singleLoop_within s (by rw [hr']; exact hsu)
        rw [hr'] at hin
        have hb : r'.maxSteps ≤ r.maxSteps ∧ r'.maxWidth ≤ r.maxWidth ∧
            ∀ c, comb = some c → c.maxSteps ≤ r.maxSteps ∧ c.maxWidth ≤ r.maxWidth := by
          cases hc : comb with
          | none =>
            rw [hc] at i1
            exact ⟨(i1 _ rfl).1, (i1 _ rfl).2, fun _ h => by cases h⟩
          | some c =>
            rw [hc] at i1
            have := i1 _ rfl
            simp only [Result.merge] at this
            refine ⟨by omega, by omega, fun c' h => ?_⟩
            cases h
            omega
        refine ⟨hb.2.2, fun hc => i2 fun c hcc => ?_, fun s' W' h1 h2 => ?_⟩
        · cases hc' : comb with
          | none => rw [hc'] at hcc; cases hcc; simp only; omega
          | some c0 =>
            rw [hc'] at hcc
            have := hc c0 hc'
            cases hcc
            simp only [Result.merge]
            omega
        · unfold ttable.go
          rw [if_neg hl, singleHalt, if_neg (by omega), Option.bind_some,
            singleLoop_again s (by rw [hr']; exact hsu) (by rw [hr']; omega) (by rw [hr']; omega), hr']
          simp only [hsu, Bool.not_true, Bool.false_eq_true, if_false]
          exact i3 s' W' h1 h2

theorem go_mono {M : Table} {nS nK s W : Nat} {r : Result} (hr : r.success = true ∨ r.halted = true)
    {s' W' : Nat} (h1 : s ≤ s') (h2 : W ≤ W')
    (hs : List (Nat × Nat)) {comb : Option Result} (h : ttable.go M nS nK s W hs comb = some (some r)) :
    ttable.go M nS nK s' W' hs comb = some (some r) := by
  induction hs generalizing comb with
  | nil => exact h
  | cons x xs ih =>
    unfold ttable.go at h ⊢
    by_cases hl : hasSelfLoop M nK x.1 = true
    · rw [if_pos hl] at h ⊢
      exact h
    · rw [if_neg hl] at h ⊢
      by_cases hz : s = 0
      · rw [singleHalt, if_pos hz] at h; cases h
      rw [singleHalt, if_neg hz, Option.bind_some] at h
      rw [singleHalt, if_neg (by omega), Option.bind_some]
      generalize hr' : singleLoop M nS nK W s 0
        [{ left := [], right := [], current := x.2, state := x.1 }] 1 0 = r' at h
      cases hsu : r'.success with
      | false =>
        simp only [hsu, Bool.not_false, if_true, Option.some.injEq] at h
        subst h
        rw [singleLoop_mono s (by rw [hr']; exact hr) h1 h2, hr']
        simp [hsu]
      | true =>
        simp only [hsu, Bool.not_true, Bool.false_eq_true, if_false] at h
        rw [singleLoop_mono s (by rw [hr']; exact Or.inl hsu) h1 h2, hr']
        simp only [hsu, Bool.not_true, Bool.false_eq_true, if_false]
        exact ih h

theorem go_open {M : Table} {nS nK s W : Nat} {r : Result} (hr : r.success = false)
    (hh : r.halted = false) (hs : List (Nat × Nat)) {comb : Option Result}
    (hc : ∀ c, comb = some c → c.success = true)
    (h : ttable.go M nS nK s W hs comb = some (some r)) :
    (∃ x ∈ hs, hasSelfLoop M nK x.1 = true) ∨ r.maxSteps = s ∨ W < r.maxWidth := by
  induction hs generalizing comb with
  | nil =>
    simp only [ttable.go, Option.some.injEq] at h
    rw [hc r h] at hr; cases hr
  | cons x xs ih =>
    unfold ttable.go at h
    by_cases hl : hasSelfLoop M nK x.1 = true
    · exact Or.inl ⟨x, by simp, hl⟩
    · rw [if_neg hl] at h
      by_cases hz : s = 0
      · rw [singleHalt, if_pos hz] at h; cases h
      rw [singleHalt, if_neg hz, Option.bind_some] at h
      generalize hr' : singleLoop M nS nK W s 0
        [{ left := [], right := [], current := x.2, state := x.1 }] 1 0 = r' at h
      cases hsu : r'.success with
      | false =>
        simp only [hsu, Bool.not_false, if_true, Option.some.injEq] at h
        subst h
        have := singleLoop_open s (by rw [hr']; exact hr) (by rw [hr']; exact hh)
        rw [hr'] at this
        exact Or.inr (by omega)
      | true =>
        simp only [hsu, Bool.not_true, Bool.false_eq_true, if_false] at h
        rcases ih (by
          intro c hcc
          cases hc' : comb with
          | none => rw [hc'] at hcc; cases hcc; exact hsu
          | some c0 =>
            rw [hc'] at hcc
            have := hc c0 hc'
            cases hcc
            simp [Result.merge, this, hsu]) h with ⟨y, hy, hy'⟩ | h
        · exact Or.inl ⟨y, by simp [hy], hy'⟩
        · exact Or.inr h

theorem expandAll_nodes {M : Table} {nS nK : Nat} {ps : List PC} {nodes nodes' : Nat}
    {acc acc' : List PC} (h : expandAll M nS nK ps nodes acc = (nodes', some acc')) :
    nodes' = nodes + ps.length := by
  induction ps generalizing acc nodes with
  | nil =>
    simp only [expandAll, Prod.mk.injEq] at h
    simp [h.1]
  | cons p ps ih =>
    unfold expandAll at h
    cases e : expandOne M nS nK p (toState M nS nK p.state) acc with
    | none => rw [e] at h; cases h
    | some acc1 =>
      rw [e] at h
      have := ih h
      simp only [List.length_cons]
      omega

/-- Every round of a success expands at least one configuration and at most as many as the width. -/
theorem singleLoop_nodes {M : Table} {nS nK W : Nat} (k : Nat) {i w nodes : Nat} {ps : List PC}
    (h : (singleLoop M nS nK W k i ps w nodes).success = true) (hp : 0 < ps.length)
    (hw : ps.length ≤ w) :
    nodes + (singleLoop M nS nK W k i ps w nodes).maxSteps ≤
        (singleLoop M nS nK W k i ps w nodes).numNodes + i ∧
      (singleLoop M nS nK W k i ps w nodes).numNodes ≤
        nodes + ((singleLoop M nS nK W k i ps w nodes).maxSteps - i) *
          (singleLoop M nS nK W k i ps w nodes).maxWidth := by
  induction k generalizing i ps w nodes with
  | zero => cases h
  | succ k ih =>
    have hin := singleLoop_within (k + 1) h
    unfold singleLoop at h hin ⊢
    cases e : expandAll M nS nK ps nodes [] with
    | mk nodes' o =>
      rw [e] at h hin
      cases o with
      | none => cases h
      | some ps' =>
        have hn := expandAll_nodes e
        simp only at h hin ⊢
        by_cases hl : ps'.length = 0
        · rw [if_pos hl]
          simp only [Nat.add_sub_cancel_left, Nat.one_mul]
          omega
        · rw [if_neg hl] at h hin ⊢
          by_cases hw' : max w ps'.length > W
          · rw [if_pos hw'] at h; cases h
          · rw [if_neg hw'] at h hin ⊢
            have hin' := singleLoop_within k h
            obtain ⟨h1, h2⟩ := ih h (by omega) (by omega)
            generalize singleLoop M nS nK W k (i + 1) ps' (max w ps'.length) nodes' = r at *
            refine ⟨by omega, ?_⟩
            obtain ⟨j, hj⟩ : ∃ j, r.maxSteps = i + 1 + j := ⟨r.maxSteps - (i + 1), by omega⟩
            rw [hj, show i + 1 + j - (i + 1) = j by omega] at h2
            rw [hj, show i + 1 + j - i = j + 1 by omega, Nat.succ_mul]
            omega

theorem go_nodes {M : Table} {nS nK s W : Nat} {r : Result} (hr : r.success = true)
    (hs : List (Nat × Nat)) {comb : Option Result} (h : ttable.go M nS nK s W hs comb = some (some r))
    (hc : ∀ c, comb = some c → c.maxSteps ≤ c.numNodes) :
    r.maxSteps ≤ r.numNodes ∧
      r.numNodes ≤ (comb.map (·.numNodes)).getD 0 + hs.length * (r.maxSteps * r.maxWidth) := by
  induction hs generalizing comb with
  | nil =>
    simp only [ttable.go, Option.some.injEq] at h
    subst h
    exact ⟨hc _ rfl, by simp⟩
  | cons x xs ih =>
    unfold ttable.go at h
    by_cases hl : hasSelfLoop M nK x.1 = true
    · rw [if_pos hl] at h
      simp only [Option.some.injEq] at h
      subst h
      cases hr
    · rw [if_neg hl] at h
      by_cases hz : s = 0
      · rw [singleHalt, if_pos hz] at h; cases h
      rw [singleHalt, if_neg hz, Option.bind_some] at h
      generalize hr' : singleLoop M nS nK W s 0
        [{ left := [], right := [], current := x.2, state := x.1 }] 1 0 = r' at h
      cases hsu : r'.success with
      | false =>
        simp only [hsu, Bool.not_false, if_true, Option.some.injEq] at h
        subst h
        rw [hr] at hsu; cases hsu
      | true =>
        simp only [hsu, Bool.not_true, Bool.false_eq_true, if_false] at h
        have hn := singleLoop_nodes s (by rw [hr']; exact hsu) (by simp) (by simp)
        rw [hr'] at hn
        simp only [Nat.sub_zero, Nat.zero_add, Nat.add_zero] at hn
        have hag := (go_again hr _ h).1
        have hb : r'.maxSteps * r'.maxWidth ≤ r.maxSteps * r.maxWidth := by
          cases hcb : comb with
          | none =>
            rw [hcb] at hag
            exact Nat.mul_le_mul (hag _ rfl).1 (hag _ rfl).2
          | some c =>
            rw [hcb] at hag
            have := hag _ rfl
            simp only [Result.merge] at this
            exact Nat.mul_le_mul (by omega) (by omega)
        have := ih h (by
          intro c hcc
          cases hcb : comb with
          | none => rw [hcb] at hcc; cases hcc; exact hn.1
          | some c0 =>
            rw [hcb] at hcc
            have := hc c0 hcb
            cases hcc
            simp only [Result.merge]
            omega)
        refine ⟨this.1, ?_⟩
        rw [List.length_cons, Nat.succ_mul]
        cases hcb : comb with
        | none =>
          rw [hcb] at this
          simp only [Option.map_some, Option.getD_some, Option.map_none, Option.getD_none] at this ⊢
          omega
        | some c0 =>
          rw [hcb] at this
          simp only [Option.map_some, Option.getD_some, Result.merge] at this ⊢
          omega

end Model.Backtrack
