import Verif.Spec.Validator
import Mathlib.Tactic.Ring
import Mathlib.Tactic.Linarith
import Mathlib.Data.List.Nodup

/-!
# The arithmetic of the validator computes values
-/

namespace Model.Validator
open Spec.Validator

namespace Run
variable {α β : Type}

theorem bind_ok {x : Run α} {f : α → Run β} {b : β} : (x >>= f) = .ok b ↔ ∃ a, x = .ok a ∧ f a = .ok b := by
  cases x <;> simp [Bind.bind, Run.bind]

end Run

variable {m : Mode}

theorem u64_ok (hw : m.wrap = false) {n k : Nat} (h : u64 m n = .ok k) : k = n := by
  unfold u64 at h
  split at h
  · cases h; rfl
  · simp [hw] at h

/-- value of the entries of a sum -/
def varsValue (v : Nat → Nat) (l : List (Nat × Nat)) : Nat := (l.map fun p => p.2 * v p.1).sum

theorem sumValue_eq (v : Nat → Nat) (s : VarSum) : sumValue v s = s.const + varsValue v s.vars := rfl

@[simp] theorem varsValue_nil (v : Nat → Nat) : varsValue v [] = 0 := rfl

@[simp] theorem varsValue_cons (v : Nat → Nat) (x c : Nat) (l : List (Nat × Nat)) :
    varsValue v ((x, c) :: l) = c * v x + varsValue v l := rfl

namespace VarSum

theorem addVar_value (hw : m.wrap = false) (v : Nat → Nat) (x c : Nat) :
    ∀ l r, addVar m x c l = .ok r → varsValue v r = varsValue v l + c * v x
  | [], r, h => by cases h; simp
  | (y, d) :: l, r, h => by
    unfold addVar at h
    split at h
    · next e =>
      obtain ⟨s, h1, h2⟩ := Run.bind_ok.1 h
      cases h2
      rw [u64_ok hw h1, e]
      simp; ring
    · split at h
      · cases h; simp; ring
      · obtain ⟨s, h1, h2⟩ := Run.bind_ok.1 h
        cases h2
        simp [addVar_value hw v x c l s h1]; ring

theorem addVar_keys (x c : Nat) :
    ∀ l r, addVar m x c l = .ok r → ∀ y, y ∈ r.map Prod.fst ↔ y = x ∨ y ∈ l.map Prod.fst
  | [], r, h => by cases h; simp
  | (y, d) :: l, r, h => by
    unfold addVar at h
    split at h
    · next e =>
      obtain ⟨s, h1, h2⟩ := Run.bind_ok.1 h
      cases h2
      subst e
      intro z; simp
    · split at h
      · cases h; intro z; simp
      · obtain ⟨s, h1, h2⟩ := Run.bind_ok.1 h
        cases h2
        intro z
        have := addVar_keys x c l s h1 z
        simp only [List.map_cons, List.mem_cons, this]
        tauto

theorem addVars_value (hw : m.wrap = false) (v : Nat → Nat) :
    ∀ b l r, addVars m l b = .ok r → varsValue v r = varsValue v l + varsValue v b
  | [], l, r, h => by cases h; simp
  | (x, c) :: b, l, r, h => by
    obtain ⟨l', h1, h2⟩ := Run.bind_ok.1 h
    rw [addVars_value hw v b l' r h2, addVar_value hw v x c l l' h1]
    simp; ring

theorem addVars_keys : ∀ b l r, addVars m l b = .ok r →
    ∀ y, y ∈ r.map Prod.fst ↔ y ∈ b.map Prod.fst ∨ y ∈ l.map Prod.fst
  | [], l, r, h => by cases h; simp
  | (x, c) :: b, l, r, h => by
    obtain ⟨l', h1, h2⟩ := Run.bind_ok.1 h
    intro y
    rw [addVars_keys b l' r h2 y, addVar_keys x c l l' h1 y]
    simp only [List.map_cons, List.mem_cons]
    tauto

theorem add_value (hw : m.wrap = false) {a b r : VarSum} (h : add m a b = .ok r) (v : Nat → Nat) :
    sumValue v r = sumValue v a + sumValue v b := by
  obtain ⟨k, h1, h2⟩ := Run.bind_ok.1 h
  obtain ⟨l, h3, h4⟩ := Run.bind_ok.1 h2
  cases h4
  simp only [sumValue_eq]
  rw [u64_ok hw h1, addVars_value hw v _ _ _ h3]; ring

theorem add_keys {a b r : VarSum} (h : add m a b = .ok r) (y : Nat) :
    y ∈ r.freeVars ↔ y ∈ b.freeVars ∨ y ∈ a.freeVars := by
  obtain ⟨k, h1, h2⟩ := Run.bind_ok.1 h
  obtain ⟨l, h3, h4⟩ := Run.bind_ok.1 h2
  cases h4
  exact addVars_keys _ _ _ h3 y

theorem mulVars_value (hw : m.wrap = false) (v : Nat → Nat) (n : Nat) :
    ∀ l r, mulVars m n l = .ok r → varsValue v r = varsValue v l * n
  | [], r, h => by cases h; simp
  | (x, c) :: l, r, h => by
    obtain ⟨p, h1, h2⟩ := Run.bind_ok.1 h
    obtain ⟨q, h3, h4⟩ := Run.bind_ok.1 h2
    cases h4
    simp [mulVars_value hw v n l q h3, u64_ok hw h1]; ring

theorem mul_value (hw : m.wrap = false) {a r : VarSum} {n : Nat} (h : mul m a n = .ok r) (v : Nat → Nat) :
    sumValue v r = n * sumValue v a := by
  unfold mul at h
  split at h
  · next e => cases h; subst e; simp [sumValue_eq, ofNat]
  · split at h
    · next e => cases h; subst e; simp
    · obtain ⟨p, h1, h2⟩ := Run.bind_ok.1 h
      obtain ⟨q, h3, h4⟩ := Run.bind_ok.1 h2
      cases h4
      simp only [sumValue_eq]
      rw [mulVars_value hw v n _ _ h1, u64_ok hw h3]; ring

theorem isZero_value {a : VarSum} (h : a.isZero = true) (v : Nat → Nat) : sumValue v a = 0 := by
  rcases a with ⟨l, k⟩
  simp only [isZero, Bool.and_eq_true, beq_iff_eq, List.isEmpty_iff] at h
  simp [sumValue_eq, h.1, h.2]

theorem decrement_value {a r : VarSum} (h : a.decrement = some r) (v : Nat → Nat) :
    sumValue v a = sumValue v r + 1 := by
  unfold decrement at h
  split at h
  · cases h
  · cases h; simp only [sumValue_eq]; omega

theorem remove_value (v : Nat → Nat) (x : Nat) :
    ∀ l d r, remove x l = some (d, r) → varsValue v l = d * v x + varsValue v r
  | [], d, r, h => by cases h
  | (y, e) :: l, d, r, h => by
    unfold remove at h
    split at h
    · next q => cases h; subst q; simp
    · obtain ⟨⟨d', r'⟩, h1, h2⟩ := Option.map_eq_some_iff.1 h
      cases h2
      simp [remove_value v x l d' r' h1]; ring

theorem insert_value (v : Nat → Nat) (x c : Nat) :
    ∀ l, varsValue v (insert x c l) = c * v x + varsValue v l
  | [] => by simp [insert]
  | (y, d) :: l => by
    unfold insert
    split
    · simp
    · simp [insert_value v x c l]; ring

theorem subVars_value (v : Nat → Nat) :
    ∀ b l r, subVars l b = some r → varsValue v l = varsValue v r + varsValue v b
  | [], l, r, h => by cases h; simp
  | (x, c) :: b, l, r, h => by
    unfold subVars at h
    split at h
    · cases h
    · next d l' e =>
      split at h
      · cases h
      · next hd =>
        have h1 := remove_value v x l d l' e
        have h2 := subVars_value v b _ r h
        have h3 : varsValue v (if d - c > 0 then insert x (d - c) l' else l') = (d - c) * v x + varsValue v l' := by
          split
          · exact insert_value v x _ l'
          · next h0 => rw [show d - c = 0 by omega]; simp
        rw [h3] at h2
        have h4 : d * v x = (d - c) * v x + c * v x := by
          rw [← Nat.add_mul]; congr 1; omega
        simp only [varsValue_cons]
        omega

theorem checkedSub_value {a b r : VarSum} (h : a.checkedSub b = some r) (v : Nat → Nat) :
    sumValue v a = sumValue v r + sumValue v b := by
  unfold checkedSub at h
  split at h
  · cases h
  · obtain ⟨l, h1, h2⟩ := Option.map_eq_some_iff.1 h
    cases h2
    have := subVars_value v _ _ _ h1
    simp only [sumValue_eq]
    omega

theorem normalize_value (a : VarSum) (v : Nat → Nat) : sumValue v a.normalize = sumValue v a := by
  rcases a with ⟨l, k⟩
  simp only [normalize, sumValue_eq]
  congr 1
  induction l with
  | nil => rfl
  | cons p l ih =>
    rcases p with ⟨x, c⟩
    by_cases h : c = 0
    · subst h; simpa using ih
    · rw [List.filter_cons_of_pos (by simpa using h)]; simp [ih]

theorem value_congr {s : VarSum} {v w : Nat → Nat} (h : ∀ x ∈ s.freeVars, v x = w x) : sumValue v s = sumValue w s := by
  rcases s with ⟨l, k⟩
  simp only [sumValue_eq]
  congr 1
  simp only [freeVars] at h
  induction l with
  | nil => rfl
  | cons p l ih =>
    rcases p with ⟨x, c⟩
    simp only [varsValue_cons]
    rw [h x (by simp), ih (fun y hy => h y (by simp only [List.map_cons, List.mem_cons]; exact .inr hy))]

end VarSum

@[simp] theorem value_sum (v : Nat → Nat) (s : VarSum) : value v (.sum s) = sumValue v s := by simp [value]

theorem value_iter (v : Nat → Nat) (x : Nat) (f n b : CountExpr) :
    value v (.iter x f n b) = (fun a => value (Function.update v x a) f)^[value v n] (value v b) := by simp [value]

@[simp] theorem value_ofNat (v : Nat → Nat) (n : Nat) : value v (.ofNat n) = n := by
  simp [CountExpr.ofNat, VarSum.ofNat, sumValue_eq]

@[simp] theorem value_ofVar (v : Nat → Nat) (x : Nat) : value v (.ofVar x) = v x := by
  simp [CountExpr.ofVar, VarSum.ofVar, sumValue_eq]

@[simp] theorem value_varPlus (v : Nat → Nat) (x n : Nat) : value v (.varPlus x n) = v x + n := by
  simp [CountExpr.varPlus, sumValue_eq]; omega

theorem value_congr : ∀ (e : CountExpr) (v w : Nat → Nat), (∀ x ∈ e.fv, v x = w x) → value v e = value w e
  | .sum s, v, w, h => by simpa using VarSum.value_congr h
  | .iter x f n b, v, w, h => by
    simp only [CountExpr.fv, List.mem_append, List.mem_filter] at h
    rw [value_iter, value_iter, value_congr n v w (fun y hy => h y (.inl (.inr hy))),
      value_congr b v w (fun y hy => h y (.inr hy))]
    congr 2
    funext a
    apply value_congr f
    intro y hy
    by_cases e : y = x
    · subst e; simp
    · simp only [Function.update_of_ne e]
      exact h y (.inl (.inl ⟨hy, by simpa using e⟩))

/-- values of the variables after a substitution -/
def through (v : Nat → Nat) (σ : Subst) : Nat → Nat := fun y =>
  match σ.get y with
  | some e => value v e
  | none => v y

theorem through_single (v : Nat → Nat) (x : Nat) (e : CountExpr) :
    through v [(x, e)] = Function.update v x (value v e) := by
  funext y
  by_cases h : y = x
  · subst h; simp [through, Subst.get]
  · have : (y == x) = false := by simpa using h
    simp [through, Subst.get, List.lookup_cons, this, Function.update_of_ne h]

/-- the values given to the bound variables by the third loop of the substitution -/
def upd (v : Nat → Nat) : List (Nat × Nat × CountExpr) → Nat → Nat
  | [] => v
  | (x, _, r) :: l => Function.update (upd v l) x (value v r)

theorem upd_other (v : Nat → Nat) (y : Nat) :
    ∀ l : List (Nat × Nat × CountExpr), (∀ p ∈ l, p.1 ≠ y) → upd v l y = v y
  | [], _ => rfl
  | (x, c, r) :: l, h => by
    simp only [upd]
    rw [Function.update_of_ne (fun e => h (x, c, r) (by simp) e.symm)]
    exact upd_other v y l fun p hp => h p (by simp [hp])

namespace VarSum

/-- value of the terms with recursive substitutions -/
def recValue (v : Nat → Nat) (l : List (Nat × Nat × CountExpr)) : Nat := (l.map fun p => p.2.1 * value v p.2.2).sum

theorem substLoop_value (hw : m.wrap = false) (v : Nat → Nat) (σ : Subst) :
    ∀ l acc rs acc' rs', substLoop m σ l acc rs = .ok (acc', rs') →
      sumValue v acc' + recValue v rs' = sumValue v acc + recValue v rs + varsValue (through v σ) l
  | [], acc, rs, acc', rs', h => by
    cases h; simp [recValue, List.map_reverse, List.sum_reverse]
  | (x, c) :: l, acc, rs, acc', rs', h => by
    unfold substLoop at h
    simp only [varsValue_cons]
    split at h
    · next s e =>
      obtain ⟨p, h1, h2⟩ := Run.bind_ok.1 h
      obtain ⟨a, h3, h4⟩ := Run.bind_ok.1 h2
      have := substLoop_value hw v σ l a rs acc' rs' h4
      rw [add_value hw h3, mul_value hw h1] at this
      rw [this, show through v σ x = sumValue v s by simp [through, e]]
      ring
    · next e =>
      obtain ⟨p, h1, h2⟩ := Run.bind_ok.1 h
      obtain ⟨a, h3, h4⟩ := Run.bind_ok.1 h2
      have := substLoop_value hw v σ l a rs acc' rs' h4
      rw [add_value hw h3, mul_value hw h1] at this
      rw [this, show through v σ x = v x by simp [through, e], show sumValue v (ofVar x) = v x by simp [sumValue_eq, ofVar]]
      ring
    · next y f n b e =>
      have := substLoop_value hw v σ l acc _ acc' rs' h
      rw [this, show through v σ x = value v (.iter y f n b) by simp [through, e]]
      simp only [recValue, List.map_cons, List.sum_cons]
      ring

theorem mul_ofVar_keys {x c : Nat} {p : VarSum} (h : mul m (ofVar x) c = .ok p) (y : Nat) :
    y ∈ p.freeVars → y = x := by
  unfold mul at h
  split at h
  · cases h; simp [ofNat, freeVars]
  · split at h
    · cases h; simp [ofVar, freeVars]
    · obtain ⟨l, h1, h2⟩ := Run.bind_ok.1 h
      obtain ⟨k, h3, h4⟩ := Run.bind_ok.1 h2
      cases h4
      simp only [ofVar, mulVars] at h1
      obtain ⟨q, h5, h6⟩ := Run.bind_ok.1 h1
      cases h6
      simp [freeVars]

/-- the second loop only adds the bound variables, none of which was there -/
theorem substBound_value (hw : m.wrap = false) :
    ∀ l acc acc', substBound m l acc = .ok acc' →
      (∀ p ∈ l, p.1 ∉ acc.freeVars) ∧
      ∀ v, sumValue v acc' = sumValue v acc + (l.map fun p => p.2.1 * v p.1).sum
  | [], acc, acc', h => by cases h; simp
  | (x, c, r) :: l, acc, acc', h => by
    unfold substBound at h
    split at h
    · cases h
    · next hx =>
      have hx : x ∉ acc.freeVars := by simpa using hx
      obtain ⟨p, h1, h2⟩ := Run.bind_ok.1 h
      obtain ⟨a, h3, h4⟩ := Run.bind_ok.1 h2
      obtain ⟨g1, g2⟩ := substBound_value hw l a acc' h4
      refine ⟨?_, ?_⟩
      · intro q hq
        rcases List.mem_cons.1 hq with rfl | hq
        · exact hx
        · intro hh
          exact g1 q hq ((add_keys h3 q.1).2 (.inr hh))
      · intro v
        rw [g2 v, add_value hw h3, mul_value hw h1]
        simp only [List.map_cons, List.sum_cons, show sumValue v (ofVar x) = v x by simp [sumValue_eq, ofVar]]
        ring

theorem substApply_value (v : Nat → Nat) :
    ∀ l e r, clash l = false → substApply l e = .ok r → value v r = value (upd v l) e
  | [], e, r, _, h => by cases h; rfl
  | (x, c, q) :: l, e, r, hc, h => by
    simp only [clash, Bool.or_eq_false_iff, List.any_eq_false] at hc
    unfold substApply at h
    split at h
    · split at h
      · next he => cases h; subst he; simp [upd]
      · have := substApply_value v l _ r hc.2 h
        rw [this, value_iter]
        simp only [value_ofNat, Function.iterate_one, upd]
        congr 2
        apply Model.Validator.value_congr
        intro y hy
        apply upd_other
        intro p hp e
        subst e
        have := hc.1 p hp
        simp [hy] at this
    · cases h

theorem clash_lookup (v : Nat → Nat) :
    ∀ l : List (Nat × Nat × CountExpr), clash l = false → ∀ p ∈ l, upd v l p.1 = value v p.2.2
  | [], _, p, hp => by cases hp
  | (x, c, r) :: l, hc, p, hp => by
    simp only [clash, Bool.or_eq_false_iff, List.any_eq_false] at hc
    rcases List.mem_cons.1 hp with rfl | hp
    · simp [upd]
    · have h1 := hc.1 p hp
      have hne : p.1 ≠ x := by
        intro e; simp [e] at h1
      simp only [upd]
      rw [Function.update_of_ne hne]
      exact clash_lookup v l hc.2 p hp

theorem subst_value (hw : m.wrap = false) (hs : m.strict = true) {σ : Subst} {s : VarSum} {r : CountExpr}
    (h : s.subst m σ = .ok r) (v : Nat → Nat) : value v r = sumValue (through v σ) s := by
  obtain ⟨⟨acc, rs⟩, h1, h2⟩ := Run.bind_ok.1 h
  rw [hs] at h2
  simp only [Bool.true_and] at h2
  split at h2
  · cases h2
  · next hc =>
    have hc : clash rs = false := by simpa using hc
    obtain ⟨acc', h3, h4⟩ := Run.bind_ok.1 h2
    have e1 := substLoop_value hw v σ _ _ _ _ _ h1
    obtain ⟨g1, g2⟩ := substBound_value hw _ _ _ h3
    rw [substApply_value v rs _ r hc h4, value_sum, g2 (upd v rs), sumValue_eq (through v σ) s]
    have e2 : sumValue (upd v rs) acc = sumValue v acc := by
      apply value_congr
      intro x hx
      apply upd_other
      intro p hp e
      subst e
      exact g1 p hp hx
    have e3 : (rs.map fun p => p.2.1 * upd v rs p.1).sum = recValue v rs := by
      unfold recValue
      congr 1
      apply List.map_congr_left
      intro p hp
      rw [clash_lookup v rs hc p hp]
    rw [e2, e3, e1]
    simp [sumValue_eq, ofNat, recValue]

end VarSum

theorem Subst.get_without_self (σ : Subst) (x : Nat) : (σ.without x).get x = none := by
  unfold Subst.get Subst.without
  rw [List.lookup_eq_none_iff]
  intro p hp
  have := (List.mem_filter.1 hp).2
  simp only [bne_iff_ne, ne_eq] at this
  simpa using fun e => this e.symm

theorem Subst.get_without_ne (σ : Subst) {x y : Nat} (h : y ≠ x) : (σ.without x).get y = σ.get y := by
  unfold Subst.get Subst.without
  induction σ with
  | nil => rfl
  | cons p σ ih =>
    rcases p with ⟨z, e⟩
    by_cases hz : z = x
    · subst hz
      rw [List.filter_cons_of_neg (by simp), ih, List.lookup_cons, show (y == z) = false by simpa using h]
    · rw [List.filter_cons_of_pos (by simpa using hz), List.lookup_cons, List.lookup_cons, ih]

theorem subst_value (hw : m.wrap = false) (hs : m.strict = true) :
    ∀ (e : CountExpr) (σ : Subst) (r : CountExpr), e.subst m σ = .ok r → ∀ v, value v r = value (through v σ) e
  | .sum s, σ, r, h, v => by
    rw [CountExpr.subst] at h
    rw [VarSum.subst_value hw hs h v, value_sum]
  | .iter x f n b, σ, r, h, v => by
    rw [CountExpr.subst] at h
    rw [hs] at h
    simp only [Bool.true_and] at h
    split at h
    · cases h
    · next hc =>
      obtain ⟨f', h1, h2⟩ := Run.bind_ok.1 h
      obtain ⟨n', h3, h4⟩ := Run.bind_ok.1 h2
      obtain ⟨b', h5, h6⟩ := Run.bind_ok.1 h4
      cases h6
      rw [value_iter, value_iter, subst_value hw hs n σ n' h3 v, subst_value hw hs b σ b' h5 v]
      congr 2
      funext a
      rw [subst_value hw hs f _ f' h1]
      apply value_congr
      intro y hy
      unfold through
      by_cases e : y = x
      · subst e
        rw [Subst.get_without_self]; simp
      · rw [Subst.get_without_ne σ e, Function.update_of_ne e]
        cases hg : σ.get y with
        | none => simp [Function.update_of_ne e, hg]
        | some t =>
          rw [Function.update_of_ne e, hg]
          simp only
          apply value_congr
          intro z hz
          apply Function.update_of_ne
          intro ez
          subst ez
          apply hc
          simp only [CountExpr.captures, List.any_eq_true]
          exact ⟨y, hy, by rw [Subst.get_without_ne σ e, hg]; simpa using hz⟩

theorem isZero_value {e : CountExpr} (h : e.isZero = true) (v : Nat → Nat) : value v e = 0 := by
  cases e with
  | sum s => simpa using VarSum.isZero_value h v
  | iter => cases h

theorem decrement_value {e r : CountExpr} (h : e.decrement = some r) (v : Nat → Nat) : value v e = value v r + 1 := by
  cases e with
  | sum s =>
    obtain ⟨t, h1, h2⟩ := Option.map_eq_some_iff.1 h
    cases h2
    simpa using VarSum.decrement_value h1 v
  | iter => cases h

theorem normalize_value (hw : m.wrap = false) (hs : m.strict = true) :
    ∀ (e r : CountExpr), e.normalize m = .ok r → ∀ v, value v r = value v e
  | .sum s, r, h, v => by
    cases h; simpa using VarSum.normalize_value s v
  | .iter x f n b, r, h, v => by
    rw [CountExpr.normalize] at h
    obtain ⟨f', h1, h2⟩ := Run.bind_ok.1 h
    obtain ⟨n', h3, h4⟩ := Run.bind_ok.1 h2
    obtain ⟨b', h5, h6⟩ := Run.bind_ok.1 h4
    have ef := normalize_value hw hs f f' h1
    have en := normalize_value hw hs n n' h3
    have eb := normalize_value hw hs b b' h5
    rw [value_iter]
    split at h6
    · next hz => cases h6; rw [← en, isZero_value hz]; simp [eb]
    · split at h6
      · next hi =>
        cases h6
        have : (fun a => value (Function.update v x a) f) = id := by
          funext a; rw [← ef, hi]; simp
        rw [this]; simp [eb]
      · split at h6
        · next h1 =>
          rw [subst_value hw hs f _ r h6 v, ← en, h1]
          simp only [value_ofNat, Function.iterate_one]
          rw [through_single, eb]
        · cases h6
          rw [value_iter, en, eb]
          congr 2
          funext a
          exact ef _

theorem checkedSubBy_value (hw : m.wrap = false) (hs : m.strict = true) {ke : CountExpr → CountExpr → Run Bool}
    (hk : ∀ a b, ke a b = .ok true → ∀ v, value v a = value v b) {a b d : CountExpr}
    (h : CountExpr.checkedSubBy m ke a b = .ok (some d)) (v : Nat → Nat) : value v a = value v d + value v b := by
  obtain ⟨a', h1, h2⟩ := Run.bind_ok.1 h
  obtain ⟨b', h3, h4⟩ := Run.bind_ok.1 h2
  obtain ⟨e, h5, h6⟩ := Run.bind_ok.1 h4
  rw [← normalize_value hw hs a a' h1, ← normalize_value hw hs b b' h3]
  cases e with
  | true =>
    simp only [if_true] at h6
    cases h6
    simp [hk _ _ h5 v]
  | false =>
    simp only [Bool.false_eq_true, if_false] at h6
    cases a' with
    | iter => cases h6
    | sum s =>
      cases b' with
      | iter => cases h6
      | sum t =>
        simp only at h6
        have h7 := Run.ok.inj h6
        obtain ⟨q, h8, h9⟩ := Option.map_eq_some_iff.1 h7
        subst h9
        simpa using VarSum.checkedSub_value h8 v

theorem knownEqual_value (hw : m.wrap = false) (hs : m.strict = true) :
    ∀ k a b, CountExpr.knownEqual m k a b = .ok true → ∀ v, value v a = value v b
  | 0, _, _, h => by simp [CountExpr.knownEqual] at h
  | k + 1, .sum s, .sum t, h => by
    simp only [CountExpr.knownEqual, Run.ok.injEq, beq_iff_eq] at h
    subst h; intro v; rfl
  | k + 1, .sum s, .iter .., h => by simp [CountExpr.knownEqual] at h
  | k + 1, .iter .., .sum t, h => by simp [CountExpr.knownEqual] at h
  | k + 1, .iter x f n b, .iter y g p c, h => by
    have ih := knownEqual_value hw hs k
    rw [CountExpr.knownEqual, hs] at h
    simp only [Bool.true_and] at h
    split at h
    · cases h
    · next hc =>
      obtain ⟨g', h1, h2⟩ := Run.bind_ok.1 h
      obtain ⟨e, h3, h4⟩ := Run.bind_ok.1 h2
      cases e with
      | false => simp at h4
      | true =>
        simp only [if_true] at h4
        have eF : ∀ v, (fun a => value (Function.update v x a) f) = fun a => value (Function.update v y a) g := by
          intro v
          funext a
          rw [ih _ _ h3, subst_value hw hs g _ g' h1]
          apply value_congr
          intro z hz
          rw [through_single]
          by_cases e : z = y
          · subst e; simp
          · have hzx : z ≠ x := by
              intro ex
              subst ex
              apply hc
              simp [e, hz]
            simp [Function.update_of_ne e, Function.update_of_ne hzx]
        obtain ⟨d, h5, h6⟩ := Run.bind_ok.1 h4
        intro v
        cases d with
        | some d =>
          simp only at h6
          obtain ⟨l, h7, h8⟩ := Run.bind_ok.1 h6
          have e1 := checkedSubBy_value hw hs (fun a b => ih a b) h5 v
          have e2 := normalize_value hw hs _ l h7 v
          have e3 := ih _ _ h8 v
          rw [value_iter, value_iter, e1, Nat.add_comm, Function.iterate_add_apply, ← value_iter v x f d b, ← e2, e3, eF]
        | none =>
          simp only at h6
          obtain ⟨d, h7, h8⟩ := Run.bind_ok.1 h6
          cases d with
          | none => simp at h8
          | some d =>
            simp only at h8
            obtain ⟨r, h9, h10⟩ := Run.bind_ok.1 h8
            have e1 := checkedSubBy_value hw hs (fun a b => ih a b) h7 v
            have e2 := normalize_value hw hs _ r h9 v
            have e3 := ih _ _ h10 v
            rw [value_iter, value_iter, e1, Nat.add_comm, Function.iterate_add_apply, ← value_iter v y g d c, ← e2, ← e3, eF]

theorem checkedSub_value (hw : m.wrap = false) (hs : m.strict = true) {fuel : Nat} {a b d : CountExpr}
    (h : a.checkedSub m fuel b = .ok (some d)) (v : Nat → Nat) : value v a = value v d + value v b :=
  checkedSubBy_value hw hs (knownEqual_value hw hs fuel) h v

theorem newUnused_used (used : List Nat) :
    ∀ n k, CountExpr.newUnused used n k ∈ used → ∀ j, j ≤ n → k + j ∈ used
  | 0, k, h, j, hj => by
    rw [Nat.le_zero.1 hj]; exact h
  | n + 1, k, h, j, hj => by
    unfold CountExpr.newUnused at h
    split at h
    · next hk =>
      rcases Nat.eq_zero_or_pos j with rfl | hp
      · simpa using hk
      · have := newUnused_used used n (k + 1) h (j - 1) (by omega)
        rwa [show k + 1 + (j - 1) = k + j by omega] at this
    · next hk => simp [h] at hk

theorem newUnused_fresh (used : List Nat) : CountExpr.newUnused used used.length 0 ∉ used := by
  intro h
  have h1 := newUnused_used used _ _ h
  have h2 : List.range (used.length + 1) ⊆ used := by
    intro j hj
    have := h1 j (by have := List.mem_range.1 hj; omega)
    simpa using this
  have h3 := (List.subperm_of_subset List.nodup_range h2).length_le
  simp at h3

theorem addVarSum_value (hw : m.wrap = false) {r e : CountExpr} {s : VarSum}
    (h : CountExpr.addVarSum m r s = .ok e) (v : Nat → Nat) : value v e = value v r + sumValue v s := by
  unfold CountExpr.addVarSum at h
  obtain ⟨t, h1, h2⟩ := Run.bind_ok.1 h
  cases h2
  have hx := newUnused_fresh (r.freeVars ++ s.freeVars)
  generalize CountExpr.newUnused (r.freeVars ++ s.freeVars) (r.freeVars ++ s.freeVars).length 0 = x at *
  rw [value_iter]
  simp only [value_ofNat, Function.iterate_one, value_sum]
  rw [VarSum.add_value hw h1, VarSum.value_congr (s := s) (w := v)]
  · simp [sumValue_eq, VarSum.ofVar]; ring
  · intro y hy
    apply Function.update_of_ne
    rintro rfl
    exact hx (by simp [hy])

theorem checkedAdd_value (hw : m.wrap = false) {a b r : CountExpr} (h : a.checkedAdd m b = .ok (some r)) (v : Nat → Nat) :
    value v r = value v a + value v b := by
  cases a with
  | sum s =>
    cases b with
    | sum t =>
      obtain ⟨q, h1, h2⟩ := Run.bind_ok.1 h
      cases h2
      simpa using VarSum.add_value hw h1 v
    | iter x f n b =>
      obtain ⟨q, h1, h2⟩ := Run.bind_ok.1 h
      cases h2
      rw [addVarSum_value hw h1 v, value_sum]; ring
  | iter x f n c =>
    cases b with
    | sum t =>
      obtain ⟨q, h1, h2⟩ := Run.bind_ok.1 h
      cases h2
      rw [addVarSum_value hw h1 v, value_sum]
    | iter => simp [CountExpr.checkedAdd] at h

end Model.Validator
