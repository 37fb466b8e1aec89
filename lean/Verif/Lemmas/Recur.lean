import Verif.Lemmas.TM
import Verif.Spec.Recur
import Mathlib.Data.Nat.Find

/-! Mathematics of linear recurrence: a finite comparison of two configurations is equivalent to
eventual periodicity of the history. -/

namespace Spec

/-- The cells that have to agree for displacement `d` when the positions visited span `[L, R]`. -/
def CompareSet (d L R : Int) (x : Int) : Prop :=
  if d > 0 then L ≤ x else if d < 0 then x ≤ R else L ≤ x ∧ x ≤ R

theorem compareSet_shift {d L R x : Int} (h : CompareSet d L R x) : CompareSet d L R (x + d) := by
  unfold CompareSet at *
  split_ifs at * <;> omega

theorem compareSet_of_mem {d L R x : Int} (h1 : L ≤ x) (h2 : x ≤ R) : CompareSet d L R x := by
  unfold CompareSet
  split_ifs
  · exact h1
  · exact h2
  · exact ⟨h1, h2⟩

/-- One step from two configurations that agree up to a shift on a set containing the head. -/
theorem step_shift {M : Table} {c c' : Config} {d : Int} {S : Int → Prop} (hst : c'.state = c.state)
    (hpos : c'.pos = c.pos + d) (hS : S c.pos) (ht : ∀ x, S x → c.tape x = c'.tape (x + d)) :
    (step M c').state = (step M c).state ∧ (step M c').pos = (step M c).pos + d ∧
      ∀ x, S x → (step M c).tape x = (step M c').tape (x + d) := by
  cases hq : c.state with
  | none =>
    rw [step_halted hq, step_halted (hst.trans hq)]
    exact ⟨hst, hpos, ht⟩
  | some q =>
    have hq' : c'.state = some q := hst.trans hq
    have hsym : c'.tape c'.pos = c.tape c.pos := by rw [hpos, ht _ hS]
    rw [step_eq hq, step_eq hq', hsym]
    refine ⟨rfl, by simp only [hpos]; omega, fun x hx => ?_⟩
    by_cases hxp : x = c.pos
    · subst hxp; simp [hpos]
    · have : x + d ≠ c'.pos := by rw [hpos]; omega
      simp only [Function.update_of_ne hxp, Function.update_of_ne this]
      exact ht x hx

/-- If the configurations at `0` and `p` agree up to a shift on a set that is closed under the shift
and contains everything visited in between, they do so forever. -/
theorem recur_forever {M : Table} {c : Config} {p : Nat} {d : Int} {S : Int → Prop} (hp : 0 < p)
    (hst : (run M p c).state = c.state) (hpos : (run M p c).pos = c.pos + d)
    (hS : ∀ x, S x → S (x + d)) (hvis : ∀ j, j < p → S (run M j c).pos)
    (ht : ∀ x, S x → c.tape x = (run M p c).tape (x + d)) (t : Nat) :
    S (run M t c).pos ∧ (run M (t + p) c).state = (run M t c).state ∧
      (run M (t + p) c).pos = (run M t c).pos + d ∧
      ∀ x, S x → (run M t c).tape x = (run M (t + p) c).tape (x + d) := by
  induction t using Nat.strong_induction_on with
  | _ t ih =>
    have hSt : S (run M t c).pos := by
      rcases Nat.lt_or_ge t p with h | h
      · exact hvis t h
      · obtain ⟨k, rfl⟩ := Nat.exists_eq_add_of_le h
        obtain ⟨h1, _, h3, _⟩ := ih k (by omega)
        rw [Nat.add_comm p k, h3]
        exact hS _ h1
    refine ⟨hSt, ?_⟩
    cases t with
    | zero => rw [Nat.zero_add]; exact ⟨hst, hpos, ht⟩
    | succ t =>
      obtain ⟨h1, h2, h3, h4⟩ := ih t (Nat.lt_succ_self t)
      rw [show t + 1 + p = (t + p) + 1 by omega, run_succ', run_succ' M t]
      exact step_shift h2 h3 h1 h4

/-- A periodic history means a constant displacement per period. -/
theorem periodic_pos {M : Table} {c : Config} {p : Nat} (h : PeriodicFrom M c 0 p) (t : Nat) :
    (run M (t + p) c).pos = (run M t c).pos + ((run M p c).pos - c.pos) := by
  induction t with
  | zero => simp
  | succ t ih =>
    obtain ⟨h1, h2, h3⟩ := h t (Nat.zero_le t)
    obtain ⟨q, hq⟩ := Option.ne_none_iff_exists'.1 h1
    have hq' := h2.trans hq
    rw [show t + 1 + p = (t + p) + 1 by omega, run_succ', run_succ' M t, step_pos hq, step_pos hq']
    unfold Config.scanned at h3
    rw [h3, ih]
    omega

theorem step_pos_le (M : Table) (c : Config) : (step M c).pos ≤ c.pos + 1 ∧ c.pos - 1 ≤ (step M c).pos := by
  cases hq : c.state with
  | none => rw [step_halted hq]; omega
  | some q =>
    rw [step_pos hq]
    cases (M q (c.tape c.pos)).dir <;> simp [Dir.delta]; omega

/-- The head passes every cell between two of its positions. -/
theorem ivt {M : Table} {c : Config} {a b : Nat} (hab : a ≤ b) {x : Int}
    (h : ((run M a c).pos ≤ x ∧ x ≤ (run M b c).pos) ∨ ((run M b c).pos ≤ x ∧ x ≤ (run M a c).pos)) :
    ∃ t, a ≤ t ∧ t ≤ b ∧ (run M t c).pos = x := by
  induction b, hab using Nat.le_induction with
  | base => exact ⟨a, le_refl _, le_refl _, by omega⟩
  | succ b hb ih =>
    have hs := step_pos_le M (run M b c)
    rw [← run_succ'] at hs
    by_cases hx : (run M (b + 1) c).pos = x
    · exact ⟨b + 1, by omega, le_refl _, hx⟩
    · obtain ⟨t, h1, h2, h3⟩ := ih (by omega)
      exact ⟨t, h1, by omega, h3⟩

/-- Cells not visited keep their contents. -/
theorem tape_unvisited {M : Table} {c : Config} {x : Int} (n : Nat)
    (h : ∀ j, j < n → (run M j c).pos ≠ x) : (run M n c).tape x = c.tape x := by
  induction n with
  | zero => rfl
  | succ n ih =>
    rw [run_succ']
    have h1 := ih (fun j hj => h j (by omega))
    cases hq : (run M n c).state with
    | none => rw [step_halted hq]; exact h1
    | some q =>
      rw [step_tape hq, Function.update_of_ne (fun e => h n (Nat.lt_succ_self n) e.symm)]
      exact h1

/-- From a periodic history every cell ever visited agrees. -/
theorem periodic_agree {M : Table} {c : Config} {p : Nat} (h : PeriodicFrom M c 0 p) {x : Int}
    (hv : ∃ t, (run M t c).pos = x) :
    c.tape x = (run M p c).tape (x + ((run M p c).pos - c.pos)) := by
  classical
  have hspec := Nat.find_spec hv
  have hmin : ∀ j, j < Nat.find hv → (run M j c).pos ≠ x := fun j hj => Nat.find_min hv hj
  generalize Nat.find hv = t at *
  have h1 : (run M t c).tape x = c.tape x := tape_unvisited t hmin
  have h2 : (run M t (run M p c)).tape (x + ((run M p c).pos - c.pos))
      = (run M p c).tape (x + ((run M p c).pos - c.pos)) := by
    apply tape_unvisited
    intro j hj he
    rw [← run_add, Nat.add_comm, periodic_pos h j] at he
    exact hmin j hj (by omega)
  obtain ⟨_, _, h3⟩ := h t (Nat.zero_le t)
  unfold Config.scanned at h3
  rw [periodic_pos h t, hspec, h1] at h3
  rw [← h2, ← run_add, Nat.add_comm p t, h3]

theorem periodic_pos_mul {M : Table} {c : Config} {p : Nat} (h : PeriodicFrom M c 0 p) (k j : Nat) :
    (run M (j + k * p) c).pos = (run M j c).pos + k * ((run M p c).pos - c.pos) := by
  induction k with
  | zero => simp
  | succ k ih =>
    rw [show j + (k + 1) * p = (j + k * p) + p by rw [Nat.add_mul]; omega, periodic_pos h, ih]
    push_cast
    rw [Int.add_mul]
    omega

/-- **Characterisation.**  `L` and `R` are the extreme positions in the first `p` steps. -/
theorem periodic_iff {M : Table} {c : Config} {p : Nat} (hp : 0 < p) (hrun : c.state ≠ none) {L R : Int}
    (hL : ∀ j, j ≤ p → L ≤ (run M j c).pos) (hR : ∀ j, j ≤ p → (run M j c).pos ≤ R)
    (hL' : ∃ j, j ≤ p ∧ (run M j c).pos = L) (hR' : ∃ j, j ≤ p ∧ (run M j c).pos = R) :
    PeriodicFrom M c 0 p ↔ (run M p c).state = c.state ∧
      ∀ x, CompareSet ((run M p c).pos - c.pos) L R x →
        c.tape x = (run M p c).tape (x + ((run M p c).pos - c.pos)) := by
  constructor
  · intro h
    have h0 := h 0 (le_refl 0)
    rw [Nat.zero_add, run_zero] at h0
    refine ⟨h0.2.1, fun x hx => periodic_agree h ?_⟩
    obtain ⟨jL, hjL, eL⟩ := hL'
    obtain ⟨jR, hjR, eR⟩ := hR'
    unfold CompareSet at hx
    split_ifs at hx with h1 h2
    · -- the head drifts to the right
      have hk := periodic_pos_mul h (x - L).toNat jL
      obtain ⟨t, _, _, ht⟩ := ivt (M := M) (c := c) (a := jL) (b := jL + (x - L).toNat * p)
        (by omega) (x := x) (Or.inl ⟨by omega, by
          rw [hk, eL]
          have : (((x - L).toNat : Nat) : Int) = x - L := by omega
          rw [this]
          have := Int.mul_le_mul_of_nonneg_left (show (1 : Int) ≤ (run M p c).pos - c.pos by omega)
            (show (0 : Int) ≤ x - L by omega)
          omega⟩)
      exact ⟨t, ht⟩
    · have hk := periodic_pos_mul h (R - x).toNat jR
      obtain ⟨t, _, _, ht⟩ := ivt (M := M) (c := c) (a := jR) (b := jR + (R - x).toNat * p)
        (by omega) (x := x) (Or.inr ⟨by
          rw [hk, eR]
          have : (((R - x).toNat : Nat) : Int) = R - x := by omega
          rw [this]
          have := Int.mul_le_mul_of_nonneg_left (show (1 : Int) ≤ c.pos - (run M p c).pos by omega)
            (show (0 : Int) ≤ R - x by omega)
          rw [show (run M p c).pos - c.pos = -(c.pos - (run M p c).pos) by omega, mul_neg]
          omega, by omega⟩)
      exact ⟨t, ht⟩
    · rcases Nat.le_total jL jR with hle | hle
      · obtain ⟨t, _, _, ht⟩ := ivt (M := M) (c := c) hle (x := x) (Or.inl (by omega))
        exact ⟨t, ht⟩
      · obtain ⟨t, _, _, ht⟩ := ivt (M := M) (c := c) hle (x := x) (Or.inr (by omega))
        exact ⟨t, ht⟩
  · rintro ⟨hst, ht⟩
    have key := recur_forever (S := CompareSet ((run M p c).pos - c.pos) L R) hp hst
      (by omega : (run M p c).pos = c.pos + ((run M p c).pos - c.pos))
      (fun x hx => compareSet_shift hx)
      (fun j hj => compareSet_of_mem (hL j (by omega)) (hR j (by omega))) ht
    have hmul : ∀ k, (run M (k * p) c).state = c.state := by
      intro k
      induction k with
      | zero => simp
      | succ k ih => rw [Nat.add_mul, Nat.one_mul, (key _).2.1, ih]
    intro t _
    obtain ⟨k1, k2, k3, k4⟩ := key t
    refine ⟨?_, k2, ?_⟩
    · apply run_some_mono (n := t * p) (Nat.le_mul_of_pos_right t hp)
      rw [hmul]; exact hrun
    · unfold Config.scanned
      rw [k3, ← k4 _ k1]

theorem periodicFrom_shift {M : Table} {c : Config} {s p : Nat} :
    PeriodicFrom M c s p ↔ PeriodicFrom M (run M s c) 0 p := by
  unfold PeriodicFrom
  constructor
  · intro h t _
    have := h (s + t) (by omega)
    rw [run_add, Nat.add_assoc, run_add] at this
    exact this
  · intro h t ht
    obtain ⟨k, rfl⟩ := Nat.exists_eq_add_of_le ht
    have := h k (Nat.zero_le k)
    rw [run_add, Nat.add_assoc, run_add]
    exact this

theorem PeriodicFrom.mono {M : Table} {c : Config} {s s' p : Nat} (h : PeriodicFrom M c s p)
    (hs : s ≤ s') : PeriodicFrom M c s' p := fun t ht => h t (le_trans hs ht)

theorem PeriodicFrom.neverHalts {M : Table} {c : Config} {s p : Nat} (h : PeriodicFrom M c s p) :
    NeverHalts M c := fun n => run_some_mono (Nat.le_add_left n s) (h (s + n) (by omega)).1

theorem PeriodicFrom.pos {M : Table} {c : Config} {s p : Nat} (h : PeriodicFrom M c s p) {t : Nat}
    (ht : s ≤ t) : (run M (t + p) c).pos = (run M t c).pos + ((run M (s + p) c).pos - (run M s c).pos) := by
  obtain ⟨k, rfl⟩ := Nat.exists_eq_add_of_le ht
  have := periodic_pos (periodicFrom_shift.1 h) k
  rw [Nat.add_assoc, run_add M s (k + p), run_add M s k, run_add M s p]
  exact this

end Spec
