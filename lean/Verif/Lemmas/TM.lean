import Verif.Spec.TM

/-! Basic facts about the specification machine. -/

namespace Spec

@[simp] theorem run_zero (M : Table) (c : Config) : run M 0 c = c := rfl

theorem run_succ (M : Table) (n : Nat) (c : Config) : run M (n + 1) c = run M n (step M c) := rfl

theorem run_add (M : Table) (m n : Nat) (c : Config) : run M (m + n) c = run M n (run M m c) := by
  induction m generalizing c with
  | zero => simp
  | succ m ih => rw [Nat.add_right_comm, run_succ, run_succ, ih]

theorem run_succ' (M : Table) (n : Nat) (c : Config) : run M (n + 1) c = step M (run M n c) := by
  rw [run_add]; rfl

theorem run_one (M : Table) (c : Config) : run M 1 c = step M c := rfl

theorem step_halted {M : Table} {c : Config} (h : c.state = none) : step M c = c := by
  unfold step; rw [h]

theorem run_halted {M : Table} {c : Config} (h : c.state = none) (n : Nat) : run M n c = c := by
  induction n with
  | zero => rfl
  | succ n ih => rw [run_succ, step_halted h, ih]

/-- Halted stays halted. -/
theorem run_none_mono {M : Table} {c : Config} {m n : Nat} (hmn : m ≤ n)
    (h : (run M m c).state = none) : (run M n c).state = none := by
  obtain ⟨k, rfl⟩ := Nat.exists_eq_add_of_le hmn
  rw [run_add, run_halted h, h]

theorem run_some_mono {M : Table} {c : Config} {m n : Nat} (hmn : m ≤ n)
    (h : (run M n c).state ≠ none) : (run M m c).state ≠ none :=
  fun h' => h (run_none_mono hmn h')

theorem neverHalts_of_run {M : Table} {c : Config} {k : Nat}
    (h : NeverHalts M (run M k c)) : NeverHalts M c := by
  intro n hn
  have := h n
  rw [← run_add] at this
  exact this (run_none_mono (by omega) hn)

theorem NeverHalts.run {M : Table} {c : Config} (h : NeverHalts M c) (k : Nat) :
    NeverHalts M (run M k c) := by
  intro n
  rw [← run_add]
  exact h _

theorem haltsAt_of_run {M : Table} {c : Config} {k n : Nat}
    (hk : (Spec.run M k c).state ≠ none) (h : HaltsAt M (Spec.run M k c) n) : HaltsAt M c (k + n) := by
  refine ⟨by rw [run_add]; exact h.1, fun m hm => ?_⟩
  rcases Nat.lt_or_ge m k with hmk | hmk
  · exact run_some_mono (Nat.le_of_lt hmk) hk
  · obtain ⟨j, rfl⟩ := Nat.exists_eq_add_of_le hmk
    rw [run_add]
    exact h.2 j (by omega)

theorem HaltsAt.not_neverHalts {M : Table} {c : Config} {n : Nat} (h : HaltsAt M c n) :
    ¬ NeverHalts M c := fun h' => h' n h.1

theorem HaltsAt.unique {M : Table} {c : Config} {m n : Nat} (h : HaltsAt M c m) (h' : HaltsAt M c n) :
    m = n := by
  rcases Nat.lt_trichotomy m n with hlt | he | hgt
  · exact absurd h.1 (h'.2 m hlt)
  · exact he
  · exact absurd h'.1 (h.2 n hgt)

theorem step_state {M : Table} {c : Config} {q : Nat} (h : c.state = some q) :
    (step M c).state = (M q (c.tape c.pos)).next := by
  unfold step; rw [h]

theorem step_pos {M : Table} {c : Config} {q : Nat} (h : c.state = some q) :
    (step M c).pos = c.pos + (M q (c.tape c.pos)).dir.delta := by
  unfold step; rw [h]

theorem step_tape {M : Table} {c : Config} {q : Nat} (h : c.state = some q) :
    (step M c).tape = Function.update c.tape c.pos (M q (c.tape c.pos)).write := by
  unfold step; rw [h]

theorem step_eq {M : Table} {c : Config} {q : Nat} (h : c.state = some q) :
    step M c = { state := (M q (c.tape c.pos)).next
                 pos := c.pos + (M q (c.tape c.pos)).dir.delta
                 tape := Function.update c.tape c.pos (M q (c.tape c.pos)).write } := by
  unfold step; rw [h]

end Spec
