import Verif.Model.RuleFunc
import Mathlib.Data.Rat.Floor
import Mathlib.Tactic.Ring
import Mathlib.Tactic.Linarith
import Mathlib.Logic.Function.Iterate
import Mathlib.Algebra.Order.Ring.Int
import Mathlib.Algebra.Ring.GeomSum
import Mathlib.Tactic.NormNum

/-!
# C55: rule functions
-/

namespace Props
open Model Model.RuleFunc

/-- `n` times `x -> m x + c`. -/
def affineIter (m c : Int) (n : Nat) (x : Int) : Int := (fun x => m * x + c)^[n] x

theorem affineIter_succ (m c : Int) (n : Nat) (x : Int) : affineIter m c (n + 1) x = m * affineIter m c n x + c := by
  unfold affineIter; rw [Function.iterate_succ_apply']

/-- **C55.** `n` repetitions of a subtraction or addition by the closed form are `n` single applications. -/
theorem C55_linear (n : Nat) (x : Int) :
    (∀ f : Subtract, f.applyRep x n = affineIter 1 (-f.const) n x) ∧ (∀ f : Add, f.applyRep x n = affineIter 1 f.const n x) := by
  constructor <;> intro f
  · induction n with
    | zero => simp [Subtract.applyRep, affineIter]
    | succ n ih => rw [affineIter_succ, ← ih]; simp only [Subtract.applyRep]; push_cast; ring
  · induction n with
    | zero => simp [Add.applyRep, affineIter]
    | succ n ih => rw [affineIter_succ, ← ih]; simp only [Add.applyRep]; push_cast; ring

/-- **C55.** For a start at or above the minimum, `max_reps` is the number of applications until the value first drops below
the minimum (every earlier value is at or above it), and the value then. -/
theorem C55_max_reps (min const start : Int) (f : Subtract) (hf : Subtract.new min const = .ok f) (hs : min ≤ start) :
    ∃ n : Nat, f.maxReps start = ((n : Int), affineIter 1 (-const) n start) ∧ 1 ≤ n ∧ affineIter 1 (-const) n start < min ∧
      ∀ j < n, min ≤ affineIter 1 (-const) j start := by
  unfold Subtract.new at hf
  split at hf
  · next hc =>
    cases hf
    have heq : ∀ n : Nat, affineIter 1 (-const) n start = start - n * const := fun n =>
      ((C55_linear n start).1 ⟨min, const⟩).symm
    have hd : (start - (min - const)).fdiv const = (start - (min - const)) / const :=
      Int.fdiv_eq_ediv_of_nonneg _ (by omega)
    have hm : (start - (min - const)).fmod const = (start - (min - const)) % const :=
      Int.fmod_eq_emod_of_nonneg _ (by omega)
    have h1 := Int.mul_ediv_add_emod (start - (min - const)) const
    have h2 := Int.emod_nonneg (start - (min - const)) (b := const) (by omega)
    have h3 := Int.emod_lt_of_pos (start - (min - const)) hc
    generalize hq : (start - (min - const)) / const = q at *
    generalize hr : (start - (min - const)) % const = r at *
    have hq1 : 1 ≤ q := by
      by_contra hlt
      have : const * q ≤ 0 := Int.mul_nonpos_of_nonneg_of_nonpos (by omega) (by omega)
      omega
    obtain ⟨n, rfl⟩ := Int.eq_ofNat_of_zero_le (show 0 ≤ q by omega)
    refine ⟨n, ?_, by omega, ?_, ?_⟩
    · simp only [Subtract.maxReps, hd, hm, heq, Prod.mk.injEq, true_and]
      linarith
    · rw [heq]; linarith
    · intro j hj
      rw [heq]
      have : (j : Int) * const ≤ (n - 1) * const := Int.mul_le_mul_of_nonneg_right (by omega) (by omega)
      have : ((n : Int) - 1) * const = const * n - const := by ring
      linarith
  · cases hf

example : ∃ f, Subtract.new 3 4 = .ok f ∧ f.maxReps 17 = (4, 1) := ⟨_, rfl, by decide⟩

/-- The closed form of an affine map. -/
theorem affine_closed (m c : Int) (n : Nat) (x : Int) :
    (m - 1) * affineIter m c n x = (x * (m - 1) + c) * m ^ n - c := by
  induction n with
  | zero => simp [affineIter]; ring
  | succ n ih =>
    rw [affineIter_succ]
    have : (m - 1) * (m * affineIter m c n x + c) = m * ((m - 1) * affineIter m c n x) + (m - 1) * c := by ring
    rw [this, ih]; ring

/-- **C55, partial.** `n ≥ 1` repetitions of `x -> m x + c` with `m ≥ 2` by the closed form are `n` single applications,
unless the start is the fixed point of the map.  Missing, because false: see `C55_mult_raises`. -/
theorem C55_mult_partial (min coef const start : Int) (f : Mult) (hf : Mult.new min coef const = .ok f) (hc : coef ≠ 1)
    (n : Nat) (hn : n ≠ 0) (hfix : coef * start + const ≠ start) :
    f.applyRep start n = .ok (affineIter coef const n start) := by
  have hf' : f.coef = coef ∧ f.const = const ∧ 0 < coef := by
    unfold Mult.new at hf
    split at hf
    · split at hf
      · cases hf
      · cases hf; exact ⟨rfl, rfl, by omega⟩
    · cases hf
  obtain ⟨h1, h2, h3⟩ := hf'
  unfold Mult.applyRep
  simp only [h1, h2]
  rw [if_neg hn, if_neg hc, if_neg (by intro h; apply hfix; linarith [mul_comm start (coef - 1), show coef * start + const - start = start * (coef - 1) + const by ring])]
  rw [← affine_closed, Int.mul_ediv_cancel_left _ (by omega)]

example : ∃ f, Mult.new 1 2 3 = .ok f ∧ f.applyRep 5 10 = .ok (8 * 2 ^ 10 - 3) ∧
    affineIter 2 3 10 5 = 8 * 2 ^ 10 - 3 := ⟨_, rfl, by decide, by decide⟩

/-- The full claim is false: no repetition, and repeating at the fixed point of the map (`2·3 - 3 = 3`, which is the minimum
that the code computes) raise `AssertionError`; `m = 1` does not terminate. -/
theorem C55_mult_raises : ∃ f, Mult.new 1 2 (-3) = .ok f ∧ f.min = 3 ∧ f.applyRep 3 5 = .error .assertion ∧
    f.applyRep 7 0 = .error .assertion ∧ ∃ g, Mult.new 1 1 3 = .ok g ∧ g.applyRep 7 5 = .error .diverges :=
  ⟨⟨3, 2, -3⟩, by decide, rfl, by decide, by decide, ⟨1, 1, 3⟩, by decide, by decide⟩

/-- **C55.** At or above the minimum it computes, `x -> m x + c` does not decrease; and that minimum is the given one or the
least value with this property. -/
theorem C55_mult_min (min coef const : Int) (h0 : 0 ≤ min) (f : Mult) (hf : Mult.new min coef const = .ok f) :
    min ≤ f.min ∧ (∀ x, f.min ≤ x → x ≤ coef * x + const) ∧ (min < f.min → f.min - 1 > coef * (f.min - 1) + const) := by
  unfold Mult.new at hf
  split at hf
  · next hpos =>
    split at hf
    · cases hf
    · next mn hmin =>
      cases hf
      unfold Mult.computeMin at hmin
      split at hmin
      · next hc =>
        cases hmin
        refine ⟨le_refl _, fun x hx => ?_, fun h => absurd h (by simp)⟩
        dsimp only at hx
        have : 1 * x ≤ coef * x := Int.mul_le_mul_of_nonneg_right (by omega) (by omega)
        linarith
      · next hc =>
        unfold ceilDiv at hmin
        split at hmin
        · cases hmin
        · next noDecr hnd =>
          split at hnd
          · cases hnd
          · next hne =>
            cases hnd
            have hd : (-const - 1).fdiv (coef - 1) = (-const - 1) / (coef - 1) := Int.fdiv_eq_ediv_of_nonneg _ (by omega)
            rw [hd] at hmin
            have h1 := Int.mul_ediv_add_emod (-const - 1) (coef - 1)
            have h2 := Int.emod_nonneg (-const - 1) (b := coef - 1) (by omega)
            have h3 := Int.emod_lt_of_pos (-const - 1) (b := coef - 1) (by omega)
            generalize (-const - 1) / (coef - 1) = q at *
            generalize (-const - 1) % (coef - 1) = r at *
            have key : ∀ x, q + 1 ≤ x → x ≤ coef * x + const := by
              intro x hx
              have : (coef - 1) * (q + 1) ≤ (coef - 1) * x := Int.mul_le_mul_of_nonneg_left hx (by omega)
              have e1 : (coef - 1) * (q + 1) = (coef - 1) * q + (coef - 1) := by ring
              have e2 : (coef - 1) * x = coef * x - x := by ring
              linarith
            simp only [Except.ok.injEq] at hmin
            split at hmin
            · subst hmin
              refine ⟨by dsimp only; omega, key, fun _ => ?_⟩
              dsimp only
              have : coef * (q + 1 - 1) + const = (coef - 1) * q + q + const := by ring
              rw [this]; linarith
            · subst hmin
              refine ⟨le_refl _, fun x hx => key x (by dsimp only at hx; omega), fun h => absurd h (by simp)⟩
  · cases hf

example : ∃ f, Mult.new 1 3 (-11) = .ok f ∧ f.min = 6 := ⟨_, rfl, rfl⟩

/-- The value of the power function if the quotient is exact. -/
def Pow.IsValue (f : Pow) (x y : Int) : Prop :=
  f.denom * y = f.coefBase * f.base ^ (f.coefExp * x + f.constExp).toNat + f.constBase

/-- **C55, partial.** If the power function has integer values from the computed minimum on, and the floating-point bound is
right where the loop stops (`xBound x < x` implies `a b^{ux+v} > dx - c`), then the function increases every value from that
minimum on.  The code has no closed form for repeated application of this function. -/
theorem C55_pow_min_partial (f : Pow) (hb : 1 < f.base) (ha : 0 < f.coefBase) (hu : 0 < f.coefExp) (hd : 0 < f.denom)
    (xBound : Int → ℚ) (fuel : Nat) (min m : Int) (hm : f.computeMin xBound fuel min = some m)
    (hv : 0 ≤ f.coefExp * m + f.constExp)
    (hx : xBound m < m → f.coefBase * f.base ^ (f.coefExp * m + f.constExp).toNat > f.denom * m - f.constBase)
    (g : Int → Int) (hg : ∀ x, m ≤ x → Pow.IsValue f x (g x)) : ∀ x, m ≤ x → x < g x := by
  have hstop : f.denom * m - f.constBase ≤ 0 ∨ xBound m < m := by
    clear hx hv hg
    induction fuel generalizing min with
    | zero => simp [Pow.computeMin] at hm
    | succ n ih =>
      unfold Pow.computeMin at hm
      split at hm
      · cases hm; left; assumption
      · split at hm
        · cases hm; right; assumption
        · exact ih _ hm
  have hpos : ∀ k : Nat, 0 < f.coefBase * f.base ^ k := fun k => Int.mul_pos ha (Int.pow_pos (by omega))
  have hbase : m < g m := by
    have h1 := hg m (le_refl _)
    unfold Pow.IsValue at h1
    have h2 : f.denom * m < f.denom * g m := by
      rcases hstop with h | h
      · have := hpos (f.coefExp * m + f.constExp).toNat; linarith
      · have := hx h; linarith
    exact lt_of_mul_lt_mul_left h2 (by omega)
  have hstep : ∀ x, m ≤ x → g x < g (x + 1) := by
    intro x hx
    have h1 := hg x hx
    have h2 := hg (x + 1) (by omega)
    unfold Pow.IsValue at h1 h2
    have hxm : f.coefExp * m ≤ f.coefExp * x := Int.mul_le_mul_of_nonneg_left hx (by omega)
    have he : (f.coefExp * (x + 1) + f.constExp).toNat = (f.coefExp * x + f.constExp).toNat + f.coefExp.toNat := by
      have : f.coefExp * (x + 1) = f.coefExp * x + f.coefExp := by ring
      omega
    have hlt : f.base ^ (f.coefExp * x + f.constExp).toNat < f.base ^ (f.coefExp * (x + 1) + f.constExp).toNat := by
      rw [he]
      exact Int.pow_lt_pow_of_lt hb (by omega)
    have := Int.mul_lt_mul_of_pos_left hlt ha
    have h3 : f.denom * g x < f.denom * g (x + 1) := by linarith
    exact lt_of_mul_lt_mul_left h3 (by omega)
  intro x hx
  obtain ⟨j, rfl⟩ := Int.le.dest hx
  clear hx
  induction j with
  | zero => simpa using hbase
  | succ j ih =>
    have := hstep (m + j) (by omega)
    push_cast
    have h2 : m + (j : Int) + 1 = m + (j + 1) := by ring
    rw [← h2]
    omega

example : (∀ x : Int, 0 ≤ x → Pow.IsValue ⟨2, 1, -1, 3, 2, 0⟩ x ((4 ^ x.toNat - 1) / 3)) ∧
    (RuleFunc.Pow.mk 2 1 (-1) 3 2 0).computeMin (fun _ => 1) 5 2 = some 2 := by
  refine ⟨fun x hx => ?_, by decide +kernel⟩
  obtain ⟨n, rfl⟩ := Int.eq_ofNat_of_zero_le hx
  have hdvd : (3 : Int) ∣ 4 ^ n - 1 := by
    simpa using sub_dvd_pow_sub_pow (4 : Int) 1 n
  simp only [Pow.IsValue]
  rw [show (2 * (n : Int) + 0).toNat = 2 * n by omega, Int.toNat_natCast, Int.mul_ediv_cancel' hdvd, pow_mul]
  norm_num
  ring

end Props
