import Verif.Lemmas.ExpText
import Verif.Props.ExpInt

/-!
# C77: the formulas of exponential integers

The formula that is printed for a number, as plain text or in TeX, has that number as its value by the ordinary rules of arithmetic
(the calculator of `Spec/Formula.lean`), and numbers of different structure have different formulas.
-/

namespace Props
open Model.ExpInt Model.ExpText Spec Spec.Formula

/-- A text has one value at most. -/
theorem C77_one_value (s : List Char) (v w : ℚ) (hv : Calculates s v) (hw : Calculates s w) : v = w := by
  obtain ⟨N, h⟩ := hv
  obtain ⟨M, h'⟩ := hw
  have h1 := h (N + M) (by omega)
  rw [h' (N + M) (by omega)] at h1
  have := Option.some.inj h1
  exact (congrArg Prod.fst this).symm

/-- `str(x)` is a formula for `x`. -/
theorem C77_str (x : Num) (z : Int) (h : Denotes x z) : Calculates (strN x) z := by
  obtain ⟨N, hN⟩ := sum_one (product_one (ev_strN x h.1 [] .nil) (.follow .nil)) .nil
  refine ⟨N, fun f hf => ?_⟩
  have := hN f hf
  rwa [List.append_nil, h.2] at this

/-- `tex_formula(x)` is a formula for `x`. -/
theorem C77_tex (x : Num) (z : Int) (h : Denotes x z) : Calculates (texN x) z := by
  obtain ⟨N, hN⟩ := ev_texN x h.1 [] .nil
  refine ⟨N, fun f hf => ?_⟩
  have := hN f hf
  rwa [List.append_nil, h.2] at this

/-- Numbers with the same text have the same structure (`struct_eq`). -/
theorem C77_str_inj (x y : Num) (hx : Num.WF x) (hy : Num.WF y) (h : strN x = strN y) : x = y :=
  (inj_strN x y hx hy [] [] Follow.nil.noDig Follow.nil.noDig (by rw [h])).1

/-- Numbers with the same TeX formula have the same structure. -/
theorem C77_tex_inj (x y : Num) (hx : Num.WF x) (hy : Num.WF y) (h : texN x = texN y) : x = y :=
  (inj_texN x y hx hy [] [] .nil .nil (by rw [h])).1

/-- In particular the text of a sum or product has the value of the sum or product of the values of the texts. -/
theorem C77_operations (F : Floats) (hF : FloatsOk F) (fuel : Nat) (a b r : Num) (x y : Int) (ha : Denotes a x) (hb : Denotes b y) :
    (addN F fuel a b = .ok r → Calculates (strN r) (x + y)) ∧ (mulN F fuel a b = .ok r → Calculates (strN r) (x * y)) := by
  constructor
  · intro h
    have := C77_str r _ (C47_add_partial hF fuel ha hb h)
    simpa using this
  · intro h
    have := C77_str r _ (C47_mul_partial hF fuel ha hb h)
    simpa using this

/-! ### Examples -/

/-- `(13 - 3 · 2^(1 + 5^4) + 2^9) / 7` -/
def c77x : Num := .exp [.mk 2 (-3) (.exp [.mk 5 1 (.int 4)] 1 1), .mk 2 1 (.int 9)] 13 7

example : strN c77x = "((13 + -3 * 2^(1 + 5^4) + 2^9)/7)".toList ∧
    texN c77x = "\\frac{ 13 + -3 \\cdot 2^{ 1 + 5^{ 4 } } + 2^{ 9 } }{ 7 }".toList := by decide +kernel

example : Num.WF c77x := by
  refine ⟨by simp, by decide, by decide, ⟨by decide, by decide, ⟨by simp, by decide, by decide, ⟨by decide, by decide, trivial, 4, ?_⟩, trivial⟩, 626, ?_⟩,
    ⟨by decide, by decide, trivial, 9, ?_⟩, trivial⟩
  · simp [Num.value]
  · simp [Num.value, termsValue, ETerm.value]; norm_num
  · simp [Num.value]

/-- The calculator is the ordinary one: powers to the right, quotients to the left, a sign after powers. -/
example : sum 30 "2^3^2 + 24/4/3 * 5 + -2^2".toList = some (512 + 10 - 4, []) ∧ sum 30 "(1 + 2) * 3".toList = some (9, []) ∧
    sum 30 "2 * \\frac{ 1 + 2 }{ 3 }^{ 1 + 1 } \\cdot 5".toList = some (10, []) ∧
    sum 30 "1 + ".toList = none ∧ sum 30 "2 3".toList = some (2, " 3".toList) := by decide +kernel

/-- Different structures can have the same value: `2^2` as an exponent and 4. -/
example : Num.value (.exp [.mk 2 1 (.exp [.mk 2 1 (.int 2)] 0 1)] 0 1) = Num.value (.exp [.mk 2 1 (.int 4)] 0 1) := by
  simp [Num.value, termsValue, ETerm.value]

end Props
