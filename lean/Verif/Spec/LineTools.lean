import Verif.Model.LineTools

/-!
# What the tools for lines are stated in
-/

namespace Spec

/-- a text file all of whose lines are complete -/
def Complete (s : List Char) : Prop := s = [] ∨ ∃ t, s = t ++ ['\n']

/-- a complete line -/
def IsLine (l : List Char) : Prop := ∃ b, '\n' ∉ b ∧ l = b ++ ['\n']

/-- What is assumed of floating point numbers: the rounding of results that are not negative is monotone, it is exact for integers
up to 2^53, and far from the smallest and largest numbers its relative error is at most 2^-53. -/
structure FloatRounding (fl : ℚ → ℚ) : Prop where
  mono : ∀ {x y}, 0 ≤ x → x ≤ y → fl x ≤ fl y
  exact : ∀ n : Nat, n ≤ 2 ^ 53 → fl n = n
  error : ∀ {x}, 1 / 2 ^ 60 ≤ x → x ≤ 2 ^ 60 → |fl x - x| ≤ x / 2 ^ 53

end Spec
