import Verif.Lemmas.ExpSym

/-!
# C78: symbolic exponential integers

A number such as `(7 * 2^(x + 3) - 5) / 3` stands for a function of its variables.  The operations compute the function they should
at every assignment; substituting gives the value there; the reported minimum is the minimum over the natural numbers.  Much is
refused, even `2^x`.

The theorems assume of floating point what `C47` assumes: sorting by floating-point keys permutes.
-/

namespace Props
open Spec Model Model.ExpInt Model.Expr Model.ExpSym

variable {F : Floats}

/-- **C78.** The power `base ^ e` has the value `base ^ (e at ρ)` at every assignment `ρ`. -/
theorem C78_exp_int (hF : FloatsOk F) (fuel : Nat) (base : Int) {e : Val Int} {r : SNum} (he : Val.Normal e)
    (h : expIntS F fuel base e = .ok r) : SDenotes r (fun ρ => (base : ℚ) ^ Val.value ρ e) := expIntS_spec hF he h

/-- **C78.** Sums, products, differences and negations are pointwise. -/
theorem C78_operations (hF : FloatsOk F) (fuel : Nat) {a b : SNum} (ha : SNum.WF a) (hb : SNum.WF b) :
    (∀ r, addSN F fuel a b = .ok r → SDenotes r (fun ρ => SNum.value ρ a + SNum.value ρ b)) ∧
    (∀ r, mulSN F fuel a b = .ok r → SDenotes r (fun ρ => SNum.value ρ a * SNum.value ρ b)) ∧
    (∀ r, subS F fuel a b = .ok r → SDenotes r (fun ρ => SNum.value ρ a - SNum.value ρ b)) ∧
    (∀ r, negS F fuel a = .ok r → SDenotes r (fun ρ => - SNum.value ρ a)) :=
  ⟨fun _ h => addSN_spec hF ha hb h, fun _ h => mulSN_spec hF ha hb h, fun _ h => subS_spec hF ha hb h,
    fun _ h => negS_spec hF ha h⟩

/-- **C78.** A quotient is the quotient at every assignment, and that of a symbolic number is a well-formed symbolic number. -/
theorem C78_div (hF : FloatsOk F) (fuel : Nat) {a : SNum} {z : Int} {r : QNum} (ha : SNum.WF a)
    (h : ExpSym.divS F fuel a z = .ok r) : z ≠ 0 ∧ (∀ ρ, QNum.value ρ r = SNum.value ρ a / z) ∧
      ∀ ts c d m, a = .sym ts c d m → ∃ x, r = .num x ∧ SNum.WF x := by
  obtain ⟨h1, h2, h3⟩ := divS_spec hF ha h
  refine ⟨h1, h2, fun ts c d m hm => ?_⟩
  rcases h3 with ⟨p, rfl, -⟩ | ⟨_, -, -, _, _, _, rfl⟩ | ⟨ts', c', d', m', rfl, hw, -⟩
  · cases hm
  · cases hm
  · exact ⟨_, rfl, hw⟩

/-- **C78.** Everything that a program can make is well-formed. -/
theorem C78_built (hF : FloatsOk F) (fuel : Nat) {x : SNum} (h : SymBuilt F fuel x) : SNum.WF x := by
  induction h with
  | int z => exact ⟨z, denotes_int z⟩
  | exp he h => exact (expIntS_spec hF he h).1
  | add _ _ h iha ihb => exact (addSN_spec hF iha ihb h).1
  | mul _ _ h iha ihb => exact (mulSN_spec hF iha ihb h).1
  | sub _ _ h iha ihb => exact (subS_spec hF iha ihb h).1
  | div _ h iha =>
    rcases (divS_spec hF iha h).2.2 with ⟨_, _, h⟩ | ⟨_, h, -⟩ | ⟨_, _, _, _, h, hw, -⟩
    · cases h
    · cases h
    · cases h; exact hw
  | subst _ hσ h iha =>
    rcases (substExpr_spec hF hσ iha h).2 with ⟨_, h, -⟩ | ⟨_, _, _, _, h, hw⟩ | ⟨_, _, h, -⟩
    · cases h
    · cases h; exact hw
    · cases h

/-- **C78.** The minimum that is reported for a number that a program can make is its least value for natural numbers: no value is
below it, and where all variables are zero it is attained.  None is reported only if a coefficient is negative. -/
theorem C78_min (hF : FloatsOk F) (fuel : Nat) {x : SNum} (h : SymBuilt F fuel x) :
    (∀ m, x.minVal = some m → SNum.value (fun _ => 0) x = Num.value m ∧
      ∀ ρ, (∀ v, 0 ≤ ρ v) → Num.value m ≤ SNum.value ρ x) ∧
    (x.minVal = none → ∃ ts c d m, x = .sym ts c d m ∧ ∃ t ∈ ts, t.coef < 0) := by
  have hw := C78_built hF fuel h
  cases x with
  | num y =>
    refine ⟨fun m hm => ?_, fun hm => by cases hm⟩
    cases hm
    exact ⟨rfl, fun ρ _ => le_refl _⟩
  | sym ts c d m =>
    obtain ⟨-, -, -, -, h5, h6⟩ := hw
    refine ⟨fun x hx => ?_, fun hx => ⟨_, _, _, _, rfl, h6 hx⟩⟩
    obtain ⟨-, hl⟩ := h5 x hx
    exact ⟨hl.1.symm, hl.2⟩

/-- **C78.** The value depends only on the reported variables. -/
theorem C78_variables (x : SNum) (ρ ρ' : Nat → Int) (h : ∀ v ∈ x.variables, ρ v = ρ' v) :
    SNum.value ρ x = SNum.value ρ' x := by
  cases x with
  | num y => rfl
  | sym ts c d m =>
    simp only [SNum.variables, List.mem_flatMap, List.mem_map] at h
    have key : ∀ t ∈ ts, STerm.value ρ t = STerm.value ρ' t := by
      intro t ht
      unfold STerm.value Expr.value
      congr 3
      refine congrArg List.sum (List.map_congr_left fun u hu => ?_)
      unfold Spec.Term.value monomial
      congr 2
      refine List.map_congr_left fun vp hvp => ?_
      rw [h vp.var ⟨t, ht, u, hu, vp, hvp, rfl⟩]
    simp only [SNum.value, List.map_congr_left key]

/-- **C78.** Substituting numbers for all variables, where the exponents become natural numbers, gives the value there: a
well-formed number, or else the floating-point number nearest to it (see `C78_substitute_float`). -/
theorem C78_substitute (hF : FloatsOk F) (fuel : Nat) {σ : Nat → Num} {ρ : Nat → Int} (hσ : ∀ v, Denotes (σ v) (ρ v)) {x : SNum}
    {r : QNum} (hx : SNum.WF x) (hn : NatExponents ρ x) (h : substNum F fuel σ x = .ok r) :
    (∃ y, r = .num (.num y) ∧ Num.WF y ∧ Num.value y = SNum.value ρ x) ∨
      ∃ p q : Int, r = .float p q ∧ q ≠ 0 ∧ (p : ℚ) / q = SNum.value ρ x := by
  obtain ⟨h1, h2⟩ := substNum_spec hF hσ hx hn h
  rcases h2 with ⟨y, rfl, hy⟩ | ⟨p, q, rfl, hq⟩
  · exact Or.inl ⟨y, rfl, hy, h1 ρ⟩
  · exact Or.inr ⟨p, q, rfl, hq, h1 ρ⟩

/-- **C78.** Substituting integers and expressions for some of the variables is evaluating the replacements first. -/
theorem C78_substitute_expr (hF : FloatsOk F) (fuel : Nat) {σ : Nat → Option (Val Int)}
    (hσ : ∀ v y, σ v = some y → Val.Normal y) {x : SNum} {r : QNum} (hx : SNum.WF x) (h : substExpr F fuel σ x = .ok r) (ρ : Nat → Int) :
    QNum.value ρ r = SNum.value (after σ ρ) x := (substExpr_spec hF hσ hx h).1 ρ

/-- **C78.** A power with a variable in the exponent is accepted only if all coefficients of the exponent and its constant are
positive (and then it has a minimum).  So neither `2^x` nor `2^(5 - x)` can be written. -/
theorem C78_exponents (hF : FloatsOk F) (fuel : Nat) (base : Int) {e : Expr Int} {r : SNum} (he : Expr.Normal e) (hne : e.terms ≠ [])
    (h : expIntS F fuel base (.expr e) = .ok r) :
    0 < e.const ∧ (∀ t ∈ e.terms, 0 < t.coef) ∧ ∃ m, r.minVal = some m := expIntS_accepts hF he hne h

/-- **C78.** In particular a variable alone is refused as an exponent, for every base. -/
theorem C78_variable_refused (hF : FloatsOk F) (fuel : Nat) (base : Int) (v : Nat) (r : SNum) :
    expIntS F fuel base (.expr (varE v)) ≠ .ok r := by
  intro h
  have := (expIntS_accepts hF ((Props.C44_normal (K := Int)).2.1 v) (by simp [varE]) h).1
  simp [varE] at this

/-- **C78.** Two symbolic numbers cannot be multiplied; a symbolic number cannot be added to a large constant, nor can a large
constant be multiplied by it. -/
theorem C78_refused (fuel : Nat) (ts ts' : List STerm) (c d c' d' : Int) (m m' : Option Num) (us : List ETerm) :
    mulSN F fuel (.sym ts c d m) (.sym ts' c' d' m') = .error .type ∧
    mulSN F fuel (.num (.exp us c' d')) (.sym ts c d m) = .error .type ∧
    addSN F fuel (.sym ts c d m) (.num (.exp us c' d')) = .error .type ∧
    addSN F fuel (.num (.exp us c' d')) (.sym ts c d m) = .error .type := ⟨rfl, rfl, rfl, rfl⟩

/-! ### Concrete cases -/

private def view : SNum → Option (List (Int × Int × Expr Int) × Int × Int × Bool)
  | .num _ => none
  | .sym ts c d m => some (ts.map (fun t => (t.base, t.coef, t.exponent)), c, d, m.isSome)

private def viewE (r : Except Err SNum) : Option (List (Int × Int × Expr Int) × Int × Int × Bool) :=
  match r with
  | .ok x => view x
  | .error _ => none

private def bindE (r : Except Err SNum) (g : SNum → Except Err SNum) : Except Err SNum :=
  match r with
  | .ok x => g x
  | .error e => .error e

/-- the expression `a * v + c` -/
private def lin (a : Int) (v : Nat) (c : Int) : Expr Int := ⟨[⟨[⟨v, 1⟩], a⟩], c⟩

-- `4^(x + 3) = 2^(2 x + 6)`
example : viewE (expIntS exF 9 4 (.expr (lin 1 0 3))) = some ([(2, 1, lin 2 0 6)], 0, 1, true) := by decide +kernel
-- `6 * 2^(x + 3) - 5` has the term `3 * 2^(x + 4)`
example : viewE (bindE (bindE (expIntS exF 9 2 (.expr (lin 1 0 3))) (fun x => mulSN exF 9 x (.num (.int 6))))
    (fun x => addSN exF 9 x (.num (.int (-5))))) = some ([(2, 3, lin 1 0 4)], -5, 1, true) := by decide +kernel
-- a difference has no minimum
example : viewE (bindE (expIntS exF 9 2 (.expr (lin 1 0 1))) (fun a => bindE (expIntS exF 9 2 (.expr (lin 1 1 1)))
    (fun b => subS exF 9 a b))) = some ([(2, 1, lin 1 0 1), (2, -1, lin 1 1 1)], 0, 1, false) := by decide +kernel

private theorem lin_normal (a : Int) (v : Nat) (c : Int) (h : a ≠ 0) : Expr.Normal (lin a v c) := by
  refine ⟨?_, by simp [lin], by simpa [lin] using h⟩
  intro t ht
  simp only [lin, List.mem_singleton] at ht
  subst ht
  exact ⟨by simp, by simp, by simp⟩

-- the premises of the theorems are met: a program can make `2^(x + 1)`
example : ∃ x, SymBuilt exF 9 x ∧ viewE (.ok x) = some ([(2, 1, lin 1 0 1)], 0, 1, true) ∧ SNum.WF x := by
  have hv : viewE (expIntS exF 9 2 (.expr (lin 1 0 1))) = some ([(2, 1, lin 1 0 1)], 0, 1, true) := by decide +kernel
  match h : expIntS exF 9 2 (.expr (lin 1 0 1)) with
  | .error e => rw [h] at hv; cases hv
  | .ok x =>
    rw [h] at hv
    have hb : SymBuilt exF 9 x := SymBuilt.exp (e := .expr (lin 1 0 1)) (lin_normal 1 0 1 (by decide)) h
    exact ⟨x, hb, hv, C78_built exF_ok 9 hb⟩

private def viewQ (r : Except Err QNum) : Option (Sum Int (Int × Int)) :=
  match r with
  | .ok (.num (.num x)) => (tryEval x).map Sum.inl
  | .ok (.float p q) => some (.inr (p, q))
  | _ => none

private def thenSubst (r : Except Err SNum) (σ : Nat → Num) : Except Err QNum :=
  match r with
  | .ok x => substNum exF 9 σ x
  | .error e => .error e

/-- `2^(x + 1) - 2^(y + 1)` -/
private def difference : Except Err SNum :=
  bindE (expIntS exF 9 2 (.expr (lin 1 0 1))) (fun a => bindE (expIntS exF 9 2 (.expr (lin 1 1 1))) (fun b => subS exF 9 a b))

-- at `x = 6`, `y = 4`
example : viewQ (thenSubst difference (fun v => if v = 0 then .int 6 else .int 4)) = some (.inl 96) := by decide +kernel

/-- Where the terms cancel the result is a `float`: `2^(x + 1) - 2^(y + 1)` at `x = y = 5` is `0.0`. -/
theorem C78_substitute_float : viewQ (thenSubst difference (fun _ => .int 5)) = some (.inr (0, 1)) := by decide +kernel

private def raisedQ (r : Except Err QNum) : Option Err := match r with | .ok _ => none | .error e => some e

/-- A power of a variable cannot be replaced by a large number: `2^(x^2 + 1)` at `x = 2^5000` raises `TypeError`, though
`2^(x + 1)` does not. -/
theorem C78_power_refused :
    raisedQ (thenSubst (expIntS exF 9 2 (.expr ⟨[⟨[⟨0, 2⟩], 1⟩], 1⟩)) (fun _ => big)) = some .type ∧
    raisedQ (thenSubst (expIntS exF 9 2 (.expr (lin 1 0 1))) (fun _ => big)) = none := by decide +kernel

/-- `2^(5 - x)` is refused but `-2^(5 - x)` is a well-formed term. -/
theorem C78_sign_matters : raised (mkTermS exF 9 2 1 (lin (-1) 0 5)) = some .assertion ∧
    raised (mkTermS exF 9 2 (-1) (lin (-1) 0 5)) = none := by decide +kernel

end Props
