import Verif.Lemmas.ExpRule
import Verif.Props.LinearRule

/-!
# C73: exponential rules
-/

namespace Props
open Spec Model Model.Expr Model.Prover Model.RuleFunc Model.ExpRule

variable {σ : Type}

/-- The rule was made by `Exponential_Rule.try_gen` from a proved rule: different blocks have different variables, no minimum
is negative, the denominators are positive (`ExpInt.normalize` sees to that). -/
structure MadeExp (F : Floats) (vars : List (Option (Nat × Int))) (result : List R) (states : List Nat) (r : ERule) : Prop where
  gen : tryGen F vars result states = .ok r
  distinct : VarsDistinct vars
  nonneg : ∀ x m, some (x, m) ∈ vars → 0 ≤ m
  denom : ∀ vs ts c d, R.exp vs ts c d ∈ result → 0 < d

/-- The floating point logarithms are right where they decide the minimum of a power: if the bound computed from them is below
the minimum `m`, then the value at `m` is larger than `m`. -/
def LogsRight (F : Floats) (r : ERule) : Prop :=
  ∀ (i x : Nat) (f : Pow) (m : Int), r.funcs[i]? = some (some (x, .pow f m)) → BoundRight F f m

theorem exp_all {F vars result states r} (h : MadeExp F vars result states r) :
    AllMade F vars result r.funcs ∧ r.result = result ∧ r.states = states := by
  have h1 := h.gen
  unfold tryGen at h1
  split at h1
  · next l hl =>
    split at h1
    · cases h1; exact ⟨genFuncs_made hl, rfl, rfl⟩
    · cases h1
  · cases h1
  · cases h1

theorem exp_get {F vars result states r} (h : MadeExp F vars result states r) {i x : Nat} {m : Int}
    (hi : vars[i]? = some (some (x, m))) :
    ∃ f q, r.funcs[i]? = some (some (x, f)) ∧ result[i]? = some q ∧ Made F x m q f ∧ 0 ≤ m := by
  obtain ⟨⟨h1, h2, h3⟩, -, -⟩ := exp_all h
  have hlt := (List.getElem?_eq_some_iff.mp hi).1
  rcases h3 i (by omega) with ⟨h4, -⟩ | ⟨x', m', f, q, h4, h5, h6, h7⟩
  · rw [hi] at h4; cases h4
  · rw [hi] at h4
    cases h4
    exact ⟨f, q, h5, h6, h7, h.nonneg x m (List.mem_of_getElem? hi)⟩

theorem exp_get_none {F vars result states r} (h : MadeExp F vars result states r) {i : Nat} :
    vars[i]? = some none ↔ r.vars[i]? = some none := by
  obtain ⟨⟨h1, h2, h3⟩, -, -⟩ := exp_all h
  rw [vars_none]
  by_cases hi : i < r.funcs.length
  · rcases h3 i hi with ⟨h4, h5⟩ | ⟨x', m', f, q, h4, h5, h6, h7⟩
    · simp [h4, h5]
    · simp [h4, h5]
  · rw [List.getElem?_eq_none (by omega), List.getElem?_eq_none (by omega)]
    simp

/-- the other way round: from the minima of the rule -/
theorem exp_get_rule {F vars result states r} (h : MadeExp F vars result states r) {i x : Nat} {n : Int}
    (hi : r.vars[i]? = some (some (x, n))) :
    ∃ f q m, r.funcs[i]? = some (some (x, f)) ∧ f.min = n ∧ vars[i]? = some (some (x, m)) ∧ result[i]? = some q ∧
      Made F x m q f ∧ 0 ≤ m := by
  obtain ⟨f, hf, hm⟩ := (vars_get _ _ _ _).mp hi
  obtain ⟨⟨h1, h2, h3⟩, -, -⟩ := exp_all h
  rcases h3 i (List.getElem?_eq_some_iff.mp hf).1 with ⟨-, h5⟩ | ⟨x', m', f', q, h4, h5, h6, h7⟩
  · rw [hf] at h5; cases h5
  · rw [hf] at h5
    cases h5
    exact ⟨f, q, m', hf, hm, h4, h6, h7, h.nonneg x m' (List.mem_of_getElem? h4)⟩

theorem exp_distinct {F vars result states r} (h : MadeExp F vars result states r) : VarsDistinct r.vars := by
  intro i j x m n hi hj
  obtain ⟨-, -, m', -, -, h1, -⟩ := exp_get_rule h hi
  obtain ⟨-, -, n', -, -, h2, -⟩ := exp_get_rule h hj
  exact h.distinct i j x m' n' h1 h2

theorem exp_length {F vars result states r} (h : MadeExp F vars result states r) :
    vars.length = r.vars.length ∧ result.length = r.vars.length := by
  obtain ⟨⟨h1, h2, -⟩, -, -⟩ := exp_all h
  rw [vars_length]
  exact ⟨h1, h2⟩

/-- **C73, what is made a rule.** In an exponential rule every block with a variable becomes `coef x + const` with `coef > 0`, or
`(a b^(u x + v) + c)/d` with `b > 1`, `a > 0`, `u > 0`, where `x` is the block's own variable.  (Results in other variables, with
two powers, with towers of powers or of higher degree make no exponential rule.) -/
theorem C73_shape {F vars result states r} (h : MadeExp F vars result states r) {i x : Nat} {m : Int}
    (hi : vars[i]? = some (some (x, m))) :
    ∃ q, result[i]? = some q ∧
      ((∃ coef const, 0 < coef ∧ ∀ ρ y, HasValue ρ q y ↔ y = coef * ρ x + const) ∨
       ∃ b a u v c d, 1 < b ∧ 0 < a ∧ 0 < u ∧ 0 < d ∧
        ∀ ρ y, HasValue ρ q y ↔ 0 ≤ u * ρ x + v ∧ d * y = a * b ^ (u * ρ x + v).toNat + c) := by
  obtain ⟨f, q, -, hq, hm, h0⟩ := exp_get h hi
  refine ⟨q, hq, ?_⟩
  have hv := made_value h0 hm
  cases hm with
  | @lin _ coef const _ hs hf =>
    left
    refine ⟨coef, const, ?_, fun ρ y => by simp only [HasValue, (strict_value hs).2]⟩
    unfold Linear.mkFunc at hf
    split at hf
    · omega
    · unfold Mult.new at hf
      split at hf
      · assumption
      · cases hf
  | pow hs hb ha hu hmn =>
    right
    exact ⟨_, _, _, _, _, _, hb, ha, hu, h.denom _ _ _ _ (List.mem_of_getElem? hq), hv⟩

/-- **C73, minima.** The exponential rule has the variables of the rule it was made from, and minima at least as large; so
whenever it applies, the proved rule does, with the same result. -/
theorem C73_minima {F vars result states r} (h : MadeExp F vars result states r) :
    (∀ (i x : Nat) (m : Int), vars[i]? = some (some (x, m)) → ∃ m', r.vars[i]? = some (some (x, m')) ∧ m ≤ m') ∧
    ∀ cs cs', AppliesE r.vars result cs cs' → AppliesE vars result cs cs' := by
  have h1 : ∀ (i x : Nat) (m : Int), vars[i]? = some (some (x, m)) → ∃ m', r.vars[i]? = some (some (x, m')) ∧ m ≤ m' := by
    intro i x m hi
    obtain ⟨f, q, hf, -, hm, h0⟩ := exp_get h hi
    exact ⟨f.min, (vars_get _ _ _ _).mpr ⟨f, hf, rfl⟩, made_min h0 hm⟩
  refine ⟨h1, fun cs cs' ⟨a, b, ρ, c, d⟩ => ⟨by rw [a, (exp_length h).1], b, ρ, fun i x m hi => ?_, fun i hi => d i ((exp_get_none h).mp hi)⟩⟩
  obtain ⟨m', hm', hle⟩ := h1 i x m hi
  obtain ⟨p, q, s⟩ := c i x m' hm'
  exact ⟨p, le_trans hle q, s⟩

/-- **C73, what is not made a rule.** If the first block that changes becomes an expression in which its own variable is missing or
another one occurs, then there is no exponential rule -- the answer is no rule, not an error. -/
theorem C73_refused (F : Floats) (vars : List (Option (Nat × Int))) (result : List R) (states : List Nat) (i x : Nat) (m : Int) (q : R)
    (hi : vars[i]? = some (some (x, m))) (hq : result[i]? = some q) (hfirst : ∀ j < i, vars[j]? = some none)
    (hv : ∃ y, ¬ (y ∈ q.variables ↔ y = x)) : tryGen F vars result states = .fail := by
  have key : ∀ (vars : List (Option (Nat × Int))) (result : List R) (i : Nat), vars[i]? = some (some (x, m)) → result[i]? = some q →
      (∀ j < i, vars[j]? = some none) → genFuncs F vars result = .fail := by
    intro vars
    induction vars with
    | nil => intro result i hi; simp at hi
    | cons v vars ih =>
      intro result i hi hq hf
      cases result with
      | nil => simp at hq
      | cons r result =>
        cases i with
        | zero =>
          simp only [List.getElem?_cons_zero, Option.some.injEq] at hi hq
          subst hi hq
          have : genFunc F x m r = .fail := by
            unfold genFunc
            rw [if_pos]
            intro h
            obtain ⟨y, hy⟩ := hv
            exact hy (by rw [h]; simp)
          rw [genFuncs, this]
        | succ i =>
          have h0 := hf 0 (by omega)
          simp only [List.getElem?_cons_zero, Option.some.injEq] at h0
          subst h0
          rw [genFuncs, ih result i (by simpa using hi) (by simpa using hq) (fun j hj => by simpa using hf (j + 1) (by omega))]
  unfold tryGen
  rw [key vars result i hi hq hfirst]

theorem times_proved {F vars result states r} (h : MadeExp F vars result states r) : ∀ (k : Nat) {cs cs' : List (Option Int)},
    AppliesTimesE r.vars result k cs cs' → AppliesTimesE vars result k cs cs'
  | 0, _, _, h' => h'
  | k + 1, _, _, ⟨mid, h1, h2⟩ => ⟨mid, (C73_minima h).2 _ _ h1, times_proved h k h2⟩

theorem applies_meets {vars result cs cs'} (h : AppliesE vars result cs cs') : MeetsMinima vars cs := by
  obtain ⟨-, -, ρ, h1, -⟩ := h
  intro i x m hi
  obtain ⟨a, b, -⟩ := h1 i x m hi
  exact ⟨_, a, b⟩

/-- where the minima are met, the rule has a result, if it has integer values -/
theorem meets_applies {F vars result states r} (h : MadeExp F vars result states r) (hint : AllIntegers vars result)
    {cs : List (Option Int)} (hl : cs.length = vars.length) (hm : MeetsMinima r.vars cs) :
    ∃ cs', AppliesE r.vars result cs cs' ∧
      ∀ (i x : Nat) (f : EFunc) (c y : Int), r.funcs[i]? = some (some (x, f)) → cs[i]? = some (some c) → cs'[i]? = some (some y) →
        EVal f c y := by
  obtain ⟨ρ, hρ⟩ := exists_assign (cs := cs) (exp_distinct h)
  have hlen := (exp_length h).1
  obtain ⟨cs', hl', hcs'⟩ := list_of_pointwise (α := Option Int) cs.length
    (fun i o => (r.vars[i]? = some none → cs[i]? = some o) ∧
      ∀ (x : Nat) (m : Int), r.vars[i]? = some (some (x, m)) → ∃ q y, result[i]? = some q ∧ HasValue ρ q y ∧ o = some y) (by
    intro i hi
    rcases hv : r.vars[i]? with _ | _ | ⟨x, m⟩
    · rw [List.getElem?_eq_none_iff] at hv; omega
    · exact ⟨cs[i], fun _ => List.getElem?_eq_getElem hi, fun x m hx => by cases hx⟩
    · obtain ⟨f, q, m', hf, hfm, hv', hq, hmd, h0⟩ := exp_get_rule h hv
      obtain ⟨c, hc, hmc⟩ := hm i x m hv
      obtain ⟨ρ', hρ', y, hy⟩ := integers_each h.distinct hint hv' hq c (le_trans (by rw [← hfm]; exact made_min h0 hmd) hmc)
      have hy' : HasValue ρ q y := by
        rw [made_value h0 hmd] at hy ⊢
        rw [hρ i x m c hv hc, ← hρ']
        exact hy
      exact ⟨some y, (fun h => by cases h), fun x' m'' hx => by cases hx; exact ⟨q, y, hq, hy', rfl⟩⟩)
  refine ⟨cs', ⟨by omega, hl', ρ, fun i x m hi => ?_, fun i hi => ?_⟩, ?_⟩
  · obtain ⟨c, hc, hmc⟩ := hm i x m hi
    have hr := hρ i x m c hi hc
    obtain ⟨o, ho, -, ho2⟩ := hcs' i (List.getElem?_eq_some_iff.mp hc).1
    obtain ⟨q, y, hq, hy, rfl⟩ := ho2 x m hi
    exact ⟨by rw [hr]; exact hc, by omega, q, y, hq, hy, ho⟩
  · have := (List.getElem?_eq_some_iff.mp hi).1
    obtain ⟨o, ho, ho1, -⟩ := hcs' i (by omega)
    rw [ho, ho1 hi]
  · intro i x f c y hf hc hy
    have hv : r.vars[i]? = some (some (x, f.min)) := (vars_get _ _ _ _).mpr ⟨f, hf, rfl⟩
    obtain ⟨f', q, m', hf', hfm, hv', hq, hmd, h0⟩ := exp_get_rule h hv
    rw [hf] at hf'
    cases hf'
    obtain ⟨o, ho, -, ho2⟩ := hcs' i (List.getElem?_eq_some_iff.mp hc).1
    obtain ⟨q', y', hq', hy', rfl⟩ := ho2 x _ hv
    rw [hq] at hq'
    cases hq'
    rw [hy] at ho
    cases ho
    rw [made_value h0 hmd, hρ i x _ c hv hc] at hy'
    exact hy'

/-- one turn of the loop -/
theorem loop_step {F vars result states r} (h : MadeExp F vars result states r) {cs next : List (Option Int)} {a : List (Nat × Int)}
    (hl : cs.length = vars.length) (hc : SameConsts vars result cs) (hf : fits r.vars cs [] = .ok a) (hn : nextList a r.result = .ok next) :
    AppliesE r.vars result cs next := by
  obtain ⟨ρ, hρ⟩ := exists_assign (cs := cs) (exp_distinct h)
  have hlen := exp_length h
  obtain ⟨h1, -, h2⟩ := (fits_spec [] (by omega) (exp_distinct h)).1 a hf
  rw [(exp_all h).2.1] at hn
  obtain ⟨h3, h4⟩ := nextList_spec.1 next hn
  refine ⟨by omega, by omega, ρ, fun i x m hi => ?_, fun i hi => ?_⟩
  · obtain ⟨c, hc, hmc⟩ := h1 i x m hi
    have hr := hρ i x m c hi hc
    obtain ⟨f, q, m', hf', hfm, hv', hq, hmd, h0⟩ := exp_get_rule h hi
    obtain ⟨o, ho, hno⟩ := h4 i q hq
    obtain ⟨y, rfl, hy⟩ := (evalR_made h0 hmd (h2 i x m c hi hc)).1 o ho
    exact ⟨by rw [hr]; exact hc, by omega, q, y, hq, (made_value h0 hmd ρ y).mpr (by rw [hr]; exact hy), hno⟩
  · have hcc := hc i ((exp_get_none h).mpr hi)
    have hlt := (List.getElem?_eq_some_iff.mp hi).1
    rw [List.getElem?_eq_getElem (show i < cs.length by omega)] at hcc ⊢
    simp only [Option.map_some] at hcc
    obtain ⟨o, ho, hno⟩ := h4 i _ hcc
    rw [evalR_ofCount] at ho
    cases ho
    exact hno

theorem times_succ {vars result} : ∀ (k : Nat) {cs mid cs' : List (Option Int)}, AppliesTimesE vars result k cs mid →
    AppliesE vars result mid cs' → AppliesTimesE vars result (k + 1) cs cs'
  | 0, cs, mid, cs', h1, h2 => by
    have h1 : mid = cs := h1
    subst h1
    exact ⟨cs', h2, rfl⟩
  | k + 1, cs, mid, cs', ⟨m, h1, h1'⟩, h2 => ⟨m, h1, times_succ k h1' h2⟩

/-- the loop -/
theorem loop_spec {F vars result states r} (h : MadeExp F vars result states r) : ∀ (n : Nat) {cs : List (Option Int)} {b : Bool},
    cs.length = vars.length → SameConsts vars result cs →
    (ExpRule.genLoop r.vars r.result n cs b = .inf → ∃ k mid, AppliesTimesE r.vars result k cs mid ∧ AppliesE r.vars result mid mid) ∧
    (∀ cs' b', ExpRule.genLoop r.vars r.result n cs b = .stop cs' b' → ∃ k, k ≤ n ∧ AppliesTimesE r.vars result k cs cs' ∧
      (k = n ∨ ¬ MeetsMinima r.vars cs') ∧ (b' = (b || decide (0 < k))))
  | n, cs, b, hl, hc => by
    have hlen := exp_length h
    have hfs := fits_spec (vs := r.vars) (cs := cs) [] (by omega) (exp_distinct h)
    unfold ExpRule.genLoop
    cases hf : fits r.vars cs [] with
    | raise => exact ⟨(fun h => by cases h), (fun _ _ h => by cases h)⟩
    | fail =>
      refine ⟨(fun h => by cases h), fun cs' b' h' => ?_⟩
      cases h'
      refine ⟨0, by omega, rfl, .inr (fun hm => ?_), by simp⟩
      obtain ⟨a', ha⟩ := hfs.2 hm
      rw [hf] at ha
      cases ha
    | ok a =>
      simp only
      cases n with
      | zero =>
        refine ⟨(fun h => by cases h), fun cs' b' h' => ?_⟩
        cases h'
        exact ⟨0, by omega, rfl, .inl rfl, by simp⟩
      | succ n =>
        simp only
        cases hn : nextList a r.result with
        | raise => exact ⟨(fun h => by cases h), (fun _ _ h => by cases h)⟩
        | odd => exact ⟨(fun h => by cases h), (fun _ _ h => by cases h)⟩
        | ok next =>
          have hstep := loop_step h hl hc hf hn
          simp only
          by_cases he : next = cs
          · rw [if_pos he]
            subst he
            exact ⟨fun _ => ⟨0, next, rfl, hstep⟩, (fun _ _ h => by cases h)⟩
          · rw [if_neg he]
            obtain ⟨h1, h2⟩ := loop_spec h n (b := true) (by rw [hstep.2.1]; exact hl)
              (sameConsts_step hc ((C73_minima h).2 _ _ hstep))
            refine ⟨fun hi => ?_, fun cs' b' hs => ?_⟩
            · obtain ⟨k, mid, h3, h4⟩ := h1 hi
              exact ⟨k + 1, mid, ⟨next, hstep, h3⟩, h4⟩
            · obtain ⟨k, h3, h4, h5, h6⟩ := h2 cs' b' hs
              refine ⟨k + 1, by omega, ⟨next, hstep, h4⟩, h5.imp (by omega) id, ?_⟩
              rw [h6]; simp

/-- **C73, applies.** If the rule is said not to apply, the minima it requires are not met. -/
theorem C73_fails {F vars result states r} (h : MadeExp F vars result states r) (maxReps : Nat) (t : ChainTape σ Int)
    (hl : (counts t).length = vars.length) (hc : SameConsts vars result (counts t)) (hf : applyExp maxReps r t = .fail) :
    ∀ cs', ¬ AppliesE r.vars result (counts t) cs' := by
  intro cs' ha
  have hlen := exp_length h
  obtain ⟨a, hfit⟩ := (fits_spec (vs := r.vars) (cs := counts t) [] (by omega) (exp_distinct h)).2 (applies_meets ha)
  unfold applyExp at hf
  simp only [show (t.left ++ t.right).map (·.num) = counts t from rfl] at hf
  rw [if_neg (by rw [hl, hlen.1, vars_length]; simp), hfit] at hf
  simp only at hf
  split at hf
  · cases hf
  · split at hf
    · cases hf
    · next hm =>
      split at hf
      · cases hf
      · cases hf
      · cases hf
      · next cs b hg =>
        obtain ⟨k, h1, h2, h3, h4⟩ := (loop_spec h maxReps hl hc).2 _ _ hg
        have hk : k = 0 := by simpa using h4.symm
        subst hk
        rcases h3 with h3 | h3
        · omega
        · have h2 : _ = counts t := h2
          rw [h2] at h3
          exact h3 (applies_meets ha)
      · cases hf

theorem grows_forever {F vars result states r} (h : MadeExp F vars result states r) (hint : AllIntegers vars result)
    (hlog : LogsRight F r) (hinf : r.infinite = true) : ∀ (k : Nat) {cs : List (Option Int)}, cs.length = vars.length →
    MeetsMinima r.vars cs → ∃ cs', AppliesTimesE r.vars result k cs cs'
  | 0, cs, _, _ => ⟨cs, rfl⟩
  | k + 1, cs, hl, hm => by
    obtain ⟨mid, h1, h2⟩ := meets_applies h hint hl hm
    have hm' : MeetsMinima r.vars mid := by
      intro i x m hi
      obtain ⟨f, q, m', hf', hfm, hv', hq, hmd, h0⟩ := exp_get_rule h hi
      obtain ⟨c, hc, hmc⟩ := hm i x m hi
      obtain ⟨-, -, ρ, h3, -⟩ := h1
      obtain ⟨-, -, q', y, -, -, hy⟩ := h3 i x m hi
      refine ⟨y, hy, le_trans hmc ?_⟩
      have hdec : f.isDecreasing = false := by
        unfold ERule.infinite at hinf
        simp only [Bool.not_eq_true', List.any_eq_false] at hinf
        have := hinf (some (x, f)) (List.mem_of_getElem? hf')
        simpa using this
      refine made_grow h0 hmd (fun c hc => ?_) (fun g mn hg => ?_) hdec (by omega) (h2 i x f c y hf' hc hy)
      · obtain ⟨ρ', hρ', y', hy'⟩ := integers_each h.distinct hint hv' hq c hc
        rw [made_value h0 hmd, hρ'] at hy'
        exact ⟨y', hy'⟩
      · subst hg
        refine ⟨?_, hlog i x g mn hf'⟩
        cases hmd
        exact h.denom _ _ _ _ (List.mem_of_getElem? hq)
    obtain ⟨cs', h4⟩ := grows_forever h hint hlog hinf k (by rw [h1.2.1]; exact hl) hm'
    exact ⟨cs', mid, h1, h4⟩

/-- **C73, infinite.** If the rule is said to apply infinitely, it can be applied any number of times in a row, and the states
reported are those of the rule.  Supposed: the proved rule has integer results wherever its minima are met, the logarithms are
computed well enough, and the constant exponents of the tape are those of the rule. -/
theorem C73_infinite_partial {F vars result states r} (h : MadeExp F vars result states r) (hint : AllIntegers vars result)
    (hlog : LogsRight F r) (maxReps : Nat) (t : ChainTape σ Int) (hl : (counts t).length = vars.length)
    (hc : SameConsts vars result (counts t)) {s : List Nat} (hi : applyExp maxReps r t = .ok (.inf s)) :
    (∀ k, ∃ cs', AppliesTimesE vars result k (counts t) cs') ∧ s = states := by
  have hlen := exp_length h
  unfold applyExp at hi
  simp only [show (t.left ++ t.right).map (·.num) = counts t from rfl] at hi
  rw [if_neg (by rw [hl, hlen.1, vars_length]; simp)] at hi
  split at hi
  · cases hi
  · cases hi
  · next a hf =>
    obtain ⟨hm, -, -⟩ := (fits_spec [] (by omega) (exp_distinct h)).1 a hf
    split at hi
    · next hinf =>
      cases hi
      refine ⟨fun k => ?_, (exp_all h).2.2⟩
      obtain ⟨cs', h1⟩ := grows_forever h hint hlog hinf k hl hm
      exact ⟨cs', times_proved h k h1⟩
    · split at hi
      · cases hi
      · split at hi
        · cases hi
        · cases hi
        · next hg =>
          cases hi
          refine ⟨fun k => ?_, (exp_all h).2.2⟩
          obtain ⟨j, mid, h1, h2⟩ := (loop_spec h maxReps hl hc).1 hg
          have h2' := (C73_minima h).2 _ _ h2
          have hrep : ∀ k, AppliesTimesE vars result k mid mid := by
            intro k
            induction k with
            | zero => rfl
            | succ k ih => exact ⟨mid, h2', ih⟩
          have key : ∀ (j : Nat) (cs : List (Option Int)), AppliesTimesE vars result j cs mid →
              ∀ k, ∃ cs', AppliesTimesE vars result k cs cs' := by
            intro j
            induction j with
            | zero => intro cs hcs k; rw [show cs = mid from (show mid = cs from hcs).symm]; exact ⟨mid, hrep k⟩
            | succ j ih =>
              rintro cs ⟨m, h3, h4⟩ k
              cases k with
              | zero => exact ⟨cs, rfl⟩
              | succ k =>
                obtain ⟨cs', h5⟩ := ih m h4 k
                exact ⟨cs', m, h3, h5⟩
          exact key j _ (times_proved h j h1) k
        · cases hi
        · cases hi

theorem steps_add {C : Type} (step : C → Option C) : ∀ (m n : Nat) (c : C),
    stepsOf step (m + n) c = (stepsOf step m c).bind (stepsOf step n)
  | 0, n, c => by simp [stepsOf]
  | m + 1, n, c => by
    rw [Nat.succ_add_eq_add_succ, Nat.add_succ]
    simp only [stepsOf]
    cases step c with
    | none => rfl
    | some d => exact steps_add step m n d

/-- **C73, never halts.** If every application of the proved rule stands for at least one step of a deterministic machine (from
the configuration with the exponents before to that with the exponents after), then a machine in a configuration on which the
rule is said to apply infinitely never stops. -/
theorem C73_never_halts_partial {F vars result states r} (h : MadeExp F vars result states r) (hint : AllIntegers vars result)
    (hlog : LogsRight F r) (maxReps : Nat) (t : ChainTape σ Int) (hl : (counts t).length = vars.length)
    (hc : SameConsts vars result (counts t)) {s : List Nat} (hi : applyExp maxReps r t = .ok (.inf s))
    {C : Type} (step : C → Option C) (conf : List (Option Int) → C)
    (hrule : ∀ cs cs', AppliesE vars result cs cs' → ∃ n, 1 ≤ n ∧ stepsOf step n (conf cs) = some (conf cs')) :
    ∀ n, ∃ c, stepsOf step n (conf (counts t)) = some c := by
  have key : ∀ (k : Nat) (cs cs' : List (Option Int)), AppliesTimesE vars result k cs cs' →
      ∃ n, k ≤ n ∧ stepsOf step n (conf cs) = some (conf cs') := by
    intro k
    induction k with
    | zero => intro cs cs' h'; rw [show cs' = cs from h']; exact ⟨0, le_refl _, rfl⟩
    | succ k ih =>
      rintro cs cs' ⟨mid, h1, h2⟩
      obtain ⟨n, h3, h4⟩ := hrule _ _ h1
      obtain ⟨m, h5, h6⟩ := ih _ _ h2
      exact ⟨n + m, by omega, by rw [steps_add, h4]; exact h6⟩
  intro n
  obtain ⟨cs', h1⟩ := (C73_infinite_partial h hint hlog maxReps t hl hc hi).1 n
  obtain ⟨m, h2, h3⟩ := key n _ _ h1
  rw [show m = n + (m - n) by omega, steps_add] at h3
  cases hs : stepsOf step n (conf (counts t)) with
  | none => rw [hs] at h3; cases h3
  | some c => exact ⟨c, rfl⟩

/-- **C73, finite.** If the rule is applied, the new tape is, without blocks of exponent 0, that of applying it `k` times in a
row, where `1 ≤ k ≤ max_num_reps`, and if `k < max_num_reps` then it cannot be applied once more. -/
theorem C73_applied {F vars result states r} (h : MadeExp F vars result states r) (maxReps : Nat) (t : ChainTape σ Int)
    (hl : (counts t).length = vars.length) (hc : SameConsts vars result (counts t)) {t' : ChainTape σ Int}
    (ha : applyExp maxReps r t = .ok (.apply t')) :
    ∃ t1 k, t' = dropZeros t1 ∧ t1.dir = t.dir ∧ t1.left.map (·.sym) = t.left.map (·.sym) ∧
      t1.right.map (·.sym) = t.right.map (·.sym) ∧ 1 ≤ k ∧ k ≤ maxReps ∧ AppliesTimesE vars result k (counts t) (counts t1) ∧
      (k < maxReps → ∀ cs', ¬ AppliesE r.vars result (counts t1) cs') := by
  have hlen := exp_length h
  unfold applyExp at ha
  simp only [show (t.left ++ t.right).map (·.num) = counts t from rfl] at ha
  rw [if_neg (by rw [hl, hlen.1, vars_length]; simp)] at ha
  split at ha
  · cases ha
  · cases ha
  · split at ha
    · cases ha
    · split at ha
      · cases ha
      · split at ha
        · cases ha
        · cases ha
        · cases ha
        · cases ha
        · next cs hg =>
          cases ha
          obtain ⟨k, h1, h2, h3, h4⟩ := (loop_spec h maxReps hl hc).2 _ _ hg
          have hk : 0 < k := by simpa using h4
          have hcl : cs.length = (counts t).length := by
            have : ∀ (k : Nat) (cs cs' : List (Option Int)), AppliesTimesE r.vars result k cs cs' → cs'.length = cs.length := by
              intro k
              induction k with
              | zero => intro cs cs' h'; rw [show cs' = cs from h']
              | succ k ih => rintro cs cs' ⟨mid, h5, h6⟩; rw [ih _ _ h6, h5.2.1]
            exact this k _ _ h2
          have hll : cs.length = t.left.length + t.right.length := by simpa [counts] using hcl
          refine ⟨{ t with left := Linear.putNums t.left (cs.take t.left.length), right := Linear.putNums t.right (cs.drop t.left.length) },
            k, rfl, rfl, lin_syms_put _ _ (by simp; omega), lin_syms_put _ _ (by simp; omega), hk, h1, ?_, fun hlt cs' hap => ?_⟩
          · rw [lin_counts_put t cs hcl]
            exact times_proved h k h2
          · rw [lin_counts_put t cs hcl] at hap
            rcases h3 with h3 | h3
            · omega
            · exact h3 (applies_meets hap)

/-- Wherever the variables are at least the minima, the exponents of all powers are positive. -/
def PositivePowers (vars : List (Option (Nat × Int))) (result : List R) : Prop :=
  ∀ ρ : Nat → Int, (∀ (i x : Nat) (m : Int), vars[i]? = some (some (x, m)) → m ≤ ρ x) →
    ∀ vs ts c d, R.exp vs ts c d ∈ result → ∀ t ∈ ts, ∃ e, t.exp = some e ∧ 1 ≤ Val.value ρ e

theorem positive_each {vars result} (hd : VarsDistinct vars) (h : PositivePowers vars result) {i x : Nat} {m : Int} {vs b a e c d}
    (hi : vars[i]? = some (some (x, m))) (hr : result[i]? = some (R.exp vs [⟨b, a, some e⟩] c d)) (z : Int) (hz : m ≤ z) :
    ∃ ρ : Nat → Int, ρ x = z ∧ 1 ≤ Val.value ρ e := by
  -- the same choice of the other variables as for the integers
  have key : ∃ ρ : Nat → Int, ρ x = z ∧ ∀ (j y : Nat) (n : Int), vars[j]? = some (some (y, n)) → n ≤ ρ y := by
    have hb : ∀ vs : List (Option (Nat × Int)), ∃ M : Int, ∀ (i x : Nat) (m : Int), vs[i]? = some (some (x, m)) → m ≤ M := by
      intro vs
      induction vs with
      | nil => exact ⟨0, fun i x m h => by simp at h⟩
      | cons a vs ih =>
        obtain ⟨M, hM⟩ := ih
        refine ⟨max M ((a.map (·.2)).getD 0), fun i x m h => ?_⟩
        cases i with
        | zero => simp at h; subst h; simp
        | succ i => exact le_trans (hM i x m (by simpa using h)) (le_max_left _ _)
    obtain ⟨M, hM⟩ := hb vars
    refine ⟨fun y => if y = x then z else M, by simp, fun j y n hj => ?_⟩
    by_cases hy : y = x
    · subst hy
      have := hd i j y m n hi hj
      subst this
      rw [hi] at hj
      simp at hj
      subst hj
      simpa using hz
    · simp only [if_neg hy]
      exact hM j y n hj
  obtain ⟨ρ, h1, h2⟩ := key
  obtain ⟨e', he, hv⟩ := h ρ h2 _ _ _ _ (List.mem_of_getElem? hr) _ (List.mem_singleton.mpr rfl)
  simp only [Option.some.injEq] at he
  subst he
  exact ⟨ρ, h1, hv⟩

theorem next_exists {F vars result states r} (h : MadeExp F vars result states r) (hint : AllIntegers vars result)
    (hpos : PositivePowers vars result) {cs : List (Option Int)} {a : List (Nat × Int)} (hl : cs.length = vars.length)
    (hc : SameConsts vars result cs) (hf : fits r.vars cs [] = .ok a) : ∃ next, nextList a r.result = .ok next := by
  have hlen := exp_length h
  obtain ⟨h1, -, h2⟩ := (fits_spec [] (by omega) (exp_distinct h)).1 a hf
  rw [(exp_all h).2.1]
  apply nextList_spec.2
  intro q hq
  obtain ⟨i, hi, rfl⟩ := List.mem_iff_getElem.mp hq
  rcases hv : r.vars[i]? with _ | _ | ⟨x, m⟩
  · rw [List.getElem?_eq_none_iff] at hv; omega
  · have hcc := hc i ((exp_get_none h).mpr hv)
    rw [List.getElem?_eq_getElem hi, List.getElem?_eq_getElem (show i < cs.length by omega)] at hcc
    simp only [Option.map_some, Option.some.injEq] at hcc
    rw [hcc]
    exact ⟨_, evalR_ofCount a _⟩
  · obtain ⟨f, q, m', hf', hfm, hv', hq', hmd, h0⟩ := exp_get_rule h hv
    obtain ⟨c, hcs, hmc⟩ := h1 i x m hv
    have hle : m' ≤ c := le_trans (by rw [← hfm]; exact made_min h0 hmd) hmc
    obtain ⟨ρ, hρ, y, hy⟩ := integers_each h.distinct hint hv' hq' c hle
    rw [made_value h0 hmd, hρ] at hy
    rw [List.getElem?_eq_getElem hi] at hq'
    cases hq'
    refine ⟨some y, (evalR_made h0 hmd (h2 i x m c hv hcs)).2 y hy (fun g mn hg => ?_)⟩
    subst hg
    have hq'' : result[i]? = some result[i] := List.getElem?_eq_getElem hi
    generalize hres : result[i] = q at hmd hq''
    cases hmd with
    | pow hs hb ha hu hmn =>
      refine ⟨h.denom _ _ _ _ (List.mem_of_getElem? hq''), ?_⟩
      obtain ⟨ρ', hρ', hv''⟩ := positive_each h.distinct hpos hv' hq'' c hle
      rw [(strict_value hs).2, hρ'] at hv''
      exact hv''

theorem loop_total {F vars result states r} (h : MadeExp F vars result states r) (hint : AllIntegers vars result)
    (hpos : PositivePowers vars result) : ∀ (n : Nat) {cs : List (Option Int)} {b : Bool}, cs.length = vars.length →
    SameConsts vars result cs → (∀ (i x : Nat) (m : Int), vars[i]? = some (some (x, m)) → ∃ c, cs[i]? = some (some c)) →
    ExpRule.genLoop r.vars r.result n cs b = .inf ∨ ∃ cs' b', ExpRule.genLoop r.vars r.result n cs b = .stop cs' b'
  | n, cs, b, hl, hc, hfin => by
    have hlen := exp_length h
    unfold ExpRule.genLoop
    cases hf : fits r.vars cs [] with
    | raise =>
      exfalso
      have : ∀ (vs : List (Option (Nat × Int))) (cs : List (Option Int)) (a : List (Nat × Int)), fits vs cs a = .raise →
          ∃ (i x : Nat) (m : Int), vs[i]? = some (some (x, m)) ∧ cs[i]? = some none := by
        intro vs
        induction vs with
        | nil => intro cs a h; simp [fits] at h
        | cons v vs ih =>
          intro cs a h
          cases cs with
          | nil => cases v <;> simp [fits] at h
          | cons c cs =>
            rcases v with _ | ⟨x, m⟩
            · obtain ⟨i, x, m, h1, h2⟩ := ih cs a (by simpa [fits] using h)
              exact ⟨i + 1, x, m, by simpa using h1, by simpa using h2⟩
            · cases c with
              | none => exact ⟨0, x, m, rfl, rfl⟩
              | some c =>
                unfold fits at h
                simp only at h
                split at h
                · obtain ⟨i, x, m, h1, h2⟩ := ih cs _ h
                  exact ⟨i + 1, x, m, by simpa using h1, by simpa using h2⟩
                · cases h
      obtain ⟨i, x, m, h1, h2⟩ := this _ _ _ hf
      obtain ⟨-, -, m', -, -, hv', -⟩ := exp_get_rule h h1
      obtain ⟨c, hcs⟩ := hfin i x m' hv'
      rw [h2] at hcs
      cases hcs
    | fail => exact .inr ⟨cs, b, rfl⟩
    | ok a =>
      simp only
      cases n with
      | zero => exact .inr ⟨cs, b, rfl⟩
      | succ n =>
        obtain ⟨next, hn⟩ := next_exists h hint hpos hl hc hf
        have hstep := loop_step h hl hc hf hn
        simp only [hn]
        by_cases he : next = cs
        · rw [if_pos he]; exact .inl rfl
        · rw [if_neg he]
          refine loop_total h hint hpos n (by rw [hstep.2.1]; exact hl) (sameConsts_step hc ((C73_minima h).2 _ _ hstep))
            (fun i x m hi => ?_)
          obtain ⟨-, -, ρ, h1, -⟩ := (C73_minima h).2 _ _ hstep
          obtain ⟨-, -, -, y, -, -, hy⟩ := h1 i x m hi
          exact ⟨y, hy⟩

/-- **C73, always an answer.** Where the proved rule has integer results and all its powers have positive exponents, applying
the exponential rule raises no exception and leaves integers: it says that the minima are not met, or that the rule applies
infinitely, or it returns a tape. -/
theorem C73_answers_partial {F vars result states r} (h : MadeExp F vars result states r) (hint : AllIntegers vars result)
    (hpos : PositivePowers vars result) {maxReps : Nat} (hmax : 0 < maxReps) (t : ChainTape σ Int)
    (hl : (counts t).length = vars.length) (hc : SameConsts vars result (counts t))
    (hfin : ∀ (i x : Nat) (m : Int), vars[i]? = some (some (x, m)) → ∃ c, (counts t)[i]? = some (some c)) :
    (applyExp maxReps r t = .fail ∧ ¬ MeetsMinima r.vars (counts t)) ∨
    (MeetsMinima r.vars (counts t) ∧ ((∃ s, applyExp maxReps r t = .ok (.inf s)) ∨ ∃ t', applyExp maxReps r t = .ok (.apply t'))) := by
  have hlen := exp_length h
  have hfs := fits_spec (vs := r.vars) (cs := counts t) [] (by omega) (exp_distinct h)
  have hgo := loop_total h hint hpos maxReps (b := false) hl hc hfin
  have hspec := (loop_spec h maxReps (b := false) hl hc).2
  have hraise : fits r.vars (counts t) [] ≠ .raise := by
    intro hf
    unfold ExpRule.genLoop at hgo
    rw [hf] at hgo
    simp at hgo
  unfold applyExp
  simp only [show (t.left ++ t.right).map (·.num) = counts t from rfl]
  rw [if_neg (by rw [hl, hlen.1, vars_length]; simp)]
  cases hf : fits r.vars (counts t) [] with
  | raise => exact absurd hf hraise
  | fail =>
    refine .inl ⟨rfl, fun hm => ?_⟩
    obtain ⟨a, ha⟩ := hfs.2 hm
    rw [hf] at ha
    cases ha
  | ok a =>
    refine .inr ⟨(hfs.1 a hf).1, ?_⟩
    simp only
    split
    · exact .inl ⟨_, rfl⟩
    · rw [if_neg (by omega)]
      rcases hgo with hg | ⟨cs', b', hg⟩
      · rw [hg]; exact .inl ⟨_, rfl⟩
      · obtain ⟨k, h1, h2, h3, h4⟩ := hspec cs' b' hg
        have hk : 0 < k := by
          rcases Nat.eq_zero_or_pos k with rfl | hk
          · rcases h3 with h3 | h3
            · omega
            · rw [show cs' = counts t from h2] at h3
              exact absurd (hfs.1 a hf).1 h3
          · exact hk
        have hb : b' = true := by rw [h4]; simp [hk]
        subst hb
        rw [hg]
        exact .inr ⟨_, rfl⟩

/-! ## Examples -/

/-- the expression `u x + v` -/
def linE (x : Nat) (u v : Int) : V := .expr ⟨[⟨[⟨x, 1⟩], u⟩], v⟩

-- the second of two blocks becomes `x + 1`, where `x` is the variable of a third
example : tryGen ⟨fun _ _ => 0, 5⟩ [none, some (1, 1), some (0, 1)] [.inf, .val (linE 0 1 1), .val (linE 0 1 1)] [0] = .fail :=
  C73_refused _ _ _ _ 1 1 1 (.val (linE 0 1 1)) rfl rfl (by decide) ⟨0, by decide⟩

/-- `y ↦ (2^(2 y + 1) + 1)/3` -/
def expExPow : R := .exp [1] [⟨2, 1, some (linE 1 2 1)⟩] 1 3

/-- the bound at the minimum 1 is `(log2 2 - 1)/2 = 0` -/
def expExF : Floats := ⟨fun _ _ => 0, 5⟩

/-- the rule `x ↦ x - 1` (from 2), `y ↦ (2^(2 y + 1) + 1)/3` (from 1), and a constant block -/
def expExVars : List (Option (Nat × Int)) := [some (0, 2), none, some (1, 1)]
def expExResult : List R := [.val (linE 0 1 (-1)), .val (.num 1), expExPow]
def expExRule : ERule := ⟨[some (0, .lin (.sub ⟨2, 1⟩)), none, some (1, .pow ⟨2, 1, 1, 3, 2, 1⟩ 1)], expExResult, [0, 1]⟩
def expExTape : ChainTape Nat Int := ⟨.L, [⟨1, some 3⟩, ⟨2, some 1⟩], [⟨1, some 1⟩]⟩

theorem expExMade : MadeExp expExF expExVars expExResult [0, 1] expExRule := by
  refine ⟨rfl, ?_, ?_, ?_⟩
  · intro i j x m n hi hj
    rcases i with _ | _ | _ | i <;> rcases j with _ | _ | _ | j <;> simp [expExVars] at hi hj ⊢ <;> omega
  · intro x m h
    simp [expExVars] at h
    omega
  · intro vs ts c d h
    simp [expExResult, expExPow] at h
    omega

theorem linE_value (ρ : Nat → Int) (x : Nat) (u v : Int) : Val.value ρ (linE x u v) = u * ρ x + v := by
  simp [linE, Val.value, Expr.value, Spec.Term.value, monomial]

theorem third (n : Nat) : ∃ y : Int, 3 * y = 2 ^ (2 * n + 1) + 1 := by
  induction n with
  | zero => exact ⟨1, rfl⟩
  | succ n ih =>
    obtain ⟨y, hy⟩ := ih
    refine ⟨4 * y - 1, ?_⟩
    have : (2 : Int) ^ (2 * (n + 1) + 1) = 4 * 2 ^ (2 * n + 1) := by
      rw [show 2 * (n + 1) + 1 = (2 * n + 1) + 2 by ring, pow_add]; ring
    rw [this]; linarith

theorem expPow_value (ρ : Nat → Int) (h : 1 ≤ ρ 1) : ∃ y, HasValue ρ expExPow y := by
  obtain ⟨y, hy⟩ := third (ρ 1).toNat
  refine ⟨y, ?_, ?_⟩
  · intro t ht
    simp only [List.mem_singleton] at ht
    subst ht
    exact ⟨_, rfl, by rw [linE_value]; omega⟩
  · simp only [List.map_cons, List.map_nil, List.sum_cons, List.sum_nil, Option.map_some, Option.getD_some, linE_value]
    rw [hy, show (2 * ρ 1 + 1).toNat = 2 * (ρ 1).toNat + 1 by omega]
    ring

theorem expExIntegers : AllIntegers expExVars expExResult := by
  intro ρ hρ i x m hi q hq
  rcases i with _ | _ | _ | i
  · simp [expExResult] at hq; subst hq; exact ⟨_, rfl⟩
  · simp [expExVars] at hi
  · simp [expExResult] at hq; subst hq
    exact expPow_value ρ (hρ 2 1 1 rfl)
  · simp [expExVars] at hi

theorem expExPositive : PositivePowers expExVars expExResult := by
  intro ρ hρ vs ts c d h t ht
  have h1 := hρ 2 1 1 rfl
  simp [expExResult, expExPow] at h
  obtain ⟨-, rfl, -⟩ := h
  simp only [List.mem_singleton] at ht
  subst ht
  exact ⟨_, rfl, by rw [linE_value]; omega⟩

theorem expExLogs : LogsRight expExF expExRule := by
  intro i x f m hi
  rcases i with _ | _ | _ | i
  · simp [expExRule] at hi
  · simp [expExRule] at hi
  · simp [expExRule] at hi
    obtain ⟨-, rfl, rfl⟩ := hi
    intro _
    decide
  · simp [expExRule] at hi

/-- `3, 1` becomes `2, 3` and `1, 43`; then 1 is below the minimum. -/
example : applyExp 10 expExRule expExTape = .ok (.apply ⟨.L, [⟨1, some 1⟩, ⟨2, some 1⟩], [⟨1, some 43⟩]⟩) := by decide +kernel

/-- with `max_num_reps = 1` it is applied once -/
example : applyExp 1 expExRule expExTape = .ok (.apply ⟨.L, [⟨1, some 2⟩, ⟨2, some 1⟩], [⟨1, some 3⟩]⟩) := by decide +kernel

/-- The rule with the power alone applies infinitely. -/
def expInfRule : ERule := ⟨[some (1, .pow ⟨2, 1, 1, 3, 2, 1⟩ 1)], [expExPow], [0]⟩

theorem expInfMade : MadeExp expExF [some (1, 1)] [expExPow] [0] expInfRule := by
  refine ⟨rfl, ?_, ?_, ?_⟩
  · intro i j x m n hi hj
    rcases i with _ | i <;> rcases j with _ | j <;> simp at hi hj ⊢
  · intro x m h
    simp at h
    omega
  · intro vs ts c d h
    simp [expExPow] at h
    omega

theorem C73_infinite_example :
    applyExp (σ := Nat) 10 expInfRule ⟨.L, [], [⟨1, some 1⟩]⟩ = .ok (.inf [0]) ∧
    ∀ k, ∃ cs', AppliesTimesE [some (1, 1)] [expExPow] k [some 1] cs' := by
  have e : applyExp (σ := Nat) 10 expInfRule ⟨.L, [], [⟨1, some 1⟩]⟩ = .ok (.inf [0]) := by decide +kernel
  refine ⟨e, (C73_infinite_partial expInfMade ?_ ?_ 10 ⟨.L, [], [⟨1, some 1⟩]⟩ rfl ?_ e).1⟩
  · intro ρ hρ i x m hi q hq
    rcases i with _ | i
    · simp at hq; subst hq
      exact expPow_value ρ (hρ 0 1 1 rfl)
    · simp at hi
  · intro i x f m hi
    rcases i with _ | i
    · simp [expInfRule] at hi
      obtain ⟨-, rfl, rfl⟩ := hi
      intro _
      decide
    · simp [expInfRule] at hi
  · intro i hi
    rcases i with _ | i <;> simp at hi

example : ∃ t', applyExp 10 expExRule expExTape = .ok (.apply t') := by
  rcases C73_answers_partial expExMade expExIntegers expExPositive (maxReps := 10) (by decide) expExTape rfl
    (fun i hi => by
      rcases i with _ | _ | _ | i
      · simp [expExVars] at hi
      · rfl
      · simp [expExVars] at hi
      · simp [expExVars] at hi)
    (fun i x m hi => by
      rcases i with _ | _ | _ | i
      · exact ⟨3, rfl⟩
      · simp [expExVars] at hi
      · exact ⟨1, rfl⟩
      · simp [expExVars] at hi) with ⟨-, h⟩ | ⟨-, ⟨s, h⟩ | h⟩
  · exfalso; apply h
    intro i x m hi
    rcases i with _ | _ | _ | i
    · simp [expExRule, ERule.vars, EFunc.min, Linear.Func.min] at hi; exact ⟨3, rfl, by omega⟩
    · simp [expExRule, ERule.vars] at hi
    · simp [expExRule, ERule.vars, EFunc.min] at hi; exact ⟨1, rfl, by omega⟩
    · simp [expExRule, ERule.vars] at hi
  · have : applyExp 10 expExRule expExTape ≠ .ok (.inf s) := by
      rw [show applyExp 10 expExRule expExTape = .ok (.apply ⟨.L, [⟨1, some 1⟩, ⟨2, some 1⟩], [⟨1, some 43⟩]⟩) by decide +kernel]
      simp
    exact absurd h this
  · exact h

/-- Not made exponential rules: a result in another variable, two powers, a tower of powers, a square. -/
example : (tryGen expExF [some (0, 1)] [.exp [1] [⟨2, 1, some (linE 1 1 0)⟩] 0 1] [] matches .fail) ∧
    (tryGen expExF [some (0, 1)] [.exp [0] [⟨2, 1, some (linE 0 2 0)⟩, ⟨2, 1, some (linE 0 1 0)⟩] 0 1] [] matches .fail) ∧
    (tryGen expExF [some (0, 1)] [.exp [0] [⟨2, 1, none⟩] 0 1] [] matches .fail) ∧
    (tryGen expExF [some (0, 1)] [.val (.expr ⟨[⟨[⟨0, 2⟩], 1⟩], 0⟩)] [] matches .fail) := by
  refine ⟨?_, ?_, ?_, ?_⟩ <;> decide +kernel

/-- **C73, the exponent 0.** The rule `x ↦ x - 1`, `y ↦ 2^(y - 1) + 1` (from 1) applies to the exponents 5, 1 and makes them
4, 2; but the code makes the second one `2 / 1`, a `float`. -/
theorem C73_float :
    ∃ r, tryGen ⟨fun _ _ => 0, 5⟩ [some (0, 2), some (1, 1)]
        [.val (linE 0 1 (-1)), .exp [1] [⟨2, 1, some (linE 1 1 (-1))⟩] 1 1] [0] = .ok r ∧
      AppliesE r.vars r.result [some 5, some 1] [some 4, some 2] ∧
      applyExp (σ := Nat) 10 r ⟨.L, [⟨1, some 5⟩], [⟨1, some 1⟩]⟩ = .ok .odd := by
  refine ⟨⟨[some (0, .lin (.sub ⟨2, 1⟩)), some (1, .pow ⟨2, 1, 1, 1, 1, -1⟩ 1)],
    [.val (linE 0 1 (-1)), .exp [1] [⟨2, 1, some (linE 1 1 (-1))⟩] 1 1], [0]⟩, rfl, ⟨rfl, rfl, fun x => if x = 0 then 5 else 1, ?_, ?_⟩,
    by decide +kernel⟩
  · intro i x m hi
    rcases i with _ | _ | i
    · simp [ERule.vars, EFunc.min, Linear.Func.min] at hi
      obtain ⟨rfl, rfl⟩ := hi
      exact ⟨rfl, by decide, _, 4, rfl, by simp [HasValue, linE_value], rfl⟩
    · simp [ERule.vars, EFunc.min] at hi
      obtain ⟨rfl, rfl⟩ := hi
      exact ⟨rfl, by decide, _, 2, rfl, by simp [HasValue, linE_value], rfl⟩
    · simp [ERule.vars] at hi
  · intro i hi
    rcases i with _ | _ | i <;> simp [ERule.vars] at hi

/-- **C73, rounding.** The bound for `x ↦ 3^x + 30 - 3^31` at 31 is `math.log(3**31 + 1, 3)`, which the usual floating point
arithmetic computes as 30.999999999999996, below 31.  Then the minimum is 31 and the rule is said to apply infinitely to 31; but
it makes 30 of it, where it does not apply any more. -/
theorem C73_rounding :
    ∃ r, tryGen ⟨fun _ _ => 30.999999999999996, 5⟩ [some (0, 31)] [.exp [0] [⟨3, 1, some (linE 0 1 0)⟩] (30 - 3 ^ 31) 1] [0] = .ok r ∧
      applyExp (σ := Nat) 10 r ⟨.L, [], [⟨1, some 31⟩]⟩ = .ok (.inf [0]) ∧
      ∀ cs', ¬ AppliesTimesE r.vars r.result 2 [some 31] cs' := by
  refine ⟨⟨[some (0, .pow ⟨3, 1, 30 - 3 ^ 31, 1, 1, 0⟩ 31)], [.exp [0] [⟨3, 1, some (linE 0 1 0)⟩] (30 - 3 ^ 31) 1], [0]⟩, ?_,
    by decide +kernel, ?_⟩
  · have e : Pow.computeMin ⟨3, 1, 30 - 3 ^ 31, 1, 1, 0⟩ (fun _ => (30.999999999999996 : ℚ)) 5 31 = some 31 := by
      unfold Pow.computeMin
      norm_num
    have hp : mkPow ⟨fun _ _ => 30.999999999999996, 5⟩ 31 ⟨3, 1, 30 - 3 ^ 31, 1, 1, 0⟩ = .ok (.pow ⟨3, 1, 30 - 3 ^ 31, 1, 1, 0⟩ 31) := by
      unfold mkPow
      rw [if_pos (by decide)]
      simp only [e]
    have hg : ∀ F, genFunc F 0 31 (.exp [0] [⟨3, 1, some (linE 0 1 0)⟩] (30 - 3 ^ 31) 1) = mkPow F 31 ⟨3, 1, 30 - 3 ^ 31, 1, 1, 0⟩ :=
      fun F => rfl
    simp only [tryGen, genFuncs, hg, hp]
    rfl
  · rintro cs' ⟨mid, ⟨-, -, ρ, h1, -⟩, mid', ⟨-, -, ρ', h2, -⟩, -⟩
    obtain ⟨a, -, q, y, hq, hy, hm⟩ := h1 0 0 31 rfl
    obtain ⟨a', b', -⟩ := h2 0 0 31 rfl
    simp only [List.getElem?_cons_zero, Option.some.injEq] at a hq
    subst hq
    rw [hm] at a'
    simp only [Option.some.injEq] at a'
    have := hy.2
    simp only [List.map_cons, List.map_nil, List.sum_cons, List.sum_nil, Option.map_some, Option.getD_some, linE_value, ← a,
      show ((1 : Int) * 31 + 0).toNat = 31 from rfl] at this
    omega

end Props
