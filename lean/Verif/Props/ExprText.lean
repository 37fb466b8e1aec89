import Verif.Lemmas.ExprText

/-!
# C76: the text of expressions

An expression with integers is printed so that reading the text gives the same expression, and a text of sums and differences with at
most one minus sign, in the last difference, means what it says.  Other texts are refused or, worse, are read as something else; all of
these cases are separated below.
-/

namespace Props
open Model.Expr Model.ExprText Spec

/-! ### What is printed is read back -/

/-- An expression of integers, printed and read, is the same expression. -/
theorem C76_roundtrip (e : Expr Int) (hv : ∀ t ∈ e.terms, t.vars ≠ []) :
    exprOf (reprExpr (ofInts e)) = .ok (asRead e) := roundtrip e hv

private theorem vp_inj : Function.Injective fun v : VarPow => ((v.var : Int), (v.pow : Int)) := by
  rintro ⟨a, b⟩ ⟨c, d⟩ h
  simp only [Prod.mk.injEq, Int.natCast_inj] at h
  rw [h.1, h.2]

private theorem asRead_inj {e e' : Expr Int} (h : asRead e = asRead e') : e = e' := by
  obtain ⟨ts, c⟩ := e
  obtain ⟨ts', c'⟩ := e'
  unfold asRead at h
  simp only [RExpr.mk.injEq] at h
  obtain ⟨h1, h2⟩ := h
  have : Function.Injective fun t : Term Int => (⟨t.vars.map fun v => ((v.var : Int), (v.pow : Int)), t.coef⟩ : RTerm) := by
    rintro ⟨vs, k⟩ ⟨vs', k'⟩ h
    simp only [RTerm.mk.injEq] at h
    rw [List.map_injective_iff.2 vp_inj h.1, h.2]
  rw [List.map_injective_iff.2 this h1, h2]

/-- So expressions of integers that are printed alike are the same. -/
theorem C76_print_inj (e e' : Expr Int) (hv : ∀ t ∈ e.terms, t.vars ≠ []) (hv' : ∀ t ∈ e'.terms, t.vars ≠ [])
    (h : reprExpr (ofInts e) = reprExpr (ofInts e')) : e = e' := by
  have h1 := C76_roundtrip e hv
  rw [h, C76_roundtrip e' hv'] at h1
  exact (asRead_inj (Except.ok.inj h1)).symm

/-- A fraction that is printed makes the text unreadable: a factor other than ±1, or the constant if it is not left out. -/
theorem C76_fraction_refused (e : Expr Scalar) (hv : ∀ t ∈ e.terms, t.vars ≠ [])
    (h : (∃ t ∈ e.terms, ∃ q, t.coef = .frac q ∧ q ≠ 1 ∧ q ≠ -1) ∨ ∃ q, e.const = .frac q ∧ (e.terms = [] ∨ q ≠ 0)) :
    exprOf (reprExpr e) = .error .value := fraction_refused e hv h

/-- Fractions that are not printed (factors ±1, and the constant 0 after terms) come back as integers. -/
theorem C76_fraction_hidden (e : Expr Scalar) (e' : Expr Int) (hv : ∀ t ∈ e.terms, t.vars ≠ [])
    (ht : List.Forall₂ (fun t t' => t'.vars = t.vars ∧ t.coef.val = (t'.coef : Rat)) e.terms e'.terms) (hc : e.const.val = (e'.const : Rat))
    (h1 : ¬ ∃ t ∈ e.terms, ∃ q, t.coef = .frac q ∧ q ≠ 1 ∧ q ≠ -1) (h2 : ¬ ∃ q, e.const = .frac q ∧ (e.terms = [] ∨ q ≠ 0)) :
    exprOf (reprExpr e) = .ok (asRead e') := by
  rw [hidden_eq e e' ht hc h1 h2]
  refine C76_roundtrip e' ?_
  clear hc h1 h2
  have : ∀ {l : List (Term Scalar)} {l' : List (Term Int)},
      List.Forall₂ (fun t t' => t'.vars = t.vars ∧ t.coef.val = (t'.coef : Rat)) l l' → (∀ t ∈ l, t.vars ≠ []) → ∀ t ∈ l', t.vars ≠ [] := by
    intro l l' h
    induction h with
    | nil => intro _ t ht; cases ht
    | cons h _ ih =>
      intro hv t ht
      rcases List.mem_cons.1 ht with rfl | ht
      · rw [h.1]; exact hv _ (by simp)
      · exact ih (fun t ht => hv t (by simp [ht])) t ht
  exact this ht hv

/-- -3 a² <x26> + b - 7 -/
def c76e : Expr Int := ⟨[⟨[⟨0, 2⟩, ⟨26, 1⟩], -3⟩, ⟨[⟨1, 1⟩], 1⟩], -7⟩

example : (∀ t ∈ c76e.terms, t.vars ≠ []) ∧ reprExpr (ofInts c76e) = "(-3 a^2 <x26> + b + -7)".toList ∧
    exprOf "(-3 a^2 <x26> + b + -7)".toList = .ok ⟨[⟨[(0, 2), (26, 1)], -3⟩, ⟨[(1, 1)], 1⟩], -7⟩ := by decide +kernel

/-- a/2, printed with a fraction -/
def c76f : Expr Scalar := ⟨[⟨[⟨0, 1⟩], .frac (1 / 2)⟩], .int 0⟩

example : (∀ t ∈ c76f.terms, t.vars ≠ []) ∧ reprExpr c76f = "(Fraction(1, 2) a)".toList ∧ exprOf (reprExpr c76f) = .error .value := by
  decide +kernel

example : (∃ t ∈ c76f.terms, ∃ q, t.coef = .frac q ∧ q ≠ 1 ∧ q ≠ -1) :=
  ⟨_, List.mem_singleton.2 rfl, 1 / 2, rfl, by decide +kernel, by decide +kernel⟩

/-! ### Sums and differences -/

private theorem constLast_mem {l l' : List (Int × Summand)} (h : ConstLast (l ++ l')) (hne : l' ≠ []) : ∀ p ∈ l, ¬ p.2.isConst := by
  intro p hp
  refine h p ?_
  rw [List.dropLast_append_of_ne_nil hne]
  exact List.mem_append_left _ hp

private theorem signed_ne (d : Diff) : d.signed ≠ [] := by unfold Diff.signed; simp

/-- One minus sign at most, in the last difference: the text means what it says. -/
theorem C76_sum_read (ds : List (Nat × Nat × Diff)) (last : Diff) (hc : ConstLast (ds.flatMap (fun d => d.2.2.signed) ++ last.signed))
    (hm : ∀ d ∈ ds, d.2.2.subs = []) (hs : last.signs ≤ 1) :
    exprOf (sumText ds last) = .ok (meaning (ds.flatMap (fun d => d.2.2.signed) ++ last.signed)) ∧
    exprOf ('(' :: sumText ds last ++ [')']) = .ok (meaning (ds.flatMap (fun d => d.2.2.signed) ++ last.signed)) := by
  obtain ⟨h1, h2⟩ := sum_parts ds last
  rw [h1, h2]
  have := finish_ok (List.rel_append (read_diffs ds hm) (last_one hs)) (by simp [signed_ne]) hc
  exact ⟨this, this⟩

/-- A subtraction before the last plus sign: the text is refused. -/
theorem C76_sum_refused (ds : List (Nat × Nat × Diff)) (last : Diff) (hc : ConstLast (ds.flatMap (fun d => d.2.2.signed) ++ last.signed))
    (hm : ∃ d ∈ ds, d.2.2.subs ≠ []) :
    exprOf (sumText ds last) = .error .value ∧ exprOf ('(' :: sumText ds last ++ [')']) = .error .value := by
  obtain ⟨h1, h2⟩ := sum_parts ds last
  rw [h1, h2]
  have hnc := constLast_mem hc (signed_ne last)
  have : finish (ds.map (fun d => d.2.2.text) ++ lastTerms last.text) = .error .value := by
    obtain ⟨a, d, b, rfl, hd, ha⟩ := first_of ds hm
    have hdh : ¬ d.2.2.head.isConst := by
      have := hnc ((if d.2.2.neg then -1 else 1), d.2.2.head) (List.mem_flatMap.2 ⟨d, by simp, by simp [Diff.signed]⟩)
      exact this
    have e : (a ++ d :: b).map (fun d => d.2.2.text) ++ lastTerms last.text =
        a.map (fun d => d.2.2.text) ++ d.2.2.text :: (b.map (fun d => d.2.2.text) ++ lastTerms last.text) := by simp
    rw [e]
    refine finish_error ?_ (termOf_diff hdh hd) (Or.inr (by simp [lastTerms_ne]))
    intro t ht
    obtain ⟨x, hx, rfl⟩ := List.mem_map.1 ht
    have hxs : x.2.2.subs = [] := by by_contra h; exact ha x hx h
    have e1 : x.2.2.text = signText x.2.2.neg x.2.2.head := by rw [diff_text, hxs]; simp
    rw [e1]
    refine readAs_term (readAs_sign _ _) ?_
    exact hnc ((if x.2.2.neg then -1 else 1), x.2.2.head) (List.mem_flatMap.2 ⟨x, by simp [hx], by simp [Diff.signed]⟩)
  exact ⟨this, this⟩

/-- Two or more minus signs in the last difference, none of them double: the text is read as if they were all not there. -/
theorem C76_sum_lost (ds : List (Nat × Nat × Diff)) (last : Diff) (hc : ConstLast (ds.flatMap (fun d => d.2.2.signed) ++ last.signed))
    (hm : ∀ d ∈ ds, d.2.2.subs = []) (hs : 2 ≤ last.signs) (hd : ∀ s ∈ last.subs, s.2.2.1 = false) :
    exprOf (sumText ds last) = .ok (meaning (ds.flatMap (fun d => d.2.2.signed) ++ last.unsigned)) ∧
    exprOf ('(' :: sumText ds last ++ [')']) = .ok (meaning (ds.flatMap (fun d => d.2.2.signed) ++ last.unsigned)) := by
  obtain ⟨h1, h2⟩ := sum_parts ds last
  rw [h1, h2]
  have hu : last.unsigned.map Prod.snd = last.signed.map Prod.snd := by
    unfold Diff.unsigned Diff.signed
    simp
  have hc' : ConstLast (ds.flatMap (fun d => d.2.2.signed) ++ last.unsigned) := by
    have key : ∀ l l' : List (Int × Summand), l.map Prod.snd = l'.map Prod.snd → ConstLast l → ConstLast l' := by
      intro l l' h hl p hp
      have : p.2 ∈ (l'.dropLast).map Prod.snd := List.mem_map_of_mem hp
      rw [List.map_dropLast, ← h, ← List.map_dropLast] at this
      obtain ⟨q, hq, e⟩ := List.mem_map.1 this
      rw [← e]
      exact hl q hq
    refine key _ _ ?_ hc
    rw [List.map_append, List.map_append, hu]
  have := finish_ok (List.rel_append (read_diffs ds hm) (last_lost hs hd)) (by simp [Diff.unsigned]) hc'
  exact ⟨this, this⟩

/-- A double minus sign in the last difference: an exception, but the wrong one. -/
theorem C76_sum_double (ds : List (Nat × Nat × Diff)) (last : Diff) (hc : ConstLast (ds.flatMap (fun d => d.2.2.signed) ++ last.signed))
    (hm : ∀ d ∈ ds, d.2.2.subs = []) (hd : ∃ s ∈ last.subs, s.2.2.1 = true) :
    exprOf (sumText ds last) = .error .index ∧ exprOf ('(' :: sumText ds last ++ [')']) = .error .index := by
  obtain ⟨h1, h2⟩ := sum_parts ds last
  rw [h1, h2]
  have hnc := constLast_mem hc (signed_ne last)
  have hcl : ConstLast last.signed := by
    intro p hp
    refine hc p ?_
    rw [List.dropLast_append_of_ne_nil (signed_ne last)]
    exact List.mem_append_right _ hp
  obtain ⟨xs, ys, e, hy, hx⟩ := last_double hd hcl
  have : finish (ds.map (fun d => d.2.2.text) ++ lastTerms last.text) = .error .index := by
    rw [e, ← List.append_assoc]
    refine finish_error ?_ rfl (Or.inr hy)
    intro t ht
    rcases List.mem_append.1 ht with ht | ht
    · obtain ⟨x, hx, rfl⟩ := List.mem_map.1 ht
      have hxs := hm x hx
      have e1 : x.2.2.text = signText x.2.2.neg x.2.2.head := by rw [diff_text, hxs]; simp
      rw [e1]
      refine readAs_term (readAs_sign _ _) ?_
      exact hnc ((if x.2.2.neg then -1 else 1), x.2.2.head) (List.mem_flatMap.2 ⟨x, hx, by simp [Diff.signed]⟩)
    · exact hx t ht
  exact ⟨this, this⟩

/-- `a + 2 x^2 y z^13 - 3` -/
def c76ds : List (Nat × Nat × Diff) := [(1, 1, ⟨false, .plain ⟨0, 1⟩ [], []⟩)]
def c76d : Diff := ⟨false, .times 2 ⟨23, 2⟩ [⟨24, 1⟩, ⟨25, 13⟩], [(0, 0, false, .const 3)]⟩

example : sumText c76ds c76d = "a + 2 x^2 y z^13 - 3".toList ∧ (∀ d ∈ c76ds, d.2.2.subs = []) ∧ c76d.signs ≤ 1 ∧
    meaning (c76ds.flatMap (fun d => d.2.2.signed) ++ c76d.signed) = ⟨[⟨[(0, 1)], 1⟩, ⟨[(23, 2), (24, 1), (25, 13)], 2⟩], -3⟩ := by
  decide +kernel

example : ConstLast (c76ds.flatMap (fun d => d.2.2.signed) ++ c76d.signed) := by
  intro p hp
  have : p = (1, .plain ⟨0, 1⟩ []) ∨ p = (1, .times 2 ⟨23, 2⟩ [⟨24, 1⟩, ⟨25, 13⟩]) := by
    simpa [c76ds, c76d, Diff.signed] using hp
  rcases this with rfl | rfl <;> simp [Summand.isConst]

/-- `x - y + 3`, `x - y - 3`, `x - -3` -/
example : sumText [(1, 1, ⟨false, .plain ⟨23, 1⟩ [], [(0, 0, false, .plain ⟨24, 1⟩ [])]⟩)] ⟨false, .const 3, []⟩ = "x - y + 3".toList ∧
    sumText [] ⟨false, .plain ⟨23, 1⟩ [], [(0, 0, false, .plain ⟨24, 1⟩ []), (0, 0, false, .const 3)]⟩ = "x - y - 3".toList ∧
    sumText [] ⟨false, .plain ⟨23, 1⟩ [], [(0, 0, true, .const 3)]⟩ = "x - -3".toList := by decide +kernel

/-! ### Where reading goes wrong -/

/-- The claim for all differences is false: the minus signs get lost. -/
theorem C76_minus_signs_false :
    exprOf "x - y - 3".toList = .ok ⟨[⟨[(23, 1)], 1⟩, ⟨[(24, 1)], 1⟩], 3⟩ ∧
    exprOf "-5 x - 3".toList = .ok ⟨[⟨[(23, 1)], 5⟩], 3⟩ := by decide +kernel

/-- `x - y + 3` is refused, and `x - -3` raises an `IndexError`. -/
theorem C76_minus_refused_false : exprOf "x - y + 3".toList = .error .value ∧ exprOf "x - -3".toList = .error .index := by decide +kernel

/-- Two powers in one word: both are ignored. -/
theorem C76_power_false : exprOf "x^2^3 + 1".toList = .ok ⟨[⟨[(23, 1)], 1⟩], 1⟩ ∧ exprOf "x^2-y^3 + 1".toList = .ok ⟨[⟨[(23, 1)], 1⟩], 1⟩ := by
  decide +kernel

/-- A number that is not last is a term without variables, not part of the constant. -/
theorem C76_constant_first_false : exprOf "3 + x".toList = .ok ⟨[⟨[], 3⟩, ⟨[(23, 1)], 1⟩], 0⟩ := by decide +kernel

/-- A term without variables is printed with a space, or as nothing, and the constant takes its place when it is read. -/
theorem C76_no_variables_false :
    reprExpr (ofInts ⟨[⟨[], 3⟩], 0⟩) = "(3 )".toList ∧ exprOf "(3 )".toList = .ok ⟨[], 3⟩ ∧
    reprExpr (ofInts ⟨[⟨[], 1⟩], 0⟩) = "()".toList ∧ exprOf "()".toList = .error .index := by decide +kernel

end Props
