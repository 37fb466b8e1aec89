import Verif.Spec.ExpRule
import Verif.Lemmas.LinearRule

/-!
# Lemmas on exponential rules
-/

namespace Model.ExpRule
open Spec Model.Expr Model.RuleFunc Model.Prover
open Model.Recursive (strictlyLinear)
open Model.Linear (Func mkFunc)

/-! ## The functions -/

theorem strict_value {v : V} {y : Nat} {coef const : Int} (h : strictlyLinear v = some (y, coef, const)) :
    LinIn (· = y) v ∧ ∀ ρ, Val.value ρ v = coef * ρ y + const := by
  have hv : v.variables = [y] := by
    unfold strictlyLinear at h
    cases v with
    | num => cases h
    | expr e =>
      simp only at h
      split at h
      · next t ht =>
        split at h
        · next vp hvp =>
          split at h
          · cases h; simp [Val.variables, ht, hvp]
          · cases h
        · cases h
      · cases h
  exact ⟨Linear.strictlyLinear_lin hv h, fun ρ => Linear.strictlyLinear_value hv h ρ⟩

/-- how a function comes from a result -/
inductive Made (F : Floats) (x : Nat) (m : Int) : R → EFunc → Prop
  | lin {v coef const f} : strictlyLinear v = some (x, coef, const) → mkFunc m coef const = .ok f → Made F x m (.val v) (.lin f)
  | pow {vs b a e u v const denom mn} : strictlyLinear e = some (x, u, v) → 1 < b → 0 < a → 0 < u →
      Pow.computeMin ⟨b, a, const, denom, u, v⟩ (F.xBound ⟨b, a, const, denom, u, v⟩) F.fuel m = some mn →
      Made F x m (.exp vs [⟨b, a, some e⟩] const denom) (.pow ⟨b, a, const, denom, u, v⟩ mn)

theorem genFunc_made {F x m r f} (h : genFunc F x m r = .ok f) : Made F x m r f := by
  unfold genFunc at h
  split at h
  · cases h
  · split at h
    · cases h
    · next t const denom _ =>
      obtain ⟨b, a, e⟩ := t
      cases e with
      | none => cases h
      | some e =>
        simp only at h
        cases hs : strictlyLinear e with
        | none => rw [hs] at h; cases h
        | some p =>
          obtain ⟨y, u, v⟩ := p
          rw [hs] at h
          simp only at h
          split at h
          · cases h
          · next hy =>
            rw [not_not] at hy
            subst hy
            unfold mkPow at h
            split at h
            · next hp =>
              split at h
              · next mn hm => cases h; exact .pow hs hp.1 hp.2.1 hp.2.2 hm
              · cases h
            · cases h
    · cases h
    · next v _ =>
      cases hs : strictlyLinear v with
      | none => rw [hs] at h; cases h
      | some p =>
        obtain ⟨y, u, c⟩ := p
        rw [hs] at h
        simp only at h
        split at h
        · cases h
        · next hy =>
          rw [not_not] at hy
          subst hy
          split at h
          · cases h
          · next hf => cases h; exact .lin hs hf

/-- the value of a function -/
def EVal : EFunc → Int → Int → Prop
  | .lin f, c, y => y = f.iter 1 c
  | .pow f _, c, y => 0 ≤ f.coefExp * c + f.constExp ∧ Props.Pow.IsValue f c y

theorem made_value {F x m r f} (hm : 0 ≤ m) (h : Made F x m r f) (ρ : Nat → Int) (y : Int) : HasValue ρ r y ↔ EVal f (ρ x) y := by
  cases h with
  | lin hs hf =>
    simp only [HasValue, EVal]
    rw [(strict_value hs).2, Linear.iter_one, (Linear.mkFunc_good hm hf).2]
  | pow hs hb ha hu hmn =>
    simp only [HasValue, EVal, Props.Pow.IsValue, List.mem_singleton, forall_eq, Option.some.injEq, exists_eq_left',
      (strict_value hs).2, List.map_cons, List.map_nil, List.sum_cons, List.sum_nil, add_zero, Option.map_some, Option.getD_some]

theorem computeMin_le (f : Pow) (xB : Int → ℚ) : ∀ (fuel : Nat) (m mn : Int), f.computeMin xB fuel m = some mn → m ≤ mn
  | 0, m, mn, h => by cases h
  | fuel + 1, m, mn, h => by
    unfold Pow.computeMin at h
    split at h
    · cases h; exact le_refl _
    · split at h
      · cases h; exact le_refl _
      · next hx =>
        have := computeMin_le f xB fuel _ mn h
        refine le_trans ?_ this
        rw [not_lt] at hx
        have h2 : (m : ℚ) ≤ (Rat.ceil (xB m) : ℚ) := le_trans hx Rat.le_ceil
        exact_mod_cast h2

theorem made_min {F x m r f} (hm : 0 ≤ m) (h : Made F x m r f) : m ≤ f.min := by
  cases h with
  | lin hs hf => exact (Linear.mkFunc_good hm hf).1.min
  | pow hs hb ha hu hmn => exact computeMin_le _ _ _ _ _ hmn

/-- the floating point bound of a function is right at its minimum -/
def BoundRight (F : Floats) (f : Pow) (m : Int) : Prop :=
  F.xBound f m < m → f.coefBase * f.base ^ (f.coefExp * m + f.constExp).toNat > f.denom * m - f.constBase

theorem made_grow {F x m r f} (hm : 0 ≤ m) (h : Made F x m r f) (hint : ∀ c, m ≤ c → ∃ y, EVal f c y)
    (hden : ∀ g mn, f = .pow g mn → 0 < g.denom ∧ BoundRight F g mn) (hdec : f.isDecreasing = false) {c y : Int}
    (hc : f.min ≤ c) (hy : EVal f c y) : c ≤ y := by
  have hmin := made_min hm h
  cases h with
  | lin hs hf =>
    simp only [EVal] at hy
    rw [hy]
    exact (Linear.mkFunc_good hm hf).1.grow hdec c hc
  | @pow vs b a e u v const denom mn hs hb ha hu hmn =>
    obtain ⟨hd, hbr⟩ := hden _ _ rfl
    simp only [EFunc.min] at hmin hc
    choose! g hg using hint
    have hlt := Props.C55_pow_min_partial ⟨b, a, const, denom, u, v⟩ hb ha hu hd _ _ m mn hmn (hg mn hmin).1 hbr g
      (fun z hz => (hg z (le_trans hmin hz)).2) c hc
    have h1 := (hg c (le_trans hmin hc)).2
    have h2 := hy.2
    unfold Props.Pow.IsValue at h1 h2
    have : y = g c := by
      have := h2.trans h1.symm
      exact mul_left_cancel₀ (ne_of_gt hd) this
    omega

/-! ## The rule -/

/-- the functions of a rule come from the results -/
def AllMade (F : Floats) (vs : List (Option (Nat × Int))) (rs : List R) (fs : List (Option (Nat × EFunc))) : Prop :=
  vs.length = fs.length ∧ rs.length = fs.length ∧ ∀ (i : Nat), i < fs.length →
    (vs[i]? = some none ∧ fs[i]? = some none) ∨
    ∃ x m f r, vs[i]? = some (some (x, m)) ∧ fs[i]? = some (some (x, f)) ∧ rs[i]? = some r ∧ Made F x m r f

theorem genFuncs_made {F} : ∀ {vs rs fs}, genFuncs F vs rs = .ok fs → AllMade F vs rs fs
  | [], [], fs, h => by unfold genFuncs at h; cases h; exact ⟨rfl, rfl, fun i hi => by simp at hi⟩
  | [], _ :: _, fs, h => by unfold genFuncs at h; cases h
  | some _ :: _, [], fs, h => by unfold genFuncs at h; cases h
  | none :: _, [], fs, h => by unfold genFuncs at h; cases h
  | none :: vs, r :: rs, fs, h => by
    unfold genFuncs at h
    cases hg : genFuncs F vs rs with
    | fail => rw [hg] at h; cases h
    | raise => rw [hg] at h; cases h
    | ok l =>
      rw [hg] at h; cases h
      obtain ⟨h1, h2, h3⟩ := genFuncs_made hg
      refine ⟨by simp [h1], by simp [h2], fun i hi => ?_⟩
      cases i with
      | zero => exact .inl ⟨rfl, rfl⟩
      | succ i => simpa using h3 i (by simpa using hi)
  | some (x, m) :: vs, r :: rs, fs, h => by
    unfold genFuncs at h
    cases hf : genFunc F x m r with
    | fail => rw [hf] at h; cases h
    | raise => rw [hf] at h; cases h
    | ok f =>
      rw [hf] at h
      cases hg : genFuncs F vs rs with
      | fail => rw [hg] at h; cases h
      | raise => rw [hg] at h; cases h
      | ok l =>
        rw [hg] at h; cases h
        obtain ⟨h1, h2, h3⟩ := genFuncs_made hg
        refine ⟨by simp [h1], by simp [h2], fun i hi => ?_⟩
        cases i with
        | zero => exact .inr ⟨x, m, f, r, rfl, rfl, rfl, genFunc_made hf⟩
        | succ i => simpa using h3 i (by simpa using hi)

theorem vars_get (r : ERule) (i x : Nat) (m : Int) :
    r.vars[i]? = some (some (x, m)) ↔ ∃ f, r.funcs[i]? = some (some (x, f)) ∧ f.min = m := by
  unfold ERule.vars
  rw [List.getElem?_map]
  rcases r.funcs[i]? with _ | _ | ⟨y, f⟩ <;> simp

theorem vars_none (r : ERule) (i : Nat) : r.vars[i]? = some none ↔ r.funcs[i]? = some none := by
  unfold ERule.vars
  rw [List.getElem?_map]
  rcases r.funcs[i]? with _ | _ | ⟨y, f⟩ <;> simp

theorem vars_length (r : ERule) : r.vars.length = r.funcs.length := by simp [ERule.vars]

/-! ## Assignments -/

theorem dget_dset (d : List (Nat × Int)) (k k' : Nat) (v : Int) :
    Py.dget (Py.dset d k v) k' = if k' = k then some v else Py.dget d k' := by
  induction d with
  | nil =>
    by_cases h : k' = k
    · subst h; simp [Py.dset, Py.dget]
    · simp [Py.dset, Py.dget, h, Ne.symm h]
  | cons e d ih =>
    unfold Py.dset
    by_cases he : e.1 = k
    · rw [if_pos he]
      by_cases h : k' = k
      · subst h; simp [Py.dget]
      · have : e.1 ≠ k' := fun h' => h (h'.symm.trans he)
        simp [Py.dget, h, Ne.symm h, this]
    · rw [if_neg he]
      by_cases h' : e.1 = k'
      · have : k' ≠ k := fun h => he (h'.trans h)
        simp [Py.dget, h', this]
      · have hc : ∀ d' : List (Nat × Int), Py.dget (e :: d') k' = Py.dget d' k' := by
          intro d'; simp [Py.dget, h']
        rw [hc, hc, ih]

theorem distinct_tail {a : Option (Nat × Int)} {vs} (h : VarsDistinct (a :: vs)) : VarsDistinct vs := by
  intro i j x m n hi hj
  have := h (i + 1) (j + 1) x m n (by simpa using hi) (by simpa using hj)
  omega

theorem fits_spec : ∀ {vs : List (Option (Nat × Int))} {cs : List (Option Int)} (a : List (Nat × Int)), cs.length = vs.length →
    VarsDistinct vs →
    (∀ a', fits vs cs a = .ok a' → MeetsMinima vs cs ∧ (∀ x, (∀ (i : Nat) (m : Int), vs[i]? ≠ some (some (x, m))) → Py.dget a' x = Py.dget a x) ∧
      ∀ (i x : Nat) (m c : Int), vs[i]? = some (some (x, m)) → cs[i]? = some (some c) → Py.dget a' x = some c) ∧
    (MeetsMinima vs cs → ∃ a', fits vs cs a = .ok a')
  | [], [], a, _, _ => by
    refine ⟨fun a' h => ?_, fun _ => ⟨a, rfl⟩⟩
    unfold fits at h
    cases h
    exact ⟨fun i x m h => by simp at h, fun _ _ => rfl, fun i x m c h => by simp at h⟩
  | [], _ :: _, _, hl, _ => by cases hl
  | _ :: _, [], _, hl, _ => by cases hl
  | none :: vs, c :: cs, a, hl, hd => by
    obtain ⟨h1, h2⟩ := fits_spec (vs := vs) (cs := cs) a (by simpa using hl) (distinct_tail hd)
    unfold fits
    refine ⟨fun a' h => ?_, fun h => h2 (fun i x m hi => by simpa using h (i + 1) x m (by simpa using hi))⟩
    obtain ⟨h3, h4, h5⟩ := h1 a' h
    refine ⟨fun i x m hi => ?_, fun x hx => h4 x (fun i m hi => hx (i + 1) m (by simpa using hi)), fun i x m c' hi hc => ?_⟩
    · cases i with
      | zero => simp at hi
      | succ i => simpa using h3 i x m (by simpa using hi)
    · cases i with
      | zero => simp at hi
      | succ i => exact h5 i x m c' (by simpa using hi) (by simpa using hc)
  | some (x, m) :: vs, none :: cs, a, hl, hd => by
    unfold fits
    refine ⟨(fun a' h => by cases h), fun h => ?_⟩
    obtain ⟨c, hc, -⟩ := h 0 x m rfl
    simp at hc
  | some (x, m) :: vs, some c :: cs, a, hl, hd => by
    obtain ⟨h1, h2⟩ := fits_spec (vs := vs) (cs := cs) (Py.dset a x c) (by simpa using hl) (distinct_tail hd)
    unfold fits
    simp only
    by_cases hc : c - m ≥ 0
    · rw [if_pos hc]
      refine ⟨fun a' h => ?_, fun h => h2 (fun i x m hi => by simpa using h (i + 1) x m (by simpa using hi))⟩
      obtain ⟨h3, h4, h5⟩ := h1 a' h
      refine ⟨fun i y n hi => ?_, fun y hy => ?_, fun i y n c' hi hc => ?_⟩
      · cases i with
        | zero =>
          simp only [List.getElem?_cons_zero, Option.some.injEq, Prod.mk.injEq] at hi
          obtain ⟨rfl, rfl⟩ := hi
          exact ⟨c, rfl, by omega⟩
        | succ i => simpa using h3 i y n (by simpa using hi)
      · rw [h4 y (fun i m hi => hy (i + 1) m (by simpa using hi)), dget_dset, if_neg]
        rintro rfl
        exact hy 0 m rfl
      · cases i with
        | zero =>
          simp only [List.getElem?_cons_zero, Option.some.injEq, Prod.mk.injEq] at hi hc
          obtain ⟨rfl, rfl⟩ := hi
          subst hc
          rw [h4 x ?_, dget_dset, if_pos rfl]
          intro j n hj
          have := hd 0 (j + 1) x m n rfl (by simpa using hj)
          omega
        | succ i => exact h5 i y n c' (by simpa using hi) (by simpa using hc)
    · rw [if_neg hc]
      refine ⟨(fun a' h => by cases h), fun h => ?_⟩
      obtain ⟨c', hc', hm⟩ := h 0 x m rfl
      simp at hc'
      omega

/-! ## Evaluating the results -/

theorem evalV_lin {v : V} {x : Nat} {coef const : Int} (h : strictlyLinear v = some (x, coef, const)) {a : List (Nat × Int)} {c : Int}
    (ha : Py.dget a x = some c) : evalV a v = .ok (coef * c + const) := by
  obtain ⟨h1, h2⟩ := strict_value h
  obtain ⟨k, hk, hv⟩ := subst_num (subs := fun x => (Py.dget a x).map Val.num) h1 (fun y hy => ⟨c, by
    subst hy; simp [ha]⟩)
  have hk' := hv (fun _ => 0)
  rw [h2] at hk'
  unfold evalV
  rw [hk]
  simp only
  rw [hk']
  simp [substAssign, ha, Val.value]

theorem evalR_made {F x m r f} (hm : 0 ≤ m) (h : Made F x m r f) {a : List (Nat × Int)} {c : Int} (ha : Py.dget a x = some c) :
    (∀ o, evalR a r = .ok o → ∃ y, o = some y ∧ EVal f c y) ∧
    (∀ y, EVal f c y → (∀ g mn, f = .pow g mn → 0 < g.denom ∧ 1 ≤ g.coefExp * c + g.constExp) → evalR a r = .ok (some y)) := by
  cases h with
  | lin hs hf =>
    simp only [evalR, evalV_lin hs ha, EVal]
    rw [Linear.iter_one, (Linear.mkFunc_good hm hf).2]
    exact ⟨fun o h => ⟨_, by cases h; rfl, rfl⟩, fun y h _ => by rw [h]⟩
  | @pow vs b a' e u v const denom mn hs hb ha' hu hmn =>
    simp only [evalR, evalV_lin hs ha, EVal, Props.Pow.IsValue]
    constructor
    · intro o h
      split at h
      · cases h
      · next hn =>
        split at h
        · cases h
        · split at h
          · next hd hq =>
            cases h
            refine ⟨_, rfl, by omega, ?_⟩
            exact Int.mul_ediv_cancel' (Int.dvd_of_emod_eq_zero hq)
          · cases h
    · rintro y ⟨h1, h2⟩ h3
      obtain ⟨hd, h4⟩ := h3 _ _ rfl
      simp only at hd h4
      rw [if_neg (by omega), if_neg (by omega), ← h2]
      rw [if_pos (Int.mul_emod_right denom y), Int.mul_ediv_cancel_left _ (ne_of_gt hd)]

theorem nextList_spec {a : List (Nat × Int)} : ∀ {rs : List R},
    (∀ cs, nextList a rs = .ok cs → cs.length = rs.length ∧ ∀ (i : Nat) r, rs[i]? = some r → ∃ c, evalR a r = .ok c ∧ cs[i]? = some c) ∧
    ((∀ r ∈ rs, ∃ c, evalR a r = .ok c) → ∃ cs, nextList a rs = .ok cs)
  | [] => by
    unfold nextList
    exact ⟨fun cs h => by cases h; exact ⟨rfl, fun i r h => by simp at h⟩, fun _ => ⟨[], rfl⟩⟩
  | r :: rs => by
    obtain ⟨h1, h2⟩ := nextList_spec (a := a) (rs := rs)
    unfold nextList
    constructor
    · intro cs h
      split at h
      · cases h
      · split at h <;> cases h
      · next c hc =>
        split at h
        · next cs' hcs =>
          cases h
          obtain ⟨h3, h4⟩ := h1 cs' hcs
          refine ⟨by simp [h3], fun i r' hi => ?_⟩
          cases i with
          | zero =>
            simp only [List.getElem?_cons_zero, Option.some.injEq] at hi
            subst hi
            exact ⟨c, hc, rfl⟩
          | succ i => simpa using h4 i r' (by simpa using hi)
        · cases h
        · cases h
    · intro h
      obtain ⟨c, hc⟩ := h r (by simp)
      obtain ⟨cs, hcs⟩ := h2 (fun r hr => h r (by simp [hr]))
      rw [hc, hcs]
      exact ⟨_, rfl⟩

/-! ## One application -/

/-- a constant exponent as a result -/
def ofCount : Option Int → R
  | none => .inf
  | some k => .val (.num k)

theorem evalR_ofCount (a : List (Nat × Int)) (c : Option Int) : evalR a (ofCount c) = .ok c := by
  cases c <;> rfl

/-- the exponents without a variable are those of the rule -/
def SameConsts (vars : List (Option (Nat × Int))) (result : List R) (cs : List (Option Int)) : Prop :=
  ∀ i : Nat, vars[i]? = some none → result[i]? = cs[i]?.map ofCount

theorem sameConsts_step {vars result cs cs'} (h : SameConsts vars result cs) (ha : AppliesE vars result cs cs') :
    SameConsts vars result cs' := by
  obtain ⟨-, -, ρ, -, h2⟩ := ha
  intro i hi
  rw [h i hi, h2 i hi]

theorem list_of_pointwise {α : Type} (n : Nat) (P : Nat → α → Prop) (h : ∀ i < n, ∃ a, P i a) :
    ∃ l : List α, l.length = n ∧ ∀ i < n, ∃ a, l[i]? = some a ∧ P i a := by
  induction n with
  | zero => exact ⟨[], rfl, fun i hi => by omega⟩
  | succ n ih =>
    obtain ⟨l, h1, h2⟩ := ih (fun i hi => h i (by omega))
    obtain ⟨a, ha⟩ := h n (by omega)
    refine ⟨l ++ [a], by simp [h1], fun i hi => ?_⟩
    by_cases hn : i = n
    · subst hn
      exact ⟨a, by rw [← h1]; simp, ha⟩
    · obtain ⟨b, hb, hp⟩ := h2 i (by omega)
      exact ⟨b, by rw [List.getElem?_append_left (by omega)]; exact hb, hp⟩

theorem exists_assign {vs : List (Option (Nat × Int))} {cs : List (Option Int)} (hd : VarsDistinct vs) :
    ∃ ρ : Nat → Int, ∀ (i x : Nat) (m c : Int), vs[i]? = some (some (x, m)) → cs[i]? = some (some c) → ρ x = c := by
  classical
  refine ⟨fun x => if h : ∃ (i : Nat) (m c : Int), vs[i]? = some (some (x, m)) ∧ cs[i]? = some (some c) then h.choose_spec.choose_spec.choose else 0,
    fun i x m c hi hc => ?_⟩
  have h : ∃ (i : Nat) (m c : Int), vs[i]? = some (some (x, m)) ∧ cs[i]? = some (some c) := ⟨i, m, c, hi, hc⟩
  simp only [dif_pos h]
  have key : ∀ (i' : Nat) (m' c' : Int), vs[i']? = some (some (x, m')) → cs[i']? = some (some c') → c' = c := by
    intro i' m' c' hi' hc'
    have : i = i' := hd i i' x m m' hi hi'
    subst this
    rw [hc] at hc'
    simpa using hc'.symm
  have h1 := h.choose_spec.choose_spec.choose_spec
  exact key _ _ _ h1.1 h1.2

/-- integrality for each function by itself -/
theorem integers_each {vars result} (hd : VarsDistinct vars) (h : AllIntegers vars result) {i x : Nat} {m : Int} {r : R}
    (hi : vars[i]? = some (some (x, m))) (hr : result[i]? = some r) (c : Int) (hc : m ≤ c) :
    ∃ ρ : Nat → Int, ρ x = c ∧ ∃ y, HasValue ρ r y := by
  have hb : ∀ vs : List (Option (Nat × Int)), ∃ M : Int, ∀ (i x : Nat) (m : Int), vs[i]? = some (some (x, m)) → m ≤ M := by
    intro vs
    induction vs with
    | nil => exact ⟨0, fun i x m h => by simp at h⟩
    | cons a vs ih =>
      obtain ⟨M, hM⟩ := ih
      refine ⟨max M ((a.map (·.2)).getD 0), fun i x m h => ?_⟩
      cases i with
      | zero => simp at h; subst h; simp
      | succ i => exact le_trans (hM i x m (by simpa using h)) (le_max_left _ _)
  obtain ⟨M, hM⟩ := hb vars
  refine ⟨fun y => if y = x then c else M, by simp, h _ (fun j y n hj => ?_) i x m hi r hr⟩
  by_cases hy : y = x
  · subst hy
    have := hd i j y m n hi hj
    subst this
    rw [hi] at hj
    simp at hj
    subst hj
    simpa using hc
  · simp only [if_neg hy]
    exact hM j y n hj

end Model.ExpRule
