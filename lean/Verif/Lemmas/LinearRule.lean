import Verif.Model.LinearRule
import Verif.Spec.LinearRule
import Verif.Props.RuleFunc
import Verif.Lemmas.ProverExpr

/-!
# Lemmas on linear rules
-/

namespace Model.Linear
open Spec Model.Expr Model.RuleFunc Model.Prover
open Model.Recursive (strictlyLinear)
open Props (affineIter affineIter_succ)

/-- factor and constant of a function -/
def Func.lin : Func → Int × Int
  | .sub f => (1, -f.const)
  | .add f => (1, f.const)
  | .mult f => (f.coef, f.const)

def Func.iter (f : Func) (n : Nat) (c : Int) : Int := affineIter f.lin.1 f.lin.2 n c

theorem iter_zero (f : Func) (c : Int) : f.iter 0 c = c := rfl

theorem iter_one (f : Func) (c : Int) : f.iter 1 c = f.lin.1 * c + f.lin.2 := rfl

theorem iter_succ_left (f : Func) (n : Nat) (c : Int) : f.iter (n + 1) c = f.iter n (f.iter 1 c) := rfl

theorem iter_succ (f : Func) (n : Nat) (c : Int) : f.iter (n + 1) c = f.iter 1 (f.iter n c) := by
  unfold Func.iter; rw [affineIter_succ]; rfl

/-- what is known of a function made by the code -/
structure Good (m : Int) (f : Func) : Prop where
  min : m ≤ f.min
  grow : f.isDecreasing = false → ∀ c, f.min ≤ c → c ≤ f.iter 1 c
  drop : ∀ g, f = .sub g → ∀ c, f.min ≤ c → ∃ n : Nat, g.maxReps c = ((n : Int), f.iter n c) ∧ 1 ≤ n ∧ f.iter n c < f.min ∧
    ∀ j < n, f.min ≤ f.iter j c
  rep : ∀ c (n : Nat), n ≠ 0 → (f.lin.1 ≠ 1 → f.iter 1 c ≠ c) → f.applyRep c n = .ok (f.iter n c)
  bad : ∀ c (n : Nat) c', f.applyRep c n = .ok c' → f.iter n c = c'

theorem mkFunc_good {m coef const : Int} {f : Func} (hm : 0 ≤ m) (h : mkFunc m coef const = .ok f) :
    Good m f ∧ f.lin = (coef, const) := by
  unfold mkFunc at h
  split at h
  · next hc =>
    subst hc
    split at h
    · next hneg =>
      cases hs : Subtract.new m (-const) with
      | error => rw [hs] at h; cases h
      | ok g =>
        rw [hs] at h
        cases h
        have hg : g = ⟨m, -const⟩ := by
          unfold Subtract.new at hs; split at hs
          · cases hs; rfl
          · cases hs
        subst hg
        refine ⟨⟨le_refl _, (fun h => by cases h), ?_, ?_, ?_⟩, ?_⟩
        · intro g' hg c hc
          cases hg
          have := Props.C55_max_reps m (-const) c _ hs hc
          simpa only [Func.iter, Func.lin, Func.min] using this
        · intro c n _ _
          simp only [Func.applyRep, Func.iter, Func.lin]
          rw [(Props.C55_linear n c).1]
        · intro c n c' h
          simp only [Func.applyRep, (Props.C55_linear n c).1] at h
          cases h; rfl
        · simp [Func.lin]
    · next hneg =>
      cases hs : Add.new m const with
      | error => rw [hs] at h; cases h
      | ok g =>
        rw [hs] at h
        cases h
        have hg : g = ⟨m, const⟩ := by
          unfold Add.new at hs; split at hs
          · cases hs; rfl
          · cases hs
        subst hg
        refine ⟨⟨le_refl _, ?_, (fun g' hg => by cases hg), ?_, ?_⟩, rfl⟩
        · intro _ c _
          simp only [iter_one, Func.lin]
          omega
        · intro c n _ _
          simp only [Func.applyRep, Func.iter, Func.lin]
          rw [(Props.C55_linear n c).2]
        · intro c n c' h
          simp only [Func.applyRep, (Props.C55_linear n c).2] at h
          cases h; rfl
  · next hc =>
    cases hs : Mult.new m coef const with
    | error => rw [hs] at h; cases h
    | ok g =>
      rw [hs] at h
      cases h
      have hg : g.coef = coef ∧ g.const = const := by
        unfold Mult.new at hs
        split at hs
        · split at hs
          · cases hs
          · cases hs; exact ⟨rfl, rfl⟩
        · cases hs
      have hmin := Props.C55_mult_min m coef const hm g hs
      have hlin : (Func.mult g).lin = (coef, const) := by simp [Func.lin, hg]
      have hrep : ∀ c (n : Nat), n ≠ 0 → (Func.mult g).iter 1 c ≠ c →
          (Func.mult g).applyRep c n = .ok ((Func.mult g).iter n c) := by
        intro c n hn hfix
        simp only [Func.applyRep, Int.toNat_natCast, Func.iter, hlin]
        exact Props.C55_mult_partial m coef const c g hs hc n hn (by simpa [iter_one, hlin] using hfix)
      refine ⟨⟨hmin.1, ?_, (fun g' hg => by cases hg), ?_, ?_⟩, hlin⟩
      · intro _ c hc
        rw [iter_one, hlin]
        exact hmin.2.1 c hc
      · intro c n hn hfix
        exact hrep c n hn (hfix (by rw [hlin]; exact hc))
      · intro c n c' h
        by_cases hn : n = 0
        · subst hn
          simp [Func.applyRep, Mult.applyRep] at h
        · by_cases hfix : (Func.mult g).iter 1 c = c
          · simp only [Func.applyRep, Mult.applyRep, Int.toNat_natCast] at h
            rw [if_neg hn, if_neg (by rw [hg.1]; exact hc), if_pos] at h
            · cases h
            · rw [iter_one, hlin] at hfix
              simp only at hfix
              rw [hg.1, hg.2]
              linarith [mul_comm c (coef - 1), show coef * c + const - c = c * (coef - 1) + const by ring]
          · rw [hrep c n hn hfix] at h
            cases h; rfl

/-! ## The value of a result expression -/

theorem strictlyLinear_value {v : V} {x y : Nat} {coef const : Int} (hv : v.variables = [x])
    (h : strictlyLinear v = some (y, coef, const)) (ρ : Nat → Int) : Val.value ρ v = coef * ρ x + const := by
  unfold strictlyLinear at h
  cases v with
  | num => cases h
  | expr e =>
    simp only at h
    split at h
    · next t ht =>
      split at h
      · next vp hvp =>
        split at h
        · next hp =>
          cases h
          have hx : vp.var = x := by
            simpa [Val.variables, ht, hvp] using hv
          rw [value_expr, value_eq, ht]
          simp [termsValue, Term.value, monomial, hvp, hp, hx]
        · cases h
      · cases h
    · cases h

theorem strictlyLinear_lin {v : V} {x y : Nat} {coef const : Int} (hv : v.variables = [x])
    (h : strictlyLinear v = some (y, coef, const)) : LinIn (· = x) v := by
  unfold strictlyLinear at h
  cases v with
  | num => cases h
  | expr e =>
    simp only at h
    split at h
    · next t ht =>
      split at h
      · next vp hvp =>
        split at h
        · next hp =>
          have hx : vp.var = x := by
            simpa [Val.variables, ht, hvp] using hv
          intro t' ht'
          rw [ht] at ht'
          simp only [List.mem_singleton] at ht'
          subst ht'
          refine ⟨x, ?_, rfl⟩
          rw [hvp]
          cases vp
          simp only at hx hp
          subst hx hp
          rfl
        · cases h
      · cases h
    · cases h

/-! ## The rule on lists of exponents -/

/-- what is known of the functions made by the code -/
inductive Gens : List (Option (Nat × Int)) → List (Option V) → List (Option (Nat × Func)) → Prop
  | nil : Gens [] [] []
  | none {vs rs fs} (r : Option V) : Gens vs rs fs → Gens (none :: vs) (r :: rs) (none :: fs)
  | some {vs rs fs x m v f} : Good m f → (∀ ρ, Val.value ρ v = f.iter 1 (ρ x)) ∧ LinIn (· = x) v → Gens vs rs fs →
      Gens (some (x, m) :: vs) (some v :: rs) (some (x, f) :: fs)

theorem gens_of : ∀ {vs rs fs}, (∀ x m, some (x, m) ∈ vs → 0 ≤ m) → genFuncs vs rs = .ok fs → Gens vs rs fs
  | [], [], fs, _, h => by unfold genFuncs at h; cases h; exact .nil
  | [], _ :: _, fs, _, h => by unfold genFuncs at h; cases h
  | some _ :: _, [], fs, _, h => by unfold genFuncs at h; cases h
  | none :: _, [], fs, _, h => by unfold genFuncs at h; cases h
  | none :: vs, r :: rs, fs, hm, h => by
    unfold genFuncs at h
    cases hg : genFuncs vs rs with
    | ok l =>
      rw [hg] at h; cases h
      exact .none r (gens_of (fun x m hx => hm x m (List.mem_cons_of_mem _ hx)) hg)
    | fail => rw [hg] at h; cases h
    | raise => rw [hg] at h; cases h
  | some (x, m) :: vs, r :: rs, fs, hm, h => by
    unfold genFuncs at h
    cases r with
    | none => cases h
    | some v =>
      simp only at h
      split at h
      · cases h
      · next hv =>
        split at h
        · cases h
        · next y coef const hl =>
          cases hf : mkFunc m coef const with
          | error => rw [hf] at h; cases h
          | ok f =>
            rw [hf] at h
            cases hg : genFuncs vs rs with
            | ok l =>
              rw [hg] at h; cases h
              obtain ⟨g1, g2⟩ := mkFunc_good (hm x m (by simp)) hf
              refine .some g1 ⟨fun ρ => ?_, strictlyLinear_lin (not_not.mp hv) hl⟩
                (gens_of (fun x m hx => hm x m (List.mem_cons_of_mem _ hx)) hg)
              rw [strictlyLinear_value (not_not.mp hv) hl, iter_one, g2]
            | fail => rw [hg] at h; cases h
            | raise => rw [hg] at h; cases h

/-- `k` applications of the functions to the exponents -/
def iterAll (k : Nat) : List (Option (Nat × Func)) → List (Option Int) → List (Option Int)
  | some (_, f) :: fs, some c :: cs => some (f.iter k c) :: iterAll k fs cs
  | _ :: fs, c :: cs => c :: iterAll k fs cs
  | _, cs => cs

/-- all minima are met -/
inductive Fit : List (Option (Nat × Func)) → List (Option Int) → Prop
  | nil : Fit [] []
  | none {fs cs} (c : Option Int) : Fit fs cs → Fit (none :: fs) (c :: cs)
  | some {fs cs x f c} : f.min ≤ c → Fit fs cs → Fit (some (x, f) :: fs) (some c :: cs)

theorem fits_iff : ∀ {fs cs}, cs.length = fs.length → (fits fs cs = .ok () ↔ Fit fs cs)
  | [], [], _ => ⟨fun _ => .nil, fun _ => rfl⟩
  | none :: fs, c :: cs, hl => by
    unfold fits
    rw [fits_iff (by simpa using hl)]
    exact ⟨.none c, fun h => by cases h; assumption⟩
  | some (x, f) :: fs, none :: cs, _ => by
    unfold fits
    exact ⟨(fun h => by cases h), (fun h => by cases h)⟩
  | some (x, f) :: fs, some c :: cs, hl => by
    unfold fits
    simp only
    split
    · next h =>
      rw [fits_iff (by simpa using hl)]
      exact ⟨.some (by omega), fun h => by cases h; assumption⟩
    · next h => exact ⟨(fun h => by cases h), (fun h => by cases h; omega)⟩
  | [], _ :: _, hl => by cases hl
  | _ :: _, [], hl => by cases hl

theorem iterAll_length (k : Nat) : ∀ fs cs, (iterAll k fs cs).length = cs.length
  | [], cs => by cases cs <;> rfl
  | some (x, f) :: fs, some c :: cs => by simp [iterAll, iterAll_length k fs cs]
  | some (x, f) :: fs, none :: cs => by simp [iterAll, iterAll_length k fs cs]
  | none :: fs, c :: cs => by simp [iterAll, iterAll_length k fs cs]
  | _ :: _, [] => by simp [iterAll]

theorem iterAll_zero : ∀ fs cs, iterAll 0 fs cs = cs
  | [], cs => by cases cs <;> rfl
  | some (x, f) :: fs, some c :: cs => by simp [iterAll, iterAll_zero fs cs, iter_zero]
  | some (x, f) :: fs, none :: cs => by simp [iterAll, iterAll_zero fs cs]
  | none :: fs, c :: cs => by simp [iterAll, iterAll_zero fs cs]
  | _ :: _, [] => by simp [iterAll]

theorem iterAll_succ (k : Nat) : ∀ fs cs, iterAll (k + 1) fs cs = iterAll k fs (iterAll 1 fs cs)
  | [], cs => by cases cs <;> rfl
  | some (x, f) :: fs, some c :: cs => by simp [iterAll, iterAll_succ k fs cs, iter_succ_left f k]
  | some (x, f) :: fs, none :: cs => by simp [iterAll, iterAll_succ k fs cs]
  | none :: fs, c :: cs => by simp [iterAll, iterAll_succ k fs cs]
  | _ :: _, [] => by simp [iterAll]

/-! ## The specification in terms of the functions -/

/-- the variables with the minima of the functions -/
def raised (fs : List (Option (Nat × Func))) : List (Option (Nat × Int)) := fs.map (Option.map (fun p => (p.1, p.2.min)))

theorem raised_get (fs : List (Option (Nat × Func))) (i x : Nat) (m : Int) :
    (raised fs)[i]? = some (some (x, m)) ↔ ∃ f, fs[i]? = some (some (x, f)) ∧ f.min = m := by
  unfold raised
  rw [List.getElem?_map]
  rcases fs[i]? with _ | _ | ⟨y, f⟩ <;> simp

theorem raised_none (fs : List (Option (Nat × Func))) (i : Nat) :
    (raised fs)[i]? = some none ↔ fs[i]? = some none := by
  unfold raised
  rw [List.getElem?_map]
  rcases fs[i]? with _ | _ | ⟨y, f⟩ <;> simp

theorem gens_length {vs rs fs} (h : Gens vs rs fs) : vs.length = fs.length ∧ rs.length = fs.length := by
  induction h with
  | nil => exact ⟨rfl, rfl⟩
  | none r h ih => simp [ih]
  | some g e h ih => simp [ih]

theorem gens_get {vs rs fs} (h : Gens vs rs fs) {i x : Nat} {f : Func} (hi : fs[i]? = some (some (x, f))) :
    ∃ m v, vs[i]? = some (some (x, m)) ∧ rs[i]? = some (some v) ∧ Good m f ∧ ∀ ρ, Val.value ρ v = f.iter 1 (ρ x) := by
  induction h generalizing i with
  | nil => simp at hi
  | none r h ih =>
    cases i with
    | zero => simp at hi
    | succ i => simpa using ih (by simpa using hi)
  | some g e h ih =>
    cases i with
    | zero =>
      simp only [List.getElem?_cons_zero, Option.some.injEq, Prod.mk.injEq] at hi
      obtain ⟨rfl, rfl⟩ := hi
      exact ⟨_, _, rfl, rfl, g, e.1⟩
    | succ i => simpa using ih (by simpa using hi)

theorem fit_get {fs cs} (h : Fit fs cs) {i x : Nat} {f : Func} (hi : fs[i]? = some (some (x, f))) :
    ∃ c, cs[i]? = some (some c) ∧ f.min ≤ c := by
  induction h generalizing i with
  | nil => simp at hi
  | none r h ih =>
    cases i with
    | zero => simp at hi
    | succ i => simpa using ih (by simpa using hi)
  | some e h ih =>
    cases i with
    | zero =>
      simp only [List.getElem?_cons_zero, Option.some.injEq, Prod.mk.injEq] at hi
      obtain ⟨rfl, rfl⟩ := hi
      exact ⟨_, rfl, e⟩
    | succ i => simpa using ih (by simpa using hi)

theorem fit_of : ∀ {fs cs}, cs.length = fs.length →
    (∀ (i x : Nat) (f : Func), fs[i]? = some (some (x, f)) → ∃ c, cs[i]? = some (some c) ∧ f.min ≤ c) → Fit fs cs
  | [], [], _, _ => .nil
  | none :: fs, c :: cs, hl, h => .none c (fit_of (by simpa using hl) (fun i x f hi => by simpa using h (i + 1) x f (by simpa using hi)))
  | some (x, f) :: fs, c :: cs, hl, h => by
    obtain ⟨c', hc, hm⟩ := h 0 x f rfl
    simp only [List.getElem?_cons_zero, Option.some.injEq] at hc
    subst hc
    exact .some hm (fit_of (by simpa using hl) (fun i x f hi => by simpa using h (i + 1) x f (by simpa using hi)))
  | [], _ :: _, hl, _ => by cases hl
  | _ :: _, [], hl, _ => by cases hl

theorem iterAll_get (k : Nat) : ∀ {fs cs} {i x : Nat} {f : Func} {c : Int}, fs[i]? = some (some (x, f)) → cs[i]? = some (some c) →
    (iterAll k fs cs)[i]? = some (some (f.iter k c))
  | [], _, i, x, f, c, h, _ => by simp at h
  | _ :: _, [], i, x, f, c, _, h => by simp at h
  | some (y, g) :: fs, some d :: cs, 0, x, f, c, h, h' => by
    simp only [List.getElem?_cons_zero, Option.some.injEq, Prod.mk.injEq] at h h'
    obtain ⟨rfl, rfl⟩ := h
    subst h'
    rfl
  | some (y, g) :: fs, none :: cs, 0, x, f, c, h, h' => by simp at h'
  | none :: fs, d :: cs, 0, x, f, c, h, h' => by simp at h
  | some (y, g) :: fs, some d :: cs, i + 1, x, f, c, h, h' => by
    simpa [iterAll] using iterAll_get k (i := i) (by simpa using h) (by simpa using h')
  | some (y, g) :: fs, none :: cs, i + 1, x, f, c, h, h' => by
    simpa [iterAll] using iterAll_get k (i := i) (by simpa using h) (by simpa using h')
  | none :: fs, d :: cs, i + 1, x, f, c, h, h' => by
    simpa [iterAll] using iterAll_get k (i := i) (by simpa using h) (by simpa using h')

theorem iterAll_none (k : Nat) : ∀ {fs cs} {i : Nat}, fs[i]? = some none → (iterAll k fs cs)[i]? = cs[i]?
  | [], _, i, h => by simp at h
  | _ :: _, [], i, _ => by simp [iterAll]
  | some (y, g) :: fs, d :: cs, 0, h => by simp at h
  | none :: fs, d :: cs, 0, h => by simp [iterAll]
  | some (y, g) :: fs, some d :: cs, i + 1, h => by
    simpa [iterAll] using iterAll_none k (i := i) (by simpa using h)
  | some (y, g) :: fs, none :: cs, i + 1, h => by
    simpa [iterAll] using iterAll_none k (i := i) (by simpa using h)
  | none :: fs, d :: cs, i + 1, h => by
    simpa [iterAll] using iterAll_none k (i := i) (by simpa using h)

/-- one assignment for all blocks -/
theorem exists_assign {fs : List (Option (Nat × Func))} {cs : List (Option Int)} (hd : VarsDistinct (raised fs)) :
    ∃ ρ : Nat → Int, ∀ (i x : Nat) (f : Func) (c : Int), fs[i]? = some (some (x, f)) → cs[i]? = some (some c) → ρ x = c := by
  classical
  refine ⟨fun x => if h : ∃ (i : Nat) (f : Func) (c : Int), fs[i]? = some (some (x, f)) ∧ cs[i]? = some (some c) then h.choose_spec.choose_spec.choose else 0,
    fun i x f c hi hc => ?_⟩
  have h : ∃ (i : Nat) (f : Func) (c : Int), fs[i]? = some (some (x, f)) ∧ cs[i]? = some (some c) := ⟨i, f, c, hi, hc⟩
  simp only [dif_pos h]
  have key : ∀ (i' : Nat) (f' : Func) (c' : Int), fs[i']? = some (some (x, f')) → cs[i']? = some (some c') → c' = c := by
    intro i' f' c' hi' hc'
    have : i = i' := hd i i' x f.min f'.min ((raised_get _ _ _ _).mpr ⟨f, hi, rfl⟩) ((raised_get _ _ _ _).mpr ⟨f', hi', rfl⟩)
    subst this
    rw [hc] at hc'
    simpa using hc'.symm
  have h1 := h.choose_spec.choose_spec.choose_spec
  exact key _ _ _ h1.1 h1.2

theorem applies_iff {vs rs fs} (g : Gens vs rs fs) (hd : VarsDistinct (raised fs)) {cs cs' : List (Option Int)} :
    Applies (raised fs) rs cs cs' ↔ Fit fs cs ∧ cs' = iterAll 1 fs cs := by
  have hlen : (raised fs).length = fs.length := by simp [raised]
  constructor
  · rintro ⟨h1, h2, ρ, h3, h4⟩
    rw [hlen] at h1
    refine ⟨fit_of h1 (fun i x f hi => ?_), ?_⟩
    · obtain ⟨a, b, -⟩ := h3 i x f.min ((raised_get _ _ _ _).mpr ⟨f, hi, rfl⟩)
      exact ⟨_, a, b⟩
    · apply List.ext_getElem?
      intro i
      by_cases hi : i < fs.length
      · rcases hf : fs[i]? with _ | _ | ⟨x, f⟩
        · rw [List.getElem?_eq_none_iff] at hf; omega
        · rw [h4 i ((raised_none _ _).mpr hf), iterAll_none 1 hf]
        · obtain ⟨a, b, v, hv, hv'⟩ := h3 i x f.min ((raised_get _ _ _ _).mpr ⟨f, hf, rfl⟩)
          obtain ⟨m, v', -, hr, -, he⟩ := gens_get g hf
          rw [hv] at hr
          cases hr
          rw [hv', iterAll_get 1 hf a, he]
      · rw [List.getElem?_eq_none (by omega), List.getElem?_eq_none (by rw [iterAll_length]; omega)]
  · rintro ⟨hfit, rfl⟩
    have hl : cs.length = fs.length := by
      clear g hd
      induction hfit with
      | nil => rfl
      | none c h ih => simp [ih (by simp [raised])]
      | some c h ih => simp [ih (by simp [raised])]
    obtain ⟨ρ, hρ⟩ := exists_assign (cs := cs) hd
    refine ⟨by rw [hl, hlen], iterAll_length _ _ _, ρ, fun i x m hi => ?_, fun i hi => ?_⟩
    · obtain ⟨f, hf, rfl⟩ := (raised_get _ _ _ _).mp hi
      obtain ⟨c, hc, hm⟩ := fit_get hfit hf
      have := hρ i x f c hf hc
      obtain ⟨m, v, -, hr, -, he⟩ := gens_get g hf
      rw [this]
      refine ⟨hc, hm, v, hr, ?_⟩
      rw [iterAll_get 1 hf hc, he, this]
    · exact iterAll_none 1 ((raised_none _ _).mp hi)

theorem times_of {vs rs fs} (g : Gens vs rs fs) (hd : VarsDistinct (raised fs)) : ∀ (k : Nat) {cs : List (Option Int)},
    (∀ j < k, Fit fs (iterAll j fs cs)) → AppliesTimes (raised fs) rs k cs (iterAll k fs cs)
  | 0, cs, _ => (iterAll_zero fs cs)
  | k + 1, cs, h => by
    refine ⟨iterAll 1 fs cs, (applies_iff g hd).mpr ⟨?_, rfl⟩, ?_⟩
    · simpa [iterAll_zero] using h 0 (by omega)
    · rw [iterAll_succ k]
      apply times_of g hd k
      intro j hj
      rw [← iterAll_succ]
      exact h (j + 1) (by omega)

theorem fit_length {fs cs} (h : Fit fs cs) : cs.length = fs.length := by
  induction h with
  | nil => rfl
  | none c h ih => simp [ih]
  | some c h ih => simp [ih]

/-- fitting at every time -/
theorem fit_iter {vs rs fs} (g : Gens vs rs fs) {cs : List (Option Int)} (hf : Fit fs cs) (k : Nat)
    (h : ∀ (i x : Nat) (f : Func) (c : Int), fs[i]? = some (some (x, f)) → cs[i]? = some (some c) → f.isDecreasing = true → f.min ≤ f.iter k c) :
    Fit fs (iterAll k fs cs) := by
  refine fit_of (by rw [iterAll_length, fit_length hf]) (fun i x f hi => ?_)
  obtain ⟨c, hc, hm⟩ := fit_get hf hi
  refine ⟨_, iterAll_get k hi hc, ?_⟩
  cases hdec : f.isDecreasing with
  | true => exact h i x f c hi hc hdec
  | false =>
    obtain ⟨m, v, -, -, gd, -⟩ := gens_get g hi
    have : ∀ j, f.min ≤ f.iter j c := by
      intro j
      induction j with
      | zero => exact hm
      | succ j ih => rw [iter_succ]; exact le_trans ih (gd.grow hdec _ ih)
    exact this k

/-! ## The loops -/

/-- the limit found -/
theorem scan_spec {cs0 : List (Option Int)} {fs0 : List (Option (Nat × Func))} : ∀ {fs cs} {i : Nat} {lim : Limit} {vs rs},
    Gens vs rs fs → Fit fs cs → (∀ j : Nat, fs0[i + j]? = fs[j]?) → (∀ j : Nat, cs0[i + j]? = cs[j]?) →
    (∀ r j g, lim = some (r, j, g) → 1 ≤ r) →
    ∃ out, scan i fs cs lim = .ok out ∧
      (out = none → lim = none ∧ ∀ (j x : Nat) (f : Func), fs[j]? = some (some (x, f)) → f.isDecreasing = false) ∧
      (∀ r j g, out = some (r, j, g) → 1 ≤ r ∧ (∀ r' j' g', lim = some (r', j', g') → r ≤ r') ∧
        (∀ (n x : Nat) (f : Subtract) (c : Int), fs[n]? = some (some (x, .sub f)) → cs[n]? = some (some c) → r ≤ (f.maxReps c).1) ∧
        (lim = some (r, j, g) ∨ ∃ (x : Nat) (f : Subtract) (c : Int), fs0[j]? = some (some (x, .sub f)) ∧ cs0[j]? = some (some c) ∧ f.maxReps c = (r, g)))
  | [], [], i, lim, vs, rs, _, _, _, _, hlim => by
    refine ⟨lim, by simp [scan], fun h => ⟨h, by simp⟩, fun r j g h => ⟨hlim r j g h, ?_, by simp, .inl h⟩⟩
    intro r' j' g' h'
    rw [h] at h'; cases h'; exact le_refl _
  | none :: fs, c :: cs, i, lim, vs, rs, g, hf, h1, h2, hlim => by
    cases g with
    | none r g =>
    cases hf with
    | none _ hf =>
    obtain ⟨out, e, a, b⟩ := scan_spec (i := i + 1) (lim := lim) g hf
      (fun j => by simpa [Nat.add_assoc, Nat.add_comm 1] using h1 (j + 1))
      (fun j => by simpa [Nat.add_assoc, Nat.add_comm 1] using h2 (j + 1)) hlim
    refine ⟨out, by simpa [scan] using e, fun h => ⟨(a h).1, fun j x f hj => ?_⟩, fun r j g h => ?_⟩
    · cases j with
      | zero => simp at hj
      | succ j => exact (a h).2 j x f (by simpa using hj)
    · obtain ⟨p, q, s, t⟩ := b r j g h
      refine ⟨p, q, fun n x f c hn hc => ?_, t⟩
      cases n with
      | zero => simp at hn
      | succ n => exact s n x f c (by simpa using hn) (by simpa using hc)
  | some (x, f) :: fs, none :: cs, i, lim, vs, rs, g, hf, h1, h2, hlim => by cases hf
  | some (x, f) :: fs, some c :: cs, i, lim, vs, rs, g, hf, h1, h2, hlim => by
    cases g with
    | some gd ev g =>
    cases hf with
    | some hm hf =>
    have h1' : ∀ j : Nat, fs0[i + 1 + j]? = fs[j]? := fun j => by
      simpa [Nat.add_assoc, Nat.add_comm 1] using h1 (j + 1)
    have h2' : ∀ j : Nat, cs0[i + 1 + j]? = cs[j]? := fun j => by
      simpa [Nat.add_assoc, Nat.add_comm 1] using h2 (j + 1)
    have keep : f.isDecreasing = false → scan i (some (x, f) :: fs) (some c :: cs) lim = scan (i + 1) fs cs lim := by
      intro hd
      cases f with
      | sub => cases hd
      | add => simp [scan]
      | mult => simp [scan]
    cases hdec : f.isDecreasing with
    | false =>
      obtain ⟨out, e, a, b⟩ := scan_spec (i := i + 1) (lim := lim) g hf h1' h2' hlim
      refine ⟨out, by rw [keep hdec]; exact e, fun h => ⟨(a h).1, fun j y f' hj => ?_⟩, fun r j g h => ?_⟩
      · cases j with
        | zero => simp at hj; rw [← hj.2]; exact hdec
        | succ j => exact (a h).2 j y f' (by simpa using hj)
      · obtain ⟨p, q, s, t⟩ := b r j g h
        refine ⟨p, q, fun n y f' c hn hc => ?_, t⟩
        cases n with
        | zero => simp at hn; rw [hn.2] at hdec; cases hdec
        | succ n => exact s n y f' c (by simpa using hn) (by simpa using hc)
    | true =>
      cases f with
      | add => cases hdec
      | mult => cases hdec
      | sub f =>
      obtain ⟨n, hn, n1, -, -⟩ := gd.drop f rfl c hm
      generalize hfin : (Func.sub f).iter n c = fin at hn
      have at0 : fs0[i]? = some (some (x, .sub f)) ∧ cs0[i]? = some (some c) := ⟨by simpa using h1 0, by simpa using h2 0⟩
      -- the new limit
      have main : ∀ lim' : Limit, (∀ r j g, lim' = some (r, j, g) → 1 ≤ r ∧ r ≤ n) → lim' ≠ none →
          (∀ r j g r' j' g', lim' = some (r, j, g) → lim = some (r', j', g') → r ≤ r') →
          (∀ r j g, lim' = some (r, j, g) → lim = some (r, j, g) ∨ (j = i ∧ r = n ∧ g = fin)) →
          scan i (some (x, .sub f) :: fs) (some c :: cs) lim = scan (i + 1) fs cs lim' →
          ∃ out, scan i (some (x, .sub f) :: fs) (some c :: cs) lim = .ok out ∧
            (out = none → lim = none ∧ ∀ (j y : Nat) (f' : Func), (some (x, Func.sub f) :: fs)[j]? = some (some (y, f')) → f'.isDecreasing = false) ∧
            (∀ r j g, out = some (r, j, g) → 1 ≤ r ∧ (∀ r' j' g', lim = some (r', j', g') → r ≤ r') ∧
              (∀ (n y : Nat) (f' : Subtract) (c' : Int), (some (x, Func.sub f) :: fs)[n]? = some (some (y, .sub f')) → (some c :: cs)[n]? = some (some c') →
                r ≤ (f'.maxReps c').1) ∧
              (lim = some (r, j, g) ∨
                ∃ (y : Nat) (f' : Subtract) (c' : Int), fs0[j]? = some (some (y, .sub f')) ∧ cs0[j]? = some (some c') ∧ f'.maxReps c' = (r, g))) := by
        intro lim' hl1 hl2 hl3 hl4 hstep
        obtain ⟨out, e, a, b⟩ := scan_spec (i := i + 1) (lim := lim') g hf h1' h2' (fun r j g h => (hl1 r j g h).1)
        rcases hl' : lim' with _ | ⟨r0, j0, g0⟩
        · exact absurd hl' hl2
        refine ⟨out, by rw [hstep]; exact e, fun h => absurd (a h).1 hl2, fun r j g h => ?_⟩
        obtain ⟨p, q, s, t⟩ := b r j g h
        have hr0 := q r0 j0 g0 hl'
        refine ⟨p, fun r' j' g' h' => le_trans hr0 (hl3 _ _ _ _ _ _ hl' h'), fun k y f' c' hk hc => ?_, ?_⟩
        · cases k with
          | zero =>
            simp only [List.getElem?_cons_zero, Option.some.injEq, Prod.mk.injEq, Func.sub.injEq] at hk hc
            rw [← hk.2, ← hc, hn]
            exact le_trans hr0 (hl1 _ _ _ hl').2
          | succ k => exact s k y f' c' (by simpa using hk) (by simpa using hc)
        · rcases t with t | t
          · rcases hl4 r j g t with h4 | ⟨rfl, rfl, rfl⟩
            · exact .inl h4
            · exact .inr ⟨x, f, c, at0.1, at0.2, by rw [hn]⟩
          · exact .inr t
      cases hlimc : lim with
      | none =>
        rw [hlimc] at main
        apply main (some ((n : Int), i, fin))
        · intro r j g h; cases h; omega
        · simp
        · intro r j g r' j' g' h h'; cases h'
        · intro r j g h; cases h; exact .inr ⟨rfl, rfl, rfl⟩
        · simp [scan, hn]
      | some l =>
        obtain ⟨r0, j0, g0⟩ := l
        have hr0 := hlim r0 j0 g0 hlimc
        rw [hlimc] at main
        by_cases hlt : (n : Int) < r0
        · apply main (some ((n : Int), i, fin))
          · intro r j g h; cases h; omega
          · simp
          · intro r j g r' j' g' h h'; cases h; cases h'; omega
          · intro r j g h; cases h; exact .inr ⟨rfl, rfl, rfl⟩
          · simp [scan, hn, hlt]
        · apply main (some (r0, j0, g0))
          · intro r j g h; cases h; omega
          · simp
          · intro r j g r' j' g' h h'; cases h; cases h'; exact le_refl _
          · intro r j g h; exact .inl h
          · have : r0 ≠ 0 := by omega
            simp [scan, hn, hlt, this]
  | [], _ :: _, _, _, _, _, _, hf, _, _, _ => by cases hf
  | _ :: _, [], _, _, _, _, _, hf, _, _, _ => by cases hf

theorem newCounts_spec {n : Nat} (hn : n ≠ 0) {l : Nat} {fin : Int} : ∀ {fs cs} {i : Nat} {vs rs}, Gens vs rs fs → Fit fs cs →
    (∀ (j x : Nat) (f : Func) (c : Int), i + j = l → fs[j]? = some (some (x, f)) → cs[j]? = some (some c) → fin = f.iter n c) →
    (∀ (j : Nat), i + j = l → j < fs.length → ∃ (x : Nat) (f : Func), fs[j]? = some (some (x, f))) →
    (∀ cs', newCounts n l fin i fs cs = .ok cs' → cs' = iterAll n fs cs) ∧ newCounts n l fin i fs cs ≠ .fail ∧
    ((∀ (j x : Nat) (f : Func) (c : Int), fs[j]? = some (some (x, f)) → cs[j]? = some (some c) → f.lin.1 ≠ 1 → f.iter 1 c ≠ c) →
      newCounts n l fin i fs cs = .ok (iterAll n fs cs))
  | [], [], i, vs, rs, _, _, _, _ => by
    refine ⟨fun cs' h => ?_, by simp [newCounts], fun _ => by simp [newCounts, iterAll]⟩
    simp [newCounts] at h; simp [iterAll, h]
  | none :: fs, c :: cs, i, vs, rs, g, hf, h1, h2 => by
    cases g with
    | none r g =>
    cases hf with
    | none _ hf =>
    obtain ⟨a, b, d⟩ := newCounts_spec hn (l := l) (fin := fin) (i := i + 1) g hf
      (fun j x f c hj hx hc => h1 (j + 1) x f c (by omega) (by simpa using hx) (by simpa using hc))
      (fun j hj hl => by simpa using h2 (j + 1) (by omega) (by simpa using hl))
    have hil : i ≠ l := by
      intro h
      obtain ⟨x, f, h'⟩ := h2 0 (by omega) (by simp)
      simp at h'
    have e : ∀ R, newCounts n l fin (i + 1) fs cs = R → newCounts n l fin i (none :: fs) (c :: cs) =
        (match R with | .raise => .raise | .fail => .fail | .ok rest => .ok (c :: rest)) := by
      intro R hR
      subst hR
      rw [newCounts]
      cases newCounts n l fin (i + 1) fs cs <;> simp [hil]
    refine ⟨fun cs' h => ?_, ?_, fun hfix => ?_⟩
    · rw [e _ rfl] at h
      cases hr : newCounts n l fin (i + 1) fs cs with
      | raise => rw [hr] at h; cases h
      | fail => rw [hr] at h; cases h
      | ok rest => rw [hr] at h; cases h; simp [iterAll, a rest hr]
    · rw [e _ rfl]
      cases hr : newCounts n l fin (i + 1) fs cs with
      | raise => simp
      | fail => exact absurd hr b
      | ok rest => simp
    · rw [e _ (d (fun j x f c hj hc => hfix (j + 1) x f c (by simpa using hj) (by simpa using hc)))]
      simp [iterAll]
  | some (x, f) :: fs, none :: cs, i, vs, rs, g, hf, h1, h2 => by cases hf
  | some (x, f) :: fs, some c :: cs, i, vs, rs, g, hf, h1, h2 => by
    cases g with
    | some gd ev g =>
    cases hf with
    | some hm hf =>
    obtain ⟨a, b, d⟩ := newCounts_spec hn (l := l) (fin := fin) (i := i + 1) g hf
      (fun j x f c hj hx hc => h1 (j + 1) x f c (by omega) (by simpa using hx) (by simpa using hc))
      (fun j hj hl => by simpa using h2 (j + 1) (by omega) (by simpa using hl))
    by_cases hil : i = l
    · have hfin := h1 0 x f c (by omega) rfl rfl
      have e : ∀ R, newCounts n l fin (i + 1) fs cs = R → newCounts n l fin i (some (x, f) :: fs) (some c :: cs) =
          (match R with | .raise => .raise | .fail => .fail | .ok rest => .ok (some fin :: rest)) := by
        intro R hR
        subst hR
        rw [newCounts]
        cases newCounts n l fin (i + 1) fs cs <;> simp [hil]
      refine ⟨fun cs' h => ?_, ?_, fun hfix => ?_⟩
      · rw [e _ rfl] at h
        cases hr : newCounts n l fin (i + 1) fs cs with
        | raise => rw [hr] at h; cases h
        | fail => rw [hr] at h; cases h
        | ok rest => rw [hr] at h; cases h; simp [iterAll, a rest hr, hfin]
      · rw [e _ rfl]
        cases hr : newCounts n l fin (i + 1) fs cs with
        | raise => simp
        | fail => exact absurd hr b
        | ok rest => simp
      · rw [e _ (d (fun j x f c hj hc => hfix (j + 1) x f c (by simpa using hj) (by simpa using hc)))]
        simp [iterAll, hfin]
    · have e : ∀ R, newCounts n l fin (i + 1) fs cs = R → newCounts n l fin i (some (x, f) :: fs) (some c :: cs) =
          (match R with
            | .raise => .raise
            | .fail => .fail
            | .ok rest => match f.applyRep c n with | .error _ => .raise | .ok c => .ok (some c :: rest)) := by
        intro R hR
        subst hR
        rw [newCounts]
        cases newCounts n l fin (i + 1) fs cs <;> simp only [hil, if_false]
        cases f.applyRep c n <;> rfl
      refine ⟨fun cs' h => ?_, ?_, fun hfix => ?_⟩
      · rw [e _ rfl] at h
        cases hr : newCounts n l fin (i + 1) fs cs with
        | raise => rw [hr] at h; cases h
        | fail => rw [hr] at h; cases h
        | ok rest =>
          rw [hr] at h
          simp only at h
          cases hrep : f.applyRep c n with
          | error => rw [hrep] at h; cases h
          | ok c' =>
            rw [hrep] at h
            cases h
            simp [iterAll, a rest hr, gd.bad c n c' hrep]
      · rw [e _ rfl]
        cases hr : newCounts n l fin (i + 1) fs cs with
        | raise => simp
        | fail => exact absurd hr b
        | ok rest => simp only; cases f.applyRep c n <;> simp
      · rw [e _ (d (fun j x f c hj hc => hfix (j + 1) x f c (by simpa using hj) (by simpa using hc)))]
        simp only [gd.rep c n hn (hfix 0 x f c rfl rfl)]
        simp [iterAll]
  | [], _ :: _, _, _, _, _, hf, _, _ => by cases hf
  | _ :: _, [], _, _, _, _, hf, _, _ => by cases hf

/-! ## The general rule -/

open Model.Recursive (fitsMin listEq genApplyLoop)

/-- plain numbers as values -/
def vals (cs : List (Option Int)) : List (Option V) := cs.map (Option.map Val.num)

theorem alwaysGe_num (c m : Int) : alwaysGe (Val.num c) (.num m) = decide (m ≤ c) := by
  simp only [alwaysGe, Val.sub, Val.minVal]
  congr 1
  simp only [eq_iff_iff]
  omega

/-- the constant blocks keep their exponent by the general rule -/
inductive Consts : List (Option (Nat × Func)) → List (Option V) → List (Option Int) → Prop
  | nil : Consts [] [] []
  | none {fs rs cs} (c : Option Int) : Consts fs rs cs → Consts (none :: fs) (c.map Val.num :: rs) (c :: cs)
  | some {fs rs cs p r} (c : Int) : Consts fs rs cs → Consts (some p :: fs) (r :: rs) (some c :: cs)

theorem consts_iter {fs rs cs} (h : Consts fs rs cs) (k : Nat) : Consts fs rs (iterAll k fs cs) := by
  induction h with
  | nil => exact .nil
  | none c h ih => exact .none c ih
  | @some fs rs cs p r c h ih => obtain ⟨x, f⟩ := p; exact .some _ ih

theorem gen_fits {fs rs cs} (h : Consts fs rs cs) : ∀ a, (Fit fs cs ∧ ∃ a', fitsMin (raised fs) (vals cs) a = .ok a' ∧
      ∀ i x f c, fs[i]? = some (some (x, f)) → cs[i]? = some (some c) →
        (∀ (j : Nat) (y : Nat) (g : Func), fs[j]? = some (some (y, g)) → y = x → j = i) → Py.dget a' x = some (.num c)) ∨
    (¬ Fit fs cs ∧ fitsMin (raised fs) (vals cs) a = .fail) := by
  have key : ∀ {fs rs cs}, Consts fs rs cs → ∀ a, (Fit fs cs ∧ ∃ a', fitsMin (raised fs) (vals cs) a = .ok a' ∧
      (∀ x, (∀ (j : Nat) (y : Nat) (g : Func), fs[j]? = some (some (y, g)) → y ≠ x) → Py.dget a' x = Py.dget a x) ∧
      ∀ (i x : Nat) (f : Func) (c : Int), fs[i]? = some (some (x, f)) → cs[i]? = some (some c) →
        (∀ (j : Nat) (y : Nat) (g : Func), fs[j]? = some (some (y, g)) → y = x → j = i) → Py.dget a' x = some (.num c)) ∨
    (¬ Fit fs cs ∧ fitsMin (raised fs) (vals cs) a = .fail) := by
    intro fs rs cs h
    induction h with
    | nil => intro a; exact .inl ⟨.nil, a, rfl, fun _ _ => rfl, by simp⟩
    | @none fs rs cs c h ih =>
      intro a
      have e : fitsMin (raised (none :: fs)) (vals (c :: cs)) a = fitsMin (raised fs) (vals cs) a := rfl
      rw [e]
      rcases ih a with ⟨h1, a', h2, h3, h4⟩ | ⟨h1, h2⟩
      · refine .inl ⟨.none c h1, a', h2, fun x hx => h3 x (fun j y g hj => hx (j + 1) y g (by simpa using hj)), ?_⟩
        intro i x f d hi hd hu
        cases i with
        | zero => simp at hi
        | succ i =>
          refine h4 i x f d (by simpa using hi) (by simpa using hd) (fun j y g hj hy => ?_)
          have := hu (j + 1) y g (by simpa using hj) hy
          omega
      · exact .inr ⟨fun h => h1 (by cases h; assumption), h2⟩
    | @some fs rs cs p r c h ih =>
      intro a
      obtain ⟨x0, f0⟩ := p
      by_cases hm : f0.min ≤ c
      · have e : fitsMin (raised (some (x0, f0) :: fs)) (vals (some c :: cs)) a =
            fitsMin (raised fs) (vals cs) (Py.dset a x0 (.num c)) := by
          show (if alwaysGe (Val.num c) (.num f0.min) then _ else _) = _
          rw [alwaysGe_num, decide_eq_true hm]; rfl
        rw [e]
        rcases ih (Py.dset a x0 (.num c)) with ⟨h1, a', h2, h3, h4⟩ | ⟨h1, h2⟩
        · refine .inl ⟨.some hm h1, a', h2, fun x hx => ?_, ?_⟩
          · rw [h3 x (fun j y g hj => hx (j + 1) y g (by simpa using hj)), Py.dget_dset, if_neg]
            exact fun h => hx 0 x0 f0 rfl h.symm
          · intro i x f d hi hd hu
            cases i with
            | zero =>
              simp only [List.getElem?_cons_zero, Option.some.injEq, Prod.mk.injEq] at hi hd
              obtain ⟨rfl, rfl⟩ := hi
              subst hd
              rw [h3 x0 (fun j y g hj hy => by
                have := hu (j + 1) y g (by simpa using hj) hy
                omega), Py.dget_dset, if_pos rfl]
            | succ i =>
              refine h4 i x f d (by simpa using hi) (by simpa using hd) (fun j y g hj hy => ?_)
              have := hu (j + 1) y g (by simpa using hj) hy
              omega
        · exact .inr ⟨fun h => h1 (by cases h; assumption), h2⟩
      · refine .inr ⟨fun h => by cases h; omega, ?_⟩
        show (if alwaysGe (Val.num c) (.num f0.min) then _ else _) = _
        rw [alwaysGe_num, decide_eq_false hm]; rfl
  intro a
  rcases key h a with ⟨h1, a', h2, -, h4⟩ | h'
  · exact .inl ⟨h1, a', h2, h4⟩
  · exact .inr h'

theorem gen_next {vs rs fs} (g : Gens vs rs fs) : ∀ {cs} {a : List (Nat × V)}, Consts fs rs cs →
    (∀ (i x : Nat) (f : Func) (c : Int), fs[i]? = some (some (x, f)) → cs[i]? = some (some c) → Py.dget a x = some (.num c)) →
    substNums (Py.dget a) rs = some (vals (iterAll 1 fs cs)) := by
  induction g with
  | nil => intro cs a h _; cases h; rfl
  | none r g ih =>
    intro cs a h ha
    cases h with
    | @none _ _ cs c h =>
      have := ih h (a := a) (fun i x f c hi hc => ha (i + 1) x f c (by simpa using hi) (by simpa using hc))
      cases c <;> simp [substNums, this, vals, iterAll, Val.subst]
  | @some vs rs fs x m v f gd ev g ih =>
    intro cs a h ha
    cases h with
    | @some _ _ cs _ _ c h =>
      have := ih h (a := a) (fun i x f c hi hc => ha (i + 1) x f c (by simpa using hi) (by simpa using hc))
      have hx := ha 0 x f c rfl rfl
      obtain ⟨k, hk, hkv⟩ := subst_num (subs := Py.dget a) ev.2 (fun y hy => by rw [hy]; exact ⟨c, hx⟩)
      have hkc : k = f.iter 1 c := by
        rw [hkv (fun _ => 0), ev.1]
        simp [substAssign, hx, Val.value]
      simp [substNums, this, hk, vals, iterAll, hkc]

theorem listEq_vals : ∀ as bs, listEq (vals as) (vals bs) = decide (as = bs)
  | [], [] => rfl
  | [], b :: bs => by cases b <;> simp [listEq, vals]
  | a :: as, [] => by cases a <;> simp [listEq, vals]
  | none :: as, none :: bs => by
    have := listEq_vals as bs
    simp only [vals, List.map_cons, Option.map_none, listEq] at this ⊢
    rw [this]; simp
  | none :: as, some b :: bs => by simp [listEq, vals]
  | some a :: as, none :: bs => by simp [listEq, vals]
  | some a :: as, some b :: bs => by
    have := listEq_vals as bs
    simp only [vals, List.map_cons, Option.map_some, listEq] at this ⊢
    rw [this]; simp [Val.eq]

theorem gen_loop {vs rs fs} (g : Gens vs rs fs) (hd : VarsDistinct (raised fs)) {R : Model.Recursive.GenRule}
    (hv : R.vars = raised fs) (hr : R.result = rs) : ∀ (k : Nat) {cs : List (Option Int)} {fuel : Nat} {w : Model.Recursive.W} {b : Bool},
    Consts fs rs cs → (∀ j < k, Fit fs (iterAll j fs cs)) → ¬ Fit fs (iterAll k fs cs) → k ≤ fuel →
    genApplyLoop R fuel (vals cs) w b = .raise ∨
      ∃ w', genApplyLoop R fuel (vals cs) w b = .ok (.stop (vals (iterAll k fs cs)) w' (b || decide (0 < k)))
  | 0, cs, fuel, w, b, hc, _, hn, _ => by
    rw [iterAll_zero] at hn ⊢
    rcases gen_fits hc [] with ⟨h1, -⟩ | ⟨-, h2⟩
    · exact absurd h1 hn
    · right
      refine ⟨w, ?_⟩
      rw [Model.Recursive.genApplyLoop.eq_def, hv]
      simp only [h2]
      simp
  | k + 1, cs, 0, w, b, _, _, _, hk => by omega
  | k + 1, cs, fuel + 1, w, b, hc, hf, hn, hk => by
    have hf0 : Fit fs cs := by simpa [iterAll_zero] using hf 0 (by omega)
    rcases gen_fits hc [] with ⟨-, a, h1, h2⟩ | ⟨h1, -⟩
    · have hnext := gen_next g (a := a) hc (fun i x f c hi hc' => h2 i x f c hi hc' (fun j y g' hj hy => by
        subst hy
        exact hd j i y g'.min f.min ((raised_get _ _ _ _).mpr ⟨g', hj, rfl⟩) ((raised_get _ _ _ _).mpr ⟨f, hi, rfl⟩)))
      rw [Model.Recursive.genApplyLoop.eq_def, hv]
      simp only [h1]
      cases hw : R.steps.subst (Model.Recursive.subsQ a) with
      | error => left; rfl
      | ok w1 =>
        simp only [hr, hnext]
        have hne : iterAll 1 fs cs ≠ cs := by
          intro he
          apply hn
          have : ∀ j, iterAll j fs cs = cs := by
            intro j
            induction j with
            | zero => exact iterAll_zero _ _
            | succ j ih => rw [iterAll_succ, he, ih]
          rw [this]; exact hf0
        rw [listEq_vals, decide_eq_false hne]
        simp only [Bool.false_eq_true, if_false]
        have := gen_loop g hd hv hr k (cs := iterAll 1 fs cs) (fuel := fuel) (w := w.add w1) (b := true) (consts_iter hc 1)
          (fun j hj => by rw [← iterAll_succ]; exact hf (j + 1) (by omega)) (by rw [← iterAll_succ]; exact hn) (by omega)
        rw [← iterAll_succ] at this
        simpa using this
    · exact absurd hf0 h1

end Model.Linear
