import Verif.Lemmas.LinearRule
import Verif.Lemmas.RecGen

/-!
# C66: applying a linear rule at once (`--exp-linear-rules`)
-/

namespace Props
open Spec Model Model.Expr Model.Prover Model.Linear

variable {σ : Type}

/-- the exponents on the tape, the left half first -/
def counts (t : ChainTape σ Int) : List (Option Int) := (t.left ++ t.right).map (·.num)

/-- the variables of the rule with the minima it requires (`var_list`, `min_list`) -/
def minima (r : LinRule) : List (Option (Nat × Int)) := r.funcs.map (Option.map (fun p => (p.1, p.2.min)))

/-- The rule was made by `Linear_Rule.try_gen` from a proved general rule: different blocks have different variables, no
minimum is negative. -/
structure MadeLinear (vars : List (Option (Nat × Int))) (result : List (Option V)) (states : List Nat) (r : LinRule) : Prop where
  gen : tryGen vars result states = .ok r
  distinct : VarsDistinct vars
  nonneg : ∀ x m, some (x, m) ∈ vars → 0 ≤ m

theorem made_gens {vars result states r} (h : MadeLinear vars result states r) : Gens vars result r.funcs ∧ r.states = states := by
  have h1 := h.gen
  unfold tryGen at h1
  split at h1
  · next l hl => cases h1; exact ⟨gens_of h.nonneg hl, rfl⟩
  · cases h1
  · cases h1

theorem gens_vars {vs rs fs} (h : Gens vs rs fs) (i x : Nat) (m : Int) (hi : vs[i]? = some (some (x, m))) :
    ∃ f, fs[i]? = some (some (x, f)) ∧ Good m f := by
  induction h generalizing i with
  | nil => simp at hi
  | none r h ih =>
    cases i with
    | zero => simp at hi
    | succ i => simpa using ih i (by simpa using hi)
  | some g e h ih =>
    cases i with
    | zero =>
      simp only [List.getElem?_cons_zero, Option.some.injEq, Prod.mk.injEq] at hi
      obtain ⟨rfl, rfl⟩ := hi
      exact ⟨_, rfl, g⟩
    | succ i => simpa using ih i (by simpa using hi)

theorem made_distinct {vars result states r} (h : MadeLinear vars result states r) : VarsDistinct (raised r.funcs) := by
  intro i j x m n hi hj
  obtain ⟨f, hf, -⟩ := (raised_get _ _ _ _).mp hi
  obtain ⟨g, hg, -⟩ := (raised_get _ _ _ _).mp hj
  obtain ⟨m', v, h1, -⟩ := gens_get (made_gens h).1 hf
  obtain ⟨n', w, h2, -⟩ := gens_get (made_gens h).1 hg
  exact h.distinct i j x m' n' h1 h2

theorem minima_eq (r : LinRule) : minima r = raised r.funcs := rfl

/-- **C66, minima.** The linear rule has the variables of the rule it was made from, and minima at least as large; so whenever
the linear rule applies, the proved rule does, with the same result. -/
theorem C66_minima {vars result states r} (h : MadeLinear vars result states r) :
    (∀ (i x : Nat) (m : Int), vars[i]? = some (some (x, m)) → ∃ m', (minima r)[i]? = some (some (x, m')) ∧ m ≤ m') ∧
    ∀ cs cs', Applies (minima r) result cs cs' → Applies vars result cs cs' := by
  have g := (made_gens h).1
  have h1 : ∀ (i x : Nat) (m : Int), vars[i]? = some (some (x, m)) → ∃ m', (minima r)[i]? = some (some (x, m')) ∧ m ≤ m' := by
    intro i x m hi
    obtain ⟨f, hf, gd⟩ := gens_vars g i x m hi
    exact ⟨f.min, (raised_get _ _ _ _).mpr ⟨f, hf, rfl⟩, gd.min⟩
  refine ⟨h1, fun cs cs' ⟨a, b, ρ, c, d⟩ => ⟨?_, b, ρ, fun i x m hi => ?_, fun i hi => ?_⟩⟩
  · rw [a, minima_eq, raised, List.length_map, (gens_length g).1]
  · obtain ⟨m', hm', hle⟩ := h1 i x m hi
    obtain ⟨p, q, s⟩ := c i x m' hm'
    exact ⟨p, le_trans hle q, s⟩
  · apply d i
    rw [minima_eq, raised_none]
    rcases hf : r.funcs[i]? with _ | _ | ⟨x, f⟩
    · rw [List.getElem?_eq_none_iff] at hf
      have := (List.getElem?_eq_some_iff.mp hi).1
      rw [(gens_length g).1] at this
      omega
    · rfl
    · obtain ⟨m, v, h1, -⟩ := gens_get g hf
      rw [h1] at hi; cases hi

theorem lin_counts_put (t : ChainTape σ Int) (cs : List (Option Int)) (h : cs.length = (counts t).length) :
    counts { t with left := putNums t.left (cs.take t.left.length), right := putNums t.right (cs.drop t.left.length) } = cs := by
  have hl : cs.length = t.left.length + t.right.length := by simpa [counts] using h
  have key : ∀ (bs : List (Blk σ Int)) (ds : List (Option Int)), ds.length = bs.length → (putNums bs ds).map (·.num) = ds := by
    intro bs
    induction bs with
    | nil => intro ds hd; simp at hd; simp [putNums, hd]
    | cons b bs ih =>
      intro ds hd
      cases ds with
      | nil => simp at hd
      | cons d ds =>
        have := ih ds (by simpa using hd)
        unfold putNums at this ⊢
        simp [this]
  unfold counts
  rw [List.map_append]
  simp only
  rw [key _ _ (by simp; omega), key _ _ (by simp; omega), List.take_append_drop]

theorem lin_syms_put (bs : List (Blk σ Int)) : ∀ (ds : List (Option Int)), ds.length = bs.length →
    (putNums bs ds).map (·.sym) = bs.map (·.sym) := by
  induction bs with
  | nil => intro ds hd; simp at hd; simp [putNums]
  | cons b bs ih =>
    intro ds hd
    cases ds with
    | nil => simp at hd
    | cons d ds =>
      have := ih ds (by simpa using hd)
      unfold putNums at this ⊢
      simp [this]

/-- everything about one call -/
theorem linear_gens {vars result states} {r : LinRule} (g : Gens vars result r.funcs) (hs : r.states = states) (meta' : Bool)
    (t : ChainTape σ Int) (hl : (counts t).length = vars.length) :
    (applyLinear meta' r t = .fail → ¬ Fit r.funcs (counts t)) ∧
    (∀ s b, applyLinear meta' r t = .ok (.inf s b) → Fit r.funcs (counts t) ∧ s = states ∧ r.infinite = true) ∧
    (∀ t' b, applyLinear meta' r t = .ok (.apply t' b) → ∃ k : Nat, 1 ≤ k ∧ (∀ j < k, Fit r.funcs (iterAll j r.funcs (counts t))) ∧
      ¬ Fit r.funcs (iterAll k r.funcs (counts t)) ∧ counts t' = iterAll k r.funcs (counts t) ∧ t'.dir = t.dir ∧
      t'.left.map (·.sym) = t.left.map (·.sym) ∧ t'.right.map (·.sym) = t.right.map (·.sym)) ∧
    (applyLinear meta' r t = .raise → Fit r.funcs (counts t) →
      ∃ (i x : Nat) (f : Func) (c : Int), r.funcs[i]? = some (some (x, f)) ∧ (counts t)[i]? = some (some c) ∧ f.lin.1 ≠ 1 ∧
        f.iter 1 c = c) := by
  have hlen : (counts t).length = r.funcs.length := by rw [hl, (gens_length g).1]
  have hfits := fits_iff hlen
  unfold applyLinear
  simp only
  rw [show (t.left ++ t.right).map (·.num) = counts t from rfl]
  rw [if_neg (by omega)]
  cases hf : fits r.funcs (counts t) with
  | raise =>
    rw [hf] at hfits
    refine ⟨(fun h => by cases h), (fun _ _ h => by cases h), (fun _ _ h => by cases h), fun _ h => ?_⟩
    have := hfits.mpr h
    cases this
  | fail =>
    rw [hf] at hfits
    refine ⟨fun _ h => ?_, (fun _ _ h => by cases h), (fun _ _ h => by cases h), (fun h => by cases h)⟩
    have := hfits.mpr h
    cases this
  | ok u =>
    rw [hf] at hfits
    have fit := hfits.mp rfl
    simp only
    by_cases hinf : r.infinite = true
    · rw [if_pos hinf]
      refine ⟨(fun h => by cases h), fun s b h => ?_, (fun _ _ h => by cases h), (fun h => by cases h)⟩
      cases h
      exact ⟨fit, hs, hinf⟩
    · rw [if_neg hinf]
      obtain ⟨out, e, a, b⟩ := scan_spec (fs0 := r.funcs) (cs0 := counts t) (i := 0) (lim := none) g fit (fun j => by simp)
        (fun j => by simp) (fun _ _ _ h => by cases h)
      rw [e]
      cases out with
      | none =>
        exfalso
        apply hinf
        unfold LinRule.infinite
        simp only [Bool.not_eq_true', List.any_eq_false]
        intro f hf
        obtain ⟨i, hi, hfi⟩ := List.mem_iff_getElem.mp hf
        rcases f with _ | ⟨x, f⟩
        · simp
        · have := (a rfl).2 i x f (by rw [List.getElem?_eq_getElem hi, hfi])
          simp [this]
      | some l =>
        obtain ⟨reps, lim, fin⟩ := l
        obtain ⟨p, -, q, hat⟩ := b reps lim fin rfl
        rcases hat with hat | ⟨x, f, c, hx, hc, hmax⟩
        · cases hat
        obtain ⟨m, v, -, -, gd, -⟩ := gens_get g hx
        obtain ⟨c', hc', hmin⟩ := fit_get fit hx
        rw [hc] at hc'
        cases hc'
        obtain ⟨n, hn, n1, nlt, nge⟩ := gd.drop f rfl c hmin
        rw [hmax] at hn
        obtain ⟨rfl, rfl⟩ := Prod.mk.inj hn
        simp only
        rw [if_neg (by omega)]
        obtain ⟨ha, hb, hd⟩ := newCounts_spec (n := n) (by omega) (l := lim) (fin := (Func.sub f).iter n c) (i := 0) g fit
          (fun j y f' d hj hy hd => by
            have : j = lim := by omega
            subst this
            rw [hx] at hy; rw [hc] at hd
            cases hy; cases hd; rfl)
          (fun j hj _ => by
            have : j = lim := by omega
            subst this
            exact ⟨x, _, hx⟩)
        cases hr : newCounts (↑n) lim ((Func.sub f).iter n c) 0 r.funcs (counts t) with
        | fail => exact absurd hr hb
        | raise =>
          refine ⟨(fun h => by cases h), (fun _ _ h => by cases h), (fun _ _ h => by cases h), fun _ _ => ?_⟩
          by_contra hno
          rw [hd ?_] at hr
          · cases hr
          · intro j y f' d hj hd' h1 h2
            exact hno ⟨j, y, f', d, hj, hd', h1, h2⟩
        | ok cs =>
          have hcs := ha cs hr
          refine ⟨(fun h => by cases h), (fun _ _ h => by cases h), fun t' b h => ?_, (fun h => by cases h)⟩
          cases h
          have hcl : cs.length = (counts t).length := by rw [hcs, iterAll_length]
          have hll : cs.length = t.left.length + t.right.length := by simpa [counts] using hcl
          refine ⟨n, n1, fun j hj => ?_, fun hfit => ?_, ?_, rfl, ?_, ?_⟩
          · apply fit_iter g fit
            intro i y f' d hi hd' hdec
            cases f' with
            | add => cases hdec
            | mult => cases hdec
            | sub f' =>
              obtain ⟨m', v', -, -, gd', -⟩ := gens_get g hi
              obtain ⟨d', hd'', hmin'⟩ := fit_get fit hi
              rw [hd'] at hd''
              cases hd''
              obtain ⟨n', hn', -, -, nge'⟩ := gd'.drop f' rfl d hmin'
              have := q i y f' d hi hd'
              rw [hn'] at this
              exact nge' j (by simp only at this; omega)
          · obtain ⟨c', hc', hmin'⟩ := fit_get hfit hx
            rw [iterAll_get n hx hc] at hc'
            cases hc'
            omega
          · rw [lin_counts_put t cs hcl, hcs]
          · exact lin_syms_put _ _ (by simp; omega)
          · exact lin_syms_put _ _ (by simp; omega)

theorem linear_call {vars result states r} (h : MadeLinear vars result states r) (meta' : Bool) (t : ChainTape σ Int)
    (hl : (counts t).length = vars.length) :
    (applyLinear meta' r t = .fail → ¬ Fit r.funcs (counts t)) ∧
    (∀ s b, applyLinear meta' r t = .ok (.inf s b) → Fit r.funcs (counts t) ∧ s = states ∧ r.infinite = true) ∧
    (∀ t' b, applyLinear meta' r t = .ok (.apply t' b) → ∃ k : Nat, 1 ≤ k ∧ (∀ j < k, Fit r.funcs (iterAll j r.funcs (counts t))) ∧
      ¬ Fit r.funcs (iterAll k r.funcs (counts t)) ∧ counts t' = iterAll k r.funcs (counts t) ∧ t'.dir = t.dir ∧
      t'.left.map (·.sym) = t.left.map (·.sym) ∧ t'.right.map (·.sym) = t.right.map (·.sym)) ∧
    (applyLinear meta' r t = .raise → Fit r.funcs (counts t) →
      ∃ (i x : Nat) (f : Func) (c : Int), r.funcs[i]? = some (some (x, f)) ∧ (counts t)[i]? = some (some c) ∧ f.lin.1 ≠ 1 ∧
        f.iter 1 c = c) := linear_gens (made_gens h).1 (made_gens h).2 meta' t hl

/-- **C66, applies.** If the rule is said not to apply, the minima it requires are not met. -/
theorem C66_fails {vars result states r} (h : MadeLinear vars result states r) (metaRules : Bool) (t : ChainTape σ Int)
    (hl : (counts t).length = vars.length) (hf : applyLinear metaRules r t = .fail) :
    ∀ cs', ¬ Applies (minima r) result (counts t) cs' := by
  intro cs' ha
  exact (linear_call h metaRules t hl).1 hf ((applies_iff (made_gens h).1 (made_distinct h)).mp ha).1

/-- **C66, infinite.** If the rule is said to apply infinitely, it can be applied any number of times in a row, and the states
reported are those of the rule. -/
theorem C66_infinite {vars result states r} (h : MadeLinear vars result states r) (metaRules : Bool) (t : ChainTape σ Int)
    (hl : (counts t).length = vars.length) {s : List Nat} {b : Bool} (hi : applyLinear metaRules r t = .ok (.inf s b)) :
    (∀ k, ∃ cs', AppliesTimes (minima r) result k (counts t) cs') ∧ s = states := by
  obtain ⟨fit, hs, hinf⟩ := (linear_call h metaRules t hl).2.1 s b hi
  refine ⟨fun k => ⟨_, times_of (made_gens h).1 (made_distinct h) k (fun j _ => fit_iter (made_gens h).1 fit j ?_)⟩, hs⟩
  intro i x f c hi _ hdec
  exfalso
  unfold LinRule.infinite at hinf
  simp only [Bool.not_eq_true', List.any_eq_false] at hinf
  have := hinf (some (x, f)) (List.mem_of_getElem? hi)
  simp [hdec] at this

/-- **C66, finite.** If the rule is applied, the new tape is that of applying it `k ≥ 1` times in a row, one at a time, where it
cannot be applied once more; the symbols and the direction stay. -/
theorem C66_applied {vars result states r} (h : MadeLinear vars result states r) (metaRules : Bool) (t : ChainTape σ Int)
    (hl : (counts t).length = vars.length) {t' : ChainTape σ Int} {b : Bool} (ha : applyLinear metaRules r t = .ok (.apply t' b)) :
    (∃ k, 1 ≤ k ∧ AppliesTimes (minima r) result k (counts t) (counts t')) ∧ (∀ cs', ¬ Applies (minima r) result (counts t') cs') ∧
    t'.dir = t.dir ∧ t'.left.map (·.sym) = t.left.map (·.sym) ∧ t'.right.map (·.sym) = t.right.map (·.sym) := by
  obtain ⟨k, k1, h1, h2, h3, h4, h5, h6⟩ := (linear_call h metaRules t hl).2.2.1 t' b ha
  refine ⟨⟨k, k1, ?_⟩, fun cs' hc => ?_, h4, h5, h6⟩
  · rw [h3]; exact times_of (made_gens h).1 (made_distinct h) k h1
  · rw [h3] at hc
    exact h2 ((applies_iff (made_gens h).1 (made_distinct h)).mp hc).1

/-- **C66, exceptions.** An exception is only raised if the rule applies and some block is at a fixed point of the rule although
other exponents of it would change. -/
theorem C66_raises_partial {vars result states r} (h : MadeLinear vars result states r) (metaRules : Bool) (t : ChainTape σ Int)
    (hl : (counts t).length = vars.length) {cs' : List (Option Int)} (ha : Applies (minima r) result (counts t) cs')
    (hr : applyLinear metaRules r t = .raise) :
    ∃ (i x : Nat) (m c : Int) (v : V), (minima r)[i]? = some (some (x, m)) ∧ (counts t)[i]? = some (some c) ∧
      result[i]? = some (some v) ∧ Val.value (fun _ => c) v = c ∧ ∃ d, Val.value (fun _ => d) v ≠ d := by
  obtain ⟨i, x, f, c, hi, hc, h1, h2⟩ :=
    (linear_call h metaRules t hl).2.2.2 hr ((applies_iff (made_gens h).1 (made_distinct h)).mp ha).1
  obtain ⟨m, v, -, hv, -, he⟩ := gens_get (made_gens h).1 hi
  refine ⟨i, x, f.min, c, v, (raised_get _ _ _ _).mpr ⟨f, hi, rfl⟩, hc, hv, by rw [he]; exact h2, c + 1, ?_⟩
  rw [he, iter_one]
  rw [iter_one] at h2
  intro h3
  apply h1
  have : f.lin.1 * (c + 1) = f.lin.1 * c + f.lin.1 := by ring
  omega

/-! ## The same as without the option -/

/-- the tape of the general rule application, where exponents may be expressions -/
def asVals (t : ChainTape σ Int) : ChainTape σ V :=
  ⟨t.dir, t.left.map (fun b => ⟨b.sym, b.num.map Val.num⟩), t.right.map (fun b => ⟨b.sym, b.num.map Val.num⟩)⟩

/-- the tape without blocks of exponent 0 -/
def dropZeros (t : ChainTape σ Int) : ChainTape σ Int :=
  ⟨t.dir, t.left.filter (fun b => b.num ≠ some 0), t.right.filter (fun b => b.num ≠ some 0)⟩

theorem times_iff {vs rs fs} (g : Gens vs rs fs) (hd : VarsDistinct (raised fs)) : ∀ (k : Nat) {cs cs' : List (Option Int)},
    AppliesTimes (raised fs) rs k cs cs' → (∀ j < k, Fit fs (iterAll j fs cs)) ∧ cs' = iterAll k fs cs
  | 0, cs, cs', h => ⟨by simp, by rw [iterAll_zero]; exact h⟩
  | k + 1, cs, cs', ⟨mid, h1, h2⟩ => by
    obtain ⟨f, rfl⟩ := (applies_iff g hd).mp h1
    obtain ⟨h3, h4⟩ := times_iff g hd k h2
    refine ⟨fun j hj => ?_, by rw [iterAll_succ k]; exact h4⟩
    cases j with
    | zero => rw [iterAll_zero]; exact f
    | succ j => rw [iterAll_succ j]; exact h3 j (by omega)

theorem consts_of {vs rs fs} (g : Gens vs rs fs) : ∀ {cs : List (Option Int)}, cs.length = vs.length →
    (∀ i : Nat, vs[i]? = some none → rs[i]? = cs[i]?.map (Option.map Val.num)) →
    (∀ (i x : Nat) (m : Int), vs[i]? = some (some (x, m)) → ∃ c, cs[i]? = some (some c)) → Consts fs rs cs := by
  induction g with
  | nil => intro cs hl _ _; cases cs with
    | nil => exact .nil
    | cons => cases hl
  | none r g ih =>
    intro cs hl h1 h2
    cases cs with
    | nil => cases hl
    | cons c cs =>
      have := h1 0 rfl
      simp only [List.getElem?_cons_zero, Option.map_some, Option.some.injEq] at this
      subst this
      exact .none c (ih (by simpa using hl) (fun i hi => by simpa using h1 (i + 1) (by simpa using hi))
        (fun i x m hi => by simpa using h2 (i + 1) x m (by simpa using hi)))
  | @some vs rs fs x m v f gd e g ih =>
    intro cs hl h1 h2
    cases cs with
    | nil => cases hl
    | cons c cs =>
      obtain ⟨d, hd⟩ := h2 0 x m rfl
      simp only [List.getElem?_cons_zero, Option.some.injEq] at hd
      subst hd
      exact .some d (ih (by simpa using hl) (fun i hi => by simpa using h1 (i + 1) (by simpa using hi))
        (fun i x m hi => by simpa using h2 (i + 1) x m (by simpa using hi)))

theorem setCounts_vals : ∀ (bs bs' : List (Blk σ Int)) (rest : List (Option Int)),
    bs'.map (·.sym) = bs.map (·.sym) →
    Recursive.setCounts (bs.map (fun b => (⟨b.sym, b.num.map Val.num⟩ : Blk σ V))) (vals (bs'.map (·.num) ++ rest)) =
      (bs'.map (fun b => ⟨b.sym, b.num.map Val.num⟩), vals rest)
  | [], [], rest, _ => by
    cases hv : vals rest <;> simp [Recursive.setCounts, hv]
  | [], _ :: _, _, h => by simp at h
  | _ :: _, [], _, h => by simp at h
  | b :: bs, b' :: bs', rest, h => by
    simp only [List.map_cons, List.cons.injEq] at h
    have := setCounts_vals bs bs' rest h.2
    unfold vals at this ⊢
    simp only [List.map_cons, List.cons_append, Recursive.setCounts, this, h.1]

theorem filter_vals (bs : List (Blk σ Int)) :
    (bs.map (fun b => (⟨b.sym, b.num.map Val.num⟩ : Blk σ V))).filter Recursive.nonZero =
      (bs.filter (fun b => b.num ≠ some 0)).map (fun b => ⟨b.sym, b.num.map Val.num⟩) := by
  rw [List.filter_map]
  congr 1
  apply List.filter_congr
  intro b _
  obtain ⟨s, n⟩ := b
  cases n with
  | none => simp [Recursive.nonZero]
  | some z => simp [Recursive.nonZero, Val.eq]

theorem infinite_no_sub {vs rs fs} (g : Gens vs rs fs) : isInfinite (raised fs) rs = true →
    ∀ (i x : Nat) (f : Func), fs[i]? = some (some (x, f)) → ∀ c, 0 ≤ c → c ≤ f.iter 1 c := by
  induction g with
  | nil => intro _ i x f hi; simp at hi
  | none r g ih =>
    intro h i x f hi
    cases i with
    | zero => simp at hi
    | succ i => exact ih (by simpa [raised, isInfinite] using h) i x f (by simpa using hi)
  | @some vs rs fs x m v f gd e g ih =>
    intro h i y f' hi
    have h' : (alwaysGe v (.expr (varE x)) && isInfinite (raised fs) rs) = true := h
    rw [Bool.and_eq_true] at h'
    cases i with
    | zero =>
      simp only [List.getElem?_cons_zero, Option.some.injEq, Prod.mk.injEq] at hi
      obtain ⟨rfl, rfl⟩ := hi
      intro c hc
      have := Model.Recursive.ge_value (η := fun _ => c) (fun _ => hc) h'.1
      rw [value_expr, varE_value, e.1] at this
      exact this
    | succ i => exact ih h'.2 i y f' (by simpa using hi)

/-- **C66, the option changes nothing.** If the rule is applied at once, with `k` repetitions, and `--max-num-reps` allows `k`,
then applying it without `--exp-linear-rules` gives the same tape, up to blocks of exponent 0 (unless an exception is raised
when the number of steps is computed).  Constant exponents are supposed to be the same on the tape and in the rule. -/
theorem C66_same_as_general {vars result states r} (h : MadeLinear vars result states r) (metaRules : Bool) (t : ChainTape σ Int)
    (hl : (counts t).length = vars.length)
    (hconst : ∀ i : Nat, vars[i]? = some none → result[i]? = (counts t)[i]?.map (Option.map Val.num))
    (hfin : ∀ (i x : Nat) (m : Int), vars[i]? = some (some (x, m)) → ∃ c, (counts t)[i]? = some (some c))
    {R : Recursive.GenRule} (hv : R.vars = minima r) (hr : R.result = result) (hi : R.infinite = isInfinite R.vars R.result)
    {o : Opts} {t' : ChainTape σ Int} {b : Bool} (ha : applyLinear metaRules r t = .ok (.apply t' b)) {k : Nat}
    (hk : AppliesTimes (minima r) result k (counts t) (counts t')) (ho : k ≤ o.maxReps) :
    Recursive.applyGen o R (asVals t) = .raise ∨
      ∃ w, Recursive.applyGen o R (asVals t) = .ok (.apply (asVals (dropZeros t')) w R.states true) := by
  obtain ⟨K, K1, h1, h2, h3, h4, h5, h6⟩ := (linear_call h metaRules t hl).2.2.1 t' b ha
  have g := (made_gens h).1
  have hd := made_distinct h
  obtain ⟨f1, f2⟩ := times_iff g hd k hk
  have hnf : ¬ Fit r.funcs (iterAll k r.funcs (counts t)) := by rw [← f2, h3]; exact h2
  have hfit : Fit r.funcs (counts t) := by simpa [iterAll_zero] using h1 0 (by omega)
  have hk0 : 0 < k := by
    rcases Nat.eq_zero_or_pos k with rfl | h0
    · rw [iterAll_zero] at hnf; exact absurd hfit hnf
    · exact h0
  have hc := consts_of g hl hconst hfin
  have hcur : ((asVals t).left ++ (asVals t).right).map (·.num) = vals (counts t) := by
    simp only [asVals, vals, counts, List.map_append, List.map_map]
    rfl
  have hninf : R.infinite = false := by
    cases hri : R.infinite with
    | false => rfl
    | true =>
      exfalso
      rw [hri, hv, hr] at hi
      have hmono := infinite_no_sub g hi.symm
      apply hnf
      apply fit_iter g hfit
      intro i x f c hix hcx _
      obtain ⟨m, v, hvi, -, gd, -⟩ := gens_get g hix
      have hm0 := h.nonneg x m (List.mem_of_getElem? hvi)
      obtain ⟨c', hc', hmin⟩ := fit_get hfit hix
      rw [hcx] at hc'
      cases hc'
      have : ∀ j, f.min ≤ f.iter j c := by
        intro j
        induction j with
        | zero => exact hmin
        | succ j ih =>
          rw [Model.Linear.iter_succ]
          exact le_trans ih (hmono i x f hix _ (le_trans hm0 (le_trans gd.min ih)))
      exact this k
  unfold Recursive.applyGen
  rw [if_neg (by omega)]
  simp only
  rw [hcur, hninf]
  simp only [Bool.false_eq_true, if_false]
  rcases gen_loop g hd hv hr k (fuel := o.maxReps) (w := .num 0) (b := false) hc f1 hnf ho with e | ⟨w, e⟩
  · left; rw [e]
  · right
    rw [e]
    simp only [Bool.false_or, decide_eq_true hk0]
    refine ⟨w, ?_⟩
    rw [← f2, counts, List.map_append]
    simp only [asVals]
    rw [setCounts_vals t.left t'.left _ h5]
    simp only
    have : vals (t'.right.map (·.num)) = vals (t'.right.map (·.num) ++ []) := by simp
    rw [this, setCounts_vals t.right t'.right _ h6]
    simp only [filter_vals, dropZeros, h4]

/-! ## Examples -/

/-- the rule `x ↦ x - 2` (from 3), `y ↦ 3 y + 1` (from 1), and a constant block -/
def linExVars : List (Option (Nat × Int)) := [some (0, 3), none, some (1, 1)]
def linExResult : List (Option V) := [some (.expr (varPlus 0 (-2))), some (.num 1), some (.expr ⟨[⟨[⟨1, 1⟩], 3⟩], 1⟩)]
def linExRule : LinRule := ⟨[some (0, .sub ⟨3, 2⟩), none, some (1, .mult ⟨1, 3, 1⟩)], [0, 1]⟩
def linExTape : ChainTape Nat Int := ⟨.L, [⟨1, some 8⟩, ⟨2, some 1⟩], [⟨1, some 4⟩]⟩

theorem linExMade : MadeLinear linExVars linExResult [0, 1] linExRule := by
  refine ⟨rfl, ?_, ?_⟩
  · intro i j x m n hi hj
    rcases i with _ | _ | _ | i <;> rcases j with _ | _ | _ | j <;> simp [linExVars] at hi hj ⊢ <;> omega
  · intro x m h
    simp [linExVars] at h
    omega

/-- `8, 4` becomes `6, 13`, `4, 40` and `2, 121`; then 2 is below the minimum. -/
theorem C66_example :
    applyLinear false linExRule linExTape = .ok (.apply ⟨.L, [⟨1, some 2⟩, ⟨2, some 1⟩], [⟨1, some 121⟩]⟩ true) ∧
    AppliesTimes (minima linExRule) linExResult 3 (counts linExTape) [some 2, some 1, some 121] := by
  have e : applyLinear false linExRule linExTape = .ok (.apply ⟨.L, [⟨1, some 2⟩, ⟨2, some 1⟩], [⟨1, some 121⟩]⟩ true) := by decide
  refine ⟨e, ?_⟩
  have := times_of (made_gens linExMade).1 (made_distinct linExMade) 3 (cs := counts linExTape) (fun j hj => ?_)
  · exact this
  · rw [← fits_iff (by rw [iterAll_length]; rfl)]
    rcases j with _ | _ | _ | j
    · decide
    · decide
    · decide
    · omega

/-- **C66, the exception.** The rule `x ↦ x - 1`, `y ↦ 2 y - 3` applies to the exponents 5, 3 (3 is the minimum the code
computes, and stays 3), but applying it raises. -/
theorem C66_raises :
    tryGen [some (0, 2), some (1, 1)] [some (.expr (varPlus 0 (-1))), some (.expr ⟨[⟨[⟨1, 1⟩], 2⟩], -3⟩)] [0] =
        .ok ⟨[some (0, .sub ⟨2, 1⟩), some (1, .mult ⟨3, 2, -3⟩)], [0]⟩ ∧
      fits [some (0, .sub ⟨2, 1⟩), some (1, .mult ⟨3, 2, -3⟩)] [some 5, some 3] = .ok () ∧
      applyLinear (σ := Nat) false ⟨[some (0, .sub ⟨2, 1⟩), some (1, .mult ⟨3, 2, -3⟩)], [0]⟩
        ⟨.L, [⟨1, some 5⟩], [⟨1, some 3⟩]⟩ = .raise := by
  refine ⟨rfl, rfl, by decide⟩

end Props
