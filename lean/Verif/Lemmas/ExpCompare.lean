import Verif.Lemmas.ExpInt
import Verif.Spec.ExpCompare

/-!
# Lemmas on comparisons of exponential integers
-/

namespace Model.ExpInt
open Spec

/-! ## Sorting -/

theorem insertDesc_perm (L : Logs) (t : ETerm) : ∀ us, (insertDesc L t us).Perm (t :: us)
  | [] => List.Perm.refl _
  | u :: us => by
    unfold insertDesc
    split
    · exact List.Perm.refl _
    · exact ((insertDesc_perm L t us).cons u).trans (List.Perm.swap t u us)

theorem sortDesc_perm (L : Logs) (ts : List ETerm) : (sortDesc L ts).Perm ts := by
  have : ∀ (ts acc : List ETerm), (ts.foldl (fun acc t => insertDesc L t acc) acc).Perm (ts ++ acc) := by
    intro ts
    induction ts with
    | nil => intro acc; exact List.Perm.refl _
    | cons t ts ih =>
      intro acc
      refine (ih (insertDesc L t acc)).trans ?_
      exact ((insertDesc_perm L t acc).append_left ts).trans List.perm_middle
  simpa [sortDesc] using this ts []

theorem floats0_ok (L : Logs) (math : Math.Floats) : FloatsOk (floats0 L math) := ⟨sortDesc_perm L⟩
theorem floats_ok (L : Logs) (math : Math.Floats) (fuel : Nat) : FloatsOk (floats L math fuel) := ⟨sortDesc_perm L⟩

/-! ## Towers -/

theorem lt_iff (a b : Tower) : Tower.lt a b = true ↔ Smaller a b := by
  simp [Tower.lt, Smaller]

theorem smaller_irrefl (a : Tower) : ¬ Smaller a a := by simp [Smaller]

theorem smaller_trans {a b c : Tower} (h1 : Smaller a b) (h2 : Smaller b c) : Smaller a c := by
  unfold Smaller at *
  rcases h1 with h1 | ⟨h1, h1'⟩ <;> rcases h2 with h2 | ⟨h2, h2'⟩
  · left; omega
  · left; omega
  · left; omega
  · right; exact ⟨by omega, lt_trans h1' h2'⟩

theorem smaller_total (a b : Tower) : Smaller a b ∨ a = b ∨ Smaller b a := by
  unfold Smaller
  rcases Nat.lt_trichotomy a.1 b.1 with h | h | h
  · exact Or.inl (Or.inl h)
  · rcases lt_trichotomy a.2 b.2 with h' | h' | h'
    · exact Or.inl (Or.inr ⟨h, h'⟩)
    · exact Or.inr (Or.inl (Prod.ext h h'))
    · exact Or.inr (Or.inr (Or.inr ⟨h.symm, h'⟩))
  · exact Or.inr (Or.inr (Or.inl h))

/-- sizes are not below zero, and only zero has sign 0 -/
def KeyOk (p : Int × Tower) : Prop :=
  (p.1 = -1 ∨ p.1 = 1 ∨ p = (0, (0, 0))) ∧ (p.1 ≠ 0 → Smaller (0, 0) p.2)

theorem sign_cases (z : Int) : z.sign = -1 ∨ z.sign = 1 ∨ z = 0 := by
  rcases Int.lt_trichotomy z 0 with h | h | h
  · exact Or.inl (Int.sign_eq_neg_one_of_neg h)
  · exact Or.inr (Or.inr h)
  · exact Or.inr (Or.inl (Int.sign_eq_one_of_pos h))

theorem keyOk_int (z : Int) : KeyOk (z.sign, (0, (z.natAbs : ℚ))) := by
  constructor
  · rcases sign_cases z with h | h | h
    · exact Or.inl h
    · exact Or.inr (Or.inl h)
    · subst h; exact Or.inr (Or.inr (by simp))
  · intro h
    right
    refine ⟨rfl, ?_⟩
    have hz : z ≠ 0 := by intro h'; subst h'; exact h rfl
    have : 0 < z.natAbs := Int.natAbs_pos.2 hz
    show (0 : ℚ) < (z.natAbs : ℚ)
    exact_mod_cast this

theorem combine_sign {L : Logs} {pos ng : Tower} {d : Int} {p} (h : combine L pos ng d = .ok p) :
    (Smaller pos ng → p.1 = -1) ∧ (Smaller ng pos → p.1 = 1) ∧ (p.1 = -1 ∨ p.1 = 1) := by
  unfold combine at h
  split at h
  · cases h
  · next hne =>
    have hs : ∀ q : Int, q = (if Tower.lt pos ng = true then -1 else 1) →
        (Smaller pos ng → q = -1) ∧ (Smaller ng pos → q = 1) ∧ (q = -1 ∨ q = 1) := by
      intro q hq
      subst hq
      refine ⟨fun h => by rw [if_pos ((lt_iff _ _).2 h)], fun h => ?_, ?_⟩
      · rw [if_neg]
        intro h'
        exact smaller_irrefl _ (smaller_trans h ((lt_iff _ _).1 h'))
      · split <;> simp
    dsimp only at h
    split at h
    · split at h
      · cases h
      · split at h
        · cases h; exact hs _ rfl
        · cases h; exact hs _ rfl
    · cases h; exact hs _ rfl

theorem combine_swap {L : Logs} {pos ng : Tower} {d : Int} {s : Int} {t : Tower} (h : combine L pos ng d = .ok (s, t)) :
    combine L ng pos d = .ok (-s, t) := by
  unfold combine at *
  split at h
  · cases h
  · next hne =>
    rw [if_neg (fun h => hne h.symm)]
    have hmax : Tower.max pos ng = Tower.max ng pos := by
      unfold Tower.max
      rcases smaller_total pos ng with h' | h' | h'
      · rw [if_pos ((lt_iff _ _).2 h'), if_neg]
        intro h2; exact smaller_irrefl _ (smaller_trans h' ((lt_iff _ _).1 h2))
      · exact absurd h' hne
      · rw [if_neg, if_pos ((lt_iff _ _).2 h')]
        intro h2; exact smaller_irrefl _ (smaller_trans h' ((lt_iff _ _).1 h2))
    have hsign : (if Tower.lt ng pos = true then (-1 : Int) else 1) = -(if Tower.lt pos ng = true then (-1 : Int) else 1) := by
      rcases smaller_total pos ng with h' | h' | h'
      · rw [if_pos ((lt_iff _ _).2 h'), if_neg]
        · rfl
        · intro h2; exact smaller_irrefl _ (smaller_trans h' ((lt_iff _ _).1 h2))
      · exact absurd h' hne
      · rw [if_pos ((lt_iff _ _).2 h'), if_neg]
        intro h2; exact smaller_irrefl _ (smaller_trans h' ((lt_iff _ _).1 h2))
    dsimp only at *
    rw [← hmax, hsign]
    split at h
    · next hd =>
      rw [if_pos hd]
      split at h
      · cases h
      · next h0 =>
        rw [if_neg h0]
        split at h
        · next h1 => rw [if_pos h1]; cases h; rfl
        · next h1 => rw [if_neg h1]; cases h; rfl
    · next hd => rw [if_neg hd]; cases h; rfl

/-! ## Small numbers -/

theorem info_eval {L : Logs} {a : Num} {v : Int} (h : tryEval a = some v) : info L a = .ok (v.sign, (0, (v.natAbs : ℚ))) := by
  cases a with
  | int z => simp only [tryEval, Option.some.injEq] at h; subst h; simp [info]
  | exp ts c d =>
    simp only [tryEval, Option.map_eq_some_iff] at h
    obtain ⟨s, hs, rfl⟩ := h
    simp [info, hs]

/-- a term that cannot be evaluated has a height -/
theorem infoT_none {L : Logs} {t : ETerm} {p} (h : infoT L t = .ok p) (hn : evalTerm t = none) : 1 ≤ p.2.1 := by
  cases t with
  | mk b c e =>
    simp only [infoT] at h
    simp only [evalTerm] at hn
    split at h
    · next k hk =>
      rw [hk] at hn
      dsimp only at hn
      split at h
      · split at h
        · cases h
        · cases h; exact Nat.le_refl 1
      · next hk0 =>
        rw [if_neg hk0] at hn
        split at h
        · cases h
        · split at h
          · next hk1 => rw [if_pos hk1] at hn; cases hn
          · cases h; exact Nat.le_refl 1
    · split at h
      · cases h
      · split at h
        · cases h
        · cases h; exact Nat.le_add_left 1 _

theorem infoT_sign {L : Logs} {b c : Int} {e : Num} {p} (h : infoT L (.mk b c e) = .ok p) : p.1 = c.sign := by
  simp only [infoT] at h
  split at h
  · split at h
    · split at h
      · cases h
      · cases h; rfl
    · split at h
      · cases h
      · split at h
        · cases h; rfl
        · cases h; rfl
  · split at h
    · cases h
    · split at h
      · cases h
      · cases h; rfl

theorem max_cases (a b : Tower) : Tower.max a b = a ∨ Tower.max a b = b := by
  unfold Tower.max; split <;> simp

theorem max_height (a b : Tower) : a.1 ≤ (Tower.max a b).1 ∧ b.1 ≤ (Tower.max a b).1 := by
  unfold Tower.max
  split
  · next h =>
    have := (lt_iff _ _).1 h
    unfold Smaller at this
    constructor <;> omega
  · next h =>
    have : ¬ Smaller a b := fun h' => h ((lt_iff _ _).2 h')
    unfold Smaller at this
    constructor
    · exact Nat.le_refl _
    · by_contra hlt; exact this (Or.inl (by omega))

theorem towers_cons {L : Logs} {t : ETerm} {ts : List ETerm} {p} (h : towers L (t :: ts) = .ok p) :
    ∃ s w pos ng, infoT L t = .ok (s, w) ∧ towers L ts = .ok (pos, ng) ∧
      p = (if 0 < s then (Tower.max w pos, ng) else if s < 0 then (pos, Tower.max w ng) else (pos, ng)) := by
  simp only [towers] at h
  split at h
  · cases h
  · next s w hw =>
    split at h
    · cases h
    · next pos ng hp =>
      refine ⟨s, w, pos, ng, hw, hp, ?_⟩
      split at h
      · cases h; rw [if_pos (by assumption)]
      · rw [if_neg (by assumption)]
        split at h
        · cases h; rw [if_pos (by assumption)]
        · cases h; rw [if_neg (by assumption)]

theorem towers_none {L : Logs} : ∀ {ts : List ETerm} {p}, AllWF ts → towers L ts = .ok p → evalSum ts = none →
    1 ≤ p.1.1 ∨ 1 ≤ p.2.1
  | [], p, _, _, hn => by simp [evalSum] at hn
  | t :: ts, p, hw, h, hn => by
    obtain ⟨s, w, pos, ng, h1, h2, rfl⟩ := towers_cons h
    simp only [AllWF] at hw
    have hs : s ≠ 0 := by
      cases t with
      | mk b c e =>
        have := infoT_sign h1
        simp only at this
        rw [this]
        have hc : c ≠ 0 := by have := hw.1; simp only [ETerm.WF] at this; exact this.2.1
        intro h0; exact hc (Int.sign_eq_zero_iff_zero.1 h0)
    have hh : 1 ≤ w.1 ∨ (1 ≤ pos.1 ∨ 1 ≤ ng.1) := by
      by_cases ht : evalTerm t = none
      · exact Or.inl (infoT_none h1 ht)
      · right
        apply towers_none hw.2 h2
        simp only [evalSum] at hn
        split at hn
        · cases hn
        · next hx =>
          cases ht' : evalTerm t with
          | none => exact absurd ht' ht
          | some v =>
            cases hs' : evalSum ts with
            | none => rfl
            | some u => exact absurd hs' (hx v u ht')
    have m1 := max_height w pos
    have m2 := max_height w ng
    split
    · dsimp only; omega
    · rw [if_pos (by omega)]; dsimp only; omega

theorem towers_signs {L : Logs} : ∀ {ts : List ETerm} {p}, towers L ts = .ok p →
    ((∀ t ∈ ts, 0 < t.coef) → p.2 = (0, 0)) ∧ ((∀ t ∈ ts, t.coef < 0) → p.1 = (0, 0))
  | [], p, h => by simp only [towers] at h; cases h; simp
  | .mk b c e :: ts, p, h => by
    obtain ⟨s, w, pos, ng, h1, h2, rfl⟩ := towers_cons h
    have hs : s = c.sign := infoT_sign h1
    obtain ⟨i1, i2⟩ := towers_signs h2
    constructor
    · intro hp
      have hc : 0 < c := hp (.mk b c e) (by simp)
      rw [if_pos (by rw [hs, Int.sign_eq_one_of_pos hc]; decide)]
      exact i1 (fun t ht => hp t (by simp [ht]))
    · intro hp
      have hc : c < 0 := hp (.mk b c e) (by simp)
      rw [if_neg (by rw [hs, Int.sign_eq_neg_one_of_neg hc]; decide), if_pos (by rw [hs, Int.sign_eq_neg_one_of_neg hc]; decide)]
      exact i2 (fun t ht => hp t (by simp [ht]))

theorem combine_height {L : Logs} {pos ng : Tower} {d : Int} {p} (h : combine L pos ng d = .ok p)
    (hh : 1 ≤ pos.1 ∨ 1 ≤ ng.1) : 1 ≤ p.2.1 := by
  have hm := max_height pos ng
  unfold combine at h
  split at h
  · cases h
  · dsimp only at h
    split at h
    · split at h
      · cases h
      · split at h
        · cases h; exact Nat.le_refl 1
        · cases h; dsimp only; omega
    · cases h; dsimp only; omega

theorem info_none {L : Logs} {ts : List ETerm} {c d : Int} {p} (hn : evalSum ts = none)
    (h : info L (.exp ts c d) = .ok p) : ∃ q, towers L ts = .ok q ∧ combine L q.1 q.2 d = .ok p := by
  simp only [info, hn] at h
  split at h
  · cases h
  · next pos ng hp => exact ⟨_, hp, h⟩

theorem info_keyOk {L : Logs} {a : Num} {p} (hw : Num.WF a) (h : info L a = .ok p) : KeyOk p := by
  cases hv : tryEval a with
  | some v => rw [info_eval hv] at h; cases h; exact keyOk_int v
  | none =>
    cases a with
    | int z => simp [tryEval] at hv
    | exp ts c d =>
      simp only [tryEval, Option.map_eq_none_iff] at hv
      obtain ⟨q, hq, hc⟩ := info_none hv h
      simp only [Num.WF] at hw
      have hh := combine_height hc (towers_none hw.2.2.2 hq hv)
      have hs := (combine_sign hc).2.2
      exact ⟨by tauto, fun _ => Or.inl hh⟩

/-! ## Negation -/

/-- the term with the opposite coefficient -/
def negT : ETerm → ETerm
  | .mk b c e => .mk b (-c) e

theorem evalTerm_neg (t : ETerm) : evalTerm (negT t) = (evalTerm t).map (fun v => -v) := by
  cases t with
  | mk b c e =>
    simp only [negT, evalTerm]
    split
    · rfl
    · split
      · rfl
      · split
        · simp
        · rfl

theorem evalSum_neg : ∀ ts : List ETerm, evalSum (ts.map negT) = (evalSum ts).map (fun v => -v)
  | [] => by simp [evalSum]
  | t :: ts => by
    simp only [List.map_cons, evalSum, evalTerm_neg, evalSum_neg ts]
    cases evalTerm t <;> cases evalSum ts <;> (simp; try omega)

theorem infoT_neg {L : Logs} {t : ETerm} {s w} (h : infoT L t = .ok (s, w)) : infoT L (negT t) = .ok (-s, w) := by
  cases t with
  | mk b c e =>
    simp only [negT, infoT] at *
    split at h
    · next k hk =>
      split at h
      · next h0 =>
        rw [if_pos h0]
        split at h
        · cases h
        · next h1 => rw [if_neg h1]; cases h; simp
      · next h0 =>
        rw [if_neg h0]
        split at h
        · cases h
        · next h1 =>
          rw [if_neg h1]
          split at h
          · next h2 => rw [if_pos h2]; cases h; simp
          · next h2 => rw [if_neg h2]; cases h; simp
    · split at h
      · cases h
      · split at h
        · cases h
        · next h1 => rw [if_neg h1]; cases h; simp

theorem towers_neg {L : Logs} : ∀ {ts : List ETerm} {pos ng}, towers L ts = .ok (pos, ng) →
    towers L (ts.map negT) = .ok (ng, pos)
  | [], pos, ng, h => by simp only [towers] at h; cases h; simp [towers]
  | t :: ts, pos, ng, h => by
    obtain ⟨s, w, pos', ng', h1, h2, he⟩ := towers_cons h
    simp only [List.map_cons, towers, infoT_neg h1, towers_neg h2]
    rcases Int.lt_trichotomy s 0 with hs | hs | hs
    · rw [if_neg (by omega), if_pos hs] at he
      cases he
      rw [if_pos (by omega)]
    · rw [if_neg (by omega), if_neg (by omega)] at he
      cases he
      rw [if_neg (by omega), if_neg (by omega)]
    · rw [if_pos hs] at he
      cases he
      rw [if_neg (by omega), if_pos (by omega)]

/-- the number with opposite coefficients and constant -/
def negN : Num → Num
  | .int z => .int (-z)
  | .exp ts c d => .exp (ts.map negT) (-c) d

theorem evalSum_int : ∀ {ts : List ETerm} {s : Int}, AllWF ts → evalSum ts = some s → termsValue ts = s
  | [], s, _, h => by simp only [evalSum, Option.some.injEq] at h; subst h; simp [termsValue]
  | .mk b c e :: ts, s, hw, h => by
    simp only [AllWF] at hw
    simp only [evalSum] at h
    split at h
    · next v u hv hu =>
      cases h
      have ih := evalSum_int hw.2 hu
      have hwt := hw.1
      simp only [ETerm.WF] at hwt
      obtain ⟨_, _, h3, n, hn⟩ := hwt
      simp only [evalTerm] at hv
      split at hv
      · cases hv
      · next k hk =>
        have := tryEval_sound (z := n) ⟨h3, by rw [hn]; simp⟩ hk
        subst this
        split at hv
        · cases hv
        · split at hv
          · cases hv
            simp only [termsValue, value_mk, natOf_eq hn, ih]; push_cast; simp
          · cases hv
    · cases h

theorem info_neg {L : Logs} {a : Num} {x : Int} {s t} (ha : Denotes a x) (h : info L a = .ok (s, t)) :
    info L (negN a) = .ok (-s, t) := by
  cases a with
  | int z => simp only [info] at h; cases h; simp [negN, info, Int.sign_neg]
  | exp ts c d =>
    cases hv : evalSum ts with
    | none =>
      obtain ⟨q, hq, hc⟩ := info_none hv h
      have hv' : evalSum (ts.map negT) = none := by rw [evalSum_neg, hv]; rfl
      simp only [negN, info, hv', towers_neg hq]
      exact combine_swap hc
    | some v =>
      have hv' : evalSum (ts.map negT) = some (-v) := by rw [evalSum_neg, hv]; rfl
      simp only [info, hv] at h
      cases h
      simp only [negN, info, hv']
      obtain ⟨p1, p2⟩ := int_of_denom ha
      have hw := ha.1; simp only [Num.WF] at hw
      rw [evalSum_int hw.2.2.2 hv] at p1
      have p1 : v + c = x * d := by exact_mod_cast p1
      have e1 : (v + c).fdiv d = x := by rw [p1, Int.mul_fdiv_cancel _ (by omega)]
      have e2 : (-v + -c).fdiv d = -x := by
        rw [show -v + -c = (-x) * d by rw [Int.neg_mul, ← p1]; omega, Int.mul_fdiv_cancel _ (by omega)]
      rw [e1, e2]
      simp [Int.sign_neg]

theorem mkTerm_normal {F : Floats} {f : Nat} {b c : Int} {e : Num} {t : ETerm}
    (hi : ∀ n k, Math.intPow F.math b = .ok (n, k) → k ≤ 1) (hc : ¬ b ∣ c) (h : mkTerm F f b c e = .ok t) :
    t = .mk b c e := by
  cases f with
  | zero => simp [mkTerm] at h
  | succ f =>
    simp only [mkTerm] at h
    split at h
    · cases h
    · split at h
      · cases h
      · next n k hk =>
        have hk1 := hi n k hk
        rw [if_neg (by omega), if_neg (by omega)] at h
        dsimp only at h
        split at h
        · cases h
        · split at h
          · cases h
          · have hp : pullOut (fun e => addN F f e (.int 1)) b c.natAbs c e = .ok (c, e) := by
              cases c.natAbs with
              | zero => rfl
              | succ m =>
                unfold pullOut
                rw [if_neg]
                intro h0; exact hc (Int.dvd_of_fmod_eq_zero h0)
            rw [hp] at h
            dsimp only at h
            split at h
            · cases h
            · split at h
              · cases h
              · cases h; rfl
            · cases h; rfl

theorem lowest_neg {ts : List ETerm} {c d : Int} (h : Lowest (.exp ts c d)) : Lowest (.exp (ts.map negT) (-c) d) := by
  intro g h1 h2 h3
  refine h g h1 (by simpa using h2) ?_
  intro t ht
  have := h3 (negT t) (List.mem_map_of_mem ht)
  cases t with
  | mk b c e => simpa [negT, ETerm.coef] using this

theorem neg_normal {F : Floats} {f : Nat} {a r : Num} (hw : Num.WF a) (hn : Normal F.math a)
    (h : neg F f a = .ok r) : r = negN a := by
  unfold neg at h
  cases f with
  | zero => simp [mulN] at h
  | succ f =>
    cases a with
    | int z => simp only [mulN] at h; cases h; simp [negN]
    | exp ts c d =>
      simp only [mulN] at h
      cases f with
      | zero => simp [mulExp] at h
      | succ f =>
        simp only [mulExp, simplify, tryEval] at h
        rw [if_neg (by decide)] at h
        split at h
        · cases h
        · next ts' hts =>
          obtain ⟨hl, hn⟩ := hn
          have e : ts' = ts.map negT := by
            clear h hl hw
            induction ts generalizing ts' with
            | nil => cases hts; rfl
            | cons t ts ih =>
              unfold mapE at hts
              split at hts
              · cases hts
              · next t' ht' =>
                split at hts
                · cases hts
                · next us hus =>
                  cases hts
                  have h1 := hn t (by simp)
                  have := mkTerm_normal h1.1 (by rw [Int.mul_neg_one, Int.dvd_neg]; exact h1.2) ht'
                  rw [this, ih us hus (fun t ht => hn t (by simp [ht]))]
                  cases t with
                  | mk b c e => simp [negT, ETerm.base, ETerm.coef, ETerm.exponent]
          subst e
          simp only [Num.WF] at hw
          rw [Int.mul_neg_one] at h
          cases f with
          | zero => simp [mkInt] at h
          | succ f =>
            simp only [mkInt, commonDiv_lowest hw.2.1 (lowest_neg hl), divCommon] at h
            simp only [ne_eq, not_true, if_false, one_ne_zero] at h
            split at h
            · cases h
            · split at h
              · split at h
                · cases h
                · split at h
                  · cases h; rfl
                  · cases h
              · cases h

theorem negN_denotes {F : Floats} (hF : FloatsOk F) {f : Nat} {a : Num} {x : Int} (ha : Denotes a x)
    (h : neg F f a = .ok (negN a)) : Denotes (negN a) (-x) := by
  have := (sound hF f).mul a (.int (-1)) x (-1) _ ha (numIs_int (-1)) h
  rwa [Int.mul_neg_one] at this

/-! ## Comparisons -/

theorem cmp_nonneg {p q : Int × Tower} (hp : KeyOk p) (hq : KeyOk q) (h0 : ¬ p.1 < 0) :
    ((if q.1 < 0 then true else Tower.lt q.2 p.2) = true ↔ Below q p) ∧
    ((if q.1 < 0 then true else !Tower.lt p.2 q.2) = true ↔ ¬ Below p q) := by
  obtain ⟨sp, tp⟩ := p
  obtain ⟨sq, tq⟩ := q
  simp only at *
  have irr := smaller_irrefl
  have asym : ∀ a b, Smaller a b → ¬ Smaller b a := fun a b h1 h2 => irr _ (smaller_trans h1 h2)
  have hne : ∀ x : Bool, (!x) = true ↔ ¬ x = true := by decide
  split
  · next hq0 =>
    simp only [Below]
    refine ⟨⟨fun _ => Or.inl (by omega), fun _ => trivial⟩, ⟨fun _ => ?_, fun _ => trivial⟩⟩
    rintro (h | ⟨h, _⟩) <;> omega
  · next hq0 =>
    rw [hne, lt_iff, lt_iff]
    obtain ⟨p1, p2⟩ := hp
    obtain ⟨q1, q2⟩ := hq
    simp only [Below]
    rcases p1 with p1 | p1 | p1
    · simp only at p1; omega
    · simp only at p1; subst p1
      rcases q1 with q1 | q1 | q1
      · simp only at q1; omega
      · simp only at q1; subst q1
        constructor
        · constructor
          · intro h; exact Or.inr ⟨rfl, Or.inl ⟨by decide, h⟩⟩
          · rintro (h | ⟨_, h | h⟩)
            · omega
            · exact h.2
            · omega
        · rw [not_iff_not]
          constructor
          · intro h; exact Or.inr ⟨rfl, Or.inl ⟨by decide, h⟩⟩
          · rintro (h | ⟨_, h | h⟩)
            · omega
            · exact h.2
            · omega
      · cases q1
        have hs := p2 (show (1 : Int) ≠ 0 by decide)
        refine ⟨⟨fun _ => Or.inl (by decide), fun _ => hs⟩, ⟨fun _ => ?_, fun _ h => asym _ _ h hs⟩⟩
        rintro (h | ⟨h, _⟩) <;> omega
    · cases p1
      rcases q1 with q1 | q1 | q1
      · simp only at q1; omega
      · simp only at q1; subst q1
        have hs := q2 (show (1 : Int) ≠ 0 by decide)
        constructor
        · refine ⟨fun h => absurd h (asym _ _ hs), ?_⟩
          rintro (h | ⟨h, _⟩) <;> omega
        · exact ⟨fun h => absurd hs h, fun h => absurd (Or.inl (by decide)) h⟩
      · cases q1
        constructor
        · refine ⟨fun h => absurd h (irr _), ?_⟩
          rintro (h | ⟨_, h | h⟩)
          · omega
          · omega
          · omega
        · refine ⟨fun _ => ?_, fun _ => irr _⟩
          rintro (h | ⟨_, h | h⟩)
          · omega
          · omega
          · omega

theorem below_neg {p q : Int × Tower} : Below (-p.1, p.2) (-q.1, q.2) ↔ Below q p := by
  simp only [Below]
  constructor
  · rintro (h | ⟨h, h' | h'⟩)
    · left; omega
    · right; exact ⟨by omega, Or.inr ⟨by omega, h'.2⟩⟩
    · right; exact ⟨by omega, Or.inl ⟨by omega, h'.2⟩⟩
  · rintro (h | ⟨h, h' | h'⟩)
    · left; omega
    · right; exact ⟨by omega, Or.inr ⟨by omega, h'.2⟩⟩
    · right; exact ⟨by omega, Or.inl ⟨by omega, h'.2⟩⟩

section
variable {L : Logs} {math : Math.Floats}

theorem gt_nonneg {f : Nat} {a b : Num} {p q r} (ha : Num.WF a) (hb : Num.WF b) (hp : info L a = .ok p)
    (hq : info L b = .ok q) (h0 : ¬ p.1 < 0) (h : gt L math f a b = .ok r) : r = true ↔ Below q p := by
  cases f with
  | zero => simp [gt] at h
  | succ f =>
    obtain ⟨sa, ta⟩ := p
    obtain ⟨sb, tb⟩ := q
    simp only [gt, hp, hq, if_neg h0] at h
    rw [← (cmp_nonneg (info_keyOk ha hp) (info_keyOk hb hq) h0).1]
    split at h
    · next h1 => cases h; rw [if_pos h1]
    · next h1 => cases h; rw [if_neg h1]

theorem ge_nonneg {f : Nat} {a b : Num} {p q r} (ha : Num.WF a) (hb : Num.WF b) (hp : info L a = .ok p)
    (hq : info L b = .ok q) (h0 : ¬ p.1 < 0) (h : ge L math f a b = .ok r) : r = true ↔ ¬ Below p q := by
  cases f with
  | zero => simp [ge] at h
  | succ f =>
    obtain ⟨sa, ta⟩ := p
    obtain ⟨sb, tb⟩ := q
    simp only [ge, hp, hq, if_neg h0] at h
    rw [← (cmp_nonneg (info_keyOk ha hp) (info_keyOk hb hq) h0).2]
    split at h
    · next h1 => cases h; rw [if_pos h1]
    · next h1 => cases h; rw [if_neg h1]

theorem map_not {x : Except Err Bool} {r} (h : x.map not = .ok r) : x = .ok (!r) := by
  cases x with
  | error e => cases h
  | ok b => simp only [Except.map, Except.ok.injEq] at h; subst h; simp

theorem cmp_sound {f : Nat} {a b : Num} {x y : Int} {p q r} (ha : Denotes a x) (hb : Denotes b y)
    (na : Normal math a) (nb : Normal math b) (hp : info L a = .ok p) (hq : info L b = .ok q) :
    (gt L math f a b = .ok r → (r = true ↔ Below q p)) ∧ (ge L math f a b = .ok r → (r = true ↔ ¬ Below p q)) := by
  by_cases h0 : p.1 < 0
  · cases f with
    | zero => exact ⟨fun h => by simp [gt] at h, fun h => by simp [ge] at h⟩
    | succ f =>
      obtain ⟨sa, ta⟩ := p
      obtain ⟨sb, tb⟩ := q
      have hne : ∀ x : Bool, x = true ↔ ¬ (!x) = true := by decide
      constructor
      · intro h
        simp only [gt, hp, if_pos h0] at h
        split at h
        · cases h
        · next a' ha' =>
          split at h
          · cases h
          · next b' hb' =>
            have ea := neg_normal (F := floats0 L math) ha.1 na ha'
            have eb := neg_normal (F := floats0 L math) hb.1 nb hb'
            subst ea; subst eb
            have := ge_nonneg (negN_denotes (floats0_ok L math) ha ha').1 (negN_denotes (floats0_ok L math) hb hb').1
              (info_neg ha hp) (info_neg hb hq) (by simp only at *; omega) (map_not h)
            rw [hne, this, below_neg (p := (sa, ta)) (q := (sb, tb)), not_not]
      · intro h
        simp only [ge, hp, if_pos h0] at h
        split at h
        · cases h
        · next a' ha' =>
          split at h
          · cases h
          · next b' hb' =>
            have ea := neg_normal (F := floats0 L math) ha.1 na ha'
            have eb := neg_normal (F := floats0 L math) hb.1 nb hb'
            subst ea; subst eb
            have := gt_nonneg (negN_denotes (floats0_ok L math) ha ha').1 (negN_denotes (floats0_ok L math) hb hb').1
              (info_neg ha hp) (info_neg hb hq) (by simp only at *; omega) (map_not h)
            rw [hne, this, below_neg (p := (sb, tb)) (q := (sa, ta))]
  · exact ⟨gt_nonneg ha.1 hb.1 hp hq h0, ge_nonneg ha.1 hb.1 hp hq h0⟩

end

theorem below_int (x y : Int) : Below (x.sign, (0, (x.natAbs : ℚ))) (y.sign, (0, (y.natAbs : ℚ))) ↔ x < y := by
  have hs : ∀ m n : Nat, Smaller (0, (m : ℚ)) (0, (n : ℚ)) ↔ m < n := by
    intro m n
    simp only [Smaller]
    constructor
    · rintro (h | ⟨_, h⟩)
      · omega
      · exact_mod_cast h
    · intro h; exact Or.inr ⟨trivial, by exact_mod_cast h⟩
  simp only [Below, hs]
  have hc : ∀ z : Int, (z < 0 ∧ z.sign = -1) ∨ (0 < z ∧ z.sign = 1) ∨ (z = 0 ∧ z.sign = 0) := by
    intro z
    rcases sign_cases z with h | h | h
    · exact Or.inl ⟨Int.sign_eq_neg_one_iff_neg.1 h, h⟩
    · exact Or.inr (Or.inl ⟨Int.sign_eq_one_iff_pos.1 h, h⟩)
    · exact Or.inr (Or.inr ⟨h, by rw [h]; rfl⟩)
  rcases hc x with ⟨h1, h2⟩ | ⟨h1, h2⟩ | ⟨h1, h2⟩ <;> rcases hc y with ⟨h3, h4⟩ | ⟨h3, h4⟩ | ⟨h3, h4⟩ <;> rw [h2, h4] <;> omega

/-! ## Mild numbers are large -/

theorem termsValue_nonneg : ∀ {ts : List ETerm}, AllWF ts → AllMild ts → 0 ≤ termsValue ts
  | [], _, _ => by simp [termsValue]
  | .mk b c e :: ts, hw, hm => by
    simp only [AllWF, ETerm.WF] at hw
    simp only [AllMild, ETerm.Mild] at hm
    have ih := termsValue_nonneg hw.2 hm.2
    simp only [termsValue, value_mk]
    have h1 : (0 : ℚ) ≤ c := by exact_mod_cast hm.1.1.le
    have h2 : (0 : ℚ) ≤ b := by exact_mod_cast (by omega : 0 ≤ b)
    positivity

set_option exponentiation.threshold 2000 in
theorem mild_large : ∀ n : Nat,
    (∀ a : Num, sizeOf a ≤ n → ∀ z : Int, Denotes a z → Mild a → tryEval a = none → 2 ^ 64 ≤ z) ∧
    (∀ ts : List ETerm, sizeOf ts ≤ n → AllWF ts → AllMild ts → evalSum ts = none → (2 : ℚ) ^ 1000 ≤ termsValue ts) := by
  intro n
  induction n with
  | zero =>
    constructor
    · intro a h; cases a <;> simp at h
    · intro ts h; cases ts <;> simp at h
  | succ n ih =>
    constructor
    · intro a hn z hz hm he
      cases a with
      | int z => simp [tryEval] at he
      | exp ts c d =>
        simp only [tryEval, Option.map_eq_none_iff] at he
        simp only [Num.exp.sizeOf_spec] at hn
        obtain ⟨p1, p2⟩ := int_of_denom hz
        have hw := hz.1; simp only [Num.WF] at hw
        simp only [Mild] at hm
        have h := ih.2 ts (by omega) hw.2.2.2 hm.1 he
        have h1 : (2 : ℚ) ^ 1000 + c ≤ z * d := by rw [← p1]; exact add_le_add_left h _
        have h1 : (2 : Int) ^ 1000 + c ≤ z * d := by exact_mod_cast h1
        have h2 : 2 ^ 64 * d ≤ z * d := Int.le_trans hm.2 h1
        exact Int.le_of_mul_le_mul_right h2 p2
    · intro ts hn hw hm he
      cases ts with
      | nil => simp [evalSum] at he
      | cons t ts =>
        cases t with
        | mk b c e =>
          simp only [List.cons.sizeOf_spec, ETerm.mk.sizeOf_spec] at hn
          simp only [AllWF] at hw
          simp only [AllMild] at hm
          by_cases ht : evalTerm (.mk b c e) = none
          · have h0 := termsValue_nonneg hw.2 hm.2
            have hwt := hw.1
            simp only [ETerm.WF] at hwt
            obtain ⟨h1, h2, h3, k, hk⟩ := hwt
            have hmt := hm.1
            simp only [ETerm.Mild] at hmt
            obtain ⟨m1, m2, m3⟩ := hmt
            have hk1000 : 1000 ≤ k := by
              simp only [evalTerm] at ht
              split at ht
              · next hev =>
                have := ih.1 e (by omega) k ⟨h3, by rw [hk]; simp⟩ m2 hev
                have : 2 ^ 64 ≤ k := by exact_mod_cast this
                omega
              · next v hv =>
                have := tryEval_sound (z := k) ⟨h3, by rw [hk]; simp⟩ hv
                subst this
                split at ht
                · next h0 => rw [h0] at hv; exact absurd hv m3
                · split at ht
                  · cases ht
                  · omega
            simp only [termsValue, value_mk, natOf_eq hk]
            have hc : (1 : ℚ) ≤ c := by exact_mod_cast (by omega : 1 ≤ c)
            have hb : (2 : ℚ) ≤ b := by exact_mod_cast h1
            have hp : (2 : ℚ) ^ 1000 ≤ (b : ℚ) ^ k :=
              le_trans (pow_le_pow_right₀ (by norm_num) hk1000) (pow_le_pow_left₀ (by norm_num) hb k)
            have hp' : (2 : ℚ) ^ 1000 ≤ c * (b : ℚ) ^ k := by
              calc (2 : ℚ) ^ 1000 ≤ (b : ℚ) ^ k := hp
                _ = 1 * (b : ℚ) ^ k := (one_mul _).symm
                _ ≤ c * (b : ℚ) ^ k := mul_le_mul_of_nonneg_right hc (by positivity)
            linarith
          · have hs : evalSum ts = none := by
              simp only [evalSum] at he
              split at he
              · cases he
              · next hx =>
                cases ht' : evalTerm (.mk b c e) with
                | none => exact absurd ht' ht
                | some v =>
                  cases hs' : evalSum ts with
                  | none => rfl
                  | some u => exact absurd hs' (hx v u ht')
            have h := ih.2 ts (by omega) hw.2 hm.2 hs
            have hwt := hw.1
            simp only [ETerm.WF] at hwt
            have hmt := hm.1
            simp only [ETerm.Mild] at hmt
            simp only [termsValue, value_mk]
            have h1 : (0 : ℚ) ≤ c := by exact_mod_cast hmt.1.le
            have h2 : (0 : ℚ) ≤ b := by exact_mod_cast (by omega : 0 ≤ b)
            have : 0 ≤ (c : ℚ) * (b : ℚ) ^ natOf e := by positivity
            linarith

/-- the comparison of `exp_mod` is right for mild exponents -/
theorem mild_compared (L : Logs) (math : Math.Floats) (fuel : Nat) {e : Num} (he : Mild e) :
    ComparedRight (floats L math fuel) (2 ^ 64) e := by
  intro n k0 hd hk hlt
  cases hv : tryEval e with
  | none =>
    have := (mild_large (sizeOf e)).1 e (Nat.le_refl _) n hd he hv
    have : 2 ^ 64 ≤ n := by exact_mod_cast this
    omega
  | some v =>
    have := tryEval_sound hd hv
    subst this
    simp only [floats, lt] at hlt
    cases hge : ge L math fuel e (.int k0) with
    | error x => rw [hge] at hlt; simp [Except.map] at hlt
    | ok r =>
      rw [hge] at hlt
      simp only [Except.map, Bool.not_eq_false'] at hlt
      subst hlt
      have := (ge_nonneg hd.1 (by simp [Num.WF]) (info_eval hv) (info_eval (a := .int k0) rfl)
        (by simp only; rcases sign_cases n with h | h | h
            · have := Int.sign_eq_neg_one_iff_neg.1 h; omega
            · omega
            · rw [h]; decide) hge).1 rfl
      rw [below_int] at this
      omega

end Model.ExpInt
