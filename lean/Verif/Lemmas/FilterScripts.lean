import Verif.Spec.FilterScripts
import Verif.Props.FileTools
import Verif.Lemmas.Table
import Mathlib.Data.Nat.Digits.Lemmas
import Mathlib.Algebra.BigOperators.Group.Multiset.Basic
import Mathlib.Algebra.BigOperators.Group.List.Basic

/-!
# Lemmas on the filter scripts
-/

namespace Model.FilterScripts
open Model.Status Model.FileTools Spec

/-! ## Strings of digits -/

theorem strLess_zeros : ∀ (l : List Nat) (k : Nat), strLess l (List.replicate k 0) = true ↔ ∃ j < k, l = List.replicate j 0
  | [], 0 => by simp [strLess]
  | [], k + 1 => by simp [strLess, List.replicate_succ]
  | a :: as, 0 => by simp [strLess]
  | a :: as, k + 1 => by
    rw [List.replicate_succ]
    unfold strLess
    rcases Nat.eq_zero_or_pos a with rfl | ha
    · rw [if_neg (by omega), if_neg (by omega), strLess_zeros as k]
      constructor
      · rintro ⟨j, hj, rfl⟩
        exact ⟨j + 1, by omega, rfl⟩
      · rintro ⟨j, hj, h⟩
        cases j with
        | zero => simp at h
        | succ j => exact ⟨j, by omega, by simpa [List.replicate_succ] using h⟩
    · rw [if_neg (by omega), if_pos ha]
      constructor
      · intro h; cases h
      · rintro ⟨j, hj, h⟩
        cases j with
        | zero => simp at h
        | succ j =>
          rw [List.replicate_succ] at h
          injection h with h1 h2
          omega

theorem numeral_pow (j : Nat) : numeral (10 ^ j) = 1 :: List.replicate j 0 := by
  unfold numeral
  rw [if_neg (by positivity)]
  have : Nat.digits 10 (10 ^ j) = List.replicate j 0 ++ [1] := by
    have := Nat.digits_base_pow_mul (b := 10) (k := j) (m := 1) (by norm_num) (by norm_num)
    simpa using this
  rw [this]
  simp

theorem numeral_inj {m n : Nat} (h : numeral m = numeral n) : m = n := by
  unfold numeral at h
  have key : ∀ x : Nat, x ≠ 0 → (Nat.digits 10 x).reverse ≠ [0] := by
    intro x hx he
    have h1 : Nat.digits 10 x = [0] := by simpa using congrArg List.reverse he
    have := Nat.ofDigits_digits 10 x
    rw [h1] at this
    simp at this
    omega
  split_ifs at h with h1 h2 h2
  · omega
  · exact absurd h.symm (key _ h2)
  · exact absurd h (key _ h1)
  · exact Nat.digits_inj_iff.1 (List.reverse_injective h)

theorem smallEnough_iff (n : Nat) : smallEnough n = true ↔ n = 0 ∨ ∃ j < 6, n = 10 ^ j := by
  rcases Nat.eq_zero_or_pos n with rfl | hn
  · simp [smallEnough, numeral, strLess]
  have hd : Nat.digits 10 n ≠ [] := Nat.digits_ne_nil_iff_ne_zero.2 (by omega)
  obtain ⟨d, ds, hl⟩ : ∃ d ds, numeral n = d :: ds := by
    unfold numeral
    rw [if_neg (by omega)]
    exact List.exists_cons_of_ne_nil (by simpa using hd)
  have hd0 : d ≠ 0 := by
    have h1 := Nat.getLast_digit_ne_zero 10 (m := n) (by omega)
    have h2 : (Nat.digits 10 n).reverse = d :: ds := by rwa [numeral, if_neg (by omega)] at hl
    have h3 : Nat.digits 10 n = ds.reverse ++ [d] := by
      rw [← List.reverse_reverse (Nat.digits 10 n), h2, List.reverse_cons]
    have h4 : (Nat.digits 10 n).getLast hd = d := by simp only [h3, List.getLast_append_singleton]
    rwa [h4] at h1
  have hz : ([0, 0, 0, 0, 0, 0] : List Nat) = List.replicate 6 0 := rfl
  unfold smallEnough
  rw [hl]
  unfold strLess
  rw [hz]
  constructor
  · intro h
    by_cases h1 : d < 1
    · omega
    · rw [if_neg h1] at h
      by_cases h2 : 1 < d
      · rw [if_pos h2] at h; cases h
      · rw [if_neg h2, strLess_zeros] at h
        obtain ⟨j, hj, rfl⟩ := h
        refine Or.inr ⟨j, hj, numeral_inj ?_⟩
        rw [hl, numeral_pow, show d = 1 by omega]
  · rintro (h | ⟨j, hj, rfl⟩)
    · omega
    · rw [numeral_pow] at hl
      injection hl with h1 h2
      rw [← h1, ← h2, if_neg (by omega), if_neg (by omega), strLess_zeros]
      exact ⟨j, hj, rfl⟩

section
variable {α β E : Type} (status : α → BBStatus) (loads : List Nat → Option E) (value : E → Int)

/-! ## Categorising one file -/

theorem okRecs_undamaged (l : List α) : okRecs (undamaged l) = l := by simp [okRecs, undamaged, List.filterMap_map]

open Classical in
theorem categorize_one {out : List (Item α)} {o : Output α} (h : categorizeFiles status loads value [out] Output.new = (o, false)) :
    ∃ l, out = undamaged l ∧ (∀ c, o.file c = l.filter fun a => decide (Belongs loads value (status a) c)) ∧
      ∀ a ∈ l, ∃! c, a ∈ o.file c := by
  obtain ⟨l, -, h2, h3, -, -, h6⟩ := Props.C53_categorize status loads value [out]
  obtain ⟨h7, -⟩ := (Props.C53_categorize_ok status loads value [out]).1 (by rw [h])
  obtain ⟨l', hl'⟩ := h7 out (by simp)
  rw [h] at h2 h3 h6
  have hl : l = l' := by
    rw [h6 rfl, hl']
    simp [okRecs_undamaged]
  subst hl
  exact ⟨l, hl', h2, h3⟩

open Classical in
/-- the records in the files are the records of the input -/
theorem perm_files {l : List α} {file : Category → List α}
    (hf : ∀ c, file c = l.filter fun a => decide (Belongs loads value (status a) c)) (hu : ∀ a ∈ l, ∃! c, a ∈ file c) :
    (decidedCategories.flatMap file ++ file .unknown).Perm l := by
  have hall : ∀ a ∈ l, ∃ c, Belongs loads value (status a) c := by
    intro a ha
    obtain ⟨c, hc, -⟩ := hu a ha
    rw [hf c] at hc
    exact ⟨c, by simpa using (List.mem_filter.1 hc).2⟩
  obtain rfl : file = fun c => l.filter fun a => decide (Belongs loads value (status a) c) := funext hf
  clear hf hu
  induction l with
  | nil => simp [decidedCategories]
  | cons a l ih =>
    obtain ⟨c, hc⟩ := hall a (by simp)
    have hx : ∀ d, Belongs loads value (status a) d ↔ d = c :=
      fun d => ⟨fun h => belongs_unique loads value h hc, fun h => h ▸ hc⟩
    have ih' := ih (fun b hb => hall b (List.mem_cons_of_mem _ hb))
    simp only [List.filter_cons, hx]
    refine List.Perm.trans ?_ (List.Perm.cons a ih')
    clear ih ih' hx hall hc
    classical
    rw [List.perm_iff_count]
    intro x
    cases c <;> simp [decidedCategories, List.count_cons, List.count_append] <;> omega

open Classical in
theorem file_unknown {l : List α} {file : Category → List α}
    (hf : ∀ c, file c = l.filter fun a => decide (Belongs loads value (status a) c)) :
    file .unknown = l.filter fun a => !(status a).halt.decided := by
  rw [hf]
  refine List.filter_congr fun a _ => ?_
  cases h : (status a).halt.decided <;> simp [Belongs, h]

open Classical in
theorem perm_decided {l : List α} {file : Category → List α}
    (hf : ∀ c, file c = l.filter fun a => decide (Belongs loads value (status a) c)) (hu : ∀ a ∈ l, ∃! c, a ∈ file c) :
    (decidedCategories.flatMap file).Perm (l.filter fun a => (status a).halt.decided) := by
  have h := (perm_files status loads value hf hu).filter fun a => (status a).halt.decided
  rw [List.filter_append, file_unknown status loads value hf, List.filter_filter] at h
  have h1 : (l.filter fun a => (status a).halt.decided && !(status a).halt.decided) = [] := by
    rw [List.filter_eq_nil_iff]; simp
  have h2 : ((decidedCategories.flatMap file).filter fun a => (status a).halt.decided) = decidedCategories.flatMap file := by
    rw [List.filter_eq_self]
    intro a ha
    obtain ⟨c, hc, hac⟩ := List.mem_flatMap.1 ha
    rw [hf c] at hac
    have hb := (List.mem_filter.1 hac).2
    rw [decide_eq_true_eq] at hb
    simp only [decidedCategories, List.mem_cons, List.not_mem_nil, or_false] at hc
    rcases hc with rfl | rfl | rfl | rfl | rfl | rfl | rfl <;> exact hb.1
  rwa [h1, h2, List.append_nil] at h

/-! ## `filter.sh` -/

/-- the run went on to the point where `unknown.pb` is replaced -/
def Reached (root : Root α β) (cmd : Command α) (l : List α) : Prop :=
  ∃ f, root.unknown = some f ∧ cmd f = (some (undamaged l), true) ∧ ∀ a ∈ l, ∃ c, Belongs loads value (status a) c

theorem filterSh_early (P : Programs α β) (root : Root α β) (sub : String) (cmd : Command α)
    (h : ¬ ∃ l, Reached status loads value root cmd l) :
    ∃ d, filterSh status loads value P root sub cmd = ({ root with dirs := Function.update root.dirs sub (some d) }, false) := by
  unfold filterSh
  cases hu : root.unknown with
  | none => exact ⟨_, rfl⟩
  | some f =>
    rcases hc : cmd f with ⟨_ | out, _ | _⟩
    · exact ⟨_, by simp only [hc]; rfl⟩
    · exact ⟨_, by simp only [hc]; rfl⟩
    · exact ⟨_, by simp only [hc]; rfl⟩
    · rcases hk : categorizeFiles status loads value [out] Output.new with ⟨o, _ | _⟩
      · exfalso
        obtain ⟨h7, h8⟩ := (Props.C53_categorize_ok status loads value [out]).1 (by rw [hk])
        obtain ⟨l, hl⟩ := h7 out (by simp)
        refine h ⟨l, f, hu, hl ▸ hc, fun a ha => h8 a ?_⟩
        rw [hl]
        simpa [okRecs_undamaged] using ha
      · exact ⟨_, by simp only [hc, hk]; rfl⟩

open Classical in
theorem filterSh_late (P : Programs α β) {root : Root α β} (sub : String) {cmd : Command α} {l : List α}
    (h : Reached status loads value root cmd l) :
    ∃ f file text, root.unknown = some f ∧ cmd f = (some (undamaged l), true) ∧
      (∀ c, file c = l.filter fun a => decide (Belongs loads value (status a) c)) ∧ (∀ a ∈ l, ∃! c, a ∈ file c) ∧
      let new := undamaged (l.filter fun a => !(status a).halt.decided)
      let ok := P.analyze (undamaged l) && (!smallEnough (P.size new) || (P.convert new).isSome)
      filterSh status loads value P root sub cmd =
        (⟨some new, text, Function.update root.dirs sub (some ⟨some f, some (undamaged l), some file⟩)⟩, ok) ∧
      text = if (P.analyze (undamaged l) && smallEnough (P.size new) && (P.convert new).isSome) = true then P.convert new
        else root.text := by
  obtain ⟨f, h1, h2, h3⟩ := h
  rcases hk : categorizeFiles status loads value [undamaged l] Output.new with ⟨o, b⟩
  have hb : b = false := by
    have := (Props.C53_categorize_ok status loads value [undamaged l]).2
      ⟨fun g hg => ⟨l, by simpa using hg⟩, by simpa [okRecs_undamaged] using h3⟩
    rwa [hk] at this
  subst hb
  obtain ⟨l', hl, hf, hu⟩ := categorize_one status loads value hk
  obtain rfl : l = l' := by rw [← okRecs_undamaged l, hl, okRecs_undamaged]
  have hn := file_unknown status loads value hf
  set new := undamaged (l.filter fun a => !(status a).halt.decided) with hnew
  refine ⟨f, o.file, _, h1, h2, hf, hu, ?_, rfl⟩
  have hm : (o.file .unknown).map Item.ok = new := by rw [hn]; rfl
  unfold filterSh
  simp only [h1, h2, hk, hm]
  cases ha : P.analyze (undamaged l) <;> cases hs : smallEnough (P.size new) <;> cases hc : P.convert new <;> simp

theorem filterSh_reached (P : Programs α β) {root root' : Root α β} {sub : String} {cmd : Command α} {ok : Bool}
    (h : filterSh status loads value P root sub cmd = (root', ok)) (h' : ok = true ∨ root'.unknown ≠ root.unknown) :
    ∃ l, Reached status loads value root cmd l := by
  by_contra hn
  obtain ⟨d, hd⟩ := filterSh_early status loads value P root sub cmd hn
  rw [hd, Prod.mk.injEq] at h
  obtain ⟨rfl, rfl⟩ := h
  simp at h'

/-! ## Counting -/

theorem mapO_iff {γ δ : Type} (f : γ → Option δ) : ∀ (l : List γ) (r : List δ),
    Py.mapO f l = some r ↔ List.Forall₂ (fun a k => f a = some k) l r
  | [], r => by
    cases r <;> simp [Py.mapO]
  | a :: l, r => by
    unfold Py.mapO
    cases ha : f a with
    | none => cases r <;> simp [ha]
    | some b =>
      cases hl : Py.mapO f l with
      | none =>
        simp only [reduceCtorEq, false_iff]
        intro h
        cases h with
        | cons h1 h2 =>
          rw [(mapO_iff f l _).2 h2] at hl
          cases hl
      | some bs =>
        have := (mapO_iff f l bs).1 hl
        simp only [Option.some.injEq]
        constructor
        · rintro rfl
          exact .cons ha this
        · intro h
          cases h with
          | cons h1 h2 =>
            have h3 := (mapO_iff f l _).2 h2
            rw [hl] at h3
            rw [ha] at h1
            cases h1; cases h3; rfl

theorem total_iff {γ : Type} (count : γ → Option Int) (l : List γ) (n : Int) :
    (Py.mapO count l).map List.sum = some n ↔ CountSum count l n := by
  unfold CountSum
  rw [Option.map_eq_some_iff]
  simp only [mapO_iff]

theorem total_append {γ : Type} {count : γ → Option Int} {l l' : List γ} {n n' : Int} (h : CountSum count l n) (h' : CountSum count l' n') :
    CountSum count (l ++ l') (n + n') := by
  obtain ⟨ns, h1, rfl⟩ := h
  obtain ⟨ns', h1', rfl⟩ := h'
  exact ⟨ns ++ ns', List.rel_append h1 h1', by simp⟩

theorem total_perm {γ : Type} {count : γ → Option Int} {l l' : List γ} {n : Int} (hp : l.Perm l') (h : CountSum count l n) :
    CountSum count l' n := by
  obtain ⟨ns, h1, rfl⟩ := h
  obtain ⟨ns', h2, h3⟩ := List.perm_comp_forall₂ hp.symm h1
  exact ⟨ns', h2, h3.sum_eq⟩

theorem countPb_iff (count : α → Option Int) (f : List (Item α)) (n : Int) :
    countPb count f = some n ↔ ∃ l, f = undamaged l ∧ CountSum count l n := by
  unfold countPb
  constructor
  · intro h
    split_ifs at h with he
    refine ⟨_, ?_, (total_iff _ _ _).1 h⟩
    clear h
    induction f with
    | nil => rfl
    | cons i f ih =>
      cases i <;> simp [readAll] at he ⊢
      exact congrArg (List.cons _) (ih he)
  · rintro ⟨l, rfl, h⟩
    rw [readAll_undamaged, if_pos rfl]
    exact (total_iff _ _ _).2 h

end

end Model.FilterScripts
