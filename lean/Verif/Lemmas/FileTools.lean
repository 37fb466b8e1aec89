import Verif.Spec.FileTools
import Mathlib.Data.List.Perm.Subperm
import Mathlib.Data.Nat.Choose.Basic
import Mathlib.Tactic.FieldSimp
import Mathlib.Tactic.Ring
import Mathlib.Tactic.Linarith
import Mathlib.Algebra.Order.Ring.Rat
import Mathlib.Algebra.BigOperators.Ring.Finset
import Mathlib.Data.Fintype.BigOperators
import Mathlib.Algebra.BigOperators.Intervals

/-! Lemmas about the file tools. -/

namespace Model.FileTools
open Spec Model.Status

section
variable {α E : Type} (status : α → BBStatus) (loads : List Nat → Option E) (value : E → Int)

theorem getBigInt_none_iff (f : BigInt) : getBigInt loads f = some none ↔ f = .unset := by
  cases f <;> simp [getBigInt]

theorem getBigInt_other (f : BigInt) : getBigInt loads f ≠ some (some .other) := by
  cases f <;> simp [getBigInt]

/-- the three cases of reading a field -/
theorem field_cases (f : BigInt) :
    (f = .unset ∧ getBigInt loads f = some none) ∨
    (∃ v x, Stored loads value f v ∧ getBigInt loads f = some (some x) ∧ valOf value x = some v) ∨
    (¬ Readable loads value f ∧ getBigInt loads f = none) := by
  cases h : getBigInt loads f with
  | none =>
    refine Or.inr (Or.inr ⟨?_, rfl⟩)
    rintro (rfl | ⟨v, hv | ⟨e, hv, -⟩⟩)
    · simp [getBigInt] at h
    · rw [h] at hv; cases hv
    · rw [h] at hv; cases hv
  | some x =>
    cases x with
    | none => exact Or.inl ⟨(getBigInt_none_iff loads f).1 h, rfl⟩
    | some x =>
      cases x with
      | int v => exact Or.inr (Or.inl ⟨v, _, Or.inl h, rfl, rfl⟩)
      | exp e => exact Or.inr (Or.inl ⟨value e, _, Or.inr ⟨e, h, rfl⟩, rfl, rfl⟩)
      | other => exact absurd h (getBigInt_other loads f)

theorem stored_unique {f : BigInt} {v w : Int} (h : Stored loads value f v) (h' : Stored loads value f w) : v = w := by
  rcases h with h | ⟨e, h, rfl⟩ <;> rcases h' with h' | ⟨e', h', rfl⟩ <;> rw [h] at h' <;> simp_all

theorem stored_set {f : BigInt} {v : Int} (h : Stored loads value f v) : f ≠ .unset := by
  rintro rfl
  rcases h with h | ⟨e, h, rfl⟩ <;> simp [getBigInt] at h

theorem belongs_unique {s : BBStatus} {c d : Category} (h : Belongs loads value s c) (h' : Belongs loads value s d) : c = d := by
  cases c <;> cases d <;> simp only [Belongs] at h h' <;> first
    | rfl
    | (exfalso; obtain ⟨h1, h2, v, h3, h4⟩ := h; obtain ⟨g1, g2, w, g3, g4⟩ := h'
       have := stored_unique loads value h3 g3; omega)
    | (exfalso; obtain ⟨h1, h2, h5, v, h3, h4⟩ := h; obtain ⟨g1, g2, g5, w, g3, g4⟩ := h'
       have := stored_unique loads value h3 g3; omega)
    | (exfalso; obtain ⟨h1, h2, v, h3, h4⟩ := h; obtain ⟨g1, g2, g3⟩ := h'; exact stored_set loads value h3 g3)
    | (exfalso; obtain ⟨h1, h2, v, h3, h4⟩ := h'; obtain ⟨g1, g2, g3⟩ := h; exact stored_set loads value h3 g3)
    | (exfalso; obtain ⟨h1, h2, h5, v, h3, h4⟩ := h; obtain ⟨g1, g2, g5, g3⟩ := h'; exact stored_set loads value h3 g3)
    | (exfalso; obtain ⟨h1, h2, h5, v, h3, h4⟩ := h'; obtain ⟨g1, g2, g5, g3⟩ := h; exact stored_set loads value h3 g3)
    | (exfalso; simp_all)

theorem categorize_belongs {s : BBStatus} {c : Category} (h : categorize loads value s = some c) : Belongs loads value s c := by
  unfold categorize at h
  by_cases hd : s.halt.decided = true
  · by_cases hh : s.halt.halting = true
    · simp only [hd, hh, not_true_eq_false, if_false, if_true] at h
      rcases field_cases loads value s.halt.steps with ⟨h1, h2⟩ | ⟨v, x, h1, h2, h3⟩ | ⟨h1, h2⟩
      · simp only [h2, Option.some.injEq] at h
        subst h; exact ⟨hd, hh, h1⟩
      · simp only [h2, h3] at h
        split at h <;> simp only [Option.some.injEq] at h <;> subst h
        · exact ⟨hd, hh, v, h1, by assumption⟩
        · exact ⟨hd, hh, v, h1, by omega⟩
      · simp [h2] at h
    · simp only [Bool.not_eq_true] at hh
      by_cases hq : s.quasi.quasihalting = true
      · simp only [hd, hh, hq, not_true_eq_false, if_false, if_true, Bool.false_eq_true] at h
        rcases field_cases loads value s.quasi.steps with ⟨h1, h2⟩ | ⟨v, x, h1, h2, h3⟩ | ⟨h1, h2⟩
        · simp only [h2, Option.some.injEq] at h
          subst h; exact ⟨hd, hh, hq, h1⟩
        · simp only [h2, h3] at h
          split at h <;> simp only [Option.some.injEq] at h <;> subst h
          · exact ⟨hd, hh, hq, v, h1, by assumption⟩
          · exact ⟨hd, hh, hq, v, h1, by omega⟩
        · simp [h2] at h
      · simp only [Bool.not_eq_true] at hq
        simp only [hd, hh, hq, not_true_eq_false, if_false, Bool.false_eq_true, Option.some.injEq] at h
        subst h; exact ⟨hd, hh, hq⟩
  · rw [if_pos hd, Option.some.injEq] at h
    subst h
    simpa [Belongs] using hd

/-- it raises exactly if the number that is looked at cannot be read -/
theorem categorize_none {s : BBStatus} : categorize loads value s = none ↔
    s.halt.decided = true ∧ ((s.halt.halting = true ∧ ¬ Readable loads value s.halt.steps) ∨
      (s.halt.halting = false ∧ s.quasi.quasihalting = true ∧ ¬ Readable loads value s.quasi.steps)) := by
  unfold categorize
  by_cases hd : s.halt.decided = true
  · by_cases hh : s.halt.halting = true
    · simp only [hd, hh, not_true_eq_false, if_false, if_true]
      rcases field_cases loads value s.halt.steps with ⟨h1, h2⟩ | ⟨v, x, h1, h2, h3⟩ | ⟨h1, h2⟩
      · rw [h2]; simp [h1, Readable]
      · simp only [h2, h3]
        have : Readable loads value s.halt.steps := Or.inr ⟨v, h1⟩
        split <;> simp [this]
      · simp [h2, h1]
    · simp only [Bool.not_eq_true] at hh
      by_cases hq : s.quasi.quasihalting = true
      · simp only [hd, hh, hq, not_true_eq_false, if_false, if_true, Bool.false_eq_true]
        rcases field_cases loads value s.quasi.steps with ⟨h1, h2⟩ | ⟨v, x, h1, h2, h3⟩ | ⟨h1, h2⟩
        · rw [h2]; simp [h1, Readable]
        · simp only [h2, h3]
          have : Readable loads value s.quasi.steps := Or.inr ⟨v, h1⟩
          split <;> simp [this]
        · simp [h2, h1]
      · simp only [Bool.not_eq_true] at hq
        simp [hd, hh, hq]
  · rw [if_pos hd]
    simp [hd]

/-- what the output files hold after the records `l` -/
def outOf [DecidableEq (Option Category)] (l : List α) : Output α where
  file c := l.filter fun a => categorize loads value (status a) = some c
  count c := l.countP fun a => categorize loads value (status a) = some c
  numWritten := l.length

theorem writeRecord_out (l : List α) (a : α) : writeRecord status loads value (outOf status loads value l) a =
    (categorize loads value (status a)).map fun _ => outOf status loads value (l ++ [a]) := by
  unfold writeRecord
  cases h : categorize loads value (status a) with
  | none => rfl
  | some c =>
    simp only [Option.map_some, Option.some.injEq, outOf, Output.mk.injEq, List.filter_append, List.countP_append,
      List.length_append, List.length_singleton, and_true]
    constructor
    · funext d
      by_cases hd : d = c
      · subst hd; simp [h]
      · rw [Function.update_of_ne hd]; simp [h, Ne.symm hd]
    · funext d
      by_cases hd : d = c
      · subst hd; simp [h]
      · rw [Function.update_of_ne hd]; simp [h, Ne.symm hd]

theorem categorizeList_out (l pre : List α) : ∃ n, n ≤ l.length ∧
    (categorizeList status loads value l (outOf status loads value pre)).1 = outOf status loads value (pre ++ l.take n) ∧
    ((categorizeList status loads value l (outOf status loads value pre)).2 = false →
      n = l.length ∧ ∀ a ∈ l, categorize loads value (status a) ≠ none) ∧
    ((categorizeList status loads value l (outOf status loads value pre)).2 = true →
      ∃ a, l[n]? = some a ∧ categorize loads value (status a) = none) ∧
    ∀ a ∈ l.take n, categorize loads value (status a) ≠ none := by
  induction l generalizing pre with
  | nil => exact ⟨0, by simp, by simp [categorizeList], by simp, by simp [categorizeList], by simp⟩
  | cons a l ih =>
    simp only [categorizeList, writeRecord_out]
    cases h : categorize loads value (status a) with
    | none => exact ⟨0, by simp, by simp, by simp, by simp [h], by simp⟩
    | some c =>
      obtain ⟨n, h1, h2, h3, h4, h5⟩ := ih (pre ++ [a])
      refine ⟨n + 1, by simpa using h1, by simpa using h2, ?_, by simpa using h4, ?_⟩
      · intro hh
        obtain ⟨h6, h7⟩ := h3 hh
        refine ⟨by simp [h6], fun b hb => ?_⟩
        rcases List.mem_cons.1 hb with rfl | hb
        · simp [h]
        · exact h7 b hb
      · intro b hb
        rw [List.take_succ_cons] at hb
        rcases List.mem_cons.1 hb with rfl | hb
        · simp [h]
        · exact h5 b hb

theorem readAll_prefix (f : List (Item α)) : (readAll f).1 <+: okRecs f := by
  induction f with
  | nil => simp [readAll]
  | cons i f ih =>
    cases i <;> simp [readAll, okRecs]
    exact ih

theorem readAll_eof {f : List (Item α)} : (readAll f).2 = .eof ↔ f = undamaged (okRecs f) := by
  have hne : ∀ {i : Item α} {l : List (Item α)} {r : List α}, i :: l = undamaged r → ∃ a, i = .ok a := by
    intro i l r h
    have : i ∈ undamaged r := h ▸ List.mem_cons_self
    obtain ⟨a, -, rfl⟩ := List.mem_map.1 this
    exact ⟨a, rfl⟩
  induction f with
  | nil => simp [readAll, undamaged, okRecs]
  | cons i f ih =>
    cases i with
    | ok a => simpa [readAll, undamaged, okRecs] using ih
    | bad => exact ⟨fun h => (by cases h), fun h => by obtain ⟨a, ha⟩ := hne h; cases ha⟩
    | cutData => exact ⟨fun h => (by cases h), fun h => by obtain ⟨a, ha⟩ := hne h; cases ha⟩
    | cutLen => exact ⟨fun h => (by cases h), fun h => by obtain ⟨a, ha⟩ := hne h; cases ha⟩

theorem readAll_of_eof {f : List (Item α)} (h : (readAll f).2 = .eof) : (readAll f).1 = okRecs f := by
  induction f with
  | nil => rfl
  | cons i f ih =>
    cases i with
    | ok a => simp only [readAll] at h ⊢; simp [okRecs, ih h]
    | bad => cases h
    | cutData => cases h
    | cutLen => cases h

theorem readAll_undamaged (l : List α) : readAll (undamaged l) = (l, .eof) := by
  induction l with
  | nil => rfl
  | cons a l ih => simp only [undamaged, List.map_cons, readAll] at ih ⊢; rw [ih]

theorem categorizeFiles_out (fs : List (List (Item α))) (pre : List α) :
    let r := categorizeFiles status loads value fs (outOf status loads value pre)
    ∃ l, l <+: fs.flatMap okRecs ∧ r.1 = outOf status loads value (pre ++ l) ∧
      (∀ a ∈ l, categorize loads value (status a) ≠ none) ∧
      (r.2 = false ↔ (∀ f ∈ fs, f = undamaged (okRecs f)) ∧ ∀ a ∈ fs.flatMap okRecs, categorize loads value (status a) ≠ none) ∧
      (r.2 = false → l = fs.flatMap okRecs) := by
  induction fs generalizing pre with
  | nil => exact ⟨[], by simp, by simp [categorizeFiles], by simp, by simp [categorizeFiles], by simp⟩
  | cons f fs ih =>
    obtain ⟨n, h1, h2, h3, h4, h5⟩ := categorizeList_out status loads value (readAll f).1 pre
    have hpre : (readAll f).1.take n <+: (f :: fs).flatMap okRecs := by
      rw [List.flatMap_cons]
      exact ((List.take_prefix _ _).trans (readAll_prefix f)).trans (List.prefix_append _ _)
    have hmem : ∀ a, (readAll f).1[n]? = some a → a ∈ (f :: fs).flatMap okRecs := by
      intro a ha
      rw [List.flatMap_cons]
      exact List.mem_append_left _ ((readAll_prefix f).subset (List.mem_of_getElem? ha))
    unfold categorizeFiles
    rcases hr : categorizeList status loads value (readAll f).1 (outOf status loads value pre) with ⟨out, b⟩
    rw [hr] at h2 h3 h4
    cases b with
    | true =>
      obtain ⟨a, ha, ha2⟩ := h4 rfl
      refine ⟨(readAll f).1.take n, hpre, h2, h5, ?_, fun h => by cases h⟩
      simp only [Bool.true_eq_false, false_iff, not_and]
      exact fun _ h => h a (hmem a ha) ha2
    | false =>
      obtain ⟨h6, h7⟩ := h3 rfl
      subst h6
      rw [List.take_length] at hpre h2 h5
      by_cases he : (readAll f).2 = .eof
      · obtain ⟨l, g1, g2, g3, g4, g5⟩ := ih (pre ++ (readAll f).1)
        simp only at h2
        simp only [if_pos he, h2]
        have hrd := readAll_of_eof he
        refine ⟨(readAll f).1 ++ l, ?_, by simpa using g2, ?_, ?_, ?_⟩
        · rw [List.flatMap_cons, ← hrd]; simpa using g1
        · intro a ha
          rcases List.mem_append.1 ha with ha | ha
          · exact h7 a ha
          · exact g3 a ha
        · rw [g4, List.flatMap_cons, ← hrd]
          simp only [List.mem_cons, forall_eq_or_imp, List.mem_append]
          constructor
          · rintro ⟨k1, k2⟩
            exact ⟨⟨readAll_eof.1 he, k1⟩, fun a ha => ha.elim (h7 a) (k2 a)⟩
          · rintro ⟨⟨-, k1⟩, k2⟩
            exact ⟨k1, fun a ha => k2 a (Or.inr ha)⟩
        · intro hh
          rw [List.flatMap_cons, ← hrd, g5 hh]
      · simp only [if_neg he]
        refine ⟨(readAll f).1, hpre, h2, h7, ?_, fun h => by cases h⟩
        simp only [Bool.true_eq_false, false_iff, not_and]
        exact fun h => absurd (readAll_eof.2 (h f List.mem_cons_self)) he

/-! ## Sorting -/

theorem sortKey_some {a : α} {v : Int} : sortKey status loads value a = some v ↔ ScoreIs loads value (status a) v := by
  unfold sortKey ScoreIs
  rcases field_cases loads value (status a).halt.score with ⟨h1, h2⟩ | ⟨w, x, h1, h2, h3⟩ | ⟨h1, h2⟩
  · rw [h2, h1]
    simp only [Option.some.injEq, true_and]
    constructor
    · exact fun h => Or.inr h.symm
    · rintro (h | h)
      · exact absurd rfl (stored_set loads value h)
      · exact h.symm
  · simp only [h2, h3, Option.some.injEq]
    constructor
    · rintro rfl; exact Or.inl h1
    · rintro (h | ⟨h, -⟩)
      · exact stored_unique loads value h1 h
      · exact absurd h (stored_set loads value h1)
  · simp only [h2, reduceCtorEq, false_iff]
    rintro (h | ⟨h, -⟩)
    · exact h1 (Or.inr ⟨v, h⟩)
    · exact h1 (Or.inl h)

theorem sortKey_none {a : α} : sortKey status loads value a = none ↔ ¬ Readable loads value (status a).halt.score := by
  constructor
  · rintro h (hu | ⟨v, hv⟩)
    · have := (sortKey_some status loads value (a := a) (v := 0)).2 (Or.inr ⟨hu, rfl⟩)
      rw [h] at this; cases this
    · have := (sortKey_some status loads value (a := a) (v := v)).2 (Or.inl hv)
      rw [h] at this; cases this
  · intro h
    cases hk : sortKey status loads value a with
    | none => rfl
    | some v =>
      rcases (sortKey_some status loads value).1 hk with hv | ⟨hu, -⟩
      · exact absurd (Or.inr ⟨v, hv⟩) h
      · exact absurd (Or.inl hu) h

theorem keyed_some {l : List α} {k : List (Int × α)} (h : keyed status loads value l = some k) :
    k.map (·.2) = l ∧ ∀ x ∈ k, sortKey status loads value x.2 = some x.1 := by
  induction l generalizing k with
  | nil => simp only [keyed, Option.some.injEq] at h; subst h; simp
  | cons a l ih =>
    simp only [keyed] at h
    split at h
    · rename_i v k' hv hk
      simp only [Option.some.injEq] at h
      subst h
      obtain ⟨h1, h2⟩ := ih hk
      exact ⟨by simp [h1], fun x hx => (List.mem_cons.1 hx).elim (fun e => e ▸ hv) (h2 x)⟩
    · cases h

theorem keyed_none {l : List α} : keyed status loads value l = none ↔ ∃ a ∈ l, sortKey status loads value a = none := by
  induction l with
  | nil => simp [keyed]
  | cons a l ih =>
    simp only [keyed, List.mem_cons, exists_eq_or_imp, ← ih]
    cases sortKey status loads value a <;> cases keyed status loads value l <;> simp

/-- a stable sort keeps the order of the elements with the same key -/
theorem mergeSort_filter (l : List (Int × α)) (v : Int) :
    (l.mergeSort fun x y => decide (y.1 ≤ x.1)).filter (fun x => x.1 = v) = l.filter fun x => x.1 = v := by
  have hs : List.Sublist (l.filter fun x => x.1 = v) (l.mergeSort fun x y => decide (y.1 ≤ x.1)) := by
    apply List.sublist_mergeSort
    · intro a b c; simp only [decide_eq_true_eq]; omega
    · intro a b; simp only [Bool.or_eq_true, decide_eq_true_eq]; omega
    · rw [List.pairwise_iff_forall_sublist]
      intro a b hab
      have ha := hab.subset (List.mem_cons_self)
      have hb := hab.subset (List.mem_cons_of_mem _ List.mem_cons_self)
      simp only [List.mem_filter, decide_eq_true_eq] at ha hb
      simp [ha.2, hb.2]
    · exact List.filter_sublist
  have h1 := hs.filter fun x => decide (x.1 = v)
  rw [List.filter_filter] at h1
  simp only [Bool.and_self] at h1
  exact (h1.eq_of_length ((List.mergeSort_perm l _).filter _).length_eq.symm).symm

end

end Model.FileTools
