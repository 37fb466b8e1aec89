import Verif.Lemmas.Sample

/-!
# C53: categorising, sorting and sampling record files
-/

namespace Props
open Spec Model.Status Model.FileTools

section
variable {α E : Type} (status : α → BBStatus) (loads : List Nat → Option E) (value : E → Int)

/-! ## Categorising -/

/-- **C53**: the category a record is put into is the one whose name describes it. -/
theorem C53_category (s : BBStatus) (c : Category) : categorize loads value s = some c ↔ Belongs loads value s c := by
  refine ⟨categorize_belongs loads value, fun h => ?_⟩
  cases hc : categorize loads value s with
  | some d => rw [belongs_unique loads value h (categorize_belongs loads value hc)]
  | none =>
    exfalso
    obtain ⟨h1, ⟨h2, h3⟩ | ⟨h2, h3, h4⟩⟩ := (categorize_none loads value).1 hc
    · cases c <;> simp only [Belongs, h1, h2] at h <;> try (simp at h; done)
      · obtain ⟨-, -, v, hv, -⟩ := h; exact h3 (Or.inr ⟨v, hv⟩)
      · obtain ⟨-, -, v, hv, -⟩ := h; exact h3 (Or.inr ⟨v, hv⟩)
      · exact h3 (Or.inl h.2.2)
    · cases c <;> simp only [Belongs, h1, h2, h3] at h <;> try (simp at h; done)
      · obtain ⟨-, -, -, v, hv, -⟩ := h; exact h4 (Or.inr ⟨v, hv⟩)
      · obtain ⟨-, -, -, v, hv, -⟩ := h; exact h4 (Or.inr ⟨v, hv⟩)
      · exact h4 (Or.inl h.2.2.2)

/-- **C53**: if the numbers in a record can be read, it belongs to exactly one category. -/
theorem C53_one_category (s : BBStatus) (h : Readable loads value s.halt.steps) (hq : Readable loads value s.quasi.steps) :
    ∃! c, Belongs loads value s c := by
  cases hc : categorize loads value s with
  | some d =>
    exact ⟨d, (C53_category loads value s d).1 hc, fun c h => belongs_unique loads value h ((C53_category loads value s d).1 hc)⟩
  | none =>
    obtain ⟨-, ⟨-, h3⟩ | ⟨-, -, h3⟩⟩ := (categorize_none loads value).1 hc
    · exact absurd h h3
    · exact absurd hq h3

open Classical in
/-- **C53**: whatever the input files hold and whether or not the run ends with an exception, there is an initial part `l` of
the sequence of records in the input such that every output file holds the records of `l` that belong to its category, in their
order; every record of `l` is in exactly one of the files; and the counters are right. -/
theorem C53_categorize (fs : List (List (Item α))) :
    let r := categorizeFiles status loads value fs Output.new
    ∃ l, l <+: fs.flatMap okRecs ∧
      (∀ c, r.1.file c = l.filter fun a => decide (Belongs loads value (status a) c)) ∧
      (∀ a ∈ l, ∃! c, a ∈ r.1.file c) ∧
      (∀ c, r.1.count c = (r.1.file c).length) ∧ r.1.numWritten = l.length ∧
      (r.2 = false → l = fs.flatMap okRecs) := by
  intro r
  have h0 : (Output.new : Output α) = outOf status loads value [] := by
    simp [Output.new, outOf]
  obtain ⟨l, h1, h2, h3, h4, h5⟩ := categorizeFiles_out status loads value fs []
  rw [← h0, List.nil_append] at h2
  have hf : ∀ c, r.1.file c = l.filter fun a => decide (Belongs loads value (status a) c) := by
    intro c
    show (categorizeFiles status loads value fs Output.new).1.file c = _
    rw [h2]
    simp only [outOf]
    exact List.filter_congr fun a _ => decide_eq_decide.2 (C53_category loads value _ c)
  refine ⟨l, h1, hf, ?_, ?_, ?_, ?_⟩
  · intro a ha
    cases hc : categorize loads value (status a) with
    | none => exact absurd hc (h3 a ha)
    | some d =>
      have hd := (C53_category loads value _ d).1 hc
      refine ⟨d, ?_, fun c hc' => ?_⟩
      · show a ∈ r.1.file d
        rw [hf, List.mem_filter]; exact ⟨ha, by simpa using hd⟩
      · have hc' : a ∈ r.1.file c := hc'
        rw [hf, List.mem_filter] at hc'
        exact belongs_unique loads value (by simpa using hc'.2) hd
  · intro c
    show (categorizeFiles status loads value fs Output.new).1.count c =
      ((categorizeFiles status loads value fs Output.new).1.file c).length
    rw [h2]
    simp only [outOf, List.countP_eq_length_filter]
  · show (categorizeFiles status loads value fs Output.new).1.numWritten = _
    rw [h2]; rfl
  · intro hr; rw [h0] at *; exact h5 hr

/-- **C53**: categorising ends without an exception exactly if no input file is damaged and every record can be categorised. -/
theorem C53_categorize_ok (fs : List (List (Item α))) :
    (categorizeFiles status loads value fs Output.new).2 = false ↔
      (∀ f ∈ fs, ∃ l, f = undamaged l) ∧ ∀ a ∈ fs.flatMap okRecs, ∃ c, Belongs loads value (status a) c := by
  have h0 : (Output.new : Output α) = outOf status loads value [] := by simp [Output.new, outOf]
  obtain ⟨-, -, -, -, h4, -⟩ := categorizeFiles_out status loads value fs []
  rw [h0, h4]
  refine and_congr ?_ ?_
  · refine forall₂_congr fun f _ => ⟨fun h => ⟨_, h⟩, ?_⟩
    rintro ⟨l, rfl⟩
    rw [show okRecs (undamaged l) = l by simp [okRecs, undamaged, List.filterMap_map]]
  · refine forall₂_congr fun a _ => ?_
    simp only [← C53_category, ne_eq, Option.ne_none_iff_exists']

/-! ## Sorting -/

theorem readAll_upTo {f : List (Item α)} {l : List α} (h : ReadsUpTo f l) : (readAll f).1 = l ∧ (readAll f).2 ≠ .raised := by
  rcases h with rfl | ⟨i, rest, rfl, h⟩
  · rw [readAll_undamaged]; simp
  · induction l with
    | nil => rcases h with rfl | rfl <;> simp [undamaged, readAll]
    | cons a l ih =>
      simp only [undamaged, List.map_cons, List.cons_append, readAll] at ih ⊢
      exact ⟨by rw [ih.1], ih.2⟩

theorem upTo_or (f : List (Item α)) : (∃ l, ReadsUpTo f l) ∨ ∃ l rest, f = undamaged l ++ .bad :: rest := by
  induction f with
  | nil => exact Or.inl ⟨[], Or.inl rfl⟩
  | cons i f ih =>
    cases i with
    | ok a =>
      rcases ih with ⟨l, rfl | ⟨i, rest, rfl, h⟩⟩ | ⟨l, rest, rfl⟩
      · exact Or.inl ⟨a :: l, Or.inl rfl⟩
      · exact Or.inl ⟨a :: l, Or.inr ⟨i, rest, rfl, h⟩⟩
      · exact Or.inr ⟨a :: l, rest, rfl⟩
    | bad => exact Or.inr ⟨[], f, rfl⟩
    | cutData => exact Or.inl ⟨[], Or.inr ⟨_, f, rfl, Or.inl rfl⟩⟩
    | cutLen => exact Or.inl ⟨[], Or.inr ⟨_, f, rfl, Or.inr rfl⟩⟩

theorem readAll_bad (l : List α) (rest : List (Item α)) : (readAll (undamaged l ++ .bad :: rest)).2 = .raised := by
  induction l with
  | nil => rfl
  | cons a l ih => simpa [undamaged, readAll] using ih

theorem sortFile_eq {f : List (Item α)} (h : (readAll f).2 ≠ .raised) : sortFile status loads value f =
    (keyed status loads value (readAll f).1).map fun l => (l.mergeSort (fun x y => decide (y.1 ≤ x.1))).map (·.2) := by
  unfold sortFile
  split
  · rename_i heq; exact absurd (by rw [heq]) h
  · rename_i heq; rw [heq]

open Classical in
/-- **C53**: sorting the records of a file (up to a cut, if there is one) writes the same records, in the order of descending
scores, those with the same score in the order of the input. -/
theorem C53_sort {f : List (Item α)} {l out : List α} (hf : ReadsUpTo f l) (h : sortFile status loads value f = some out) :
    out.Perm l ∧
    out.Pairwise (fun a b => ∃ v w, ScoreIs loads value (status a) v ∧ ScoreIs loads value (status b) w ∧ w ≤ v) ∧
    ∀ v, out.filter (fun a => decide (ScoreIs loads value (status a) v)) =
      l.filter fun a => decide (ScoreIs loads value (status a) v) := by
  obtain ⟨h1, h2⟩ := readAll_upTo hf
  rw [sortFile_eq status loads value h2, h1, Option.map_eq_some_iff] at h
  obtain ⟨k, hk, rfl⟩ := h
  obtain ⟨g1, g2⟩ := keyed_some status loads value hk
  have hperm := List.mergeSort_perm k (fun x y => decide (y.1 ≤ x.1))
  have hkey : ∀ x ∈ k.mergeSort (fun x y => decide (y.1 ≤ x.1)), ScoreIs loads value (status x.2) x.1 := fun x hx =>
    (sortKey_some status loads value).1 (g2 x (hperm.subset hx))
  refine ⟨g1 ▸ hperm.map _, ?_, ?_⟩
  · rw [List.pairwise_map]
    have hs := List.pairwise_mergeSort (le := fun x y : Int × α => decide (y.1 ≤ x.1))
      (fun a b c => by simp only [decide_eq_true_eq]; omega)
      (fun a b => by simp only [Bool.or_eq_true, decide_eq_true_eq]; omega) k
    refine hs.imp_of_mem fun {a b} ha hb hab => ?_
    exact ⟨a.1, b.1, hkey a ha, hkey b hb, of_decide_eq_true hab⟩
  · intro v
    have hd : ∀ x : Int × α, ScoreIs loads value (status x.2) x.1 →
        decide (ScoreIs loads value (status x.2) v) = decide (x.1 = v) := by
      intro x hx
      refine decide_eq_decide.2 ⟨fun h => ?_, fun h => h ▸ hx⟩
      have h1 := (sortKey_some status loads value).2 hx
      rw [(sortKey_some status loads value).2 h] at h1
      exact (Option.some.inj h1).symm
    rw [List.filter_map, ← g1, List.filter_map]
    congr 1
    refine (List.filter_congr fun x hx => hd x (hkey x hx)).trans ((mergeSort_filter k v).trans ?_)
    exact (List.filter_congr fun x hx => hd x ((sortKey_some status loads value).1 (g2 x hx))).symm

/-- **C53**: sorting raises exactly if a message cannot be parsed before the first cut, or a score that has been read is not a
number. -/
theorem C53_sort_raises (f : List (Item α)) : sortFile status loads value f = none ↔
    (∃ l rest, f = undamaged l ++ .bad :: rest) ∨
      ∃ l, ReadsUpTo f l ∧ ∃ a ∈ l, ¬ Readable loads value (status a).halt.score := by
  rcases upTo_or f with ⟨l, hl⟩ | ⟨l, rest, hl⟩
  · obtain ⟨h1, h2⟩ := readAll_upTo hl
    rw [sortFile_eq status loads value h2, Option.map_eq_none_iff, keyed_none, h1]
    simp only [sortKey_none]
    constructor
    · exact fun h => Or.inr ⟨l, hl, h⟩
    · rintro (⟨l', rest, rfl⟩ | ⟨l', hl', h⟩)
      · exact absurd (readAll_bad l' rest) h2
      · rwa [← h1, (readAll_upTo hl').1]
  · have h := readAll_bad l rest
    rw [← hl] at h
    refine ⟨fun _ => Or.inl ⟨l, rest, hl⟩, fun _ => ?_⟩
    unfold sortFile
    split
    · rfl
    · rename_i hne heq; rw [heq] at h; exact absurd h hne

end

/-! ## Sampling -/

section
variable {α : Type}

/-- **C53**: for every source of randomness that keeps its contract and for all files, damaged or not, sampling writes no record
more often than it is in the input, and not more records than requested.  If the files are undamaged it writes as many as
requested, or all if there are fewer.  It only raises if a message cannot be parsed. -/
theorem C53_sample {S : Type} {less : Nat → Nat → S → Bool × S} {range : Nat → S → Nat × S}
    {shuffle : {α : Type} → List α → S → List α × S} (C : Contract less range shuffle) (n : Nat) (files : List (List (Item α)))
    (x : S) :
    let r := (sampleMain (oracle S less range shuffle) n files x).1
    (∀ out, r = some out → out.Subperm (files.flatMap okRecs) ∧ out.length ≤ n ∧
      ∀ ls : List (List α), files = ls.map undamaged → out.length = min n ls.flatten.length) ∧
    ((∀ f ∈ files, Item.bad ∉ f) → r ≠ none) :=
  sampleMain_inv C n files x

/-- **C53**: if not more records are there than requested, all are written. -/
theorem C53_sample_all {S : Type} {less : Nat → Nat → S → Bool × S} {range : Nat → S → Nat × S}
    {shuffle : {α : Type} → List α → S → List α × S} (C : Contract less range shuffle) (n : Nat) (ls : List (List α))
    (hn : ls.flatten.length ≤ n) (x : S) :
    ∃ out, (sampleMain (oracle S less range shuffle) n (ls.map undamaged) x).1 = some out ∧ out.Perm ls.flatten := by
  obtain ⟨h1, h2⟩ := C53_sample C n (ls.map undamaged) x
  have hb : ∀ f ∈ ls.map undamaged, Item.bad ∉ f := by
    intro f hf
    obtain ⟨l, -, rfl⟩ := List.mem_map.1 hf
    simp [undamaged]
  obtain ⟨out, ho⟩ := Option.ne_none_iff_exists'.1 (h2 hb)
  obtain ⟨g1, -, g3⟩ := h1 out ho
  have hfl : (ls.map undamaged).flatMap okRecs = ls.flatten := by
    rw [List.flatMap_map, List.flatten_eq_flatMap]
    congr 1
    funext l
    simp [okRecs, undamaged, List.filterMap_map]
  rw [hfl] at g1
  exact ⟨out, ho, g1.perm_of_length_le (by rw [g3 ls rfl]; omega)⟩

/-- **C53** is not true of what is printed: the number of records reported as scanned is one more than there are. -/
theorem C53_scanned_false {S : Type} {less : Nat → Nat → S → Bool × S} {range : Nat → S → Nat × S}
    {shuffle : {α : Type} → List α → S → List α × S} (C : Contract less range shuffle) (n : Nat) (ls : List (List α)) (x : S) :
    (sampleFiles (oracle S less range shuffle) n (ls.map undamaged) ⟨1, 0, []⟩ x).1.1.numRecords = ls.flatten.length + 1 := by
  obtain ⟨-, -, -, h⟩ := sampleFiles_inv C n (ls.map undamaged) ⟨1, 0, []⟩ [] x (List.Subperm.refl _) (by simp)
  rw [(h ls rfl).2]
  exact Nat.add_comm _ _

/-- **C53**: with ideal randomness every set of `n` of the `N ≥ n` records is the sample with the same probability. -/
theorem C53_sample_uniform [DecidableEq α] (n : Nat) (ls : List (List α)) (hl : ls.flatten.Nodup) (hn : n ≤ ls.flatten.length)
    (A : Finset α) (hA : A ⊆ ls.flatten.toFinset) (hc : A.card = n) :
    prob (sampleMain ideal n (ls.map undamaged)) (fun r => ∃ out, r = some out ∧ out.toFinset = A) =
      1 / (Nat.choose ls.flatten.length n : ℚ) := by
  unfold prob
  rw [sampleMain_ideal]
  · rw [← steps_uniform n ls.flatten hl hn A hA hc]
    congr 1
    funext s
    by_cases h : s.sample.toFinset = A
    · rw [if_pos ⟨_, rfl, h⟩, if_pos h]
    · rw [if_neg (by rintro ⟨out, ho, h'⟩; cases ho; exact h h'), if_neg h]
  · intro l l' hp
    have he := List.toFinset_eq_of_perm _ _ hp
    by_cases h : l.toFinset = A
    · rw [if_pos ⟨_, rfl, he.trans h⟩, if_pos ⟨_, rfl, h⟩]
    · rw [if_neg (by rintro ⟨out, ho, h'⟩; cases ho; exact h (he ▸ h')), if_neg (by rintro ⟨out, ho, h'⟩; cases ho; exact h h')]

/-- **C53**: with ideal randomness every sequence of `n` different records is written with the same probability. -/
theorem C53_sample_order [DecidableEq α] (n : Nat) (ls : List (List α)) (hl : ls.flatten.Nodup) (hn : n ≤ ls.flatten.length)
    (out : List α) (ho : out.Nodup) (hsub : ∀ a ∈ out, a ∈ ls.flatten) (hc : out.length = n) :
    prob (sampleMain ideal n (ls.map undamaged)) (fun r => r = some out) =
      1 / (Nat.descFactorial ls.flatten.length n : ℚ) := by
  classical
  have hA : out.toFinset ⊆ ls.flatten.toFinset := fun a ha => by
    simpa using hsub a (by simpa using ha)
  have hcard : out.toFinset.card = n := by rw [List.toFinset_card_of_nodup ho, hc]
  have h0 : After n ([] : List α) ⟨1, 0, []⟩ := ⟨by simp, by simp, by simp, rfl⟩
  have hfac : (n.factorial : ℚ) ≠ 0 := by exact_mod_cast (Nat.factorial_pos n).ne'
  have key : sampleMain ideal n (ls.map undamaged) (fun r => if r = some out then 1 else 0) =
      steps n ls.flatten ⟨1, 0, []⟩ fun s => (1 / (n.factorial : ℚ)) * if s.sample.toFinset = out.toFinset then 1 else 0 := by
    unfold sampleMain
    rw [ex_bind, sampleFiles_ideal n ls _ (by simp)]
    refine steps_congr h0 (by simpa using hl) fun s hs => ?_
    have hs : After n ls.flatten s := by simpa using hs
    have hlen : s.sample.length = n := by rw [hs.len]; omega
    show (s.sample.permutations.map fun l => if some l = some out then (1 : ℚ) else 0).sum / s.sample.permutations.length = _
    have hcount : (s.sample.permutations.map fun l => if some l = some out then (1 : ℚ) else 0).sum =
        if s.sample.toFinset = out.toFinset then 1 else 0 := by
      have hnd := List.nodup_permutations s.sample hs.nodup
      have hsum : ∀ L : List (List α), L.Nodup → (L.map fun l => if some l = some out then (1 : ℚ) else 0).sum =
          if out ∈ L then 1 else 0 := by
        intro L
        induction L with
        | nil => simp
        | cons b L ih =>
          intro hL
          rw [List.nodup_cons] at hL
          rw [List.map_cons, List.sum_cons, ih hL.2]
          by_cases hb : b = out
          · subst hb; simp [hL.1]
          · simp [hb, Ne.symm hb]
      rw [hsum _ hnd]
      have hiff : out.Perm s.sample ↔ s.sample.toFinset = out.toFinset := by
        constructor
        · exact fun h => (List.toFinset_eq_of_perm _ _ h).symm
        · exact fun h => (List.toFinset_eq_iff_perm_dedup.1 h.symm).trans (by rw [hs.nodup.dedup]) |> fun h => by
            rwa [ho.dedup] at h
      simp only [List.mem_permutations, hiff]
    rw [hcount, List.length_permutations, hlen]
    ring
  have hprob : prob (sampleMain ideal n (ls.map undamaged)) (fun r => r = some out) =
      sampleMain ideal n (ls.map undamaged) (fun r => if r = some out then 1 else 0) := by
    refine congrArg (sampleMain ideal n (ls.map undamaged)) (funext fun r => ?_)
    by_cases h : r = some out <;> simp [h]
  rw [hprob, key, steps_mul, steps_uniform n ls.flatten hl hn _ hA hcard, Nat.descFactorial_eq_factorial_mul_choose]
  push_cast
  rw [one_div_mul_one_div]

end

/-! ## Examples -/

/-- a record that halts after so many steps with that score -/
private def exHalt (id : Nat) (steps score : BigInt) : Nat × BBStatus :=
  (id, { BBStatus.empty with halt := { BBStatus.empty.halt with decided := true, halting := true, steps, score } })

/-- a record that does not halt; whether it quasihalts is not known -/
private def exInf (id : Nat) : Nat × BBStatus :=
  (id, { BBStatus.empty with halt := { BBStatus.empty.halt with decided := true } })

private def exQuasi (id : Nat) (steps : BigInt) : Nat × BBStatus :=
  (id, { halt := { BBStatus.empty.halt with decided := true }, quasi := { decided := true, quasihalting := true, steps, state := 1 } })

private def exLoads : List Nat → Option Nat
  | [7] => some (10 ^ 30)
  | _ => none

private def exCat (fs : List (List (Item (Nat × BBStatus)))) := categorizeFiles (·.2) exLoads (fun e => (e : Int)) fs Output.new

private def exFiles : List (List (Item (Nat × BBStatus))) :=
  [undamaged [exHalt 0 (.int 999) (.int 4), exInf 1, (2, BBStatus.empty)], [],
   undamaged [exHalt 3 (.int 1000) (.int 8), exHalt 4 (.expPickle [7]) (.int 8), exQuasi 5 (.hexStr ['0', 'x', '5']), exQuasi 6 .unset]]

/-- the names of the output files say where the records are -/
example : (exCat exFiles).2 = false ∧ ((exCat exFiles).1.file .haltSmall).map (·.1) = [0] ∧
    ((exCat exFiles).1.file .haltLarge).map (·.1) = [3, 4] ∧ ((exCat exFiles).1.file .infinite).map (·.1) = [1] ∧
    ((exCat exFiles).1.file .unknown).map (·.1) = [2] ∧ ((exCat exFiles).1.file .qhaltSmall).map (·.1) = [5] ∧
    ((exCat exFiles).1.file .qhaltUnk).map (·.1) = [6] ∧ (exCat exFiles).1.numWritten = 7 := by
  decide +kernel

/-- a number that cannot be read, or a damaged file, ends the run; what has been written stays -/
example : (exCat [undamaged [exInf 0, exHalt 1 (.expPickle [8]) .unset, exInf 2]]).2 = true ∧
    ((exCat [undamaged [exInf 0, exHalt 1 (.expPickle [8]) .unset, exInf 2]]).1.file .infinite).map (·.1) = [0] ∧
    (exCat [[.ok (exInf 0), .cutData], undamaged [exInf 1]]).2 = true ∧
    ((exCat [[.ok (exInf 0), .cutData], undamaged [exInf 1]]).1.file .infinite).map (·.1) = [0] := by
  decide +kernel

private def exSort (f : List (Item (Nat × BBStatus))) := (sortFile (·.2) exLoads (fun e => (e : Int)) f).map fun l => l.map (·.1)

/-- sorting is stable and descending; records without a score count as 0; a cut file is sorted up to the cut -/
example : exSort (undamaged [exInf 0, exHalt 1 .unset (.int 5), exHalt 2 .unset (.expPickle [7]), exHalt 3 .unset (.int 5),
    exHalt 4 .unset (.int (-1))]) = some [2, 1, 3, 0, 4] ∧
    exSort (undamaged [exInf 0, exHalt 1 .unset (.int 5)] ++ [.cutData]) = some [1, 0] ∧
    exSort (undamaged [exInf 0, exHalt 1 .unset (.int 5)] ++ [.bad]) = none := by
  simp [exSort, sortFile, undamaged, readAll, keyed, sortKey, exInf, exHalt, getBigInt, valOf, exLoads, BBStatus.empty,
    List.mergeSort, List.MergeSort.Internal.splitInTwo]

/-- a source of randomness: the state is a list of the numbers to come -/
private def exLess (a b : Nat) : List Nat → Bool × List Nat
  | [] => (decide (0 < a), [])
  | k :: l => (decide (k % b < a), l)
private def exRange (n : Nat) : List Nat → Nat × List Nat
  | [] => (0, [])
  | k :: l => (k % n, l)
private def exShuffle {α : Type} (l : List α) (s : List Nat) : List α × List Nat := (l.reverse, s)

private theorem exContract : Contract exLess exRange exShuffle where
  never b s := by cases s <;> simp [exLess]
  inRange n s h := by cases s <;> simp [exRange, h, Nat.mod_lt]
  perm l s := List.reverse_perm l

example : (sampleMain (oracle (List Nat) exLess exRange exShuffle) 2 [undamaged [10, 11, 12], undamaged [13, 14]] [2, 0, 1, 4, 0]).1 =
    some [11, 14] ∧
    (sampleMain (oracle (List Nat) exLess exRange exShuffle) 2 [undamaged [10, 11, 12, 13]] []).1 = some [11, 13] ∧
    (sampleMain (oracle (List Nat) exLess exRange exShuffle) 0 [undamaged [10, 11, 12, 13]] []).1 = some [] ∧
    (sampleMain (oracle (List Nat) exLess exRange exShuffle) 3 [undamaged [10, 11], [.cutData, .ok 12], undamaged [13]] []).1 =
      some [13, 11, 10] := by
  decide +kernel

/-- the probability is 1/6 for each pair of four records -/
example : prob (sampleMain ideal 2 [undamaged [10, 11], undamaged [12, 13]]) (fun r => ∃ out, r = some out ∧ out.toFinset = {10, 13}) =
    1 / 6 := by
  have := C53_sample_uniform 2 [[10, 11], [12, 13]] (by decide) (by decide) {10, 13} (by decide) (by decide)
  rw [show ([[10, 11], [12, 13]] : List (List Nat)).map undamaged = [undamaged [10, 11], undamaged [12, 13]] from rfl] at this
  rw [this]
  norm_num [Nat.choose]

end Props
