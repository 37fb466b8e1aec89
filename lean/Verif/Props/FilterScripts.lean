import Verif.Lemmas.FilterScripts
import Verif.Props.Tools

/-!
# C74: the filter scripts
-/

namespace Props
open Spec Model Model.IO Model.Status Model.FileTools Model.FilterScripts

section
variable {α β E : Type} (status : α → BBStatus) (loads : List Nat → Option E) (value : E → Int)

/-! ## `filter.sh` -/

/-- **C74.** A run of `filter.sh` touches only the directory of its filter, and either it fails and `unknown.pb` and
`unknown.txt` are as before, or the filter has succeeded with the undamaged output `l`, `unknown.pb` holds the undecided records
of `l`, and the files in the directory hold the decided ones, each in the file whose name describes it. -/
theorem C74_filter (P : Programs α β) {root root' : Root α β} {sub : String} {cmd : Command α} {ok : Bool}
    (h : filterSh status loads value P root sub cmd = (root', ok)) :
    (∀ s, s ≠ sub → root'.dirs s = root.dirs s) ∧
    ((ok = false ∧ root'.unknown = root.unknown ∧ root'.text = root.text) ∨
      ∃ f l, root.unknown = some f ∧ cmd f = (some (undamaged l), true) ∧
        root'.unknown = some (undamaged (l.filter fun a => !(status a).halt.decided)) ∧
        (decidedIn root' sub).Perm (l.filter fun a => (status a).halt.decided) ∧
        ∃ d cats, root'.dirs sub = some d ∧ d.cats = some cats ∧
          ∀ c a, a ∈ cats c ↔ a ∈ l ∧ Belongs loads value (status a) c) := by
  classical
  by_cases hr : ∃ l, Reached status loads value root cmd l
  · obtain ⟨l, hl⟩ := hr
    obtain ⟨f, file, text, h1, h2, h3, h4, h5, -⟩ := filterSh_late status loads value P sub hl
    rw [h5, Prod.mk.injEq] at h
    obtain ⟨rfl, -⟩ := h
    refine ⟨fun s hs => by simp [hs], Or.inr ⟨f, l, h1, h2, rfl, ?_, _, file, by simp; rfl, rfl, fun c a => ?_⟩⟩
    · have := perm_decided status loads value h3 h4
      simpa [decidedIn] using this
    · rw [h3 c]; simp
  · obtain ⟨d, hd⟩ := filterSh_early status loads value P root sub cmd hr
    rw [hd, Prod.mk.injEq] at h
    obtain ⟨rfl, rfl⟩ := h
    exact ⟨fun s hs => by simp [hs], Or.inl ⟨rfl, rfl, rfl⟩⟩

/-- **C74.** The test whether `unknown.pb` is smaller than 1000000 bytes compares strings: it holds of seven sizes only. -/
theorem C74_size (n : Nat) : smallEnough n = true ↔ n ∈ [0, 1, 10, 100, 1000, 10000, 100000] := by
  rw [smallEnough_iff]
  constructor
  · rintro (rfl | ⟨j, hj, rfl⟩)
    · simp
    · interval_cases j <;> simp
  · intro h
    simp only [List.mem_cons, List.not_mem_nil, or_false] at h
    rcases h with h | h | h | h | h | h | h
    · exact Or.inl h
    · exact Or.inr ⟨0, by omega, by omega⟩
    · exact Or.inr ⟨1, by omega, by omega⟩
    · exact Or.inr ⟨2, by omega, by omega⟩
    · exact Or.inr ⟨3, by omega, by omega⟩
    · exact Or.inr ⟨4, by omega, by omega⟩
    · exact Or.inr ⟨5, by omega, by omega⟩

/-- 999 bytes are not "less than 1000000" -/
example : smallEnough 999 = false ∧ smallEnough 100000 = true ∧ smallEnough 1000000 = false := by
  refine ⟨?_, (C74_size _).2 (by simp), ?_⟩ <;> rw [Bool.eq_false_iff, ne_eq, C74_size] <;> simp

/-- **C74.** `filter.sh` succeeds if and only if there is `unknown.pb`, the filter succeeds on it with an undamaged output, every
record of the output has a category, the statistics can be made and the conversion to text does not fail if it is made. -/
theorem C74_filter_ok (P : Programs α β) (root : Root α β) (sub : String) (cmd : Command α) :
    (filterSh status loads value P root sub cmd).2 = true ↔
      ∃ f l, root.unknown = some f ∧ cmd f = (some (undamaged l), true) ∧
        (∀ a ∈ l, ∃ c, Belongs loads value (status a) c) ∧ P.analyze (undamaged l) = true ∧
        let new := undamaged (l.filter fun a => !(status a).halt.decided)
        (P.size new ∈ [0, 1, 10, 100, 1000, 10000, 100000] → ∃ t, P.convert new = some t) := by
  simp only [← C74_size]
  constructor
  · intro h
    obtain ⟨l, hl⟩ := filterSh_reached status loads value P (root' := _) (ok := _) (Prod.mk.eta.symm) (Or.inl h)
    obtain ⟨f, file, text, h1, h2, -, -, h5, -⟩ := filterSh_late status loads value P sub hl
    obtain ⟨f', g1, g2, g3⟩ := hl
    refine ⟨f, l, h1, h2, g3, ?_⟩
    rw [h5] at h
    simp only [Bool.and_eq_true, Bool.or_eq_true, Bool.not_eq_true'] at h
    refine ⟨h.1, fun hs => ?_⟩
    rcases h.2 with h' | h'
    · rw [hs] at h'; cases h'
    · exact Option.isSome_iff_exists.1 h'
  · rintro ⟨f, l, h1, h2, h3, h4, h5⟩
    obtain ⟨f', file, text, -, -, -, -, h6, -⟩ := filterSh_late status loads value P sub ⟨f, h1, h2, h3⟩
    rw [h6]
    dsimp only at h5 ⊢
    rw [h4, Bool.true_and]
    cases hs : smallEnough (P.size (undamaged (l.filter fun a => !(status a).halt.decided))) with
    | false => rfl
    | true => simpa using Option.isSome_iff_exists.2 (h5 hs)

/-- **C74.** After a successful run `unknown.txt` is the text of the new `unknown.pb` if this has one of the seven sizes;
otherwise it is the old `unknown.txt`. -/
theorem C74_text (P : Programs α β) {root root' : Root α β} {sub : String} {cmd : Command α} {new : List (Item α)}
    (h : filterSh status loads value P root sub cmd = (root', true)) (hn : root'.unknown = some new) :
    root'.text = if P.size new ∈ [0, 1, 10, 100, 1000, 10000, 100000] then P.convert new else root.text := by
  obtain ⟨l, hl⟩ := filterSh_reached status loads value P h (Or.inl rfl)
  obtain ⟨f, file, text, h1, h2, -, -, h5, h6⟩ := filterSh_late status loads value P sub hl
  rw [h5, Prod.mk.injEq] at h
  obtain ⟨rfl, hk⟩ := h
  cases hn
  simp only [Bool.and_eq_true, Bool.or_eq_true, Bool.not_eq_true'] at hk
  obtain ⟨hk1, hk2⟩ := hk
  simp only [← C74_size]
  rw [h6, hk1]
  cases hs : smallEnough (P.size (undamaged (l.filter fun a => !(status a).halt.decided))) with
  | false => simp
  | true =>
    rw [hs] at hk2
    have := hk2.resolve_left (by simp)
    simp [this]

/-- **C74.** Nothing is lost by a sequence of successful runs in different directories: a measure that every filter keeps (the
number of records, the number of machines they stand for, ...) has the same sum over the first `unknown.pb` as over the last
one and the decided records in the directories together. -/
theorem C74_conserved {M : Type} [AddCommMonoid M] (w : α → M) (P : Programs α β) (runs : List (String × Command α))
    {root root' : Root α β} (hd : (runs.map (·.1)).Nodup) (hk : ∀ r ∈ runs, Keeps w r.2)
    (h : filters status loads value P runs root = (root', true)) :
    ((holdouts root).map w).sum =
      ((holdouts root').map w).sum + ((runs.flatMap fun r => decidedIn root' r.1).map w).sum := by
  suffices H : ((holdouts root).map w).sum =
      ((holdouts root').map w).sum + ((runs.flatMap fun r => decidedIn root' r.1).map w).sum ∧
      ∀ s, s ∉ runs.map (·.1) → root'.dirs s = root.dirs s from H.1
  induction runs generalizing root with
  | nil =>
    simp only [filters, Prod.mk.injEq] at h
    obtain ⟨rfl, -⟩ := h
    simp
  | cons r rest ih =>
    obtain ⟨sub, cmd⟩ := r
    unfold filters at h
    rcases hr : filterSh status loads value P root sub cmd with ⟨mid, _ | _⟩
    · rw [hr] at h; simp at h
    · rw [hr] at h
      simp only at h
      simp only [List.map_cons, List.nodup_cons] at hd
      obtain ⟨i1, i2⟩ := ih hd.2 (fun r hr => hk r (List.mem_cons_of_mem _ hr)) h
      obtain ⟨g1, ⟨g2, -⟩ | ⟨f, l, g2, g3, g4, g5, -⟩⟩ := C74_filter status loads value P hr
      · cases g2
      refine ⟨?_, fun s hs => ?_⟩
      · have e1 : decidedIn root' sub = decidedIn mid sub := by
          unfold decidedIn
          rw [i2 sub hd.1]
        have e2 : holdouts mid = l.filter fun a => !(status a).halt.decided := by
          simp [holdouts, g4, okRecs_undamaged]
        have e3 : ((holdouts root).map w).sum = (l.map w).sum := by
          simp only [holdouts, g2, Option.map_some, Option.getD_some]
          exact (hk (sub, cmd) (by simp) f l g3).symm
        have e4 : (l.map w).sum = ((l.filter fun a => (status a).halt.decided).map w).sum +
            ((l.filter fun a => !(status a).halt.decided).map w).sum := by
          rw [← List.sum_append, ← List.map_append]
          exact ((List.filter_append_perm (fun a => (status a).halt.decided) l).symm.map w).sum_eq
        rw [List.flatMap_cons, List.map_append, List.sum_append, e1, (g5.map w).sum_eq, e3, e4, ← e2, i1]
        abel
      · simp only [List.map_cons, List.mem_cons, not_or] at hs
        rw [i2 s hs.2, g1 s hs.1]

/-- **C74.** In particular, if every filter writes one record for each machine that it reads, every machine of the first
`unknown.pb` is, after successful runs in different directories, in exactly one place: as often as it was there, it is among the
decided records of the directories or in the last `unknown.pb`. -/
theorem C74_no_machine_lost {K : Type} (key : α → K) (P : Programs α β) (runs : List (String × Command α))
    {root root' : Root α β} (hd : (runs.map (·.1)).Nodup)
    (hk : ∀ r ∈ runs, ∀ f l, r.2 f = (some (undamaged l), true) → (l.map key).Perm ((okRecs f).map key))
    (h : filters status loads value P runs root = (root', true)) :
    ((holdouts root).map key).Perm ((holdouts root' ++ runs.flatMap fun r => decidedIn root' r.1).map key) := by
  have hs : ∀ l : List α, (l.map fun a => ({key a} : Multiset K)).sum = ((l.map key : List K) : Multiset K) := by
    intro l
    induction l with
    | nil => rfl
    | cons a l ih => rw [List.map_cons, List.sum_cons, ih]; rfl
  have := C74_conserved status loads value (fun a => ({key a} : Multiset K)) P runs hd
    (fun r hr f l hl => by rw [hs, hs]; exact Multiset.coe_eq_coe.2 (hk r hr f l hl)) h
  rw [hs, hs, hs] at this
  rw [List.map_append]
  exact Multiset.coe_eq_coe.1 (by simpa using this)

/-- **C74.** All that is in `unknown.pb` after a successful run is undecided. -/
theorem C74_undecided (P : Programs α β) {root root' : Root α β} {sub : String} {cmd : Command α}
    (h : filterSh status loads value P root sub cmd = (root', true)) :
    ∃ l, root'.unknown = some (undamaged l) ∧ ∀ a ∈ l, (status a).halt.decided = false := by
  obtain ⟨-, ⟨g2, -⟩ | ⟨f, l, -, -, g4, -⟩⟩ := C74_filter status loads value P h
  · cases g2
  · exact ⟨_, g4, fun a ha => by simpa using (List.mem_filter.1 ha).2⟩

/-! ## The scripts for a cluster -/

theorem arrayJob_success (J : JobPrograms α β) (part : List β) :
    (arrayJob status loads value J part).success = true ↔ ∃ out n, J.cmd part = (some (undamaged out), true) ∧
      CountSum (fun l => (J.parse l).bind J.count) part n ∧ CountSum J.count out n ∧
      ∀ a ∈ out, ∃ c, Belongs loads value (status a) c := by
  constructor
  · intro h
    unfold arrayJob at h
    rcases hc : J.cmd part with ⟨_ | out, _ | _⟩ <;> simp only [hc] at h <;> try cases h
    cases h1 : countText J.parse J.count part with
    | none => simp [h1] at h
    | some n =>
      cases h2 : countPb J.count out with
      | none => simp [h1, h2] at h
      | some n' =>
        simp only [h1, h2] at h
        split_ifs at h with hn
        · rw [not_not] at hn
          subst hn
          rcases hk : categorizeFiles status loads value [out] Output.new with ⟨o, _ | _⟩
          · obtain ⟨l, rfl, hl⟩ := (countPb_iff _ _ _).1 h2
            obtain ⟨-, h8⟩ := (C53_categorize_ok status loads value [undamaged l]).1 (by rw [hk])
            exact ⟨l, n, rfl, (total_iff _ _ _).1 h1, hl, by simpa [okRecs_undamaged] using h8⟩
          · rw [hk] at h; cases h
  · rintro ⟨out, n, h1, h2, h3, h4⟩
    have hk : (categorizeFiles status loads value [undamaged out] Output.new).2 = false :=
      (C53_categorize_ok status loads value [undamaged out]).2
        ⟨fun g hg => ⟨out, by simpa using hg⟩, by simpa [okRecs_undamaged] using h4⟩
    have e1 : countText J.parse J.count part = some n := (total_iff _ _ _).2 h2
    have e2 : countPb J.count (undamaged out) = some n := (countPb_iff _ _ _).2 ⟨out, rfl, h3⟩
    unfold arrayJob
    rcases hk' : categorizeFiles status loads value [undamaged out] Output.new with ⟨o, b⟩
    rw [hk'] at hk
    cases hk
    simp [h1, e1, e2, hk']

open Classical in
theorem arrayJob_eq (J : JobPrograms α β) {part : List β} {out : List α} (h1 : J.cmd part = (some (undamaged out), true))
    (h : (arrayJob status loads value J part).success = true) :
    ∃ file, arrayJob status loads value J part = ⟨some file, some ((out.filter fun a => !(status a).halt.decided).map J.render), true⟩ ∧
      ∀ c, file c = out.filter fun a => decide (Belongs loads value (status a) c) := by
  obtain ⟨out', n, g1, h2, h3, h4⟩ := (arrayJob_success status loads value J part).1 h
  obtain rfl : out' = out := by
    have : undamaged out' = undamaged out := by
      rw [h1] at g1; injection g1 with g1 _; injection g1 with g1; exact g1.symm
    rw [← okRecs_undamaged out', this, okRecs_undamaged]
  have e1 : countText J.parse J.count part = some n := (total_iff _ _ _).2 h2
  have e2 : countPb J.count (undamaged out') = some n := (countPb_iff _ _ _).2 ⟨out', rfl, h3⟩
  have hk : (categorizeFiles status loads value [undamaged out'] Output.new).2 = false :=
    (C53_categorize_ok status loads value [undamaged out']).2
      ⟨fun g hg => ⟨out', by simpa using hg⟩, by simpa [okRecs_undamaged] using h4⟩
  rcases hk' : categorizeFiles status loads value [undamaged out'] Output.new with ⟨o, b⟩
  rw [hk'] at hk
  cases hk
  obtain ⟨l, hl, hf, -⟩ := categorize_one status loads value hk'
  obtain rfl : out' = l := by rw [← okRecs_undamaged out', hl, okRecs_undamaged]
  refine ⟨o.file, ?_, hf⟩
  unfold arrayJob
  simp [h1, e1, e2, hk', file_unknown status loads value hf]

/-- **C74.** If there is a job for every part, the scripts for the cluster succeed if and only if every job does: its filter
succeeds with an undamaged output, the sum of the counts has not changed, and every record has a category. -/
theorem C74_cluster_ok (J : JobPrograms α β) {split : Nat → List β → List (List β)} {N : Nat} {text : List β}
    (hs : (split N text).length = N) :
    (∃ M, cluster status loads value J split N text = some M) ↔
      ∀ part ∈ split N text, ∃ out n, J.cmd part = (some (undamaged out), true) ∧
        CountSum (fun l => (J.parse l).bind J.count) part n ∧ CountSum J.count out n ∧
        ∀ a ∈ out, ∃ c, Belongs loads value (status a) c := by
  simp only [← arrayJob_success]
  unfold cluster finish
  have hlen : (((split N text).map (arrayJob status loads value J)).filter (·.success)).length = N ↔
      ∀ part ∈ split N text, (arrayJob status loads value J part).success = true := by
    have e : N = ((split N text).map (arrayJob status loads value J)).length := by rw [List.length_map, hs]
    conv_lhs => rhs; rw [e]
    rw [List.length_filter_eq_length_iff]
    simp
  rw [← hlen]
  by_cases h : (((split N text).map (arrayJob status loads value J)).filter (·.success)).length = N
  · simp [h]
  · simp [h]

open Classical in
/-- **C74, partial.** When the scripts for the cluster succeed, `unknown.txt` has a line for each undecided record that the
filters wrote, and the combined files hold the records of their categories — but the records in `halt.unk.pb` and `qhalt.unk.pb`
of the parts are not combined. -/
theorem C74_cluster_partial (J : JobPrograms α β) {split : Nat → List β → List (List β)} {N : Nat} {text : List β} {M : Merged α β}
    (hs : (split N text).length = N) (h : cluster status loads value J split N text = some M) :
    ∃ outs, List.Forall₂ (fun part out => J.cmd part = (some (undamaged out), true)) (split N text) outs ∧
      M.text = (outs.flatten.filter fun a => !(status a).halt.decided).map J.render ∧
      M.file .haltUnk = none ∧ M.file .qhaltUnk = none ∧
      ∀ c, c ≠ .haltUnk → c ≠ .qhaltUnk →
        M.file c = some (outs.flatten.filter fun a => decide (Belongs loads value (status a) c)) := by
  have hall := (C74_cluster_ok status loads value J hs).1 ⟨M, h⟩
  unfold cluster finish at h
  split_ifs at h
  cases h
  simp only [or_true, true_or, if_true]
  generalize split N text = parts at hall
  clear hs
  induction parts with
  | nil => exact ⟨[], .nil, rfl, trivial, trivial, fun c h1 h2 => by simp [h1, h2]⟩
  | cons part parts ih =>
    obtain ⟨outs, i1, i2, -, -, i5⟩ := ih (fun p hp => hall p (List.mem_cons_of_mem _ hp))
    obtain ⟨out, n, h1, -⟩ := hall part (by simp)
    obtain ⟨file, h2, h3⟩ := arrayJob_eq status loads value J h1
      ((arrayJob_success status loads value J part).2 (hall part (by simp)))
    refine ⟨out :: outs, .cons h1 i1, ?_, trivial, trivial, fun c hc1 hc2 => ?_⟩
    · rw [List.map_cons, List.flatMap_cons, h2, i2]
      simp
    · have := i5 c hc1 hc2
      rw [if_neg (by simp [hc1, hc2])] at this ⊢
      rw [List.map_cons, List.flatMap_cons, h2, Option.some.inj this]
      simp [h3]

open Classical in
/-- **C74, partial.** The sum of the counts of the machines in `unknown.txt` before is the sum over the combined files after and
over the records that were not combined; these are records of machines that halt or quasihalt after an unknown number of
steps. -/
theorem C74_cluster_count_partial (J : JobPrograms α β) {split : Nat → List β → List (List β)} {N : Nat} {text : List β}
    {M : Merged α β} (hs : (split N text).length = N) (hf : (split N text).flatten = text)
    (h : cluster status loads value J split N text = some M) :
    ∃ n lost, CountSum (fun l => (J.parse l).bind J.count) text n ∧
      CountSum J.count (([.haltSmall, .haltLarge, .qhaltSmall, .qhaltLarge, .infinite, .unknown].flatMap
        fun c => (M.file c).getD []) ++ lost) n ∧
      ∀ a ∈ lost, Belongs loads value (status a) .haltUnk ∨ Belongs loads value (status a) .qhaltUnk := by
  have hall := (C74_cluster_ok status loads value J hs).1 ⟨M, h⟩
  obtain ⟨outs, h1, -, -, -, h5⟩ := C74_cluster_partial status loads value J hs h
  have key : ∃ n, CountSum (fun l => (J.parse l).bind J.count) (split N text).flatten n ∧ CountSum J.count outs.flatten n ∧
      ∀ a ∈ outs.flatten, ∃ c, Belongs loads value (status a) c := by
    clear hs hf h h5
    generalize split N text = parts at hall h1
    induction h1 with
    | nil => exact ⟨0, ⟨[], .nil, rfl⟩, ⟨[], .nil, rfl⟩, by simp⟩
    | @cons part out parts outs hp _ ih =>
      obtain ⟨n, k1, k2, k3⟩ := ih (fun p hp => hall p (List.mem_cons_of_mem _ hp))
      obtain ⟨out', n', g1, g2, g3, g4⟩ := hall part (by simp)
      obtain rfl : out' = out := by
        have : undamaged out' = undamaged out := by
          rw [hp] at g1; injection g1 with g1 _; injection g1 with g1; exact g1.symm
        rw [← okRecs_undamaged out', this, okRecs_undamaged]
      refine ⟨n' + n, total_append g2 k1, total_append g3 k2, fun a ha => ?_⟩
      rw [List.flatten_cons] at ha
      rcases List.mem_append.1 ha with ha | ha
      · exact g4 a ha
      · exact k3 a ha
  obtain ⟨n, k1, k2, k3⟩ := key
  rw [hf] at k1
  set l := outs.flatten
  let file : Category → List α := fun c => l.filter fun a => decide (Belongs loads value (status a) c)
  have hp := perm_files status loads value (file := file) (l := l) (fun _ => rfl) (fun a ha => by
    obtain ⟨c, hc⟩ := k3 a ha
    refine ⟨c, by simp [file, ha, hc], fun d hd => ?_⟩
    have hd' : a ∈ file d := hd
    simp only [file, List.mem_filter, decide_eq_true_eq] at hd'
    exact belongs_unique loads value hd'.2 hc)
  refine ⟨n, file .haltUnk ++ file .qhaltUnk, k1, total_perm ?_ k2, fun a ha => ?_⟩
  · refine hp.symm.trans ?_
    have hM : ∀ c, c ≠ .haltUnk → c ≠ .qhaltUnk → (M.file c).getD [] = file c := fun c h1 h2 => by rw [h5 c h1 h2]; rfl
    simp only [decidedCategories, List.flatMap_cons, List.flatMap_nil, List.append_nil]
    rw [hM _ (by simp) (by simp), hM _ (by simp) (by simp), hM _ (by simp) (by simp), hM _ (by simp) (by simp),
      hM _ (by simp) (by simp), hM _ (by simp) (by simp)]
    rw [List.perm_iff_count]
    intro x
    simp only [List.count_append]
    omega
  · rcases List.mem_append.1 ha with ha | ha
    · exact Or.inl (by simpa using (List.mem_filter.1 ha).2)
    · exact Or.inr (by simpa using (List.mem_filter.1 ha).2)

end

/-- **C74.** The sum of the counts says nothing about machines without undefined cells and without a halting transition: their
count is 0, so that a filter may drop them and the job still succeeds. -/
theorem C74_count_zero {m : SM} {cells : List BTrans} (hc : m.cells = some cells) (hr : ∀ t ∈ cells, t.cond = .running)
    {v : Int} (h : Tools.count m false = some v) : v = 0 := by
  have key : ∀ (l : List BTrans) (s : Tools.CountSt), (∀ t ∈ l, t.cond = .running) →
      (l.foldl Tools.CountSt.add s).numUndefs = s.numUndefs ∧ (l.foldl Tools.CountSt.add s).hasHalt = s.hasHalt := by
    intro l
    induction l with
    | nil => exact fun s _ => ⟨rfl, rfl⟩
    | cons t l ih =>
      intro s ht
      rw [List.foldl_cons]
      obtain ⟨h1, h2⟩ := ih (s.add t) (fun u hu => ht u (List.mem_cons_of_mem _ hu))
      rw [h1, h2]
      simp [Tools.CountSt.add, ht t (by simp)]
  obtain ⟨h1, h2⟩ := key cells { numUndefs := 0, hasHalt := false, maxSymbol := 0, maxState := 0 } hr
  unfold Tools.count at h
  rw [hc] at h
  simp only at h
  split at h
  · rw [h1, h2] at h
    simpa [Tools.countMult] using h.symm
  · cases h

/-! ## Witnesses -/

private def unk (id : Nat) : Nat × BBStatus := (id, BBStatus.empty)
private def inf (id : Nat) : Nat × BBStatus :=
  (id, { BBStatus.empty with halt := { BBStatus.empty.halt with decided := true } })
private def hlt (id : Nat) : Nat × BBStatus :=
  (id, { BBStatus.empty with halt := { BBStatus.empty.halt with decided := true, halting := true } })

/-- a filter that recognises the machine `k` as infinite -/
private def knows (k : Nat) : Command (Nat × BBStatus) := fun f =>
  (some (undamaged ((okRecs f).map fun a => if a.1 = k then inf k else a)), true)

private def progs (ok : Bool) : Programs (Nat × BBStatus) Nat := ⟨fun _ => ok, fun _ => 4000, fun _ => none⟩

private def start : Root (Nat × BBStatus) Nat := ⟨some (undamaged [unk 0, unk 1, unk 2]), none, fun _ => none⟩

private abbrev run (ok : Bool) (sub : String) (k : Nat) (r : Root (Nat × BBStatus) Nat) :=
  filterSh (E := Empty) (·.2) (fun _ => none) (fun _ => 0) (progs ok) r sub (knows k)

private theorem knows_keeps (k : Nat) (f : List (Item (Nat × BBStatus))) (l : List (Nat × BBStatus))
    (h : knows k f = (some (undamaged l), true)) : (l.map (·.1)).Perm ((okRecs f).map (·.1)) := by
  unfold knows at h
  injection h with h _
  injection h with h
  have : l = (okRecs f).map fun a => if a.1 = k then inf k else a := by
    rw [← okRecs_undamaged l, ← h, okRecs_undamaged]
  rw [this, List.map_map]
  refine List.Perm.of_eq (List.map_congr_left fun a _ => ?_)
  simp only [Function.comp]
  split_ifs with hk
  · exact hk.symm
  · rfl

/-- the hypotheses of the theorems can be met: two filters in two directories -/
example : ∃ r', filters (E := Empty) (·.2) (fun _ => none) (fun _ => 0) (progs true) [("a", knows 0), ("b", knows 2)] start = (r', true) ∧
    (decidedIn r' "a").map (·.1) = [0] ∧ (decidedIn r' "b").map (·.1) = [2] ∧ (holdouts r').map (·.1) = [1] :=
  ⟨_, Prod.ext rfl (by decide +kernel), by decide +kernel, by decide +kernel, by decide +kernel⟩

/-- **C74.** If two filters use the same directory, the machines that the first one decided are lost, although both runs
succeed. -/
theorem C74_same_directory_false :
    (filters (E := Empty) (·.2) (fun _ => none) (fun _ => 0) (progs true) [("a", knows 0), ("a", knows 2)] start).2 = true ∧
    let r := (filters (E := Empty) (·.2) (fun _ => none) (fun _ => 0) (progs true) [("a", knows 0), ("a", knows 2)] start).1
    (holdouts r).map (·.1) = [1] ∧ (decidedIn r "a").map (·.1) = [2] := by
  decide +kernel

/-- **C74.** If a run fails after it has replaced `unknown.pb` (here because the statistics could not be made) and is repeated,
the repetition succeeds, and the machines that were decided are lost. -/
theorem C74_repeat_false :
    let r1 := run false "a" 0 start
    let r2 := run true "a" 0 r1.1
    r1.2 = false ∧ r2.2 = true ∧ (holdouts r2.1).map (·.1) = [1, 2] ∧ decidedIn r2.1 "a" = [] := by
  decide +kernel

/-- a job whose filter finds that its machine halts but not after how many steps -/
private def haltJob : JobPrograms (Nat × BBStatus) Nat :=
  ⟨fun l => (some (undamaged (l.map hlt)), true), fun n => some (unk n), fun _ => some 1, (·.1)⟩

/-- **C74.** The scripts for the cluster lose such a machine, although they succeed. -/
theorem C74_unknown_steps_false :
    ∃ M, cluster (E := Empty) (·.2) (fun _ => none) (fun _ => 0) haltJob (fun _ l => [l]) 1 [5] = some M ∧
      M.text = [] ∧ ∀ c, (M.file c).getD [] = [] :=
  ⟨_, rfl, by decide +kernel, fun c => by cases c <;> decide +kernel⟩

/-- a job whose filter writes nothing, on machines of two states and two symbols -/
private def dropJob : JobPrograms SM SM := ⟨fun _ => (some [], true), some, fun m => Tools.count m false, id⟩

/-- **C74.** A filter that loses a machine without undefined cells and halting transitions is not noticed. -/
theorem C74_dropped_false :
    let m := SM.ofTable (tbl [[.go 1 .R 1, .go 1 .L 1], [.go 1 .L 0, .go 0 .R 1]]) 2 2
    ∃ M, cluster (E := Empty) (fun _ => BBStatus.empty) (fun _ => none) (fun _ => 0) dropJob (fun _ l => [l]) 1 [m] = some M ∧
      M.text = [] ∧ ∀ c, (M.file c).getD [] = [] := by
  intro m
  obtain ⟨M, hM⟩ := (C74_cluster_ok (E := Empty) (fun _ => BBStatus.empty) (fun _ => none) (fun _ => 0) dropJob
    (split := fun _ l => [l]) (N := 1) (text := [m]) rfl).2 (by
      intro part hp
      simp only [List.mem_singleton] at hp
      subst hp
      exact ⟨[], 0, rfl, ⟨[0], .cons (by decide +kernel) .nil, rfl⟩, ⟨[], .nil, rfl⟩, by simp⟩)
  refine ⟨M, hM, ?_⟩
  classical
  obtain ⟨outs, h1, h2, h3, h4, h5⟩ := C74_cluster_partial _ _ _ dropJob rfl hM
  have ho : outs.flatten = [] := by
    cases h1 with
    | cons ha hb =>
      cases hb
      rename_i out
      have hu : undamaged out = [] := by
        have := congrArg Prod.fst ha
        simpa [dropJob] using this.symm
      simpa [undamaged] using hu
  rw [ho] at h2 h5
  refine ⟨h2, fun c => ?_⟩
  by_cases c1 : c = .haltUnk
  · subst c1; rw [h3]; rfl
  by_cases c2 : c = .qhaltUnk
  · subst c2; rw [h4]; rfl
  rw [h5 c c1 c2]; rfl

end Props
