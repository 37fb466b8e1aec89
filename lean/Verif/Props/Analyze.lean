import Verif.Lemmas.Analyze

/-!
# C71: the statistics of `TM_Analyze.py`

`rec a` is what the program reads of the record `a`; `recsOf rec files` are the records that the reader yields, over all files.
`Stats.Of` (`Spec/Analyze.lean`) says of every number in the report what it should be, as a count, sum, least or greatest over the
list of records.
-/

namespace Props
open Model Model.Status Model.FileTools Model.Analyze

section
variable {α E : Type} (rec : α → Rec) (loads : List Nat → Option E) (value : E → Int)

/-- **C71.** Every number in the report is right, with any frequency of intermediate reports. -/
theorem C71_report (freq : Nat) (files : List (List (Item α))) (s : Stats)
    (h : analyze rec loads value freq files = .report s) : s.Of loads value (recsOf rec files) := by
  unfold analyze at h
  cases hf : addFiles rec loads value freq files {} with
  | none => rw [hf] at h; cases h
  | some s1 =>
    rw [hf] at h
    simp only at h
    split at h
    · split at h
      · cases h
        simpa using addFiles_of rec loads value files (Stats.Of.start loads value) hf
      · cases h
    · cases h

theorem part_count (rs : List Rec) : rs.countP Rec.unknown + rs.countP Rec.halts + rs.countP Rec.infinite = rs.length := by
  induction rs with
  | nil => rfl
  | cons r rs ih =>
    simp only [List.countP_cons, List.length_cons]
    unfold Rec.unknown Rec.halts Rec.infinite at *
    cases r.status.halt.decided <;> cases r.status.halt.halting <;> simp <;> omega

/-- **C71.** The parts add up: the total is the sum of unknown, halting and infinite, and each of the first and the last is the sum
over its reasons; the mean is the sum divided by the number of records that have the number. -/
theorem C71_sums (freq : Nat) (files : List (List (Item α))) (s : Stats)
    (h : analyze rec loads value freq files = .report s) :
    0 < s.count ∧ s.unknown + s.halt + s.inf = s.count ∧ (s.unknownReason.map Prod.snd).sum = s.unknown ∧
      (s.infReason.map Prod.snd).sum = s.inf ∧
      ∀ f, (s.stat f).mean = if numsOf (recsOf rec files) f = [] then 0
        else ((numsOf (recsOf rec files) f).sum : Rat) / (numsOf (recsOf rec files) f).length := by
  have ho := C71_report rec loads value freq files s h
  refine ⟨?_, ?_, ho.unknownSum, ho.infSum, fun f => ?_⟩
  · unfold analyze at h
    split at h
    · cases h
    · split at h
      · split at h
        · cases h; assumption
        · cases h
      · cases h
  · rw [ho.unknown, ho.halt, ho.inf, ho.count]; exact part_count _
  · unfold Stat.mean
    rw [(ho.stat f).count, (ho.stat f).total]
    by_cases hn : numsOf (recsOf rec files) f = []
    · simp [hn]
    · simp [hn]

theorem stat_perm {s s' : Stat} {vs vs' : List Nat} (h : s.Of vs) (h' : s'.Of vs') (hp : vs.Perm vs') : s = s' := by
  have hmax : s.max = s'.max := by
    rcases h.greatest.2 with a | ⟨a, a'⟩ <;> rcases h'.greatest.2 with b | ⟨b, b'⟩
    · exact Nat.le_antisymm (h'.greatest.1 _ (hp.mem_iff.1 a)) (h.greatest.1 _ (hp.mem_iff.2 b))
    · subst b; rw [hp.eq_nil] at a; cases a
    · subst a; rw [hp.symm.eq_nil] at b; cases b
    · rw [a', b']
  have hmin : s.min = s'.min := by
    have l := h.least
    have l' := h'.least
    cases hm : s.min with
    | none =>
      rw [hm] at l
      simp only at l
      subst l
      cases hm' : s'.min with
      | none => rfl
      | some m => rw [hm', hp.symm.eq_nil] at l'; simp at l'
    | some m =>
      rw [hm] at l
      simp only at l
      cases hm' : s'.min with
      | none =>
        rw [hm'] at l'
        simp only at l'
        subst l'
        rw [hp.eq_nil] at l
        simp at l
      | some m' =>
        rw [hm'] at l'
        simp only at l'
        rw [Nat.le_antisymm (l.2 _ (hp.mem_iff.2 l'.1)) (l'.2 _ (hp.mem_iff.1 l.1))]
  obtain ⟨a, b, c, d⟩ := s
  obtain ⟨a', b', c', d'⟩ := s'
  have h1 : a = a' := by have := h.count; have := h'.count; have := hp.length_eq; simp only at *; omega
  have h2 : b = b' := by have := h.total; have := h'.total; have := hp.sum_nat; simp only at *; omega
  simp only at hmin hmax
  rw [h1, h2, hmin, hmax]

theorem big_perm {s s' : BigStat} {vs vs' : List Int} (h : s.Of vs) (h' : s'.Of vs') (hp : vs.Perm vs') : s = s' := by
  have hmax : s.max = s'.max := by
    obtain ⟨a1, a2, a3⟩ := h.greatest
    obtain ⟨b1, b2, b3⟩ := h'.greatest
    apply Int.le_antisymm
    · rcases a3 with a | a
      · exact b2 _ (hp.mem_iff.1 a)
      · omega
    · rcases b3 with b | b
      · exact a2 _ (hp.mem_iff.2 b)
      · omega
  obtain ⟨a, b⟩ := s
  obtain ⟨a', b'⟩ := s'
  have h1 : a = a' := by have := h.count; have := h'.count; have := hp.length_eq; simp only at *; omega
  simp only at hmax
  rw [h1, hmax]

/-- **C71.** The report does not depend on the order of the records nor on how they are distributed over files. -/
theorem C71_order (freq freq' : Nat) (files files' : List (List (Item α))) (s s' : Stats)
    (h : analyze rec loads value freq files = .report s) (h' : analyze rec loads value freq' files' = .report s')
    (hp : (recsOf rec files).Perm (recsOf rec files')) :
    s.count = s'.count ∧ s.unknown = s'.unknown ∧ s.halt = s'.halt ∧ s.inf = s'.inf ∧ s.qhalt = s'.qhalt ∧
      s.haltSteps = s'.haltSteps ∧ s.haltScore = s'.haltScore ∧ s.qhaltSteps = s'.qhaltSteps ∧
      (∀ k, (Py.dget s.unknownReason k).getD 0 = (Py.dget s'.unknownReason k).getD 0) ∧
      (∀ k, (Py.dget s.infReason k).getD 0 = (Py.dget s'.infReason k).getD 0) ∧
      (∀ k, (Py.dget s.filtersRun k).getD 0 = (Py.dget s'.filtersRun k).getD 0) ∧ s.stat = s'.stat := by
  have o := C71_report rec loads value freq files s h
  have o' := C71_report rec loads value freq' files' s' h'
  refine ⟨?_, ?_, ?_, ?_, ?_, ?_, ?_, ?_, ?_, ?_, ?_, ?_⟩
  · rw [o.count, o'.count, hp.length_eq]
  · rw [o.unknown, o'.unknown, hp.countP_eq]
  · rw [o.halt, o'.halt, hp.countP_eq]
  · rw [o.inf, o'.inf, hp.countP_eq]
  · rw [o.qhalt, o'.qhalt, hp.countP_eq]
  · exact big_perm o.haltSteps o'.haltSteps ((hp.filter _).filterMap _)
  · exact big_perm o.haltScore o'.haltScore ((hp.filter _).filterMap _)
  · exact big_perm o.qhaltSteps o'.qhaltSteps ((hp.filter _).filterMap _)
  · intro k; rw [o.unknownReason, o'.unknownReason, hp.countP_eq]
  · intro k; rw [o.infReason, o'.infReason, hp.countP_eq]
  · intro k; rw [o.filtersRun, o'.filtersRun, (hp.map _).sum_nat]
  · funext f; exact stat_perm (o.stat f) (o'.stat f) (((hp.filter _).map _).filter _)

theorem readAll_cut_item (as : List α) (c : Item α) (hc : c = .cutData ∨ c = .cutLen) (tail : List (Item α)) :
    readAll (as.map Item.ok ++ c :: tail) = (as, .ioError) ∧ readAll (as.map Item.ok) = (as, .eof) := by
  induction as with
  | nil => rcases hc with rfl | rfl <;> exact ⟨rfl, rfl⟩
  | cons a as ih => simp only [List.map_cons, List.cons_append, readAll, ih.1, ih.2, and_self]

/-- **C71.** A file that is cut off contributes all its complete records, and the following files are read as usual. -/
theorem C71_cut (freq : Nat) (pre post : List (List (Item α))) (as : List α) (c : Item α) (hc : c = .cutData ∨ c = .cutLen)
    (tail : List (Item α)) : analyze rec loads value freq (pre ++ (as.map Item.ok ++ c :: tail) :: post) =
      analyze rec loads value freq (pre ++ as.map Item.ok :: post) := by
  have : ∀ s, addFiles rec loads value freq (pre ++ (as.map Item.ok ++ c :: tail) :: post) s =
      addFiles rec loads value freq (pre ++ as.map Item.ok :: post) s := by
    induction pre with
    | nil =>
      intro s
      obtain ⟨h1, h2⟩ := readAll_cut_item as c hc tail
      simp only [List.nil_append, addFiles, h1, h2]
      rfl
    | cons f pre ih =>
      intro s
      simp only [List.cons_append, addFiles, ih]
  unfold analyze
  rw [this]

theorem printable_iff {s : Stats} {rs : List Rec} (h : s.Of loads value rs) :
    printable s = true ↔ (∃ r ∈ rs, r.num .log10Steps ≠ 0) ∧ ∀ r ∈ rs, r.infinite = true → r.status.halt.infReason ≤ 8 := by
  unfold printable
  rw [Bool.and_eq_true, List.all_eq_true]
  apply and_congr
  · have hl := (h.stat .log10Steps).least
    have hm : ∀ v, v ∈ numsOf rs .log10Steps ↔ ∃ r ∈ rs, r.num .log10Steps = v ∧ v ≠ 0 := by
      intro v
      rw [numsOf_value, List.mem_filterMap]
      have : ∀ r : Rec, r.value .log10Steps = some (r.num .log10Steps) := fun _ => rfl
      simp only [this, Option.filter_eq_some_iff, Option.some.injEq, decide_eq_true_eq]
    constructor
    · intro hs
      obtain ⟨m, e⟩ := Option.isSome_iff_exists.1 hs
      rw [e] at hl
      obtain ⟨r, hr, h1, h2⟩ := (hm m).1 hl.1
      exact ⟨r, hr, by rwa [h1]⟩
    · rintro ⟨r, hr, hn⟩
      cases e : (s.stat .log10Steps).min with
      | some m => rfl
      | none =>
        rw [e] at hl
        have := (hm _).2 ⟨r, hr, rfl, hn⟩
        rw [hl] at this
        cases this
  · constructor
    · intro hk r hr hi
      have := (h.infKeys r.status.halt.infReason).2 ⟨r, hr, hi, rfl⟩
      obtain ⟨e, he, h1⟩ := List.mem_map.1 this
      have := hk e he
      rw [← h1]
      simpa using this
    · intro hk e he
      obtain ⟨r, hr, hi, h1⟩ := (h.infKeys e.1).1 (List.mem_map_of_mem he)
      have := hk r hr hi
      rw [h1] at this
      simpa using this

theorem unprintable_iff {s : Stats} {rs : List Rec} (h : s.Of loads value rs) : printable s = false ↔ Unprintable rs := by
  rw [← Bool.not_eq_true, printable_iff loads value h, not_and_or]
  unfold Unprintable
  push Not
  rfl

/-- **C71.** When there is no report (without intermediate ones): the program fails if and only if a file has a message that cannot
be parsed, or a number cannot be read, or -- and this is an error of the program -- there are records but none of them has a
`log10_num_steps` other than 0, or a reason has no name; it says "No Records" if and only if none of the former is the case and
there is no record. -/
theorem C71_fails (files : List (List (Item α))) :
    (analyze rec loads value 0 files = .raised ↔
      (∃ f ∈ files, (readAll f).2 = .raised) ∨ (∃ r ∈ recsOf rec files, ¬ r.Readable loads value) ∨
      (recsOf rec files ≠ [] ∧ Unprintable (recsOf rec files))) ∧
    (analyze rec loads value 0 files = .empty ↔
      (∀ f ∈ files, (readAll f).2 ≠ .raised) ∧ recsOf rec files = []) := by
  unfold analyze
  cases hf : addFiles rec loads value 0 files {} with
  | none =>
    simp only [true_iff, reduceCtorEq, false_iff, not_and]
    rcases addFiles_none rec loads value files {} hf with h | ⟨r, h, h'⟩
    · exact ⟨Or.inl h, fun hn => absurd h (by push Not; exact hn)⟩
    · exact ⟨Or.inr (Or.inl ⟨r, h, h'⟩), fun _ he => by rw [he] at h; cases h⟩
  | some s =>
    have ho : s.Of loads value (recsOf rec files) := by
      simpa using addFiles_of rec loads value files (Stats.Of.start loads value) hf
    obtain ⟨g1, g2, -⟩ := addFiles_some rec loads value files {} s hf
    have n1 : ¬ ∃ f ∈ files, (readAll f).2 = .raised := by push Not; exact g1
    have n2 : ¬ ∃ r ∈ recsOf rec files, ¬ r.Readable loads value := by push Not; exact g2
    have hc := ho.count
    have hp' := unprintable_iff loads value ho
    by_cases h0 : recsOf rec files = []
    · have : ¬ s.count > 0 := by rw [hc, h0]; simp
      simp only [if_neg this, n1, h0, reduceCtorEq, ne_eq, not_true_eq_false, false_and, or_false, true_iff, and_true, false_iff]
      refine ⟨by simp, g1⟩
    · have : s.count > 0 := by rw [hc]; exact List.length_pos_of_ne_nil h0
      simp only [if_pos this, n1, n2, false_or, ne_eq, h0, not_false_eq_true, true_and, and_false, iff_false]
      rw [← hp']
      cases printable s <;> simp

/-- **C71.** Intermediate reports do not change the last one. -/
theorem C71_freq (freq : Nat) (files : List (List (Item α))) (s : Stats) (h : analyze rec loads value freq files = .report s) :
    analyze rec loads value 0 files = .report s := by
  unfold analyze at h ⊢
  cases hf : addFiles rec loads value freq files {} with
  | none => rw [hf] at h; cases h
  | some s1 =>
    rw [hf] at h
    rw [(addFiles_some rec loads value files {} s1 hf).2.2]
    exact h

/-- **C71.** When the program fails with intermediate reports after every `freq` records: if and only if it fails without them, or
one of the intermediate reports, on the first `freq`, `2 freq`, ... records, cannot be printed. -/
theorem C71_freq_fails (freq : Nat) (hq : freq ≠ 0) (files : List (List (Item α))) :
    analyze rec loads value freq files = .raised ↔ analyze rec loads value 0 files = .raised ∨
      ∃ n, 0 < n ∧ n ≤ (recsOf rec files).length ∧ freq ∣ n ∧ Unprintable ((recsOf rec files).take n) := by
  cases h0 : addFiles rec loads value 0 files {} with
  | none =>
    have hn : addFiles rec loads value freq files {} = none := by
      cases hf : addFiles rec loads value freq files {} with
      | none => rfl
      | some s => rw [(addFiles_some rec loads value files {} s hf).2.2] at h0; cases h0
    unfold analyze
    simp [h0, hn]
  | some s0 =>
    obtain ⟨g1, -, -⟩ := addFiles_some rec loads value files {} s0 h0
    have e := addFiles_flat rec loads value 0 files g1 {}
    have e' := addFiles_flat rec loads value freq files g1 {}
    have key := addList_freq rec loads value hq (fun h => unprintable_iff loads value h) _ (Stats.Of.start loads value) (e ▸ h0)
    rw [← e'] at key
    have er : recsOf rec files = ((files.map fun f => (readAll f).1).flatten).map rec := rfl
    rw [er]
    cases hf : addFiles rec loads value freq files {} with
    | none =>
      obtain ⟨n, a, b, c, d⟩ := key.1 hf
      refine ⟨fun _ => Or.inr ⟨n, a, by rw [List.length_map]; exact b, by simpa using c, ?_⟩, fun _ => by unfold analyze; rw [hf]⟩
      rw [← List.map_take]
      simpa using d
    | some s1 =>
      have hs : analyze rec loads value freq files = analyze rec loads value 0 files := by
        unfold analyze
        rw [(addFiles_some rec loads value files {} s1 hf).2.2, hf]
      rw [hs]
      refine ⟨Or.inl, fun h => h.elim id ?_⟩
      rintro ⟨n, a, b, c, d⟩
      rw [← List.map_take] at d
      have := key.2 ⟨n, a, by rw [List.length_map] at b; exact b, by simpa using c, by simpa using d⟩
      rw [hf] at this
      cases this

end

/-! ### A file with three records -/

def anaNum (loops log : Nat) : Field → Nat
  | .loops => loops
  | .log10Steps => log
  | _ => 0

def anaHalt (steps : Nat) (log : Nat) : Rec :=
  { status := ⟨⟨true, true, .int steps, .int 3, 0, 0, 0⟩, ⟨false, false, .unset, 0⟩⟩, reason := none, filters := [1], num := anaNum 10 log
    offset := 0, btSuccess := false, cgSuccess := false }

def anaInf : Rec :=
  { status := ⟨⟨true, false, .unset, .unset, 0, 0, 5⟩, ⟨true, true, .int 7, 1⟩⟩, reason := none, filters := [1, 4], num := anaNum 0 0
    offset := -4, btSuccess := false, cgSuccess := false }

def anaUnk : Rec :=
  { status := BBStatus.empty, reason := some 0, filters := [], num := anaNum 30 2, offset := 0, btSuccess := false, cgSuccess := false }

def anaSummary : Outcome → Option (List Nat × Int × Stat × Stat × Option Nat)
  | .report s => some ([s.count, s.unknown, s.halt, s.inf, s.qhalt], s.haltSteps.max, s.stat .loops, s.stat .lrOffset,
      Py.dget s.infReason 5)
  | _ => none

-- a report; the second file is cut off
example : anaSummary (analyze (E := Nat) id (fun _ => none) (fun e => e) 2 [[.ok (anaHalt 21 1), .ok anaInf], [.ok anaUnk, .cutData, .ok anaInf]]) =
    some ([3, 1, 1, 1, 1], 21, ⟨2, 40, some 10, 30⟩, ⟨1, 4, some 4, 4⟩, some 1) := by decide +kernel

-- the first of two records cannot be reported alone, both can
example : anaSummary (analyze (E := Nat) id (fun _ => none) (fun e => e) 1 [[.ok anaInf, .ok (anaHalt 21 1)]]) = none ∧
    (anaSummary (analyze (E := Nat) id (fun _ => none) (fun e => e) 2 [[.ok anaInf, .ok (anaHalt 21 1)]])).isSome = true ∧
    Unprintable ([anaInf, anaHalt 21 1].take 1) :=
  ⟨by decide +kernel, by decide +kernel, Or.inl fun r hr => by simp at hr; subst hr; rfl⟩

/-- The program fails on a file whose records were decided without the simulator (or within fewer than ten steps): all numbers can
be read, but the report cannot be printed. -/
theorem C71_min_of_nothing : (∀ r ∈ recsOf id [[Item.ok anaInf]], r.Readable (E := Nat) (fun _ => none) (fun e => e)) ∧
    analyze (E := Nat) id (fun _ => none) (fun e => e) 0 [[.ok anaInf]] = .raised := by
  constructor
  · intro r hr
    have : r = anaInf := by simpa [recsOf, readAll] using hr
    subst this
    exact ⟨fun h => (by cases h), fun _ => rfl⟩
  · rw [(C71_fails id _ _ _).1]
    right; right
    refine ⟨by simp [recsOf, readAll], Or.inl fun r hr => ?_⟩
    have : r = anaInf := by simpa [recsOf, readAll] using hr
    subst this
    rfl

end Props
