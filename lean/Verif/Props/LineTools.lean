import Verif.Lemmas.LineTools
import Verif.Props.CppRecurEnum
import Verif.Props.CppLazy

/-!
# C79: Comparing, splitting and sampling files of lines

`venn order left right` are the three files `venn_diff.py` writes, `shuffleSplit fl shuffle k file` the `k` files
`shuffle_split.py` writes, `sample len size nums file` the file `Random_Sample.py` writes for the random line numbers `nums`.
-/

namespace Props
open Spec Model Model.LineTools

/-! ## `venn_diff.py` -/

/-- **C79.** The program ends without an error if and only if no line of the left file occurs twice in the right file. -/
theorem C79_venn_ok (order : List (List Char) → List (List Char)) (left right : List Char) :
    (venn order left right).ok = true ↔ ∀ l ∈ lines left, (lines right).count l ≤ 1 := by
  have h := vennLoop_spec (lines left).dedup (lines right) (lines left).dedup [] [] (List.nodup_dedup _)
  have e : (venn order left right).ok = true ↔
      (vennLoop (lines left).dedup (lines right) (lines left).dedup [] []).2.2 ≠ none := by
    unfold venn
    dsimp only
    generalize vennLoop (lines left).dedup (lines right) (lines left).dedup [] [] = v
    rcases v with ⟨a, b, _ | c⟩ <;> simp
  rw [e]
  constructor
  · intro hn l hl
    by_cases hr : l ∈ lines right
    · exact (h.2 hn l hr (List.mem_dedup.2 hl)).2
    · rw [List.count_eq_zero.2 hr]; omega
  · intro hc
    obtain ⟨o, e, -⟩ := h.1 (fun l _ ha => ⟨ha, hc l (List.mem_dedup.1 ha)⟩)
    rw [e]
    simp

/-- **C79.** Then the first file has the lines of the right file that are in the left one, in their order, the third has the others,
and the second has the lines of the left file that are not in the right one, each once. -/
theorem C79_venn (order : List (List Char) → List (List Char)) (ho : ∀ l, (order l).Perm l) (left right : List Char)
    (h : (venn order left right).ok = true) :
    (venn order left right).inter = ((lines right).filter (· ∈ lines left)).flatten ∧
    (venn order left right).ronly = ((lines right).filter (· ∉ lines left)).flatten ∧
    ∃ ls : List (List Char), (venn order left right).lonly = ls.flatten ∧ ls.Nodup ∧ ∀ l, l ∈ ls ↔ l ∈ lines left ∧ l ∉ lines right := by
  rw [C79_venn_ok] at h
  obtain ⟨o, e, h1, h2⟩ := (vennLoop_spec (lines left).dedup (lines right) (lines left).dedup [] [] (List.nodup_dedup _)).1
    (fun l _ ha => ⟨ha, h l (List.mem_dedup.1 ha)⟩)
  unfold venn
  simp only
  rw [e]
  simp only [List.mem_dedup, List.nil_append]
  refine ⟨trivial, trivial, order o, rfl, (ho o).nodup_iff.2 h1, fun l => ?_⟩
  rw [(ho o).mem_iff, h2, List.mem_dedup]
  tauto

/-- **C79.** For files whose lines are complete this is what is read from the three files: every line of the right file is in exactly
one of the first and the third as often as in the right file, every line of the left file in exactly one of the first and the
second, and there are no other lines. -/
theorem C79_venn_lines (order : List (List Char) → List (List Char)) (ho : ∀ l, (order l).Perm l) (left right : List Char)
    (hl : Complete left) (hr : Complete right) (h : (venn order left right).ok = true) :
    lines (venn order left right).inter = (lines right).filter (· ∈ lines left) ∧
    lines (venn order left right).ronly = (lines right).filter (· ∉ lines left) ∧
    (lines (venn order left right).lonly).Nodup ∧
    ∀ l, l ∈ lines (venn order left right).lonly ↔ l ∈ lines left ∧ l ∉ lines right := by
  obtain ⟨h1, h2, ls, h3, h4, h5⟩ := C79_venn order ho left right h
  have cr := complete_lines hr
  have cl := complete_lines hl
  rw [h1, h2, h3, lines_of (fun l hl => cr l (List.mem_filter.1 hl).1), lines_of (fun l hl => cr l (List.mem_filter.1 hl).1),
    lines_of (fun l hl => cl l ((h5 l).1 hl).1)]
  exact ⟨rfl, rfl, h4, h5⟩

example : venn id "b\na\nc\n".toList "c\nd\nd\nb\n".toList = ⟨"c\nb\n".toList, "a\n".toList, "d\nd\n".toList, true⟩ ∧
    Complete "b\na\nc\n".toList := ⟨by decide, Or.inr ⟨"b\na\nc".toList, rfl⟩⟩

/-- **C79, negation.** A line that is in the left file and twice in the right file is an error, and the second file stays empty. -/
theorem C79_venn_repeated : venn id "a\nb\n".toList "a\na\n".toList = ⟨"a\n".toList, [], [], false⟩ := by decide

/-- **C79, negation.** If the last line of a file is not complete, it is not recognised in the other file. -/
theorem C79_venn_last : venn id "a".toList "a\n".toList = ⟨[], "a".toList, "a\n".toList, true⟩ := by decide

/-! ## `shuffle_split.py` -/

/-- **C79.** The chunks together are the shuffled lines, and each of the `k` chunks has a `k`-th of them, rounded down or up. -/
theorem C79_chunks {α : Type} {fl : ℚ → ℚ} (hfl : FloatRounding fl) {k : Nat} (hk : 1 ≤ k) (xs : List α) (hs : xs.length * k ≤ 2 ^ 48) :
    ∃ cs, chunks fl k xs = some cs ∧ cs.length = k ∧ cs.flatten = xs ∧
      ∀ c ∈ cs, xs.length / k ≤ c.length ∧ c.length ≤ (xs.length + k - 1) / k := by
  unfold chunks
  rw [if_neg (by omega)]
  simp only [Int.toNat_natCast]
  refine ⟨_, rfl, by simp, ?_, ?_⟩
  · rw [slices_flatten xs (chunkBreak fl xs.length k) (break_zero hfl _ _) (fun i => break_mono hfl _ _ (by omega)), break_last hfl hk hs]
    simp
  · intro c hc
    obtain ⟨i, hi, rfl⟩ := List.mem_map.1 hc
    rw [List.mem_range] at hi
    have m0 := break_mono hfl xs.length k (show 0 ≤ i by omega)
    have m1 := break_mono hfl xs.length k (show i ≤ i + 1 by omega)
    have m2 := break_mono hfl xs.length k (show i + 1 ≤ k by omega)
    rw [break_zero hfl] at m0
    rw [break_last hfl hk hs] at m2
    unfold slice
    rw [List.length_drop, List.length_take]
    by_cases hn : xs.length = 0
    · rw [hn] at m2 m1 m0 ⊢
      simp
    · have := break_size hfl (show 1 ≤ xs.length by omega) hk hi hs
      omega

/-- **C79.** The lines of the files that are written are the lines of the file that is read. -/
theorem C79_split {fl : ℚ → ℚ} (hfl : FloatRounding fl) (shuffle : List (List Char) → List (List Char)) (hp : ∀ l, (shuffle l).Perm l)
    {k : Nat} (hk : 1 ≤ k) (file : List Char) (hc : Complete file) (hs : (lines file).length * k ≤ 2 ^ 48) :
    ∃ files, shuffleSplit fl shuffle k file = some files ∧ files.length = k ∧ (∀ f ∈ files, Complete f) ∧
      ((files.map lines).flatten).Perm (lines file) ∧
      ∀ f ∈ files, (lines file).length / k ≤ (lines f).length ∧ (lines f).length ≤ ((lines file).length + k - 1) / k := by
  have hl := (hp (lines file)).length_eq
  obtain ⟨cs, h1, h2, h3, h4⟩ := C79_chunks hfl hk (shuffle (lines file)) (by rw [hl]; exact hs)
  have hline : ∀ c ∈ cs, ∀ l ∈ c, IsLine l := by
    intro c hcs l hlc
    have : l ∈ shuffle (lines file) := by rw [← h3]; exact List.mem_flatten.2 ⟨c, hcs, hlc⟩
    exact complete_lines hc l ((hp _).mem_iff.1 this)
  have hmap : (cs.map List.flatten).map lines = cs := by
    rw [List.map_map]
    conv_rhs => rw [← List.map_id cs]
    exact List.map_congr_left fun c hc => lines_of (hline c hc)
  refine ⟨cs.map List.flatten, by unfold shuffleSplit; rw [h1]; rfl, by simpa using h2, ?_, ?_, ?_⟩
  · intro f hf
    obtain ⟨c, hc, rfl⟩ := List.mem_map.1 hf
    exact complete_of (hline c hc)
  · rw [hmap, h3]
    exact hp _
  · intro f hf
    obtain ⟨c, hc, rfl⟩ := List.mem_map.1 hf
    rw [lines_of (hline c hc), ← hl]
    exact h4 c hc

/-- exact arithmetic is a possible floating point arithmetic -/
theorem exact_rounding : FloatRounding id :=
  ⟨fun _ h => h, fun _ _ => rfl, fun {x} h _ => by
    simp only [id_eq, sub_self, abs_zero]
    exact div_nonneg (le_trans (by norm_num) h) (by norm_num)⟩

example : shuffleSplit id List.reverse 3 "a\nb\nc\nd\n".toList = some ["d\n".toList, "c\nb\n".toList, "a\n".toList] := by decide +kernel

/-- **C79.** Nothing is written for a number of chunks that is not positive: an error for 0, success for a negative one. -/
theorem C79_split_none (fl : ℚ → ℚ) (shuffle : List (List Char) → List (List Char)) (num : Int) (file : List Char) :
    (num = 0 → shuffleSplit fl shuffle num file = none) ∧ (num < 0 → shuffleSplit fl shuffle num file = some []) := by
  refine ⟨fun h => by subst h; rfl, fun h => ?_⟩
  unfold shuffleSplit chunks
  rw [if_neg (by omega), show num.toNat = 0 by omega]
  rfl

/-- **C79, negation.** If the last line of the file is not complete, it is glued to another one: both are lost. -/
theorem C79_split_glued : ∃ shuffle : List (List Char) → List (List Char), (∀ l, (shuffle l).Perm l) ∧
    shuffleSplit id shuffle 1 "a\nb".toList = some ["ba\n".toList] ∧ lines "a\nb".toList = ["a\n".toList, "b".toList] ∧
    lines "ba\n".toList = ["ba\n".toList] :=
  ⟨List.reverse, List.reverse_perm, by decide +kernel, by decide, by decide⟩

/-! ### The parallel enumerations with this script -/

/-- the distribution of lines over files -/
def distribution (fl : ℚ → ℚ) (shuffle : List (List Char) → List (List Char)) (k : Nat) (l : List (List Char)) : List (List (List Char)) :=
  (chunks fl k (shuffle l)).getD []

private def guarded (fl : ℚ → ℚ) (shuffle : List (List Char) → List (List Char)) (k : Nat) (l : List (List Char)) : List (List (List Char)) :=
  if l.length * k ≤ 2 ^ 48 then distribution fl shuffle k l else [l]

private theorem guarded_perm {fl : ℚ → ℚ} (hfl : FloatRounding fl) {shuffle : List (List Char) → List (List Char)}
    (hp : ∀ l, (shuffle l).Perm l) {k : Nat} (hk : 1 ≤ k) (l : List (List Char)) : (guarded fl shuffle k l).flatten.Perm l := by
  unfold guarded
  split
  · next h =>
    obtain ⟨cs, h1, -, h3, -⟩ := C79_chunks hfl hk (shuffle l) (by rw [(hp l).length_eq]; exact h)
    unfold distribution
    rw [h1]
    simp only [Option.getD_some]
    rw [h3]
    exact hp l
  · simp

/-- **C79.** The parallel enumeration with the linear recurrence detector, with the distribution over `k` processes that
`shuffle_split.py` makes, misses no machine (C65), unless there are too many machines. -/
theorem C79_lr_parallel {fl : ℚ → ℚ} (hfl : FloatRounding fl) {shuffle : List (List Char) → List (List Char)}
    (hp : ∀ l, (shuffle l).Perm l) {k : Nat} (hk : 1 ≤ k) {fuel n m : Nat} (hn : 1 < n) (hm : 1 < m) (hn' : n < 26) (hm' : m < 10)
    {L1 L2 : Int} {allow : Bool} {H I U : List (List Char)} {st : Cpp.LrFiles} (h0 : Cpp.lrEnum fuel n m L1 allow false = .ok st)
    (hs : st.unknown.length * k ≤ 2 ^ 48)
    (h : Cpp.lrParallel fuel n m L1 L2 allow false (distribution fl shuffle k) = .ok (H, I, U)) {M : Table} (hf : Fits M n m)
    (total : ∀ q < n, ∀ a < m, M q a ≠ .undef) (hh : allow = true ∨ ∃ q < n, ∃ a < m, ∃ w d, M q a = .halt w d) {w q' : Nat} {d : Dir}
    (h1 : M 0 0 = .go w d q') (hw : w ≠ 0) (hq : q' ≠ 0) : Cpp.Covered n m M H I U := by
  refine C65_parallel_complete (fuel := fuel) (L1 := L1) (L2 := L2) (allow := allow) (split := guarded fl shuffle k) hn hm hn' hm' (fun f l => (guarded_perm hfl hp hk f).mem_iff) ?_ hf
    total hh h1 hw hq
  rw [← h]
  unfold Cpp.lrParallel
  rw [h0]
  have e : guarded fl shuffle k st.unknown = distribution fl shuffle k st.unknown := if_pos hs
  show (Cpp.mapOut _ (guarded fl shuffle k st.unknown) >>= _) = (Cpp.mapOut _ (distribution fl shuffle k st.unknown) >>= _)
  rw [e]

/-- **C79.** The parallel lazy beaver search with this distribution prints the lazy beaver number (C63), unless there are too many
machines. -/
theorem C79_lb_parallel {fl : ℚ → ℚ} (hfl : FloatRounding fl) {shuffle : List (List Char) → List (List Char)}
    (hp : ∀ l, (shuffle l).Perm l) {procs : Nat} (hk : 1 ≤ procs) {fuel n m : Nat} (hn : 2 ≤ n) (hm : 2 ≤ m) (hn' : n < 26) (hm' : m < 10)
    {initSteps maxSteps : Int} {r : Option Nat} {st : Cpp.Lazy} (h0 : Cpp.lbEnum fuel n m initSteps true = .ok st)
    (hs : st.nonhalt.length * procs ≤ 2 ^ 48)
    (h : Cpp.lbParallel fuel n m initSteps maxSteps (distribution fl shuffle procs) = .ok r) (k : Nat) :
    r = some k ↔ LazyBeaver n m k ∧ ∃ j : Nat, k < j ∧ (j : Int) ≤ max initSteps maxSteps ∧ RunsExactly n m j := by
  refine C63_parallel (fuel := fuel) (split := guarded fl shuffle procs) hn hm hn' hm' (guarded_perm hfl hp hk) ?_ k
  rw [← h]
  unfold Cpp.lbParallel
  rw [h0]
  have e : guarded fl shuffle procs st.nonhalt = distribution fl shuffle procs st.nonhalt := if_pos hs
  show (Cpp.lbChunks _ _ (guarded fl shuffle procs st.nonhalt) >>= _) = (Cpp.lbChunks _ _ (distribution fl shuffle procs st.nonhalt) >>= _)
  rw [e]

/-! ## `Random_Sample.py` -/

/-- **C79.** With line numbers that are in ascending order the file that is written has the lines with these numbers, counted from 1;
numbers beyond the end of the file are skipped. -/
theorem C79_sample (len size : Nat) (nums : List Nat) (file : List Char) (hn : nums.Pairwise (· < ·)) (h1 : ∀ i ∈ nums, 1 ≤ i) :
    sample len size nums file = if size ≤ len / 2 then some (nums.filterMap fun i => (lines file)[i - 1]?).flatten else none := by
  unfold sample
  split
  · rw [sampleLoop_lines nums 0 [] file (lines file) (List.pairwise_cons.2 ⟨fun i hi => h1 i hi, hn⟩) rfl]
  · rfl

private theorem pick_sublist {α : Type} (nums : List Nat) : ∀ (k : Nat) (xs : List α), nums.Pairwise (· < ·) → (∀ i ∈ nums, k < i) →
    (nums.filterMap fun i => xs[i - 1]?).Sublist (xs.drop k) := by
  induction nums with
  | nil => intro k xs _ _; simp
  | cons i nums ih =>
    intro k xs hp hk
    have hi := hk i (by simp)
    obtain ⟨p1, p2⟩ := List.pairwise_cons.1 hp
    have hr := ih i xs p2 p1
    have hd : (xs.drop (i - 1)).Sublist (xs.drop k) := by
      rw [show i - 1 = k + (i - 1 - k) by omega, ← List.drop_drop]
      exact List.drop_sublist _ _
    rw [List.filterMap_cons]
    cases h : xs[i - 1]? with
    | none =>
      refine hr.trans (List.Sublist.trans ?_ hd)
      rw [show i = i - 1 + 1 by omega, ← List.drop_drop]
      exact List.drop_sublist _ _
    | some a =>
      refine List.Sublist.trans ?_ hd
      obtain ⟨hlt, e⟩ := List.getElem?_eq_some_iff.1 h
      rw [List.drop_eq_getElem_cons hlt, e, show i - 1 + 1 = i by omega]
      exact hr.cons_cons a

/-- **C79.** If the file is as long as was said, its lines are complete and the numbers are `size` different ones, the sample has
`size` lines, in the order of the file, none taken twice. -/
theorem C79_sample_size (len size : Nat) (nums : List Nat) (file out : List Char) (hc : Complete file) (hn : nums.Pairwise (· < ·))
    (h1 : ∀ i ∈ nums, 1 ≤ i ∧ i ≤ len) (hz : nums.length = size) (hl : len ≤ (lines file).length)
    (h : sample len size nums file = some out) : (lines out).length = size ∧ (lines out).Sublist (lines file) := by
  rw [C79_sample len size nums file hn (fun i hi => (h1 i hi).1)] at h
  split at h
  · injection h with h
    have hsub := pick_sublist nums 0 (lines file) hn (fun i hi => (h1 i hi).1)
    rw [← h, lines_of (fun l hl => complete_lines hc l (hsub.subset hl))]
    refine ⟨?_, hsub⟩
    rw [← hz]
    clear hz hn h hsub
    induction nums with
    | nil => rfl
    | cons i nums ih =>
      have hi := h1 i (by simp)
      rw [List.filterMap_cons, List.getElem?_eq_getElem (by omega)]
      simp only [List.length_cons]
      rw [ih (fun j hj => h1 j (by simp [hj]))]
  · cases h

example : sample 5 2 [2, 4] "a\nb\nc\nd\ne\n".toList = some "b\nd\n".toList ∧ sample 5 2 [2, 5] "a\nb\nc\nd\n".toList = some "b\n".toList ∧
    sample 5 3 [1, 2, 3] "a\nb\nc\nd\ne\n".toList = none := by decide

end Props
