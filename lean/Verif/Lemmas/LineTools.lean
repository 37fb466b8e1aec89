import Verif.Spec.LineTools
import Mathlib.Tactic.Linarith
import Mathlib.Tactic.Ring
import Mathlib.Tactic.Positivity
import Mathlib.Tactic.FieldSimp
import Mathlib.Tactic.NormNum
import Mathlib.Data.List.Dedup

/-!
# Lines of text files, sets of lines, chunks
-/

namespace Model.LineTools
open Spec

/-! ### Lines -/

theorem lines_flatten (s : List Char) : (lines s).flatten = s := by
  induction s with
  | nil => rfl
  | cons c s ih =>
    unfold lines
    split
    · next h => simp [ih, h]
    · split
      · next h => rw [h] at ih; simp at ih; simp [ih]
      · next l ls h => rw [h] at ih; simp at ih; simp [ih]

theorem lines_line {b : List Char} (hb : '\n' ∉ b) (s : List Char) : lines (b ++ '\n' :: s) = (b ++ ['\n']) :: lines s := by
  induction b with
  | nil => simp [lines]
  | cons c b ih =>
    have h1 : c ≠ '\n' := fun h => hb (by simp [h])
    have h2 := ih (fun h => hb (by simp [h]))
    rw [List.cons_append, lines, if_neg h1, h2]
    rfl

theorem lines_last {b : List Char} (hb : '\n' ∉ b) (h0 : b ≠ []) : lines b = [b] := by
  induction b with
  | nil => exact absurd rfl h0
  | cons c b ih =>
    have h1 : c ≠ '\n' := fun h => hb (by simp [h])
    rw [lines, if_neg h1]
    by_cases h : b = []
    · subst h; rfl
    · rw [ih (fun h => hb (by simp [h])) h]

theorem lines_cons {l : List Char} (h : IsLine l) (s : List Char) : lines (l ++ s) = l :: lines s := by
  obtain ⟨b, hb, rfl⟩ := h
  simpa using lines_line hb s

theorem lines_of {ls : List (List Char)} (h : ∀ l ∈ ls, IsLine l) : lines ls.flatten = ls := by
  induction ls with
  | nil => rfl
  | cons l ls ih =>
    rw [List.flatten_cons, lines_cons (h l (by simp)), ih (fun x hx => h x (by simp [hx]))]

/-- a file is empty, or it has a first line and a rest, or it is one line without an end -/
theorem first_line (s : List Char) : s = [] ∨ (∃ b t, '\n' ∉ b ∧ s = b ++ '\n' :: t) ∨ (s ≠ [] ∧ '\n' ∉ s) := by
  by_cases h : '\n' ∈ s
  · obtain ⟨b, t, e, hb⟩ := List.eq_append_cons_of_mem h
    exact Or.inr (Or.inl ⟨b, t, hb, e⟩)
  · by_cases h0 : s = []
    · exact Or.inl h0
    · exact Or.inr (Or.inr ⟨h0, h⟩)

theorem complete_lines {s : List Char} (h : Complete s) : ∀ l ∈ lines s, IsLine l := by
  have key : ∀ n (s : List Char), s.length ≤ n → Complete s → ∀ l ∈ lines s, IsLine l := by
    intro n
    induction n with
    | zero => intro s hs _ l hl; have e : s = [] := List.length_eq_zero_iff.1 (by omega); subst e; cases hl
    | succ n ih =>
      intro s hs hc l hl
      rcases first_line s with rfl | ⟨b, t, hb, rfl⟩ | ⟨h0, h1⟩
      · cases hl
      · rw [lines_line hb, List.mem_cons] at hl
        rcases hl with rfl | hl
        · exact ⟨b, hb, rfl⟩
        · refine ih t (by simp at hs; omega) ?_ l hl
          rcases hc with hc | ⟨u, hu⟩
          · simp at hc
          · by_cases ht : t = []
            · exact Or.inl ht
            · right
              have e := congrArg List.getLast? hu
              rw [List.getLast?_append_of_ne_nil _ (by simp), List.getLast?_cons_of_ne_nil ht] at e
              simp at e
              obtain ⟨v, hv⟩ := List.getLast?_eq_some_iff.1 e
              exact ⟨v, hv⟩
      · rcases hc with hc | ⟨u, hu⟩
        · exact absurd hc h0
        · exact absurd (by rw [hu]; simp) h1
  exact key _ s le_rfl h

theorem complete_of {ls : List (List Char)} (h : ∀ l ∈ ls, IsLine l) : Complete ls.flatten := by
  rcases List.eq_nil_or_concat ls with rfl | ⟨ls, l, rfl⟩
  · exact Or.inl rfl
  · obtain ⟨b, -, e⟩ := h l (by simp)
    right
    refine ⟨ls.flatten ++ b, ?_⟩
    simp [e]

theorem readline_lines (s : List Char) : (Py.readline s).1 = (lines s).headD [] ∧ lines (Py.readline s).2 = (lines s).tail := by
  rcases first_line s with rfl | ⟨b, t, hb, rfl⟩ | ⟨h0, h1⟩
  · exact ⟨rfl, rfl⟩
  · rw [lines_line hb]
    have : Py.readline (b ++ '\n' :: t) = (b ++ ['\n'], t) := by
      induction b with
      | nil => rfl
      | cons c b ih =>
        have h1 : c ≠ '\n' := fun h => hb (by simp [h])
        rw [List.cons_append, Py.readline, if_neg h1, ih (fun h => hb (by simp [h]))]
        rfl
    rw [this]
    exact ⟨rfl, rfl⟩
  · rw [lines_last h1 h0]
    have : Py.readline s = (s, []) := by
      clear h0
      induction s with
      | nil => rfl
      | cons c b ih =>
        have h2 : c ≠ '\n' := fun h => h1 (by simp [h])
        rw [Py.readline, if_neg h2, ih (fun h => h1 (by simp [h]))]
    rw [this]
    exact ⟨rfl, rfl⟩

/-! ### `venn_diff.py` -/

theorem vennLoop_spec (all : List (List Char)) (right : List (List Char)) : ∀ (only : List (List Char)) (inter ronly : List Char),
    only.Nodup →
    ((∀ l ∈ right, l ∈ all → l ∈ only ∧ right.count l ≤ 1) →
      ∃ only', vennLoop all right only inter ronly = (inter ++ (right.filter (· ∈ all)).flatten,
        ronly ++ (right.filter (· ∉ all)).flatten, some only') ∧ only'.Nodup ∧
        ∀ l, l ∈ only' ↔ l ∈ only ∧ (l ∈ all → l ∉ right)) ∧
    ((vennLoop all right only inter ronly).2.2 ≠ none → ∀ l ∈ right, l ∈ all → l ∈ only ∧ right.count l ≤ 1) := by
  induction right with
  | nil => intro only inter ronly hn; exact ⟨fun _ => ⟨only, by simp [vennLoop], hn, by simp⟩, by simp⟩
  | cons x right ih =>
    intro only inter ronly hn
    unfold vennLoop
    by_cases hx : x ∈ all
    · rw [if_pos hx]
      by_cases ho : x ∈ only
      · rw [if_pos ho]
        obtain ⟨i1, i2⟩ := ih (only.erase x) (inter ++ x) ronly (hn.erase x)
        constructor
        · intro h
          have hxr : x ∉ right := by
            have := (h x (by simp) hx).2
            rw [List.count_cons_self] at this
            exact List.count_eq_zero.1 (by omega)
          obtain ⟨only', e1, e2, e3⟩ := i1 (fun l hl ha => by
            have := h l (by simp [hl]) ha
            have hne : l ≠ x := fun e => hxr (e ▸ hl)
            refine ⟨(List.mem_erase_of_ne hne).2 this.1, ?_⟩
            have h2 := this.2
            rw [List.count_cons_of_ne (Ne.symm hne)] at h2
            exact h2)
          refine ⟨only', ?_, e2, fun l => ?_⟩
          · rw [e1]; simp [hx]
          · rw [e3, hn.mem_erase_iff]
            constructor
            · rintro ⟨⟨a, b⟩, c⟩
              exact ⟨b, fun ha hm => by
                rcases List.mem_cons.1 hm with h | h
                · exact a h
                · exact c ha h⟩
            · rintro ⟨a, b⟩
              refine ⟨⟨fun e => ?_, a⟩, fun ha hm => b ha (by simp [hm])⟩
              subst e
              exact b hx (by simp)
        · intro h l hl ha
          have hr := i2 h
          by_cases e : l = x
          · subst e
            refine ⟨ho, ?_⟩
            have : l ∉ right := fun hm => by
              have := (hr l hm hx).1
              rw [hn.mem_erase_iff] at this
              exact this.1 rfl
            rw [List.count_cons_self, List.count_eq_zero.2 this]
          · rcases List.mem_cons.1 hl with h' | h'
            · exact absurd h' e
            · obtain ⟨a, b⟩ := hr l h' ha
              exact ⟨List.mem_of_mem_erase a, by rwa [List.count_cons_of_ne (Ne.symm e)]⟩
      · rw [if_neg ho]
        exact ⟨fun h => absurd (h x (by simp) hx).1 ho, fun h => absurd rfl h⟩
    · rw [if_neg hx]
      obtain ⟨i1, i2⟩ := ih only inter (ronly ++ x) hn
      constructor
      · intro h
        obtain ⟨only', e1, e2, e3⟩ := i1 (fun l hl ha => by
          have := h l (by simp [hl]) ha
          have hne : x ≠ l := fun e => hx (by rw [e]; exact ha)
          rw [List.count_cons_of_ne hne] at this
          exact this)
        refine ⟨only', ?_, e2, fun l => ?_⟩
        · rw [e1]; simp [hx]
        · rw [e3]
          constructor
          · rintro ⟨a, b⟩
            exact ⟨a, fun ha hm => by
              rcases List.mem_cons.1 hm with h | h
              · exact hx (h ▸ ha)
              · exact b ha h⟩
          · rintro ⟨a, b⟩
            exact ⟨a, fun ha hm => b ha (by simp [hm])⟩
      · intro h l hl ha
        have hne : l ≠ x := fun e => hx (e ▸ ha)
        obtain ⟨a, b⟩ := i2 h l ((List.mem_cons.1 hl).resolve_left hne) ha
        exact ⟨a, by rwa [List.count_cons_of_ne (Ne.symm hne)]⟩

/-! ### Rounding -/

theorem pyRound_near (x : ℚ) : |(pyRound x : ℚ) - x| ≤ 1 / 2 := by
  have h1 := Int.floor_le x
  have h2 := Int.lt_floor_add_one x
  unfold pyRound
  rw [abs_le]
  split_ifs <;> push_cast <;> constructor <;> linarith

theorem pyRound_int (n : Int) : pyRound n = n := by
  unfold pyRound
  simp

theorem pyRound_mono {x y : ℚ} (h : x ≤ y) : pyRound x ≤ pyRound y := by
  have hf : ⌊x⌋ ≤ ⌊y⌋ := Int.floor_le_floor h
  have h1 := Int.floor_le y
  have h2 := Int.lt_floor_add_one x
  rcases hf.lt_or_eq with hlt | heq
  · have a : pyRound x ≤ ⌊x⌋ + 1 := by unfold pyRound; split_ifs <;> omega
    have b : ⌊y⌋ ≤ pyRound y := by unfold pyRound; split_ifs <;> omega
    omega
  · unfold pyRound
    rw [← heq]
    generalize ⌊x⌋ = f at *
    split_ifs <;> first | omega | (exfalso; linarith)

section
variable {fl : ℚ → ℚ} (hfl : FloatRounding fl)
include hfl

theorem break_zero (n k : Nat) : chunkBreak fl n k 0 = 0 := by
  unfold chunkBreak
  have := hfl.exact 0 (by norm_num)
  simp only [Nat.cast_zero] at this
  rw [Nat.cast_zero, mul_zero, this]
  exact pyRound_int 0

theorem fl_nonneg {x : ℚ} (h : 0 ≤ x) : 0 ≤ fl x := by
  have := hfl.exact 0 (by norm_num)
  simp only [Nat.cast_zero] at this
  rw [← this]
  exact hfl.mono le_rfl h

theorem break_mono (n k : Nat) {i j : Nat} (h : i ≤ j) : chunkBreak fl n k i ≤ chunkBreak fl n k j := by
  have h0 := fl_nonneg hfl (x := (n : ℚ) / k) (by positivity)
  apply pyRound_mono
  apply hfl.mono
  · positivity
  · exact mul_le_mul_of_nonneg_left (by exact_mod_cast h) h0

/-- the break before rounding is off by at most `4 n / 2^53` -/
theorem break_error {n k i : Nat} (hn : 1 ≤ n) (hk : 1 ≤ k) (hi : i ≤ k) (hs : n * k ≤ 2 ^ 48) :
    |fl (fl ((n : ℚ) / k) * i) - n * i / k| ≤ 4 * n / 2 ^ 53 := by
  have hnk : n ≤ 2 ^ 48 := le_trans (Nat.le_mul_of_pos_right n (by omega)) hs
  have hkk : k ≤ 2 ^ 48 := le_trans (Nat.le_mul_of_pos_left k (by omega)) hs
  have hn1 : (1 : ℚ) ≤ n := by exact_mod_cast hn
  have hk1 : (1 : ℚ) ≤ k := by exact_mod_cast hk
  have hn2 : (n : ℚ) ≤ 2 ^ 48 := by exact_mod_cast hnk
  have hk2 : (k : ℚ) ≤ 2 ^ 48 := by exact_mod_cast hkk
  have hik : (i : ℚ) ≤ k := by exact_mod_cast hi
  have hi0 : (0 : ℚ) ≤ i := by positivity
  have d1 : (1 : ℚ) / 2 ^ 50 ≤ (n : ℚ) / k := by
    rw [div_le_div_iff₀ (by norm_num) (by linarith)]
    nlinarith
  have d2 : (n : ℚ) / k ≤ n := by
    rw [div_le_iff₀ (by linarith)]
    nlinarith
  have e1 := hfl.error (x := (n : ℚ) / k) (by linarith [show (1:ℚ)/2^60 ≤ 1/2^50 by norm_num]) (by linarith [show (2:ℚ)^48 ≤ 2^60 by norm_num])
  generalize hd : (n : ℚ) / k = d at *
  generalize hp : fl d = p at *
  have dk : d * k = n := by rw [← hd]; field_simp
  have di : (n : ℚ) * i / k = d * i := by rw [← hd]; ring
  rw [di]
  rw [abs_le] at e1
  rcases Nat.eq_zero_or_pos i with h0 | h0
  · subst h0
    have := hfl.exact 0 (by norm_num)
    simp only [Nat.cast_zero] at this
    simp only [Nat.cast_zero, mul_zero, this, sub_zero, abs_zero]
    positivity
  · have hi1 : (1 : ℚ) ≤ i := by exact_mod_cast h0
    have dpos : 0 < d := by linarith [show (0:ℚ) < 1/2^50 by norm_num]
    have din : d * i ≤ n := by rw [← dk]; exact mul_le_mul_of_nonneg_left hik dpos.le
    have p1 : d / 2 ≤ p := by nlinarith [e1.1]
    have p2 : p ≤ 2 * d := by nlinarith [e1.2]
    have q1 : p * i - d * i ≤ n / 2 ^ 53 := by
      have : (p - d) * i ≤ d / 2 ^ 53 * i := mul_le_mul_of_nonneg_right e1.2 hi0
      have h3 : d / 2 ^ 53 * i = d * i / 2 ^ 53 := by ring
      have h4 : d * i / 2 ^ 53 ≤ n / 2 ^ 53 := div_le_div_of_nonneg_right din (by norm_num)
      linarith
    have q2 : -(n / 2 ^ 53) ≤ p * i - d * i := by
      have : -(d / 2 ^ 53) * i ≤ (p - d) * i := mul_le_mul_of_nonneg_right e1.1 hi0
      have h3 : -(d / 2 ^ 53) * i = -(d * i / 2 ^ 53) := by ring
      have h4 : d * i / 2 ^ 53 ≤ n / 2 ^ 53 := div_le_div_of_nonneg_right din (by norm_num)
      linarith
    have r1 : 1 / 2 ^ 60 ≤ p * i := by
      have : d / 2 * 1 ≤ p * i := mul_le_mul p1 hi1 (by norm_num) (by linarith)
      linarith [show (1:ℚ)/2^60 ≤ 1/2^50/2 by norm_num]
    have r2 : p * i ≤ 2 * n := by
      have : p * i ≤ 2 * d * i := mul_le_mul_of_nonneg_right p2 hi0
      linarith
    have e2 := hfl.error r1 (by linarith [show (2:ℚ) * 2^48 ≤ 2^60 by norm_num])
    rw [abs_le] at e2 ⊢
    have r3 : p * i / 2 ^ 53 ≤ 2 * n / 2 ^ 53 := div_le_div_of_nonneg_right r2 (by norm_num)
    have r4 : (4 : ℚ) * n / 2 ^ 53 = n / 2 ^ 53 + 2 * n / 2 ^ 53 + n / 2 ^ 53 := by ring
    have r5 : (0 : ℚ) ≤ n / 2 ^ 53 := by positivity
    constructor <;> linarith [e2.1, e2.2]

theorem break_last {n k : Nat} (hk : 1 ≤ k) (hs : n * k ≤ 2 ^ 48) : chunkBreak fl n k k = n := by
  rcases Nat.eq_zero_or_pos n with h0 | h0
  · subst h0
    have := hfl.exact 0 (by norm_num)
    simp only [Nat.cast_zero] at this
    unfold chunkBreak
    rw [Nat.cast_zero, zero_div, this, zero_mul, this]
    exact pyRound_int 0
  · have e := break_error hfl (i := k) h0 hk le_rfl hs
    have hk1 : (1 : ℚ) ≤ k := by exact_mod_cast hk
    have hn2 : (n : ℚ) ≤ 2 ^ 48 := by exact_mod_cast le_trans (Nat.le_mul_of_pos_right n (by omega)) hs
    rw [show (n : ℚ) * k / k = n by field_simp] at e
    have b := pyRound_near (fl (fl ((n : ℚ) / k) * k))
    rw [abs_le] at e b
    unfold chunkBreak
    generalize pyRound (fl (fl ((n : ℚ) / k) * k)) = r at *
    have h4 : (4 : ℚ) * n / 2 ^ 53 ≤ 1 / 8 := by
      rw [div_le_iff₀ (by norm_num)]
      linarith [show (4 : ℚ) * 2 ^ 48 ≤ 1 / 8 * 2 ^ 53 by norm_num]
    have a1 : ((r - n : Int) : ℚ) < 1 := by push_cast; linarith [e.1, e.2, b.1, b.2]
    have a2 : (-1 : ℚ) < ((r - n : Int) : ℚ) := by push_cast; linarith [e.1, e.2, b.1, b.2]
    have a3 : r - n < 1 := by exact_mod_cast a1
    have a4 : -1 < r - n := by exact_mod_cast a2
    omega

theorem break_exact {d k i : Nat} (hk : 1 ≤ k) (hi : i ≤ k) (hs : k * d ≤ 2 ^ 53) : chunkBreak fl (k * d) k i = d * i := by
  unfold chunkBreak
  have hk1 : (1 : ℚ) ≤ k := by exact_mod_cast hk
  have e : (((k * d : Nat) : ℚ)) / k = (d : Nat) := by push_cast; field_simp
  rw [e, hfl.exact d (le_trans (Nat.le_mul_of_pos_left d (by omega)) hs)]
  have e2 : ((d : Nat) : ℚ) * i = ((d * i : Nat) : ℚ) := by push_cast; rfl
  rw [e2, hfl.exact _ (le_trans (by rw [Nat.mul_comm k d]; exact Nat.mul_le_mul_left d hi) hs)]
  have := pyRound_int ((d * i : Nat) : Int)
  rw [show (((d * i : Nat) : Int) : ℚ) = ((d * i : Nat) : ℚ) by push_cast; rfl] at this
  rw [this]
  push_cast
  rfl

/-- a chunk has the quotient of lines, rounded down or up -/
theorem break_size {n k i : Nat} (hn : 1 ≤ n) (hk : 1 ≤ k) (hi : i < k) (hs : n * k ≤ 2 ^ 48) :
    ((n / k : Nat) : Int) ≤ chunkBreak fl n k (i + 1) - chunkBreak fl n k i ∧
      chunkBreak fl n k (i + 1) - chunkBreak fl n k i ≤ ((n + k - 1) / k : Nat) := by
  by_cases hd : k ∣ n
  · obtain ⟨d, rfl⟩ := hd
    have hb : k * d ≤ 2 ^ 53 := le_trans (Nat.le_mul_of_pos_right _ (by omega)) (le_trans hs (by norm_num))
    rw [break_exact hfl hk (by omega) hb, break_exact hfl hk (by omega) hb]
    have e1 : k * d / k = d := Nat.mul_div_cancel_left d (by omega)
    have e2 : (k * d + k - 1) / k = d := by
      rw [show k * d + k - 1 = (k - 1) + k * d by omega, Nat.add_mul_div_left _ _ (by omega), Nat.div_eq_of_lt (by omega)]
      omega
    rw [e1, e2]
    push_cast
    constructor <;> linarith
  · have m := break_mono hfl n k (show i ≤ i + 1 by omega)
    have e0 := break_error hfl (i := i) hn hk (by omega) hs
    have e1 := break_error hfl (i := i + 1) hn hk (by omega) hs
    have b0 := pyRound_near (fl (fl ((n : ℚ) / k) * i))
    have b1 := pyRound_near (fl (fl ((n : ℚ) / k) * (i + 1 : Nat)))
    unfold chunkBreak at *
    generalize pyRound (fl (fl ((n : ℚ) / k) * i)) = r0 at *
    generalize pyRound (fl (fl ((n : ℚ) / k) * (i + 1 : Nat))) = r1 at *
    rw [abs_le] at e0 e1 b0 b1
    have hk1 : (1 : ℚ) ≤ k := by exact_mod_cast hk
    have hn1 : (1 : ℚ) ≤ n := by exact_mod_cast hn
    have hnk : (n : ℚ) * k ≤ 2 ^ 48 := by exact_mod_cast hs
    have hsp : (n : ℚ) * (i + 1 : Nat) / k = n * i / k + n / k := by push_cast; ring
    rw [hsp] at e1
    have c1 : ((r1 - r0 : Int) : ℚ) - n / k ≤ 1 + 8 * n / 2 ^ 53 := by
      have : (8 : ℚ) * n / 2 ^ 53 = 2 * (4 * n / 2 ^ 53) := by ring
      push_cast
      linarith [e0.1, e0.2, e1.1, e1.2, b0.1, b0.2, b1.1, b1.2]
    have c2 : (n : ℚ) / k - ((r1 - r0 : Int) : ℚ) ≤ 1 + 8 * n / 2 ^ 53 := by
      have : (8 : ℚ) * n / 2 ^ 53 = 2 * (4 * n / 2 ^ 53) := by ring
      push_cast
      linarith [e0.1, e0.2, e1.1, e1.2, b0.1, b0.2, b1.1, b1.2]
    obtain ⟨s, hsz⟩ : ∃ s : Nat, r1 - r0 = s := ⟨(r1 - r0).toNat, by omega⟩
    rw [hsz] at c1 c2 ⊢
    have small : (8 * n / 2 ^ 53 : ℚ) * k < 1 := by
      rw [show (8 * n / 2 ^ 53 : ℚ) * k = 8 * (n * k) / 2 ^ 53 by ring, div_lt_one (by norm_num)]
      linarith [show (8 : ℚ) * 2 ^ 48 < 2 ^ 53 by norm_num]
    have hnd : (n : ℚ) / k * k = n := by field_simp
    have f1 : (((s : Int) : ℚ)) * k - n < k + 1 := by
      have := mul_le_mul_of_nonneg_right c1 (show (0 : ℚ) ≤ k by linarith)
      rw [sub_mul, add_mul, hnd] at this
      linarith
    have f2 : (n : ℚ) - ((s : Int) : ℚ) * k < k + 1 := by
      have := mul_le_mul_of_nonneg_right c2 (show (0 : ℚ) ≤ k by linarith)
      rw [sub_mul, add_mul, hnd] at this
      linarith
    have g1 : s * k < n + k + 1 := by
      have : ((s * k : Nat) : ℚ) < ((n + k + 1 : Nat) : ℚ) := by push_cast at f1 ⊢; linarith
      exact_mod_cast this
    have g2 : n < s * k + k + 1 := by
      have : ((n : Nat) : ℚ) < ((s * k + k + 1 : Nat) : ℚ) := by push_cast at f2 ⊢; linarith
      exact_mod_cast this
    have g3 : s * k ≠ n + k := by
      intro h
      exact hd ⟨s - 1, by rw [Nat.mul_sub, Nat.mul_comm k s, h]; omega⟩
    have g4 : n ≠ s * k + k := by
      intro h
      exact hd ⟨s + 1, by rw [Nat.mul_add, Nat.mul_comm k s, h]; omega⟩
    constructor
    · have : n / k < s + 1 := by
        rw [Nat.div_lt_iff_lt_mul (by omega), Nat.add_mul]
        omega
      omega
    · have : s ≤ (n + k - 1) / k := by
        rw [Nat.le_div_iff_mul_le (by omega)]
        omega
      omega

end

/-! ### Chunks -/

theorem slices_flatten {α : Type} (xs : List α) (b : Nat → Int) (h0 : b 0 = 0) (hm : ∀ i, b i ≤ b (i + 1)) (k : Nat) :
    ((List.range k).map fun i => slice xs (b i) (b (i + 1))).flatten = xs.take (b k).toNat := by
  induction k with
  | zero => simp [h0]
  | succ k ih =>
    rw [List.range_succ, List.map_append, List.flatten_append, ih]
    simp only [List.map_cons, List.map_nil, List.flatten_cons, List.flatten_nil, List.append_nil]
    unfold slice
    have := hm k
    rw [show xs.take (b k).toNat = (xs.take (b (k + 1)).toNat).take (b k).toNat by
      rw [List.take_take, Nat.min_eq_left (by omega)]]
    exact List.take_append_drop _ _

/-! ### `Random_Sample.py` -/

theorem readMany_lines (n : Nat) : ∀ (last s : List Char),
    (readMany n last s).1 = (if n = 0 then last else ((lines s)[n - 1]?).getD []) ∧ lines (readMany n last s).2 = (lines s).drop n := by
  induction n with
  | zero => intro last s; exact ⟨rfl, rfl⟩
  | succ n ih =>
    intro last s
    obtain ⟨r1, r2⟩ := readline_lines s
    obtain ⟨i1, i2⟩ := ih (Py.readline s).1 (Py.readline s).2
    unfold readMany
    rw [i1, i2, r2, r1]
    constructor
    · by_cases h : n = 0
      · subst h
        simp only [if_pos, Nat.zero_add, Nat.sub_self, if_neg (by omega : ¬ (1 = 0))]
        cases lines s <;> rfl
      · rw [if_neg h, if_neg (by omega), List.getElem?_tail]
        congr 2
        omega
    · rw [List.drop_tail]

theorem sampleLoop_lines (nums : List Nat) : ∀ (last : Nat) (line s : List Char) (file : List (List Char)), (last :: nums).Pairwise (· < ·) →
    lines s = file.drop last → sampleLoop nums last line s = (nums.filterMap fun i => file[i - 1]?).flatten := by
  induction nums with
  | nil => intros; rfl
  | cons n nums ih =>
    intro last line s file hp hf
    have hlt : last < n := (List.pairwise_cons.1 hp).1 n (by simp)
    obtain ⟨r1, r2⟩ := readMany_lines (n - last) line s
    unfold sampleLoop
    rw [ih n _ _ file (List.pairwise_cons.1 hp).2 (by rw [r2, hf, List.drop_drop]; congr 1; omega), r1, if_neg (by omega), hf,
      List.getElem?_drop, show last + (n - last - 1) = n - 1 by omega]
    cases h : file[n - 1]? <;> simp [h]

end Model.LineTools
