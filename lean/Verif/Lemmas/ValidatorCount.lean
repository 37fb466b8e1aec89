import Verif.Lemmas.ValidatorText
import Verif.Spec.ValidatorText

/-!
# What the counts read by the rule validator are worth
-/

namespace Model.Validator
open Spec.Validator Spec.ValidatorText
open Model.IO (split_join)

theorem u64_small (m : Mode) {n : Nat} (h : n < 2 ^ 64) : u64 m n = .ok n := by unfold u64; rw [if_pos h]

theorem addVar_small (m : Mode) (x c : Nat) : ∀ l : List (Nat × Nat), varsValue (fun _ => 1) l + c < 2 ^ 64 →
    ∃ r, VarSum.addVar m x c l = .ok r ∧ ∀ v, varsValue v r = varsValue v l + c * v x
  | [], _ => ⟨[(x, c)], rfl, fun v => by simp⟩
  | (y, d) :: l, h => by
    rw [varsValue_cons] at h
    unfold VarSum.addVar
    split
    · next e =>
      subst e
      rw [u64_small m (by omega)]
      exact ⟨_, rfl, fun v => by simp only [varsValue_cons]; rw [Nat.add_mul]; omega⟩
    · split
      · exact ⟨_, rfl, fun v => by simp only [varsValue_cons]; omega⟩
      · obtain ⟨r, h1, h2⟩ := addVar_small m x c l (by omega)
        rw [h1]
        exact ⟨_, rfl, fun v => by simp only [varsValue_cons]; rw [h2]; omega⟩

theorem isDigit_mem {c : Char} (h : c ∈ "0123456789".toList) : isDigit c = true := by
  have : ∀ c ∈ "0123456789".toList, isDigit c = true := by decide
  exact this c h

theorem letter_read {c : Char} (h : c ∈ "abcdefghijklmnopqrstuvwxyz".toList) : isLower c = true ∧ readVar [c] = .ok (letterVar c) := by
  have : ∀ c ∈ "abcdefghijklmnopqrstuvwxyz".toList, isLower c = true ∧ readVar [c] = .ok (letterVar c) := by decide
  exact this c h

theorem char_range {c : Char} {a n : Nat} (l : List Char) (h1 : a ≤ c.toNat) (h2 : c.toNat < a + n)
    (hl : ∀ i < n, Char.ofNat (a + i) ∈ l) : c ∈ l := by
  have := hl (c.toNat - a) (by omega)
  rwa [show a + (c.toNat - a) = c.toNat by omega, Char.ofNat_toNat] at this

theorem digit_mem {c : Char} (h : isDigit c = true) : c ∈ "0123456789".toList := by
  simp only [isDigit, Bool.and_eq_true, decide_eq_true_eq] at h
  have h1 : 48 ≤ c.toNat := h.1
  have h2 : c.toNat ≤ 57 := h.2
  exact char_range (a := 48) (n := 10) _ h1 (by omega) (by decide)

theorem lower_mem {c : Char} (h : isLower c = true) : c ∈ "abcdefghijklmnopqrstuvwxyz".toList := by
  simp only [isLower, Bool.and_eq_true, decide_eq_true_eq] at h
  have h1 : 97 ≤ c.toNat := h.1
  have h2 : c.toNat ≤ 122 := h.2
  exact char_range (a := 97) (n := 26) _ h1 (by omega) (by decide)

theorem decimal_eq (ds : List Char) : Nat.ofDigitChars 10 ds 0 = decimal ds := rfl

theorem readPart_term_value (m : Mode) (t : Term) (ht : t.Written) (acc : VarSum)
    (h : sumValue (fun _ => 1) acc + t.number < 2 ^ 64) :
    ∃ s, readPart m t.text acc = .ok s ∧ ∀ v, sumValue v s = sumValue v acc + t.value v := by
  obtain ⟨l, k⟩ := acc
  rw [sumValue_eq] at h
  simp only at h
  cases t with
  | const ds =>
    obtain ⟨h1, h2⟩ := ht
    simp only [Term.number] at h
    show ∃ s, readPart m ds _ = _ ∧ _
    rw [readPart_const m ds (fun c hc => isDigit_mem (h2 c hc)) h1]
    unfold readNum
    rw [decimal_eq, if_pos (by omega)]
    show ∃ s, (u64 m (k + decimal ds) >>= fun k => VarSum.addVars m l [] >>= fun l => Run.ok (VarSum.mk l k)) = _ ∧ _
    rw [u64_small m (by omega)]
    refine ⟨_, rfl, fun v => ?_⟩
    simp only [sumValue_eq, Term.value]
    omega
  | var ds c =>
    obtain ⟨h1, h2⟩ := ht
    obtain ⟨hl, hr⟩ := letter_read h2
    have hnum : (if ds = [] then Run.ok 1 else readNum ds) = .ok (Term.var ds c).number := by
      simp only [Term.number] at h ⊢
      split
      · rfl
      · next e =>
        rw [if_neg e] at h
        unfold readNum
        rw [decimal_eq, if_pos (by omega)]
    show ∃ s, readPart m (ds ++ [c]) _ = _ ∧ _
    rw [readPart_var m ds c [] _ (fun c hc => isDigit_mem (h1 c hc)) hl hr, hnum]
    have hv : ∀ v, (Term.var ds c).value v = (Term.var ds c).number * v (letterVar c) := fun _ => rfl
    simp only [hv]
    generalize (Term.var ds c).number = n at h
    show ∃ s, ((VarSum.ofVar (letterVar c)).mul m n >>= fun p => (VarSum.mk l k).add m p) = _ ∧ _
    by_cases hn : n = 0
    · subst hn
      show ∃ s, (u64 m (k + 0) >>= fun k => VarSum.addVars m l [] >>= fun l => Run.ok (VarSum.mk l k)) = _ ∧ _
      rw [u64_small m (by omega)]
      exact ⟨_, rfl, fun v => by simp only [sumValue_eq]; omega⟩
    · rw [mul_var m _ n (by omega) (by omega)]
      obtain ⟨r, h3, h4⟩ := addVar_small m (letterVar c) n l (by omega)
      show ∃ s, (u64 m (k + 0) >>= fun k => (VarSum.addVar m (letterVar c) n l >>= fun l => VarSum.addVars m l []) >>= fun l =>
        Run.ok (VarSum.mk l k)) = _ ∧ _
      rw [u64_small m (by omega), h3]
      exact ⟨_, rfl, fun v => by simp only [sumValue_eq]; rw [h4]; omega⟩

theorem term_number (t : Term) : t.value (fun _ => 1) = t.number := by
  cases t <;> simp [Term.value, Term.number]

theorem readParts_value (m : Mode) : ∀ (ts : List Term), (∀ t ∈ ts, t.Written) → ∀ acc : VarSum,
    sumValue (fun _ => 1) acc + (ts.map Term.number).sum < 2 ^ 64 →
    ∃ s, readParts m (ts.map Term.text) acc = .ok s ∧ ∀ v, sumValue v s = sumValue v acc + (ts.map (Term.value v)).sum
  | [], _, acc, _ => ⟨acc, rfl, fun v => by simp⟩
  | t :: ts, hw, acc, h => by
    simp only [List.map_cons, List.sum_cons] at h
    obtain ⟨a, h1, h2⟩ := readPart_term_value m t (hw t (by simp)) acc (by omega)
    obtain ⟨s, h3, h4⟩ := readParts_value m ts (fun t ht => hw t (by simp [ht])) a (by rw [h2, term_number]; omega)
    refine ⟨s, ?_, fun v => ?_⟩
    · show (readPart m t.text acc >>= fun a => readParts m (ts.map Term.text) a) = _
      rw [h1]; exact h3
    · rw [h4, h2, List.map_cons, List.sum_cons]; omega

theorem text_no_plus {t : Term} (h : t.Written) : '+' ∉ t.text := by
  have d : '+' ∉ "0123456789".toList := by decide
  have l : '+' ∉ "abcdefghijklmnopqrstuvwxyz".toList := by decide
  cases t with
  | const ds => exact fun hc => d (h.2 _ hc)
  | var ds c =>
    intro hc
    rcases List.mem_append.1 hc with hc | hc
    · exact d (h.1 _ hc)
    · rw [List.mem_singleton] at hc; subst hc; exact l h.2

theorem readSum_value (m : Mode) (ts : List Term) (hne : ts ≠ []) (hw : ∀ t ∈ ts, t.Written)
    (h : (ts.map Term.number).sum < 2 ^ 64) :
    ∃ s, readSum m (Py.join '+' (ts.map Term.text)) = .ok s ∧ ∀ v, sumValue v s = (ts.map (Term.value v)).sum := by
  obtain ⟨s, h1, h2⟩ := readParts_value m ts hw (.ofNat 0) (by rw [sumValue_eq]; simp [VarSum.ofNat]; omega)
  refine ⟨s, ?_, fun v => ?_⟩
  · unfold readSum
    rw [split_join]
    · exact h1
    · simpa using hne
    · intro w hw'
      obtain ⟨t, ht, rfl⟩ := List.mem_map.1 hw'
      exact text_no_plus (hw t ht)
  · rw [h2, sumValue_eq]; simp [VarSum.ofNat]

/-- a part without `+` is one part -/
theorem readSum_part (m : Mode) {s : List Char} (h : '+' ∉ s) : readSum m s = readPart m s (.ofNat 0) := by
  unfold readSum
  have := split_join '+' [s] (by simp) (by simpa using h)
  rw [show Py.join '+' [s] = s from rfl] at this
  rw [this]
  show (readPart m s (.ofNat 0) >>= fun a => Run.ok a) = _
  cases readPart m s (.ofNat 0) <;> rfl

/-- everything behind the letter of a term is ignored -/
theorem readSum_rest (m : Mode) (ds : List Char) (c : Char) (r : List Char) (hd : ∀ c ∈ ds, c ∈ "0123456789".toList)
    (hc : c ∈ "abcdefghijklmnopqrstuvwxyz".toList) (hr : '+' ∉ r) : readSum m (ds ++ c :: r) = readSum m (ds ++ [c]) := by
  have hp := text_no_plus (t := .var ds c) ⟨hd, hc⟩
  have hp' : '+' ∉ ds ++ [c] := hp
  obtain ⟨hl, hx⟩ := letter_read hc
  rw [readSum_part m hp', readSum_part, readPart_var m ds c r _ (fun c hc => isDigit_mem (hd c hc)) hl hx,
    readPart_var m ds c [] _ (fun c hc => isDigit_mem (hd c hc)) hl hx]
  simp only [List.mem_append, List.mem_cons, List.not_mem_nil, or_false, not_or] at hp' ⊢
  exact ⟨hp'.1, hp'.2, hr⟩

/-- nothing in front of the last number of a part without letters matters -/
theorem readSum_last (m : Mode) (p ds : List Char) (y : Char) (hp : ∀ c ∈ p ++ [y], isLower c = false) (hy : isDigit y = false)
    (hp' : '+' ∉ p ++ [y]) (hd : ∀ c ∈ ds, c ∈ "0123456789".toList) (hne : ds ≠ []) :
    readSum m (p ++ [y] ++ ds) = readSum m ds := by
  have hd' : ∀ c ∈ ds, isDigit c = true := fun c hc => isDigit_mem (hd c hc)
  have hplus : '+' ∉ ds := fun hc => absurd (hd' _ hc) (by decide)
  have hs : reCount.search true (p ++ [y] ++ ds) = some [(2, ds)] := by
    refine search_const_aux (p ++ [y]) ds hd' hne (.inr ⟨p, y, rfl, hy⟩) true (fun _ u hu => ?_)
    obtain ⟨v, hv, hu⟩ := mem_seq.1 hu
    obtain ⟨_, rfl⟩ := mem_bos.1 hv
    obtain ⟨v, hv, hu⟩ := mem_seq.1 hu
    obtain ⟨c, h1, h2, h3⟩ := mem_cap_chr.1 hu
    have hc : c ∈ p ++ [y] ++ ds := by
      rcases mem_opt.1 hv with hv | rfl
      · obtain ⟨w, _, _, k, _⟩ := mem_cap_plus.1 hv
        simp only at k
        rw [k, h2]; simp
      · simp only at h2
        rw [h2]; simp
    rcases List.mem_append.1 hc with hc | hc
    · rw [hp c hc] at h1; cases h1
    · have := not_digit_lower (hd' c hc)
      rw [this] at h1; cases h1
  rw [readSum_part m hplus, readSum_part m (by
    intro hc
    rcases List.mem_append.1 hc with hc | hc
    · exact hp' hc
    · exact hplus hc)]
  unfold readPart
  rw [hs, search_const ds hd' hne]

/-! ### Functions are printed but cannot be read -/

/-- no `+` comes after a digit -/
def NoDigitPlus (s : List Char) : Prop := ∀ p q, s = p ++ '+' :: q → ∃ p' y, p = p' ++ [y] ∧ isDigit y = false

theorem noDigitPlus_of_not_mem {s : List Char} (h : '+' ∉ s) : NoDigitPlus s := by
  rintro p q rfl
  exact absurd (by simp) h

theorem NoDigitPlus.append {a b : List Char} (ha : NoDigitPlus a) (hb : NoDigitPlus b) : NoDigitPlus (a ++ b) := by
  intro p q e
  rcases List.append_eq_append_iff.1 e with ⟨c, h1, h2⟩ | ⟨c, h1, h2⟩
  · obtain ⟨p', y, h3, h4⟩ := hb c q h2
    exact ⟨a ++ p', y, by rw [h1, h3, List.append_assoc], h4⟩
  · cases c with
    | nil =>
      simp only [List.nil_append] at h2
      obtain ⟨p', y, h3, _⟩ := hb [] q h2.symm
      simp at h3
    | cons z c =>
      simp only [List.cons_append, List.cons.injEq] at h2
      obtain ⟨rfl, rfl⟩ := h2
      exact ha p c h1

theorem NoDigitPlus.plus {a b : List Char} {y : Char} (ha : NoDigitPlus (a ++ [y])) (hy : isDigit y = false)
    (hb : NoDigitPlus b) : NoDigitPlus ((a ++ [y]) ++ '+' :: b) := by
  intro p q e
  rcases List.append_eq_append_iff.1 e with ⟨c, h1, h2⟩ | ⟨c, h1, h2⟩
  · cases c with
    | nil => exact ⟨a, y, by simpa using h1, hy⟩
    | cons z c =>
      simp only [List.cons_append, List.cons.injEq] at h2
      obtain ⟨rfl, h2⟩ := h2
      obtain ⟨p', w, h3, h4⟩ := hb c q h2
      exact ⟨a ++ [y] ++ '+' :: p', w, by rw [h1, h3]; simp, h4⟩
  · cases c with
    | nil => exact ⟨a, y, by simpa using h1.symm, hy⟩
    | cons z c =>
      simp only [List.cons_append, List.cons.injEq] at h2
      obtain ⟨rfl, rfl⟩ := h2
      exact ha p c h1

theorem showVar_end (x : Nat) : '+' ∉ showVar x ∧ ∃ s y, showVar x = s ++ [y] ∧ isDigit y = false := by
  unfold showVar
  split
  · next c hc =>
    have hc := List.mem_of_getElem? hc
    have : ∀ c ∈ varNames, c ≠ '+' ∧ isDigit c = false := by decide
    exact ⟨fun h => (this c hc).1 (List.mem_singleton.1 h).symm, [], c, rfl, (this c hc).2⟩
  · refine ⟨fun h => ?_, _, '>', rfl, by decide⟩
    simp only [List.mem_append, List.mem_cons, List.not_mem_nil, or_false] at h
    rcases h with (h | h) | h
    · revert h; decide
    · exact absurd (toDigits_digit h) (by decide)
    · revert h; decide

theorem plus_toDigits (n : Nat) : '+' ∉ Nat.toDigits 10 n := fun h => absurd (toDigits_digit h) (by decide)

theorem showTerm_end (p : Nat × Nat) : '+' ∉ showTerm p ∧ ∃ s y, showTerm p = s ++ [y] ∧ isDigit y = false := by
  obtain ⟨h1, s, y, h2, h3⟩ := showVar_end p.1
  unfold showTerm
  split
  · refine ⟨fun h => ?_, Nat.toDigits 10 p.2 ++ s, y, by rw [h2, List.append_assoc], h3⟩
    rcases List.mem_append.1 h with h | h
    · exact plus_toDigits _ h
    · exact h1 h
  · exact ⟨h1, s, y, h2, h3⟩

theorem showSum_noDigitPlus (s : VarSum) : NoDigitPlus (showSum s) := by
  have key : ∀ (l : List (Nat × Nat)) (k : List (List Char)), (∀ t ∈ k, '+' ∉ t) → k.length ≤ 1 →
      NoDigitPlus (Py.join '+' (l.map showTerm ++ k)) := by
    intro l k hk hk'
    induction l with
    | nil =>
      match k, hk' with
      | [], _ => exact noDigitPlus_of_not_mem (by simp [Py.join])
      | [t], _ => exact noDigitPlus_of_not_mem (hk t (by simp))
    | cons p l ih =>
      obtain ⟨h1, a, y, h2, h3⟩ := showTerm_end p
      rw [List.map_cons, List.cons_append]
      cases e : l.map showTerm ++ k with
      | nil => exact noDigitPlus_of_not_mem h1
      | cons t r =>
        rw [e] at ih
        show NoDigitPlus (showTerm p ++ '+' :: Py.join '+' (t :: r))
        have := noDigitPlus_of_not_mem h1
        rw [h2] at this ⊢
        exact this.plus h3 ih
  rw [showSum_eq]
  split
  · exact noDigitPlus_of_not_mem (by decide)
  · refine key _ _ (fun t ht => ?_) ?_
    · split at ht
      · rw [List.mem_singleton] at ht; rw [ht]; exact plus_toDigits _
      · cases ht
    · split <;> simp

theorem showExpr_noDigitPlus : ∀ e : CountExpr, NoDigitPlus (showExpr e)
  | .sum s => by unfold showExpr; exact showSum_noDigitPlus s
  | .iter x f n b => by
    have hf := showExpr_noDigitPlus f
    have hn := showExpr_noDigitPlus n
    have hb := showExpr_noDigitPlus b
    have hx := noDigitPlus_of_not_mem (showVar_end x).1
    have one : ∀ c : Char, c ≠ '+' → NoDigitPlus [c] := fun c hc => noDigitPlus_of_not_mem (by simpa using hc.symm)
    unfold showExpr
    simp only
    split
    · have := ((((((one '(' (by decide)).append (one 'λ' (by decide))).append hx).append (one '.' (by decide))).append hf).append
        (one ' ' (by decide))).append (hb.append (one ')' (by decide)))
      simpa using this
    · have := (((((((((((one '(' (by decide)).append (one '(' (by decide))).append (one 'λ' (by decide))).append hx).append
        (one '.' (by decide))).append hf).append (one ')' (by decide))).append (one '^' (by decide))).append hn).append
        (one ' ' (by decide))).append (hb.append (one ')' (by decide))))
      simpa using this

/-- a part that starts with neither a digit nor a letter and does not end with a digit is an error -/
theorem search_none {c : Char} {s p : List Char} {y : Char} (hc : isDigit c = false ∧ isLower c = false) (hs : c :: s = p ++ [y])
    (hy : isDigit y = false) : reCount.search true (c :: s) = none := by
  have hend : ∀ (b : Bool) (t : List Char), (∃ a, c :: s = a ++ t) → ∀ u,
      u ∉ (Re.seq (.cap 2 (.plus isDigit)) .eos).run ⟨b, t, []⟩ := by
    rintro b t ⟨a, ha⟩ u hu
    obtain ⟨v, hv, hu⟩ := mem_seq.1 hu
    obtain ⟨w, h1, h2, h3, _⟩ := mem_cap_plus.1 hv
    obtain ⟨h4, _⟩ := mem_eos.1 hu
    rw [h4, List.append_nil] at h3
    simp only at h3
    subst h3
    rcases List.eq_nil_or_concat t with e | ⟨t', z, e⟩
    · exact h1 e
    · rw [List.concat_eq_append] at e
      subst e
      rw [hs, ← List.append_assoc] at ha
      have hz : y = z := by simpa using List.append_inj_right' ha rfl
      rw [← hz] at h2
      rw [h2 y (by simp)] at hy; cases hy
  have hrest : ∀ t : List Char, (∃ a, c :: s = a ++ t) → reCount.search false t = none := by
    intro t
    induction t with
    | nil => intro _; rfl
    | cons d t ih =>
      rintro ⟨a, ha⟩
      have h1 : reCount.run ⟨false, d :: t, []⟩ = [] := by
        rw [List.eq_nil_iff_forall_not_mem]
        intro u hu
        rcases mem_alt.1 hu with hu | hu
        · obtain ⟨v, hv, _⟩ := mem_seq.1 hu
          have := (mem_bos.1 hv).1
          cases this
        · exact hend false (d :: t) ⟨a, ha⟩ u hu
      unfold Re.search
      rw [h1]
      exact ih ⟨a ++ [d], by simpa using ha⟩
  have h1 : reCount.run ⟨true, c :: s, []⟩ = [] := by
    rw [List.eq_nil_iff_forall_not_mem]
    intro u hu
    rcases mem_alt.1 hu with hu | hu
    · obtain ⟨v, hv, hu⟩ := mem_seq.1 hu
      obtain ⟨_, rfl⟩ := mem_bos.1 hv
      obtain ⟨v, hv, hu⟩ := mem_seq.1 hu
      obtain ⟨d, g1, g2, _⟩ := mem_cap_chr.1 hu
      rcases mem_opt.1 hv with hv | rfl
      · obtain ⟨w, k1, k2, k3, _⟩ := mem_cap_plus.1 hv
        cases w with
        | nil => exact k1 rfl
        | cons z w =>
          simp only [List.cons_append, List.cons.injEq] at k3
          have := k2 z (by simp)
          rw [← k3.1, hc.1] at this; cases this
      · simp only [List.cons.injEq] at g2
        rw [← g2.1, hc.2] at g1; cases g1
    · exact hend true (c :: s) ⟨[], rfl⟩ u hu
  unfold Re.search
  rw [h1]
  exact hrest s ⟨[c], rfl⟩

theorem split_first (c : Char) : ∀ s : List Char, ∃ p r, Py.split c s = p :: r ∧ (s = p ∨ ∃ q, s = p ++ c :: q)
  | [] => ⟨[], [], rfl, .inl rfl⟩
  | x :: s => by
    obtain ⟨p, r, h1, h2⟩ := split_first c s
    by_cases hx : x = c
    · subst hx
      exact ⟨[], Py.split x s, by simp [Py.split], .inr ⟨s, rfl⟩⟩
    · refine ⟨x :: p, r, by simp [Py.split, h1, hx], ?_⟩
      rcases h2 with rfl | ⟨q, rfl⟩
      · exact .inl rfl
      · exact .inr ⟨q, rfl⟩

theorem readCount_iter (m : Mode) (x : Nat) (f n b : CountExpr) : readCount m (showCount (.fin (.iter x f n b))) = .err := by
  have hs := showExpr_noDigitPlus (.iter x f n b)
  obtain ⟨w, hw⟩ : ∃ w, showExpr (.iter x f n b) = '(' :: (w ++ [')']) := by
    unfold showExpr
    simp only
    split
    · exact ⟨'λ' :: (showVar x ++ '.' :: showExpr f ++ ' ' :: showExpr b), by simp⟩
    · exact ⟨'(' :: ('λ' :: (showVar x ++ '.' :: showExpr f) ++ [')', '^'] ++ showExpr n ++ ' ' :: showExpr b), by simp⟩
  unfold readCount
  have e : showCount (.fin (.iter x f n b)) = showExpr (.iter x f n b) := rfl
  rw [e, if_neg (by rw [hw]; simp)]
  have : readSum m (showExpr (.iter x f n b)) = .err := by
    obtain ⟨p, r, h1, h2⟩ := split_first '+' (showExpr (.iter x f n b))
    unfold readSum
    rw [h1]
    have hp : ∃ p' y, p = p' ++ [y] ∧ isDigit y = false := by
      rcases h2 with h2 | ⟨q, h2⟩
      · exact ⟨'(' :: w, ')', by rw [← h2, hw]; rfl, by decide⟩
      · exact hs p q h2
    obtain ⟨p', y, rfl, hy⟩ := hp
    obtain ⟨s, hs'⟩ : ∃ s, p' ++ [y] = '(' :: s := by
      rw [hw] at h2
      rcases h2 with h2 | ⟨q, h2⟩
      · exact ⟨_, h2.symm⟩
      · cases hpp : p' ++ [y] with
        | nil => simp at hpp
        | cons z t =>
          rw [hpp] at h2
          simp only [List.cons_append, List.cons.injEq] at h2
          exact ⟨t, by rw [h2.1]⟩
    show (readPart m (p' ++ [y]) _ >>= fun a => readParts m r a) = _
    unfold readPart
    rw [hs', search_none ⟨by decide, by decide⟩ hs'.symm hy]
    rfl
  rw [this]
  rfl

end Model.Validator
