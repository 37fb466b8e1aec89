import Verif.Model.ExpText
import Verif.Spec.Formula
import Verif.Spec.ExpInt
import Verif.Lemmas.ExprText

/-!
# Lemmas about printed formulas
-/

namespace Model.ExpText
open Model.ExpInt Model.ExprText Spec Spec.Formula

/-- `p` reads `v` from `s` and leaves `r` -/
def Ev (p : Nat → Reader) (s : List Char) (v : ℚ) (r : List Char) : Prop := ∃ N, ∀ f ≥ N, p f s = some (v, r)

/-- cannot continue a number or a power -/
def NoPow (r : List Char) : Prop := ∀ c r', r = c :: r' → c ∉ Py.digits ∧ c ≠ '^'

theorem NoPow.nil : NoPow [] := fun _ _ h => by cases h
theorem NoPow.cons {c : Char} (h : c ∉ Py.digits ∧ c ≠ '^') (r : List Char) : NoPow (c :: r) := by
  intro c' r' e
  cases e
  exact h

/-- what can follow a sum -/
inductive Follow : List Char → Prop
  | nil : Follow []
  | paren (r) : Follow (')' :: r)
  | brace (r) : Follow (' ' :: '}' :: r)

/-- what can follow a product -/
inductive FollowP : List Char → Prop
  | follow {r} : Follow r → FollowP r
  | plus (r) : FollowP (' ' :: '+' :: ' ' :: r)

theorem FollowP.noPow {r : List Char} (h : FollowP r) : NoPow r := by
  cases h with
  | follow h => cases h with
    | nil => exact .nil
    | paren r => exact .cons (by decide) r
    | brace r => exact .cons (by decide) _
  | plus r => exact .cons (by decide) _

theorem takeWhile_digits : ∀ (ds r : List Char), (∀ c ∈ ds, c ∈ Py.digits) → (∀ c r', r = c :: r' → c ∉ Py.digits) →
    (ds ++ r).takeWhile (· ∈ Py.digits) = ds ∧ (ds ++ r).dropWhile (· ∈ Py.digits) = r
  | [], [], _, _ => ⟨rfl, rfl⟩
  | [], c :: r, _, h => by
    have := h c r rfl
    simp [this]
  | d :: ds, r, h, h' => by
    obtain ⟨h1, h2⟩ := takeWhile_digits ds r (fun c hc => h c (by simp [hc])) h'
    have hd := h d (by simp)
    constructor
    · simp only [List.cons_append, List.takeWhile_cons, hd, decide_true, if_true, h1]
    · simp only [List.cons_append, List.dropWhile_cons, hd, decide_true, if_true, h2]

theorem toDigits_first (n : Nat) : ∃ d r, Nat.toDigits 10 n = d :: r ∧ d ∈ Py.digits := by
  have h : Nat.toDigits 10 n ≠ [] := by
    intro h
    have := (text_ne (.const n))
    exact this h
  cases hd : Nat.toDigits 10 n with
  | nil => exact absurd hd h
  | cons d r => exact ⟨d, r, rfl, digits_tok (n := n) (by rw [hd]; simp)⟩

theorem numeral_digits (n : Nat) {r : List Char} (hr : NoPow r) : numeral (Nat.toDigits 10 n ++ r) = some ((n : ℚ), r) := by
  obtain ⟨h1, h2⟩ := takeWhile_digits (Nat.toDigits 10 n) r (fun c hc => digits_tok hc) (fun c r' e => (hr c r' e).1)
  unfold numeral
  rw [h1, h2, if_neg (toDigits_ne n), Nat.ofDigitChars_toDigits (by decide) (by decide)]

theorem atom_digits (n : Nat) {r : List Char} (hr : NoPow r) : Ev atom (Nat.toDigits 10 n ++ r) n r := by
  refine ⟨1, ?_⟩
  intro f hf
  obtain ⟨f, rfl⟩ : ∃ g, f = g + 1 := ⟨f - 1, by omega⟩
  have hn := numeral_digits n hr
  obtain ⟨d, u, hd, hm⟩ := toDigits_first n
  rw [hd] at hn ⊢
  have h1 : d ≠ '(' := fun e => by rw [e] at hm; revert hm; decide
  have h2 : d ≠ '\\' := fun e => by rw [e] at hm; revert hm; decide
  rw [← hn]
  show atom (f + 1) (d :: (u ++ r)) = numeral (d :: (u ++ r))
  rw [atom]
  · intro a e
    exact h1 (by simpa using congrArg List.head? e)
  · intro a e
    exact h2 (by simpa using congrArg List.head? e)

theorem noPow_after (S P : Reader) {v : ℚ} {r : List Char} (hr : NoPow r) : afterBase S P (v, r) = some (v, r) := by
  unfold afterBase
  split
  · next h => cases h; exact absurd rfl (hr _ _ rfl).2
  · next h => cases h; exact absurd rfl (hr _ _ rfl).2
  · next h => cases h; rfl

/-- a power without a sign -/
theorem power_eq {f : Nat} {c : Char} {s : List Char} (h : c ≠ '-') :
    power (f + 1) (c :: s) = (atom f (c :: s)).bind (afterBase (sum f) (power f)) := by
  rw [power]
  intro r e
  exact h (by simpa using congrArg List.head? e)

theorem power_of_atom {s r : List Char} {v : ℚ} (hs : ∃ c s', s = c :: s' ∧ c ≠ '-') (hr : NoPow r) (h : Ev atom s v r) :
    Ev power s v r := by
  obtain ⟨N, h⟩ := h
  refine ⟨N + 1, ?_⟩
  intro f hf
  obtain ⟨f, rfl⟩ : ∃ g, f = g + 1 := ⟨f - 1, by omega⟩
  obtain ⟨c, s', rfl, hc⟩ := hs
  rw [power_eq hc, h f (by omega)]
  exact noPow_after _ _ hr

theorem digits_head (n : Nat) (r : List Char) : ∃ c s', Nat.toDigits 10 n ++ r = c :: s' ∧ c ≠ '-' := by
  obtain ⟨d, u, hd, hm⟩ := toDigits_first n
  refine ⟨d, u ++ r, by rw [hd]; rfl, ?_⟩
  intro e
  rw [e] at hm
  revert hm
  decide

theorem power_nat (n : Nat) {r : List Char} (hr : NoPow r) : Ev power (Nat.toDigits 10 n ++ r) n r :=
  power_of_atom (digits_head n r) hr (atom_digits n hr)

theorem power_int (z : Int) {r : List Char} (hr : NoPow r) : Ev power (reprInt z ++ r) z r := by
  unfold reprInt
  split
  · next h =>
    obtain ⟨N, hN⟩ := power_nat z.natAbs hr
    refine ⟨N + 1, ?_⟩
    intro f hf
    obtain ⟨f, rfl⟩ : ∃ g, f = g + 1 := ⟨f - 1, by omega⟩
    show power (f + 1) ('-' :: (Nat.toDigits 10 z.natAbs ++ r)) = _
    rw [power, hN f (by omega)]
    simp only [Option.map_some]
    have : -((z.natAbs : ℕ) : ℚ) = (z : ℚ) := by
      have : -((z.natAbs : ℕ) : ℤ) = z := by omega
      rw [← Int.cast_natCast, ← Int.cast_neg, this]
    rw [this]
  · next h =>
    have := power_nat z.natAbs hr
    have e : ((z.natAbs : ℕ) : ℚ) = (z : ℚ) := by
      have : ((z.natAbs : ℕ) : ℤ) = z := by omega
      rw [← Int.cast_natCast, this]
    rw [e] at this
    exact this

theorem pow_nat (v : ℚ) (n : Nat) : pow v (n : ℚ) = some (v ^ n) := by
  unfold pow
  rw [if_pos (Rat.den_natCast n), Rat.num_natCast, zpow_natCast]

/-- `b ^ e` -/
theorem power_pow {b : Nat} {n : Nat} {s r : List Char} (hs : ∃ c s', s = c :: s' ∧ c ≠ '{') (he : Ev power s n r) :
    Ev power (Nat.toDigits 10 b ++ '^' :: s) ((b : ℚ) ^ n) r := by
  obtain ⟨c, s', rfl, hc⟩ := hs
  have hb : numeral (Nat.toDigits 10 b ++ '^' :: c :: s') = some ((b : ℚ), '^' :: c :: s') := by
    obtain ⟨h1, h2⟩ := takeWhile_digits (Nat.toDigits 10 b) ('^' :: c :: s') (fun c hc => digits_tok hc) (fun c r' e => by
      cases e; decide)
    unfold numeral
    rw [h1, h2, if_neg (toDigits_ne b), Nat.ofDigitChars_toDigits (by decide) (by decide)]
  obtain ⟨N, he⟩ := he
  refine ⟨N + 2, ?_⟩
  intro f hf
  obtain ⟨f, rfl⟩ : ∃ g, f = g + 2 := ⟨f - 2, by omega⟩
  obtain ⟨d, u, hd, hm⟩ := toDigits_first b
  rw [hd] at hb ⊢
  have h0 : d ≠ '-' := fun e => by rw [e] at hm; revert hm; decide
  have h1 : d ≠ '(' := fun e => by rw [e] at hm; revert hm; decide
  have h2 : d ≠ '\\' := fun e => by rw [e] at hm; revert hm; decide
  have ha : atom (f + 1) (d :: (u ++ '^' :: c :: s')) = some ((b : ℚ), '^' :: c :: s') := by
    rw [atom]
    · exact hb
    · intro a e
      exact h1 (by simpa using congrArg List.head? e)
    · intro a e
      exact h2 (by simpa using congrArg List.head? e)
  show power (f + 2) (d :: (u ++ '^' :: c :: s')) = _
  rw [power_eq h0, ha]
  show afterBase _ _ ((b : ℚ), '^' :: c :: s') = _
  unfold afterBase
  split
  · next h => cases h; exact absurd rfl hc
  · next h =>
    cases h
    rw [he (f + 1) (by omega)]
    simp only [pow_nat, Option.map_some]
  · next h1 h2 h => cases h; exact (h2 _ rfl).elim

/-- `b ^{ e }` -/
theorem power_texPow {b : Nat} {n : Nat} {s r : List Char} (he : Ev sum s n (' ' :: '}' :: r)) :
    Ev power (Nat.toDigits 10 b ++ '^' :: '{' :: ' ' :: s) ((b : ℚ) ^ n) r := by
  have hb : numeral (Nat.toDigits 10 b ++ '^' :: '{' :: ' ' :: s) = some ((b : ℚ), '^' :: '{' :: ' ' :: s) := by
    obtain ⟨h1, h2⟩ := takeWhile_digits (Nat.toDigits 10 b) ('^' :: '{' :: ' ' :: s) (fun c hc => digits_tok hc) (fun c r' e => by
      cases e; decide)
    unfold numeral
    rw [h1, h2, if_neg (toDigits_ne b), Nat.ofDigitChars_toDigits (by decide) (by decide)]
  obtain ⟨N, he⟩ := he
  refine ⟨N + 2, ?_⟩
  intro f hf
  obtain ⟨f, rfl⟩ : ∃ g, f = g + 2 := ⟨f - 2, by omega⟩
  obtain ⟨d, u, hd, hm⟩ := toDigits_first b
  rw [hd] at hb ⊢
  have h0 : d ≠ '-' := fun e => by rw [e] at hm; revert hm; decide
  have h1 : d ≠ '(' := fun e => by rw [e] at hm; revert hm; decide
  have h2 : d ≠ '\\' := fun e => by rw [e] at hm; revert hm; decide
  have ha : atom (f + 1) (d :: (u ++ '^' :: '{' :: ' ' :: s)) = some ((b : ℚ), '^' :: '{' :: ' ' :: s) := by
    rw [atom]
    · exact hb
    · intro a e
      exact h1 (by simpa using congrArg List.head? e)
    · intro a e
      exact h2 (by simpa using congrArg List.head? e)
  show power (f + 2) (d :: (u ++ '^' :: '{' :: ' ' :: s)) = _
  rw [power_eq h0, ha]
  rw [Option.bind_some, afterBase, he (f + 1) (by omega)]
  simp only [pow_nat, Option.map_some]

theorem factors_stop {r : List Char} (h : FollowP r) (f : Nat) (v : ℚ) : factors (f + 1) v r = some (v, r) := by
  cases h with
  | follow h =>
    cases h with
    | nil => simp [factors]
    | paren r => simp [factors]
    | brace r => simp [factors]
  | plus r => simp [factors]

theorem product_one {s r : List Char} {v : ℚ} (h : Ev power s v r) (hr : FollowP r) : Ev product s v r := by
  obtain ⟨N, h⟩ := h
  refine ⟨N + 2, ?_⟩
  intro f hf
  obtain ⟨f, rfl⟩ : ∃ g, f = g + 2 := ⟨f - 2, by omega⟩
  rw [product, h (f + 1) (by omega)]
  exact factors_stop hr f v

theorem product_times {s s' r : List Char} {v w : ℚ} (h : Ev power s v (' ' :: '*' :: ' ' :: s')) (h' : Ev power s' w r)
    (hr : FollowP r) : Ev product s (v * w) r := by
  obtain ⟨N, h⟩ := h
  obtain ⟨M, h'⟩ := h'
  refine ⟨N + M + 3, ?_⟩
  intro f hf
  obtain ⟨f, rfl⟩ : ∃ g, f = g + 3 := ⟨f - 3, by omega⟩
  rw [product, h (f + 2) (by omega)]
  show factors (f + 2) v (' ' :: '*' :: ' ' :: s') = _
  rw [factors, h' (f + 1) (by omega)]
  exact factors_stop hr f _

theorem product_cdot {s s' r : List Char} {v w : ℚ} (h : Ev power s v (' ' :: '\\' :: 'c' :: 'd' :: 'o' :: 't' :: ' ' :: s'))
    (h' : Ev power s' w r) (hr : FollowP r) : Ev product s (v * w) r := by
  obtain ⟨N, h⟩ := h
  obtain ⟨M, h'⟩ := h'
  refine ⟨N + M + 3, ?_⟩
  intro f hf
  obtain ⟨f, rfl⟩ : ∃ g, f = g + 3 := ⟨f - 3, by omega⟩
  rw [product, h (f + 2) (by omega)]
  show factors (f + 2) v (' ' :: '\\' :: 'c' :: 'd' :: 'o' :: 't' :: ' ' :: s') = _
  rw [factors, h' (f + 1) (by omega)]
  exact factors_stop hr f _

theorem product_div {s s' r : List Char} {v w : ℚ} (h : Ev power s v ('/' :: s')) (h' : Ev power s' w r) (hw : w ≠ 0)
    (hr : FollowP r) : Ev product s (v / w) r := by
  obtain ⟨N, h⟩ := h
  obtain ⟨M, h'⟩ := h'
  refine ⟨N + M + 3, ?_⟩
  intro f hf
  obtain ⟨f, rfl⟩ : ∃ g, f = g + 3 := ⟨f - 3, by omega⟩
  rw [product, h (f + 2) (by omega)]
  show factors (f + 2) v ('/' :: s') = _
  rw [factors, h' (f + 1) (by omega)]
  simp only [Option.bind_some, if_neg hw]
  exact factors_stop hr f _

theorem sum_one {s r : List Char} {v : ℚ} (h : Ev product s v r) (hr : Follow r) : Ev sum s v r := by
  obtain ⟨N, h⟩ := h
  refine ⟨N + 1, ?_⟩
  intro f hf
  obtain ⟨f, rfl⟩ : ∃ g, f = g + 1 := ⟨f - 1, by omega⟩
  rw [sum, h f (by omega)]
  cases hr <;> rfl

theorem sum_plus {s s' r : List Char} {v w : ℚ} (h : Ev product s v (' ' :: '+' :: ' ' :: s')) (h' : Ev sum s' w r) :
    Ev sum s (v + w) r := by
  obtain ⟨N, h⟩ := h
  obtain ⟨M, h'⟩ := h'
  refine ⟨N + M + 1, ?_⟩
  intro f hf
  obtain ⟨f, rfl⟩ : ∃ g, f = g + 1 := ⟨f - 1, by omega⟩
  rw [sum, h f (by omega)]
  show (sum f s').map (fun p => (v + p.1, p.2)) = _
  rw [h' f (by omega)]
  rfl

theorem atom_paren {s r : List Char} {v : ℚ} (h : Ev sum s v (')' :: r)) : Ev atom ('(' :: s) v r := by
  obtain ⟨N, h⟩ := h
  refine ⟨N + 1, ?_⟩
  intro f hf
  obtain ⟨f, rfl⟩ : ∃ g, f = g + 1 := ⟨f - 1, by omega⟩
  rw [atom, h f (by omega)]
  rfl

theorem atom_frac {s s' r : List Char} {v w : ℚ} (h : Ev sum s v (' ' :: '}' :: '{' :: ' ' :: s')) (h' : Ev sum s' w (' ' :: '}' :: r))
    (hw : w ≠ 0) : Ev atom ('\\' :: 'f' :: 'r' :: 'a' :: 'c' :: '{' :: ' ' :: s) (v / w) r := by
  obtain ⟨N, h⟩ := h
  obtain ⟨M, h'⟩ := h'
  refine ⟨N + M + 1, ?_⟩
  intro f hf
  obtain ⟨f, rfl⟩ : ∃ g, f = g + 1 := ⟨f - 1, by omega⟩
  rw [atom, h f (by omega)]
  rw [Option.bind_some, denominator, h' f (by omega)]
  simp only [if_neg hw]

/-! ### Printed numbers -/

theorem reprInt_nat {b : Int} (h : 0 ≤ b) : reprInt b = Nat.toDigits 10 b.natAbs := by
  unfold reprInt
  rw [if_neg (by omega)]

theorem cast_natAbs {b : Int} (h : 0 ≤ b) : ((b.natAbs : ℕ) : ℚ) = (b : ℚ) := by
  have : ((b.natAbs : ℕ) : ℤ) = b := by omega
  rw [← Int.cast_natCast, this]

theorem sum_const (c : Int) {s r : List Char} {v : ℚ} (h : Ev sum (s ++ r) v r) : Ev sum (withConst c s ++ r) (v + c) r := by
  unfold withConst
  split
  · next hc =>
    have h1 : Ev product (reprInt c ++ ' ' :: '+' :: ' ' :: (s ++ r)) c (' ' :: '+' :: ' ' :: (s ++ r)) :=
      product_one (power_int c (.cons (by decide) _)) (.plus _)
    have := sum_plus h1 h
    rw [add_comm] at this
    simpa using this
  · next hc =>
    have : c = 0 := by simpa using hc
    subst this
    simpa using h

theorem strN_first (x : Num) (r : List Char) : ∃ c s', strN x ++ r = c :: s' ∧ c ≠ '{' := by
  cases x with
  | int z =>
    unfold strN reprInt
    split
    · exact ⟨'-', _, rfl, by decide⟩
    · obtain ⟨d, u, hd, hm⟩ := toDigits_first z.natAbs
      refine ⟨d, u ++ r, by rw [hd]; rfl, ?_⟩
      intro e
      rw [e] at hm
      revert hm
      decide
  | exp ts c d => exact ⟨'(', _, by unfold strN; rfl, by decide⟩

mutual
theorem ev_strN : ∀ (x : Num), Num.WF x → ∀ r, NoPow r → Ev power (strN x ++ r) (Num.value x) r
  | .int z, _, r, hr => by
    unfold strN Num.value
    exact power_int z hr
  | .exp ts c d, h, r, hr => by
    obtain ⟨hne, hd, -, hts⟩ := h
    unfold strN Num.value
    dsimp only
    have hsum : ∀ r, Follow r → Ev sum (withConst c (strTs ts) ++ r) (termsValue ts + c) r :=
      fun r hr => sum_const c (ev_strTs ts hts hne r hr)
    by_cases h1 : d = 1
    · subst h1
      rw [if_neg (by simp)]
      have := atom_paren (hsum (')' :: r) (.paren r))
      have := power_of_atom ⟨'(', _, rfl, by decide⟩ hr this
      simpa using this
    · rw [if_pos h1]
      have hd0 : (d : ℚ) ≠ 0 := by exact_mod_cast (show d ≠ 0 by omega)
      have h2 := atom_paren (hsum (')' :: '/' :: (reprInt d ++ ')' :: r)) (.paren _))
      have h3 := power_of_atom ⟨'(', _, rfl, by decide⟩ (.cons (by decide) _) h2
      have h4 := product_div h3 (power_int d (r := ')' :: r) (.cons (by decide) r)) hd0 (.follow (.paren r))
      have h5 := power_of_atom ⟨'(', _, rfl, by decide⟩ hr (atom_paren (sum_one h4 (.paren r)))
      simpa using h5
theorem ev_strTs : ∀ (ts : List ETerm), AllWF ts → ts ≠ [] → ∀ r, Follow r → Ev sum (strTs ts ++ r) (termsValue ts) r
  | [], _, h, _, _ => absurd rfl h
  | [t], h, _, r, hr => by
    have := sum_one (ev_strT t h.1 r (.follow hr)) hr
    unfold strTs termsValue termsValue
    simpa [plus] using this
  | t :: t' :: ts, h, _, r, hr => by
    have h2 := ev_strTs (t' :: ts) h.2 (by simp) r hr
    have h1 := ev_strT t h.1 _ (.plus (strTs (t' :: ts) ++ r))
    have := sum_plus h1 h2
    rw [strTs, termsValue]
    simpa [plus] using this
theorem ev_strT : ∀ (t : ETerm), ETerm.WF t → ∀ r, FollowP r → Ev product (strT t ++ r) (ETerm.value t) r
  | .mk b c e, h, r, hr => by
    obtain ⟨hb, -, he, n, hn⟩ := h
    have hb0 : 0 ≤ b := by omega
    have h1 := ev_strN e he r hr.noPow
    rw [hn] at h1
    have h2 := power_pow (b := b.natAbs) (strN_first e r) h1
    rw [cast_natAbs hb0, ← reprInt_nat hb0] at h2
    unfold strT ETerm.value
    dsimp only
    rw [hn, Rat.num_natCast, Int.toNat_natCast]
    by_cases hc : c = 1
    · subst hc
      rw [if_neg (by simp)]
      have := product_one h2 hr
      simpa using this
    · rw [if_pos hc]
      have := product_times (power_int c (r := ' ' :: '*' :: ' ' :: (reprInt b ++ '^' :: (strN e ++ r))) (.cons (by decide) _)) h2 hr
      simpa using this
end

mutual
theorem ev_texN : ∀ (x : Num), Num.WF x → ∀ r, Follow r → Ev sum (texN x ++ r) (Num.value x) r
  | .int z, _, r, hr => by
    unfold texN Num.value
    exact sum_one (product_one (power_int z (FollowP.follow hr).noPow) (.follow hr)) hr
  | .exp ts c d, h, r, hr => by
    obtain ⟨hne, hd, -, hts⟩ := h
    unfold texN Num.value
    dsimp only
    have hsum : ∀ r, Follow r → Ev sum (withConst c (texTs ts) ++ r) (termsValue ts + c) r :=
      fun r hr => sum_const c (ev_texTs ts hts hne r hr)
    by_cases h1 : d = 1
    · subst h1
      rw [if_neg (by simp)]
      simpa using hsum r hr
    · rw [if_pos h1]
      have hd0 : (d : ℚ) ≠ 0 := by exact_mod_cast (show d ≠ 0 by omega)
      have h2 := hsum (' ' :: '}' :: '{' :: ' ' :: (reprInt d ++ ' ' :: '}' :: r)) (.brace _)
      have h3 : Ev sum (reprInt d ++ ' ' :: '}' :: r) d (' ' :: '}' :: r) :=
        sum_one (product_one (power_int d (.cons (by decide) _)) (.follow (.brace r))) (.brace r)
      have h4 := power_of_atom ⟨'\\', _, rfl, by decide⟩ (FollowP.follow hr).noPow (atom_frac h2 h3 hd0)
      have h5 := sum_one (product_one h4 (.follow hr)) hr
      simpa using h5
theorem ev_texTs : ∀ (ts : List ETerm), AllWF ts → ts ≠ [] → ∀ r, Follow r → Ev sum (texTs ts ++ r) (termsValue ts) r
  | [], _, h, _, _ => absurd rfl h
  | [t], h, _, r, hr => by
    have := sum_one (ev_texT t h.1 r (.follow hr)) hr
    unfold texTs termsValue termsValue
    simpa [plus] using this
  | t :: t' :: ts, h, _, r, hr => by
    have h2 := ev_texTs (t' :: ts) h.2 (by simp) r hr
    have h1 := ev_texT t h.1 _ (.plus (texTs (t' :: ts) ++ r))
    have := sum_plus h1 h2
    rw [texTs, termsValue]
    simpa [plus] using this
theorem ev_texT : ∀ (t : ETerm), ETerm.WF t → ∀ r, FollowP r → Ev product (texT t ++ r) (ETerm.value t) r
  | .mk b c e, h, r, hr => by
    obtain ⟨hb, -, he, n, hn⟩ := h
    have hb0 : 0 ≤ b := by omega
    have h1 := ev_texN e he (' ' :: '}' :: r) (.brace r)
    rw [hn] at h1
    have h2 := power_texPow (b := b.natAbs) h1
    rw [cast_natAbs hb0, ← reprInt_nat hb0] at h2
    unfold texT ETerm.value
    dsimp only
    rw [hn, Rat.num_natCast, Int.toNat_natCast]
    by_cases hc : c = 1
    · subst hc
      rw [if_neg (by simp)]
      have := product_one h2 hr
      simpa using this
    · rw [if_pos hc]
      have := product_cdot (power_int c (r := ' ' :: '\\' :: 'c' :: 'd' :: 'o' :: 't' :: ' ' ::
        (reprInt b ++ '^' :: '{' :: ' ' :: (texN e ++ ' ' :: '}' :: r))) (.cons (by decide) _)) h2 hr
      simpa using this
end

/-! ### Different numbers are printed differently -/

/-- does not begin with a digit -/
def NoDig (r : List Char) : Prop := ∀ c r', r = c :: r' → c ∉ Py.digits

theorem NoDig.cons {c : Char} (h : c ∉ Py.digits) (r : List Char) : NoDig (c :: r) := by
  intro c' r' e
  cases e
  exact h

theorem Follow.noDig {r : List Char} (h : Follow r) : NoDig r := fun c r' e => ((FollowP.follow h).noPow c r' e).1
theorem FollowP.noDig {r : List Char} (h : FollowP r) : NoDig r := fun c r' e => (h.noPow c r' e).1

theorem nat_split {n m : Nat} {r r' : List Char} (hr : NoDig r) (hr' : NoDig r')
    (h : Nat.toDigits 10 n ++ r = Nat.toDigits 10 m ++ r') : n = m ∧ r = r' := by
  obtain ⟨h1, h2⟩ := takeWhile_digits (Nat.toDigits 10 n) r (fun c hc => digits_tok hc) hr
  obtain ⟨h3, h4⟩ := takeWhile_digits (Nat.toDigits 10 m) r' (fun c hc => digits_tok hc) hr'
  rw [h] at h1 h2
  constructor
  · have e : Nat.toDigits 10 n = Nat.toDigits 10 m := h1.symm.trans h3
    have := congrArg (fun l => Nat.ofDigitChars 10 l 0) e
    rwa [Nat.ofDigitChars_toDigits (by decide) (by decide), Nat.ofDigitChars_toDigits (by decide) (by decide)] at this
  · exact h2.symm.trans h4

theorem int_split {z w : Int} {r r' : List Char} (hr : NoDig r) (hr' : NoDig r') (h : reprInt z ++ r = reprInt w ++ r') :
    z = w ∧ r = r' := by
  have hd : ∀ (n m : Nat) (u v : List Char), '-' :: (Nat.toDigits 10 n ++ u) ≠ Nat.toDigits 10 m ++ v := by
    intro n m u v e
    obtain ⟨c, s', hs, hc⟩ := digits_head m v
    rw [hs] at e
    exact hc (by simpa using (congrArg List.head? e).symm)
  unfold reprInt at h
  split at h
  · split at h
    · obtain ⟨h1, h2⟩ := nat_split hr hr' (List.cons.inj h).2
      exact ⟨by omega, h2⟩
    · exact absurd h (hd _ _ _ _)
  · split at h
    · exact absurd h.symm (hd _ _ _ _)
    · obtain ⟨h1, h2⟩ := nat_split hr hr' h
      exact ⟨by omega, h2⟩

/-- begins with a number and a sign that is not a plus sign -/
def Opens (s : List Char) : Prop := ∃ n u, s = reprInt n ++ u ∧ ((∃ v, u = '^' :: v) ∨ (∃ v, u = ' ' :: '*' :: v) ∨ ∃ v, u = ' ' :: '\\' :: v)

theorem Opens.noDig {u : List Char} (h : (∃ v, u = '^' :: v) ∨ (∃ v, u = ' ' :: '*' :: v) ∨ ∃ v, u = ' ' :: '\\' :: v) : NoDig u := by
  rcases h with ⟨v, rfl⟩ | ⟨v, rfl⟩ | ⟨v, rfl⟩
  · exact .cons (by decide) _
  · exact .cons (by decide) _
  · exact .cons (by decide) _

theorem Opens.append {s : List Char} (h : Opens s) (r : List Char) : Opens (s ++ r) := by
  obtain ⟨n, u, rfl, h⟩ := h
  refine ⟨n, u ++ r, by simp, ?_⟩
  rcases h with ⟨v, rfl⟩ | ⟨v, rfl⟩ | ⟨v, rfl⟩
  · exact Or.inl ⟨_, rfl⟩
  · exact Or.inr (Or.inl ⟨_, rfl⟩)
  · exact Or.inr (Or.inr ⟨_, rfl⟩)

theorem opens_strT : ∀ t, Opens (strT t)
  | .mk b c e => by
    unfold strT
    dsimp only
    split
    · exact ⟨c, ' ' :: '*' :: (' ' :: (reprInt b ++ '^' :: strN e)), by simp, Or.inr (Or.inl ⟨_, rfl⟩)⟩
    · exact ⟨b, '^' :: strN e, rfl, Or.inl ⟨_, rfl⟩⟩

theorem opens_texT : ∀ t, Opens (texT t)
  | .mk b c e => by
    unfold texT
    dsimp only
    split
    · exact ⟨c, ' ' :: '\\' :: ('c' :: 'd' :: 'o' :: 't' :: ' ' :: (reprInt b ++ "^{ ".toList ++ texN e ++ " }".toList)), by simp,
        Or.inr (Or.inr ⟨_, rfl⟩)⟩
    · exact ⟨b, '^' :: '{' :: ' ' :: (texN e ++ " }".toList), by simp, Or.inl ⟨_, rfl⟩⟩

theorem opens_plus {s rest : List Char} {b : Bool} (h : Opens s) : Opens (plus s b rest) := by
  unfold plus
  split
  · exact h
  · rw [List.append_assoc]; exact h.append _

theorem opens_strTs {ts : List ETerm} (h : ts ≠ []) : Opens (strTs ts) := by
  cases ts with
  | nil => exact absurd rfl h
  | cons t ts => rw [strTs]; exact opens_plus (opens_strT t)

theorem opens_texTs {ts : List ETerm} (h : ts ≠ []) : Opens (texTs ts) := by
  cases ts with
  | nil => exact absurd rfl h
  | cons t ts => rw [texTs]; exact opens_plus (opens_texT t)

theorem opens_head {s : List Char} (h : Opens s) : ∃ c u, s = c :: u ∧ (c ∈ Py.digits ∨ c = '-') := by
  obtain ⟨n, u, rfl, -⟩ := h
  unfold reprInt
  split
  · exact ⟨'-', _, rfl, Or.inr rfl⟩
  · obtain ⟨d, v, hd, hm⟩ := toDigits_first n.natAbs
    exact ⟨d, v ++ u, by rw [hd]; rfl, Or.inl hm⟩

theorem reprInt_head (z : Int) (u : List Char) : ∃ c v, reprInt z ++ u = c :: v ∧ (c ∈ Py.digits ∨ c = '-') := by
  unfold reprInt
  split
  · exact ⟨'-', _, rfl, Or.inr rfl⟩
  · obtain ⟨d, v, hd, hm⟩ := toDigits_first z.natAbs
    exact ⟨d, v ++ u, by rw [hd]; rfl, Or.inl hm⟩

theorem withConst_head (c : Int) {s : List Char} (h : Opens s) (r : List Char) :
    ∃ x u, withConst c s ++ r = x :: u ∧ (x ∈ Py.digits ∨ x = '-') := by
  unfold withConst
  split
  · have := reprInt_head c (" + ".toList ++ s ++ r)
    simpa using this
  · exact opens_head (h.append r)

theorem head_ne {x : Char} (h : x ∈ Py.digits ∨ x = '-') : x ≠ '(' ∧ x ≠ '\\' := by
  rcases h with h | rfl
  · constructor <;> (intro e; rw [e] at h; revert h; decide)
  · decide

/-- the constant before the terms can be told from the terms -/
theorem const_split {c c' : Int} {s s' r r' : List Char} (hs : Opens s) (hs' : Opens s')
    (h : withConst c s ++ r = withConst c' s' ++ r') : c = c' ∧ s ++ r = s' ++ r' := by
  have key : ∀ (c : Int) (s s' r r' : List Char), Opens s' → reprInt c ++ " + ".toList ++ s ++ r ≠ s' ++ r' := by
    intro c s s' r r' hs' h
    obtain ⟨n, u, rfl, hu⟩ := hs'
    have e : reprInt c ++ ' ' :: '+' :: ' ' :: (s ++ r) = reprInt n ++ (u ++ r') := by simpa using h
    have hu' : (∃ v, u ++ r' = '^' :: v) ∨ (∃ v, u ++ r' = ' ' :: '*' :: v) ∨ ∃ v, u ++ r' = ' ' :: '\\' :: v := by
      rcases hu with ⟨v, rfl⟩ | ⟨v, rfl⟩ | ⟨v, rfl⟩
      · exact Or.inl ⟨_, rfl⟩
      · exact Or.inr (Or.inl ⟨_, rfl⟩)
      · exact Or.inr (Or.inr ⟨_, rfl⟩)
    obtain ⟨-, h2⟩ := int_split (.cons (by decide) _) (Opens.noDig hu') e
    rw [← h2] at hu'
    rcases hu' with ⟨v, hv⟩ | ⟨v, hv⟩ | ⟨v, hv⟩ <;> simp at hv
  unfold withConst at h
  split at h
  · split at h
    · have e : reprInt c ++ ' ' :: '+' :: ' ' :: (s ++ r) = reprInt c' ++ ' ' :: '+' :: ' ' :: (s' ++ r') := by simpa using h
      obtain ⟨h1, h2⟩ := int_split (.cons (by decide) _) (.cons (by decide) _) e
      exact ⟨h1, by simpa using h2⟩
    · exact absurd h (key _ _ _ _ _ hs')
  · split at h
    · exact absurd h.symm (key _ _ _ _ _ hs)
    · next h1 h2 =>
      have e1 : c = 0 := by simpa using h1
      have e2 : c' = 0 := by simpa using h2
      exact ⟨by rw [e1, e2], h⟩

theorem follow_not_plus {r u : List Char} (h : Follow r) : r ≠ ' ' :: '+' :: u := by
  cases h <;> simp

mutual
theorem inj_strN : ∀ (x y : Num), Num.WF x → Num.WF y → ∀ r r', NoDig r → NoDig r' → strN x ++ r = strN y ++ r' → x = y ∧ r = r'
  | .int z, .int w, _, _, r, r', hr, hr', h => by
    unfold strN at h
    obtain ⟨h1, h2⟩ := int_split hr hr' h
    exact ⟨by rw [h1], h2⟩
  | .int z, .exp ts c d, _, _, r, r', _, _, h => by
    unfold strN at h
    obtain ⟨x, u, e, hx⟩ := reprInt_head z r
    rw [e] at h
    exact absurd (by simpa using congrArg List.head? h) (head_ne hx).1
  | .exp ts c d, .int z, _, _, r, r', _, _, h => by
    unfold strN at h
    obtain ⟨x, u, e, hx⟩ := reprInt_head z r'
    rw [e] at h
    exact absurd (by simpa using (congrArg List.head? h).symm) (head_ne hx).1
  | .exp ts c d, .exp ts' c' d', hx, hy, r, r', hr, hr', h => by
    obtain ⟨hne, hd, -, hts⟩ := hx
    obtain ⟨hne', hd', -, hts'⟩ := hy
    have ho := opens_strTs hne
    have ho' := opens_strTs hne'
    unfold strN at h
    dsimp only at h
    by_cases h1 : d = 1
    · by_cases h2 : d' = 1
      · rw [if_neg (by simpa using h1), if_neg (by simpa using h2)] at h
        have e : withConst c (strTs ts) ++ ')' :: r = withConst c' (strTs ts') ++ ')' :: r' := by simpa using h
        obtain ⟨e1, e2⟩ := const_split ho ho' e
        obtain ⟨e3, e4⟩ := inj_strTs ts ts' hts hts' hne hne' _ _ (.paren r) (.paren r') e2
        exact ⟨by rw [e1, e3, h1, h2], by simpa using e4⟩
      · rw [if_neg (by simpa using h1), if_pos h2] at h
        obtain ⟨x, u, e, hx⟩ := withConst_head c ho (')' :: r)
        have : x :: u = '(' :: (withConst c' (strTs ts') ++ ')' :: '/' :: (reprInt d' ++ ')' :: r')) := by
          rw [← e]
          simpa using h
        exact absurd (List.cons.inj this).1 (head_ne hx).1
    · by_cases h2 : d' = 1
      · rw [if_pos h1, if_neg (by simpa using h2)] at h
        obtain ⟨x, u, e, hx⟩ := withConst_head c' ho' (')' :: r')
        have : x :: u = '(' :: (withConst c (strTs ts) ++ ')' :: '/' :: (reprInt d ++ ')' :: r)) := by
          rw [← e]
          simpa using h.symm
        exact absurd (List.cons.inj this).1 (head_ne hx).1
      · rw [if_pos h1, if_pos h2] at h
        have e : withConst c (strTs ts) ++ ')' :: '/' :: (reprInt d ++ ')' :: r) =
            withConst c' (strTs ts') ++ ')' :: '/' :: (reprInt d' ++ ')' :: r') := by simpa using h
        obtain ⟨e1, e2⟩ := const_split ho ho' e
        obtain ⟨e3, e4⟩ := inj_strTs ts ts' hts hts' hne hne' _ _ (.paren _) (.paren _) e2
        obtain ⟨e5, e6⟩ := int_split (.cons (by decide) _) (.cons (by decide) _) (List.cons.inj (List.cons.inj e4).2).2
        exact ⟨by rw [e1, e3, e5], by simpa using e6⟩
theorem inj_strTs : ∀ (ts ts' : List ETerm), AllWF ts → AllWF ts' → ts ≠ [] → ts' ≠ [] → ∀ r r', Follow r → Follow r' →
    strTs ts ++ r = strTs ts' ++ r' → ts = ts' ∧ r = r'
  | [], _, _, _, h, _, _, _, _, _, _ => absurd rfl h
  | _ :: _, [], _, _, _, h, _, _, _, _, _ => absurd rfl h
  | [t], [t'], h, h', _, _, r, r', hr, hr', e => by
    have e : strT t ++ r = strT t' ++ r' := by simpa [strTs, plus] using e
    obtain ⟨e1, e2⟩ := inj_strT t t' h.1 h'.1 r r' hr.noDig hr'.noDig e
    exact ⟨by rw [e1], e2⟩
  | [t], t' :: u :: us, h, h', _, _, r, r', hr, hr', e => by
    have e : strT t ++ r = strT t' ++ ' ' :: '+' :: ' ' :: (strTs (u :: us) ++ r') := by
      rw [strTs, strTs.eq_2 t'] at e
      simpa [plus] using e
    obtain ⟨e1, e2⟩ := inj_strT t t' h.1 h'.1 _ _ hr.noDig (.cons (by decide) _) e
    exact absurd e2 (follow_not_plus hr)
  | t :: u :: us, [t'], h, h', _, _, r, r', hr, hr', e => by
    have e : strT t ++ ' ' :: '+' :: ' ' :: (strTs (u :: us) ++ r) = strT t' ++ r' := by
      rw [strTs, strTs.eq_2 t'] at e
      simpa [plus] using e
    obtain ⟨e1, e2⟩ := inj_strT t t' h.1 h'.1 _ _ (.cons (by decide) _) hr'.noDig e
    exact absurd e2.symm (follow_not_plus hr')
  | t :: u :: us, t' :: u' :: us', h, h', _, _, r, r', hr, hr', e => by
    have e : strT t ++ ' ' :: '+' :: ' ' :: (strTs (u :: us) ++ r) = strT t' ++ ' ' :: '+' :: ' ' :: (strTs (u' :: us') ++ r') := by
      rw [strTs, strTs.eq_2 t'] at e
      simpa [plus] using e
    obtain ⟨e1, e2⟩ := inj_strT t t' h.1 h'.1 _ _ (.cons (by decide) _) (.cons (by decide) _) e
    obtain ⟨e3, e4⟩ := inj_strTs (u :: us) (u' :: us') h.2 h'.2 (by simp) (by simp) r r' hr hr' (by simpa using e2)
    exact ⟨by rw [e1, e3], e4⟩
theorem inj_strT : ∀ (t t' : ETerm), ETerm.WF t → ETerm.WF t' → ∀ r r', NoDig r → NoDig r' → strT t ++ r = strT t' ++ r' → t = t' ∧ r = r'
  | .mk b c e, .mk b' c' e', h, h', r, r', hr, hr', eq => by
    have he := h.2.2.1
    have he' := h'.2.2.1
    have key : ∀ {u u' : List Char}, u = '^' :: (strN e ++ r) → u' = '^' :: (strN e' ++ r') → reprInt b ++ u = reprInt b' ++ u' →
        b = b' ∧ e = e' ∧ r = r' := by
      rintro u u' rfl rfl h
      obtain ⟨h1, h2⟩ := int_split (.cons (by decide) _) (.cons (by decide) _) h
      obtain ⟨h3, h4⟩ := inj_strN e e' he he' r r' hr hr' (List.cons.inj h2).2
      exact ⟨h1, h3, h4⟩
    unfold strT at eq
    dsimp only at eq
    by_cases hc : c = 1
    · by_cases hc' : c' = 1
      · rw [if_neg (by simpa using hc), if_neg (by simpa using hc')] at eq
        obtain ⟨h1, h2, h3⟩ := key rfl rfl (by simpa using eq)
        exact ⟨by rw [h1, h2, hc, hc'], h3⟩
      · rw [if_neg (by simpa using hc), if_pos hc'] at eq
        have eq : reprInt b ++ '^' :: (strN e ++ r) = reprInt c' ++ ' ' :: '*' :: ' ' :: (reprInt b' ++ '^' :: (strN e' ++ r')) := by
          simpa using eq
        obtain ⟨-, h2⟩ := int_split (.cons (by decide) _) (.cons (by decide) _) eq
        simp at h2
    · by_cases hc' : c' = 1
      · rw [if_pos hc, if_neg (by simpa using hc')] at eq
        have eq : reprInt c ++ ' ' :: '*' :: ' ' :: (reprInt b ++ '^' :: (strN e ++ r)) = reprInt b' ++ '^' :: (strN e' ++ r') := by
          simpa using eq
        obtain ⟨-, h2⟩ := int_split (.cons (by decide) _) (.cons (by decide) _) eq
        simp at h2
      · rw [if_pos hc, if_pos hc'] at eq
        have eq : reprInt c ++ ' ' :: '*' :: ' ' :: (reprInt b ++ '^' :: (strN e ++ r)) =
            reprInt c' ++ ' ' :: '*' :: ' ' :: (reprInt b' ++ '^' :: (strN e' ++ r')) := by simpa using eq
        obtain ⟨h0, h1⟩ := int_split (.cons (by decide) _) (.cons (by decide) _) eq
        obtain ⟨h1, h2, h3⟩ := key rfl rfl (List.cons.inj (List.cons.inj (List.cons.inj h1).2).2).2
        exact ⟨by rw [h0, h1, h2], h3⟩
end

theorem follow_not_open {r : List Char} (h : Follow r) :
    ¬ ((∃ v, r = '^' :: v) ∨ (∃ v, r = ' ' :: '*' :: v) ∨ ∃ v, r = ' ' :: '\\' :: v) := by
  rintro (⟨v, rfl⟩ | ⟨v, rfl⟩ | ⟨v, rfl⟩) <;> cases h

/-- an integer can be told from a sum -/
theorem int_not_sum {z c : Int} {s r r' : List Char} (hs : Opens s) (hr : Follow r) : reprInt z ++ r ≠ withConst c s ++ r' := by
  intro h
  unfold withConst at h
  split at h
  · have e : reprInt z ++ r = reprInt c ++ ' ' :: '+' :: (' ' :: (s ++ r')) := by simpa using h
    obtain ⟨-, h2⟩ := int_split hr.noDig (.cons (by decide) _) e
    exact follow_not_plus hr h2
  · obtain ⟨n, u, e, hu⟩ := hs.append r'
    rw [e] at h
    obtain ⟨-, h2⟩ := int_split hr.noDig (Opens.noDig hu) h
    rw [← h2] at hu
    exact follow_not_open hr hu

theorem texN_exp (ts : List ETerm) (c d : Int) (r : List Char) : texN (.exp ts c d) ++ r =
    if d ≠ 1 then '\\' :: 'f' :: 'r' :: 'a' :: 'c' :: '{' :: ' ' :: (withConst c (texTs ts) ++ ' ' :: '}' :: '{' :: ' ' :: (reprInt d ++ ' ' :: '}' :: r))
    else withConst c (texTs ts) ++ r := by
  rw [texN]
  split
  · simp
  · rfl

mutual
theorem inj_texN : ∀ (x y : Num), Num.WF x → Num.WF y → ∀ r r', Follow r → Follow r' → texN x ++ r = texN y ++ r' → x = y ∧ r = r'
  | .int z, .int w, _, _, r, r', hr, hr', h => by
    unfold texN at h
    obtain ⟨h1, h2⟩ := int_split hr.noDig hr'.noDig h
    exact ⟨by rw [h1], h2⟩
  | .int z, .exp ts c d, _, hy, r, r', hr, _, h => by
    rw [texN_exp, texN] at h
    split at h
    · obtain ⟨x, u, e, hx⟩ := reprInt_head z r
      rw [e] at h
      exact absurd (List.cons.inj h).1 (head_ne hx).2
    · exact absurd h (int_not_sum (opens_texTs hy.1) hr)
  | .exp ts c d, .int z, hx, _, r, r', _, hr', h => by
    rw [texN_exp, texN] at h
    split at h
    · obtain ⟨x, u, e, hx⟩ := reprInt_head z r'
      rw [e] at h
      exact absurd (List.cons.inj h).1.symm (head_ne hx).2
    · exact absurd h.symm (int_not_sum (opens_texTs hx.1) hr')
  | .exp ts c d, .exp ts' c' d', hx, hy, r, r', hr, hr', h => by
    obtain ⟨hne, hd, -, hts⟩ := hx
    obtain ⟨hne', hd', -, hts'⟩ := hy
    have ho := opens_texTs hne
    have ho' := opens_texTs hne'
    rw [texN_exp, texN_exp] at h
    by_cases h1 : d = 1
    · by_cases h2 : d' = 1
      · rw [if_neg (by simpa using h1), if_neg (by simpa using h2)] at h
        obtain ⟨e1, e2⟩ := const_split ho ho' h
        obtain ⟨e3, e4⟩ := inj_texTs ts ts' hts hts' hne hne' _ _ hr hr' e2
        exact ⟨by rw [e1, e3, h1, h2], e4⟩
      · rw [if_neg (by simpa using h1), if_pos h2] at h
        obtain ⟨x, u, e, hx⟩ := withConst_head c ho r
        rw [e] at h
        exact absurd (List.cons.inj h).1 (head_ne hx).2
    · by_cases h2 : d' = 1
      · rw [if_pos h1, if_neg (by simpa using h2)] at h
        obtain ⟨x, u, e, hx⟩ := withConst_head c' ho' r'
        rw [e] at h
        exact absurd (List.cons.inj h).1.symm (head_ne hx).2
      · rw [if_pos h1, if_pos h2] at h
        have e : withConst c (texTs ts) ++ ' ' :: '}' :: '{' :: ' ' :: (reprInt d ++ ' ' :: '}' :: r) =
            withConst c' (texTs ts') ++ ' ' :: '}' :: '{' :: ' ' :: (reprInt d' ++ ' ' :: '}' :: r') := by simpa using h
        obtain ⟨e1, e2⟩ := const_split ho ho' e
        obtain ⟨e3, e4⟩ := inj_texTs ts ts' hts hts' hne hne' _ _ (.brace _) (.brace _) e2
        have e4 : reprInt d ++ ' ' :: '}' :: r = reprInt d' ++ ' ' :: '}' :: r' := by simpa using e4
        obtain ⟨e5, e6⟩ := int_split (.cons (by decide) _) (.cons (by decide) _) e4
        exact ⟨by rw [e1, e3, e5], by simpa using e6⟩
theorem inj_texTs : ∀ (ts ts' : List ETerm), AllWF ts → AllWF ts' → ts ≠ [] → ts' ≠ [] → ∀ r r', Follow r → Follow r' →
    texTs ts ++ r = texTs ts' ++ r' → ts = ts' ∧ r = r'
  | [], _, _, _, h, _, _, _, _, _, _ => absurd rfl h
  | _ :: _, [], _, _, _, h, _, _, _, _, _ => absurd rfl h
  | [t], [t'], h, h', _, _, r, r', hr, hr', e => by
    have e : texT t ++ r = texT t' ++ r' := by simpa [texTs, plus] using e
    obtain ⟨e1, e2⟩ := inj_texT t t' h.1 h'.1 r r' e
    exact ⟨by rw [e1], e2⟩
  | [t], t' :: u :: us, h, h', _, _, r, r', hr, hr', e => by
    have e : texT t ++ r = texT t' ++ ' ' :: '+' :: ' ' :: (texTs (u :: us) ++ r') := by
      rw [texTs, texTs.eq_2 t'] at e
      simpa [plus] using e
    obtain ⟨e1, e2⟩ := inj_texT t t' h.1 h'.1 _ _ e
    exact absurd e2 (follow_not_plus hr)
  | t :: u :: us, [t'], h, h', _, _, r, r', hr, hr', e => by
    have e : texT t ++ ' ' :: '+' :: ' ' :: (texTs (u :: us) ++ r) = texT t' ++ r' := by
      rw [texTs, texTs.eq_2 t'] at e
      simpa [plus] using e
    obtain ⟨e1, e2⟩ := inj_texT t t' h.1 h'.1 _ _ e
    exact absurd e2.symm (follow_not_plus hr')
  | t :: u :: us, t' :: u' :: us', h, h', _, _, r, r', hr, hr', e => by
    have e : texT t ++ ' ' :: '+' :: ' ' :: (texTs (u :: us) ++ r) = texT t' ++ ' ' :: '+' :: ' ' :: (texTs (u' :: us') ++ r') := by
      rw [texTs, texTs.eq_2 t'] at e
      simpa [plus] using e
    obtain ⟨e1, e2⟩ := inj_texT t t' h.1 h'.1 _ _ e
    obtain ⟨e3, e4⟩ := inj_texTs (u :: us) (u' :: us') h.2 h'.2 (by simp) (by simp) r r' hr hr' (by simpa using e2)
    exact ⟨by rw [e1, e3], e4⟩
theorem inj_texT : ∀ (t t' : ETerm), ETerm.WF t → ETerm.WF t' → ∀ r r', texT t ++ r = texT t' ++ r' → t = t' ∧ r = r'
  | .mk b c e, .mk b' c' e', h, h', r, r', eq => by
    have he := h.2.2.1
    have he' := h'.2.2.1
    have key : ∀ {u u' : List Char}, u = '^' :: '{' :: ' ' :: (texN e ++ ' ' :: '}' :: r) →
        u' = '^' :: '{' :: ' ' :: (texN e' ++ ' ' :: '}' :: r') → reprInt b ++ u = reprInt b' ++ u' → b = b' ∧ e = e' ∧ r = r' := by
      rintro u u' rfl rfl h
      obtain ⟨h1, h2⟩ := int_split (.cons (by decide) _) (.cons (by decide) _) h
      obtain ⟨h3, h4⟩ := inj_texN e e' he he' _ _ (.brace r) (.brace r') (by simpa using h2)
      exact ⟨h1, h3, by simpa using h4⟩
    unfold texT at eq
    dsimp only at eq
    by_cases hc : c = 1
    · by_cases hc' : c' = 1
      · rw [if_neg (by simpa using hc), if_neg (by simpa using hc')] at eq
        obtain ⟨h1, h2, h3⟩ := key rfl rfl (by simpa using eq)
        exact ⟨by rw [h1, h2, hc, hc'], h3⟩
      · rw [if_neg (by simpa using hc), if_pos hc'] at eq
        have eq : reprInt b ++ '^' :: ('{' :: ' ' :: (texN e ++ ' ' :: '}' :: r)) = reprInt c' ++ ' ' :: '\\' :: 'c' :: 'd' :: 'o' :: 't' :: ' ' ::
            (reprInt b' ++ '^' :: '{' :: ' ' :: (texN e' ++ ' ' :: '}' :: r')) := by
          simpa using eq
        obtain ⟨-, h2⟩ := int_split (.cons (by decide) _) (.cons (by decide) _) eq
        simp at h2
    · by_cases hc' : c' = 1
      · rw [if_pos hc, if_neg (by simpa using hc')] at eq
        have eq : reprInt c ++ ' ' :: '\\' :: 'c' :: 'd' :: 'o' :: 't' :: ' ' :: (reprInt b ++ '^' :: '{' :: ' ' :: (texN e ++ ' ' :: '}' :: r)) =
            reprInt b' ++ '^' :: ('{' :: ' ' :: (texN e' ++ ' ' :: '}' :: r')) := by
          simpa using eq
        obtain ⟨-, h2⟩ := int_split (.cons (by decide) _) (.cons (by decide) _) eq
        simp at h2
      · rw [if_pos hc, if_pos hc'] at eq
        have eq : reprInt c ++ ' ' :: '\\' :: 'c' :: 'd' :: 'o' :: 't' :: ' ' :: (reprInt b ++ '^' :: '{' :: ' ' :: (texN e ++ ' ' :: '}' :: r)) =
            reprInt c' ++ ' ' :: '\\' :: 'c' :: 'd' :: 'o' :: 't' :: ' ' :: (reprInt b' ++ '^' :: '{' :: ' ' :: (texN e' ++ ' ' :: '}' :: r')) := by
          simpa using eq
        obtain ⟨h0, h1⟩ := int_split (.cons (by decide) _) (.cons (by decide) _) eq
        obtain ⟨h1, h2, h3⟩ := key rfl rfl (by simpa using h1)
        exact ⟨by rw [h0, h1, h2], h3⟩
end

end Model.ExpText
