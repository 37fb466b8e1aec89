import Verif.Lemmas.ExpNormal
import Verif.Props.ExpInt
import Verif.Props.Status

/-!
# C75: exponential integers stay in normal form and survive structured storage

`NF F x` is the normal form, `Built F x` says that `x` can be got from integers by the operations of `Exp_Int.py`
(`Spec/ExpNormal.lean`).  `F` stands for the floating-point parts (`Model/ExpInt.lean`).
-/

namespace Props
open Model Model.ExpInt Model.ExpProto Model.Status Spec

/-- **C75.** Every operation that returns keeps the normal form: `exp_int`, addition, multiplication, negation, subtraction,
exact division and floor division. -/
theorem C75_normal_form (F : Floats) (hF : FloatsOk F) (hP : PowersOk F.math) (fuel : Nat) (a b : Num) (ha : NF F a)
    (hb : NF F b) :
    (∀ base r, expInt F fuel base a = .ok r → NF F r) ∧ (∀ r, addN F fuel a b = .ok r → NF F r) ∧
    (∀ r, mulN F fuel a b = .ok r → NF F r) ∧ (∀ r, neg F fuel a = .ok r → NF F r) ∧
    (∀ r, sub F fuel a b = .ok r → NF F r) ∧
    ∀ ts c d, a = .exp ts c d →
      (∀ r, trueDiv F fuel ts c d b = .ok r → NF F r) ∧ ∀ q r, divMod F fuel ts c d b = .ok (q, r) → NF F q := by
  have K := kept hF hP fuel
  have hneg : ∀ x, NF F x → ∀ r, neg F fuel x = .ok r → NF F r := fun x hx r h => K.mul _ _ _ hx (by simp [NF]) h
  have hdiv : ∀ ts c d, NF F (.exp ts c d) → ∀ r, trueDiv F fuel ts c d b = .ok r → NF F r := by
    intro ts c d ht r h
    unfold trueDiv at h
    split at h
    · cases h
    split at h
    · cases h
    exact mkInt_nf (nf_terms ht) h
  refine ⟨?_, fun r h => K.add _ _ _ ha hb h, fun r h => K.mul _ _ _ ha hb h, hneg a ha, ?_, ?_⟩
  · intro base r h
    unfold expInt at h
    split at h
    · cases h; simp [NF]
    · split at h
      · cases h
      next t ht => exact mkInt_nf (by simp only [AllNF]; exact ⟨K.term _ _ _ _ ha ht, trivial⟩) h
  · intro r h
    unfold sub at h
    split at h
    · cases h; simp [NF]
    · split at h
      · cases h
      next nb hn => exact K.add _ _ _ (hneg _ hb _ hn) (by simp [NF]) h
    · split at h
      · cases h
      next nb hn => exact K.add _ _ _ ha (hneg _ hb _ hn) h
  · rintro ts c d rfl
    refine ⟨hdiv ts c d ha, ?_⟩
    intro q r h
    unfold divMod at h
    split at h
    · cases h
    split at h
    · cases h
    · cases h
    next ts' c' d' hadd =>
    have hn := K.add _ _ _ ha (by simp [NF]) hadd
    split at h
    · cases h
    next q' hq => cases h; exact hdiv _ _ _ hn _ hq

/-- **C75.** So every number that a program can get from integers by these operations is in normal form. -/
theorem C75_built (F : Floats) (hF : FloatsOk F) (hP : PowersOk F.math) (x : Num) (h : Built F x) : NF F x := by
  induction h with
  | int z => simp [NF]
  | expInt _ h ih => exact (C75_normal_form F hF hP _ _ _ ih ih).1 _ _ h
  | add _ _ h iha ihb => exact (C75_normal_form F hF hP _ _ _ iha ihb).2.1 _ h
  | mul _ _ h iha ihb => exact (C75_normal_form F hF hP _ _ _ iha ihb).2.2.1 _ h
  | neg _ h ih => exact (C75_normal_form F hF hP _ _ _ ih ih).2.2.2.1 _ h
  | sub _ _ h iha ihb => exact (C75_normal_form F hF hP _ _ _ iha ihb).2.2.2.2.1 _ h
  | @div fuel ts c d b r _ h ih =>
    unfold trueDiv at h
    split at h
    · cases h
    split at h
    · cases h
    exact mkInt_nf (nf_terms ih) h
  | @floorDiv fuel ts c d b q r _ h ih =>
    unfold divMod at h
    split at h
    · cases h
    split at h
    · cases h
    · cases h
    next ts' c' d' hadd =>
    have hn := (kept hF hP fuel).add _ _ _ ih (by simp [NF]) hadd
    split at h
    · cases h
    next q' hq =>
    cases h
    unfold trueDiv at hq
    split at hq
    · cases hq
    split at hq
    · cases hq
    exact mkInt_nf (nf_terms hn) hq

/-- **C75.** In particular it is in the form that the theorems on comparison (C59) ask for. -/
theorem C75_built_normal (F : Floats) (hF : FloatsOk F) (hP : PowersOk F.math) (x : Num) (h : Built F x) : Normal F.math x := by
  have hn := C75_built F hF hP x h
  cases x with
  | int z => trivial
  | exp ts c d =>
    have ht := allNF_iff.1 (nf_terms hn)
    simp only [NF] at hn
    refine ⟨hn.2.2.2.1, fun t htm => ?_⟩
    have := ht t htm
    cases t with
    | mk b cf e => exact ⟨fun n k hk => termNF_pow this n k hk, termNF_dvd this⟩

/-- **C75.** The assumption on `int_pow` holds if its floating-point values are accurate. -/
theorem C75_powers (M : Math.Floats) (hM : ∀ n, Accurate M n) : PowersOk M := by
  intro b n k h hk
  have hn := intPow_big h hk
  have hv := C43_int_pow_value M b n k h
  have hb : 0 ≤ b := intPow_nonneg h
  obtain ⟨b, rfl⟩ := Int.eq_ofNat_of_zero_le hb
  have hv : n ^ k = b := by exact_mod_cast hv
  have hb2 : 2 ≤ b := by
    rw [← hv]
    exact Nat.le_trans hn (Nat.le_self_pow (by omega) n)
  obtain ⟨m, j, h1, h2, h3⟩ := C43_int_pow_least M b hb2 (hM b)
  have hmj : (m, j) = (n, k) := by rw [h1] at h; injection h
  cases hmj
  obtain ⟨n', k', e1, e2, -⟩ := C43_int_pow_least M n hn (hM n)
  refine ⟨n', k', e1, ?_⟩
  by_contra hlt
  have hle : n ≤ n' := h3 n' (k' * k) (by rw [pow_mul, e2, hv])
  have hlt2 : n' ^ 1 < n' ^ k' := Nat.pow_lt_pow_right (by omega) (by omega)
  rw [e2, pow_one] at hlt2
  omega

/-- **C75.** The constructors return a number in normal form as it is: making a term or a sum from the parts of one gives
the same parts. -/
theorem C75_rebuild (F : Floats) (fuel : Nat) (ts : List ETerm) (c d : Int) (h : NF F (.exp ts c d)) :
    mkInt F (fuel + 1) ts c d = .ok (.exp ts c d) ∧
    ∀ t ∈ ts, mkTerm F (fuel + 1) t.base t.coef t.exponent = .ok t := by
  refine ⟨mkInt_id h fuel, fun t ht => ?_⟩
  have := allNF_iff.1 (nf_terms h) t ht
  cases t with
  | mk b cf e => exact mkTerm_id this fuel

/-- **C75.** A message that describes a number in normal form is read as that number: whether a part is stored plainly, as
hexadecimal text, pickled, or (an exponent, at any depth) as a structured message again, and whether constants and
coefficients are in the new fields or in the old ones. -/
theorem C75_reads (F : Floats) (fuel : Nat) (loads : List Nat → Option Num) (m : BigMsg) (x : Num) (hx : NF F x)
    (hm : Describes loads m x) : getBig F (fuel + 1) loads m = .ok (some x) :=
  reads_big F fuel loads m x hx hm

/-- **C75.** Storing: an `ExpInt` can be stored in a structured message if its denominator and its bases fit into 64 bits;
otherwise `ValueError` is raised. -/
theorem C75_stored_iff (dumps : Num → List Nat) (ts : List ETerm) (c d : Int) :
    ((0 ≤ d ∧ d < 2 ^ 64) ∧ (∀ t ∈ ts, 0 ≤ t.base ∧ t.base < 2 ^ 64) → ∃ m, serializeExp dumps ts c d = .ok m) ∧
    (¬ ((0 ≤ d ∧ d < 2 ^ 64) ∧ ∀ t ∈ ts, 0 ≤ t.base ∧ t.base < 2 ^ 64) → serializeExp dumps ts c d = .error .value) := by
  obtain ⟨mc, hc⟩ := setBig_ok dumps (.int c)
  constructor
  · rintro ⟨hd, ht⟩
    obtain ⟨tms, h⟩ := serializeTerms_ok dumps ts ht
    exact ⟨.mk tms mc 0 d.toNat, by simp only [serializeExp, hc, setUint64, if_pos hd, h]⟩
  · intro h
    simp only [serializeExp, hc, setUint64]
    by_cases hd : 0 ≤ d ∧ d < 2 ^ 64
    · rw [if_pos hd]
      dsimp only
      rw [serializeTerms_error dumps ts (fun ht => h ⟨hd, ht⟩)]
    · rw [if_neg hd]

/-- **C75.** What is stored describes the number, as far as pickling works ... -/
theorem C75_stored (dumps : Num → List Nat) (loads : List Nat → Option Num) (hp : ∀ x, loads (dumps x) = some x)
    (ts : List ETerm) (c d : Int) (m : ExpMsg) (h : serializeExp dumps ts c d = .ok m) :
    Describes loads (.expInt m) (.exp ts c d) := serializeExp_describes dumps loads hp ts c d m h

/-- **C75.** ... so every `ExpInt` that a program can get, if it can be stored at all, is read back as it was: the same
structure, not only the same value. -/
theorem C75_roundtrip (F : Floats) (hF : FloatsOk F) (hP : PowersOk F.math) (fuel : Nat) (dumps : Num → List Nat)
    (loads : List Nat → Option Num) (hp : ∀ x, loads (dumps x) = some x) (ts : List ETerm) (c d : Int)
    (hb : Built F (.exp ts c d)) (m : ExpMsg) (h : serializeExp dumps ts c d = .ok m) :
    getBig F (fuel + 1) loads (.expInt m) = .ok (some (.exp ts c d)) :=
  C75_reads F fuel loads _ _ (C75_built F hF hP _ hb) (C75_stored dumps loads hp ts c d m h)

/-- **C75.** What is read is in normal form, whatever the message says. -/
theorem C75_read_normal (F : Floats) (hF : FloatsOk F) (hP : PowersOk F.math) (fuel : Nat) (loads : List Nat → Option Num)
    (hl : ∀ s x, loads s = some x → NF F x) (m : BigMsg) (x : Num) (h : getBig F fuel loads m = .ok (some x)) : NF F x :=
  read_nf F hF hP fuel loads hl m x h

/-! ### Concrete cases -/

/-- the exact logarithms of the examples are accurate -/
theorem exF_accurate (n : Nat) : Accurate exF.math n where
  sqrt := ⟨n, rfl, fun m hm => by nlinarith [Nat.zero_le m]⟩
  log := by
    intro m k hm h
    show ((List.range n).filter (fun j => m ^ (j + 1) ≤ n)).length = k
    subst h
    have hk : k ≤ m ^ k := Nat.le_of_lt (Nat.lt_pow_self (by omega))
    have : (List.range (m ^ k)).filter (fun j => m ^ (j + 1) ≤ m ^ k) = List.range k := by
      obtain ⟨r, hr⟩ := Nat.exists_eq_add_of_le hk
      rw [hr, List.range_add, List.filter_append, ← hr, List.filter_eq_self.2, List.filter_eq_nil_iff.2, List.append_nil]
      · intro j hj
        obtain ⟨i, -, rfl⟩ := List.mem_map.1 hj
        have := Nat.pow_lt_pow_right (show 1 < m by omega) (show k < k + i + 1 by omega)
        simp; omega
      · intro j hj
        have := Nat.pow_le_pow_right (show 0 < m by omega) (show j + 1 ≤ k by have := List.mem_range.1 hj; omega)
        simpa using this
    rw [this, List.length_range]

theorem exF_powers : PowersOk exF.math := C75_powers _ exF_accurate

/-- `(4^2500 - 1) / 3`, that is `(2^5000 - 1) / 3` -/
private def third : Num := .exp [.mk 2 1 (.int 5000)] (-1) 3

private theorem third_built : Built exF third := by
  have h1 : expInt exF 9 4 (.int 2500) = .ok (.exp [.mk 2 1 (.int 5000)] 0 1) := by rfl
  have h2 : addN exF 9 (.exp [.mk 2 1 (.int 5000)] 0 1) (.int (-1)) = .ok (.exp [.mk 2 1 (.int 5000)] (-1) 1) := by rfl
  have h3 : trueDiv exF 9 [.mk 2 1 (.int 5000)] (-1) 1 (.int 3) = .ok third := by rfl
  exact .div (.add (.expInt (.int _) h1) (.int _) h2) h3

example : NF exF third := C75_built exF exF_ok exF_powers _ third_built

-- a number that is not in normal form (6 * 2^10) and what the constructor makes of it
example : ¬ TermNF exF (.mk 2 6 (.int 10)) := by
  intro h
  simp only [TermNF] at h
  exact h.2.2.1 (by decide)
example : mkTerm exF 9 2 6 (.int 10) = .ok (.mk 2 3 (.int 11)) := by rfl

/-- pickling that works for the number of the examples -/
private def exDumps : Num → List Nat := fun _ => []

-- it is stored in the new fields
private def thirdMsg : ExpMsg := .mk [.mk 2 (.plain (.int 1)) 0 (.plain (.int 5000))] (.plain (.int (-1))) 0 3
example : serializeExp exDumps [.mk 2 1 (.int 5000)] (-1) 3 = .ok thirdMsg := by rfl
example : getBig exF 9 (fun _ => none) (.expInt thirdMsg) = .ok (some third) := by rfl

-- pickling exists: the numbers can be numbered
example : ∃ (dumps : Num → List Nat) (loads : List Nat → Option Num), ∀ x, loads (dumps x) = some x :=
  pickling_exists

-- `3^third + 2` in a message with old fields and a structured exponent
private def oldMsg : BigMsg := .expInt (.mk [.mk 3 .absent 1 (.expInt thirdMsg)] .absent 2 1)
example : Describes (fun _ => none) oldMsg (.exp [.mk 3 1 third] 2 1) := by
  simp [oldMsg, thirdMsg, third, Describes, DescribesExp, DescribesTerms, DescribesTerm, FieldHolds, getBigInt]
example : getBig exF 9 (fun _ => none) oldMsg = .ok (some (.exp [.mk 3 1 third] 2 1)) := by rfl

-- what does not fit, and what is damaged
example : serializeExp exDumps [.mk 2 1 (.int 5000)] (-1) (3 ^ 41) = .error .value :=
  (C75_stored_iff _ _ _ _).2 (by norm_num)
example : getBig exF 9 (fun _ => none) (.expInt (.mk [] (.plain (.int 1)) 0 1)) = .error .assertion := by rfl
example : getBig exF 9 (fun _ => none) (.expInt (.mk [.mk 2 .absent 1 .absent] (.plain (.int 1)) 0 1)) = .error .assertion := by
  rfl

end Props
