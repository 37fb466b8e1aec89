import Verif.Model.Status
import Verif.Lemmas.Format

/-!
# Lemmas about big integers and statuses
-/

namespace Model.Status

theorem hexVal_hexDigit : ∀ d : Fin 16, hexVal (hexDigit d.1) = some d.1 ∧ Py.isSpace (hexDigit d.1) = false := by decide

theorem parseDigits_append (a b : List Char) (acc : Nat) :
    parseDigits (a ++ b) acc = (parseDigits a acc).bind (parseDigits b) := by
  induction a generalizing acc with
  | nil => rfl
  | cons c a ih =>
    rw [List.cons_append]
    conv_lhs => unfold parseDigits
    conv_rhs => lhs; unfold parseDigits
    cases hexVal c with
    | none => rfl
    | some d => exact ih _

theorem hexDigits_spec (n : Nat) : parseDigits (hexDigits n) 0 = some n ∧ hexDigits n ≠ [] ∧
    ∀ c ∈ hexDigits n, Py.isSpace c = false := by
  induction n using Nat.strong_induction_on with
  | _ n ih =>
    unfold hexDigits
    split
    · next h =>
      have := hexVal_hexDigit ⟨n, h⟩
      simp only at this
      refine ⟨?_, by simp, ?_⟩
      · simp [parseDigits, this.1]
      · intro c hc
        rw [List.mem_singleton.1 hc]; exact this.2
    · next h =>
      obtain ⟨h1, h2, h3⟩ := ih (n / 16) (by omega)
      have := hexVal_hexDigit ⟨n % 16, by omega⟩
      simp only at this
      refine ⟨?_, by simp, ?_⟩
      · rw [parseDigits_append, h1]
        simp only [Option.bind_some, parseDigits, this.1]
        congr 1
        omega
      · intro c hc
        rcases List.mem_append.1 hc with hc | hc
        · exact h3 c hc
        · rw [List.mem_singleton.1 hc]; exact this.2

theorem parseHex_hex (v : Int) : parseHex (hex v) = some v := by
  obtain ⟨h1, h2, h3⟩ := hexDigits_spec v.natAbs
  have hs : Py.strip (hex v) = hex v := by
    apply Model.IO.strip_noop
    intro c hc
    unfold hex at hc
    rcases List.mem_append.1 hc with hc | hc
    · rcases List.mem_append.1 hc with hc | hc
      · split at hc
        · rw [List.mem_singleton.1 hc]; decide
        · simp at hc
      · simp only [List.mem_cons, List.not_mem_nil, or_false] at hc
        rcases hc with rfl | rfl <;> decide
    · exact h3 c hc
  unfold parseHex
  rw [hs]
  unfold hex
  by_cases hv : v < 0
  · rw [if_pos hv]
    have e : parseHexNat ('0' :: 'x' :: hexDigits v.natAbs) = some v.natAbs := by
      show (if hexDigits v.natAbs = [] then none else parseDigits (hexDigits v.natAbs) 0) = _
      rw [if_neg h2, h1]
    show (parseHexNat ('0' :: 'x' :: hexDigits v.natAbs)).map _ = _
    rw [e, Option.map_some]
    congr 1
    omega
  · rw [if_neg hv]
    have e : parseHexNat ('0' :: 'x' :: hexDigits v.natAbs) = some v.natAbs := by
      show (if hexDigits v.natAbs = [] then none else parseDigits (hexDigits v.natAbs) 0) = _
      rw [if_neg h2, h1]
    show (parseHexNat ('0' :: 'x' :: hexDigits v.natAbs)).map _ = _
    rw [e, Option.map_some]
    congr 1
    omega

/-- the loop picks the largest time among the states that are not ignored -/
theorem recurLoop_spec (ignore : List Nat) (seen : List (Nat × Int)) : ∀ q l,
    (recurLoop ignore seen q l = (q, l) ∧ ∀ e ∈ seen, e.1 ∉ ignore → e.2 ≤ l) ∨
    ∃ q' l', recurLoop ignore seen q l = (some q', l') ∧ (q', l') ∈ seen ∧ q' ∉ ignore ∧ l < l' ∧
      ∀ e ∈ seen, e.1 ∉ ignore → e.2 ≤ l' := by
  induction seen with
  | nil => intro q l; left; exact ⟨rfl, by simp⟩
  | cons x seen ih =>
    intro q l
    obtain ⟨state, t⟩ := x
    unfold recurLoop
    by_cases hc : state ∉ ignore ∧ t > l
    · rw [if_pos hc]
      right
      rcases ih (some state) t with ⟨h1, h2⟩ | ⟨q', l', h1, h2, h3, h4, h5⟩
      · refine ⟨state, t, h1, by simp, hc.1, hc.2, ?_⟩
        intro e he hi
        rcases List.mem_cons.1 he with rfl | he
        · exact le_refl _
        · exact h2 e he hi
      · refine ⟨q', l', h1, List.mem_cons_of_mem _ h2, h3, by omega, ?_⟩
        intro e he hi
        rcases List.mem_cons.1 he with rfl | he
        · simp only; omega
        · exact h5 e he hi
    · rw [if_neg hc]
      rcases ih q l with ⟨h1, h2⟩ | ⟨q', l', h1, h2, h3, h4, h5⟩
      · left
        refine ⟨h1, ?_⟩
        intro e he hi
        rcases List.mem_cons.1 he with rfl | he
        · simp only at hi ⊢
          by_contra hlt
          exact hc ⟨hi, by omega⟩
        · exact h2 e he hi
      · right
        refine ⟨q', l', h1, List.mem_cons_of_mem _ h2, h3, h4, ?_⟩
        intro e he hi
        rcases List.mem_cons.1 he with rfl | he
        · simp only at hi ⊢
          by_contra hlt
          exact hc ⟨hi, by omega⟩
        · exact h5 e he hi

end Model.Status
