import Verif.Lemmas.LinRecur
import Verif.Props.Direct

/-! # C17, C18, C19: the linear recurrence detector

`fuel` is the number of rounds of Brent's algorithm the caller is prepared to wait for (`max_steps = 0`
means no limit in the code); every theorem holds for every value of it. -/

namespace Props
open Spec Model LinRecur

/-- The detector (with or without the search for the minimal start) finds the recurrence reported by
the first phase, at the same or an earlier start. -/
theorem filter_recur {M : Table} {maxSteps fuel : Nat} {findMin : Bool} {s p : Nat} {d : Int}
    {used : List (Option Nat)} {quasi : Option (Option Nat × Nat)}
    (h : filter M maxSteps findMin fuel = some (.recur s p d used quasi)) :
    ∃ s0, detect M maxSteps fuel = some (.recur s0 p d used quasi) ∧ s ≤ s0 ∧
      PeriodicFrom M init s p ∧
      (findMin = true → ∀ s', s' < s → ¬ PeriodicFrom M init s' p) := by
  unfold filter at h
  split at h
  · rename_i start period offset used' quasi' e
    have spec := detect_spec M maxSteps fuel _ e
    cases findMin with
    | false =>
      simp only [Bool.false_eq_true, if_false, Option.some.injEq, Outcome.recur.injEq] at h
      obtain ⟨rfl, rfl, rfl, rfl, rfl⟩ := h
      exact ⟨start, e, le_refl _, spec.2.1, fun h => by cases h⟩
    | true =>
      simp only [if_true] at h
      obtain ⟨s1, e1, hper, hmin⟩ := searchGo_spec spec.2.1.neverHalts period spec.1 (start + 1) (-1) start
        (by omega) (by omega) (by omega) (by simpa using spec.2.1) (by omega)
      rw [periodSearch, e1] at h
      simp only [Int.toNat_natCast, Option.some.injEq, Outcome.recur.injEq] at h
      obtain ⟨rfl, rfl, rfl, rfl, rfl⟩ := h
      refine ⟨start, e, ?_, hper, fun _ => hmin⟩
      by_contra hlt
      exact hmin start (by omega) spec.2.1
  · rename_i hne
    exact absurd h (hne _ _ _ _ _)

/-- **C17.** A reported recurrence with start `s`, period `p` and offset `d` is real: the period is
positive, and at every time `t ≥ s` the machine is running, reads the same symbol in the same state as
`p` steps later, and its head is then exactly `d` further.  So the machine never halts. -/
theorem C17_lin_recur_sound (M : Table) (maxSteps fuel : Nat) (findMin : Bool) (s p : Nat) (d : Int)
    (used : List (Option Nat)) (quasi : Option (Option Nat × Nat))
    (h : filter M maxSteps findMin fuel = some (.recur s p d used quasi)) :
    0 < p ∧ NeverHalts M init ∧
    ∀ t, s ≤ t → (run M (t + p) init).state = (run M t init).state ∧
      (run M (t + p) init).tape (run M (t + p) init).pos = (run M t init).tape (run M t init).pos ∧
      (run M (t + p) init).pos = (run M t init).pos + d := by
  obtain ⟨s0, e, hle, hper, _⟩ := filter_recur h
  have spec := detect_spec M maxSteps fuel _ e
  refine ⟨spec.1, hper.neverHalts, fun t ht => ⟨(hper t ht).2.1, (hper t ht).2.2, ?_⟩⟩
  have h1 := hper.pos ht
  have h2 := hper.pos hle
  rw [h1, spec.2.2.1]
  omega

/-- **C17, halting report.** If the detector reports halting, the machine halts at exactly the
reported step, with the reported number of non-blank cells, at the reported cell. -/
theorem C17_lin_recur_halting (M : Table) (maxSteps fuel : Nat) (findMin : Bool) (n : Nat)
    (info : Option (Nat × Nat × Nat))
    (h : filter M maxSteps findMin fuel = some (.halting n info)) :
    HaltsAt M init n ∧ ∃ q a, info = some (score (run M n init), q, a) ∧
      (run M (n - 1) init).state = some q ∧
      (run M (n - 1) init).tape (run M (n - 1) init).pos = a ∧ (M q a).next = none := by
  have h' : detect M maxSteps fuel = some (.halting n info) := by
    unfold filter at h
    split at h
    · split at h
      · split at h <;> cases h
      · cases h
    · exact h
  exact detect_spec M maxSteps fuel _ h'

/-- **C17.** With a limit on the number of steps the detector comes to an end. -/
theorem C17_lin_recur_ends (M : Table) (maxSteps fuel : Nat) (findMin : Bool) (hm : maxSteps ≠ 0) (hf : maxSteps ≤ fuel) :
    filter M maxSteps findMin fuel ≠ none := by
  have h := detect_ends M hm hf
  unfold filter
  split
  · split
    · split <;> simp
    · simp
  · exact h

/-- **C17, no crash.** The detector raises only for the step limit 1; and if it gives up, the machine
really ran for the whole step limit. -/
theorem C17_lin_recur_other (M : Table) (maxSteps fuel : Nat) (findMin : Bool) :
    (filter M maxSteps findMin fuel = some .raise → maxSteps = 1) ∧
    (filter M maxSteps findMin fuel = some .unknown →
      maxSteps ≠ 0 ∧ (run M maxSteps init).state ≠ none) := by
  constructor
  · intro h
    unfold filter at h
    split at h
    · rename_i start period offset used' quasi' e
      have spec := detect_spec M maxSteps fuel _ e
      split at h
      · obtain ⟨s1, e1, hper, hmin⟩ := searchGo_spec spec.2.1.neverHalts period spec.1 (start + 1) (-1)
          start (by omega) (by omega) (by omega) (by simpa using spec.2.1) (by omega)
        rw [periodSearch, e1] at h
        cases h
      · cases h
    · exact detect_spec M maxSteps fuel _ h
  · intro h
    have h' : detect M maxSteps fuel = some .unknown := by
      unfold filter at h
      split at h
      · split at h
        · split at h <;> cases h
        · cases h
      · exact h
    exact detect_spec M maxSteps fuel _ h'

/-- **C18.** With the search for the minimal start switched on, the reported start is the least time
from which the history (state, symbol read) of the machine is periodic with the reported period. -/
theorem C18_minimal_start (M : Table) (maxSteps fuel : Nat) (s p : Nat) (d : Int)
    (used : List (Option Nat)) (quasi : Option (Option Nat × Nat))
    (h : filter M maxSteps true fuel = some (.recur s p d used quasi)) :
    IsLeast {s | PeriodicFrom M init s p} s := by
  obtain ⟨s0, e, hle, hper, hmin⟩ := filter_recur h
  refine ⟨hper, fun s' hs' => ?_⟩
  by_contra hlt
  exact hmin rfl s' (by omega) hs'

/-- **C18, the check itself.** On a machine that never halts, the check of a start and a period never
raises and succeeds exactly if the history is periodic from that start with that period. -/
theorem C18_check_recur (M : Table) (hM : NeverHalts M init) (s p : Nat) (hp : 0 < p) :
    ∃ b, checkRecur M s p = some b ∧ (b = true ↔ PeriodicFrom M init s p) :=
  checkRecur_spec hM s p hp

theorem periodic_visits {M : Table} {s p : Nat} (h : PeriodicFrom M init s p) (q r k : Nat)
    (hr : s ≤ r) : VisitedAt M init q (r + k * p) ↔ VisitedAt M init q r := by
  unfold VisitedAt
  induction k with
  | zero => simp
  | succ k ih =>
    rw [show r + (k + 1) * p = (r + k * p) + p by rw [Nat.add_mul]; omega, (h _ (by omega)).2.1]
    exact ih

theorem visitedForever_iff {M : Table} {s p : Nat} (hp : 0 < p) (h : PeriodicFrom M init s p) (q : Nat) :
    VisitedForever M init q ↔ ∃ j, s ≤ j ∧ j < s + p ∧ VisitedAt M init q j := by
  constructor
  · intro hf
    obtain ⟨t, ht, hv⟩ := hf s
    refine ⟨s + (t - s) % p, by omega, by have := Nat.mod_lt (t - s) hp; omega, ?_⟩
    rw [← periodic_visits h q (s + (t - s) % p) ((t - s) / p) (by omega)]
    have := Nat.mod_add_div (t - s) p
    rw [Nat.mul_comm] at this
    rw [show s + (t - s) % p + (t - s) / p * p = t by omega]
    exact hv
  · rintro ⟨j, h1, _, hv⟩ t
    refine ⟨j + t * p, ?_, (periodic_visits h q j t h1).2 hv⟩
    have := Nat.le_mul_of_pos_right t hp
    omega

/-- **C19.** For a detected recurrence the states reported as used are exactly those visited
infinitely often.  If no quasihalt is reported, every state ever visited is visited infinitely often.
If a quasihalt of state `q` at time `n` is reported, `q` is visited at time `n - 1` and never again,
and every state visited at or after `n` is visited infinitely often. -/
theorem C19_quasihalt (M : Table) (maxSteps fuel : Nat) (findMin : Bool) (s p : Nat) (d : Int)
    (used : List (Option Nat)) (quasi : Option (Option Nat × Nat))
    (h : filter M maxSteps findMin fuel = some (.recur s p d used quasi)) :
    (∀ q, some q ∈ used ↔ VisitedForever M init q) ∧
    (quasi = none → ∀ q t, VisitedAt M init q t → VisitedForever M init q) ∧
    (∀ k n, quasi = some (k, n) → ∃ q, k = some q ∧ 0 < n ∧ VisitedAt M init q (n - 1) ∧
      (∀ t, n ≤ t → ¬ VisitedAt M init q t) ∧
      ∀ q' t, n ≤ t → VisitedAt M init q' t → VisitedForever M init q') := by
  obtain ⟨s0, e, -, -, -⟩ := filter_recur h
  obtain ⟨hp, hper, hoff, hused, ls, hls, rfl⟩ := detect_spec M maxSteps fuel _ e
  have hforever : ∀ q, some q ∈ used ↔ VisitedForever M init q := fun q =>
    (hused q).trans (visitedForever_iff hp hper q).symm
  -- a state that is visited late is visited forever
  have hlate : ∀ q t, s0 ≤ t → VisitedAt M init q t → VisitedForever M init q := by
    intro q t ht hv
    rw [visitedForever_iff hp hper]
    refine ⟨s0 + (t - s0) % p, by omega, by have := Nat.mod_lt (t - s0) hp; omega, ?_⟩
    rw [← periodic_visits hper q (s0 + (t - s0) % p) ((t - s0) / p) (by omega)]
    have := Nat.mod_add_div (t - s0) p
    rw [Nat.mul_comm] at this
    rw [show s0 + (t - s0) % p + (t - s0) / p * p = t by omega]
    exact hv
  -- a state visited before `s0 + p` has an entry at least as late
  have hentry : ∀ q t, t < s0 + p → VisitedAt M init q t →
      ∃ u, t ≤ u ∧ (some q, u) ∈ ls ∧ LastSeen M init (s0 + p) q u := by
    intro q t ht hv
    classical
    have hex : ∃ k, VisitedAt M init q (s0 + p - 1 - k) ∧ t ≤ s0 + p - 1 - k :=
      ⟨s0 + p - 1 - t, by rw [show s0 + p - 1 - (s0 + p - 1 - t) = t by omega]; exact ⟨hv, le_refl _⟩⟩
    have hspec := Nat.find_spec hex
    have hmin : ∀ j, j < Nat.find hex → ¬ _ := fun j hj => Nat.find_min hex hj
    generalize Nat.find hex = k at *
    have hl : LastSeen M init (s0 + p) q (s0 + p - 1 - k) := by
      refine ⟨by omega, hspec.1, fun t' h1 h2 hv' => ?_⟩
      exact hmin (s0 + p - 1 - t') (by omega)
        (by rw [show s0 + p - 1 - (s0 + p - 1 - t') = t' by omega]; exact ⟨hv', by omega⟩)
    exact ⟨_, hspec.2, (Py.mem_iff_dget hls.nodup _ _).2 ((hls.exact q _).2 hl), hl⟩
  obtain ⟨q1, q2⟩ := quasihalt_spec used ls
  refine ⟨hforever, ?_, ?_⟩
  · intro hnone q t hv
    rcases Nat.lt_or_ge t s0 with hlt | hge
    · obtain ⟨u, _, hmem, _⟩ := hentry q t (by omega) hv
      exact (hforever q).1 (q2 hnone _ hmem)
    · exact hlate q t hge hv
  · intro k n hkn
    obtain ⟨e, hmem, hr, hnot, hmax⟩ := q1 _ hkn
    obtain ⟨rfl, rfl⟩ := Prod.mk.inj hr
    have hd : Py.dget ls e.1 = some e.2 := (Py.mem_iff_dget hls.nodup _ _).1 hmem
    cases hk : e.1 with
    | none => rw [hk, hls.none] at hd; cases hd
    | some q =>
      rw [hk] at hd hnot
      have hlast := (hls.exact q _).1 hd
      have hnf : ¬ VisitedForever M init q := fun hf => hnot ((hforever q).2 hf)
      refine ⟨q, rfl, by omega, by simpa using hlast.2.1, ?_, ?_⟩
      · intro t ht hv
        rcases Nat.lt_or_ge t (s0 + p) with hlt | hge
        · exact hlast.2.2 t (by omega) hlt hv
        · exact hnf (hlate q t (by omega) hv)
      · intro q' t ht hv
        by_contra hnf'
        rcases Nat.lt_or_ge t s0 with hlt | hge
        · obtain ⟨u, hu, hmem', _⟩ := hentry q' t (by omega) hv
          have := hmax _ hmem' (fun hin => hnf' ((hforever q').1 hin))
          simp only at this
          omega
        · exact hnf' (hlate q' t hge hv)

/-- A recurrence with a quasihalt: state 0 is left for good, then `1 2` moves right forever. -/
def recurSample : Table := fun q a => match q, a with
  | 0, 0 => .go 1 .R 1
  | 1, 0 => .go 1 .L 2
  | 2, 1 => .go 0 .R 3
  | 3, 1 => .go 1 .R 1
  | _, _ => .undef

example : filter recurSample 100 true 10
    = some (.recur 1 3 1 [some 1, some 2, some 3] (some (some 0, 1))) := by decide +kernel

example : filter bb2 100 true 10 = some (.halting 6 (some (4, 1, 1))) := by decide +kernel

/-- the crash of C17_lin_recur_other is real -/
example : filter recurSample 1 true 10 = some .raise := by decide +kernel

end Props
