import Verif.Spec.TM
import Verif.Spec.Tools
import Mathlib.Data.Fintype.BigOperators
import Mathlib.Algebra.BigOperators.Ring.Finset
import Mathlib.Algebra.Group.Action.Defs

/-!
# Lemmas for counting: completions of a partial table
-/

namespace Spec.Count
open Finset

variable {ι : Type} [Fintype ι] [DecidableEq ι] (G : Finset Instr) (R : ι → Instr)

/-- the undefined cells -/
def und : Finset ι := univ.filter fun c => R c = .undef

/-- the number of halting cells -/
def hc (T : ι → Instr) : Nat := (univ.filter fun c => (T c).halts = true).card

/-- fill with running transitions only -/
def fill0 : Finset (ι → Instr) := Fintype.piFinset fun c => if R c = .undef then G else {R c}

/-- fill with one halting transition, in cell `c0` -/
def fill1 (c0 : ι) : Finset (ι → Instr) :=
  Fintype.piFinset fun c => if c = c0 then {.halt 1 .R} else if R c = .undef then G else {R c}

theorem card_fill0 : (fill0 G R).card = G.card ^ (und R).card := by
  unfold fill0
  rw [Fintype.card_piFinset]
  have : ∀ c, (if R c = .undef then G else {R c}).card = if R c = .undef then G.card else 1 := by
    intro c; split <;> simp
  simp only [this]
  rw [← Finset.prod_filter, Finset.prod_const]
  rfl

theorem card_fill1 {c0 : ι} (h : c0 ∈ und R) : (fill1 G R c0).card = G.card ^ ((und R).card - 1) := by
  unfold fill1
  rw [Fintype.card_piFinset]
  have : ∀ c, (if c = c0 then {.halt 1 .R} else if R c = .undef then G else {R c}).card =
      if c ∈ (und R).erase c0 then G.card else 1 := by
    intro c
    by_cases h1 : c = c0
    · simp [h1]
    · by_cases h2 : R c = .undef <;> simp [h1, h2, und]
  simp only [this]
  rw [← Finset.prod_filter, Finset.prod_const, ← Finset.card_erase_of_mem h]
  congr 2
  ext c
  simp

/-- all machines that are counted -/
def compl (allow : Bool) : Finset (ι → Instr) :=
  (Fintype.piFinset fun c => if R c = .undef then insert (.halt 1 .R) G else {R c}).filter
    fun T => hc T = 1 ∨ allow = true ∧ hc T = 0

theorem mem_compl {allow : Bool} {T : ι → Instr} : T ∈ compl G R allow ↔
    (∀ c, R c = .undef → T c = .halt 1 .R ∨ T c ∈ G) ∧ (∀ c, R c ≠ .undef → T c = R c) ∧ (hc T = 1 ∨ allow = true ∧ hc T = 0) := by
  unfold compl
  rw [Finset.mem_filter, Fintype.mem_piFinset, ← and_assoc]
  apply and_congr_left'
  constructor
  · intro h
    refine ⟨fun c hc => ?_, fun c hc => ?_⟩
    · have := h c; rw [if_pos hc, Finset.mem_insert] at this; exact this
    · have := h c; rw [if_neg hc, Finset.mem_singleton] at this; exact this
  · rintro ⟨h1, h2⟩ c
    split
    · rename_i hc; rw [Finset.mem_insert]; exact h1 c hc
    · rename_i hc; rw [Finset.mem_singleton]; exact h2 c hc

variable {G R}

theorem mem_fill0 {T : ι → Instr} : T ∈ fill0 G R ↔ (∀ c, R c = .undef → T c ∈ G) ∧ ∀ c, R c ≠ .undef → T c = R c := by
  unfold fill0
  rw [Fintype.mem_piFinset]
  constructor
  · intro h
    refine ⟨fun c hc => ?_, fun c hc => ?_⟩
    · have := h c; rwa [if_pos hc] at this
    · have := h c; rwa [if_neg hc, Finset.mem_singleton] at this
  · rintro ⟨h1, h2⟩ c
    split
    · rename_i hc; exact h1 c hc
    · rename_i hc; rw [Finset.mem_singleton]; exact h2 c hc

theorem mem_fill1 {T : ι → Instr} {c0 : ι} (h0 : R c0 = .undef) : T ∈ fill1 G R c0 ↔
    T c0 = .halt 1 .R ∧ (∀ c, c ≠ c0 → R c = .undef → T c ∈ G) ∧ ∀ c, R c ≠ .undef → T c = R c := by
  unfold fill1
  rw [Fintype.mem_piFinset]
  constructor
  · intro h
    refine ⟨?_, fun c hc hu => ?_, fun c hu => ?_⟩
    · have := h c0; rwa [if_pos rfl, Finset.mem_singleton] at this
    · have := h c; rwa [if_neg hc, if_pos hu] at this
    · have := h c
      have hc : c ≠ c0 := fun e => hu (e ▸ h0)
      rwa [if_neg hc, if_neg hu, Finset.mem_singleton] at this
  · rintro ⟨h1, h2, h3⟩ c
    split
    · rename_i hc; rw [Finset.mem_singleton, hc]; exact h1
    · rename_i hc
      split
      · rename_i hu; exact h2 c hc hu
      · rename_i hu; rw [Finset.mem_singleton]; exact h3 c hu

/-- the halting cells that are new -/
def new (R T : ι → Instr) : Finset ι := univ.filter fun c => R c = .undef ∧ (T c).halts = true

theorem hc_eq {T : ι → Instr} (h : ∀ c, R c ≠ .undef → T c = R c) : hc T = hc R + (new R T).card := by
  unfold hc new
  rw [← Finset.card_union_of_disjoint]
  · congr 1
    ext c
    simp only [mem_filter, mem_univ, true_and, mem_union]
    by_cases hc : R c = .undef
    · simp [hc, Instr.halts]
    · simp [hc, h c hc]
  · rw [Finset.disjoint_left]
    intro c h1 h2
    simp only [mem_filter, mem_univ, true_and] at h1 h2
    rw [h2.1] at h1
    simp [Instr.halts] at h1

theorem card_compl (hG : ∀ i ∈ G, i.halts = false) (hR : hc R ≤ 1) (allow : Bool) :
    (compl G R allow).card = if hc R = 1 then G.card ^ (und R).card
      else (und R).card * G.card ^ ((und R).card - 1) + if allow = true then G.card ^ (und R).card else 0 := by
  have hnew0 : ∀ T : ι → Instr, (∀ c, R c = .undef → T c = .halt 1 .R ∨ T c ∈ G) →
      ((new R T).card = 0 ↔ ∀ c, R c = .undef → T c ∈ G) := by
    intro T h
    rw [Finset.card_eq_zero, Finset.eq_empty_iff_forall_notMem]
    constructor
    · intro hn c hc
      refine (h c hc).resolve_left fun e => hn c ?_
      simp only [new, mem_filter, mem_univ, true_and]
      exact ⟨hc, by rw [e]; rfl⟩
    · intro hn c hc
      simp only [new, mem_filter, mem_univ, true_and] at hc
      rw [hG _ (hn c hc.1)] at hc
      simp at hc
  have h0 : ∀ T : ι → Instr, T ∈ fill0 G R ↔ (∀ c, R c = .undef → T c = .halt 1 .R ∨ T c ∈ G) ∧
      (∀ c, R c ≠ .undef → T c = R c) ∧ (new R T).card = 0 := by
    intro T
    rw [mem_fill0]
    constructor
    · rintro ⟨h1, h2⟩
      exact ⟨fun c hc => Or.inr (h1 c hc), h2, (hnew0 T fun c hc => Or.inr (h1 c hc)).2 h1⟩
    · rintro ⟨h1, h2, h3⟩
      exact ⟨(hnew0 T h1).1 h3, h2⟩
  have h1 : ∀ T : ι → Instr, T ∈ (und R).biUnion (fill1 G R) ↔ (∀ c, R c = .undef → T c = .halt 1 .R ∨ T c ∈ G) ∧
      (∀ c, R c ≠ .undef → T c = R c) ∧ (new R T).card = 1 := by
    intro T
    rw [Finset.mem_biUnion]
    constructor
    · rintro ⟨c0, hu, hm⟩
      have hu : R c0 = .undef := by simpa [und] using hu
      obtain ⟨m1, m2, m3⟩ := (mem_fill1 hu).1 hm
      refine ⟨fun c hc => ?_, m3, ?_⟩
      · by_cases e : c = c0
        · exact Or.inl (e ▸ m1)
        · exact Or.inr (m2 c e hc)
      · rw [Finset.card_eq_one]
        refine ⟨c0, ?_⟩
        ext c
        simp only [new, mem_filter, mem_univ, true_and, mem_singleton]
        constructor
        · rintro ⟨a1, a2⟩
          by_contra e
          rw [hG _ (m2 c e a1)] at a2
          simp at a2
        · rintro rfl
          exact ⟨hu, by rw [m1]; rfl⟩
    · rintro ⟨m1, m2, m3⟩
      obtain ⟨c0, hc0⟩ := Finset.card_eq_one.1 m3
      have hmem : ∀ c, c ∈ new R T ↔ c = c0 := by intro c; rw [hc0, mem_singleton]
      simp only [new, mem_filter, mem_univ, true_and] at hmem
      have hu := ((hmem c0).2 rfl).1
      refine ⟨c0, by simp [und, hu], (mem_fill1 hu).2 ⟨?_, fun c hne hc => ?_, m2⟩⟩
      · refine (m1 c0 hu).resolve_right fun hg => ?_
        have := ((hmem c0).2 rfl).2
        rw [hG _ hg] at this
        simp at this
      · refine (m1 c hc).resolve_left fun e => hne ((hmem c).1 ⟨hc, by rw [e]; rfl⟩)
  have hcard1 : ((und R).biUnion (fill1 G R)).card = (und R).card * G.card ^ ((und R).card - 1) := by
    rw [Finset.card_biUnion]
    · rw [Finset.sum_congr rfl fun c hc => card_fill1 G R hc, Finset.sum_const, smul_eq_mul]
    · intro c hc c' hc' hne
      change Disjoint _ _
      rw [Finset.disjoint_left]
      intro T h2 h3
      have hu : R c = .undef := by simpa [und] using hc
      have hu' : R c' = .undef := by simpa [und] using hc'
      have := ((mem_fill1 hu').1 h3).2.1 c hne hu
      rw [((mem_fill1 hu).1 h2).1] at this
      have := hG _ this
      simp [Instr.halts] at this
  by_cases hr : hc R = 1
  · rw [if_pos hr, ← card_fill0]
    congr 1
    ext T
    rw [mem_compl, h0]
    apply and_congr_right
    intro _
    apply and_congr_right
    intro e
    rw [hc_eq e]
    omega
  · rw [if_neg hr, ← hcard1]
    have hr0 : hc R = 0 := by omega
    cases allow
    · simp only [Bool.false_eq_true, if_false, Nat.add_zero]
      congr 1
      ext T
      rw [mem_compl, h1]
      apply and_congr_right
      intro _
      apply and_congr_right
      intro e
      rw [hc_eq e, hr0]
      simp
    · simp only [if_true]
      rw [← card_fill0, ← Finset.card_union_of_disjoint]
      · congr 1
        ext T
        rw [mem_compl, Finset.mem_union, h0, h1, ← and_or_left, ← and_or_left]
        apply and_congr_right
        intro _
        apply and_congr_right
        intro e
        rw [hc_eq e, hr0]
        simp
      · rw [Finset.disjoint_left]
        intro T h2 h3
        have a := ((h1 T).1 h2).2.2
        have b := ((h0 T).1 h3).2.2
        omega

end Spec.Count
