import Verif.Lemmas.Count3
import Mathlib.Algebra.BigOperators.Intervals
import Mathlib.Algebra.BigOperators.Ring.Finset

/-!
# Counting is conserved by the enumeration
-/

namespace Model.Tools
open Spec Spec.Count Model.IO Model.Permute

variable {m : SM} {n k s w : Nat} {P : Table}

theorem Table.fill_self (q a : Nat) (i : Instr) : Table.fill P q a i q a = i := by simp [Table.fill]

theorem Table.fill_ne {q a q' a' : Nat} (h : ¬ (q' = q ∧ a' = a)) (i : Instr) : Table.fill P q a i q' a' = P q' a' := if_neg h

theorem undCells_fill {q a : Nat} (hq : q < n) (ha : a < k) (hu : P q a = .undef) {i : Instr} (hi : i ≠ .undef) :
    undCells P n k = undCells (Table.fill P q a i) n k + 1 := by
  unfold undCells
  have e : (Finset.univ.filter fun x : Fin n × Fin k => P x.1 x.2 = .undef) =
      insert ((⟨q, hq⟩, ⟨a, ha⟩) : Fin n × Fin k) (Finset.univ.filter fun x : Fin n × Fin k => Table.fill P q a i x.1 x.2 = .undef) := by
    ext ⟨⟨q', hq'⟩, ⟨a', ha'⟩⟩
    simp only [Finset.mem_filter, Finset.mem_univ, true_and, Finset.mem_insert, Prod.mk.injEq, Fin.mk.injEq]
    by_cases h : q' = q ∧ a' = a
    · simp [h, hu]
    · rw [Table.fill_ne h]
      simp [h]
  rw [e, Finset.card_insert_of_notMem]
  rw [Finset.mem_filter]
  rintro ⟨-, h⟩
  rw [Table.fill_self] at h
  exact hi h

theorem hasHalt_fill_go {q a x p : Nat} {d : Dir} (h : ¬ HasHalt P n k) : ¬ HasHalt (Table.fill P q a (.go x d p)) n k := by
  rintro ⟨q', hq', a', ha', e⟩
  by_cases hc : q' = q ∧ a' = a
  · rw [hc.1, hc.2, Table.fill_self] at e
    simp [Instr.halts] at e
  · rw [Table.fill_ne hc] at e
    exact h ⟨q', hq', a', ha', e⟩

theorem hasHalt_fill_halt {q a x : Nat} {d : Dir} (hq : q < n) (ha : a < k) : HasHalt (Table.fill P q a (.halt x d)) n k :=
  ⟨q, hq, a, ha, by rw [Table.fill_self]; rfl⟩

theorem maxes_fill_halt {q a x : Nat} {d : Dir} (hm : Maxes P n k s w) (hu : P q a = .undef) :
    Maxes (Table.fill P q a (.halt x d)) n k s w := by
  have keep : ∀ {q' a' x' d' p'}, P q' a' = .go x' d' p' → Table.fill P q a (.halt x d) q' a' = .go x' d' p' := by
    intro q' a' x' d' p' e
    rw [Table.fill_ne, e]
    rintro ⟨rfl, rfl⟩
    rw [hu] at e
    cases e
  obtain ⟨q1, h1, a1, h2, x1, d1, e1⟩ := hm.st
  obtain ⟨q2, h3, a2, h4, d2, p2, e2⟩ := hm.sy
  refine ⟨fun q' hq' a' ha' x' d' p' e => ?_, ⟨q1, h1, a1, h2, x1, d1, keep e1⟩, ⟨q2, h3, a2, h4, d2, p2, keep e2⟩⟩
  by_cases hc : q' = q ∧ a' = a
  · rw [hc.1, hc.2, Table.fill_self] at e
    cases e
  · rw [Table.fill_ne hc] at e
    exact hm.le q' hq' a' ha' _ _ _ e

theorem maxes_fill_go {q a x p : Nat} {d : Dir} (hm : Maxes P n k s w) (hu : P q a = .undef) (hq : q < n) (ha : a < k) :
    Maxes (Table.fill P q a (.go x d p)) n k (max s p) (max w x) := by
  have keep : ∀ {q' a' x' d' p'}, P q' a' = .go x' d' p' → Table.fill P q a (.go x d p) q' a' = .go x' d' p' := by
    intro q' a' x' d' p' e
    rw [Table.fill_ne, e]
    rintro ⟨rfl, rfl⟩
    rw [hu] at e
    cases e
  obtain ⟨q1, h1, a1, h2, x1, d1, e1⟩ := hm.st
  obtain ⟨q2, h3, a2, h4, d2, p2, e2⟩ := hm.sy
  refine ⟨fun q' hq' a' ha' x' d' p' e => ?_, ?_, ?_⟩
  · by_cases hc : q' = q ∧ a' = a
    · rw [hc.1, hc.2, Table.fill_self] at e
      simp only [Instr.go.injEq] at e
      omega
    · rw [Table.fill_ne hc] at e
      have := hm.le q' hq' a' ha' _ _ _ e
      omega
  · rcases Nat.le_total s p with h | h
    · rw [max_eq_right h]
      exact ⟨q, hq, a, ha, x, d, Table.fill_self ..⟩
    · rw [max_eq_left h]
      exact ⟨q1, h1, a1, h2, x1, d1, keep e1⟩
  · rcases Nat.le_total w x with h | h
    · rw [max_eq_right h]
      exact ⟨q, hq, a, ha, d, p, Table.fill_self ..⟩
    · rw [max_eq_left h]
      exact ⟨q2, h3, a2, h4, d2, p2, keep e2⟩

/-- renaming: an old state, or the first new one -/
theorem sum_desc (h1 : 1 ≤ s) (h2 : s < n) :
    ∑ p ∈ Finset.range (min n (s + 2)), (n - 2).descFactorial (max s p - 1) = n * (n - 2).descFactorial (s - 1) := by
  have old : ∑ p ∈ Finset.range (s + 1), (n - 2).descFactorial (max s p - 1) = (s + 1) * (n - 2).descFactorial (s - 1) := by
    rw [Finset.sum_congr rfl (g := fun _ => (n - 2).descFactorial (s - 1)), Finset.sum_const, Finset.card_range, smul_eq_mul]
    intro p hp
    rw [Finset.mem_range] at hp
    rw [max_eq_left (by omega)]
  by_cases h : s + 1 = n
  · rw [min_eq_left (by omega), ← h, h, ← h]
    rw [← h] at old
    exact old
  · rw [min_eq_right (by omega), Finset.sum_range_succ, old, max_eq_right (by omega)]
    have : s + 1 - 1 = (s - 1) + 1 := by omega
    rw [this, Nat.descFactorial_succ]
    obtain ⟨r, rfl⟩ : ∃ r, n = s + 1 + r := ⟨n - (s + 1), by omega⟩
    have : s + 1 + r - 2 - (s - 1) = r := by omega
    rw [this]
    ring

theorem twoUndefined_iff : TwoUndefined P n k ↔ 2 ≤ undCells P n k := by
  rw [undCells_list, show (2 ≤ List.length _ ↔ 1 < List.length _) from Iff.rfl, one_lt_length ((nodup_pairs n k).filter _)]
  simp only [List.mem_filter, mem_pairs, decide_eq_true_eq]
  constructor
  · rintro ⟨q, a, q', a', h1, h2, h3, h4, hne, h5, h6⟩
    exact ⟨(q, a), ⟨⟨h1, h2⟩, h5⟩, (q', a'), ⟨⟨h3, h4⟩, h6⟩, hne⟩
  · rintro ⟨⟨q, a⟩, ⟨⟨h1, h2⟩, h5⟩, ⟨q', a'⟩, ⟨⟨h3, h4⟩, h6⟩, hne⟩
    exact ⟨q, a, q', a', h1, h2, h3, h4, hne, h5, h6⟩

/-- the transitions tried, in terms of the maxima -/
theorem allowedNext_iff (hm : Maxes P n k s w) (hh : ¬ HasHalt P n k) (h1 : 1 ≤ s) (h2 : 1 ≤ w) {x p : Nat} {d : Dir} :
    AllowedNext P n k x d p ↔ x < min k (w + 2) ∧ p < min n (s + 2) := by
  have go_of : ∀ {q a}, DefinedCell P n k q a → ∃ x d p, P q a = .go x d p := by
    rintro q a ⟨hq, ha, hd⟩
    cases e : P q a with
    | undef => exact absurd e hd
    | halt x d => exact absurd ⟨q, hq, a, ha, by rw [e]; rfl⟩ hh
    | go x d p => exact ⟨x, d, p, rfl⟩
  obtain ⟨q1, c1, a1, c2, x1, d1, e1⟩ := hm.st
  obtain ⟨q2, c3, a2, c4, d2, p2, e2⟩ := hm.sy
  constructor
  · rintro ⟨g1, g2, g3, g4, -⟩
    refine ⟨lt_min g1 ?_, lt_min g2 ?_⟩
    · rcases g3 with g3 | ⟨q, a, hc, g3⟩
      · omega
      · obtain ⟨x', d', p', e⟩ := go_of hc
        have := (hm.le q hc.1 a hc.2.1 _ _ _ e).2
        rw [e] at g3
        simp only [Instr.write] at g3
        omega
    · rcases g4 with g4 | ⟨q, a, s', hc, g4, g5⟩
      · omega
      · obtain ⟨x', d', p', e⟩ := go_of hc
        have := (hm.le q hc.1 a hc.2.1 _ _ _ e).1
        rw [e] at g4
        simp only [Instr.next, Option.some.injEq] at g4
        omega
  · rintro ⟨g1, g2⟩
    refine ⟨(lt_min_iff.1 g1).1, (lt_min_iff.1 g2).1, Or.inr ⟨q2, a2, ⟨c3, c4, by rw [e2]; simp⟩, ?_⟩,
      Or.inr ⟨q1, a1, s, ⟨c1, c2, by rw [e1]; simp⟩, by rw [e1]; rfl, ?_⟩, Or.inr ⟨q1, a1, c1, c2, by rw [e1]; simp⟩⟩
    · rw [e2]
      simp only [Instr.write]
      have := (lt_min_iff.1 g1).2
      omega
    · have := (lt_min_iff.1 g2).2
      omega

theorem pow_law (N d : Nat) (allow : Bool) :
    ((d + 1 : Nat) : Int) * (N : Int) ^ d + (if allow = true then (N : Int) ^ (d + 1) else 0) =
      (N : Int) ^ d + N * ((if d ≥ 1 then (d : Int) * N ^ (d - 1) else 0) + if allow = true then (N : Int) ^ d else 0) := by
  cases d with
  | zero => cases allow <;> simp
  | succ d =>
    rw [if_pos (show d + 1 ≥ 1 by omega)]
    simp only [Nat.add_sub_cancel]
    cases allow <;> simp <;> ring

theorem sum_map_eq {α : Type} [DecidableEq α] {l : List α} (hl : l.Nodup) {S : Finset α} (h : ∀ x, x ∈ l ↔ x ∈ S) (f : α → Int) :
    (l.map f).sum = ∑ x ∈ S, f x := by
  rw [← List.sum_toFinset f hl]
  congr 1
  ext x
  rw [List.mem_toFinset, h]

open Classical in
/-- the count of a machine that is stuck at an undefined cell is divided among the halting machine and the children -/
theorem count_local {e : TMEnum} (hw : e.tm.WF) (hd : e.tm.Moves) (h1 : e.tm.table 0 0 = .go 1 .R 1)
    (hh : ¬ HasHalt e.tm.table e.tm.nStates e.tm.nSyms) {q a : Nat} (hq : q < e.tm.nStates) (ha : a < e.tm.nSyms)
    (hu : e.tm.table q a = .undef) {cs : List TMEnum} (hc : e.enumChildren q a = some cs) :
    ∃ c c0 : Int, ∃ v : TMEnum → Int, count e.tm e.allowNoHalt = some c ∧
      count (e.tm.fill q a (.halt 1 .R)) e.allowNoHalt = some c0 ∧
      (∀ e' ∈ cs, count e'.tm e.allowNoHalt = some (v e')) ∧ c = c0 + (cs.map v).sum := by
  obtain ⟨s, w, hm⟩ := exists_maxes hw.states hw.syms ⟨_, _, _, h1⟩
  have hf := sane_fits_wf hw
  obtain ⟨b1, b3⟩ := hm.le 0 hw.states 0 hw.syms _ _ _ h1
  have b2 : s < e.tm.nStates := by
    obtain ⟨q1, c1, a1, c2, x1, d1, e1⟩ := hm.st
    have := hf q1 c1 a1 c2
    rw [e1] at this
    exact this.2
  have b4 : w < e.tm.nSyms := by
    obtain ⟨q1, c1, a1, c2, x1, d1, e1⟩ := hm.sy
    have := hf q1 c1 a1 c2
    rw [e1] at this
    exact this.1
  have hsane := hw.sane hd
  obtain ⟨g1, g2⟩ := fillCell_wf hw hd q a (i := .halt 1 .R)
    (show BTrans.WF _ _ _ by unfold BTrans.WF BTrans.ofInstr; exact ⟨by decide, by show ((1 : Nat) : Int) < _; omega, rfl⟩)
  have ud : undCells e.tm.table e.tm.nStates e.tm.nSyms = undCells (Table.fill e.tm.table q a (.halt 1 .R)) e.tm.nStates e.tm.nSyms + 1 :=
    undCells_fill hq ha hu (by simp)
  set D := undCells (Table.fill e.tm.table q a (.halt 1 .R)) e.tm.nStates e.tm.nSyms with hD
  set A := fun s => ((e.tm.nStates - 2).descFactorial (s - 1)) with hA
  set B := fun w => ((e.tm.nSyms - 2).descFactorial (w - 1)) with hB
  set M : Int := countMult e.tm.nStates e.tm.nSyms false e.allowNoHalt D with hM
  have c1 := count_eq hw hm b1 b3 e.allowNoHalt
  rw [decide_eq_false hh, ud] at c1
  have ht0 : (e.tm.fill q a (.halt 1 .R)).table = Table.fill e.tm.table q a (.halt 1 .R) := sm_fill_table hsane hq ha _
  have c2 := count_eq g1 (s := s) (w := w) (by rw [ht0]; exact maxes_fill_halt hm hu) b1 b3 e.allowNoHalt
  rw [decide_eq_true (by rw [ht0]; exact hasHalt_fill_halt hq ha), ht0] at c2
  change _ = some (((B w : Nat) : Int) * ((A s : Nat) : Int) * countMult e.tm.nStates e.tm.nSyms true e.allowNoHalt D) at c2
  change _ = some (((B w : Nat) : Int) * ((A s : Nat) : Int) * countMult e.tm.nStates e.tm.nSyms false e.allowNoHalt (D + 1)) at c1
  refine ⟨_, _, fun e' => (count e'.tm e.allowNoHalt).getD 0, c1, c2, ?_⟩
  obtain ⟨xs, hp, hmem, hc1, hc2⟩ := enumChildren_eq hsane hq ha
  have hnd : xs.Nodup := hp.imp (by
    rintro x y hxy rfl
    unfold TripleLt at hxy
    omega)
  have hmem' : ∀ x, x ∈ xs ↔ x ∈ Finset.range (min e.tm.nStates (s + 2)) ×ˢ Finset.range (min e.tm.nSyms (w + 2)) ×ˢ Finset.range 2 := by
    intro x
    rw [hmem, allowedNext_iff hm hh b1 b3]
    simp only [Finset.mem_product, Finset.mem_range]
    omega
  have hkid : ∀ x ∈ xs, count (e.tm.fill q a (tripleInstr x)) e.allowNoHalt = some (((B (max w x.2.1) : Nat) : Int) * ((A (max s x.1) : Nat) : Int) * M) := by
    intro x hx
    have hx' := hmem' x |>.1 hx
    simp only [Finset.mem_product, Finset.mem_range, lt_min_iff] at hx'
    obtain ⟨g3, g4⟩ := fillCell_wf hw hd q a (go_wf (n := e.tm.nStates) (k := e.tm.nSyms) (if x.2.2 = 0 then .L else .R) hx'.2.1.1 hx'.1.1)
    have ht : (e.tm.fill q a (tripleInstr x)).table = Table.fill e.tm.table q a (tripleInstr x) := sm_fill_table hsane hq ha _
    have c3 := count_eq g3 (s := max s x.1) (w := max w x.2.1) (by
      change Maxes (e.tm.fill q a (tripleInstr x)).table _ _ _ _
      rw [ht]; exact maxes_fill_go hm hu hq ha) (by omega) (by omega) e.allowNoHalt
    change count (e.tm.fill q a (tripleInstr x)) e.allowNoHalt = _ at c3
    rw [c3]
    change some (((B (max w x.2.1) : Nat) : Int) * ((A (max s x.1) : Nat) : Int) * countMult e.tm.nStates e.tm.nSyms
      (decide (HasHalt (e.tm.fill q a (tripleInstr x)).table e.tm.nStates e.tm.nSyms)) e.allowNoHalt
      (undCells (e.tm.fill q a (tripleInstr x)).table e.tm.nStates e.tm.nSyms)) = _
    rw [ht, decide_eq_false (show ¬ HasHalt (Table.fill e.tm.table q a (tripleInstr x)) _ _ from hasHalt_fill_go hh)]
    have : undCells (Table.fill e.tm.table q a (tripleInstr x)) e.tm.nStates e.tm.nSyms = D := by
      have := undCells_fill (i := tripleInstr x) hq ha hu (by simp [tripleInstr])
      omega
    rw [this]
  have law := pow_law (2 * e.tm.nStates * e.tm.nSyms) D e.allowNoHalt
  have hcm : countMult e.tm.nStates e.tm.nSyms false e.allowNoHalt (D + 1) =
      countMult e.tm.nStates e.tm.nSyms true e.allowNoHalt D + 2 * e.tm.nStates * e.tm.nSyms * M := by
    rw [hM]
    unfold countMult
    simp only [Bool.false_eq_true, if_false, if_true, Nat.add_sub_cancel]
    rw [if_pos (by omega : D + 1 ≥ 1)]
    push_cast at law ⊢
    exact law
  by_cases hal : e.allowNoHalt = true ∨ TwoUndefined e.tm.table e.tm.nStates e.tm.nSyms
  · rw [hc1 hal, Option.some.injEq] at hc
    subst hc
    refine ⟨?_, ?_⟩
    · intro e' he'
      obtain ⟨x, hx, rfl⟩ := List.mem_map.1 he'
      simp only [hkid x hx, Option.getD_some]
    · rw [List.map_map]
      have : (xs.map ((fun e' : TMEnum => (count e'.tm e.allowNoHalt).getD 0) ∘ fun x => { e with tm := e.tm.fill q a (tripleInstr x) })) =
          xs.map fun x => ((B (max w x.2.1) : Nat) : Int) * ((A (max s x.1) : Nat) : Int) * M := by
        apply List.map_congr_left
        intro x hx
        simp only [Function.comp, hkid x hx, Option.getD_some]
      rw [this, sum_map_eq hnd hmem', hcm]
      have hsum : ∑ x ∈ Finset.range (min e.tm.nStates (s + 2)) ×ˢ Finset.range (min e.tm.nSyms (w + 2)) ×ˢ Finset.range 2,
          ((B (max w x.2.1) : Nat) : Int) * ((A (max s x.1) : Nat) : Int) * M =
          (∑ p ∈ Finset.range (min e.tm.nStates (s + 2)), ((A (max s p) : Nat) : Int)) *
            (∑ x ∈ Finset.range (min e.tm.nSyms (w + 2)), ((B (max w x) : Nat) : Int)) * 2 * M := by
        rw [Finset.sum_product]
        simp only [Finset.sum_product, Finset.sum_const, Finset.card_range, Finset.sum_mul, Finset.mul_sum]
        rw [Finset.sum_comm]
        apply Finset.sum_congr rfl
        intro p _
        apply Finset.sum_congr rfl
        intro x _
        simp only [nsmul_eq_mul]
        push_cast
        ring
      rw [hsum, ← Nat.cast_sum, ← Nat.cast_sum, hA, hB, sum_desc b1 b2, sum_desc b3 b4]
      push_cast
      ring
  · rw [hc2 hal, Option.some.injEq] at hc
    subst hc
    refine ⟨by simp, ?_⟩
    push Not at hal
    have hD0 : D = 0 := by
      have h2 := hal.2
      rw [twoUndefined_iff] at h2
      omega
    have hM0 : M = 0 := by
      rw [hM, hD0]
      unfold countMult
      simp [hal.1]
    rw [hcm, hM0]
    simp

end Model.Tools
