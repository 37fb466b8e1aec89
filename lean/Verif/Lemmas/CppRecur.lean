import Verif.Model.CppRecur
import Verif.Lemmas.CppSim
import Verif.Lemmas.Recur

/-!
# The linear recurrence detector of the C++ code
-/

namespace Model.Cpp
open Spec

theorem tape_inRange {t : Tape} {p : Int} : t.inRange p = true ↔ -t.start ≤ p ∧ p < t.cells.length - t.start := by
  unfold Tape.inRange
  rw [decide_eq_true_iff]
  omega

theorem tape_inRange_false {t : Tape} {p : Int} : t.inRange p = false ↔ p < -t.start ∨ t.cells.length - t.start ≤ p := by
  rw [← Bool.not_eq_true, tape_inRange]
  omega

theorem readAt_out {t : Tape} {p : Int} (h : t.inRange p = false) : t.readAt p = 0 := by
  rw [tape_inRange_false] at h
  unfold Tape.readAt
  rw [if_neg (by omega)]

/-- rounds to the right that are still inside of the vector -/
def toRight (t : Tape) (p : Int) : Nat := (t.cells.length - t.start - max (-t.start) p).toNat
/-- rounds to the left that are still inside of the vector -/
def toLeft (t : Tape) (p : Int) : Nat := (min (t.cells.length - t.start - 1) p + t.start + 1).toNat

theorem halfGo_right (t1 t2 : Tape) (off : Int) (fuel : Nat) : ∀ p : Int, toRight t1 p + toRight t2 (p + off) ≤ fuel →
    (∀ x, p ≤ x → t1.inRange x = false → t2.inRange (x + off) = false → ∀ y, x ≤ y → t1.inRange y = false ∧ t2.inRange (y + off) = false) →
    ∃ b, halfGo t1 t2 1 fuel p (p + off) = .ok b ∧ (b = true ↔ ∀ x, p ≤ x → t1.readAt x = t2.readAt (x + off)) := by
  induction fuel with
  | zero =>
    intro p hf hs
    unfold halfGo
    have h1 : t1.inRange p = false := by
      rw [tape_inRange_false]; unfold toRight at hf; omega
    have h2 : t2.inRange (p + off) = false := by
      rw [tape_inRange_false]; unfold toRight at hf; omega
    rw [h1, h2]
    refine ⟨true, rfl, fun _ x hx => ?_, fun _ => rfl⟩
    obtain ⟨a, b⟩ := hs p (le_refl _) h1 h2 x hx
    rw [readAt_out a, readAt_out b]
  | succ fuel ih =>
    intro p hf hs
    unfold halfGo
    by_cases hin : (t1.inRange p || t2.inRange (p + off)) = true
    · rw [if_pos hin]
      simp only
      by_cases hne : t1.readAt p ≠ t2.readAt (p + off)
      · rw [if_pos hne]
        exact ⟨false, rfl, by simp, fun h => absurd (h p (le_refl _)) hne⟩
      · rw [if_neg hne]
        obtain ⟨b, e, hb⟩ := ih (p + 1) (by
          rw [Bool.or_eq_true, tape_inRange, tape_inRange] at hin
          unfold toRight at *
          omega) (fun x hx => hs x (by omega))
        refine ⟨b, by rw [show p + off + 1 = p + 1 + off by omega]; exact e, hb.trans ⟨fun h x hx => ?_, fun h x hx => h x (by omega)⟩⟩
        by_cases hxp : x = p
        · rw [hxp]; exact not_not.1 hne
        · exact h x (by omega)
    · rw [if_neg hin]
      rw [Bool.not_eq_true, Bool.or_eq_false_iff] at hin
      refine ⟨true, rfl, fun _ x hx => ?_, fun _ => rfl⟩
      obtain ⟨a, b⟩ := hs p (le_refl _) hin.1 hin.2 x hx
      rw [readAt_out a, readAt_out b]

theorem halfGo_left (t1 t2 : Tape) (off : Int) (fuel : Nat) : ∀ p : Int, toLeft t1 p + toLeft t2 (p + off) ≤ fuel →
    (∀ x, x ≤ p → t1.inRange x = false → t2.inRange (x + off) = false → ∀ y, y ≤ x → t1.inRange y = false ∧ t2.inRange (y + off) = false) →
    ∃ b, halfGo t1 t2 (-1) fuel p (p + off) = .ok b ∧ (b = true ↔ ∀ x, x ≤ p → t1.readAt x = t2.readAt (x + off)) := by
  induction fuel with
  | zero =>
    intro p hf hs
    unfold halfGo
    have h1 : t1.inRange p = false := by
      rw [tape_inRange_false]; unfold toLeft at hf; omega
    have h2 : t2.inRange (p + off) = false := by
      rw [tape_inRange_false]; unfold toLeft at hf; omega
    rw [h1, h2]
    refine ⟨true, rfl, fun _ x hx => ?_, fun _ => rfl⟩
    obtain ⟨a, b⟩ := hs p (le_refl _) h1 h2 x hx
    rw [readAt_out a, readAt_out b]
  | succ fuel ih =>
    intro p hf hs
    unfold halfGo
    by_cases hin : (t1.inRange p || t2.inRange (p + off)) = true
    · rw [if_pos hin]
      simp only
      by_cases hne : t1.readAt p ≠ t2.readAt (p + off)
      · rw [if_pos hne]
        exact ⟨false, rfl, by simp, fun h => absurd (h p (le_refl _)) hne⟩
      · rw [if_neg hne]
        obtain ⟨b, e, hb⟩ := ih (p + -1) (by
          rw [Bool.or_eq_true, tape_inRange, tape_inRange] at hin
          unfold toLeft at *
          omega) (fun x hx => hs x (by omega))
        refine ⟨b, by rw [show p + off + -1 = p + -1 + off by omega]; exact e, hb.trans ⟨fun h x hx => ?_, fun h x hx => h x (by omega)⟩⟩
        by_cases hxp : x = p
        · rw [hxp]; exact not_not.1 hne
        · exact h x (by omega)
    · rw [if_neg hin]
      rw [Bool.not_eq_true, Bool.or_eq_false_iff] at hin
      refine ⟨true, rfl, fun _ x hx => ?_, fun _ => rfl⟩
      obtain ⟨a, b⟩ := hs p (le_refl _) hin.1 hin.2 x hx
      rw [readAt_out a, readAt_out b]

theorem sectionsGo_spec (t1 t2 : Tape) (k : Nat) : ∀ p : Int, sectionsGo t1 t2 k p = true ↔
    ∀ x, p ≤ x → x < p + k → t1.readAt x = t2.readAt x := by
  induction k with
  | zero => intro p; simp only [sectionsGo, true_iff]; intro x h1 h2; omega
  | succ k ih =>
    intro p
    unfold sectionsGo
    by_cases hne : t1.readAt p ≠ t2.readAt p
    · rw [if_pos hne]
      exact ⟨by simp, fun h => absurd (h p (le_refl _) (by omega)) hne⟩
    · rw [if_neg hne, ih]
      refine ⟨fun h x h1 h2 => ?_, fun h x h1 h2 => h x (by omega) (by omega)⟩
      by_cases hxp : x = p
      · rw [hxp]; exact not_not.1 hne
      · exact h x (by omega) (by omega)

/-- The comparison decides whether the cells that count agree.  The loop over a half tape ends only where both vectors have
come to their end, because the cell of the present head is inside of the second vector. -/
theorem lrCompare_spec {t1 t2 : Tape} {left right : Int} (v1 : t1.Valid) (v2 : t2.Valid) (hl : t2.inRange left = true)
    (hr : t2.inRange right = true) (a1 : left ≤ t1.position) (a2 : t1.position ≤ right) (b1 : left ≤ t2.position) (b2 : t2.position ≤ right) :
    ∃ b, lrCompare t1 t2 t1.position left right = .ok b ∧
      (b = true ↔ ∀ x, CompareSet (t2.position - t1.position) left right x → t1.readAt x = t2.readAt (x + (t2.position - t1.position))) := by
  obtain ⟨u1, u2⟩ := v1
  obtain ⟨w1, w2⟩ := v2
  rw [tape_inRange] at hl hr
  unfold lrCompare CompareSet halfEqual
  have e1 : t1.position = t1.index - t1.start := rfl
  have e2 : t2.position = t2.index - t2.start := rfl
  generalize hoff : t2.position - t1.position = off
  simp only
  by_cases h1 : off > 0
  · simp only [if_pos h1]
    refine halfGo_right t1 t2 off _ left ?_ ?_
    · unfold toRight; omega
    · intro x hx o1 o2 y hy
      rw [tape_inRange_false] at o1 o2 ⊢
      rw [tape_inRange_false]
      omega
  · simp only [if_neg h1]
    by_cases h2 : off < 0
    · simp only [if_pos h2]
      refine halfGo_left t1 t2 off _ right ?_ ?_
      · unfold toLeft; omega
      · intro x hx o1 o2 y hy
        rw [tape_inRange_false] at o1 o2 ⊢
        rw [tape_inRange_false]
        omega
    · simp only [if_neg h2]
      have h0 : off = 0 := by omega
      refine ⟨_, rfl, ?_⟩
      unfold sectionsEqual
      rw [sectionsGo_spec]
      refine ⟨fun h x hx => ?_, fun h x hx hx' => ?_⟩
      · rw [h0, Int.add_zero]; exact h x hx.1 (by omega)
      · have := h x ⟨hx, by omega⟩
        rwa [h0, Int.add_zero] at this

/-! ### The tape only grows -/

theorem write_range {t t' : Tape} {a : Nat} (h : t.write a = .ok t') : t'.start = t.start ∧ t'.cells.length = t.cells.length := by
  unfold Tape.write at h
  split at h
  · obtain rfl := Out.ok.inj h; simp
  · cases h

theorem move_range (t : Tape) (d : Int) {p : Int} (h : t.inRange p = true) : (t.move d).inRange p = true := by
  rw [tape_inRange] at *
  unfold Tape.move
  simp only
  split
  · simp only [List.length_append, List.length_replicate, unitSize]; omega
  · split
    · simp only [List.length_append, List.length_replicate, unitSize]; omega
    · exact h

theorem stepSafe_range {tm : TM} {s s' : Sim} (h : stepSafe tm s = .ok s') {p : Int} (hp : s.tape.inRange p = true) :
    s'.tape.inRange p = true := by
  unfold stepSafe at h
  obtain ⟨a, -, h⟩ := bind_ok h
  obtain ⟨t, -, h⟩ := bind_ok h
  obtain ⟨tape, e, h⟩ := bind_ok h
  obtain rfl := Out.ok.inj h
  obtain ⟨r1, r2⟩ := write_range e
  apply move_range
  rw [tape_inRange] at *
  rw [r1, r2]; exact hp

theorem valid_inRange {t : Tape} (h : t.Valid) : t.inRange t.position = true := by
  rw [tape_inRange]
  obtain ⟨h1, h2⟩ := h
  unfold Tape.position
  omega

/-! ### The loops -/

/-- the simulator has made `t` steps of the machine -/
structure AtStep (tm : TM) (t : Nat) (s : Sim) : Prop where
  rel : Rel s (run tm.table t init)
  num : s.stepNum = t
  last : 0 < t → LastCell s (run tm.table (t - 1) init)

theorem atStep_step {tm : TM} {n m : Nat} (hs : tm.Shaped n m) (hn : 0 < n) (hm : 0 < m) {t : Nat} {s : Sim} (h : AtStep tm t s)
    (hrun : (run tm.table t init).state ≠ none) :
    ∃ s', step tm s = .ok s' ∧ AtStep tm (t + 1) s' ∧ ∀ p, s.tape.inRange p = true → s'.tape.inRange p = true := by
  obtain ⟨q, hq⟩ := Option.ne_none_iff_exists'.1 hrun
  obtain ⟨s', e, r, hnum, l1, l2⟩ := stepSafe_spec hs h.rel (inRange_run (shaped_fits hs) (inRange_init hn hm) t hrun) hq
  refine ⟨s', ?_, ⟨by rw [run_succ']; exact r, by rw [hnum, h.num], fun _ => ⟨q, hq, l1, l2⟩⟩, fun p hp => stepSafe_range e hp⟩
  unfold step
  rw [if_neg (fun hh => hrun ((rel_halted h.rel).1 hh))]
  exact e

/-- what the detector returns for a machine that halts -/
def haltResult (s : Sim) (ref t : Nat) : LinRecur := ⟨true, false, 0, 0, 0, s.lastState, s.lastSymbol, some ref, t⟩

/-- what it returns for a recurrence -/
def recurResult (M : Table) (t p : Nat) : LinRecur :=
  ⟨false, true, t, p, (run M (t + p) init).pos - (run M t init).pos, some 0, some 0, some t, t + p⟩

/-- the outcomes of the inner loop -/
inductive InnerSpec (tm : TM) (t0 total : Nat) : LrInner → Prop
  | halted (s : Sim) (t : Nat) : t0 ≤ t → t ≤ t0 + total → HaltsAt tm.table init t → AtStep tm t s →
      InnerSpec tm t0 total (.result (haltResult s t0 t))
  | found (p : Nat) : 0 < p → p ≤ total → PeriodicFrom tm.table init t0 p → (∀ i, 0 < i → i < p → ¬ PeriodicFrom tm.table init t0 i) →
      InnerSpec tm t0 total (.result (recurResult tm.table t0 p))
  | reset (s : Sim) : AtStep tm (t0 + total) s → (run tm.table (t0 + total) init).state ≠ none →
      (∀ i, 0 < i → i ≤ total → ¬ PeriodicFrom tm.table init t0 i) → InnerSpec tm t0 total (.reset s)

theorem lrInner_spec {tm : TM} {n m : Nat} (hs : tm.Shaped n m) (hn : 0 < n) (hm : 0 < m) {t0 : Nat} {s0 : Sim} (h0 : AtStep tm t0 s0)
    (hrun0 : (run tm.table t0 init).state ≠ none) (k : Nat) : ∀ (j : Nat) (s : Sim) (left right : Int), AtStep tm (t0 + j) s →
      (run tm.table (t0 + j) init).state ≠ none →
      (∀ i ≤ j, left ≤ (run tm.table (t0 + i) init).pos ∧ (run tm.table (t0 + i) init).pos ≤ right) →
      (∃ i ≤ j, (run tm.table (t0 + i) init).pos = left) → (∃ i ≤ j, (run tm.table (t0 + i) init).pos = right) →
      s.tape.inRange left = true → s.tape.inRange right = true →
      (∀ i, 0 < i → i ≤ j → ¬ PeriodicFrom tm.table init t0 i) →
      ∃ r, lrInner tm s0 k s left right = .ok r ∧ InnerSpec tm t0 (j + k) r := by
  induction k with
  | zero =>
    intro j s left right hat hrun _ _ _ _ _ hnp
    exact ⟨.reset s, rfl, .reset s hat hrun hnp⟩
  | succ k ih =>
    intro j s left right hat hrun hbd hL hR rL rR hnp
    obtain ⟨s1, e1, hat1, grow⟩ := atStep_step hs hn hm hat hrun
    rw [Nat.add_assoc] at hat1
    unfold lrInner
    rw [e1, ok_bind]
    by_cases hh : s1.isHalted = true
    · rw [if_pos hh]
      refine ⟨_, rfl, ?_⟩
      have hnone := (rel_halted hat1.rel).1 hh
      have := InnerSpec.halted (tm := tm) (t0 := t0) (total := j + (k + 1)) s1 (t0 + (j + 1)) (by omega) (by omega)
        ⟨hnone, fun i hi hc => hrun (run_none_mono (m := i) (by omega) hc)⟩ hat1
      unfold haltResult at this
      rw [hat1.num, h0.num]
      exact this
    · rw [if_neg hh]
      have hrun1 : (run tm.table (t0 + (j + 1)) init).state ≠ none := fun hc => hh ((rel_halted hat1.rel).2 hc)
      have hpos1 : s1.tape.position = (run tm.table (t0 + (j + 1)) init).pos := hat1.rel.pos
      have rp := valid_inRange hat1.rel.valid
      have hbd' : ∀ i ≤ j + 1, min left s1.tape.position ≤ (run tm.table (t0 + i) init).pos ∧
          (run tm.table (t0 + i) init).pos ≤ max right s1.tape.position := by
        intro i hi
        rcases Nat.lt_or_ge j i with hlt | hge
        · obtain rfl : i = j + 1 := by omega
          rw [hpos1]; omega
        · have := hbd i hge; omega
      have hL' : ∃ i ≤ j + 1, (run tm.table (t0 + i) init).pos = min left s1.tape.position := by
        rcases Int.le_total left s1.tape.position with h | h
        · obtain ⟨i, hi, e⟩ := hL
          exact ⟨i, by omega, by rw [e]; omega⟩
        · exact ⟨j + 1, le_refl _, by rw [← hpos1]; omega⟩
      have hR' : ∃ i ≤ j + 1, (run tm.table (t0 + i) init).pos = max right s1.tape.position := by
        rcases Int.le_total right s1.tape.position with h | h
        · exact ⟨j + 1, le_refl _, by rw [← hpos1]; omega⟩
        · obtain ⟨i, hi, e⟩ := hR
          exact ⟨i, by omega, by rw [e]; omega⟩
      have rL' : s1.tape.inRange (min left s1.tape.position) = true := by
        rcases Int.le_total left s1.tape.position with h | h
        · rw [min_eq_left h]; exact grow _ rL
        · rw [min_eq_right h]; exact rp
      have rR' : s1.tape.inRange (max right s1.tape.position) = true := by
        rcases Int.le_total right s1.tape.position with h | h
        · rw [max_eq_right h]; exact rp
        · rw [max_eq_left h]; exact grow _ rR
      -- what the comparison means
      have hiff := periodic_iff (M := tm.table) (c := run tm.table t0 init) (p := j + 1) (by omega) hrun0
        (L := min left s1.tape.position) (R := max right s1.tape.position)
        (fun i hi => by rw [← run_add]; exact (hbd' i hi).1) (fun i hi => by rw [← run_add]; exact (hbd' i hi).2)
        (by obtain ⟨i, hi, e⟩ := hL'; exact ⟨i, hi, by rw [← run_add]; exact e⟩)
        (by obtain ⟨i, hi, e⟩ := hR'; exact ⟨i, hi, by rw [← run_add]; exact e⟩)
      rw [← periodicFrom_shift, ← run_add] at hiff
      have next : ¬ PeriodicFrom tm.table init t0 (j + 1) → ∃ r, lrInner tm s0 k s1 (min left s1.tape.position) (max right s1.tape.position) = .ok r ∧
          InnerSpec tm t0 (j + (k + 1)) r := by
        intro hno
        obtain ⟨r, e, hr⟩ := ih (j + 1) s1 _ _ hat1 hrun1 hbd' hL' hR' rL' rR' (fun i hi hi' => by
          by_cases hij : i = j + 1
          · rw [hij]; exact hno
          · exact hnp i hi (by omega))
        exact ⟨r, e, by rw [show j + (k + 1) = j + 1 + k by omega]; exact hr⟩
      by_cases hst : s1.state = s0.state
      · simp only [if_pos hst]
        have hst' : (run tm.table (t0 + (j + 1)) init).state = (run tm.table t0 init).state := by
          apply stNum_inj
          rw [← hat1.rel.state, ← h0.rel.state]; exact hst
        have z0 := hbd' 0 (by omega)
        have z1 := hbd' (j + 1) (le_refl _)
        obtain ⟨b, eb, hb⟩ := lrCompare_spec h0.rel.valid hat1.rel.valid rL' rR' (by rw [h0.rel.pos]; exact z0.1)
          (by rw [h0.rel.pos]; exact z0.2) (by rw [hpos1]; exact hpos1 ▸ z1.1) (by rw [hpos1]; exact hpos1 ▸ z1.2)
        rw [eb, ok_bind]
        have hb' : b = true ↔ PeriodicFrom tm.table init t0 (j + 1) := by
          rw [hb, hiff]
          simp only [h0.rel.tape, hat1.rel.tape, h0.rel.pos, hpos1]
          exact ⟨fun h => ⟨hst', h⟩, fun h => h.2⟩
        cases b with
        | true =>
          refine ⟨_, rfl, ?_⟩
          have := InnerSpec.found (tm := tm) (t0 := t0) (total := j + (k + 1)) (j + 1) (by omega) (by omega) (hb'.1 rfl)
            (fun i hi hi' => hnp i hi (by omega))
          unfold recurResult at this
          rw [hat1.num, h0.num, show t0 + (j + 1) - t0 = j + 1 by omega, h0.rel.pos, hpos1]
          exact this
        | false => exact next fun h => by have := hb'.2 h; cases this
      · simp only [if_neg hst]
        refine next fun h => hst ?_
        have := (hiff.1 h).1
        rw [hat1.rel.state, h0.rel.state, this]

/-- What the detector can answer for a machine that is looked at from step `t` on, when all smaller powers of two have
been tried. -/
inductive DetectSpec (M : Table) (maxSteps : Int) (r : LinRecur) : Prop
  | halted (e t : Nat) (q a : Nat) : 1 ≤ t → ((2 ^ e : Nat) : Int) < maxSteps → HaltsAt M init t → t ≤ 2 ^ (e + 1) →
      (run M (t - 1) init).state = some q → (run M (t - 1) init).scanned = a →
      r = ⟨true, false, 0, 0, 0, some (q : Int), some a, some (2 ^ e), t⟩ → DetectSpec M maxSteps r
  | found (e p : Nat) : ((2 ^ e : Nat) : Int) < maxSteps → 0 < p → p ≤ 2 ^ e → PeriodicFrom M init (2 ^ e) p →
      (∀ i, 0 < i → i < p → ¬ PeriodicFrom M init (2 ^ e) i) →
      (∀ e' < e, ∀ i, 0 < i → i ≤ 2 ^ e' → ¬ PeriodicFrom M init (2 ^ e') i) →
      r = recurResult M (2 ^ e) p → DetectSpec M maxSteps r
  | unknown (e : Nat) : maxSteps ≤ ((2 ^ e : Nat) : Int) → (0 < e → (run M (2 ^ e) init).state ≠ none) →
      (∀ e' < e, ((2 ^ e' : Nat) : Int) < maxSteps) →
      (∀ e' < e, ∀ i, 0 < i → i ≤ 2 ^ e' → ¬ PeriodicFrom M init (2 ^ e') i) →
      r = ⟨false, false, 0, 0, 0, some 0, some 0, if e = 0 then none else some (2 ^ (e - 1)), 2 ^ e⟩ → DetectSpec M maxSteps r

theorem lrOuter_spec {tm : TM} {n m : Nat} (hs : tm.Shaped n m) (hn : 0 < n) (hm : 0 < m) (maxSteps : Int) (fuel : Nat) :
    ∀ (e : Nat) (s : Sim), AtStep tm (2 ^ e) s → (0 < e → (run tm.table (2 ^ e) init).state ≠ none) → maxSteps.toNat ≤ fuel + e →
      (∀ e' < e, ((2 ^ e' : Nat) : Int) < maxSteps) →
      (∀ e' < e, ∀ i, 0 < i → i ≤ 2 ^ e' → ¬ PeriodicFrom tm.table init (2 ^ e') i) →
      ∃ r, lrOuter tm maxSteps fuel s (if e = 0 then none else some (2 ^ (e - 1))) = .ok r ∧ DetectSpec tm.table maxSteps r := by
  induction fuel with
  | zero =>
    intro e s hat hrun hf hlt hnp
    have hge : maxSteps ≤ ((2 ^ e : Nat) : Int) := by
      have : e < 2 ^ e := Nat.lt_two_pow_self
      omega
    unfold lrOuter
    rw [hat.num, if_neg (by omega)]
    exact ⟨_, rfl, .unknown e hge hrun hlt hnp rfl⟩
  | succ fuel ih =>
    intro e s hat hrun hf hlt hnp
    unfold lrOuter
    by_cases hin : (s.stepNum : Int) < maxSteps
    · rw [if_pos hin]
      rw [hat.num] at hin
      simp only
      have hpow : 0 < 2 ^ e := Nat.two_pow_pos e
      have hrounds : 2 * s.stepNum - s.stepNum = 2 ^ e := by rw [hat.num]; omega
      rw [hrounds]
      have hdouble : 2 ^ (e + 1) = 2 ^ e + 2 ^ e := by rw [Nat.pow_succ]; omega
      have finish : ∀ r, InnerSpec tm (2 ^ e) (2 ^ e) r → lrInner tm s (2 ^ e) s s.tape.position s.tape.position = .ok r →
          ∃ r', (lrInner tm s (2 ^ e) s s.tape.position s.tape.position >>= fun r => match r with
            | .result r => Out.ok r
            | .reset s' => lrOuter tm maxSteps fuel s' (some s.stepNum)) = .ok r' ∧ DetectSpec tm.table maxSteps r' := by
        intro r hr e1
        rw [e1, ok_bind]
        cases hr with
        | halted s1 t h1 h2 h3 h4 =>
          refine ⟨_, rfl, ?_⟩
          have ht : 1 ≤ t := by
            cases t with
            | zero => have := h3.1; simp [run, init] at this
            | succ t => omega
          obtain ⟨q, l1, l2, l3⟩ := h4.last (by omega)
          refine .halted e t q _ ht hin h3 (by omega) l1 rfl ?_
          unfold haltResult Config.scanned
          rw [l2, l3]
        | found p h1 h2 h3 h4 => exact ⟨_, rfl, .found e p hin h1 h2 h3 h4 hnp rfl⟩
        | reset s1 h1 h2 h3 =>
          have := ih (e + 1) s1 (by rw [hdouble]; exact h1) (fun _ => by rw [hdouble]; exact h2) (by omega)
            (fun e' he' => by
              by_cases h : e' = e
              · rw [h]; exact hin
              · exact hlt e' (by omega))
            (fun e' he' => by
              by_cases h : e' = e
              · rw [h]; exact h3
              · exact hnp e' (by omega))
          rw [if_neg (by omega), Nat.add_sub_cancel] at this
          simp only [hat.num]
          exact this
      by_cases hdead : (run tm.table (2 ^ e) init).state = none
      · -- halted in the very first step
        have he : e = 0 := by
          by_contra h
          exact hrun (by omega) hdead
        subst he
        have hh : s.isHalted = true := (rel_halted hat.rel).2 hdead
        refine finish (.result (haltResult s 1 1)) (.halted s 1 (by simp) (by simp) ?_ hat) ?_
        · exact ⟨hdead, fun i hi => by
            obtain rfl : i = 0 := by simpa using hi
            simp [run, init]⟩
        · show lrInner tm s (0 + 1) s s.tape.position s.tape.position = _
          unfold lrInner step
          rw [if_pos hh, ok_bind, if_pos hh, hat.num]
          rfl
      · obtain ⟨r, e1, hr⟩ := lrInner_spec hs hn hm hat hdead (2 ^ e) 0 s s.tape.position s.tape.position hat hdead
          (fun i hi => by
            obtain rfl : i = 0 := by omega
            rw [hat.rel.pos]; exact ⟨le_refl _, le_refl _⟩)
          ⟨0, le_refl _, hat.rel.pos.symm⟩ ⟨0, le_refl _, hat.rel.pos.symm⟩ (valid_inRange hat.rel.valid) (valid_inRange hat.rel.valid)
          (fun i h1 h2 => by omega)
        rw [Nat.zero_add] at hr
        exact finish r hr e1
    · rw [if_neg hin]
      rw [hat.num] at hin ⊢
      exact ⟨_, rfl, .unknown e (by omega) hrun hlt hnp rfl⟩

theorem lrDetect_spec {tm : TM} {n m : Nat} (hs : tm.Shaped n m) (hn : 0 < n) (hm : 0 < m) (maxSteps : Int) :
    ∃ r, lrDetect tm maxSteps = .ok r ∧ DetectSpec tm.table maxSteps r := by
  obtain ⟨s, e, hat, -⟩ := atStep_step hs hn hm (t := 0) (s := Sim.new) ⟨rel_new, rfl, fun h => by omega⟩ (by simp [run, init])
  unfold lrDetect
  rw [e, ok_bind]
  exact lrOuter_spec hs hn hm maxSteps maxSteps.toNat 0 s hat (fun h => by omega) (by omega) (fun e' he' => by omega) (fun e' he' => by omega)

end Model.Cpp
