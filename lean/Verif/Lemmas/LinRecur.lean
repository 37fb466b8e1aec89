import Verif.Lemmas.DirectSim
import Verif.Lemmas.Recur
import Verif.Model.LinRecur

/-! The loops of the recurrence detector. -/

namespace Model
open Spec (Table run init Config)

namespace DirectTape
theorem abs_out {α : Type} {t : DirectTape α} {p : Int} (h : p < t.posLeftmost ∨ t.posRightmost < p) :
    t.abs p = t.initSymbol := by
  unfold posLeftmost posRightmost index2pos at h
  unfold abs cell
  split
  · rename_i h0
    have : t.tape.length ≤ (p - t.position + t.index).toNat := by omega
    simp [List.getD, List.getElem?_eq_none this]
  · rfl
end DirectTape

namespace DirectSim

/-- A simulator object reached from the start. -/
structure Good (M : Table) (s : DirectSim) : Prop where
  sim : Sim s (run M s.stepNum init)
  range : ∀ j, j ≤ s.stepNum → s.tape.posLeftmost ≤ (run M j init).pos ∧
    (run M j init).pos ≤ s.tape.posRightmost
  halt : s.halted = true → Spec.HaltsAt M init s.stepNum ∧ ∃ q a,
    s.haltInfo = some (Spec.score (run M s.stepNum init), q, a) ∧
    (run M (s.stepNum - 1) init).state = some q ∧
    (run M (s.stepNum - 1) init).tape (run M (s.stepNum - 1) init).pos = a ∧ (M q a).next = none

theorem good_new (M : Table) : Good M new :=
  ⟨sim_new, fun j hj => by
      have : j = 0 := by simpa [new] using hj
      subst this
      simp [new, DirectTape.new, DirectTape.posLeftmost, DirectTape.posRightmost,
        DirectTape.index2pos, init],
    fun h => by cases h⟩

theorem good_step {M : Table} {s : DirectSim} (h : Good M s) :
    ∃ s', step M s = some s' ∧ Good M s' ∧ (s.halted = true → s' = s) ∧
      (s.halted = false → s'.stepNum = s.stepNum + 1) := by
  obtain ⟨s', e, hsim, hn, hl, hr, hsame, hinfo⟩ := sim_step (M := M) h.sim
  refine ⟨s', e, ?_, hsame, fun h0 => by rw [hn, h0]; rfl⟩
  cases hh : s.halted with
  | true => rw [hsame hh]; exact h
  | false =>
    rw [hh] at hn
    simp only [Bool.false_eq_true, if_false] at hn
    rw [← Spec.run_succ'] at hsim
    refine ⟨by rw [hn]; exact hsim, ?_, ?_⟩
    · intro j hj
      rw [hl, hr, hsim.pos]
      rcases Nat.lt_or_ge s.stepNum j with hlt | hge
      · have : j = s.stepNum + 1 := by omega
        subst this
        omega
      · have := h.range j hge
        omega
    · intro hh'
      have hrun : (run M s.stepNum init).state ≠ none := by
        have := h.sim.halted
        rw [hh] at this
        intro hc
        rw [hc] at this
        cases this
      obtain ⟨q, hq⟩ := Option.ne_none_iff_exists'.1 hrun
      have hnone : (run M (s.stepNum + 1) init).state = none := by
        have := hsim.halted
        rw [hh'] at this
        simpa using this.symm
      rw [hn]
      refine ⟨⟨hnone, fun m hm => Spec.run_some_mono (Nat.lt_succ_iff.1 hm) hrun⟩, q, _, ?_, hq, rfl, ?_⟩
      · rw [hinfo q hh hq hh', Spec.run_succ']
        simp
      · rw [Spec.run_succ', Spec.step_state hq] at hnone
        exact hnone

theorem Good.running {M : Table} {s : DirectSim} (h : Good M s) (hh : s.halted = false) :
    (run M s.stepNum init).state ≠ none := by
  have := h.sim.halted
  rw [hh] at this
  intro hc
  rw [hc] at this
  cases this

theorem seek_spec {M : Table} (target : Nat) :
    ∃ s, seek M target new = some s ∧ Good M s ∧
      ((∀ m, m ≤ target → (run M m init).state ≠ none) → s.stepNum = target ∧ s.halted = false) := by
  have key : ∀ k s, Good M s → k + s.stepNum = target → ∃ s', seek.go M target k s = some s' ∧ Good M s' ∧
      ((∀ m, m ≤ target → (run M m init).state ≠ none) → s'.stepNum = target ∧ s'.halted = false) := by
    intro k
    induction k with
    | zero =>
      intro s hs hk
      refine ⟨s, rfl, hs, fun hr => ⟨by omega, ?_⟩⟩
      have := hs.sim.halted
      obtain ⟨q, hq⟩ := Option.ne_none_iff_exists'.1 (hr s.stepNum (by omega))
      rw [hq] at this
      exact this
    | succ k ih =>
      intro s hs hk
      unfold seek.go
      cases hh : s.halted with
      | true =>
        refine ⟨s, by simp, hs, fun hr => ?_⟩
        have := hs.sim.halted
        obtain ⟨q, hq⟩ := Option.ne_none_iff_exists'.1 (hr s.stepNum (by omega))
        rw [hq, hh] at this
        cases this
      | false =>
        obtain ⟨s', e, hs', _, hn⟩ := good_step hs
        have hlt : s.stepNum < target := by omega
        simp only [Bool.not_false, hlt, decide_true, Bool.and_self, if_true, e, Option.bind_some]
        exact ih s' hs' (by rw [hn hh]; omega)
  exact key _ _ (good_new M) (by simp [new])

end DirectSim

namespace LinRecur
open DirectSim (Good)

theorem inRange_iff {t : DirectTape Nat} {p : Int} :
    inRange t p = true ↔ t.posLeftmost ≤ p ∧ p ≤ t.posRightmost := by
  simp [inRange]

theorem halfGo_spec (t1 t2 : DirectTape Nat) (d : Int) (K fuel : Nat) (hf : K ≤ fuel) (p1 p2 : Int)
    (hin : ∀ k : Nat, k < K → (inRange t1 (p1 + k * d) || inRange t2 (p2 + k * d)) = true)
    (hout : (inRange t1 (p1 + K * d) || inRange t2 (p2 + K * d)) = false) :
    ∃ b, halfGo t1 t2 d fuel p1 p2 = some b ∧
      (b = true ↔ ∀ k : Nat, k < K → t1.abs (p1 + k * d) = t2.abs (p2 + k * d)) := by
  induction K generalizing fuel p1 p2 with
  | zero =>
    refine ⟨true, ?_, by simp⟩
    unfold halfGo
    simp only [Nat.cast_zero, Int.zero_mul, Int.add_zero] at hout
    rw [hout]
    simp
  | succ K ih =>
    obtain ⟨fuel, rfl⟩ : ∃ f, fuel = f + 1 := ⟨fuel - 1, by omega⟩
    have h0 := hin 0 (by omega)
    simp only [Nat.cast_zero, Int.zero_mul, Int.add_zero] at h0
    have e : ∀ (p : Int) (k : Nat), p + d + k * d = p + ((k + 1 : Nat) : Int) * d := by
      intro p k; push_cast; rw [Int.add_mul]; omega
    unfold halfGo
    rw [if_pos h0]
    simp only [DirectTape.readPos_eq]
    by_cases hne : t1.abs p1 = t2.abs p2
    · rw [if_neg (by simpa using hne)]
      obtain ⟨b, hb, hiff⟩ := ih fuel (by omega) (p1 + d) (p2 + d)
        (fun k hk => by rw [e, e]; exact hin (k + 1) (by omega)) (by rw [e, e]; exact hout)
      refine ⟨b, hb, hiff.trans ?_⟩
      constructor
      · intro h k hk
        cases k with
        | zero => simpa using hne
        | succ k => rw [← e, ← e]; exact h k (by omega)
      · intro h k hk
        rw [e, e]; exact h (k + 1) (by omega)
    · rw [if_pos (by simpa using hne)]
      refine ⟨false, rfl, ⟨fun h => (by cases h), fun h => ?_⟩⟩
      exact absurd (by simpa using h 0 (by omega)) hne

theorem sectionsGo_spec (t1 t2 : DirectTape Nat) (off : Int) (K : Nat) (p : Int) :
    ∃ b, sectionsGo t1 t2 off K p = some b ∧
      (b = true ↔ ∀ k : Nat, k < K → t1.abs (p + k) = t2.abs (p + k + off)) := by
  induction K generalizing p with
  | zero => exact ⟨true, rfl, by simp⟩
  | succ K ih =>
    unfold sectionsGo
    simp only [DirectTape.readPos_eq]
    by_cases hne : t1.abs p = t2.abs (p + off)
    · rw [if_neg (by simpa using hne)]
      obtain ⟨b, hb, hiff⟩ := ih (p + 1)
      have e : ∀ k : Nat, p + 1 + (k : Int) = p + ((k + 1 : Nat) : Int) := by intro k; omega
      refine ⟨b, hb, hiff.trans ?_⟩
      constructor
      · intro h k hk
        cases k with
        | zero => simpa using hne
        | succ k => rw [← e]; exact h k (by omega)
      · intro h k hk
        rw [e]; exact h (k + 1) (by omega)
    · rw [if_pos (by simpa using hne)]
      refine ⟨false, rfl, ⟨fun h => (by cases h), fun h => ?_⟩⟩
      exact absurd (by simpa using h 0 (by omega)) hne

/-- The comparison decides agreement on the comparison set. -/
theorem compare_spec {t1 t2 : DirectTape Nat} {L R : Int} (b1 : t1.initSymbol = 0)
    (b2 : t2.initSymbol = 0) (w1 : t1.WF) (w2 : t2.WF) (hL : L ≤ t1.position) (hR : t1.position ≤ R)
    (hl : t2.posLeftmost ≤ L) (hr : R ≤ t2.posRightmost) :
    ∃ b, compare t1 t2 t1.position L R = some b ∧
      (b = true ↔ ∀ x, Spec.CompareSet (t2.position - t1.position) L R x →
        t1.abs x = t2.abs (x + (t2.position - t1.position))) := by
  have hw1 := DirectTape.wf_iff.1 w1
  have hw2 := DirectTape.wf_iff.1 w2
  unfold compare Spec.CompareSet
  generalize hoff : t2.position - t1.position = off
  by_cases h1 : off > 0
  · simp only [h1, if_true]
    unfold halfTapesEqual
    have h10 : (1 : Int) > 0 := by omega
    simp only [h10, if_true]
    obtain ⟨b, hb, hiff⟩ := halfGo_spec t1 t2 1
      (max (t1.posRightmost - L) (t2.posRightmost - (L + off)) + 1).toNat
      ((t1.posRightmost - L + 1).toNat + (t2.posRightmost - (L + off) + 1).toNat) (by omega)
      L (L + off)
      (by
        intro k hk
        rw [Bool.or_eq_true, inRange_iff, inRange_iff]
        omega)
      (by
        rw [Bool.or_eq_false_iff, ← Bool.not_eq_true, ← Bool.not_eq_true, inRange_iff, inRange_iff]
        omega)
    refine ⟨b, hb, hiff.trans ?_⟩
    constructor
    · intro h x hx
      by_cases hk : (x - L).toNat < (max (t1.posRightmost - L) (t2.posRightmost - (L + off)) + 1).toNat
      · have := h _ hk
        rw [show L + ((x - L).toNat : Int) * 1 = x by omega,
          show L + off + ((x - L).toNat : Int) * 1 = x + off by omega] at this
        exact this
      · rw [DirectTape.abs_out (Or.inr (by omega)), DirectTape.abs_out (Or.inr (by omega)), b1, b2]
    · intro h k hk
      have := h (L + k) (by omega)
      rw [show L + (k : Int) * 1 = L + k by omega, show L + off + (k : Int) * 1 = L + k + off by omega]
      exact this
  · simp only [h1, if_false]
    by_cases h2 : off < 0
    · simp only [h2, if_true]
      unfold halfTapesEqual
      have h10 : ¬ ((-1 : Int) > 0) := by omega
      simp only [h10, if_false]
      obtain ⟨b, hb, hiff⟩ := halfGo_spec t1 t2 (-1)
        (max (R - t1.posLeftmost) (R + off - t2.posLeftmost) + 1).toNat
        ((R - t1.posLeftmost + 1).toNat + (R + off - t2.posLeftmost + 1).toNat) (by omega)
        R (R + off)
        (by
          intro k hk
          rw [Bool.or_eq_true, inRange_iff, inRange_iff]
          omega)
        (by
          rw [Bool.or_eq_false_iff, ← Bool.not_eq_true, ← Bool.not_eq_true, inRange_iff, inRange_iff]
          omega)
      refine ⟨b, hb, hiff.trans ?_⟩
      constructor
      · intro h x hx
        by_cases hk : (R - x).toNat < (max (R - t1.posLeftmost) (R + off - t2.posLeftmost) + 1).toNat
        · have := h _ hk
          rw [show R + ((R - x).toNat : Int) * (-1) = x by omega,
            show R + off + ((R - x).toNat : Int) * (-1) = x + off by omega] at this
          exact this
        · rw [DirectTape.abs_out (Or.inl (by omega)), DirectTape.abs_out (Or.inl (by omega)), b1, b2]
      · intro h k hk
        have := h (R - k) (by omega)
        rw [show R + (k : Int) * (-1) = R - k by omega,
          show R + off + (k : Int) * (-1) = R - k + off by omega]
        exact this
    · simp only [h2, if_false]
      unfold sectionsEqual
      obtain ⟨b, hb, hiff⟩ := sectionsGo_spec t1 t2 off (R + 1 - L).toNat L
      refine ⟨b, hb, hiff.trans ?_⟩
      constructor
      · intro h x hx
        have := h (x - L).toNat (by omega)
        rw [show L + ((x - L).toNat : Int) = x by omega] at this
        exact this
      · intro h k hk
        exact h (L + k) (by omega)

/-- Comparison of the simulator at two times, in terms of the machine. -/
theorem compare_iff {M : Table} {s0 s1 : DirectSim} (g0 : Good M s0) (g1 : Good M s1)
    (h0 : s0.halted = false) (hlt : s0.stepNum < s1.stepNum) {L R : Int}
    (hst : s1.state = s0.state)
    (hL : ∀ j, s0.stepNum ≤ j → j ≤ s1.stepNum → L ≤ (run M j init).pos)
    (hR : ∀ j, s0.stepNum ≤ j → j ≤ s1.stepNum → (run M j init).pos ≤ R)
    (hL' : ∃ j, s0.stepNum ≤ j ∧ j ≤ s1.stepNum ∧ (run M j init).pos = L)
    (hR' : ∃ j, s0.stepNum ≤ j ∧ j ≤ s1.stepNum ∧ (run M j init).pos = R) :
    ∃ b, compare s0.tape s1.tape s0.tape.position L R = some b ∧
      (b = true ↔ Spec.PeriodicFrom M init s0.stepNum (s1.stepNum - s0.stepNum)) := by
  have hp0 := g0.sim.pos
  have hp1 := g1.sim.pos
  obtain ⟨b, hb, hiff⟩ := compare_spec (t1 := s0.tape) (t2 := s1.tape) (L := L) (R := R)
    g0.sim.blank g1.sim.blank g0.sim.wf g1.sim.wf
    (by rw [hp0]; exact hL _ (le_refl _) (by omega)) (by rw [hp0]; exact hR _ (le_refl _) (by omega))
    (by obtain ⟨j, _, hj, e⟩ := hL'; rw [← e]; exact (g1.range j hj).1)
    (by obtain ⟨j, _, hj, e⟩ := hR'; rw [← e]; exact (g1.range j hj).2)
  refine ⟨b, hb, hiff.trans ?_⟩
  have hrun : run M s1.stepNum init = run M (s1.stepNum - s0.stepNum) (run M s0.stepNum init) := by
    rw [← Spec.run_add]; congr 1; omega
  rw [Spec.periodicFrom_shift, Spec.periodic_iff (L := L) (R := R) (by omega) (g0.running h0)]
  · rw [g0.sim.tape, g1.sim.tape, hp0, hp1, hrun]
    have hst' : (run M (s1.stepNum - s0.stepNum) (run M s0.stepNum init)).state
        = (run M s0.stepNum init).state := by
      rw [← hrun, ← g0.sim.state, ← g1.sim.state, hst]
    constructor
    · intro h; exact ⟨hst', h⟩
    · rintro ⟨_, h⟩; exact h
  · intro j hj; rw [← Spec.run_add]; exact hL _ (by omega) (by omega)
  · intro j hj; rw [← Spec.run_add]; exact hR _ (by omega) (by omega)
  · obtain ⟨j, h1, h2, e⟩ := hL'
    refine ⟨j - s0.stepNum, by omega, ?_⟩
    rw [← Spec.run_add, ← e]; congr 2; omega
  · obtain ⟨j, h1, h2, e⟩ := hR'
    refine ⟨j - s0.stepNum, by omega, ?_⟩
    rw [← Spec.run_add, ← e]; congr 2; omega

/-- `states_last_seen` is right for the times before `t`. -/
structure SeenInv (M : Table) (t : Nat) (ls : List (Option Nat × Nat)) : Prop where
  nodup : Py.NodupKeys ls
  none : Py.dget ls none = none
  exact : ∀ q u, Py.dget ls (some q) = some u ↔ Spec.LastSeen M init t q u

theorem SeenInv.step {M : Table} {t q : Nat} {ls : List (Option Nat × Nat)} (h : SeenInv M t ls)
    (hq : (run M t init).state = some q) : SeenInv M (t + 1) (Py.dset ls (some q) t) := by
  refine ⟨Py.nodup_dset h.nodup _ _, by rw [Py.dget_dset]; simp [h.none], ?_⟩
  intro q' u
  rw [Py.dget_dset]
  by_cases hqq : q' = q
  · subst hqq
    simp only [if_true, Option.some.injEq]
    constructor
    · rintro rfl
      exact ⟨Nat.lt_succ_self _, hq, fun u h1 h2 => by omega⟩
    · rintro ⟨h1, h2, h3⟩
      by_contra hne
      exact h3 t (by omega) (Nat.lt_succ_self t) hq
  · have : ¬ (some q' = some q) := by simpa using hqq
    rw [if_neg this, h.exact]
    unfold Spec.LastSeen
    constructor
    · rintro ⟨h1, h2, h3⟩
      refine ⟨by omega, h2, fun u' h4 h5 => ?_⟩
      rcases Nat.lt_or_ge u' t with hlt | hge
      · exact h3 u' h4 hlt
      · have : u' = t := by omega
        subst this
        intro hv
        unfold Spec.VisitedAt at hv
        rw [hq] at hv
        exact hqq (by simpa using hv.symm)
    · rintro ⟨h1, h2, h3⟩
      have hut : u ≠ t := by
        rintro rfl
        unfold Spec.VisitedAt at h2
        rw [hq] at h2
        exact hqq (by simpa using h2.symm)
      exact ⟨by omega, h2, fun u' h4 h5 => h3 u' h4 (by omega)⟩

/-- Invariant of the inner loop started at step `s0`. -/
structure LoopInv (M : Table) (s0 : Nat) (st : Loop) : Prop where
  good : Good M st.sim
  running : st.sim.halted = false
  le : s0 ≤ st.sim.stepNum
  seen : SeenInv M st.sim.stepNum st.lastSeen
  used : ∀ q, some q ∈ st.used ↔ ∃ j, s0 ≤ j ∧ j < st.sim.stepNum ∧ Spec.VisitedAt M init q j
  left : ∀ j, s0 ≤ j → j ≤ st.sim.stepNum → st.mostLeft ≤ (run M j init).pos
  right : ∀ j, s0 ≤ j → j ≤ st.sim.stepNum → (run M j init).pos ≤ st.mostRight
  left' : ∃ j, s0 ≤ j ∧ j ≤ st.sim.stepNum ∧ (run M j init).pos = st.mostLeft
  right' : ∃ j, s0 ≤ j ∧ j ≤ st.sim.stepNum ∧ (run M j init).pos = st.mostRight

theorem inner_spec {M : Table} {s0 : DirectSim} (g0 : Good M s0) (h0 : s0.halted = false) {reset : Nat}
    (k : Nat) (st : Loop) (hinv : LoopInv M s0.stepNum st) (hk : k + st.sim.stepNum = reset)
    (hnp : ∀ i, 0 < i → s0.stepNum + i ≤ st.sim.stepNum → ¬ Spec.PeriodicFrom M init s0.stepNum i) :
    match inner M s0.tape.copy s0.tape.position s0.state reset k st with
    | .halted s => Good M s ∧ s.halted = true ∧ s.stepNum ≤ reset
    | .found st' off => LoopInv M s0.stepNum st' ∧ s0.stepNum < st'.sim.stepNum ∧
        off = (run M st'.sim.stepNum init).pos - (run M s0.stepNum init).pos ∧
        Spec.PeriodicFrom M init s0.stepNum (st'.sim.stepNum - s0.stepNum) ∧ st'.sim.stepNum ≤ reset ∧
        ∀ i, 0 < i → s0.stepNum + i < st'.sim.stepNum → ¬ Spec.PeriodicFrom M init s0.stepNum i
    | .reset st' => LoopInv M s0.stepNum st' ∧ st'.sim.stepNum = reset ∧
        ∀ i, 0 < i → s0.stepNum + i ≤ reset → ¬ Spec.PeriodicFrom M init s0.stepNum i
    | .raise => False := by
  induction k generalizing st with
  | zero => exact ⟨hinv, by omega, fun i hi hle => hnp i hi (by omega)⟩
  | succ k ih =>
    have hlt : st.sim.stepNum < reset := by omega
    obtain ⟨sim, e, hg, _, hn⟩ := DirectSim.good_step hinv.good
    have hn := hn hinv.running
    unfold inner
    simp only [hlt, if_true, e]
    cases hh : sim.halted with
    | true => simp only [if_true]; exact ⟨hg, hh, by omega⟩
    | false =>
      simp only [Bool.false_eq_true, if_false]
      obtain ⟨q, hq⟩ := Option.ne_none_iff_exists'.1 (hinv.good.running hinv.running)
      have hstq : st.sim.state = some q := by rw [hinv.good.sim.state, hq]
      have hpos : sim.tape.position = (run M (st.sim.stepNum + 1) init).pos := by
        rw [hg.sim.pos, hn]
      have hle := hinv.le
      -- the new loop state
      have hinv' : LoopInv M s0.stepNum
          { sim := sim, lastSeen := Py.dset st.lastSeen st.sim.state st.sim.stepNum
            used := Py.sadd st.used st.sim.state
            mostLeft := min st.mostLeft sim.tape.position
            mostRight := max st.mostRight sim.tape.position } := by
        refine ⟨hg, hh, by simp only; omega, ?_, ?_, ?_, ?_, ?_, ?_⟩
        · simp only; rw [hn, hstq]; exact hinv.seen.step hq
        · intro q'
          simp only
          rw [Py.mem_sadd, hinv.used, hn, hstq]
          constructor
          · rintro (h | ⟨j, h1, h2, h3⟩)
            · refine ⟨st.sim.stepNum, hle, by omega, ?_⟩
              unfold Spec.VisitedAt; rw [hq, h]
            · exact ⟨j, h1, by omega, h3⟩
          · rintro ⟨j, h1, h2, h3⟩
            rcases Nat.lt_or_ge j st.sim.stepNum with hlt | hge
            · exact Or.inr ⟨j, h1, hlt, h3⟩
            · have : j = st.sim.stepNum := by omega
              subst this
              unfold Spec.VisitedAt at h3
              rw [hq] at h3
              exact Or.inl h3.symm
        · intro j h1 h2
          simp only at h2 ⊢
          rw [hn] at h2
          rcases Nat.lt_or_ge st.sim.stepNum j with hlt | hge
          · have : j = st.sim.stepNum + 1 := by omega
            subst this; omega
          · have := hinv.left j h1 hge; omega
        · intro j h1 h2
          simp only at h2 ⊢
          rw [hn] at h2
          rcases Nat.lt_or_ge st.sim.stepNum j with hlt | hge
          · have : j = st.sim.stepNum + 1 := by omega
            subst this; omega
          · have := hinv.right j h1 hge; omega
        · simp only
          obtain ⟨j, h1, h2, h3⟩ := hinv.left'
          rcases Int.le_total st.mostLeft sim.tape.position with h | h
          · exact ⟨j, h1, by omega, by omega⟩
          · exact ⟨st.sim.stepNum + 1, by omega, by omega, by omega⟩
        · simp only
          obtain ⟨j, h1, h2, h3⟩ := hinv.right'
          rcases Int.le_total st.mostRight sim.tape.position with h | h
          · exact ⟨st.sim.stepNum + 1, by omega, by omega, by omega⟩
          · exact ⟨j, h1, by omega, by omega⟩
      -- no period so far, if the new one is none
      have hnext : ¬ Spec.PeriodicFrom M init s0.stepNum (sim.stepNum - s0.stepNum) →
          ∀ i, 0 < i → s0.stepNum + i ≤ sim.stepNum → ¬ Spec.PeriodicFrom M init s0.stepNum i := by
        intro hno i hi hle'
        by_cases hij : s0.stepNum + i = sim.stepNum
        · rw [show i = sim.stepNum - s0.stepNum by omega]; exact hno
        · exact hnp i hi (by omega)
      by_cases hst : sim.state = s0.state
      · rw [if_pos hst]
        obtain ⟨b, hb, hiff⟩ := compare_iff g0 hg h0 (by omega) hst hinv'.left hinv'.right
          hinv'.left' hinv'.right'
        simp only at hb
        rw [DirectTape.copy, hb]
        cases b with
        | true =>
          simp only
          exact ⟨hinv', by omega, by rw [hg.sim.pos, g0.sim.pos], hiff.1 rfl, by omega, fun i hi hlt' => hnp i hi (by omega)⟩
        | false => exact ih _ hinv' (by simp only; omega) (hnext fun h => by have := hiff.2 h; cases this)
      · rw [if_neg hst]
        refine ih _ hinv' (by simp only; omega) (hnext fun h => hst ?_)
        have := (h s0.stepNum (le_refl _)).2.1
        rw [show s0.stepNum + (sim.stepNum - s0.stepNum) = sim.stepNum by omega] at this
        rw [hg.sim.state, g0.sim.state, this]

theorem inner_halted {M : Table} {t : DirectTape Nat} {p : Int} {q : Option Nat} {reset k : Nat} {st : Loop}
    (hk : 0 < k) (hlt : st.sim.stepNum < reset) (hh : st.sim.halted = true)
    (e : DirectSim.step M st.sim = some st.sim) : inner M t p q reset k st = .halted st.sim := by
  obtain ⟨k, rfl⟩ : ∃ j, k = j + 1 := ⟨k - 1, by omega⟩
  unfold inner
  simp only [hlt, if_true, e, hh]

/-- What is known of an outcome. -/
def OutcomeSpec (M : Table) (maxSteps : Nat) : Outcome → Prop
  | .halting n info => Spec.HaltsAt M init n ∧ ∃ q a,
      info = some (Spec.score (run M n init), q, a) ∧
      (run M (n - 1) init).state = some q ∧
      (run M (n - 1) init).tape (run M (n - 1) init).pos = a ∧ (M q a).next = none
  | .recur s p off used quasi => 0 < p ∧ Spec.PeriodicFrom M init s p ∧
      off = (run M (s + p) init).pos - (run M s init).pos ∧
      (∀ q, some q ∈ used ↔ ∃ j, s ≤ j ∧ j < s + p ∧ Spec.VisitedAt M init q j) ∧
      ∃ ls, SeenInv M (s + p) ls ∧ quasi = quasihalt used ls
  | .unknown => maxSteps ≠ 0 ∧ (run M maxSteps init).state ≠ none
  | .raise => maxSteps = 1

theorem outer_spec {M : Table} {maxSteps : Nat} (fuel : Nat) (sim : DirectSim)
    (ls : List (Option Nat × Nat)) (reset : Option Nat) (hg : Good M sim) (h1 : 1 ≤ sim.stepNum)
    (hls : sim.halted = false → SeenInv M sim.stepNum ls)
    (hhalt : sim.halted = true → sim.stepNum = 1 ∧ reset = none)
    (hreset : (reset = none ∧ sim.stepNum = 1) ∨ reset = some sim.stepNum)
    (o : Outcome) (ho : outer M maxSteps fuel sim ls reset = some o) : OutcomeSpec M maxSteps o := by
  induction fuel generalizing sim ls reset with
  | zero => cases ho
  | succ fuel ih =>
    unfold outer at ho
    by_cases hc : maxSteps = 0 ∨ sim.stepNum < maxSteps
    · rw [if_pos hc] at ho
      cases hh : sim.halted with
      | true =>
        obtain ⟨hone, _⟩ := hhalt hh
        obtain ⟨s', e, _, hsame, _⟩ := DirectSim.good_step hg
        have := hsame hh
        subst this
        rw [inner_halted (by omega) (by simp only; omega) hh e] at ho
        simp only [Option.some.injEq] at ho
        subst ho
        exact hg.halt hh
      | false =>
        have hinner := inner_spec hg hh (reset := 2 * sim.stepNum) (2 * sim.stepNum - sim.stepNum)
          { sim := sim, lastSeen := ls, used := [], mostLeft := sim.tape.position
            mostRight := sim.tape.position }
          ⟨hg, hh, le_refl _, hls hh,
            fun q => ⟨fun h => (by cases h), fun ⟨j, a, b, _⟩ => absurd b (by simp only; omega)⟩,
            fun j a b => by
              simp only at b ⊢
              have : j = sim.stepNum := by omega
              subst this; rw [hg.sim.pos],
            fun j a b => by
              simp only at b ⊢
              have : j = sim.stepNum := by omega
              subst this; rw [hg.sim.pos],
            ⟨sim.stepNum, le_refl _, le_refl _, hg.sim.pos.symm⟩,
            ⟨sim.stepNum, le_refl _, le_refl _, hg.sim.pos.symm⟩⟩
          (by simp only; omega) (fun i hi hle => by simp only at hle; omega)
        generalize inner M sim.tape.copy sim.tape.position sim.state (2 * sim.stepNum)
          (2 * sim.stepNum - sim.stepNum)
          { sim := sim, lastSeen := ls, used := [], mostLeft := sim.tape.position
            mostRight := sim.tape.position } = out at ho hinner
        cases out with
        | halted s =>
          simp only [Option.some.injEq] at ho
          subst ho
          exact hinner.1.halt hinner.2.1
        | found st off =>
          simp only [Option.some.injEq] at ho
          subst ho
          obtain ⟨i1, i2, i3, i4, -⟩ := hinner
          have hsum : sim.stepNum + (st.sim.stepNum - sim.stepNum) = st.sim.stepNum := by omega
          refine ⟨by omega, i4, by rw [hsum]; exact i3, by rw [hsum]; exact i1.used, st.lastSeen, ?_, rfl⟩
          rw [hsum]; exact i1.seen
        | reset st =>
          simp only at ho hinner
          obtain ⟨i1, i2, -⟩ := hinner
          refine ih st.sim st.lastSeen _ i1.good (by omega) (fun _ => i1.seen) ?_ (Or.inr (by rw [i2])) ho
          intro hcontra
          rw [i1.running] at hcontra
          cases hcontra
        | raise => exact hinner.elim
    · rw [if_neg hc] at ho
      rcases hreset with ⟨hr, hone⟩ | hr
      · subst hr
        simp only [Option.some.injEq] at ho
        subst ho
        simp only [OutcomeSpec]
        omega
      · subst hr
        simp only [if_true, Option.some.injEq] at ho
        subst ho
        refine ⟨by omega, ?_⟩
        have hh : sim.halted = false := by
          cases hh : sim.halted with
          | false => rfl
          | true => have := (hhalt hh).2; cases this
        exact Spec.run_some_mono (by omega) (hg.running hh)

theorem seenInv_new (M : Table) : SeenInv M 1 [(DirectSim.new.state, DirectSim.new.stepNum)] := by
  refine ⟨by simp [Py.NodupKeys, DirectSim.new], rfl, ?_⟩
  intro q u
  have : Py.dget [(DirectSim.new.state, DirectSim.new.stepNum)] (some q)
      = if q = 0 then some 0 else none := by
    unfold Py.dget DirectSim.new
    by_cases hq : q = 0
    · subst hq; rfl
    · have : ¬ (0 = q) := fun h => hq h.symm
      simp [this, hq]
  rw [this]
  unfold Spec.LastSeen Spec.VisitedAt
  by_cases hq : q = 0
  · subst hq
    simp only [if_true, Option.some.injEq]
    constructor
    · rintro rfl; exact ⟨by omega, rfl, fun _ h1 h2 => by omega⟩
    · rintro ⟨h1, _⟩; omega
  · simp only [hq, if_false]
    constructor
    · intro h; cases h
    · rintro ⟨h1, h2, _⟩
      have : u = 0 := by omega
      subst this
      simp only [Spec.run_zero, init, Option.some.injEq] at h2
      exact absurd h2.symm hq

theorem detect_spec (M : Table) (maxSteps fuel : Nat) (o : Outcome)
    (ho : detect M maxSteps fuel = some o) : OutcomeSpec M maxSteps o := by
  unfold detect at ho
  obtain ⟨s', e, hg, _, hn⟩ := DirectSim.good_step (DirectSim.good_new M)
  rw [e] at ho
  have hn : s'.stepNum = 1 := hn rfl
  refine outer_spec fuel s' _ none hg (by omega) ?_ (fun _ => ⟨hn, rfl⟩) (Or.inl ⟨rfl, hn⟩) o ho
  intro _
  rw [hn]
  exact seenInv_new M

/-- With a limit on the number of steps the loop ends. -/
theorem outer_ends {M : Table} {maxSteps : Nat} (hm : maxSteps ≠ 0) (fuel : Nat) (sim : DirectSim)
    (ls : List (Option Nat × Nat)) (reset : Option Nat) (hg : Good M sim) (h1 : 1 ≤ sim.stepNum)
    (hls : sim.halted = false → SeenInv M sim.stepNum ls) (hf : maxSteps - sim.stepNum < fuel) :
    outer M maxSteps fuel sim ls reset ≠ none := by
  induction fuel generalizing sim ls reset with
  | zero => omega
  | succ fuel ih =>
    unfold outer
    by_cases hc : maxSteps = 0 ∨ sim.stepNum < maxSteps
    · rw [if_pos hc]
      cases hh : sim.halted with
      | true =>
        obtain ⟨s', e, _, hsame, _⟩ := DirectSim.good_step hg
        have := hsame hh
        subst this
        rw [inner_halted (by omega) (by simp only; omega) hh e]
        simp
      | false =>
        have hinner := inner_spec hg hh (reset := 2 * sim.stepNum) (2 * sim.stepNum - sim.stepNum)
          { sim := sim, lastSeen := ls, used := [], mostLeft := sim.tape.position
            mostRight := sim.tape.position }
          ⟨hg, hh, le_refl _, hls hh,
            fun q => ⟨fun h => (by cases h), fun ⟨j, a, b, _⟩ => absurd b (by simp only; omega)⟩,
            fun j a b => by
              simp only at b ⊢
              have : j = sim.stepNum := by omega
              subst this; rw [hg.sim.pos],
            fun j a b => by
              simp only at b ⊢
              have : j = sim.stepNum := by omega
              subst this; rw [hg.sim.pos],
            ⟨sim.stepNum, le_refl _, le_refl _, hg.sim.pos.symm⟩,
            ⟨sim.stepNum, le_refl _, le_refl _, hg.sim.pos.symm⟩⟩
          (by simp only; omega) (fun i hi hle => by simp only at hle; omega)
        generalize inner M sim.tape.copy sim.tape.position sim.state (2 * sim.stepNum)
          (2 * sim.stepNum - sim.stepNum)
          { sim := sim, lastSeen := ls, used := [], mostLeft := sim.tape.position
            mostRight := sim.tape.position } = out at hinner
        cases out with
        | halted s => simp
        | found st off => simp
        | reset st =>
          simp only at hinner ⊢
          obtain ⟨i1, i2, -⟩ := hinner
          exact ih st.sim st.lastSeen _ i1.good (by omega) (fun _ => i1.seen) (by omega)
        | raise => simp
    · rw [if_neg hc]
      cases reset with
      | none => simp
      | some r => simp only; split <;> simp

theorem detect_ends (M : Table) {maxSteps fuel : Nat} (hm : maxSteps ≠ 0) (hf : maxSteps ≤ fuel) :
    detect M maxSteps fuel ≠ none := by
  unfold detect
  obtain ⟨s', e, hg, _, hn⟩ := DirectSim.good_step (DirectSim.good_new M)
  rw [e]
  have hn : s'.stepNum = 1 := hn rfl
  refine outer_ends hm fuel s' _ none hg (by omega) ?_ (by omega)
  intro _
  rw [hn]
  exact seenInv_new M

/-- The state picked by `set_inf_recur`. -/
theorem quasihalt_spec (ignore : List (Option Nat)) (ls : List (Option Nat × Nat)) :
    (∀ r, quasihalt ignore ls = some r → ∃ e ∈ ls, r = (e.1, e.2 + 1) ∧ e.1 ∉ ignore ∧
      ∀ e' ∈ ls, e'.1 ∉ ignore → e'.2 ≤ e.2) ∧
    (quasihalt ignore ls = none → ∀ e ∈ ls, e.1 ∈ ignore) := by
  have key : ∀ (ls pre : List (Option Nat × Nat)) (acc : Option (Option Nat × Nat)),
      (∀ r, acc = some r → r ∈ pre ∧ r.1 ∉ ignore ∧ ∀ e' ∈ pre, e'.1 ∉ ignore → e'.2 ≤ r.2) →
      (acc = none → ∀ e ∈ pre, e.1 ∈ ignore) →
      (∀ r, ls.foldl (quasiStep ignore) acc = some r →
        r ∈ pre ++ ls ∧ r.1 ∉ ignore ∧ ∀ e' ∈ pre ++ ls, e'.1 ∉ ignore → e'.2 ≤ r.2) ∧
      (ls.foldl (quasiStep ignore) acc = none →
        ∀ e ∈ pre ++ ls, e.1 ∈ ignore) := by
    intro ls
    induction ls with
    | nil => intro pre acc h1 h2; rw [List.append_nil]; exact ⟨h1, h2⟩
    | cons x xs ih =>
      intro pre acc h1 h2
      have hstep := ih (pre ++ [x])
      simp only [List.append_assoc, List.singleton_append] at hstep
      rw [List.foldl_cons]
      apply hstep
      · intro r hr
        unfold quasiStep at hr
        by_cases hx : x.1 ∈ ignore
        · rw [if_pos hx] at hr
          obtain ⟨a, b, c⟩ := h1 r hr
          refine ⟨by simp [a], b, fun e' he' hi => ?_⟩
          rcases List.mem_append.1 he' with h | h
          · exact c e' h hi
          · rw [List.mem_singleton] at h; subst h; exact absurd hx hi
        · rw [if_neg hx] at hr
          cases acc with
          | none =>
            simp only [Option.some.injEq] at hr
            subst hr
            refine ⟨by simp, hx, fun e' he' hi => ?_⟩
            rcases List.mem_append.1 he' with h | h
            · exact absurd (h2 rfl e' h) hi
            · rw [List.mem_singleton] at h; rw [h]
          | some p =>
            obtain ⟨a, b, c⟩ := h1 p rfl
            simp only at hr
            by_cases hgt : x.2 > p.2
            · rw [if_pos hgt] at hr
              simp only [Option.some.injEq] at hr
              subst hr
              refine ⟨by simp, hx, fun e' he' hi => ?_⟩
              rcases List.mem_append.1 he' with h | h
              · have := c e' h hi; omega
              · rw [List.mem_singleton] at h; rw [h]
            · rw [if_neg hgt] at hr
              simp only [Option.some.injEq] at hr
              subst hr
              refine ⟨by simp [a], b, fun e' he' hi => ?_⟩
              rcases List.mem_append.1 he' with h | h
              · exact c e' h hi
              · rw [List.mem_singleton] at h; subst h; omega
      · intro hr
        unfold quasiStep at hr
        by_cases hx : x.1 ∈ ignore
        · rw [if_pos hx] at hr
          intro e he
          rcases List.mem_append.1 he with h | h
          · exact h2 hr e h
          · rw [List.mem_singleton] at h; subst h; exact hx
        · rw [if_neg hx] at hr
          cases acc with
          | none => cases hr
          | some p =>
            simp only at hr
            split at hr <;> cases hr
  have hk := key ls [] none (fun r h => by cases h) (fun _ e he => by cases he)
  simp only [List.nil_append] at hk
  unfold quasihalt
  constructor
  · intro r hr
    rw [Option.map_eq_some_iff] at hr
    obtain ⟨e, he, rfl⟩ := hr
    obtain ⟨a, b, c⟩ := hk.1 e he
    exact ⟨e, a, rfl, b, c⟩
  · intro h
    exact hk.2 (by simpa using h)

/-- the loop of `check_recur` -/
theorem periodLoop_spec {M : Table} (hnever : Spec.NeverHalts M init) (s0 k : Nat) (sim : DirectSim)
    (l r : Int) (hg : Good M sim) (hle : s0 ≤ sim.stepNum)
    (hl : ∀ j, s0 ≤ j → j ≤ sim.stepNum → l ≤ (run M j init).pos)
    (hr : ∀ j, s0 ≤ j → j ≤ sim.stepNum → (run M j init).pos ≤ r)
    (hl' : ∃ j, s0 ≤ j ∧ j ≤ sim.stepNum ∧ (run M j init).pos = l)
    (hr' : ∃ j, s0 ≤ j ∧ j ≤ sim.stepNum ∧ (run M j init).pos = r) :
    ∃ sim' l' r', periodLoop M k sim l r = some (sim', l', r') ∧ Good M sim' ∧
      sim'.stepNum = sim.stepNum + k ∧
      (∀ j, s0 ≤ j → j ≤ sim'.stepNum → l' ≤ (run M j init).pos) ∧
      (∀ j, s0 ≤ j → j ≤ sim'.stepNum → (run M j init).pos ≤ r') ∧
      (∃ j, s0 ≤ j ∧ j ≤ sim'.stepNum ∧ (run M j init).pos = l') ∧
      (∃ j, s0 ≤ j ∧ j ≤ sim'.stepNum ∧ (run M j init).pos = r') := by
  induction k generalizing sim l r with
  | zero => exact ⟨sim, l, r, rfl, hg, rfl, hl, hr, hl', hr'⟩
  | succ k ih =>
    obtain ⟨s', e, hg', _, hn⟩ := DirectSim.good_step hg
    have hh : sim.halted = false := by
      rw [hg.sim.halted]
      obtain ⟨q, hq⟩ := Option.ne_none_iff_exists'.1 (hnever sim.stepNum)
      rw [hq]; rfl
    have hn := hn hh
    have hpos : s'.tape.position = (run M (sim.stepNum + 1) init).pos := by rw [hg'.sim.pos, hn]
    obtain ⟨sim', l', r', h1, h2, h3, h4⟩ := ih s' (min l s'.tape.position) (max r s'.tape.position)
      hg' (by omega)
      (fun j a b => by
        rcases Nat.lt_or_ge sim.stepNum j with hlt | hge
        · have : j = sim.stepNum + 1 := by omega
          subst this; omega
        · have := hl j a hge; omega)
      (fun j a b => by
        rcases Nat.lt_or_ge sim.stepNum j with hlt | hge
        · have : j = sim.stepNum + 1 := by omega
          subst this; omega
        · have := hr j a hge; omega)
      (by
        obtain ⟨j, a, b, c⟩ := hl'
        rcases Int.le_total l s'.tape.position with h | h
        · exact ⟨j, a, by omega, by omega⟩
        · exact ⟨sim.stepNum + 1, by omega, by omega, by omega⟩)
      (by
        obtain ⟨j, a, b, c⟩ := hr'
        rcases Int.le_total r s'.tape.position with h | h
        · exact ⟨sim.stepNum + 1, by omega, by omega, by omega⟩
        · exact ⟨j, a, by omega, by omega⟩)
    refine ⟨sim', l', r', ?_, h2, by omega, h4⟩
    unfold periodLoop
    rw [e]
    exact h1

/-- On a machine that never halts `check_recur` decides periodicity of the history. -/
theorem checkRecur_spec {M : Table} (hnever : Spec.NeverHalts M init) (s p : Nat) (hp : 0 < p) :
    ∃ b, checkRecur M s p = some b ∧ (b = true ↔ Spec.PeriodicFrom M init s p) := by
  obtain ⟨sim, e, hg, hs⟩ := DirectSim.seek_spec (M := M) s
  obtain ⟨hs, hh⟩ := hs (fun m _ => hnever m)
  obtain ⟨sim', l, r, e', hg', hn, h1, h2, h3, h4⟩ := periodLoop_spec hnever sim.stepNum p sim
    sim.tape.position sim.tape.position hg (le_refl _)
    (fun j a b => by
      have : j = sim.stepNum := by omega
      subst this; rw [hg.sim.pos])
    (fun j a b => by
      have : j = sim.stepNum := by omega
      subst this; rw [hg.sim.pos])
    ⟨sim.stepNum, le_refl _, le_refl _, hg.sim.pos.symm⟩
    ⟨sim.stepNum, le_refl _, le_refl _, hg.sim.pos.symm⟩
  unfold checkRecur
  rw [e, Option.bind_some, e', Option.bind_some]
  simp only
  by_cases hst : sim'.state = sim.state
  · rw [if_pos hst]
    obtain ⟨b, hb, hiff⟩ := compare_iff hg hg' hh (by omega) hst h1 h2 h3 h4
    refine ⟨b, hb, hiff.trans ?_⟩
    rw [hs, show sim'.stepNum - s = p by omega]
  · rw [if_neg hst]
    refine ⟨false, rfl, ⟨fun h => (by cases h), fun h => ?_⟩⟩
    have := (h s (le_refl s)).2.1
    rw [← hs, ← hn, ← hg.sim.state, ← hg'.sim.state] at this
    exact absurd this hst

theorem searchGo_spec {M : Table} (hnever : Spec.NeverHalts M init) (p : Nat) (hp : 0 < p) (k : Nat)
    (low high : Int) (hlow : -1 ≤ low) (hlt : low < high) (hk : high - low ≤ k + 1)
    (hhigh : Spec.PeriodicFrom M init high.toNat p)
    (hlow' : 0 ≤ low → ¬ Spec.PeriodicFrom M init low.toNat p) :
    ∃ s : Nat, searchGo M p k low high = some (s : Int) ∧ Spec.PeriodicFrom M init s p ∧
      ∀ s', s' < s → ¬ Spec.PeriodicFrom M init s' p := by
  induction k generalizing low high with
  | zero =>
    refine ⟨high.toNat, ?_, hhigh, fun s' hs' h => ?_⟩
    · unfold searchGo; congr 1; omega
    · refine hlow' (by omega) (h.mono (by omega))
  | succ k ih =>
    unfold searchGo
    by_cases hgt : high - low > 1
    · rw [if_pos hgt]
      simp only
      obtain ⟨b, hb, hiff⟩ := checkRecur_spec hnever ((high + low) / 2).toNat p hp
      rw [hb]
      cases b with
      | true => exact ih _ _ hlow (by omega) (by omega) (hiff.1 rfl) hlow'
      | false =>
        refine ih _ _ (by omega) (by omega) (by omega) hhigh (fun _ h => ?_)
        have := hiff.2 h
        cases this
    · rw [if_neg hgt]
      refine ⟨high.toNat, by congr 1; omega, hhigh, fun s' hs' h => ?_⟩
      refine hlow' (by omega) (h.mono (by omega))

end LinRecur
end Model
