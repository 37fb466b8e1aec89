import Verif.Spec.QuickSim
import Verif.Lemmas.Pipeline

/-! Lemmas about `Quick_Sim.py`. -/

namespace Model.QuickSim
open Spec Model.Status Model.Prover Model.BlockFinder Model.Pipeline

section
variable {T : Table} {σ S : Type} [DecidableEq σ] [DecidableEq S] {M : Machine σ S} {mean : DC σ S → DC Nat (Option Nat)}
  {Means : DC σ S → Config → Prop}

/-! ## What follows from `Tracks` -/

theorem tracks_safe (h : Stack T σ S M mean Means) {n : Nat} {s : SimSt σ S Nat} (ht : Tracks M n s) : s.op ≠ .raised := by
  obtain ⟨⟨TDen, hs, F⟩, hi, -⟩ := stack_ok h
  cases ht with
  | same m h1 h2 => rw [h1.op]; exact (after_ok F hi m).1.safe
  | proof m h1 => rw [h1]; simp

theorem tracks_exact (h : Stack T σ S M mean Means) {n : Nat} {s : SimSt σ S Nat} (ht : Tracks M n s) : Props.ExactSim T M mean s := by
  have hr := tracks_safe h ht
  cases ht with
  | same m h1 h2 =>
    have H := Props.stack_exact h m
    have hdc : s.dc M.initSym = (SimSt.after M m).dc M.initSym := by unfold SimSt.dc; rw [h1.tape, h1.st]
    have hnz : s.nonzeros natOps M = (SimSt.after M m).nonzeros natOps M := by unfold SimSt.nonzeros; rw [h1.tape, h1.st]
    refine ⟨hr, by rw [h1.dir, h1.tape]; exact H.dir, fun hh => ?_, fun hh => ?_⟩
    · rw [hdc, hnz, h1.steps]; exact H.running (by rw [← h1.op]; exact hh)
    · rw [hdc, hnz, h1.steps, h1.cell hh, h1.op]; exact H.halted (by rw [← h1.op]; exact hh)
  | proof m h1 h2 h3 h4 =>
    have H := Props.stack_exact h m
    refine ⟨hr, ?_, fun hh => ?_, fun hh => ?_⟩
    · have e1 := h3.dir
      have e2 := h3.tape
      simp only at e1 e2
      rw [e1, e2]; exact H.dir
    · rw [h1] at hh; rcases hh with hh | hh <;> cases hh
    · rw [h1] at hh; rcases hh with hh | hh <;> cases hh

theorem tracks_progress (h : Stack T σ S M mean Means) {n : Nat} {s : SimSt σ S Nat} (ht : Tracks M n s)
    (hop : s.op = .running) : n ≤ s.steps ∧ (run T s.steps init).state ≠ none := by
  obtain ⟨⟨TDen, hs, F⟩, hi, -⟩ := stack_ok h
  cases ht with
  | same m h1 h2 =>
    have h3 := (after_ok F hi m).2 (by rw [← h1.op]; exact hop)
    have := h2 hop
    have h4 := (after_ok F hi m).1.run (Or.inl (by rw [← h1.op]; exact hop))
    rw [h1.steps]
    exact ⟨by omega, (F.live _ _ h4).1⟩
  | proof m h1 => rw [hop] at h1; cases h1

theorem tracks_live (h : Stack T σ S M mean Means) {n : Nat} {s : SimSt σ S Nat} (ht : Tracks M n s)
    (hop : s.op = .running ∨ s.op = .gaveUp) : (run T s.steps init).state ≠ none := by
  obtain ⟨⟨TDen, hs, F⟩, hi, -⟩ := stack_ok h
  cases ht with
  | same m h1 h2 =>
    have h4 := (after_ok F hi m).1.run (by rw [← h1.op]; exact hop)
    rw [h1.steps]
    exact (F.live _ _ h4).1
  | proof m h1 => rw [h1] at hop; rcases hop with hop | hop <;> cases hop

theorem tracks_seen (h : Stack T σ S M mean Means) {n : Nat} {s : SimSt σ S Nat} (ht : Tracks M n s) (q u : Nat) :
    Py.dget s.seen q = some u ↔ LastSeen T init s.steps q u := by
  obtain ⟨⟨TDen, hs, F⟩, hi, -⟩ := stack_ok h
  obtain ⟨m, h1, h2⟩ : ∃ m, s.steps = (SimSt.after M m).steps ∧ ∀ q, Py.dget s.seen q = Py.dget (SimSt.after M m).seen q := by
    cases ht with
    | same m h1 h2 => exact ⟨m, h1.steps, h1.seen⟩
    | proof m h1 h2 h3 h4 => exact ⟨m, h3.steps, h3.seen⟩
  rw [h1, h2 q]; exact (after_ok F hi m).1.seen.2 q u

theorem tracks_inf (h : Stack T σ S M mean Means) {n : Nat} {s : SimSt σ S Nat} (ht : Tracks M n s) (hop : s.op = .infRepeat) :
    ∃ r, s.infReason = some r ∧ (r ≠ .macroStep ∨ FollowsInf T M Means → NeverHalts T init ∧
      ∀ q u, s.steps ≤ u → VisitedAt T init q u → q ∈ s.recur) ∧
      (r ≠ .macroStep → ∀ q, q ∈ s.recur → VisitedForever T init q) := by
  obtain ⟨⟨TDen, hs, F⟩, hi, -⟩ := stack_ok h
  cases ht with
  | same m h1 h2 =>
    rw [h1.reason, h1.recur, h1.steps]
    rcases (after_ok F hi m).1.inf (by rw [← h1.op]; exact hop) with h3 | h3
    · exact ⟨_, h3.1, fun _ => ⟨h3.2.1, fun q u => (h3.2.2 q).2 u⟩, fun _ q => (h3.2.2 q).1.2⟩
    · refine ⟨_, h3.1, fun hor => ?_, fun hne => absurd rfl hne⟩
      rcases hor with hor | hor
      · exact absurd rfl hor
      · exact h3.2 hor
  | proof m h1 h2 h3 h4 =>
    obtain ⟨h5, h6⟩ := loops_forever F (after_ok F hi m).1 h4
    have hst : s.steps = (SimSt.after M m).steps := h3.steps
    refine ⟨_, h2, fun _ => ⟨h5, fun q u hu => (h6 q).2 u (by rw [← hst]; exact hu)⟩, fun _ q => (h6 q).1.2⟩

omit [DecidableEq σ] [DecidableEq S] in
/-- what is found out about quasihalting -/
theorem quasi_right {s : SimSt σ S Nat} {r : InfReason} {safe : Prop} (hkeys : Py.NodupKeys s.seen)
    (hseen : ∀ q u, Py.dget s.seen q = some u ↔ LastSeen T init s.steps q u)
    (h1 : r ≠ .macroStep ∨ safe → ∀ q u, s.steps ≤ u → VisitedAt T init q u → q ∈ s.recur)
    (h2 : r ≠ .macroStep → ∀ q, q ∈ s.recur → VisitedForever T init q) {y : Option (Nat × Int)}
    (hy' : recurData (some s.recur) (some s.seen) = some y) :
    (r ≠ .macroStep → QuasiRight T y) ∧ (safe → LastRight T y) := by
  have hmem : ∀ q u, (q, u) ∈ s.seen ↔ LastSeen T init s.steps q u := fun q u => by
    rw [Py.mem_iff_dget hkeys]; exact hseen q u
  have hvis : ∀ q t, t < s.steps → VisitedAt T init q t → ∃ u, t ≤ u ∧ (q, u) ∈ s.seen := by
    intro q t ht hv
    obtain ⟨u, hu⟩ := lastSeen_exists ht hv
    refine ⟨u, ?_, (hmem q u).2 hu⟩
    by_contra hlt
    exact hu.2.2 t (by omega) ht hv
  unfold recurData at hy'
  simp only at hy'
  rcases recurLoop_spec s.recur (s.seen.map fun e => (e.1, (e.2 : Int))) none (-1) with
    ⟨e1, e2⟩ | ⟨q, l, e1, e2, e3, e4, e5⟩
  · rw [e1] at hy'
    cases hy'
    refine ⟨fun hm q t hv => ?_, fun _ => trivial⟩
    refine h2 hm q ?_
    by_contra hq
    rcases Nat.lt_or_ge t s.steps with ht | ht
    · obtain ⟨u, -, hu⟩ := hvis q t ht hv
      have := e2 (q, (u : Int)) (List.mem_map.2 ⟨_, hu, rfl⟩) hq
      simp only at this
      omega
    · exact hq (h1 (Or.inl hm) q t ht hv)
  · rw [e1] at hy'
    simp only [Option.some.injEq] at hy'
    subst hy'
    obtain ⟨⟨q0, u⟩, hu, hq0⟩ := List.mem_map.1 e2
    simp only [Prod.mk.injEq] at hq0
    obtain ⟨rfl, rfl⟩ := hq0
    have hls := (hmem q0 u).1 hu
    have hlast : (r ≠ .macroStep ∨ safe) → ∀ t, u + 1 ≤ t → ¬ VisitedAt T init q0 t := by
      intro hor t ht hv
      rcases Nat.lt_or_ge t s.steps with ht' | ht'
      · exact hls.2.2 t (by omega) ht' hv
      · exact e3 (h1 hor q0 t ht' hv)
    refine ⟨fun hm => ⟨u + 1, by simp, by omega, hls.2.1, hlast (Or.inl hm), fun q' t ht hv => ?_⟩,
      fun hs => ⟨u + 1, by simp, by omega, hls.2.1, hlast (Or.inr hs)⟩⟩
    refine h2 hm q' ?_
    by_contra hq'
    rcases Nat.lt_or_ge t s.steps with ht' | ht'
    · obtain ⟨v, hv1, hv2⟩ := hvis q' t ht' hv
      have := e5 (q', (v : Int)) (List.mem_map.2 ⟨_, hv2, rfl⟩) hq'
      simp only at this
      omega
    · exact hq' (h1 (Or.inl hm) q' t ht' hv)

/-! ## The steps of the simulator -/

/-- with the proof system, a step is a step of the simulator of C49 or a step without it -/
theorem step_cases (M : Machine σ S) (o : Options) (frozen : Bool) (p : PSim σ S) :
    step M o frozen p = p.step M o.rules ∨
    step M o frozen p = if p.sim.op ≠ .running then p else
      { p with sim := SimSt.macroStep natOps M { p.sim with loops := p.sim.loops + 1 } } := by
  unfold step PSim.step
  by_cases hop : p.sim.op ≠ .running
  · simp only [if_pos hop, true_or]
  simp only [if_neg hop]
  cases o.prover with
  | false => exact Or.inr rfl
  | true =>
    simp only [if_true]
    cases frozen with
    | false => exact Or.inl rfl
    | true =>
      unfold logAndApply Prover.logAndApply
      simp only [if_true]
      cases Py.dget p.prover.rules (strip natIsOne p.sim.st p.sim.tape) with
      | some r => exact Or.inl rfl
      | none => exact Or.inr rfl

theorem plain_inv {o : Opts} {n : Nat} {p : PSim σ S} (h : PInv M o n p) : PInv M o (n + 1)
    (if p.sim.op ≠ .running then p else
      { p with sim := SimSt.macroStep natOps M { p.sim with loops := p.sim.loops + 1 } }) := by
  by_cases hop : p.sim.op ≠ .running
  · rw [if_pos hop]
    exact ⟨h.keys, fun hr => absurd hr hop, h.tracks.imp (fun ht => tracks_mono ht hop) id⟩
  rw [if_neg hop]
  push Not at hop
  obtain ⟨hloops, hpr⟩ := h.run hop
  obtain ⟨m, hsame, hnm⟩ : ∃ m, SameSim (SimSt.after M m) p.sim ∧ n ≤ m := by
    rcases h.tracks with ht | ht
    · cases ht with
      | same m h1 h2 => exact ⟨m, h1, h2 hop⟩
      | proof m h1 => rw [hop] at h1; cases h1
    · rw [hop] at ht; cases ht.1
  have hmr : (SimSt.after M m).op = .running := by rw [← hsame.op]; exact hop
  rw [hloops]
  have hk := macroStep_keys M (s := { p.sim with loops := n + 1 }) h.keys
  refine ⟨hk.1, fun hr => ⟨hk.2, hpr.rules, fun key a l h1 h2 => Nat.lt_succ_of_lt (hpr.past key a l h1 h2)⟩,
    Or.inl (.same (m + 1) ?_ (fun _ => by omega))⟩
  rw [after_succ]
  unfold SimSt.step
  rw [if_neg (by rw [hmr]; simp)]
  exact macroStep_same M ⟨hsame.tape, hsame.st, hsame.dir, hsame.steps, hsame.op, hsame.seen, hsame.cell, hsame.reason, hsame.recur⟩

/-- what is known of the simulator after `n` loops -/
structure Good (M : Machine σ S) (o : Opts) (n : Nat) (p : PSim σ S) : Prop where
  inv : PInv M o n p
  ok : p.seenOk = true
  le : p.sim.loops ≤ n

theorem Good.tracks (h : Stack T σ S M mean Means) {o : Opts} (ho : o.maxReps ≠ 0) {n : Nat} {p : PSim σ S} (g : Good M o n p) :
    Tracks M n p.sim := by
  obtain ⟨-, -, ⟨ok, okS, hs, h1, h2⟩⟩ := stack_ok h
  rcases g.inv.tracks with ht | ⟨-, hz | hf⟩
  · exact ht
  · exact absurd hz ho
  · exact (hf ok okS hs h1 h2).elim

theorem good_init (M : Machine σ S) (o : Opts) : Good M o 0 (PSim.init M) := ⟨pinv_after M o 0, rfl, le_refl _⟩

theorem loops_step (o : Opts) {p : PSim σ S} (hk : Py.NodupKeys p.sim.seen) : (p.step M o).sim.loops ≤ p.sim.loops + 1 := by
  unfold PSim.step
  split
  · omega
  · simp only
    have := (macroStep_keys M (s := { p.sim with loops := p.sim.loops + 1 }) hk).2
    match Prover.logAndApply M o p.prover p.sim.st p.sim.tape p.sim.loops with
    | (pr, .raise) => exact le_refl _
    | (pr, .fail) => exact this.le
    | (pr, .ok (.inf states)) => exact le_refl _
    | (pr, .ok (.apply tape steps seen)) => exact le_refl _

/-- the record of last visits is never thrown away -/
theorem ok_step (h : Stack T σ S M mean Means) {o : Opts} (ho : o.maxReps ≠ 0) {n : Nat} {p : PSim σ S} (g : Good M o n p) :
    (p.step M o).seenOk = true := by
  have hsucc := tracks_seen h (Good.tracks h ho (n := n + 1) (p := { p.step M o with seenOk := true })
    ⟨⟨(pinv_step g.inv).keys, (pinv_step g.inv).run, (pinv_step g.inv).tracks⟩, rfl, (loops_step o g.inv.keys).trans (Nat.succ_le_succ g.le)⟩)
  have hcur := tracks_seen h (g.tracks h ho)
  obtain ⟨⟨TDen, hs, F⟩, hi, -⟩ := stack_ok h
  by_cases hop : p.sim.op = .running
  · obtain ⟨hl, hpo⟩ := g.inv.run hop
    obtain ⟨m, hsame, -⟩ : ∃ m, SameSim (SimSt.after M m) p.sim ∧ n ≤ m := by
      cases g.tracks h ho with
      | same m h1 h2 => exact ⟨m, h1, h2 hop⟩
      | proof m h1 => rw [hop] at h1; cases h1
    have hres := (logAndApply_ok (s := { p.sim with loops := p.sim.loops + 1 }) hpo hop (by
      show p.sim.dir = p.sim.tape.dir
      rw [hsame.dir, hsame.tape]; exact (after_wf M m).2) (by
      show p.sim.tape.WF M.initSym
      rw [hsame.tape]; exact (after_wf M m).1) o).2
    simp only at hres
    have ih := g.ok
    unfold PSim.step at hsucc ⊢
    rw [if_neg (by rw [hop]; simp)] at hsucc ⊢
    simp only at hsucc ⊢
    rw [hl] at hsucc hres ⊢
    generalize Prover.logAndApply M o p.prover p.sim.st p.sim.tape n = la at hsucc hres ⊢
    match la, hsucc, hres with
    | (pr, .raise), _, _ => exact ih
    | (pr, .fail), _, _ => exact ih
    | (pr, .ok (.inf states)), _, _ => exact ih
    | (pr, .ok (.apply tape steps seen)), hsucc, hres =>
      obtain ⟨hk, k, hk1, hL⟩ := hres
      simp only [ih, Bool.true_and, Bool.not_eq_true']
      rw [List.isEmpty_eq_false_iff]
      rintro rfl
      have hs' : SameSim (SimSt.after M m) { p.sim with loops := n + 1 } :=
        ⟨hsame.tape, hsame.st, hsame.dir, hsame.steps, hsame.op, hsame.seen, hsame.cell, hsame.reason, hsame.recur⟩
      have h2 := steps_same M k hs'
      have h3 := iter_ok F (after_ok F hi m).1 k
      have h4 := (h3.2 (by rw [← h2.op]; exact hL.op)).2
      rw [← h2.steps, hL.steps, ← hsame.steps] at h4
      simp only at h4
      have h5 : (SimSt.step natOps M)^[k] (SimSt.after M m) = SimSt.after M (m + k) := after_add M m k
      have h6 : (run T (SimSt.after M (m + k)).steps init).state ≠ none := by
        have := (after_ok F hi (m + k)).1.run (Or.inl (by rw [← h5, ← h2.op]; exact hL.op))
        exact (F.live _ _ this).1
      have h7 : (SimSt.after M (m + k)).steps = p.sim.steps + steps := by
        rw [← h5, ← h2.steps]; exact hL.steps
      rw [h7] at h6
      have h8 := run_some_mono (show p.sim.steps + steps - 1 ≤ p.sim.steps + steps by omega) h6
      obtain ⟨q, hq⟩ := Option.ne_none_iff_exists'.1 h8
      have h9 : LastSeen T init (p.sim.steps + steps) q (p.sim.steps + steps - 1) :=
        ⟨by omega, hq, fun t h1 h2 => absurd h2 (by omega)⟩
      have h10 := (hsucc q _).2 h9
      have h11 := (hcur q _).1 h10
      have := h11.1
      omega
  · unfold PSim.step
    rw [if_pos hop]; exact g.ok

theorem good_step (h : Stack T σ S M mean Means) {o : Options} (ho : o.rules.maxReps ≠ 0) {n : Nat} {p : PSim σ S}
    (g : Good M o.rules n p) (frozen : Bool) : Good M o.rules (n + 1) (step M o frozen p) := by
  rcases step_cases M o frozen p with hc | hc
  · rw [hc]; exact ⟨pinv_step g.inv, ok_step h ho g, (loops_step _ g.inv.keys).trans (Nat.succ_le_succ g.le)⟩
  · rw [hc]
    refine ⟨plain_inv g.inv, ?_, ?_⟩
    · split <;> exact g.ok
    · have := (macroStep_keys M (s := { p.sim with loops := p.sim.loops + 1 }) g.inv.keys).2
      have hle := g.le
      split
      · omega
      · simp only at this ⊢; omega

/-! ## The loops -/

theorem quietLoop_spec (h : Stack T σ S M mean Means) (o : Options) (ho : o.rules.maxReps ≠ 0) (fuel : Nat) :
    ∀ n p, Good M o.rules n p → (o.maxLoops = 0 ∨ n ≤ o.maxLoops) →
      (quietLoop M o fuel n p = .unfinished ∧ ∃ p', Good M o.rules (n + fuel) p' ∧ p'.sim.op = .running) ∨
      ∃ m p', quietLoop M o fuel n p = .done p' ∧ Good M o.rules m p' ∧ (o.maxLoops = 0 ∨ m ≤ o.maxLoops) ∧
        (p'.sim.op = .running → o.maxLoops ≠ 0 ∧ m = o.maxLoops) := by
  induction fuel with
  | zero =>
    intro n p g hn
    unfold quietLoop
    split
    · rename_i hc
      exact Or.inl ⟨rfl, p, g, hc.1⟩
    · rename_i hc
      refine Or.inr ⟨n, p, rfl, g, hn, fun hr => ?_⟩
      push Not at hc
      have := hc hr
      omega
  | succ fuel ih =>
    intro n p g hn
    unfold quietLoop
    split
    · rename_i hc
      have g' := good_step h ho g false
      simp only
      rw [if_neg (tracks_safe h (g'.tracks h ho))]
      rw [show n + (fuel + 1) = n + 1 + fuel by omega]
      exact ih _ _ g' (by omega)
    · rename_i hc
      refine Or.inr ⟨n, p, rfl, g, hn, fun hr => ?_⟩
      push Not at hc
      have := hc hr
      omega

theorem loopSeek_spec (h : Stack T σ S M mean Means) (o : Options) (ho : o.rules.maxReps ≠ 0) (frozen : Bool) (fuel : Nat) :
    ∀ n p, Good M o.rules n p →
      ∃ m p', loopSeek M o frozen (n + fuel) fuel p = .done p' ∧ Good M o.rules m p' ∧ m ≤ n + fuel ∧
        (p'.sim.op = .running → m = n + fuel) := by
  induction fuel with
  | zero =>
    intro n p g
    refine ⟨n, p, ?_, g, by omega, fun _ => by omega⟩
    unfold loopSeek
    rw [if_neg]
    rintro ⟨h1, h2⟩
    have := (g.inv.run h2).1
    omega
  | succ fuel ih =>
    intro n p g
    unfold loopSeek
    split
    · have g' := good_step h ho g frozen
      simp only
      rw [if_neg (tracks_safe h (g'.tracks h ho))]
      rw [show n + (fuel + 1) = n + 1 + fuel by omega]
      exact ih _ _ g'
    · rename_i hc
      refine ⟨n, p, rfl, g, by omega, fun hr => ?_⟩
      have := (g.inv.run hr).1
      exact absurd ⟨by omega, hr⟩ hc

/-- the next loop count at which the loop with output looks at the limit -/
theorem printLoop_spec (h : Stack T σ S M mean Means) (o : Options) (ho : o.rules.maxReps ≠ 0)
    (hf : o.freeze = true → o.prover = true) (k : Nat) (fuel : Nat) :
    ∀ frozen i n p, Good M o.rules n p → n ≤ i * k → (p.sim.op = .running → n = i * k) →
      (o.maxLoops = 0 ∨ i * k < o.maxLoops + k) →
      (printLoop M o k fuel frozen (i * k) p = .unfinished ∧
        ∃ p', Good M o.rules ((i + fuel) * k) p' ∧ p'.sim.op = .running) ∨
      ∃ i' m p', printLoop M o k fuel frozen (i * k) p = .done p' ∧ Good M o.rules m p' ∧ m ≤ i' * k ∧
        (o.maxLoops = 0 ∨ i' * k < o.maxLoops + k) ∧
        (p'.sim.op = .running → o.maxLoops ≠ 0 ∧ m = i' * k ∧ o.maxLoops ≤ m) := by
  induction fuel with
  | zero =>
    intro frozen i n p g hn hr hm
    unfold printLoop
    split
    · rename_i hc
      refine Or.inl ⟨rfl, p, ?_, hc.1⟩
      have := hr hc.1
      rw [this] at g
      simpa using g
    · rename_i hc
      refine Or.inr ⟨i, n, p, rfl, g, hn, hm, fun hop => ?_⟩
      push Not at hc
      have h1 := hc hop
      have h2 := hr hop
      exact ⟨h1.1, h2, by omega⟩
  | succ fuel ih =>
    intro frozen i n p g hn hr hm
    unfold printLoop
    split
    · rename_i hc
      obtain ⟨m, p', hs, g', h1, h2⟩ := loopSeek_spec h o ho frozen k n p g
      have hl := (g.inv.run hc.1).1
      have hni := hr hc.1
      have e1 : i * k + k = (i + 1) * k := by rw [Nat.add_mul, Nat.one_mul]
      simp only [hl, hs, e1]
      have e2 : (i + (fuel + 1)) * k = (i + 1 + fuel) * k := by congr 1; omega
      rw [e2]
      have hb : o.maxLoops = 0 ∨ (i + 1) * k < o.maxLoops + k := by
        rcases hc.2 with h3 | h3
        · exact Or.inl h3
        · rw [← e1]; omega
      have hr' : p'.sim.op = .running → m = (i + 1) * k := fun hh => by rw [h2 hh, ← e1]; omega
      split
      · rename_i hfr
        rw [if_pos (hf hfr)]
        exact ih true (i + 1) m p' g' (by rw [← e1]; omega) hr' hb
      · exact ih frozen (i + 1) m p' g' (by rw [← e1]; omega) hr' hb
    · rename_i hc
      refine Or.inr ⟨i, n, p, rfl, g, hn, hm, fun hop => ?_⟩
      push Not at hc
      have h1 := hc hop
      have h2 := hr hop
      exact ⟨h1.1, h2, by omega⟩

/-! ## The report -/

theorem report_ok (h : Stack T σ S M mean Means) (o : Options) (ho : o.rules.maxReps ≠ 0) {n : Nat} {p : PSim σ S}
    (g : Good M o.rules n p) {safe : Prop} (hsafe : safe → FollowsInf T M Means) :
    ∃ r, report M o p = .done r ∧ ReportOK T o.computeSteps safe r ∧ r.loops = p.sim.loops ∧
      (r.verdict = .unexpected ↔ p.sim.op = .running) ∧ (r.verdict = .gaveUp ↔ p.sim.op = .gaveUp) := by
  have ht := g.tracks h ho
  have hE := tracks_exact h ht
  unfold report verdict
  simp only
  cases hop : p.sim.op with
  | raised => exact absurd hop hE.safe
  | running =>
    obtain ⟨h1, h2⟩ := tracks_progress h ht hop
    exact ⟨_, rfl, ⟨p.sim.steps, h2, (hE.running (Or.inl hop)).2, rfl, g.le.trans h1⟩, rfl, by simp, by simp⟩
  | gaveUp =>
    exact ⟨_, rfl, ⟨p.sim.steps, tracks_live h ht (Or.inr hop), (hE.running (Or.inr hop)).2, rfl⟩, rfl, by simp, by simp⟩
  | halt =>
    obtain ⟨g1, -, g3, a, q, g4, g5, g6, g7⟩ := hE.halted (by simp [hop])
    refine ⟨_, rfl, ⟨p.sim.steps, q, a, g1, ⟨g5, g6⟩, ?_, g3, rfl, rfl, rfl⟩, rfl, by simp, by simp⟩
    intro hu
    have := g7.2 hu
    rw [hop] at this; cases this
  | undefined =>
    obtain ⟨g1, -, g3, a, q, g4, g5, g6, g7⟩ := hE.halted (by simp [hop])
    rw [g4]
    exact ⟨_, rfl, ⟨p.sim.steps, g1, ⟨g5, g6⟩, g7.1 hop, g3, rfl, rfl, rfl⟩, rfl, by simp, by simp⟩
  | infRepeat =>
    obtain ⟨r, hr, h1, h2⟩ := tracks_inf h ht hop
    rw [hr]
    simp only [g.ok, Bool.and_true]
    have hrec : r = .proofSystem → p.sim.recur ≠ [] := by
      intro hrp hnil
      obtain ⟨hn, hv⟩ := h1 (Or.inl (by rw [hrp]; simp))
      obtain ⟨q, hq⟩ := Option.ne_none_iff_exists'.1 (hn p.sim.steps)
      have := hv q p.sim.steps (le_refl _) hq
      rw [hnil] at this; cases this
    rw [if_neg (by rintro ⟨h3, h4⟩; exact hrec h3 h4), infRecurW_eq, qW_apply]
    refine ⟨_, rfl, ⟨fun hor => (h1 (hor.imp id hsafe)).1, ?_⟩, rfl, by simp, by simp⟩
    cases hs : o.computeSteps with
    | false => exact ⟨rfl, fun _ hd => (by cases hd), fun _ hd => (by cases hd)⟩
    | true =>
      simp only [if_true]
      obtain ⟨y, hy⟩ : ∃ y, recurData (some p.sim.recur) (some p.sim.seen) = some y := by
        unfold recurData
        simp only
        split <;> exact ⟨_, rfl⟩
      obtain ⟨c1, c2⟩ := quasi_right (T := T) (r := r) (safe := safe) g.inv.keys (tracks_seen h ht)
        (fun hor => (h1 (hor.imp id hsafe)).2) h2 hy
      rw [hy]
      rcases y with _ | ⟨q, l⟩
      · refine ⟨rfl, fun hne _ => ⟨fun _ => Or.inr (c1 hne), fun hq => (by cases hq)⟩, fun _ _ hq => (by cases hq)⟩
      · refine ⟨rfl, fun hne _ => ⟨fun hq => (by cases hq), fun _ => ?_⟩, fun hsf _ _ => ?_⟩
        · obtain ⟨m, rfl, h3⟩ := c1 hne
          exact ⟨(h1 (Or.inl hne)).1, m, holds_big _, h3⟩
        · obtain ⟨m, rfl, h3⟩ := c2 hsf
          exact ⟨m, holds_big _, h3⟩

/-- the chunk size used (208-209) -/
def chunk (o : Options) : Nat := if o.maxLoops ≠ 0 ∧ o.printLoops > o.maxLoops then o.maxLoops else o.printLoops

/-- all about a run -/
theorem simulate_cases (h : Stack T σ S M mean Means) (o : Options) (ho : o.rules.maxReps ≠ 0)
    (hf : o.quiet = false → o.freeze = true → o.prover = true) (fuel : Nat) {safe : Prop} (hsafe : safe → FollowsInf T M Means) :
    (simulate M o fuel = .unfinished ∧ ∀ n, HaltsAt T init n → (o.quiet = true ∨ 0 < o.printLoops) → fuel < n) ∨
    ∃ r, simulate M o fuel = .done r ∧ ReportOK T o.computeSteps safe r ∧
      (r.verdict = .gaveUp → ∃ m, (SimSt.after M m).op = .gaveUp) ∧
      (o.maxLoops ≠ 0 → r.loops ≤ o.maxLoops ∨ (o.quiet = false ∧ r.loops < o.maxLoops + chunk o ∧
        (chunk o ∣ o.maxLoops → r.loops ≤ o.maxLoops))) ∧
      (r.verdict = .unexpected → o.maxLoops ≠ 0 ∧ o.maxLoops ≤ r.loops) := by
  have hnot : ∀ n N p, HaltsAt T init n → Good M o.rules N p → p.sim.op = .running → N < n := by
    intro n N p hn g hop
    obtain ⟨h1, h2⟩ := tracks_progress h (g.tracks h ho) hop
    by_contra hlt
    exact h2 (run_none_mono (by omega) hn.1)
  have hgave : ∀ m p, Good M o.rules m p → p.sim.op = .gaveUp → ∃ m, (SimSt.after M m).op = .gaveUp := by
    intro m p g hop
    cases g.tracks h ho with
    | same k h1 h2 => exact ⟨k, by rw [← h1.op]; exact hop⟩
    | proof k h1 => rw [hop] at h1; cases h1
  unfold simulate
  simp only
  cases hq : o.quiet with
  | true =>
    simp only [if_true]
    rcases quietLoop_spec h o ho fuel 0 _ (good_init M o.rules) (Or.inr (Nat.zero_le _)) with ⟨h1, p', g, hop⟩ | ⟨m, p', h1, g, h2, h3⟩
    · rw [h1]
      refine Or.inl ⟨rfl, fun n hn _ => ?_⟩
      have := hnot n _ _ hn g hop
      omega
    · rw [h1]
      simp only
      obtain ⟨r, hr, hok, hl, hu, hgv⟩ := report_ok h o ho g hsafe
      refine Or.inr ⟨r, hr, hok, fun hv => hgave _ _ g (hgv.1 hv), fun hm => ?_, fun hv => ?_⟩
      · have := g.le
        exact Or.inl (by omega)
      · have h4 := h3 (hu.1 hv)
        have h5 := (g.inv.run (hu.1 hv)).1
        exact ⟨h4.1, by omega⟩
  | false =>
    simp only [Bool.false_eq_true, if_false]
    rw [show (if o.maxLoops ≠ 0 ∧ o.printLoops > o.maxLoops then o.maxLoops else o.printLoops) = chunk o from rfl]
    have hsp := printLoop_spec h o ho (hf hq) (chunk o) fuel false 0 0 _ (good_init M o.rules) (by omega) (fun _ => by omega)
    rw [Nat.zero_mul] at hsp
    by_cases hc0 : 0 < chunk o
    · rcases hsp (by omega) with ⟨h1, p', g, hop⟩ | ⟨i, m, p', h1, g, h2, h3, h4⟩
      · rw [h1]
        refine Or.inl ⟨rfl, fun n hn _ => ?_⟩
        have := hnot n _ _ hn g hop
        have h2 : fuel ≤ (0 + fuel) * chunk o := by rw [Nat.zero_add]; exact Nat.le_mul_of_pos_right _ hc0
        omega
      · rw [h1]
        simp only
        obtain ⟨r, hr, hok, hl, hu, hgv⟩ := report_ok h o ho g hsafe
        refine Or.inr ⟨r, hr, hok, fun hv => hgave _ _ g (hgv.1 hv), fun hm => Or.inr ?_, fun hv => ?_⟩
        · have := g.le
          refine ⟨trivial, by omega, fun hd => ?_⟩
          obtain ⟨c, hc⟩ := hd
          have h5 : i * chunk o < (c + 1) * chunk o := by
            have : (c + 1) * chunk o = o.maxLoops + chunk o := by rw [hc, Nat.add_mul, Nat.mul_comm c]; omega
            omega
          have h6 : i < c + 1 := Nat.lt_of_mul_lt_mul_right h5
          have h7 : i * chunk o ≤ c * chunk o := Nat.mul_le_mul_right _ (by omega)
          have h8 : c * chunk o = o.maxLoops := by rw [hc, Nat.mul_comm]
          omega
        · have h5 := h4 (hu.1 hv)
          have h6 := (g.inv.run (hu.1 hv)).1
          exact ⟨h5.1, by omega⟩
    · have hc : chunk o = 0 := by omega
      have hp : o.printLoops = 0 := by
        unfold chunk at hc
        split at hc
        · omega
        · exact hc
      -- the loop makes no progress
      have key : ∀ fuel frozen, printLoop M o 0 fuel frozen 0 (PSim.init M) = .unfinished := by
        intro fuel
        induction fuel with
        | zero =>
          intro frozen
          unfold printLoop
          rw [if_pos ⟨rfl, by omega⟩]
        | succ fuel ih =>
          intro frozen
          unfold printLoop
          rw [if_pos ⟨rfl, by omega⟩]
          have : loopSeek M o frozen ((PSim.init M).sim.loops + 0) 0 (PSim.init M) = .done (PSim.init M) := by
            unfold loopSeek
            rw [if_neg (by omega)]
          simp only [this, Nat.zero_add]
          split
          · rename_i hfr
            rw [if_pos (hf hq hfr)]; exact ih true
          · exact ih frozen
      rw [hc, key]
      exact Or.inl ⟨rfl, fun n _ hor => by simp at hor; omega⟩

/-- a proof system that is switched off is to be frozen -/
theorem simulate_freeze (h : Stack T σ S M mean Means) (o : Options) (ho : o.rules.maxReps ≠ 0) (hq : o.quiet = false)
    (hf : o.freeze = true) (hp : o.prover = false) (fuel : Nat) : simulate M o fuel = if fuel = 0 then .unfinished else .raised := by
  unfold simulate
  simp only
  rw [hq]
  simp only [Bool.false_eq_true, if_false]
  generalize (if o.maxLoops ≠ 0 ∧ o.printLoops > o.maxLoops then o.maxLoops else o.printLoops) = k
  unfold printLoop
  rw [if_pos ⟨rfl, by omega⟩]
  cases fuel with
  | zero => rfl
  | succ fuel =>
    obtain ⟨m, p', hs, -⟩ := loopSeek_spec h o ho false k 0 _ (good_init M o.rules)
    have : loopSeek M o false ((PSim.init M).sim.loops + k) k (PSim.init M) = .done p' := hs
    simp [this, hf, hp]

theorem simulate_zero (M : Machine σ S) (o : Options) (hq : o.quiet = false) (h0 : o.printLoops = 0) (fuel : Nat) (r : Report) :
    simulate M o fuel ≠ .done r := by
  unfold simulate
  simp only
  rw [hq, h0]
  simp only [Bool.false_eq_true, if_false]
  rw [if_neg (by omega)]
  have key : ∀ fuel frozen, printLoop M o 0 fuel frozen 0 (PSim.init M) = .unfinished ∨
      printLoop M o 0 fuel frozen 0 (PSim.init M) = .raised := by
    intro fuel
    induction fuel with
    | zero =>
      intro frozen
      unfold printLoop
      rw [if_pos ⟨rfl, by omega⟩]
      exact Or.inl rfl
    | succ fuel ih =>
      intro frozen
      unfold printLoop
      rw [if_pos ⟨rfl, by omega⟩]
      have : loopSeek M o frozen ((PSim.init M).sim.loops + 0) 0 (PSim.init M) = .done (PSim.init M) := by
        unfold loopSeek
        rw [if_neg (by omega)]
      simp only [this, Nat.zero_add]
      split
      · split
        · exact ih true
        · exact Or.inr rfl
      · exact ih frozen
  rcases key fuel false with hk | hk <;> rw [hk] <;> simp

end

theorem size_ok (T : Table) (o : Options) (e : Env) : size T o e ≠ .raised ∧ size T o e ≠ .size 0 := by
  unfold size
  split
  · rename_i hb
    simpa using hb
  · generalize Params.mk _ _ _ _ _ = p
    constructor
    · intro hr
      rcases Props.blockFinder_cases T e.bfBlock e.bfBack e.quot p with hc | ⟨opt, h1, h2, hc⟩
      · rw [hc] at hr; cases hr
      · rw [hc] at hr
        unfold chooseMult at hr
        split at hr
        · cases hr
        · split at hr
          · cases hr
          · rename_i hl
            rcases Props.multLoop_out T e.bfBlock e.bfBack e.quot p hl h1 e.fuel 1 1 0 le_rfl le_rfl
              (by rwa [Nat.one_mul]) with hu | ⟨k, hk, -⟩
            · rw [hu] at hr; cases hr
            · rw [hk] at hr; cases hr
    · intro h0
      exact absurd (Props.blockFinder_pos h0) (by omega)

theorem simple_after_noGiveUp (T : Table) (m : Nat) : (SimSt.after (simple T) m).op ≠ .gaveUp := by
  induction m with
  | zero => intro h; cases h
  | succ m ih =>
    rw [after_succ]
    generalize SimSt.after (simple T) m = s at *
    unfold SimSt.step
    by_cases hop : s.op ≠ .running
    · rw [if_pos hop]; exact ih
    rw [if_neg hop]
    unfold SimSt.macroStep
    simp only
    cases htop : s.tape.topSymbol with
    | none => simp [SimSt.raise]
    | some cur =>
      simp only
      have hc := (simple_cond T cur s.st s.dir).2
      generalize (simple T).trans cur s.st s.dir = t at hc
      by_cases c1 : t.cond = .raised
      · rw [if_pos c1]; exact hc
      rw [if_neg c1]
      by_cases c2 : t.cond = .infRepeat
      · rw [if_pos c2]; exact hc
      rw [if_neg c2]
      by_cases c3 : t.st = s.st ∧ t.dir = s.dir ∧ t.cond = .running
      · rw [if_pos c3]
        match s.tape.chainMove natOps t.sym with
        | none => simp [SimSt.raise]
        | some (tp, none) => simp
        | some (tp, some reps) => exact hc
      rw [if_neg c3]
      by_cases c4 : t.cond ≠ .gaveUp
      · rw [if_pos c4]
        match s.tape.singleMove natOps t.sym t.dir with
        | none => simp [SimSt.raise]
        | some tp => exact hc
      · exact absurd hc c4

/-- the simulator is run on one of the stacks -/
theorem quickSim_cases (T : Table) (o : Options) (e : Env) :
    (size T o e = .unfinished ∧ quickSim T o e = .unfinished) ∨
    ∃ (k : Nat) (σ S : Type) (_ : DecidableEq σ) (_ : DecidableEq S) (M : Machine σ S) (mean : DC σ S → DC Nat (Option Nat))
      (Means : DC σ S → Config → Prop), size T o e = .size k ∧ 0 < k ∧ Stack T σ S M mean Means ∧
      (QuickSafe T o e → FollowsInf T M Means) ∧ quickSim T o e = simulate M o e.fuel ∧
      (k = 1 → o.backsymbol = false → ∀ m, (SimSt.after M m).op ≠ .gaveUp) := by
  unfold quickSim
  obtain ⟨hs1, hs2⟩ := size_ok T o e
  cases hs : size T o e with
  | raised => exact absurd hs hs1
  | unfinished => exact Or.inl ⟨rfl, rfl⟩
  | size k =>
    have hk : 0 < k := Nat.pos_of_ne_zero (by rintro rfl; exact hs2 hs)
    have F1 := simple_follows T
    have I2 := block_inf F1 (simple_noGiveUp T) (simple_inf T) hk 0 o.maxStepsInBlock 0
    refine Or.inr ?_
    simp only
    split
    · rename_i hb
      split
      · rename_i h1
        exact ⟨k, _, _, _, _, _, _, _, rfl, hk, Stack.back o.maxStepsInBack,
          fun _ => back_inf F1 (simple_noGiveUp T) (simple_inf T) o.maxStepsInBack, rfl, fun _ hc => by rw [hb] at hc; cases hc⟩
      · rename_i h1
        refine ⟨k, _, _, _, _, _, _, _, rfl, hk, Stack.nested k 0 o.maxStepsInBlock o.maxStepsInBack (by omega), fun hq => ?_, rfl,
          fun hc => absurd hc h1⟩
        rcases hq with hq | hq
        · rw [hq] at hb; cases hb
        · exact back_inf (block_follows F1 (simple_shift _) (by omega) 0 o.maxStepsInBlock 0)
            (fun c cfg h => hq k hs (by omega) c cfg h.1 h.2) I2 o.maxStepsInBack
    · split
      · rename_i h1
        refine ⟨k, _, _, _, _, _, _, _, rfl, hk, Stack.simple, fun _ => simple_inf T, rfl, fun _ _ m => ?_⟩
        exact simple_after_noGiveUp T m
      · rename_i h1
        exact ⟨k, _, _, _, _, _, _, _, rfl, hk, Stack.block k 0 o.maxStepsInBlock (by omega), fun _ => I2, rfl,
          fun hc => absurd hc h1⟩

end Model.QuickSim
