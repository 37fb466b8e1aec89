import Verif.Lemmas.RecGen

/-! # A run of the recursive simulator in a proof -/

namespace Model.Recursive
open Spec Model Model.Expr Model.Prover
variable {σ S : Type}

/-- A rule that is right for the base machine. -/
def RuleTrue [Sums] (T : Table) (Den : DC σ S → Config → Prop) (z : σ) (key : Strip σ S) : Rule σ → Prop
  | .diff r => ∃ ll lr, DiffOK T Den z key r ll lr
  | .gen r => ∃ init res vl vr D, GenOK T Den z key r init res vl vr D

/-- The same, but nothing is known about a general rule that was proved with rules. -/
def RuleOK [Sums] (T : Table) (Den : DC σ S → Config → Prop) (z : σ) (key : Strip σ S) : Rule σ → Prop
  | .diff r => ∃ ll lr, DiffOK T Den z key r ll lr
  | .gen r => r.isMeta = false → ∃ init res vl vr D, GenOK T Den z key r init res vl vr D

/-- no general rule was proved with rules -/
def PlainRule : Rule σ → Prop
  | .diff _ => True
  | .gen r => r.isMeta = false

theorem ruleTrue_of [Sums] {T : Table} {Den : DC σ S → Config → Prop} {z : σ} {key : Strip σ S} {r : Rule σ} (h : RuleOK T Den z key r)
    (hp : PlainRule r) : RuleTrue T Den z key r := by
  cases r with
  | diff r => exact h
  | gen r => exact h hp

/-- The tape after the steps so far means the configuration after at least `N` steps; `w` steps are counted apart. -/
structure Inv [Sums] (T : Table) (Den : DC σ S → Config → Prop) (z : σ) (y : Nat → Int) (cfg : Config) (N : Nat) (s : SimSt σ S V)
    (w : ℚ) : Prop where
  ends : EndsT z s.tape
  dir : s.dir = s.tape.dir
  run : ∃ u n, TapeIs y s.tape u ∧ N ≤ n ∧ Den (tapeDC z u s.st) (run T n cfg) ∧
    (∀ q, q ∈ s.seen.map (·.1) ↔ ∃ k, k < n ∧ VisitedAt T cfg q k) ∧ (SumsRight → qv y s.steps + w = n)

variable [DecidableEq σ] [DecidableEq S]

def RulesOK [Sums] (T : Table) (Den : DC σ S → Config → Prop) (z : σ) (rs : Rules σ S) : Prop :=
  ∀ key r, Py.dget rs key = some r → RuleTrue T Den z key r

section
variable [Sums] {T : Table} {M : Machine σ S} {Den : DC σ S → Config → Prop} {TDen : DC σ S → (Int → Nat) → Prop} {hs : S → Prop} {z : σ}
  {y : Nat → Int} {cfg : Config}

omit [DecidableEq S] in
theorem applyRule_ok (live : ∀ q cfg, Den q cfg → cfg.state ≠ none) {key : Strip σ S} {r : Rule σ}
    (h : RuleTrue T Den z key r) {tape : ChainTape σ V} {u : ChainTape σ Nat} (hkey : key = strip valIsOne key.st tape)
    (he : EndsT z tape) (hy : ∀ x, 0 ≤ y x) (hu : TapeIs y tape u) (hden : Den (tapeDC z u key.st) cfg) (o : Opts) (nv nv' : Nat) (hfr : FreshT nv tape)
    {out : Res σ} (ha : applyRule o r tape nv = (.ok out, nv')) : ResOK T Den z y key.st cfg out ∧ ResEnds z tape.dir out := by
  cases r with
  | diff r =>
    obtain ⟨ll, lr, h⟩ := h
    have ha : applyDiff r tape nv = .ok out := congrArg Prod.fst ha
    exact ⟨diffApply_ok live h hkey he hy hu cfg hden nv hfr ha, diffApply_ends r nv he ha⟩
  | gen r =>
    obtain ⟨init, res, vl, vr, D, h⟩ := h
    exact genApply_ok live h hkey he hy hu cfg hden o (congrArg Prod.fst ha)

omit [Sums] in
theorem foldl_keys (v : V) (q : Nat) : ∀ (states : List Nat) (d : List (Nat × V)),
    q ∈ (states.foldl (fun d q => Py.dset d q v) d).map (·.1) ↔ q ∈ d.map (·.1) ∨ q ∈ states
  | [], d => by simp
  | p :: states, d => by
    rw [List.foldl_cons, foldl_keys v q states, Py.mem_keys_dset]
    simp only [List.mem_cons]
    tauto

omit [DecidableEq σ] [DecidableEq S] in
theorem result_ok {g : Sim σ S} {res : Res σ} (hop : g.sim.op = .running)
    (h : ResOK T Den z y g.sim.st cfg res) : StepOK T M Den TDen z y cfg g.sim (g.result res).sim
      (Val.value (qy y) (g.result res).ruleSteps - Val.value (qy y) g.ruleSteps) := by
  cases res with
  | inf states =>
    obtain ⟨h1, h2⟩ := h
    exact ⟨by simp [Sim.result], by simp [Sim.result], by simp [Sim.result],
      fun _ => Or.inr ⟨by simp [Sim.result], h1, h2⟩⟩
  | apply tape steps states large =>
    obtain ⟨u, n, h1, h2, h3, h4, h5⟩ := h
    refine ⟨fun _ => ⟨u, n, h1, h2, h3, fun q => ?_, fun hs => ?_⟩, by simp [Sim.result, hop], by simp [Sim.result, hop], by simp [Sim.result, hop]⟩
    · rw [← h4 q]
      exact foldl_keys _ _ _ _
    · simp only [Sim.result]
      rw [add_value, h5 hs]; ring

omit [Sums] [DecidableEq σ] [DecidableEq S] in
theorem result_ends {g : Sim σ S} {res : Res σ} (he : EndsT z g.sim.tape) (hd : g.sim.dir = g.sim.tape.dir)
    (h : ResEnds z g.sim.tape.dir res) : EndsT z (g.result res).sim.tape ∧ (g.result res).sim.dir = (g.result res).sim.tape.dir := by
  cases res with
  | inf states => exact ⟨he, hd⟩
  | apply tape steps states large => exact ⟨h.1, hd.trans h.2.symm⟩

/-- One step with a frozen prover. -/
theorem simStep_ok (F : Follows T M Den TDen hs) {rs : Rules σ S} (hrs : RulesOK T Den z rs) (o : Opts) {g : Sim σ S}
    (hop : g.sim.op = .running) (he : EndsT z g.sim.tape) (hd : g.sim.dir = g.sim.tape.dir) (hy : ∀ x, 0 ≤ y x)
    {u : ChainTape σ Nat} (hu : TapeIs y g.sim.tape u) (ht : TopPos y (g.sim.tape.half g.sim.tape.dir))
    (hden : Den (tapeDC z u g.sim.st) cfg) (hfr : FreshT g.nv g.sim.tape) :
    StepOK T M Den TDen z y cfg g.sim (g.step M o rs).sim
      (Val.value (qy y) (g.step M o rs).ruleSteps - Val.value (qy y) g.ruleSteps) ∧
      EndsT z (g.step M o rs).sim.tape ∧ (g.step M o rs).sim.dir = (g.step M o rs).sim.tape.dir := by
  have mac : StepOK T M Den TDen z y cfg g.sim ({ g.sim with loops := g.sim.loops + 1 }.macroStep valOps M)
      (Val.value (qy y) g.ruleSteps - Val.value (qy y) g.ruleSteps) := by
    rw [sub_self]
    have := macroStep_dc F (s := { g.sim with loops := g.sim.loops + 1 }) (y := y) (cfg := cfg) (z := z) hd hu ht hden
    exact ⟨this.run, this.gave, this.halt, this.inf⟩
  have mace := macroStep_ends (z := z) M (s := { g.sim with loops := g.sim.loops + 1 }) he hd
  unfold Sim.step
  rw [if_neg (by simp [hop])]
  simp only
  split
  · exact ⟨mac, mace⟩
  · next r hr =>
    split
    · exact ⟨⟨by simp [SimSt.raise], by simp [SimSt.raise], by simp [SimSt.raise], by simp [SimSt.raise]⟩, he, hd⟩
    · exact ⟨mac, mace⟩
    · next res nv ha =>
      obtain ⟨h1, h2⟩ := applyRule_ok (fun q cfg h => (F.live q cfg h).1) (hrs _ _ hr) rfl he hy hu hden o _ _ hfr ha
      refine ⟨?_, result_ends he hd h2⟩
      have := result_ok (M := M) (TDen := TDen) (g := { g with sim := { g.sim with loops := g.sim.loops + 1 }, nv := nv }) hop h1
      exact ⟨this.run, this.gave, this.halt, this.inf⟩

omit [DecidableEq σ] [DecidableEq S] in
theorem inv_step {N : Nat} {s s' : SimSt σ S V} {w w' : ℚ} (hi : ∃ u n, N ≤ n ∧ TapeIs y s.tape u ∧
      (∀ q, q ∈ s.seen.map (·.1) ↔ ∃ k, k < n ∧ VisitedAt T cfg q k) ∧ (SumsRight → qv y s.steps + w = n) ∧
      StepOK T M Den TDen z y (run T n cfg) s s' (w' - w))
    (he : EndsT z s'.tape) (hd : s'.dir = s'.tape.dir) (hop : s'.op = .running) : Inv T Den z y cfg (N + 1) s' w' := by
  obtain ⟨u, n, h1, h2, h3, h5, h4⟩ := hi
  obtain ⟨u', m, k1, k2, k3, k4, k5⟩ := h4.run hop
  refine ⟨he, hd, u', n + m, k1, by omega, by rw [run_add]; exact k3, fun q => ?_, fun hs => ?_⟩
  swap
  · have e1 := h5 hs
    have e2 := k5 hs
    push_cast
    linarith
  rw [k4 q, h3 q, visited_add]

/-- the step of a running simulation -/
theorem inv_next (F : Follows T M Den TDen hs) {rs : Rules σ S} (hrs : RulesOK T Den z rs) (o : Opts) {g : Sim σ S} {N : Nat}
    (hop : g.sim.op = .running) (hi : Inv T Den z y cfg N g.sim (Val.value (qy y) g.ruleSteps)) (hy : ∀ x, 0 ≤ y x)
    (ht : TopPos y (g.sim.tape.half g.sim.tape.dir)) (hop' : (g.step M o rs).sim.op = .running) (hfr : FreshT g.nv g.sim.tape) :
    Inv T Den z y cfg (N + 1) (g.step M o rs).sim (Val.value (qy y) (g.step M o rs).ruleSteps) := by
  obtain ⟨u, n, h1, h2, h3, h4, h5⟩ := hi.run
  obtain ⟨k1, k2, k3⟩ := simStep_ok F hrs o hop hi.ends hi.dir hy h1 ht h3 hfr
  exact inv_step ⟨u, n, h2, h1, h4, h5, k1⟩ k2 k3 hop'

omit [Sums] [DecidableEq σ] in
theorem top_of_min (hy : ∀ x, 0 ≤ y x) {h : List (Blk σ V)} {b : Blk σ V} {r : List (Blk σ V)} (hh : h = b :: r)
    (hb : ¬ belowMin b.num = true) : TopPos y h := by
  intro b' r' h' v hv
  rw [hh] at h'
  cases h'
  rw [hv] at hb
  unfold belowMin at hb
  simp only at hb
  cases hm : v.minVal with
  | none => rw [hm] at hb; simp at hb
  | some m =>
    rw [hm] at hb
    simp only [decide_eq_true_eq, not_le] at hb
    have := minVal_le y hy v m hm
    omega

/-- **A proof with rules**, for all values of the variables. -/
theorem genLoop_any (F : Follows T M Den TDen hs) {rs : Rules σ S} (hrs : RulesOK T Den z rs) (o : Opts) (hy : ∀ x, 0 ≤ y x)
    {Q : Sim σ S → Prop} (fresh : ∀ g, Q g → FreshT g.nv g.sim.tape)
    (next : ∀ g, EndsT z g.sim.tape → Q g → Q (g.step M o rs)) :
    ∀ (k N : Nat) (g g' : Sim σ S) (mins mins' : List (Nat × Option Int)), g.sim.op = .running → Q g →
    Inv T Den z y cfg N g.sim (Val.value (qy y) g.ruleSteps) → genLoop M o rs k g mins = .ok (g', mins') →
    Inv T Den z y cfg (N + k) g'.sim (Val.value (qy y) g'.ruleSteps) ∧ Q g' := by
  intro k
  induction k with
  | zero => intro N g g' mins mins' _ hq hi hg; cases hg; exact ⟨hi, hq⟩
  | succ k ih =>
    intro N g g' mins mins' hop hq hi hg
    unfold genLoop at hg
    split at hg
    · cases hg
    next b r hh =>
    split at hg
    · cases hg
    next hb =>
    simp only at hg
    split at hg
    · cases hg
    split at hg
    · cases hg
    next h2 =>
    simp only [ne_eq, not_not] at h2
    split at hg
    · cases hg
    · cases hg
    · have := ih (N + 1) _ _ _ _ h2 (next g hi.ends hq) (inv_next F hrs o hop hi hy (top_of_min hy hh hb) h2 (fresh g hq)) hg
      rw [Nat.add_right_comm, ← Nat.add_assoc] at *
      exact this

/-! ## A proof without rules -/

theorem step_plain (o : Opts) (rs : Rules σ S) (g : Sim σ S) (hop : g.sim.op = .running) (h : (g.step M o rs).ruleMoves = g.ruleMoves)
    (h' : (g.step M o rs).sim.op = .running) : (g.step M o rs).sim = g.sim.step valOps M := by
  unfold Sim.step at h h' ⊢
  unfold SimSt.step
  rw [if_neg (by simp [hop])] at h h' ⊢
  rw [if_neg (by simp [hop])]
  simp only at h h' ⊢
  split at h
  · simp only
  · next r hr =>
    simp only [hr] at h' ⊢
    split at h
    · next ha => simp only [ha] at h'; simp [SimSt.raise] at h'
    · simp only
    · next res nv ha =>
      simp only [ha] at h'
      cases res with
      | inf states => simp [Sim.result] at h'
      | apply tape steps states large => simp [Sim.result] at h

theorem step_moves (o : Opts) (rs : Rules σ S) (g : Sim σ S) : g.ruleMoves ≤ (g.step M o rs).ruleMoves := by
  unfold Sim.step
  split
  · exact le_refl _
  simp only
  split
  · exact le_refl _
  · split
    · exact le_refl _
    · exact le_refl _
    · next res _ _ => cases res <;> simp [Sim.result]

theorem genLoop_moves (o : Opts) (rs : Rules σ S) : ∀ (k : Nat) (g g' : Sim σ S) (mins mins' : List (Nat × Option Int)),
    genLoop M o rs k g mins = .ok (g', mins') → g.ruleMoves ≤ g'.ruleMoves := by
  intro k
  induction k with
  | zero => intro g g' mins mins' hg; cases hg; exact le_refl _
  | succ k ih =>
    intro g g' mins mins' hg
    unfold genLoop at hg
    split at hg
    · cases hg
    split at hg
    · cases hg
    simp only at hg
    split at hg
    · cases hg
    split at hg
    · cases hg
    split at hg
    · cases hg
    · cases hg
    · exact le_trans (step_moves o rs g) (ih _ _ _ _ hg)

/-- If no rule was used, the run is that of the simple proof system. -/
theorem genLoop_plain (o : Opts) (rs : Rules σ S) : ∀ (k : Nat) (g g' : Sim σ S) (mins mins' : List (Nat × Option Int)),
    g.sim.op = .running → genLoop M o rs k g mins = .ok (g', mins') → g'.ruleMoves = g.ruleMoves →
    Prover.genLoop M k g.sim mins = .ok (g'.sim, mins') := by
  intro k
  induction k with
  | zero => intro g g' mins mins' _ hg _; cases hg; rfl
  | succ k ih =>
    intro g g' mins mins' hop hg hm
    unfold genLoop at hg
    unfold Prover.genLoop
    split at hg
    · cases hg
    next b r hh =>
    rw [hh]
    simp only
    split at hg
    · cases hg
    next hb =>
    rw [if_neg hb]
    simp only at hg
    split at hg
    · cases hg
    next h1 =>
    split at hg
    · cases hg
    next h2 =>
    simp only [ne_eq, not_not] at h2
    split at hg
    · cases hg
    · cases hg
    · next mins1 hu =>
      have l1 := step_moves (M := M) o rs g
      have l2 := genLoop_moves (M := M) o rs _ _ _ _ _ hg
      have e := step_plain (M := M) o rs g hop (by omega) h2
      rw [e] at h1 h2 hu
      rw [if_neg h1, if_neg (by simp [h2]), hu]
      simp only
      rw [← e]
      exact ih _ _ _ _ (by rw [e]; exact h2) hg (by omega)

omit [Sums] [DecidableEq σ] in
theorem posTop {y : Nat → Int} {h : List (Blk σ V)} (hp : PosHalf y h) : TopPos y h := by
  intro b r hb v hv
  exact hp b (by rw [hb]; simp) v hv

omit [Sums] [DecidableEq σ] [DecidableEq S] in
theorem ghalf_ends {z : σ} {h : List (Blk σ V)} (hg : GHalf z h) : Ends z h := by
  induction hg with
  | last => exact .last
  | cons a hv hg ih => exact .cons _ _ ih

/-- a plain symbolic run, for the values that keep all runs positive -/
theorem plain_any (F : Follows T M Den TDen hs) {D : Nat → Prop} {w : ℚ} : ∀ (k N : Nat) (s s' : SimSt σ S V) (mins mins' : List (Nat × Option Int)),
    SymInv z D s mins → Prover.genLoop M k s mins = .ok (s', mins') → GoodRho y mins' → Inv T Den z y cfg N s w →
    Inv T Den z y cfg (N + k) s' w := by
  intro k
  induction k with
  | zero => intro N s s' mins mins' _ hg _ hi; cases hg; exact hi
  | succ k ih =>
    intro N s s' mins mins' h hg hy hinv
    have hall := (genLoop_ok M _ _ _ _ _ h hg).2.1
    unfold Prover.genLoop at hg
    split at hg
    · cases hg
    split at hg
    · cases hg
    simp only at hg
    split at hg
    · cases hg
    split at hg
    · cases hg
    next h2 =>
    simp only [ne_eq, not_not] at h2
    split at hg
    · cases hg
    · cases hg
    · next mins1 hu =>
      obtain ⟨hi, hl, hlp⟩ := step_inv M h h2 hu
      have hpos : PosHalf y (s.tape.half s.tape.dir) :=
        pos_of (goodRho_le hy hall) (ghalf_count (h.tape.good _)) (h.minsOf _)
      obtain ⟨u, n, k1, k2, k3, k4, k5⟩ := hinv.run
      have mac := macroStep_dc F (s := { s with loops := s.loops + 1 }) (y := y) (cfg := run T n cfg) (z := z) hinv.dir k1 (posTop hpos) k3
      have mace := macroStep_ends (z := z) M (s := { s with loops := s.loops + 1 }) hinv.ends hinv.dir
      have e : s.step valOps M = { s with loops := s.loops + 1 }.macroStep valOps M := by
        unfold SimSt.step
        rw [if_neg (by simp [h.op])]
      rw [← e] at mac mace
      rw [← sub_self w] at mac
      have := ih (N + 1) _ _ _ _ hi hg hy (inv_step ⟨u, n, k2, k1, k4, k5, ⟨mac.run, mac.gave, mac.halt, mac.inf⟩⟩ mace.1 mace.2 h2)
      rw [Nat.add_right_comm, ← Nat.add_assoc] at *
      exact this
end

end Model.Recursive
