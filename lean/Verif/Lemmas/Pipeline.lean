import Verif.Model.Pipeline
import Verif.Spec.Pipeline
import Verif.Props.BlockFinder
import Verif.Props.CTL
import Verif.Props.LinRecur
import Verif.Props.RevEng
import Verif.Props.Status

/-! Lemmas about the filter pipeline. -/

namespace Model.Pipeline
open Spec Model.Status Model.Prover Model.BlockFinder

/-! ## Assignments -/

theorem setBigInt_holds (old : BigInt) (v : Int) : ∃ f, setBigInt noDumps old (.int v) = some f ∧ Holds f v :=
  Props.C31_bigint_roundtrip noDumps (fun _ => none) old v

/-- the contents of a field holding `v` -/
def big (v : Int) : BigInt := (setBigInt noDumps .unset (.int v)).getD .unset

theorem setBigInt_big (old : BigInt) (v : Int) : setBigInt noDumps old (.int v) = some (big v) := by
  obtain ⟨f, hf, -⟩ := setBigInt_holds .unset v
  have h : setBigInt noDumps old (.int v) = setBigInt noDumps .unset (.int v) := rfl
  unfold big
  rw [h, hf]; rfl

theorem holds_big (v : Int) : Holds (big v) v := by
  obtain ⟨f, hf, h⟩ := setBigInt_holds .unset v
  unfold big
  rw [hf]; exact h

theorem write_total (s : BBStatus) (w : Write) : ∃ s', w.apply s = some s' := by
  cases w <;> simp [Write.apply, setBigInt_big]

theorem writes_total (ws : List Write) : ∀ s : BBStatus, ∃ s', applyWrites s ws = some s' := by
  induction ws with
  | nil => exact fun s => ⟨s, rfl⟩
  | cons w ws ih =>
    intro s
    obtain ⟨s1, h1⟩ := write_total s w
    obtain ⟨s2, h2⟩ := ih s1
    exact ⟨s2, by simp [applyWrites, h1, h2]⟩

theorem writes_append (ws ws' : List Write) : ∀ s : BBStatus,
    applyWrites s (ws ++ ws') = (applyWrites s ws).bind fun s' => applyWrites s' ws' := by
  induction ws with
  | nil => exact fun s => rfl
  | cons w ws ih =>
    intro s
    obtain ⟨s1, h1⟩ := write_total s w
    simp [applyWrites, h1, ih]

theorem haltingW_apply (s : BBStatus) (n sc : Int) (q a : Nat) :
    applyWrites s (haltingW n sc q a) = some
      { halt := { s.halt with decided := true, halting := true, steps := big n, score := big sc, fromState := q, fromSymbol := a }
        quasi := { s.quasi with decided := true, quasihalting := false } } := by
  simp [haltingW, applyWrites, Write.apply, setBigInt_big]

theorem notHaltingW_apply (s : BBStatus) (r : Nat) :
    applyWrites s (notHaltingW r) = some (setNotHalting s r) := rfl

/-- the assignments to the quasihalt status: undecided, or as given -/
def qW : Option (Option (Nat × Int)) → List Write
  | none => [.qDecided false]
  | some x => quasiW x

/-- the quasihalt status after them -/
def qAfter (q : QuasiStatus) : Option (Option (Nat × Int)) → QuasiStatus
  | none => { q with decided := false }
  | some none => { q with decided := true, quasihalting := false }
  | some (some (st, n)) => { decided := true, quasihalting := true, steps := big n, state := st }

theorem qW_apply (s : BBStatus) (x : Option (Option (Nat × Int))) :
    applyWrites s (qW x) = some { s with quasi := qAfter s.quasi x } := by
  rcases x with _ | _ | ⟨st, n⟩ <;> simp [qW, quasiW, qAfter, applyWrites, Write.apply, setBigInt_big]

/-- what `set_inf_recur` finds out -/
def recurData (ignore : Option (List Nat)) (seen : Option (List (Nat × Nat))) : Option (Option (Nat × Int)) :=
  match seen, ignore with
  | some seen, some ignore =>
    match recurLoop ignore (seen.map fun e => (e.1, (e.2 : Int))) none (-1) with
    | (none, _) => some none
    | (some q, l) => some (some (q, l + 1))
  | _, _ => none

theorem infRecurW_eq (ignore : Option (List Nat)) (seen : Option (List (Nat × Nat))) :
    infRecurW ignore seen = qW (recurData ignore seen) := by
  unfold infRecurW recurData
  cases seen with
  | none => cases ignore <;> rfl
  | some seen =>
    cases ignore with
    | none => rfl
    | some ignore =>
      simp only
      cases h : recurLoop ignore (seen.map fun e => (e.1, (e.2 : Int))) none (-1) with
      | mk q l => cases q <;> simp [qW]

/-! The assignments are those of the functions of `Halting_Lib.py`. -/

theorem haltingW_setHalting (s : BBStatus) (n sc : Int) (q a : Nat) :
    applyWrites s (haltingW n sc q a) = setHalting noDumps s (.int n) (some (.int sc)) (some q) (some a) := by
  rw [haltingW_apply]
  simp [setHalting, setBigInt_big, setNotQuasihalting]

theorem infRecurW_setInfRecur (s : BBStatus) (ignore : Option (List Nat)) (seen : Option (List (Nat × Nat))) :
    applyWrites s (infRecurW ignore seen) =
      setInfRecur noDumps s ignore (seen.map fun l => l.map fun e => (e.1, (e.2 : Int))) := by
  rw [infRecurW_eq, qW_apply]
  unfold recurData setInfRecur
  cases seen with
  | none => cases ignore <;> rfl
  | some seen =>
    cases ignore with
    | none => rfl
    | some ignore =>
      simp only [Option.map_some]
      cases h : recurLoop ignore (seen.map fun e => (e.1, (e.2 : Int))) none (-1) with
      | mk q l => cases q <;> simp [qAfter, setBigInt_big]

/-! ## What the pipeline may write -/

/-- what is said about quasihalting is right -/
def QuasiRight (T : Table) : Option (Nat × Int) → Prop
  | none => ∀ q t, VisitedAt T init q t → VisitedForever T init q
  | some (q, n) => ∃ m : Nat, n = m ∧ 0 < m ∧ VisitedAt T init q (m - 1) ∧ (∀ t, m ≤ t → ¬ VisitedAt T init q t) ∧
      ∀ q' t, m ≤ t → VisitedAt T init q' t → VisitedForever T init q'

/-- the state named is visited for the last time one step before the time named -/
def LastRight (T : Table) : Option (Nat × Int) → Prop
  | none => True
  | some (q, n) => ∃ m : Nat, n = m ∧ 0 < m ∧ VisitedAt T init q (m - 1) ∧ ∀ t, m ≤ t → ¬ VisitedAt T init q t

/-- The writes of the pipeline for the table `T`; `steps`: steps are computed; `safe`: in-place repeats can be trusted. -/
inductive Shape (T : Table) (steps : Bool) (safe : Prop) : List Write → Prop
  | nothing : Shape T steps safe []
  | halts (n q a : Nat) : HaltsAt T init n → (run T (n - 1) init).state = some q →
      (run T (n - 1) init).tape (run T (n - 1) init).pos = a →
      Shape T steps safe (haltingW (if steps then (n : Int) else 0) ((score (run T n init) : Nat) : Int) q a)
  | exact (n q a : Nat) : HaltsAt T init n → (run T (n - 1) init).state = some q →
      (run T (n - 1) init).tape (run T (n - 1) init).pos = a →
      Shape T steps safe (haltingW (n : Int) ((score (run T n init) : Nat) : Int) q a)
  | infinite (r : Nat) (x : Option (Option (Nat × Int))) : r ≠ 0 → (r ≠ INF_MACRO_STEP ∨ safe → NeverHalts T init) →
      (∀ y, x = some y → (r ≠ INF_MACRO_STEP → QuasiRight T y) ∧ (safe → LastRight T y)) →
      Shape T steps safe (notHaltingW r ++ qW x)
  | recur (x : Option (Nat × Int)) : NeverHalts T init → QuasiRight T x →
      Shape T steps safe (quasiW x ++ notHaltingW INF_LIN_RECUR)

/-! ## The simulator -/

section
variable {T : Table} {σ S : Type} [DecidableEq σ] [DecidableEq S] {M : Machine σ S} {mean : DC σ S → DC Nat (Option Nat)}
  {Means : DC σ S → Config → Prop}

theorem pafter_succ (M : Machine σ S) (o : Opts) (n : Nat) : pafter M o (n + 1) = (pafter M o n).step M o :=
  Function.iterate_succ_apply' _ _ _

theorem simLoop_pafter (o : Options) (fuel : Nat) : ∀ n p, simLoop M o fuel (pafter M o.rules n) = some p →
    ∃ m, p = pafter M o.rules m := by
  induction fuel with
  | zero => intro n p h; cases h
  | succ fuel ih =>
    intro n p h
    unfold simLoop at h
    split at h
    · rw [← pafter_succ] at h
      exact ih _ _ h
    · exact ⟨n, by simpa using h.symm⟩

/-- all about an infinite verdict -/
theorem pafter_inf (h : Stack T σ S M mean Means) (o : Opts) (ho : o.maxReps ≠ 0) (n : Nat)
    (hop : (pafter M o n).sim.op = .infRepeat) :
    ∃ r, (pafter M o n).sim.infReason = some r ∧ (r ≠ .macroStep ∨ FollowsInf T M Means → NeverHalts T init ∧
      ∀ q u, (pafter M o n).sim.steps ≤ u → VisitedAt T init q u → q ∈ (pafter M o n).sim.recur) ∧
      (r ≠ .macroStep → ∀ q, q ∈ (pafter M o n).sim.recur → VisitedForever T init q) := by
  obtain ⟨⟨TDen, hs, F⟩, hi, -⟩ := stack_ok h
  cases Props.tracks_of h o ho n with
  | same m h1 h2 =>
    rw [h1.reason, h1.recur, h1.steps]
    rcases (after_ok F hi m).1.inf (by rw [← h1.op]; exact hop) with h3 | h3
    · exact ⟨_, h3.1, fun _ => ⟨h3.2.1, fun q u => (h3.2.2 q).2 u⟩, fun _ q => (h3.2.2 q).1.2⟩
    · refine ⟨_, h3.1, fun hor => ?_, fun hne => absurd rfl hne⟩
      rcases hor with hor | hor
      · exact absurd rfl hor
      · exact h3.2 hor
  | proof m h1 h2 h3 h4 =>
    obtain ⟨h5, h6⟩ := loops_forever F (after_ok F hi m).1 h4
    have hst : (pafter M o n).sim.steps = (SimSt.after M m).steps := h3.steps
    refine ⟨_, h2, fun _ => ⟨h5, fun q u hu => (h6 q).2 u (by rw [← hst]; exact hu)⟩, fun _ q => (h6 q).1.2⟩

theorem report_shape (h : Stack T σ S M mean Means) (o : Options) (ho : o.rules.maxReps ≠ 0) (n : Nat) {safe : Prop}
    (hsafe : safe → FollowsInf T M Means) :
    Shape T o.computeSteps safe (report M o (pafter M o.rules n)).writes ∧
      (report M o (pafter M o.rules n)).ending = .returned := by
  have hE := Props.C49_run_exact h o.rules ho n
  unfold report
  split
  · exact ⟨.nothing, rfl⟩
  · split
    · rename_i hop; exact absurd hop hE.safe
    · exact ⟨.nothing, rfl⟩
    · exact ⟨.nothing, rfl⟩
    · rename_i hop
      obtain ⟨r, hr, h1, h2⟩ := pafter_inf h o.rules ho n hop
      rw [hr]
      simp only
      refine ⟨?_, trivial⟩
      rw [infRecurW_eq]
      have hcode : reasonCode r ≠ INF_MACRO_STEP → r ≠ .macroStep := by rintro h3 rfl; exact h3 rfl
      refine .infinite _ _ ?_ (fun hor => (h1 (hor.imp hcode hsafe)).1) ?_
      · cases r <;> simp [reasonCode, INF_MACRO_STEP, INF_CHAIN_STEP, INF_PROOF_SYSTEM]
      · intro y hy
        obtain ⟨hok, hseen⟩ := Props.C49_run_last_seen h o.rules ho n
        have hkeys := (pinv_after M o.rules n).keys
        generalize hp : pafter M o.rules n = p at *
        -- the data is computed from the visits and the recurring states
        have hy' : recurData (some p.sim.recur) (some p.sim.seen) = some y := by
          revert hy
          split <;> split <;> intro hy <;> first | exact hy | cases hy
        clear hy
        have hmem : ∀ q u, (q, u) ∈ p.sim.seen ↔ LastSeen T init p.sim.steps q u := fun q u => by
          rw [Py.mem_iff_dget hkeys]; exact (hseen q).1 u
        have hvis : ∀ q t, t < p.sim.steps → VisitedAt T init q t → ∃ u, t ≤ u ∧ (q, u) ∈ p.sim.seen := by
          intro q t ht hv
          obtain ⟨u, hu⟩ := lastSeen_exists ht hv
          refine ⟨u, ?_, (hmem q u).2 hu⟩
          by_contra hlt
          exact hu.2.2 t (by omega) ht hv
        unfold recurData at hy'
        simp only at hy'
        rcases recurLoop_spec p.sim.recur (p.sim.seen.map fun e => (e.1, (e.2 : Int))) none (-1) with
          ⟨e1, e2⟩ | ⟨q, l, e1, e2, e3, e4, e5⟩
        · rw [e1] at hy'
          cases hy'
          refine ⟨fun hne q t hv => ?_, fun _ => trivial⟩
          have hm := hcode hne
          refine h2 hm q ?_
          by_contra hq
          rcases Nat.lt_or_ge t p.sim.steps with ht | ht
          · obtain ⟨u, -, hu⟩ := hvis q t ht hv
            have := e2 (q, (u : Int)) (List.mem_map.2 ⟨_, hu, rfl⟩) hq
            simp only at this
            omega
          · exact hq ((h1 (Or.inl hm)).2 q t ht hv)
        · rw [e1] at hy'
          simp only [Option.some.injEq] at hy'
          subst hy'
          obtain ⟨⟨q0, u⟩, hu, hq0⟩ := List.mem_map.1 e2
          simp only [Prod.mk.injEq] at hq0
          obtain ⟨rfl, rfl⟩ := hq0
          have hls := (hmem q0 u).1 hu
          have hlast : (r ≠ .macroStep ∨ FollowsInf T M Means) → ∀ t, u + 1 ≤ t → ¬ VisitedAt T init q0 t := by
            intro hor t ht hv
            rcases Nat.lt_or_ge t p.sim.steps with ht' | ht'
            · exact hls.2.2 t (by omega) ht' hv
            · exact e3 ((h1 hor).2 q0 t ht' hv)
          refine ⟨fun hne => ⟨u + 1, by simp, by omega, hls.2.1, hlast (Or.inl (hcode hne)), fun q' t ht hv => ?_⟩,
            fun hs => ⟨u + 1, by simp, by omega, hls.2.1, hlast (Or.inr (hsafe hs))⟩⟩
          have hm := hcode hne
          refine h2 hm q' ?_
          by_contra hq'
          rcases Nat.lt_or_ge t p.sim.steps with ht' | ht'
          · obtain ⟨v, hv1, hv2⟩ := hvis q' t ht' hv
            have := e5 (q', (v : Int)) (List.mem_map.2 ⟨_, hv2, rfl⟩) hq'
            simp only at this
            omega
          · exact hq' ((h1 (Or.inl hm)).2 q' t ht' hv)
    all_goals
      rename_i hop
      obtain ⟨g1, -, g3, a, q, g4, g5, g6, -⟩ := hE.halted (by simp [hop])
      rw [g4]
      simp only
      refine ⟨?_, trivial⟩
      rw [g3]
      exact .halts _ _ _ g1 g5 g6

theorem simulate_shape (h : Stack T σ S M mean Means) (o : Options) (ho : o.rules.maxReps ≠ 0) (fuel : Nat) {safe : Prop}
    (hsafe : safe → FollowsInf T M Means) :
    Shape T o.computeSteps safe (simulate M o fuel).writes ∧
      ((simulate M o fuel).ending = .raised → o.prover = false) := by
  unfold simulate
  split
  · cases hl : simLoop M o fuel (PSim.init M) with
    | none => exact ⟨.nothing, fun h => by cases h⟩
    | some p =>
      simp only
      obtain ⟨m, rfl⟩ := simLoop_pafter (M := M) o fuel 0 p hl
      rw [if_neg (Props.C49_run_refines h o.rules ho m).2]
      obtain ⟨h1, h2⟩ := report_shape h o ho m hsafe
      exact ⟨h1, fun hh => by rw [h2] at hh; cases hh⟩
  · rename_i hp
    exact ⟨.nothing, fun _ => by simpa using hp⟩

end

theorem runSimulator_shape (T : Table) (o : Options) (e : Env) (ho : o.rules.maxReps ≠ 0) :
    Shape T o.computeSteps (Safe T o e) (runSimulator T o e).writes ∧
      ((runSimulator T o e).ending = .raised → o.prover = false) := by
  unfold runSimulator
  extract_lets loops size cutoff
  have hsize : size ≠ .raised ∧ size ≠ .size 0 := by
    unfold size
    split
    · rename_i hb
      simpa using hb
    · generalize Params.mk _ _ _ _ _ = p
      constructor
      · intro hr
        rcases Props.blockFinder_cases T e.maxBlock e.maxBack e.quot p with hc | ⟨opt, h1, h2, hc⟩
        · rw [hc] at hr; cases hr
        · rw [hc] at hr
          unfold chooseMult at hr
          split at hr
          · cases hr
          · split at hr
            · cases hr
            · rename_i hl
              rcases Props.multLoop_out T e.maxBlock e.maxBack e.quot p hl h1 e.fuel 1 1 0 le_rfl le_rfl
                (by rwa [Nat.one_mul]) with hu | ⟨k, hk, -⟩
              · rw [hu] at hr; cases hr
              · rw [hk] at hr; cases hr
      · intro h0
        exact absurd (Props.blockFinder_pos h0) (by omega)
  clear_value size
  cases size with
  | raised => exact absurd rfl hsize.1
  | unfinished => exact ⟨.nothing, fun h => by cases h⟩
  | size k =>
    have hk : k ≠ 0 := by rintro rfl; exact hsize.2 rfl
    simp only
    rw [if_neg hk]
    have F1 := simple_follows T
    have I2 := block_inf F1 (simple_noGiveUp T) (simple_inf T) (Nat.pos_of_ne_zero hk) 0 e.maxBlock 0
    have hctl := Props.C22_ctl2_sound T k 0 e.maxBlock e.maxBack (by omega) cutoff e.ctlRounds
    have hyes : NeverHalts T init → Shape T o.computeSteps (Safe T o e) (notHaltingW INF_CTL ++ [.qDecided false]) := fun hn =>
      .infinite INF_CTL none (by decide) (fun _ => hn) (fun y hy => by cases hy)
    by_cases h1 : k = 1
    · simp only [if_pos h1]
      split
      · rename_i hc
        rw [Bool.and_eq_true] at hc
        exact ⟨hyes (hctl.2.2.1 hc.2), fun h => by cases h⟩
      · split
        · exact simulate_shape (Stack.back e.maxBack) o ho e.fuel
            (fun _ => back_inf F1 (simple_noGiveUp T) (simple_inf T) e.maxBack)
        · exact simulate_shape Stack.simple o ho e.fuel (fun _ => simple_inf T)
    · simp only [if_neg h1]
      split
      · rename_i hc
        rw [Bool.and_eq_true] at hc
        exact ⟨hyes (hctl.2.2.2 hc.2), fun h => by cases h⟩
      · split
        · rename_i hb
          refine simulate_shape (Stack.nested k 0 e.maxBlock e.maxBack (by omega)) o ho e.fuel (fun hs => ?_)
          rcases hs with hs | hs
          · rw [hs] at hb; cases hb
          · exact back_inf (block_follows F1 (simple_shift _) (by omega) 0 e.maxBlock 0)
              (fun c cfg h => hs k (by omega) c cfg h.1 h.2) I2 e.maxBack
        · exact simulate_shape (Stack.block k 0 e.maxBlock (by omega)) o ho e.fuel (fun _ => I2)

theorem linRecur_shape (T : Table) (o : Options) (fuel : Nat) {safe : Prop} :
    Shape T o.computeSteps safe (linRecur T o fuel).writes ∧ ((linRecur T o fuel).ending = .raised → o.linSteps = 1) ∧
      ((linRecur T o fuel).writes = [] ∨ ∀ s s', applyWrites s (linRecur T o fuel).writes = some s' → s'.halt.decided = true) := by
  unfold linRecur
  cases h : LinRecur.filter T o.linSteps o.linMin fuel with
  | none => exact ⟨.nothing, fun h => (by cases h), Or.inl rfl⟩
  | some out =>
    cases out with
    | raise => exact ⟨.nothing, fun _ => (Props.C17_lin_recur_other T o.linSteps fuel o.linMin).1 h, Or.inl rfl⟩
    | unknown => exact ⟨.nothing, fun h => (by cases h), Or.inl rfl⟩
    | halting n info =>
      obtain ⟨h1, q, a, rfl, h2, h3, -⟩ := Props.C17_lin_recur_halting T o.linSteps fuel o.linMin n info h
      refine ⟨.exact n q a h1 h2 h3, fun h => (by cases h), Or.inr fun s s' hs => ?_⟩
      simp only [haltingW_apply, Option.some.injEq] at hs
      rw [← hs]
    | recur st p d used quasi =>
      have hn := (Props.C17_lin_recur_sound T o.linSteps fuel o.linMin st p d used quasi h).2.1
      obtain ⟨-, h1, h2⟩ := Props.C19_quasihalt T o.linSteps fuel o.linMin st p d used quasi h
      cases quasi with
      | none =>
        refine ⟨.recur none hn (h1 rfl), fun h => (by cases h), Or.inr fun s s' hs => ?_⟩
        simp only [writes_append, show quasiW none = qW (some none) from rfl, qW_apply, Option.bind_some, notHaltingW_apply,
          Option.some.injEq] at hs
        rw [← hs]; rfl
      | some x =>
        obtain ⟨k, n⟩ := x
        obtain ⟨q, rfl, h3⟩ := h2 k n rfl
        refine ⟨.recur (some (q, n)) hn ⟨n, rfl, h3⟩, fun h => (by cases h), Or.inr fun s s' hs => ?_⟩
        simp only [writes_append, show quasiW (some (q, (n : Int))) = qW (some (some (q, n))) from rfl, qW_apply,
          Option.bind_some, notHaltingW_apply, Option.some.injEq] at hs
        rw [← hs]; rfl

theorem runOptions_shape (T : Table) (nS nK : Nat) (wf : WFTable T nS nK) (o : Options) (e : Env)
    (ho : o.rules.maxReps ≠ 0) (s : BBStatus) :
    Shape T o.computeSteps (Safe T o e) (runOptions T nS nK o e s).writes ∧
      ((runOptions T nS nK o e s).ending = .raised → o.linSteps = 1 ∨ o.prover = false) := by
  unfold runOptions
  extract_lets re lr r
  have hre : re = some false ∨ re = some true ∧ NeverHalts T init := by
    unfold re
    split
    · obtain ⟨b, hb⟩ := Props.C14_reverse_engineer_total T nS nK
      rw [hb]
      cases b with
      | false => exact Or.inl rfl
      | true => exact Or.inr ⟨rfl, Props.C14_reverse_engineer_sound T nS nK wf hb⟩
    · exact Or.inl rfl
  clear_value re
  rcases hre with rfl | ⟨rfl, hn⟩
  · simp only
    have hlr : Shape T o.computeSteps (Safe T o e) lr.writes ∧ (lr.ending = .raised → o.linSteps = 1) ∧
        (lr.writes = [] ∨ o.linSteps ≠ 0 ∧ ∀ s s', applyWrites s lr.writes = some s' → s'.halt.decided = true) := by
      unfold lr
      split
      · rename_i hl
        obtain ⟨h1, h2, h3⟩ := linRecur_shape T o e.fuel (safe := Safe T o e)
        exact ⟨h1, h2, h3.imp id fun h => ⟨hl, h⟩⟩
      · exact ⟨.nothing, fun h => (by cases h), Or.inl rfl⟩
    clear_value lr
    obtain ⟨h1, h2, h3⟩ := hlr
    split
    · rename_i hend
      obtain ⟨s', hs'⟩ := writes_total lr.writes s
      rw [hs']
      simp only
      split
      · exact ⟨h1, fun h => Or.inl (h2 h)⟩
      · rename_i hnd
        split
        · have hw : lr.writes = [] := by
            rcases h3 with h3 | ⟨h3, h4⟩
            · exact h3
            · exact absurd ⟨h3, h4 s s' hs'⟩ hnd
          rw [hw, List.nil_append]
          obtain ⟨h4, h5⟩ := runSimulator_shape T o e ho
          exact ⟨h4, fun h => Or.inr (h5 h)⟩
        · exact ⟨h1, fun h => Or.inl (h2 h)⟩
    · exact ⟨h1, fun h => Or.inl (h2 h)⟩
  · exact ⟨.infinite INF_REVERSE_ENGINEER none (by decide) (fun _ => hn) (fun y hy => by cases hy), fun h => by cases h⟩

/-! ## Ending -/

theorem simLoop_ends {σ S : Type} [DecidableEq σ] [DecidableEq S] (M : Machine σ S) (o : Options) (hm : o.maxLoops ≠ 0) (fuel : Nat) :
    ∀ n, o.maxLoops - n < fuel → simLoop M o fuel (pafter M o.rules n) ≠ none := by
  induction fuel with
  | zero => intro n h; omega
  | succ fuel ih =>
    intro n h
    unfold simLoop
    split
    · rename_i hc
      have hl := ((pinv_after M o.rules n).run hc.2.1).1
      rw [← pafter_succ]
      exact ih (n + 1) (by have := hc.1; omega)
    · simp

theorem simulate_ends {σ S : Type} [DecidableEq σ] [DecidableEq S] (M : Machine σ S) (o : Options) (hm : o.maxLoops ≠ 0) {fuel : Nat}
    (hf : o.maxLoops < fuel) : (simulate M o fuel).ending ≠ .running := by
  unfold simulate
  split
  · have h := simLoop_ends M o hm fuel 0 (by omega)
    rw [show pafter M o.rules 0 = PSim.init M from rfl] at h
    cases hl : simLoop M o fuel (PSim.init M) with
    | none => exact absurd hl h
    | some p =>
      simp only
      split
      · simp
      · unfold report
        split
        · simp
        · split <;> try simp
          · split <;> simp
          · split <;> simp
          · split <;> simp
  · simp

theorem linRecur_ends (T : Table) (o : Options) (fuel : Nat) (hl : o.linSteps ≠ 0) (hf : o.linSteps ≤ fuel) :
    (linRecur T o fuel).ending ≠ .running := by
  unfold linRecur
  have h := Props.C17_lin_recur_ends T o.linSteps fuel o.linMin hl hf
  split <;> try simp
  rename_i h'
  exact absurd h' h

end Model.Pipeline
