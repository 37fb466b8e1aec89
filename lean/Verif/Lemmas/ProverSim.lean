import Verif.Lemmas.ProverGenApply

/-! # The simulator with the proof system against the one without -/

namespace Model.Prover
open Spec Model
variable {σ S : Type}

theorem same_refl (c : SimSt σ S Nat) : SameSim c c := ⟨rfl, rfl, rfl, rfl, rfl, fun _ => rfl, fun _ => rfl, rfl, rfl⟩

theorem same_trans {a b c : SimSt σ S Nat} (h : SameSim a b) (h' : SameSim b c) : SameSim a c :=
  ⟨h'.tape.trans h.tape, h'.st.trans h.st, h'.dir.trans h.dir, h'.steps.trans h.steps, h'.op.trans h.op,
    fun q => (h'.seen q).trans (h.seen q), fun hc => (h'.cell hc).trans (h.cell (by rw [← h'.op]; exact hc)),
    h'.reason.trans h.reason, h'.recur.trans h.recur⟩

theorem addSeen_congr (new : List (Nat × Nat)) (base : Nat) : ∀ {a b : List (Nat × Nat)},
    (∀ q, Py.dget a q = Py.dget b q) →
    ∀ q, Py.dget (SimSt.addSeen natOps a base new) q = Py.dget (SimSt.addSeen natOps b base new) q := by
  unfold SimSt.addSeen
  induction new with
  | nil => exact fun h => h
  | cons e new ih =>
    intro a b h
    refine ih (fun q => ?_)
    rw [Py.dget_dset, Py.dget_dset, h]

variable [DecidableEq σ] [DecidableEq S]

theorem macroStep_same (M : Machine σ S) {c s : SimSt σ S Nat} (h : SameSim c s) :
    SameSim (c.macroStep natOps M) (s.macroStep natOps M) := by
  obtain ⟨tape, st, dir, steps, loops, seen, op, cell, reason, recur⟩ := c
  obtain ⟨tape', st', dir', steps', loops', seen', op', cell', reason', recur'⟩ := s
  obtain ⟨h1, h2, h3, h4, h5, h6, h7, h8, h9⟩ := h
  simp only at h1 h2 h3 h4 h5 h6 h7 h8 h9
  subst h1 h2 h3 h4 h5 h8 h9
  unfold SimSt.macroStep
  simp only
  cases htop : tape'.topSymbol with
  | none => exact ⟨rfl, rfl, rfl, rfl, rfl, h6, by simp [SimSt.raise], rfl, rfl⟩
  | some cur =>
    simp only
    generalize M.trans cur st' dir' = t
    by_cases c1 : t.cond = .raised
    · rw [if_pos c1, if_pos c1]
      exact ⟨rfl, rfl, rfl, rfl, rfl, h6, fun _ => rfl, rfl, rfl⟩
    rw [if_neg c1, if_neg c1]
    by_cases c2 : t.cond = .infRepeat
    · rw [if_pos c2, if_pos c2]
      exact ⟨rfl, rfl, rfl, rfl, rfl, h6, fun _ => rfl, rfl, rfl⟩
    rw [if_neg c2, if_neg c2]
    by_cases c3 : t.st = st' ∧ t.dir = dir' ∧ t.cond = .running
    · rw [if_pos c3, if_pos c3]
      match tape'.chainMove natOps t.sym with
      | none => exact ⟨rfl, rfl, rfl, rfl, rfl, h6, fun _ => rfl, rfl, rfl⟩
      | some (tp, none) => exact ⟨rfl, rfl, rfl, rfl, rfl, h6, fun _ => rfl, rfl, rfl⟩
      | some (tp, some reps) => exact ⟨rfl, rfl, rfl, rfl, rfl, addSeen_congr _ _ h6, fun _ => rfl, rfl, rfl⟩
    rw [if_neg c3, if_neg c3]
    by_cases c4 : t.cond ≠ .gaveUp
    · rw [if_pos c4, if_pos c4]
      match tape'.singleMove natOps t.sym t.dir with
      | none => exact ⟨rfl, rfl, rfl, rfl, rfl, h6, fun _ => rfl, rfl, rfl⟩
      | some tp => exact ⟨rfl, rfl, rfl, rfl, rfl, addSeen_congr _ _ h6, fun _ => rfl, rfl, rfl⟩
    · rw [if_neg c4, if_neg c4]
      exact ⟨rfl, rfl, rfl, rfl, rfl, h6, fun _ => rfl, rfl, rfl⟩

theorem step_same (M : Machine σ S) {c s : SimSt σ S Nat} (h : SameSim c s) :
    SameSim (c.step natOps M) (s.step natOps M) := by
  unfold SimSt.step
  by_cases hop : c.op ≠ .running
  · rw [if_pos hop, if_pos (by rw [h.op]; exact hop)]; exact h
  · rw [if_neg hop, if_neg (by rw [h.op]; exact hop)]
    exact macroStep_same M ⟨h.tape, h.st, h.dir, h.steps, h.op, h.seen, h.cell, h.reason, h.recur⟩

theorem steps_same (M : Machine σ S) (k : Nat) : ∀ {c s : SimSt σ S Nat}, SameSim c s →
    SameSim ((SimSt.step natOps M)^[k] c) ((SimSt.step natOps M)^[k] s) := by
  induction k with
  | zero => exact fun h => h
  | succ k ih => intro c s h; rw [Function.iterate_succ_apply, Function.iterate_succ_apply]; exact ih (step_same M h)

theorem loops_same (M : Machine σ S) {c s : SimSt σ S Nat} (h : SameSim c s) {states : List Nat} (hl : Loops M s states) :
    Loops M c states := by
  obtain ⟨k, hk, hl⟩ := hl
  refine ⟨k, hk, fun i => ?_⟩
  have h1 := steps_same M (k * i) h
  have h2 := steps_same M (k * (i + 1)) h
  obtain ⟨l1, l2, l3, l4, l5, l6⟩ := hl i
  refine ⟨?_, ?_, ?_, ?_, ?_, ?_⟩
  · rw [← h2.op]; exact l1
  · rw [← h1.steps, ← h2.steps]; exact l2
  · rw [← h2.reason, ← h.reason]; exact l3
  · rw [← h2.recur, ← h.recur]; exact l4
  · intro q hq
    obtain ⟨n, hn⟩ := l5 q hq
    exact ⟨n, by rw [← h2.seen q, ← h1.steps]; exact hn⟩
  · intro q hq
    rw [← h2.seen q, ← h1.seen q]; exact l6 q hq

omit [DecidableEq σ] [DecidableEq S] in
theorem setHalf_dir (t : ChainTape σ Nat) (d : Dir) (h : List (Blk σ Nat)) : (t.setHalf d h).dir = t.dir := by
  cases d <;> rfl

theorem macroStep_dir (M : Machine σ S) {s : SimSt σ S Nat} (h : s.dir = s.tape.dir) :
    (s.macroStep natOps M).dir = (s.macroStep natOps M).tape.dir := by
  unfold SimSt.macroStep
  cases htop : s.tape.topSymbol with
  | none => exact h
  | some cur =>
    simp only
    generalize M.trans cur s.st s.dir = t
    by_cases c1 : t.cond = .raised
    · rw [if_pos c1]; exact h
    rw [if_neg c1]
    by_cases c2 : t.cond = .infRepeat
    · rw [if_pos c2]; exact h
    rw [if_neg c2]
    by_cases c3 : t.st = s.st ∧ t.dir = s.dir ∧ t.cond = .running
    · rw [if_pos c3]
      have hd : ∀ r, s.tape.chainMove natOps t.sym = some r → r.1.dir = s.tape.dir := by
        intro r hr
        unfold ChainTape.chainMove at hr
        cases hh : s.tape.half s.tape.dir with
        | nil => rw [hh] at hr; cases hr
        | cons b rest =>
          rw [hh] at hr
          cases hn : b.num with
          | none => simp only [hn] at hr; cases hr; rfl
          | some n =>
            simp only [hn, setHalf_dir] at hr
            cases hp : ChainTape.push natOps t.sym n ((s.tape.setHalf s.tape.dir rest).half s.tape.dir.other) with
            | none => rw [hp] at hr; cases hr
            | some h' => rw [hp] at hr; cases hr; simp only [setHalf_dir]
      match hm : s.tape.chainMove natOps t.sym with
      | none => exact h
      | some (tp, none) => exact h.trans (hd _ hm).symm
      | some (tp, some reps) => exact h.trans (hd _ hm).symm
    rw [if_neg c3]
    by_cases c4 : t.cond ≠ .gaveUp
    · rw [if_pos c4]
      match hm : s.tape.singleMove natOps t.sym t.dir with
      | none => exact h
      | some tp =>
        show t.dir = tp.dir
        rw [singleMove_eq] at hm
        cases hp : ChainTape.popOne natOps (s.tape.half s.tape.dir) with
        | none => rw [hp] at hm; cases hm
        | some h' =>
          rw [hp] at hm
          simp only at hm
          cases hq : ChainTape.push natOps t.sym (natOps.ofNat 1) ((s.tape.setHalf s.tape.dir h').half t.dir.other) with
          | none => rw [hq] at hm; cases hm
          | some h'' => rw [hq] at hm; cases hm; rfl
    · rw [if_neg c4]; exact h


theorem step_dir (M : Machine σ S) {s : SimSt σ S Nat} (h : s.dir = s.tape.dir) :
    (s.step natOps M).dir = (s.step natOps M).tape.dir := by
  unfold SimSt.step
  by_cases hop : s.op ≠ .running
  · rw [if_pos hop]; exact h
  · rw [if_neg hop]; exact macroStep_dir M h

theorem steps_dir (M : Machine σ S) (k : Nat) {s : SimSt σ S Nat} (h : s.dir = s.tape.dir) :
    ((SimSt.step natOps M)^[k] s).dir = ((SimSt.step natOps M)^[k] s).tape.dir := by
  induction k with
  | zero => exact h
  | succ k ih => rw [Function.iterate_succ_apply']; exact step_dir M ih

/-! ## Applying a rule -/

/-- a result of the proof system is right for the simulator `s` -/
def ResOK (M : Machine σ S) (o : Opts) (s : SimSt σ S Nat) : Out (Res σ) → Prop
  | .raise => o.maxReps = 0 ∨ ∀ ok okS, Stays M ok okS → ok s.st → ¬ s.tape.All okS (fun _ => True)
  | .fail => True
  | .ok (.inf states) => Loops M s states
  | .ok (.apply tape n seen) => Py.NodupKeys seen ∧ ∃ k, 1 ≤ k ∧ Lands s ((SimSt.step natOps M)^[k] s) tape n seen

theorem applyRule_ok {z : σ} {M : Machine σ S} {r : Rule σ} {s : SimSt σ S Nat} (h : RuleOK M z (strip natIsOne s.st s.tape) r)
    (hop : s.op = .running) (hdir : s.dir = s.tape.dir) (hw : s.tape.WF z) (o : Opts) (nv : Nat) :
    ResOK M o s (applyRule o r s.tape nv).1 := by
  match r, h with
  | .diff r, ⟨ll, lr, h⟩ =>
    have := applyDiff_ok h hop hdir hw nv
    show ResOK M o s (applyDiff r s.tape nv)
    match hd : applyDiff r s.tape nv, this with
    | .raise, this => exact this.elim
    | .fail, _ => trivial
    | .ok (.inf states), this => exact this.2
    | .ok (.apply tape n seen), this =>
      obtain ⟨⟨R, hR, hL⟩, hk, -⟩ := this
      exact ⟨by rw [Py.NodupKeys, hk]; exact h.keys, _, Nat.mul_le_mul h.loops hR, hL⟩
  | .gen r, ⟨init, res, vl, vr, D, h⟩ =>
    have := applyGen_ok h hop hdir hw o
    show ResOK M o s (applyGen o r s.tape)
    match hd : applyGen o r s.tape, this with
    | .raise, this => exact Or.inl this
    | .fail, _ => trivial
    | .ok (.inf states), this => exact this.2
    | .ok (.apply tape n seen), this =>
      obtain ⟨R, hR, -, hL, hk, -, -⟩ := this
      exact ⟨by rw [Py.NodupKeys, hk]; exact h.keys, _, Nat.mul_le_mul h.loops hR, hL⟩

/-- what is known of the proof system before loop `loop` -/
structure ProverOK (M : Machine σ S) (z : σ) (p : Prover σ S) (loop : Nat) : Prop where
  rules : ∀ key r, Py.dget p.rules key = some r → RuleOK M z key r
  past : ∀ key a l, Py.dget p.past key = some a → a.lastLoop = some l → l < loop

theorem logAndApply_ok {z : σ} {M : Machine σ S} {p : Prover σ S} {s : SimSt σ S Nat} {loop : Nat} (hp : ProverOK M z p loop)
    (hop : s.op = .running) (hdir : s.dir = s.tape.dir) (hw : s.tape.WF z) (o : Opts) :
    ProverOK M z (logAndApply M o p s.st s.tape loop).1 (loop + 1) ∧
    ResOK M o s (logAndApply M o p s.st s.tape loop).2 := by
  have hmono : ProverOK M z p (loop + 1) := ⟨hp.rules, fun key a l h1 h2 => Nat.lt_succ_of_lt (hp.past key a l h1 h2)⟩
  unfold logAndApply
  simp only
  cases hr : Py.dget p.rules (strip natIsOne s.st s.tape) with
  | some r =>
    simp only
    have := applyRule_ok (hp.rules _ _ hr) hop hdir hw o p.nv
    match ha : applyRule o r s.tape p.nv, this with
    | (.raise, nv), this => exact ⟨⟨hmono.rules, hmono.past⟩, this⟩
    | (.fail, nv), this => exact ⟨⟨hmono.rules, hmono.past⟩, this⟩
    | (.ok res, nv), this => exact ⟨⟨hmono.rules, fun key a l h1 => by cases h1⟩, this⟩
  | none =>
    simp only
    unfold logAndProve
    simp only
    generalize hkey : strip natIsOne s.st s.tape = key at *
    generalize hpast : (Py.dget p.past key).getD ⟨none, none⟩ = past
    have hlast : ∀ l, past.lastLoop = some l → l < loop := by
      intro l hl
      cases hd : Py.dget p.past key with
      | none => rw [hd] at hpast; subst hpast; cases hl
      | some a => rw [hd] at hpast; subst hpast; exact hp.past key _ l hd hl
    have hlog : (∀ l, (past.log loop).1.lastLoop = some l → l ≤ loop) ∧
        ((past.log loop).2 = true → ∃ l, (past.log loop).1.lastLoop = some l ∧ l < loop) := by
      unfold Past.log
      cases h1 : past.lastLoop with
      | none => exact ⟨fun l h => by simp at h; omega, fun h => by cases h⟩
      | some last =>
        simp only
        cases h2 : past.lastDelta with
        | none => exact ⟨fun l h => by simp at h; omega, fun h => by cases h⟩
        | some d =>
          simp only
          by_cases h3 : d = 0 ∨ d ≠ (loop : Int) - last
          · rw [if_pos h3]; exact ⟨fun l h => by simp at h; omega, fun h => by cases h⟩
          · rw [if_neg h3]
            exact ⟨fun l h => by have := hlast l h; omega, fun _ => ⟨last, h1, hlast _ h1⟩⟩
    generalize past.log loop = pt at hlog
    obtain ⟨past', try'⟩ := pt
    simp only at hlog ⊢
    have hset : ∀ k a l, Py.dget (Py.dset p.past key past') k = some a → a.lastLoop = some l → l < loop + 1 := by
      intro k a l h1 h2
      rw [Py.dget_dset] at h1
      by_cases hk : k = key
      · rw [if_pos hk] at h1; cases h1; exact Nat.lt_succ_of_le (hlog.1 l h2)
      · rw [if_neg hk] at h1; exact hmono.past k a l h1 h2
    by_cases ht : try' = true
    · rw [if_pos ht]
      obtain ⟨l, hl, hlt⟩ := hlog.2 ht
      have hpr := proveRule_ok M s.st s.tape ((loop : Int) - past'.lastLoop.getD 0) p.nv hw (by
        rw [hl]; simp only [Option.getD_some]; omega)
      rw [hkey] at hpr
      generalize proveRule M key s.st s.tape ((loop : Int) - past'.lastLoop.getD 0) p.nv = pv at hpr
      obtain ⟨out, nv⟩ := pv
      match out, hpr with
      | .raise, hpr => exact ⟨⟨hmono.rules, hset⟩, Or.inr hpr⟩
      | .fail, hpr => exact ⟨⟨hmono.rules, hset⟩, trivial⟩
      | .ok r, hpr =>
        refine ⟨⟨fun k r' h1 => ?_, fun k a l' h1 h2 => ?_⟩, ?_⟩
        · simp only at h1
          rw [Py.dget_dset] at h1
          by_cases hk : k = key
          · rw [if_pos hk] at h1; cases h1; subst hk; exact hpr
          · rw [if_neg hk] at h1; exact hmono.rules k r' h1
        · simp only at h1
          by_cases hk : key = k
          · simp [Py.dget, hk] at h1; subst h1; cases h2
          · have hk' : (key == k) = false := by simpa using hk
            simp [Py.dget, hk'] at h1
        · exact applyRule_ok (by rw [hkey]; exact hpr) hop hdir hw o nv
    · rw [if_neg ht]
      by_cases hlen : (Py.dset p.past key past').length > o.maxConfigs
      · rw [if_pos hlen]; exact ⟨⟨hmono.rules, fun key a l h1 => by cases h1⟩, trivial⟩
      · rw [if_neg hlen]; exact ⟨⟨hmono.rules, hset⟩, trivial⟩


/-! ## The whole simulation -/

theorem after_wf (M : Machine σ S) (m : Nat) : (SimSt.after M m).tape.WF M.initSym ∧
    (SimSt.after M m).dir = (SimSt.after M m).tape.dir :=
  ⟨steps_wf M m (ChainTape.wf_init _ _), steps_dir M m rfl⟩

theorem after_add (M : Machine σ S) (m k : Nat) : (SimSt.step natOps M)^[k] (SimSt.after M m) = SimSt.after M (m + k) := by
  unfold SimSt.after
  rw [← Function.iterate_add_apply, Nat.add_comm]

theorem running_pred (M : Machine σ S) {m : Nat} (h : (SimSt.after M (m + 1)).op = .running) :
    (SimSt.after M m).op = .running := by
  by_contra hh
  rw [after_succ] at h
  unfold SimSt.step at h
  rw [if_pos hh] at h
  exact hh h

theorem after_stays {M : Machine σ S} {ok : S → Prop} {okS : σ → Prop} (hM : Stays M ok okS) (h1 : ok M.initSt)
    (h2 : okS M.initSym) (m : Nat) (hr : (SimSt.after M m).op = .running) :
    (SimSt.after M m).tape.All okS (fun _ => True) ∧ ok (SimSt.after M m).st := by
  induction m with
  | zero =>
    refine ⟨fun d b hb => ?_, h1⟩
    have : b = ⟨M.initSym, none⟩ := by cases d <;> simpa [SimSt.after, SimSt.init, ChainTape.init, ChainTape.half] using hb
    subst this
    exact ⟨h2, fun v hv => trivial⟩
  | succ m ih =>
    have hp := ih (running_pred M hr)
    rw [after_succ] at hr ⊢
    exact step_all hM ⟨fun _ _ _ _ => trivial, fun _ _ => trivial, trivial⟩ hp.1 hp.2 hr

/-- the running and non-running parameters that make no difference: before any stop they have their first values -/
theorem after_reason (M : Machine σ S) (m : Nat) (hr : (SimSt.after M m).op = .running) :
    (SimSt.after M m).infReason = none ∧ (SimSt.after M m).recur = [] := by
  induction m with
  | zero => exact ⟨rfl, rfl⟩
  | succ m ih =>
    have h0 := running_pred M hr
    have hp := ih h0
    rw [after_succ] at hr ⊢
    generalize SimSt.after M m = s at *
    unfold SimSt.step at hr ⊢
    rw [if_neg (by rw [h0]; simp)] at hr ⊢
    unfold SimSt.macroStep at hr ⊢
    simp only at hr ⊢
    cases htop : s.tape.topSymbol with
    | none => exact hp
    | some cur =>
      rw [htop] at hr
      simp only at hr ⊢
      generalize M.trans cur s.st s.dir = t at hr ⊢
      by_cases c1 : t.cond = .raised
      · rw [if_pos c1]; exact hp
      rw [if_neg c1] at hr ⊢
      by_cases c2 : t.cond = .infRepeat
      · rw [if_pos c2] at hr; simp only at hr; rw [c2] at hr; cases hr
      rw [if_neg c2] at hr ⊢
      by_cases c3 : t.st = s.st ∧ t.dir = s.dir ∧ t.cond = .running
      · rw [if_pos c3] at hr ⊢
        match hm : s.tape.chainMove natOps t.sym with
        | none => exact hp
        | some (tp, none) => rw [hm] at hr; cases hr
        | some (tp, some reps) => exact hp
      rw [if_neg c3]
      by_cases c4 : t.cond ≠ .gaveUp
      · rw [if_pos c4]
        match hm : s.tape.singleMove natOps t.sym t.dir with
        | none => exact hp
        | some tp => exact hp
      · rw [if_neg c4]; exact hp

theorem after_noProof (M : Machine σ S) (m : Nat) : (SimSt.after M m).infReason ≠ some .proofSystem := by
  induction m with
  | zero => intro h; cases h
  | succ m ih =>
    rw [after_succ]
    generalize SimSt.after M m = s at *
    unfold SimSt.step
    by_cases hop : s.op ≠ .running
    · rw [if_pos hop]; exact ih
    rw [if_neg hop]
    unfold SimSt.macroStep
    simp only
    cases htop : s.tape.topSymbol with
    | none => exact ih
    | some cur =>
      simp only
      generalize M.trans cur s.st s.dir = t
      by_cases c1 : t.cond = .raised
      · rw [if_pos c1]; exact ih
      rw [if_neg c1]
      by_cases c2 : t.cond = .infRepeat
      · rw [if_pos c2]; simp
      rw [if_neg c2]
      by_cases c3 : t.st = s.st ∧ t.dir = s.dir ∧ t.cond = .running
      · rw [if_pos c3]
        match s.tape.chainMove natOps t.sym with
        | none => exact ih
        | some (tp, none) => simp
        | some (tp, some reps) => exact ih
      rw [if_neg c3]
      by_cases c4 : t.cond ≠ .gaveUp
      · rw [if_pos c4]
        match s.tape.singleMove natOps t.sym t.dir with
        | none => exact ih
        | some tp => exact ih
      · rw [if_neg c4]; exact ih

theorem macroStep_keys (M : Machine σ S) {s : SimSt σ S Nat} (hk : Py.NodupKeys s.seen) :
    Py.NodupKeys (s.macroStep natOps M).seen ∧ (s.macroStep natOps M).loops = s.loops := by
  unfold SimSt.macroStep
  cases htop : s.tape.topSymbol with
  | none => exact ⟨hk, rfl⟩
  | some cur =>
    simp only
    generalize M.trans cur s.st s.dir = t
    by_cases c1 : t.cond = .raised
    · rw [if_pos c1]; exact ⟨hk, rfl⟩
    rw [if_neg c1]
    by_cases c2 : t.cond = .infRepeat
    · rw [if_pos c2]; exact ⟨hk, rfl⟩
    rw [if_neg c2]
    by_cases c3 : t.st = s.st ∧ t.dir = s.dir ∧ t.cond = .running
    · rw [if_pos c3]
      match hm : s.tape.chainMove natOps t.sym with
      | none => exact ⟨hk, rfl⟩
      | some (tp, none) => exact ⟨hk, rfl⟩
      | some (tp, some reps) => exact ⟨mergeSeen_nodup _ _ _ hk, rfl⟩
    rw [if_neg c3]
    by_cases c4 : t.cond ≠ .gaveUp
    · rw [if_pos c4]
      match hm : s.tape.singleMove natOps t.sym t.dir with
      | none => exact ⟨hk, rfl⟩
      | some tp => exact ⟨mergeSeen_nodup _ _ _ hk, rfl⟩
    · rw [if_neg c4]; exact ⟨hk, rfl⟩

/-- what is known of the simulator with proof system after `n` loops -/
structure PInv (M : Machine σ S) (o : Opts) (n : Nat) (p : PSim σ S) : Prop where
  keys : Py.NodupKeys p.sim.seen
  run : p.sim.op = .running → p.sim.loops = n ∧ ProverOK M M.initSym p.prover n
  tracks : Tracks M n p.sim ∨ (p.sim.op = .raised ∧
    (o.maxReps = 0 ∨ ∀ ok okS, Stays M ok okS → ok M.initSt → okS M.initSym → False))

theorem tracks_mono {M : Machine σ S} {n n' : Nat} {s : SimSt σ S Nat} (h : Tracks M n s) (hs : s.op ≠ .running) : Tracks M n' s := by
  cases h with
  | same m h1 h2 => exact .same m h1 (fun h => absurd h hs)
  | proof m h1 h2 h3 h4 => exact .proof m h1 h2 h3 h4

theorem pinv_step {M : Machine σ S} {o : Opts} {n : Nat} {p : PSim σ S} (h : PInv M o n p) : PInv M o (n + 1) (p.step M o) := by
  unfold PSim.step
  by_cases hop : p.sim.op ≠ .running
  · rw [if_pos hop]
    exact ⟨h.keys, fun hr => absurd hr hop, h.tracks.imp (fun ht => tracks_mono ht hop) id⟩
  rw [if_neg hop]
  push Not at hop
  obtain ⟨hloops, hpr⟩ := h.run hop
  obtain ⟨m, hsame, hnm⟩ : ∃ m, SameSim (SimSt.after M m) p.sim ∧ n ≤ m := by
    rcases h.tracks with ht | ht
    · cases ht with
      | same m h1 h2 => exact ⟨m, h1, h2 hop⟩
      | proof m h1 => rw [hop] at h1; cases h1
    · rw [hop] at ht; cases ht.1
  obtain ⟨hwf, hdr⟩ := after_wf M m
  have hmr : (SimSt.after M m).op = .running := by rw [← hsame.op]; exact hop
  simp only
  have hla := logAndApply_ok (s := { p.sim with loops := p.sim.loops + 1 }) hpr hop (by
    show p.sim.dir = p.sim.tape.dir
    rw [hsame.dir, hsame.tape]; exact hdr) (by
    show p.sim.tape.WF M.initSym
    rw [hsame.tape]; exact hwf) o
  simp only at hla
  rw [hloops]
  generalize logAndApply M o p.prover p.sim.st p.sim.tape n = la at hla
  obtain ⟨pr, out⟩ := la
  obtain ⟨hpr', hres⟩ := hla
  rw [hloops] at hres
  have hs' : SameSim (SimSt.after M m) { p.sim with loops := n + 1 } :=
    ⟨hsame.tape, hsame.st, hsame.dir, hsame.steps, hsame.op, hsame.seen, hsame.cell, hsame.reason, hsame.recur⟩
  match out, hres with
  | .raise, hres =>
    refine ⟨h.keys, fun hr => (by cases hr), Or.inr ⟨rfl, ?_⟩⟩
    rcases hres with hm | hst
    · exact Or.inl hm
    · refine Or.inr (fun ok okS hM h1 h2 => ?_)
      have := after_stays hM h1 h2 m hmr
      refine hst ok okS hM ?_ ?_
      · show ok p.sim.st
        rw [hsame.st]; exact this.2
      · show p.sim.tape.All okS _
        rw [hsame.tape]; exact this.1
  | .fail, hres =>
    have hk := macroStep_keys M (s := { p.sim with loops := n + 1 }) h.keys
    refine ⟨hk.1, fun hr => ⟨hk.2, hpr'⟩, Or.inl (.same (m + 1) ?_ (fun _ => by omega))⟩
    rw [after_succ]
    unfold SimSt.step
    rw [if_neg (by rw [hmr]; simp)]
    exact macroStep_same M ⟨hsame.tape, hsame.st, hsame.dir, hsame.steps, hsame.op, hsame.seen, hsame.cell, hsame.reason, hsame.recur⟩
  | .ok (.inf states), hres =>
    refine ⟨h.keys, fun hr => (by cases hr), Or.inl (.proof m rfl rfl ?_ (loops_same M hs' hres))⟩
    have := after_reason M m hmr
    exact ⟨hsame.tape, hsame.st, hsame.dir, hsame.steps, hmr.symm, hsame.seen,
      (by rintro (h | h) <;> cases h), this.1.symm, this.2.symm⟩
  | .ok (.apply tape steps seen), hres =>
    obtain ⟨hk, k, hk1, hL⟩ := hres
    refine ⟨mergeSeen_nodup _ _ _ h.keys, fun hr => ⟨rfl, hpr'⟩, Or.inl (.same (m + k) ?_ (fun _ => by omega))⟩
    have h2 := steps_same M k hs'
    rw [after_add] at h2
    refine same_trans h2 ⟨hL.tape.symm, hL.st.symm, hL.dir.symm, hL.steps.symm, ?_, fun q => ?_, ?_, hL.reason.symm, hL.recur.symm⟩
    · show p.sim.op = _
      rw [hL.op]; exact hop
    · show Py.dget (SimSt.addSeen natOps p.sim.seen p.sim.steps seen) q = _
      rw [addSeen_nat, mergeSeen_get _ _ _ hk, hL.seen q]; rfl
    · intro hc
      have hc' : p.sim.op = .halt ∨ p.sim.op = .undefined := hc
      rw [hop] at hc'
      rcases hc' with hc' | hc' <;> cases hc'

theorem pinv_after (M : Machine σ S) (o : Opts) (n : Nat) : PInv M o n (pafter M o n) := by
  induction n with
  | zero =>
    exact ⟨List.nodup_nil, fun _ => ⟨rfl, ⟨fun _ _ h => (by cases h), fun _ _ _ h => (by cases h)⟩⟩,
      Or.inl (.same 0 (same_refl _) (fun _ => le_refl _))⟩
  | succ n ih =>
    unfold pafter at ih ⊢
    rw [Function.iterate_succ_apply']
    exact pinv_step ih

end Model.Prover
