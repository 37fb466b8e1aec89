import Verif.Lemmas.RecSafe

/-! # The simulation in a proof never raises an exception -/

namespace Model.Recursive
open Spec Model Model.Expr Model.Prover Model.RuleFunc
variable {σ S : Type} {D : Nat → Prop}

theorem fine_closed (D : Nat → Prop) : valOps.Closed (Fine D) := ⟨fun _ _ => fine_add, fun _ h => fine_sub h _, fine_num _⟩

theorem fineT_iff {t : ChainTape σ V} : FineT D t ↔ t.All (fun _ => True) (Fine D) :=
  ⟨fun h d b hb => ⟨trivial, h d b hb⟩, fun h d b hb => (h d b hb).2⟩

theorem popOne_some {h : List (Blk σ V)} (hn : h ≠ []) : ∃ h', ChainTape.popOne valOps h = some h' := by
  cases h with
  | nil => exact absurd rfl hn
  | cons b r =>
    unfold ChainTape.popOne
    simp only
    split
    · exact ⟨_, rfl⟩
    · split <;> exact ⟨_, rfl⟩

theorem push_some [DecidableEq σ] (sym : σ) (n : V) {h : List (Blk σ V)} (hn : h ≠ []) : ∃ h', ChainTape.push valOps sym n h = some h' := by
  cases h with
  | nil => exact absurd rfl hn
  | cons b r =>
    unfold ChainTape.push
    simp only
    split
    · split <;> exact ⟨_, rfl⟩
    · exact ⟨_, rfl⟩

theorem singleMove_some [DecidableEq σ] {z : σ} {t : ChainTape σ V} (h : EndsT z t) (sym : σ) (d : Dir) : ∃ t', t.singleMove valOps sym d = some t' := by
  obtain ⟨h1, e1⟩ := popOne_some (h t.dir).ne
  obtain ⟨h2, e2⟩ := push_some sym (valOps.ofNat 1) ((ends_set h t.dir (popOne_ends (h _) e1)) d.other).ne
  exact ⟨_, by simp [ChainTape.singleMove, e1, e2]; rfl⟩

theorem chainMove_some [DecidableEq σ] {z : σ} {t : ChainTape σ V} (h : EndsT z t) (hf : FineT D t) (sym : σ) :
    ∃ t' r, t.chainMove valOps sym = some (t', r) ∧ ∀ v, r = some v → Fine D v := by
  unfold ChainTape.chainMove
  have hd := h t.dir
  have hfd := hf t.dir
  cases hh : t.half t.dir with
  | nil => rw [hh] at hd; cases hd
  | cons b rest =>
    rw [hh] at hd hfd
    cases hd with
    | last => exact ⟨t, none, rfl, by simp⟩
    | cons a v hr =>
      obtain ⟨h2, e2⟩ := push_some sym v ((ends_set h t.dir hr) (t.setHalf t.dir rest).dir.other).ne
      simp only [e2]
      refine ⟨_, _, rfl, fun w hw => ?_⟩
      cases hw
      exact hfd ⟨a, some v⟩ (by simp) v rfl

variable [DecidableEq σ] [DecidableEq S] {T : Table} {M : Machine σ S} {Den : DC σ S → Config → Prop}
  {TDen : DC σ S → (Int → Nat) → Prop} {hs : S → Prop} {z : σ} {y : Nat → Int} {cfg : Config}

theorem macroStep_safe (F : Follows T M Den TDen hs) {s : SimSt σ S V} (he : EndsT z s.tape) (hd : s.dir = s.tape.dir)
    {u : ChainTape σ Nat} (hu : TapeIs y s.tape u) (ht : TopPos y (s.tape.half s.tape.dir)) (hden : Den (tapeDC z u s.st) cfg)
    (hf : FineT D s.tape) : (s.macroStep valOps M).op ≠ .raised ∧ FineT D (s.macroStep valOps M).tape ∧
      (Val.Normal s.steps → Val.Normal (s.macroStep valOps M).steps) := by
  unfold SimSt.macroStep
  cases htop : s.tape.topSymbol with
  | none =>
    exfalso
    unfold ChainTape.topSymbol at htop
    have := (he s.tape.dir).ne
    cases hh : s.tape.half s.tape.dir with
    | nil => exact this hh
    | cons b r => rw [hh] at htop; cases htop
  | some cur =>
    have hsafe := F.safe _ _ hden
    rw [front_cells hu ht htop] at hsafe
    have hdd : (tapeDC z u s.st).dir = s.dir := hu.dir.symm.trans hd.symm
    rw [hdd] at hsafe
    replace hsafe : (M.trans cur s.st s.dir).cond ≠ .raised := hsafe
    simp only
    generalize M.trans cur s.st s.dir = t at hsafe
    rw [if_neg hsafe]
    split
    · exact ⟨hsafe, hf, id⟩
    split
    · obtain ⟨t', r, hc, hv⟩ := chainMove_some he hf t.sym
      have h1 := fineT_iff.2 (chainMove_all (fine_closed D) (fineT_iff.1 hf) trivial hc)
      rw [hc]
      cases r with
      | none => exact ⟨by simp, h1, id⟩
      | some v => exact ⟨hsafe, h1, fun hn => add_normal hn (mul_normal (a := .num _) trivial (hv v rfl).2.1)⟩
    split
    · obtain ⟨t', hc⟩ := singleMove_some he t.sym t.dir
      rw [hc]
      exact ⟨hsafe, fineT_iff.2 (singleMove_all (fine_closed D) (fineT_iff.1 hf) trivial _ hc), fun hn => add_normal hn (b := .num _) trivial⟩
    · exact ⟨hsafe, hf, id⟩

/-- the lengths and the numbers of steps of a simulation in a proof -/
structure SafeSim (D : Nat → Prop) (g : Sim σ S) : Prop where
  tape : FineT D g.sim.tape
  nv : ∀ x, D x → x < g.nv
  steps : Val.Normal g.sim.steps
  ruleSteps : Val.Normal g.ruleSteps

omit [DecidableEq σ] [DecidableEq S] in
theorem safe_lin {g : Sim σ S} (h : SafeSim D g) : LinSim D g := ⟨fun d b hb v hv => (h.tape d b hb v hv).1, h.nv⟩

variable [Sums]

theorem simStep_safe (hS : SumsTotal) (F : Follows T M Den TDen hs) {rs : Rules σ S} (hrs : RulesOK T Den z rs) (hrf : AllRules RuleFine rs)
    {o : Opts} (ho : o.maxReps ≠ 0) {g : Sim σ S} (hop : g.sim.op = .running) (he : EndsT z g.sim.tape) (hd : g.sim.dir = g.sim.tape.dir)
    {u : ChainTape σ Nat} (hu : TapeIs y g.sim.tape u) (ht : TopPos y (g.sim.tape.half g.sim.tape.dir))
    (hden : Den (tapeDC z u g.sim.st) cfg) (h : SafeSim D g) : (g.step M o rs).sim.op ≠ .raised ∧ SafeSim D (g.step M o rs) := by
  have hnv := step_nv (M := M) o rs g
  have mac := macroStep_safe F (s := { g.sim with loops := g.sim.loops + 1 }) he hd hu ht hden h.tape
  suffices hx : (g.step M o rs).sim.op ≠ .raised ∧ FineT D (g.step M o rs).sim.tape ∧ Val.Normal (g.step M o rs).sim.steps ∧
      Val.Normal (g.step M o rs).ruleSteps from
    ⟨hx.1, hx.2.1, fun x hx => Nat.lt_of_lt_of_le (h.nv x hx) hnv, hx.2.2.1, hx.2.2.2⟩
  unfold Sim.step
  rw [if_neg (by simp [hop])]
  simp only
  split
  · exact ⟨mac.1, mac.2.1, mac.2.2 h.steps, h.ruleSteps⟩
  · next r hr =>
    obtain ⟨a1, a2⟩ := applyRule_safe (D := D) hS (hrs _ _ hr) (hrf _ _ hr) (tape := g.sim.tape) rfl he h.tape ho g.nv
    split
    · next ha => exact absurd (congrArg Prod.fst ha) a1
    · exact ⟨mac.1, mac.2.1, mac.2.2 h.steps, h.ruleSteps⟩
    · next res nv ha =>
      have := a2 res (congrArg Prod.fst ha)
      cases res with
      | inf states => exact ⟨by simp [Sim.result], h.tape, h.steps, h.ruleSteps⟩
      | apply tape steps states large =>
        exact ⟨by simp [Sim.result, hop], this.1, h.steps, add_normal h.ruleSteps this.2⟩

/-- every variable of the proof has a smallest value -/
def GoodM (D : Nat → Prop) (mins : List (Nat × Option Int)) : Prop := ∀ x, D x → ∃ c, Py.dget mins x = some (some c)

omit [DecidableEq σ] [DecidableEq S] [Sums] in
theorem updMins_safe : ∀ {h : List (Blk σ V)} {mins : List (Nat × Option Int)}, FineH D h → GoodM D mins → updMins h mins ≠ .raise ∧
    ∀ mins', updMins h mins = .ok mins' → GoodM D mins'
  | [], mins, _, hm => ⟨by simp [updMins], fun _ h => by cases h; exact hm⟩
  | b :: h, mins, hf, hm => by
    rw [fineH_cons] at hf
    have one : updMin mins b.num ≠ .raise ∧ ∀ mins', updMin mins b.num = .ok mins' → GoodM D mins' := by
      unfold updMin
      cases hb : b.num with
      | none => exact ⟨by simp, fun _ h => by cases h; exact hm⟩
      | some v =>
        have hv := hf.1 v hb
        simp only
        split
        · exact ⟨by simp, fun _ h => by cases h; exact hm⟩
        · next x hx =>
          obtain ⟨c, hc⟩ := hm x (lin_variables hv.1 x (by rw [hx]; simp))
          obtain ⟨m, hmin⟩ := fine_min hv
          rw [hc, hmin]
          refine ⟨by simp, fun _ h => ?_⟩
          cases h
          intro x' hx'
          rw [Py.dget_dset]
          split
          · exact ⟨_, rfl⟩
          · exact hm x' hx'
        · simp
    unfold updMins
    split
    · next e => exact absurd e one.1
    · simp
    · next e => exact updMins_safe hf.2 (one.2 _ e)

theorem genLoop_safe (hS : SumsTotal) (F : Follows T M Den TDen hs) {rs : Rules σ S} (hrs : RulesOK T Den z rs) (hrf : AllRules RuleFine rs)
    {o : Opts} (ho : o.maxReps ≠ 0) (hy : ∀ x, 0 ≤ y x) :
    ∀ (k N : Nat) (g : Sim σ S) (mins : List (Nat × Option Int)), g.sim.op = .running → SafeSim D g → GoodM D mins →
    Inv T Den z y cfg N g.sim (Val.value (qy y) g.ruleSteps) → genLoop M o rs k g mins ≠ .raise ∧
      ∀ g' mins', genLoop M o rs k g mins = .ok (g', mins') → SafeSim D g' ∧ GoodM D mins' := by
  intro k
  induction k with
  | zero => intro N g mins _ hg hm _; exact ⟨by simp [genLoop], fun _ _ h => by cases h; exact ⟨hg, hm⟩⟩
  | succ k ih =>
    intro N g mins hop hg hm hi
    unfold genLoop
    split
    · next hh => exact absurd hh (hi.ends _).ne
    next b r hh =>
    split
    · simp
    next hb =>
    obtain ⟨u, n, h1, h2, h3, h4, h5⟩ := hi.run
    have ht := top_of_min hy hh hb
    obtain ⟨a1, a2⟩ := simStep_safe hS F hrs hrf ho hop hi.ends hi.dir h1 ht h3 hg
    simp only
    rw [if_neg a1]
    split
    · simp
    next hr =>
    simp only [ne_eq, not_not] at hr
    obtain ⟨b1, b2⟩ := updMins_safe (h := (g.step M o rs).sim.tape.left ++ (g.step M o rs).sim.tape.right) (D := D) (fun b hb => by
      rcases List.mem_append.1 hb with hb | hb
      · exact a2.tape .L b hb
      · exact a2.tape .R b hb) hm
    split
    · next e => exact absurd e b1
    · simp
    · next mins' e =>
      exact ih (N + 1) _ _ hr a2 (b2 _ e) (inv_next F hrs o hop hi hy ht hr (linSim_fresh (safe_lin hg)))

end Model.Recursive
