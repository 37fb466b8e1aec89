import Verif.Spec.RecursiveSafe
import Verif.Lemmas.RecSafeProve

/-! # Sums that are refused, and the simulator that goes on -/

namespace Model.Recursive
open Spec Model Model.Expr Model.Prover Model.Series

/-! ## Sums of normal expressions are normal -/

/-- what is summed is in the form the code builds if its parts are -/
def SumsNormal (how : Sums) : Prop :=
  ∀ each k N t, Val.Normal each → Val.Normal N → @Sums.sum how each k N = .ok t → Val.Normal t

theorem vars_sub {vs ws : List VarPow} (h : VarsNormal vs) (hs : ws.Sublist vs) (hne : ws ≠ []) : VarsNormal ws :=
  ⟨hne, h.sorted.sublist hs, fun v hv => h.pos v (hs.subset hv)⟩

theorem factorLoop_eq (k : Nat) : ∀ (vs : List VarPow) (p : Nat) (rest : List VarPow),
    (factorLoop k vs p rest).2 = rest ++ vs.filter (·.var ≠ k)
  | [], p, rest => by simp [factorLoop]
  | v :: vs, p, rest => by
    unfold factorLoop
    split
    · next h => rw [factorLoop_eq k vs, List.filter_cons_of_neg (by simpa using h)]
    · next h => rw [factorLoop_eq k vs, List.filter_cons_of_pos (by simpa using h)]; simp

theorem rest_normal {t : Term ℚ} (hv : VarsNormal t.vars) (hc : t.coef ≠ 0) (k : Nat) :
    Val.Normal (if t.vars.filter (·.var ≠ k) = [] then (.num t.coef : W) else .expr ⟨[⟨t.vars.filter (·.var ≠ k), t.coef⟩], 0⟩) := by
  split
  · trivial
  · next h => exact single_normal (vars_sub hv List.filter_sublist h) hc 0

theorem factorVar_normal {t : Term ℚ} (hv : VarsNormal t.vars) (hc : t.coef ≠ 0) (k : Nat) : Val.Normal (factorVar t k).2 := by
  have h := rest_normal hv hc k
  have e := factorLoop_eq k t.vars 0 []
  rw [List.nil_append] at e
  unfold factorVar
  rcases hf : factorLoop k t.vars 0 [] with ⟨p, rest⟩
  rw [hf] at e
  simp only at e ⊢
  subst e
  split
  · next hr => rw [if_neg hr] at h; exact h
  · trivial

theorem floorDiv_normal {x y : W} {n : Nat} (hx : Val.Normal x) (h : floorDiv x n = .ok y) : Val.Normal y := by
  cases x with
  | num a => cases h; trivial
  | expr e =>
    unfold floorDiv at h
    simp only at h
    split at h
    · next q hq =>
      cases h
      unfold divS at hq
      split at hq
      · cases hq; exact hx
      split at hq
      · cases hq
      next hn =>
      cases hq
      refine ⟨fun t ht => ?_, ?_, fun t ht => ?_⟩
      · obtain ⟨u, hu, rfl⟩ := List.mem_map.1 ht
        exact hx.vars u hu
      · show (List.map _ e.terms).Pairwise _
        rw [List.pairwise_map]; exact hx.sorted
      · obtain ⟨u, hu, rfl⟩ := List.mem_map.1 ht
        exact div_ne_zero (hx.coef u hu) hn
    · cases h

theorem code_normal : SumsNormal codeSums := by
  intro each k N total he hN h
  cases each with
  | num c => cases h; exact mul_normal (a := .num c) trivial hN
  | expr e =>
    replace h : seriesLoop k N e.terms ((Val.num e.const).mul N) = .ok total := h
    have loop : ∀ (ts : List (Term ℚ)) (x : W), (∀ t ∈ ts, VarsNormal t.vars ∧ t.coef ≠ 0) → Val.Normal x →
        seriesLoop k N ts x = .ok total → Val.Normal total := by
      intro ts
      induction ts with
      | nil => intro x _ hx h; cases h; exact hx
      | cons t ts ih =>
        intro x ht hx h
        unfold seriesLoop at h
        split at h
        · cases h
        next v hv =>
        refine ih _ (fun t' h' => ht t' (by simp [h'])) (add_normal hx ?_) h
        obtain ⟨h1, h2⟩ := ht t (by simp)
        have hr := factorVar_normal h1 h2 k
        have hN1 : Val.Normal (N.sub (.num 1)) := sub_normal (b := .num 1) hN trivial
        unfold termSeries at hv
        simp only at hv
        split at hv
        · cases hv; exact mul_normal hr hN
        split at hv
        · exact floorDiv_normal (mul_normal (mul_normal hr hN) hN1) hv
        split at hv
        · exact floorDiv_normal (mul_normal (mul_normal (mul_normal hr hN) hN1)
            (sub_normal (b := .num 1) (mul_normal (a := .num 2) trivial hN) trivial)) hv
        split at hv
        · split at hv
          · next y hy => cases hv; exact pow_normal (floorDiv_normal (mul_normal (mul_normal hr hN) hN1) hy) 2
          · cases hv
        · cases hv
    exact loop e.terms _ (fun t ht => ⟨he.vars t ht, he.coef t ht⟩) (mul_normal (a := .num _) trivial hN) h

theorem exact_normal : SumsNormal exactSums := by
  intro each k N total he hN h
  cases each with
  | num c => cases h; exact mul_normal (a := .num c) trivial hN
  | expr e =>
    replace h : exactLoop k N e.terms ((Val.num e.const).mul N) = .ok total := h
    have loop : ∀ (ts : List (Term ℚ)) (x : W), (∀ t ∈ ts, VarsNormal t.vars ∧ t.coef ≠ 0) → Val.Normal x →
        exactLoop k N ts x = .ok total → Val.Normal total := by
      intro ts
      induction ts with
      | nil => intro x _ hx h; cases h; exact hx
      | cons t ts ih =>
        intro x ht hx h
        unfold exactLoop at h
        split at h
        · cases h
        next v hv =>
        refine ih _ (fun t' h' => ht t' (by simp [h'])) (add_normal hx ?_) h
        obtain ⟨h1, h2⟩ := ht t (by simp)
        have hr := rest_normal h1 h2 k
        have hN1 : Val.Normal (N.sub (.num 1)) := sub_normal (b := .num 1) hN trivial
        unfold exactTerm at hv
        simp only at hv
        split at hv
        · cases hv; exact mul_normal hr hN
        split at hv
        · cases hv; exact mul_normal (b := .num _) (mul_normal (mul_normal hr hN) hN1) trivial
        split at hv
        · cases hv
          exact mul_normal (b := .num _) (mul_normal (mul_normal (mul_normal hr hN) hN1)
            (sub_normal (b := .num 1) (mul_normal (a := .num 2) trivial hN) trivial)) trivial
        split at hv
        · cases hv; exact mul_normal hr (pow_normal (mul_normal (b := .num _) (mul_normal hN hN1) trivial) 2)
        · cases hv
    exact loop e.terms _ (fun t ht => ⟨he.vars t ht, he.coef t ht⟩) (mul_normal (a := .num _) trivial hN) h

theorem default_total {how : Sums} (h : SumsNormal how) : @SumsTotal (withDefault how) := by
  intro each k N he hN
  cases hs : @Sums.sum how each k N with
  | ok t => exact ⟨t, by show Spec.defaultSum _ = _; rw [hs]; rfl, h _ _ _ _ he hN hs⟩
  | error e => exact ⟨.num 0, by show Spec.defaultSum _ = _; rw [hs]; rfl, trivial⟩

/-! ## Where `series_sum` refuses -/

theorem factorLoop_pow {k B : Nat} : ∀ (vs : List VarPow) (p : Nat) (rest : List VarPow), p ≤ B →
    (∀ v ∈ vs, v.var = k → v.pow ≤ B) → (factorLoop k vs p rest).1 ≤ B
  | [], p, rest, hp, _ => hp
  | v :: vs, p, rest, hp, h => by
    unfold factorLoop
    split
    · next e => exact factorLoop_pow vs _ _ (h v (by simp) e) (fun w hw => h w (by simp [hw]))
    · exact factorLoop_pow vs _ _ hp (fun w hw => h w (by simp [hw]))

theorem floorDiv_ok (x : W) {n : Nat} (hn : n ≠ 0) : ∃ y, floorDiv x n = .ok y := by
  cases x with
  | num a => exact ⟨_, rfl⟩
  | expr e =>
    unfold floorDiv divS
    simp only
    split
    · exact ⟨_, rfl⟩
    · next h =>
      exfalso
      split at h
      · cases h
      split at h
      · next h0 => exact hn (by exact_mod_cast h0)
      · cases h

theorem code_refuses {each N : W} {k : Nat} (h : LowPower each k) : ∃ t, @Sums.sum codeSums each k N = .ok t := by
  cases each with
  | num c => exact ⟨_, rfl⟩
  | expr e =>
    show ∃ t, seriesLoop k N e.terms ((Val.num e.const).mul N) = .ok t
    have loop : ∀ (ts : List (Term ℚ)) (x : W), (∀ t ∈ ts, ∀ v ∈ t.vars, v.var = k → v.pow ≤ 3) → ∃ y, seriesLoop k N ts x = .ok y := by
      intro ts
      induction ts with
      | nil => intro x _; exact ⟨_, rfl⟩
      | cons t ts ih =>
        intro x ht
        have hp : (factorVar t k).1 ≤ 3 := by
          have := factorLoop_pow (B := 3) t.vars 0 [] (by omega) (ht t (by simp))
          unfold factorVar
          rcases hf : factorLoop k t.vars 0 [] with ⟨p, rest⟩
          rw [hf] at this
          simp only
          split <;> exact this
        have hv : ∃ v, termSeries t k N = .ok v := by
          unfold termSeries
          simp only
          split
          · exact ⟨_, rfl⟩
          split
          · exact floorDiv_ok _ (by omega)
          split
          · exact floorDiv_ok _ (by omega)
          split
          · obtain ⟨y, hy⟩ := floorDiv_ok (((factorVar t k).2.mul N).mul (N.sub (.num 1))) (n := 2) (by omega)
            rw [hy]; exact ⟨_, rfl⟩
          · omega
        obtain ⟨v, hv⟩ := hv
        unfold seriesLoop
        rw [hv]
        exact ih _ (fun t' h' => ht t' (by simp [h']))
    exact loop _ _ h

/-! ## As long as no sum is refused the two simulators agree -/

section agree
variable {σ S : Type} {how : Sums}

theorem diff_agree (r : DiffRule σ) (tape : ChainTape σ V) (k : Nat) :
    @applyDiff _ how r tape k = @applyDiff _ (withDefault how) r tape k ∨ @applyDiff _ how r tape k = .raise := by
  unfold applyDiff
  cases scanHalf .L 0 r.init.left r.diff.left tape.left ⟨none, none, [], false⟩ with
  | raise => exact Or.inl rfl
  | fail => exact Or.inl rfl
  | ok sc =>
    simp only
    cases scanHalf .R 0 r.init.right r.diff.right tape.right sc with
    | raise => exact Or.inl rfl
    | fail => exact Or.inl rfl
    | ok sc =>
      simp only
      cases sc.reps with
      | none => exact Or.inl rfl
      | some reps =>
        simp only
        split
        · exact Or.inl rfl
        cases r.steps.subst (lineAt sc.vals (.expr (varE k))) with
        | error e => exact Or.inl rfl
        | ok each =>
          simp only
          cases hs : @Sums.sum how each k reps.toQ with
          | error e => exact Or.inr rfl
          | ok t =>
            left
            have e : @Sums.sum (withDefault how) each k reps.toQ = .ok t := by show Spec.defaultSum _ = _; rw [hs]; rfl
            rw [e]

theorem rule_agree (o : Opts) (r : Rule σ) (tape : ChainTape σ V) (nv : Nat) :
    @applyRule _ how o r tape nv = @applyRule _ (withDefault how) o r tape nv ∨ (@applyRule _ how o r tape nv).1 = .raise := by
  cases r with
  | diff r =>
    rcases diff_agree (how := how) r tape nv with h | h
    · exact Or.inl (congrArg (·, nv + 1) h)
    · exact Or.inr h
  | gen r => exact Or.inl rfl

variable [DecidableEq σ] [DecidableEq S] {M : Machine σ S}

theorem simStep_agree (o : Opts) (rs : Rules σ S) (g : Sim σ S) :
    @Sim.step _ _ how _ _ M o rs g = @Sim.step _ _ (withDefault how) _ _ M o rs g ∨
      (@Sim.step _ _ how _ _ M o rs g).sim.op = .raised := by
  unfold Sim.step
  split
  · exact Or.inl rfl
  simp only
  cases Py.dget rs (strip valIsOne g.sim.st g.sim.tape) with
  | none => exact Or.inl rfl
  | some r =>
    simp only
    rcases rule_agree (how := how) o r g.sim.tape g.nv with h | h
    · rw [h]; exact Or.inl rfl
    · right
      rcases hp : @applyRule _ how o r g.sim.tape g.nv with ⟨a, nv⟩
      rw [hp] at h
      simp only at h
      subst h
      rfl

theorem genLoop_agree (o : Opts) (rs : Rules σ S) : ∀ (k : Nat) (g : Sim σ S) (mins : List (Nat × Option Int)),
    @genLoop _ _ how _ _ M o rs k g mins = @genLoop _ _ (withDefault how) _ _ M o rs k g mins ∨
      @genLoop _ _ how _ _ M o rs k g mins = .raise
  | 0, g, mins => Or.inl rfl
  | k + 1, g, mins => by
    unfold genLoop
    cases g.sim.tape.half g.sim.tape.dir with
    | nil => exact Or.inl rfl
    | cons b bs =>
      simp only
      split
      · exact Or.inl rfl
      rcases simStep_agree (how := how) (M := M) o rs g with h | h
      · rw [← h]
        split
        · exact Or.inl rfl
        split
        · exact Or.inl rfl
        cases updMins ((@Sim.step _ _ how _ _ M o rs g).sim.tape.left ++ (@Sim.step _ _ how _ _ M o rs g).sim.tape.right) mins with
        | raise => exact Or.inl rfl
        | fail => exact Or.inl rfl
        | ok m => exact genLoop_agree o rs k _ m
      · exact Or.inr (if_pos h)

variable {adj : Nat → Mins → Mins}

theorem prove_default (o : Opts) (rs : Rules σ S) (key : Strip σ S) (st : S) (tape : ChainTape σ V) (delta : Int) (nv : Nat) :
    @proveWith _ _ _ _ how adj M o rs key st tape delta nv = @proveWith _ _ _ _ (withDefault how) adj M o rs key st tape delta nv ∨
      (@proveWith _ _ _ _ how adj M o rs key st tape delta nv).1 = .raise := by
  unfold proveWith
  cases Recursive.genHalf tape.left nv with
  | none => exact Or.inl rfl
  | some p =>
    obtain ⟨l, ml, nv1⟩ := p
    simp only
    cases Recursive.genHalf tape.right nv1 with
    | none => exact Or.inl rfl
    | some p =>
      obtain ⟨r, mr, nv2⟩ := p
      simp only
      rcases genLoop_agree (how := how) (M := M) o rs delta.toNat (⟨⟨⟨tape.dir, l, r⟩, st, tape.dir, .expr ⟨[], 0⟩, 0, [], .running, none, none, []⟩, .num 0, 0, nv2⟩)
        (ml ++ mr) with h | h
      · rw [h]; exact Or.inl rfl
      · rw [h]; exact Or.inr rfl

theorem log_default (o : Opts) (b : Base σ S) (loop : Nat) :
    @logWith _ _ _ _ how adj M o b loop = @logWith _ _ _ _ (withDefault how) adj M o b loop ∨
      (@logWith _ _ _ _ how adj M o b loop).2 = .raise := by
  unfold logWith
  simp only
  cases Py.dget b.rules (strip valIsOne b.g.sim.st b.g.sim.tape) with
  | some r =>
    simp only
    rcases rule_agree (how := how) o r b.g.sim.tape b.g.nv with h | h
    · rw [h]; exact Or.inl rfl
    · right
      rcases hp : @applyRule _ how o r b.g.sim.tape b.g.nv with ⟨a, nv⟩
      rw [hp] at h
      simp only at h
      subst h
      rfl
  | none =>
    simp only
    split
    · rcases prove_default (how := how) (M := M) (adj := adj) o b.rules (strip valIsOne b.g.sim.st b.g.sim.tape) b.g.sim.st b.g.sim.tape
        ((loop : Int) - (((Py.dget b.past (strip valIsOne b.g.sim.st b.g.sim.tape)).getD ⟨none, none⟩).log loop).1.lastLoop.getD 0)
        b.g.nv with h | h
      · rw [h]
        obtain ⟨a, nv⟩ := @proveWith _ _ _ _ (withDefault how) adj M o b.rules (strip valIsOne b.g.sim.st b.g.sim.tape) b.g.sim.st
          b.g.sim.tape
          ((loop : Int) - (((Py.dget b.past (strip valIsOne b.g.sim.st b.g.sim.tape)).getD ⟨none, none⟩).log loop).1.lastLoop.getD 0)
          b.g.nv
        cases a with
        | raise => exact Or.inl rfl
        | fail => exact Or.inl rfl
        | ok r =>
          simp only
          rcases rule_agree (how := how) o r b.g.sim.tape nv with h | h
          · rw [h]; exact Or.inl rfl
          · exact Or.inr h
      · right
        rcases hp : @proveWith _ _ _ _ how adj M o b.rules (strip valIsOne b.g.sim.st b.g.sim.tape) b.g.sim.st
          b.g.sim.tape
          ((loop : Int) - (((Py.dget b.past (strip valIsOne b.g.sim.st b.g.sim.tape)).getD ⟨none, none⟩).log loop).1.lastLoop.getD 0)
          b.g.nv with ⟨a, nv⟩
        rw [hp] at h
        simp only at h
        subst h
        rfl
    · exact Or.inl rfl

theorem step_default (o : Opts) (b : Base σ S) :
    @stepWith _ _ _ _ how adj M o b = @stepWith _ _ _ _ (withDefault how) adj M o b ∨
      (@stepWith _ _ _ _ how adj M o b).g.sim.op = .raised := by
  unfold stepWith
  split
  · exact Or.inl rfl
  simp only
  rcases log_default (how := how) (M := M) (adj := adj) o { b with g := { b.g with sim := { b.g.sim with loops := b.g.sim.loops + 1 } } }
    b.g.sim.loops with h | h
  · rw [h]; exact Or.inl rfl
  · right
    rcases hp : @logWith _ _ _ _ how adj M o { b with g := { b.g with sim := { b.g.sim with loops := b.g.sim.loops + 1 } } }
      b.g.sim.loops with ⟨b', out⟩
    rw [hp] at h
    simp only at h
    subst h
    rfl

theorem stay_raised [Sums] {o : Opts} {b : Base σ S} (h : b.g.sim.op = .raised) : stepWith adj M o b = b := by
  unfold stepWith
  rw [if_pos (by rw [h]; simp)]

theorem after_succ [Sums] (o : Opts) (n : Nat) : afterWith adj M o (n + 1) = stepWith adj M o (afterWith adj M o n) := by
  unfold afterWith
  rw [Function.iterate_succ_apply']

theorem after_zero [Sums] (o : Opts) : afterWith adj M o 0 = Base.init M := rfl

/-- Both simulators do the same, or a sum was refused. -/
theorem after_default (o : Opts) : ∀ n, @afterWith _ _ _ _ how adj M o n = @afterWith _ _ _ _ (withDefault how) adj M o n ∨
    (@afterWith _ _ _ _ how adj M o n).g.sim.op = .raised
  | 0 => by left; rw [@after_zero _ _ _ _ _ _ how, @after_zero _ _ _ _ _ _ (withDefault how)]
  | n + 1 => by
    have ih := after_default o n
    rw [@after_succ _ _ _ _ _ _ how, @after_succ _ _ _ _ _ _ (withDefault how)]
    rcases ih with h | h
    · rw [← h]; exact step_default o _
    · right
      rw [@stay_raised _ _ _ _ _ _ how _ _ h]; exact h

end agree

end Model.Recursive
