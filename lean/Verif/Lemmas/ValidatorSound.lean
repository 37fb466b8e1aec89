import Verif.Lemmas.ValidatorTape

/-!
# An accepted rule is true
-/

namespace Model.Validator
open Spec.Validator
open Spec (Dir)

variable {m : Mode}

theorem steps_trans {tm : TM} : ∀ {a b : Nat} {c d e : Spec.Config},
    Steps tm a c d → Steps tm b d e → Steps tm (a + b) c e
  | 0, b, c, d, e, h1, h2 => by
    have : d = c := h1
    subst this; simpa using h2
  | a + 1, b, c, d, e, ⟨q, h1, h2, h3⟩, h4 => by
    rw [show a + 1 + b = (a + b) + 1 by omega]
    exact ⟨q, h1, h2, steps_trans h3 h4⟩

theorem halfTapes_congr {c : Spec.Config} {d : Dir} {l r l' r' : Nat → Nat} (hl : l = l') (hr : r = r')
    (h : HalfTapes c d l r) : HalfTapes c d l' r' := by subst hl hr; exact h

/-- one step on half tapes, the head looking to the right -/
theorem halfTapes_step_R {c : Spec.Config} {l r : Nat → Nat} {a w : Nat} (h : HalfTapes c .R l (prepend [a] r)) (d : Dir) :
    c.tape c.pos = a ∧
    ∀ s, HalfTapes ⟨s, c.pos + d.delta, Function.update c.tape c.pos w⟩ d
      (match d with | .R => prepend [w] l | .L => l) (match d with | .R => r | .L => prepend [w] r) := by
  obtain ⟨p, h1, h2, h3⟩ := h
  simp only at h3
  refine ⟨?_, fun s => ?_⟩
  · have := h1 0
    simpa [h3, prepend_one_zero] using this
  cases d with
  | R =>
    refine ⟨p + 1, ?_, ?_, ?_⟩
    · intro i
      have h4 := h1 (i + 1)
      rw [prepend_one_succ] at h4
      simp only
      rw [Function.update_of_ne (by rw [h3]; omega), ← h4]
      congr 1; push_cast; ring
    · intro i
      cases i with
      | zero =>
        simp only [prepend_one_zero]
        rw [show p + 1 - 1 - ((0 : Nat) : Int) = c.pos by rw [h3]; simp]
        simp
      | succ i =>
        simp only [prepend_one_succ]
        rw [Function.update_of_ne (by rw [h3]; push_cast; omega), ← h2 i]
        congr 1; push_cast; ring
    · simp [h3, Dir.delta]
  | L =>
    refine ⟨p, ?_, ?_, ?_⟩
    · intro i
      cases i with
      | zero =>
        simp only [prepend_one_zero]
        rw [show p + ((0 : Nat) : Int) = c.pos by rw [h3]; simp]
        simp
      | succ i =>
        have h4 := h1 (i + 1)
        rw [prepend_one_succ] at h4
        simp only [prepend_one_succ]
        rw [Function.update_of_ne (by rw [h3]; push_cast; omega), ← h4]
    · intro i
      simp only
      rw [Function.update_of_ne (by rw [h3]; omega), ← h2 i]
    · simp only [h3, Dir.delta]; ring

/-- one step on half tapes, the head looking to the left -/
theorem halfTapes_step_L {c : Spec.Config} {l r : Nat → Nat} {a w : Nat} (h : HalfTapes c .L (prepend [a] l) r) (d : Dir) :
    c.tape c.pos = a ∧
    ∀ s, HalfTapes ⟨s, c.pos + d.delta, Function.update c.tape c.pos w⟩ d
      (match d with | .R => prepend [w] l | .L => l) (match d with | .R => r | .L => prepend [w] r) := by
  obtain ⟨p, h1, h2, h3⟩ := h
  simp only at h3
  refine ⟨?_, fun s => ?_⟩
  · have := h2 0
    simpa [h3, prepend_one_zero] using this
  cases d with
  | R =>
    refine ⟨p, ?_, ?_, ?_⟩
    · intro i
      simp only
      rw [Function.update_of_ne (by rw [h3]; omega), ← h1 i]
    · intro i
      cases i with
      | zero =>
        simp only [prepend_one_zero]
        rw [show p - 1 - ((0 : Nat) : Int) = c.pos by rw [h3]; simp]
        simp
      | succ i =>
        have h4 := h2 (i + 1)
        rw [prepend_one_succ] at h4
        simp only [prepend_one_succ]
        rw [Function.update_of_ne (by rw [h3]; push_cast; omega), ← h4]
    · simp [h3, Dir.delta]
  | L =>
    refine ⟨p - 1, ?_, ?_, ?_⟩
    · intro i
      cases i with
      | zero =>
        simp only [prepend_one_zero]
        rw [show p - 1 + ((0 : Nat) : Int) = c.pos by rw [h3]; simp]
        simp
      | succ i =>
        simp only [prepend_one_succ]
        rw [Function.update_of_ne (by rw [h3]; push_cast; omega), ← h1 i]
        congr 1; push_cast; ring
    · intro i
      have h4 := h2 (i + 1)
      rw [prepend_one_succ] at h4
      simp only
      rw [Function.update_of_ne (by rw [h3]; omega), ← h4]
      congr 1; push_cast; ring
    · simp only [h3, Dir.delta]; ring

theorem trans_ok {tm : TM} {q a : Nat} {t : Trans} (h : tm.trans q a = .ok t) :
    table tm q a = match t with
      | .undef => .undef
      | .to w d none => .halt w d
      | .to w d (some s) => .go w d s := by
  unfold TM.trans at h
  unfold table
  split at h
  · cases h
  · next row e =>
    rw [e]
    simp only
    split at h
    · cases h
    · next t' e' =>
      cases h
      rw [e']
      rcases t with _ | ⟨w, d, _ | s⟩ <;> rfl

/-- a step of the validator is a step of the machine -/
theorem step_ok (hw : m.wrap = false) {tm : TM} {k k' : Config} (h : k.step m tm = .ok k') {v L R : Nat → Nat}
    {c : Spec.Config} (hc : Instance v L R k c) : ∃ c', Steps tm 1 c c' ∧ Instance v L R k' c' := by
  obtain ⟨⟨a, t⟩, h1, h2⟩ := Run.bind_ok.1 h
  simp only at h2
  cases hq : k.state with
  | none => rw [hq] at h2; cases h2
  | some q =>
    rw [hq] at h2
    simp only at h2
    obtain ⟨tr, h3, h4⟩ := Run.bind_ok.1 h2
    have e3 := trans_ok h3
    obtain ⟨hs, ht⟩ := hc
    rw [hq] at hs
    refine ⟨Spec.step (table tm) c, ?_, ?_⟩
    · refine ⟨q, hs, ?_, rfl⟩
      have ha : c.tape c.pos = a := by
        cases hd : k.dir with
        | R =>
          rw [Config.front, hd] at h1
          rw [hd, HalfTape.pop_fill hw h1] at ht
          exact (halfTapes_step_R (w := 0) ht .R).1
        | L =>
          rw [Config.front, hd] at h1
          rw [hd, HalfTape.pop_fill hw h1] at ht
          exact (halfTapes_step_L (w := 0) ht .R).1
      rw [ha, e3]
      rcases tr with _ | ⟨w, d, _ | s⟩
      · cases h4
      · simp
      · simp
    · cases hd : k.dir with
      | R =>
        rw [hd] at h4 ht
        rw [Config.front, hd] at h1
        rw [HalfTape.pop_fill hw h1] at ht
        rcases tr with _ | ⟨w, d, s⟩
        · cases h4
        · obtain ⟨g1, g2⟩ := halfTapes_step_R (w := w) ht d
          have e5 : Spec.step (table tm) c = ⟨s, c.pos + d.delta, Function.update c.tape c.pos w⟩ := by
            simp only [Spec.step, hs, g1, e3]
            cases s <;> rfl
          rw [e5]
          have := g2 s
          cases d with
          | L =>
            cases h4
            exact ⟨rfl, by simpa [push_fill] using this⟩
          | R =>
            cases h4
            exact ⟨rfl, by simpa [push_fill] using this⟩
      | L =>
        rw [hd] at h4 ht
        rw [Config.front, hd] at h1
        rw [HalfTape.pop_fill hw h1] at ht
        rcases tr with _ | ⟨w, d, s⟩
        · cases h4
        · obtain ⟨g1, g2⟩ := halfTapes_step_L (w := w) ht d
          have e5 : Spec.step (table tm) c = ⟨s, c.pos + d.delta, Function.update c.tape c.pos w⟩ := by
            simp only [Spec.step, hs, g1, e3]
            cases s <;> rfl
          rw [e5]
          have := g2 s
          cases d with
          | L =>
            cases h4
            exact ⟨rfl, by simpa [push_fill] using this⟩
          | R =>
            cases h4
            exact ⟨rfl, by simpa [push_fill] using this⟩

theorem stepN_ok (hw : m.wrap = false) {tm : TM} {v L R : Nat → Nat} :
    ∀ n {k k' : Config} {c : Spec.Config}, k.stepN m tm n = .ok k' → Instance v L R k c →
      ∃ c', Steps tm n c c' ∧ Instance v L R k' c'
  | 0, k, k', c, h, hc => by cases h; exact ⟨c, rfl, hc⟩
  | n + 1, k, k', c, h, hc => by
    obtain ⟨k1, h1, h2⟩ := Run.bind_ok.1 h
    obtain ⟨c1, g1, g2⟩ := step_ok hw h1 hc
    obtain ⟨c2, g3, g4⟩ := stepN_ok hw n h2 g2
    exact ⟨c2, by rw [Nat.add_comm]; exact steps_trans g1 g3, g4⟩

/-- the rule is true for the values `v` of the variables -/
def HoldsAt (tm : TM) (v : Nat → Nat) (i f : Config) : Prop :=
  ∀ L R c, Instance v L R i c → ∃ n c', Steps tm n c c' ∧ Instance v L R f c'

theorem subst_instance (hw : m.wrap = false) (hs : m.strict = true) {σ : Subst} {k k' : Config}
    (h : k.subst m σ = .ok k') (v L R : Nat → Nat) (c : Spec.Config) :
    Instance v L R k' c ↔ Instance (through v σ) L R k c := by
  obtain ⟨l, h1, h2⟩ := Run.bind_ok.1 h
  obtain ⟨r, h3, h4⟩ := Run.bind_ok.1 h2
  cases h4
  unfold Instance
  simp only
  rw [HalfTape.subst_fill hw hs _ _ h1, HalfTape.subst_fill hw hs _ _ h3]

/-- replacing the left side of a true rule by its right side is a run of the machine -/
theorem tryApply_ok (hw : m.wrap = false) (hs : m.strict = true) {tm : TM} {fuel : Nat} {k k' : Config} {r : Rule} {σ : Subst}
    (h : tryApply m fuel k r σ = .ok k') {v L R : Nat → Nat} (hr : HoldsAt tm (through v σ) r.init r.final)
    {c : Spec.Config} (hc : Instance v L R k c) : ∃ n c', Steps tm n c c' ∧ Instance v L R k' c' := by
  obtain ⟨i, h1, h2⟩ := Run.bind_ok.1 h
  obtain ⟨f, h3, h4⟩ := Run.bind_ok.1 h2
  unfold Config.replace at h4
  split at h4
  · next he =>
    obtain ⟨l, h5, h6⟩ := Run.bind_ok.1 h4
    obtain ⟨rr, h7, h8⟩ := Run.bind_ok.1 h6
    cases h8
    obtain ⟨restl, gl, rfl⟩ := HalfTape.replace_fill hw hs h5
    obtain ⟨restr, gr, rfl⟩ := HalfTape.replace_fill hw hs h7
    have hi : Instance v (fill v restl L) (fill v restr R) i c := by
      refine ⟨hc.1.trans he.1, ?_⟩
      rw [← he.2]
      exact halfTapes_congr (gl v L) (gr v R) hc.2
    obtain ⟨n, c', g1, g2⟩ := hr _ _ c ((subst_instance hw hs h1 v _ _ c).1 hi)
    refine ⟨n, c', g1, ?_⟩
    have := (subst_instance hw hs h3 v _ _ c').2 g2
    refine ⟨this.1, ?_⟩
    exact halfTapes_congr (fill_append _ _ _).symm (fill_append _ _ _).symm this.2
  · cases h4

theorem equivalent_ok (hw : m.wrap = false) (hs : m.strict = true) {fuel : Nat} {k k' : Config}
    (h : k.equivalent m fuel k' = .ok true) {v L R : Nat → Nat} {c : Spec.Config} (hc : Instance v L R k c) :
    Instance v L R k' c := by
  unfold Config.equivalent at h
  split at h
  · next he =>
    obtain ⟨b, h1, h2⟩ := Run.bind_ok.1 h
    cases b with
    | false => simp at h2
    | true =>
      simp only [if_true] at h2
      refine ⟨hc.1.trans he.1, ?_⟩
      rw [← he.2]
      exact halfTapes_congr (HalfTape.equivalent_fill hw hs h1 v L) (HalfTape.equivalent_fill hw hs h2 v R) hc.2
  · simp at h

/-- the checked steps of a proof are runs of the machine, given the rules used -/
theorem validateProof_ok (hw : m.wrap = false) (hs : m.strict = true) {tm : TM} {fuel : Nat} {prev : List Rule}
    {ind : Option Rule} {final : Config} {v : Nat → Nat}
    (hp : ∀ r ∈ prev, Holds tm r.init r.final)
    (hi : ∀ r, ind = some r → ∀ w, w inductionVar = v inductionVar → HoldsAt tm w r.init r.final) :
    ∀ l (k : Config), .admit ∉ l → validateProof m fuel tm prev ind final l k = .ok () → HoldsAt tm v k final
  | [], k, _, h, L, R, c, hc => by
    obtain ⟨e, h1, h2⟩ := Run.bind_ok.1 h
    cases e with
    | false => simp at h2
    | true => exact ⟨0, c, rfl, equivalent_ok hw hs h1 hc⟩
  | s :: l, k, ha, h, L, R, c, hc => by
    have ha' : .admit ∉ l := fun q => ha (by simp [q])
    have h' : ∃ k1, applyStep m fuel tm k prev ind s = .ok k1 ∧ validateProof m fuel tm prev ind final l k1 = .ok () := by
      cases s with
      | admit => exact absurd (by simp) ha
      | tmSteps n => exact Run.bind_ok.1 h
      | rule id σ => exact Run.bind_ok.1 h
      | induct σ => exact Run.bind_ok.1 h
    obtain ⟨k1, h1, h2⟩ := h'
    have ih := validateProof_ok hw hs hp hi l k1 ha' h2
    have hstep : ∃ n c', Steps tm n c c' ∧ Instance v L R k1 c' := by
      cases s with
      | admit => exact absurd (by simp) ha
      | tmSteps n =>
        obtain ⟨c', g⟩ := stepN_ok hw n h1 hc
        exact ⟨n, c', g⟩
      | rule id σ =>
        simp only [applyStep] at h1
        split at h1
        · cases h1
        · next r e =>
          exact tryApply_ok hw hs h1 (fun L R c => hp r (List.mem_of_getElem? e) _ L R c) hc
      | induct σ =>
        simp only [applyStep] at h1
        split at h1
        · cases h1
        · next r =>
          split at h1
          · cases h1
          · next hσ =>
            refine tryApply_ok hw hs h1 (hi r rfl _ ?_) hc
            have hσ : σ.get inductionVar = some (.varPlus inductionVar 0) := by simpa using hσ
            simp [through, hσ]
    obtain ⟨n, c', g1, g2⟩ := hstep
    obtain ⟨n', c'', g3, g4⟩ := ih L R c' g2
    exact ⟨n + n', c'', steps_trans g1 g3, g4⟩

theorem validateRule_ok (hw : m.wrap = false) (hs : m.strict = true) {tm : TM} {fuel : Nat} {prev : List Rule} {r : Rule}
    (hp : ∀ r ∈ prev, Holds tm r.init r.final) (hn : NoAdmit r) (h : validateRule m fuel tm r prev = .ok ()) :
    Holds tm r.init r.final := by
  unfold validateRule at h
  unfold NoAdmit at hn
  cases hpf : r.proof with
  | simple p =>
    rw [hpf] at h hn
    intro v L R c hc
    exact validateProof_ok hw hs hp (by intro r h; cases h) p _ hn h L R c hc
  | «inductive» p q =>
    rw [hpf] at h hn
    simp only at h hn
    obtain ⟨i0, h1, h⟩ := Run.bind_ok.1 h
    obtain ⟨f0, h2, h⟩ := Run.bind_ok.1 h
    obtain ⟨_, h3, h⟩ := Run.bind_ok.1 h
    obtain ⟨i1, h4, h⟩ := Run.bind_ok.1 h
    obtain ⟨f1, h5, h6⟩ := Run.bind_ok.1 h
    suffices ∀ n v, v inductionVar = n → HoldsAt tm v r.init r.final from
      fun v L R c hc => this _ v rfl L R c hc
    intro n
    induction n with
    | zero =>
      intro v hv L R c hc
      have e : through v [(inductionVar, .ofNat 0)] = v := by
        rw [through_single, value_ofNat, ← hv, Function.update_eq_self]
      have g := validateProof_ok (v := v) hw hs hp (by intro r h; cases h) p i0 hn.1 h3 L R c
        ((subst_instance hw hs h1 v L R c).2 (by rwa [e]))
      obtain ⟨k, c', g1, g2⟩ := g
      refine ⟨k, c', g1, ?_⟩
      have := (subst_instance hw hs h2 v L R c').1 g2
      rwa [e] at this
    | succ n ih =>
      intro v hv L R c hc
      let w := Function.update v inductionVar n
      have e : through w [(inductionVar, .varPlus inductionVar 1)] = v := by
        rw [through_single, value_varPlus]
        simp only [w, Function.update_self, Function.update_idem]
        rw [← hv, Function.update_eq_self]
      have g := validateProof_ok (v := w) hw hs hp (ind := some r)
        (by
          intro r' h w' hw'
          cases h
          exact ih w' (by rw [hw']; simp [w]))
        q i1 hn.2 h6 L R c ((subst_instance hw hs h4 w L R c).2 (by rwa [e]))
      obtain ⟨k, c', g1, g2⟩ := g
      refine ⟨k, c', g1, ?_⟩
      have := (subst_instance hw hs h5 w L R c').1 g2
      rwa [e] at this

theorem validateRules_ok (hw : m.wrap = false) (hs : m.strict = true) {tm : TM} {fuel : Nat} :
    ∀ (l prev : List Rule), (∀ r ∈ prev, Holds tm r.init r.final) → (∀ r ∈ l, NoAdmit r) →
      validateRules m fuel tm prev l = .ok () → ∀ r ∈ l, Holds tm r.init r.final
  | [], _, _, _, _, r, hr => by cases hr
  | r :: l, prev, hp, hn, h, r', hr' => by
    obtain ⟨_, h1, h2⟩ := Run.bind_ok.1 h
    have g := validateRule_ok hw hs hp (hn r (by simp)) h1
    rcases List.mem_cons.1 hr' with rfl | hr'
    · exact g
    · refine validateRules_ok hw hs l (prev ++ [r]) ?_ (fun r hr => hn r (by simp [hr])) h2 r' hr'
      intro q hq
      rcases List.mem_append.1 hq with hq | hq
      · exact hp q hq
      · rw [List.mem_singleton.1 hq]; exact g

end Model.Validator
