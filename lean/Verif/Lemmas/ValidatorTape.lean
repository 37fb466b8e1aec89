import Verif.Lemmas.ValidatorExpr

/-!
# The tape operations of the validator keep the tape
-/

namespace Model.Validator
open Spec.Validator

variable {m : Mode}

@[simp] theorem prepend_nil (t : Nat → Nat) : prepend [] t = t := by
  funext i; simp [prepend]

theorem prepend_nil_iter (n : Nat) (t : Nat → Nat) : (prepend [])^[n] t = t := by
  induction n with
  | zero => rfl
  | succ n ih => rw [Function.iterate_succ_apply', ih, prepend_nil]

theorem prepend_cons (a : Nat) (s : List Nat) (t : Nat → Nat) : prepend (a :: s) t = prepend [a] (prepend s t) := by
  funext i
  cases i with
  | zero => simp [prepend]
  | succ i =>
    by_cases h : i < s.length
    · simp [prepend, h]
    · have : ¬ i + 1 < (a :: s).length := by simpa using h
      simp [prepend, h]

theorem prepend_one_zero (a : Nat) (t : Nat → Nat) : prepend [a] t 0 = a := by simp [prepend]

theorem prepend_one_succ (a : Nat) (t : Nat → Nat) (i : Nat) : prepend [a] t (i + 1) = t i := by simp [prepend]

/-- the periodic tape -/
def cyc (s : List Nat) (h : s ≠ []) : Nat → Nat :=
  fun i => s[i % s.length]'(Nat.mod_lt _ (List.length_pos_iff.2 h))

theorem prepend_cyc (s : List Nat) (h : s ≠ []) : prepend s (cyc s h) = cyc s h := by
  funext i
  unfold prepend cyc
  split
  · next hi => simp [Nat.mod_eq_of_lt hi]
  · next hi =>
    have : (i - s.length) % s.length = i % s.length := by
      conv_rhs => rw [show i = i - s.length + s.length by omega]
      simp
    simp [this]

theorem prepend_cyc_iter (s : List Nat) (h : s ≠ []) (n : Nat) : (prepend s)^[n] (cyc s h) = cyc s h := by
  induction n with
  | zero => rfl
  | succ n ih => rw [Function.iterate_succ_apply', ih, prepend_cyc]

variable {v : Nat → Nat}

theorem fillBlock_fin (s : List Nat) (e : CountExpr) (t : Nat → Nat) :
    fillBlock v ⟨s, .fin e⟩ t = (prepend s)^[value v e] t := rfl

theorem fillBlock_inf (s : List Nat) (h : s ≠ []) (t : Nat → Nat) : fillBlock v ⟨s, .inf⟩ t = cyc s h := by
  simp only [fillBlock, dif_neg h]; rfl

theorem fillBlock_nil (n : Count) (t : Nat → Nat) : fillBlock v ⟨[], n⟩ t = t := by
  cases n with
  | fin e => exact prepend_nil_iter _ _
  | inf => simp [fillBlock]

@[simp] theorem fill_nil (t : Nat → Nat) : fill v [] t = t := rfl

@[simp] theorem fill_cons (b : Block) (h : HalfTape) (t : Nat → Nat) : fill v (b :: h) t = fillBlock v b (fill v h t) := rfl

theorem fill_append (h k : HalfTape) (t : Nat → Nat) : fill v (h ++ k) t = fill v h (fill v k t) := by
  simp [fill, List.foldr_append]

theorem fillBlock_zero {s : List Nat} {n : Count} (h : n.isZero = true) (t : Nat → Nat) : fillBlock v ⟨s, n⟩ t = t := by
  cases n with
  | fin e => rw [fillBlock_fin, isZero_value h]; rfl
  | inf => cases h

theorem fillBlock_one (s : List Nat) (t : Nat → Nat) : fillBlock v ⟨s, .fin (.ofNat 1)⟩ t = prepend s t := by
  rw [fillBlock_fin]; simp

theorem push_fill (a : Nat) (h : HalfTape) (t : Nat → Nat) : fill v (h.push a) t = prepend [a] (fill v h t) := by
  simp [HalfTape.push, fillBlock_one]

/-- two blocks of the same symbols are one block -/
theorem fillBlock_add (hw : m.wrap = false) {s : List Nat} (h0 : s ≠ []) {a b r : Count}
    (h : a.checkedAdd m b = .ok (some r)) (t : Nat → Nat) :
    fillBlock v ⟨s, r⟩ t = fillBlock v ⟨s, b⟩ (fillBlock v ⟨s, a⟩ t) := by
  cases a with
  | inf =>
    cases b with
    | inf => cases h; rw [fillBlock_inf _ h0, fillBlock_inf _ h0]
    | fin b => cases h; rw [fillBlock_inf _ h0, fillBlock_fin, prepend_cyc_iter]
  | fin a =>
    cases b with
    | inf => cases h; rw [fillBlock_inf _ h0, fillBlock_inf _ h0]
    | fin b =>
      obtain ⟨q, h1, h2⟩ := Run.bind_ok.1 h
      cases q with
      | none => cases h2
      | some q =>
        cases h2
        simp only [fillBlock_fin]
        rw [checkedAdd_value hw h1, Nat.add_comm, Function.iterate_add_apply]

/-- a block without a part of it -/
theorem fillBlock_sub (hw : m.wrap = false) (hs : m.strict = true) {fuel : Nat} (s : List Nat) {a b d : Count}
    (h : a.checkedSub m fuel b = .ok (some d)) (t u : Nat → Nat) (hu : d.isZero = true → u = t)
    (hu2 : d.isZero = false → u = fillBlock v ⟨s, d⟩ t) :
    fillBlock v ⟨s, a⟩ t = fillBlock v ⟨s, b⟩ u := by
  by_cases h0 : s = []
  · subst h0
    rw [fillBlock_nil, fillBlock_nil]
    cases hz : d.isZero with
    | true => exact (hu hz).symm
    | false => rw [hu2 hz, fillBlock_nil]
  · have hd : u = fillBlock v ⟨s, d⟩ t := by
      cases hz : d.isZero with
      | true => rw [hu hz, fillBlock_zero hz]
      | false => exact hu2 hz
    subst hd
    cases a with
    | inf =>
      cases b with
      | inf => rw [fillBlock_inf _ h0, fillBlock_inf _ h0]
      | fin b =>
        cases h
        rw [fillBlock_inf _ h0, fillBlock_fin, prepend_cyc_iter]
    | fin a =>
      cases b with
      | inf => cases h
      | fin b =>
        obtain ⟨q, h1, h2⟩ := Run.bind_ok.1 h
        cases q with
        | none => cases h2
        | some q =>
          cases h2
          simp only [fillBlock_fin]
          rw [checkedSub_value hw hs h1, Nat.add_comm, Function.iterate_add_apply]

namespace HalfTape

theorem normalize_fill (hw : m.wrap = false) :
    ∀ (h r : HalfTape), normalize m h = .ok r → ∀ t, fill v r t = fill v h t
  | [], r, h, t => by cases h; rfl
  | b :: h, r, e, t => by
    obtain ⟨r', h1, h2⟩ := Run.bind_ok.1 e
    have ih := normalize_fill hw h r' h1 t
    rw [fill_cons, ← ih]
    split at h2
    · next hb =>
      cases h2
      rcases Bool.or_eq_true_iff.1 hb with hb | hb
      · rcases b with ⟨s, n⟩
        simp only [List.isEmpty_iff] at hb
        subst hb
        rw [fillBlock_nil]
      · rcases b with ⟨s, n⟩
        rw [fillBlock_zero hb]
    · next hb =>
      cases r' with
      | nil => cases h2; rfl
      | cons l r' =>
        simp only at h2
        split at h2
        · next hl =>
          obtain ⟨n, h3, h4⟩ := Run.bind_ok.1 h2
          cases n with
          | none => cases h4; rfl
          | some n =>
            cases h4
            have h0 : b.symbols ≠ [] := by
              intro h0; simp [h0] at hb
            simp only [fill_cons]
            rw [fillBlock_add hw (by rwa [hl]) h3]
            rcases b with ⟨s, k⟩
            rcases l with ⟨s', k'⟩
            simp only at hl
            subst hl
            rfl
        · cases h2; rfl

theorem pop_fill (hw : m.wrap = false) {h h' : HalfTape} {a : Nat} (e : pop m h = .ok (a, h')) (t : Nat → Nat) :
    fill v h t = prepend [a] (fill v h' t) := by
  obtain ⟨r, h1, h2⟩ := Run.bind_ok.1 e
  rw [← normalize_fill hw h r h1 t]
  cases r with
  | nil => cases h2
  | cons b r =>
    rcases b with ⟨s, n⟩
    simp only at h2
    split at h2
    · cases h2
    · cases h2
    · next x1 d a' s' hd =>
      have hrest : fillBlock v ⟨a' :: s', n⟩ (fill v r t) =
          prepend (a' :: s') (fill v (if d.isZero then r else ⟨a' :: s', d⟩ :: r) t) := by
        cases n with
        | inf =>
          cases hd
          simp only [Count.isZero, Bool.false_eq_true, if_false, fill_cons]
          rw [fillBlock_inf _ (by simp), prepend_cyc]
        | fin x =>
          obtain ⟨x', hx, hx'⟩ := Option.map_eq_some_iff.1 hd
          subst hx'
          rw [fillBlock_fin, decrement_value hx, Function.iterate_succ_apply']
          congr 1
          split
          · next hz => rw [isZero_value (v := v) hz]; rfl
          · rfl
      cases h2
      rw [fill_cons, hrest, prepend_cons]
      congr 1
      generalize (if d.isZero = true then r else ⟨a :: s', d⟩ :: r) = w
      cases s' with
      | nil => simp
      | cons b s' => rw [if_neg (by simp), fill_cons, fillBlock_one]

theorem strip_fill (hw : m.wrap = false) (hs : m.strict = true) (fuel : Nat) :
    ∀ k (cur sub rest : HalfTape), strip m fuel k cur sub = .ok rest →
      ∀ t, fill v cur t = fill v sub (fill v rest t)
  | k, cur, [], rest, h, t => by
    cases k <;> (cases h; rfl)
  | 0, cur, _ :: _, rest, h, t => by simp [strip] at h
  | k + 1, [], _ :: _, rest, h, t => by simp [strip] at h
  | k + 1, c :: cur, s :: sub, rest, h, t => by
    rw [strip] at h
    split at h
    · next hc =>
      obtain ⟨d, h1, h2⟩ := Run.bind_ok.1 h
      cases d with
      | none => cases h2
      | some d =>
        simp only at h2
        have ih := strip_fill hw hs fuel k _ _ _ h2 t
        rcases c with ⟨c, n⟩
        rcases s with ⟨c', n'⟩
        simp only at hc h1 ih
        subst hc
        rw [fill_cons, fill_cons]
        refine fillBlock_sub hw hs c h1 _ _ ?_ ?_
        · intro hz
          rw [if_pos hz] at ih
          exact ih.symm
        · intro hz
          rw [if_neg (by simp [hz])] at ih
          exact ih.symm
    · obtain ⟨p, h1, h2⟩ := Run.bind_ok.1 h
      obtain ⟨q, h3, h4⟩ := Run.bind_ok.1 h2
      cases p with
      | none => cases h4
      | some p =>
        cases q with
        | none => cases h4
        | some q =>
          rcases p with ⟨a, cur'⟩
          rcases q with ⟨b, sub'⟩
          simp only at h4
          split at h4
          · cases h4
          · next hab =>
            have hab : a = b := not_not.1 hab
            subst hab
            have e1 : pop m (c :: cur) = .ok (a, cur') := by
              revert h1; cases pop m (c :: cur) <;> simp [Run.try?]
            have e2 : pop m (s :: sub) = .ok (a, sub') := by
              revert h3; cases pop m (s :: sub) <;> simp [Run.try?]
            rw [pop_fill hw e1, pop_fill hw e2, strip_fill hw hs fuel k _ _ _ h4 t]

theorem replace_fill (hw : m.wrap = false) (hs : m.strict = true) {fuel : Nat} {h old new r : HalfTape}
    (e : replace m fuel h old new = .ok r) :
    ∃ rest, (∀ v t, fill v h t = fill v old (fill v rest t)) ∧ r = new ++ rest := by
  obtain ⟨cur, h1, h2⟩ := Run.bind_ok.1 e
  obtain ⟨sub, h3, h4⟩ := Run.bind_ok.1 h2
  obtain ⟨rest, h5, h6⟩ := Run.bind_ok.1 h4
  cases h6
  refine ⟨rest, fun v t => ?_, rfl⟩
  rw [← normalize_fill hw h cur h1, ← normalize_fill hw old sub h3]
  exact strip_fill hw hs fuel fuel cur sub rest h5 t

theorem equivalent_fill (hw : m.wrap = false) (hs : m.strict = true) {fuel : Nat} {h other : HalfTape}
    (e : equivalent m fuel h other = .ok true) (v t : Nat → Nat) : fill v h t = fill v other t := by
  obtain ⟨r, h1, h2⟩ := Run.bind_ok.1 e
  cases r with
  | none => cases h2
  | some r =>
    have e1 : replace m fuel h other [] = .ok r := by
      revert h1; cases replace m fuel h other [] <;> simp [Run.try?]
    obtain ⟨rest, g1, g2⟩ := replace_fill hw hs e1
    simp only [Run.ok.injEq, List.isEmpty_iff] at h2
    subst h2
    simp only [List.nil_append] at g2
    subst g2
    exact g1 v t

theorem subst_fill (hw : m.wrap = false) (hs : m.strict = true) {σ : Subst} :
    ∀ (h r : HalfTape), h.subst m σ = .ok r → ∀ v t, fill v r t = fill (through v σ) h t
  | [], r, e, v, t => by cases e; rfl
  | b :: h, r, e, v, t => by
    obtain ⟨n, h1, h2⟩ := Run.bind_ok.1 e
    obtain ⟨r', h3, h4⟩ := Run.bind_ok.1 h2
    cases h4
    rw [fill_cons, fill_cons, subst_fill hw hs h r' h3 v t]
    rcases b with ⟨s, k⟩
    cases k with
    | inf => cases h1; rfl
    | fin x =>
      obtain ⟨x', h5, h6⟩ := Run.bind_ok.1 h1
      cases h6
      rw [fillBlock_fin, fillBlock_fin, subst_value hw hs x σ x' h5 v]

end HalfTape

end Model.Validator
