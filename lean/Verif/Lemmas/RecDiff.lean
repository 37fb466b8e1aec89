import Verif.Lemmas.RecStep
import Verif.Lemmas.ProverDiff

/-! # Applying a difference rule to a tape of expressions -/

namespace Model.Recursive
open Spec Model Model.Expr Model.Prover
variable {σ S : Type}

/-- an assignment, as rationals -/
abbrev qy (y : Nat → Int) : Nat → ℚ := fun x => (y x : ℚ)

/-- A configuration that recurs for ever, visiting the same states each time. -/
theorem loop_forever {T : Table} {P : Config → Prop} {states : List Nat} (live : ∀ cfg, P cfg → cfg.state ≠ none)
    (again : ∀ cfg, P cfg → ∃ m, 0 < m ∧ P (run T m cfg) ∧ ∀ q, q ∈ states ↔ ∃ k, k < m ∧ VisitedAt T cfg q k)
    (cfg : Config) (h : P cfg) : NeverHalts T cfg ∧ ∀ q, VisitedForever T cfg q ↔ q ∈ states := by
  obtain ⟨h1, h2⟩ := recurs_never (T := T) (P := P) (· ∈ states) live (fun cfg hP => by
    obtain ⟨m, h1, h2, h3⟩ := again cfg hP
    exact ⟨m, h1, h2, fun u hu q hv => (h3 q).2 ⟨u, hu, hv⟩⟩) cfg h
  refine ⟨h1, fun q => ⟨fun hv => ?_, fun hq t => ?_⟩⟩
  · obtain ⟨u, -, hu⟩ := hv 0
    exact h2 u q hu
  · have key : ∀ t, ∃ m, t ≤ m ∧ P (run T m cfg) := by
      intro t
      induction t with
      | zero => exact ⟨0, le_refl _, h⟩
      | succ t ih =>
        obtain ⟨m, hm, hP⟩ := ih
        obtain ⟨m', h1, h2, -⟩ := again _ hP
        exact ⟨m + m', by omega, by rw [run_add]; exact h2⟩
    obtain ⟨m, hm, hP⟩ := key t
    obtain ⟨m', h1, h2, h3⟩ := again _ hP
    obtain ⟨k, hk, hv⟩ := (h3 q).1 hq
    exact ⟨m + k, by omega, visitedAt_add.1 hv⟩

theorem visited_add {T : Table} {cfg : Config} {n m q : Nat} :
    (∃ k, k < n + m ∧ VisitedAt T cfg q k) ↔
      (∃ k, k < n ∧ VisitedAt T cfg q k) ∨ ∃ k, k < m ∧ VisitedAt T (run T n cfg) q k := by
  constructor
  · rintro ⟨k, hk, hv⟩
    by_cases h : k < n
    · exact Or.inl ⟨k, h, hv⟩
    · obtain ⟨j, rfl⟩ : ∃ j, k = n + j := ⟨k - n, by omega⟩
      exact Or.inr ⟨j, by omega, visitedAt_add.2 hv⟩
  · rintro (⟨k, hk, hv⟩ | ⟨k, hk, hv⟩)
    · exact ⟨k, by omega, hv⟩
    · exact ⟨n + k, by omega, visitedAt_add.1 hv⟩

/-- The blocks of a difference rule, with the variables: name, constant, difference. -/
inductive DHalf (z : σ) : List (Blk σ V) → List (Blk σ V) → List (Nat × Int × Int) → Prop
  | last : DHalf z [⟨z, none⟩] [⟨z, none⟩] []
  | one (a : σ) {g d l} : DHalf z g d l → DHalf z (⟨a, some (.num 1)⟩ :: g) (⟨a, some (.num 0)⟩ :: d) l
  | many (a : σ) {x : Nat} {c δ : Int} {g d l} : DHalf z g d l →
      DHalf z (⟨a, some (.expr (varPlus x c))⟩ :: g) (⟨a, some (.num δ)⟩ :: d) ((x, c, δ) :: l)

theorem DHalf.ne {z : σ} {g d l} (h : DHalf z g d l) : g ≠ [] ∧ d ≠ [] := by cases h <;> simp

theorem DHalf.of {z : σ} {g d l} (h : RHalf z g d l) : DHalf z g d l := by
  induction h with
  | last => exact .last
  | one a h ih => exact .one a ih
  | many a h1 h2 h ih => exact .many a ih

/-- A difference rule that is right for the base machine. -/
structure DiffOK [Sums] (T : Table) (Den : DC σ S → Config → Prop) (z : σ) (key : Strip σ S) (r : DiffRule σ)
    (ll lr : List (Nat × Int × Int)) : Prop where
  left : DHalf z r.init.left r.diff.left ll
  right : DHalf z r.init.right r.diff.right lr
  nodup : ((ll ++ lr).map (·.1)).Nodup
  shape : key = strip valIsOne key.st r.init
  sound : ∀ y : Nat → Int, (∀ x, 0 ≤ y x) → ∀ u, TapeIs y r.init u → ∀ cfg, Den (tapeDC z u key.st) cfg →
    ∃ u' n, TapePlus y r.init r.diff u' ∧ 0 < n ∧ Den (tapeDC z u' key.st) (run T n cfg) ∧
      (∀ q, q ∈ r.states ↔ ∃ k, k < n ∧ VisitedAt T cfg q k) ∧ (SumsRight → Val.value (qy y) r.steps = n)

/-- What an application must report, with the variables set by `η`. -/
def ResOK [Sums] (T : Table) (Den : DC σ S → Config → Prop) (z : σ) (η : Nat → Int) (st : S) (cfg : Config) : Res σ → Prop
  | .inf states => NeverHalts T cfg ∧ ∀ q, VisitedForever T cfg q ↔ q ∈ states
  | .apply tape steps states _ => ∃ u n, TapeIs η tape u ∧ 0 < n ∧ Den (tapeDC z u st) (run T n cfg) ∧
      (∀ q, q ∈ states ↔ ∃ k, k < n ∧ VisitedAt T cfg q k) ∧ (SumsRight → Val.value (qy η) steps = n)

/-- The tape after an application is again a tape. -/
def ResEnds (z : σ) (dir : Dir) : Res σ → Prop
  | .inf _ => True
  | .apply tape _ _ _ => EndsT z tape ∧ tape.dir = dir

/-! ## The rule and the tape -/

/-- Rule, differences, tape and its lengths, with the variables: name, constant, difference, length. -/
inductive MH (z : σ) (η : Nat → Int) : List (Blk σ V) → List (Blk σ V) → List (Blk σ V) → List (Blk σ Nat) →
    List (Nat × Int × Int × Nat) → Prop
  | last : MH z η [⟨z, none⟩] [⟨z, none⟩] [⟨z, none⟩] [⟨z, none⟩] []
  | one (a : σ) {v : V} {g d t u l} : Val.value η v = 1 → MH z η g d t u l →
      MH z η (⟨a, some (.num 1)⟩ :: g) (⟨a, some (.num 0)⟩ :: d) (⟨a, some v⟩ :: t) (⟨a, some 1⟩ :: u) l
  | many (a : σ) {x : Nat} {c δ : Int} {v : V} {n : Nat} {g d t u l} : Val.value η v = n → MH z η g d t u l →
      MH z η (⟨a, some (.expr (varPlus x c))⟩ :: g) (⟨a, some (.num δ)⟩ :: d) (⟨a, some v⟩ :: t) (⟨a, some n⟩ :: u)
        ((x, c, δ, n) :: l)

theorem info_some {a : σ} {v : V} :
    (valIsOne v = true ∧ info valIsOne (⟨a, some v⟩ : Blk σ V) = .one a) ∨
    (valIsOne v = false ∧ info valIsOne (⟨a, some v⟩ : Blk σ V) = .many a) := by
  cases h : valIsOne v
  · exact Or.inr ⟨rfl, by simp [info, h]⟩
  · exact Or.inl ⟨rfl, by simp [info, h]⟩

theorem mh_of {z : σ} {η : Nat → Int} {g d l} (h : DHalf z g d l) : ∀ {t : List (Blk σ V)} {u : List (Blk σ Nat)}, Ends z t →
    HalfIs η t u → t.dropLast.map (info valIsOne) = g.dropLast.map (info valIsOne) →
    ∃ l', MH z η g d t u l' ∧ l'.map (fun e => (e.1, e.2.1, e.2.2.1)) = l := by
  induction h with
  | last =>
    intro t u ht hu he
    cases ht with
    | last =>
      cases hu with
      | @cons _ b _ _ h1 h2 =>
        cases h2
        obtain ⟨bs, bn⟩ := b
        obtain ⟨h1, h3⟩ := h1
        have := numIs_none h3
        simp only at h1 this
        subst h1; subst this
        exact ⟨[], .last, rfl⟩
    | cons a v ht => rw [dropLast_map _ ht.ne] at he; simp at he
  | one a h ih =>
    intro t u ht hu he
    rw [dropLast_map _ h.ne.1] at he
    cases ht with
    | last => simp at he
    | cons b v ht =>
      rw [dropLast_map _ ht.ne] at he
      obtain ⟨h1, h2⟩ := List.cons.inj he
      cases hu with
      | @cons _ c _ _ h3 h4 =>
        obtain ⟨l', h5, h6⟩ := ih ht h4 h2
        obtain ⟨cs, cn⟩ := c
        obtain ⟨h3, h7⟩ := h3
        obtain ⟨n, hn, hv⟩ := numIs_some h7
        simp only at h3 hn
        subst h3; subst hn
        rcases info_some (a := b) (v := v) with ⟨h8, e⟩ | ⟨h8, e⟩ <;> rw [e] at h1 <;> simp at h1
        subst h1
        have h9 : Val.value η v = 1 := eq_value (b := .num 1) h8 η
        have : n = 1 := by omega
        subst this
        exact ⟨l', .one b h9 h5, h6⟩
  | @many a x c δ g d l h ih =>
    intro t u ht hu he
    rw [dropLast_map _ h.ne.1, info_var] at he
    cases ht with
    | last => simp at he
    | cons b v ht =>
      rw [dropLast_map _ ht.ne] at he
      obtain ⟨h1, h2⟩ := List.cons.inj he
      cases hu with
      | @cons _ c _ _ h3 h4 =>
        obtain ⟨l', h5, h6⟩ := ih ht h4 h2
        obtain ⟨cs, cn⟩ := c
        obtain ⟨h3, h7⟩ := h3
        obtain ⟨n, hn, hv⟩ := numIs_some h7
        simp only at h3 hn
        subst h3; subst hn
        rcases info_some (a := b) (v := v) with ⟨h8, e⟩ | ⟨h8, e⟩ <;> rw [e] at h1 <;> simp at h1
        subst h1
        exact ⟨_, .many b hv h5, by simp [h6]⟩

theorem mh_zero {z : σ} {η : Nat → Int} {g d t u l} (h : MH z η g d t u l) : addHalf 0 d u = u := by
  induction h with
  | last => rfl
  | one a h1 h ih => simp [addHalf, ih]
  | many a h1 h ih => simp [addHalf, ih]

theorem mh_is {z : σ} {η : Nat → Int} {g d t u l} (h : MH z η g d t u l) (y : Nat → Int) (i : Int)
    (hy : ∀ e ∈ l, y e.1 = (e.2.2.2 : Int) - e.2.1 + i * e.2.2.1 ∧ 0 ≤ (e.2.2.2 : Int) + i * e.2.2.1) :
    HalfIs y g (addHalf i d u) := by
  induction h with
  | last => exact .cons ⟨rfl, trivial⟩ .nil
  | one a h1 h ih => exact .cons ⟨rfl, by simp [NumIs, value_num]⟩ (ih hy)
  | @many a x c δ v n g d t u l h1 h ih =>
    obtain ⟨hy1, hy2⟩ := hy (x, c, δ, n) (by simp)
    refine .cons ⟨rfl, ?_⟩ (ih (fun e he => hy e (by simp [he])))
    simp only at hy1 hy2
    show Val.value y (.expr (varPlus x c)) = (((n : Int) + i * δ).toNat : Int)
    rw [varPlus_value, hy1, Int.toNat_of_nonneg hy2]
    ring

theorem mh_plus {z : σ} {η : Nat → Int} {g d t u l} (h : MH z η g d t u l) (y : Nat → Int) (i : Int)
    (hy : ∀ e ∈ l, y e.1 = (e.2.2.2 : Int) - e.2.1 + i * e.2.2.1) : ∀ u', HalfPlus y g d u' →
    u' = addHalf (i + 1) d u ∧ ∀ e ∈ l, 0 ≤ (e.2.2.2 : Int) + (i + 1) * e.2.2.1 := by
  induction h with
  | last =>
    intro u' h
    match u', h with
    | b :: u', h =>
      obtain ⟨h1, h2, h3⟩ := h
      match u', h2 with
      | [], _ =>
        obtain ⟨bs, bn⟩ := b
        simp only at h1 h3
        subst h1
        cases bn with
        | none => exact ⟨rfl, by simp⟩
        | some n => exact h3.elim
  | one a h0 h ih =>
    intro u' h
    match u', h with
    | ⟨bs, some n⟩ :: u', h =>
      obtain ⟨h1, h2, h3⟩ := h
      obtain ⟨e1, e2⟩ := ih hy u' h2
      rw [e1]
      simp only [value_num] at h1 h3
      subst h1
      have : n = 1 := by omega
      subst this
      exact ⟨by simp [addHalf], e2⟩
    | ⟨bs, none⟩ :: u', h => exact h.2.2.elim
  | @many a x c δ v n g d t u l h0 h ih =>
    intro u' h
    have hy1 := hy (x, c, δ, n) (by simp)
    simp only at hy1
    match u', h with
    | ⟨bs, some n'⟩ :: u', h =>
      obtain ⟨h3, h4, h5⟩ := h
      obtain ⟨e1, e2⟩ := ih (fun e he => hy e (by simp [he])) u' h4
      rw [e1]
      simp only [varPlus_value, value_num, hy1] at h3 h5
      subst h3
      have hn : ((n : Int) + (i + 1) * δ) = n' := by rw [← h5]; ring
      refine ⟨by simp [addHalf, hn], fun e he => ?_⟩
      rcases List.mem_cons.1 he with rfl | he
      · show 0 ≤ (n : Int) + (i + 1) * δ
        omega
      · exact e2 e he
    | ⟨bs, none⟩ :: u', h => exact h.2.2.elim

/-! ## The new tape -/

theorem simp_value (η : Nat → Int) (v : V) : Val.value η (simp v) = Val.value η v := by
  cases v with
  | num k => rfl
  | expr e =>
    show Val.value η (if e.terms.isEmpty then .num e.const else .expr e) = _
    split
    · next h =>
      rw [value_num, value_expr, value_eq]
      rw [List.isEmpty_iff] at h
      rw [h]; simp
    · rfl

theorem return_is {z : σ} {η : Nat → Int} {g d t u l} (h : MH z η g d t u l) (reps : V) (lim : Option (Nat × V)) (i : Nat)
    (hl : ∀ j f, lim = some (i + j, f) → LimAt (Val.value η reps) d u j (Val.value η f))
    (hy : ∀ e ∈ l, 0 ≤ (e.2.2.2 : Int) + Val.value η reps * e.2.2.1) (t' : List (Blk σ V))
    (hr : returnHalf reps lim i d t = some t') : HalfIs η t' (addHalf (Val.value η reps) d u) := by
  induction h generalizing i t' with
  | last =>
    simp only [returnHalf, Option.some.injEq] at hr
    subst hr
    exact .cons ⟨rfl, trivial⟩ .nil
  | @one a v g d t u l hv h ih =>
    unfold returnHalf at hr
    simp only at hr
    cases hr1 : returnHalf reps lim (i + 1) d t with
    | none => rw [hr1] at hr; cases hr
    | some t1 =>
      rw [hr1] at hr
      simp only at hr
      have ih' := ih (i + 1) (fun j f hj => by
        obtain ⟨a', b, n, δ, h1, h2, h3⟩ := hl (j + 1) f (by rw [hj]; congr 2; omega)
        exact ⟨a', b, n, δ, by simpa using h1, by simpa using h2, h3⟩) hy t1 hr1
      by_cases hi : lim.map (·.1) = some i
      · rw [if_pos hi] at hr
        cases lim with
        | none => cases hi
        | some p =>
          obtain ⟨j, f⟩ := p
          simp only [Option.map_some, Option.some.injEq] at hi hr
          subst hi; subst hr
          obtain ⟨a', b, n, δ, h1, h2, h3⟩ := hl 0 f rfl
          simp at h1 h2
          obtain ⟨-, rfl⟩ := h1
          obtain ⟨-, rfl⟩ := h2
          refine .cons ⟨rfl, ?_⟩ ih'
          show Val.value η (simp f) = _
          rw [simp_value, h3]; simp
      · rw [if_neg hi] at hr
        cases hr
        refine .cons ⟨rfl, ?_⟩ ih'
        show Val.value η (simp _) = _
        rw [simp_value, add_value, mul_value, hv, value_num]; simp
  | @many a x c δ v n g d t u l hv h ih =>
    have hpos := hy (x, c, δ, n) (by simp)
    simp only at hpos
    unfold returnHalf at hr
    simp only at hr
    cases hr1 : returnHalf reps lim (i + 1) d t with
    | none => rw [hr1] at hr; cases hr
    | some t1 =>
      rw [hr1] at hr
      simp only at hr
      have ih' := ih (i + 1) (fun j f hj => by
        obtain ⟨a', b, n, δ, h1, h2, h3⟩ := hl (j + 1) f (by rw [hj]; congr 2; omega)
        exact ⟨a', b, n, δ, by simpa using h1, by simpa using h2, h3⟩) (fun e he => hy e (by simp [he])) t1 hr1
      by_cases hi : lim.map (·.1) = some i
      · rw [if_pos hi] at hr
        cases lim with
        | none => cases hi
        | some p =>
          obtain ⟨j, f⟩ := p
          simp only [Option.map_some, Option.some.injEq] at hi hr
          subst hi; subst hr
          obtain ⟨a', b, n', δ', h1, h2, h3⟩ := hl 0 f rfl
          simp at h1 h2
          obtain ⟨-, rfl⟩ := h1
          obtain ⟨-, rfl⟩ := h2
          refine .cons ⟨rfl, ?_⟩ ih'
          show Val.value η (simp f) = ((n : Int) + Val.value η reps * δ).toNat
          rw [simp_value, h3, Int.toNat_of_nonneg hpos]
      · rw [if_neg hi] at hr
        cases hr
        refine .cons ⟨rfl, ?_⟩ ih'
        show Val.value η (simp _) = ((n : Int) + Val.value η reps * δ).toNat
        rw [simp_value, add_value, mul_value, hv, value_num, Int.toNat_of_nonneg hpos]

theorem return_ends {z : σ} {t : List (Blk σ V)} (h : Ends z t) (reps : V) (lim : Option (Nat × V)) : ∀ (i : Nat)
    (d t' : List (Blk σ V)), returnHalf reps lim i d t = some t' → Ends z t' := by
  induction h with
  | last =>
    intro i d t' hr
    cases d with
    | nil => simp only [returnHalf, Option.some.injEq] at hr; subst hr; exact .last
    | cons b d =>
      unfold returnHalf at hr
      have : returnHalf reps lim (i + 1) d ([] : List (Blk σ V)) = some [] := by cases d <;> rfl
      rw [this] at hr
      cases hr
      exact .last
  | @cons a v h he ih =>
    intro i d t' hr
    cases d with
    | nil => simp only [returnHalf, Option.some.injEq] at hr; subst hr; exact .cons _ _ he
    | cons b d =>
      unfold returnHalf at hr
      cases hr1 : returnHalf reps lim (i + 1) d h with
      | none => rw [hr1] at hr; cases hr
      | some t1 =>
        have := ih _ _ _ hr1
        rw [hr1] at hr
        simp only at hr
        split at hr
        · cases lim with
          | none => cases hr
          | some p => cases hr; exact .cons _ _ this
        · split at hr
          · cases hr; exact .cons _ _ this
          · cases hr

theorem filter_ends {z : σ} {t : List (Blk σ V)} (h : Ends z t) : Ends z (t.filter nonZero) := by
  induction h with
  | last => exact .last
  | @cons a v h he ih =>
    rw [List.filter_cons]
    split
    · exact .cons _ _ ih
    · exact ih

theorem filter_is {η : Nat → Int} {t : List (Blk σ V)} {u : List (Blk σ Nat)} (h : HalfIs η t u) (z : σ) :
    ∃ u', HalfIs η (t.filter nonZero) u' ∧ unroll z u' = unroll z u := by
  induction h with
  | nil => exact ⟨[], .nil, rfl⟩
  | @cons a b t u hab h ih =>
    obtain ⟨u', h1, h2⟩ := ih
    obtain ⟨as, an⟩ := a
    obtain ⟨bs, bn⟩ := b
    obtain ⟨hs, hn⟩ := hab
    simp only at hs hn
    subst hs
    rw [List.filter_cons]
    cases an with
    | none =>
      have := numIs_none hn
      subst this
      exact ⟨⟨as, none⟩ :: u', .cons ⟨rfl, trivial⟩ h1, rfl⟩
    | some v =>
      obtain ⟨n, rfl, hv⟩ := numIs_some hn
      split
      · exact ⟨⟨as, some n⟩ :: u', .cons ⟨rfl, hv⟩ h1, by simp [h2]⟩
      · next hz =>
        refine ⟨u', h1, ?_⟩
        have : Val.value η v = 0 := by
          have : v.eq (.num 0) = true := by simpa [nonZero] using hz
          exact eq_value this η
        have : n = 0 := by omega
        subst this
        simpa using h2

/-! ## The scan -/

/-- how the scan of a half tape changes the scan -/
structure ScanV (η : Nat → Int) (dir : Dir) (i : Nat) (ds : List (Blk σ V)) (u : List (Blk σ Nat))
    (l : List (Nat × Int × Int × Nat)) (sc sc' : Scan) : Prop where
  ge : ∀ e ∈ l, e.2.1 ≤ (e.2.2.2 : Int)
  unlim : sc'.reps = none → sc.reps = none ∧ ∀ e ∈ l, 0 ≤ e.2.2.1
  bound : ∀ v, sc'.reps = some v → (∀ v0, sc.reps = some v0 → Val.value η v ≤ Val.value η v0) ∧
    ∀ e ∈ l, e.2.2.1 < 0 → Val.value η v * (-e.2.2.1) ≤ (e.2.2.2 : Int) - e.2.1 - e.2.2.1
  limit : (sc'.reps = sc.reps ∧ sc'.limit = sc.limit) ∨
    ∃ v j f, sc'.reps = some v ∧ sc'.limit = some (dir, i + j, f) ∧ LimAt (Val.value η v) ds u j (Val.value η f)
  pos : ∀ v, sc'.reps = some v → sc.reps = some v ∨ 1 ≤ Val.value η v

theorem scanV_skip {η : Nat → Int} {dir : Dir} {i : Nat} {d : Blk σ V} {b : Blk σ Nat} {ds u l} {sc sc' : Scan}
    (h : ScanV η dir (i + 1) ds u l sc sc') : ScanV η dir i (d :: ds) (b :: u) l sc sc' := by
  refine ⟨h.ge, h.unlim, h.bound, ?_, h.pos⟩
  rcases h.limit with h1 | ⟨R, j, f, h1, h2, a, b', n, δ, h3, h4, h5⟩
  · exact Or.inl h1
  · exact Or.inr ⟨R, j + 1, f, h1, by rw [h2, Nat.add_assoc, Nat.add_comm 1], a, b', n, δ, by simpa using h3, by simpa using h4, h5⟩

/-- one variable block: `sc1` after it -/
theorem scanV_cons {η : Nat → Int} {dir : Dir} {i : Nat} {d : Blk σ V} {b : Blk σ Nat} {ds u l} {sc sc1 sc' : Scan} {x : Nat}
    {c δ : Int} {n : Nat} (hc : c ≤ n)
    (h1 : (0 ≤ δ ∧ sc1.reps = sc.reps ∧ sc1.limit = sc.limit) ∨
      (∃ (R : Int) (r : V), δ < 0 ∧ sc.reps = some r ∧ Val.value η r ≤ R ∧ R * (-δ) ≤ (n : Int) - c - δ ∧ sc1.reps = sc.reps ∧
        sc1.limit = sc.limit) ∨
      (∃ (r f : V), δ < 0 ∧ (∀ r0, sc.reps = some r0 → Val.value η r ≤ Val.value η r0) ∧
        Val.value η r * (-δ) ≤ (n : Int) - c - δ ∧ 1 ≤ Val.value η r ∧
        sc1.reps = some r ∧ sc1.limit = some (dir, i, f) ∧ LimAt (Val.value η r) (d :: ds) (b :: u) 0 (Val.value η f)))
    (h : ScanV η dir (i + 1) ds u l sc1 sc') : ScanV η dir i (d :: ds) (b :: u) ((x, c, δ, n) :: l) sc sc' := by
  have hmono : ∀ R R' : Int, δ < 0 → R ≤ R' → R' * (-δ) ≤ (n : Int) - c - δ → R * (-δ) ≤ (n : Int) - c - δ := by
    intro R R' h1 h2 h3
    have : R * (-δ) ≤ R' * (-δ) := Int.mul_le_mul_of_nonneg_right h2 (by omega)
    omega
  refine ⟨?_, ?_, ?_, ?_, ?_⟩
  · intro e he
    rcases List.mem_cons.1 he with rfl | he
    · exact hc
    · exact h.ge e he
  · intro hn
    obtain ⟨h2, h3⟩ := h.unlim hn
    rcases h1 with ⟨h4, h5, -⟩ | ⟨R, R0, -, h4, -, -, h5, -⟩ | ⟨R, f, -, -, -, -, h5, -⟩
    · refine ⟨by rw [← h5]; exact h2, fun e he => ?_⟩
      rcases List.mem_cons.1 he with rfl | he
      · exact h4
      · exact h3 e he
    · rw [h5, h4] at h2; cases h2
    · rw [h5] at h2; cases h2
  · intro R hR
    obtain ⟨h2, h3⟩ := h.bound R hR
    rcases h1 with ⟨h4, h5, -⟩ | ⟨R1, R0, h4, h5, h6, h7, h8, -⟩ | ⟨R1, f, h4, h5, h6, -, h8, -⟩
    · refine ⟨fun R0 h0 => h2 R0 (by rw [h5]; exact h0), fun e he => ?_⟩
      rcases List.mem_cons.1 he with rfl | he
      · intro hneg; simp only at hneg; omega
      · exact h3 e he
    · refine ⟨fun R0 h0 => h2 R0 (by rw [h8]; exact h0), fun e he => ?_⟩
      rcases List.mem_cons.1 he with rfl | he
      · intro _
        have := h2 R0 (by rw [h8]; exact h5)
        exact hmono _ R1 h4 (by omega) h7
      · exact h3 e he
    · have h9 := h2 R1 h8
      refine ⟨fun R0 h0 => le_trans h9 (h5 R0 h0), fun e he => ?_⟩
      rcases List.mem_cons.1 he with rfl | he
      · intro _; exact hmono _ _ h4 h9 h6
      · exact h3 e he
  · rcases h.limit with ⟨h2, h3⟩ | ⟨R, j, f, h2, h3, a, b', n', δ', h4, h5, h6⟩
    · rcases h1 with ⟨-, h5, h6⟩ | ⟨R, R0, -, -, -, -, h5, h6⟩ | ⟨R, f, -, -, -, -, h5, h6, h7⟩
      · exact Or.inl ⟨h2.trans h5, h3.trans h6⟩
      · exact Or.inl ⟨h2.trans h5, h3.trans h6⟩
      · exact Or.inr ⟨R, 0, f, h2.trans h5, h3.trans h6, h7⟩
    · exact Or.inr ⟨R, j + 1, f, h2, by rw [h3, Nat.add_assoc, Nat.add_comm 1], a, b', n', δ', by simpa using h4,
        by simpa using h5, h6⟩
  · intro R hR
    rcases h.pos R hR with h2 | h2
    · rcases h1 with ⟨-, h5, h6⟩ | ⟨R, R0, -, -, -, -, h5, h6⟩ | ⟨R1, f, h3, -, -, h4, h5, h6, h7⟩
      · exact Or.inl (h5 ▸ h2)
      · exact Or.inl (h5 ▸ h2)
      · rw [h5] at h2; cases h2
        exact Or.inr h4
    · exact Or.inr h2

theorem ge_value {η : Nat → Int} (hη : ∀ x, 0 ≤ η x) {a b : V} (h : alwaysGe a b = true) : Val.value η b ≤ Val.value η a := by
  unfold alwaysGe at h
  cases hm : (Val.sub a b).minVal with
  | none => rw [hm] at h; cases h
  | some m =>
    rw [hm] at h
    have h1 := minVal_le η hη _ _ hm
    rw [sub_value] at h1
    simp only [decide_eq_true_eq] at h
    omega

/-- the number of repetitions and the final value -/
theorem maxReps_value {η : Nat → Int} {c δ : Int} {v reps final : V} {n : Nat} (hδ : δ < 0) (hv : Val.value η v = n)
    (hc : c ≤ n) (h : maxReps c (-δ) v = some (reps, final)) :
    Val.value η reps * (-δ) ≤ (n : Int) - c - δ ∧ 1 ≤ Val.value η reps ∧
      Val.value η final = (n : Int) + Val.value η reps * δ := by
  cases v with
  | num k =>
    rw [value_num] at hv
    subst hv
    obtain ⟨R, hR, hR2, hR3⟩ := maxReps_eq c δ n hδ
    simp only [maxReps, hR, Option.some.injEq, Prod.mk.injEq] at h
    obtain ⟨rfl, rfl⟩ := h
    simp only [value_num]
    refine ⟨hR2, ?_, trivial⟩
    by_contra hlt
    have : (R + 1) * (-δ) ≤ 1 * (-δ) := Int.mul_le_mul_of_nonneg_right (by omega) (by omega)
    omega
  | expr e =>
    simp only [maxReps] at h
    split at h
    · next h1 =>
      simp only [Option.some.injEq, Prod.mk.injEq] at h
      obtain ⟨rfl, rfl⟩ := h
      have hd : δ = -1 := by omega
      subst hd
      rw [sub_value, value_num, hv]
      refine ⟨?_, ?_, ?_⟩ <;> omega
    · cases h

theorem scan_is {z : σ} {η : Nat → Int} (hη : ∀ x, 0 ≤ η x) {g d t u l} (h : MH z η g d t u l) (dir : Dir) :
    ∀ (i : Nat) (sc sc' : Scan), scanHalf dir i g d t sc = .ok sc' → ScanV η dir i d u l sc sc' := by
  induction h with
  | last =>
    intro i sc sc' hs
    simp only [scanHalf, Out.ok.injEq] at hs
    subst hs
    exact ⟨by simp, fun h => ⟨h, by simp⟩, fun R hR => ⟨fun R0 h0 => by rw [h0] at hR; cases hR; exact le_refl _, by simp⟩,
      Or.inl ⟨rfl, rfl⟩, fun R hR => Or.inl hR⟩
  | one a hv h ih =>
    intro i sc sc' hs
    unfold scanHalf at hs
    exact scanV_skip (ih (i + 1) sc sc' hs)
  | @many a x c δ v n g d t u l hv h ih =>
    intro i sc sc' hs
    unfold scanHalf at hs
    simp only [restricted_varPlus] at hs
    rw [show (varPlus x c).const = c from rfl] at hs
    split at hs
    · cases hs
    next hge =>
    simp only [Bool.not_eq_true', Bool.not_eq_false] at hge
    have hc : c ≤ n := by
      have := ge_value hη hge
      rw [sub_value, value_num, value_num, hv] at this
      omega
    split at hs
    · next hδ =>
      have lim : ∀ r f : V, Val.value η f = (n : Int) + Val.value η r * δ →
          LimAt (Val.value η r) ((⟨a, some (.num δ)⟩ : Blk σ V) :: d) (⟨a, some n⟩ :: u) 0 (Val.value η f) :=
        fun r f hf => ⟨a, a, n, δ, rfl, rfl, hf⟩
      split at hs
      · next hreps =>
        split at hs
        · cases hs
        split at hs
        · cases hs
        next reps final hm =>
        obtain ⟨h1, h2, h3⟩ := maxReps_value hδ hv hc hm
        exact scanV_cons hc (Or.inr (Or.inr ⟨reps, final, hδ, by rw [hreps]; simp, h1, h2, rfl, rfl, lim _ _ h3⟩)) (ih _ _ _ hs)
      · next r hreps =>
        split at hs
        · cases hs
        split at hs
        · next reps final hm =>
          obtain ⟨h1, h2, h3⟩ := maxReps_value hδ hv hc hm
          split at hs
          · next hlt =>
            refine scanV_cons hc (Or.inr (Or.inr ⟨.num reps, final, hδ, ?_, h1, h2, rfl, rfl, lim _ _ h3⟩)) (ih _ _ _ hs)
            rw [hreps]
            intro r0 h0
            cases h0
            simp only [value_num]; omega
          · next hlt =>
            have hrec := ih _ _ _ hs
            refine scanV_cons (sc := sc) (sc1 := ⟨sc.reps, sc.limit, Py.dset sc.vals x (Val.sub v (Val.num c), δ),
                sc.large || decide (δ ≠ -1)⟩) hc
              (Or.inr (Or.inl ⟨reps, .num r, hδ, hreps, ?_, ?_, rfl, rfl⟩)) hrec
            · rw [value_num]; omega
            · rw [value_num] at h1; exact h1
        · cases hs
      · cases hs
    · next hδ =>
      have hrec := ih _ _ _ hs
      exact scanV_cons (sc := sc) (sc1 := { sc with vals := Py.dset sc.vals x (Val.sub v (Val.num c), δ) }) hc (Or.inl ⟨by omega, rfl, rfl⟩) hrec

/-! ## The application -/

/-- the values of the variables in application number `i` -/
def valsAt (η : Nat → Int) (k : Nat) (l : List (Nat × Int × Int × Nat)) (i : Int) (x : Nat) : Int :=
  match Py.dget l x with
  | some e => (e.2.2 : Int) - e.1 + i * e.2.1
  | none => Function.update η k i x

theorem valsAt_mem (η : Nat → Int) (k : Nat) {l : List (Nat × Int × Int × Nat)} (h : Py.NodupKeys l) (i : Int) {e} (he : e ∈ l) :
    valsAt η k l i e.1 = (e.2.2.2 : Int) - e.2.1 + i * e.2.2.1 := by
  unfold valsAt
  rw [(Py.mem_iff_dget h e.1 e.2).1 he]

theorem valsAt_nonneg {η : Nat → Int} (hη : ∀ x, 0 ≤ η x) (k : Nat) {l : List (Nat × Int × Int × Nat)} (h : Py.NodupKeys l) (i : Nat)
    (hl : ∀ e ∈ l, 0 ≤ (e.2.2.2 : Int) - e.2.1 + i * e.2.2.1) (x : Nat) : 0 ≤ valsAt η k l i x := by
  unfold valsAt
  split
  · next e he => exact hl (x, e) ((Py.mem_iff_dget h x e).2 he)
  · by_cases hx : x = k
    · subst hx; rw [Function.update_self]; omega
    · rw [Function.update_of_ne hx]; exact hη x

/-- The lengths do not depend on the variable `k`. -/
def FreshT (k : Nat) (t : ChainTape σ V) : Prop :=
  ∀ d, ∀ b ∈ t.half d, ∀ v, b.num = some v → ∀ (η : Nat → Int) (i : Int), Val.value (Function.update η k i) v = Val.value η v

/-- the values that the scan keeps -/
theorem scan_vals {z : σ} {η : Nat → Int} {g d t u l} (h : MH z η g d t u l) (dir : Dir) : ∀ (i : Nat) (sc sc' : Scan),
    Py.NodupKeys l → scanHalf dir i g d t sc = .ok sc' →
    (∀ x, x ∉ l.map (·.1) → Py.dget sc'.vals x = Py.dget sc.vals x) ∧
    ∀ e ∈ l, ∃ b ∈ t, ∃ v, b.num = some v ∧ Val.value η v = e.2.2.2 ∧
      Py.dget sc'.vals e.1 = some (v.sub (.num e.2.1), e.2.2.1) := by
  induction h with
  | last =>
    intro i sc sc' _ hs
    simp only [scanHalf, Out.ok.injEq] at hs
    subst hs
    exact ⟨fun _ _ => rfl, by simp⟩
  | one a hv h ih =>
    intro i sc sc' hn hs
    unfold scanHalf at hs
    obtain ⟨h1, h2⟩ := ih (i + 1) sc sc' hn hs
    refine ⟨h1, fun e he => ?_⟩
    obtain ⟨b, hb, r⟩ := h2 e he
    exact ⟨b, by simp [hb], r⟩
  | @many a x c δ v n g d t u l hv h ih =>
    intro i sc sc' hn hs
    unfold Py.NodupKeys at hn
    simp only [List.map_cons, List.nodup_cons] at hn
    have key : ∀ sc1 : Scan, sc1.vals = Py.dset sc.vals x (v.sub (.num c), δ) → scanHalf dir (i + 1) g d t sc1 = .ok sc' →
        (∀ x', x' ∉ ((x, c, δ, n) :: l).map (·.1) → Py.dget sc'.vals x' = Py.dget sc.vals x') ∧
        ∀ e ∈ (x, c, δ, n) :: l, ∃ b ∈ (⟨a, some v⟩ : Blk σ V) :: t, ∃ v', b.num = some v' ∧ Val.value η v' = e.2.2.2 ∧
          Py.dget sc'.vals e.1 = some (v'.sub (.num e.2.1), e.2.2.1) := by
      intro sc1 h1 h2
      obtain ⟨h3, h4⟩ := ih (i + 1) sc1 sc' hn.2 h2
      refine ⟨fun x' hx' => ?_, fun e he => ?_⟩
      · simp only [List.map_cons, List.mem_cons, not_or] at hx'
        rw [h3 x' hx'.2, h1, Py.dget_dset, if_neg hx'.1]
      · rcases List.mem_cons.1 he with rfl | he
        · refine ⟨_, List.mem_cons_self, v, rfl, hv, ?_⟩
          rw [h3 x hn.1, h1, Py.dget_dset, if_pos rfl]
        · obtain ⟨b, hb, r⟩ := h4 e he
          exact ⟨b, by simp [hb], r⟩
    unfold scanHalf at hs
    simp only [restricted_varPlus] at hs
    rw [show (varPlus x c).const = c from rfl] at hs
    split at hs
    · cases hs
    split at hs
    · split at hs
      · split at hs
        · cases hs
        split at hs
        · cases hs
        exact key _ rfl hs
      · split at hs
        · cases hs
        split at hs
        · split at hs
          · exact key _ rfl hs
          · exact key _ rfl hs
        · cases hs
      · cases hs
    · exact key _ rfl hs

/-- the tape after `i` applications -/
def addT (i : Int) (d : ChainTape σ V) (u : ChainTape σ Nat) : ChainTape σ Nat :=
  ⟨u.dir, addHalf i d.left u.left, addHalf i d.right u.right⟩

section
variable [Sums] {T : Table} {Den : DC σ S → Config → Prop} {z : σ} {key : Strip σ S} {r : DiffRule σ}
  {ll lr : List (Nat × Int × Int)} {η : Nat → Int} {tape : ChainTape σ V} {u : ChainTape σ Nat}
  {ml mr : List (Nat × Int × Int × Nat)}

/-- one application -/
theorem diff_once (h : DiffOK T Den z key r ll lr) (hdir : r.init.dir = u.dir)
    (hL : MH z η r.init.left r.diff.left tape.left u.left ml) (hR : MH z η r.init.right r.diff.right tape.right u.right mr)
    (hnd : Py.NodupKeys (ml ++ mr)) (hη : ∀ x, 0 ≤ η x) (k : Nat) (i : Nat)
    (hge : ∀ e ∈ ml ++ mr, 0 ≤ (e.2.2.2 : Int) - e.2.1 + i * e.2.2.1 ∧ 0 ≤ (e.2.2.2 : Int) + i * e.2.2.1) (cfg : Config)
    (hden : Den (tapeDC z (addT i r.diff u) key.st) cfg) :
    ∃ n, 0 < n ∧ Den (tapeDC z (addT (i + 1 : Nat) r.diff u) key.st) (run T n cfg) ∧
      (∀ e ∈ ml ++ mr, 0 ≤ (e.2.2.2 : Int) + (i + 1 : Nat) * e.2.2.1) ∧
      (∀ q, q ∈ r.states ↔ ∃ k, k < n ∧ VisitedAt T cfg q k) ∧
      (SumsRight → Val.value (qy (valsAt η k (ml ++ mr) i)) r.steps = n) := by
  have hy := fun e he => valsAt_mem η k hnd (i : Int) (e := e) he
  obtain ⟨u', n, hp, hn, hd, hv⟩ := h.sound (valsAt η k (ml ++ mr) i) (valsAt_nonneg hη k hnd i (fun e he => (hge e he).1))
    (addT i r.diff u)
    ⟨hdir, mh_is hL _ _ (fun e he => ⟨hy e (by simp [he]), (hge e (by simp [he])).2⟩),
      mh_is hR _ _ (fun e he => ⟨hy e (by simp [he]), (hge e (by simp [he])).2⟩)⟩ cfg hden
  obtain ⟨e1, e2⟩ := mh_plus hL _ (i : Int) (fun e he => hy e (by simp [he])) _ hp.left
  obtain ⟨e3, e4⟩ := mh_plus hR _ (i : Int) (fun e he => hy e (by simp [he])) _ hp.right
  have hu' : u' = addT (i + 1 : Nat) r.diff u := by
    have hd' := hp.dir
    cases u'
    simp only at e1 e3 hd'
    unfold addT
    rw [← hd', e1, e3, hdir]
    push_cast
    rfl
  refine ⟨n, hn, hu' ▸ hd, ?_, hv⟩
  intro e he
  push_cast
  rcases List.mem_append.1 he with he | he
  · exact e2 e he
  · exact e4 e he

/-- `R` applications -/
theorem diff_many (h : DiffOK T Den z key r ll lr) (hdir : r.init.dir = u.dir)
    (hL : MH z η r.init.left r.diff.left tape.left u.left ml) (hR : MH z η r.init.right r.diff.right tape.right u.right mr)
    (hnd : Py.NodupKeys (ml ++ mr)) (hη : ∀ x, 0 ≤ η x) (k : Nat) (cfg : Config) (hden : Den (tapeDC z u key.st) cfg) : ∀ R : Nat,
    (∀ i : Nat, i < R → ∀ e ∈ ml ++ mr, 0 ≤ (e.2.2.2 : Int) - e.2.1 + i * e.2.2.1) →
    ∃ n, R ≤ n ∧ Den (tapeDC z (addT R r.diff u) key.st) (run T n cfg) ∧
      (∀ e ∈ ml ++ mr, 0 ≤ (e.2.2.2 : Int) + R * e.2.2.1) ∧
      (0 < R → ∀ q, q ∈ r.states ↔ ∃ k, k < n ∧ VisitedAt T cfg q k) ∧ (R = 0 → n = 0) ∧
      (SumsRight → (∑ i ∈ Finset.range R, Val.value (qy (valsAt η k (ml ++ mr) i)) r.steps) = n) := by
  intro R
  induction R with
  | zero =>
    intro _
    refine ⟨0, le_refl _, ?_, fun e _ => by simp, fun h => absurd h (by omega), fun _ => rfl, fun _ => by simp⟩
    unfold addT
    rw [Nat.cast_zero, mh_zero hL, mh_zero hR]
    exact hden
  | succ R ih =>
    intro hge
    obtain ⟨n, h1, h2, h3, h4, h0, hst⟩ := ih (fun i hi => hge i (by omega))
    obtain ⟨m, h5, h6, h7, h8, h9⟩ := diff_once h hdir hL hR hnd hη k R (fun e he => ⟨hge R (by omega) e he, h3 e he⟩) _ h2
    refine ⟨n + m, by omega, by rw [run_add]; exact h6, h7, fun _ q => ?_, fun h => absurd h (by omega),
      fun hs => by rw [Finset.sum_range_succ, hst hs, h9 hs]; push_cast; rfl⟩
    rw [visited_add, ← h8 q]
    rcases Nat.eq_zero_or_pos R with hR0 | hR0
    · have := h0 hR0
      subst this
      simp
    · rw [← h4 hR0 q]; simp

omit [Sums] in
theorem keys_eq {l : List (Nat × Int × Int)} {l' : List (Nat × Int × Int × Nat)}
    (h : l'.map (fun e => (e.1, e.2.1, e.2.2.1)) = l) : l.map (·.1) = l'.map (·.1) := by
  rw [← h, List.map_map]; rfl

theorem diffApply_ends {z : σ} (r : DiffRule σ) (k : Nat) {res : Res σ} (he : EndsT z tape)
    (ha : applyDiff r tape k = .ok res) : ResEnds z tape.dir res := by
  unfold applyDiff at ha
  split at ha
  · cases ha
  · cases ha
  split at ha
  · cases ha
  · cases ha
  split at ha
  · cases ha; trivial
  split at ha
  · cases ha
  split at ha
  · cases ha
  split at ha
  · cases ha
  split at ha
  · next left right hl hr =>
    cases ha
    refine ⟨fun d => ?_, rfl⟩
    cases d
    · exact filter_ends (return_ends (he .L) _ _ _ _ _ hl)
    · exact filter_ends (return_ends (he .R) _ _ _ _ _ hr)
  · cases ha

/-- **Applying a difference rule.** -/
theorem diffApply_ok (live : ∀ q cfg, Den q cfg → cfg.state ≠ none) (h : DiffOK T Den z key r ll lr)
    (hkey : key = strip valIsOne key.st tape) (he : EndsT z tape)
    (hη : ∀ x, 0 ≤ η x) (hu : TapeIs η tape u) (cfg : Config) (hden : Den (tapeDC z u key.st) cfg) (k : Nat) (hfr : FreshT k tape) {res : Res σ}
    (ha : applyDiff r tape k = .ok res) : ResOK T Den z η key.st cfg res := by
  have hs : strip valIsOne key.st r.init = strip valIsOne key.st tape := h.shape.symm.trans hkey
  unfold strip at hs
  simp only [Strip.mk.injEq, true_and] at hs
  obtain ⟨hdir, hl, hr⟩ := hs
  obtain ⟨ml, hL, eL⟩ := mh_of h.left (he .L) hu.left hl.symm
  obtain ⟨mr, hR, eR⟩ := mh_of h.right (he .R) hu.right hr.symm
  have hnd : Py.NodupKeys (ml ++ mr) := by
    unfold Py.NodupKeys
    rw [List.map_append, ← keys_eq eL, ← keys_eq eR, ← List.map_append]
    exact h.nodup
  have hdir' : r.init.dir = u.dir := hdir.trans hu.dir
  unfold applyDiff at ha
  split at ha
  · cases ha
  · cases ha
  next sc1 hs1 =>
  split at ha
  · cases ha
  · cases ha
  next sc hs2 =>
  have S1 := scan_is hη hL .L 0 _ _ hs1
  have S2 := scan_is hη hR .R 0 _ _ hs2
  have hge : ∀ e ∈ ml ++ mr, e.2.1 ≤ (e.2.2.2 : Int) := by
    intro e he
    rcases List.mem_append.1 he with he | he
    · exact S1.ge e he
    · exact S2.ge e he
  split at ha
  · next hnone =>
    cases ha
    obtain ⟨h1, h2⟩ := S2.unlim hnone
    obtain ⟨-, h3⟩ := S1.unlim h1
    have hpos : ∀ e ∈ ml ++ mr, 0 ≤ e.2.2.1 := by
      intro e he
      rcases List.mem_append.1 he with he | he
      · exact h3 e he
      · exact h2 e he
    refine loop_forever (P := fun cfg => ∃ i : Nat, Den (tapeDC z (addT i r.diff u) key.st) cfg)
      (fun cfg ⟨i, hi⟩ => live _ _ hi) ?_ cfg ⟨0, ?_⟩
    · rintro cfg ⟨i, hi⟩
      obtain ⟨n, h5, h6, -, h8, -⟩ := diff_once h hdir' hL hR hnd hη k i (fun e he => by
        have h9 : 0 ≤ (i : Int) * e.2.2.1 := Int.mul_nonneg (by omega) (hpos e he)
        have := hge e he
        constructor <;> omega) cfg hi
      exact ⟨n, h5, ⟨i + 1, h6⟩, h8⟩
    · unfold addT
      rw [Nat.cast_zero, mh_zero hL, mh_zero hR]
      exact hden
  · next reps hreps =>
    obtain ⟨b1, b2⟩ := S2.bound reps hreps
    have hR1 : 1 ≤ Val.value η reps := by
      rcases S2.pos reps hreps with h | h
      · rcases S1.pos reps h with h | h
        · cases h
        · exact h
      · exact h
    have bnd : ∀ e ∈ ml ++ mr, e.2.2.1 < 0 → Val.value η reps * (-e.2.2.1) ≤ (e.2.2.2 : Int) - e.2.1 - e.2.2.1 := by
      intro e he hneg
      rcases List.mem_append.1 he with he | he
      · cases hr1 : sc1.reps with
        | none => have := (S1.unlim hr1).2 e he; omega
        | some v1 =>
          have h1 := (S1.bound v1 hr1).2 e he hneg
          have h2 := b1 v1 hr1
          have : Val.value η reps * (-e.2.2.1) ≤ Val.value η v1 * (-e.2.2.1) :=
            Int.mul_le_mul_of_nonneg_right h2 (by omega)
          omega
      · exact b2 e he hneg
    obtain ⟨R, hRv⟩ := Int.eq_ofNat_of_zero_le (show 0 ≤ Val.value η reps by omega)
    obtain ⟨n, h1, h2, h3, h4, -, hst⟩ := diff_many h hdir' hL hR hnd hη k cfg hden R (by
      intro i hi e he
      by_cases hneg : e.2.2.1 < 0
      · have hb := bnd e he hneg
        rw [hRv] at hb
        have : ((i : Int) + 1) * (-e.2.2.1) ≤ (R : Int) * (-e.2.2.1) :=
          Int.mul_le_mul_of_nonneg_right (by omega) (by omega)
        have e1 : ((i : Int) + 1) * (-e.2.2.1) = -((i : Int) * e.2.2.1) - e.2.2.1 := by ring
        omega
      · have h9 : 0 ≤ (i : Int) * e.2.2.1 := Int.mul_nonneg (by omega) (by omega)
        have := hge e he
        omega)
    rw [← hRv] at h3
    split at ha
    · cases ha
    split at ha
    · cases ha
    next each heach =>
    split at ha
    · cases ha
    next total htot =>
    split at ha
    · next left right hl hr =>
      cases ha
      have hsteps : SumsRight → Val.value (qy η) total = n := by
        intro hs
        have hup : ∀ i : Nat, Function.update (qy η) k (i : ℚ) = qy (Function.update η k (i : Int)) := by
          intro i
          funext x
          by_cases hx : x = k
          · subst hx; simp [qy]
          · simp [qy, Function.update_of_ne hx]
        rw [hs each k _ total htot (qy η) R (by rw [toQ_value, hRv]; simp), ← hst hs]
        refine Finset.sum_congr rfl (fun i _ => ?_)
        rw [subst_any heach, hup]
        congr 1
        funext x
        have hnL : Py.NodupKeys ml := by
          unfold Py.NodupKeys at hnd ⊢; rw [List.map_append] at hnd; exact (List.nodup_append.1 hnd).1
        have hnR : Py.NodupKeys mr := by
          unfold Py.NodupKeys at hnd ⊢; rw [List.map_append] at hnd; exact (List.nodup_append.1 hnd).2.1
        obtain ⟨v1, v2⟩ := scan_vals hL .L 0 _ _ hnL hs1
        obtain ⟨v3, v4⟩ := scan_vals hR .R 0 _ _ hnR hs2
        have hone : ∀ e ∈ ml ++ mr, ∃ d, ∃ b ∈ tape.half d, ∃ v, b.num = some v ∧ Val.value η v = e.2.2.2 ∧
            Py.dget sc.vals e.1 = some (v.sub (.num e.2.1), e.2.2.1) := by
          intro e he
          rcases List.mem_append.1 he with he' | he'
          · obtain ⟨b, hb, v, a1, a2, a3⟩ := v2 e he'
            refine ⟨.L, b, hb, v, a1, a2, ?_⟩
            rw [v3 e.1 ?_, a3]
            intro hmem
            unfold Py.NodupKeys at hnd
            rw [List.map_append, List.nodup_append] at hnd
            exact hnd.2.2 e.1 (List.mem_map.2 ⟨e, he', rfl⟩) _ hmem rfl
          · obtain ⟨b, hb, v, a1, a2, a3⟩ := v4 e he'
            exact ⟨.R, b, hb, v, a1, a2, a3⟩
        cases hx : Py.dget (ml ++ mr) x with
        | some e =>
          obtain ⟨d, b, hb, v, a1, a2, a3⟩ := hone (x, e) ((Py.mem_iff_dget hnd x e).2 hx)
          simp only at a2 a3
          simp only [substAssign, lineAt, a3, Option.map_some, qy, valsAt, hx]
          rw [add_value, mul_value, toQ_value, sub_value, value_num, value_num, value_expr, varE_value, hfr d b hb v a1, a2]
          rw [show qy (Function.update η k (i : Int)) k = (i : ℚ) by simp [qy]]
          push_cast
          ring
        | none =>
          have hxm : x ∉ (ml ++ mr).map (·.1) := by
            intro hm
            obtain ⟨⟨x', e⟩, h1, h2⟩ := List.mem_map.1 hm
            simp only at h2
            subst h2
            rw [(Py.mem_iff_dget hnd x' e).1 h1] at hx
            cases hx
          rw [List.map_append, List.mem_append, not_or] at hxm
          have : Py.dget sc.vals x = none := by rw [v3 x hxm.2, v1 x hxm.1]; rfl
          simp only [substAssign, lineAt, this, Option.map_none, qy, valsAt, hx]
      have limL : ∀ j f, limitIn .L sc.limit = some (0 + j, f) →
          LimAt (Val.value η reps) r.diff.left u.left j (Val.value η f) := by
        intro j f hj
        rcases S2.limit with ⟨e1, e2⟩ | ⟨v, j', f', e1, e2, -⟩
        · rw [e2] at hj
          rcases S1.limit with ⟨-, e4⟩ | ⟨v, j', f', e3, e4, e5⟩
          · rw [e4] at hj; cases hj
          · rw [e4] at hj
            simp only [limitIn, if_pos, Option.some.injEq, Prod.mk.injEq] at hj
            obtain ⟨hj1, rfl⟩ := hj
            have : j' = j := by omega
            subst this
            rw [hreps] at e1
            rw [e3] at e1
            cases e1
            exact e5
        · rw [e2] at hj
          simp [limitIn] at hj
      have limR : ∀ j f, limitIn .R sc.limit = some (0 + j, f) →
          LimAt (Val.value η reps) r.diff.right u.right j (Val.value η f) := by
        intro j f hj
        rcases S2.limit with ⟨e1, e2⟩ | ⟨v, j', f', e1, e2, e5⟩
        · rw [e2] at hj
          rcases S1.limit with ⟨-, e4⟩ | ⟨v, j', f', e3, e4, e5⟩
          · rw [e4] at hj; cases hj
          · rw [e4] at hj
            simp [limitIn] at hj
        · rw [e2] at hj
          simp only [limitIn, if_pos, Option.some.injEq, Prod.mk.injEq] at hj
          obtain ⟨hj1, rfl⟩ := hj
          have : j' = j := by omega
          subst this
          rw [hreps] at e1
          cases e1
          exact e5
      have rL := return_is hL reps _ 0 limL (fun e he => h3 e (by simp [he])) _ hl
      have rR := return_is hR reps _ 0 limR (fun e he => h3 e (by simp [he])) _ hr
      obtain ⟨uL, fL1, fL2⟩ := filter_is rL z
      obtain ⟨uR, fR1, fR2⟩ := filter_is rR z
      refine ⟨⟨u.dir, uL, uR⟩, n, ⟨hu.dir, fL1, fR1⟩, by omega, ?_, h4 (by omega), hsteps⟩
      have : tapeDC z (⟨u.dir, uL, uR⟩ : ChainTape σ Nat) key.st = tapeDC z (addT R r.diff u) key.st := by
        unfold tapeDC addT
        rw [hRv] at fL2 fR2
        congr 1
        funext d
        cases d
        · exact fL2
        · exact fR2
      rw [this]
      exact h2
    · cases ha
end

end Model.Recursive
