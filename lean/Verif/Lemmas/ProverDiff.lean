import Verif.Lemmas.ProverRule
import Verif.Lemmas.Series

/-! # Applying a difference rule -/

namespace Model.Prover
open Spec Model Model.Expr
variable {σ S : Type}

/-- Rule, differences and tape, with the variables: name, constant, difference, count.  (A rule may end before the end of the
tape.) -/
inductive MHalf (z : σ) : List (Blk σ V) → List (Blk σ V) → List (Blk σ Nat) → List (Nat × Int × Int × Nat) → Prop
  | nil : MHalf z [] [] [] []
  | last : MHalf z [⟨z, none⟩] [⟨z, none⟩] [⟨z, none⟩] []
  | one (a : σ) {g d u l} : MHalf z g d u l →
      MHalf z (⟨a, some (.num 1)⟩ :: g) (⟨a, some (.num 0)⟩ :: d) (⟨a, some 1⟩ :: u) l
  | many (a : σ) {x : Nat} {c δ : Int} {n : Nat} {g d u l} : 1 ≤ c → 1 ≤ c + δ → MHalf z g d u l →
      MHalf z (⟨a, some (.expr (varPlus x c))⟩ :: g) (⟨a, some (.num δ)⟩ :: d) (⟨a, some n⟩ :: u) ((x, c, δ, n) :: l)

theorem rhalf_ne {z : σ} {g d l} (h : RHalf z g d l) : g ≠ [] ∧ d ≠ [] := by cases h <;> simp

theorem wfHalf_ne {z : σ} {u : List (Blk σ Nat)} (h : WFHalf z u) : u ≠ [] := by
  rintro rfl; exact h

theorem info_nat {a : σ} {n : Nat} :
    (n = 1 ∧ info natIsOne (⟨a, some n⟩ : Blk σ Nat) = .one a) ∨
    (n ≠ 1 ∧ info natIsOne (⟨a, some n⟩ : Blk σ Nat) = .many a) := by
  by_cases h : n = 1
  · exact Or.inl ⟨h, by simp [info, natIsOne, h]⟩
  · exact Or.inr ⟨h, by simp [info, natIsOne, h]⟩

theorem match_of {z : σ} {g d l} (h : RHalf z g d l) : ∀ {u : List (Blk σ Nat)}, WFHalf z u →
    u.dropLast.map (info natIsOne) = g.dropLast.map (info valIsOne) →
    ∃ l', MHalf z g d u l' ∧ l'.map (fun e => (e.1, e.2.1, e.2.2.1)) = l := by
  induction h with
  | last =>
    intro u hw he
    match u, hw, he with
    | ⟨a, none⟩ :: rest, hw, he => obtain ⟨rfl, rfl⟩ := wfHalf_inf hw; exact ⟨[], .last, rfl⟩
    | ⟨a, some n⟩ :: rest, hw, he =>
      rw [dropLast_map _ (wfHalf_ne (wfHalf_cons.1 hw).2.2)] at he; simp at he
  | one a h ih =>
    intro u hw he
    rw [dropLast_map _ (rhalf_ne h).1] at he
    match u, hw, he with
    | ⟨b, none⟩ :: rest, hw, he => obtain ⟨rfl, rfl⟩ := wfHalf_inf hw; simp at he
    | ⟨b, some n⟩ :: rest, hw, he =>
      have hr := (wfHalf_cons.1 hw).2.2
      rw [dropLast_map _ (wfHalf_ne hr)] at he
      obtain ⟨h1, h2⟩ := List.cons.inj he
      obtain ⟨l', h3, h4⟩ := ih hr h2
      rcases info_nat (a := b) (n := n) with ⟨rfl, e⟩ | ⟨hne, e⟩ <;> rw [e] at h1 <;> simp at h1
      subst h1
      exact ⟨l', .one b h3, h4⟩
  | @many a x c δ g d l h1 h2 h ih =>
    intro u hw he
    rw [dropLast_map _ (rhalf_ne h).1, info_var] at he
    match u, hw, he with
    | ⟨b, none⟩ :: rest, hw, he => obtain ⟨rfl, rfl⟩ := wfHalf_inf hw; simp at he
    | ⟨b, some n⟩ :: rest, hw, he =>
      have hr := (wfHalf_cons.1 hw).2.2
      rw [dropLast_map _ (wfHalf_ne hr)] at he
      obtain ⟨h3, h4⟩ := List.cons.inj he
      obtain ⟨l', h5, h6⟩ := ih hr h4
      rcases info_nat (a := b) (n := n) with ⟨rfl, e⟩ | ⟨hne, e⟩ <;> rw [e] at h3 <;> simp at h3
      subst h3
      exact ⟨(x, c, δ, n) :: l', .many b h1 h2 h5, by simp [h6]⟩

/-- the counts after `i` applications -/
def addHalf (i : Int) : List (Blk σ V) → List (Blk σ Nat) → List (Blk σ Nat)
  | d :: ds, b :: u =>
    match d.num, b.num with
    | some (.num δ), some n => ⟨b.sym, some (n + i * δ).toNat⟩ :: addHalf i ds u
    | _, _ => b :: addHalf i ds u
  | _, u => u

theorem addHalf_zero {z : σ} {g d u l} (h : MHalf z g d u l) : addHalf 0 d u = u := by
  induction h with
  | nil => rfl
  | last => rfl
  | one a h ih => simp [addHalf, ih]
  | many a h1 h2 h ih => simp [addHalf, ih]

theorem add_is {z : σ} {g d u l} (h : MHalf z g d u l) (y : Nat → Int) (i : Int)
    (hy : ∀ e ∈ l, y e.1 = (e.2.2.2 : Int) - e.2.1 + i * e.2.2.1 ∧ 0 ≤ y e.1) : HalfIs y g (addHalf i d u) := by
  induction h with
  | nil => exact .nil
  | last => exact .cons ⟨rfl, trivial⟩ .nil
  | one a h ih => exact .cons ⟨rfl, by simp [NumIs, value_num]⟩ (ih hy)
  | @many a x c δ n g d u l h1 h2 h ih =>
    obtain ⟨hy1, hy2⟩ := hy (x, c, δ, n) (by simp)
    refine .cons ⟨rfl, ?_⟩ (ih (fun e he => hy e (by simp [he])))
    simp only at hy1 hy2
    show Val.value y (.expr (varPlus x c)) = (((n : Int) + i * δ).toNat : Int)
    rw [varPlus_value, hy1, Int.toNat_of_nonneg (by omega)]
    ring

theorem add_plus {z : σ} {g d u l} (h : MHalf z g d u l) (y : Nat → Int) (i : Int)
    (hy : ∀ e ∈ l, y e.1 = (e.2.2.2 : Int) - e.2.1 + i * e.2.2.1) : ∀ u', HalfPlus y g d u' → u' = addHalf (i + 1) d u := by
  induction h with
  | nil =>
    intro u' h
    match u', h with
    | [], _ => rfl
  | last =>
    intro u' h
    match u', h with
    | b :: u', h =>
      obtain ⟨h1, h2, h3⟩ := h
      match u', h2 with
      | [], _ =>
        obtain ⟨bs, bn⟩ := b
        simp only at h1 h3
        subst h1
        cases bn with
        | none => rfl
        | some n => exact h3.elim
  | one a h ih =>
    intro u' h
    match u', h with
    | ⟨bs, some n⟩ :: u', h =>
      obtain ⟨h1, h2, h3⟩ := h
      rw [ih hy u' h2]
      simp only [value_num] at h1 h3
      subst h1
      have : n = 1 := by omega
      subst this
      simp [addHalf]
    | ⟨bs, none⟩ :: u', h => exact h.2.2.elim
  | @many a x c δ n g d u l h1 h2 h ih =>
    intro u' h
    have hy1 := hy (x, c, δ, n) (by simp)
    simp only at hy1
    match u', h with
    | ⟨bs, some n'⟩ :: u', h =>
      obtain ⟨h3, h4, h5⟩ := h
      rw [ih (fun e he => hy e (by simp [he])) u' h4]
      simp only [varPlus_value, value_num, hy1] at h3 h5
      subst h3
      have : ((n : Int) + (i + 1) * δ) = n' := by rw [← h5]; ring
      simp [addHalf, this]
    | ⟨bs, none⟩ :: u', h => exact h.2.2.elim

theorem add_filter {z : σ} {g d u l} (h : MHalf z g d u l) (i : Int)
    (hy : ∀ e ∈ l, 1 ≤ (e.2.2.2 : Int) + i * e.2.2.1) : (addHalf i d u).filter nonZero = addHalf i d u := by
  induction h with
  | nil => rfl
  | last => rfl
  | one a h ih => simp [addHalf, ih hy, nonZero]
  | @many a x c δ n g d u l h1 h2 h ih =>
    have := hy (x, c, δ, n) (by simp)
    simp only at this
    simp only [addHalf, ih (fun e he => hy e (by simp [he]))]
    rw [List.filter_cons_of_pos, ih (fun e he => hy e (by simp [he]))]
    simp only [nonZero, ne_eq, Option.some.injEq, decide_not, Bool.not_eq_true', decide_eq_false_iff_not]
    omega

/-- the limit is at this block of the half tape -/
def LimAt (R : Int) (ds : List (Blk σ V)) (u : List (Blk σ Nat)) (j : Nat) (f : Int) : Prop :=
  ∃ a b n δ, ds[j]? = some ⟨a, some (.num δ)⟩ ∧ u[j]? = some ⟨b, some n⟩ ∧ f = (n : Int) + R * δ

theorem return_ok {z : σ} {g d u l} (h : MHalf z g d u l) (R : Int) (lim : Option (Nat × Int)) (i : Nat)
    (hl : ∀ j f, lim = some (i + j, f) → LimAt R d u j f)
    (hy : ∀ e ∈ l, 1 ≤ (e.2.2.2 : Int) + R * e.2.2.1) : returnHalf R lim i d u = some (addHalf R d u) := by
  induction h generalizing i with
  | nil => simp [returnHalf, addHalf]
  | last => simp [returnHalf, addHalf]
  | one a h ih =>
    have ih := ih (i + 1) (fun j f hj => by
      obtain ⟨a', b, n, δ, h1, h2, h3⟩ := hl (j + 1) f (by rw [hj]; congr 2; omega)
      exact ⟨a', b, n, δ, by simpa using h1, by simpa using h2, h3⟩) hy
    unfold returnHalf
    simp only [ih]
    cases lim with
    | none => simp [addHalf, asNat]
    | some p =>
      obtain ⟨j, f⟩ := p
      simp only
      by_cases hj : j = i
      · rw [if_pos hj]
        obtain ⟨a', b, n, δ, h1, h2, h3⟩ := hl 0 f (by rw [hj]; rfl)
        simp at h1 h2
        obtain ⟨-, rfl⟩ := h1
        obtain ⟨-, rfl⟩ := h2
        simp at h3
        subst h3
        simp [addHalf, asNat]
      · rw [if_neg hj]
        simp [addHalf, asNat]
  | @many a x c δ n g d u l h1 h2 h ih =>
    have ih := ih (i + 1) (fun j f hj => by
      obtain ⟨a', b, n, δ, h1, h2, h3⟩ := hl (j + 1) f (by rw [hj]; congr 2; omega)
      exact ⟨a', b, n, δ, by simpa using h1, by simpa using h2, h3⟩) (fun e he => hy e (by simp [he]))
    have hy1 := hy (x, c, δ, n) (by simp)
    simp only at hy1
    have hpos : 0 ≤ (n : Int) + R * δ := by omega
    unfold returnHalf
    simp only [ih]
    cases lim with
    | none => simp [addHalf, asNat, hpos]
    | some p =>
      obtain ⟨j, f⟩ := p
      simp only
      by_cases hj : j = i
      · rw [if_pos hj]
        obtain ⟨a', b, n', δ', h1, h2, h3⟩ := hl 0 f (by rw [hj]; rfl)
        simp at h1 h2
        obtain ⟨-, rfl⟩ := h1
        obtain ⟨-, rfl⟩ := h2
        subst h3
        simp [addHalf, asNat, hpos]
      · rw [if_neg hj]
        simp [addHalf, asNat, hpos]

/-! ## The scan -/

theorem maxReps_eq (c δ : Int) (n : Int) (hδ : δ < 0) :
    ∃ R : Int, (RuleFunc.Subtract.mk c (-δ)).maxReps n = (R, n + R * δ) ∧ R * (-δ) ≤ n - c - δ ∧ n - c - δ < (R + 1) * (-δ) := by
  have hd : (n - (c - -δ)).fdiv (-δ) = (n - (c - -δ)) / (-δ) := Int.fdiv_eq_ediv_of_nonneg _ (by omega)
  have hm : (n - (c - -δ)).fmod (-δ) = (n - (c - -δ)) % (-δ) := Int.fmod_eq_emod_of_nonneg _ (by omega)
  have h1 := Int.mul_ediv_add_emod (n - (c - -δ)) (-δ)
  have h2 := Int.emod_nonneg (n - (c - -δ)) (b := -δ) (by omega)
  have h3 := Int.emod_lt_of_pos (n - (c - -δ)) (b := -δ) (by omega)
  simp only [RuleFunc.Subtract.maxReps, hd, hm]
  generalize (n - (c - -δ)) / (-δ) = q at *
  generalize (n - (c - -δ)) % (-δ) = m at *
  refine ⟨q, ?_, ?_, ?_⟩
  · congr 1; linarith
  · linarith
  · linarith

/-- how the scan of a half tape changes the scan -/
structure ScanTo (dir : Dir) (i : Nat) (ds : List (Blk σ V)) (u : List (Blk σ Nat)) (l : List (Nat × Int × Int × Nat))
    (sc sc' : Scan) : Prop where
  ge : ∀ e ∈ l, e.2.1 ≤ (e.2.2.2 : Int)
  vals : ∀ x, x ∉ l.map (·.1) → Py.dget sc'.vals x = Py.dget sc.vals x
  mem : (l.map (·.1)).Nodup → ∀ e ∈ l, Py.dget sc'.vals e.1 = some ((e.2.2.2 : Int) - e.2.1, e.2.2.1)
  unlim : sc'.reps = none → sc.reps = none ∧ ∀ e ∈ l, 0 ≤ e.2.2.1
  bound : ∀ R, sc'.reps = some R → (∀ R0, sc.reps = some R0 → R ≤ R0) ∧
    ∀ e ∈ l, e.2.2.1 < 0 → R * (-e.2.2.1) ≤ (e.2.2.2 : Int) - e.2.1 - e.2.2.1
  limit : (sc'.reps = sc.reps ∧ sc'.limit = sc.limit) ∨
    ∃ R j f, sc'.reps = some R ∧ sc'.limit = some (dir, i + j, f) ∧ LimAt R ds u j f
  max : ∀ R, sc'.reps = some R → sc.reps = some R ∨ ∃ e ∈ l, e.2.2.1 < 0 ∧ (e.2.2.2 : Int) - e.2.1 - e.2.2.1 < (R + 1) * (-e.2.2.1)

theorem scanTo_skip {dir : Dir} {i : Nat} {d : Blk σ V} {b : Blk σ Nat} {ds u l} {sc sc' : Scan}
    (h : ScanTo dir (i + 1) ds u l sc sc') : ScanTo dir i (d :: ds) (b :: u) l sc sc' := by
  refine ⟨h.ge, h.vals, h.mem, h.unlim, h.bound, ?_, h.max⟩
  rcases h.limit with h1 | ⟨R, j, f, h1, h2, a, b', n, δ, h3, h4, h5⟩
  · exact Or.inl h1
  · exact Or.inr ⟨R, j + 1, f, h1, by rw [h2, Nat.add_assoc, Nat.add_comm 1], a, b', n, δ, by simpa using h3, by simpa using h4, h5⟩

/-- one variable block: `sc1` after it -/
theorem scanTo_cons {dir : Dir} {i : Nat} {d : Blk σ V} {b : Blk σ Nat} {ds u l} {sc sc1 sc' : Scan} {x : Nat} {c δ : Int}
    {n : Nat} (hc : c ≤ n) (hv : sc1.vals = Py.dset sc.vals x ((n : Int) - c, δ))
    (h1 : (0 ≤ δ ∧ sc1.reps = sc.reps ∧ sc1.limit = sc.limit) ∨
      (∃ R R0, δ < 0 ∧ sc.reps = some R0 ∧ R0 ≤ R ∧ R * (-δ) ≤ (n : Int) - c - δ ∧ sc1.reps = sc.reps ∧ sc1.limit = sc.limit) ∨
      (∃ R f, δ < 0 ∧ (∀ R0, sc.reps = some R0 → R ≤ R0) ∧ R * (-δ) ≤ (n : Int) - c - δ ∧ (n : Int) - c - δ < (R + 1) * (-δ) ∧
        sc1.reps = some R ∧ sc1.limit = some (dir, i, f) ∧ LimAt R (d :: ds) (b :: u) 0 f))
    (h : ScanTo dir (i + 1) ds u l sc1 sc') : ScanTo dir i (d :: ds) (b :: u) ((x, c, δ, n) :: l) sc sc' := by
  have hmono : ∀ R R' : Int, δ < 0 → R ≤ R' → R' * (-δ) ≤ (n : Int) - c - δ → R * (-δ) ≤ (n : Int) - c - δ := by
    intro R R' h1 h2 h3
    have : R * (-δ) ≤ R' * (-δ) := Int.mul_le_mul_of_nonneg_right h2 (by omega)
    omega
  refine ⟨?_, ?_, ?_, ?_, ?_, ?_, ?_⟩
  · intro e he
    rcases List.mem_cons.1 he with rfl | he
    · exact hc
    · exact h.ge e he
  · intro x' hx'
    simp only [List.map_cons, List.mem_cons, not_or] at hx'
    rw [h.vals x' hx'.2, hv, Py.dget_dset, if_neg hx'.1]
  · intro hnd e he
    rw [List.map_cons, List.nodup_cons] at hnd
    rcases List.mem_cons.1 he with rfl | he
    · rw [h.vals x hnd.1, hv, Py.dget_dset, if_pos rfl]
    · exact h.mem hnd.2 e he
  · intro hn
    obtain ⟨h2, h3⟩ := h.unlim hn
    rcases h1 with ⟨h4, h5, -⟩ | ⟨R, R0, -, h4, -, -, h5, -⟩ | ⟨R, f, -, -, -, -, h5, -⟩
    · refine ⟨by rw [← h5]; exact h2, fun e he => ?_⟩
      rcases List.mem_cons.1 he with rfl | he
      · exact h4
      · exact h3 e he
    · rw [h5, h4] at h2; cases h2
    · rw [h5] at h2; cases h2
  · intro R hR
    obtain ⟨h2, h3⟩ := h.bound R hR
    rcases h1 with ⟨h4, h5, -⟩ | ⟨R1, R0, h4, h5, h6, h7, h8, -⟩ | ⟨R1, f, h4, h5, h6, -, h8, -⟩
    · refine ⟨fun R0 h0 => h2 R0 (by rw [h5]; exact h0), fun e he => ?_⟩
      rcases List.mem_cons.1 he with rfl | he
      · intro hneg; simp only at hneg; omega
      · exact h3 e he
    · refine ⟨fun R0 h0 => h2 R0 (by rw [h8]; exact h0), fun e he => ?_⟩
      rcases List.mem_cons.1 he with rfl | he
      · intro _
        have := h2 R0 (by rw [h8]; exact h5)
        exact hmono R R1 h4 (by omega) h7
      · exact h3 e he
    · have h9 := h2 R1 h8
      refine ⟨fun R0 h0 => le_trans h9 (h5 R0 h0), fun e he => ?_⟩
      rcases List.mem_cons.1 he with rfl | he
      · intro _; exact hmono R R1 h4 h9 h6
      · exact h3 e he
  · rcases h.limit with ⟨h2, h3⟩ | ⟨R, j, f, h2, h3, a, b', n', δ', h4, h5, h6⟩
    · rcases h1 with ⟨-, h5, h6⟩ | ⟨R, R0, -, -, -, -, h5, h6⟩ | ⟨R, f, -, -, -, -, h5, h6, h7⟩
      · exact Or.inl ⟨h2.trans h5, h3.trans h6⟩
      · exact Or.inl ⟨h2.trans h5, h3.trans h6⟩
      · exact Or.inr ⟨R, 0, f, h2.trans h5, h3.trans h6, h7⟩
    · exact Or.inr ⟨R, j + 1, f, h2, by rw [h3, Nat.add_assoc, Nat.add_comm 1], a, b', n', δ', by simpa using h4,
        by simpa using h5, h6⟩
  · intro R hR
    rcases h.max R hR with h2 | ⟨e, he, h2⟩
    · rcases h1 with ⟨-, h5, h6⟩ | ⟨R, R0, -, -, -, -, h5, h6⟩ | ⟨R1, f, h3, -, -, h4, h5, h6, h7⟩
      · exact Or.inl (h5 ▸ h2)
      · exact Or.inl (h5 ▸ h2)
      · rw [h5] at h2; cases h2
        exact Or.inr ⟨(x, c, δ, n), by simp, h3, h4⟩
    · exact Or.inr ⟨e, by simp [he], h2⟩

theorem scan_ok {z : σ} {g d u l} (h : MHalf z g d u l) (dir : Dir) : ∀ (i : Nat) (sc : Scan),
    match scanHalf dir i g d u sc with
    | .raise => False
    | .fail => ∃ e ∈ l, (e.2.2.2 : Int) < e.2.1
    | .ok sc' => ScanTo dir i d u l sc sc' := by
  induction h with
  | nil =>
    intro i sc
    simp only [scanHalf]
    exact ⟨by simp, by simp, by simp, fun h => ⟨h, by simp⟩, fun R hR => ⟨fun R0 h0 => by rw [h0] at hR; cases hR; exact le_refl _, by simp⟩,
      Or.inl ⟨rfl, rfl⟩, fun R hR => Or.inl hR⟩
  | last =>
    intro i sc
    simp only [scanHalf]
    exact ⟨by simp, by simp, by simp, fun h => ⟨h, by simp⟩, fun R hR => ⟨fun R0 h0 => by rw [h0] at hR; cases hR; exact le_refl _, by simp⟩,
      Or.inl ⟨rfl, rfl⟩, fun R hR => Or.inl hR⟩
  | one a h ih =>
    intro i sc
    have := ih (i + 1) sc
    unfold scanHalf
    simp only
    split at this
    · exact this.elim
    · exact this
    · exact scanTo_skip this
  | @many a x c δ n g d u l h1 h2 h ih =>
    intro i sc
    have lift : ∀ sc1 : Scan, c ≤ n → sc1.vals = Py.dset sc.vals x ((n : Int) - c, δ) →
        ((0 ≤ δ ∧ sc1.reps = sc.reps ∧ sc1.limit = sc.limit) ∨
        (∃ R R0, δ < 0 ∧ sc.reps = some R0 ∧ R0 ≤ R ∧ R * (-δ) ≤ (n : Int) - c - δ ∧ sc1.reps = sc.reps ∧ sc1.limit = sc.limit) ∨
        (∃ R f, δ < 0 ∧ (∀ R0, sc.reps = some R0 → R ≤ R0) ∧ R * (-δ) ≤ (n : Int) - c - δ ∧ (n : Int) - c - δ < (R + 1) * (-δ) ∧
          sc1.reps = some R ∧ sc1.limit = some (dir, i, f) ∧
          LimAt R (⟨a, some (.num δ)⟩ :: d) (⟨a, some n⟩ :: u) 0 f)) →
        match scanHalf dir (i + 1) g d u sc1 with
        | .raise => False
        | .fail => ∃ e ∈ (x, c, δ, n) :: l, (e.2.2.2 : Int) < e.2.1
        | .ok sc' => ScanTo dir i (⟨a, some (.num δ)⟩ :: d) (⟨a, some n⟩ :: u) ((x, c, δ, n) :: l) sc sc' := by
      intro sc1 hc hv hl
      have := ih (i + 1) sc1
      split at this
      · exact this.elim
      · obtain ⟨e, h3, h4⟩ := this; exact ⟨e, by simp [h3], h4⟩
      · exact scanTo_cons hc hv hl this
    unfold scanHalf
    simp only [restricted_varPlus]
    rw [show (varPlus x c).const = c from rfl]
    by_cases hlt : (n : Int) - c < 0
    · rw [if_pos hlt]; exact ⟨(x, c, δ, n), by simp, by show (n : Int) < c; omega⟩
    rw [if_neg hlt]
    by_cases hδ : δ < 0
    · rw [if_pos hδ]
      obtain ⟨R, hR, hR2, hR3⟩ := maxReps_eq c δ n hδ
      rw [hR]
      simp only
      have hlim : LimAt R ((⟨a, some (.num δ)⟩ : Blk σ V) :: d) (⟨a, some n⟩ :: u) 0 ((n : Int) + R * δ) :=
        ⟨a, a, n, δ, rfl, rfl, rfl⟩
      cases hr : sc.reps with
      | none => exact lift _ (by omega) rfl (Or.inr (Or.inr ⟨R, _, hδ, by rw [hr]; simp, hR2, hR3, rfl, rfl, hlim⟩))
      | some r =>
        simp only
        by_cases hlt2 : R < r
        · rw [if_pos hlt2]
          exact lift _ (by omega) rfl (Or.inr (Or.inr ⟨R, _, hδ, by (rw [hr]; intro R0 h0; cases h0; omega), hR2, hR3, rfl, rfl, hlim⟩))
        · rw [if_neg hlt2]
          refine lift _ (by omega) rfl (Or.inr (Or.inl ⟨R, r, hδ, hr, by omega, hR2, ?_, rfl⟩))
          exact hr.symm ▸ rfl
    · rw [if_neg hδ]
      exact lift _ (by omega) rfl (Or.inl ⟨by omega, rfl, rfl⟩)

end Model.Prover
