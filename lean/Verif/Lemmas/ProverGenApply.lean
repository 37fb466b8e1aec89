import Verif.Lemmas.ProverApply

/-! # Applying a general rule -/

namespace Model.Prover
open Spec Model Model.Expr
variable {σ S : Type}

def counts (u : List (Blk σ Nat)) : List (Option Int) := u.map (fun b => b.num.map (fun n : Nat => (n : Int)))

/-- Initial blocks, variables with minima, final blocks and a tape of that shape. -/
inductive GM (D : Nat → Prop) : List (Blk σ V) → List (Option (Nat × Int)) → List (Blk σ V) → List (Blk σ Nat) → Prop
  | nil : GM D [] [] [] []
  | inf (a : σ) {g vs f u} : GM D g vs f u → GM D (⟨a, none⟩ :: g) (none :: vs) (⟨a, none⟩ :: f) (⟨a, none⟩ :: u)
  | one (a : σ) {w : V} {g vs f u} : LinIn D w → (∀ ρ, Val.value ρ w = 1) → GM D g vs f u →
      GM D (⟨a, some (.num 1)⟩ :: g) (none :: vs) (⟨a, some w⟩ :: f) (⟨a, some 1⟩ :: u)
  | many (a : σ) {x : Nat} {m : Int} {w : V} (n : Nat) {g vs f u} : D x → 1 ≤ m → LinIn D w → GM D g vs f u →
      GM D (⟨a, some (.expr (varPlus x 0))⟩ :: g) (some (x, m) :: vs) (⟨a, some w⟩ :: f) (⟨a, some n⟩ :: u)

theorem gm_append {D : Nat → Prop} {g g' f f' : List (Blk σ V)} {vs vs' u u'} (h : GM D g vs f u) (h' : GM D g' vs' f' u') :
    GM D (g ++ g') (vs ++ vs') (f ++ f') (u ++ u') := by
  induction h with
  | nil => exact h'
  | inf a h ih => exact .inf a ih
  | one a h1 h2 h ih => exact .one a h1 h2 ih
  | many a n h1 h2 h3 h ih => exact .many a n h1 h2 h3 ih

theorem grhalf_ne {z : σ} {D g vs f} (h : GRHalf z D g vs f) : g ≠ [] := by cases h <;> simp

theorem gm_strip {z : σ} {D g vs f} (h : GRHalf z D g vs f) : ∀ {u : List (Blk σ Nat)}, WFHalf z u →
    u.dropLast.map (info natIsOne) = g.dropLast.map (info valIsOne) → GM D g vs f u := by
  induction h with
  | last =>
    intro u hw he
    match u, hw, he with
    | ⟨a, none⟩ :: rest, hw, he => obtain ⟨rfl, rfl⟩ := wfHalf_inf hw; exact .inf _ .nil
    | ⟨a, some n⟩ :: rest, hw, he =>
      rw [dropLast_map _ (wfHalf_ne (wfHalf_cons.1 hw).2.2)] at he; simp at he
  | one a hl h1' h ih =>
    intro u hw he
    rw [dropLast_map _ (grhalf_ne h)] at he
    match u, hw, he with
    | ⟨b, none⟩ :: rest, hw, he => obtain ⟨rfl, rfl⟩ := wfHalf_inf hw; simp at he
    | ⟨b, some n⟩ :: rest, hw, he =>
      have hr := (wfHalf_cons.1 hw).2.2
      rw [dropLast_map _ (wfHalf_ne hr)] at he
      obtain ⟨h1, h2⟩ := List.cons.inj he
      rcases info_nat (a := b) (n := n) with ⟨rfl, e⟩ | ⟨hne, e⟩ <;> rw [e] at h1 <;> simp at h1
      subst h1
      exact .one b hl h1' (ih hr h2)
  | @many a x m w g vs f h1 h2 h3 h ih =>
    intro u hw he
    rw [dropLast_map _ (grhalf_ne h), info_var] at he
    match u, hw, he with
    | ⟨b, none⟩ :: rest, hw, he => obtain ⟨rfl, rfl⟩ := wfHalf_inf hw; simp at he
    | ⟨b, some n⟩ :: rest, hw, he =>
      have hr := (wfHalf_cons.1 hw).2.2
      rw [dropLast_map _ (wfHalf_ne hr)] at he
      obtain ⟨h4, h5⟩ := List.cons.inj he
      rcases info_nat (a := b) (n := n) with ⟨rfl, e⟩ | ⟨hne, e⟩ <;> rw [e] at h4 <;> simp at h4
      subst h4
      exact .many b n h1 h2 h3 (ih hr h5)

theorem gm_res {D : Nat → Prop} {g f : List (Blk σ V)} {vs u} (h : GM D g vs f u) {y : Nat → Int} :
    ∀ {u' : List (Blk σ Nat)}, HalfIs y f u' → GM D g vs f u' := by
  induction h with
  | nil => intro u' h; cases h; exact .nil
  | inf a h ih =>
    intro u' h
    cases h with
    | @cons _ b _ u' h1 h2 =>
      obtain ⟨bs, bn⟩ := b
      have := numIs_none h1.2
      simp only at this h1
      obtain ⟨rfl, -⟩ := h1
      subst this
      exact .inf a (ih h2)
  | one a hl hv1 h ih =>
    intro u' h
    cases h with
    | @cons _ b _ u' h1 h2 =>
      obtain ⟨bs, bn⟩ := b
      obtain ⟨n, e, hv⟩ := numIs_some h1.2
      simp only at e h1
      obtain ⟨rfl, -⟩ := h1
      subst e
      have : n = 1 := by rw [hv1] at hv; omega
      subst this
      exact .one a hl hv1 (ih h2)
  | many a n h1 h2 h3 h ih =>
    intro u' h
    cases h with
    | @cons _ b _ u' h4 h5 =>
      obtain ⟨bs, bn⟩ := b
      obtain ⟨n, e, hv⟩ := numIs_some h4.2
      simp only at e h4
      obtain ⟨rfl, -⟩ := h4
      subst e
      exact .many a n h1 h2 h3 (ih h5)

/-- tapes of the same shape with the same counts are equal -/
theorem gm_eq {D : Nat → Prop} {g f : List (Blk σ V)} {vs u} (h : GM D g vs f u) :
    ∀ {u' : List (Blk σ Nat)}, GM D g vs f u' → counts u = counts u' → u = u' := by
  induction h with
  | nil => intro u' h _; cases h; rfl
  | inf a h ih =>
    intro u' h he
    cases h with
    | inf _ h => rw [ih h (by simpa [counts] using he)]
  | one a _ _ h ih =>
    intro u' h he
    cases h with
    | one _ _ _ h => rw [ih h (by simpa [counts] using he)]
  | many a n h1 h2 h3 h ih =>
    intro u' h he
    cases h with
    | many _ n' _ _ _ h =>
      simp only [counts, List.map_cons, Option.map_some, List.cons.injEq, Option.some.injEq, Nat.cast_inj] at he
      obtain ⟨rfl, he⟩ := he
      rw [ih h he]

/-- the assignment as a function -/
def numOf (a : List (Nat × V)) (x : Nat) : Int :=
  match Py.dget a x with
  | some (.num k) => k
  | _ => 0

theorem numOf_eq {a : List (Nat × V)} {x : Nat} {k : Int} (h : Py.dget a x = some (.num k)) : numOf a x = k := by
  simp [numOf, h]

theorem halfIs_congr {D : Nat → Prop} {g f : List (Blk σ V)} {vs u} (h : GM D g vs f u) {y y' : Nat → Int}
    (he : ∀ x ∈ hvars g, y x = y' x) {u' : List (Blk σ Nat)} : HalfIs y g u' → HalfIs y' g u' := by
  induction h generalizing u' with
  | nil => exact fun h => by cases h; exact .nil
  | inf a h ih =>
    intro h
    cases h with
    | cons h1 h2 => exact .cons ⟨h1.1, (by have := numIs_none h1.2; simp only [this]; trivial)⟩ (ih he h2)
  | one a _ _ h ih =>
    intro h
    cases h with
    | cons h1 h2 =>
      obtain ⟨n, e, hv⟩ := numIs_some h1.2
      exact .cons ⟨h1.1, by rw [e]; exact hv⟩ (ih he h2)
  | @many a x m w n g vs f u h1 h2 h3 h ih =>
    intro h
    cases h with
    | cons h4 h5 =>
      obtain ⟨n, e, hv⟩ := numIs_some h4.2
      refine .cons ⟨h4.1, ?_⟩ (ih (fun x hx => he x (by simp [hx])) h5)
      rw [e]
      show Val.value y' _ = (n : Int)
      rw [varPlus_value, ← he x (by simp), ← hv, varPlus_value]

theorem fit_ok {D : Nat → Prop} {g f : List (Blk σ V)} {vs u} (h : GM D g vs f u) : ∀ a : List (Nat × V),
    match fitsMin vs (counts u) a with
    | .raise => False
    | .fail => ¬ ∃ y : Nat → Int, HalfIs y g u ∧ ∀ x m, some (x, m) ∈ vs → m ≤ y x
    | .ok a' => (∀ x, x ∉ hvars g → Py.dget a' x = Py.dget a x) ∧ (∀ x ∈ hvars g, ∃ k, Py.dget a' x = some (.num k)) ∧
        ((hvars g).Nodup → HalfIs (numOf a') g u ∧ ∀ x m, some (x, m) ∈ vs → m ≤ numOf a' x) := by
  induction h with
  | nil => intro a; exact ⟨fun _ _ => rfl, by simp, fun _ => ⟨.nil, by simp⟩⟩
  | @inf b g vs f u h ih =>
    intro a
    have := ih a
    have hc : fitsMin (none :: vs) (counts (⟨b, none⟩ :: u)) a = fitsMin vs (counts u) a := by
      simp [counts, fitsMin]
    rw [hc]
    split at this
    · exact this
    · rintro ⟨y, h1, h2⟩
      cases h1 with
      | cons h3 h4 => exact this ⟨y, h4, fun x m hm => h2 x m (by simp [hm])⟩
    · refine ⟨this.1, this.2.1, fun hn => ?_⟩
      obtain ⟨h1, h2⟩ := this.2.2 hn
      exact ⟨.cons ⟨rfl, trivial⟩ h1, fun x m hm => h2 x m (by simpa using hm)⟩
  | @one b w g vs f u _ _ h ih =>
    intro a
    have := ih a
    have hc : fitsMin (none :: vs) (counts (⟨b, some 1⟩ :: u)) a = fitsMin vs (counts u) a := by
      simp [counts, fitsMin]
    rw [hc]
    split at this
    · exact this
    · rintro ⟨y, h1, h2⟩
      cases h1 with
      | cons h3 h4 => exact this ⟨y, h4, fun x m hm => h2 x m (by simp [hm])⟩
    · refine ⟨this.1, this.2.1, fun hn => ?_⟩
      obtain ⟨h1, h2⟩ := this.2.2 hn
      exact ⟨.cons ⟨rfl, by simp [NumIs, value_num]⟩ h1, fun x m hm => h2 x m (by simpa using hm)⟩
  | @many b x m w n g vs f u h1 h2 h3 h ih =>
    intro a
    have hc : fitsMin (some (x, m) :: vs) (counts (⟨b, some n⟩ :: u)) a =
        if (n : Int) - m ≥ 0 then fitsMin vs (counts u) (Py.dset a x (.num n)) else .fail := by
      simp [counts, fitsMin]
    rw [hc]
    by_cases hm : (n : Int) - m ≥ 0
    · rw [if_pos hm]
      have := ih (Py.dset a x (.num n))
      split at this
      · exact this
      · rintro ⟨y, h4, h5⟩
        cases h4 with
        | cons h6 h7 => exact this ⟨y, h7, fun x m hm => h5 x m (by simp [hm])⟩
      · next a' _ =>
        obtain ⟨i1, i2, i3⟩ := this
        refine ⟨fun x' hx' => ?_, fun x' hx' => ?_, fun hn => ?_⟩
        · simp only [hvars_some, variables_varPlus, List.mem_append, List.mem_singleton, not_or] at hx'
          rw [i1 x' hx'.2, Py.dget_dset, if_neg hx'.1]
        · simp only [hvars_some, variables_varPlus, List.mem_append, List.mem_singleton] at hx'
          by_cases hx2 : x' ∈ hvars g
          · exact i2 x' hx2
          · rw [i1 x' hx2, Py.dget_dset, if_pos (hx'.resolve_right hx2)]
            exact ⟨_, rfl⟩
        · simp only [hvars_some, variables_varPlus, List.cons_append, List.nil_append, List.nodup_cons] at hn
          obtain ⟨j1, j2⟩ := i3 hn.2
          have hx : numOf a' x = n := numOf_eq (by rw [i1 x hn.1, Py.dget_dset, if_pos rfl])
          refine ⟨.cons ⟨rfl, ?_⟩ j1, fun x' m' hm' => ?_⟩
          · show Val.value _ _ = (n : Int)
            rw [varPlus_value, hx, add_zero]
          · rcases List.mem_cons.1 hm' with he | hm'
            · cases he; rw [hx]; omega
            · exact j2 x' m' hm'
    · rw [if_neg hm]
      rintro ⟨y, h4, h5⟩
      cases h4 with
      | cons h6 h7 =>
        have h8 : Val.value y (.expr (varPlus x 0)) = (n : Int) := h6.2
        rw [varPlus_value] at h8
        have := h5 x m (by simp)
        omega

/-- the variables of an infinite rule never fall below their minima -/
theorem fit_inf {D : Nat → Prop} {g f : List (Blk σ V)} {vs u} (h : GM D g vs f u) {y : Nat → Int} (hy : ∀ x, 0 ≤ y x)
    (hfit : ∀ x m, some (x, m) ∈ vs → m ≤ y x) (hi : isInfinite vs (f.map (·.num)) = true) :
    ∀ {u' : List (Blk σ Nat)}, HalfIs y f u' → ∀ a, ∃ a', fitsMin vs (counts u') a = .ok a' := by
  induction h with
  | nil => intro u' h a; cases h; exact ⟨a, rfl⟩
  | inf b h ih =>
    intro u' h a
    cases h with
    | cons h1 h2 =>
      have := ih (fun x m hm => hfit x m (by simp [hm])) (by simpa [isInfinite] using hi) h2 a
      simpa [counts, fitsMin] using this
  | one b _ _ h ih =>
    intro u' h a
    cases h with
    | cons h1 h2 =>
      have := ih (fun x m hm => hfit x m (by simp [hm])) (by simpa [isInfinite] using hi) h2 a
      simpa [counts, fitsMin] using this
  | @many b x m w n g vs f u h1 h2 h3 h ih =>
    intro u' h a
    simp only [List.map_cons, isInfinite, Bool.and_eq_true] at hi
    cases h with
    | @cons _ b' _ u' h4 h5 =>
      obtain ⟨k, e, hv⟩ := numIs_some h4.2
      have hge : y x ≤ k := by
        have := hi.1
        unfold alwaysGe at this
        cases hmv : (Val.sub w (.expr (varE x))).minVal with
        | none => simp [hmv] at this
        | some m' =>
          have h6 := minVal_le y hy _ _ hmv
          rw [sub_value, value_expr, varE_value] at h6
          simp only [hmv, ge_iff_le, decide_eq_true_eq] at this
          omega
      have := hfit x m (by simp)
      have hc : fitsMin (some (x, m) :: vs) (counts (b' :: u')) a = fitsMin vs (counts u') (Py.dset a x (.num k)) := by
        simp only [counts, List.map_cons, e, Option.map_some, fitsMin]
        rw [if_pos (by omega)]
      rw [hc]
      exact ih (fun x m hm => hfit x m (by simp [hm])) hi.2 h5 _

theorem next_ok {D : Nat → Prop} {g f : List (Blk σ V)} {vs u} (h : GM D g vs f u) {y : Nat → Int} {a : List (Nat × V)}
    (ha : ∀ x, D x → Py.dget a x = some (.num (y x))) : ∀ {u' : List (Blk σ Nat)}, HalfIs y f u' →
    nextList (Py.dget a) (f.map (·.num)) = some (counts u') := by
  induction h with
  | nil => intro u' h; cases h; rfl
  | inf b h ih =>
    intro u' h
    cases h with
    | cons h1 h2 =>
      have := numIs_none h1.2
      simp [nextList, ih h2, counts, this]
  | @one b w g vs f u h3 _ h ih =>
    intro u' h
    cases h with
    | cons h4 h5 =>
      obtain ⟨n, e, hv⟩ := numIs_some h4.2
      obtain ⟨k, hk, hk'⟩ := subst_num h3 (fun x hx => ⟨_, ha x hx⟩)
      have : k = (n : Int) := by
        rw [hk' y, ← hv]
        refine lin_value_congr h3 (fun x hx => ?_)
        unfold substAssign
        rw [ha x hx]; rfl
      subst this
      have i := ih h5
      simp only [List.map_cons, nextList, hk, i, counts, e, Option.map_some]
  | @many b x m w n g vs f u h1 h2 h3 h ih =>
    intro u' h
    cases h with
    | cons h4 h5 =>
      obtain ⟨n, e, hv⟩ := numIs_some h4.2
      obtain ⟨k, hk, hk'⟩ := subst_num h3 (fun x hx => ⟨_, ha x hx⟩)
      have : k = (n : Int) := by
        rw [hk' y, ← hv]
        refine lin_value_congr h3 (fun x hx => ?_)
        unfold substAssign
        rw [ha x hx]; rfl
      subst this
      have i := ih h5
      simp only [List.map_cons, nextList, hk, i, counts, e, Option.map_some]

theorem setCounts_ok {D : Nat → Prop} {g f : List (Blk σ V)} {vs u} (h : GM D g vs f u) (rest : List (Option Int)) :
    ∀ {u' : List (Blk σ Nat)}, GM D g vs f u' → setCounts u (counts u' ++ rest) = some (u', rest) := by
  induction h with
  | nil => intro u' h; cases h; cases rest <;> rfl
  | inf b h ih =>
    intro u' h
    cases h with
    | inf _ h => have := ih h; simp only [counts, List.map_cons, List.cons_append, Option.map_none, setCounts] at this ⊢; rw [this]; rfl
  | one b _ _ h ih =>
    intro u' h
    cases h with
    | one _ _ _ h =>
      have := ih h
      simp only [counts, List.map_cons, List.cons_append, Option.map_some, setCounts] at this ⊢; rw [this]; simp [asNat]
  | many b n h1 h2 h3 h ih =>
    intro u' h
    cases h with
    | many _ n' _ _ _ h =>
      have := ih h
      simp only [counts, List.map_cons, List.cons_append, Option.map_some, setCounts] at this ⊢; rw [this]; simp [asNat]

theorem wf_filter {z : σ} : ∀ {u : List (Blk σ Nat)}, WFHalf z u → u.filter nonZero = u
  | [], _ => rfl
  | ⟨a, none⟩ :: rest, h => by obtain ⟨rfl, rfl⟩ := wfHalf_inf h; rfl
  | ⟨a, some n⟩ :: rest, h => by
    obtain ⟨h1, -, h2⟩ := wfHalf_cons.1 h
    rw [List.filter_cons_of_pos, wf_filter h2]
    simp only [nonZero, ne_eq, Option.some.injEq, decide_not, Bool.not_eq_true', decide_eq_false_iff_not]
    omega


theorem gm_var {D : Nat → Prop} {g f : List (Blk σ V)} {vs u} (h : GM D g vs f u) : ∀ x ∈ hvars g, ∃ m, 1 ≤ m ∧ some (x, m) ∈ vs := by
  induction h with
  | nil => simp
  | inf a h ih => intro x hx; obtain ⟨m, h1, h2⟩ := ih x (by simpa using hx); exact ⟨m, h1, by simp [h2]⟩
  | one a _ _ h ih => intro x hx; obtain ⟨m, h1, h2⟩ := ih x (by simpa using hx); exact ⟨m, h1, by simp [h2]⟩
  | @many b x m w n g vs f u h1 h2 h3 h ih =>
    intro x' hx'
    simp only [hvars_some, variables_varPlus, List.mem_append, List.mem_singleton] at hx'
    rcases hx' with rfl | hx'
    · exact ⟨m, h2, by simp⟩
    · obtain ⟨m, h1, h2⟩ := ih x' hx'; exact ⟨m, h1, by simp [h2]⟩

theorem halfIs_split {y : Nat → Int} {D : Nat → Prop} {g f : List (Blk σ V)} {vs u} (h : GM D g vs f u) {g' : List (Blk σ V)} {u'} :
    HalfIs y (g ++ g') (u ++ u') → HalfIs y g u ∧ HalfIs y g' u' := by
  induction h with
  | nil => exact fun h => ⟨.nil, h⟩
  | inf a h ih => intro h; cases h with | cons h1 h2 => exact ⟨.cons h1 (ih h2).1, (ih h2).2⟩
  | one a _ _ h ih => intro h; cases h with | cons h1 h2 => exact ⟨.cons h1 (ih h2).1, (ih h2).2⟩
  | many a n h1 h2 h3 h ih => intro h; cases h with | cons h1 h2 => exact ⟨.cons h1 (ih h2).1, (ih h2).2⟩

theorem halfIs_append {y : Nat → Int} {g g' : List (Blk σ V)} {u u'} (h : HalfIs y g u) (h' : HalfIs y g' u') :
    HalfIs y (g ++ g') (u ++ u') := by
  induction h with
  | nil => exact h'
  | cons h1 h2 ih => exact .cons h1 ih

theorem counts_append (u u' : List (Blk σ Nat)) : counts (u ++ u') = counts u ++ counts u' := by simp [counts]

/-! ## Repeating a general rule -/

variable [DecidableEq σ] [DecidableEq S]

/-- the exponents of a tape -/
def cnt (t : ChainTape σ Nat) : List (Option Int) := counts (t.left ++ t.right)

/-- the assignment of a fitting tape -/
def assignOf (vars : List (Option (Nat × Int))) (t : ChainTape σ Nat) : Option (List (Nat × V)) :=
  match fitsMin vars (cnt t) [] with
  | .ok a => some a
  | _ => none

/-- the values the `i`-th application starts with -/
def genY (vars : List (Option (Nat × Int))) (T : Nat → ChainTape σ Nat) (i x : Nat) : Int :=
  match assignOf vars (T i) with
  | some a => numOf a x
  | none => 0

/-- the configuration after `i` applications -/
def iterC (M : Machine σ S) (k : Nat) (c : SimSt σ S Nat) (i : Nat) : SimSt σ S Nat := (SimSt.step natOps M)^[k * i] c

theorem iterC_succ (M : Machine σ S) (k : Nat) (c : SimSt σ S Nat) (i : Nat) :
    (SimSt.step natOps M)^[k] (iterC M k c i) = iterC M k c (i + 1) := by
  unfold iterC
  rw [← Function.iterate_add_apply]; congr 1; ring

/-- the tape still has the shape of the rule -/
structure GShape (D : Nat → Prop) (init res : ChainTape σ V) (vl vr : List (Option (Nat × Int))) (t : ChainTape σ Nat) : Prop where
  dir : t.dir = init.dir
  left : GM D init.left vl res.left t.left
  right : GM D init.right vr res.right t.right

theorem gshape_all {D : Nat → Prop} {init res : ChainTape σ V} {vl vr} {t : ChainTape σ Nat} (h : GShape D init res vl vr t) :
    GM D (init.left ++ init.right) (vl ++ vr) (res.left ++ res.right) (t.left ++ t.right) := gm_append h.left h.right

theorem gm_length {D : Nat → Prop} {g f : List (Blk σ V)} {vs u} (h : GM D g vs f u) : u.length = g.length := by
  induction h <;> simp_all

theorem gshape_eq {D : Nat → Prop} {init res : ChainTape σ V} {vl vr} {t t' : ChainTape σ Nat} (h : GShape D init res vl vr t)
    (h' : GShape D init res vl vr t') (he : t.left ++ t.right = t'.left ++ t'.right) : t = t' := by
  obtain ⟨e1, e2⟩ := List.append_inj he (by rw [gm_length h.left, gm_length h'.left])
  have e3 := h.dir.trans h'.dir.symm
  obtain ⟨td, tl, tr⟩ := t
  obtain ⟨td', tl', tr'⟩ := t'
  simp only at e1 e2 e3
  rw [e1, e2, e3]

theorem hvars_append (g g' : List (Blk σ V)) : hvars (g ++ g') = hvars g ++ hvars g' := by simp [hvars]

theorem gen_step {z : σ} {M : Machine σ S} {r : GenRule} {init res vl vr D} {key : Strip σ S}
    (h : GenOK M z key r init res vl vr D) {c : SimSt σ S Nat} (hop : c.op = .running) (hst : c.st = key.st)
    (hdir : c.dir = c.tape.dir) (hw : c.tape.WF z) (hs : GShape D init res vl vr c.tape) {a : List (Nat × V)}
    (ha : fitsMin r.vars (cnt c.tape) [] = .ok a) :
    let c' := (SimSt.step natOps M)^[r.loops] c
    Reaches (numOf a) r.steps r.seen c c' ∧ GShape D init res vl vr c'.tape ∧ c'.dir = c'.tape.dir ∧
    (∀ x, D x → Py.dget a x = some (.num (numOf a x))) ∧ nextList (Py.dget a) r.result = some (cnt c'.tape) ∧
    (r.infinite = true → ∃ a', fitsMin r.vars (cnt c'.tape) [] = .ok a') := by
  have hall := gshape_all hs
  have hf := fit_ok hall []
  rw [h.vars] at ha
  have ha' : fitsMin (vl ++ vr) (counts (c.tape.left ++ c.tape.right)) [] = .ok a := ha
  rw [ha'] at hf
  obtain ⟨f1, f2, f3⟩ := hf
  rw [hvars_append] at f1 f2 f3
  obtain ⟨f4, f5⟩ := f3 h.nodup
  obtain ⟨f6, f7⟩ := halfIs_split hs.left f4
  have hD : ∀ x, D x → Py.dget a x = some (.num (numOf a x)) := by
    intro x hx
    obtain ⟨k, hk⟩ := f2 x (h.dom x hx)
    rw [hk, numOf_eq hk]
  obtain ⟨g1, g2⟩ := h.sound (numOf a) (by rw [h.vars]; exact f5) c hop hst hdir ⟨hs.dir.symm, f6, f7⟩ hw
  intro c'
  have g3 : GShape D init res vl vr c'.tape := by
    refine ⟨?_, gm_res hs.left g2.left, gm_res hs.right g2.right⟩
    have hd : c'.tape.dir = res.dir := g2.dir.symm
    rw [hd, h.dirs]
  have g4 : c'.dir = c'.tape.dir := by
    rw [g1.dir, hdir, hs.dir, ← g3.dir]
  have g5 : HalfIs (numOf a) (res.left ++ res.right) (c'.tape.left ++ c'.tape.right) := halfIs_append g2.left g2.right
  refine ⟨g1, g3, g4, hD, ?_, ?_⟩
  · rw [h.result]; exact next_ok hall hD g5
  · intro hi
    rw [h.infinite] at hi
    rw [h.vars, h.result] at hi
    rw [h.vars]
    refine fit_inf hall ?_ f5 hi g5 []
    intro x
    by_cases hx : x ∈ hvars init.left ++ hvars init.right
    · rw [← hvars_append] at hx
      obtain ⟨m, h1, h2⟩ := gm_var hall x hx
      have := f5 x m h2
      omega
    · have := f1 x hx
      have e : Py.dget a x = none := this
      simp [numOf, e]


/-- the assignment of the last application -/
def lastOf (vars : List (Option (Nat × Int))) (T : Nat → ChainTape σ Nat) : Nat → Option (List (Nat × V))
  | 0 => none
  | i + 1 => assignOf vars (T i)

theorem assignOf_some {vars : List (Option (Nat × Int))} {t : ChainTape σ Nat} {a} :
    assignOf vars t = some a ↔ fitsMin vars (cnt t) [] = .ok a := by
  unfold assignOf
  cases fitsMin vars (cnt t) [] <;> simp

theorem gen_iter {z : σ} {M : Machine σ S} {r : GenRule} {init res vl vr D} {key : Strip σ S}
    (h : GenOK M z key r init res vl vr D) {c : SimSt σ S Nat} (hop : c.op = .running) (hst : c.st = key.st)
    (hdir : c.dir = c.tape.dir) (hw : c.tape.WF z) (hs : GShape D init res vl vr c.tape) (R : Nat)
    (hfit : ∀ i < R, ∃ a, assignOf r.vars (iterC M r.loops c i).tape = some a) :
    Iter r.steps r.seen (genY r.vars (fun i => (iterC M r.loops c i).tape)) R c (iterC M r.loops c R) ∧
    GShape D init res vl vr (iterC M r.loops c R).tape ∧ (iterC M r.loops c R).dir = (iterC M r.loops c R).tape.dir := by
  induction R with
  | zero => exact ⟨iter_zero _ _ _ hop, hs, hdir⟩
  | succ R ih =>
    obtain ⟨i1, i2, i3⟩ := ih (fun i hi => hfit i (by omega))
    obtain ⟨a, ha⟩ := hfit R (by omega)
    obtain ⟨g1, g2, g3, -⟩ := gen_step h i1.op (i1.st.trans hst) i3 (steps_wf M _ hw) i2 (assignOf_some.1 ha)
    rw [iterC_succ] at g1 g2 g3
    refine ⟨iter_succ i1 ?_, g2, g3⟩
    have : genY r.vars (fun i => (iterC M r.loops c i).tape) R = numOf a := by
      funext x; simp only [genY, ha]
    rw [this]; exact g1

theorem genApplyLoop_ok {z : σ} {M : Machine σ S} {r : GenRule} {init res vl vr D} {key : Strip σ S}
    (h : GenOK M z key r init res vl vr D) {c : SimSt σ S Nat} (hop : c.op = .running) (hst : c.st = key.st)
    (hdir : c.dir = c.tape.dir) (hw : c.tape.WF z) (hs : GShape D init res vl vr c.tape) : ∀ (fuel i : Nat),
    (∀ j < i, ∃ a, assignOf r.vars (iterC M r.loops c j).tape = some a) →
    match genApplyLoop r fuel (cnt (iterC M r.loops c i).tape)
        (.num (∑ j ∈ Finset.range i, Val.value (genY r.vars (fun i => (iterC M r.loops c i).tape) j) r.steps))
        (lastOf r.vars (fun i => (iterC M r.loops c i).tape) i) with
    | .raise => False
    | .fail => False
    | .ok .inf => ∃ j, (∀ j' ≤ j, ∃ a, assignOf r.vars (iterC M r.loops c j').tape = some a) ∧
        (iterC M r.loops c (j + 1)).tape = (iterC M r.loops c j).tape
    | .ok (.stop cur dS last) => ∃ R, i ≤ R ∧ R ≤ i + fuel ∧
        (∀ j < R, ∃ a, assignOf r.vars (iterC M r.loops c j).tape = some a) ∧ cur = cnt (iterC M r.loops c R).tape ∧
        dS = .num (∑ j ∈ Finset.range R, Val.value (genY r.vars (fun i => (iterC M r.loops c i).tape) j) r.steps) ∧
        last = lastOf r.vars (fun i => (iterC M r.loops c i).tape) R ∧
        ((∀ a, fitsMin r.vars (cnt (iterC M r.loops c R).tape) [] ≠ .ok a) ∨ R = i + fuel) := by
  intro fuel
  induction fuel with
  | zero =>
    intro i hi
    obtain ⟨i1, i2, i3⟩ := gen_iter h hop hst hdir hw hs i hi
    have hf := fit_ok (gshape_all i2) []
    unfold genApplyLoop
    rw [← h.vars] at hf
    change match fitsMin r.vars (cnt (iterC M r.loops c i).tape) [] with | .raise => _ | .fail => _ | .ok a' => _ at hf
    cases hfm : fitsMin r.vars (cnt (iterC M r.loops c i).tape) [] with
    | raise => rw [hfm] at hf; exact hf
    | fail => exact ⟨i, le_refl _, by omega, hi, rfl, rfl, rfl, Or.inr rfl⟩
    | ok a => exact ⟨i, le_refl _, by omega, hi, rfl, rfl, rfl, Or.inr rfl⟩
  | succ fuel ih =>
    intro i hi
    obtain ⟨i1, i2, i3⟩ := gen_iter h hop hst hdir hw hs i hi
    have hf := fit_ok (gshape_all i2) []
    unfold genApplyLoop
    rw [← h.vars] at hf
    change match fitsMin r.vars (cnt (iterC M r.loops c i).tape) [] with | .raise => _ | .fail => _ | .ok a' => _ at hf
    cases hfm : fitsMin r.vars (cnt (iterC M r.loops c i).tape) [] with
    | raise => rw [hfm] at hf; exact hf
    | fail => exact ⟨i, le_refl _, by omega, hi, rfl, rfl, rfl, Or.inl (by rw [hfm]; simp)⟩
    | ok a =>
      simp only
      have hi' : ∀ j < i + 1, ∃ a, assignOf r.vars (iterC M r.loops c j).tape = some a := by
        intro j hj
        rcases Nat.lt_succ_iff_lt_or_eq.1 hj with hj | rfl
        · exact hi j hj
        · exact ⟨a, assignOf_some.2 hfm⟩
      obtain ⟨g1, g2, g3, g4, g5, -⟩ := gen_step h i1.op (i1.st.trans hst) i3 (steps_wf M _ hw) i2 hfm
      rw [iterC_succ] at g1 g2 g3 g5
      have hY : genY r.vars (fun i => (iterC M r.loops c i).tape) i = numOf a := by
        funext x; simp only [genY, assignOf_some.2 hfm]
      obtain ⟨k, hk, hk'⟩ := subst_num h.steps (fun x hx => ⟨_, g4 x hx⟩)
      have hkv : k = Val.value (genY r.vars (fun i => (iterC M r.loops c i).tape) i) r.steps := by
        rw [hk' (fun _ => 0), hY]
        refine lin_value_congr h.steps (fun x hx => ?_)
        unfold substAssign
        rw [g4 x hx]; rfl
      rw [hk, g5]
      simp only
      by_cases he : cnt (iterC M r.loops c (i + 1)).tape = cnt (iterC M r.loops c i).tape
      · rw [if_pos he]
        refine ⟨i, fun j hj => hi' j (by omega), ?_⟩
        exact gshape_eq g2 i2 (gm_eq (gshape_all g2) (gshape_all i2) he)
      · rw [if_neg he]
        have := ih (i + 1) hi'
        rw [Finset.sum_range_succ, ← hkv] at this
        have hl : lastOf r.vars (fun i => (iterC M r.loops c i).tape) (i + 1) = some a := assignOf_some.2 hfm
        rw [hl] at this
        have hadd : (Val.num (∑ j ∈ Finset.range i, Val.value (genY r.vars (fun i => (iterC M r.loops c i).tape) j) r.steps) : V).add
            (.num k) = .num (∑ j ∈ Finset.range i, Val.value (genY r.vars (fun i => (iterC M r.loops c i).tape) j) r.steps + k) := rfl
        rw [hadd]
        generalize genApplyLoop r fuel _ _ _ = o at this ⊢
        match o, this with
        | .ok .inf, this => exact this
        | .ok (.stop cur dS last), this =>
          obtain ⟨R, h1, h2, h3⟩ := this
          refine ⟨R, by omega, by omega, h3.1, h3.2.1, h3.2.2.1, h3.2.2.2.1, ?_⟩
          rcases h3.2.2.2.2 with h4 | h4
          · exact Or.inl h4
          · exact Or.inr (by omega)


theorem applyGen_ok {z : σ} {M : Machine σ S} {r : GenRule} {init res vl vr D} {c : SimSt σ S Nat}
    (h : GenOK M z (strip natIsOne c.st c.tape) r init res vl vr D) (hop : c.op = .running) (hdir : c.dir = c.tape.dir)
    (hw : c.tape.WF z) (o : Opts) :
    match applyGen o r c.tape with
    | .raise => o.maxReps = 0
    | .fail => ¬ ∃ y : Nat → Int, TapeIs y init c.tape ∧ ∀ x m, some (x, m) ∈ r.vars → m ≤ y x
    | .ok (.inf states) => states = r.seen.map (·.1) ∧ Loops M c states
    | .ok (.apply tape n seen) => ∃ R, 1 ≤ R ∧ R ≤ o.maxReps ∧ Lands c ((SimSt.step natOps M)^[r.loops * R] c) tape n seen ∧
        seen.map (·.1) = r.seen.map (·.1) ∧ GShape D init res vl vr tape ∧
        (R < o.maxReps → ¬ ∃ y : Nat → Int, TapeIs y init tape ∧ ∀ x m, some (x, m) ∈ r.vars → m ≤ y x) := by
  have hshape := h.shape
  have hs : GShape D init res vl vr c.tape :=
    ⟨congrArg Strip.dir hshape, gm_strip h.left (hw .L) (congrArg Strip.left hshape),
      gm_strip h.right (hw .R) (congrArg Strip.right hshape)⟩
  have hst : c.st = (strip natIsOne c.st c.tape).st := rfl
  have nofit : ∀ t : ChainTape σ Nat, GShape D init res vl vr t → (∀ a, fitsMin r.vars (cnt t) [] ≠ .ok a) →
      ¬ ∃ y : Nat → Int, TapeIs y init t ∧ ∀ x m, some (x, m) ∈ r.vars → m ≤ y x := by
    rintro t ht hn ⟨y, hy, hm⟩
    have hf := fit_ok (gshape_all ht) []
    rw [← h.vars] at hf
    change match fitsMin r.vars (cnt t) [] with | .raise => _ | .fail => _ | .ok a' => _ at hf
    cases hfm : fitsMin r.vars (cnt t) [] with
    | raise => rw [hfm] at hf; exact hf
    | fail => rw [hfm] at hf; exact hf ⟨y, halfIs_append hy.left hy.right, hm⟩
    | ok a => exact hn a hfm
  have loops : (∀ i, ∃ a, assignOf r.vars (iterC M r.loops c i).tape = some a) → Loops M c (r.seen.map (·.1)) := by
    intro hall
    refine ⟨r.loops, h.loops, fun i => ?_⟩
    obtain ⟨i1, i2, i3⟩ := gen_iter h hop hst hdir hw hs i (fun j _ => hall j)
    obtain ⟨a, ha⟩ := hall i
    obtain ⟨j1, -⟩ := gen_step h i1.op (i1.st.trans hst) i3 (steps_wf M _ hw) i2 (assignOf_some.1 ha)
    rw [iterC_succ] at j1
    refine ⟨j1.op, j1.le, j1.reason.trans i1.reason, j1.recur.trans i1.recur, fun q hq => ?_, fun q hq => ?_⟩
    · obtain ⟨e, he, rfl⟩ := List.mem_map.1 hq
      obtain ⟨n, h1, -, h3⟩ := (j1.seen e.1).1 e.2 ((Py.mem_iff_dget h.keys _ _).1 he)
      exact ⟨n, h1, h3⟩
    · refine (j1.seen q).2 ?_
      cases hd : Py.dget r.seen q with
      | none => rfl
      | some v => exact absurd (List.mem_map.2 ⟨(q, v), (Py.mem_iff_dget h.keys _ _).2 hd, rfl⟩) hq
  unfold applyGen
  by_cases hmax : o.maxReps = 0
  · rw [if_pos hmax]; exact hmax
  rw [if_neg hmax]
  have hcur : (c.tape.left ++ c.tape.right).map (fun b => b.num.map (fun n : Nat => (n : Int))) = cnt c.tape := rfl
  simp only [hcur]
  have hf := fit_ok (gshape_all hs) []
  rw [← h.vars] at hf
  change match fitsMin r.vars (cnt c.tape) [] with | .raise => _ | .fail => _ | .ok a' => _ at hf
  cases hini : (if r.infinite then fitsMin r.vars (cnt c.tape) [] else .fail) with
  | raise =>
    by_cases hi : r.infinite = true
    · rw [if_pos hi] at hini; rw [hini] at hf; exact hf.elim
    · rw [if_neg hi] at hini; cases hini
  | ok a =>
    simp only
    have hi : r.infinite = true := by
      by_contra hi
      rw [if_neg hi] at hini; cases hini
    rw [if_pos hi] at hini
    refine ⟨trivial, loops (fun i => ?_)⟩
    induction i using Nat.strong_induction_on with
    | _ i ih =>
      match i, ih with
      | 0, _ => exact ⟨a, assignOf_some.2 hini⟩
      | i + 1, ih =>
        obtain ⟨i1, i2, i3⟩ := gen_iter h hop hst hdir hw hs i (fun j hj => ih j (by omega))
        obtain ⟨a, ha⟩ := ih i (by omega)
        obtain ⟨-, -, -, -, -, g⟩ := gen_step h i1.op (i1.st.trans hst) i3 (steps_wf M _ hw) i2 (assignOf_some.1 ha)
        rw [iterC_succ] at g
        obtain ⟨a', ha'⟩ := g hi
        exact ⟨a', assignOf_some.2 ha'⟩
  | fail =>
    simp only
    have hl := genApplyLoop_ok h hop hst hdir hw hs o.maxReps 0 (fun j hj => absurd hj (by omega))
    have h0 : iterC M r.loops c 0 = c := rfl
    simp only [Finset.range_zero, Finset.sum_empty, lastOf, h0] at hl
    generalize genApplyLoop r o.maxReps (cnt c.tape) (.num 0) none = g at hl ⊢
    match g, hl with
    | .ok .inf, hl =>
      obtain ⟨j, h1, h2⟩ := hl
      simp only
      refine ⟨trivial, loops (fun i => ?_)⟩
      have key : ∀ d, (∀ j' ≤ j + d, ∃ a, assignOf r.vars (iterC M r.loops c j').tape = some a) ∧
          (iterC M r.loops c (j + d + 1)).tape = (iterC M r.loops c (j + d)).tape := by
        intro d
        induction d with
        | zero => exact ⟨h1, h2⟩
        | succ d ih =>
          obtain ⟨k1, k2⟩ := ih
          obtain ⟨i1, i2, i3⟩ := gen_iter h hop hst hdir hw hs (j + d) (fun j' hj => k1 j' (by omega))
          obtain ⟨a, ha⟩ := k1 (j + d) (le_refl _)
          obtain ⟨m1, m2, m3⟩ := gen_iter h hop hst hdir hw hs (j + d + 1) (fun j' hj => k1 j' (by omega))
          have ha' : assignOf r.vars (iterC M r.loops c (j + d + 1)).tape = some a := by rw [k2]; exact ha
          obtain ⟨-, p2, -, -, p5, -⟩ := gen_step h i1.op (i1.st.trans hst) i3 (steps_wf M _ hw) i2 (assignOf_some.1 ha)
          obtain ⟨-, q2, -, -, q5, -⟩ := gen_step h m1.op (m1.st.trans hst) m3 (steps_wf M _ hw) m2 (assignOf_some.1 ha')
          rw [iterC_succ] at p2 p5 q2 q5
          refine ⟨fun j' hj' => ?_, ?_⟩
          · rcases Nat.lt_or_ge j' (j + d + 1) with hlt | hge
            · exact k1 j' (by omega)
            · obtain rfl : j' = j + d + 1 := by omega
              exact ⟨a, ha'⟩
          · show (iterC M r.loops c (j + d + 1 + 1)).tape = (iterC M r.loops c (j + d + 1)).tape
            rw [p5] at q5
            exact gshape_eq q2 p2 (gm_eq (gshape_all q2) (gshape_all p2) (Option.some.inj q5).symm)
      exact (key i).1 i (by omega)
    | .ok (.stop cur dS last), hl =>
      obtain ⟨R, -, h2, h3, rfl, rfl, rfl, h4⟩ := hl
      rw [Nat.zero_add] at h2 h4
      match R, h2, h3, h4 with
      | 0, _, _, h4 =>
        simp only [lastOf]
        refine nofit _ hs (h4.resolve_right (fun e => hmax e.symm))
      | R + 1, h2, h3, h4 =>
        obtain ⟨a, ha⟩ := h3 R (by omega)
        obtain ⟨i1, i2, i3⟩ := gen_iter h hop hst hdir hw hs (R + 1) h3
        obtain ⟨j1, j2, j3⟩ := gen_iter h hop hst hdir hw hs R (fun j hj => h3 j (by omega))
        obtain ⟨-, -, -, g4, -, -⟩ := gen_step h j1.op (j1.st.trans hst) j3 (steps_wf M _ hw) j2 (assignOf_some.1 ha)
        have hY : genY r.vars (fun i => (iterC M r.loops c i).tape) R = numOf a := by
          funext x; simp only [genY, ha]
        obtain ⟨f1, f2, f3⟩ := iter_lands (by omega) i1 h.keys rfl
        simp only [Nat.add_sub_cancel] at f2 f3
        simp only [lastOf, ha]
        have hwf : (iterC M r.loops c (R + 1)).tape.WF z := steps_wf M _ hw
        have c1 : setCounts c.tape.left (cnt (iterC M r.loops c (R + 1)).tape) =
            some ((iterC M r.loops c (R + 1)).tape.left, counts (iterC M r.loops c (R + 1)).tape.right) := by
          rw [cnt, counts_append]; exact setCounts_ok hs.left _ i2.left
        have c2 : setCounts c.tape.right (counts (iterC M r.loops c (R + 1)).tape.right) =
            some ((iterC M r.loops c (R + 1)).tape.right, []) := by
          have := setCounts_ok hs.right [] i2.right
          rwa [List.append_nil] at this
        have hlast := lastSeen_ok (D := .num (∑ j ∈ Finset.range (R + 1),
            Val.value (genY r.vars (fun i => (iterC M r.loops c i).tape) j) r.steps)) (subs := Py.dget a) h.steps trivial
          (fun x hx => ⟨_, g4 x hx⟩) (fun _ => 0) r.seen h.seen
        have hval : ∀ v : V, LinIn D v → Val.value (substAssign (Py.dget a) (fun _ => 0)) v =
            Val.value (genY r.vars (fun i => (iterC M r.loops c i).tape) R) v := by
          intro v hv
          rw [hY]
          refine lin_value_congr hv (fun x hx => ?_)
          unfold substAssign
          rw [g4 x hx]; rfl
        have hmap : (r.seen.map (fun e => (e.1, (Val.num (Val.value (substAssign (Py.dget a) (fun _ => 0))
              (.num (∑ j ∈ Finset.range (R + 1), Val.value (genY r.vars (fun i => (iterC M r.loops c i).tape) j) r.steps)) -
              (Val.value (substAssign (Py.dget a) (fun _ => 0)) r.steps -
                Val.value (substAssign (Py.dget a) (fun _ => 0)) e.2)) : V)))) =
            r.seen.map (fun e => (e.1, (Val.num ((∑ j ∈ Finset.range (R + 1),
              Val.value (genY r.vars (fun i => (iterC M r.loops c i).tape) j) r.steps) -
              (Val.value (genY r.vars (fun i => (iterC M r.loops c i).tape) R) r.steps -
                Val.value (genY r.vars (fun i => (iterC M r.loops c i).tape) R) e.2)) : V))) := by
          refine List.map_congr_left (fun e he => ?_)
          rw [hval _ h.steps, hval _ (h.seen e he), value_num]
        rw [hmap] at hlast
        rw [c1]
        simp only
        rw [c2, hlast]
        simp only
        rw [asNats_ok (fun v => (∑ j ∈ Finset.range (R + 1),
              Val.value (genY r.vars (fun i => (iterC M r.loops c i).tape) j) r.steps) -
              (Val.value (genY r.vars (fun i => (iterC M r.loops c i).tape) R) r.steps -
                Val.value (genY r.vars (fun i => (iterC M r.loops c i).tape) R) v)) r.seen f2]
        simp only [asNat, if_pos f1]
        have w1 : (iterC M r.loops c (R + 1)).tape.left.filter nonZero = (iterC M r.loops c (R + 1)).tape.left := wf_filter (hwf .L)
        have w2 : (iterC M r.loops c (R + 1)).tape.right.filter nonZero = (iterC M r.loops c (R + 1)).tape.right := wf_filter (hwf .R)
        rw [w1, w2]
        have htape : ({ c.tape with left := (iterC M r.loops c (R + 1)).tape.left
                                    right := (iterC M r.loops c (R + 1)).tape.right } : ChainTape σ Nat) =
            (iterC M r.loops c (R + 1)).tape := by
          have := i2.dir.trans hs.dir.symm
          generalize (iterC M r.loops c (R + 1)).tape = t at *
          obtain ⟨td, tl, tr⟩ := t
          simp only at this
          rw [this]
        refine ⟨R + 1, by omega, h2, ?_, ?_, ?_, ?_⟩
        · have := f3
          exact htape ▸ this
        · rw [List.map_map]; rfl
        · have := i2
          exact htape ▸ this
        · intro hlt
          have := nofit _ i2 (h4.resolve_right (by omega))
          exact htape ▸ this

end Model.Prover
