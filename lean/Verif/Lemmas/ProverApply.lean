import Verif.Lemmas.ProverDiff
import Verif.Lemmas.Simulator

/-! # Applying a difference rule: the whole -/

namespace Model.Prover
open Spec Model Model.Expr
variable {σ S : Type}

/-! ## Lists of visits -/

theorem dget_map {α β : Type} (g : α → β) (l : List (Nat × α)) (q : Nat) :
    Py.dget (l.map (fun e => (e.1, g e.2))) q = (Py.dget l q).map g := by
  induction l with
  | nil => rfl
  | cons e l ih =>
    by_cases h : e.1 = q
    · simp [Py.dget, h]
    · have h' : (e.1 == q) = false := by simpa using h
      simp only [Py.dget, List.map_cons, List.find?_cons, h'] at ih ⊢
      exact ih

theorem nodup_map {α β : Type} (g : α → β) {l : List (Nat × α)} (h : Py.NodupKeys l) :
    Py.NodupKeys (l.map (fun e => (e.1, g e.2))) := by
  unfold Py.NodupKeys at *
  rw [List.map_map]; exact h

theorem lastSeen_ok {P : Nat → Prop} {steps D : V} {subs : Nat → Option V} (h1 : LinIn P steps) (h2 : LinIn P D)
    (hs : ∀ x, P x → ∃ k, subs x = some (.num k)) (ρ : Nat → Int) : ∀ seen : List (Nat × V), (∀ e ∈ seen, LinIn P e.2) →
    lastSeen steps D subs seen = some (seen.map (fun e => (e.1, .num (Val.value (substAssign subs ρ) D -
      (Val.value (substAssign subs ρ) steps - Val.value (substAssign subs ρ) e.2)))))
  | [], _ => rfl
  | (q, v) :: rest, h => by
    have ih := lastSeen_ok h1 h2 hs ρ rest (fun e he => h e (by simp [he]))
    obtain ⟨k, hk, hk'⟩ := subst_num (sub_lin h2 (sub_lin h1 (h (q, v) (by simp)))) hs
    have := hk' ρ
    rw [sub_value, sub_value] at this
    simp only [lastSeen, hk, ih, List.map_cons, this]

theorem asNats_ok (f : V → Int) : ∀ seen : List (Nat × V), (∀ e ∈ seen, 0 ≤ f e.2) →
    asNats (seen.map (fun e => (e.1, .num (f e.2)))) = some (seen.map (fun e => (e.1, (f e.2).toNat)))
  | [], _ => rfl
  | e :: rest, h => by
    have ih := asNats_ok f rest (fun e he => h e (by simp [he]))
    have := h e (by simp)
    simp only [List.map_cons, asNats, ih, asNat, if_pos this]

/-! ## The sum -/

theorem termSeries_int {k : Nat} {t : Term ℚ} (hv : t.vars = [⟨k, 1⟩]) (R : ℚ) :
    ∃ z : Int, Series.termSeries t k (.num R) = .ok (.num z) := by
  have h1 : Series.factorVar t k = (1, .num t.coef) := by
    simp [Series.factorVar, hv, Series.factorLoop]
  unfold Series.termSeries
  rw [h1]
  exact ⟨_, rfl⟩

theorem seriesLoop_int {k : Nat} (R : ℚ) : ∀ (ts : List (Term ℚ)), (∀ t ∈ ts, t.vars = [⟨k, 1⟩]) → ∀ tot : Int,
    ∃ z : Int, Series.seriesLoop k (.num R) ts (.num tot) = .ok (.num z)
  | [], _, tot => ⟨tot, rfl⟩
  | t :: ts, h, tot => by
    obtain ⟨z, hz⟩ := termSeries_int (h t (by simp)) R
    obtain ⟨w, hw⟩ := seriesLoop_int R ts (fun t ht => h t (by simp [ht])) (tot + z)
    refine ⟨w, ?_⟩
    unfold Series.seriesLoop
    rw [hz]
    simp only [Val.add]
    rw [← hw]; push_cast; rfl

/-- the number of steps of `R` applications -/
theorem series_int {k : Nat} {each : V} (h : LinIn (· = k) each) (R : Nat) :
    ∃ z : Int, Series.seriesSum each.toQ k (.num ((R : Int) : ℚ)) = .ok (.num z) ∧
      z = ∑ j ∈ Finset.range R, Val.value (fun _ => (j : Int)) each := by
  match each with
  | .num c =>
    refine ⟨c * R, ?_, ?_⟩
    · simp [Series.seriesSum, Val.toQ, Val.mul]
    · simp [value_num, mul_comm]
  | .expr e =>
    have hl : ∀ t ∈ e.toQ.terms, t.vars = [⟨k, 1⟩] := by
      intro t ht
      obtain ⟨u, hu, rfl⟩ := List.mem_map.1 ht
      obtain ⟨x, h1, rfl⟩ := h u hu
      exact h1
    have hok : ∀ t ∈ e.toQ.terms, Series.TermOk k (.num ((R : Int) : ℚ)) t := by
      intro t ht
      have hv := hl t ht
      refine ⟨?_, ?_, ?_⟩
      · rw [hv]; exact ⟨by simp, by simp, by simp⟩
      · left; rw [hv]; simp [Series.powOf, Series.factorLoop]
      · left
        obtain ⟨u, hu, rfl⟩ := List.mem_map.1 ht
        exact ⟨u.coef, rfl⟩
    obtain ⟨z, hz⟩ := seriesLoop_int ((R : Int) : ℚ) e.toQ.terms hl (e.const * R)
    obtain ⟨x, hx, hxv⟩ := Series.seriesLoop_value (k := k) (N := .num ((R : Int) : ℚ)) (fun _ => 0) R (by simp [value_num])
      e.toQ.terms hok (.num (e.const * R : Int))
    rw [hz] at hx
    cases hx
    refine ⟨z, ?_, ?_⟩
    · rw [← hz]
      simp only [Series.seriesSum, Val.toQ, Val.mul]
      congr 2
      simp [Expr.toQ]
    · have hq : (z : ℚ) = ((∑ j ∈ Finset.range R, Val.value (fun _ => (j : Int)) (.expr e) : Int) : ℚ) := by
        rw [value_num] at hxv
        rw [hxv, value_num]
        push_cast
        have : ∀ j ∈ Finset.range R, ((Val.value (fun _ => (j : Int)) (.expr e) : Int) : ℚ) =
            termsValue (Function.update (fun _ => (0 : ℚ)) k (j : ℚ)) e.toQ.terms + e.const := by
          intro j _
          rw [← toQ_value]
          have hc : Val.value (fun _ => (((j : Int) : Int) : ℚ)) (Val.expr e).toQ =
              Val.value (Function.update (fun _ => (0 : ℚ)) k (j : ℚ)) (Val.expr e).toQ := by
            refine lin_value_congr (toQ_lin h) (fun x hx => ?_)
            subst hx
            simp
          rw [hc]
          rfl
        rw [Finset.sum_congr rfl this, Finset.sum_add_distrib]
        simp
        ring
      exact_mod_cast hq

/-! ## Repeating a rule -/

/-- after `i` applications with the assignments `Y` -/
structure Iter (steps : V) (seen : List (Nat × V)) (Y : Nat → Nat → Int) (i : Nat) (c c' : SimSt σ S Nat) : Prop where
  op : c'.op = .running
  st : c'.st = c.st
  dir : c'.dir = c.dir
  num : (c'.steps : Int) = c.steps + ∑ j ∈ Finset.range i, Val.value (Y j) steps
  visits : i ≠ 0 → ∀ q, (∀ v, Py.dget seen q = some v → ∃ n : Nat, Py.dget c'.seen q = some n ∧
      (n : Int) = c.steps + ∑ j ∈ Finset.range (i - 1), Val.value (Y j) steps + Val.value (Y (i - 1)) v ∧ c.steps ≤ n) ∧
    (Py.dget seen q = none → Py.dget c'.seen q = Py.dget c.seen q)
  zero : i = 0 → c'.seen = c.seen
  reason : c'.infReason = c.infReason
  recur : c'.recur = c.recur
  le : c.steps ≤ c'.steps

theorem iter_zero (steps : V) (seen : List (Nat × V)) (Y : Nat → Nat → Int) {c : SimSt σ S Nat} (h : c.op = .running) :
    Iter steps seen Y 0 c c :=
  ⟨h, rfl, rfl, by simp, fun h => absurd rfl h, fun _ => rfl, rfl, rfl, le_refl _⟩

theorem iter_succ {steps : V} {seen : List (Nat × V)} {Y : Nat → Nat → Int} {i : Nat} {c c' c'' : SimSt σ S Nat}
    (h : Iter steps seen Y i c c') (hr : Reaches (Y i) steps seen c' c'') : Iter steps seen Y (i + 1) c c'' := by
  refine ⟨hr.op, hr.st.trans h.st, hr.dir.trans h.dir, ?_, fun _ q => ⟨fun v hv => ?_, fun hv => ?_⟩, by simp,
    hr.reason.trans h.reason, hr.recur.trans h.recur, h.le.trans hr.le⟩
  · rw [hr.steps, h.num, Finset.sum_range_succ]; ring
  · obtain ⟨n, h1, h2, h3⟩ := (hr.seen q).1 v hv
    refine ⟨n, h1, ?_, h.le.trans h3⟩
    rw [h2, h.num]; simp
  · rw [(hr.seen q).2 hv]
    by_cases hi : i = 0
    · rw [h.zero hi]
    · exact (h.visits hi q).2 hv

/-- the totals of `R` applications, as the code computes them -/
theorem iter_lands {steps : V} {seen : List (Nat × V)} {Y : Nat → Nat → Int} {R : Nat} (hR : 1 ≤ R) {c c' : SimSt σ S Nat}
    (h : Iter steps seen Y R c c') (hk : Py.NodupKeys seen) {D : Int}
    (hD : D = ∑ j ∈ Finset.range R, Val.value (Y j) steps) :
    0 ≤ D ∧ (∀ e ∈ seen, 0 ≤ D - (Val.value (Y (R - 1)) steps - Val.value (Y (R - 1)) e.2)) ∧
    Lands c c' c'.tape D.toNat (seen.map (fun e =>
      (e.1, (D - (Val.value (Y (R - 1)) steps - Val.value (Y (R - 1)) e.2)).toNat))) := by
  obtain ⟨r, rfl⟩ : ∃ r, R = r + 1 := ⟨R - 1, by omega⟩
  have hle := h.le
  have hnum := h.num
  rw [← hD] at hnum
  simp only [Nat.add_sub_cancel]
  have hD' : ∀ w : Int, D - (Val.value (Y r) steps - w) = ∑ j ∈ Finset.range r, Val.value (Y j) steps + w := by
    intro w; rw [hD, Finset.sum_range_succ]; ring
  have hv := h.visits (by omega)
  simp only [Nat.add_sub_cancel] at hv
  refine ⟨by omega, ?_, h.op, h.st, h.dir, rfl, by omega, ?_, h.reason, h.recur⟩
  · intro e he
    obtain ⟨n, h1, h2, h3⟩ := (hv e.1).1 e.2 ((Py.mem_iff_dget hk _ _).1 he)
    rw [hD']; omega
  · intro q
    rw [dget_map (fun v => (D - (Val.value (Y r) steps - Val.value (Y r) v)).toNat)]
    cases hq : Py.dget seen q with
    | none => simp only [Option.map_none]; exact (hv q).2 hq
    | some v =>
      obtain ⟨n, h1, h2, h3⟩ := (hv q).1 v hq
      simp only [Option.map_some]
      rw [h1, hD']
      congr 1
      omega

/-! ## A difference rule -/

theorem mhalf_pos {z : σ} {g d u l} (h : MHalf z g d u l) : ∀ e ∈ l, 1 ≤ e.2.1 ∧ 1 ≤ e.2.1 + e.2.2.1 := by
  induction h with
  | nil => simp
  | last => simp
  | one a h ih => exact ih
  | @many a x c δ n g d u l h1 h2 h ih =>
    intro e he
    rcases List.mem_cons.1 he with rfl | he
    · exact ⟨h1, h2⟩
    · exact ih e he

/-- what the two scans find -/
structure ScanAll (l : List (Nat × Int × Int × Nat)) (vals : List (Nat × Int × Int)) (reps : Option Int) : Prop where
  ge : ∀ e ∈ l, e.2.1 ≤ (e.2.2.2 : Int)
  mem : ∀ e ∈ l, Py.dget vals e.1 = some ((e.2.2.2 : Int) - e.2.1, e.2.2.1)
  other : ∀ x, x ∉ l.map (·.1) → Py.dget vals x = none
  unlim : reps = none → ∀ e ∈ l, 0 ≤ e.2.2.1
  bound : ∀ R, reps = some R → 1 ≤ R ∧ ∀ e ∈ l, e.2.2.1 < 0 → R * (-e.2.2.1) ≤ (e.2.2.2 : Int) - e.2.1 - e.2.2.1
  max : ∀ R, reps = some R → ∃ e ∈ l, (e.2.2.2 : Int) + R * e.2.2.1 < e.2.1

theorem scanAll_of {dl dr : List (Blk σ V)} {ul ur : List (Blk σ Nat)} {ll lr : List (Nat × Int × Int × Nat)} {sc sc' : Scan}
    (hn : ((ll ++ lr).map (·.1)).Nodup) (h1 : ScanTo .L 0 dl ul ll ⟨none, none, []⟩ sc) (h2 : ScanTo .R 0 dr ur lr sc sc') :
    ScanAll (ll ++ lr) sc'.vals sc'.reps ∧ ∀ R, sc'.reps = some R →
      (∀ j f, limitIn .L sc'.limit = some (0 + j, f) → LimAt R dl ul j f) ∧
      (∀ j f, limitIn .R sc'.limit = some (0 + j, f) → LimAt R dr ur j f) := by
  rw [List.map_append, List.nodup_append] at hn
  obtain ⟨n1, n2, n3⟩ := hn
  have hge : ∀ e ∈ ll ++ lr, e.2.1 ≤ (e.2.2.2 : Int) := by
    intro e he
    rcases List.mem_append.1 he with he | he
    · exact h1.ge e he
    · exact h2.ge e he
  have hmax : ∀ R, sc'.reps = some R → ∃ e ∈ ll ++ lr, e.2.2.1 < 0 ∧ (e.2.2.2 : Int) - e.2.1 - e.2.2.1 < (R + 1) * (-e.2.2.1) := by
    intro R hR
    rcases h2.max R hR with h | ⟨e, he, h⟩
    · rcases h1.max R h with h | ⟨e, he, h⟩
      · cases h
      · exact ⟨e, by simp [he], h⟩
    · exact ⟨e, by simp [he], h⟩
  refine ⟨⟨hge, ?_, ?_, ?_, ?_, ?_⟩, ?_⟩
  · intro e he
    rcases List.mem_append.1 he with he | he
    · rw [h2.vals _ (fun hx => n3 _ (List.mem_map.2 ⟨e, he, rfl⟩) _ hx rfl)]
      exact h1.mem n1 e he
    · exact h2.mem n2 e he
  · intro x hx
    rw [List.map_append, List.mem_append, not_or] at hx
    rw [h2.vals x hx.2, h1.vals x hx.1]; rfl
  · intro hn e he
    obtain ⟨h3, h4⟩ := h2.unlim hn
    obtain ⟨-, h5⟩ := h1.unlim h3
    rcases List.mem_append.1 he with he | he
    · exact h5 e he
    · exact h4 e he
  · intro R hR
    refine ⟨?_, ?_⟩
    · obtain ⟨e, he, h3, h4⟩ := hmax R hR
      have := hge e he
      by_contra hc
      have : (R + 1) * (-e.2.2.1) ≤ 1 * (-e.2.2.1) := Int.mul_le_mul_of_nonneg_right (by omega) (by omega)
      omega
    · intro e he hneg
      obtain ⟨h3, h4⟩ := h2.bound R hR
      rcases List.mem_append.1 he with he | he
      · cases hs : sc.reps with
        | none => have := (h1.unlim hs).2 e he; omega
        | some R0 =>
          have h5 := (h1.bound R0 hs).2 e he hneg
          have : R * (-e.2.2.1) ≤ R0 * (-e.2.2.1) := Int.mul_le_mul_of_nonneg_right (h3 R0 hs) (by omega)
          omega
      · exact h4 e he hneg
  · intro R hR
    obtain ⟨e, he, h3, h4⟩ := hmax R hR
    refine ⟨e, he, ?_⟩
    have : (R + 1) * (-e.2.2.1) = - (R * e.2.2.1) - e.2.2.1 := by ring
    omega
  · intro R hR
    rcases h2.limit with ⟨h3, h4⟩ | ⟨R', j, f, h3, h4, h5⟩
    · rcases h1.limit with ⟨h5, -⟩ | ⟨R', j, f, h5, h6, h7⟩
      · rw [h3, h5] at hR; cases hR
      · rw [h3, h5] at hR; cases hR
        rw [h4, h6]
        refine ⟨fun j' f' he => ?_, fun j' f' he => by simp [limitIn] at he⟩
        simp [limitIn] at he
        obtain ⟨rfl, rfl⟩ := he
        exact h7
    · rw [h3] at hR; cases hR
      rw [h4]
      refine ⟨fun j' f' he => by simp [limitIn] at he, fun j' f' he => ?_⟩
      simp [limitIn] at he
      obtain ⟨rfl, rfl⟩ := he
      exact h5

/-- the assignment for the application number `i` -/
def lineY (vals : List (Nat × Int × Int)) (i : Int) (x : Nat) : Int :=
  match Py.dget vals x with
  | some p => p.1 + p.2 * i
  | none => 0

theorem lineY_num {vals : List (Nat × Int × Int)} (i : Int) : substAssign (lineAt vals (.num i)) (fun _ => 0) = lineY vals i := by
  funext x
  unfold substAssign lineAt lineY
  cases Py.dget vals x with
  | none => rfl
  | some p => simp [Val.add, Val.mul, value_num]

theorem lineY_var {vals : List (Nat × Int × Int)} (k : Nat) (i : Int) {x : Nat} (hx : ∃ p, Py.dget vals x = some p) :
    substAssign (lineAt vals (.expr (varE k))) (fun _ => i) x = lineY vals i x := by
  obtain ⟨p, hp⟩ := hx
  unfold substAssign lineAt lineY
  rw [hp]
  simp [add_value, mul_value, value_num, value_expr, varE_value]

theorem mhalf_ge {z : σ} {g d u l} (h : MHalf z g d u l) {y : Nat → Int} (hy : ∀ x, 0 ≤ y x) (i : Int)
    (hi : HalfIs y g (addHalf i d u)) : ∀ e ∈ l, e.2.1 ≤ (e.2.2.2 : Int) + i * e.2.2.1 := by
  induction h with
  | nil => simp
  | last => simp
  | one a h ih =>
    cases hi with
    | cons h1 h2 => exact ih h2
  | @many a x c δ n g d u l h1 h2 h ih =>
    cases hi with
    | cons h3 h4 =>
      intro e he
      rcases List.mem_cons.1 he with rfl | he
      · have h5 : Val.value y (.expr (varPlus x c)) = (((n : Int) + i * δ).toNat : Int) := h3.2
        rw [varPlus_value] at h5
        have := hy x
        simp only
        omega
      · exact ih h4 e he

/-- Applying a difference rule that holds between the states satisfying `Inv`, where `next` is one application.  It fails only if
the tape is not an instance of the rule; otherwise it gives what a number of applications reach, and the tape is then no longer
an instance. -/
theorem applyDiff_core {z : σ} {r : DiffRule σ} {l1 l2} {c : SimSt σ S Nat}
    (m1 : MHalf z r.init.left r.diff.left c.tape.left l1) (m2 : MHalf z r.init.right r.diff.right c.tape.right l2)
    (hnd : ((l1 ++ l2).map (·.1)).Nodup) (hsteps : LinIn (· ∈ (l1 ++ l2).map (·.1)) r.steps)
    (hseen : ∀ e ∈ r.seen, LinIn (· ∈ (l1 ++ l2).map (·.1)) e.2) (hk : Py.NodupKeys r.seen)
    (hsd : c.tape.dir = r.init.dir) (hop : c.op = .running) {Inv : SimSt σ S Nat → Prop} {next : SimSt σ S Nat → SimSt σ S Nat}
    (hI : Inv c) (hs : ∀ y : Nat → Int, (∀ x, 0 ≤ y x) → ∀ a, Inv a → a.op = .running → a.st = c.st → a.dir = c.dir →
      TapeIs y r.init a.tape → Reaches y r.steps r.seen a (next a) ∧ TapePlus y r.init r.diff (next a).tape ∧ Inv (next a))
    (k : Nat) :
    match applyDiff r c.tape k with
    | .raise => False
    | .fail => ¬ ∃ y : Nat → Int, (∀ x, 0 ≤ y x) ∧ TapeIs y r.init c.tape
    | .ok (.inf states) => states = r.seen.map (·.1) ∧
        ∀ i, ∃ y, Inv (next^[i] c) ∧ Reaches y r.steps r.seen (next^[i] c) (next^[i + 1] c)
    | .ok (.apply tape n seen) => (∃ R, 1 ≤ R ∧ Inv (next^[R] c) ∧ Lands c (next^[R] c) tape n seen) ∧
        seen.map (·.1) = r.seen.map (·.1) ∧ ¬ ∃ y : Nat → Int, (∀ x, 0 ≤ y x) ∧ TapeIs y r.init tape := by
  unfold applyDiff
  have s1 := scan_ok m1 .L 0 ⟨none, none, []⟩
  cases hs1 : scanHalf .L 0 r.init.left r.diff.left c.tape.left ⟨none, none, []⟩ with
  | raise => rw [hs1] at s1; exact s1
  | fail =>
    rw [hs1] at s1
    obtain ⟨e, he, hlt⟩ := s1
    rintro ⟨y, hy, ht⟩
    have := mhalf_ge m1 hy 0 (by rw [addHalf_zero m1]; exact ht.left) e he
    omega
  | ok sc1 =>
  rw [hs1] at s1
  simp only at s1 ⊢
  have s2 := scan_ok m2 .R 0 sc1
  cases hs2 : scanHalf .R 0 r.init.right r.diff.right c.tape.right sc1 with
  | raise => rw [hs2] at s2; exact s2
  | fail =>
    rw [hs2] at s2
    obtain ⟨e, he, hlt⟩ := s2
    rintro ⟨y, hy, ht⟩
    have := mhalf_ge m2 hy 0 (by rw [addHalf_zero m2]; exact ht.right) e he
    omega
  | ok sc =>
  rw [hs2] at s2
  simp only at s2 ⊢
  obtain ⟨A, hlim⟩ := scanAll_of hnd s1 s2
  have hYe : ∀ (i : Int), ∀ e ∈ l1 ++ l2, lineY sc.vals i e.1 = (e.2.2.2 : Int) - e.2.1 + i * e.2.2.1 := by
    intro i e he
    unfold lineY
    rw [A.mem e he]; ring
  have hY0 : ∀ (i : Int) x, x ∉ (l1 ++ l2).map (·.1) → lineY sc.vals i x = 0 := by
    intro i x hx
    unfold lineY
    rw [A.other x hx]
  let T : Nat → ChainTape σ Nat := fun i =>
    ⟨c.tape.dir, addHalf (i : Int) r.diff.left c.tape.left, addHalf (i : Int) r.diff.right c.tape.right⟩
  let C : Nat → SimSt σ S Nat := fun i => next^[i] c
  have hstep : ∀ i : Nat, (∀ e ∈ l1 ++ l2, 0 ≤ (e.2.2.2 : Int) - e.2.1 + i * e.2.2.1) → Inv (C i) → (C i).op = .running →
      (C i).st = c.st → (C i).dir = c.dir → (C i).tape = T i →
      Reaches (lineY sc.vals i) r.steps r.seen (C i) (C (i + 1)) ∧ (C (i + 1)).tape = T (i + 1) ∧ Inv (C (i + 1)) := by
    intro i hi h0 h1 h2 h3 h4
    have hpos : ∀ x, 0 ≤ lineY sc.vals i x := by
      intro x
      by_cases hx : x ∈ (l1 ++ l2).map (·.1)
      · obtain ⟨e, he, rfl⟩ := List.mem_map.1 hx
        rw [hYe i e he]; exact hi e he
      · rw [hY0 i x hx]
    have hm1 : ∀ e ∈ l1, lineY sc.vals i e.1 = (e.2.2.2 : Int) - e.2.1 + i * e.2.2.1 :=
      fun e he => hYe i e (by simp [he])
    have hm2 : ∀ e ∈ l2, lineY sc.vals i e.1 = (e.2.2.2 : Int) - e.2.1 + i * e.2.2.1 :=
      fun e he => hYe i e (by simp [he])
    obtain ⟨g1, g2, g3⟩ := hs (lineY sc.vals i) hpos (C i) h0 h1 h2 h3
      ⟨by rw [h4]; exact hsd.symm, by rw [h4]; exact add_is m1 _ _ (fun e he => ⟨hm1 e he, hpos _⟩),
        by rw [h4]; exact add_is m2 _ _ (fun e he => ⟨hm2 e he, hpos _⟩)⟩
    have hC : next (C i) = C (i + 1) := (Function.iterate_succ_apply' next i c).symm
    rw [hC] at g1 g2 g3
    refine ⟨g1, ?_, g3⟩
    have t1 := add_plus m1 _ _ hm1 _ g2.left
    have t2 := add_plus m2 _ _ hm2 _ g2.right
    have t3 := g2.dir
    generalize (C (i + 1)).tape = t at *
    obtain ⟨td, tl, tr⟩ := t
    simp only at t1 t2 t3
    show (⟨td, tl, tr⟩ : ChainTape σ Nat) = ⟨c.tape.dir, addHalf ((i + 1 : Nat) : Int) r.diff.left c.tape.left,
      addHalf ((i + 1 : Nat) : Int) r.diff.right c.tape.right⟩
    rw [t1, t2, ← t3, hsd]
    push_cast
    rfl
  have hT0 : c.tape = T 0 := by
    show c.tape = ⟨c.tape.dir, addHalf ((0 : Nat) : Int) r.diff.left c.tape.left,
      addHalf ((0 : Nat) : Int) r.diff.right c.tape.right⟩
    simp only [Nat.cast_zero]
    rw [addHalf_zero m1, addHalf_zero m2]
  have hiter : ∀ R : Nat, (∀ i : Nat, i < R → ∀ e ∈ l1 ++ l2, 0 ≤ (e.2.2.2 : Int) - e.2.1 + i * e.2.2.1) →
      Iter r.steps r.seen (fun i => lineY sc.vals i) R c (C R) ∧ (C R).tape = T R ∧ Inv (C R) := by
    intro R
    induction R with
    | zero =>
      intro _
      have : C 0 = c := by simp [C]
      rw [this]
      exact ⟨iter_zero _ _ _ hop, hT0, hI⟩
    | succ R ih =>
      intro hR
      obtain ⟨i1, i2, i3⟩ := ih (fun i hi => hR i (by omega))
      obtain ⟨j1, j2⟩ := hstep R (hR R (by omega)) i3 i1.op i1.st i1.dir i2
      exact ⟨iter_succ i1 j1, j2⟩
  cases hreps : sc.reps with
  | none =>
    simp only
    have hnn : ∀ i : Nat, ∀ e ∈ l1 ++ l2, 0 ≤ (e.2.2.2 : Int) - e.2.1 + i * e.2.2.1 := by
      intro i e he
      have h1 := A.unlim hreps e he
      have h2 := A.ge e he
      have : 0 ≤ (i : Int) * e.2.2.1 := Int.mul_nonneg (by omega) h1
      omega
    refine ⟨trivial, fun i => ?_⟩
    obtain ⟨i1, i2, i3⟩ := hiter i (fun j _ => hnn j)
    obtain ⟨j1, -⟩ := hstep i (hnn i) i3 i1.op i1.st i1.dir i2
    exact ⟨_, i3, j1⟩
  | some reps =>
    simp only
    obtain ⟨hpos, hb⟩ := A.bound reps hreps
    rw [if_neg (by omega)]
    obtain ⟨R, rfl⟩ : ∃ R : Nat, reps = (R : Int) := ⟨reps.toNat, by omega⟩
    have hR : 1 ≤ R := by omega
    have hnn : ∀ i : Nat, i < R → ∀ e ∈ l1 ++ l2, 0 ≤ (e.2.2.2 : Int) - e.2.1 + i * e.2.2.1 := by
      intro i hi e he
      have h2 := A.ge e he
      by_cases hneg : e.2.2.1 < 0
      · have h1 := hb e he hneg
        have h3 : (i : Int) * (-e.2.2.1) ≤ ((R : Int) - 1) * (-e.2.2.1) :=
          Int.mul_le_mul_of_nonneg_right (by omega) (by omega)
        have h4 : ((R : Int) - 1) * (-e.2.2.1) = R * (-e.2.2.1) + e.2.2.1 := by ring
        have h5 : (i : Int) * (-e.2.2.1) = - (i * e.2.2.1) := by ring
        omega
      · have : 0 ≤ (i : Int) * e.2.2.1 := Int.mul_nonneg (by omega) (by omega)
        omega
    have hfin : ∀ e ∈ l1 ++ l2, 1 ≤ (e.2.2.2 : Int) + R * e.2.2.1 := by
      intro e he
      have h2 := A.ge e he
      have hp : 1 ≤ e.2.1 ∧ 1 ≤ e.2.1 + e.2.2.1 := by
        rcases List.mem_append.1 he with he | he
        · exact mhalf_pos m1 e he
        · exact mhalf_pos m2 e he
      by_cases hneg : e.2.2.1 < 0
      · have h1 := hb e he hneg
        have h5 : (R : Int) * (-e.2.2.1) = - (R * e.2.2.1) := by ring
        omega
      · have : 0 ≤ (R : Int) * e.2.2.1 := Int.mul_nonneg (by omega) (by omega)
        omega
    obtain ⟨i1, i2, i3⟩ := hiter R hnn
    have hdom : ∀ x, x ∈ (l1 ++ l2).map (·.1) → ∃ p, Py.dget sc.vals x = some p := by
      intro x hx
      obtain ⟨e, he, rfl⟩ := List.mem_map.1 hx
      exact ⟨_, A.mem e he⟩
    obtain ⟨each, g1, g2, g3⟩ := subst_lin (Q := (· = k)) (subs := lineAt sc.vals (.expr (varE k))) hsteps (by
      intro x hx
      obtain ⟨p, hp⟩ := hdom x hx
      refine ⟨(Val.num p.1).add ((Val.num p.2).mul (.expr (varE k))), by simp [lineAt, hp], ?_⟩
      refine add_lin (a := .num p.1) trivial (num_mul_lin (a := .expr (varE k)) ?_ _)
      intro t ht
      simp only [varE, List.mem_singleton] at ht
      subst ht
      exact ⟨k, rfl, rfl⟩)
    have hval : ∀ j : Nat, Val.value (fun _ => (j : Int)) each = Val.value (lineY sc.vals j) r.steps := by
      intro j
      rw [g3]
      exact lin_value_congr hsteps (fun x hx => lineY_var k j (hdom x hx))
    obtain ⟨D, d1, d2⟩ := series_int g2 R
    rw [g1]
    simp only
    rw [d1]
    simp only
    have d3 : ratToInt (.num (D : ℚ)) = some D := by simp [ratToInt]
    rw [d3]
    simp only
    simp only [hval] at d2
    obtain ⟨f1, f2, f3⟩ := iter_lands hR i1 hk d2
    have hR1 : (R : Int) - 1 = ((R - 1 : Nat) : Int) := by omega
    have hlast := lastSeen_ok (D := .num D) (subs := lineAt sc.vals (.num ((R : Int) - 1))) hsteps trivial (by
      intro x hx
      obtain ⟨p, hp⟩ := hdom x hx
      exact ⟨p.1 + p.2 * (R - 1), by simp [lineAt, hp, Val.add, Val.mul]⟩) (fun _ => 0) r.seen hseen
    rw [lineY_num, value_num] at hlast
    rw [hR1] at hlast ⊢
    rw [hlast]
    rw [return_ok m1 R _ 0 (hlim R hreps).1 (fun e he => hfin e (by simp [he])),
      return_ok m2 R _ 0 (hlim R hreps).2 (fun e he => hfin e (by simp [he]))]
    simp only
    rw [asNats_ok (fun v => D - (Val.value (lineY sc.vals ((R - 1 : Nat) : Int)) r.steps -
      Val.value (lineY sc.vals ((R - 1 : Nat) : Int)) v)) r.seen f2]
    simp only [asNat, if_pos f1]
    rw [add_filter m1 R (fun e he => hfin e (by simp [he])), add_filter m2 R (fun e he => hfin e (by simp [he]))]
    refine ⟨⟨R, hR, i3, ?_⟩, by simp, ?_⟩
    · rw [i2] at f3
      exact f3
    · rintro ⟨y, hy, ht⟩
      obtain ⟨e, he, hlt⟩ := A.max R hreps
      rcases List.mem_append.1 he with he | he
      · have := mhalf_ge m1 hy R ht.left e he; omega
      · have := mhalf_ge m2 hy R ht.right e he; omega

variable [DecidableEq σ] [DecidableEq S]

/-- **Applying a difference rule.**  It fails only if the tape is not an instance of the rule; otherwise it gives what the
simulation reaches after a number of applications, and the tape is then no longer an instance. -/
theorem applyDiff_ok {z : σ} {M : Machine σ S} {r : DiffRule σ} {ll lr} {c : SimSt σ S Nat}
    (h : DiffOK M z (strip natIsOne c.st c.tape) r ll lr) (hop : c.op = .running) (hdir : c.dir = c.tape.dir)
    (hw : c.tape.WF z) (k : Nat) :
    match applyDiff r c.tape k with
    | .raise => False
    | .fail => ¬ ∃ y : Nat → Int, (∀ x, 0 ≤ y x) ∧ TapeIs y r.init c.tape
    | .ok (.inf states) => states = r.seen.map (·.1) ∧ Loops M c states
    | .ok (.apply tape n seen) => (∃ R, 1 ≤ R ∧ Lands c ((SimSt.step natOps M)^[r.loops * R] c) tape n seen) ∧
        seen.map (·.1) = r.seen.map (·.1) ∧ ¬ ∃ y : Nat → Int, (∀ x, 0 ≤ y x) ∧ TapeIs y r.init tape := by
  have hs := h.shape
  have hsd : c.tape.dir = r.init.dir := congrArg Strip.dir hs
  obtain ⟨l1, m1, e1⟩ := match_of h.left (hw .L) (congrArg Strip.left hs)
  obtain ⟨l2, m2, e2⟩ := match_of h.right (hw .R) (congrArg Strip.right hs)
  replace m1 : MHalf z r.init.left r.diff.left c.tape.left l1 := m1
  replace m2 : MHalf z r.init.right r.diff.right c.tape.right l2 := m2
  have hkeys : (l1 ++ l2).map (·.1) = (ll ++ lr).map (·.1) := by
    rw [← e1, ← e2, List.map_append, List.map_append, List.map_map, List.map_map]; rfl
  have hnd : ((l1 ++ l2).map (·.1)).Nodup := by rw [hkeys]; exact h.nodup
  have hlin : ∀ {v : V}, LinIn (· ∈ (ll ++ lr).map (·.1)) v → LinIn (· ∈ (l1 ++ l2).map (·.1)) v := by
    intro v hv; rw [hkeys]; exact hv
  have key := applyDiff_core m1 m2 hnd (hlin h.steps) (fun e he => hlin (h.seen e he)) h.keys hsd hop
    (Inv := fun a => a.tape.WF z ∧ a.dir = a.tape.dir) (next := (SimSt.step natOps M)^[r.loops]) ⟨hw, hdir⟩ (by
      intro y hy a hI h1 h2 h3 h4
      obtain ⟨g1, g2⟩ := h.sound y hy a h1 h2 hI.2 h4 hI.1
      exact ⟨g1, g2, steps_wf M _ hI.1, by rw [g1.dir, hI.2, ← h4.dir, g2.dir]⟩) k
  cases hap : applyDiff r c.tape k with
  | raise => rw [hap] at key; exact key
  | fail => rw [hap] at key; exact key
  | ok res =>
    rw [hap] at key
    cases res with
    | apply tape n seen =>
      obtain ⟨⟨R, h1, -, h2⟩, h3, h4⟩ := key
      exact ⟨⟨R, h1, by rw [Function.iterate_mul]; exact h2⟩, h3, h4⟩
    | inf states =>
      obtain ⟨h1, h2⟩ := key
      refine ⟨h1, r.loops, h.loops, fun i => ?_⟩
      have hall : ∀ j, (((SimSt.step natOps M)^[r.loops])^[j] c).infReason = c.infReason ∧
          (((SimSt.step natOps M)^[r.loops])^[j] c).recur = c.recur := by
        intro j
        induction j with
        | zero => exact ⟨rfl, rfl⟩
        | succ j ih =>
          obtain ⟨y, -, hr⟩ := h2 j
          exact ⟨hr.reason.trans ih.1, hr.recur.trans ih.2⟩
      obtain ⟨y, -, j1⟩ := h2 i
      simp only [Function.iterate_mul]
      refine ⟨j1.op, j1.le, (hall _).1, (hall _).2, fun q hq => ?_, fun q hq => ?_⟩
      · rw [h1] at hq
        obtain ⟨e, he, rfl⟩ := List.mem_map.1 hq
        obtain ⟨n, h1, -, h3⟩ := (j1.seen e.1).1 e.2 ((Py.mem_iff_dget h.keys _ _).1 he)
        exact ⟨n, h1, h3⟩
      · refine (j1.seen q).2 ?_
        cases hd : Py.dget r.seen q with
        | none => rfl
        | some v => exact absurd (h1 ▸ List.mem_map.2 ⟨(q, v), (Py.mem_iff_dget h.keys _ _).2 hd, rfl⟩) hq

end Model.Prover
