import Verif.Lemmas.RecProve
import Verif.Lemmas.ProverStacks
import Verif.Spec.Recursive

/-! # The whole simulation with recursive proofs -/

namespace Model.Recursive
open Spec Model Model.Expr Model.Prover Model.RuleFunc
variable {σ S : Type}

/-! ## Outside of proofs all lengths are numbers -/

def IsNum (v : V) : Prop := ∃ k : Int, v = .num k

def Nums (h : List (Blk σ V)) : Prop := ∀ b ∈ h, ∀ v, b.num = some v → IsNum v

def Pos (h : List (Blk σ V)) : Prop := ∀ b ∈ h, ∀ v, b.num = some v → ∃ k : Int, 1 ≤ k ∧ v = .num k

def PosT (t : ChainTape σ V) : Prop := ∀ d, Pos (t.half d)

theorem Pos.nums {h : List (Blk σ V)} (hp : Pos h) : Nums h := fun b hb v hv => by
  obtain ⟨k, -, e⟩ := hp b hb v hv; exact ⟨k, e⟩

theorem pos_top {y : Nat → Int} {h : List (Blk σ V)} (hp : Pos h) : TopPos y h := by
  intro b r hb v hv
  obtain ⟨k, hk, rfl⟩ := hp b (by rw [hb]; simp) v hv
  exact hk

theorem pos_cons {b : Blk σ V} {h : List (Blk σ V)} : Pos (b :: h) ↔ (∀ v, b.num = some v → ∃ k : Int, 1 ≤ k ∧ v = .num k) ∧ Pos h := by
  simp [Pos]

theorem nums_cons {b : Blk σ V} {h : List (Blk σ V)} : Nums (b :: h) ↔ (∀ v, b.num = some v → IsNum v) ∧ Nums h := by
  simp [Nums]

theorem popOne_pos {h h' : List (Blk σ V)} (hh : Pos h) (hp : ChainTape.popOne valOps h = some h') : Pos h' := by
  cases h with
  | nil => cases hp
  | cons b r =>
    rw [pos_cons] at hh
    simp only [ChainTape.popOne] at hp
    cases hb : b.num with
    | none => rw [hb] at hp; cases hp; rw [pos_cons]; exact ⟨fun v hv => by simp [hb] at hv, hh.2⟩
    | some v =>
      rw [hb] at hp
      obtain ⟨k, hk, rfl⟩ := hh.1 v hb
      simp only at hp
      split at hp
      · cases hp; exact hh.2
      · next hz =>
        cases hp
        rw [pos_cons]
        refine ⟨fun v hv => ?_, hh.2⟩
        cases hv
        refine ⟨k - 1, ?_, rfl⟩
        by_contra hc
        apply hz
        have : k = 1 := by omega
        subst this
        rfl

section
variable [DecidableEq σ]

theorem push_pos {h h' : List (Blk σ V)} (hh : Pos h) (sym : σ) {k : Int} (hk : 1 ≤ k)
    (hp : ChainTape.push valOps sym (.num k) h = some h') : Pos h' := by
  cases h with
  | nil => cases hp
  | cons b r =>
    have hh' := hh
    rw [pos_cons] at hh
    simp only [ChainTape.push] at hp
    split at hp
    · cases hb : b.num with
      | none => rw [hb] at hp; cases hp; rw [pos_cons]; exact ⟨fun v hv => by simp [hb] at hv, hh.2⟩
      | some v =>
        rw [hb] at hp
        obtain ⟨j, hj, rfl⟩ := hh.1 v hb
        cases hp
        rw [pos_cons]
        refine ⟨fun v hv => ?_, hh.2⟩
        cases hv
        exact ⟨j + k, by omega, rfl⟩
    · cases hp
      rw [pos_cons]
      exact ⟨fun v hv => by cases hv; exact ⟨k, hk, rfl⟩, hh'⟩

omit [DecidableEq σ] in
theorem pos_set {t : ChainTape σ V} (h : PosT t) (d : Dir) {g : List (Blk σ V)} (hg : Pos g) : PosT (t.setHalf d g) := by
  intro e
  by_cases he : e = d
  · subst he; rwa [Prover.half_setHalf_same]
  · rw [Prover.half_setHalf_other _ _ he]; exact h e

theorem singleMove_pos {t t' : ChainTape σ V} (h : PosT t) (sym : σ) (d : Dir) (hp : t.singleMove valOps sym d = some t') : PosT t' := by
  rw [singleMove_eq] at hp
  cases h1 : ChainTape.popOne valOps (t.half t.dir) with
  | none => rw [h1] at hp; cases hp
  | some g =>
    rw [h1] at hp
    simp only at hp
    have hs := pos_set h t.dir (popOne_pos (h t.dir) h1)
    cases h2 : ChainTape.push valOps sym (valOps.ofNat 1) ((t.setHalf t.dir g).half d.other) with
    | none => rw [h2] at hp; cases hp
    | some g' =>
      rw [h2] at hp
      cases hp
      intro e
      rw [half_dir]
      exact pos_set hs d.other (push_pos (hs d.other) sym (k := 1) (by omega) h2) e

theorem chainMove_pos {t t' : ChainTape σ V} {r : Option V} (h : PosT t) (sym : σ)
    (hp : t.chainMove valOps sym = some (t', r)) : PosT t' := by
  unfold ChainTape.chainMove at hp
  have hd := h t.dir
  cases hh : t.half t.dir with
  | nil => rw [hh] at hp; cases hp
  | cons b rest =>
    rw [hh] at hp hd
    simp only at hp
    rw [pos_cons] at hd
    cases hb : b.num with
    | none => rw [hb] at hp; cases hp; exact h
    | some v =>
      rw [hb] at hp
      obtain ⟨k, hk, rfl⟩ := hd.1 v hb
      simp only at hp
      have hs := pos_set h t.dir hd.2
      cases h2 : ChainTape.push valOps sym (.num k) ((t.setHalf t.dir rest).half (t.setHalf t.dir rest).dir.other) with
      | none => rw [h2] at hp; cases hp
      | some g' =>
        rw [h2] at hp
        cases hp
        exact pos_set hs _ (push_pos (hs _) sym hk h2)

theorem macroStep_pos [DecidableEq S] (M : Machine σ S) {s : SimSt σ S V} (h : PosT s.tape) : PosT (s.macroStep valOps M).tape := by
  unfold SimSt.macroStep
  cases htop : s.tape.topSymbol with
  | none => exact h
  | some cur =>
    simp only
    generalize M.trans cur s.st s.dir = t
    split
    · exact h
    split
    · exact h
    split
    · cases hc : s.tape.chainMove valOps t.sym with
      | none => exact h
      | some p =>
        obtain ⟨t', r⟩ := p
        have h1 := chainMove_pos h t.sym hc
        cases r with
        | none => exact h1
        | some v => exact h1
    split
    · cases hc : s.tape.singleMove valOps t.sym t.dir with
      | none => exact h
      | some t' => exact singleMove_pos h t.sym t.dir hc
    · exact h

end

/-- not zero, not negative, a number -/
theorem pos_filter {y : Nat → Int} {t : List (Blk σ V)} {u : List (Blk σ Nat)} (hn : Nums t) (hu : HalfIs y (t.filter nonZero) u) :
    Pos (t.filter nonZero) := by
  have hn' : Nums (t.filter nonZero) := fun b hb => hn b (List.mem_filter.1 hb).1
  have hz : ∀ b ∈ t.filter nonZero, nonZero b = true := fun b hb => (List.mem_filter.1 hb).2
  generalize t.filter nonZero = t' at hn' hz hu
  induction hu with
  | nil => intro b hb; cases hb
  | @cons a b t' u' hab hrest ih =>
    rw [pos_cons]
    rw [nums_cons] at hn'
    refine ⟨fun v hv => ?_, ih hn'.2 (fun b hb => hz b (by simp [hb]))⟩
    obtain ⟨k, rfl⟩ := hn'.1 v hv
    refine ⟨k, ?_, rfl⟩
    have h1 := hz a (by simp)
    have h2 := hab.2
    rw [hv] at h2
    obtain ⟨n, -, hk⟩ := numIs_some h2
    rw [value_num] at hk
    unfold nonZero at h1
    rw [hv] at h1
    simp [Val.eq] at h1
    omega

/-! ### Difference rules -/

def ScNum (sc : Scan) : Prop := (∀ v, sc.reps = some v → IsNum v) ∧ ∀ d i f, sc.limit = some (d, i, f) → IsNum f

theorem scan_num (d : Dir) : ∀ (is ds ns : List (Blk σ V)) (i : Nat) (sc sc' : Scan), Nums ns → ScNum sc →
    scanHalf d i is ds ns sc = .ok sc' → ScNum sc'
  | [], ds, ns, i, sc, sc', hn, hs, h => by cases h; exact hs
  | ib :: is, [], ns, i, sc, sc', hn, hs, h => by cases h; exact hs
  | ib :: is, db :: ds, [], i, sc, sc', hn, hs, h => by cases h; exact hs
  | ib :: is, db :: ds, nb :: ns, i, sc, sc', hn, hs, h => by
    rw [nums_cons] at hn
    unfold scanHalf at h
    split at h
    · next e _ =>
      split at h
      · next x n delta h1 h2 h3 =>
        obtain ⟨k, rfl⟩ := hn.1 n h2
        simp only at h
        split at h
        · cases h
        split at h
        · split at h
          · split at h
            · cases h
            · simp only [maxReps] at h
              refine scan_num d is ds ns _ _ _ hn.2 ?_ h
              refine ⟨fun v hv => ?_, fun d i f hf => ?_⟩
              · cases hv; exact ⟨_, rfl⟩
              · cases hf; exact ⟨_, rfl⟩
          · split at h
            · cases h
            · simp only [maxReps] at h
              split at h
              · refine scan_num d is ds ns _ _ _ hn.2 ?_ h
                refine ⟨fun v hv => ?_, fun d i f hf => ?_⟩
                · cases hv; exact ⟨_, rfl⟩
                · cases hf; exact ⟨_, rfl⟩
              · refine scan_num d is ds ns _ _ _ hn.2 ?_ h
                exact hs
          · cases h
        · refine scan_num d is ds ns _ _ _ hn.2 ?_ h
          exact hs
      · cases h
    · exact scan_num d is ds ns _ _ _ hn.2 hs h

theorem return_num {reps : V} (hr : IsNum reps) {lim : Option (Nat × V)} (hl : ∀ i f, lim = some (i, f) → IsNum f) :
    ∀ (ds ns r : List (Blk σ V)) (i : Nat), Nums ds → Nums ns → returnHalf reps lim i ds ns = some r → Nums r
  | [], ns, r, i, _, hn, h => by
    simp only [returnHalf, Option.some.injEq] at h
    subst h; exact hn
  | d :: ds, [], r, i, _, hn, h => by
    simp only [returnHalf, Option.some.injEq] at h
    subst h; exact hn
  | d :: ds, n :: ns, r, i, hd, hn, h => by
    rw [nums_cons] at hd
    have hnn := hn
    rw [nums_cons] at hn
    unfold returnHalf at h
    cases hr1 : returnHalf reps lim (i + 1) ds ns with
    | none => rw [hr1] at h; cases hb : n.num <;> rw [hb] at h <;> cases h
    | some r1 =>
      have ih := return_num hr hl ds ns r1 (i + 1) hd.2 hn.2 hr1
      rw [hr1] at h
      cases hb : n.num with
      | none =>
        rw [hb] at h
        cases h
        rw [nums_cons]; exact ⟨hn.1, ih⟩
      | some v =>
        obtain ⟨k, rfl⟩ := hn.1 v hb
        rw [hb] at h
        simp only at h
        split at h
        · cases lim with
          | none => cases h
          | some p =>
            obtain ⟨j, f⟩ := p
            cases h
            rw [nums_cons]
            refine ⟨fun v hv => ?_, ih⟩
            cases hv
            obtain ⟨c, rfl⟩ := hl j f rfl
            exact ⟨c, rfl⟩
        · cases hdn : d.num with
          | none => rw [hdn] at h; cases h
          | some w =>
            rw [hdn] at h
            cases h
            rw [nums_cons]
            refine ⟨fun v hv => ?_, ih⟩
            cases hv
            obtain ⟨c, rfl⟩ := hd.1 w hdn
            obtain ⟨m, rfl⟩ := hr
            exact ⟨_, rfl⟩

theorem dhalf_nums {z : σ} {g d l} (h : DHalf z g d l) : Nums d := by
  induction h with
  | last => rw [nums_cons]; exact ⟨fun v hv => (by cases hv), fun b hb => (by cases hb)⟩
  | one a h ih => rw [nums_cons]; exact ⟨fun v hv => by cases hv; exact ⟨_, rfl⟩, ih⟩
  | many a h ih => rw [nums_cons]; exact ⟨fun v hv => by cases hv; exact ⟨_, rfl⟩, ih⟩

/-- the new tape is again one of numbers, if it is a tape at all -/
def ResNum (y : Nat → Int) : Res σ → Prop
  | .inf _ => True
  | .apply tape _ _ _ => ∀ u, TapeIs y tape u → PosT tape

theorem limit_num {sc : Scan} (h : ScNum sc) (d : Dir) : ∀ i f, limitIn d sc.limit = some (i, f) → IsNum f := by
  intro i f hf
  unfold limitIn at hf
  split at hf
  · next d' i' f' e =>
    split at hf
    · cases hf; exact h.2 _ _ _ e
    · cases hf
  · cases hf

theorem diffApply_num [Sums] {r : DiffRule σ} {tape : ChainTape σ V} (y : Nat → Int) (hd : Nums r.diff.left ∧ Nums r.diff.right) (hp : PosT tape)
    (k : Nat) {res : Res σ} (ha : applyDiff r tape k = .ok res) : ResNum y res := by
  unfold applyDiff at ha
  split at ha
  · cases ha
  · cases ha
  next sc1 h1 =>
  have hs1 := scan_num .L _ _ _ _ _ _ (hp .L).nums ⟨fun v hv => (by cases hv), fun d i f hf => (by cases hf)⟩ h1
  split at ha
  · cases ha
  · cases ha
  next sc2 h2 =>
  have hs2 := scan_num .R _ _ _ _ _ _ (hp .R).nums hs1 h2
  split at ha
  · cases ha; trivial
  next reps hr =>
  split at ha
  · cases ha
  split at ha
  · cases ha
  split at ha
  · cases ha
  split at ha
  · next l r' hl hr' =>
    cases ha
    intro u hu d
    have nl := return_num (hs2.1 reps hr) (limit_num hs2 .L) _ _ _ _ hd.1 (hp .L).nums hl
    have nr := return_num (hs2.1 reps hr) (limit_num hs2 .R) _ _ _ _ hd.2 (hp .R).nums hr'
    cases d
    · exact pos_filter nl hu.left
    · exact pos_filter nr hu.right
  · cases ha

/-! ### General rules -/

theorem foldl_mul_num : ∀ (xs : List V) (x : V), IsNum x → (∀ v ∈ xs, IsNum v) → IsNum (xs.foldl Val.mul x)
  | [], x, hx, _ => hx
  | v :: xs, x, hx, h => by
    obtain ⟨a, rfl⟩ := hx
    obtain ⟨b, rfl⟩ := h v (by simp)
    exact foldl_mul_num xs _ ⟨_, rfl⟩ (fun v hv => h v (by simp [hv]))

theorem substSum_num {subs : Nat → Option V} : ∀ (ts : List (Term Int)) (acc r : V),
    (∀ t ∈ ts, ∀ vp ∈ t.vars, ∃ k, subs vp.var = some (.num k)) → IsNum acc → substSum subs ts acc = .ok r → IsNum r
  | [], acc, r, _, ha, h => by cases h; exact ha
  | t :: ts, acc, r, hs, ha, h => by
    unfold substSum at h
    cases ht : t.subst subs with
    | error e => rw [ht] at h; cases h
    | ok x =>
      rw [ht] at h
      simp only at h
      have hx : IsNum x := by
        unfold Term.subst at ht
        have hall : ∀ v ∈ t.vars.map (VarPow.subst subs), IsNum v := by
          intro v hv
          obtain ⟨vp, hvp, rfl⟩ := List.mem_map.1 hv
          obtain ⟨k, hk⟩ := hs t (by simp) vp hvp
          unfold VarPow.subst
          rw [hk]
          simp only
          split
          · exact ⟨k, rfl⟩
          · exact ⟨_, rfl⟩
        generalize t.vars.map (VarPow.subst subs) = l at ht hall
        cases l with
        | nil => cases ht
        | cons v vs =>
          cases ht
          obtain ⟨c, hc⟩ := foldl_mul_num vs v (hall v (by simp)) (fun w hw => hall w (by simp [hw]))
          rw [hc]; exact ⟨_, rfl⟩
      obtain ⟨a, rfl⟩ := ha
      obtain ⟨b, rfl⟩ := hx
      exact substSum_num ts _ r (fun t ht => hs t (by simp [ht])) ⟨_, rfl⟩ h

theorem lin_vars {D : Nat → Prop} {e : Expr Int} (h : LinIn D (.expr e)) : ∀ t ∈ e.terms, ∀ vp ∈ t.vars, D vp.var := by
  intro t ht vp hvp
  obtain ⟨x, hv, hx⟩ := h t ht
  rw [hv] at hvp
  simp at hvp
  subst hvp
  exact hx

theorem subst_num {D : Nat → Prop} {subs : Nat → Option V} (hs : ∀ x, D x → ∃ k, subs x = some (.num k)) {v w : V} (hv : LinIn D v)
    (h : v.subst subs = .ok w) : IsNum w := by
  cases v with
  | num k => cases h; exact ⟨_, rfl⟩
  | expr e =>
    unfold Val.subst at h
    simp only at h
    split at h
    · cases h; exact ⟨_, rfl⟩
    · unfold Expr.subst at h
      split at h
      · cases h
      · next x hx =>
        cases h
        obtain ⟨c, rfl⟩ := substSum_num _ _ _ (fun t ht vp hvp => hs _ (lin_vars hv t ht vp hvp)) ⟨0, rfl⟩ hx
        exact ⟨_, rfl⟩


def CNum (cs : List (Option V)) : Prop := ∀ v, some v ∈ cs → IsNum v

theorem fit_num : ∀ (vs : List (Option (Nat × Int))) (cs : List (Option V)) (a a' : List (Nat × V)), CNum cs →
    (∀ x v, Py.dget a x = some v → IsNum v) → fitsMin vs cs a = .ok a' → ∀ x v, Py.dget a' x = some v → IsNum v
  | [], cs, a, a', _, ha, h => by cases h; exact ha
  | none :: vs, [], a, a', _, ha, h => by cases h; exact ha
  | none :: vs, c :: cs, a, a', hc, ha, h => fit_num vs cs a a' (fun v hv => hc v (by simp [hv])) ha h
  | some (x, m) :: vs, [], a, a', _, ha, h => by cases h; exact ha
  | some (x, m) :: vs, none :: cs, a, a', hc, ha, h => by cases h
  | some (x, m) :: vs, some c :: cs, a, a', hc, ha, h => by
    unfold fitsMin at h
    simp only at h
    split at h
    · refine fit_num vs cs _ a' (fun v hv => hc v (by simp [hv])) (fun y v hv => ?_) h
      rw [Py.dget_dset] at hv
      split at hv
      · cases hv; exact hc c (by simp)
      · exact ha y v hv
    · cases h

theorem fit_dom : ∀ (vs : List (Option (Nat × Int))) (cs : List (Option V)) (a a' : List (Nat × V)), vs.length ≤ cs.length →
    fitsMin vs cs a = .ok a' → (∀ x, Py.dget a x ≠ none → Py.dget a' x ≠ none) ∧ ∀ x m, some (x, m) ∈ vs → Py.dget a' x ≠ none
  | [], cs, a, a', _, h => by cases h; exact ⟨fun _ h => h, fun x m hm => by cases hm⟩
  | none :: vs, [], a, a', hl, h => by simp at hl
  | none :: vs, c :: cs, a, a', hl, h => by
    obtain ⟨h1, h2⟩ := fit_dom vs cs a a' (by simpa using hl) h
    exact ⟨h1, fun x m hm => h2 x m (by simpa using hm)⟩
  | some (x, m) :: vs, [], a, a', hl, h => by simp at hl
  | some (x, m) :: vs, none :: cs, a, a', hl, h => by cases h
  | some (x, m) :: vs, some c :: cs, a, a', hl, h => by
    unfold fitsMin at h
    simp only at h
    split at h
    · obtain ⟨h1, h2⟩ := fit_dom vs cs _ a' (by simpa using hl) h
      refine ⟨fun y hy => h1 y ?_, fun y m' hm => ?_⟩
      · rw [Py.dget_dset]; split
        · simp
        · exact hy
      · rcases List.mem_cons.1 hm with e | hm
        · cases e
          apply h1
          rw [Py.dget_dset, if_pos rfl]; simp
        · exact h2 y m' hm
    · cases h

theorem substNums_num {D : Nat → Prop} {subs : Nat → Option V} (hs : ∀ x, D x → ∃ k, subs x = some (.num k)) :
    ∀ (vs next : List (Option V)), (∀ v, some v ∈ vs → LinIn D v) → substNums subs vs = some next → CNum next ∧ next.length = vs.length
  | [], next, _, h => by cases h; exact ⟨fun v hv => (by cases hv), rfl⟩
  | none :: vs, next, hl, h => by
    unfold substNums at h
    cases hr : substNums subs vs with
    | none => rw [hr] at h; cases h
    | some r =>
      rw [hr] at h; cases h
      obtain ⟨h1, h2⟩ := substNums_num hs vs r (fun v hv => hl v (by simp [hv])) hr
      exact ⟨fun v hv => h1 v (by simpa using hv), by simp [h2]⟩
  | some w :: vs, next, hl, h => by
    unfold substNums at h
    split at h
    · next w' r hw hr =>
      cases h
      obtain ⟨h1, h2⟩ := substNums_num hs vs r (fun v hv => hl v (by simp [hv])) hr
      refine ⟨fun v hv => ?_, by simp [h2]⟩
      rcases List.mem_cons.1 hv with e | hv
      · cases e; exact subst_num hs (hl w (by simp)) hw
      · exact h1 v hv
    · cases h

theorem genLoop_num {r : GenRule} {D : Nat → Prop} (hl : ∀ v, some v ∈ r.result → LinIn D v) (hr : r.result.length = r.vars.length)
    (hd : ∀ x, D x → ∃ m, some (x, m) ∈ r.vars) : ∀ (fuel : Nat) (cur : List (Option V)) (w : W) (app : Bool) (cur' : List (Option V))
    (w' : W) (app' : Bool), cur.length = r.vars.length → CNum cur →
    genApplyLoop r fuel cur w app = .ok (.stop cur' w' app') → CNum cur' := by
  intro fuel
  induction fuel with
  | zero =>
    intro cur w app cur' w' app' _ hc hg
    unfold genApplyLoop at hg
    split at hg
    · cases hg
    · cases hg; exact hc
    · cases hg; exact hc
  | succ fuel ih =>
    intro cur w app cur' w' app' hlen hc hg
    unfold genApplyLoop at hg
    split at hg
    · cases hg
    · cases hg; exact hc
    next a hf =>
    simp only at hg
    split at hg
    · next w1 next hw hn =>
      have hsub : ∀ x, D x → ∃ k, Py.dget a x = some (.num k) := by
        intro x hx
        obtain ⟨m, hm⟩ := hd x hx
        have h1 := (fit_dom _ _ _ _ (by omega) hf).2 x m hm
        cases hx' : Py.dget a x with
        | none => exact absurd hx' h1
        | some v =>
          obtain ⟨k, rfl⟩ := fit_num _ _ _ _ hc (fun x v hv => by cases hv) hf x v hx'
          exact ⟨k, rfl⟩
      obtain ⟨h1, h2⟩ := substNums_num hsub _ _ hl hn
      split at hg
      · cases hg
      · exact ih _ _ _ _ _ _ (by omega) h1 hg
    · cases hg

theorem grhalf_facts {z : σ} {D g vs f} (h : GRHalf z D g vs f) : vs.length = g.length ∧ vs.length = f.length ∧
    (∀ b ∈ f, ∀ v, b.num = some v → LinIn D v) ∧ ∀ x ∈ hvars g, ∃ m, some (x, m) ∈ vs := by
  induction h with
  | last => exact ⟨rfl, rfl, by simp, by simp⟩
  | one a hl _ h ih =>
    obtain ⟨h1, h2, h3, h4⟩ := ih
    refine ⟨by simp [h1], by simp [h2], ?_, ?_⟩
    · intro b hb v hv
      rcases List.mem_cons.1 hb with rfl | hb
      · cases hv; exact hl
      · exact h3 b hb v hv
    · intro x hx
      obtain ⟨m, hm⟩ := h4 x (by simpa [Val.variables] using hx)
      exact ⟨m, by simp [hm]⟩
  | @many a x m w g vs f k1 k2 k3 h ih =>
    obtain ⟨h1, h2, h3, h4⟩ := ih
    refine ⟨by simp [h1], by simp [h2], ?_, ?_⟩
    · intro b hb v hv
      rcases List.mem_cons.1 hb with rfl | hb
      · cases hv; exact k3
      · exact h3 b hb v hv
    · intro y hy
      simp only [hvars_some, variables_varPlus, List.mem_append, List.mem_singleton] at hy
      rcases hy with rfl | hy
      · exact ⟨m, by simp⟩
      · obtain ⟨m, hm⟩ := h4 y hy
        exact ⟨m, by simp [hm]⟩

theorem set_nums : ∀ (t : List (Blk σ V)) (cs : List (Option V)), Nums t → CNum cs → Nums (setCounts t cs).1 ∧ CNum (setCounts t cs).2
  | [], cs, ht, hc => by simp only [setCounts]; exact ⟨ht, hc⟩
  | b :: bs, [], ht, hc => by simp only [setCounts]; exact ⟨ht, hc⟩
  | b :: bs, c :: cs, ht, hc => by
    rw [nums_cons] at ht
    obtain ⟨h1, h2⟩ := set_nums bs cs ht.2 (fun v hv => hc v (by simp [hv]))
    simp only [setCounts]
    refine ⟨?_, h2⟩
    rw [nums_cons]
    exact ⟨fun v hv => hc v (by simp only at hv; simp [hv]), h1⟩

theorem dropLast_len {α : Type} {a b : List α} (h : a.dropLast.length = b.dropLast.length) (ha : a ≠ []) (hb : b ≠ []) :
    a.length = b.length := by
  have h1 := List.length_pos_of_ne_nil ha
  have h2 := List.length_pos_of_ne_nil hb
  simp at h
  omega

theorem genApply_num [Sums] {T : Table} {Den : DC σ S → Config → Prop} {z : σ} {key : Strip σ S} {r : GenRule}
    {init res : ChainTape σ V} {vl vr : List (Option (Nat × Int))} {D : Nat → Prop} (h : GenOK T Den z key r init res vl vr D)
    {tape : ChainTape σ V} (hkey : key = strip valIsOne key.st tape) (he : EndsT z tape) (y : Nat → Int) (hp : PosT tape) (o : Opts)
    {out : Res σ} (ha : applyGen o r tape = .ok out) : ResNum y out := by
  have hsh : strip valIsOne key.st init = strip valIsOne key.st tape := h.shape.symm.trans hkey
  unfold strip at hsh
  simp only [Strip.mk.injEq, true_and] at hsh
  obtain ⟨hdir, hl, hr⟩ := hsh
  obtain ⟨l1, l2, l3, l4⟩ := grhalf_facts h.left
  obtain ⟨r1, r2, r3, r4⟩ := grhalf_facts h.right
  have hvl := List.Forall₂.length_eq h.vars
  have nl : tape.left.length = vl.length := by
    rw [l1]; exact (dropLast_len (b := tape.left) (by simpa using congrArg List.length hl) (grhalf_ne h.left) (he .L).ne).symm
  have nr : tape.right.length = vr.length := by
    rw [r1]; exact (dropLast_len (b := tape.right) (by simpa using congrArg List.length hr) (grhalf_ne h.right) (he .R).ne).symm
  unfold applyGen at ha
  split at ha
  · cases ha
  simp only at ha
  split at ha
  · cases ha
  · cases ha; trivial
  · split at ha
    · cases ha
    · cases ha
    · cases ha; trivial
    · cases ha
    · next cur w hg =>
      cases ha
      have hc : CNum cur := by
        refine genLoop_num (D := D) ?_ ?_ ?_ _ _ _ _ _ _ _ ?_ ?_ hg
        · rw [h.result]
          intro v hv
          obtain ⟨b, hb, hbv⟩ := List.mem_map.1 hv
          rcases List.mem_append.1 hb with hb | hb
          · exact l3 b hb v hbv
          · exact r3 b hb v hbv
        · rw [h.result, hvl]; simp [l2, r2]
        · intro x hx
          have hx' : ∃ m, some (x, m) ∈ vl ++ vr := by
            rcases List.mem_append.1 (h.dom x hx) with hx | hx
            · obtain ⟨m, hm⟩ := l4 x hx; exact ⟨m, by simp [hm]⟩
            · obtain ⟨m, hm⟩ := r4 x hx; exact ⟨m, by simp [hm]⟩
          obtain ⟨m, hm⟩ := hx'
          obtain ⟨i, hi, hie⟩ := List.mem_iff_getElem.1 hm
          have := (List.forall₂_iff_get.1 h.vars).2 i (by omega) hi
          simp only [List.get_eq_getElem] at this
          rw [hie] at this
          rcases this with ⟨-, hn⟩ | ⟨x', m1, m0, e1, e2, -⟩
          · cases hn
          · cases e2; exact ⟨m1, e1 ▸ List.getElem_mem _⟩
        · rw [hvl]; simp [nl, nr]
        · intro v hv
          obtain ⟨b, hb, hbv⟩ := List.mem_map.1 hv
          rcases List.mem_append.1 hb with hb | hb
          · exact (hp .L).nums b hb v hbv
          · exact (hp .R).nums b hb v hbv
      intro u hu d
      obtain ⟨s1, s2⟩ := set_nums tape.left cur (hp .L).nums hc
      obtain ⟨s3, -⟩ := set_nums tape.right _ (hp .R).nums s2
      cases d
      · exact pos_filter s1 hu.left
      · exact pos_filter s3 hu.right

/-! ## The invariant of the simulation -/

section
variable [Sums] [DecidableEq σ] [DecidableEq S] {T : Table} {M : Machine σ S} {Den : DC σ S → Config → Prop}
  {TDen : DC σ S → (Int → Nat) → Prop} {hs : S → Prop} {z : σ} {y : Nat → Int} {cfg : Config}

omit [DecidableEq σ] [DecidableEq S] in
theorem applyRule_num {key : Strip σ S} {r : Rule σ} (h : RuleTrue T Den z key r) {tape : ChainTape σ V}
    (hkey : key = strip valIsOne key.st tape) (he : EndsT z tape) (hpos : PosT tape) (o : Opts) (nv nv' : Nat) {out : Res σ}
    (ha : applyRule o r tape nv = (.ok out, nv')) : ResNum y out := by
  cases r with
  | diff r =>
    obtain ⟨ll, lr, h⟩ := h
    exact diffApply_num y ⟨dhalf_nums h.left, dhalf_nums h.right⟩ hpos nv (congrArg Prod.fst ha)
  | gen r =>
    obtain ⟨init, res, vl, vr, D, h⟩ := h
    exact genApply_num h hkey he y hpos o (congrArg Prod.fst ha)

def AllRules (P : Rule σ → Prop) (rs : Rules σ S) : Prop := ∀ key r, Py.dget rs key = some r → P r

/-- what the proof system knows before loop `loop` -/
structure Known [Sums] (P : Rule σ → Prop) (T : Table) (Den : DC σ S → Config → Prop) (z : σ) (b : Base σ S) (loop : Nat) : Prop where
  rules : ∀ key r, Py.dget b.rules key = some r → P r → RuleTrue T Den z key r
  past : ∀ key a l, Py.dget b.past key = some a → a.lastLoop = some l → l < loop

/-- What is needed of the rules that are proved: those with the property `P` are right. -/
def Proves (P : Rule σ → Prop) (adj : Nat → Mins → Mins) : Prop :=
  (∀ m, adj 0 m = m) ∧ ∀ r, P r → PlainRule r ∨ ∀ k m, 0 < k → adj k m = m.map (fun e => (e.1, some 1))

omit [Sums] [DecidableEq σ] in
theorem proves_code : Proves (σ := σ) PlainRule lower := ⟨fun _ => rfl, fun _ h => Or.inl h⟩

omit [Sums] [DecidableEq σ] in
theorem proves_keep : Proves (σ := σ) (fun _ => True) keep :=
  ⟨fun _ => rfl, fun _ _ => Or.inr (fun _ _ hk => if_pos hk)⟩

variable {P : Rule σ → Prop} {adj : Nat → Mins → Mins}

omit [Sums] [DecidableEq σ] [DecidableEq S] in
theorem pos_fresh {t : ChainTape σ V} (h : PosT t) (k : Nat) : FreshT k t := by
  intro d b hb v hv η i
  obtain ⟨j, -, rfl⟩ := h d b hb v hv
  rw [value_num, value_num]

theorem log_ok (hP : Proves P adj) (F : Follows T M Den TDen hs) {b : Base σ S} {loop : Nat} (hk : Known P T Den z b loop)
    (he : EndsT z b.g.sim.tape) (hpos : PosT b.g.sim.tape) (hy : ∀ x, 0 ≤ y x) {u : ChainTape σ Nat}
    (hu : TapeIs y b.g.sim.tape u) (hden : Den (tapeDC z u b.g.sim.st) cfg) (o : Opts) {b' : Base σ S} {out : Out (Res σ)}
    (h : logWith adj M o b loop = (b', out)) :
    b'.g.sim = b.g.sim ∧ b'.g.ruleSteps = b.g.ruleSteps ∧ (∀ key r, Py.dget b.rules key = some r → Py.dget b'.rules key = some r) ∧
    (AllRules P b'.rules → Known P T Den z b' (loop + 1) ∧
      ∀ res, out = .ok res → ResOK T Den z y b.g.sim.st cfg res ∧ ResEnds z b.g.sim.tape.dir res ∧ ResNum y res) := by
  have live : ∀ q cfg, Den q cfg → cfg.state ≠ none := fun q cfg h => (F.live q cfg h).1
  have hmono : Known P T Den z b (loop + 1) := ⟨hk.rules, fun key a l h1 h2 => Nat.lt_succ_of_lt (hk.past key a l h1 h2)⟩
  unfold logWith at h
  simp only at h
  cases hr : Py.dget b.rules (strip valIsOne b.g.sim.st b.g.sim.tape) with
  | some r =>
    rw [hr] at h
    simp only at h
    split at h
    · cases h
      exact ⟨rfl, rfl, fun _ _ h => h, fun _ => ⟨⟨hmono.rules, hmono.past⟩, fun res hr => by cases hr⟩⟩
    · cases h
      exact ⟨rfl, rfl, fun _ _ h => h, fun _ => ⟨⟨hmono.rules, hmono.past⟩, fun res hr => by cases hr⟩⟩
    · next res nv ha =>
      cases h
      have hpl : ∀ (b'' : Base σ S), b''.rules = b.rules → AllRules P b''.rules →
          ∀ res', (Out.ok res : Out (Res σ)) = .ok res' →
            ResOK T Den z y b.g.sim.st cfg res' ∧ ResEnds z b.g.sim.tape.dir res' ∧ ResNum y res' := by
        intro b'' e hp res' hres'
        cases hres'
        rw [e] at hp
        have ht := hk.rules _ _ hr (hp _ _ hr)
        have h1 := applyRule_ok live ht rfl he hy hu hden o _ _ (pos_fresh hpos _) ha
        exact ⟨h1.1, h1.2, applyRule_num ht rfl he hpos o _ _ ha⟩
      by_cases hlarge : res.large = true
      · rw [if_pos hlarge]
        exact ⟨rfl, rfl, fun _ _ h => h, fun hp => ⟨⟨hmono.rules, fun _ _ _ h => by cases h⟩, hpl { b with past := [] } rfl hp⟩⟩
      · rw [if_neg hlarge]
        exact ⟨rfl, rfl, fun _ _ h => h, fun hp => ⟨⟨hmono.rules, hmono.past⟩, hpl b rfl hp⟩⟩
  | none =>
    rw [hr] at h
    simp only at h
    generalize hkey : strip valIsOne b.g.sim.st b.g.sim.tape = key at *
    have hkst : key.st = b.g.sim.st := by rw [← hkey]; rfl
    generalize hpast : (Py.dget b.past key).getD ⟨none, none⟩ = past at h
    have hlast : ∀ l, past.lastLoop = some l → l < loop := by
      intro l hl
      cases hd : Py.dget b.past key with
      | none => rw [hd] at hpast; subst hpast; cases hl
      | some a => rw [hd] at hpast; subst hpast; exact hk.past key _ l hd hl
    have hlog : (∀ l, (past.log loop).1.lastLoop = some l → l ≤ loop) ∧
        ((past.log loop).2 = true → ∃ l, (past.log loop).1.lastLoop = some l ∧ l < loop) := by
      unfold Past.log
      cases h1 : past.lastLoop with
      | none => exact ⟨fun l h => by simp at h; omega, fun h => by cases h⟩
      | some last =>
        simp only
        cases h2 : past.lastDelta with
        | none => exact ⟨fun l h => by simp at h; omega, fun h => by cases h⟩
        | some d =>
          simp only
          by_cases h3 : d = 0 ∨ d ≠ (loop : Int) - last
          · rw [if_pos h3]; exact ⟨fun l h => by simp at h; omega, fun h => by cases h⟩
          · rw [if_neg h3]
            exact ⟨fun l h => by have := hlast l h; omega, fun _ => ⟨last, h1, hlast _ h1⟩⟩
    generalize past.log loop = pt at hlog h
    obtain ⟨past', try'⟩ := pt
    simp only at hlog h
    have hset : ∀ k a l, Py.dget (Py.dset b.past key past') k = some a → a.lastLoop = some l → l < loop + 1 := by
      intro k a l h1 h2
      rw [Py.dget_dset] at h1
      by_cases hk : k = key
      · rw [if_pos hk] at h1; cases h1; exact Nat.lt_succ_of_le (hlog.1 l h2)
      · rw [if_neg hk] at h1; exact hmono.past k a l h1 h2
    by_cases ht : try' = true
    · rw [if_pos ht] at h
      obtain ⟨l, hl, hlt⟩ := hlog.2 ht
      split at h
      · cases h
        exact ⟨rfl, rfl, fun _ _ h => h, fun _ => ⟨⟨hmono.rules, hset⟩, fun res hr => by cases hr⟩⟩
      · cases h
        exact ⟨rfl, rfl, fun _ _ h => h, fun _ => ⟨⟨hmono.rules, hset⟩, fun res hr => by cases hr⟩⟩
      · next r nv hpr =>
        cases h
        have hgrow : ∀ k r', Py.dget b.rules k = some r' → Py.dget (Py.dset b.rules key r) k = some r' := by
          intro k r' h1
          rw [Py.dget_dset]
          by_cases hk' : k = key
          · rw [hk', hr] at h1; cases h1
          · rw [if_neg hk']; exact h1
        refine ⟨rfl, rfl, hgrow, fun hp => ?_⟩
        replace hp : AllRules P (Py.dset b.rules key r) := hp
        have hrs : RulesOK T Den z b.rules := fun k r' h1 => hk.rules k r' h1 (hp k r' (hgrow k r' h1))
        have hrk : P r → RuleTrue T Den z key r := by
          intro hPr
          rw [← hkey] at hpr ⊢
          exact proveRule_sound F hrs o b.g.sim.st he hu hden _ (by rw [hl]; simp only [Option.getD_some]; omega) _ hP.1 hpr (hP.2 r hPr)
        have hplain := hrk (hp key r (by rw [Py.dget_dset, if_pos rfl]))
        refine ⟨⟨fun k r' h1 => ?_, fun k a l' h1 h2 => ?_⟩, fun res hres => ?_⟩
        · simp only at h1
          rw [Py.dget_dset] at h1
          by_cases hk' : k = key
          · rw [if_pos hk'] at h1; cases h1; subst hk'; exact hrk
          · rw [if_neg hk'] at h1; exact hk.rules k r' h1
        · simp only at h1
          by_cases hk' : key = k
          · simp [Py.dget, hk'] at h1; subst h1; cases h2
          · have hk'' : (key == k) = false := by simpa using hk'
            simp [Py.dget, hk''] at h1
        · have ha : applyRule o r b.g.sim.tape nv = (.ok res, (applyRule o r b.g.sim.tape nv).2) := by rw [← hres]
          rw [← hkst] at hden ⊢
          have hkey' : key = strip valIsOne key.st b.g.sim.tape := by rw [hkst]; exact hkey.symm
          have h1 := applyRule_ok live hplain hkey' he hy hu hden o _ _ (pos_fresh hpos _) ha
          exact ⟨h1.1, h1.2, applyRule_num hplain hkey' he hpos o _ _ ha⟩
    · rw [if_neg ht] at h
      split at h
      · cases h
        exact ⟨rfl, rfl, fun _ _ h => h, fun _ => ⟨⟨hmono.rules, fun _ _ _ h => by cases h⟩, fun res hr => by cases hr⟩⟩
      · cases h
        exact ⟨rfl, rfl, fun _ _ h => h, fun _ => ⟨⟨hmono.rules, hset⟩, fun res hr => by cases hr⟩⟩

/-- What is known after `n` loops. -/
structure BInv [Sums] (y : Nat → Int) (P : Rule σ → Prop) (T : Table) (M : Machine σ S) (Den : DC σ S → Config → Prop) (TDen : DC σ S → (Int → Nat) → Prop) (n : Nat)
    (b : Base σ S) : Prop where
  ends : EndsT M.initSym b.g.sim.tape
  pos : PosT b.g.sim.tape
  running : b.g.sim.op = .running → b.g.sim.loops = n ∧ Known P T Den M.initSym b n ∧
    Inv T Den M.initSym y Spec.init n b.g.sim (Val.value (qy y) b.g.ruleSteps)
  gave : b.g.sim.op = .gaveUp → ∃ u k, TapeIs y b.g.sim.tape u ∧ Den (tapeDC M.initSym u b.g.sim.st) (run T k Spec.init) ∧
    (SumsRight → Val.value (qy y) b.g.stepNum = k)
  halt : b.g.sim.op = .halt ∨ b.g.sim.op = .undefined → ∃ u k, TapeIs y b.g.sim.tape u ∧ HaltsAt T Spec.init k ∧
    TDen (tapeDC M.initSym u b.g.sim.st) (Spec.run T k Spec.init).tape ∧ CellOK T Spec.init k b.g.sim.cell (b.g.sim.op = .undefined) ∧
    (SumsRight → Val.value (qy y) b.g.stepNum = k)
  inf : b.g.sim.op = .infRepeat →
    (b.g.sim.infReason = some .macroStep ∧ (FollowsInf T M Den → NeverHalts T Spec.init)) ∨
    (b.g.sim.infReason ≠ some .macroStep ∧ NeverHalts T Spec.init ∧ ∀ q, VisitedForever T Spec.init q ↔ q ∈ b.g.sim.recur)


omit [Sums] in
theorem macroStep_loops (s : SimSt σ S V) : (s.macroStep valOps M).loops = s.loops := by
  unfold SimSt.macroStep
  cases htop : s.tape.topSymbol with
  | none => rfl
  | some cur =>
    simp only
    generalize M.trans cur s.st s.dir = t
    split
    · rfl
    split
    · rfl
    split
    · cases s.tape.chainMove valOps t.sym with
      | none => rfl
      | some p => obtain ⟨t', r⟩ := p; cases r <;> rfl
    split
    · cases s.tape.singleMove valOps t.sym t.dir <;> rfl
    · rfl

theorem binv_step (hy : ∀ x, 0 ≤ y x) (hP : Proves P adj) (F : Follows T M Den TDen hs) {n : Nat} {b : Base σ S} (h : BInv y P T M Den TDen n b) (o : Opts)
    (hpl : AllRules P (stepWith adj M o b).rules) : BInv y P T M Den TDen (n + 1) (stepWith adj M o b) := by
  unfold stepWith at hpl ⊢
  by_cases hop : b.g.sim.op ≠ .running
  · rw [if_pos hop] at hpl ⊢
    exact ⟨h.ends, h.pos, fun hr => absurd hr hop, h.gave, h.halt, h.inf⟩
  rw [if_neg hop] at hpl ⊢
  push Not at hop
  simp only at hpl ⊢
  obtain ⟨hl, hk, hi⟩ := h.running hop
  obtain ⟨u, k, hu, hnk, hden, hseen, hsteps⟩ := hi.run
  generalize hb1 : ({ b with g := { b.g with sim := { b.g.sim with loops := b.g.sim.loops + 1 } } } : Base σ S) = b1 at hpl ⊢
  have e1 : b1.g.sim = { b.g.sim with loops := b.g.sim.loops + 1 } := by rw [← hb1]
  have hk1 : Known P T Den M.initSym b1 n := by rw [← hb1]; exact ⟨hk.rules, hk.past⟩
  have he1 : EndsT M.initSym b1.g.sim.tape := by rw [e1]; exact h.ends
  have hp1 : PosT b1.g.sim.tape := by rw [e1]; exact h.pos
  have hu1 : TapeIs y b1.g.sim.tape u := by rw [e1]; exact hu
  have hd1 : b1.g.sim.dir = b1.g.sim.tape.dir := by rw [e1]; exact hi.dir
  have hden1 : Den (tapeDC M.initSym u b1.g.sim.st) (run T k Spec.init) := by rw [e1]; exact hden
  have hop1 : b1.g.sim.op = .running := by rw [e1]; exact hop
  have hseen1 : ∀ q, q ∈ b1.g.sim.seen.map (·.1) ↔ ∃ j, j < k ∧ VisitedAt T Spec.init q j := by rw [e1]; exact hseen
  have hsteps1 : SumsRight → qv y b1.g.sim.steps + Val.value (qy y) b.g.ruleSteps = k := by rw [e1]; exact hsteps
  have hrs1 : b1.g.ruleSteps = b.g.ruleSteps := by rw [← hb1]
  have hl1 : b1.g.sim.loops = n + 1 := by rw [e1]; simp [hl]
  rw [hl] at hpl ⊢
  -- what a step that is right for the base machine gives
  have fin : ∀ (b2 : Base σ S) (s' : SimSt σ S V), b2.g.sim = s' → StepOK T M Den TDen M.initSym y (run T k Spec.init) b1.g.sim s'
        (Val.value (qy y) b2.g.ruleSteps - Val.value (qy y) b.g.ruleSteps) →
      EndsT M.initSym s'.tape → s'.dir = s'.tape.dir → PosT s'.tape → s'.loops = n + 1 → Known P T Den M.initSym b2 (n + 1) →
      BInv y P T M Den TDen (n + 1) b2 := by
    intro b2 s' e hs he' hd' hp' hl' hk'
    subst e
    refine ⟨he', hp', fun hr => ⟨hl', hk', inv_step ⟨u, k, hnk, hu1, hseen1, hsteps1, hs⟩ he' hd' hr⟩, fun hg => ?_, fun hh => ?_, fun hf => ?_⟩
    · obtain ⟨u', h1, h2, h3⟩ := hs.gave hg
      refine ⟨u', k, h1, h2, fun hS => ?_⟩
      have e1 := h3 hS
      have e2 := hsteps1 hS
      rw [stepNum_value]
      linarith
    · obtain ⟨u', m, h1, h2, h3, h4, h5⟩ := hs.halt hh
      have hm : 1 ≤ m := by
        rcases Nat.eq_zero_or_pos m with rfl | hm
        · exact absurd h2.1 (F.live _ _ hden).1
        · exact hm
      refine ⟨u', k + m, h1, haltsAt_of_run (F.live _ _ hden).1 h2, by rw [run_add]; exact h3, cellOK_add hm h4, fun hS => ?_⟩
      have e1 := h5 hS
      have e2 := hsteps1 hS
      rw [stepNum_value]
      push_cast
      linarith
    · rcases hs.inf hf with ⟨h1, h2⟩ | ⟨h1, h2, h3⟩
      · exact Or.inl ⟨h1, fun FI => neverHalts_of_run (h2 FI)⟩
      · exact Or.inr ⟨h1, neverHalts_of_run h2, fun q => by rw [← h3 q, visitedForever_run]⟩
  cases hla : logWith adj M o b1 n with
  | mk b' out =>
    rw [hla] at hpl
    obtain ⟨es, er, hgrow, hall⟩ := log_ok (z := M.initSym) (y := y) hP F hk1 he1 hp1 hy hu1 hden1 o hla
    cases out with
    | raise =>
      simp only at hpl ⊢
      refine ⟨by rw [es]; exact he1, by rw [es]; exact hp1, ?_, ?_, ?_, ?_⟩ <;> simp [SimSt.raise]
    | fail =>
      simp only at hpl ⊢
      obtain ⟨hk', -⟩ := hall hpl
      have hE := macroStep_ends (z := M.initSym) M (s := b1.g.sim) he1 hd1
      refine fin _ (b1.g.sim.macroStep valOps M) (by simp only [es])
        (by simp only [er, hrs1, sub_self]; exact macroStep_dc F hd1 hu1 (pos_top (hp1 _)) hden1) hE.1 hE.2 (macroStep_pos M hp1) ?_ ⟨hk'.rules, hk'.past⟩
      rw [macroStep_loops, hl1]
    | ok res =>
      simp only at hpl ⊢
      obtain ⟨hk', hres⟩ := hall (by cases res <;> exact hpl)
      obtain ⟨r1, r2, r3⟩ := hres res rfl
      have hS : StepOK T M Den TDen M.initSym y (run T k Spec.init) b'.g.sim (b'.g.result res).sim
          (Val.value (qy y) (b'.g.result res).ruleSteps - Val.value (qy y) b'.g.ruleSteps) :=
        result_ok (by rw [es]; exact hop1) (by rw [es]; exact r1)
      have hE := result_ends (z := M.initSym) (g := b'.g) (by rw [es]; exact he1) (by rw [es]; exact hd1) (by rw [es]; exact r2)
      rw [es, er, hrs1] at hS
      refine fin _ _ rfl hS hE.1 hE.2 ?_ ?_ ⟨hk'.rules, hk'.past⟩
      · cases res with
        | inf states => show PosT b'.g.sim.tape; rw [es]; exact hp1
        | apply tape steps states large =>
          obtain ⟨u', -, h1, -⟩ := r1
          exact r3 u' h1
      · cases res <;> · show b'.g.sim.loops = _; rw [es]; exact hl1

theorem log_rules (o : Opts) (b : Base σ S) (loop : Nat) {key : Strip σ S} {r : Rule σ} (h : Py.dget b.rules key = some r) :
    Py.dget (logWith adj M o b loop).1.rules key = some r := by
  unfold logWith
  simp only
  cases hr : Py.dget b.rules (strip valIsOne b.g.sim.st b.g.sim.tape) with
  | some r' =>
    simp only
    split
    · exact h
    · exact h
    · simp only; split <;> exact h
  | none =>
    simp only
    split
    · split
      · exact h
      · exact h
      · simp only
        rw [Py.dget_dset, if_neg (by rintro rfl; rw [h] at hr; cases hr)]
        exact h
    · split <;> exact h

theorem step_rules {b : Base σ S} (o : Opts) (hpl : AllRules P (stepWith adj M o b).rules) : AllRules P b.rules := by
  unfold stepWith at hpl
  split at hpl
  · exact hpl
  · intro key r h
    simp only at hpl
    refine hpl key r ?_
    have := log_rules (M := M) (adj := adj) o { b with g := { b.g with sim := { b.g.sim with loops := b.g.sim.loops + 1 } } } b.g.sim.loops h
    split <;> next hla => rw [hla] at this; exact this

theorem binv_init (hi : Den (initDC M) Spec.init) : BInv y P T M Den TDen 0 (Base.init M) := by
  have hE : EndsT M.initSym (Base.init M).g.sim.tape := by
    intro d; cases d <;> exact .last
  refine ⟨hE, fun d b hb v hv => ?_, fun _ => ⟨rfl, ⟨fun _ _ h => (by cases h), fun _ _ _ h => (by cases h)⟩, hE, rfl, ?_⟩, ?_, ?_, ?_⟩
  · have : b = ⟨M.initSym, none⟩ := by
      cases d <;> simpa [Base.init, SimSt.init, ChainTape.init, ChainTape.half] using hb
    subst this; cases hv
  · refine ⟨ChainTape.init M.initSym M.initDir, 0, ⟨rfl, .cons ⟨rfl, trivial⟩ .nil, .cons ⟨rfl, trivial⟩ .nil⟩, le_refl _, ?_, ?_, ?_⟩
    · have : tapeDC M.initSym (ChainTape.init M.initSym M.initDir) (Base.init M).g.sim.st = initDC M := by
        unfold tapeDC initDC
        congr 1
        funext d; cases d <;> rfl
      rw [this]; exact hi
    · intro q; simp [Base.init, SimSt.init]
    · intro _; simp [Base.init, SimSt.init, qv, value_num, valOps]
  all_goals simp [Base.init, SimSt.init]

theorem binv_after (hy : ∀ x, 0 ≤ y x) (hP : Proves P adj) (F : Follows T M Den TDen hs) (hi : Den (initDC M) Spec.init) (o : Opts) : ∀ n,
    AllRules P (afterWith adj M o n).rules → BInv y P T M Den TDen n (afterWith adj M o n)
  | 0, _ => binv_init hi
  | n + 1, h => by
    unfold afterWith at h ⊢
    rw [Function.iterate_succ_apply'] at h ⊢
    exact binv_step hy hP F (binv_after hy hP F hi o n (step_rules o h)) o h

end

/-! ## The score -/

theorem half_score {y : Nat → Int} {z : σ} (ev : σ → Nat) (hz : ev z = 0) {h : List (Blk σ V)} (he : Ends z h) :
    ∀ {u : List (Blk σ Nat)}, Pos h → HalfIs y h u → ∀ n : Nat, ∃ m : Nat,
      ChainTape.halfNonzeros valOps ev h (.num n) = .num ((n + m : Nat) : Int) ∧ Cnt ev (unroll z u) m := by
  induction he with
  | last =>
    intro u _ hu n
    cases hu with
    | @cons _ b _ _ h1 h2 =>
      cases h2
      obtain ⟨bs, bn⟩ := b
      obtain ⟨h1, h3⟩ := h1
      have := numIs_none h3
      simp only at h1 this
      subst h1; subst this
      exact ⟨0, rfl, cnt_zero (fun i => hz)⟩
  | @cons a v h he ih =>
    intro u hp hu n
    rw [pos_cons] at hp
    obtain ⟨k, hk, rfl⟩ := hp.1 v rfl
    cases hu with
    | @cons _ b _ u' h1 h2 =>
      obtain ⟨bs, bn⟩ := b
      obtain ⟨h1, h3⟩ := h1
      obtain ⟨j, e, hj⟩ := numIs_some h3
      simp only at h1 e
      subst h1; subst e
      rw [value_num] at hj
      subst hj
      obtain ⟨m, hm, hc⟩ := ih hp.2 h2 (n + ev a * j)
      refine ⟨ev a * j + m, ?_, ?_⟩
      · rw [← Nat.add_assoc, ← hm]
        simp only [ChainTape.halfNonzeros, List.foldl_cons]
        congr 1
      · have := cnt_pre (List.replicate j a) hc
        simp only [List.map_replicate, List.sum_replicate] at this
        rw [unroll_fin, Nat.mul_comm]
        simpa using this

theorem tape_score {y : Nat → Int} {z : σ} (ev : σ → Nat) (hz : ev z = 0) {t : ChainTape σ V} {u : ChainTape σ Nat} (he : EndsT z t)
    (hp : PosT t) (hu : TapeIs y t u) (v : Nat) : ∃ a b : Nat, t.nonzeros valOps ev v = .num ((a + b + v : Nat) : Int) ∧
      Cnt ev (unroll z u.left) a ∧ Cnt ev (unroll z u.right) b := by
  obtain ⟨a, ha, hca⟩ := half_score ev hz (he .L) (hp .L) hu.left v
  obtain ⟨b, hb, hcb⟩ := half_score ev hz (he .R) (hp .R) hu.right (v + a)
  refine ⟨a, b, ?_, hca, hcb⟩
  unfold ChainTape.nonzeros
  replace ha : ChainTape.halfNonzeros valOps ev t.left (valOps.ofNat v) = _ := ha
  rw [ha]
  exact hb.trans (by congr 1; push_cast; ring)

end Model.Recursive
