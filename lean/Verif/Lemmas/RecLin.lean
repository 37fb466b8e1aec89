import Verif.Lemmas.RecLoop

/-! # In a proof with rules all lengths stay linear in the variables of the proof -/

namespace Model.Recursive
open Spec Model Model.Expr Model.Prover Model.RuleFunc
variable {σ S : Type} {D : Nat → Prop}

def LinH (D : Nat → Prop) (h : List (Blk σ V)) : Prop := ∀ b ∈ h, ∀ v, b.num = some v → LinIn D v

def LinT (D : Nat → Prop) (t : ChainTape σ V) : Prop := ∀ d, LinH D (t.half d)

theorem linH_cons {b : Blk σ V} {h : List (Blk σ V)} : LinH D (b :: h) ↔ (∀ v, b.num = some v → LinIn D v) ∧ LinH D h := by
  simp [LinH]

theorem popOne_linH {h h' : List (Blk σ V)} (hh : LinH D h) (hp : ChainTape.popOne valOps h = some h') : LinH D h' := by
  cases h with
  | nil => cases hp
  | cons b r =>
    rw [linH_cons] at hh
    simp only [ChainTape.popOne] at hp
    cases hb : b.num with
    | none => rw [hb] at hp; cases hp; rw [linH_cons]; exact ⟨fun v hv => by simp [hb] at hv, hh.2⟩
    | some v =>
      rw [hb] at hp
      simp only at hp
      split at hp
      · cases hp; exact hh.2
      · cases hp
        rw [linH_cons]
        refine ⟨fun w hw => ?_, hh.2⟩
        cases hw
        exact sub_lin (hh.1 v hb) trivial

theorem lin_set {t : ChainTape σ V} (h : LinT D t) (d : Dir) {g : List (Blk σ V)} (hg : LinH D g) : LinT D (t.setHalf d g) := by
  intro e
  by_cases he : e = d
  · subst he; rwa [Prover.half_setHalf_same]
  · rw [Prover.half_setHalf_other _ _ he]; exact h e

section
variable [DecidableEq σ]

theorem push_linH {h h' : List (Blk σ V)} (hh : LinH D h) (sym : σ) {k : V} (hk : LinIn D k)
    (hp : ChainTape.push valOps sym k h = some h') : LinH D h' := by
  cases h with
  | nil => cases hp
  | cons b r =>
    have hh' := hh
    rw [linH_cons] at hh
    simp only [ChainTape.push] at hp
    split at hp
    · cases hb : b.num with
      | none => rw [hb] at hp; cases hp; rw [linH_cons]; exact ⟨fun v hv => by simp [hb] at hv, hh.2⟩
      | some v =>
        rw [hb] at hp
        cases hp
        rw [linH_cons]
        refine ⟨fun w hw => ?_, hh.2⟩
        cases hw
        exact add_lin (hh.1 v hb) hk
    · cases hp
      rw [linH_cons]
      exact ⟨fun v hv => by cases hv; exact hk, hh'⟩

theorem singleMove_linT {t t' : ChainTape σ V} (h : LinT D t) (sym : σ) (d : Dir) (hp : t.singleMove valOps sym d = some t') : LinT D t' := by
  rw [singleMove_eq] at hp
  cases h1 : ChainTape.popOne valOps (t.half t.dir) with
  | none => rw [h1] at hp; cases hp
  | some g =>
    rw [h1] at hp
    simp only at hp
    have hs := lin_set h t.dir (popOne_linH (h t.dir) h1)
    cases h2 : ChainTape.push valOps sym (valOps.ofNat 1) ((t.setHalf t.dir g).half d.other) with
    | none => rw [h2] at hp; cases hp
    | some g' =>
      rw [h2] at hp
      cases hp
      intro e
      rw [half_dir]
      exact lin_set hs d.other (push_linH (k := .num 1) (hs d.other) sym trivial h2) e

theorem chainMove_linT {t t' : ChainTape σ V} {r : Option V} (h : LinT D t) (sym : σ)
    (hp : t.chainMove valOps sym = some (t', r)) : LinT D t' := by
  unfold ChainTape.chainMove at hp
  have hd := h t.dir
  cases hh : t.half t.dir with
  | nil => rw [hh] at hp; cases hp
  | cons b rest =>
    rw [hh] at hp hd
    simp only at hp
    rw [linH_cons] at hd
    cases hb : b.num with
    | none => rw [hb] at hp; cases hp; exact h
    | some v =>
      rw [hb] at hp
      simp only at hp
      have hs := lin_set h t.dir hd.2
      cases h2 : ChainTape.push valOps sym v ((t.setHalf t.dir rest).half (t.setHalf t.dir rest).dir.other) with
      | none => rw [h2] at hp; cases hp
      | some g' =>
        rw [h2] at hp
        cases hp
        exact lin_set hs _ (push_linH (hs _) sym (hd.1 v hb) h2)

theorem macroStep_linT [DecidableEq S] (M : Machine σ S) {s : SimSt σ S V} (h : LinT D s.tape) : LinT D (s.macroStep valOps M).tape := by
  unfold SimSt.macroStep
  cases htop : s.tape.topSymbol with
  | none => exact h
  | some cur =>
    simp only
    generalize M.trans cur s.st s.dir = t
    split
    · exact h
    split
    · exact h
    split
    · cases hc : s.tape.chainMove valOps t.sym with
      | none => exact h
      | some p =>
        obtain ⟨t', r⟩ := p
        have h1 := chainMove_linT h t.sym hc
        cases r with
        | none => exact h1
        | some v => exact h1
    split
    · cases hc : s.tape.singleMove valOps t.sym t.dir with
      | none => exact h
      | some t' => exact singleMove_linT h t.sym t.dir hc
    · exact h
end

/-! ### Difference rules -/

def ScLin (D : Nat → Prop) (sc : Scan) : Prop := (∀ v, sc.reps = some v → LinIn D v) ∧ ∀ d i f, sc.limit = some (d, i, f) → LinIn D f

theorem maxReps_lin {a c : Int} {v r f : V} (hv : LinIn D v) (h : maxReps a c v = some (r, f)) : LinIn D r ∧ LinIn D f := by
  cases v with
  | num z => simp only [maxReps, Option.some.injEq, Prod.mk.injEq] at h; obtain ⟨rfl, rfl⟩ := h; exact ⟨trivial, trivial⟩
  | expr e =>
    simp only [maxReps] at h
    split at h
    · simp only [Option.some.injEq, Prod.mk.injEq] at h
      obtain ⟨rfl, rfl⟩ := h
      exact ⟨sub_lin hv trivial, trivial⟩
    · cases h

theorem scan_lin (d : Dir) : ∀ (is ds ns : List (Blk σ V)) (i : Nat) (sc sc' : Scan), LinH D ns → ScLin D sc →
    scanHalf d i is ds ns sc = .ok sc' → ScLin D sc'
  | [], ds, ns, i, sc, sc', hn, hs, h => by cases h; exact hs
  | ib :: is, [], ns, i, sc, sc', hn, hs, h => by cases h; exact hs
  | ib :: is, db :: ds, [], i, sc, sc', hn, hs, h => by cases h; exact hs
  | ib :: is, db :: ds, nb :: ns, i, sc, sc', hn, hs, h => by
    rw [linH_cons] at hn
    unfold scanHalf at h
    split at h
    · next e _ =>
      split at h
      · next x n delta h1 h2 h3 =>
        simp only at h
        split at h
        · cases h
        split at h
        · split at h
          · split at h
            · cases h
            · split at h
              · cases h
              · next reps final hm =>
                obtain ⟨q1, q2⟩ := maxReps_lin (hn.1 n h2) hm
                refine scan_lin d is ds ns _ _ _ hn.2 ⟨fun v hv => ?_, fun d i f hf => ?_⟩ h
                · cases hv; exact q1
                · cases hf; exact q2
          · split at h
            · cases h
            · split at h
              · next reps final hm =>
                obtain ⟨q1, q2⟩ := maxReps_lin (hn.1 n h2) hm
                split at h
                · refine scan_lin d is ds ns _ _ _ hn.2 ⟨fun v hv => ?_, fun d i f hf => ?_⟩ h
                  · cases hv; exact q1
                  · cases hf; exact q2
                · refine scan_lin d is ds ns _ _ _ hn.2 ?_ h
                  exact hs
              · cases h
          · cases h
        · refine scan_lin d is ds ns _ _ _ hn.2 ?_ h
          exact hs
      · cases h
    · exact scan_lin d is ds ns _ _ _ hn.2 hs h

theorem simp_lin {v : V} (h : LinIn D v) : LinIn D (simp v) := by
  cases v with
  | num k => trivial
  | expr e =>
    simp only [simp]
    split
    · trivial
    · exact h

/-- the differences are numbers -/
def NumH (h : List (Blk σ V)) : Prop := ∀ b ∈ h, ∀ v, b.num = some v → ∃ k : Int, v = .num k

theorem return_lin {reps : V} (hr : LinIn D reps) {lim : Option (Nat × V)} (hl : ∀ i f, lim = some (i, f) → LinIn D f) :
    ∀ (ds ns r : List (Blk σ V)) (i : Nat), NumH ds → LinH D ns → returnHalf reps lim i ds ns = some r → LinH D r
  | [], ns, r, i, _, hn, h => by
    simp only [returnHalf, Option.some.injEq] at h
    subst h; exact hn
  | d :: ds, [], r, i, _, hn, h => by
    simp only [returnHalf, Option.some.injEq] at h
    subst h; exact hn
  | d :: ds, n :: ns, r, i, hd, hn, h => by
    rw [linH_cons] at hn
    unfold returnHalf at h
    cases hr1 : returnHalf reps lim (i + 1) ds ns with
    | none => rw [hr1] at h; cases hb : n.num <;> rw [hb] at h <;> cases h
    | some r1 =>
      have ih := return_lin hr hl ds ns r1 (i + 1) (fun b hb => hd b (by simp [hb])) hn.2 hr1
      rw [hr1] at h
      cases hb : n.num with
      | none =>
        rw [hb] at h
        cases h
        rw [linH_cons]; exact ⟨hn.1, ih⟩
      | some v =>
        rw [hb] at h
        simp only at h
        split at h
        · cases lim with
          | none => cases h
          | some p =>
            obtain ⟨j, f⟩ := p
            cases h
            rw [linH_cons]
            refine ⟨fun v hv => ?_, ih⟩
            cases hv
            exact simp_lin (hl j f rfl)
        · cases hdn : d.num with
          | none => rw [hdn] at h; cases h
          | some w =>
            rw [hdn] at h
            cases h
            rw [linH_cons]
            refine ⟨fun u hu => ?_, ih⟩
            cases hu
            obtain ⟨c, rfl⟩ := hd d (by simp) w hdn
            exact simp_lin (add_lin (hn.1 v hb) (mul_num_lin hr c))

theorem dhalf_numH {z : σ} {g d l} (h : DHalf z g d l) : NumH d := by
  induction h with
  | last => intro b hb v hv; rw [List.mem_singleton.1 hb] at hv; cases hv
  | one a h ih =>
    intro b hb v hv
    rcases List.mem_cons.1 hb with rfl | hb
    · cases hv; exact ⟨_, rfl⟩
    · exact ih b hb v hv
  | many a h ih =>
    intro b hb v hv
    rcases List.mem_cons.1 hb with rfl | hb
    · cases hv; exact ⟨_, rfl⟩
    · exact ih b hb v hv

def ResLin (D : Nat → Prop) : Res σ → Prop
  | .inf _ => True
  | .apply tape _ _ _ => LinT D tape

theorem limit_lin {sc : Scan} (h : ScLin D sc) (d : Dir) : ∀ i f, limitIn d sc.limit = some (i, f) → LinIn D f := by
  intro i f hf
  unfold limitIn at hf
  split at hf
  · next d' i' f' e =>
    split at hf
    · cases hf; exact h.2 _ _ _ e
    · cases hf
  · cases hf

theorem filter_lin {t : List (Blk σ V)} (h : LinH D t) (p : Blk σ V → Bool) : LinH D (t.filter p) :=
  fun b hb => h b (List.mem_filter.1 hb).1

theorem diffApply_lin [Sums] {r : DiffRule σ} {tape : ChainTape σ V} (hd : NumH r.diff.left ∧ NumH r.diff.right) (hp : LinT D tape)
    (k : Nat) {res : Res σ} (ha : applyDiff r tape k = .ok res) : ResLin D res := by
  unfold applyDiff at ha
  split at ha
  · cases ha
  · cases ha
  next sc1 h1 =>
  have hs1 := scan_lin .L _ _ _ _ _ _ (hp .L) ⟨fun v hv => (by cases hv), fun d i f hf => (by cases hf)⟩ h1
  split at ha
  · cases ha
  · cases ha
  next sc2 h2 =>
  have hs2 := scan_lin .R _ _ _ _ _ _ (hp .R) hs1 h2
  split at ha
  · cases ha; trivial
  next reps hr =>
  split at ha
  · cases ha
  split at ha
  · cases ha
  split at ha
  · cases ha
  split at ha
  · next l r' hl hr' =>
    cases ha
    have nl := return_lin (hs2.1 reps hr) (limit_lin hs2 .L) _ _ _ _ hd.1 (hp .L) hl
    have nr := return_lin (hs2.1 reps hr) (limit_lin hs2 .R) _ _ _ _ hd.2 (hp .R) hr'
    intro d
    cases d
    · exact filter_lin nl _
    · exact filter_lin nr _
  · cases ha

/-! ### General rules -/

def CLin (D : Nat → Prop) (cs : List (Option V)) : Prop := ∀ v, some v ∈ cs → LinIn D v

theorem fit_lin : ∀ (vs : List (Option (Nat × Int))) (cs : List (Option V)) (a a' : List (Nat × V)), CLin D cs →
    (∀ x v, Py.dget a x = some v → LinIn D v) → fitsMin vs cs a = .ok a' → ∀ x v, Py.dget a' x = some v → LinIn D v
  | [], cs, a, a', _, ha, h => by cases h; exact ha
  | none :: vs, [], a, a', _, ha, h => by cases h; exact ha
  | none :: vs, c :: cs, a, a', hc, ha, h => fit_lin vs cs a a' (fun v hv => hc v (by simp [hv])) ha h
  | some (x, m) :: vs, [], a, a', _, ha, h => by cases h; exact ha
  | some (x, m) :: vs, none :: cs, a, a', hc, ha, h => by cases h
  | some (x, m) :: vs, some c :: cs, a, a', hc, ha, h => by
    unfold fitsMin at h
    simp only at h
    split at h
    · refine fit_lin vs cs _ a' (fun v hv => hc v (by simp [hv])) (fun y v hv => ?_) h
      rw [Py.dget_dset] at hv
      split at hv
      · cases hv; exact hc c (by simp)
      · exact ha y v hv
    · cases h

theorem fit_all : ∀ (vs : List (Option (Nat × Int))) (cs : List (Option V)) (a a' : List (Nat × V)), vs.length ≤ cs.length →
    fitsMin vs cs a = .ok a' → (∀ x, Py.dget a x ≠ none → Py.dget a' x ≠ none) ∧ ∀ x m, some (x, m) ∈ vs → Py.dget a' x ≠ none
  | [], cs, a, a', _, h => by cases h; exact ⟨fun _ h => h, fun x m hm => by cases hm⟩
  | none :: vs, [], a, a', hl, h => by simp at hl
  | none :: vs, c :: cs, a, a', hl, h => by
    obtain ⟨h1, h2⟩ := fit_all vs cs a a' (by simpa using hl) h
    exact ⟨h1, fun x m hm => h2 x m (by simpa using hm)⟩
  | some (x, m) :: vs, [], a, a', hl, h => by simp at hl
  | some (x, m) :: vs, none :: cs, a, a', hl, h => by cases h
  | some (x, m) :: vs, some c :: cs, a, a', hl, h => by
    unfold fitsMin at h
    simp only at h
    split at h
    · obtain ⟨h1, h2⟩ := fit_all vs cs _ a' (by simpa using hl) h
      refine ⟨fun y hy => h1 y ?_, fun y m' hm => ?_⟩
      · rw [Py.dget_dset]; split
        · simp
        · exact hy
      · rcases List.mem_cons.1 hm with e | hm
        · cases e
          apply h1
          rw [Py.dget_dset, if_pos rfl]; simp
        · exact h2 y m' hm
    · cases h

theorem substNums_lin {E : Nat → Prop} {subs : Nat → Option V} (hs : ∀ x, E x → ∃ w, subs x = some w ∧ LinIn D w) :
    ∀ (vs next : List (Option V)), (∀ v, some v ∈ vs → LinIn E v) → substNums subs vs = some next → CLin D next ∧ next.length = vs.length
  | [], next, _, h => by cases h; exact ⟨fun v hv => (by cases hv), rfl⟩
  | none :: vs, next, hl, h => by
    unfold substNums at h
    cases hr : substNums subs vs with
    | none => rw [hr] at h; cases h
    | some r =>
      rw [hr] at h; cases h
      obtain ⟨h1, h2⟩ := substNums_lin hs vs r (fun v hv => hl v (by simp [hv])) hr
      exact ⟨fun v hv => h1 v (by simpa using hv), by simp [h2]⟩
  | some w :: vs, next, hl, h => by
    unfold substNums at h
    split at h
    · next w' r hw hr =>
      cases h
      obtain ⟨h1, h2⟩ := substNums_lin hs vs r (fun v hv => hl v (by simp [hv])) hr
      refine ⟨fun v hv => ?_, by simp [h2]⟩
      rcases List.mem_cons.1 hv with e | hv
      · cases e
        obtain ⟨w2, e1, e2, -⟩ := subst_lin (hl w (by simp)) hs
        rw [hw] at e1; cases e1; exact e2
      · exact h1 v hv
    · cases h

theorem genApplyLoop_lin {r : GenRule} {E : Nat → Prop} (hl : ∀ v, some v ∈ r.result → LinIn E v) (hr : r.result.length = r.vars.length)
    (hd : ∀ x, E x → ∃ m, some (x, m) ∈ r.vars) : ∀ (fuel : Nat) (cur : List (Option V)) (w : W) (app : Bool) (cur' : List (Option V))
    (w' : W) (app' : Bool), cur.length = r.vars.length → CLin D cur →
    genApplyLoop r fuel cur w app = .ok (.stop cur' w' app') → CLin D cur' := by
  intro fuel
  induction fuel with
  | zero =>
    intro cur w app cur' w' app' _ hc hg
    unfold genApplyLoop at hg
    split at hg
    · cases hg
    · cases hg; exact hc
    · cases hg; exact hc
  | succ fuel ih =>
    intro cur w app cur' w' app' hlen hc hg
    unfold genApplyLoop at hg
    split at hg
    · cases hg
    · cases hg; exact hc
    next a hf =>
    simp only at hg
    split at hg
    · next w1 next hw hn =>
      have hsub : ∀ x, E x → ∃ w, Py.dget a x = some w ∧ LinIn D w := by
        intro x hx
        obtain ⟨m, hm⟩ := hd x hx
        have h1 := (fit_all _ _ _ _ (by omega) hf).2 x m hm
        cases hx' : Py.dget a x with
        | none => exact absurd hx' h1
        | some v => exact ⟨v, rfl, fit_lin _ _ _ _ hc (fun x v hv => by cases hv) hf x v hx'⟩
      obtain ⟨h1, h2⟩ := substNums_lin hsub _ _ hl hn
      split at hg
      · cases hg
      · exact ih _ _ _ _ _ _ (by omega) h1 hg
    · cases hg

theorem set_lin : ∀ (t : List (Blk σ V)) (cs : List (Option V)), LinH D t → CLin D cs → LinH D (setCounts t cs).1 ∧ CLin D (setCounts t cs).2
  | [], cs, ht, hc => by simp only [setCounts]; exact ⟨ht, hc⟩
  | b :: bs, [], ht, hc => by simp only [setCounts]; exact ⟨ht, hc⟩
  | b :: bs, c :: cs, ht, hc => by
    rw [linH_cons] at ht
    obtain ⟨h1, h2⟩ := set_lin bs cs ht.2 (fun v hv => hc v (by simp [hv]))
    simp only [setCounts]
    refine ⟨?_, h2⟩
    rw [linH_cons]
    exact ⟨fun v hv => hc v (by simp only at hv; simp [hv]), h1⟩

theorem gr_facts {z : σ} {D g vs f} (h : GRHalf z D g vs f) : vs.length = g.length ∧ vs.length = f.length ∧
    (∀ b ∈ f, ∀ v, b.num = some v → LinIn D v) ∧ ∀ x ∈ hvars g, ∃ m, some (x, m) ∈ vs := by
  induction h with
  | last => exact ⟨rfl, rfl, by simp, by simp⟩
  | one a hl _ h ih =>
    obtain ⟨h1, h2, h3, h4⟩ := ih
    refine ⟨by simp [h1], by simp [h2], ?_, ?_⟩
    · intro b hb v hv
      rcases List.mem_cons.1 hb with rfl | hb
      · cases hv; exact hl
      · exact h3 b hb v hv
    · intro x hx
      obtain ⟨m, hm⟩ := h4 x (by simpa [Val.variables] using hx)
      exact ⟨m, by simp [hm]⟩
  | @many a x m w g vs f k1 k2 k3 h ih =>
    obtain ⟨h1, h2, h3, h4⟩ := ih
    refine ⟨by simp [h1], by simp [h2], ?_, ?_⟩
    · intro b hb v hv
      rcases List.mem_cons.1 hb with rfl | hb
      · cases hv; exact k3
      · exact h3 b hb v hv
    · intro y hy
      simp only [hvars_some, variables_varPlus, List.mem_append, List.mem_singleton] at hy
      rcases hy with rfl | hy
      · exact ⟨m, by simp⟩
      · obtain ⟨m, hm⟩ := h4 y hy
        exact ⟨m, by simp [hm]⟩

theorem len_of_dropLast {α : Type} {a b : List α} (h : a.dropLast.length = b.dropLast.length) (ha : a ≠ []) (hb : b ≠ []) :
    a.length = b.length := by
  have h1 := List.length_pos_of_ne_nil ha
  have h2 := List.length_pos_of_ne_nil hb
  simp at h
  omega

theorem genApply_lin [Sums] {T : Table} {Den : DC σ S → Config → Prop} {z : σ} {key : Strip σ S} {r : GenRule}
    {init res : ChainTape σ V} {vl vr : List (Option (Nat × Int))} {E : Nat → Prop} (h : GenOK T Den z key r init res vl vr E)
    {tape : ChainTape σ V} (hkey : key = strip valIsOne key.st tape) (he : EndsT z tape) (hp : LinT D tape) (o : Opts)
    {out : Res σ} (ha : applyGen o r tape = .ok out) : ResLin D out := by
  have hsh : strip valIsOne key.st init = strip valIsOne key.st tape := h.shape.symm.trans hkey
  unfold strip at hsh
  simp only [Strip.mk.injEq, true_and] at hsh
  obtain ⟨hdir, hl, hr⟩ := hsh
  obtain ⟨l1, l2, l3, l4⟩ := gr_facts h.left
  obtain ⟨r1, r2, r3, r4⟩ := gr_facts h.right
  have hvl := List.Forall₂.length_eq h.vars
  have nl : tape.left.length = vl.length := by
    rw [l1]; exact (len_of_dropLast (b := tape.left) (by simpa using congrArg List.length hl) (grhalf_ne h.left) (he .L).ne).symm
  have nr : tape.right.length = vr.length := by
    rw [r1]; exact (len_of_dropLast (b := tape.right) (by simpa using congrArg List.length hr) (grhalf_ne h.right) (he .R).ne).symm
  unfold applyGen at ha
  split at ha
  · cases ha
  simp only at ha
  split at ha
  · cases ha
  · cases ha; trivial
  · split at ha
    · cases ha
    · cases ha
    · cases ha; trivial
    · cases ha
    · next cur w hg =>
      cases ha
      have hc : CLin D cur := by
        refine genApplyLoop_lin (E := E) ?_ ?_ ?_ _ _ _ _ _ _ _ ?_ ?_ hg
        · rw [h.result]
          intro v hv
          obtain ⟨b, hb, hbv⟩ := List.mem_map.1 hv
          rcases List.mem_append.1 hb with hb | hb
          · exact l3 b hb v hbv
          · exact r3 b hb v hbv
        · rw [h.result, hvl]; simp [l2, r2]
        · intro x hx
          have hx' : ∃ m, some (x, m) ∈ vl ++ vr := by
            rcases List.mem_append.1 (h.dom x hx) with hx | hx
            · obtain ⟨m, hm⟩ := l4 x hx; exact ⟨m, by simp [hm]⟩
            · obtain ⟨m, hm⟩ := r4 x hx; exact ⟨m, by simp [hm]⟩
          obtain ⟨m, hm⟩ := hx'
          obtain ⟨i, hi, hie⟩ := List.mem_iff_getElem.1 hm
          have := (List.forall₂_iff_get.1 h.vars).2 i (by omega) hi
          simp only [List.get_eq_getElem] at this
          rw [hie] at this
          rcases this with ⟨-, hn⟩ | ⟨x', m1, m0, e1, e2, -⟩
          · cases hn
          · cases e2; exact ⟨m1, e1 ▸ List.getElem_mem _⟩
        · rw [hvl]; simp [nl, nr]
        · intro v hv
          obtain ⟨b, hb, hbv⟩ := List.mem_map.1 hv
          rcases List.mem_append.1 hb with hb | hb
          · exact hp .L b hb v hbv
          · exact hp .R b hb v hbv
      intro d
      obtain ⟨s1, s2⟩ := set_lin tape.left cur (hp .L) hc
      obtain ⟨s3, -⟩ := set_lin tape.right _ (hp .R) s2
      cases d
      · exact filter_lin s1 _
      · exact filter_lin s3 _

theorem applyRule_lin [Sums] {T : Table} {Den : DC σ S → Config → Prop} {z : σ} {key : Strip σ S} {r : Rule σ} (h : RuleTrue T Den z key r)
    {tape : ChainTape σ V} (hkey : key = strip valIsOne key.st tape) (he : EndsT z tape) (hp : LinT D tape) (o : Opts) (nv nv' : Nat)
    {out : Res σ} (ha : applyRule o r tape nv = (.ok out, nv')) : ResLin D out := by
  cases r with
  | diff r =>
    obtain ⟨ll, lr, h⟩ := h
    exact diffApply_lin ⟨dhalf_numH h.left, dhalf_numH h.right⟩ hp nv (congrArg Prod.fst ha)
  | gen r =>
    obtain ⟨init, res, vl, vr, E, h⟩ := h
    exact genApply_lin h hkey he hp o (congrArg Prod.fst ha)

/-! ### The whole proof -/

variable [Sums] [DecidableEq σ] [DecidableEq S] {T : Table} {M : Machine σ S} {Den : DC σ S → Config → Prop}
  {TDen : DC σ S → (Int → Nat) → Prop} {hs : S → Prop} {z : σ} {y : Nat → Int} {cfg : Config}

theorem simStep_lin {rs : Rules σ S} (hrs : RulesOK T Den z rs) (o : Opts) {g : Sim σ S}
    (he : EndsT z g.sim.tape) (hp : LinT D g.sim.tape) : LinT D (g.step M o rs).sim.tape := by
  unfold Sim.step
  split
  · exact hp
  simp only
  split
  · exact macroStep_linT M (s := { g.sim with loops := g.sim.loops + 1 }) hp
  · next r hr =>
    split
    · exact hp
    · exact macroStep_linT M (s := { g.sim with loops := g.sim.loops + 1 }) hp
    · next res nv ha =>
      have := applyRule_lin (hrs _ _ hr) rfl he hp o _ _ ha
      cases res with
      | inf states => exact hp
      | apply tape steps states large => exact this

omit [Sums] in
theorem updMin_keys {mins mins' : List (Nat × Option Int)} {v : Option V} (h : updMin mins v = .ok mins') :
    ∀ x, Py.dget mins x ≠ none → Py.dget mins' x ≠ none := by
  intro x hx
  unfold updMin at h
  split at h
  · cases h; exact hx
  split at h
  · cases h; exact hx
  · split at h
    · cases h
    · cases h
      rw [Py.dget_dset]
      split
      · simp
      · exact hx
  · cases h

omit [Sums] [DecidableEq σ] [DecidableEq S] in
theorem updMins_keys : ∀ (h : List (Blk σ V)) {mins mins' : List (Nat × Option Int)}, updMins h mins = .ok mins' →
    ∀ x, Py.dget mins x ≠ none → Py.dget mins' x ≠ none
  | [], mins, mins', hu, x, hx => by cases hu; exact hx
  | b :: h, mins, mins', hu, x, hx => by
    unfold updMins at hu
    split at hu
    · cases hu
    · cases hu
    · next m1 h1 => exact updMins_keys h hu x (updMin_keys h1 x hx)

omit [Sums] in
theorem dget_ones (mins : List (Nat × Option Int)) {x : Nat} (h : Py.dget mins x ≠ none) :
    Py.dget (mins.map (fun e => (e.1, some (1 : Int)))) x = some (some 1) := by
  induction mins with
  | nil => exact absurd rfl h
  | cons e mins ih =>
    unfold Py.dget at h ih ⊢
    rw [List.map_cons, List.find?_cons]
    rw [List.find?_cons] at h
    cases he : e.1 == x with
    | true => simp
    | false => simp only [he] at h ⊢; exact ih h

theorem step_nv (o : Opts) (rs : Rules σ S) (g : Sim σ S) : g.nv ≤ (g.step M o rs).nv := by
  have ha : ∀ (r : Rule σ) (t : ChainTape σ V) (nv : Nat), nv ≤ (applyRule o r t nv).2 := by
    intro r t nv
    cases r with
    | diff r => exact Nat.le_succ nv
    | gen r => exact le_refl _
  unfold Sim.step
  split
  · exact le_refl _
  simp only
  split
  · exact le_refl _
  · next r hr =>
    have h1 := ha r g.sim.tape g.nv
    split
    · next nv e => rw [e] at h1; exact h1
    · next nv e => rw [e] at h1; exact h1
    · next res nv e =>
      rw [e] at h1
      cases res <;> exact h1

omit [Sums] [DecidableEq σ] [DecidableEq S] in
/-- The lengths are linear in variables that have been used already. -/
def LinSim (D : Nat → Prop) (g : Sim σ S) : Prop := LinT D g.sim.tape ∧ ∀ x, D x → x < g.nv

omit [Sums] [DecidableEq σ] [DecidableEq S] in
theorem linSim_fresh {g : Sim σ S} (h : LinSim D g) : FreshT g.nv g.sim.tape := by
  intro d b hb v hv η i
  refine lin_value_congr (h.1 d b hb v hv) (fun x hx => ?_)
  have := h.2 x hx
  rw [Function.update_of_ne (by omega)]

theorem linSim_step {rs : Rules σ S} (hrs : RulesOK T Den z rs) (o : Opts) (g : Sim σ S)
    (he : EndsT z g.sim.tape) (h : LinSim D g) : LinSim D (g.step M o rs) :=
  ⟨simStep_lin hrs o he h.1, fun x hx => lt_of_lt_of_le (h.2 x hx) (step_nv o rs g)⟩

/-- **A proof with rules**, for all values of the variables; the lengths stay linear, and no variable loses its minimum. -/
theorem genLoop_lin (F : Follows T M Den TDen hs) {rs : Rules σ S} (hrs : RulesOK T Den z rs) (o : Opts) (hy : ∀ x, 0 ≤ y x)
    (k N : Nat) (g g' : Sim σ S) (mins mins' : List (Nat × Option Int)) (hop : g.sim.op = .running)
    (hi : Inv T Den z y cfg N g.sim (Val.value (qy y) g.ruleSteps)) (hp : LinSim D g) (hg : genLoop M o rs k g mins = .ok (g', mins')) :
    Inv T Den z y cfg (N + k) g'.sim (Val.value (qy y) g'.ruleSteps) ∧ LinSim D g' :=
  genLoop_any F hrs o hy (Q := LinSim D) (fun _ => linSim_fresh) (linSim_step hrs o) k N g g' mins mins' hop hp hi hg

theorem genLoop_mins (o : Opts) {rs : Rules σ S} : ∀ (k : Nat) (g g' : Sim σ S) (mins mins' : List (Nat × Option Int)),
    genLoop M o rs k g mins = .ok (g', mins') → ∀ x, Py.dget mins x ≠ none → Py.dget mins' x ≠ none := by
  intro k
  induction k with
  | zero => intro g g' mins mins' hg; cases hg; exact fun _ h => h
  | succ k ih =>
    intro g g' mins mins' hg
    unfold genLoop at hg
    split at hg
    · cases hg
    split at hg
    · cases hg
    simp only at hg
    split at hg
    · cases hg
    split at hg
    · cases hg
    split at hg
    · cases hg
    · cases hg
    · next mins1 hm => exact fun x hx => ih _ _ _ _ hg x (updMins_keys _ hm x hx)

end Model.Recursive
