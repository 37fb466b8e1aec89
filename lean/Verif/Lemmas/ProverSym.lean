import Verif.Spec.Prover
import Verif.Lemmas.Expr
import Verif.Lemmas.Simulator

/-! # A symbolic step does what the numeric step does, for each value of the variables -/

namespace Model.Prover
open Spec Model Model.Expr
variable {σ S ν : Type}

@[simp] theorem half_setHalf_same (t : ChainTape σ ν) (d : Dir) (h) : (t.setHalf d h).half d = h := by
  cases d <;> rfl
theorem half_setHalf_other (t : ChainTape σ ν) {d e : Dir} (h) (hne : e ≠ d) :
    (t.setHalf d h).half e = t.half e := by
  cases d <;> cases e <;> first | rfl | exact absurd rfl hne
@[simp] theorem dir_setHalf (t : ChainTape σ ν) (d : Dir) (h) : (t.setHalf d h).dir = t.dir := by
  cases d <;> rfl
def setDir (t : ChainTape σ ν) (d : Dir) : ChainTape σ ν := { t with dir := d }
@[simp] theorem half_dir (t : ChainTape σ ν) (d e : Dir) : (setDir t d).half e = t.half e := by
  cases e <;> rfl

theorem tapeIs_iff {y : Nat → Int} {t : ChainTape σ V} {u : ChainTape σ Nat} :
    TapeIs y t u ↔ t.dir = u.dir ∧ ∀ d, HalfIs y (t.half d) (u.half d) :=
  ⟨fun h => ⟨h.dir, fun d => by cases d; exacts [h.left, h.right]⟩, fun h => ⟨h.1, h.2 .L, h.2 .R⟩⟩

/-- every run length is positive -/
def PosHalf (y : Nat → Int) (h : List (Blk σ V)) : Prop := ∀ b ∈ h, ∀ v, b.num = some v → 1 ≤ Val.value y v

def PosTape (y : Nat → Int) (t : ChainTape σ V) : Prop := ∀ d, PosHalf y (t.half d)

theorem numIs_none {y : Nat → Int} {n : Option Nat} (h : NumIs y none n) : n = none := by
  cases n with
  | none => rfl
  | some n => exact h.elim

theorem numIs_some {y : Nat → Int} {v : V} {n : Option Nat} (h : NumIs y (some v) n) :
    ∃ m, n = some m ∧ Val.value y v = m := by
  cases n with
  | none => exact h.elim
  | some n => exact ⟨n, rfl, h⟩

/-- After `popOne`: as expected, or the symbolic top run is one of length 0 that the numeric tape has dropped. -/
theorem popOne_is {y : Nat → Int} {z : σ} {h h' : List (Blk σ V)} {g : List (Blk σ Nat)} (hr : HalfIs y h g)
    (hw : WFHalf z g) (hp : ChainTape.popOne valOps h = some h') :
    ∃ g', ChainTape.popOne natOps g = some g' ∧
      (HalfIs y h' g' ∨ ∃ a v hr', h' = ⟨a, some v⟩ :: hr' ∧ Val.value y v = 0 ∧ HalfIs y hr' g' ∧
        ∃ b r, g' = b :: r ∧ a ≠ b.sym) := by
  cases hr with
  | nil => simp [ChainTape.popOne] at hp
  | @cons a b h g hab hrest =>
    obtain ⟨as, an⟩ := a
    obtain ⟨bs, bn⟩ := b
    obtain ⟨hsym, hnum⟩ := hab
    simp only at hsym hnum
    subst hsym
    cases an with
    | none =>
      have := numIs_none hnum
      subst this
      simp only [ChainTape.popOne, Option.some.injEq] at hp
      subst hp
      exact ⟨_, rfl, Or.inl (List.Forall₂.cons ⟨rfl, trivial⟩ hrest)⟩
    | some v =>
      obtain ⟨n, rfl, hv⟩ := numIs_some hnum
      obtain ⟨hn, ⟨b, r, hb, hne⟩, -⟩ := wfHalf_cons.1 hw
      have hv' : Val.value y (valOps.sub v (valOps.ofNat 1)) = (n : Int) - 1 := by
        simp only [valOps, sub_value, value_num, hv]; rfl
      simp only [ChainTape.popOne] at hp
      by_cases hz : valOps.isZero (valOps.sub v (valOps.ofNat 1)) = true
      · rw [if_pos hz] at hp
        cases hp
        have h0 : Val.value y (valOps.sub v (valOps.ofNat 1)) = 0 := by
          have := eq_value (a := valOps.sub v (valOps.ofNat 1)) (b := .num 0) hz y
          simpa [value_num] using this
        have hn1 : n = 1 := by omega
        subst hn1
        exact ⟨g, rfl, Or.inl hrest⟩
      · rw [if_neg hz] at hp
        cases hp
        by_cases hn1 : n = 1
        · subst hn1
          refine ⟨g, rfl, Or.inr ⟨as, _, h, rfl, by omega, hrest, b, r, hb, hne⟩⟩
        · refine ⟨⟨as, some (n - 1)⟩ :: g, ?_, Or.inl (List.Forall₂.cons ⟨rfl, ?_⟩ hrest)⟩
          · have hz' : natOps.isZero (natOps.sub n (natOps.ofNat 1)) = false := by simp [natOps]; omega
            simp only [ChainTape.popOne]
            rw [if_neg (by rw [hz']; simp)]; rfl
          · show Val.value y _ = ((n - 1 : Nat) : Int)
            rw [hv']; omega

variable [DecidableEq σ]

theorem push_is {y : Nat → Int} {h h' : List (Blk σ V)} {g : List (Blk σ Nat)} (hr : HalfIs y h g) (sym : σ)
    {v : V} {n : Nat} (hv : Val.value y v = n) (hp : ChainTape.push valOps sym v h = some h') :
    ∃ g', ChainTape.push natOps sym n g = some g' ∧ HalfIs y h' g' := by
  cases hr with
  | nil => simp [ChainTape.push] at hp
  | @cons a b h g hab hrest =>
    obtain ⟨as, an⟩ := a
    obtain ⟨bs, bn⟩ := b
    obtain ⟨hsym, hnum⟩ := hab
    simp only at hsym hnum
    subst hsym
    simp only [ChainTape.push] at hp ⊢
    by_cases hs : as = sym
    · subst hs
      rw [if_pos rfl] at hp
      cases an with
      | none =>
        have := numIs_none hnum
        subst this
        cases hp
        exact ⟨_, if_pos rfl, List.Forall₂.cons ⟨rfl, trivial⟩ hrest⟩
      | some w =>
        obtain ⟨m, rfl, hw⟩ := numIs_some hnum
        cases hp
        refine ⟨_, if_pos rfl, List.Forall₂.cons ⟨rfl, ?_⟩ hrest⟩
        show Val.value y (Val.add w v) = ((m + n : Nat) : Int)
        rw [add_value, hw, hv]; push_cast; rfl
    · rw [if_neg hs] at hp
      cases hp
      exact ⟨_, if_neg hs, List.Forall₂.cons ⟨rfl, hv⟩ (List.Forall₂.cons ⟨rfl, hnum⟩ hrest)⟩

/-- pushing onto a symbolic run of length 0 that the numeric tape has dropped -/
theorem push_is_zero {y : Nat → Int} {h h' : List (Blk σ V)} {g : List (Blk σ Nat)} (hr : HalfIs y h g) (sym a : σ)
    {v w : V} {n : Nat} (hv : Val.value y v = n) (hw : Val.value y w = 0) (hne : ∃ b r, g = b :: r ∧ a ≠ b.sym)
    (hp : ChainTape.push valOps sym v (⟨a, some w⟩ :: h) = some h') (hpos : PosHalf y h') :
    ∃ g', ChainTape.push natOps sym n g = some g' ∧ HalfIs y h' g' := by
  obtain ⟨b, r, rfl, hab⟩ := hne
  simp only [ChainTape.push] at hp ⊢
  by_cases hs : a = sym
  · subst hs
    rw [if_pos rfl] at hp
    cases hp
    refine ⟨_, if_neg (fun e => hab e.symm), List.Forall₂.cons ⟨rfl, ?_⟩ hr⟩
    show Val.value y (Val.add w v) = (n : Int)
    rw [add_value, hw, hv, zero_add]
  · rw [if_neg hs] at hp
    cases hp
    have := hpos ⟨a, some w⟩ (by simp) w rfl
    omega

theorem singleMove_eq (N : NumOps ν) (t : ChainTape σ ν) (sym : σ) (d : Dir) :
    t.singleMove N sym d =
      match ChainTape.popOne N (t.half t.dir) with
      | none => none
      | some h =>
        match ChainTape.push N sym (N.ofNat 1) ((t.setHalf t.dir h).half d.other) with
        | none => none
        | some h' => some (setDir ((t.setHalf t.dir h).setHalf d.other h') d) := by
  unfold ChainTape.singleMove
  cases ChainTape.popOne N (t.half t.dir) with
  | none => rfl
  | some h =>
    simp only [Option.bind_eq_bind, Option.bind_some]
    cases ChainTape.push N sym (N.ofNat 1) ((t.setHalf t.dir h).half d.other) <;> rfl

theorem singleMove_is {y : Nat → Int} {z : σ} {t t' : ChainTape σ V} {u : ChainTape σ Nat} (hr : TapeIs y t u)
    (hw : u.WF z) (sym : σ) (d : Dir) (hp : t.singleMove valOps sym d = some t') (hpos : PosTape y t') :
    ∃ u', u.singleMove natOps sym d = some u' ∧ TapeIs y t' u' := by
  rw [tapeIs_iff] at hr
  obtain ⟨hdir, hh⟩ := hr
  rw [singleMove_eq] at hp ⊢
  cases h1 : ChainTape.popOne valOps (t.half t.dir) with
  | none => rw [h1] at hp; cases hp
  | some h =>
    rw [h1] at hp
    simp only at hp
    obtain ⟨g, hg, hcase⟩ := popOne_is (hh t.dir) (hw t.dir) h1
    rw [← hdir, hg]
    simp only
    cases h2 : ChainTape.push valOps sym (valOps.ofNat 1) ((t.setHalf t.dir h).half d.other) with
    | none => rw [h2] at hp; cases hp
    | some h' =>
      rw [h2] at hp
      simp only [Option.some.injEq] at hp
      subst hp
      have hone : Val.value y (valOps.ofNat 1) = ((natOps.ofNat 1 : Nat) : Int) := rfl
      have fin : ∀ g' : List (Blk σ Nat), HalfIs y h' g' → (d.other ≠ t.dir → HalfIs y h g) →
            TapeIs y (setDir ((t.setHalf t.dir h).setHalf d.other h') d)
              (setDir ((u.setHalf t.dir g).setHalf d.other g') d) := by
        intro g' his hother
        refine tapeIs_iff.2 ⟨rfl, fun e => ?_⟩
        rw [half_dir, half_dir]
        by_cases he : e = d.other
        · subst he; rw [half_setHalf_same, half_setHalf_same]; exact his
        · rw [half_setHalf_other _ _ he, half_setHalf_other _ _ he]
          by_cases he2 : e = t.dir
          · subst he2; rw [half_setHalf_same, half_setHalf_same]
            exact hother (Ne.symm he)
          · rw [half_setHalf_other _ _ he2, half_setHalf_other _ _ he2]
            exact hh e
      by_cases hd : d.other = t.dir
      · rw [hd, half_setHalf_same] at h2
        rcases hcase with hok | ⟨a, v, hr', rfl, hv0, hr'', hne⟩
        · obtain ⟨g', hg', his⟩ := push_is hok sym hone h2
          rw [show (u.setHalf t.dir g).half d.other = g by rw [hd, half_setHalf_same], hg']
          exact ⟨_, rfl, fin g' his (fun hc => absurd hd hc)⟩
        · have hp' : PosHalf y h' := by
            have := hpos d.other
            rwa [half_dir, half_setHalf_same] at this
          obtain ⟨g', hg', his⟩ := push_is_zero hr'' sym a hone hv0 hne h2 hp'
          rw [show (u.setHalf t.dir g).half d.other = g by rw [hd, half_setHalf_same], hg']
          exact ⟨_, rfl, fin g' his (fun hc => absurd hd hc)⟩
      · have hok : HalfIs y h g := by
          rcases hcase with hok | ⟨a, v, hr', rfl, hv0, -⟩
          · exact hok
          · have := hpos t.dir
            rw [half_dir, half_setHalf_other _ _ (Ne.symm hd), half_setHalf_same] at this
            have := this ⟨a, some v⟩ (by simp) v rfl
            omega
        rw [half_setHalf_other _ _ hd] at h2
        obtain ⟨g', hg', his⟩ := push_is (hh d.other) sym hone h2
        rw [half_setHalf_other _ _ hd, hg']
        exact ⟨_, rfl, fin g' his (fun _ => hok)⟩

theorem chainMove_is {y : Nat → Int} {t t' : ChainTape σ V} {u : ChainTape σ Nat} (hr : TapeIs y t u)
    (sym : σ) {reps : V} (hp : t.chainMove valOps sym = some (t', some reps)) :
    ∃ u' n, u.chainMove natOps sym = some (u', some n) ∧ TapeIs y t' u' ∧ Val.value y reps = (n : Int) ∧
      ∃ a r, u.half u.dir = ⟨a, some n⟩ :: r := by
  rw [tapeIs_iff] at hr
  obtain ⟨hdir, hh⟩ := hr
  unfold ChainTape.chainMove at hp ⊢
  have hd := hh t.dir
  cases hth : t.half t.dir with
  | nil => rw [hth] at hp; cases hp
  | cons a h =>
    rw [hth] at hp hd
    obtain ⟨as, an⟩ := a
    cases an with
    | none => simp at hp
    | some v =>
      simp only at hp
      cases huh : u.half t.dir with
      | nil => rw [huh] at hd; cases hd
      | cons b g =>
        rw [huh] at hd
        cases hd with
        | cons hab hrest =>
          obtain ⟨bs, bn⟩ := b
          obtain ⟨hsym, hnum⟩ := hab
          simp only at hsym hnum
          subst hsym
          obtain ⟨n, rfl, hv⟩ := numIs_some hnum
          rw [← hdir, huh]
          simp only [dir_setHalf] at hp ⊢
          have hne : t.dir.other ≠ t.dir := Dir.other_ne _
          rw [half_setHalf_other _ _ hne] at hp
          cases h2 : ChainTape.push valOps sym v (t.half t.dir.other) with
          | none => rw [h2] at hp; cases hp
          | some h' =>
            rw [h2] at hp
            simp only [Option.some.injEq, Prod.mk.injEq] at hp
            obtain ⟨rfl, rfl⟩ := hp
            obtain ⟨g', hg', his⟩ := push_is (hh t.dir.other) sym hv h2
            rw [← hdir, half_setHalf_other _ _ hne, hg']
            refine ⟨_, n, rfl, tapeIs_iff.2 ⟨by simp [hdir], fun e => ?_⟩, hv, as, g, rfl⟩
            by_cases he : e = t.dir.other
            · subst he; rw [half_setHalf_same, half_setHalf_same]; exact his
            · rw [half_setHalf_other _ _ he, half_setHalf_other _ _ he]
              have he2 : e = t.dir := by revert he; cases e <;> cases t.dir <;> simp [Dir.other]
              subst he2; rw [half_setHalf_same, half_setHalf_same]; exact hrest

theorem top_is {y : Nat → Int} {t : ChainTape σ V} {u : ChainTape σ Nat} (h : TapeIs y t u) :
    t.topSymbol = u.topSymbol := by
  obtain ⟨hd, hh⟩ := tapeIs_iff.1 h
  unfold ChainTape.topSymbol
  rw [← hd]
  have := hh t.dir
  cases hh' : t.half t.dir <;> cases hu : u.half t.dir <;> rw [hh', hu] at this <;> cases this
  · rfl
  · next h _ => simp [h.1]

/-! ## Steps -/

/-- The concrete simulation `c`, begun at `c0`, is the symbolic one `s` with its variables set by `y`. -/
structure SRel (y : Nat → Int) (c0 : SimSt σ S Nat) (s : SimSt σ S V) (c : SimSt σ S Nat) : Prop where
  tape : TapeIs y s.tape c.tape
  st : s.st = c.st
  dir : s.dir = c.dir
  op : s.op = c.op
  steps : (c.steps : Int) = c0.steps + Val.value y s.steps
  seen : ∀ q, (∀ v, Py.dget s.seen q = some v → ∃ n : Nat, Py.dget c.seen q = some n ∧
      (n : Int) = c0.steps + Val.value y v ∧ c0.steps ≤ n) ∧
    (Py.dget s.seen q = none → Py.dget c.seen q = Py.dget c0.seen q)
  reason : c.infReason = c0.infReason
  recur : c.recur = c0.recur
  le : c0.steps ≤ c.steps

theorem addSeen_is {y : Nat → Int} {K : Nat} {old : Nat → Option Nat} {b : V} {b' : Nat}
    (hb : (b' : Int) = K + Val.value y b) (hK : K ≤ b') : ∀ (new : List (Nat × Nat)) (d : List (Nat × V)) (d' : List (Nat × Nat)),
    (∀ q, (∀ v, Py.dget d q = some v → ∃ n : Nat, Py.dget d' q = some n ∧
        (n : Int) = K + Val.value y v ∧ K ≤ n) ∧
      (Py.dget d q = none → Py.dget d' q = old q)) →
    ∀ q, (∀ v, Py.dget (SimSt.addSeen valOps d b new) q = some v →
        ∃ n : Nat, Py.dget (SimSt.addSeen natOps d' b' new) q = some n ∧
          (n : Int) = K + Val.value y v ∧ K ≤ n) ∧
      (Py.dget (SimSt.addSeen valOps d b new) q = none → Py.dget (SimSt.addSeen natOps d' b' new) q = old q)
  | [], d, d', h => h
  | e :: new, d, d', h => by
    have := addSeen_is hb hK new (Py.dset d e.1 (valOps.add b (valOps.ofNat e.2)))
      (Py.dset d' e.1 (natOps.add b' (natOps.ofNat e.2))) (by
        intro q
        rw [Py.dget_dset, Py.dget_dset]
        by_cases hq : q = e.1
        · rw [if_pos hq, if_pos hq]
          refine ⟨?_, by simp⟩
          intro v hv
          cases hv
          refine ⟨_, rfl, ?_, by (show K ≤ b' + e.2); omega⟩
          show ((b' + e.2 : Nat) : Int) = K + Val.value y (Val.add b (.num e.2))
          rw [add_value, value_num]; push_cast; omega
        · rw [if_neg hq, if_neg hq]; exact h q)
    exact this

variable [DecidableEq S]

theorem step_rel {y : Nat → Int} {z : σ} (M : Machine σ S) {c0 c : SimSt σ S Nat} {s : SimSt σ S V}
    (h : SRel y c0 s c) (hw : c.tape.WF z) (hr : s.op = .running) (hr' : (s.step valOps M).op = .running)
    (hpos : PosTape y (s.step valOps M).tape) : SRel y c0 (s.step valOps M) (c.step natOps M) := by
  unfold SimSt.step at hr' hpos ⊢
  have hcr : c.op = .running := h.op ▸ hr
  rw [if_neg (by simp [hr])] at hr' hpos ⊢
  rw [if_neg (by simp [hcr])]
  unfold SimSt.macroStep at hr' hpos ⊢
  simp only at hr' hpos ⊢
  rw [top_is h.tape, h.st, h.dir] at hr' hpos ⊢
  cases htop : c.tape.topSymbol with
  | none => rw [htop] at hr'; simp [SimSt.raise] at hr'
  | some cur =>
    rw [htop] at hr' hpos
    simp only at hr' hpos ⊢
    generalize M.trans cur c.st c.dir = t at hr' hpos ⊢
    by_cases h1 : t.cond = .raised
    · rw [if_pos h1] at hr'; simp [h1] at hr'
    rw [if_neg h1] at hr' hpos ⊢
    rw [if_neg h1]
    by_cases h2 : t.cond = .infRepeat
    · rw [if_pos h2] at hr'; simp [h2] at hr'
    rw [if_neg h2] at hr' hpos ⊢
    rw [if_neg h2]
    by_cases h3 : t.st = c.st ∧ t.dir = c.dir ∧ t.cond = .running
    · rw [if_pos h3] at hr' hpos ⊢
      rw [if_pos h3]
      cases hcm : s.tape.chainMove valOps t.sym with
      | none => rw [hcm] at hr'; simp [SimSt.raise] at hr'
      | some p =>
        obtain ⟨tape, reps⟩ := p
        cases reps with
        | none => rw [hcm] at hr'; simp at hr'
        | some reps =>
          rw [hcm] at hr' hpos
          obtain ⟨u', n, hu', hti, hreps, a, r, hhd⟩ := chainMove_is h.tape t.sym hcm
          have hn : 0 < n := by
            have := hw c.tape.dir
            rw [hhd] at this
            exact (wfHalf_cons.1 this).1
          rw [hu']
          simp only
          refine ⟨hti, rfl, rfl, rfl, ?_, ?_, h.reason, h.recur, Nat.le_trans h.le (Nat.le_add_right _ _)⟩
          · show ((c.steps + t.steps * n : Nat) : Int) = _
            simp only [valOps, add_value, mul_value, value_num, hreps]
            push_cast
            have := h.steps
            omega
          · apply addSeen_is (K := c0.steps) (old := fun q => Py.dget c0.seen q)
            · show ((c.steps + t.steps * (n - 1) : Nat) : Int) = _
              simp only [valOps, add_value, mul_value, sub_value, value_num, hreps]
              have := h.steps
              push_cast [Nat.cast_sub hn]
              rw [this]; ring
            · exact Nat.le_trans h.le (Nat.le_add_right _ _)
            · exact h.seen
    · rw [if_neg h3] at hr' hpos ⊢
      rw [if_neg h3]
      by_cases h4 : t.cond ≠ .gaveUp
      · rw [if_pos h4] at hr' hpos ⊢
        rw [if_pos h4]
        cases hsm : s.tape.singleMove valOps t.sym t.dir with
        | none => rw [hsm] at hr'; simp [SimSt.raise] at hr'
        | some tape =>
          rw [hsm] at hr' hpos
          simp only at hr' hpos
          obtain ⟨u', hu', hti⟩ := singleMove_is h.tape hw t.sym t.dir hsm hpos
          rw [hu']
          simp only
          refine ⟨hti, rfl, rfl, rfl, ?_, ?_, h.reason, h.recur, Nat.le_trans h.le (Nat.le_add_right _ _)⟩
          · show ((c.steps + t.steps : Nat) : Int) = _
            simp only [valOps, add_value, value_num]
            push_cast
            have := h.steps
            omega
          · apply addSeen_is (K := c0.steps) (old := fun q => Py.dget c0.seen q) h.steps h.le
            exact h.seen
      · rw [if_neg h4] at hr'
        simp only [ne_eq, not_not] at h4
        simp [h4] at hr'

/-- A running step keeps the tape well formed. -/
theorem step_wf {z : σ} (M : Machine σ S) {c : SimSt σ S Nat} (hw : c.tape.WF z) : (c.step natOps M).tape.WF z := by
  unfold SimSt.step
  split
  · exact hw
  unfold SimSt.macroStep
  simp only
  cases htop : c.tape.topSymbol with
  | none => exact hw
  | some cur =>
    simp only
    generalize M.trans cur c.st c.dir = t
    split; · exact hw
    split; · exact hw
    split
    · cases hh : c.tape.half c.tape.dir with
      | nil => have := hw c.tape.dir; rw [hh] at this; exact this.elim
      | cons b rest =>
        obtain ⟨a, n⟩ := b
        cases n with
        | none => rw [ChainTape.chainMove_inf _ hh]; exact hw
        | some n =>
          obtain ⟨t', ht', hw', -⟩ := ChainTape.chainMove_fin hw t.sym hh
          rw [ht']; exact hw'
    · split
      · obtain ⟨t', ht', hw', -⟩ := ChainTape.singleMove_spec hw t.sym t.dir c.st t.st
        rw [ht']; exact hw'
      · exact hw

theorem steps_wf {z : σ} (M : Machine σ S) (n : Nat) {c : SimSt σ S Nat} (hw : c.tape.WF z) :
    ((SimSt.step natOps M)^[n] c).tape.WF z := by
  induction n generalizing c with
  | zero => exact hw
  | succ n ih => rw [Function.iterate_succ_apply]; exact ih (step_wf M hw)

end Model.Prover
