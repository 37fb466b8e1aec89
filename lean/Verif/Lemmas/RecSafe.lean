import Verif.Lemmas.RecSafeExpr

/-! # Applying rules never raises an exception -/

namespace Model.Recursive
open Spec Model Model.Expr Model.Prover Model.RuleFunc
variable {σ S : Type} {D E : Nat → Prop}

def FineH (D : Nat → Prop) (h : List (Blk σ V)) : Prop := ∀ b ∈ h, ∀ v, b.num = some v → Fine D v
def FineT (D : Nat → Prop) (t : ChainTape σ V) : Prop := ∀ d, FineH D (t.half d)

theorem fineH_cons {b : Blk σ V} {h : List (Blk σ V)} : FineH D (b :: h) ↔ (∀ v, b.num = some v → Fine D v) ∧ FineH D h := by
  simp [FineH]

theorem fineH_filter {t : List (Blk σ V)} (h : FineH D t) (p : Blk σ V → Bool) : FineH D (t.filter p) :=
  fun b hb => h b (List.mem_filter.1 hb).1

/-! ## Difference rules -/

def ScFine (D : Nat → Prop) (sc : Scan) : Prop :=
  (∀ v, sc.reps = some v → Fine D v) ∧ (∀ d i f, sc.limit = some (d, i, f) → Fine D f) ∧
    ∀ x p, Py.dget sc.vals x = some p → Fine D p.1

def Later (sc sc' : Scan) : Prop :=
  (∀ r, sc.reps = some (.num r) → ∃ r', sc'.reps = some (.num r')) ∧
    ∀ e, sc.reps = some (.expr e) → sc'.reps = some (.expr e) ∧ sc'.limit = sc.limit

theorem later_refl (sc : Scan) : Later sc sc := ⟨fun r h => ⟨r, h⟩, fun _ h => ⟨h, rfl⟩⟩

theorem later_of {sc sc1 sc' : Scan} (h1 : sc1.reps = sc.reps) (h2 : sc1.limit = sc.limit) (h : Later sc1 sc') : Later sc sc' := by
  refine ⟨fun r hr => h.1 r (h1.trans hr), fun e he => ?_⟩
  rw [← h2]; exact h.2 e (h1.trans he)

/-- Block `j` of the half tape `d`, if it becomes shorter: the number of applications is a number, or the block is the limit. -/
def Shrinks (d : Dir) (j : Nat) (sc : Scan) : Prop :=
  (∃ r, sc.reps = some (.num r)) ∨ ∃ e f, sc.reps = some (.expr e) ∧ sc.limit = some (d, j, f)

theorem shrinks_later {d : Dir} {j : Nat} {sc sc' : Scan} (h : Shrinks d j sc) (hl : Later sc sc') : Shrinks d j sc' := by
  rcases h with ⟨r, hr⟩ | ⟨e, f, he, hf⟩
  · exact Or.inl (hl.1 r hr)
  · obtain ⟨h1, h2⟩ := hl.2 e he
    exact Or.inr ⟨e, f, h1, h2.trans hf⟩

def NegOK (d : Dir) (i : Nat) (ds : List (Blk σ V)) (sc : Scan) : Prop :=
  ∀ j b δ, ds[j]? = some b → b.num = some (.num δ) → δ < 0 → Shrinks d (i + j) sc

theorem negOK_cons {d : Dir} {i : Nat} {b : Blk σ V} {ds : List (Blk σ V)} {sc : Scan}
    (h1 : ∀ δ, b.num = some (.num δ) → δ < 0 → Shrinks d i sc) (h2 : NegOK d (i + 1) ds sc) : NegOK d i (b :: ds) sc := by
  intro j b' δ hj hb hδ
  cases j with
  | zero => simp at hj; subst hj; exact h1 δ hb hδ
  | succ j =>
    have := h2 j b' δ (by simpa using hj) hb hδ
    rwa [Nat.add_right_comm] at this

theorem isExpr_sub (n : V) (k : Int) : isExpr (n.sub (.num k)) = isExpr n := by cases n <;> rfl

theorem ends_len {z : σ} {t : List (Blk σ V)} (h : Ends z t) (hl : t.length = 1) : t = [⟨z, none⟩] := by
  cases h with
  | last => rfl
  | cons a v h => cases h <;> simp at hl

theorem ends_len2 {z : σ} {t : List (Blk σ V)} (h : Ends z t) {n : Nat} (hn : n ≠ 0) (hl : t.length = n + 1) :
    ∃ a v t', t = ⟨a, some v⟩ :: t' ∧ Ends z t' ∧ t'.length = n := by
  cases h with
  | last => simp at hl; omega
  | cons a v h => exact ⟨a, v, _, rfl, h, by simpa using hl⟩

theorem maxReps_fine {a c : Int} {v r f : V} (hv : Fine D v) (h : maxReps a c v = some (r, f)) : Fine D r ∧ Fine D f := by
  unfold maxReps at h
  split at h
  · cases h; exact ⟨fine_num _, fine_num _⟩
  · split at h
    · cases h; exact ⟨fine_sub hv _, fine_num _⟩
    · cases h

theorem scan_safe (dir : Dir) {z : σ} {g ds l} (h : DHalf z g ds l) : ∀ {t : List (Blk σ V)}, Ends z t → t.length = g.length →
    FineH D t → ∀ (i : Nat) (sc : Scan), ScFine D sc → scanHalf dir i g ds t sc ≠ .raise ∧
      ∀ sc', scanHalf dir i g ds t sc = .ok sc' → ScFine D sc' ∧ Later sc sc' ∧ NegOK dir i ds sc' := by
  induction h with
  | last =>
    intro t he hl hf i sc hs
    rw [ends_len he (by simpa using hl)]
    have e : scanHalf dir i [(⟨z, none⟩ : Blk σ V)] [⟨z, none⟩] [⟨z, none⟩] sc = .ok sc := by simp [scanHalf]
    rw [e]
    refine ⟨by simp, fun sc' h => ?_⟩
    cases h
    refine ⟨hs, later_refl _, ?_⟩
    intro j b δ hj hb _
    cases j with
    | zero => simp at hj; subst hj; cases hb
    | succ j => simp at hj
  | @one a g d l hd ih =>
    intro t he hl hf i sc hs
    obtain ⟨a', v, t', rfl, he', hl'⟩ := ends_len2 he (n := g.length) (by have := hd.ne.1; simp [this]) (by simpa using hl)
    rw [fineH_cons] at hf
    have e : scanHalf dir i (⟨a, some (.num 1)⟩ :: g) (⟨a, some (.num 0)⟩ :: d) (⟨a', some v⟩ :: t') sc =
        scanHalf dir (i + 1) g d t' sc := by rw [scanHalf]
    rw [e]
    obtain ⟨h1, h2⟩ := ih he' hl' hf.2 (i + 1) sc hs
    refine ⟨h1, fun sc' h => ?_⟩
    obtain ⟨a1, a2, a3⟩ := h2 sc' h
    exact ⟨a1, a2, negOK_cons (fun δ hδ h0 => by simp at hδ; omega) a3⟩
  | @many a x c δ g d l hd ih =>
    intro t he hl hf i sc hs
    obtain ⟨a', v, t', rfl, he', hl'⟩ := ends_len2 he (n := g.length) (by have := hd.ne.1; simp [this]) (by simpa using hl)
    rw [fineH_cons] at hf
    have hv := hf.1 v rfl
    have ih' := fun sc hs => ih he' hl' hf.2 (i + 1) sc hs
    have hs1 : ScFine D { sc with vals := Py.dset sc.vals x (v.sub (.num c), δ) } := by
      refine ⟨hs.1, hs.2.1, fun x' p hp => ?_⟩
      simp only at hp
      rw [Py.dget_dset] at hp
      split at hp
      · cases hp; exact fine_sub hv _
      · exact hs.2.2 x' p hp
    have e : scanHalf dir i (⟨a, some (.expr (varPlus x c))⟩ :: g) (⟨a, some (.num δ)⟩ :: d) (⟨a', some v⟩ :: t') sc =
        (let iv := v.sub (.num c)
        if !alwaysGe iv (.num 0) then .fail
        else
          let sc := { sc with vals := Py.dset sc.vals x (iv, δ) }
          if δ < 0 then
            let sc := { sc with large := sc.large || δ ≠ -1 }
            match sc.reps with
            | none =>
              if isExpr iv && δ ≠ -1 then .fail
              else match maxReps c (-δ) v with
                | none => .raise
                | some (reps, final) =>
                  scanHalf dir (i + 1) g d t' { sc with reps := some reps, limit := some (dir, i, final) }
            | some (.num r) =>
              if isExpr iv then .fail
              else match maxReps c (-δ) v with
                | some (.num reps, final) =>
                  if reps < r then
                    scanHalf dir (i + 1) g d t' { sc with reps := some (.num reps), limit := some (dir, i, final) }
                  else scanHalf dir (i + 1) g d t' sc
                | _ => .raise
            | some (.expr _) => .fail
          else scanHalf dir (i + 1) g d t' sc) := by
      rw [scanHalf]; simp only [restricted_varPlus, const_varPlus]; rfl
    rw [e]
    clear e
    simp only
    split
    · simp
    split
    · next hδ =>
      cases hreps : sc.reps with
      | none =>
        simp only
        split
        · simp
        next hex =>
        rw [isExpr_sub] at hex
        cases hm : maxReps c (-δ) v with
        | none =>
          exfalso
          cases v with
          | num k => simp [maxReps] at hm
          | expr w =>
            simp only [isExpr, Bool.true_and, decide_eq_true_eq, not_not] at hex
            simp [maxReps, hex] at hm
        | some p =>
          obtain ⟨reps, final⟩ := p
          obtain ⟨f1, f2⟩ := maxReps_fine hv hm
          simp only
          obtain ⟨h1, h2⟩ := ih' { sc with reps := some reps, limit := some (dir, i, final), vals := Py.dset sc.vals x (v.sub (.num c), δ), large := sc.large || δ ≠ -1 }
            ⟨fun w hw => by cases hw; exact f1, fun _ _ _ hw => by cases hw; exact f2, hs1.2.2⟩
          refine ⟨h1, fun sc' h => ?_⟩
          obtain ⟨a1, a2, a3⟩ := h2 sc' h
          refine ⟨a1, ⟨fun r hr => ?_, fun r hr => ?_⟩, negOK_cons (fun _ _ _ => shrinks_later ?_ a2) a3⟩
          · rw [hreps] at hr; cases hr
          · rw [hreps] at hr; cases hr
          · cases reps with
            | num r => exact Or.inl ⟨r, rfl⟩
            | expr w => exact Or.inr ⟨w, final, rfl, rfl⟩
      | some r0 =>
        cases r0 with
        | expr w => simp
        | num r =>
          simp only
          split
          · simp
          next hex =>
          rw [isExpr_sub] at hex
          cases v with
          | expr w => simp [isExpr] at hex
          | num k =>
            simp only [maxReps]
            split
            · obtain ⟨h1, h2⟩ := ih' { sc with reps := some (.num ((Subtract.mk c (-δ)).maxReps k).1), limit := some (dir, i, .num ((Subtract.mk c (-δ)).maxReps k).2), vals := Py.dset sc.vals x ((Val.num k).sub (.num c), δ), large := sc.large || δ ≠ -1 }
                ⟨fun w hw => by cases hw; exact fine_num _, fun _ _ _ hw => by cases hw; exact fine_num _, hs1.2.2⟩
              refine ⟨h1, fun sc' h => ?_⟩
              obtain ⟨a1, a2, a3⟩ := h2 sc' h
              refine ⟨a1, ⟨fun r hr => a2.1 _ rfl, fun r hr => ?_⟩, negOK_cons (fun _ _ _ => shrinks_later (Or.inl ⟨_, rfl⟩) a2) a3⟩
              rw [hreps] at hr; cases hr
            · obtain ⟨h1, h2⟩ := ih' { sc with vals := Py.dset sc.vals x ((Val.num k).sub (.num c), δ), large := sc.large || δ ≠ -1 }
                ⟨hs1.1, hs1.2.1, hs1.2.2⟩
              refine ⟨by rw [hreps] at h1; exact h1, fun sc' h => ?_⟩
              obtain ⟨a1, a2, a3⟩ := h2 sc' (by rw [hreps]; exact h)
              exact ⟨a1, later_of rfl rfl a2, negOK_cons (fun _ _ _ => shrinks_later (Or.inl ⟨r, hreps⟩) a2) a3⟩
    · next hδ =>
      obtain ⟨h1, h2⟩ := ih' _ hs1
      refine ⟨h1, fun sc' h => ?_⟩
      obtain ⟨a1, a2, a3⟩ := h2 sc' h
      exact ⟨a1, later_of rfl rfl a2, negOK_cons (fun δ' h0 h1 => by simp at h0; omega) a3⟩

theorem return_safe {reps : V} (hr : Fine D reps) {lim : Option (Nat × V)} (hlim : ∀ i f, lim = some (i, f) → Fine D f) {z : σ} {g ds l}
    (h : DHalf z g ds l) : ∀ {t : List (Blk σ V)}, Ends z t → t.length = g.length → FineH D t → ∀ i,
    (∀ j b δ, ds[j]? = some b → b.num = some (.num δ) → δ < 0 → (∃ r, reps = .num r) ∨ ∃ f, lim = some (i + j, f)) →
    ∃ t', returnHalf reps lim i ds t = some t' ∧ FineH D t' := by
  induction h with
  | last =>
    intro t he hl hf i _
    rw [ends_len he (by simpa using hl)]
    exact ⟨[⟨z, none⟩], by simp [returnHalf], by rw [← ends_len he (by simpa using hl)]; exact hf⟩
  | @one a g d l hd ih =>
    intro t he hl hf i hn
    obtain ⟨a', v, t', rfl, he', hl'⟩ := ends_len2 he (n := g.length) (by have := hd.ne.1; simp [this]) (by simpa using hl)
    rw [fineH_cons] at hf
    obtain ⟨t2, h1, h2⟩ := ih he' hl' hf.2 (i + 1) (fun j b δ hj hb h0 => by
      have := hn (j + 1) b δ (by simpa using hj) hb h0
      rwa [← Nat.add_assoc, Nat.add_right_comm] at this)
    unfold returnHalf
    simp only [h1]
    split
    · next he =>
      cases lim with
      | none => cases he
      | some p =>
        refine ⟨_, rfl, ?_⟩
        rw [fineH_cons]
        exact ⟨fun w hw => by cases hw; exact fine_simp (hlim p.1 p.2 rfl), h2⟩
    · refine ⟨_, rfl, ?_⟩
      rw [fineH_cons]
      exact ⟨fun w hw => by cases hw; exact fine_simp (fine_add (hf.1 v rfl) (fine_mul hr le_rfl)), h2⟩
  | @many a x c δ g d l hd ih =>
    intro t he hl hf i hn
    obtain ⟨a', v, t', rfl, he', hl'⟩ := ends_len2 he (n := g.length) (by have := hd.ne.1; simp [this]) (by simpa using hl)
    rw [fineH_cons] at hf
    obtain ⟨t2, h1, h2⟩ := ih he' hl' hf.2 (i + 1) (fun j b δ hj hb h0 => by
      have := hn (j + 1) b δ (by simpa using hj) hb h0
      rwa [← Nat.add_assoc, Nat.add_right_comm] at this)
    unfold returnHalf
    simp only [h1]
    split
    · next he =>
      cases lim with
      | none => cases he
      | some p =>
        refine ⟨_, rfl, ?_⟩
        rw [fineH_cons]
        exact ⟨fun w hw => by cases hw; exact fine_simp (hlim p.1 p.2 rfl), h2⟩
    · next hni =>
      refine ⟨_, rfl, ?_⟩
      rw [fineH_cons]
      refine ⟨fun w hw => ?_, h2⟩
      cases hw
      by_cases h0 : δ < 0
      · rcases hn 0 ⟨a, some (.num δ)⟩ δ rfl rfl h0 with ⟨r, rfl⟩ | ⟨f, hf⟩
        · exact fine_simp (fine_add (hf.1 v rfl) (fine_num _))
        · exact absurd (by rw [hf]; rfl) hni
      · exact fine_simp (fine_add (hf.1 v rfl) (fine_mul hr (by omega)))

/-- a result with lengths that are again fine -/
def ResFine (D : Nat → Prop) : Res σ → Prop
  | .inf _ => True
  | .apply tape steps _ _ => FineT D tape ∧ Val.Normal steps

theorem limit_fine {sc : Scan} (h : ScFine D sc) (d : Dir) : ∀ i f, limitIn d sc.limit = some (i, f) → Fine D f := by
  intro i f hf
  unfold limitIn at hf
  split at hf
  · next d' i' f' hl =>
    split at hf
    · cases hf; exact h.2.1 _ _ _ hl
    · cases hf
  · cases hf

theorem diff_safe [Sums] (hS : SumsTotal) {z : σ} {r : DiffRule σ} {ll lr} (hl : DHalf z r.init.left r.diff.left ll)
    (hr : DHalf z r.init.right r.diff.right lr) {tape : ChainTape σ V} (he : EndsT z tape) (hf : FineT D tape)
    (nl : tape.left.length = r.init.left.length) (nr : tape.right.length = r.init.right.length) (hw : Val.Normal r.steps) (k : Nat) :
    applyDiff r tape k ≠ .raise ∧ ∀ res, applyDiff r tape k = .ok res → ResFine D res := by
  unfold applyDiff
  obtain ⟨a1, a2⟩ := scan_safe .L hl (he .L) nl (hf .L) 0 ⟨none, none, [], false⟩
    ⟨fun v hv => by simp at hv, fun _ _ _ hv => by simp at hv, fun x p hp => by simp [Py.dget] at hp⟩
  split
  · next h => exact absurd h a1
  · simp
  next sc1 h1 =>
  obtain ⟨s1, -, n1⟩ := a2 _ h1
  obtain ⟨b1, b2⟩ := scan_safe .R hr (he .R) nr (hf .R) 0 sc1 s1
  split
  · next h => exact absurd h b1
  · simp
  next sc2 h2 =>
  obtain ⟨s2, l2, n2⟩ := b2 _ h2
  split
  · exact ⟨by simp, fun res h => by cases h; trivial⟩
  next reps hreps =>
  split
  · simp
  obtain ⟨each, e1, e2⟩ := subst_total (subs := lineAt sc2.vals (.expr (varE k))) (fun x w hx => by
    unfold lineAt at hx
    cases hd : Py.dget sc2.vals x with
    | none => rw [hd] at hx; cases hx
    | some p =>
      rw [hd] at hx
      cases hx
      exact add_normal (toQ_normal (s2.2.2 x p hd).2.1) (mul_normal (a := .num _) trivial (b := .expr (varE k)) (varE_normal k))) hw
  rw [e1]
  simp only
  obtain ⟨total, t1, t2⟩ := hS each k reps.toQ e2 (toQ_normal (s2.1 reps hreps).2.1)
  rw [t1]
  simp only
  have conv : ∀ (d : Dir) (ds : List (Blk σ V)), NegOK d 0 ds sc2 → ∀ j b δ, ds[j]? = some b → b.num = some (.num δ) → δ < 0 →
      (∃ r, reps = .num r) ∨ ∃ f, limitIn d sc2.limit = some (0 + j, f) := by
    intro d ds hn j b δ hj hb h0
    rcases hn j b δ hj hb h0 with ⟨r, hr⟩ | ⟨e, f, he, hf⟩
    · rw [hreps] at hr; cases hr; exact Or.inl ⟨r, rfl⟩
    · exact Or.inr ⟨f, by rw [hf]; simp [limitIn]⟩
  obtain ⟨left, c1, c2⟩ := return_safe (s2.1 reps hreps) (limit_fine s2 .L) hl (he .L) nl (hf .L) 0
    (conv .L _ (fun j b δ hj hb h0 => shrinks_later (n1 j b δ hj hb h0) l2))
  obtain ⟨right, d1, d2⟩ := return_safe (s2.1 reps hreps) (limit_fine s2 .R) hr (he .R) nr (hf .R) 0 (conv .R _ n2)
  rw [show returnHalf reps (limitIn .L sc2.limit) 0 r.diff.left tape.left = some left from c1,
    show returnHalf reps (limitIn .R sc2.limit) 0 r.diff.right tape.right = some right from d1]
  refine ⟨by simp, fun res h => ?_⟩
  cases h
  refine ⟨fun d => ?_, t2⟩
  cases d
  · exact fineH_filter c2 _
  · exact fineH_filter d2 _

/-! ## General rules -/

def CFine (D : Nat → Prop) (cs : List (Option V)) : Prop := ∀ v, some v ∈ cs → Fine D v

/-- where there is a variable there is a number -/
abbrev Al {α : Type} (vs : List (Option α)) (cs : List (Option V)) : Prop := List.Forall₂ (fun v c => v.isSome → c.isSome) vs cs

theorem fit_safe : ∀ {vs : List (Option (Nat × Int))} {cs : List (Option V)} (a : List (Nat × V)), Al vs cs → fitsMin vs cs a ≠ .raise
  | [], [], a, _ => by simp [fitsMin]
  | none :: vs, c :: cs, a, h => by
    cases h with | cons h1 h2 => rw [fitsMin]; exact fit_safe a h2
  | some (x, m) :: vs, none :: cs, a, h => by
    cases h with | cons h1 h2 => simp at h1
  | some (x, m) :: vs, some c :: cs, a, h => by
    cases h with
    | cons h1 h2 =>
      rw [fitsMin]
      split
      · exact fit_safe _ h2
      · simp

theorem fit_fine : ∀ (vs : List (Option (Nat × Int))) (cs : List (Option V)) (a a' : List (Nat × V)), CFine D cs →
    (∀ x v, Py.dget a x = some v → Fine D v) → fitsMin vs cs a = .ok a' → ∀ x v, Py.dget a' x = some v → Fine D v
  | [], cs, a, a', _, ha, h => by cases h; exact ha
  | none :: vs, [], a, a', _, ha, h => by cases h; exact ha
  | none :: vs, c :: cs, a, a', hc, ha, h => fit_fine vs cs a a' (fun v hv => hc v (by simp [hv])) ha h
  | some (x, m) :: vs, [], a, a', _, ha, h => by cases h; exact ha
  | some (x, m) :: vs, none :: cs, a, a', hc, ha, h => by cases h
  | some (x, m) :: vs, some c :: cs, a, a', hc, ha, h => by
    unfold fitsMin at h
    simp only at h
    split at h
    · refine fit_fine vs cs _ a' (fun v hv => hc v (by simp [hv])) (fun y v hv => ?_) h
      rw [Py.dget_dset] at hv
      split at hv
      · cases hv; exact hc c (by simp)
      · exact ha y v hv
    · cases h

theorem substNums_safe {subs : Nat → Option V} (hs : ∀ x, E x → ∃ w, subs x = some w ∧ Fine D w) :
    ∀ (vs : List (Option V)), CFine E vs → ∃ next, substNums subs vs = some next ∧ CFine D next ∧
      List.Forall₂ (fun v n : Option V => v.isSome → n.isSome) vs next
  | [], _ => ⟨[], rfl, fun v hv => (by cases hv), .nil⟩
  | none :: vs, hl => by
    obtain ⟨r, h1, h2, h3⟩ := substNums_safe hs vs (fun v hv => hl v (by simp [hv]))
    refine ⟨none :: r, by simp [substNums, h1], fun v hv => h2 v (by simpa using hv), .cons (by simp) h3⟩
  | some w :: vs, hl => by
    obtain ⟨r, h1, h2, h3⟩ := substNums_safe hs vs (fun v hv => hl v (by simp [hv]))
    obtain ⟨w', e1, e2⟩ := fine_subst (hl w (by simp)) hs
    refine ⟨some w' :: r, by simp [substNums, h1, e1], fun v hv => ?_, .cons (by simp) h3⟩
    rcases List.mem_cons.1 hv with e | hv
    · cases e; exact e2
    · exact h2 v hv

theorem al_trans {α : Type} : ∀ {vs : List (Option α)} {cs ds : List (Option V)}, Al vs cs → Al cs ds → Al vs ds
  | _, _, _, .nil, .nil => .nil
  | _, _, _, .cons h1 h2, .cons h3 h4 => .cons (fun h => h3 (h1 h)) (al_trans h2 h4)

theorem genApplyLoop_safe {r : GenRule} (hl : CFine E r.result) (hr : Al r.vars r.result) (hw : Val.Normal r.steps)
    (hd : ∀ x, E x → ∃ m, some (x, m) ∈ r.vars) : ∀ (fuel : Nat) (cur : List (Option V)) (w : W) (app : Bool), Al r.vars cur →
    CFine D cur → Val.Normal w → genApplyLoop r fuel cur w app ≠ .raise ∧ ∀ cur' w' app',
      genApplyLoop r fuel cur w app = .ok (.stop cur' w' app') → CFine D cur' ∧ Val.Normal w' := by
  intro fuel
  induction fuel with
  | zero =>
    intro cur w app ha hc hn
    unfold genApplyLoop
    have := fit_safe [] ha
    split
    · contradiction
    · exact ⟨by simp, fun _ _ _ h => by cases h; exact ⟨hc, hn⟩⟩
    · exact ⟨by simp, fun _ _ _ h => by cases h; exact ⟨hc, hn⟩⟩
  | succ fuel ih =>
    intro cur w app ha hc hn
    unfold genApplyLoop
    have := fit_safe [] ha
    split
    · contradiction
    · exact ⟨by simp, fun _ _ _ h => by cases h; exact ⟨hc, hn⟩⟩
    next a hf =>
    have hfa := fit_fine _ _ _ _ hc (fun x v hv => by simp [Py.dget] at hv) hf
    have hsub : ∀ x, E x → ∃ w, Py.dget a x = some w ∧ Fine D w := by
      intro x hx
      obtain ⟨m, hm⟩ := hd x hx
      have h1 := (fit_all _ _ _ _ ha.length_eq.le hf).2 x m hm
      cases hx' : Py.dget a x with
      | none => exact absurd hx' h1
      | some v => exact ⟨v, rfl, hfa x v hx'⟩
    obtain ⟨next, h1, h2, h3⟩ := substNums_safe hsub _ hl
    obtain ⟨w', e1, e2⟩ := subst_total (subs := subsQ a) (fun x v hx => by
      unfold subsQ at hx
      cases hd : Py.dget a x with
      | none => rw [hd] at hx; cases hx
      | some p => rw [hd] at hx; cases hx; exact toQ_normal (hfa x p hd).2.1) hw
    simp only [h1, e1]
    split
    · simp
    · exact ih _ _ _ (al_trans hr h3) h2 (add_normal hn e2)

theorem set_fine : ∀ (t : List (Blk σ V)) (cs : List (Option V)), FineH D t → CFine D cs → FineH D (setCounts t cs).1 ∧ CFine D (setCounts t cs).2
  | [], cs, ht, hc => by simp only [setCounts]; exact ⟨ht, hc⟩
  | b :: bs, [], ht, hc => by simp only [setCounts]; exact ⟨ht, hc⟩
  | b :: bs, c :: cs, ht, hc => by
    rw [fineH_cons] at ht
    obtain ⟨h1, h2⟩ := set_fine bs cs ht.2 (fun v hv => hc v (by simp [hv]))
    simp only [setCounts]
    refine ⟨?_, h2⟩
    rw [fineH_cons]
    exact ⟨fun v hv => hc v (by simp only at hv; simp [hv]), h1⟩

theorem gr_al {z : σ} {g vs f} (h : GRHalf z E g vs f) : Al vs (f.map (·.num)) ∧ ∀ {t : List (Blk σ V)}, Ends z t →
    t.length = g.length → Al vs (t.map (·.num)) := by
  induction h with
  | last =>
    refine ⟨.cons (by simp) .nil, fun he hl => ?_⟩
    rw [ends_len he (by simpa using hl)]; exact .cons (by simp) .nil
  | @one a w g vs f h1 h2 hg ih =>
    refine ⟨.cons (by simp) ih.1, fun {t} he hl => ?_⟩
    obtain ⟨a', v, t', rfl, he', hl'⟩ := ends_len2 he (n := g.length) (by have := grhalf_ne hg; simp [this]) (by simpa using hl)
    exact .cons (by simp) (ih.2 he' hl')
  | @many a x m w g vs f h1 h2 h3 hg ih =>
    refine ⟨.cons (by simp) ih.1, fun {t} he hl => ?_⟩
    obtain ⟨a', v, t', rfl, he', hl'⟩ := ends_len2 he (n := g.length) (by have := grhalf_ne hg; simp [this]) (by simpa using hl)
    exact .cons (by simp) (ih.2 he' hl')

theorem al_up : ∀ {vs vs0 : List (Option (Nat × Int))} {cs : List (Option V)}, VarsUp vs vs0 → Al vs0 cs → Al vs cs
  | _, _, _, .nil, .nil => .nil
  | _, _, _, .cons h1 h2, .cons h3 h4 => .cons (fun h => by
      rcases h1 with ⟨rfl, rfl⟩ | ⟨x, m, m0, rfl, rfl, -⟩
      · simp at h
      · exact h3 (by simp)) (al_up h2 h4)

/-- what is kept about a rule beside its truth -/
def RuleFine : Rule σ → Prop
  | .diff r => Val.Normal r.steps
  | .gen r => Val.Normal r.steps ∧ ∃ E, CFine E r.result

theorem gen_safe [Sums] {T : Table} {Den : DC σ S → Config → Prop} {z : σ} {key : Strip σ S} {r : GenRule}
    {init res : ChainTape σ V} {vl vr : List (Option (Nat × Int))} {E : Nat → Prop} (h : GenOK T Den z key r init res vl vr E)
    (hw : RuleFine (σ := σ) (.gen r)) {tape : ChainTape σ V} (he : EndsT z tape) (hp : FineT D tape)
    (nl : tape.left.length = init.left.length) (nr : tape.right.length = init.right.length) {o : Opts} (ho : o.maxReps ≠ 0) :
    applyGen o r tape ≠ .raise ∧ ∀ out, applyGen o r tape = .ok out → ResFine D out := by
  obtain ⟨hw, E', hE'⟩ := hw
  obtain ⟨l1, l2, l3, l4⟩ := gr_facts h.left
  obtain ⟨r1, r2, r3, r4⟩ := gr_facts h.right
  obtain ⟨p1, p2⟩ := gr_al h.left
  obtain ⟨q1, q2⟩ := gr_al h.right
  have hres : CFine E r.result := by
    intro v hv
    refine ⟨?_, (hE' v hv).2⟩
    rw [h.result] at hv
    obtain ⟨b, hb, hbv⟩ := List.mem_map.1 hv
    rcases List.mem_append.1 hb with hb | hb
    · exact l3 b hb v hbv
    · exact r3 b hb v hbv
  have hal : Al r.vars r.result := by
    refine al_up h.vars ?_
    rw [h.result, List.map_append]
    exact List.rel_append p1 q1
  have halt : Al r.vars ((tape.left ++ tape.right).map (·.num)) := by
    refine al_up h.vars ?_
    rw [List.map_append]
    exact List.rel_append (p2 (he .L) nl) (q2 (he .R) nr)
  have hcur : CFine D ((tape.left ++ tape.right).map (·.num)) := by
    intro v hv
    obtain ⟨b, hb, hbv⟩ := List.mem_map.1 hv
    rcases List.mem_append.1 hb with hb | hb
    · exact hp .L b hb v hbv
    · exact hp .R b hb v hbv
  have hdom : ∀ x, E x → ∃ m, some (x, m) ∈ r.vars := by
    intro x hx
    have hx' : ∃ m, some (x, m) ∈ vl ++ vr := by
      rcases List.mem_append.1 (h.dom x hx) with hx | hx
      · obtain ⟨m, hm⟩ := l4 x hx; exact ⟨m, by simp [hm]⟩
      · obtain ⟨m, hm⟩ := r4 x hx; exact ⟨m, by simp [hm]⟩
    obtain ⟨m, hm⟩ := hx'
    obtain ⟨i, hi, hie⟩ := List.mem_iff_getElem.1 hm
    have hvl := List.Forall₂.length_eq h.vars
    have := (List.forall₂_iff_get.1 h.vars).2 i (by omega) hi
    simp only [List.get_eq_getElem] at this
    rw [hie] at this
    rcases this with ⟨-, hn⟩ | ⟨x', m1, m0, e1, e2, -⟩
    · cases hn
    · cases e2; exact ⟨m1, e1 ▸ List.getElem_mem _⟩
  obtain ⟨g1, g2⟩ := genApplyLoop_safe hres hal hw hdom o.maxReps _ (.num 0) false halt hcur trivial
  unfold applyGen
  rw [if_neg ho]
  simp only
  split
  · next hi =>
    exfalso
    split at hi
    · exact fit_safe _ halt hi
    · cases hi
  · exact ⟨by simp, fun out h => by cases h; trivial⟩
  · split
    · next hg => exact absurd hg g1
    · simp
    · exact ⟨by simp, fun out h => by cases h; trivial⟩
    · simp
    · next cur w hg =>
      obtain ⟨c1, c2⟩ := g2 _ _ _ hg
      refine ⟨by simp, fun out h => ?_⟩
      cases h
      obtain ⟨s1, s2⟩ := set_fine tape.left cur (hp .L) c1
      obtain ⟨s3, -⟩ := set_fine tape.right _ (hp .R) s2
      refine ⟨fun d => ?_, c2⟩
      cases d
      · exact fineH_filter s1 _
      · exact fineH_filter s3 _

/-- **Applying a rule.** -/
theorem applyRule_safe [Sums] (hS : SumsTotal) {T : Table} {Den : DC σ S → Config → Prop} {z : σ} {key : Strip σ S} {r : Rule σ}
    (h : RuleTrue T Den z key r) (hw : RuleFine r) {tape : ChainTape σ V} (hkey : key = strip valIsOne key.st tape) (he : EndsT z tape)
    (hp : FineT D tape) {o : Opts} (ho : o.maxReps ≠ 0) (nv : Nat) :
    (applyRule o r tape nv).1 ≠ .raise ∧ ∀ out, (applyRule o r tape nv).1 = .ok out → ResFine D out := by
  have len : ∀ init : ChainTape σ V, key = strip valIsOne key.st init → init.left ≠ [] → init.right ≠ [] →
      tape.left.length = init.left.length ∧ tape.right.length = init.right.length := by
    intro init hk h1 h2
    have hsh : strip valIsOne key.st init = strip valIsOne key.st tape := hk.symm.trans hkey
    unfold strip at hsh
    simp only [Strip.mk.injEq, true_and] at hsh
    obtain ⟨-, hl, hr⟩ := hsh
    exact ⟨(len_of_dropLast (b := tape.left) (by simpa using congrArg List.length hl) h1 (he .L).ne).symm,
      (len_of_dropLast (b := tape.right) (by simpa using congrArg List.length hr) h2 (he .R).ne).symm⟩
  cases r with
  | diff r =>
    obtain ⟨ll, lr, h⟩ := h
    obtain ⟨nl, nr⟩ := len r.init h.shape h.left.ne.1 h.right.ne.1
    exact diff_safe hS h.left h.right he hp nl nr hw nv
  | gen r =>
    obtain ⟨init, res, vl, vr, E, h⟩ := h
    obtain ⟨nl, nr⟩ := len init h.shape (grhalf_ne h.left) (grhalf_ne h.right)
    exact gen_safe h hw he hp nl nr ho

end Model.Recursive
