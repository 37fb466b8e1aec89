import Verif.Lemmas.ProverRule
import Verif.Lemmas.RecSums

/-!
# One step on a tape of expressions, seen from the base machine

Unlike the proofs about the simple proof system, these do not need neighbouring blocks to have different symbols, nor lengths to
be positive: a tape stands for the cells it unrolls to.
-/

namespace Model.Recursive
open Spec Model Model.Expr Model.Prover
variable {σ S : Type}

/-- Finite blocks, then infinitely many blanks. -/
inductive Ends (z : σ) : List (Blk σ V) → Prop
  | last : Ends z [⟨z, none⟩]
  | cons (a : σ) (v : V) {h : List (Blk σ V)} : Ends z h → Ends z (⟨a, some v⟩ :: h)

def EndsT (z : σ) (t : ChainTape σ V) : Prop := ∀ d, Ends z (t.half d)

theorem Ends.ne {z : σ} {h : List (Blk σ V)} (he : Ends z h) : h ≠ [] := by cases he <;> simp

/-- The block read is not empty. -/
def TopPos (y : Nat → Int) (h : List (Blk σ V)) : Prop :=
  ∀ b r, h = b :: r → ∀ v, b.num = some v → 1 ≤ Val.value y v

theorem popOne_cells {y : Nat → Int} {h h' : List (Blk σ V)} {g : List (Blk σ Nat)} (hr : HalfIs y h g)
    (ht : TopPos y h) (hp : ChainTape.popOne valOps h = some h') (z : σ) :
    ∃ g', HalfIs y h' g' ∧ unroll z g' = fun i => unroll z g (i + 1) := by
  cases hr with
  | nil => simp [ChainTape.popOne] at hp
  | @cons a b h g hab hrest =>
    obtain ⟨as, an⟩ := a
    obtain ⟨bs, bn⟩ := b
    obtain ⟨hsym, hnum⟩ := hab
    simp only at hsym hnum
    subst hsym
    cases an with
    | none =>
      have := numIs_none hnum
      subst this
      simp only [ChainTape.popOne, Option.some.injEq] at hp
      subst hp
      exact ⟨⟨as, none⟩ :: g, List.Forall₂.cons ⟨rfl, trivial⟩ hrest, rfl⟩
    | some v =>
      obtain ⟨n, rfl, hv⟩ := numIs_some hnum
      have hn := ht _ _ rfl v rfl
      obtain ⟨m, rfl⟩ : ∃ m, n = m + 1 := ⟨n - 1, by omega⟩
      have hv' : Val.value y (valOps.sub v (valOps.ofNat 1)) = m := by
        simp only [valOps, sub_value, value_num, hv]; push_cast; ring
      simp only [ChainTape.popOne] at hp
      by_cases hz : valOps.isZero (valOps.sub v (valOps.ofNat 1)) = true
      · rw [if_pos hz] at hp
        cases hp
        have h0 : Val.value y (valOps.sub v (valOps.ofNat 1)) = 0 := by
          have := eq_value (a := valOps.sub v (valOps.ofNat 1)) (b := .num 0) hz y
          simpa [value_num] using this
        have hm : m = 0 := by omega
        subst hm
        exact ⟨g, hrest, rfl⟩
      · rw [if_neg hz] at hp
        cases hp
        exact ⟨⟨as, some m⟩ :: g, List.Forall₂.cons ⟨rfl, hv'⟩ hrest, rfl⟩

theorem popOne_ends {z : σ} {h h' : List (Blk σ V)} (he : Ends z h) (hp : ChainTape.popOne valOps h = some h') :
    Ends z h' := by
  cases he with
  | last => simp only [ChainTape.popOne, Option.some.injEq] at hp; subst hp; exact .last
  | cons a v he =>
    simp only [ChainTape.popOne] at hp
    split at hp <;> cases hp
    · exact he
    · exact .cons _ _ he

variable [DecidableEq σ]

theorem push_cells {y : Nat → Int} {h h' : List (Blk σ V)} {g : List (Blk σ Nat)} (hr : HalfIs y h g) (sym : σ)
    {v : V} {n : Nat} (hv : Val.value y v = n) (hp : ChainTape.push valOps sym v h = some h') (z : σ) :
    ∃ g', HalfIs y h' g' ∧ unroll z g' = pre (List.replicate n sym) (unroll z g) := by
  cases hr with
  | nil => simp [ChainTape.push] at hp
  | @cons a b h g hab hrest =>
    obtain ⟨as, an⟩ := a
    obtain ⟨bs, bn⟩ := b
    obtain ⟨hsym, hnum⟩ := hab
    simp only at hsym hnum
    subst hsym
    simp only [ChainTape.push] at hp
    by_cases hs : as = sym
    · subst hs
      rw [if_pos rfl] at hp
      cases an with
      | none =>
        have := numIs_none hnum
        subst this
        cases hp
        exact ⟨⟨as, none⟩ :: g, List.Forall₂.cons ⟨rfl, trivial⟩ hrest, (replicate_const as n).symm⟩
      | some w =>
        obtain ⟨m, rfl, hw⟩ := numIs_some hnum
        cases hp
        refine ⟨⟨as, some (m + n)⟩ :: g, List.Forall₂.cons ⟨rfl, ?_⟩ hrest, ?_⟩
        · show Val.value y (Val.add w v) = ((m + n : Nat) : Int)
          rw [add_value, hw, hv]; push_cast; rfl
        · simp only [unroll_fin]
          rw [Nat.add_comm, ← List.replicate_append_replicate, pre_append]
    · rw [if_neg hs] at hp
      cases hp
      exact ⟨⟨sym, some n⟩ :: ⟨as, bn⟩ :: g,
        List.Forall₂.cons ⟨rfl, hv⟩ (List.Forall₂.cons ⟨rfl, hnum⟩ hrest), rfl⟩

theorem push_ends {z : σ} {h h' : List (Blk σ V)} (he : Ends z h) (sym : σ) (v : V)
    (hp : ChainTape.push valOps sym v h = some h') : Ends z h' := by
  cases he with
  | last =>
    simp only [ChainTape.push] at hp
    split at hp <;> cases hp
    · exact .last
    · exact .cons _ _ .last
  | cons a w he =>
    simp only [ChainTape.push] at hp
    split at hp <;> cases hp
    · exact .cons _ _ he
    · exact .cons _ _ (.cons _ _ he)

omit [DecidableEq σ] in
theorem ends_set {z : σ} {t : ChainTape σ V} (h : EndsT z t) (d : Dir) {g : List (Blk σ V)} (hg : Ends z g) :
    EndsT z (t.setHalf d g) := by
  intro e
  by_cases he : e = d
  · subst he; rwa [Prover.half_setHalf_same]
  · rw [Prover.half_setHalf_other _ _ he]; exact h e

omit [DecidableEq σ] in
theorem is_set {y : Nat → Int} {t : ChainTape σ V} {u : ChainTape σ Nat} (h : TapeIs y t u) (d : Dir)
    {g : List (Blk σ V)} {g' : List (Blk σ Nat)} (hg : HalfIs y g g') : TapeIs y (t.setHalf d g) (u.setHalf d g') := by
  rw [tapeIs_iff] at h ⊢
  refine ⟨by simpa using h.1, fun e => ?_⟩
  by_cases he : e = d
  · subst he; rw [Prover.half_setHalf_same, Prover.half_setHalf_same]; exact hg
  · rw [Prover.half_setHalf_other _ _ he, Prover.half_setHalf_other _ _ he]; exact h.2 e

theorem singleMove_ends {z : σ} {t t' : ChainTape σ V} (h : EndsT z t) (sym : σ) (d : Dir)
    (hp : t.singleMove valOps sym d = some t') : EndsT z t' ∧ t'.dir = d := by
  rw [singleMove_eq] at hp
  cases h1 : ChainTape.popOne valOps (t.half t.dir) with
  | none => rw [h1] at hp; cases hp
  | some g =>
    rw [h1] at hp
    simp only at hp
    have hs := ends_set h t.dir (popOne_ends (h t.dir) h1)
    cases h2 : ChainTape.push valOps sym (valOps.ofNat 1) ((t.setHalf t.dir g).half d.other) with
    | none => rw [h2] at hp; cases hp
    | some g' =>
      rw [h2] at hp
      cases hp
      refine ⟨fun e => ?_, rfl⟩
      rw [half_dir]
      exact ends_set hs d.other (push_ends (hs d.other) sym _ h2) e

theorem singleMove_cells {y : Nat → Int} {t t' : ChainTape σ V} {u : ChainTape σ Nat} (hr : TapeIs y t u)
    (ht : TopPos y (t.half t.dir)) (sym : σ) (d : Dir) (hp : t.singleMove valOps sym d = some t') (z : σ) (st st' : S) :
    ∃ u', TapeIs y t' u' ∧ tapeDC z u' st' = (tapeDC z u st).move sym st' d := by
  rw [singleMove_eq] at hp
  cases h1 : ChainTape.popOne valOps (t.half t.dir) with
  | none => rw [h1] at hp; cases hp
  | some h =>
    rw [h1] at hp
    simp only at hp
    have hdir := (tapeIs_iff.1 hr).1
    obtain ⟨g, hg, hu⟩ := popOne_cells ((tapeIs_iff.1 hr).2 t.dir) ht h1 z
    have hs := is_set hr t.dir hg
    cases h2 : ChainTape.push valOps sym (valOps.ofNat 1) ((t.setHalf t.dir h).half d.other) with
    | none => rw [h2] at hp; cases hp
    | some h' =>
      rw [h2] at hp
      cases hp
      obtain ⟨g', hg', hu'⟩ := push_cells ((tapeIs_iff.1 hs).2 d.other) sym (n := 1) rfl h2 z
      have hs' := is_set hs d.other hg'
      refine ⟨setDir ((u.setHalf t.dir g).setHalf d.other g') d, tapeIs_iff.2 ⟨rfl, fun e => ?_⟩, ?_⟩
      · rw [half_dir, half_dir]; exact (tapeIs_iff.1 hs').2 e
      · ext1
        · rfl
        · rfl
        · rename_i e
          show unroll z ((setDir ((u.setHalf t.dir g).setHalf d.other g') d).half e) = _
          rw [half_dir]
          have hbase : ∀ e, unroll z ((u.setHalf t.dir g).half e) = DC.rest (tapeDC z u st) e := by
            intro e
            unfold DC.rest tapeDC
            by_cases he : e = t.dir
            · subst he; rw [Prover.half_setHalf_same, hu]; simp [hdir]
            · rw [Prover.half_setHalf_other _ _ he]; simp [← hdir, he]
          rw [take_rest]
          by_cases he : e = d.other
          · subst he
            rw [Prover.half_setHalf_same, hu', hbase, if_pos rfl]; rfl
          · rw [Prover.half_setHalf_other _ _ he, hbase, if_neg he]

theorem chainMove_ends {z : σ} {t t' : ChainTape σ V} {r : Option V} (h : EndsT z t) (sym : σ)
    (hp : t.chainMove valOps sym = some (t', r)) : EndsT z t' ∧ t'.dir = t.dir := by
  unfold ChainTape.chainMove at hp
  have hd := h t.dir
  cases hh : t.half t.dir with
  | nil => rw [hh] at hd; cases hd
  | cons b rest =>
    rw [hh] at hp hd
    simp only at hp
    cases hd with
    | last => cases hp; exact ⟨h, rfl⟩
    | cons a v hr =>
      simp only at hp
      have hs := ends_set h t.dir hr
      cases h2 : ChainTape.push valOps sym v ((t.setHalf t.dir rest).half (t.setHalf t.dir rest).dir.other) with
      | none => rw [h2] at hp; cases hp
      | some g' =>
        rw [h2] at hp
        cases hp
        exact ⟨ends_set hs _ (push_ends (hs _) sym _ h2), by simp⟩

/-- A chain move on an infinite or a finite run. -/
theorem chainMove_cells {y : Nat → Int} {t t' : ChainTape σ V} {u : ChainTape σ Nat} {r : Option V} (hr : TapeIs y t u)
    (ht : TopPos y (t.half t.dir)) (sym : σ) (hp : t.chainMove valOps sym = some (t', r)) (z : σ) :
    (r = none ∧ t' = t ∧ ∃ a, t.topSymbol = some a ∧ unroll z (u.half t.dir) = fun _ => a) ∨
    ∃ a v u' rest n, r = some v ∧ t.topSymbol = some a ∧ 0 < n ∧ Val.value y v = (n : Nat) ∧ TapeIs y t' u' ∧
      unroll z (u.half t.dir) = pre (List.replicate n a) rest ∧ unroll z (u'.half t.dir) = rest ∧
      unroll z (u'.half t.dir.other) = pre (List.replicate n sym) (unroll z (u.half t.dir.other)) := by
  unfold ChainTape.chainMove at hp
  unfold ChainTape.topSymbol
  have hd := (tapeIs_iff.1 hr).2 t.dir
  cases hh : t.half t.dir with
  | nil => rw [hh] at hp; cases hp
  | cons b rest =>
    rw [hh] at hp hd ht
    simp only at hp
    generalize hg : u.half t.dir = g at hd
    cases hd with
    | @cons _ c _ g hab hrest =>
      obtain ⟨as, an⟩ := b
      obtain ⟨bs, bn⟩ := c
      obtain ⟨hsym, hnum⟩ := hab
      simp only at hsym hnum
      subst hsym
      cases an with
      | none =>
        have := numIs_none hnum
        subst this
        cases hp
        exact Or.inl ⟨rfl, rfl, as, rfl, rfl⟩
      | some v =>
        obtain ⟨n, rfl, hv⟩ := numIs_some hnum
        have hn := ht _ _ rfl v rfl
        simp only at hp
        have hs := is_set hr t.dir hrest
        have ho := Dir.other_ne t.dir
        rw [dir_setHalf] at hp
        cases h2 : ChainTape.push valOps sym v ((t.setHalf t.dir rest).half t.dir.other) with
        | none => rw [h2] at hp; cases hp
        | some h' =>
          rw [h2] at hp
          cases hp
          obtain ⟨g', hg', hu'⟩ := push_cells ((tapeIs_iff.1 hs).2 t.dir.other) sym hv h2 z
          refine Or.inr ⟨as, v, _, _, n, rfl, rfl, by omega, hv, is_set hs t.dir.other hg', rfl, ?_, ?_⟩
          · rw [Prover.half_setHalf_other _ _ (Ne.symm ho), Prover.half_setHalf_same]
          · rw [Prover.half_setHalf_same, hu', Prover.half_setHalf_other _ _ ho]

omit [DecidableEq σ] in
theorem front_cells {y : Nat → Int} {t : ChainTape σ V} {u : ChainTape σ Nat} (hr : TapeIs y t u)
    (ht : TopPos y (t.half t.dir)) {a : σ} (ha : t.topSymbol = some a) (z : σ) (st : S) : (tapeDC z u st).front = a := by
  unfold ChainTape.topSymbol at ha
  have hd := (tapeIs_iff.1 hr).2 t.dir
  have hdir := (tapeIs_iff.1 hr).1
  unfold DC.front tapeDC
  simp only
  rw [← hdir]
  cases hh : t.half t.dir with
  | nil => rw [hh] at ha; cases ha
  | cons b rest =>
    rw [hh] at ha hd ht
    simp only [List.head?_cons, Option.map_some, Option.some.injEq] at ha
    subst ha
    generalize u.half t.dir = g at hd
    cases hd with
    | @cons _ c _ g hab hrest =>
      obtain ⟨as, an⟩ := b
      obtain ⟨bs, bn⟩ := c
      obtain ⟨hsym, hnum⟩ := hab
      simp only at hsym hnum
      subst hsym
      cases an with
      | none => have := numIs_none hnum; subst this; rfl
      | some v =>
        obtain ⟨n, rfl, hv⟩ := numIs_some hnum
        have hn := ht _ _ rfl v rfl
        obtain ⟨m, rfl⟩ : ∃ m, n = m + 1 := ⟨n - 1, by omega⟩
        rfl

/-! ## The step -/

/-- the value, as a rational -/
abbrev qv (y : Nat → Int) (v : V) : ℚ := ((Val.value y v : Int) : ℚ)

/-- What the base machine does from `cfg`, by the simulator `s'` after one step from `s`, with the variables set by `y`; `w` is the
number of steps that the simulator counts apart from `steps`, right if the sums are. -/
structure StepOK [Sums] (T : Table) (M : Machine σ S) (Den : DC σ S → Config → Prop) (TDen : DC σ S → (Int → Nat) → Prop) (z : σ)
    (y : Nat → Int) (cfg : Config) (s s' : SimSt σ S V) (w : ℚ) : Prop where
  run : s'.op = .running → ∃ u n, TapeIs y s'.tape u ∧ 0 < n ∧ Den (tapeDC z u s'.st) (run T n cfg) ∧
    (∀ q, q ∈ s'.seen.map (·.1) ↔ q ∈ s.seen.map (·.1) ∨ ∃ k, k < n ∧ VisitedAt T cfg q k) ∧
    (SumsRight → qv y s'.steps + w = qv y s.steps + n)
  gave : s'.op = .gaveUp → ∃ u, TapeIs y s'.tape u ∧ Den (tapeDC z u s'.st) cfg ∧
    (SumsRight → qv y s'.steps + w = qv y s.steps)
  halt : s'.op = .halt ∨ s'.op = .undefined → ∃ u n, TapeIs y s'.tape u ∧ HaltsAt T cfg n ∧
    TDen (tapeDC z u s'.st) (Spec.run T n cfg).tape ∧ CellOK T cfg n s'.cell (s'.op = .undefined) ∧
    (SumsRight → qv y s'.steps + w = qv y s.steps + n)
  inf : s'.op = .infRepeat →
    (s'.infReason = some .macroStep ∧ (FollowsInf T M Den → NeverHalts T cfg)) ∨
    (s'.infReason ≠ some .macroStep ∧ NeverHalts T cfg ∧ ∀ q, VisitedForever T cfg q ↔ q ∈ s'.recur)

omit [DecidableEq σ] in
theorem addSeen_keys (base : V) (q : Nat) : ∀ (new : List (Nat × Nat)) (d : List (Nat × V)),
    q ∈ (SimSt.addSeen valOps d base new).map (·.1) ↔ q ∈ d.map (·.1) ∨ q ∈ new.map (·.1)
  | [], d => by simp [SimSt.addSeen]
  | e :: new, d => by
    have := addSeen_keys base q new (Py.dset d e.1 (valOps.add base (valOps.ofNat e.2)))
    unfold SimSt.addSeen at this ⊢
    rw [List.foldl_cons, this, Py.mem_keys_dset]
    simp only [List.map_cons, List.mem_cons]
    tauto

variable [DecidableEq S]

theorem macroStep_ends {z : σ} (M : Machine σ S) {s : SimSt σ S V} (h : EndsT z s.tape) (hd : s.dir = s.tape.dir) :
    EndsT z (s.macroStep valOps M).tape ∧ (s.macroStep valOps M).dir = (s.macroStep valOps M).tape.dir := by
  unfold SimSt.macroStep
  cases htop : s.tape.topSymbol with
  | none => exact ⟨h, hd⟩
  | some cur =>
    simp only
    generalize M.trans cur s.st s.dir = t
    split
    · exact ⟨h, hd⟩
    split
    · exact ⟨h, hd⟩
    split
    · cases hc : s.tape.chainMove valOps t.sym with
      | none => exact ⟨h, hd⟩
      | some p =>
        obtain ⟨t', r⟩ := p
        obtain ⟨h1, h2⟩ := chainMove_ends h t.sym hc
        cases r with
        | none => exact ⟨h1, by rw [h2]; exact hd⟩
        | some v => exact ⟨h1, by rw [h2]; exact hd⟩
    split
    · cases hc : s.tape.singleMove valOps t.sym t.dir with
      | none => exact ⟨h, hd⟩
      | some t' =>
        obtain ⟨h1, h2⟩ := singleMove_ends h t.sym t.dir hc
        exact ⟨h1, h2.symm⟩
    · exact ⟨h, hd⟩

theorem macroStep_dc [Sums] {T : Table} {M : Machine σ S} {Den TDen hs} (F : Follows T M Den TDen hs) {z : σ} {y : Nat → Int}
    {cfg : Config} {s : SimSt σ S V} (hd : s.dir = s.tape.dir) {u : ChainTape σ Nat} (hu : TapeIs y s.tape u)
    (ht : TopPos y (s.tape.half s.tape.dir)) (hden : Den (tapeDC z u s.st) cfg) :
    StepOK T M Den TDen z y cfg s (s.macroStep valOps M) 0 := by
  have hdir := (tapeIs_iff.1 hu).1
  unfold SimSt.macroStep
  cases htop : s.tape.topSymbol with
  | none => exact ⟨by simp [SimSt.raise], by simp [SimSt.raise], by simp [SimSt.raise], by simp [SimSt.raise]⟩
  | some cur =>
    have hfr := front_cells hu ht htop z s.st
    simp only
    obtain ⟨t, ht'⟩ : ∃ t, M.trans cur s.st s.dir = t := ⟨_, rfl⟩
    rw [ht']
    have htr : M.trans (tapeDC z u s.st).front (tapeDC z u s.st).st (tapeDC z u s.st).dir = t := by
      rw [hfr]; show M.trans cur s.st u.dir = t; rw [← hdir, ← hd]; exact ht'
    have hlive := (F.live _ _ hden).1
    by_cases hraise : t.cond = .raised
    · rw [if_pos hraise]
      exact ⟨by simp [hraise], by simp [hraise], by simp [hraise], by simp [hraise]⟩
    rw [if_neg hraise]
    by_cases hinf : t.cond = .infRepeat
    · rw [if_pos hinf]
      refine ⟨by simp [hinf], by simp [hinf], by simp [hinf], fun _ => Or.inl ⟨rfl, fun FI => ?_⟩⟩
      exact (FI _ _ hden t htr hinf).1
    rw [if_neg hinf]
    by_cases hch : t.st = s.st ∧ t.dir = s.dir ∧ t.cond = .running
    · rw [if_pos hch]
      obtain ⟨hc1, hc2, hc3⟩ := hch
      cases hcm : s.tape.chainMove valOps t.sym with
      | none => exact ⟨by simp [SimSt.raise], by simp [SimSt.raise], by simp [SimSt.raise], by simp [SimSt.raise]⟩
      | some p =>
        obtain ⟨t', r⟩ := p
        have hfront : ∀ a, s.tape.topSymbol = some a → a = cur := fun a ha => by rw [htop] at ha; cases ha; rfl
        rcases chainMove_cells hu ht t.sym hcm z with ⟨rfl, rfl, a, ha, hside⟩ | ⟨a, v, u', rest, n, rfl, ha, hn, hv, hu', hside, hr1, hr2⟩
        · simp only
          have := hfront a ha
          subst this
          obtain ⟨h1, h2⟩ := chain_forever F (c := tapeDC z u s.st) (a := a) (by rw [← htr, hfr]) hc1
            (by rw [hc2, hd, hdir]; rfl) hc3 (by show unroll z (u.half u.dir) = _; rw [← hdir]; exact hside) cfg hden
          exact ⟨by simp, by simp, by simp, fun _ => Or.inr ⟨by simp, h1, fun q => (h2 q).1⟩⟩
        · simp only
          have := hfront a ha
          subst this
          have hpos := (F.run _ _ hden t htr hc3).1
          obtain ⟨r1, r2, r3⟩ := chain_run F (c := tapeDC z u s.st) (a := a) (rest := rest) (by rw [← htr, hfr]) hc1
            (by rw [hc2, hd, hdir]; rfl) hc3 n (by show unroll z (u.half u.dir) = _; rw [← hdir]; exact hside) cfg hden
          have hd' : u'.dir = u.dir := by
            rw [← hdir, ← (tapeIs_iff.1 hu').1]
            unfold ChainTape.chainMove at hcm
            split at hcm
            · cases hcm
            · split at hcm
              · cases hcm
              · simp only at hcm
                split at hcm
                · cases hcm
                · cases hcm; simp
          refine ⟨fun _ => ⟨u', t.steps * n, hu', Nat.mul_pos hpos hn, ?_, fun q => ?_, fun _ => ?_⟩, by simp [hc3], by simp [hc3],
            by simp [hc3]⟩
          · convert r1 using 1
            ext1
            · rfl
            · exact hd'
            · rename_i e
              show unroll z (u'.half e) = if e = u.dir then rest else pre (List.replicate n t.sym) (unroll z (u.half e))
              by_cases he : e = u.dir
              · subst he; rw [if_pos rfl, ← hdir, hr1]
              · have he' := Dir.ne_iff.1 he
                subst he'
                rw [if_neg he, ← hdir, hr2]
          · show q ∈ (SimSt.addSeen valOps _ _ _).map _ ↔ _
            rw [addSeen_keys]
            have h0 := (r2 hn 0 cfg [] (seenExact_nil _ _) rfl).mem (q := q)
            rw [Nat.zero_add, mergeSeen_keys] at h0
            simp only [List.map_nil, List.not_mem_nil, or_false] at h0
            exact or_congr Iff.rfl (by simpa using h0)
          · show qv y (s.steps.add ((Val.num (t.steps : Int)).mul v)) + 0 = _
            unfold qv; rw [add_value, mul_value, value_num, hv]; push_cast; ring
    rw [if_neg hch]
    by_cases hg : t.cond = .gaveUp
    · rw [if_neg (by simpa using hg)]
      exact ⟨by simp [hg], fun _ => ⟨u, hu, hden, fun _ => by simp⟩, by simp [hg], by simp [hg]⟩
    rw [if_pos hg]
    cases hsm : s.tape.singleMove valOps t.sym t.dir with
    | none => exact ⟨by simp [SimSt.raise], by simp [SimSt.raise], by simp [SimSt.raise], by simp [SimSt.raise]⟩
    | some t' =>
      obtain ⟨u', hu', hdc⟩ := singleMove_cells hu ht t.sym t.dir hsm z s.st t.st
      simp only
      have hhalt : t.cond = .halt ∨ t.cond = .undefined → ∃ u n, TapeIs y t' u ∧ HaltsAt T cfg n ∧
          TDen (tapeDC z u t.st) (Spec.run T n cfg).tape ∧ CellOK T cfg n t.cell (t.cond = .undefined) ∧
          (SumsRight → qv y (s.steps.add (Val.num (t.steps : Int))) + 0 = qv y s.steps + n) := fun hh => by
        obtain ⟨h1, h2, h3, h4, h5⟩ := F.halt _ _ hden t htr hh
        exact ⟨u', t.steps, hu', h2, by rw [hdc]; exact h3, h5, fun _ => by unfold qv; rw [add_value, value_num]; push_cast; ring⟩
      refine ⟨fun hrun => ?_, fun h => absurd h hg, hhalt, fun h => absurd h hinf⟩
      obtain ⟨h1, h2, h3⟩ := F.run _ _ hden t htr hrun
      refine ⟨u', t.steps, hu', h1, by rw [hdc]; exact h2, fun q => ?_, fun _ => ?_⟩
      swap
      · show qv y (s.steps.add (Val.num (t.steps : Int))) + 0 = _
        unfold qv; rw [add_value, value_num]; push_cast; ring
      show q ∈ (SimSt.addSeen valOps _ _ _).map _ ↔ _
      rw [addSeen_keys, h3.mem]

end Model.Recursive
