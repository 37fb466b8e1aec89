import Verif.Lemmas.ProverSym
import Verif.Lemmas.ProverExpr

/-! # The symbolic run of a proof: its invariant, and what it says about every run with numbers -/

namespace Model.Prover
open Spec Model Model.Expr
variable {σ S : Type}

/-- A half tape in a proof: run lengths, then infinitely many blanks. -/
inductive GHalf (z : σ) : List (Blk σ V) → Prop
  | last : GHalf z [⟨z, none⟩]
  | cons (a : σ) {v : V} {h : List (Blk σ V)} : CountV v → GHalf z h → GHalf z (⟨a, some v⟩ :: h)

def blkVars (b : Blk σ V) : List Nat := match b.num with | some v => v.variables | none => []

/-- the variables of a half tape -/
def hvars (h : List (Blk σ V)) : List Nat := h.flatMap blkVars

@[simp] theorem hvars_nil : hvars ([] : List (Blk σ V)) = [] := rfl
@[simp] theorem hvars_some (a : σ) (v : V) (h) : hvars (⟨a, some v⟩ :: h) = v.variables ++ hvars h := rfl
@[simp] theorem hvars_none (a : σ) (h : List (Blk σ V)) : hvars (⟨a, none⟩ :: h) = hvars h := rfl

/-- some run length has two variables -/
def BadIn (h : List (Blk σ V)) : Prop := ∃ b ∈ h, 2 ≤ (blkVars b).length

theorem popOne_good {z : σ} {h : List (Blk σ V)} (hg : GHalf z h) :
    ∃ h', ChainTape.popOne valOps h = some h' ∧ GHalf z h' ∧ hvars h' = hvars h := by
  cases hg with
  | last => exact ⟨_, rfl, .last, rfl⟩
  | @cons a v h hv hg =>
    simp only [ChainTape.popOne]
    rcases count_pred hv with ⟨h0, rfl⟩ | ⟨h0, h1, h2⟩
    · rw [if_pos h0]; exact ⟨_, rfl, hg, rfl⟩
    · rw [if_neg (by rw [h0]; simp)]
      exact ⟨_, rfl, .cons a h1 hg, by rw [hvars_some, hvars_some, h2]⟩

theorem push_good [DecidableEq σ] {z : σ} {h : List (Blk σ V)} (hg : GHalf z h) (sym : σ) {v : V} (hv : CountV v)
    (hn : (hvars h).Nodup) (hd : ∀ x ∈ v.variables, x ∉ hvars h) :
    ∃ h', ChainTape.push valOps sym v h = some h' ∧
      (BadIn h' ∨ GHalf z h' ∧ (hvars h').Nodup ∧ ∀ x ∈ hvars h', x ∈ v.variables ∨ x ∈ hvars h) := by
  have hvn : v.variables.Nodup := by cases hv <;> simp
  cases hg with
  | last =>
    simp only [ChainTape.push]
    by_cases hs : z = sym
    · rw [if_pos hs]; exact ⟨_, rfl, Or.inr ⟨.last, by simp, fun x hx => Or.inr hx⟩⟩
    · rw [if_neg hs]
      exact ⟨_, rfl, Or.inr ⟨.cons _ hv .last, by simpa using hvn, fun x hx => by simpa using hx⟩⟩
  | @cons a w h hw hg =>
    simp only [ChainTape.push]
    by_cases hs : a = sym
    · rw [if_pos hs]
      refine ⟨_, rfl, ?_⟩
      rw [hvars_some, List.nodup_append] at hn
      rcases count_add hw hv (fun x hx hx' => hd x hx' (by simp [hx])) with ⟨h1, h2⟩ | hbad
      · right
        refine ⟨.cons a h1 hg, ?_, ?_⟩
        · rw [hvars_some]
          show (Val.variables (Val.add w v) ++ hvars h).Nodup
          rw [h2, List.append_assoc, List.nodup_append]
          refine ⟨hn.1, ?_, ?_⟩
          · rw [List.nodup_append]
            refine ⟨hvn, hn.2.1, fun x hx y hy e => ?_⟩
            subst e
            exact hd x hx (by simp [hy])
          · intro x hx y hy e
            subst e
            rcases List.mem_append.1 hy with hy | hy
            · exact hd x hy (by simp [hx])
            · exact hn.2.2 x hx x hy rfl
        · intro x hx
          rw [hvars_some] at hx ⊢
          have hx : x ∈ Val.variables (Val.add w v) ++ hvars h := hx
          rw [h2] at hx
          simp only [List.mem_append] at hx ⊢
          tauto
      · left
        exact ⟨_, List.mem_cons_self, hbad⟩
    · rw [if_neg hs]
      refine ⟨_, rfl, Or.inr ⟨.cons _ hv (.cons _ hw hg), ?_, fun x hx => by simpa using hx⟩⟩
      rw [hvars_some, List.nodup_append]
      exact ⟨hvn, hn, fun x hx y hy e => hd x hx (e ▸ hy)⟩

/-- A tape in a proof: every variable occurs once. -/
structure GTape (z : σ) (t : ChainTape σ V) : Prop where
  good : ∀ d, GHalf z (t.half d)
  nodup : ∀ d, (hvars (t.half d)).Nodup
  disj : ∀ d, ∀ x ∈ hvars (t.half d), x ∉ hvars (t.half d.other)

def TVar (t : ChainTape σ V) (x : Nat) : Prop := ∃ d, x ∈ hvars (t.half d)

def BadTape (t : ChainTape σ V) : Prop := ∃ d, BadIn (t.half d)

theorem other_eq {d e : Dir} (h : e ≠ d) : e = d.other := by cases d <;> cases e <;> simp_all [Dir.other]
theorem other_other (d : Dir) : d.other.other = d := by cases d <;> rfl

/-- pushing onto a tape -/
theorem gpush [DecidableEq σ] {z : σ} {t : ChainTape σ V} (hg : GTape z t) (sym : σ) {v : V} (hv : CountV v) (d : Dir)
    (hd : ∀ x ∈ v.variables, ∀ e, x ∉ hvars (t.half e)) :
    ∃ h', ChainTape.push valOps sym v (t.half d) = some h' ∧
      (BadTape (t.setHalf d h') ∨
        GTape z (t.setHalf d h') ∧ ∀ x, TVar (t.setHalf d h') x → x ∈ v.variables ∨ TVar t x) := by
  obtain ⟨h', hp, hc⟩ := push_good (hg.good d) sym hv (hg.nodup d) (fun x hx => hd x hx d)
  refine ⟨h', hp, ?_⟩
  rcases hc with hb | ⟨h1, h2, h3⟩
  · left; exact ⟨d, by rwa [half_setHalf_same]⟩
  · right
    refine ⟨⟨fun e => ?_, fun e => ?_, fun e x hx => ?_⟩, ?_⟩
    · by_cases he : e = d
      · subst he; rwa [half_setHalf_same]
      · rw [half_setHalf_other _ _ he]; exact hg.good e
    · by_cases he : e = d
      · subst he; rwa [half_setHalf_same]
      · rw [half_setHalf_other _ _ he]; exact hg.nodup e
    · by_cases he : e = d
      · subst he
        rw [half_setHalf_same] at hx
        rw [half_setHalf_other _ _ (Dir.other_ne _)]
        rcases h3 x hx with hx | hx
        · exact hd x hx _
        · exact hg.disj e x hx
      · have he' : e.other = d := by rw [other_eq he, other_other]
        rw [half_setHalf_other _ _ he] at hx
        rw [he', half_setHalf_same]
        intro hx'
        rcases h3 x hx' with hx' | hx'
        · exact hd x hx' e hx
        · exact hg.disj e x hx (he' ▸ hx')
    · rintro x ⟨e, hx⟩
      by_cases he : e = d
      · subst he
        rw [half_setHalf_same] at hx
        rcases h3 x hx with hx | hx
        · exact Or.inl hx
        · exact Or.inr ⟨e, hx⟩
      · rw [half_setHalf_other _ _ he] at hx
        exact Or.inr ⟨e, hx⟩

theorem gset {z : σ} {t : ChainTape σ V} (hg : GTape z t) (d : Dir) {h : List (Blk σ V)} (hh : GHalf z h)
    (hn : (hvars h).Nodup) (hs : ∀ x ∈ hvars h, x ∈ hvars (t.half d)) : GTape z (t.setHalf d h) := by
  refine ⟨fun e => ?_, fun e => ?_, fun e x hx => ?_⟩
  · by_cases he : e = d
    · subst he; rwa [half_setHalf_same]
    · rw [half_setHalf_other _ _ he]; exact hg.good e
  · by_cases he : e = d
    · subst he; rwa [half_setHalf_same]
    · rw [half_setHalf_other _ _ he]; exact hg.nodup e
  · by_cases he : e = d
    · subst he
      rw [half_setHalf_same] at hx
      rw [half_setHalf_other _ _ (Dir.other_ne _)]
      exact hg.disj e x (hs x hx)
    · have he' : e.other = d := by rw [other_eq he, other_other]
      rw [half_setHalf_other _ _ he] at hx
      rw [he', half_setHalf_same]
      intro hx'
      exact hg.disj e x hx (he' ▸ hs x hx')

theorem gdir {z : σ} {t : ChainTape σ V} (hg : GTape z t) (d : Dir) : GTape z (setDir t d) :=
  ⟨fun e => by rw [half_dir]; exact hg.good e, fun e => by rw [half_dir]; exact hg.nodup e,
    fun e x hx => by rw [half_dir] at *; exact hg.disj e x hx⟩

theorem singleMove_good [DecidableEq σ] {z : σ} {t : ChainTape σ V} (hg : GTape z t) (sym : σ) (d : Dir) :
    ∃ t', t.singleMove valOps sym d = some t' ∧ t'.dir = d ∧
      (BadTape t' ∨ GTape z t' ∧ ∀ x, TVar t' x → TVar t x) := by
  rw [singleMove_eq]
  obtain ⟨h, hp, hgh, hv⟩ := popOne_good (hg.good t.dir)
  rw [hp]
  have hg1 : GTape z (t.setHalf t.dir h) := gset hg _ hgh (hv ▸ hg.nodup _) (fun x hx => hv ▸ hx)
  obtain ⟨h', hp', hc⟩ := gpush hg1 sym (v := valOps.ofNat 1) (.num 1 (by decide)) d.other (fun x hx => by simp [valOps] at hx)
  simp only
  rw [hp']
  refine ⟨_, rfl, rfl, ?_⟩
  rcases hc with ⟨e, hb⟩ | ⟨hg2, hv2⟩
  · exact Or.inl ⟨e, by rwa [half_dir]⟩
  · refine Or.inr ⟨gdir hg2 d, ?_⟩
    rintro x ⟨e, hx⟩
    rw [half_dir] at hx
    rcases hv2 x ⟨e, hx⟩ with hx | ⟨e, hx⟩
    · simp [valOps] at hx
    · by_cases he : e = t.dir
      · subst he; rw [half_setHalf_same, hv] at hx; exact ⟨_, hx⟩
      · rw [half_setHalf_other _ _ he] at hx; exact ⟨e, hx⟩

theorem chainMove_good [DecidableEq σ] {z : σ} {t : ChainTape σ V} (hg : GTape z t) (sym : σ) :
    ∃ t' reps, t.chainMove valOps sym = some (t', reps) ∧ t'.dir = t.dir ∧
      (BadTape t' ∨ GTape z t' ∧ (∀ x, TVar t' x → TVar t x)) ∧
      ∀ v, reps = some v → CountV v ∧ ∀ x ∈ v.variables, TVar t x := by
  unfold ChainTape.chainMove
  have hgd := hg.good t.dir
  cases hh : t.half t.dir with
  | nil => rw [hh] at hgd; cases hgd
  | cons b rest =>
    rw [hh] at hgd
    cases hgd with
    | last => exact ⟨t, none, rfl, rfl, Or.inr ⟨hg, fun x hx => hx⟩, by simp⟩
    | @cons a v rest hv hr =>
      simp only
      have hsub : ∀ x ∈ hvars rest, x ∈ hvars (t.half t.dir) := by intro x hx; rw [hh]; simp [hx]
      have hnd := hg.nodup t.dir
      rw [hh, hvars_some, List.nodup_append] at hnd
      have hg1 : GTape z (t.setHalf t.dir rest) := gset hg _ hr hnd.2.1 hsub
      have hvt : ∀ x ∈ v.variables, x ∈ hvars (t.half t.dir) := by intro x hx; rw [hh]; simp [hx]
      obtain ⟨h', hp', hc⟩ := gpush hg1 sym hv t.dir.other (by
        intro x hx e
        by_cases he : e = t.dir
        · subst he; rw [half_setHalf_same]; exact fun hx' => hnd.2.2 x hx x hx' rfl
        · rw [half_setHalf_other _ _ he, other_eq he]; exact hg.disj t.dir x (hvt x hx))
      rw [dir_setHalf, hp']
      refine ⟨_, _, rfl, by simp, ?_, ?_⟩
      · rcases hc with hb | ⟨hg2, hv2⟩
        · exact Or.inl hb
        · refine Or.inr ⟨hg2, fun x hx => ?_⟩
          rcases hv2 x hx with hx | ⟨e, hx⟩
          · exact ⟨_, hvt x hx⟩
          · by_cases he : e = t.dir
            · subst he; rw [half_setHalf_same] at hx; exact ⟨_, hsub x hx⟩
            · rw [half_setHalf_other _ _ he] at hx; exact ⟨e, hx⟩
      · intro w hw
        cases hw
        exact ⟨hv, fun x hx => ⟨_, hvt x hx⟩⟩

/-! ## The minima -/

/-- all minima are finite -/
def Fin (mins : List (Nat × Option Int)) : Prop := ∀ x w, Py.dget mins x = some w → ∃ m, w = some m

/-- the same variables, with smaller minima -/
def MinsLe (mins' mins : List (Nat × Option Int)) : Prop :=
  ∀ x, (Py.dget mins x = none → Py.dget mins' x = none) ∧
    ∀ m, Py.dget mins x = some (some m) → ∃ m', Py.dget mins' x = some (some m') ∧ m' ≤ m

theorem minsLe_refl (mins) : MinsLe mins mins := fun x => ⟨id, fun m h => ⟨m, h, le_refl _⟩⟩

theorem minsLe_trans {a b c} (h1 : MinsLe a b) (h2 : MinsLe b c) : MinsLe a c := fun x =>
  ⟨fun h => (h1 x).1 ((h2 x).1 h), fun m h => by
    obtain ⟨m1, h3, h4⟩ := (h2 x).2 m h
    obtain ⟨m2, h5, h6⟩ := (h1 x).2 m1 h3
    exact ⟨m2, h5, le_trans h6 h4⟩⟩

/-- the minima are at most the constants on the tape -/
def MinsOf (mins : List (Nat × Option Int)) (h : List (Blk σ V)) : Prop :=
  ∀ b ∈ h, ∀ x c, b.num = some (.expr (varPlus x c)) → ∃ m, Py.dget mins x = some (some m) ∧ m ≤ c

theorem minsOf_le {mins mins' : List (Nat × Option Int)} {h : List (Blk σ V)} (hm : MinsOf mins h)
    (hl : MinsLe mins' mins) : MinsOf mins' h := by
  intro b hb x c hx
  obtain ⟨m, h1, h2⟩ := hm b hb x c hx
  obtain ⟨m', h3, h4⟩ := (hl x).2 m h1
  exact ⟨m', h3, le_trans h4 h2⟩

theorem updMins_ok (mins : List (Nat × Option Int)) (hf : Fin mins) : ∀ (h : List (Blk σ V)) (mins'),
    (∀ b ∈ h, ∀ v, b.num = some v → CountV v) → updMins h mins = .ok mins' →
    Fin mins' ∧ MinsLe mins' mins ∧ MinsOf mins' h := by
  intro h
  induction h generalizing mins with
  | nil => intro mins' _ h; cases h; exact ⟨hf, minsLe_refl _, fun b hb => absurd hb (by simp)⟩
  | cons b h ih =>
    intro mins' hc hu
    unfold updMins at hu
    have hrest : ∀ b ∈ h, ∀ v, b.num = some v → CountV v := fun b' hb' => hc b' (by simp [hb'])
    cases hb : b.num with
    | none =>
      rw [hb] at hu
      simp only [updMin] at hu
      obtain ⟨h1, h2, h3⟩ := ih mins hf mins' hrest hu
      refine ⟨h1, h2, ?_⟩
      intro b' hb' x c hx
      rcases List.mem_cons.1 hb' with rfl | hb'
      · rw [hb] at hx; cases hx
      · exact h3 b' hb' x c hx
    | some v =>
      rw [hb] at hu
      have hv := hc b (by simp) v hb
      cases hv with
      | num k hk =>
        simp only [updMin, variables_num] at hu
        obtain ⟨h1, h2, h3⟩ := ih mins hf mins' hrest hu
        refine ⟨h1, h2, ?_⟩
        intro b' hb' x c hx
        rcases List.mem_cons.1 hb' with rfl | hb'
        · rw [hb] at hx; cases hx
        · exact h3 b' hb' x c hx
      | var x c =>
        simp only [updMin, variables_varPlus, minVal_varPlus] at hu
        cases hm : Py.dget mins x with
        | none => rw [hm] at hu; cases hu
        | some w =>
          obtain ⟨m, rfl⟩ := hf x w hm
          rw [hm] at hu
          simp only [minOpt] at hu
          have hle : (if c < m then c else m) ≤ m ∧ (if c < m then c else m) ≤ c := by split <;> omega
          generalize hmm : (if c < m then c else m) = m' at hu hle
          obtain ⟨h1, h2, h3⟩ := ih (Py.dset mins x (some m')) (by
            intro x' w' hw'
            rw [Py.dget_dset] at hw'
            split at hw'
            · cases hw'; exact ⟨_, rfl⟩
            · exact hf x' w' hw') mins' hrest hu
          have hl : MinsLe (Py.dset mins x (some m')) mins := by
            intro x'
            rw [Py.dget_dset]
            by_cases hx : x' = x
            · subst hx
              rw [if_pos rfl]
              refine ⟨fun h => by (rw [hm] at h; cases h), fun m2 h => ?_⟩
              rw [hm] at h; cases h
              exact ⟨_, rfl, hle.1⟩
            · rw [if_neg hx]
              exact ⟨id, fun m h => ⟨m, h, le_refl _⟩⟩
          refine ⟨h1, minsLe_trans h2 hl, ?_⟩
          intro b' hb' x' c' hx'
          rcases List.mem_cons.1 hb' with rfl | hb'
          · rw [hb] at hx'
            have e : varPlus x c = varPlus x' c' := by simpa using hx'
            have ex : x = x' := by simpa [varPlus] using congrArg Expr.terms e
            have ec : c = c' := congrArg Expr.const e
            subst ex; subst ec
            obtain ⟨m2, h4, h5⟩ := (h2 x).2 m' (by rw [Py.dget_dset, if_pos rfl])
            exact ⟨m2, h4, le_trans h5 hle.2⟩
          · exact h3 b' hb' x' c' hx'

theorem updMins_bad : ∀ (h : List (Blk σ V)) (mins mins'), BadIn h → updMins h mins ≠ .ok mins' := by
  intro h
  induction h with
  | nil => rintro mins mins' ⟨b, hb, -⟩; simp at hb
  | cons b h ih =>
    rintro mins mins' ⟨b', hb', h2⟩ hu
    unfold updMins at hu
    rcases List.mem_cons.1 hb' with rfl | hb'
    · unfold blkVars at h2
      cases hb : b'.num with
      | none => rw [hb] at h2; simp at h2
      | some v =>
        rw [hb] at h2 hu
        simp only at h2
        match hv : v.variables with
        | [] => rw [hv] at h2; simp at h2
        | [x] => rw [hv] at h2; simp at h2
        | x :: x' :: r => simp only [updMin, hv] at hu; cases hu
    · cases hum : updMin mins b.num with
      | raise => rw [hum] at hu; cases hu
      | fail => rw [hum] at hu; cases hu
      | ok m => rw [hum] at hu; exact ih m mins' ⟨b', hb', h2⟩ hu

theorem ghalf_count {z : σ} {h : List (Blk σ V)} (hg : GHalf z h) : ∀ b ∈ h, ∀ v, b.num = some v → CountV v := by
  induction hg with
  | last => intro b hb v hv; simp at hb; subst hb; cases hv
  | cons a hv hg ih =>
    intro b hb w hw
    rcases List.mem_cons.1 hb with rfl | hb
    · cases hw; exact hv
    · exact ih b hb w hw

/-- values of the variables that keep all run lengths positive -/
def GoodRho (y : Nat → Int) (mins : List (Nat × Option Int)) : Prop :=
  ∀ x m, Py.dget mins x = some (some m) → 1 - m ≤ y x

theorem goodRho_le {y : Nat → Int} {mins mins' : List (Nat × Option Int)} (h : GoodRho y mins') (hl : MinsLe mins' mins) :
    GoodRho y mins := by
  intro x m hm
  obtain ⟨m', h1, h2⟩ := (hl x).2 m hm
  have := h x m' h1
  omega

theorem pos_of {y : Nat → Int} {mins : List (Nat × Option Int)} (hy : GoodRho y mins) {h : List (Blk σ V)}
    (hc : ∀ b ∈ h, ∀ v, b.num = some v → CountV v) (hm : MinsOf mins h) : PosHalf y h := by
  intro b hb v hv
  cases hc b hb v hv with
  | num c hc => exact hc
  | var x c =>
    obtain ⟨m, h1, h2⟩ := hm b hb x c hv
    have := hy x m h1
    rw [varPlus_value]; omega

/-! ## The loop -/

def Dom (mins : List (Nat × Option Int)) (x : Nat) : Prop := ∃ w, Py.dget mins x = some w

/-- The invariant of the symbolic run. -/
structure SymInv (z : σ) (D : Nat → Prop) (s : SimSt σ S V) (mins : List (Nat × Option Int)) : Prop where
  tape : GTape z s.tape
  dir : s.dir = s.tape.dir
  vars : ∀ x, TVar s.tape x → D x
  fin : Fin mins
  minsOf : ∀ d, MinsOf mins (s.tape.half d)
  dom : ∀ x, Dom mins x ↔ D x
  steps : LinIn D s.steps
  seen : ∀ e ∈ s.seen, LinIn D e.2
  op : s.op = .running

theorem mem_dset {κ ν : Type} [DecidableEq κ] {d : List (κ × ν)} {k : κ} {v : ν} {e : κ × ν} (h : e ∈ Py.dset d k v) :
    e = (k, v) ∨ e ∈ d := by
  induction d with
  | nil => simpa [Py.dset] using h
  | cons f d ih =>
    unfold Py.dset at h
    split at h
    · rcases List.mem_cons.1 h with h | h
      · exact Or.inl h
      · exact Or.inr (by simp [h])
    · rcases List.mem_cons.1 h with h | h
      · exact Or.inr (by simp [h])
      · rcases ih h with h | h
        · exact Or.inl h
        · exact Or.inr (by simp [h])

theorem addSeen_lin {D : Nat → Prop} {b : V} (hb : LinIn D b) : ∀ (new : List (Nat × Nat)) (d : List (Nat × V)),
    (∀ e ∈ d, LinIn D e.2) → ∀ e ∈ SimSt.addSeen valOps d b new, LinIn D e.2
  | [], d, h => h
  | f :: new, d, h => addSeen_lin hb new _ (fun e he => by
      rcases mem_dset he with rfl | he
      · exact add_lin hb trivial
      · exact h e he)

variable [DecidableEq σ] [DecidableEq S]

/-- One step of the symbolic run. -/
theorem step_inv {z : σ} {D : Nat → Prop} (M : Machine σ S) {s : SimSt σ S V} {mins mins' : List (Nat × Option Int)}
    (h : SymInv z D s mins) (hr : (s.step valOps M).op = .running)
    (hu : updMins ((s.step valOps M).tape.left ++ (s.step valOps M).tape.right) mins = .ok mins') :
    SymInv z D (s.step valOps M) mins' ∧ MinsLe mins' mins ∧ (s.step valOps M).loops = s.loops + 1 := by
  have key : ∀ t' : ChainTape σ V, (s.step valOps M).tape = t' → (s.step valOps M).dir = t'.dir →
      (BadTape t' ∨ GTape z t' ∧ ∀ x, TVar t' x → TVar s.tape x) →
      LinIn D (s.step valOps M).steps → (∀ e ∈ (s.step valOps M).seen, LinIn D e.2) →
      SymInv z D (s.step valOps M) mins' ∧ MinsLe mins' mins := by
    rintro t' rfl hdir hc hst hse
    rcases hc with ⟨d, b, hb, hb2⟩ | ⟨hg, hv⟩
    · exfalso
      refine updMins_bad _ _ _ ⟨b, ?_, hb2⟩ hu
      cases d <;> simp only [List.mem_append]
      · exact Or.inl hb
      · exact Or.inr hb
    · obtain ⟨h1, h2, h3⟩ := updMins_ok mins h.fin _ mins' (by
        intro b hb
        rcases List.mem_append.1 hb with hb | hb
        · exact ghalf_count (hg.good .L) b hb
        · exact ghalf_count (hg.good .R) b hb) hu
      refine ⟨⟨hg, hdir, fun x hx => h.vars x (hv x hx), h1, fun d b hb => ?_, fun x => ?_, hst, hse, hr⟩, h2⟩
      · refine h3 b ?_
        cases d <;> simp only [List.mem_append]
        · exact Or.inl hb
        · exact Or.inr hb
      · rw [← h.dom x]
        constructor
        · rintro ⟨w, hw⟩
          by_contra hn
          have : Py.dget mins x = none := by
            cases hd : Py.dget mins x with
            | none => rfl
            | some w => exact absurd ⟨w, hd⟩ hn
          rw [(h2 x).1 this] at hw; cases hw
        · rintro ⟨w, hw⟩
          obtain ⟨m, rfl⟩ := h.fin x w hw
          obtain ⟨m', hm', -⟩ := (h2 x).2 m hw
          exact ⟨_, hm'⟩
  have hl : (s.step valOps M).loops = s.loops + 1 := by
    unfold SimSt.step
    rw [if_neg (by simp [h.op])]
    unfold SimSt.macroStep SimSt.raise
    simp only
    repeat' split
    all_goals rfl
  refine (fun (x : _ ∧ _) => ⟨x.1, x.2, hl⟩) ?_
  clear hu hl
  generalize hs' : s.step valOps M = s' at key hr ⊢
  unfold SimSt.step at hs'
  rw [if_neg (by simp [h.op])] at hs'
  unfold SimSt.macroStep at hs'
  simp only at hs'
  cases htop : s.tape.topSymbol with
  | none => rw [htop] at hs'; subst hs'; simp [SimSt.raise] at hr
  | some cur =>
    rw [htop] at hs'
    simp only at hs'
    generalize M.trans cur s.st s.dir = t at hs'
    by_cases h1 : t.cond = .raised
    · rw [if_pos h1] at hs'; subst hs'; simp [h1] at hr
    rw [if_neg h1] at hs'
    by_cases h2 : t.cond = .infRepeat
    · rw [if_pos h2] at hs'; subst hs'; simp [h2] at hr
    rw [if_neg h2] at hs'
    by_cases h3 : t.st = s.st ∧ t.dir = s.dir ∧ t.cond = .running
    · rw [if_pos h3] at hs'
      obtain ⟨t', reps, hcm, hd, hc, hv⟩ := chainMove_good h.tape t.sym
      rw [hcm] at hs'
      cases reps with
      | none => subst hs'; simp at hr
      | some v =>
        obtain ⟨hcv, hvt⟩ := hv v rfl
        have hvl : LinIn D v := lin_mono (count_lin hcv) (fun x hx => h.vars x (hvt x hx))
        subst hs'
        refine key t' rfl (by rw [hd]; exact h.dir) hc ?_ ?_
        · exact add_lin h.steps (num_mul_lin hvl _)
        · exact addSeen_lin (add_lin h.steps (num_mul_lin (sub_lin (b := .num 1) hvl trivial) _)) _ _ h.seen
    · rw [if_neg h3] at hs'
      by_cases h4 : t.cond ≠ .gaveUp
      · rw [if_pos h4] at hs'
        obtain ⟨t', hsm, hd, hc⟩ := singleMove_good h.tape t.sym t.dir
        rw [hsm] at hs'
        subst hs'
        refine key t' rfl hd.symm hc ?_ ?_
        · exact add_lin h.steps trivial
        · exact addSeen_lin h.steps _ _ h.seen
      · rw [if_neg h4] at hs'
        simp only [ne_eq, not_not] at h4
        subst hs'
        simp [h4] at hr

/-- **The symbolic run.**  It says what every run with numbers does. -/
theorem genLoop_ok {z : σ} {D : Nat → Prop} (M : Machine σ S) : ∀ (k : Nat) (s s' : SimSt σ S V)
    (mins mins' : List (Nat × Option Int)), SymInv z D s mins → genLoop M k s mins = .ok (s', mins') →
    SymInv z D s' mins' ∧ MinsLe mins' mins ∧ s'.loops = s.loops + k ∧
    ∀ y, GoodRho y mins' → ∀ c0 c : SimSt σ S Nat, SRel y c0 s c → c.tape.WF z →
      SRel y c0 s' ((SimSt.step natOps M)^[k] c) := by
  intro k
  induction k with
  | zero =>
    intro s s' mins mins' h hg
    cases hg
    exact ⟨h, minsLe_refl _, rfl, fun y _ c0 c hr _ => hr⟩
  | succ k ih =>
    intro s s' mins mins' h hg
    unfold genLoop at hg
    cases hh : s.tape.half s.tape.dir with
    | nil => rw [hh] at hg; cases hg
    | cons b r =>
      rw [hh] at hg
      simp only at hg
      by_cases hb : belowMin b.num = true
      · rw [if_pos hb] at hg; cases hg
      rw [if_neg hb] at hg
      by_cases h1 : (s.step valOps M).op = .raised
      · rw [if_pos h1] at hg; cases hg
      rw [if_neg h1] at hg
      by_cases h2 : (s.step valOps M).op ≠ .running
      · rw [if_pos h2] at hg; cases hg
      rw [if_neg h2] at hg
      simp only [ne_eq, not_not] at h2
      cases hu : updMins ((s.step valOps M).tape.left ++ (s.step valOps M).tape.right) mins with
      | raise => rw [hu] at hg; cases hg
      | fail => rw [hu] at hg; cases hg
      | ok mins1 =>
        rw [hu] at hg
        simp only at hg
        obtain ⟨hi, hl, hlp⟩ := step_inv M h h2 hu
        obtain ⟨hi', hl', hlp', hrel⟩ := ih _ _ _ _ hi hg
        refine ⟨hi', minsLe_trans hl' hl, by omega, ?_⟩
        intro y hy c0 c hr hw
        rw [Function.iterate_succ_apply]
        refine hrel y hy c0 _ (step_rel M hr hw h.op h2 ?_) (step_wf M hw)
        intro d
        exact pos_of (goodRho_le hy hl') (ghalf_count (hi.tape.good d)) (hi.minsOf d)

end Model.Prover
