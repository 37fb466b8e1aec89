import Verif.Spec.Chain
import Verif.Lemmas.Machines

namespace Model
open Spec
variable {σ : Type}

@[simp] theorem unroll_inf (z a : σ) (rest) : unroll z (⟨a, none⟩ :: rest) = fun _ => a := rfl
@[simp] theorem unroll_fin (z a : σ) (n : Nat) (rest) :
    unroll z (⟨a, some n⟩ :: rest) = pre (List.replicate n a) (unroll z rest) := rfl

/-- well-formedness of a longer half tape -/
theorem wfHalf_cons {z a : σ} {n : Nat} {rest : List (Blk σ Nat)} :
    WFHalf z (⟨a, some n⟩ :: rest) ↔
      0 < n ∧ (∃ b r, rest = b :: r ∧ a ≠ b.sym) ∧ WFHalf z rest := by
  cases rest with
  | nil => simp [WFHalf]
  | cons b r =>
    constructor
    · rintro ⟨h1, h2, h3⟩; exact ⟨h1, ⟨b, r, rfl, h2⟩, h3⟩
    · rintro ⟨h1, ⟨b', r', h2, h3⟩, h4⟩
      cases h2
      exact ⟨h1, h3, h4⟩

theorem wfHalf_inf {z a : σ} {rest : List (Blk σ Nat)} (h : WFHalf z (⟨a, none⟩ :: rest)) :
    a = z ∧ rest = [] := by
  cases rest with
  | nil => exact ⟨h, rfl⟩
  | cons b r => exact h.elim

theorem popOne_spec {z : σ} {h : List (Blk σ Nat)} (hw : WFHalf z h) :
    ∃ h', ChainTape.popOne natOps h = some h' ∧ WFHalf z h' ∧
      unroll z h' = fun i => unroll z h (i + 1) := by
  cases h with
  | nil => exact hw.elim
  | cons b rest =>
    obtain ⟨a, num⟩ := b
    cases num with
    | none => exact ⟨_, rfl, hw, rfl⟩
    | some n =>
      obtain ⟨h1, h2, h3⟩ := wfHalf_cons.1 hw
      by_cases hn : n = 1
      · subst hn
        exact ⟨rest, rfl, h3, rfl⟩
      · have hz : natOps.isZero (natOps.sub n (natOps.ofNat 1)) = false := by
          simp [natOps]; omega
        refine ⟨⟨a, some (n - 1)⟩ :: rest, ?_, ?_, ?_⟩
        · simp only [ChainTape.popOne]
          rw [if_neg (by rw [hz]; simp)]; rfl
        · exact wfHalf_cons.2 ⟨by omega, h2, h3⟩
        · obtain ⟨m, rfl⟩ : ∃ m, n = m + 1 := ⟨n - 1, by omega⟩
          rfl

theorem replicate_const (a : σ) (n : Nat) : pre (List.replicate n a) (fun _ => a) = fun _ => a := by
  induction n with
  | zero => rfl
  | succ n ih => rw [List.replicate_succ, pre_cons, ih]; funext i; cases i <;> rfl

theorem push_spec [DecidableEq σ] {z : σ} {h : List (Blk σ Nat)} (hw : WFHalf z h) (sym : σ) {n : Nat}
    (hn : 0 < n) :
    ∃ h', ChainTape.push natOps sym n h = some h' ∧ WFHalf z h' ∧
      unroll z h' = pre (List.replicate n sym) (unroll z h) := by
  cases h with
  | nil => exact hw.elim
  | cons b rest =>
    obtain ⟨a, num⟩ := b
    simp only [ChainTape.push]
    by_cases ha : a = sym
    · subst ha
      rw [if_pos rfl]
      cases num with
      | none => exact ⟨_, rfl, hw, (replicate_const a n).symm⟩
      | some m =>
        obtain ⟨h1, h2, h3⟩ := wfHalf_cons.1 hw
        refine ⟨_, rfl, wfHalf_cons.2 ⟨by simp [natOps]; omega, h2, h3⟩, ?_⟩
        simp only [unroll_fin, natOps]
        rw [Nat.add_comm, ← List.replicate_append_replicate, pre_append]
    · rw [if_neg ha]
      exact ⟨_, rfl, wfHalf_cons.2 ⟨hn, ⟨_, _, rfl, fun h => ha h.symm⟩, hw⟩, rfl⟩

namespace ChainTape

@[simp] theorem half_setHalf_same (t : ChainTape σ Nat) (d : Dir) (h) : (t.setHalf d h).half d = h := by
  cases d <;> rfl
theorem half_setHalf_other (t : ChainTape σ Nat) (d e : Dir) (h) (hne : e ≠ d) :
    (t.setHalf d h).half e = t.half e := by
  cases d <;> cases e <;> first | rfl | exact absurd rfl hne
@[simp] theorem dir_setHalf (t : ChainTape σ Nat) (d : Dir) (h) : (t.setHalf d h).dir = t.dir := by
  cases d <;> rfl

/-- both half tapes are well formed -/
def WF (z : σ) (t : ChainTape σ Nat) : Prop := ∀ d, WFHalf z (t.half d)

/-- the configuration meant by a tape and a state -/
def toDC {S : Type} (z : σ) (t : ChainTape σ Nat) (st : S) : DC σ S :=
  { st := st, dir := t.dir, side := fun d => unroll z (t.half d) }

theorem wf_init (z : σ) (d : Dir) : WF z (ChainTape.init z d) := by
  intro e; cases e <;> rfl

theorem topSymbol_spec {z : σ} {t : ChainTape σ Nat} (hw : WF z t) {S : Type} (st : S) :
    t.topSymbol = some (toDC z t st).front := by
  unfold topSymbol DC.front toDC
  have := hw t.dir
  simp only
  generalize t.half t.dir = h at this
  cases h with
  | nil => exact this.elim
  | cons b rest =>
    obtain ⟨a, num⟩ := b
    cases num with
    | none => rfl
    | some n =>
      obtain ⟨h1, -, -⟩ := wfHalf_cons.1 this
      obtain ⟨m, rfl⟩ : ∃ m, n = m + 1 := ⟨n - 1, by omega⟩
      rfl

theorem singleMove_spec [DecidableEq σ] {z : σ} {t : ChainTape σ Nat} (hw : WF z t) (sym : σ) (d : Dir)
    {S : Type} (st st' : S) :
    ∃ t', t.singleMove natOps sym d = some t' ∧ WF z t' ∧ t'.dir = d ∧
      toDC z t' st' = (toDC z t st).move sym st' d := by
  obtain ⟨h, hp, hw1, hu1⟩ := popOne_spec (hw t.dir)
  have hw' : WF z (t.setHalf t.dir h) := by
    intro e
    by_cases he : e = t.dir
    · subst he; rw [half_setHalf_same]; exact hw1
    · rw [half_setHalf_other _ _ _ _ he]; exact hw e
  obtain ⟨h2, hp2, hw2, hu2⟩ := push_spec (hw' d.other) sym (n := 1) (by omega)
  refine ⟨{ (t.setHalf t.dir h).setHalf d.other h2 with dir := d }, ?_, ?_, rfl, ?_⟩
  · unfold singleMove
    simp only [hp, Option.bind_eq_bind, Option.bind_some]
    rw [show natOps.ofNat 1 = 1 from rfl, hp2]
    rfl
  · intro e
    show WFHalf z (((t.setHalf t.dir h).setHalf d.other h2).half e)
    by_cases he : e = d.other
    · subst he; rw [half_setHalf_same]; exact hw2
    · rw [half_setHalf_other _ _ _ _ he]; exact hw' e
  · ext1
    · rfl
    · rfl
    · rename_i e
      show unroll z (((t.setHalf t.dir h).setHalf d.other h2).half e) = _
      have hbase : ∀ e, unroll z ((t.setHalf t.dir h).half e) = DC.rest (toDC z t st) e := by
        intro e
        unfold DC.rest toDC
        by_cases he : e = t.dir
        · subst he; rw [half_setHalf_same, hu1]; simp
        · rw [half_setHalf_other _ _ _ _ he]; simp [he]
      rw [take_rest]
      by_cases he : e = d.other
      · subst he
        rw [half_setHalf_same, hu2, hbase, if_pos rfl]; rfl
      · rw [half_setHalf_other _ _ _ _ he, hbase, if_neg he]

/-- a chain move on an infinite run -/
theorem chainMove_inf [DecidableEq σ] {t : ChainTape σ Nat} {a : σ} {rest} (sym : σ)
    (h : t.half t.dir = ⟨a, none⟩ :: rest) : t.chainMove natOps sym = some (t, none) := by
  unfold chainMove; rw [h]

/-- a chain move on a finite run -/
theorem chainMove_fin [DecidableEq σ] {z : σ} {t : ChainTape σ Nat} (hw : WF z t) {a : σ} {n : Nat} {rest}
    (sym : σ) (h : t.half t.dir = ⟨a, some n⟩ :: rest) :
    ∃ t', t.chainMove natOps sym = some (t', some n) ∧ WF z t' ∧ t'.dir = t.dir ∧
      unroll z (t'.half t.dir) = unroll z rest ∧
      unroll z (t'.half t.dir.other) = pre (List.replicate n sym) (unroll z (t.half t.dir.other)) := by
  have hwd := hw t.dir
  rw [h] at hwd
  obtain ⟨h1, h2, h3⟩ := wfHalf_cons.1 hwd
  have hne : t.dir.other ≠ t.dir := Dir.other_ne _
  have ho : (t.setHalf t.dir rest).half t.dir.other = t.half t.dir.other :=
    half_setHalf_other _ _ _ _ hne
  obtain ⟨h', hp, hw1, hu⟩ := push_spec (hw t.dir.other) sym h1
  refine ⟨(t.setHalf t.dir rest).setHalf t.dir.other h', ?_, ?_, by simp, ?_, ?_⟩
  · unfold chainMove
    rw [h]
    simp only [dir_setHalf, ho, hp]
  · intro e
    by_cases he : e = t.dir.other
    · subst he; rw [half_setHalf_same]; exact hw1
    · rw [half_setHalf_other _ _ _ _ he]
      have : e = t.dir := by
        have := Dir.ne_iff.1 he; simpa using this
      subst this
      rw [half_setHalf_same]; exact h3
  · rw [half_setHalf_other _ _ _ _ (Ne.symm hne), half_setHalf_same]
  · rw [half_setHalf_same, hu]

/-! ## score -/

theorem halfNonzeros_spec {z : σ} (ev : σ → Nat) (hz : ev z = 0) {h : List (Blk σ Nat)}
    (hw : WFHalf z h) (n : Nat) :
    ∃ m, halfNonzeros natOps ev h n = n + m ∧ Cnt ev (unroll z h) m := by
  induction h generalizing n with
  | nil => exact hw.elim
  | cons b rest ih =>
    obtain ⟨a, num⟩ := b
    cases num with
    | none =>
      obtain ⟨rfl, rfl⟩ := wfHalf_inf hw
      exact ⟨0, rfl, cnt_zero (fun i => hz)⟩
    | some k =>
      obtain ⟨h1, -, h3⟩ := wfHalf_cons.1 hw
      obtain ⟨m, hm, hc⟩ := ih h3 (n + ev a * k)
      refine ⟨ev a * k + m, ?_, ?_⟩
      · rw [← Nat.add_assoc]; exact hm
      · have := cnt_pre (List.replicate k a) hc
        simp only [List.map_replicate, List.sum_replicate] at this
        rw [unroll_fin, Nat.mul_comm]
        simpa using this

theorem nonzeros_spec {z : σ} (ev : σ → Nat) (hz : ev z = 0) {t : ChainTape σ Nat} (hw : WF z t) (v : Nat) :
    ∃ a b, t.nonzeros natOps ev v = a + b + v ∧ Cnt ev (unroll z t.left) a ∧ Cnt ev (unroll z t.right) b := by
  obtain ⟨a, ha, hca⟩ := halfNonzeros_spec ev hz (hw .L) v
  obtain ⟨b, hb, hcb⟩ := halfNonzeros_spec ev hz (hw .R) (v + a)
  refine ⟨a, b, ?_, hca, hcb⟩
  unfold nonzeros
  show halfNonzeros natOps ev (t.half .R) (halfNonzeros natOps ev (t.half .L) v) = _
  rw [ha, hb]; omega

end ChainTape
end Model
