import Verif.Lemmas.ProverStacks
import Verif.Lemmas.CTLEnd
import Mathlib.Data.Set.Finite.Lattice
import Mathlib.Data.Finite.Prod

/-! Macro machines over a finite machine have finitely many states and symbols. -/

namespace Model
open Spec

theorem wf_stays {T : Table} {nS nK : Nat} (wf : WFTable T nS nK) :
    Stays (simple T) (fun q => ∃ i < nS, q = some i) (fun a => a < nK) := by
  constructor
  · rintro a q d ⟨i, _, rfl⟩ _
    simp only [simple]; cases T i a <;> simp
  · rintro a q d ⟨i, hi, rfl⟩ ha hr
    cases e : T i a with
    | undef => simp [simple, e] at hr
    | halt w d' => simp [simple, e] at hr
    | go w d' q' =>
      have := wf.closed i a w d' q' hi ha e
      simp only [simple, e]
      exact ⟨⟨q', this.2, rfl⟩, this.1⟩

theorem lists_finite {σ : Type} {P : σ → Prop} (h : {a | P a}.Finite) (k : Nat) :
    {l : List σ | l.length = k ∧ ∀ x ∈ l, P x}.Finite := by
  induction k with
  | zero =>
    refine (Set.finite_singleton ([] : List σ)).subset fun l hl => ?_
    exact List.length_eq_zero_iff.1 hl.1
  | succ k ih =>
    refine ((h.prod ih).image fun p => p.1 :: p.2).subset ?_
    rintro l ⟨h1, h2⟩
    cases l with
    | nil => cases h1
    | cons a l =>
      exact ⟨(a, l), ⟨h2 a (by simp), by simpa using h1, fun x hx => h2 x (by simp [hx])⟩, rfl⟩

theorem blockOk_finite {S : Type} {ok : S → Prop} (h : {q | ok q}.Finite) (k : Nat) :
    {st | blockOk k ok st}.Finite := by
  refine ((h.image BSt.plain).union ((h.prod (Set.finite_lt_nat k)).image fun p => BSt.offset p.1 p.2)).subset ?_
  intro st hst
  cases st with
  | plain s => exact Or.inl ⟨s, hst, rfl⟩
  | offset s off => exact Or.inr ⟨(s, off), ⟨hst.1, hst.2⟩, rfl⟩

theorem backOk_finite {σ S : Type} {ok : S → Prop} {okS : σ → Prop} (h : {q | ok q}.Finite)
    (h' : {a | okS a}.Finite) : {st : S × σ | ok st.1 ∧ okS st.2}.Finite :=
  (h.prod h').subset fun _ hst => hst

variable {σ S : Type} [DecidableEq σ] [DecidableEq S]

theorem seek_stays {M : Machine σ S} {ok : S → Prop} {okS : σ → Prop} (hM : Stays M ok okS) (cutoff k : Nat)
    {s : SimSt σ S Nat} (h1 : s.tape.All okS (fun _ => True)) (h2 : ok s.st)
    (hr : (SimSt.seekGo M cutoff k s).op = .running) :
    (SimSt.seekGo M cutoff k s).tape.All okS (fun _ => True) ∧ ok (SimSt.seekGo M cutoff k s).st := by
  induction k generalizing s with
  | zero => exact ⟨h1, h2⟩
  | succ k ih =>
    unfold SimSt.seekGo at hr ⊢
    by_cases hc : s.steps < cutoff ∧ s.op = .running
    · rw [if_pos hc] at hr ⊢
      have hrun : (SimSt.step natOps M s).op = .running := by
        by_contra hne
        have : SimSt.seekGo M cutoff k (SimSt.step natOps M s) = SimSt.step natOps M s := by
          cases k with
          | zero => rfl
          | succ k => unfold SimSt.seekGo; rw [if_neg (fun h => hne h.2)]
        rw [this] at hr
        exact hne hr
      obtain ⟨h3, h4⟩ := step_all hM ⟨fun _ _ _ _ => trivial, fun _ _ => trivial, trivial⟩ h1 h2 hrun
      exact ih h3 h4 hr
    · rw [if_neg hc]; exact ⟨h1, h2⟩

end Model
