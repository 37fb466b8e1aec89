import Verif.Model.Machine
import Verif.Spec.Macro
import Verif.Lemmas.TM
import Mathlib.Tactic.Ring
import Mathlib.Tactic.Linarith

/-!
# Directed configurations, windows and the meaning of transitions
-/

namespace Spec
variable {σ S S' : Type}

@[simp] theorem cons_zero (a : σ) (s : Nat → σ) : cons a s 0 = a := rfl
@[simp] theorem cons_succ (a : σ) (s : Nat → σ) (i : Nat) : cons a s (i + 1) = s i := rfl
@[simp] theorem pre_nil (s : Nat → σ) : pre [] s = s := rfl
@[simp] theorem pre_cons (a : σ) (l : List σ) (s : Nat → σ) : pre (a :: l) s = cons a (pre l s) := rfl
@[simp] theorem pre_append (l l' : List σ) (s : Nat → σ) : pre (l ++ l') s = pre l (pre l' s) := by
  unfold pre; rw [List.foldr_append]

theorem cons_eta (s : Nat → σ) : cons (s 0) (fun i => s (i + 1)) = s := by
  funext i; cases i <;> rfl

theorem pre_lt (l : List σ) (s : Nat → σ) {i : Nat} (h : i < l.length) : pre l s i = l[i] := by
  induction l generalizing i with
  | nil => simp at h
  | cons a l ih =>
    cases i with
    | zero => rfl
    | succ i => simpa using ih (by simpa using h)

theorem pre_ge (l : List σ) (s : Nat → σ) (i : Nat) : pre l s (l.length + i) = s i := by
  induction l generalizing i with
  | nil => simp
  | cons a l ih =>
    have : (a :: l).length + i = (l.length + i) + 1 := by simp; omega
    rw [this]; exact ih i

@[simp] theorem Dir.other_other (d : Dir) : d.other.other = d := by cases d <;> rfl
theorem Dir.other_ne (d : Dir) : d.other ≠ d := by cases d <;> decide
theorem Dir.ne_iff {d e : Dir} : d ≠ e ↔ d = e.other := by cases d <;> cases e <;> decide

@[ext] theorem DC.ext' {c c' : DC σ S} (h1 : c.st = c'.st) (h2 : c.dir = c'.dir)
    (h3 : ∀ d, c.side d = c'.side d) : c = c' := by
  cases c; cases c'
  simp only at h1 h2 h3
  have := funext h3
  subst h1; subst h2; subst this; rfl

/-- the window around an element -/
theorem window_R (A B : List σ) (x : σ) (st : S) (l r : Nat → σ) :
    (window (A ++ x :: B) A.length .R st l r).side .L = pre A.reverse l ∧
    (window (A ++ x :: B) A.length .R st l r).side .R = cons x (pre B r) := by
  simp [window]

theorem window_L (A B : List σ) (x : σ) (st : S) (l r : Nat → σ) :
    (window (A ++ x :: B) A.length .L st l r).side .L = cons x (pre A.reverse l) ∧
    (window (A ++ x :: B) A.length .L st l r).side .R = pre B r := by
  have h : ((A.length : Int) + 1).toNat = A.length + 1 := by omega
  have e : A ++ x :: B = (A ++ [x]) ++ B := by simp
  constructor
  · simp only [window, h]
    rw [e, List.take_left' (by simp), List.reverse_append]
    simp
  · simp only [window, h]
    rw [e, List.drop_left' (by simp)]

theorem window_front (A B : List σ) (x : σ) (d : Dir) (st : S) (l r : Nat → σ) :
    (window (A ++ x :: B) A.length d st l r).front = x := by
  unfold DC.front
  cases d
  · show (window (A ++ x :: B) A.length .L st l r).side .L 0 = x
    rw [(window_L A B x st l r).1]; rfl
  · show (window (A ++ x :: B) A.length .R st l r).side .R 0 = x
    rw [(window_R A B x st l r).2]; rfl

@[simp] theorem window_st (seg : List σ) (p : Int) (d : Dir) (st : S) (l r : Nat → σ) :
    (window seg p d st l r).st = st := rfl
@[simp] theorem window_dir (seg : List σ) (p : Int) (d : Dir) (st : S) (l r : Nat → σ) :
    (window seg p d st l r).dir = d := rfl

theorem window_move (A B : List σ) (x y : σ) (d d' : Dir) (st st' : S) (l r : Nat → σ) :
    (window (A ++ x :: B) A.length d st l r).move y st' d' =
      window (A ++ y :: B) (A.length + d'.delta) d' st' l r := by
  have hL : ∀ d', (window (A ++ x :: B) A.length d st l r).move y st' d' =
      { st := st', dir := d', side := fun e => match e with
          | .L => if d' = .R then cons y (pre A.reverse l) else pre A.reverse l
          | .R => if d' = .L then cons y (pre B r) else pre B r } := by
    intro d'
    ext1
    · rfl
    · rfl
    · rename_i e
      cases d <;> cases e <;> cases d' <;>
        simp [DC.move, Dir.other, window_R, window_L]
  rw [hL]
  cases d'
  · have h : ((A.length : Int) + Dir.L.delta + 1).toNat = A.length := by simp [Dir.delta]
    ext1
    · rfl
    · rfl
    · rename_i e; cases e <;> simp only [window, h] <;> simp
  · have h : ((A.length : Int) + Dir.R.delta).toNat = A.length + 1 := by simp [Dir.delta]
    have e' : A ++ y :: B = (A ++ [y]) ++ B := by simp
    ext1
    · rfl
    · rfl
    · rename_i e; cases e
      · simp only [window, h]
        rw [e', List.take_left' (by simp), List.reverse_append]; simp
      · simp only [window, h]
        rw [e', List.drop_left' (by simp)]; simp

end Spec
