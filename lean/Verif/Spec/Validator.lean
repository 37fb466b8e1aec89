import Verif.Model.Validator
import Mathlib.Logic.Function.Iterate

/-!
# Specification: what the rules checked by the validator say

Only the syntax (`CountExpr`, `Block`, `Config`, `TM`, `Rule`) comes from the model.
-/

namespace Spec.Validator
open Model.Validator (VarSum CountExpr Count Block HalfTape TM Trans Rule ProofStep Proof)

/-- value of a sum of variables -/
def sumValue (v : Nat → Nat) (s : VarSum) : Nat := s.const + (s.vars.map fun p => p.2 * v p.1).sum

/-- value of an expression; `(λx.f)^n b` applies the function `n` times to `b` -/
def value : (Nat → Nat) → CountExpr → Nat
  | v, .sum s => sumValue v s
  | v, .iter x f n b => (fun a => value (Function.update v x a) f)^[value v n] (value v b)

/-- put the symbols of a list in front of a half-infinite tape -/
def prepend (s : List Nat) (t : Nat → Nat) : Nat → Nat :=
  fun i => if h : i < s.length then s[i] else t (i - s.length)

/-- the block `s^k` in front of a half-infinite tape; nothing is visible behind an infinite block -/
def fillBlock (v : Nat → Nat) (b : Block) (t : Nat → Nat) : Nat → Nat :=
  match b.rep with
  | .fin e => (prepend b.symbols)^[value v e] t
  | .inf => if h : b.symbols = [] then t else
      fun i => b.symbols[i % b.symbols.length]'(Nat.mod_lt _ (List.length_pos_iff.2 h))

/-- a half tape (nearest block first) in front of the rest `t` of the tape -/
def fill (v : Nat → Nat) (h : HalfTape) (t : Nat → Nat) : Nat → Nat := h.foldr (fillBlock v) t

/-- `c` is the configuration with half tapes `l` and `r` (read away from the head); the head is on the first cell of the side
it looks to. -/
def HalfTapes (c : Spec.Config) (d : Dir) (l r : Nat → Nat) : Prop :=
  ∃ p : Int, (∀ i : Nat, c.tape (p + i) = r i) ∧ (∀ i : Nat, c.tape (p - 1 - i) = l i) ∧
    c.pos = match d with | .R => p | .L => p - 1

/-- `c` is an instance of the pattern `k` with the values `v` of the variables and the tapes `L`, `R` around it -/
def Instance (v : Nat → Nat) (L R : Nat → Nat) (k : Model.Validator.Config) (c : Spec.Config) : Prop :=
  c.state = k.state ∧ HalfTapes c k.dir (fill v k.left L) (fill v k.right R)

/-- the machine given by a transition table -/
def table (tm : TM) : Spec.Table := fun q a =>
  match tm[q]? with
  | none => .undef
  | some row => match row[a]? with
    | none => .undef
    | some .undef => .undef
    | some (.to w d none) => .halt w d
    | some (.to w d (some s)) => .go w d s

/-- `n` steps, none of them an undefined transition or after halting -/
def Steps (tm : TM) : Nat → Spec.Config → Spec.Config → Prop
  | 0, c, c' => c' = c
  | n + 1, c, c' => ∃ q, c.state = some q ∧ table tm q (c.tape c.pos) ≠ .undef ∧ Steps tm n (Spec.step (table tm) c) c'

/-- The rule is true of the machine: whatever the values of the variables and whatever is on the rest of the tape, from the
initial configuration the machine gets to the final one. -/
def Holds (tm : TM) (init final : Model.Validator.Config) : Prop :=
  ∀ v L R c, Instance v L R init c → ∃ n c', Steps tm n c c' ∧ Instance v L R final c'



/-- the proof nowhere says `Admit` -/
def NoAdmit (r : Rule) : Prop :=
  match r.proof with
  | .simple p => .admit ∉ p
  | .inductive p q => .admit ∉ p ∧ .admit ∉ q

end Spec.Validator
