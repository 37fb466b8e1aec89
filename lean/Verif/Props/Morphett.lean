import Verif.Lemmas.Morphett
import Verif.Props.Formats

/-!
# C51: the Morphett and old text formats

`Names m S Y` (in `Lemmas/Morphett.lean`): `S` and `Y` are as many distinct, non-empty names of states and symbols
as the machine has, without white space, `;` or `!`, where no state name begins with "halt" and no symbol but the
first is called `_`.  `InOrder m`: every state has a defined transition, every symbol but 0 is read by a defined
transition, and a symbol is not read in an earlier row than a smaller one (blank excepted).
-/

namespace Props
open Spec Model Model.IO

/-- **C51, partial.** A machine written in Morphett's format reads back as the same machine if its states and
symbols first appear in order.  Missing: other machines, see the next theorems. -/
theorem C51_morphett_roundtrip_partial (m : SM) (hw : m.WF) (hd : m.Moves) (hn : m.nStates < 2 ^ 31) (hk : m.nSyms < 2 ^ 31)
    (h8 : m.nStates ≤ 7 → m.nSyms ≠ 8) (S Y : List Name) (hN : Names m S Y) (hO : InOrder m) :
    ∃ text m', morphWrite m S Y = some text ∧ morphRead text = some m' ∧ m.Same m' := by
  obtain ⟨t, m', h1, h2, h3, -⟩ := morph_roundtrip hw hd ⟨hn, hk⟩ (by
    intro h r hr t ht hu
    have h8 := h8 h.1
    have := wf_sym (hw.cells r hr t ht) hu
    omega) hN hO
  exact ⟨t, m', h1, h2, h3⟩

/-- **C51.** ... and up to 7 states and 7 symbols it is the very same machine object. -/
theorem C51_morphett_exact (m : SM) (hw : m.WF) (hd : m.Moves) (hn : m.nStates ≤ 7) (hk : m.nSyms ≤ 7)
    (S Y : List Name) (hN : Names m S Y) (hO : InOrder m) :
    ∃ text, morphWrite m S Y = some text ∧ morphRead text = some m := by
  obtain ⟨t, m', h1, h2, -, h4⟩ := morph_roundtrip hw hd ⟨by omega, by omega⟩ (by
    intro h r hr t ht hu
    have := wf_sym (hw.cells r hr t ht) hu
    omega) hN hO
  obtain rfl := h4 ⟨hn, by omega⟩
  exact ⟨t, h1, h2⟩

/-- the states A, B, ... -/
def letters (n : Nat) : List Name := (List.range n).map fun i => [Char.ofNat (65 + i)]

/-- the symbols 0, 1, ... -/
def numerals (k : Nat) : List Name := (List.range k).map fun i => [Char.ofNat (48 + i)]

/-- the champion of five states is written and read back -/
example : ∃ text, morphWrite bb5m (letters 5) (numerals 2) = some text ∧ morphRead text = some bb5m :=
  C51_morphett_exact bb5m (ofTable_wf (by decide) (by decide) bb5_fits).1
    (ofTable_wf (by decide) (by decide) bb5_fits).2 (by decide) (by decide) _ _
    ⟨by decide, by decide, by unfold NameOK; decide, by unfold NameOK; decide, by decide, by decide⟩
    ⟨by decide, by decide, fun _ _ a' ha' _ a ha h0 => absurd (show a' < 2 from ha') (by omega)⟩

/-- so is `1RB0LB2LA_2LA1RB---` -/
example : ∃ text, morphWrite part3m (letters 2) (numerals 3) = some text ∧ morphRead text = some part3m :=
  C51_morphett_exact part3m (ofTable_wf (by decide) (by decide) part3_fits).1
    (ofTable_wf (by decide) (by decide) part3_fits).2 (by decide) (by decide) _ _
    ⟨by decide, by decide, by unfold NameOK; decide, by unfold NameOK; decide, by decide, by decide⟩
    ⟨by decide, by decide, fun q' _ a' ha' _ a ha _ => ⟨0, Nat.zero_le _,
      (by decide : ∀ a < 3, part3m.table 0 a ≠ .undef) a (ha.trans ha')⟩⟩

example : (morphWrite bb5m (letters 5) (numerals 2)).map (·.take 20) = some "A _ 1 r B\nA 1 1 l C\n".toList := by
  decide +kernel

/-- `0RB---2LB_1LA1RB---`: symbol 2 is read before symbol 1 (which is read in row B). -/
def swap2 : Table := tbl [[.go 0 .R 1, .undef, .go 2 .L 1], [.go 1 .L 0, .go 1 .R 1, .undef]]

def swap2m : SM := SM.ofTable swap2 2 3

/-- **C51, negation.** Symbols that do not appear in order come back renamed: the cell of state A and symbol 2 comes
back as that of state A and symbol 1. -/
theorem C51_symbols_renamed : ∃ text m', morphWrite swap2m (letters 2) (numerals 3) = some text ∧
    morphRead text = some m' ∧ ¬ swap2m.Same m' ∧ swap2m.table 0 2 = .go 2 .L 1 ∧ m'.table 0 1 = .go 1 .L 1 := by
  refine ⟨"A _ _ r B\nA 2 2 l B\nB _ 1 l A\nB 1 1 r B\n".toList,
    SM.ofTable (tbl [[.go 0 .R 1, .go 1 .L 1, .undef], [.go 2 .L 0, .undef, .go 2 .R 1]]) 2 3,
    by decide +kernel, by decide +kernel, ?_, by decide, by decide⟩
  rintro ⟨-, -, h⟩
  exact absurd (congrFun (congrFun h 0) 1) (by decide)

/-- `1RB1RZ_------`: state B has no defined transition. -/
def dead2 : SM := SM.ofTable (tbl [[.go 1 .R 1, .halt 1 .R], [.undef, .undef]]) 2 2

/-- **C51, negation.** A machine with a state without defined transitions is written but cannot be read back. -/
theorem C51_undefined_row : ∃ text, morphWrite dead2 (letters 2) (numerals 2) = some text ∧ morphRead text = none :=
  ⟨"A _ 1 r B\nA 1 1 r halt\n".toList, by decide +kernel, by decide +kernel⟩

/-- `1RB1LB_1LA---` with an additional, unused state C without transitions -/
def dead3 : SM := SM.ofTable (tbl [[.go 1 .R 1, .go 1 .L 1], [.go 1 .L 0, .undef], [.undef, .undef]]) 3 2

/-- **C51, negation.** ... or, if that state is never entered, it is lost. -/
theorem C51_unused_state_lost : ∃ text m', morphWrite dead3 (letters 3) (numerals 2) = some text ∧
    morphRead text = some m' ∧ m'.nStates = 2 ∧ dead3.nStates = 3 :=
  ⟨"A _ 1 r B\nA 1 1 l B\nB _ 1 l A\n".toList, SM.ofTable (tbl [[.go 1 .R 1, .go 1 .L 1], [.go 1 .L 0, .undef]]) 2 2,
    by decide +kernel, by decide +kernel, by decide, by decide⟩

/-- a name that starts with "halt", in capital or small letters -/
def StartsHalt (s : Name) : Prop := ∃ h a l t rest, s = h :: a :: l :: t :: rest ∧ (h = 'h' ∨ h = 'H') ∧ (a = 'a' ∨ a = 'A') ∧
  (l = 'l' ∨ l = 'L') ∧ (t = 't' ∨ t = 'T')

instance (s : Name) : Decidable (StartsHalt s) :=
  match s with
  | h :: a :: l :: t :: rest => decidable_of_iff ((h = 'h' ∨ h = 'H') ∧ (a = 'a' ∨ a = 'A') ∧
      (l = 'l' ∨ l = 'L') ∧ (t = 't' ∨ t = 'T')) ⟨fun e => ⟨h, a, l, t, rest, rfl, e⟩, by
        rintro ⟨_, _, _, _, _, ⟨⟩, e⟩; exact e⟩
  | [] => isFalse (by rintro ⟨_, _, _, _, _, e, _⟩; cases e)
  | [_] => isFalse (by rintro ⟨_, _, _, _, _, e, _⟩; cases e)
  | [_, _] => isFalse (by rintro ⟨_, _, _, _, _, e, _⟩; cases e)
  | [_, _, _] => isFalse (by rintro ⟨_, _, _, _, _, e, _⟩; cases e)

/-- **C51.** What a line "state symbol new-symbol direction new-state" is read as: the machine halts exactly if the name of
the new state starts with "halt", however capitalised. -/
theorem C51_line (q a w q' : Name) (d : Fin 2) (h1 : NameOK q) (h2 : NameOK a) (h3 : NameOK w) (h4 : NameOK q') :
    morphLine (q ++ ' ' :: (a ++ ' ' :: (w ++ ' ' :: ((if d = 0 then 'l' else 'r') :: ' ' :: q')))) =
      some (some (q, a, some w, (d : Int), if StartsHalt q' then none else some q')) := by
  rw [morphLine_five q a w q' d h1 h2 h3 h4]
  have e : isHaltName q' = true ↔ StartsHalt q' := by
    unfold isHaltName StartsHalt
    rw [decide_eq_true_iff]
    match q' with
    | h :: a :: l :: t :: rest =>
      simp only [List.map_cons, List.take_succ_cons, List.take_zero, List.cons.injEq, and_true]
      rw [lower_eq h 'h' 'H' (by decide) (by decide), lower_eq a 'a' 'A' (by decide) (by decide),
        lower_eq l 'l' 'L' (by decide) (by decide), lower_eq t 't' 'T' (by decide) (by decide)]
      constructor
      · exact fun e => ⟨h, a, l, t, rest, ⟨rfl, rfl, rfl, rfl, rfl⟩, e⟩
      · rintro ⟨_, _, _, _, _, ⟨rfl, rfl, rfl, rfl, rfl⟩, e⟩; exact e
    | [] => simp
    | [_] => simp
    | [_, _] => simp
    | [_, _, _] => simp
  by_cases h : StartsHalt q'
  · rw [if_pos (e.2 h), if_pos h]
  · rw [if_neg (fun x => h (e.1 x)), if_neg h]

example : morphLine "A 1 1 r HaltingState ; the end".toList = some (some (['A'], ['1'], some ['1'], 1, none)) := by
  rfl
example : StartsHalt "HaltingState".toList ∧ ¬ StartsHalt "Hat".toList := by decide

/-- **C51.** The old text format is the standard text with cells separated by a space and rows by two. -/
theorem C51_old_text (m : SM) (hw : m.WF) (hd : m.Moves) (hn : m.nStates < 25) (hk : m.nSyms ≤ 10) :
    displayTable m = some (oldText m.table m.nStates m.nSyms) :=
  displayTable_eq hw hd hn hk

example : displayTable bb5m = some "1RB 1LC  1RC 1RB  1RD 0LE  1LA 1LD  1RZ 0LA".toList := by decide +kernel

example : displayTable bb5m = some (oldText bb5m.table 5 2) :=
  C51_old_text bb5m (ofTable_wf (by decide) (by decide) bb5_fits).1
    (ofTable_wf (by decide) (by decide) bb5_fits).2 (by decide) (by decide)

end Props
