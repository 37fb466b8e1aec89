/-!
# Python strings, as lists of characters
-/

namespace Py

/-- `[f(x) for x in xs]` when `f` may raise -/
def mapO {α β : Type} (f : α → Option β) : List α → Option (List β)
  | [] => some []
  | x :: xs =>
    match f x, mapO f xs with
    | some y, some ys => some (y :: ys)
    | _, _ => none

/-- `str.isspace` of one character -/
def isSpace (c : Char) : Bool :=
  let n := c.toNat
  decide ((9 ≤ n ∧ n ≤ 13) ∨ (28 ≤ n ∧ n ≤ 32) ∨ n = 0x85 ∨ n = 0xa0 ∨ n = 0x1680 ∨
    (0x2000 ≤ n ∧ n ≤ 0x200a) ∨ n = 0x2028 ∨ n = 0x2029 ∨ n = 0x202f ∨ n = 0x205f ∨ n = 0x3000)

/-- `s.strip()` -/
def strip (s : List Char) : List Char :=
  ((s.dropWhile isSpace).reverse.dropWhile isSpace).reverse

/-- `s.split(c)` for a one-character separator -/
def split (c : Char) : List Char → List (List Char)
  | [] => [[]]
  | x :: xs =>
    if x = c then [] :: split c xs
    else match split c xs with
      | [] => [[x]]
      | r :: rs => (x :: r) :: rs

/-- `c.join(rows)` -/
def join (c : Char) : List (List Char) → List Char
  | [] => []
  | [r] => r
  | r :: rs => r ++ c :: join c rs

/-- `s.split()`: maximal runs of non-space characters; the second argument is the current run -/
def wordsAux : List Char → List Char → List (List Char)
  | [], [] => []
  | [], cur => [cur]
  | x :: xs, cur =>
    if isSpace x then (if cur = [] then wordsAux xs [] else cur :: wordsAux xs [])
    else wordsAux xs (cur ++ [x])

def words (s : List Char) : List (List Char) := wordsAux s []

/-- `chars.find(c)` for a string and a single character: the index or -1 -/
def find (chars : List Char) (c : Char) : Int :=
  match chars.idxOf? c with
  | some i => i
  | none => -1

/-- `f.readline()` on the rest of a text file: the line with its newline, and what follows -/
def readline : List Char → List Char × List Char
  | [] => ([], [])
  | x :: xs => if x = '\n' then (['\n'], xs) else ((x :: (readline xs).1), (readline xs).2)

def digits : List Char := ['0', '1', '2', '3', '4', '5', '6', '7', '8', '9']

def uppercase : List Char := ['A', 'B', 'C', 'D', 'E', 'F', 'G', 'H', 'I', 'J', 'K', 'L', 'M', 'N', 'O', 'P',
  'Q', 'R', 'S', 'T', 'U', 'V', 'W', 'X', 'Y', 'Z']

end Py
