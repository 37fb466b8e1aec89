import Verif.Model.Convert
import Verif.Spec.Format

/-!
# What file conversion is stated in
-/

namespace Spec

/-- `p` is a path of which the last part is `name` -/
def IsName (p name : List Char) : Prop := '/' ∉ name ∧ (p = name ∨ ∃ dir, p = dir ++ '/' :: name)

/-- the name has the extension `.ext`, not necessarily as the last one: after something that is more than dots comes `.ext`, and
then nothing or another extension; names that end with a dot have no extensions -/
def HasExt (ext name : List Char) : Prop :=
  name.getLast? ≠ some '.' ∧ ∃ stem rest, name = stem ++ '.' :: (ext ++ rest) ∧ (∃ c ∈ stem, c ≠ '.') ∧ (rest = [] ∨ ∃ r, rest = '.' :: r)

end Spec

namespace Model.Convert
open Model.IO Model.Status

section
variable {I E : Type}

/-- what is assumed of the libraries.  Text with carriage returns is not read back as written (universal newlines). -/
structure Lib.Laws (L : Lib I E) : Prop where
  enc_append : ∀ s t, L.enc (s ++ t) = L.enc s ++ L.enc t
  dec_enc : ∀ s, '\r' ∉ s → L.dec (L.enc s) = some s
  gunzip_gz : ∀ b, L.gunzip (L.gz b) = some b
  gunzip_nil : L.gunzip [] = some []
  parse_ser : ∀ p i, L.parse (L.ser p i) = some (p, i)
  approx : ∀ v, '\n' ∉ L.approx v ∧ '\r' ∉ L.approx v
  fresh : L.status L.fresh = BBStatus.empty

/-- a machine object that the text format can hold: sensible, fewer than 25 states and 10 symbols, and if it is small enough for the
packed format, then without the symbol 7.  The object may be marked by having been stored as a list, which does not change the
table (undefined cells then have the symbol -1). -/
def Writable (m : SM) : Prop :=
  ∃ m0 : SM, m0.WF ∧ m0.Moves ∧ m0.nStates < 25 ∧ m0.nSyms < 10 ∧
    (m0.nStates ≤ 7 ∧ m0.nSyms ≤ 8 → ∀ r ∈ m0.rows, ∀ t ∈ r, t.cond ≠ .undefined → t.sym < 7) ∧
    (m = m0 ∨ m = { m0 with rows := m0.rows.map (·.map listTrans) })

/-- two records are of the same machine -/
def SameMachine (L : Lib I E) (r r' : Rec I) : Prop :=
  ∃ x x', r.machine L = some x ∧ r'.machine L = some x' ∧ x.1.Same x'.1

/-- the remark on a record in a text file: nothing, unless the machine is known to halt; then its numbers of steps and marks, which
must be readable -/
def Remark (L : Lib I E) (i : I) (note : List Char) : Prop :=
  match (L.status i).halt.halting with
  | false => note = []
  | true => ∃ steps score, getBigInt L.loads (L.status i).halt.steps = some steps ∧
      getBigInt L.loads (L.status i).halt.score = some score ∧ note = " Halt ".toList ++ L.approx steps ++ [' '] ++ L.approx score

/-- a line of a text file: the machine in standard text, and a remark -/
def textLine (m : SM) (note : List Char) : List Char := Spec.tableText m.table m.nStates m.nSyms ++ note ++ ['\n']

end

end Model.Convert
