import Verif.Model.Dict

/-!
# Model of the transition caches

`Block_Macro_Machine.get_trans_object` and `Backsymbol_Macro_Machine.get_trans_object`
(`Code/Macro/Turing_Machine.py` 391-396 and 477-482): a dictionary that is emptied when it is full.
-/

namespace Model.Cache
variable {κ ν : Type} [DecidableEq κ]

/-- `get_trans_object(*args)`: the new cache and the returned value (`none` = KeyError) -/
def lookup (eval : κ → ν) (maxCells : Nat) (table : List (κ × ν)) (k : κ) :
    List (κ × ν) × Option ν :=
  let table :=
    if (Py.dget table k).isNone then
      let t := if table.length ≥ maxCells then [] else table
      Py.dset t k (eval k)
    else table
  (table, Py.dget table k)

/-- a sequence of lookups: the final cache and the returned values -/
def lookups (eval : κ → ν) (maxCells : Nat) :
    List (κ × ν) → List κ → List (κ × ν) × List (Option ν)
  | table, [] => (table, [])
  | table, k :: ks =>
    let r := lookup eval maxCells table k
    let rs := lookups eval maxCells r.1 ks
    (rs.1, r.2 :: rs.2)

end Model.Cache
