/-!
# Python basics used by several models

`pyIdx len i` is how Python resolves index `i` into a sequence of length `len`: negative indexes
count from the end, anything else out of range raises `IndexError` (`none`).
-/

namespace Py

def pyIdx (len : Nat) (i : Int) : Option Nat :=
  if 0 ≤ i then (if i < len then some i.toNat else none)
  else (if -(len : Int) ≤ i then some (i + len).toNat else none)

/-- `xs[i]` -/
def get {α} (xs : List α) (i : Int) : Option α := (pyIdx xs.length i).bind (fun k => xs[k]?)

/-- `xs[i] = v` -/
def set {α} (xs : List α) (i : Int) (v : α) : Option (List α) :=
  (pyIdx xs.length i).map (fun k => xs.set k v)

theorem pyIdx_of_range {len : Nat} {i : Int} (h0 : 0 ≤ i) (h1 : i < len) :
    pyIdx len i = some i.toNat := by
  unfold pyIdx; simp [h0, h1]

end Py
