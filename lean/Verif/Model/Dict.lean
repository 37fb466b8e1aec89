/-!
# Python dictionaries and sets

A dictionary is the list of its items in insertion order; overwriting keeps the position, as in
CPython.
-/

namespace Py
variable {κ ν : Type} [DecidableEq κ]

def dget (d : List (κ × ν)) (k : κ) : Option ν := (d.find? (fun e => e.1 == k)).map (·.2)

def dset : List (κ × ν) → κ → ν → List (κ × ν)
  | [], k, v => [(k, v)]
  | e :: d, k, v => if e.1 = k then (k, v) :: d else e :: dset d k v

/-- `s.add(x)` on a set kept as a list without repetitions -/
def sadd (s : List κ) (x : κ) : List κ := if x ∈ s then s else s ++ [x]

theorem dget_dset (d : List (κ × ν)) (k k' : κ) (v : ν) :
    dget (dset d k v) k' = if k' = k then some v else dget d k' := by
  unfold dget
  induction d with
  | nil =>
    by_cases h : k' = k
    · subst h; simp [dset]
    · simp [dset, h, Ne.symm h]
  | cons e d ih =>
    unfold dset
    by_cases he : e.1 = k
    · rw [if_pos he]
      by_cases h : k' = k
      · subst h; simp
      · have : (k == k') = false := by simpa using fun hh => h hh.symm
        rw [if_neg h]
        simp [this, he]
    · rw [if_neg he]
      by_cases h2 : e.1 = k'
      · have : k' ≠ k := fun hh => he (h2.trans hh)
        rw [if_neg this]
        simp [h2]
      · have : (e.1 == k') = false := by simpa using h2
        simp only [List.find?_cons, this]
        exact ih

theorem length_dset_le (d : List (κ × ν)) (k : κ) (v : ν) : (dset d k v).length ≤ d.length + 1 := by
  induction d with
  | nil => simp [dset]
  | cons e d ih =>
    unfold dset
    split
    · simp
    · simpa using ih

theorem mem_sadd (s : List κ) (x y : κ) : y ∈ sadd s x ↔ y = x ∨ y ∈ s := by
  unfold sadd
  split
  · constructor
    · exact Or.inr
    · rintro (rfl | h)
      · assumption
      · exact h
  · simp [or_comm]

/-- the items of a dictionary are its key/value pairs -/
def NodupKeys (d : List (κ × ν)) : Prop := (d.map (·.1)).Nodup

theorem mem_keys_dset (d : List (κ × ν)) (k k' : κ) (v : ν) :
    k' ∈ (dset d k v).map (·.1) ↔ k' = k ∨ k' ∈ d.map (·.1) := by
  induction d with
  | nil => simp [dset]
  | cons e d ih =>
    unfold dset
    by_cases he : e.1 = k
    · rw [if_pos he]; simp [he]
    · rw [if_neg he, List.map_cons, List.mem_cons, ih]
      simp only [List.map_cons, List.mem_cons]
      constructor
      · rintro (h | h | h) <;> simp [h]
      · rintro (h | h | h) <;> simp [h]

theorem nodup_dset {d : List (κ × ν)} (h : NodupKeys d) (k : κ) (v : ν) : NodupKeys (dset d k v) := by
  unfold NodupKeys at *
  induction d with
  | nil => simp [dset]
  | cons e d ih =>
    unfold dset
    rw [List.map_cons, List.nodup_cons] at h
    by_cases he : e.1 = k
    · rw [if_pos he, List.map_cons, List.nodup_cons]
      exact ⟨by rw [← he]; exact h.1, h.2⟩
    · rw [if_neg he, List.map_cons, List.nodup_cons, mem_keys_dset]
      exact ⟨fun h' => h'.elim he h.1, ih h.2⟩

theorem mem_iff_dget {d : List (κ × ν)} (h : NodupKeys d) (k : κ) (v : ν) :
    (k, v) ∈ d ↔ dget d k = some v := by
  unfold dget NodupKeys at *
  induction d with
  | nil => simp
  | cons e d ih =>
    rw [List.map_cons, List.nodup_cons] at h
    by_cases he : e.1 = k
    · simp only [List.find?_cons, he, beq_self_eq_true, Option.map_some, Option.some.injEq,
        List.mem_cons]
      constructor
      · rintro (h' | h')
        · rw [← h']
        · exact absurd (List.mem_map_of_mem (f := (·.1)) h') (by simpa [he] using h.1)
      · intro h'
        left
        rw [← he, ← h']
    · have : (e.1 == k) = false := by simpa using he
      simp only [List.find?_cons, this, List.mem_cons]
      rw [ih h.2]
      constructor
      · rintro (h' | h')
        · exact absurd (by rw [← h']) he
        · exact h'
      · exact Or.inr

end Py
