import Verif.Spec.Convert
import Verif.Lemmas.Records2

/-!
# Lemmas on file names
-/

namespace Model.Convert
open Model.IO

theorem split_mid (c : Char) (a b : List Char) : Py.split c (a ++ c :: b) = Py.split c a ++ Py.split c b := by
  induction a with
  | nil => simp [Py.split]
  | cons x a ih =>
    rw [List.cons_append]
    generalize hb : Py.split c b = sb at ih ⊢
    unfold Py.split
    split
    · rw [ih]; rfl
    · rw [ih]
      cases h : Py.split c a with
      | nil => exact absurd h (split_ne_nil c a)
      | cons r rs => rfl

theorem split_head (c : Char) (s : List Char) : ∃ r rs, Py.split c s = r :: rs ∧ c ∉ r ∧
    ((rs = [] ∧ s = r) ∨ ∃ t, s = r ++ c :: t ∧ rs = Py.split c t) := by
  by_cases h : c ∈ s
  · obtain ⟨a, b, rfl, ha⟩ := List.eq_append_cons_of_mem h
    exact ⟨a, Py.split c b, split_append c a b ha, ha, Or.inr ⟨b, rfl, rfl⟩⟩
  · exact ⟨s, [], split_noSep c s h, h, Or.inl ⟨rfl, rfl⟩⟩

theorem mem_split_drop (c : Char) (x : List Char) (hx : c ∉ x) (s : List Char) :
    x ∈ (Py.split c s).drop 1 ↔ ∃ stem rest, s = stem ++ c :: (x ++ rest) ∧ (rest = [] ∨ ∃ r, rest = c :: r) := by
  constructor
  · intro h
    induction hl : s.length using Nat.strong_induction_on generalizing s with
    | _ n ih =>
      obtain ⟨r, rs, e, hr, h1 | ⟨t, rfl, rfl⟩⟩ := split_head c s
      · rw [e, h1.1] at h; simp at h
      · rw [e] at h
        obtain ⟨r2, rs2, e2, hr2, h2⟩ := split_head c t
        simp only [List.drop_succ_cons, List.drop_zero] at h
        by_cases hxr : x = r2
        · subst hxr
          refine ⟨r, t.drop x.length, ?_, ?_⟩
          · rcases h2 with ⟨-, rfl⟩ | ⟨t2, rfl, -⟩ <;> simp
          · rcases h2 with ⟨-, rfl⟩ | ⟨t2, rfl, -⟩
            · simp
            · right; exact ⟨t2, by simp⟩
        · have h3 : x ∈ (Py.split c t).drop 1 := by
            rw [e2] at h ⊢
            rcases List.mem_cons.1 h with h | h
            · exact absurd h hxr
            · exact h
          obtain ⟨stem, rest, rfl, hrest⟩ := ih t.length (by rw [← hl]; simp; omega) t h3 rfl
          exact ⟨r ++ c :: stem, rest, by simp, hrest⟩
  · rintro ⟨stem, rest, rfl, hrest⟩
    rw [split_mid]
    have : x ∈ Py.split c (x ++ rest) := by
      rcases hrest with rfl | ⟨r, rfl⟩
      · rw [List.append_nil, split_noSep c x hx]; simp
      · rw [split_append c x r hx]; simp
    obtain ⟨r, rs, e⟩ := List.exists_cons_of_ne_nil (split_ne_nil c stem)
    rw [e]
    simp only [List.cons_append, List.drop_succ_cons, List.drop_zero]
    exact List.mem_append_right _ this

theorem baseName_eq {p name : List Char} (h : Spec.IsName p name) : baseName p = name := by
  obtain ⟨hn, rfl | ⟨dir, rfl⟩⟩ := h
  · unfold baseName
    rw [split_noSep _ _ hn]; rfl
  · unfold baseName
    rw [split_mid, split_noSep _ _ hn]
    simp

theorem isName_baseName (p : List Char) : Spec.IsName p (baseName p) := by
  induction hl : p.length using Nat.strong_induction_on generalizing p with
  | _ n ih =>
    obtain ⟨r, rs, e, hr, ⟨h1, rfl⟩ | ⟨t, rfl, rfl⟩⟩ := split_head '/' p
    · have : baseName p = p := by unfold baseName; rw [e, h1]; rfl
      rw [this]
      exact ⟨hr, Or.inl rfl⟩
    · have hb : baseName (r ++ '/' :: t) = baseName t := by
        unfold baseName
        rw [e]
        obtain ⟨r2, rs2, e2⟩ := List.exists_cons_of_ne_nil (split_ne_nil '/' t)
        rw [e2]
        simp
      rw [hb]
      obtain ⟨h1, h2⟩ := ih t.length (by rw [← hl]; simp; omega) t rfl
      refine ⟨h1, Or.inr ?_⟩
      rcases h2 with h2 | ⟨dir, h2⟩
      · exact ⟨r, by rw [← h2]⟩
      · exact ⟨r ++ '/' :: dir, by conv_lhs => rw [h2]
                                   simp⟩

theorem dropDots_append (stem rest : List Char) (h : ∃ c ∈ stem, c ≠ '.') :
    (stem ++ rest).dropWhile (· = '.') = stem.dropWhile (· = '.') ++ rest := by
  induction stem with
  | nil => obtain ⟨c, hc, -⟩ := h; cases hc
  | cons x stem ih =>
    by_cases hx : x = '.'
    · subst hx
      simp only [List.cons_append, List.dropWhile_cons, decide_true, if_true]
      apply ih
      obtain ⟨c, hc, hne⟩ := h
      rcases List.mem_cons.1 hc with rfl | hc
      · exact absurd rfl hne
      · exact ⟨c, hc, hne⟩
    · simp [hx]

theorem mem_suffixes {p name ext : List Char} (hn : Spec.IsName p name) (he : '.' ∉ ext) :
    ('.' :: ext) ∈ suffixes p ↔ Spec.HasExt ext name := by
  unfold suffixes Spec.HasExt
  rw [baseName_eq hn]
  simp only
  split
  · next h => simp [h]
  · next h =>
    have : ('.' :: ext) ∈ ((Py.split '.' (name.dropWhile (· = '.'))).drop 1).map ('.' :: ·) ↔
        ext ∈ (Py.split '.' (name.dropWhile (· = '.'))).drop 1 := by
      constructor
      · intro h
        obtain ⟨a, ha, e⟩ := List.mem_map.1 h
        injection e with _ e
        exact e ▸ ha
      · exact fun h => List.mem_map.2 ⟨ext, h, rfl⟩
    rw [this, mem_split_drop '.' ext he]
    constructor
    · rintro ⟨stem, rest, hs, hr⟩
      refine ⟨h, name.takeWhile (· = '.') ++ stem, rest, ?_, ?_, hr⟩
      · rw [List.append_assoc, ← hs, List.takeWhile_append_dropWhile]
      · cases stem with
        | nil =>
          exfalso
          have h1 : (name.dropWhile (· = '.')).head? = some '.' := by rw [hs]; rfl
          have := List.head?_dropWhile_not (p := (· = '.')) (l := name)
          rw [h1] at this
          simp at this
        | cons x stem =>
          refine ⟨x, by simp, ?_⟩
          have h1 : (name.dropWhile (· = '.')).head? = some x := by rw [hs]; rfl
          have := List.head?_dropWhile_not (p := (· = '.')) (l := name)
          rw [h1] at this
          simpa using this
    · rintro ⟨-, stem, rest, rfl, hst, hr⟩
      exact ⟨stem.dropWhile (· = '.'), rest, dropDots_append _ _ hst, hr⟩

end Model.Convert
