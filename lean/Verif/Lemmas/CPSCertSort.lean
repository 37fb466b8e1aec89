import Verif.Lemmas.CPSCertText

/-!
# Sorting: lists with the same items, none twice, are sorted to the same list
-/

namespace Model.CPS

/-- a total order -/
structure Total {α : Type} (le : α → α → Bool) : Prop where
  total : ∀ a b, le a b = true ∨ le b a = true
  trans : ∀ a b c, le a b = true → le b c = true → le a c = true
  anti : ∀ a b, le a b = true → le b a = true → a = b

theorem seqLe_total {α : Type} [DecidableEq α] {key : α → Nat} (inj : ∀ a b, key a = key b → a = b) :
    Total (seqLe fun x y : α => decide (key x < key y)) := by
  refine ⟨fun a => ?_, fun a => ?_, fun a => ?_⟩
  · induction a with
    | nil => intro b; exact Or.inl rfl
    | cons x a ih =>
      intro b
      cases b with
      | nil => exact Or.inr rfl
      | cons y b =>
        unfold seqLe
        by_cases h : x = y
        · subst h; simpa using ih b
        · rw [if_neg h, if_neg (Ne.symm h)]
          have : key x ≠ key y := fun e => h (inj _ _ e)
          simp only [decide_eq_true_eq]
          omega
  · induction a with
    | nil => intros; rfl
    | cons x a ih =>
      intro b c h1 h2
      cases b with
      | nil => cases h1
      | cons y b =>
        cases c with
        | nil => cases h2
        | cons z c =>
          unfold seqLe at h1 h2 ⊢
          by_cases hxy : x = y
          · subst hxy
            rw [if_pos rfl] at h1
            by_cases hxz : x = z
            · subst hxz
              rw [if_pos rfl] at h2 ⊢
              exact ih b c h1 h2
            · rw [if_neg hxz] at h2 ⊢
              exact h2
          · rw [if_neg hxy] at h1
            by_cases hyz : y = z
            · subst hyz
              rw [if_neg hxy]; exact h1
            · rw [if_neg hyz] at h2
              simp only [decide_eq_true_eq] at h1 h2
              rw [if_neg (fun e => by rw [e] at h1; omega)]
              simp only [decide_eq_true_eq]; omega
  · induction a with
    | nil =>
      intro b _ h
      cases b with
      | nil => rfl
      | cons y b => cases h
    | cons x a ih =>
      intro b h1 h2
      cases b with
      | nil => cases h1
      | cons y b =>
        unfold seqLe at h1 h2
        by_cases h : x = y
        · subst h
          rw [if_pos rfl] at h1 h2
          rw [ih b h1 h2]
        · rw [if_neg h] at h1
          rw [if_neg (Ne.symm h)] at h2
          simp only [decide_eq_true_eq] at h1 h2
          omega

theorem edgeLe_total : Total edgeLe := by
  have H : Total (seqLe fun x y : Nat => decide (x < y)) := seqLe_total (key := id) fun _ _ h => h
  refine ⟨?_, ?_, ?_⟩
  · rintro ⟨a, b⟩ ⟨c, d⟩
    unfold edgeLe
    by_cases h : a = c
    · subst h; simpa using H.total b d
    · simp only [if_neg h, if_neg (Ne.symm h)]; exact H.total a c
  · rintro ⟨a, b⟩ ⟨c, d⟩ ⟨e, f⟩ h1 h2
    unfold edgeLe at h1 h2 ⊢
    simp only at h1 h2 ⊢
    by_cases hac : a = c
    · subst hac
      rw [if_pos rfl] at h1
      by_cases hae : a = e
      · subst hae
        rw [if_pos rfl] at h2 ⊢
        exact H.trans _ _ _ h1 h2
      · rw [if_neg hae] at h2 ⊢; exact h2
    · rw [if_neg hac] at h1
      by_cases hce : c = e
      · subst hce; rw [if_neg hac]; exact h1
      · rw [if_neg hce] at h2
        rw [if_neg (fun e' => by subst e'; exact hac (H.anti _ _ h1 h2))]
        exact H.trans _ _ _ h1 h2
  · rintro ⟨a, b⟩ ⟨c, d⟩ h1 h2
    unfold edgeLe at h1 h2
    simp only at h1 h2
    by_cases h : a = c
    · subst h
      rw [if_pos rfl] at h1 h2
      rw [H.anti _ _ h1 h2]
    · rw [if_neg h] at h1
      rw [if_neg (Ne.symm h)] at h2
      exact absurd (H.anti _ _ h1 h2) h

theorem charLe_total : Total (seqLe fun x y : Char => decide (x.toNat < y.toNat)) :=
  seqLe_total (key := Char.toNat) fun a b h => by
    rw [← Char.ofNat_toNat a, h, Char.ofNat_toNat]

theorem insertBy_perm {α : Type} (le : α → α → Bool) (x : α) (l : List α) : (insertBy le x l).Perm (x :: l) := by
  induction l with
  | nil => exact List.Perm.refl _
  | cons y l ih =>
    unfold insertBy
    split
    · exact List.Perm.refl _
    · exact (ih.cons y).trans (List.Perm.swap x y l)

theorem sortBy_perm {α : Type} (le : α → α → Bool) (l : List α) : (sortBy le l).Perm l := by
  induction l with
  | nil => exact List.Perm.refl _
  | cons x l ih => exact (insertBy_perm le x _).trans (ih.cons x)

theorem sortBy_pairwise {α : Type} {le : α → α → Bool} (H : Total le) (l : List α) :
    (sortBy le l).Pairwise (fun a b => le a b = true) := by
  induction l with
  | nil => exact List.Pairwise.nil
  | cons x l ih =>
    show (insertBy le x (sortBy le l)).Pairwise _
    generalize sortBy le l = s at ih
    induction s with
    | nil => simp [insertBy]
    | cons y s ih2 =>
      rw [List.pairwise_cons] at ih
      unfold insertBy
      split
      · next h =>
        refine List.pairwise_cons.2 ⟨fun z hz => ?_, List.pairwise_cons.2 ih⟩
        rcases List.mem_cons.1 hz with rfl | hz
        · exact h
        · exact H.trans _ _ _ h (ih.1 z hz)
      · next h =>
        refine List.pairwise_cons.2 ⟨fun z hz => ?_, ih2 ih.2⟩
        rcases (mem_insertBy le x z s).1 hz with rfl | hz
        · exact (H.total z y).resolve_left h
        · exact ih.1 z hz

theorem sortBy_unique {α : Type} {le : α → α → Bool} (H : Total le) {l l' : List α} (h : l.Nodup) (h' : l'.Nodup)
    (hm : ∀ a, a ∈ l ↔ a ∈ l') : sortBy le l = sortBy le l' :=
  List.Perm.eq_of_pairwise (fun a b _ _ h1 h2 => H.anti a b h1 h2) (sortBy_pairwise H l) (sortBy_pairwise H l')
    ((sortBy_perm le l).trans (((List.perm_ext_iff_of_nodup h h').2 hm).trans (sortBy_perm le l').symm))

end Model.CPS
