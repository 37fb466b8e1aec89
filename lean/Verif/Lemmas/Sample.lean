import Verif.Lemmas.FileTools
import Mathlib.Algebra.Order.Field.Basic

/-! Lemmas about reservoir sampling. -/

namespace Model.FileTools
open Spec Model.Status

/-! ## Any source of randomness -/

section
variable {α S : Type} {less : Nat → Nat → S → Bool × S} {range : Nat → S → Nat × S}
  {shuffle : {α : Type} → List α → S → List α × S}

theorem set_subperm [DecidableEq α] {l seen : List α} (h : l.Subperm seen) (a : α) (i : Nat) : (l.set i a).Subperm (seen ++ [a]) := by
  by_cases hi : i < l.length
  · have h1 : (l.set i a).Perm (a :: l.eraseIdx i) := by
      rw [List.set_eq_take_append_cons_drop, if_pos hi, List.eraseIdx_eq_take_drop_succ]
      exact List.perm_middle
    have h2 : (l.eraseIdx i).Subperm seen := ((List.eraseIdx_sublist l i).subperm).trans h
    have h3 : (a :: l.eraseIdx i).Subperm (a :: seen) := (List.subperm_cons a).2 h2
    exact (h1.subperm.trans h3).trans (List.perm_append_singleton a seen).symm.subperm
  · rw [List.set_eq_of_length_le (by omega)]
    exact h.trans (List.sublist_append_left seen [a]).subperm

theorem append_subperm {l seen : List α} (h : l.Subperm seen) (a : α) : (l ++ [a]).Subperm (seen ++ [a]) :=
  h.append (List.Subperm.refl _)

theorem bind_run {X Y : Type} (x : StateM S X) (f : X → StateM S Y) (s : S) : (x >>= f) s = f (x s).1 (x s).2 := rfl

theorem sampleFile_inv (C : Contract less range shuffle) (n : Nat) (items : List (Item α)) (s : Sampler α)
    (seen : List α) (x : S) (h : s.sample.Subperm seen) (hn : s.sample.length ≤ n) :
    let r := (sampleFile (oracle S less range shuffle) n items s x).1
    r.1.sample.Subperm (seen ++ okRecs items) ∧ r.1.sample.length ≤ n ∧
      (Item.bad ∉ items → r.2 = false) ∧
      (∀ l, items = undamaged l → r.1.sample.length = min n (s.sample.length + l.length) ∧
        r.1.numRecords = s.numRecords + l.length) := by
  classical
  induction items generalizing s seen x with
  | nil =>
    have key : ∀ y : S, ((s, false), y).1.1.sample.Subperm (seen ++ okRecs ([] : List (Item α))) ∧ s.sample.length ≤ n ∧
        (Item.bad ∉ ([] : List (Item α)) → ((s, false), y).1.2 = false) ∧
        (∀ l : List α, [] = undamaged l → s.sample.length = min n (s.sample.length + l.length) ∧
          s.numRecords = s.numRecords + l.length) := by
      refine fun y => ⟨by simpa [okRecs] using h, hn, fun _ => rfl, fun l hl => ?_⟩
      have : l = [] := by simpa [undamaged] using hl.symm
      subst this; simp [hn]
    unfold sampleFile
    by_cases hl : s.sample.length < n
    · rw [if_pos hl]; exact key x
    · rw [if_neg hl]; exact key _
  | cons i rest ih =>
    have hskip : ∀ (s' : Sampler α) (y : S) (b : Bool), s'.sample.Subperm seen → s'.sample.length ≤ n → (b = true → i = .bad) →
        (∀ a, i ≠ .ok a) → ((s', b), y).1.1.sample.Subperm (seen ++ okRecs (i :: rest)) ∧ s'.sample.length ≤ n ∧
        (Item.bad ∉ i :: rest → ((s', b), y).1.2 = false) ∧
        (∀ l : List α, i :: rest = undamaged l → s'.sample.length = min n (s.sample.length + l.length) ∧
          s'.numRecords = s.numRecords + l.length) := by
      intro s' y b g1 g2 g3 g4
      refine ⟨g1.trans (List.sublist_append_left _ _).subperm, g2, fun hb => ?_, fun l hl => ?_⟩
      · cases b with
        | false => rfl
        | true => exact absurd (g3 rfl) (fun e => hb (e ▸ List.mem_cons_self))
      · cases l with
        | nil => cases hl
        | cons a l => exact absurd (List.cons.inj hl).1 (g4 a)
    have hstep : ∀ (s' : Sampler α) (y : S) (a : α), i = .ok a → s'.sample.Subperm (seen ++ [a]) → s'.sample.length ≤ n →
        s'.sample.length = min n (s.sample.length + 1) → s'.numRecords = s.numRecords + 1 →
        let r := (sampleFile (oracle S less range shuffle) n rest s' y).1
        r.1.sample.Subperm (seen ++ okRecs (i :: rest)) ∧ r.1.sample.length ≤ n ∧ (Item.bad ∉ i :: rest → r.2 = false) ∧
        (∀ l : List α, i :: rest = undamaged l → r.1.sample.length = min n (s.sample.length + l.length) ∧
          r.1.numRecords = s.numRecords + l.length) := by
      rintro s' y a rfl g1 g2 g3 g4
      obtain ⟨k1, k2, k3, k4⟩ := ih s' (seen ++ [a]) y g1 g2
      refine ⟨by simpa [okRecs] using k1, k2, fun hb => k3 fun hb' => hb (List.mem_cons_of_mem _ hb'), fun l hl => ?_⟩
      cases l with
      | nil => cases hl
      | cons b l =>
        rw [(k4 l (List.cons.inj hl).2).1, (k4 l (List.cons.inj hl).2).2, g3, g4]
        simp only [List.length_cons]
        omega
    unfold sampleFile
    by_cases hl : s.sample.length < n
    · rw [if_pos hl]
      cases i with
      | ok a => exact hstep _ x a rfl (append_subperm h a) (by simpa using hl) (by simp; omega) rfl
      | bad => exact hskip s x true h hn (fun _ => rfl) (by simp)
      | cutData => exact hskip s x false h hn (by simp) (by simp)
      | cutLen => exact hskip s x false h hn (by simp) (by simp)
    · rw [if_neg hl]
      have hlen : s.sample.length = n := by omega
      obtain ⟨b, y, hx⟩ : ∃ b y, less n s.numRecords x = (b, y) := ⟨_, _, rfl⟩
      have hx' : (oracle S less range shuffle).less n s.numRecords x = (b, y) := hx
      rw [bind_run, hx']
      dsimp only
      cases b with
      | true =>
        have h0 : 0 < n := by
          rcases Nat.eq_zero_or_pos n with rfl | h0
          · have := C.never s.numRecords x; rw [hx] at this; cases this
          · exact h0
        rw [if_pos rfl]
        cases i with
        | ok a =>
          obtain ⟨j, z, hy⟩ : ∃ j z, range n y = (j, z) := ⟨_, _, rfl⟩
          have hy' : (oracle S less range shuffle).range n y = (j, z) := hy
          have hj : j < n := by have := C.inRange n y h0; rwa [hy] at this
          dsimp only
          rw [bind_run, hy']
          dsimp only
          rw [if_pos (by omega)]
          exact hstep ⟨s.numRecords + 1, s.numRead + 1, s.sample.set j a⟩ z a rfl (set_subperm h a _) (by simpa using hn)
            (by simp; omega) rfl
        | bad => exact hskip s y true h hn (fun _ => rfl) (by simp)
        | cutData => exact hskip s y false h hn (by simp) (by simp)
        | cutLen => exact hskip s y false h hn (by simp) (by simp)
      | false =>
        rw [if_neg (by simp)]
        have hgo : ∀ i' : Item α, i = i' → (∀ a, i' ≠ .ok a) →
            let r := (sampleFile (oracle S less range shuffle) n rest { s with numRecords := s.numRecords + 1 } y).1
            r.1.sample.Subperm (seen ++ okRecs (i :: rest)) ∧ r.1.sample.length ≤ n ∧ (Item.bad ∉ i :: rest → r.2 = false) ∧
            (∀ l : List α, i :: rest = undamaged l → r.1.sample.length = min n (s.sample.length + l.length) ∧
          r.1.numRecords = s.numRecords + l.length) := by
          rintro _ rfl hno
          obtain ⟨k1, k2, k3, k4⟩ := ih { s with numRecords := s.numRecords + 1 } seen y h hn
          refine ⟨?_, k2, fun hb => k3 fun hb' => hb (List.mem_cons_of_mem _ hb'), fun l hl => ?_⟩
          · refine k1.trans (List.Subperm.append (List.Subperm.refl _) ?_)
            cases i <;> first | exact absurd rfl (hno _) | exact List.Subperm.refl _
          · cases l with
            | nil => cases hl
            | cons b l => exact absurd (List.cons.inj hl).1 (hno b)
        cases i with
        | ok a =>
          exact hstep _ y a rfl (h.trans (List.sublist_append_left seen [a]).subperm) hn (by simp; omega) rfl
        | bad => exact hgo _ rfl (by simp)
        | cutData => exact hgo _ rfl (by simp)
        | cutLen => exact hskip s y false h hn (by simp) (by simp)

theorem sampleFiles_inv (C : Contract less range shuffle) (n : Nat) (files : List (List (Item α))) (s : Sampler α)
    (seen : List α) (x : S) (h : s.sample.Subperm seen) (hn : s.sample.length ≤ n) :
    let r := (sampleFiles (oracle S less range shuffle) n files s x).1
    r.1.sample.Subperm (seen ++ files.flatMap okRecs) ∧ r.1.sample.length ≤ n ∧
      ((∀ f ∈ files, Item.bad ∉ f) → r.2 = false) ∧
      (∀ ls : List (List α), files = ls.map undamaged → r.1.sample.length = min n (s.sample.length + ls.flatten.length) ∧
        r.1.numRecords = s.numRecords + ls.flatten.length) := by
  induction files generalizing s seen x with
  | nil =>
    refine ⟨by rw [List.flatMap_nil, List.append_nil]; exact h, hn, fun _ => rfl, fun ls hl => ?_⟩
    have : ls = [] := by simpa using hl.symm
    subst this
    show s.sample.length = _ ∧ s.numRecords = _
    simp [hn]
  | cons f files ih =>
    unfold sampleFiles
    rw [bind_run]
    obtain ⟨h1, h2, h3, h4⟩ := sampleFile_inv C n f s seen x h hn
    rcases hr : sampleFile (oracle S less range shuffle) n f s x with ⟨⟨s', b⟩, y⟩
    rw [hr] at h1 h2 h3 h4
    dsimp only at h1 h2 h3 h4 ⊢
    cases b with
    | true =>
      rw [if_pos rfl]
      refine ⟨h1.trans ?_, h2, fun hb => ?_, fun ls hl => ?_⟩
      · rw [List.flatMap_cons, ← List.append_assoc]
        exact (List.sublist_append_left _ _).subperm
      · have := h3 (hb f List.mem_cons_self); cases this
      · cases ls with
        | nil => cases hl
        | cons l ls =>
          have := h3 (by rw [(List.cons.inj hl).1]; simp [undamaged])
          cases this
    | false =>
      rw [if_neg (by simp)]
      obtain ⟨k1, k2, k3, k4⟩ := ih s' (seen ++ okRecs f) y h1 h2
      refine ⟨by rw [List.flatMap_cons, ← List.append_assoc]; exact k1, k2,
        fun hb => k3 fun g hg => hb g (List.mem_cons_of_mem _ hg), fun ls hl => ?_⟩
      cases ls with
      | nil => cases hl
      | cons l ls =>
        rw [(k4 ls (List.cons.inj hl).2).1, (k4 ls (List.cons.inj hl).2).2, (h4 l (List.cons.inj hl).1).1,
          (h4 l (List.cons.inj hl).1).2]
        simp only [List.flatten_cons, List.length_append]
        omega

theorem sampleMain_inv (C : Contract less range shuffle) (n : Nat) (files : List (List (Item α))) (x : S) :
    let r := (sampleMain (oracle S less range shuffle) n files x).1
    (∀ out, r = some out → out.Subperm (files.flatMap okRecs) ∧ out.length ≤ n ∧
      ∀ ls : List (List α), files = ls.map undamaged → out.length = min n ls.flatten.length) ∧
    ((∀ f ∈ files, Item.bad ∉ f) → r ≠ none) := by
  unfold sampleMain
  rw [bind_run]
  obtain ⟨h1, h2, h3, h4⟩ := sampleFiles_inv C n files ⟨1, 0, []⟩ [] x (List.Subperm.refl _) (by simp)
  rcases hr : sampleFiles (oracle S less range shuffle) n files ⟨1, 0, []⟩ x with ⟨⟨s', b⟩, y⟩
  rw [hr] at h1 h2 h3 h4
  dsimp only at h1 h2 h3 h4 ⊢
  cases b with
  | true =>
    rw [if_pos rfl]
    refine ⟨fun out ho => (by cases ho), fun hb => ?_⟩
    cases h3 hb
  | false =>
    rw [if_neg (by simp), bind_run]
    have hp : ((oracle S less range shuffle).shuffle s'.sample y).1.Perm s'.sample := C.perm s'.sample y
    refine ⟨fun out ho => ?_, fun _ h => by cases h⟩
    cases ho
    refine ⟨hp.subperm.trans (by simpa using h1), by rw [hp.length_eq]; exact h2, fun ls hl => ?_⟩
    rw [hp.length_eq, (h4 ls hl).1]
    simp
end

/-! ## Ideal randomness -/

section
variable {α : Type}

theorem ex_bind {X Y : Type} (x : Ex X) (g : X → Ex Y) (f : Y → ℚ) : (x >>= g) f = x fun a => g a f := rfl

theorem ex_pure {X : Type} (a : X) (f : X → ℚ) : (pure a : Ex X) f = f a := rfl

/-- what happens with one record -/
def step1 (n : Nat) (a : α) (s : Sampler α) : Ex (Sampler α) := fun f =>
  if s.sample.length < n then f ⟨s.numRecords + 1, s.numRead + 1, s.sample ++ [a]⟩
  else
    let p := min 1 ((n : ℚ) / s.numRecords)
    p * ((∑ i ∈ Finset.range n, f ⟨s.numRecords + 1, s.numRead + 1, s.sample.set i a⟩) / n) +
      (1 - p) * f { s with numRecords := s.numRecords + 1 }

/-- what happens with a list of records -/
def steps (n : Nat) : List α → Sampler α → Ex (Sampler α)
  | [], s => fun f => f s
  | a :: l, s => fun f => step1 n a s fun s' => steps n l s' f

theorem steps_append (n : Nat) (l l' : List α) (s : Sampler α) (f : Sampler α → ℚ) :
    steps n (l ++ l') s f = steps n l s fun s' => steps n l' s' f := by
  induction l generalizing s with
  | nil => rfl
  | cons a l ih => simp only [List.cons_append, steps, ih]

theorem sampleFile_ideal (n : Nat) (l : List α) (s : Sampler α) (hs : s.sample.length ≤ n) (f : Sampler α × Bool → ℚ) :
    sampleFile ideal n (undamaged l) s f = steps n l s fun s' => f (s', false) := by
  induction l generalizing s with
  | nil =>
    rw [show undamaged ([] : List α) = [] from rfl]
    unfold sampleFile steps
    split
    · rfl
    · rw [ex_bind]
      simp only [ideal, ex_pure]
      ring
  | cons a l ih =>
    rw [show undamaged (a :: l) = .ok a :: undamaged l from rfl]
    unfold sampleFile steps step1
    by_cases hl : s.sample.length < n
    · rw [if_pos hl, if_pos hl]
      exact ih _ (by simpa using hl)
    · rw [if_neg hl, if_neg hl]
      have hlen : s.sample.length = n := by omega
      have h1 := ih { s with numRecords := s.numRecords + 1 } hs
      have h2 : ∀ i ∈ Finset.range n, (if i < s.sample.length then
            sampleFile ideal n (undamaged l) ⟨s.numRecords + 1, s.numRead + 1, s.sample.set i a⟩ else pure (s, true) : Ex _) f
          = steps n l ⟨s.numRecords + 1, s.numRead + 1, s.sample.set i a⟩ fun s' => f (s', false) := by
        intro i hi
        rw [if_pos (by rw [hlen]; exact Finset.mem_range.1 hi)]
        exact ih _ (by simpa using hs)
      dsimp only
      rw [← h1, ← Finset.sum_congr rfl h2]
      rfl

theorem steps_mul (n : Nat) (l : List α) (s : Sampler α) (c : ℚ) (f : Sampler α → ℚ) :
    steps n l s (fun s' => c * f s') = c * steps n l s f := by
  induction l generalizing s with
  | nil => rfl
  | cons a l ih =>
    simp only [steps, step1, ih]
    split
    · rfl
    · rw [← Finset.mul_sum]; ring

theorem steps_sum {ι : Type} (n : Nat) (l : List α) (s : Sampler α) (T : Finset ι) (f : ι → Sampler α → ℚ) :
    steps n l s (fun s' => ∑ y ∈ T, f y s') = ∑ y ∈ T, steps n l s (f y) := by
  induction l generalizing s with
  | nil => rfl
  | cons a l ih =>
    simp only [steps, step1, ih]
    split
    · rfl
    · rw [Finset.sum_comm, Finset.sum_add_distrib, ← Finset.mul_sum, ← Finset.mul_sum]
      simp only [div_eq_mul_inv, Finset.sum_mul]

/-- the states that may be reached after the records `l` -/
structure After (n : Nat) (l : List α) (s : Sampler α) : Prop where
  nodup : s.sample.Nodup
  sub : ∀ x ∈ s.sample, x ∈ l
  len : s.sample.length = min n l.length
  num : s.numRecords = l.length + 1

theorem nodup_set {l : List α} (h : l.Nodup) {a : α} (ha : a ∉ l) (i : Nat) : (l.set i a).Nodup := by
  induction l generalizing i with
  | nil => simp
  | cons b l ih =>
    simp only [List.nodup_cons, List.mem_cons, not_or] at h ha
    cases i with
    | zero => simp [h.2, ha.2]
    | succ i =>
      simp only [List.set_cons_succ, List.nodup_cons]
      refine ⟨fun hb => ?_, ih h.2 ha.2 i⟩
      rcases List.mem_or_eq_of_mem_set hb with hb | hb
      · exact h.1 hb
      · exact ha.1 hb.symm

theorem After.app {n : Nat} {l : List α} {s : Sampler α} {a : α} (h : After n l s) (ha : a ∉ l) (hl : s.sample.length < n) :
    After n (l ++ [a]) ⟨s.numRecords + 1, s.numRead + 1, s.sample ++ [a]⟩ where
  nodup := by
    simp only [List.nodup_append, h.nodup, List.nodup_singleton, true_and]
    intro x hx y hy e
    rw [List.mem_singleton] at hy
    exact ha (hy ▸ e ▸ h.sub x hx)
  sub := by
    intro x hx
    rcases List.mem_append.1 hx with hx | hx
    · exact List.mem_append_left _ (h.sub x hx)
    · exact List.mem_append_right _ hx
  len := by
    have := h.len
    simp only [List.length_append, List.length_singleton]
    omega
  num := by simp [h.num]

theorem After.set {n : Nat} {l : List α} {s : Sampler α} {a : α} (h : After n l s) (ha : a ∉ l) (hl : ¬ s.sample.length < n)
    (i : Nat) : After n (l ++ [a]) ⟨s.numRecords + 1, s.numRead + 1, s.sample.set i a⟩ where
  nodup := nodup_set h.nodup (fun hh => ha (h.sub a hh)) i
  sub := by
    intro x hx
    rcases List.mem_or_eq_of_mem_set hx with hx | hx
    · exact List.mem_append_left _ (h.sub x hx)
    · exact List.mem_append_right _ (by simp [hx])
  len := by
    have := h.len
    simp only [List.length_append, List.length_singleton, List.length_set]
    omega
  num := by simp [h.num]

theorem After.skip {n : Nat} {l : List α} {s : Sampler α} {a : α} (h : After n l s) (hl : ¬ s.sample.length < n) :
    After n (l ++ [a]) { s with numRecords := s.numRecords + 1 } where
  nodup := h.nodup
  sub := fun x hx => List.mem_append_left _ (h.sub x hx)
  len := by
    have := h.len
    simp only [List.length_append, List.length_singleton]
    omega
  num := by simp [h.num]

theorem steps_congr {n : Nat} {l l0 : List α} {s : Sampler α} (hs : After n l0 s) (hn : (l0 ++ l).Nodup) {f g : Sampler α → ℚ}
    (h : ∀ s', After n (l0 ++ l) s' → f s' = g s') : steps n l s f = steps n l s g := by
  induction l generalizing s l0 with
  | nil => exact h s (by simpa using hs)
  | cons a l ih =>
    have ha : a ∉ l0 := by
      rw [List.nodup_append] at hn
      exact fun hh => hn.2.2 a hh a List.mem_cons_self rfl
    rw [show l0 ++ a :: l = (l0 ++ [a]) ++ l by simp] at hn h
    simp only [steps, step1]
    split
    · exact ih (hs.app ha (by assumption)) hn h
    · rename_i hl
      rw [ih (hs.skip hl) hn h, Finset.sum_congr rfl fun i _ => ih (hs.set ha hl i) hn h]

/-- while the sample is not full, every record is taken -/
theorem steps_fill (n : Nat) (l : List α) (s : Sampler α) (h : s.sample.length + l.length ≤ n) (f : Sampler α → ℚ) :
    steps n l s f = f ⟨s.numRecords + l.length, s.numRead + l.length, s.sample ++ l⟩ := by
  induction l generalizing s with
  | nil => simp [steps]
  | cons a l ih =>
    simp only [List.length_cons] at h
    simp only [steps, step1]
    rw [if_pos (by omega), ih _ (by simp; omega)]
    simp [Nat.add_assoc, Nat.add_comm 1]

/-- how often replacing an element of `l` by `a` gives the set `S` -/
theorem sum_set [DecidableEq α] {l : List α} (hl : l.Nodup) {a : α} (ha : a ∉ l) (S T : Finset α) (haS : a ∈ S) (hT : a ∉ T)
    (hsub : l.toFinset ⊆ T) (hS : S.erase a ⊆ T) (hcard : S.card = l.length) :
    (∑ i ∈ Finset.range l.length, if (l.set i a).toFinset = S then (1 : ℚ) else 0) =
      ∑ y ∈ T \ S, if l.toFinset = insert y (S.erase a) then (1 : ℚ) else 0 := by
  have hset : ∀ i (hi : i < l.length), (l.set i a).toFinset = insert a (l.toFinset.erase l[i]) := by
    intro i hi
    ext x
    simp only [List.mem_toFinset, Finset.mem_insert, Finset.mem_erase]
    constructor
    · intro hx
      by_cases hxa : x = a
      · exact Or.inl hxa
      · right
        rcases List.mem_or_eq_of_mem_set hx with hx' | hx'
        · refine ⟨?_, hx'⟩
          rintro rfl
          obtain ⟨j, hj, hj2⟩ := List.mem_iff_getElem.1 hx
          rw [List.length_set] at hj
          rw [List.getElem_set] at hj2
          split at hj2
          · exact hxa hj2.symm
          · rename_i hne
            exact hne ((List.Nodup.getElem_inj_iff hl).1 hj2).symm
        · exact absurd hx' hxa
    · rintro (rfl | ⟨h1, h2⟩)
      · exact List.mem_iff_getElem.2 ⟨i, by simpa using hi, by simp⟩
      · obtain ⟨j, hj, rfl⟩ := List.mem_iff_getElem.1 h2
        refine List.mem_iff_getElem.2 ⟨j, by simpa using hj, ?_⟩
        rw [List.getElem_set, if_neg]
        rintro rfl
        exact h1 rfl
  have hiff : ∀ y ∈ l, (insert a (l.toFinset.erase y) = S ↔ y ∉ S ∧ l.toFinset = insert y (S.erase a)) := by
    intro y hy
    have hya : y ≠ a := fun e => ha (e ▸ hy)
    constructor
    · rintro rfl
      refine ⟨by simp [hya], ?_⟩
      rw [Finset.erase_insert (by simp [ha]), Finset.insert_erase (by simpa using hy)]
    · rintro ⟨h1, h2⟩
      rw [h2, Finset.erase_insert (by simp [h1]), Finset.insert_erase haS]
  have h1 : (∑ i ∈ Finset.range l.length, if (l.set i a).toFinset = S then (1 : ℚ) else 0) =
      ∑ y ∈ l.toFinset, if insert a (l.toFinset.erase y) = S then (1 : ℚ) else 0 := by
    refine Finset.sum_bij (fun i hi => l[i]'(Finset.mem_range.1 hi)) ?_ ?_ ?_ ?_
    · intro i hi; simp
    · intro i hi j hj h; exact (List.Nodup.getElem_inj_iff hl).1 h
    · intro y hy
      obtain ⟨i, hi, rfl⟩ := List.mem_iff_getElem.1 (List.mem_toFinset.1 hy)
      exact ⟨i, Finset.mem_range.2 hi, rfl⟩
    · intro i hi; rw [hset i (Finset.mem_range.1 hi)]
  rw [h1, Finset.sdiff_eq_filter, Finset.sum_filter]
  rw [Finset.sum_congr rfl fun y hy => by
    rw [show (if insert a (l.toFinset.erase y) = S then (1 : ℚ) else 0) =
      if y ∉ S then (if l.toFinset = insert y (S.erase a) then (1 : ℚ) else 0) else 0 by
        rw [← ite_and]; exact if_congr (hiff y (List.mem_toFinset.1 hy)) rfl rfl]]
  refine Finset.sum_subset hsub fun y hy hyl => ?_
  have : ¬ l.toFinset = insert y (S.erase a) := fun e => hyl (e ▸ Finset.mem_insert_self y _)
  simp [this]

/-- Reservoir sampling is uniform: after `N ≥ n` different records every set of `n` of them is the sample with the same
probability. -/
theorem steps_uniform [DecidableEq α] (n : Nat) (l : List α) (hl : l.Nodup) (hn : n ≤ l.length) (S : Finset α)
    (hS : S ⊆ l.toFinset) (hc : S.card = n) :
    steps n l ⟨1, 0, []⟩ (fun s => if s.sample.toFinset = S then 1 else 0) = 1 / (Nat.choose l.length n : ℚ) := by
  induction l using List.reverseRecOn generalizing S with
  | nil =>
    have : n = 0 := by simpa using hn
    subst this
    have : S = ∅ := Finset.card_eq_zero.1 hc
    simp [steps, this]
  | append_singleton l a ih =>
    have hnd := List.nodup_append.1 hl
    have ha : a ∉ l := fun h => hnd.2.2 a h a (by simp) rfl
    have h0 : After n ([] : List α) ⟨1, 0, []⟩ := ⟨by simp, by simp, by simp, rfl⟩
    simp only [List.length_append, List.length_singleton] at hn ⊢
    by_cases hn' : n ≤ l.length
    · rw [steps_append]
      have hN : (l.length : ℚ) + 1 ≠ 0 := by positivity
      have hch : (Nat.choose l.length n : ℚ) * (l.length + 1) = Nat.choose (l.length + 1) n * (l.length + 1 - n) := by
        have := Nat.choose_mul_succ_eq l.length n
        have h2 : ((l.length + 1 - n : Nat) : ℚ) = l.length + 1 - n := by push_cast [Nat.cast_sub (show n ≤ l.length + 1 by omega)]; ring
        rw [← h2]
        exact_mod_cast this
      have hc1 : (Nat.choose l.length n : ℚ) ≠ 0 := by
        exact_mod_cast (Nat.choose_pos hn').ne'
      have hc2 : (Nat.choose (l.length + 1) n : ℚ) ≠ 0 := by
        exact_mod_cast (Nat.choose_pos (show n ≤ l.length + 1 by omega)).ne'
      have hp : min 1 ((n : ℚ) / ((l.length + 1 : Nat) : ℚ)) = n / (l.length + 1) := by
        push_cast
        refine min_eq_right ((div_le_one (by positivity)).2 ?_)
        exact_mod_cast (show n ≤ l.length + 1 by omega)
      by_cases haS : a ∈ S
      · have hn0 : (n : ℚ) ≠ 0 := by
          have : 0 < S.card := Finset.card_pos.2 ⟨a, haS⟩
          exact_mod_cast (show n ≠ 0 by omega)
        have hSl : S.erase a ⊆ l.toFinset := by
          intro x hx
          rw [Finset.mem_erase] at hx
          have := hS hx.2
          simp only [List.mem_toFinset, List.mem_append, List.mem_singleton] at this ⊢
          exact this.resolve_right hx.1
        rw [steps_congr (g := fun s' => (1 / ((l.length : ℚ) + 1)) *
          ∑ y ∈ l.toFinset \ S, if s'.sample.toFinset = insert y (S.erase a) then (1 : ℚ) else 0) h0 (by simpa using hnd.1)]
        · rw [steps_mul, steps_sum, Finset.sum_congr rfl fun y hy => ih hnd.1 hn' (insert y (S.erase a)) ?_ ?_,
            Finset.sum_const, nsmul_eq_mul]
          · have hcard : ((l.toFinset \ S).card : ℚ) = l.length + 1 - n := by
              have h1 : l.toFinset \ S = l.toFinset \ S.erase a := by
                ext x
                simp only [Finset.mem_sdiff, List.mem_toFinset, Finset.mem_erase, not_and]
                refine and_congr_right fun hx => ?_
                have : x ≠ a := fun e => ha (e ▸ hx)
                simp [this]
              rw [h1, Finset.card_sdiff_of_subset hSl, List.toFinset_card_of_nodup hnd.1, Finset.card_erase_of_mem haS, hc]
              have h2 : 1 ≤ n := by have : 0 < S.card := Finset.card_pos.2 ⟨a, haS⟩; omega
              rw [Nat.cast_sub (by omega), Nat.cast_sub h2]
              push_cast; ring
            rw [hcard]
            field_simp
            linarith [hch]
          · intro x hx
            rcases Finset.mem_insert.1 hx with rfl | hx
            · exact (Finset.mem_sdiff.1 hy).1
            · exact hSl hx
          · rw [Finset.card_insert_of_notMem, Finset.card_erase_of_mem haS, hc]
            · have : 0 < S.card := Finset.card_pos.2 ⟨a, haS⟩
              omega
            · exact fun h => (Finset.mem_sdiff.1 hy).2 (Finset.mem_erase.1 h).2
        · intro s' hs'
          have hs' : After n l s' := by simpa using hs'
          have hlen : s'.sample.length = n := by rw [hs'.len]; omega
          have has : a ∉ s'.sample := fun h => ha (hs'.sub a h)
          simp only [steps, step1]
          rw [if_neg (by omega), hs'.num, hp, if_neg (fun e => has (by rw [← List.mem_toFinset, e]; exact haS))]
          have := sum_set hs'.nodup has S l.toFinset haS (by simpa using ha)
            (fun x hx => by simpa using hs'.sub x (by simpa using hx)) hSl (by omega)
          rw [hlen] at this
          rw [this]
          field_simp
          ring
      · have hSl : S ⊆ l.toFinset := by
          intro x hx
          have := hS hx
          simp only [List.mem_toFinset, List.mem_append, List.mem_singleton] at this ⊢
          exact this.resolve_right fun e => haS (e ▸ hx)
        rw [steps_congr (g := fun s' => (1 - (n : ℚ) / ((l.length : ℚ) + 1)) *
          if s'.sample.toFinset = S then (1 : ℚ) else 0) h0 (by simpa using hnd.1)]
        · rw [steps_mul, ih hnd.1 hn' S hSl hc]
          field_simp
          linarith [hch]
        · intro s' hs'
          have hs' : After n l s' := by simpa using hs'
          have hlen : s'.sample.length = n := by rw [hs'.len]; omega
          simp only [steps, step1]
          rw [if_neg (by omega), hs'.num, hp, Finset.sum_eq_zero]
          · simp
          · intro i hi
            rw [if_neg]
            intro e
            apply haS
            rw [← e, List.mem_toFinset]
            exact List.mem_iff_getElem.2 ⟨i, by simpa [hlen] using hi, by simp⟩
    · -- the sample has just been filled
      have hlen : l.length + 1 = n := by omega
      rw [steps_fill _ _ _ (by simp; omega), ← hlen, Nat.choose_self]
      have : S = (l ++ [a]).toFinset := Finset.eq_of_subset_of_card_le hS (by
        rw [List.toFinset_card_of_nodup hl, hc]; simp; omega)
      simp [this]

theorem steps_congr_len {n : Nat} {l : List α} {s : Sampler α} (hs : s.sample.length ≤ n) {f g : Sampler α → ℚ}
    (h : ∀ s', s'.sample.length ≤ n → f s' = g s') : steps n l s f = steps n l s g := by
  induction l generalizing s with
  | nil => exact h s hs
  | cons a l ih =>
    simp only [steps, step1]
    split
    · exact ih (by simpa)
    · rw [ih (s := { s with numRecords := s.numRecords + 1 }) hs, Finset.sum_congr rfl fun i _ => ih (by simpa using hs)]

theorem sampleFiles_ideal (n : Nat) (ls : List (List α)) (s : Sampler α) (hs : s.sample.length ≤ n) (f : Sampler α × Bool → ℚ) :
    sampleFiles ideal n (ls.map undamaged) s f = steps n ls.flatten s fun s' => f (s', false) := by
  induction ls generalizing s with
  | nil => rfl
  | cons l ls ih =>
    rw [List.map_cons]
    unfold sampleFiles
    rw [ex_bind, sampleFile_ideal n l s hs, List.flatten_cons, steps_append]
    refine steps_congr_len hs fun s' hs' => ?_
    exact ih s' hs'

/-- shuffling does not change a function of the set of elements -/
theorem shuffle_ideal (l : List α) (f : List α → ℚ) (hf : ∀ l', l'.Perm l → f l' = f l) : (ideal.shuffle l) f = f l := by
  have h1 : l.permutations.map f = l.permutations.map fun _ => f l :=
    List.map_congr_left fun l' h => hf l' (List.mem_permutations.1 h)
  have h2 : (l.permutations.length : ℚ) ≠ 0 := by
    have : 0 < l.permutations.length := List.length_pos_of_mem (List.mem_permutations.2 (List.Perm.refl l))
    exact_mod_cast this.ne'
  show (l.permutations.map f).sum / l.permutations.length = f l
  rw [h1, List.map_const', List.sum_replicate, nsmul_eq_mul]
  field_simp

theorem sampleMain_ideal (n : Nat) (ls : List (List α)) (f : Option (List α) → ℚ)
    (hf : ∀ l l' : List α, l'.Perm l → f (some l') = f (some l)) :
    sampleMain ideal n (ls.map undamaged) f = steps n ls.flatten ⟨1, 0, []⟩ fun s => f (some s.sample) := by
  unfold sampleMain
  rw [ex_bind, sampleFiles_ideal n ls _ (by simp)]
  congr 1
  funext s
  exact shuffle_ideal s.sample (fun l => f (some l)) fun l' h => hf _ _ h

end

end Model.FileTools
