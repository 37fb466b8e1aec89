import Verif.Spec.Format
import Mathlib.Tactic.IntervalCases
import Mathlib.Data.List.Basic

set_option linter.unusedSectionVars false

/-!
# Lemmas about machine objects
-/

namespace Model.IO
open Spec (Dir Instr Table)

/-! ## Lists -/

theorem mapO_eq_some {α β : Type} {f : α → Option β} {l : List α} {g : α → β} (h : ∀ x ∈ l, f x = some (g x)) :
    Py.mapO f l = some (l.map g) := by
  induction l with
  | nil => rfl
  | cons x l ih =>
    unfold Py.mapO
    rw [h x (by simp), ih (fun y hy => h y (List.mem_cons_of_mem _ hy))]
    rfl

theorem mapO_some {α β : Type} {f : α → Option β} {l : List α} {r : List β} (h : Py.mapO f l = some r) :
    r.length = l.length ∧ ∀ (i : Nat) x, l[i]? = some x → ∃ y, r[i]? = some y ∧ f x = some y := by
  induction l generalizing r with
  | nil => cases h; exact ⟨rfl, fun i x hx => by simp at hx⟩
  | cons x l ih =>
    unfold Py.mapO at h
    split at h
    · next y ys hy hys =>
      cases h
      obtain ⟨h1, h2⟩ := ih hys
      refine ⟨by simp [h1], fun i z hz => ?_⟩
      cases i with
      | zero => simp at hz; subst hz; exact ⟨y, rfl, hy⟩
      | succ i => simp at hz; simpa using h2 i z hz
    · cases h

theorem idxOf_irange (n : Nat) (i : Int) :
    (irange n).idxOf? i = if 0 ≤ i ∧ i < n then some i.toNat else none := by
  unfold irange List.idxOf?
  induction n with
  | zero => simp
  | succ n ih =>
    rw [List.range_succ, List.map_append, List.findIdx?_append, ih]
    by_cases h : 0 ≤ i ∧ i < n
    · rw [if_pos h, if_pos (by omega)]; rfl
    · rw [if_neg h]
      by_cases hn : i = n
      · subst hn
        simp [List.findIdx?_cons]
      · have : ¬ (0 ≤ i ∧ i < (n + 1 : Nat)) := by omega
        rw [if_neg this]
        simp [List.findIdx?_cons, Ne.symm hn]

theorem length_irange (n : Nat) : (irange n).length = n := by simp [irange]

/-! ## Quintuples -/

/-- the quintuple of a cell -/
def cellQuint (q a : Nat) (t : BTrans) : List (Quint Int Int) :=
  if t.cond = .undefined then [] else [((q : Int), (a : Int), some t.sym, t.dir, haltOr t.st)]

def rowQuints (q : Nat) : Nat → List BTrans → List (Quint Int Int)
  | _, [] => []
  | a, t :: ts => cellQuint q a t ++ rowQuints q (a + 1) ts

def tableQuints : Nat → List (List BTrans) → List (Quint Int Int)
  | _, [] => []
  | q, r :: rs => rowQuints q 0 r ++ tableQuints (q + 1) rs

def toOpt (t : BTrans) : Option BTrans := if t.cond = .undefined then none else some t

theorem quintTrans_wf {n k : Nat} {t : BTrans} (h : t.WF n k) (hu : t.cond ≠ .undefined) :
    quintTrans (irange n) t.sym.toNat t.dir (haltOr t.st) = some t := by
  obtain ⟨c, s, d, q⟩ := t
  unfold BTrans.WF at h
  cases c with
  | undefined => exact absurd rfl hu
  | halt =>
    obtain ⟨h1, h2, h3⟩ := h
    simp only at h1 h2 h3 ⊢
    subst h3
    unfold haltOr quintTrans
    simp [Int.toNat_of_nonneg h1]
  | running =>
    obtain ⟨h1, h2, h3, h4⟩ := h
    simp only at h1 h2 h3 h4 ⊢
    unfold haltOr
    rw [if_neg (by omega)]
    unfold quintTrans
    simp only
    rw [idxOf_irange, if_pos ⟨h3, h4⟩]
    simp [Int.toNat_of_nonneg h1, Int.toNat_of_nonneg h3]

theorem wf_sym {n k : Nat} {t : BTrans} (h : t.WF n k) (hu : t.cond ≠ .undefined) : 0 ≤ t.sym ∧ t.sym < k := by
  obtain ⟨c, s, d, q⟩ := t
  unfold BTrans.WF at h
  cases c with
  | undefined => exact absurd rfl hu
  | halt => exact ⟨h.1, h.2.1⟩
  | running => exact ⟨h.1, h.2.1⟩

theorem fill_row (n k q : Nat) (hq : q < n) (row : List BTrans) :
    ∀ (a : Nat) (t : List (List (Option BTrans))) (pre : List (Option BTrans)) (rest : List (Quint Int Int)),
      t[q]? = some (pre ++ List.replicate row.length none) → pre.length = a → a + row.length ≤ k →
      (∀ x ∈ row, x.WF n k) →
      fillQuints (irange n) (irange k) (rowQuints q a row ++ rest) t =
        fillQuints (irange n) (irange k) rest (t.set q (pre ++ row.map toOpt)) := by
  induction row with
  | nil =>
    intro a t pre rest ht hp _ _
    have : t.set q (pre ++ []) = t := by
      apply List.ext_getElem?
      intro i
      rw [List.getElem?_set]
      split
      · next h =>
        subst h
        have hlt : q < t.length := by
          by_contra hh
          rw [List.getElem?_eq_none (by omega)] at ht
          cases ht
        rw [if_pos hlt, ht]
        rfl
      · rfl
    show fillQuints _ _ ([] ++ rest) t = fillQuints _ _ rest (t.set q (pre ++ []))
    rw [this]; rfl
  | cons x row ih =>
    intro a t pre rest ht hp hle hwf
    have hlt : q < t.length := by
      by_contra hh
      rw [List.getElem?_eq_none (by omega)] at ht
      cases ht
    have hx := hwf x (by simp)
    have hwf' : ∀ y ∈ row, y.WF n k := fun y hy => hwf y (List.mem_cons_of_mem _ hy)
    simp only [List.length_cons] at hle
    show fillQuints _ _ ((cellQuint q a x ++ rowQuints q (a + 1) row) ++ rest) t = _
    rw [List.append_assoc]
    by_cases hu : x.cond = .undefined
    · have hc : cellQuint q a x = [] := by unfold cellQuint; rw [if_pos hu]
      rw [hc, List.nil_append]
      rw [ih (a + 1) t (pre ++ [none]) rest (by rw [ht]; simp [List.replicate_succ]) (by simp [hp]) (by omega) hwf']
      simp [toOpt, hu]
    · have hc : cellQuint q a x = [((q : Int), (a : Int), some x.sym, x.dir, haltOr x.st)] := by
        unfold cellQuint; rw [if_neg hu]
      obtain ⟨s1, s2⟩ := wf_sym hx hu
      rw [hc, List.singleton_append]
      conv_lhs => unfold fillQuints
      simp only
      rw [idxOf_irange, idxOf_irange, idxOf_irange, if_pos (by omega), if_pos (by omega), if_pos ⟨s1, s2⟩]
      simp only [Int.toNat_natCast]
      rw [quintTrans_wf hx hu]
      simp only
      have hmod : t.modify q (·.set a (some x)) = t.set q ((pre ++ [some x]) ++ List.replicate row.length none) := by
        apply List.ext_getElem?
        intro i
        rw [List.getElem?_modify, List.getElem?_set]
        by_cases hi : q = i
        · subst hi
          rw [if_pos rfl, if_pos hlt, ht]
          simp [hp.symm, List.replicate_succ, List.set_append]
        · simp [hi]
      rw [hmod]
      rw [ih (a + 1) _ (pre ++ [some x]) rest (by rw [List.getElem?_set_self hlt]) (by simp [hp]) (by omega) hwf']
      rw [List.set_set]
      simp [toOpt, hu]

theorem fill_table (n k : Nat) (rows : List (List BTrans)) :
    ∀ (q : Nat) (done : List (List (Option BTrans))), done.length = q → q + rows.length ≤ n →
      (∀ r ∈ rows, r.length = k) → (∀ r ∈ rows, ∀ x ∈ r, x.WF n k) →
      fillQuints (irange n) (irange k) (tableQuints q rows)
        (done ++ List.replicate rows.length (List.replicate k none)) = some (done ++ rows.map (·.map toOpt)) := by
  induction rows with
  | nil => intro q done _ _ _ _; rfl
  | cons r rows ih =>
    intro q done hd hle hw hc
    simp only [List.length_cons] at hle
    have hr := hw r (by simp)
    show fillQuints _ _ (rowQuints q 0 r ++ tableQuints (q + 1) rows) _ = _
    rw [fill_row n k q (by omega) r 0 _ [] _ (by
        simp only [List.length_cons, List.replicate_succ, List.nil_append]
        rw [List.getElem?_append_right (by omega), hd, Nat.sub_self, hr]; rfl) rfl (by omega) (hc r (by simp))]
    have : (done ++ List.replicate (r :: rows).length (List.replicate k none)).set q ([] ++ r.map toOpt) =
        (done ++ [r.map toOpt]) ++ List.replicate rows.length (List.replicate k none) := by
      rw [← hd]
      simp [List.replicate_succ, List.set_append]
    rw [this, ih (q + 1) _ (by simp [hd]) (by omega) (fun r' h => hw r' (List.mem_cons_of_mem _ h))
      (fun r' h => hc r' (List.mem_cons_of_mem _ h))]
    simp

theorem toOpt_getD {n k : Nat} {t : BTrans} (h : t.WF n k) : (toOpt t).getD undefTrans = t := by
  unfold toOpt
  by_cases hu : t.cond = .undefined
  · rw [if_pos hu]
    unfold BTrans.WF at h
    rw [hu] at h
    exact h.symm
  · rw [if_neg hu]; rfl

/-- a sensible machine is rebuilt from its quintuples -/
theorem tmFromQuints_table {m : SM} (h : m.WF) :
    tmFromQuints (tableQuints 0 m.rows) (irange m.nStates) (irange m.nSyms) = some m := by
  unfold tmFromQuints
  rw [length_irange, length_irange]
  have := fill_table m.nStates m.nSyms m.rows 0 [] rfl (by rw [h.height]; omega) h.width h.cells
  rw [List.nil_append, h.height] at this
  rw [this]
  obtain ⟨rows, n, k⟩ := m
  simp only [Option.map_some, List.nil_append, Option.some.injEq, SM.mk.injEq, and_true]
  rw [List.map_map]
  conv_rhs => rw [← List.map_id rows]
  apply List.map_congr_left
  intro r hr
  simp only [Function.comp, List.map_map, id]
  conv_rhs => rw [← List.map_id r]
  apply List.map_congr_left
  intro t ht
  exact toOpt_getD (h.cells r hr t ht)

/-! ## Everything that `tm_from_quintuples` returns is sensible -/

section
variable {α β : Type} [DecidableEq α] [DecidableEq β]

theorem idxOf_lt {l : List α} {x : α} {i : Nat} (h : l.idxOf? x = some i) : i < l.length := by
  unfold List.idxOf? at h
  obtain ⟨h1, -⟩ := List.findIdx?_eq_some_iff_getElem.1 h
  exact h1

/-- cells filled so far -/
def OptWF (n k : Nat) (dirs : Int → Prop) (x : Option BTrans) : Prop :=
  ∀ t, x = some t → t.WF n k ∧ t.cond ≠ .undefined ∧ dirs t.dir

theorem fill_wf (states : List α) (symbols : List β) (dirs : Int → Prop) (quints : List (Quint α β)) :
    ∀ t t', (∀ x ∈ quints, dirs x.2.2.2.1) → t.length = states.length → (∀ r ∈ t, r.length = symbols.length) →
      (∀ r ∈ t, ∀ x ∈ r, OptWF states.length symbols.length dirs x) →
      fillQuints states symbols quints t = some t' →
      t'.length = states.length ∧ (∀ r ∈ t', r.length = symbols.length) ∧
        ∀ r ∈ t', ∀ x ∈ r, OptWF states.length symbols.length dirs x := by
  induction quints with
  | nil => intro t t' _ h1 h2 h3 h; cases h; exact ⟨h1, h2, h3⟩
  | cons x quints ih =>
    intro t t' hd h1 h2 h3 h
    obtain ⟨q, a, w, d, q'⟩ := x
    have hd' : ∀ x ∈ quints, dirs x.2.2.2.1 := fun y hy => hd y (List.mem_cons_of_mem _ hy)
    unfold fillQuints at h
    cases w with
    | none => exact ih t t' hd' h1 h2 h3 h
    | some w =>
      simp only at h
      split at h
      · next i j kk hi hj hk =>
        split at h
        · cases h
        · next tr htr =>
          have htwf : tr.WF states.length symbols.length ∧ tr.cond ≠ .undefined ∧ dirs tr.dir := by
            have hkl := idxOf_lt hk
            have hdd : dirs d := hd (q, a, some w, d, q') (by simp)
            cases q' with
            | none =>
              cases htr
              exact ⟨⟨by simp, by simpa using hkl, rfl⟩, by simp, hdd⟩
            | some q' =>
              unfold quintTrans at htr
              simp only at htr
              split at htr
              · cases htr
              · next i' hi' =>
                cases htr
                have := idxOf_lt hi'
                exact ⟨⟨by simp, by simpa using hkl, by simp, by simpa using this⟩, by simp, hdd⟩
          have hrow : ∀ r ∈ t.modify i (·.set j (some tr)), r ∈ t ∨ ∃ r0 ∈ t, r = r0.set j (some tr) := by
            intro r hr
            obtain ⟨i', hi'⟩ := List.mem_iff_getElem?.1 hr
            rw [List.getElem?_modify] at hi'
            cases ht' : t[i']? with
            | none => rw [ht'] at hi'; simp at hi'
            | some r0 =>
              rw [ht'] at hi'
              have hmem := List.mem_iff_getElem?.2 ⟨i', ht'⟩
              simp only [Option.map_eq_map, Option.map_some, Option.some.injEq] at hi'
              split at hi'
              · exact Or.inr ⟨r0, hmem, hi'.symm⟩
              · exact Or.inl (by rw [← hi']; exact hmem)
          refine ih _ t' hd' (by simp [h1]) (fun r hr => ?_) (fun r hr x hx => ?_) h
          · rcases hrow r hr with hr | ⟨r0, hr0, rfl⟩
            · exact h2 r hr
            · rw [List.length_set]; exact h2 r0 hr0
          · rcases hrow r hr with hr | ⟨r0, hr0, rfl⟩
            · exact h3 r hr x hx
            · rcases List.mem_or_eq_of_mem_set hx with hx | hx
              · exact h3 r0 hr0 x hx
              · intro t ht
                rw [hx] at ht
                cases ht
                exact htwf
      · cases h

theorem tmFromQuints_wf {quints : List (Quint α β)} {states : List α} {symbols : List β} {m : SM}
    (hs : 0 < states.length) (hy : 0 < symbols.length) (h : tmFromQuints quints states symbols = some m) :
    m.WF ∧ m.nStates = states.length ∧ m.nSyms = symbols.length ∧
      ((∀ x ∈ quints, x.2.2.2.1 = 0 ∨ x.2.2.2.1 = 1) → m.Moves) := by
  unfold tmFromQuints at h
  rw [Option.map_eq_some_iff] at h
  obtain ⟨t, ht, rfl⟩ := h
  have base : ∀ dirs : Int → Prop, ∀ r ∈ List.replicate states.length (List.replicate symbols.length (none : Option BTrans)),
      ∀ x ∈ r, OptWF states.length symbols.length dirs x := by
    intro dirs r hr x hx
    rw [List.eq_of_mem_replicate hr] at hx
    rw [List.eq_of_mem_replicate hx]
    intro t ht; cases ht
  have hw : ∀ r ∈ List.replicate states.length (List.replicate symbols.length (none : Option BTrans)), r.length = symbols.length := by
    intro r hr
    rw [List.eq_of_mem_replicate hr]; simp
  obtain ⟨a1, a2, a3⟩ := fill_wf states symbols (fun _ => True) quints _ t (fun _ _ => trivial) (by simp) hw (base _) ht
  have cell : ∀ x : Option BTrans, OptWF states.length symbols.length (fun _ => True) x →
      (x.getD undefTrans).WF states.length symbols.length := by
    intro x hx
    cases x with
    | none => rfl
    | some t => exact (hx t rfl).1
  refine ⟨⟨hs, hy, by simp [a1], ?_, ?_⟩, rfl, rfl, fun hd => ?_⟩
  · intro r hr
    obtain ⟨r0, h0, rfl⟩ := List.mem_map.1 hr
    simp [a2 r0 h0]
  · intro r hr x hx
    obtain ⟨r0, h0, rfl⟩ := List.mem_map.1 hr
    obtain ⟨x0, hx0, rfl⟩ := List.mem_map.1 hx
    exact cell x0 (a3 r0 h0 x0 hx0)
  · obtain ⟨-, -, a4⟩ := fill_wf states symbols (fun d => d = 0 ∨ d = 1) quints _ t hd (by simp) hw (base _) ht
    intro r hr x hx
    obtain ⟨r0, h0, rfl⟩ := List.mem_map.1 hr
    obtain ⟨x0, hx0, rfl⟩ := List.mem_map.1 hx
    have := a4 r0 h0 x0 hx0
    cases x0 with
    | none => exact Or.inr rfl
    | some t => exact (this t rfl).2.2

end

end Model.IO
