import Verif.Model.ValidatorText
import Verif.Lemmas.Format
import Verif.Lemmas.ValidatorExpr
import Verif.Spec.ValidatorText

/-!
# Reading and printing of the rule validator
-/

namespace Model.Validator
open Spec (Dir)
open Model.IO (split_join split_noSep)
open Spec.ValidatorText

/-! ### Lists -/

theorem mapR_ok {α β : Type} {f : α → Run β} {g : β → α} : ∀ {l : List β}, (∀ b ∈ l, f (g b) = .ok b) →
    mapR f (l.map g) = .ok l
  | [], _ => rfl
  | b :: l, h => by
    show (f (g b) >>= fun b => mapR f (l.map g) >>= fun r => Run.ok (b :: r)) = _
    rw [h b (by simp), mapR_ok (l := l) fun b hb => h b (by simp [hb])]; rfl

theorem mapR_inv {α β : Type} {f : α → Run β} {g : β → α} (h : ∀ a b, f a = .ok b → g b = a) :
    ∀ {l : List α} {r : List β}, mapR f l = .ok r → r.map g = l
  | [], r, e => by cases e; rfl
  | a :: l, r, e => by
    obtain ⟨b, h1, h2⟩ := Run.bind_ok.1 e
    obtain ⟨r', h3, h4⟩ := Run.bind_ok.1 h2
    cases h4
    rw [List.map_cons, h a b h1, mapR_inv h h3]

theorem join_split (c : Char) : ∀ l, Py.join c (Py.split c l) = l
  | [] => rfl
  | x :: l => by
    have ih := join_split c l
    unfold Py.split
    split
    · next e =>
      subst e
      cases hs : Py.split x l with
      | nil => rw [hs] at ih; rw [← ih]; cases l with
        | nil => cases hs
        | cons y l => cases ih
      | cons r rs => rw [hs] at ih; show [] ++ x :: Py.join x (r :: rs) = _; rw [ih]; rfl
    · cases hs : Py.split c l with
      | nil => rw [hs] at ih; rw [← ih]; rfl
      | cons r rs =>
        rw [hs] at ih
        simp only
        rw [← ih]
        cases rs <;> rfl

theorem around_unique {α : Type} {x : α} {l r l' r' : List α} (h1 : x ∉ l') (h2 : x ∉ r') (h : l ++ x :: r = l' ++ x :: r') :
    l = l' ∧ r = r' := by
  rcases List.append_eq_append_iff.1 h with ⟨as, h3, h4⟩ | ⟨as, h3, h4⟩
  · cases as with
    | nil => simp at h3 h4; exact ⟨h3.symm, h4⟩
    | cons a as =>
      simp only [List.cons_append, List.cons.injEq] at h4
      exact absurd (by rw [h3, h4.1]; simp) h1
  · cases as with
    | nil => simp at h3 h4; exact ⟨h3, h4.symm⟩
    | cons a as =>
      simp only [List.cons_append, List.cons.injEq] at h4
      exact absurd (by rw [h4.2]; simp) h2

theorem head_unique {α : Type} {l : List α} {a : α} (h : a ∈ l) (hu : ∀ b ∈ l, b = a) : l.head? = some a := by
  cases l with
  | nil => cases h
  | cons b l => rw [hu b (by simp)]; rfl

/-! ### Matching -/

theorem mem_starRests (p : Char → Bool) : ∀ (s r : List Char), r ∈ starRests p s ↔ ∃ w, (∀ c ∈ w, p c = true) ∧ s = w ++ r
  | [], r => by
    simp only [starRests, List.mem_singleton]
    constructor
    · rintro rfl; exact ⟨[], by simp, rfl⟩
    · rintro ⟨w, _, h⟩; exact (List.append_eq_nil_iff.1 h.symm).2
  | c :: s, r => by
    unfold starRests
    split
    · next hc =>
      rw [List.mem_append, mem_starRests p s r, List.mem_singleton]
      constructor
      · rintro (⟨w, h1, h2⟩ | rfl)
        · exact ⟨c :: w, by intro d hd; rcases List.mem_cons.1 hd with rfl | hd; exacts [hc, h1 d hd], by rw [h2]; rfl⟩
        · exact ⟨[], by simp, rfl⟩
      · rintro ⟨w, h1, h2⟩
        cases w with
        | nil => exact .inr h2.symm
        | cons d w =>
          simp only [List.cons_append, List.cons.injEq] at h2
          exact .inl ⟨w, fun e he => h1 e (by simp [he]), h2.2⟩
    · next hc =>
      rw [List.mem_singleton]
      constructor
      · rintro rfl; exact ⟨[], by simp, rfl⟩
      · rintro ⟨w, h1, h2⟩
        cases w with
        | nil => exact h2.symm
        | cons d w =>
          simp only [List.cons_append, List.cons.injEq] at h2
          exact absurd (by rw [h2.1]; exact h1 d (by simp)) hc

theorem mem_chr {p : Char → Bool} {t u : ReSt} : u ∈ (Re.chr p).run t ↔ ∃ c, p c = true ∧ t.rest = c :: u.rest ∧ u = ⟨false, u.rest, t.caps⟩ := by
  unfold Re.run
  cases h : t.rest with
  | nil => simp
  | cons c s =>
    simp only
    split
    · next hp =>
      simp only [List.mem_singleton]
      constructor
      · rintro rfl; exact ⟨c, hp, rfl, rfl⟩
      · rintro ⟨d, h1, h2, h3⟩; cases h2; exact h3
    · next hp =>
      simp only [List.not_mem_nil, false_iff]
      rintro ⟨d, h1, h2, _⟩; cases h2; exact hp h1

theorem mem_plus {p : Char → Bool} {t u : ReSt} : u ∈ (Re.plus p).run t ↔
    ∃ w, w ≠ [] ∧ (∀ c ∈ w, p c = true) ∧ t.rest = w ++ u.rest ∧ u = ⟨false, u.rest, t.caps⟩ := by
  unfold Re.run
  cases h : t.rest with
  | nil =>
    simp only [List.not_mem_nil, false_iff]
    rintro ⟨w, h1, _, h2, _⟩
    exact h1 (List.append_eq_nil_iff.1 h2.symm).1
  | cons c s =>
    simp only
    split
    · next hp =>
      simp only [List.mem_map, mem_starRests]
      constructor
      · rintro ⟨r, ⟨w, h1, h2⟩, rfl⟩
        exact ⟨c :: w, by simp, by intro d hd; rcases List.mem_cons.1 hd with rfl | hd; exacts [hp, h1 d hd], by rw [h2]; rfl, rfl⟩
      · rintro ⟨w, h1, h2, h3, h4⟩
        cases w with
        | nil => exact absurd rfl h1
        | cons d w =>
          simp only [List.cons_append, List.cons.injEq] at h3
          exact ⟨u.rest, ⟨w, fun e he => h2 e (by simp [he]), h3.2⟩, h4.symm⟩
    · next hp =>
      simp only [List.not_mem_nil, false_iff]
      rintro ⟨w, h1, h2, h3, _⟩
      cases w with
      | nil => exact h1 rfl
      | cons d w =>
        simp only [List.cons_append, List.cons.injEq] at h3
        exact hp (by rw [h3.1]; exact h2 d (by simp))

theorem mem_star {p : Char → Bool} {t u : ReSt} : u ∈ (Re.star p).run t ↔
    ∃ w, (∀ c ∈ w, p c = true) ∧ t.rest = w ++ u.rest ∧ u = ⟨t.start && u.rest.length == t.rest.length, u.rest, t.caps⟩ := by
  unfold Re.run
  simp only [List.mem_map, mem_starRests]
  constructor
  · rintro ⟨r, ⟨w, h1, h2⟩, rfl⟩; exact ⟨w, h1, h2, rfl⟩
  · rintro ⟨w, h1, h2, h3⟩; exact ⟨u.rest, ⟨w, h1, h2⟩, h3.symm⟩

theorem mem_seq {a b : Re} {t u : ReSt} : u ∈ (Re.seq a b).run t ↔ ∃ v ∈ a.run t, u ∈ b.run v := by
  conv_lhs => unfold Re.run
  exact List.mem_flatMap

theorem mem_alt {a b : Re} {t u : ReSt} : u ∈ (Re.alt a b).run t ↔ u ∈ a.run t ∨ u ∈ b.run t := by
  conv_lhs => unfold Re.run
  exact List.mem_append

theorem mem_opt {a : Re} {t u : ReSt} : u ∈ (Re.opt a).run t ↔ u ∈ a.run t ∨ u = t := by
  conv_lhs => unfold Re.run
  rw [List.mem_append, List.mem_singleton]

theorem mem_cap {k : Nat} {a : Re} {t u : ReSt} : u ∈ (Re.cap k a).run t ↔
    ∃ v ∈ a.run t, u = ⟨v.start, v.rest, (k, t.rest.take (t.rest.length - v.rest.length)) :: v.caps⟩ := by
  conv_lhs => unfold Re.run
  rw [List.mem_map]
  simp only [eq_comm]

theorem mem_bos {t u : ReSt} : u ∈ Re.bos.run t ↔ t.start = true ∧ u = t := by
  unfold Re.run; split <;> simp [*]

theorem mem_eos {t u : ReSt} : u ∈ Re.eos.run t ↔ t.rest = [] ∧ u = t := by
  unfold Re.run; split <;> simp [*]

theorem run_bos_false (a : Re) (s : List Char) (c) : (Re.seq .bos a).run ⟨false, s, c⟩ = [] := by
  simp [Re.run]

theorem search_bos (a : Re) (s : List Char) :
    (Re.seq .bos a).search true s = ((Re.seq .bos a).run ⟨true, s, []⟩).head?.map ReSt.caps := by
  have hf : ∀ s, (Re.seq .bos a).search false s = none := by
    intro s
    induction s with
    | nil => unfold Re.search; rw [run_bos_false]; rfl
    | cons c s ih => unfold Re.search; rw [run_bos_false]; exact ih
  cases s with
  | nil => rfl
  | cons c s =>
    conv_lhs => unfold Re.search
    cases ((Re.seq .bos a).run ⟨true, c :: s, []⟩).head? with
    | none => exact hf s
    | some t => rfl

theorem take_left {α : Type} (w r : List α) : (w ++ r).take ((w ++ r).length - r.length) = w := by
  simp

/-- `^a`, captured as group `k`, `a` a repetition -/
theorem mem_cap_plus {k : Nat} {p : Char → Bool} {t u : ReSt} : u ∈ (Re.cap k (.plus p)).run t ↔
    ∃ w, w ≠ [] ∧ (∀ c ∈ w, p c = true) ∧ t.rest = w ++ u.rest ∧ u = ⟨false, u.rest, (k, w) :: t.caps⟩ := by
  rw [mem_cap]
  constructor
  · rintro ⟨v, hv, rfl⟩
    obtain ⟨w, h1, h2, h3, h4⟩ := mem_plus.1 hv
    refine ⟨w, h1, h2, h3, ?_⟩
    rw [h4]; simp only; rw [h3, take_left]
  · rintro ⟨w, h1, h2, h3, h4⟩
    refine ⟨⟨false, u.rest, t.caps⟩, mem_plus.2 ⟨w, h1, h2, h3, rfl⟩, ?_⟩
    rw [h4]; simp only; rw [h3, take_left]

theorem mem_cap_star {k : Nat} {p : Char → Bool} {t u : ReSt} : u ∈ (Re.cap k (.star p)).run t ↔
    ∃ w, (∀ c ∈ w, p c = true) ∧ t.rest = w ++ u.rest ∧
      u = ⟨t.start && u.rest.length == t.rest.length, u.rest, (k, w) :: t.caps⟩ := by
  rw [mem_cap]
  constructor
  · rintro ⟨v, hv, rfl⟩
    obtain ⟨w, h2, h3, h4⟩ := mem_star.1 hv
    refine ⟨w, h2, h3, ?_⟩
    rw [h4]; simp only; rw [h3, take_left]
  · rintro ⟨w, h2, h3, h4⟩
    refine ⟨⟨t.start && u.rest.length == t.rest.length, u.rest, t.caps⟩, mem_star.2 ⟨w, h2, h3, rfl⟩, ?_⟩
    rw [h4]; simp only; rw [h3, take_left]

theorem mem_cap_chr {k : Nat} {p : Char → Bool} {t u : ReSt} : u ∈ (Re.cap k (.chr p)).run t ↔
    ∃ c, p c = true ∧ t.rest = c :: u.rest ∧ u = ⟨false, u.rest, (k, [c]) :: t.caps⟩ := by
  rw [mem_cap]
  constructor
  · rintro ⟨v, hv, rfl⟩
    obtain ⟨w, h2, h3, h4⟩ := mem_chr.1 hv
    refine ⟨w, h2, h3, ?_⟩
    rw [h4]; simp only; rw [h3, show w :: v.rest = [w] ++ v.rest from rfl, take_left]
  · rintro ⟨w, h2, h3, h4⟩
    refine ⟨⟨false, u.rest, t.caps⟩, mem_chr.2 ⟨w, h2, h3, rfl⟩, ?_⟩
    rw [h4]; simp only; rw [h3, show w :: u.rest = [w] ++ u.rest from rfl, take_left]

/-! ### Counts -/

theorem not_digit_lower {c : Char} (h : isDigit c = true) : isLower c = false := by
  unfold isDigit at h
  unfold isLower
  simp only [Bool.and_eq_true, decide_eq_true_eq] at h
  have : ¬ ('a' ≤ c) := by
    intro h'
    have := Char.le_trans h' h.2
    exact absurd this (by decide)
  simp [this]

/-- a part beginning with a coefficient and a letter is that, whatever follows -/
theorem search_var (ds : List Char) (x : Char) (r : List Char) (hd : ∀ c ∈ ds, isDigit c = true) (hx : isLower x = true) :
    reCount.search true (ds ++ x :: r) = some ((1, [x]) :: (if ds = [] then [] else [(0, ds)])) := by
  let A : Re := .seq .bos (.seq (.opt (.cap 0 (.plus isDigit))) (.cap 1 (.chr isLower)))
  have key : (A.run ⟨true, ds ++ x :: r, []⟩).head? = some ⟨false, r, (1, [x]) :: (if ds = [] then [] else [(0, ds)])⟩ := by
    apply head_unique
    · refine mem_seq.2 ⟨_, mem_bos.2 ⟨rfl, rfl⟩, mem_seq.2 ?_⟩
      by_cases h : ds = []
      · subst h
        exact ⟨_, mem_opt.2 (.inr rfl), mem_cap_chr.2 ⟨x, hx, rfl, by simp⟩⟩
      · exact ⟨⟨false, x :: r, [(0, ds)]⟩, mem_opt.2 (.inl (mem_cap_plus.2 ⟨ds, h, hd, rfl, rfl⟩)),
          mem_cap_chr.2 ⟨x, hx, rfl, by simp [h]⟩⟩
    · intro b hb
      obtain ⟨v, hv, hb⟩ := mem_seq.1 hb
      obtain ⟨_, rfl⟩ := mem_bos.1 hv
      obtain ⟨v, hv, hb⟩ := mem_seq.1 hb
      obtain ⟨c, h1, h2, h3⟩ := mem_cap_chr.1 hb
      rcases mem_opt.1 hv with hv | rfl
      · obtain ⟨w, g1, g2, g3, g4⟩ := mem_cap_plus.1 hv
        rw [h2] at g3
        simp only at g3
        have e : ds = w ∧ x :: r = c :: b.rest := by
          rcases List.append_eq_append_iff.1 g3 with ⟨as, e1, e2⟩ | ⟨as, e1, e2⟩
          · cases as with
            | nil => simp at e1 e2; exact ⟨e1.symm, by rw [e2.1, e2.2]⟩
            | cons a as =>
              simp only [List.cons_append, List.cons.injEq] at e2
              have := g2 x (by rw [e1, e2.1]; simp)
              rw [not_digit_lower this] at hx; cases hx
          · cases as with
            | nil => simp at e1 e2; exact ⟨e1, by rw [e2.1, e2.2]⟩
            | cons a as =>
              simp only [List.cons_append, List.cons.injEq] at e2
              have := hd c (by rw [e1, e2.1]; simp)
              rw [not_digit_lower this] at h1; cases h1
        obtain ⟨rfl, e⟩ := e
        cases e
        rw [h3, g4]
        simp [g1]
      · simp only at h2
        cases ds with
        | nil =>
          simp only [List.nil_append, List.cons.injEq] at h2
          rw [h3, ← h2.1, ← h2.2]; simp
        | cons d ds =>
          simp only [List.cons_append, List.cons.injEq] at h2
          have := hd d (by simp)
          rw [h2.1] at this
          rw [not_digit_lower this] at h1; cases h1
  have hall : (reCount.run ⟨true, ds ++ x :: r, []⟩).head? = some ⟨false, r, (1, [x]) :: (if ds = [] then [] else [(0, ds)])⟩ := by
    show (A.run _ ++ _).head? = _
    rw [List.head?_append, key]; rfl
  cases hs : ds ++ x :: r with
  | nil => simp at hs
  | cons c s =>
    unfold Re.search
    rw [hs] at hall
    rw [hall]

/-- the second alternative at a position before which the first one does not match -/
theorem search_const_aux (p ds : List Char) (hd : ∀ c ∈ ds, isDigit c = true) (hne : ds ≠ [])
    (hp : p = [] ∨ ∃ q y, p = q ++ [y] ∧ isDigit y = false) (b : Bool)
    (hb : b = true → ∀ u, u ∉ (Re.seq .bos (.seq (.opt (.cap 0 (.plus isDigit))) (.cap 1 (.chr isLower)))).run ⟨true, p ++ ds, []⟩) :
    reCount.search b (p ++ ds) = some [(2, ds)] := by
  induction p generalizing b with
  | nil =>
    have key : (reCount.run ⟨b, [] ++ ds, []⟩).head? = some ⟨false, [], [(2, ds)]⟩ := by
      apply head_unique
      · exact mem_alt.2 (.inr (mem_seq.2 ⟨⟨false, [], [(2, ds)]⟩, mem_cap_plus.2 ⟨ds, hne, hd, by simp, rfl⟩, mem_eos.2 ⟨rfl, rfl⟩⟩))
      · intro u hu
        rcases mem_alt.1 hu with hu | hu
        · obtain ⟨v, hv, _⟩ := mem_seq.1 hu
          have := (mem_bos.1 hv).1
          simp only at this
          subst this
          exact absurd hu (hb rfl u)
        · obtain ⟨v, hv, hu⟩ := mem_seq.1 hu
          obtain ⟨hr, rfl⟩ := mem_eos.1 hu
          obtain ⟨w, g1, g2, g3, g4⟩ := mem_cap_plus.1 hv
          rw [hr] at g3 g4
          simp only [List.nil_append, List.append_nil] at g3
          rw [g4, g3]
    cases ds with
    | nil => exact absurd rfl hne
    | cons d ds =>
      simp only [List.nil_append] at key ⊢
      unfold Re.search
      rw [key]
  | cons c p ih =>
    have hnone : reCount.run ⟨b, c :: (p ++ ds), []⟩ = [] := by
      rw [List.eq_nil_iff_forall_not_mem]
      intro u hu
      rcases mem_alt.1 hu with hu | hu
      · obtain ⟨v, hv, _⟩ := mem_seq.1 hu
        have := (mem_bos.1 hv).1
        simp only at this
        subst this
        exact absurd hu (hb rfl u)
      · obtain ⟨v, hv, hu⟩ := mem_seq.1 hu
        obtain ⟨hr, rfl⟩ := mem_eos.1 hu
        obtain ⟨w, g1, g2, g3, g4⟩ := mem_cap_plus.1 hv
        rw [hr] at g3
        simp only [List.append_nil] at g3
        rcases hp with hp | ⟨q, y, hq, hy⟩
        · cases hp
        · have : isDigit y = true := g2 y (by
            rw [← g3, show c :: (p ++ ds) = (c :: p) ++ ds from rfl, hq]; simp)
          rw [this] at hy; cases hy
    show reCount.search b (c :: (p ++ ds)) = _
    unfold Re.search
    rw [hnone]
    simp only [List.head?_nil]
    refine ih ?_ false (by rintro ⟨⟩)
    rcases hp with hp | ⟨q, y, hq, hy⟩
    · cases hp
    · cases q with
      | nil =>
        simp only [List.nil_append, List.cons.injEq] at hq
        exact .inl hq.2
      | cons z q =>
        simp only [List.cons_append, List.cons.injEq] at hq
        exact .inr ⟨q, y, hq.2, hy⟩

/-- a part of digits is a constant -/
theorem search_const (ds : List Char) (hd : ∀ c ∈ ds, isDigit c = true) (hne : ds ≠ []) :
    reCount.search true ds = some [(2, ds)] := by
  refine search_const_aux [] ds hd hne (.inl rfl) true (fun _ u hu => ?_)
  obtain ⟨v, hv, hu⟩ := mem_seq.1 hu
  obtain ⟨_, rfl⟩ := mem_bos.1 hv
  obtain ⟨v, hv, hu⟩ := mem_seq.1 hu
  obtain ⟨c, h1, h2, h3⟩ := mem_cap_chr.1 hu
  have hc : isDigit c = true := by
    rcases mem_opt.1 hv with hv | rfl
    · obtain ⟨w, g1, g2, g3, g4⟩ := mem_cap_plus.1 hv
      rw [h2] at g3
      simp only [List.nil_append] at g3
      exact hd c (by rw [g3]; simp)
    · simp only [List.nil_append] at h2
      exact hd c (by rw [h2]; simp)
  rw [not_digit_lower hc] at h1; cases h1

/-! ### Machines -/

theorem readState_show (m : Mode) : ∀ q : Option Nat, (∀ k, q = some k → k ≤ 24) → readState m (showState q) = .ok q
  | none, _ => rfl
  | some k, h => by
    have := h k rfl
    obtain ⟨w, s⟩ := m
    interval_cases k <;> rfl

theorem showState_read {m : Mode} {s : List Char} {q : Option Nat} (h : readState m s = .ok q) : showState q = s := by
  unfold readState at h
  split at h
  · next c =>
    split at h
    · cases h
    split at h
    · next e => cases h; rw [e]; rfl
    split at h
    · split at h <;> cases h
    split at h
    · next h1 h2 =>
      cases h
      show [Char.ofNat (65 + (c.toNat - 65))] = [c]
      rw [show 65 + (c.toNat - 65) = c.toNat by omega, Char.ofNat_toNat]
    · cases h
  · cases h

theorem readState_bound {m : Mode} {s : List Char} {k : Nat} (h : readState m s = .ok (some k)) : k ≤ 24 := by
  unfold readState at h
  split at h
  · next c =>
    split at h
    · cases h
    split at h
    · cases h
    split at h
    · split at h <;> cases h
    split at h
    · next hz h1 h2 =>
      cases h
      by_contra hk
      have : c.toNat = 90 := by omega
      exact hz (by rw [← Char.ofNat_toNat c, this])
    · cases h
  · cases h

theorem readDir_show (d : Dir) : readDir (showDir d) = .ok d := by cases d <;> rfl

theorem showDir_read {c : Char} {d : Dir} (h : readDir c = .ok d) : showDir d = c := by
  unfold readDir at h
  split at h
  · next e => cases h; exact e.symm
  split at h
  · next e => cases h; exact e.symm
  · cases h

theorem showState_length (q : Option Nat) : ∃ c, showState q = [c] := by cases q <;> exact ⟨_, rfl⟩

theorem showState_ascii : ∀ q : Option Nat, (∀ k, q = some k → k ≤ 24) →
    ∃ c, showState q = [c] ∧ c.utf8Size = 1 ∧ c ≠ '_' ∧ c ≠ '-' ∧ c ≠ '<' ∧ c ≠ '>' ∧ isDot c = true
  | none, _ => ⟨'Z', rfl, by decide⟩
  | some k, h => by
    have := h k rfl
    interval_cases k <;> exact ⟨_, rfl, by decide⟩

theorem readTrans_show (m : Mode) (t : Trans) (h : TransOk t) : readTrans m (showTrans t) = .ok t := by
  cases t with
  | undef => rfl
  | «to» a d q =>
    have hq : ∀ k, q = some k → k ≤ 24 := by
      rintro k rfl; exact h.2
    have ha : a ≤ 9 := by
      cases q with
      | none => exact h
      | some k => exact h.1
    obtain ⟨c, hc, hu, _, _⟩ := showState_ascii q hq
    have hr := readState_show m q hq
    rw [hc] at hr
    show readTrans m (Nat.toDigits 10 a ++ showDir d :: showState q) = _
    rw [hc]
    have hd := readDir_show d
    have e : Nat.toDigits 10 a = [Nat.digitChar a] := Nat.toDigits_of_lt_base (by omega)
    rw [e]
    have hdig : isDigit (Nat.digitChar a) = true ∧ (Nat.digitChar a).toNat - 48 = a ∧ (Nat.digitChar a).utf8Size = 1 ∧
        Nat.digitChar a ≠ '-' := by
      interval_cases a <;> decide
    have hs : (showDir d).utf8Size = 1 := by cases d <;> decide
    show readTrans m [Nat.digitChar a, showDir d, c] = _
    unfold readTrans
    rw [if_neg (by simp [byteLen, hdig.2.2.1, hs, hu]), if_neg (by simp [hdig.2.2.2])]
    simp only
    rw [if_pos hdig.1, hd]
    show (readState m [c] >>= fun q => Run.ok (Trans.to _ d q)) = _
    rw [hr]
    show Run.ok (Trans.to ((Nat.digitChar a).toNat - 48) d q) = _
    rw [hdig.2.1]

theorem digit_cases {c : Char} (h : isDigit c = true) : c.toNat - 48 ≤ 9 ∧ Nat.digitChar (c.toNat - 48) = c := by
  unfold isDigit at h
  simp only [Bool.and_eq_true, decide_eq_true_eq, Char.le_def] at h
  have h1 : 48 ≤ c.toNat := h.1
  have h2 : c.toNat ≤ 57 := h.2
  refine ⟨by omega, ?_⟩
  obtain ⟨k, hk⟩ : ∃ k, c.toNat = 48 + k := ⟨c.toNat - 48, by omega⟩
  have hk9 : k ≤ 9 := by omega
  rw [← Char.ofNat_toNat c, hk]
  interval_cases k <;> decide

theorem showTrans_read {m : Mode} {s : List Char} {t : Trans} (h : readTrans m s = .ok t) : showTrans t = s ∧ TransOk t := by
  unfold readTrans at h
  split at h
  · cases h
  split at h
  · next e => cases h; exact ⟨e.symm, trivial⟩
  split at h
  · next a d q =>
    split at h
    · next ha =>
      obtain ⟨d', h1, h⟩ := Run.bind_ok.1 h
      obtain ⟨q', h2, h⟩ := Run.bind_ok.1 h
      cases h
      have hdc := digit_cases ha
      refine ⟨?_, ?_⟩
      · show Nat.toDigits 10 _ ++ showDir d' :: showState q' = _
        rw [showDir_read h1, showState_read h2, Nat.toDigits_of_lt_base (by omega), hdc.2]
        rfl
      · cases q' with
        | none => exact hdc.1
        | some k => exact ⟨hdc.1, readState_bound h2⟩
    · cases h
  · cases h

theorem showTrans_three {t : Trans} (h : TransOk t) : ∃ a b c, showTrans t = [a, b, c] ∧ a ≠ '_' ∧ b ≠ '_' ∧ c ≠ '_' := by
  cases t with
  | undef => exact ⟨_, _, _, rfl, by decide⟩
  | «to» a d q =>
    have hq : ∀ k, q = some k → k ≤ 24 := by
      rintro k rfl; exact h.2
    have ha : a ≤ 9 := by
      cases q with
      | none => exact h
      | some k => exact h.1
    obtain ⟨c, hc, hu, h1, _⟩ := showState_ascii q hq
    refine ⟨Nat.digitChar a, showDir d, c, ?_, ?_, ?_, h1⟩
    · show Nat.toDigits 10 a ++ showDir d :: showState q = _
      rw [hc, Nat.toDigits_of_lt_base (by omega)]; rfl
    · interval_cases a <;> decide
    · cases d <;> decide

theorem chunks3_show : ∀ row : List Trans, (∀ t ∈ row, TransOk t) → chunks3 ((row.map showTrans).flatten) = row.map showTrans
  | [], _ => rfl
  | t :: row, h => by
    obtain ⟨a, b, c, e, _⟩ := showTrans_three (h t (by simp))
    have ih := chunks3_show row fun t ht => h t (by simp [ht])
    rw [List.map_cons, List.flatten_cons, e]
    show [a, b, c] :: chunks3 (row.map showTrans).flatten = _
    rw [ih]

theorem flatten_chunks3 : ∀ s, (chunks3 s).flatten = s
  | [] => rfl
  | [_] => rfl
  | [_, _] => rfl
  | a :: b :: c :: s => by
    show [a, b, c] ++ (chunks3 s).flatten = _
    rw [flatten_chunks3 s]; rfl

theorem readTM_show (m : Mode) (tm : TM) (hne : tm ≠ []) (h : ∀ row ∈ tm, ∀ t ∈ row, TransOk t) :
    readTM m (showTM tm) = .ok tm := by
  unfold readTM showTM
  rw [split_join]
  · apply mapR_ok
    intro row hrow
    rw [chunks3_show row (h row hrow)]
    exact mapR_ok fun t ht => readTrans_show m t (h row hrow t ht)
  · simpa using hne
  · intro r hr
    obtain ⟨row, hrow, rfl⟩ := List.mem_map.1 hr
    intro hc
    obtain ⟨l, hl, hc⟩ := List.mem_flatten.1 hc
    obtain ⟨t, ht, rfl⟩ := List.mem_map.1 hl
    obtain ⟨a, b, c, e, h1, h2, h3⟩ := showTrans_three (h row hrow t ht)
    rw [e] at hc
    simp only [List.mem_cons, List.not_mem_nil, or_false] at hc
    rcases hc with hc | hc | hc
    · exact h1 hc.symm
    · exact h2 hc.symm
    · exact h3 hc.symm

theorem showTM_read {m : Mode} {s : List Char} {tm : TM} (h : readTM m s = .ok tm) : showTM tm = s := by
  have := mapR_inv (g := fun row : List Trans => (row.map showTrans).flatten) (fun r row hr => by
    have := mapR_inv (g := showTrans) (fun _ _ h => (showTrans_read h).1) hr
    rw [this, flatten_chunks3]) h
  unfold showTM
  rw [this, join_split]

theorem readTM_ok {m : Mode} {s : List Char} {tm : TM} (h : readTM m s = .ok tm) : tm ≠ [] ∧ ∀ row ∈ tm, ∀ t ∈ row, TransOk t := by
  have mem : ∀ {α β : Type} {f : α → Run β} {l : List α} {r : List β}, mapR f l = .ok r → ∀ b ∈ r, ∃ a ∈ l, f a = .ok b := by
    intro α β f l
    induction l with
    | nil => intro r e b hb; cases e; cases hb
    | cons a l ih =>
      intro r e b hb
      obtain ⟨b', h1, h2⟩ := Run.bind_ok.1 e
      obtain ⟨r', h3, h4⟩ := Run.bind_ok.1 h2
      cases h4
      rcases List.mem_cons.1 hb with rfl | hb
      · exact ⟨a, by simp, h1⟩
      · obtain ⟨a', h5, h6⟩ := ih h3 b hb
        exact ⟨a', by simp [h5], h6⟩
  refine ⟨?_, ?_⟩
  · rintro rfl
    unfold readTM at h
    cases hs : Py.split '_' s with
    | nil =>
      have := join_split '_' s
      rw [hs] at this
      subst this; cases hs
    | cons r rs =>
      rw [hs] at h
      obtain ⟨b', h1, h2⟩ := Run.bind_ok.1 h
      obtain ⟨r', h3, h4⟩ := Run.bind_ok.1 h2
      cases h4
  · intro row hrow t ht
    obtain ⟨r, _, hr⟩ := mem h row hrow
    obtain ⟨c, _, hc⟩ := mem hr t ht
    exact (showTrans_read hc).2

/-! ### Printing and reading sums -/

theorem toDigits_digit {n : Nat} {c : Char} (h : c ∈ Nat.toDigits 10 n) : isDigit c = true := by
  have := Nat.isDigit_of_mem_toDigits (by decide) (by decide) h
  unfold Char.isDigit at this
  unfold isDigit
  simp only [Bool.and_eq_true, decide_eq_true_eq] at this ⊢
  exact this

theorem readNum_show {n : Nat} (h : n < 2 ^ 64) : readNum (Nat.toDigits 10 n) = .ok n := by
  unfold readNum
  rw [Nat.ofDigitChars_toDigits (by decide) (by decide), if_pos h]

theorem showVar_named {x : Nat} (h : x < 26) : ∃ c, showVar x = [c] ∧ isLower c = true ∧ readVar [c] = .ok x := by
  interval_cases x <;> exact ⟨_, rfl, by decide, rfl⟩

/-- the term of a variable -/
def showTerm (p : Nat × Nat) : List Char := if p.2 ≠ 1 then Nat.toDigits 10 p.2 ++ showVar p.1 else showVar p.1

theorem addVar_last (m : Mode) (x c : Nat) : ∀ l : List (Nat × Nat), (∀ p ∈ l, p.1 < x) →
    VarSum.addVar m x c l = .ok (l ++ [(x, c)])
  | [], _ => rfl
  | (y, d) :: l, h => by
    have hy : y < x := h (y, d) (by simp)
    unfold VarSum.addVar
    rw [if_neg (by omega), if_neg (by omega), addVar_last m x c l fun p hp => h p (by simp [hp])]
    rfl

theorem mul_var (m : Mode) (x c : Nat) (h0 : 0 < c) (h : c < 2 ^ 64) : (VarSum.ofVar x).mul m c = .ok ⟨[(x, c)], 0⟩ := by
  unfold VarSum.mul
  rw [if_neg (by omega)]
  split
  · next e => subst e; rfl
  · have e1 : u64 m (1 * c) = .ok c := by unfold u64; rw [Nat.one_mul, if_pos h]
    have e2 : u64 m (0 * c) = .ok 0 := by unfold u64; rw [Nat.zero_mul]; rfl
    show ((u64 m (1 * c) >>= fun p => VarSum.mulVars m c [] >>= fun r => Run.ok ((x, p) :: r)) >>= fun l =>
      u64 m (0 * c) >>= fun k => Run.ok (VarSum.mk l k)) = _
    rw [e1, e2]; rfl

/-- a term read: coefficient (nothing = 1) and variable -/
theorem readPart_var (m : Mode) (ds : List Char) (c : Char) (r : List Char) (x : Nat) (hd : ∀ c ∈ ds, isDigit c = true)
    (hc : isLower c = true) (hx : readVar [c] = .ok x) (acc : VarSum) :
    readPart m (ds ++ c :: r) acc = (do
      let k ← (if ds = [] then .ok 1 else readNum ds)
      let p ← (VarSum.ofVar x).mul m k
      acc.add m p) := by
  unfold readPart
  rw [search_var ds c r hd hc]
  have e1 : List.lookup 1 ((1, [c]) :: (if ds = [] then [] else [(0, ds)])) = some [c] := rfl
  have e0 : List.lookup 0 ((1, [c]) :: (if ds = [] then [] else [(0, ds)])) = if ds = [] then none else some ds := by
    split <;> rfl
  simp only [e1, e0, hx]
  show ((match (if ds = [] then none else some ds) with | some s => readNum s | none => Run.ok 1) >>= _) = _
  split <;> split <;> simp_all

theorem readPart_term (m : Mode) (p : Nat × Nat) (h0 : 0 < p.2) (h : p.2 < 2 ^ 64) (hx : p.1 < 26) (l : List (Nat × Nat))
    (k : Nat) (hk : k < 2 ^ 64) (hl : ∀ q ∈ l, q.1 < p.1) : readPart m (showTerm p) ⟨l, k⟩ = .ok ⟨l ++ [p], k⟩ := by
  obtain ⟨c, hc, hlow, hr⟩ := showVar_named hx
  have hadd : (VarSum.mk l k).add m ⟨[(p.1, p.2)], 0⟩ = .ok ⟨l ++ [p], k⟩ := by
    have e : u64 m (k + 0) = .ok k := by unfold u64; rw [Nat.add_zero, if_pos hk]
    show (u64 m (k + 0) >>= fun k => (VarSum.addVar m p.1 p.2 l >>= fun l => VarSum.addVars m l []) >>= fun l =>
      Run.ok (VarSum.mk l k)) = _
    rw [e, addVar_last m p.1 p.2 l hl]; rfl
  unfold showTerm
  rw [hc]
  split
  · rw [readPart_var m _ c [] p.1 (fun _ => toDigits_digit) hlow hr, if_neg Nat.toDigits_ne_nil, readNum_show h]
    show ((VarSum.ofVar p.1).mul m p.2 >>= _) = _
    rw [mul_var m _ _ h0 h]
    exact hadd
  · next e =>
    have e : p.2 = 1 := by simpa using e
    rw [show [c] = [] ++ c :: [] from rfl, readPart_var m [] c [] p.1 (by simp) hlow hr, if_pos rfl]
    show ((VarSum.ofVar p.1).mul m 1 >>= fun q => (VarSum.mk l k).add m q) = _
    rw [mul_var m _ _ (by decide) (by decide), ← e]
    exact hadd

theorem readPart_const (m : Mode) (ds : List Char) (hd : ∀ c ∈ ds, isDigit c = true) (hne : ds ≠ []) (acc : VarSum) :
    readPart m ds acc = (do
      let k ← readNum ds
      acc.add m (.ofNat k)) := by
  unfold readPart
  rw [search_const ds hd hne]
  rfl

theorem readParts_append (m : Mode) : ∀ (a b : List (List Char)) (acc : VarSum),
    readParts m (a ++ b) acc = (do let acc ← readParts m a acc; readParts m b acc)
  | [], _, _ => rfl
  | p :: a, b, acc => by
    show (readPart m p acc >>= fun acc => readParts m (a ++ b) acc) =
      ((readPart m p acc >>= fun acc => readParts m a acc) >>= fun acc => readParts m b acc)
    cases readPart m p acc with
    | ok acc' => exact readParts_append m a b acc'
    | err => rfl
    | panic => rfl
    | capture => rfl
    | timeout => rfl

theorem readParts_terms (m : Mode) (k : Nat) (hk : k < 2 ^ 64) : ∀ (l acc : List (Nat × Nat)),
    (acc ++ l).Pairwise (fun p q => p.1 < q.1) → (∀ p ∈ l, 0 < p.2 ∧ p.2 < 2 ^ 64) → (∀ p ∈ l, p.1 < 26) →
    readParts m (l.map showTerm) ⟨acc, k⟩ = .ok ⟨acc ++ l, k⟩
  | [], acc, _, _, _ => by simp [readParts]
  | p :: l, acc, hs, hc, hn => by
    have hp : ∀ q ∈ acc, q.1 < p.1 := by
      intro q hq
      exact (List.pairwise_append.1 hs).2.2 q hq p (by simp)
    show (readPart m (showTerm p) ⟨acc, k⟩ >>= fun acc => readParts m (l.map showTerm) acc) = _
    rw [readPart_term m p (hc p (by simp)).1 (hc p (by simp)).2 (hn p (by simp)) acc k hk hp]
    show readParts m (l.map showTerm) ⟨acc ++ [p], k⟩ = _
    rw [readParts_terms m k hk l (acc ++ [p]) (by simpa using hs) (fun q hq => hc q (by simp [hq]))
      fun q hq => hn q (by simp [hq])]
    simp

/-- the characters of a printed sum -/
def sumChar (c : Char) : Bool := isDigit c || isLower c || c == '+'

theorem showTerm_chars {p : Nat × Nat} (hx : p.1 < 26) : ∀ c ∈ showTerm p, isDigit c = true ∨ isLower c = true := by
  obtain ⟨d, hd, hl, _⟩ := showVar_named hx
  intro c hc
  unfold showTerm at hc
  rw [hd] at hc
  split at hc
  · rcases List.mem_append.1 hc with h | h
    · exact .inl (toDigits_digit h)
    · rw [List.mem_singleton.1 h]; exact .inr hl
  · rw [List.mem_singleton.1 hc]; exact .inr hl

theorem not_plus {c : Char} (h : isDigit c = true ∨ isLower c = true) : c ≠ '+' := by
  rintro rfl
  revert h; decide

/-- the terms of a printed sum -/
def sumTerms (s : VarSum) : List (List Char) := s.vars.map showTerm ++ (if s.const ≠ 0 then [Nat.toDigits 10 s.const] else [])

theorem showSum_eq (s : VarSum) : showSum s = if sumTerms s = [] then ['0'] else Py.join '+' (sumTerms s) := rfl

theorem sumTerms_chars {s : VarSum} (h : SumOk s) : ∀ t ∈ sumTerms s, t ≠ [] ∧ ∀ c ∈ t, isDigit c = true ∨ isLower c = true := by
  intro t ht
  rcases List.mem_append.1 ht with ht | ht
  · obtain ⟨p, hp, rfl⟩ := List.mem_map.1 ht
    refine ⟨?_, showTerm_chars (h.named p hp)⟩
    obtain ⟨d, hd, _⟩ := showVar_named (h.named p hp)
    unfold showTerm
    rw [hd]
    split <;> simp
  · split at ht
    · rw [List.mem_singleton.1 ht]
      exact ⟨Nat.toDigits_ne_nil, fun c hc => .inl (toDigits_digit hc)⟩
    · cases ht

theorem readSum_show (m : Mode) (s : VarSum) (h : SumOk s) : readSum m (showSum s) = .ok s := by
  rw [showSum_eq]
  split
  · next e =>
    obtain ⟨e1, e2⟩ := List.append_eq_nil_iff.1 e
    replace e1 : s.vars = [] := by simpa using e1
    replace e2 : s.const = 0 := by
      by_contra hc
      rw [if_pos hc] at e2; cases e2
    have : s = .ofNat 0 := by cases s; simp only at e1 e2; subst e1 e2; rfl
    rw [this]
    obtain ⟨w, st⟩ := m
    cases w <;> rfl
  · next e =>
    unfold readSum
    rw [split_join _ _ e fun t ht hp => not_plus ((sumTerms_chars h t ht).2 _ hp) rfl]
    unfold sumTerms
    rw [readParts_append]
    have := readParts_terms m 0 (by decide) s.vars [] (by simpa using h.sorted) h.coefs h.named
    show (readParts m (s.vars.map showTerm) ⟨[], 0⟩ >>= _) = _
    rw [this]
    show readParts m (if s.const ≠ 0 then [Nat.toDigits 10 s.const] else []) ⟨s.vars, 0⟩ = _
    split
    · show (readPart m (Nat.toDigits 10 s.const) ⟨s.vars, 0⟩ >>= fun acc => readParts m [] acc) = _
      rw [readPart_const m _ (fun _ => toDigits_digit) Nat.toDigits_ne_nil, readNum_show h.const]
      have e : u64 m (0 + s.const) = .ok s.const := by unfold u64; rw [Nat.zero_add, if_pos h.const]
      show ((u64 m (0 + s.const) >>= fun k => Run.ok s.vars >>= fun l => Run.ok (VarSum.mk l k)) >>=
        fun acc => Run.ok acc) = _
      rw [e]; rfl
    · next hc =>
      have hc : s.const = 0 := by simpa using hc
      show Run.ok (VarSum.mk s.vars 0) = _
      rw [← hc]

theorem join_ne_nil {c : Char} {l : List (List Char)} (hne : l ≠ []) (h : ∀ t ∈ l, t ≠ []) : Py.join c l ≠ [] := by
  cases l with
  | nil => exact absurd rfl hne
  | cons t l =>
    have := h t (by simp)
    cases l with
    | nil => exact this
    | cons u l => exact fun e => this (List.append_eq_nil_iff.1 e).1

theorem showSum_chars {s : VarSum} (h : SumOk s) : showSum s ≠ [] ∧ ∀ c ∈ showSum s, sumChar c = true := by
  rw [showSum_eq]
  split
  · exact ⟨by simp, by decide⟩
  · next e =>
    refine ⟨join_ne_nil e fun t ht => (sumTerms_chars h t ht).1, fun c hc => ?_⟩
    unfold sumChar
    rcases Model.IO.join_chars '+' _ c hc with rfl | ⟨t, ht, hc⟩
    · simp
    · rcases (sumTerms_chars h t ht).2 c hc with h | h <;> simp [h]

theorem showSum_inf {s : VarSum} (h : SumOk s) : showSum s ≠ ['i', 'n', 'f'] := by
  intro e
  have h1 := readSum_show debug s h
  rw [e] at h1
  have h2 : readSum debug ['i', 'n', 'f'] = .ok ⟨[(9, 1)], 0⟩ := by decide
  rw [h2] at h1
  cases h1
  revert e; decide

theorem readCount_show (m : Mode) (e : Count) (h : CountOk e) : readCount m (showCount e) = .ok e := by
  cases e with
  | inf => rfl
  | fin e =>
    cases e with
    | iter => exact h.elim
    | sum s =>
      unfold readCount
      rw [if_neg (show showCount (.fin (.sum s)) ≠ _ from showSum_inf h)]
      show (readSum m (showSum s) >>= _) = _
      rw [readSum_show m s h]; rfl

theorem showCount_chars {e : Count} (h : CountOk e) : showCount e ≠ [] ∧ ∀ c ∈ showCount e, sumChar c = true := by
  cases e with
  | inf => exact ⟨by simp [showCount], by decide⟩
  | fin e =>
    cases e with
    | iter => exact h.elim
    | sum s => exact showSum_chars h

/-! ### Blocks, half tapes, configurations -/

theorem orient_map {α β : Type} (d : Dir) (f : α → β) (l : List α) : orient d (l.map f) = (orient d l).map f := by
  cases d
  · exact List.map_reverse.symm
  · rfl

theorem orient_orient {α : Type} (d : Dir) (l : List α) : orient d (orient d l) = l := by
  cases d
  · exact List.reverse_reverse l
  · rfl

theorem mem_orient {α : Type} {d : Dir} {l : List α} {a : α} : a ∈ orient d l ↔ a ∈ l := by
  cases d
  · exact List.mem_reverse
  · exact Iff.rfl

theorem orient_ne_nil {α : Type} {d : Dir} {l : List α} (h : l ≠ []) : orient d l ≠ [] := by
  cases d
  · exact fun e => h (by simpa [orient] using e)
  · exact h

/-- the symbols as printed -/
theorem syms_flatten : ∀ l : List Nat, (∀ a ∈ l, a ≤ 9) → (l.map (Nat.toDigits 10)).flatten = l.map Nat.digitChar
  | [], _ => rfl
  | a :: l, h => by
    rw [List.map_cons, List.flatten_cons, syms_flatten l fun b hb => h b (by simp [hb]),
      Nat.toDigits_of_lt_base (by have := h a (by simp); omega)]
    rfl

theorem digitChar_back {a : Nat} (h : a ≤ 9) : isDigit (Nat.digitChar a) = true ∧ (Nat.digitChar a).toNat - 48 = a := by
  interval_cases a <;> decide

theorem syms_back : ∀ l : List Nat, (∀ a ∈ l, a ≤ 9) → (l.map Nat.digitChar).map (fun c => c.toNat - 48) = l
  | [], _ => rfl
  | a :: l, h => by
    rw [List.map_cons, List.map_cons, (digitChar_back (h a (by simp))).2, syms_back l fun b hb => h b (by simp [hb])]

theorem search_block_plain (ds : List Char) (hd : ∀ c ∈ ds, isDigit c = true) (hne : ds ≠ []) :
    reBlock.search true ds = some [(0, ds)] := by
  unfold reBlock
  rw [search_bos, head_unique (a := ⟨false, [], [(0, ds)]⟩)]
  · rfl
  · refine mem_seq.2 ⟨_, mem_bos.2 ⟨rfl, rfl⟩, mem_seq.2 ⟨⟨false, [], [(0, ds)]⟩,
      mem_cap_plus.2 ⟨ds, hne, hd, by simp, rfl⟩, mem_seq.2 ⟨_, mem_opt.2 (.inr rfl), mem_eos.2 ⟨rfl, rfl⟩⟩⟩⟩
  · intro u hu
    obtain ⟨v, hv, hu⟩ := mem_seq.1 hu
    obtain ⟨_, rfl⟩ := mem_bos.1 hv
    obtain ⟨v, hv, hu⟩ := mem_seq.1 hu
    obtain ⟨w, h1, h2, h3, h4⟩ := mem_cap_plus.1 hv
    obtain ⟨x, hx, hu⟩ := mem_seq.1 hu
    obtain ⟨hr, rfl⟩ := mem_eos.1 hu
    rcases mem_opt.1 hx with hx | rfl
    · obtain ⟨y, hy, _⟩ := mem_seq.1 hx
      obtain ⟨c, g1, g2, _⟩ := mem_chr.1 hy
      simp only [beq_iff_eq] at g1
      have := hd c (by simp only at h3; rw [h3, g2]; simp)
      rw [g1] at this
      exact absurd this (by decide)
    · rw [hr] at h3 h4
      simp only [List.append_nil] at h3
      rw [h4, h3]

theorem search_block_rep (ds r : List Char) (hd : ∀ c ∈ ds, isDigit c = true) (hne : ds ≠ []) (hr : r ≠ [])
    (hr' : ∀ c ∈ r, isDot c = true) (hr2 : '^' ∉ r) :
    reBlock.search true (ds ++ '^' :: r) = some [(1, r), (0, ds)] := by
  have hds : '^' ∉ ds := fun h => absurd (hd _ h) (by decide)
  unfold reBlock
  rw [search_bos, head_unique (a := ⟨false, [], [(1, r), (0, ds)]⟩)]
  · rfl
  · refine mem_seq.2 ⟨_, mem_bos.2 ⟨rfl, rfl⟩, mem_seq.2 ⟨⟨false, '^' :: r, [(0, ds)]⟩,
      mem_cap_plus.2 ⟨ds, hne, hd, rfl, rfl⟩, mem_seq.2 ⟨⟨false, [], [(1, r), (0, ds)]⟩,
        mem_opt.2 (.inl (mem_seq.2 ⟨⟨false, r, [(0, ds)]⟩, mem_chr.2 ⟨'^', by decide, rfl, rfl⟩,
          mem_cap_plus.2 ⟨r, hr, hr', by simp, rfl⟩⟩)), mem_eos.2 ⟨rfl, rfl⟩⟩⟩⟩
  · intro u hu
    obtain ⟨v, hv, hu⟩ := mem_seq.1 hu
    obtain ⟨_, rfl⟩ := mem_bos.1 hv
    obtain ⟨v, hv, hu⟩ := mem_seq.1 hu
    obtain ⟨w, h1, h2, h3, h4⟩ := mem_cap_plus.1 hv
    obtain ⟨x, hx, hu⟩ := mem_seq.1 hu
    obtain ⟨he, rfl⟩ := mem_eos.1 hu
    rcases mem_opt.1 hx with hx | rfl
    · obtain ⟨y, hy, hz⟩ := mem_seq.1 hx
      obtain ⟨c, g1, g2, g3⟩ := mem_chr.1 hy
      obtain ⟨w', k1, k2, k3, k4⟩ := mem_cap_plus.1 hz
      simp only [beq_iff_eq] at g1
      subst g1
      rw [g2] at h3
      simp only at h3
      obtain ⟨e1, e2⟩ := around_unique hds hr2 h3.symm
      rw [he] at k3 k4
      rw [List.append_nil] at k3
      rw [k4, g3, h4]
      simp only
      rw [← e2, ← e1, k3]
    · rw [he] at h3
      simp only [List.append_nil] at h3
      have := h2 '^' (by rw [← h3]; simp)
      exact absurd this (by decide)

theorem sumChar_dot {c : Char} (h : sumChar c = true) : isDot c = true ∧ c ≠ '^' ∧ c ≠ ' ' ∧ c ≠ '<' ∧ c ≠ '>' := by
  have key : ∀ d : Char, sumChar d = false → c ≠ d := by
    rintro d hd rfl; rw [h] at hd; cases hd
  refine ⟨?_, key _ (by decide), key _ (by decide), key _ (by decide), key _ (by decide)⟩
  have := key '\n' (by decide)
  simp [isDot, this]

theorem readBlock_show (m : Mode) (d : Dir) (b : Block) (h : BlockOk b) : readBlock m d (showBlock d b) = .ok b := by
  obtain ⟨syms, rep⟩ := b
  have h9 : ∀ a ∈ orient d syms, a ≤ 9 := fun a ha => h.digits a (mem_orient.1 ha)
  have hdig : ∀ c ∈ (orient d syms).map Nat.digitChar, isDigit c = true := by
    intro c hc
    obtain ⟨a, ha, rfl⟩ := List.mem_map.1 hc
    exact (digitChar_back (h9 a ha)).1
  have hne : (orient d syms).map Nat.digitChar ≠ [] := by
    have := orient_ne_nil (d := d) h.nonempty
    simpa using this
  have hback : orient d (((orient d syms).map Nat.digitChar).map fun c => c.toNat - 48) = syms := by
    rw [syms_back _ h9, orient_orient]
  unfold showBlock
  simp only
  rw [orient_map, syms_flatten _ h9]
  split
  · next e =>
    unfold readBlock
    rw [search_block_plain _ hdig hne]
    show Run.ok (Block.mk (orient d _) _) = _
    simp only [List.lookup, beq_self_eq_true, Option.getD_some]
    rw [hback, ← e]
  · have hr := showCount_chars h.rep
    unfold readBlock
    rw [search_block_rep _ _ hdig hne hr.1 (fun c hc => (sumChar_dot (hr.2 c hc)).1)
      (fun hc => (sumChar_dot (hr.2 _ hc)).2.1 rfl)]
    show (readCount m (showCount rep) >>= fun rep => Run.ok (Block.mk (orient d _) rep)) = _
    rw [readCount_show m rep h.rep]
    show Run.ok (Block.mk (orient d _) rep) = _
    simp only [List.lookup, show ((0 : Nat) == 1) = false from rfl, beq_self_eq_true, Option.getD_some]
    rw [hback]

theorem showBlock_chars {d : Dir} {b : Block} (h : BlockOk b) : showBlock d b ≠ [] ∧
    ∀ c ∈ showBlock d b, c ≠ ' ' ∧ c ≠ '<' ∧ c ≠ '>' ∧ isDot c = true := by
  obtain ⟨syms, rep⟩ := b
  have h9 : ∀ a ∈ orient d syms, a ≤ 9 := fun a ha => h.digits a (mem_orient.1 ha)
  have hdig : ∀ c ∈ (orient d syms).map Nat.digitChar, c ≠ ' ' ∧ c ≠ '<' ∧ c ≠ '>' ∧ isDot c = true := by
    intro c hc
    obtain ⟨a, ha, rfl⟩ := List.mem_map.1 hc
    have := h9 a ha
    interval_cases a <;> decide
  have hne : (orient d syms).map Nat.digitChar ≠ [] := by
    have := orient_ne_nil (d := d) h.nonempty
    simpa using this
  unfold showBlock
  simp only
  rw [orient_map, syms_flatten _ h9]
  split
  · exact ⟨hne, hdig⟩
  · refine ⟨by simp, fun c hc => ?_⟩
    rcases List.mem_append.1 hc with hc | hc
    · exact hdig c hc
    · rcases List.mem_cons.1 hc with rfl | hc
      · decide
      · have := sumChar_dot ((showCount_chars h.rep).2 c hc)
        exact ⟨this.2.2.1, this.2.2.2.1, this.2.2.2.2, this.1⟩

theorem readHalf_show (m : Mode) (d : Dir) (t : HalfTape) (h : HalfOk t) : readHalf m d (showHalf d t) = .ok t := by
  have hwords : (Py.split ' ' (showHalf d t)).filter (fun w => !w.isEmpty) = orient d (t.map (showBlock d)) := by
    unfold showHalf
    by_cases ht : t = []
    · subst ht; cases d <;> rfl
    · rw [split_join]
      · rw [List.filter_eq_self]
        intro w hw
        obtain ⟨b, hb, rfl⟩ := List.mem_map.1 (mem_orient.1 hw)
        have := (showBlock_chars (d := d) (h b hb)).1
        simpa using this
      · exact orient_ne_nil (by simpa using ht)
      · intro w hw hc
        obtain ⟨b, hb, rfl⟩ := List.mem_map.1 (mem_orient.1 hw)
        exact ((showBlock_chars (d := d) (h b hb)).2 _ hc).1 rfl
  unfold readHalf
  rw [hwords]
  have key : mapR (readBlock m d) (t.map (showBlock d)).reverse = .ok t.reverse := by
    rw [← List.map_reverse]
    exact mapR_ok fun b hb => readBlock_show m d b (h b (List.mem_reverse.1 hb))
  cases d
  · show (mapR (readBlock m .L) (t.map (showBlock .L)).reverse >>= fun t => Run.ok t.reverse) = _
    rw [key]
    show Run.ok t.reverse.reverse = _
    rw [List.reverse_reverse]
  · show (mapR (readBlock m .R) (t.map (showBlock .R)).reverse >>= fun t => Run.ok t.reverse) = _
    rw [key]
    show Run.ok t.reverse.reverse = _
    rw [List.reverse_reverse]

theorem join_head {c x : Char} {l : List (List Char)} {s : List Char} (h : Py.join c l = x :: s) (hl : ∀ t ∈ l, t ≠ []) :
    ∃ t ∈ l, x ∈ t := by
  cases l with
  | nil => cases h
  | cons t l =>
    have ht := hl t (by simp)
    refine ⟨t, by simp, ?_⟩
    cases t with
    | nil => exact absurd rfl ht
    | cons y t =>
      cases l with
      | nil => simp only [Py.join, List.cons.injEq] at h; rw [h.1]; simp
      | cons u l => simp only [Py.join, List.cons_append, List.cons.injEq] at h; rw [h.1]; simp

theorem join_last {c x : Char} : ∀ {l : List (List Char)} {s : List Char}, Py.join c l = s ++ [x] → (∀ t ∈ l, t ≠ []) →
    ∃ t ∈ l, x ∈ t
  | [], s, h, _ => by simp [Py.join] at h
  | [t], s, h, _ => ⟨t, by simp, by rw [show t = s ++ [x] from h]; simp⟩
  | t :: u :: l, s, h, hl => by
    have h : t ++ c :: Py.join c (u :: l) = s ++ [x] := h
    have hj : Py.join c (u :: l) ≠ [] := join_ne_nil (by simp) fun t ht => hl t (by simp [ht])
    obtain ⟨s', hs'⟩ : ∃ s', Py.join c (u :: l) = s' ++ [x] := by
      rcases List.eq_nil_or_concat (Py.join c (u :: l)) with e | ⟨s', y, e⟩
      · exact absurd e hj
      · rw [List.concat_eq_append] at e
        rw [e, show t ++ c :: (s' ++ [y]) = (t ++ c :: s') ++ [y] by simp] at h
        have := List.append_inj_right' h rfl
        refine ⟨s', ?_⟩
        rw [e, this]
    obtain ⟨v, hv, hx⟩ := join_last hs' fun t ht => hl t (by simp [ht])
    exact ⟨v, by simp [hv], hx⟩

theorem showHalf_chars {d : Dir} {t : HalfTape} (h : HalfOk t) :
    (∀ c ∈ showHalf d t, c ≠ '<' ∧ c ≠ '>' ∧ isDot c = true) ∧ (∀ s, showHalf d t ≠ ' ' :: s) ∧
    ∀ s, showHalf d t ≠ s ++ [' '] := by
  have hw : ∀ w ∈ orient d (t.map (showBlock d)), w ≠ [] ∧ ∀ c ∈ w, c ≠ ' ' ∧ c ≠ '<' ∧ c ≠ '>' ∧ isDot c = true := by
    intro w hw
    obtain ⟨b, hb, rfl⟩ := List.mem_map.1 (mem_orient.1 hw)
    exact showBlock_chars (h b hb)
  refine ⟨fun c hc => ?_, fun s e => ?_, fun s e => ?_⟩
  · rcases Model.IO.join_chars ' ' _ c hc with rfl | ⟨w, h1, h2⟩
    · decide
    · exact ((hw w h1).2 c h2).2
  · obtain ⟨w, h1, h2⟩ := join_head e fun w hw' => (hw w hw').1
    exact ((hw w h1).2 _ h2).1 rfl
  · obtain ⟨w, h1, h2⟩ := join_last e fun w hw' => (hw w hw').1
    exact ((hw w h1).2 _ h2).1 rfl

/-- one space between a word without a space at its end, and other spaces -/
theorem one_space_end {A w sp : List Char} (hA : ∀ s, A ≠ s ++ [' ']) (hsp : sp ≠ []) (hs : ∀ c ∈ sp, (c == ' ') = true)
    (h : w ++ sp = A ++ [' ']) : w = A := by
  rcases List.eq_nil_or_concat sp with e | ⟨sp', y, e⟩
  · exact absurd e hsp
  · rw [List.concat_eq_append] at e
    subst e
    rw [← List.append_assoc] at h
    have h1 := List.append_inj_left' h rfl
    rcases List.eq_nil_or_concat sp' with e | ⟨s2, z, e⟩
    · subst e; simpa using h1
    · rw [List.concat_eq_append] at e
      subst e
      have hz : z = ' ' := by simpa using hs z (by simp)
      exact absurd (by rw [← h1, hz, List.append_assoc]) (hA (w ++ s2))

theorem one_space_start {B w sp : List Char} (hB : ∀ s, B ≠ ' ' :: s) (hsp : sp ≠ []) (hs : ∀ c ∈ sp, (c == ' ') = true)
    (h : sp ++ w = ' ' :: B) : w = B := by
  cases sp with
  | nil => exact absurd rfl hsp
  | cons y sp =>
    simp only [List.cons_append, List.cons.injEq] at h
    cases sp with
    | nil => exact h.2
    | cons z sp =>
      have hz : z = ' ' := by simpa using hs z (by simp)
      exact absurd (by rw [← h.2, hz]; rfl) (hB (sp ++ w))

/-- the rest of the text after the head -/
theorem config_tail {u t : ReSt} {B : List Char} (hB : ∀ s, B ≠ ' ' :: s) (ht : t.rest = ' ' :: B)
    (hu : u ∈ (Re.seq (.opt (.seq (.plus (· == ' ')) (.cap 3 (.star isDot)))) .eos).run t) :
    u.caps = (3, B) :: t.caps := by
  obtain ⟨x, hx, hu⟩ := mem_seq.1 hu
  obtain ⟨he, rfl⟩ := mem_eos.1 hu
  rcases mem_opt.1 hx with hx | rfl
  · obtain ⟨y, hy, hx⟩ := mem_seq.1 hx
    obtain ⟨sp, h1, h2, h3, h4⟩ := mem_plus.1 hy
    obtain ⟨w, g1, g2, g3⟩ := mem_cap_star.1 hx
    rw [he, List.append_nil] at g2
    rw [g3]
    simp only
    rw [ht, g2] at h3
    rw [one_space_start hB h1 h2 h3.symm, h4]
  · rw [he] at ht; cases ht

theorem config_tail_mem {t : ReSt} {B : List Char} (hB : ∀ c ∈ B, isDot c = true) (ht : t.rest = ' ' :: B) :
    ∃ u ∈ (Re.seq (.opt (.seq (.plus (· == ' ')) (.cap 3 (.star isDot)))) .eos).run t, True :=
  ⟨⟨_, [], (3, B) :: t.caps⟩, mem_seq.2 ⟨⟨_, [], (3, B) :: t.caps⟩, mem_opt.2 (.inl (mem_seq.2 ⟨⟨false, B, t.caps⟩,
    mem_plus.2 ⟨[' '], by simp, by simp, by rw [ht]; rfl, rfl⟩, mem_cap_star.2 ⟨B, hB, by simp, rfl⟩⟩)),
    mem_eos.2 ⟨rfl, rfl⟩⟩, trivial⟩

theorem head_caps {l : List ReSt} {cs} (hne : ∃ u ∈ l, True) (h : ∀ u ∈ l, u.caps = cs) : l.head?.map ReSt.caps = some cs := by
  cases l with
  | nil => obtain ⟨u, hu, _⟩ := hne; cases hu
  | cons u l => rw [List.head?_cons, Option.map_some, h u (by simp)]

theorem config_start_mem {A s : List Char} (hA : ∀ c ∈ A, isDot c = true) :
    ⟨false, s, [(0, A)]⟩ ∈ (Re.opt (.seq (.cap 0 (.star isDot)) (.plus (· == ' ')))).run ⟨true, A ++ ' ' :: s, []⟩ :=
  mem_opt.2 (.inl (mem_seq.2 ⟨⟨true && ((' ' :: s).length == (A ++ ' ' :: s).length), ' ' :: s, [(0, A)]⟩,
    mem_cap_star.2 ⟨A, hA, rfl, rfl⟩, mem_plus.2 ⟨[' '], by simp, by simp, rfl, rfl⟩⟩))

/-- what the optional first part may be -/
theorem config_start {s : List Char} {v : ReSt}
    (hv : v ∈ (Re.opt (.seq (.cap 0 (.star isDot)) (.plus (· == ' ')))).run ⟨true, s, []⟩) :
    (v.rest = s ∧ v.caps = []) ∨ ∃ w sp, sp ≠ [] ∧ (∀ c ∈ sp, (c == ' ') = true) ∧ s = w ++ (sp ++ v.rest) ∧ v.caps = [(0, w)] := by
  rcases mem_opt.1 hv with hv | rfl
  · obtain ⟨y, hy, hv⟩ := mem_seq.1 hv
    obtain ⟨w, g1, g2, g3⟩ := mem_cap_star.1 hy
    obtain ⟨sp, h1, h2, h3, h4⟩ := mem_plus.1 hv
    refine .inr ⟨w, sp, h1, h2, ?_, ?_⟩
    · simp only at g2
      rw [g2, h3]
    · rw [h4, g3]
  · exact .inl ⟨rfl, rfl⟩

theorem search_config_L {A B : List Char} {q : Char} (hA : ∀ c ∈ A, c ≠ '<' ∧ c ≠ '>' ∧ isDot c = true)
    (hA' : ∀ s, A ≠ s ++ [' ']) (hB : ∀ c ∈ B, c ≠ '<' ∧ c ≠ '>' ∧ isDot c = true) (hB' : ∀ s, B ≠ ' ' :: s)
    (hq : q ≠ '<' ∧ q ≠ '>' ∧ isDot q = true) :
    reConfig.search true (A ++ ' ' :: '<' :: q :: ' ' :: B) = some [(3, B), (1, [q]), (0, A)] := by
  unfold reConfig
  rw [search_bos]
  apply head_caps
  · obtain ⟨u, hu, _⟩ := config_tail_mem (t := ⟨false, ' ' :: B, [(1, [q]), (0, A)]⟩) (fun c hc => (hB c hc).2.2) rfl
    exact ⟨u, mem_seq.2 ⟨_, mem_bos.2 ⟨rfl, rfl⟩, mem_seq.2 ⟨_, config_start_mem (fun c hc => (hA c hc).2.2), mem_seq.2 ⟨_,
      mem_alt.2 (.inl (mem_seq.2 ⟨⟨false, q :: ' ' :: B, [(0, A)]⟩, mem_chr.2 ⟨'<', by decide, rfl, rfl⟩,
        mem_cap_chr.2 ⟨q, hq.2.2, rfl, rfl⟩⟩)), hu⟩⟩⟩, trivial⟩
  · intro u hu
    obtain ⟨v, hv, hu⟩ := mem_seq.1 hu
    obtain ⟨_, rfl⟩ := mem_bos.1 hv
    obtain ⟨v, hv, hu⟩ := mem_seq.1 hu
    obtain ⟨h, hh, hu⟩ := mem_seq.1 hu
    have hA2 : '<' ∉ A ++ [' '] := by
      intro hc
      rcases List.mem_append.1 hc with hc | hc
      · exact (hA _ hc).1 rfl
      · revert hc; decide
    have hB2 : '<' ∉ q :: ' ' :: B := by
      intro hc
      simp only [List.mem_cons] at hc
      rcases hc with hc | hc | hc
      · exact hq.1 hc.symm
      · revert hc; decide
      · exact (hB _ hc).1 rfl
    have hgt : '>' ∉ A ++ ' ' :: '<' :: q :: ' ' :: B := by
      intro hc
      simp only [List.mem_append, List.mem_cons] at hc
      rcases hc with hc | hc | hc | hc | hc | hc
      · exact (hA _ hc).2.1 rfl
      · revert hc; decide
      · revert hc; decide
      · exact hq.2.1 hc.symm
      · revert hc; decide
      · exact (hB _ hc).2.1 rfl
    have hstart := config_start hv
    rcases mem_alt.1 hh with hh | hh
    · obtain ⟨y, hy, hh⟩ := mem_seq.1 hh
      obtain ⟨c, g1, g2, g3⟩ := mem_chr.1 hy
      obtain ⟨c', k1, k2, k3⟩ := mem_cap_chr.1 hh
      simp only [beq_iff_eq] at g1
      subst g1
      rcases hstart with ⟨e, _⟩ | ⟨w, sp, e1, e2, e3, e4⟩
      · rw [g2] at e
        have := around_unique (l := []) hA2 hB2 (by rw [List.nil_append, e]; simp)
        have := this.1
        simp at this
      · rw [g2] at e3
        have e5 : (w ++ sp) ++ '<' :: y.rest = (A ++ [' ']) ++ '<' :: (q :: ' ' :: B) := by
          rw [List.append_assoc, ← e3]; simp
        obtain ⟨f1, f2⟩ := around_unique hA2 hB2 e5
        have f3 := one_space_end hA' e1 e2 f1
        rw [f2] at k2
        simp only [List.cons.injEq] at k2
        rw [config_tail hB' k2.2.symm hu, k3, g3, e4, f3, ← k2.1]
    · obtain ⟨y, hy, hh⟩ := mem_seq.1 hh
      obtain ⟨c', k1, k2, k3⟩ := mem_cap_chr.1 hy
      obtain ⟨c, g1, g2, g3⟩ := mem_chr.1 hh
      simp only [beq_iff_eq] at g1
      subst g1
      exfalso
      apply hgt
      rcases hstart with ⟨e, _⟩ | ⟨w, sp, e1, e2, e3, e4⟩
      · rw [← e, k2, g2]; simp
      · rw [e3, k2, g2]; simp

theorem search_config_R {A B : List Char} {q : Char} (hA : ∀ c ∈ A, c ≠ '<' ∧ c ≠ '>' ∧ isDot c = true)
    (hA' : ∀ s, A ≠ s ++ [' ']) (hB : ∀ c ∈ B, c ≠ '<' ∧ c ≠ '>' ∧ isDot c = true) (hB' : ∀ s, B ≠ ' ' :: s)
    (hq : q ≠ '<' ∧ q ≠ '>' ∧ isDot q = true) :
    reConfig.search true (A ++ ' ' :: q :: '>' :: ' ' :: B) = some [(3, B), (2, [q]), (0, A)] := by
  unfold reConfig
  rw [search_bos]
  apply head_caps
  · obtain ⟨u, hu, _⟩ := config_tail_mem (t := ⟨false, ' ' :: B, [(2, [q]), (0, A)]⟩) (fun c hc => (hB c hc).2.2) rfl
    exact ⟨u, mem_seq.2 ⟨_, mem_bos.2 ⟨rfl, rfl⟩, mem_seq.2 ⟨_, config_start_mem (fun c hc => (hA c hc).2.2), mem_seq.2 ⟨_,
      mem_alt.2 (.inr (mem_seq.2 ⟨⟨false, '>' :: ' ' :: B, [(2, [q]), (0, A)]⟩,
        mem_cap_chr.2 ⟨q, hq.2.2, rfl, rfl⟩, mem_chr.2 ⟨'>', by decide, rfl, rfl⟩⟩)), hu⟩⟩⟩, trivial⟩
  · intro u hu
    obtain ⟨v, hv, hu⟩ := mem_seq.1 hu
    obtain ⟨_, rfl⟩ := mem_bos.1 hv
    obtain ⟨v, hv, hu⟩ := mem_seq.1 hu
    obtain ⟨h, hh, hu⟩ := mem_seq.1 hu
    have hA2 : '>' ∉ A ++ [' ', q] := by
      intro hc
      simp only [List.mem_append, List.mem_cons, List.not_mem_nil, or_false] at hc
      rcases hc with hc | hc | hc
      · exact (hA _ hc).2.1 rfl
      · revert hc; decide
      · exact hq.2.1 hc.symm
    have hB2 : '>' ∉ ' ' :: B := by
      intro hc
      rcases List.mem_cons.1 hc with hc | hc
      · revert hc; decide
      · exact (hB _ hc).2.1 rfl
    have hlt : '<' ∉ A ++ ' ' :: q :: '>' :: ' ' :: B := by
      intro hc
      simp only [List.mem_append, List.mem_cons] at hc
      rcases hc with hc | hc | hc | hc | hc | hc
      · exact (hA _ hc).1 rfl
      · revert hc; decide
      · exact hq.1 hc.symm
      · revert hc; decide
      · revert hc; decide
      · exact (hB _ hc).1 rfl
    have hstart := config_start hv
    rcases mem_alt.1 hh with hh | hh
    · obtain ⟨y, hy, hh⟩ := mem_seq.1 hh
      obtain ⟨c, g1, g2, g3⟩ := mem_chr.1 hy
      simp only [beq_iff_eq] at g1
      subst g1
      exfalso
      apply hlt
      rcases hstart with ⟨e, _⟩ | ⟨w, sp, e1, e2, e3, e4⟩
      · rw [← e, g2]; simp
      · rw [e3, g2]; simp
    · obtain ⟨y, hy, hh⟩ := mem_seq.1 hh
      obtain ⟨c', k1, k2, k3⟩ := mem_cap_chr.1 hy
      obtain ⟨c, g1, g2, g3⟩ := mem_chr.1 hh
      simp only [beq_iff_eq] at g1
      subst g1
      rcases hstart with ⟨e, _⟩ | ⟨w, sp, e1, e2, e3, e4⟩
      · rw [k2, g2] at e
        have := (around_unique (l := [c']) (r := h.rest) hA2 hB2 (by simpa using e)).1
        have := congrArg List.length this
        simp at this
      · rw [k2, g2] at e3
        have e5 : (w ++ sp ++ [c']) ++ '>' :: h.rest = (A ++ [' ', q]) ++ '>' :: (' ' :: B) := by
          simp only [List.append_assoc, List.cons_append, List.nil_append]
          exact e3.symm
        obtain ⟨f1, f2⟩ := around_unique hA2 hB2 e5
        rw [show A ++ [' ', q] = (A ++ [' ']) ++ [q] by simp] at f1
        have f0 : c' = q := by simpa using List.append_inj_right' f1 rfl
        have f3 := one_space_end hA' e1 e2 (List.append_inj_left' f1 rfl)
        rw [config_tail hB' f2 hu, g3, k3, e4, f3, f0]

theorem readConfig_show (m : Mode) (c : Config) (h : ConfigOk c) : readConfig m (showConfig c) = .ok c := by
  obtain ⟨l, r, s, d⟩ := c
  obtain ⟨hl, hr, hs⟩ := h
  simp only at hl hr hs
  obtain ⟨a1, _, a3⟩ := showHalf_chars (d := .L) hl
  obtain ⟨b1, b2, _⟩ := showHalf_chars (d := .R) hr
  obtain ⟨q, hq, _, _, _, q1, q2, q3⟩ := showState_ascii s hs
  have hstate := readState_show m s hs
  rw [hq] at hstate
  unfold showConfig
  simp only
  rw [hq]
  cases d with
  | L =>
    have e : showHalf .L l ++ ([' ', '<'] ++ [q] ++ [' ']) ++ showHalf .R r =
        showHalf .L l ++ ' ' :: '<' :: q :: ' ' :: showHalf .R r := by simp
    simp only
    rw [e]
    unfold readConfig
    rw [search_config_L a1 a3 b1 b2 ⟨q1, q2, q3⟩]
    show ((readState m [q] >>= fun s => Run.ok (s, Dir.L)) >>= fun p => readHalf m .L (showHalf .L l) >>= fun l =>
      readHalf m .R (showHalf .R r) >>= fun r => Run.ok (Config.mk l r p.1 p.2)) = _
    rw [hstate, readHalf_show m .L l hl, readHalf_show m .R r hr]
    rfl
  | R =>
    have e : showHalf .L l ++ (' ' :: [q] ++ ['>', ' ']) ++ showHalf .R r =
        showHalf .L l ++ ' ' :: q :: '>' :: ' ' :: showHalf .R r := by simp
    simp only
    rw [e]
    unfold readConfig
    rw [search_config_R a1 a3 b1 b2 ⟨q1, q2, q3⟩]
    show ((readState m [q] >>= fun s => Run.ok (s, Dir.R)) >>= fun p => readHalf m .L (showHalf .L l) >>= fun l =>
      readHalf m .R (showHalf .R r) >>= fun r => Run.ok (Config.mk l r p.1 p.2)) = _
    rw [hstate, readHalf_show m .L l hl, readHalf_show m .R r hr]
    rfl

end Model.Validator
