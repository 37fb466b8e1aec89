import Verif.Lemmas.SimLimited
import Verif.Spec.Stack
import Mathlib.Algebra.BigOperators.Group.List.Basic
import Mathlib.Algebra.BigOperators.Intervals

/-!
# The simple, block and back-symbol machines follow the base machine
-/

namespace Model
open Spec

/-- moving the cut within a finite segment does not change the tape that is meant -/
def TShift {σ S : Type} (TDen : DC σ S → (Int → Nat) → Prop) (hs : S → Prop) : Prop :=
  ∀ (c c' : DC σ S) (A B A' B' : List σ) (l r : Nat → σ) (tp : Int → Nat),
    c.side .L = pre A.reverse l → c.side .R = pre B r →
    c'.side .L = pre A'.reverse l → c'.side .R = pre B' r → A ++ B = A' ++ B' →
    hs c.st → hs c'.st → TDen c tp → TDen c' tp

/-- the score formula of the machine is right -/
def Scored {σ S : Type} (M : Machine σ S) (TDen : DC σ S → (Int → Nat) → Prop) : Prop :=
  ∀ c tp a b, TDen c tp → Cnt M.evalSym (c.side .L) a → Cnt M.evalSym (c.side .R) b →
    Set.ncard {p : Int | tp p ≠ 0} = a + b + M.evalSt c.st

/-! ## The simple machine -/

/-- position of the head given the cut -/
def headPos (d : Dir) (b : Int) : Int := match d with | .R => b | .L => b - 1

/-- the cut after a move, relative to the old head position -/
def cutOff (d : Dir) : Int := match d with | .R => 1 | .L => 0

theorem halves_move {S : Type} {c : DC Nat S} {tape : Int → Nat} {b : Int} (h : Halves c tape b)
    (w : Nat) (st' : S) (d' : Dir) :
    Halves (c.move w st' d') (Function.update tape (headPos c.dir b) w)
      (headPos c.dir b + cutOff d') := by
  obtain ⟨hL, hR⟩ := h
  obtain ⟨st, d, side⟩ := c
  simp only at hL hR
  unfold Halves DC.move headPos cutOff
  cases d <;> cases d' <;> simp only [Dir.other] <;> constructor <;> intro i
  · simp [hL, Function.update_apply]; rw [if_neg (by omega)]; congr 1; omega
  · cases i with
    | zero => simp
    | succ i => simp [hR, Function.update_apply]; intro; omega
  · cases i with
    | zero => simp
    | succ i => simp [hL, Function.update_apply]; intro; omega
  · simp [hR, Function.update_apply]; intro; omega
  · simp [hL, Function.update_apply]; intro; omega
  · cases i with
    | zero => simp
    | succ i => simp [hR, Function.update_apply]; intro; omega
  · cases i with
    | zero => simp
    | succ i => simp [hL, Function.update_apply]; rw [if_neg (by omega)]; congr 1; omega
  · simp [hR, Function.update_apply]; rw [if_neg (by omega)]; congr 1; omega

theorem front_eq {S : Type} {c : DC Nat S} {tape : Int → Nat} {b : Int} (h : Halves c tape b) :
    c.front = tape (headPos c.dir b) := by
  obtain ⟨hL, hR⟩ := h
  unfold DC.front headPos
  cases c.dir
  · rw [hL]; simp
  · rw [hR]; simp

theorem seenExact_one {T : Table} {cfg : Config} {q : Nat} (h : cfg.state = some q) :
    SeenExact T cfg 1 [(q, 0)] := by
  refine ⟨by simp [Py.NodupKeys], fun q' u => ?_⟩
  constructor
  · intro hg
    simp only [Py.dget, List.find?_cons, List.find?_nil] at hg
    split at hg
    · next e =>
      simp at hg e
      subst hg; subst e
      exact ⟨by omega, h, fun t' h1 h2 => by omega⟩
    · simp at hg
  · rintro ⟨h1, h2, -⟩
    have : u = 0 := by omega
    subst this
    have h2 : cfg.state = some q' := h2
    rw [h] at h2
    cases h2
    simp [Py.dget]

theorem simple_follows (T : Table) :
    Follows T (simple T) Represents RepresentsTape (fun s => s = none) where
  live c cfg h := by
    obtain ⟨b, h1, h2, h3, h4⟩ := h
    exact ⟨h3, by rw [h2]; exact h3⟩
  safe c cfg h := by
    obtain ⟨b, h1, h2, h3, h4⟩ := h
    obtain ⟨q, hq⟩ := Option.ne_none_iff_exists'.1 h3
    rw [h2, hq]
    simp only [simple]
    cases T q c.front <;> simp
  run c cfg h t ht hc := by
    obtain ⟨b, h1, h2, h3, h4⟩ := h
    obtain ⟨q, hq⟩ := Option.ne_none_iff_exists'.1 h3
    rw [hq] at h2
    have hf := front_eq h1
    have hp : cfg.pos = headPos c.dir b := by rw [h4]; cases c.dir <;> rfl
    rw [← hp] at hf
    rw [h2] at ht
    simp only [simple] at ht
    cases hi : T q c.front with
    | undef => rw [hi] at ht; subst ht; cases hc
    | halt w d' => rw [hi] at ht; subst ht; cases hc
    | go w d' q' =>
      rw [hi] at ht
      subst ht
      refine ⟨by simp, ?_, seenExact_one hq⟩
      simp only [run_one]
      rw [hf] at hi
      have hm := halves_move h1 w (some q') d'
      refine ⟨headPos c.dir b + cutOff d', ?_, ?_, ?_, ?_⟩
      · rw [step_tape hq, hi, hp]; exact hm
      · rw [step_state hq, hi]; rfl
      · rw [step_state hq, hi]; simp [Instr.next]
      · rw [step_pos hq, hi, hp]
        cases d'
        · show _ + (-1 : Int) = headPos c.dir b + 0 - 1
          omega
        · rfl
  halt c cfg h t ht hc := by
    obtain ⟨b, h1, h2, h3, h4⟩ := h
    obtain ⟨q, hq⟩ := Option.ne_none_iff_exists'.1 h3
    rw [hq] at h2
    have hf := front_eq h1
    have hp : cfg.pos = headPos c.dir b := by rw [h4]; cases c.dir <;> rfl
    rw [← hp] at hf
    rw [h2] at ht
    simp only [simple] at ht
    have hz : ∀ m, m < 1 → (run T m cfg).state ≠ none := by
      intro m hm
      have : m = 0 := by omega
      subst this; exact h3
    cases hi : T q c.front with
    | undef =>
      rw [hi] at ht
      subst ht
      have hi' := hi
      rw [hf] at hi
      refine ⟨rfl, ⟨?_, hz⟩, ?_, seenExact_one hq, c.front, q, rfl, hq, hf.symm, by simp [hi']⟩
      · simp only [run_one]; rw [step_state hq, hi]; rfl
      · simp only [run_one]; rw [step_tape hq, hi, hp]; exact ⟨_, halves_move h1 1 none .R⟩
    | halt w d' =>
      rw [hi] at ht
      subst ht
      have hi' := hi
      rw [hf] at hi
      refine ⟨rfl, ⟨?_, hz⟩, ?_, seenExact_one hq, c.front, q, rfl, hq, hf.symm, by simp [hi']⟩
      · simp only [run_one]; rw [step_state hq, hi]; rfl
      · simp only [run_one]; rw [step_tape hq, hi, hp]; exact ⟨_, halves_move h1 w none d'⟩
    | go w d' q' => rw [hi] at ht; subst ht; rcases hc with hc | hc <;> cases hc

theorem simple_cond (T : Table) (a : Nat) (s : Option Nat) (d : Dir) :
    ((simple T).trans a s d).cond ≠ .infRepeat ∧ ((simple T).trans a s d).cond ≠ .gaveUp := by
  simp only [simple]
  cases s with
  | none => simp [Trans.raise]
  | some q => cases h : T q a <;> simp [h]

theorem simple_inf (T : Table) : FollowsInf T (simple T) Represents := by
  intro c cfg _ t ht hc
  exact absurd (by rw [ht]; exact hc) (simple_cond T c.front c.st c.dir).1

theorem simple_noGiveUp (T : Table) : NoGiveUp (simple T) Represents :=
  fun c _ _ => (simple_cond T c.front c.st c.dir).2

theorem simple_init (T : Table) : Represents (initDC (simple T)) Spec.init :=
  ⟨0, ⟨fun _ => rfl, fun _ => rfl⟩, rfl, by simp [Spec.init], rfl⟩

theorem halves_iff {S : Type} (c : DC Nat S) (tp : Int → Nat) (b : Int) (A B : List Nat)
    (l r : Nat → Nat) (hL : c.side .L = pre A.reverse l) (hR : c.side .R = pre B r) :
    Halves c tp b ↔
      (∀ i : Nat, l i = tp (b - A.length - 1 - i)) ∧
      (∀ i : Nat, ∀ h : i < (A ++ B).length, (A ++ B)[i] = tp (b - A.length + i)) ∧
      (∀ i : Nat, r i = tp (b - A.length + (A ++ B).length + i)) := by
  unfold Halves
  rw [hL, hR]
  constructor
  · rintro ⟨h1, h2⟩
    refine ⟨fun i => ?_, fun i h => ?_, fun i => ?_⟩
    · have := h1 (A.reverse.length + i)
      rw [pre_ge] at this
      rw [this]; congr 1; simp; omega
    · by_cases hi : i < A.length
      · rw [List.getElem_append_left hi]
        have := h1 (A.length - 1 - i)
        rw [pre_lt _ _ (by simp; omega)] at this
        rw [List.getElem_reverse] at this
        have e : A.length - 1 - (A.length - 1 - i) = i := by omega
        simp only [e] at this
        rw [this]; congr 1; omega
      · rw [List.getElem_append_right (by omega)]
        have := h2 (i - A.length)
        rw [pre_lt _ _ (by simp at h; omega)] at this
        rw [this]; congr 1; omega
    · have := h2 (B.length + i)
      rw [pre_ge] at this
      rw [this]; congr 1; simp; omega
  · rintro ⟨h1, h2, h3⟩
    constructor
    · intro i
      by_cases hi : i < A.length
      · rw [pre_lt _ _ (by simpa using hi), List.getElem_reverse]
        have := h2 (A.length - 1 - i) (by simp; omega)
        rw [List.getElem_append_left (by omega)] at this
        rw [this]; congr 1; omega
      · have := h1 (i - A.length)
        have e : i = A.reverse.length + (i - A.length) := by simp; omega
        rw [e, pre_ge, this]; congr 1; simp; omega
    · intro i
      by_cases hi : i < B.length
      · rw [pre_lt _ _ hi]
        have := h2 (A.length + i) (by simp; omega)
        rw [List.getElem_append_right (by omega)] at this
        simp only [Nat.add_sub_cancel_left] at this
        rw [this]; congr 1; omega
      · have := h3 (i - B.length)
        have e : i = B.length + (i - B.length) := by omega
        rw [e, pre_ge, this]; congr 1; simp; omega

theorem simple_shift {S : Type} (hs : S → Prop) : TShift (RepresentsTape (S := S)) hs := by
  intro c c' A B A' B' l r tp h1 h2 h3 h4 h5 _ _ h
  obtain ⟨b, hb⟩ := h
  rw [halves_iff c tp b A B l r h1 h2] at hb
  refine ⟨b - A.length + A'.length, (halves_iff c' tp _ A' B' l r h3 h4).2 ?_⟩
  have e : b - A.length + A'.length - A'.length = b - A.length := by omega
  rw [e, ← h5]
  exact hb

/-! ## Counting -/

theorem le_sum_mem {l : List Nat} {a : Nat} (h : a ∈ l) : a ≤ l.sum := by
  induction l with
  | nil => cases h
  | cons b l ih =>
    rw [List.sum_cons]
    rcases List.mem_cons.1 h with h | h
    · omega
    · have := ih h; omega

theorem cnt_zero {σ : Type} {ev : σ → Nat} {s : Nat → σ} (h : ∀ i, ev (s i) = 0) : Cnt ev s 0 :=
  ⟨0, fun i _ => h i, rfl⟩

theorem sum_range_succ_shift {σ : Type} (ev : σ → Nat) (s : Nat → σ) (N : Nat) :
    ((List.range (N + 1)).map (fun i => ev (s i))).sum =
      ev (s 0) + ((List.range N).map (fun i => ev (s (i + 1)))).sum := by
  rw [List.range_succ_eq_map, List.map_cons, List.sum_cons, List.map_map]
  rfl

theorem cnt_cons {σ : Type} {ev : σ → Nat} {s : Nat → σ} {n : Nat} (a : σ) (h : Cnt ev s n) :
    Cnt ev (cons a s) (ev a + n) := by
  obtain ⟨N, h1, h2⟩ := h
  refine ⟨N + 1, fun i hi => ?_, ?_⟩
  · cases i with
    | zero => omega
    | succ i => exact h1 i (by omega)
  · rw [sum_range_succ_shift, h2]; rfl

theorem cnt_pre {σ : Type} {ev : σ → Nat} {s : Nat → σ} {n : Nat} (l : List σ) (h : Cnt ev s n) :
    Cnt ev (pre l s) ((l.map ev).sum + n) := by
  induction l with
  | nil => simpa using h
  | cons a l ih =>
    rw [pre_cons, List.map_cons, List.sum_cons, Nat.add_assoc]
    exact cnt_cons a ih

theorem cnt_unique {σ : Type} {ev : σ → Nat} {s : Nat → σ} {n m : Nat} (h : Cnt ev s n)
    (h' : Cnt ev s m) : n = m := by
  obtain ⟨N, h1, h2⟩ := h
  obtain ⟨M, h3, h4⟩ := h'
  have key : ∀ (N M : Nat), (∀ i, N ≤ i → ev (s i) = 0) → N ≤ M →
      ((List.range M).map (fun i => ev (s i))).sum = ((List.range N).map (fun i => ev (s i))).sum := by
    intro N M hN hNM
    obtain ⟨k, rfl⟩ := Nat.exists_eq_add_of_le hNM
    clear hNM
    induction k with
    | zero => rfl
    | succ k ih =>
      rw [← Nat.add_assoc, List.range_succ, List.map_append, List.sum_append, ih]
      simp [hN (N + k) (by omega)]
  rcases Nat.le_total N M with h | h
  · rw [h2, h4, key N M h1 h]
  · rw [h2, h4, key M N h3 h]

theorem cnt_tail {σ : Type} {ev : σ → Nat} {s : Nat → σ} {n : Nat} (h : Cnt ev s n) :
    ∃ m, n = ev (s 0) + m ∧ Cnt ev (fun i => s (i + 1)) m := by
  obtain ⟨N, h1, h2⟩ := h
  refine ⟨((List.range N).map (fun i => ev (s (i + 1)))).sum, ?_, N, fun i hi => h1 _ (by omega), rfl⟩
  have : Cnt ev s n := ⟨N, h1, h2⟩
  refine cnt_unique this ⟨N + 1, fun i hi => h1 i (by omega), (sum_range_succ_shift _ _ _).symm⟩

/-- cells of a half tape -/
theorem cnt_ncard (tp : Int → Nat) (f : Nat → Int) (hf : Function.Injective f) (n : Nat)
    (h : Cnt (fun a : Nat => if a ≠ 0 then 1 else 0) (fun i => tp (f i)) n) :
    ({p : Int | ∃ i, f i = p ∧ tp p ≠ 0}).ncard = n ∧ ({p : Int | ∃ i, f i = p ∧ tp p ≠ 0}).Finite := by
  classical
  obtain ⟨N, h1, h2⟩ := h
  have e : {p : Int | ∃ i, f i = p ∧ tp p ≠ 0} =
      ((((Finset.range N).filter (fun i => tp (f i) ≠ 0)).image f : Finset Int) : Set Int) := by
    ext p
    simp only [Set.mem_ofPred_eq, Finset.coe_image, Finset.coe_filter, Finset.mem_range, Set.mem_image]
    constructor
    · rintro ⟨i, rfl, hi⟩
      refine ⟨i, ⟨?_, hi⟩, rfl⟩
      by_contra hN
      have := h1 i (by omega)
      simp [hi] at this
    · rintro ⟨i, ⟨-, hi⟩, rfl⟩
      exact ⟨i, rfl, hi⟩
  rw [e]
  refine ⟨?_, Finset.finite_toSet _⟩
  rw [Set.ncard_coe_finset, Finset.card_image_of_injective _ hf, Finset.card_filter, h2]
  clear h1 h2 e
  induction N with
  | zero => rfl
  | succ N ih =>
    rw [Finset.sum_range_succ, List.range_succ, List.map_append, List.sum_append, ih]
    simp

theorem simple_scored (T : Table) : Scored (simple T) RepresentsTape := by
  intro c tp a b h ha hb
  obtain ⟨p, hL, hR⟩ := h
  rw [show c.side .L = fun i : Nat => tp (p - 1 - i) from funext hL] at ha
  rw [show c.side .R = fun i : Nat => tp (p + i) from funext hR] at hb
  obtain ⟨a1, a2⟩ := cnt_ncard tp (fun i : Nat => p - 1 - i) (by intro i j h; simp at h; omega) a ha
  obtain ⟨b1, b2⟩ := cnt_ncard tp (fun i : Nat => p + i) (by intro i j h; simp at h; omega) b hb
  have e : {x : Int | tp x ≠ 0} = {x : Int | ∃ i : Nat, p - 1 - i = x ∧ tp x ≠ 0} ∪
      {x : Int | ∃ i : Nat, p + i = x ∧ tp x ≠ 0} := by
    ext x
    simp only [Set.mem_ofPred_eq, Set.mem_union]
    constructor
    · intro hx
      by_cases h : x < p
      · exact Or.inl ⟨(p - 1 - x).toNat, by omega, hx⟩
      · exact Or.inr ⟨(x - p).toNat, by omega, hx⟩
    · rintro (⟨_, _, h⟩ | ⟨_, _, h⟩) <;> exact h
  rw [e, Set.ncard_union_eq _ a2 b2, a1, b1]
  · rfl
  · rw [Set.disjoint_left]
    rintro x ⟨i, hi, -⟩ ⟨j, hj, -⟩
    omega

/-! ## Block machine -/

section Block
variable {σ S : Type}

theorem getD_lt (l : List σ) (a : σ) {i : Nat} (h : i < l.length) : l.getD i a = l[i] := by
  simp [List.getD, List.getElem?_eq_getElem h]

theorem flatStream_cons {k : Nat} (hk : 0 < k) (dflt : σ) (d : Dir) (x : List σ) (s : Nat → List σ)
    (hx : x.length = k) :
    flatStream k dflt d (cons x s) =
      pre (match d with | .R => x | .L => x.reverse) (flatStream k dflt d s) := by
  funext i
  by_cases hi : i < k
  · have h1 : i / k = 0 := Nat.div_eq_of_lt hi
    have h2 : i % k = i := Nat.mod_eq_of_lt hi
    cases d
    · rw [pre_lt _ _ (by simpa [hx] using hi)]
      simp only [flatStream, h1, h2, cons_zero]
      rw [getD_lt _ _ (by simpa [hx] using hi)]
    · rw [pre_lt _ _ (by simpa [hx] using hi)]
      simp only [flatStream, h1, h2, cons_zero]
      rw [getD_lt _ _ (by simpa [hx] using hi)]
  · obtain ⟨j, rfl⟩ : ∃ j, i = k + j := ⟨i - k, by omega⟩
    have h1 : (k + j) / k = j / k + 1 := by
      rw [Nat.add_div_left _ hk]
    have h2 : (k + j) % k = j % k := Nat.add_mod_left _ _
    cases d
    · have : k + j = x.reverse.length + j := by simp [hx]
      rw [this]
      simp only
      rw [pre_ge, ← this]
      simp only [flatStream, h1, h2, cons_succ]
    · have : k + j = x.length + j := by simp [hx]
      rw [this]
      simp only
      rw [pre_ge, ← this]
      simp only [flatStream, h1, h2, cons_succ]

/-- where the block machine puts the head in the block -/
def blockPos (k : Nat) (st : BSt S) (d : Dir) : Int :=
  match st with
  | .offset _ off => off
  | .plain _ => match d with | .R => 0 | .L => (k : Int) - 1

theorem blockFlat_window {k : Nat} (hk : 0 < k) (dflt : σ) (c : DC (List σ) (BSt S))
    (hv : blockValid k c) :
    blockFlat k dflt c = window c.front (blockPos k c.st c.dir) c.dir c.st.base
      (flatStream k dflt .L (DC.rest c .L)) (flatStream k dflt .R (DC.rest c .R)) := by
  obtain ⟨st, d, side⟩ := c
  cases st with
  | offset s off => rfl
  | plain s =>
    have hl : ∀ d', (side d' 0).length = k := fun d' => hv.1 d' 0
    simp only [blockFlat, BSt.base, blockPos]
    ext1
    · rfl
    · rfl
    · rename_i e
      have hc := flatStream_cons hk dflt e (side e 0) (fun i => side e (i + 1)) (hl e)
      rw [cons_eta] at hc
      cases d <;> cases e
      · have : ((k : Int) - 1 + 1).toNat = k := by omega
        simp only [flatten, window, this, DC.front]
        rw [hc, List.take_of_length_le (by rw [hl])]
        rfl
      · have : ((k : Int) - 1 + 1).toNat = k := by omega
        simp only [flatten, window, this, DC.front]
        rw [List.drop_of_length_le (by rw [hl])]
        rfl
      · simp [flatten, window, DC.rest]
      · simp only [flatten, window, DC.front, Int.toNat_zero, List.drop_zero]
        rw [hc]
        rfl

theorem take_rest (c : DC σ S) (sym : σ) (st : S) (d' d : Dir) :
    (c.move sym st d').side d = if d = d'.other then cons sym (DC.rest c d) else DC.rest c d := rfl

theorem blockFlat_take {k : Nat} (hk : 0 < k) (dflt : σ) (c : DC (List σ) (BSt S)) (sym : List σ) (s : S)
    (d : Dir) (hs : sym.length = k) :
    blockFlat k dflt (c.move sym (.plain s) d) =
      window sym (match d with | .R => (k : Int) | .L => -1) d s
        (flatStream k dflt .L (DC.rest c .L)) (flatStream k dflt .R (DC.rest c .R)) := by
  have h0 : blockFlat k dflt (c.move sym (.plain s) d) = flatten k dflt s (c.move sym (.plain s) d) := rfl
  rw [h0]
  ext1
  · rfl
  · rfl
  · rename_i e
    simp only [flatten, take_rest]
    cases d <;> cases e
    · simp [Dir.other, window]
    · simp only [Dir.other, if_true]
      rw [flatStream_cons hk dflt .R sym _ hs]
      simp [window]
    · simp only [Dir.other, if_true]
      rw [flatStream_cons hk dflt .L sym _ hs]
      have : ((k : Int)).toNat = sym.length := by omega
      simp only [window, this, List.take_length]
    · have : ((k : Int)).toNat = sym.length := by omega
      simp [Dir.other, window, this]

theorem blockValid_take {k : Nat} {c : DC (List σ) (BSt S)} (hv : blockValid k c) {sym : List σ} {s : S}
    {d : Dir} (hs : sym.length = k) : blockValid k (c.move sym (.plain s) d) := by
  refine ⟨fun e i => ?_, fun s off h => by cases h⟩
  rw [take_rest]
  have hr : ∀ e i, (DC.rest c e i).length = k := by
    intro e i
    unfold DC.rest
    split <;> exact hv.1 _ _
  split
  · cases i with
    | zero => exact hs
    | succ i => exact hr e i
  · exact hr e i

def blockDen (k : Nat) (dflt : σ) (Den : DC σ S → Config → Prop) (c : DC (List σ) (BSt S))
    (cfg : Config) : Prop := blockValid k c ∧ Den (blockFlat k dflt c) cfg

def blockTDen (k : Nat) (dflt : σ) (TDen : DC σ S → (Int → Nat) → Prop) (c : DC (List σ) (BSt S))
    (tp : Int → Nat) : Prop := blockValid k c ∧ TDen (blockFlat k dflt c) tp

def blockHs (hs : S → Prop) : BSt S → Prop
  | .plain s => hs s
  | .offset _ _ => False

variable [DecidableEq σ] [DecidableEq S]

theorem block_trans (M : Machine σ S) (k off maxSim : Nat) (sym : List σ) (st : BSt S) (d : Dir) :
    (block M k off maxSim).trans sym st d =
      (simLimited M st.base sym (blockPos k st d) d maxSim).mapSt .plain := by
  cases st with
  | offset s o => rfl
  | plain s => cases d <;> rfl

omit [DecidableEq σ] [DecidableEq S] in
theorem blockPos_range {k : Nat} (hk : 0 < k) {c : DC (List σ) (BSt S)} (hv : blockValid k c) :
    0 ≤ blockPos k c.st c.dir ∧ blockPos k c.st c.dir < k := by
  cases hst : c.st with
  | offset s off =>
    have := hv.2 s off hst
    simp only [blockPos]; omega
  | plain s => cases c.dir <;> simp only [blockPos] <;> omega

theorem block_spec {T : Table} {M : Machine σ S} {Den TDen hs} (F : Follows T M Den TDen hs)
    {k : Nat} (hk : 0 < k) (maxSim : Nat) (dflt : σ) {c : DC (List σ) (BSt S)} {cfg : Config}
    (h : blockDen k dflt Den c cfg) :
    LimSpec T M Den TDen hs k (flatStream k dflt .L (DC.rest c .L)) (flatStream k dflt .R (DC.rest c .R))
      cfg (simLimited M c.st.base c.front (blockPos k c.st c.dir) c.dir maxSim) := by
  obtain ⟨hv, hd⟩ := h
  have hr := blockPos_range hk hv
  have hl : c.front.length = k := hv.1 _ _
  rw [blockFlat_window hk dflt c hv] at hd
  have := simLimited_spec F c.st.base c.front (blockPos k c.st c.dir) c.dir maxSim hr.1
    (by rw [hl]; exact hr.2) hd
  rwa [hl] at this

theorem block_follows {T : Table} {M : Machine σ S} {Den TDen hs} (F : Follows T M Den TDen hs)
    (TS : TShift TDen hs) {k : Nat} (hk : 0 < k) (off maxSim : Nat) (dflt : σ) :
    Follows T (block M k off maxSim) (blockDen k dflt Den) (blockTDen k dflt TDen) (blockHs hs) where
  live c cfg h := by
    refine ⟨(F.live _ _ h.2).1, ?_⟩
    have := (F.live _ _ h.2).2
    cases hst : c.st with
    | offset s o => exact id
    | plain s =>
      have e : (blockFlat k dflt c).st = s := by unfold blockFlat; rw [hst]; rfl
      rw [e] at this
      exact this
  safe c cfg h := by
    rw [block_trans]
    obtain ⟨hv, hd⟩ := h
    have hr := blockPos_range hk hv
    have hl : c.front.length = k := hv.1 _ _
    rw [blockFlat_window hk dflt c hv] at hd
    exact simLimited_safe F c.st.base c.front (blockPos k c.st c.dir) c.dir maxSim hr.1
      (by rw [hl]; exact hr.2) hd
  run c cfg h t ht hc := by
    have L := block_spec F hk maxSim dflt h
    rw [block_trans] at ht
    generalize simLimited M c.st.base c.front (blockPos k c.st c.dir) c.dir maxSim = t0 at L ht
    subst ht
    have hc : t0.cond = .running := hc
    have hlen := L.length (by rw [hc]; simp)
    obtain ⟨h1, h2, h3⟩ := L.run hc
    refine ⟨h1, ⟨blockValid_take h.1 hlen, ?_⟩, h3⟩
    show Den (blockFlat k dflt (c.move t0.sym (.plain t0.st) t0.dir)) _
    rw [blockFlat_take hk dflt c _ _ _ hlen]
    exact h2
  halt c cfg h t ht hc := by
    have L := block_spec F hk maxSim dflt h
    rw [block_trans] at ht
    generalize simLimited M c.st.base c.front (blockPos k c.st c.dir) c.dir maxSim = t0 at L ht
    subst ht
    have hc : t0.cond = .halt ∨ t0.cond = .undefined := hc
    have hlen := L.length (by rcases hc with hc | hc <;> rw [hc] <;> simp)
    obtain ⟨h1, h2, ⟨p, hp1, hp2, h3⟩, h4, h5⟩ := L.halt hc
    refine ⟨h1, h2, ⟨blockValid_take h.1 hlen, ?_⟩, h4, h5⟩
    show TDen (blockFlat k dflt (c.move t0.sym (.plain t0.st) t0.dir)) _
    rw [blockFlat_take hk dflt c _ _ _ hlen]
    exact TS _ _ _ _ _ _ _ _ _ rfl rfl rfl rfl (by simp) h1 h1 h3

theorem block_inf {T : Table} {M : Machine σ S} {Den TDen hs} (F : Follows T M Den TDen hs)
    (NG : NoGiveUp M Den) (FI : FollowsInf T M Den)
    {k : Nat} (hk : 0 < k) (off maxSim : Nat) (dflt : σ) :
    FollowsInf T (block M k off maxSim) (blockDen k dflt Den) := by
  intro c cfg h t ht hc
  have L := block_spec F hk maxSim dflt h
  rw [block_trans] at ht
  subst ht
  exact L.inf NG FI hc

theorem block_init {M : Machine σ S} {Den : DC σ S → Config → Prop}
    (h : Den (initDC M) Spec.init) {k off maxSim : Nat} (hk : 0 < k) (hoff : off < k) :
    blockDen k M.initSym Den (initDC (block M k off maxSim)) Spec.init := by
  have hv : blockValid k (initDC (block M k off maxSim)) := by
    refine ⟨fun d i => ?_, fun s o ho => ?_⟩
    · simp [initDC, block]
    · simp only [initDC, block] at ho
      split at ho
      · cases ho; exact hoff
      · cases ho
  refine ⟨hv, ?_⟩
  rw [blockFlat_window hk _ _ hv]
  have hflat : ∀ d, flatStream k M.initSym d (DC.rest (initDC (block M k off maxSim)) d) =
      fun _ => M.initSym := by
    intro d
    funext i
    have hr : DC.rest (initDC (block M k off maxSim)) d = fun _ => List.replicate k M.initSym := by
      unfold DC.rest; split <;> rfl
    rw [hr]
    have : i % k < k := Nat.mod_lt _ hk
    cases d <;> simp [flatStream, List.getD, this]
  have hpre : ∀ (n : Nat), pre (List.replicate n M.initSym) (fun _ => M.initSym) =
      fun _ => M.initSym := by
    intro n
    induction n with
    | zero => rfl
    | succ n ih => rw [List.replicate_succ, pre_cons, ih]; funext i; cases i <;> rfl
  have e : window (initDC (block M k off maxSim)).front
      (blockPos k (initDC (block M k off maxSim)).st (initDC (block M k off maxSim)).dir)
      (initDC (block M k off maxSim)).dir (initDC (block M k off maxSim)).st.base
      (flatStream k M.initSym .L (DC.rest (initDC (block M k off maxSim)) .L))
      (flatStream k M.initSym .R (DC.rest (initDC (block M k off maxSim)) .R)) = initDC M := by
    rw [hflat, hflat]
    have hfr : (initDC (block M k off maxSim)).front = List.replicate k M.initSym := rfl
    ext1
    · show ((block M k off maxSim).initSt).base = M.initSt
      simp only [block]
      split <;> rfl
    · rfl
    · rename_i d
      rw [hfr]
      cases d
      · simp only [window, List.take_replicate, List.reverse_replicate, hpre]; rfl
      · simp only [window, List.drop_replicate, hpre]; rfl
  rw [e]
  exact h

omit [DecidableEq σ] [DecidableEq S] in
theorem flatStream_pre {k : Nat} (hk : 0 < k) (dflt : σ) (d : Dir) (l : List (List σ))
    (s : Nat → List σ) (hl : ∀ x ∈ l, x.length = k) :
    flatStream k dflt d (pre l s) =
      pre (l.flatMap (fun x => match d with | .R => x | .L => x.reverse)) (flatStream k dflt d s) := by
  induction l with
  | nil => rfl
  | cons x l ih =>
    rw [pre_cons, flatStream_cons hk _ _ _ _ (hl x (by simp)), ih (fun y hy => hl y (by simp [hy])),
      List.flatMap_cons, pre_append]

omit [DecidableEq σ] [DecidableEq S] in
theorem mem_of_pre {s t : Nat → List σ} {l : List (List σ)} {k : Nat} (hs : s = pre l t)
    (h : ∀ i, (s i).length = k) : (∀ x ∈ l, x.length = k) ∧ ∀ i, (t i).length = k := by
  subst hs
  constructor
  · intro x hx
    obtain ⟨i, hi, rfl⟩ := List.getElem_of_mem hx
    have := h i
    rwa [pre_lt _ _ hi] at this
  · intro i
    have := h (l.length + i)
    rwa [pre_ge] at this

omit [DecidableEq σ] [DecidableEq S] in
theorem pre_valid {t : Nat → List σ} {l : List (List σ)} {k : Nat} (h1 : ∀ x ∈ l, x.length = k)
    (h2 : ∀ i, (t i).length = k) (i : Nat) : (pre l t i).length = k := by
  by_cases hi : i < l.length
  · rw [pre_lt _ _ hi]; exact h1 _ (List.getElem_mem _)
  · have e : i = l.length + (i - l.length) := by omega
    rw [e, pre_ge]; exact h2 _

omit [DecidableEq σ] [DecidableEq S] in
theorem flatMap_reverse_reverse (A : List (List σ)) :
    A.reverse.flatMap List.reverse = A.flatten.reverse := by
  induction A with
  | nil => rfl
  | cons a A ih =>
    rw [List.reverse_cons, List.flatMap_append, ih]; simp

omit [DecidableEq σ] [DecidableEq S] in
theorem block_shift {TDen : DC σ S → (Int → Nat) → Prop} {hs : S → Prop} (TS : TShift TDen hs)
    {k : Nat} (hk : 0 < k) (dflt : σ) : TShift (blockTDen k dflt TDen) (blockHs hs) := by
  intro c c' A B A' B' l r tp h1 h2 h3 h4 h5 hh hh' ht
  obtain ⟨hv, hT⟩ := ht
  obtain ⟨a1, a2⟩ := mem_of_pre h1 (hv.1 .L)
  obtain ⟨b1, b2⟩ := mem_of_pre h2 (hv.1 .R)
  have hAB : ∀ x ∈ A ++ B, x.length = k := by
    intro x hx
    rw [List.mem_append] at hx
    rcases hx with hx | hx
    · exact a1 x (by simpa using hx)
    · exact b1 x hx
  rw [h5] at hAB
  have a1' : ∀ x ∈ A'.reverse, x.length = k := fun x hx =>
    hAB x (List.mem_append.2 (Or.inl (by simpa using hx)))
  have b1' : ∀ x ∈ B', x.length = k := fun x hx => hAB x (List.mem_append.2 (Or.inr hx))
  cases hst : c.st with
  | offset s o => rw [hst] at hh; exact hh.elim
  | plain s =>
    cases hst' : c'.st with
    | offset s' o => rw [hst'] at hh'; exact hh'.elim
    | plain s' =>
      rw [hst] at hh
      rw [hst'] at hh'
      refine ⟨⟨fun d i => ?_, fun s o ho => by rw [hst'] at ho; cases ho⟩, ?_⟩
      · cases d
        · rw [h3]; exact pre_valid a1' a2 i
        · rw [h4]; exact pre_valid b1' b2 i
      · have e : blockFlat k dflt c = flatten k dflt s c := by unfold blockFlat; rw [hst]
        have e' : blockFlat k dflt c' = flatten k dflt s' c' := by unfold blockFlat; rw [hst']
        rw [e] at hT
        rw [e']
        refine TS (flatten k dflt s c) (flatten k dflt s' c') A.flatten B.flatten A'.flatten B'.flatten (flatStream k dflt .L l)
          (flatStream k dflt .R r) tp ?_ ?_ ?_ ?_ ?_ hh hh' hT
        · show flatStream k dflt .L (c.side .L) = _
          rw [h1, flatStream_pre hk _ _ _ _ a1]
          show pre (A.reverse.flatMap List.reverse) _ = _
          rw [flatMap_reverse_reverse]
        · show flatStream k dflt .R (c.side .R) = _
          rw [h2, flatStream_pre hk _ _ _ _ b1]
          simp [List.flatMap]
        · show flatStream k dflt .L (c'.side .L) = _
          rw [h3, flatStream_pre hk _ _ _ _ a1']
          show pre (A'.reverse.flatMap List.reverse) _ = _
          rw [flatMap_reverse_reverse]
        · show flatStream k dflt .R (c'.side .R) = _
          rw [h4, flatStream_pre hk _ _ _ _ b1']
          simp [List.flatMap]
        · rw [← List.flatten_append, ← List.flatten_append, h5]

omit [DecidableEq σ] [DecidableEq S] in
theorem cnt_flat (ev : σ → Nat) {k : Nat} (hk : 0 < k) (dflt : σ) (d : Dir) (s : Nat → List σ)
    (hs : ∀ i, (s i).length = k) {n : Nat} (h : Cnt (fun x : List σ => (x.map ev).sum) s n) :
    Cnt ev (flatStream k dflt d s) n := by
  obtain ⟨N, h1, h2⟩ := h
  induction N generalizing s n with
  | zero =>
    subst h2
    refine cnt_zero fun i => ?_
    have hz := h1 (i / k) (Nat.zero_le _)
    have hm : i % k < k := Nat.mod_lt _ hk
    have hall : ∀ y ∈ s (i / k), ev y = 0 := by
      intro y hy
      have hle := le_sum_mem (List.mem_map.2 ⟨y, hy, rfl⟩ : ev y ∈ (s (i / k)).map ev)
      have hz : ((s (i / k)).map ev).sum = 0 := hz
      omega
    cases d
    · simp only [flatStream]
      rw [getD_lt _ _ (by rw [List.length_reverse, hs]; exact hm)]
      exact hall _ (by rw [← List.mem_reverse]; exact List.getElem_mem _)
    · simp only [flatStream]
      rw [getD_lt _ _ (by rw [hs]; exact hm)]
      exact hall _ (List.getElem_mem _)
  | succ N ih =>
    have := ih (fun i => s (i + 1)) (fun i => hs _) (fun i hi => h1 _ (by omega)) rfl
    rw [sum_range_succ_shift (fun x : List σ => (x.map ev).sum)] at h2
    have hc := flatStream_cons hk dflt d (s 0) (fun i => s (i + 1)) (hs 0)
    rw [cons_eta] at hc
    rw [hc, h2]
    cases d
    · have hp := cnt_pre (s 0).reverse this
      rw [List.map_reverse, List.sum_reverse] at hp
      exact hp
    · exact cnt_pre (s 0) this

theorem block_scored {M : Machine σ S} {TDen : DC σ S → (Int → Nat) → Prop} (SC : Scored M TDen)
    {k : Nat} (hk : 0 < k) (off maxSim : Nat) (dflt : σ) :
    Scored (block M k off maxSim) (blockTDen k dflt TDen) := by
  rintro ⟨st, d, side⟩ tp a b ⟨hv, hT⟩ ha hb
  cases st with
  | plain s =>
    have e : blockFlat k dflt ⟨.plain s, d, side⟩ = flatten k dflt s (⟨.plain s, d, side⟩ : DC (List σ) (BSt S)) := rfl
    rw [e] at hT
    rw [SC _ tp a b hT (cnt_flat M.evalSym hk dflt .L _ (hv.1 .L) ha)
      (cnt_flat M.evalSym hk dflt .R _ (hv.1 .R) hb)]
    rfl
  | offset s o =>
    have hrl : ∀ e i, (DC.rest (⟨.offset s o, d, side⟩ : DC (List σ) (BSt S)) e i).length = k := by
      intro e i; unfold DC.rest; split <;> exact hv.1 _ _
    have hsum : ∀ n : Nat, ((side d 0).map M.evalSym).sum =
        (((side d 0).take n).reverse.map M.evalSym).sum + (((side d 0).drop n).map M.evalSym).sum := by
      intro n
      rw [List.map_reverse, List.sum_reverse, ← List.sum_append, ← List.map_append,
        List.take_append_drop]
    cases d
    · obtain ⟨m, rfl, hm⟩ := cnt_tail ha
      have hm' := cnt_flat M.evalSym hk dflt .L _ (hrl .L) hm
      have hb' := cnt_flat M.evalSym hk dflt .R _ (hrl .R) hb
      rw [SC _ tp _ _ hT (cnt_pre _ hm') (cnt_pre _ hb')]
      have h := hsum ((o : Int) + 1).toNat
      show _ = ((side .L 0).map M.evalSym).sum + m + b + M.evalSt s
      rw [h]
      show _ + _ + M.evalSt s = _
      simp only [DC.front]
      omega
    · obtain ⟨m, rfl, hm⟩ := cnt_tail hb
      have hm' := cnt_flat M.evalSym hk dflt .R _ (hrl .R) hm
      have ha' := cnt_flat M.evalSym hk dflt .L _ (hrl .L) ha
      rw [SC _ tp _ _ hT (cnt_pre _ ha') (cnt_pre _ hm')]
      have h := hsum (o : Int).toNat
      show _ = a + (((side .R 0).map M.evalSym).sum + m) + M.evalSt s
      rw [h]
      show _ + _ + M.evalSt s = _
      simp only [DC.front]
      omega

end Block

/-! ## Back-symbol machine -/

section Back
variable {σ S : Type}

def backDen (Den : DC σ S → Config → Prop) (c : DC σ (S × σ)) (cfg : Config) : Prop :=
  Den (backFlat c) cfg

def backTDen (TDen : DC σ S → (Int → Nat) → Prop) (c : DC σ (S × σ)) (tp : Int → Nat) : Prop :=
  TDen (backFlat c) tp

def backHs (hs : S → Prop) (s : S × σ) : Prop := hs s.1

/-- the two symbols given to `sim_limited`, and the position -/
def backSeg (sym b : σ) : Dir → List σ × Int
  | .R => ([b, sym], 1)
  | .L => ([sym, b], 0)

theorem backFlat_window (c : DC σ (S × σ)) :
    backFlat c = window (backSeg c.front c.st.2 c.dir).1 (backSeg c.front c.st.2 c.dir).2 c.dir c.st.1
      (DC.rest c .L) (DC.rest c .R) := by
  obtain ⟨⟨s, b⟩, d, side⟩ := c
  ext1
  · rfl
  · rfl
  · rename_i e
    cases d <;> cases e
    · show side .L = _
      exact (cons_eta (side .L)).symm
    · rfl
    · rfl
    · show side .R = _
      exact (cons_eta (side .R)).symm

theorem backFlat_take_R (c : DC σ (S × σ)) (x y : σ) (s : S) :
    backFlat (c.move x (s, y) .R) = window [x, y] 2 .R s (DC.rest c .L) (DC.rest c .R) := by
  ext1
  · rfl
  · rfl
  · rename_i e; cases e <;> rfl

theorem backFlat_take_L (c : DC σ (S × σ)) (x y : σ) (s : S) :
    backFlat (c.move y (s, x) .L) = window [x, y] (-1) .L s (DC.rest c .L) (DC.rest c .R) := by
  ext1
  · rfl
  · rfl
  · rename_i e; cases e <;> rfl

variable [DecidableEq σ] [DecidableEq S]

/-- what the back-symbol machine makes of the result of `sim_limited` -/
def backOut (t : Trans (List σ) S) (x y : σ) : Trans σ (S × σ) :=
  match t.dir with
  | .R => { cond := t.cond, sym := x, st := (t.st, y), dir := t.dir, steps := t.steps
            seen := t.seen, cell := t.cell }
  | .L => { cond := t.cond, sym := y, st := (t.st, x), dir := t.dir, steps := t.steps
            seen := t.seen, cell := t.cell }

theorem back_spec {T : Table} {M : Machine σ S} {Den TDen hs} (F : Follows T M Den TDen hs)
    (maxSim : Nat) {c : DC σ (S × σ)} {cfg : Config} (h : backDen Den c cfg) {t : Trans σ (S × σ)}
    (ht : (back M maxSim).trans c.front c.st c.dir = t) :
    ∃ t0 x y, t0.sym = [x, y] ∧ t = backOut t0 x y ∧
      LimSpec T M Den TDen hs 2 (DC.rest c .L) (DC.rest c .R) cfg t0 ∧ t0.cond ≠ .raised := by
  unfold backDen at h
  rw [backFlat_window] at h
  have hlen : (backSeg c.front c.st.2 c.dir).1.length = 2 := by cases c.dir <;> rfl
  have hr : 0 ≤ (backSeg c.front c.st.2 c.dir).2 ∧ (backSeg c.front c.st.2 c.dir).2 < 2 := by
    cases c.dir <;> simp [backSeg]
  have L := simLimited_spec F c.st.1 _ _ c.dir maxSim hr.1 (by rw [hlen]; exact hr.2) h
  have hsafe := simLimited_safe F c.st.1 _ _ c.dir maxSim hr.1 (by rw [hlen]; exact hr.2) h
  rw [hlen] at L
  have ht' : (match (simLimited M c.st.1 (backSeg c.front c.st.2 c.dir).1
      (backSeg c.front c.st.2 c.dir).2 c.dir maxSim).sym with
    | [x, y] => backOut (simLimited M c.st.1 (backSeg c.front c.st.2 c.dir).1
      (backSeg c.front c.st.2 c.dir).2 c.dir maxSim) x y
    | _ => Trans.raise c.front c.st c.dir) = t := by
    rw [← ht]
    cases hd : c.dir <;> rfl
  generalize simLimited M c.st.1 (backSeg c.front c.st.2 c.dir).1
    (backSeg c.front c.st.2 c.dir).2 c.dir maxSim = t0 at L ht' hsafe
  have h2 := L.length hsafe
  obtain ⟨x, y, hxy⟩ := List.length_eq_two.1 h2
  rw [hxy] at ht'
  exact ⟨t0, x, y, hxy, ht'.symm, L, hsafe⟩

omit [DecidableEq σ] [DecidableEq S] in
theorem backOut_fields (t : Trans (List σ) S) (x y : σ) :
    (backOut t x y).cond = t.cond ∧ (backOut t x y).steps = t.steps ∧ (backOut t x y).seen = t.seen ∧
    (backOut t x y).cell = t.cell ∧ (backOut t x y).st.1 = t.st := by
  unfold backOut
  cases t.dir <;> exact ⟨rfl, rfl, rfl, rfl, rfl⟩

omit [DecidableEq σ] [DecidableEq S] in
theorem backFlat_take (c : DC σ (S × σ)) (t : Trans (List σ) S) (x y : σ) (h : t.sym = [x, y]) :
    backFlat (c.take (backOut t x y)) =
      window t.sym (match t.dir with | .R => ((2 : Nat) : Int) | .L => -1) t.dir t.st
        (DC.rest c .L) (DC.rest c .R) := by
  rw [h]
  obtain ⟨cond, sym, st, dir, steps, seen, cell⟩ := t
  cases dir
  · exact backFlat_take_L c x y st
  · exact backFlat_take_R c x y st

theorem back_follows {T : Table} {M : Machine σ S} {Den TDen hs} (F : Follows T M Den TDen hs)
    (TS : TShift TDen hs) (maxSim : Nat) :
    Follows T (back M maxSim) (backDen Den) (backTDen TDen) (backHs hs) where
  live c cfg h := F.live _ _ h
  safe c cfg h := by
    obtain ⟨t0, x, y, hxy, ht, -, hs⟩ := back_spec F maxSim h rfl
    rw [ht, (backOut_fields t0 x y).1]
    exact hs
  run c cfg h t ht hc := by
    obtain ⟨t0, x, y, hxy, rfl, L, -⟩ := back_spec F maxSim h ht
    · obtain ⟨e1, e2, e3, e4, e5⟩ := backOut_fields t0 x y
      rw [e1] at hc
      rw [e2, e3]
      obtain ⟨h1, h2, h3⟩ := L.run hc
      refine ⟨h1, ?_, h3⟩
      unfold backDen
      rw [backFlat_take c t0 x y hxy]
      exact h2
  halt c cfg h t ht hc := by
    obtain ⟨t0, x, y, hxy, rfl, L, -⟩ := back_spec F maxSim h ht
    · obtain ⟨e1, e2, e3, e4, e5⟩ := backOut_fields t0 x y
      rw [e1] at hc
      rw [e1, e2, e3, e4]
      unfold backHs backTDen
      rw [e5]
      obtain ⟨h1, h2, ⟨p, hp1, hp2, h3⟩, h4, h5⟩ := L.halt hc
      refine ⟨h1, h2, ?_, h4, h5⟩
      rw [backFlat_take c t0 x y hxy]
      exact TS _ _ _ _ _ _ _ _ _ rfl rfl rfl rfl (by simp) h1 h1 h3

theorem back_inf {T : Table} {M : Machine σ S} {Den TDen hs} (F : Follows T M Den TDen hs)
    (NG : NoGiveUp M Den) (FI : FollowsInf T M Den) (maxSim : Nat) :
    FollowsInf T (back M maxSim) (backDen Den) := by
  intro c cfg h t ht hc
  obtain ⟨t0, x, y, hxy, rfl, L, -⟩ := back_spec F maxSim h ht
  · obtain ⟨e1, e2, e3, e4, e5⟩ := backOut_fields t0 x y
    rw [e1] at hc
    rw [e3]
    exact L.inf NG FI hc

theorem back_init {M : Machine σ S} {Den : DC σ S → Config → Prop}
    (h : Den (initDC M) Spec.init) (maxSim : Nat) :
    backDen Den (initDC (back M maxSim)) Spec.init := by
  unfold backDen
  have e : backFlat (initDC (back M maxSim)) = initDC M := by
    ext1
    · rfl
    · rfl
    · rename_i d
      funext i
      show (if d = M.initDir then (fun _ => M.initSym) else cons M.initSym (fun _ => M.initSym)) i = M.initSym
      split
      · rfl
      · cases i <;> rfl
  rw [e]; exact h

theorem back_scored {M : Machine σ S} {TDen : DC σ S → (Int → Nat) → Prop} (SC : Scored M TDen)
    (maxSim : Nat) : Scored (back M maxSim) (backTDen TDen) := by
  rintro ⟨⟨s, x⟩, d, side⟩ tp a b h ha hb
  cases d
  · have := SC _ tp a (M.evalSym x + b) h ha (cnt_cons x hb)
    rw [this]
    show a + (M.evalSym x + b) + M.evalSt s = a + b + (M.evalSt s + M.evalSym x)
    omega
  · have := SC _ tp (M.evalSym x + a) b h (cnt_cons x ha) hb
    rw [this]
    show M.evalSym x + a + b + M.evalSt s = a + b + (M.evalSt s + M.evalSym x)
    omega

end Back

end Model
