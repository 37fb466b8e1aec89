import Verif.Spec.Limited
import Verif.Lemmas.ProverGen

/-! # The part of the tape touched in a proof -/

namespace Model.Prover
open Spec Model Model.Expr
variable {σ S ν : Type}

/-! ## Blocks on top of others -/

theorem unrollOn_append (rest : Nat → σ) : ∀ P U : List (Blk σ Nat), unrollOn rest (P ++ U) = unrollOn (unrollOn rest U) P
  | [], _ => rfl
  | ⟨a, none⟩ :: P, U => rfl
  | ⟨a, some n⟩ :: P, U => by
    show pre _ (unrollOn rest (P ++ U)) = pre _ _
    rw [unrollOn_append rest P U]

theorem unroll_eq_on (z : σ) : ∀ h : List (Blk σ Nat), unroll z h = unrollOn (fun _ => z) h
  | [] => rfl
  | ⟨a, none⟩ :: _ => rfl
  | ⟨a, some n⟩ :: h => by
    show pre _ (unroll z h) = pre _ _
    rw [unroll_eq_on z h]

/-- one symbol less -/
def zpop (N : NumOps ν) : List (Blk σ ν) → List (Blk σ ν)
  | [] => []
  | b :: rest =>
    match b.num with
    | none => b :: rest
    | some n => if N.isZero (N.sub n (N.ofNat 1)) then rest else ⟨b.sym, some (N.sub n (N.ofNat 1))⟩ :: rest

/-- some symbols more -/
def zpush [DecidableEq σ] (N : NumOps ν) (sym : σ) (v : ν) : List (Blk σ ν) → List (Blk σ ν)
  | [] => [⟨sym, some v⟩]
  | top :: rest =>
    if top.sym = sym then
      match top.num with
      | none => top :: rest
      | some n => ⟨top.sym, some (N.add n v)⟩ :: rest
    else ⟨sym, some v⟩ :: top :: rest

theorem pop_split (N : NumOps ν) {P : List (Blk σ ν)} (U : List (Blk σ ν)) (h : P ≠ []) :
    ChainTape.popOne N (P ++ U) = some (zpop N P ++ U) := by
  cases P with
  | nil => exact absurd rfl h
  | cons b rest =>
    obtain ⟨a, num⟩ := b
    cases num with
    | none => rfl
    | some n =>
      simp only [List.cons_append, ChainTape.popOne, zpop]
      split <;> rfl

theorem zpush_ne [DecidableEq σ] (N : NumOps ν) (sym : σ) (v : ν) (P : List (Blk σ ν)) : zpush N sym v P ≠ [] := by
  cases P with
  | nil => simp [zpush]
  | cons b rest =>
    obtain ⟨a, num⟩ := b
    simp only [zpush]
    by_cases ha : a = sym
    · rw [if_pos ha]; cases num <;> simp
    · rw [if_neg ha]; simp

theorem push_split [DecidableEq σ] (N : NumOps ν) (sym : σ) (v : ν) (P U h : List (Blk σ ν))
    (hp : ChainTape.push N sym v (P ++ U) = some h) : h = zpush N sym v P ++ U ∨ P = [] ∧ h.length = U.length ∧
      ∃ b r, U = b :: r ∧ b.sym = sym := by
  cases P with
  | nil =>
    cases U with
    | nil => cases hp
    | cons b r =>
      obtain ⟨a, num⟩ := b
      simp only [List.nil_append, ChainTape.push] at hp
      by_cases ha : a = sym
      · rw [if_pos ha] at hp
        right
        refine ⟨rfl, ?_, _, _, rfl, ha⟩
        cases num with
        | none => cases hp; rfl
        | some n => cases hp; rfl
      · rw [if_neg ha] at hp
        cases hp
        exact Or.inl rfl
  | cons b r =>
    left
    obtain ⟨a, num⟩ := b
    simp only [List.cons_append, ChainTape.push] at hp
    unfold zpush
    by_cases ha : a = sym
    · simp only [if_pos ha] at hp ⊢
      cases num with
      | none => cases hp; rfl
      | some n => cases hp; rfl
    · simp only [if_neg ha] at hp ⊢
      cases hp; rfl

theorem zpop_unroll (rest : Nat → σ) {P : List (Blk σ Nat)} (hP : P ≠ []) (hp : ∀ b ∈ P, ∀ n, b.num = some n → 0 < n) :
    unrollOn rest (zpop natOps P) = fun i => unrollOn rest P (i + 1) := by
  cases P with
  | nil => exact absurd rfl hP
  | cons b r =>
    obtain ⟨a, num⟩ := b
    cases num with
    | none => rfl
    | some n =>
      have hn := hp ⟨a, some n⟩ (by simp) n rfl
      obtain ⟨m, rfl⟩ : ∃ m, n = m + 1 := ⟨n - 1, by omega⟩
      cases m with
      | zero => rfl
      | succ m => rfl

theorem zpush_unroll [DecidableEq σ] (rest : Nat → σ) (sym : σ) (n : Nat) (P : List (Blk σ Nat)) :
    unrollOn rest (zpush natOps sym n P) = pre (List.replicate n sym) (unrollOn rest P) := by
  cases P with
  | nil => rfl
  | cons b r =>
    obtain ⟨a, num⟩ := b
    unfold zpush
    by_cases ha : a = sym
    · subst ha
      simp only [if_true]
      cases num with
      | none => exact (replicate_const a n).symm
      | some m =>
        show pre (List.replicate (m + n) a) _ = pre _ (pre (List.replicate m a) _)
        rw [Nat.add_comm, ← List.replicate_append_replicate, pre_append]
    · simp only [if_neg ha]; rfl

/-! ## The `id`s -/

theorem sides_set_same {α : Type} (s : Sides α) (d : Dir) (a : α) : (s.set d a).get d = a := by cases d <;> rfl
theorem sides_set_other {α : Type} (s : Sides α) {d e : Dir} (a : α) (h : e ≠ d) : (s.set d a).get e = s.get e := by
  cases d <;> cases e <;> first | rfl | exact absurd rfl h

/-- The `id`s of a half tape `P ++ U`: those of `U` are above `e`. -/
def IdsHalf (e p u : Nat) (ids : List (Option Nat)) : Prop :=
  ∃ A B, ids = A ++ B ∧ A.length = p ∧ B.length = u ∧ ∀ x ∈ B, ∃ i, x = some i ∧ e < i

theorem popIds_split (N : NumOps ν) {e : Nat} {P U : List (Blk σ ν)} {ids} (hP : P ≠ []) (h : IdsHalf e P.length U.length ids) :
    IdsHalf e (zpop N P).length U.length (popIds N (P ++ U) ids) := by
  obtain ⟨A, B, rfl, hA, hB, he⟩ := h
  cases P with
  | nil => exact absurd rfl hP
  | cons b r =>
    obtain ⟨a, num⟩ := b
    cases num with
    | none => exact ⟨A, B, rfl, hA, hB, he⟩
    | some n =>
      simp only [List.cons_append, popIds, zpop]
      by_cases hz : N.isZero (N.sub n (N.ofNat 1)) = true
      · rw [if_pos hz, if_pos hz]
        cases A with
        | nil => simp at hA
        | cons x A => exact ⟨A, B, rfl, by simpa using hA, hB, he⟩
      · rw [if_neg hz, if_neg hz]
        exact ⟨A, B, rfl, by simpa using hA, hB, he⟩

theorem tail_split {e : Nat} {b : Blk σ ν} {P U : List (Blk σ ν)} {ids} (h : IdsHalf e (b :: P).length U.length ids) :
    IdsHalf e P.length U.length ids.tail := by
  obtain ⟨A, B, rfl, hA, hB, he⟩ := h
  cases A with
  | nil => simp at hA
  | cons x A => exact ⟨A, B, rfl, by simpa using hA, hB, he⟩

theorem pushIds_split [DecidableEq σ] (N : NumOps ν) (sym : σ) (v : ν) {e : Nat} {P U : List (Blk σ ν)} {ids}
    (h : IdsHalf e P.length U.length ids) :
    IdsHalf e (zpush N sym v P).length U.length (pushIds sym (P ++ U) ids) ∨ P = [] := by
  obtain ⟨A, B, rfl, hA, hB, he⟩ := h
  cases P with
  | nil => exact Or.inr rfl
  | cons b r =>
    left
    obtain ⟨a, num⟩ := b
    simp only [List.cons_append, pushIds, zpush]
    by_cases ha : a = sym
    · rw [if_pos ha, if_pos ha]
      refine ⟨A, B, rfl, ?_, hB, he⟩
      cases num <;> simpa using hA
    · rw [if_neg ha, if_neg ha]
      exact ⟨none :: A, B, rfl, by simpa using hA, hB, he⟩

theorem pushIds_nil [DecidableEq σ] (N : NumOps ν) (sym : σ) (v : ν) {e : Nat} {U : List (Blk σ ν)} {ids}
    (h : IdsHalf e 0 U.length ids) {b r} (hU : U = b :: r) :
    if b.sym = sym then ∃ i r, pushIds sym U ids = some i :: r ∧ e < i
    else IdsHalf e (zpush N sym v []).length U.length (pushIds sym U ids) := by
  obtain ⟨A, B, rfl, hA, hB, he⟩ := h
  subst hU
  have : A = [] := List.eq_nil_of_length_eq_zero hA
  subst this
  simp only [List.nil_append, pushIds]
  by_cases ha : b.sym = sym
  · rw [if_pos ha, if_pos ha]
    cases B with
    | nil => simp at hB
    | cons x B =>
      obtain ⟨i, rfl, hi⟩ := he x (by simp)
      exact ⟨i, B, rfl, hi⟩
  · rw [if_neg ha, if_neg ha]
    exact ⟨[none], B, rfl, rfl, hB, he⟩

/-! ## One step -/

/-- the half tapes near the head after a chain move -/
def zchain [DecidableEq σ] (N : NumOps ν) (sym : σ) (n : ν) (d : Dir) (P : Dir → List (Blk σ ν)) : Dir → List (Blk σ ν) :=
  fun e => if e = d then (P d).tail else zpush N sym n (P e)

/-- the half tapes near the head with one symbol less on one side -/
def zless (N : NumOps ν) (d : Dir) (P : Dir → List (Blk σ ν)) : Dir → List (Blk σ ν) :=
  fun e => if e = d then zpop N (P d) else P e

/-- the half tapes near the head after a single move -/
def zsingle [DecidableEq σ] (N : NumOps ν) (sym : σ) (d d' : Dir) (P : Dir → List (Blk σ ν)) : Dir → List (Blk σ ν) :=
  fun e => if e = d'.other then zpush N sym (N.ofNat 1) (zless N d P e) else zless N d P e

/-- A step that only reads the part `P` near the head and makes `P'` of it. -/
inductive ZStep [DecidableEq σ] (N : NumOps ν) (M : Machine σ S) (s : SimSt σ S ν) (P : Dir → List (Blk σ ν)) (s' : SimSt σ S ν) :
    (Dir → List (Blk σ ν)) → Prop
  | chain (a : σ) (n : ν) (rest : List (Blk σ ν)) (t : Trans σ S) : P s.tape.dir = ⟨a, some n⟩ :: rest →
      M.trans a s.st s.dir = t → t.st = s.st → t.dir = s.dir → t.cond = .running → s'.st = s.st → s'.dir = s.dir →
      s'.tape.dir = s.tape.dir → s'.steps = N.add s.steps (N.mul (N.ofNat t.steps) n) →
      s'.seen = SimSt.addSeen N s.seen (N.add s.steps (N.mul (N.ofNat t.steps) (N.sub n (N.ofNat 1)))) t.seen →
      ZStep N M s P s' (zchain N t.sym n s.tape.dir P)
  | single (b : Blk σ ν) (rest : List (Blk σ ν)) (t : Trans σ S) : P s.tape.dir = b :: rest → M.trans b.sym s.st s.dir = t →
      t.cond = .running → s'.st = t.st → s'.dir = t.dir → s'.tape.dir = t.dir → s'.steps = N.add s.steps (N.ofNat t.steps) →
      s'.seen = SimSt.addSeen N s.seen s.steps t.seen → ZStep N M s P s' (zsingle N t.sym s.tape.dir t.dir P)

def IdsOK (e : Dir → Nat) (P U : Dir → List (Blk σ ν)) (ids : Ids) : Prop :=
  ∀ d, IdsHalf (e d) (P d).length (U d).length (ids.get d)

variable [DecidableEq σ] [DecidableEq S]

/-- A step while some of the near part is left on the side the head looks to: it changes the near part only, or else the
block behind the head is one of the far part. -/
theorem step_split (N : NumOps ν) (M : Machine σ S) {s : SimSt σ S ν} (hop : s.op = .running)
    (hr : (s.step N M).op = .running) {P U : Dir → List (Blk σ ν)}
    (hs : ∀ d, s.tape.half d = P d ++ U d) (hP : P s.tape.dir ≠ []) :
    ∃ P', ZStep N M s P (s.step N M) P' ∧
      (((∀ d, (s.step N M).tape.half d = P' d ++ U d) ∧ ∀ e ids, IdsOK e P U ids → IdsOK e P' U (stepIds N M s ids)) ∨
      (((s.step N M).tape.half (s.step N M).tape.dir.other).length = (U (s.step N M).tape.dir.other).length ∧
        ∀ e ids, IdsOK e P U ids → ∃ i r,
          (stepIds N M s ids).get (s.step N M).tape.dir.other = some i :: r ∧ e (s.step N M).tape.dir.other < i)) := by
  obtain ⟨b, rest, hb⟩ : ∃ b rest, P s.tape.dir = b :: rest := by
    cases h : P s.tape.dir with
    | nil => exact absurd h hP
    | cons b rest => exact ⟨b, rest, rfl⟩
  have hhalf : s.tape.half s.tape.dir = b :: (rest ++ U s.tape.dir) := by rw [hs, hb]; rfl
  have htop : s.tape.topSymbol = some b.sym := by unfold ChainTape.topSymbol; rw [hhalf]; rfl
  have hids : ∀ ids, stepIds N M s ids = stepIds N M s ids := fun _ => rfl
  unfold stepIds at hids ⊢
  simp only [hhalf] at hids ⊢
  obtain ⟨t, ht⟩ : ∃ t, M.trans b.sym s.st s.dir = t := ⟨_, rfl⟩
  rw [ht]
  clear hids
  generalize hs' : s.step N M = s' at hr ⊢
  unfold SimSt.step at hs'
  rw [if_neg (by simp [hop])] at hs'
  unfold SimSt.macroStep at hs'
  simp only [htop, ht] at hs'
  by_cases h1 : t.cond = .raised
  · rw [if_pos h1] at hs'; subst hs'; simp [h1] at hr
  rw [if_neg h1] at hs'
  simp only [if_neg h1]
  by_cases h2 : t.cond = .infRepeat
  · rw [if_pos h2] at hs'; subst hs'; simp [h2] at hr
  rw [if_neg h2] at hs'
  simp only [if_neg h2]
  have hne : s.tape.dir.other ≠ s.tape.dir := Dir.other_ne _
  by_cases h3 : t.st = s.st ∧ t.dir = s.dir ∧ t.cond = .running
  · rw [if_pos h3] at hs'
    simp only [if_pos h3]
    obtain ⟨a, num⟩ := b
    cases num with
    | none =>
      have : s.tape.chainMove N t.sym = some (s.tape, none) := by unfold ChainTape.chainMove; rw [hhalf]
      rw [this] at hs'
      subst hs'
      simp at hr
    | some n =>
      cases hp : ChainTape.push N t.sym n (s.tape.half s.tape.dir.other) with
      | none =>
        have : s.tape.chainMove N t.sym = none := by
          unfold ChainTape.chainMove
          rw [hhalf]
          simp only [dir_setHalf, half_setHalf_other _ _ hne, hp]
        rw [this] at hs'
        subst hs'
        simp [SimSt.raise] at hr
      | some h' =>
        have : s.tape.chainMove N t.sym =
            some ((s.tape.setHalf s.tape.dir (rest ++ U s.tape.dir)).setHalf s.tape.dir.other h', some n) := by
          unfold ChainTape.chainMove
          rw [hhalf]
          simp only [dir_setHalf, half_setHalf_other _ _ hne, hp]
        rw [this] at hs'
        have hdir' : s'.tape.dir = s.tape.dir := by subst hs'; simp
        have hst' : s'.tape = (s.tape.setHalf s.tape.dir (rest ++ U s.tape.dir)).setHalf s.tape.dir.other h' := by
          subst hs'; rfl
        refine ⟨_, .chain a n rest t hb ht h3.1 h3.2.1 h3.2.2 (by subst hs'; rfl) (by subst hs'; rfl) hdir'
          (by subst hs'; rfl) (by subst hs'; rfl), ?_⟩
        rw [hdir']
        rw [hs] at hp
        rcases push_split N t.sym n _ _ _ hp with hh | ⟨hnil, hlen, b', r', hU, hbs⟩
        · by_cases hnil : P s.tape.dir.other = [] ∧ ∃ b' r', U s.tape.dir.other = b' :: r' ∧ b'.sym = t.sym
          · exfalso
            obtain ⟨hn, b', r', hU, hbs⟩ := hnil
            rw [hn, hU] at hp
            have := congrArg (Option.map List.length) hp
            rw [hh, hn, hU] at this
            simp only [List.nil_append, ChainTape.push, if_pos hbs] at this
            cases hbn : b'.num <;> simp [hbn, zpush] at this
          left
          refine ⟨fun d => ?_, fun e ids hi d => ?_⟩
          · rw [hst']
            unfold zchain
            by_cases he : d = s.tape.dir
            · subst he
              rw [if_pos rfl, half_setHalf_other _ _ (Ne.symm hne), half_setHalf_same, hb]; rfl
            · have he' := other_eq he
              subst he'
              rw [if_neg he, half_setHalf_same, hh]
          · unfold zchain
            by_cases he : d = s.tape.dir
            · subst he
              rw [if_pos rfl, sides_set_other _ _ (Ne.symm hne), sides_set_same, hb]
              have := hi s.tape.dir
              rw [hb] at this
              exact tail_split this
            · have he' := other_eq he
              subst he'
              rw [if_neg he, sides_set_same, sides_set_other _ _ hne, half_setHalf_other _ _ hne, hs]
              rcases pushIds_split N t.sym n (hi s.tape.dir.other) with h4 | h4
              · exact h4
              · have hi' := hi s.tape.dir.other
                rw [h4] at hi' ⊢
                cases hU : U s.tape.dir.other with
                | nil => rw [h4, hU] at hp; cases hp
                | cons b' r' =>
                  have := pushIds_nil N t.sym n hi' hU
                  rw [if_neg (fun hb' => hnil ⟨h4, b', r', hU, hb'⟩)] at this
                  rw [← hU]
                  exact this
        · right
          refine ⟨by rw [hst', half_setHalf_same]; exact hlen, fun e ids hi => ?_⟩
          rw [sides_set_same, sides_set_other _ _ hne, half_setHalf_other _ _ hne, hs, hnil]
          have hi' := hi s.tape.dir.other
          rw [hnil] at hi'
          have := pushIds_nil N t.sym n hi' hU
          rw [if_pos hbs] at this
          exact this
  · rw [if_neg h3] at hs'
    simp only [if_neg h3]
    by_cases h4 : t.cond ≠ .gaveUp
    swap
    · rw [if_neg h4] at hs'
      simp only [ne_eq, not_not] at h4
      subst hs'; simp [h4] at hr
    rw [if_pos h4] at hs'
    simp only [if_pos h4]
    have hpop : ChainTape.popOne N (b :: (rest ++ U s.tape.dir)) = some (zpop N (P s.tape.dir) ++ U s.tape.dir) := by
      rw [← pop_split N _ hP, hb]; rfl
    simp only [hpop]
    rw [singleMove_eq, hhalf, hpop] at hs'
    simp only at hs'
    have hbase : ∀ d, (s.tape.setHalf s.tape.dir (zpop N (P s.tape.dir) ++ U s.tape.dir)).half d =
        zless N s.tape.dir P d ++ U d := by
      intro d
      unfold zless
      by_cases he : d = s.tape.dir
      · subst he; rw [if_pos rfl, half_setHalf_same]
      · rw [if_neg he, half_setHalf_other _ _ he, hs]
    have hidb : ∀ e ids, IdsOK e P U ids → IdsOK e (zless N s.tape.dir P) U
        (ids.set s.tape.dir (popIds N (b :: (rest ++ U s.tape.dir)) (ids.get s.tape.dir))) := by
      intro e ids hi d
      unfold zless
      by_cases he : d = s.tape.dir
      · subst he
        rw [if_pos rfl, sides_set_same]
        have := popIds_split N hP (hi s.tape.dir)
        rw [hb] at this ⊢
        exact this
      · rw [if_neg he, sides_set_other _ _ he]; exact hi d
    rw [hbase] at hs'
    cases hp : ChainTape.push N t.sym (N.ofNat 1) (zless N s.tape.dir P t.dir.other ++ U t.dir.other) with
    | none => rw [hp] at hs'; subst hs'; simp [SimSt.raise] at hr
    | some h' =>
      rw [hp] at hs'
      simp only at hs'
      have hcond : t.cond = .running := by subst hs'; exact hr
      have hdir' : s'.tape.dir = t.dir := by subst hs'; rfl
      have hst' : s'.tape = setDir ((s.tape.setHalf s.tape.dir (zpop N (P s.tape.dir) ++ U s.tape.dir)).setHalf
          t.dir.other h') t.dir := by subst hs'; rfl
      refine ⟨_, .single b rest t hb ht hcond (by subst hs'; rfl) (by subst hs'; rfl) hdir'
          (by subst hs'; rfl) (by subst hs'; rfl), ?_⟩
      rw [hdir']
      rcases push_split N t.sym _ _ _ _ hp with hh | ⟨hnil, hlen, b', r', hU, hbs⟩
      · by_cases hnil : zless N s.tape.dir P t.dir.other = [] ∧ ∃ b' r', U t.dir.other = b' :: r' ∧ b'.sym = t.sym
        · exfalso
          obtain ⟨hn, b', r', hU, hbs⟩ := hnil
          rw [hn, hU] at hp
          have := congrArg (Option.map List.length) hp
          rw [hh, hn, hU] at this
          simp only [List.nil_append, ChainTape.push, if_pos hbs] at this
          cases hbn : b'.num <;> simp [hbn, zpush] at this
        left
        refine ⟨fun d => ?_, fun e ids hi d => ?_⟩
        · rw [hst', half_dir]
          unfold zsingle
          by_cases he : d = t.dir.other
          · subst he; rw [if_pos rfl, half_setHalf_same, hh]
          · rw [if_neg he, half_setHalf_other _ _ he, hbase]
        · have hi1 := hidb e ids hi
          generalize ids.set s.tape.dir (popIds N (b :: (rest ++ U s.tape.dir)) (ids.get s.tape.dir)) = ids1 at hi1 ⊢
          unfold zsingle
          by_cases he : d = t.dir.other
          · subst he
            rw [if_pos rfl, sides_set_same, hbase]
            rcases pushIds_split N t.sym (N.ofNat 1) (hi1 t.dir.other) with h5 | h5
            · exact h5
            · have hi' := hi1 t.dir.other
              rw [h5] at hi' ⊢
              cases hU : U t.dir.other with
              | nil => rw [h5, hU] at hp; cases hp
              | cons b' r' =>
                have := pushIds_nil N t.sym (N.ofNat 1) hi' hU
                rw [if_neg (fun hb' => hnil ⟨h5, b', r', hU, hb'⟩)] at this
                rw [← hU]
                exact this
          · rw [if_neg he, sides_set_other _ _ he]; exact hi1 d
      · right
        refine ⟨by rw [hst', half_dir, half_setHalf_same]; exact hlen, fun e ids hi => ?_⟩
        have hi1 := hidb e ids hi
        generalize ids.set s.tape.dir (popIds N (b :: (rest ++ U s.tape.dir)) (ids.get s.tape.dir)) = ids1 at hi1 ⊢
        rw [sides_set_same, hbase, hnil]
        have hi' := hi1 t.dir.other
        rw [hnil] at hi'
        have := pushIds_nil N t.sym (N.ofNat 1) hi' hU
        rw [if_pos hbs] at this
        exact this

end Model.Prover
