import Verif.Lemmas.Macro
import Verif.Spec.Recur

/-!
# `sim_limited` follows the base machine
-/

namespace Model
open Spec

variable {σ S : Type}

/-- `seen` holds exactly the states visited in the first `n` steps, each with its latest time -/
def SeenExact (T : Table) (cfg : Config) (n : Nat) (seen : List (Nat × Nat)) : Prop :=
  Py.NodupKeys seen ∧ ∀ q u, Py.dget seen q = some u ↔ LastSeen T cfg n q u

/-- `cell` is the table cell executed by the halting step, `und` tells whether it is undefined -/
def CellOK (T : Table) (cfg : Config) (n : Nat) (cell : Option (Nat × Nat)) (und : Prop) : Prop :=
  ∃ a q, cell = some (a, q) ∧ (run T (n - 1) cfg).state = some q ∧ (run T (n - 1) cfg).scanned = a ∧
    (und ↔ T q a = .undef)

/-- the move made by a transition -/
def _root_.Spec.DC.take (c : DC σ S) (t : Trans σ S) : DC σ S := c.move t.sym t.st t.dir

/-- Machine `M` follows the base machine `T`, where `Den c cfg` says that `c` means `cfg`, `TDen` is
the same for the tape alone, and `hs` tells the halting states. -/
structure Follows (T : Table) (M : Machine σ S) (Den : DC σ S → Config → Prop)
    (TDen : DC σ S → (Int → Nat) → Prop) (hs : S → Prop) : Prop where
  live : ∀ c cfg, Den c cfg → cfg.state ≠ none ∧ ¬ hs c.st
  safe : ∀ c cfg, Den c cfg → (M.trans c.front c.st c.dir).cond ≠ .raised
  run : ∀ c cfg, Den c cfg → ∀ t, M.trans c.front c.st c.dir = t → t.cond = .running →
    0 < t.steps ∧ Den (c.take t) (run T t.steps cfg) ∧ SeenExact T cfg t.steps t.seen
  halt : ∀ c cfg, Den c cfg → ∀ t, M.trans c.front c.st c.dir = t →
    t.cond = .halt ∨ t.cond = .undefined →
    hs t.st ∧ HaltsAt T cfg t.steps ∧ TDen (c.take t) (Spec.run T t.steps cfg).tape ∧
      SeenExact T cfg t.steps t.seen ∧ CellOK T cfg t.steps t.cell (t.cond = .undefined)

/-- The INF_REPEAT verdicts of `M` are right. -/
def FollowsInf (T : Table) (M : Machine σ S) (Den : DC σ S → Config → Prop) : Prop :=
  ∀ c cfg, Den c cfg → ∀ t, M.trans c.front c.st c.dir = t → t.cond = .infRepeat →
    NeverHalts T cfg ∧ ∀ u q, VisitedAt T cfg q u → q ∈ t.seen.map (·.1)

/-- `M` gives up in no meaningful configuration. -/
def NoGiveUp (M : Machine σ S) (Den : DC σ S → Config → Prop) : Prop :=
  ∀ c cfg, Den c cfg → (M.trans c.front c.st c.dir).cond ≠ .gaveUp

/-! ## `states_last_seen` -/

theorem mergeSeen_get (new seen : List (Nat × Nat)) (off : Nat) (hn : Py.NodupKeys new) (q : Nat) :
    Py.dget (mergeSeen seen off new) q =
      match Py.dget new q with
      | some u => some (off + u)
      | none => Py.dget seen q := by
  unfold mergeSeen
  induction new generalizing seen with
  | nil => rfl
  | cons e new ih =>
    have hn' : Py.NodupKeys new := by
      unfold Py.NodupKeys at *; rw [List.map_cons, List.nodup_cons] at hn; exact hn.2
    have he : e.1 ∉ new.map (·.1) := by
      unfold Py.NodupKeys at *; rw [List.map_cons, List.nodup_cons] at hn; exact hn.1
    rw [List.foldl_cons, ih _ hn']
    by_cases hq : e.1 = q
    · have h1 : Py.dget new q = none := by
        unfold Py.dget
        rw [Option.map_eq_none_iff, List.find?_eq_none]
        intro x hx hh
        exact he (List.mem_map.2 ⟨x, hx, by rw [hq]; simpa using hh⟩)
      have h2 : Py.dget (e :: new) q = some e.2 := by simp [Py.dget, hq]
      rw [h1, h2]
      simp only
      rw [Py.dget_dset, if_pos hq.symm]
    · have h2 : Py.dget (e :: new) q = Py.dget new q := by
        have : (e.1 == q) = false := by simpa using hq
        simp [Py.dget, this]
      rw [h2, Py.dget_dset, if_neg (fun h => hq h.symm)]

theorem mergeSeen_nodup (new seen : List (Nat × Nat)) (off : Nat) (hs : Py.NodupKeys seen) :
    Py.NodupKeys (mergeSeen seen off new) := by
  unfold mergeSeen
  induction new generalizing seen with
  | nil => exact hs
  | cons e new ih => exact ih _ (Py.nodup_dset hs _ _)

theorem mergeSeen_keys (new seen : List (Nat × Nat)) (off : Nat) (q : Nat) :
    q ∈ (mergeSeen seen off new).map (·.1) ↔ q ∈ new.map (·.1) ∨ q ∈ seen.map (·.1) := by
  unfold mergeSeen
  induction new generalizing seen with
  | nil => simp
  | cons e new ih =>
    rw [List.foldl_cons, ih, Py.mem_keys_dset, List.map_cons, List.mem_cons]
    tauto

theorem dget_isSome_iff (d : List (Nat × Nat)) (q : Nat) :
    (∃ u, Py.dget d q = some u) ↔ q ∈ d.map (·.1) := by
  unfold Py.dget
  constructor
  · rintro ⟨u, h⟩
    rw [Option.map_eq_some_iff] at h
    obtain ⟨e, he, -⟩ := h
    have := List.find?_some he
    exact List.mem_map.2 ⟨e, List.mem_of_find?_eq_some he, by simpa using this⟩
  · intro h
    obtain ⟨e, he, heq⟩ := List.mem_map.1 h
    cases hf : d.find? (fun e => e.1 == q) with
    | none =>
      rw [List.find?_eq_none] at hf
      exact absurd (by simpa using heq) (hf e he)
    | some e' => exact ⟨e'.2, rfl⟩

theorem lastSeen_exists {T : Table} {cfg : Config} {n q u : Nat} (hu : u < n)
    (hv : VisitedAt T cfg q u) : ∃ t, LastSeen T cfg n q t := by
  classical
  induction hk : n - u using Nat.strong_induction_on generalizing u with
  | _ k ih =>
    by_cases h : ∃ t', u < t' ∧ t' < n ∧ VisitedAt T cfg q t'
    · obtain ⟨t', h1, h2, h3⟩ := h
      exact ih (n - t') (by omega) h2 h3 rfl
    · exact ⟨u, hu, hv, fun t' h1 h2 h3 => h ⟨t', h1, h2, h3⟩⟩

theorem SeenExact.mem {T : Table} {cfg : Config} {n : Nat} {seen : List (Nat × Nat)}
    (h : SeenExact T cfg n seen) {q : Nat} : q ∈ seen.map (·.1) ↔ ∃ u, u < n ∧ VisitedAt T cfg q u := by
  rw [← dget_isSome_iff]
  constructor
  · rintro ⟨u, hu⟩
    have := (h.2 q u).1 hu
    exact ⟨u, this.1, this.2.1⟩
  · rintro ⟨u, hu, hv⟩
    obtain ⟨t, ht⟩ := lastSeen_exists hu hv
    exact ⟨t, (h.2 q t).2 ht⟩

theorem visitedAt_add {T : Table} {cfg : Config} {q n u : Nat} :
    VisitedAt T (run T n cfg) q u ↔ VisitedAt T cfg q (n + u) := by
  unfold VisitedAt; rw [run_add]

theorem seenExact_nil (T : Table) (cfg : Config) : SeenExact T cfg 0 [] := by
  refine ⟨by simp [Py.NodupKeys], fun q u => ⟨fun h => by simp [Py.dget] at h, fun h => ?_⟩⟩
  exact absurd h.1 (by omega)

theorem seenExact_merge {T : Table} {cfg : Config} {n m : Nat} {d d' : List (Nat × Nat)}
    (h : SeenExact T cfg n d) (h' : SeenExact T (run T n cfg) m d') :
    SeenExact T cfg (n + m) (mergeSeen d n d') := by
  refine ⟨mergeSeen_nodup _ _ _ h.1, fun q u => ?_⟩
  rw [mergeSeen_get _ _ _ h'.1]
  cases hd : Py.dget d' q with
  | some v =>
    have hv := (h'.2 q v).1 hd
    simp only [Option.some.injEq]
    constructor
    · rintro rfl
      refine ⟨by have := hv.1; omega, visitedAt_add.1 hv.2.1, fun t' h1 h2 h3 => ?_⟩
      obtain ⟨k, rfl⟩ : ∃ k, t' = n + k := ⟨t' - n, by omega⟩
      exact hv.2.2 k (by omega) (by omega) (visitedAt_add.2 h3)
    · intro hl
      have hv1 := hv.1
      have hv2 := visitedAt_add.1 hv.2.1
      rcases Nat.lt_trichotomy u (n + v) with h1 | h1 | h1
      · exact absurd hv2 (hl.2.2 _ h1 (by omega))
      · exact h1.symm
      · obtain ⟨k, rfl⟩ : ∃ k, u = n + k := ⟨u - n, by omega⟩
        exact absurd (visitedAt_add.2 hl.2.1) (hv.2.2 k (by omega) (by have := hl.1; omega))
  | none =>
    simp only
    have hno : ∀ k, k < m → ¬ VisitedAt T cfg q (n + k) := by
      intro k hk hv
      obtain ⟨t, ht⟩ := lastSeen_exists hk (visitedAt_add.2 hv)
      rw [(h'.2 q t).2 ht] at hd
      cases hd
    rw [h.2]
    constructor
    · intro hl
      refine ⟨by have := hl.1; omega, hl.2.1, fun t' h1 h2 h3 => ?_⟩
      by_cases hlt : t' < n
      · exact hl.2.2 t' h1 hlt h3
      · obtain ⟨k, rfl⟩ : ∃ k, t' = n + k := ⟨t' - n, by omega⟩
        exact hno k (by omega) h3
    · intro hl
      by_cases hlt : u < n
      · exact ⟨hlt, hl.2.1, fun t' h1 h2 h3 => hl.2.2 t' h1 (by omega) h3⟩
      · obtain ⟨k, rfl⟩ : ∃ k, u = n + k := ⟨u - n, by omega⟩
        exact absurd hl.2.1 (hno k (by have := hl.1; omega))

/-! ## recurrence of a predicate -/

theorem recurs_never {T : Table} {P : Config → Prop} (K : Nat → Prop)
    (live : ∀ cfg, P cfg → cfg.state ≠ none)
    (again : ∀ cfg, P cfg → ∃ m, 0 < m ∧ P (run T m cfg) ∧ ∀ u, u < m → ∀ q, VisitedAt T cfg q u → K q)
    (cfg : Config) (h : P cfg) :
    NeverHalts T cfg ∧ ∀ u q, VisitedAt T cfg q u → K q := by
  have key : ∀ n cfg, P cfg → (run T n cfg).state ≠ none ∧ ∀ q, VisitedAt T cfg q n → K q := by
    intro n
    induction n using Nat.strong_induction_on with
    | _ n ih =>
      intro cfg hP
      obtain ⟨m, hm, hP', hK⟩ := again cfg hP
      by_cases hn : n < m
      · exact ⟨run_some_mono (Nat.le_of_lt hn) (live _ hP'), fun q hq => hK n hn q hq⟩
      · obtain ⟨k, rfl⟩ : ∃ k, n = m + k := ⟨n - m, by omega⟩
        have := ih k (by omega) _ hP'
        rw [run_add]
        exact ⟨this.1, fun q hq => this.2 q (visitedAt_add.2 hq)⟩
  exact ⟨fun n => (key n cfg h).1, fun u q hq => (key u cfg h).2 q hq⟩

/-! ## the loop -/

theorem split_at {tape : List σ} {p : Int} (h0 : 0 ≤ p) (h1 : p < tape.length) :
    ∃ A x B, tape = A ++ x :: B ∧ p = (A.length : Int) := by
  have hn : p.toNat < tape.length := by omega
  refine ⟨tape.take p.toNat, tape[p.toNat], tape.drop (p.toNat + 1), ?_, ?_⟩
  · rw [List.getElem_cons_drop, List.take_append_drop]
  · rw [List.length_take]; omega

theorem get_split (A B : List σ) (x : σ) : Py.get (A ++ x :: B) (A.length : Int) = some x := by
  unfold Py.get
  rw [Py.pyIdx_of_range (by omega) (by simp)]
  simp

theorem set_split (A B : List σ) (x y : σ) :
    Py.set (A ++ x :: B) (A.length : Int) y = some (A ++ y :: B) := by
  unfold Py.set
  rw [Py.pyIdx_of_range (by omega) (by simp)]
  simp

variable [DecidableEq σ] [DecidableEq S]

/-- what `sim_limited` promises about its result, in the surroundings `l`, `r` -/
structure LimSpec (T : Table) (M : Machine σ S) (Den : DC σ S → Config → Prop)
    (TDen : DC σ S → (Int → Nat) → Prop) (hs : S → Prop) (len : Nat) (l r : Nat → σ) (cfg : Config)
    (t : Trans (List σ) S) : Prop where
  length : t.cond ≠ .raised → t.sym.length = len
  run : t.cond = .running →
    0 < t.steps ∧
    Den (window t.sym (match t.dir with | .R => (len : Int) | .L => -1) t.dir t.st l r)
      (run T t.steps cfg) ∧ SeenExact T cfg t.steps t.seen
  halt : t.cond = .halt ∨ t.cond = .undefined →
    hs t.st ∧ HaltsAt T cfg t.steps ∧
      (∃ p : Int, -1 ≤ p ∧ p ≤ len ∧ TDen (window t.sym p t.dir t.st l r) (Spec.run T t.steps cfg).tape) ∧
      SeenExact T cfg t.steps t.seen ∧ CellOK T cfg t.steps t.cell (t.cond = .undefined)
  inf : NoGiveUp M Den → FollowsInf T M Den → t.cond = .infRepeat →
    NeverHalts T cfg ∧ ∀ u q, VisitedAt T cfg q u → q ∈ t.seen.map (·.1)

/-- the loop invariant -/
structure LimInv (T : Table) (Den : DC σ S → Config → Prop) (hs : S → Prop) (len : Nat)
    (l r : Nat → σ) (cfg : Config) (s : LimLoop σ S) : Prop where
  len : s.tape.length = len
  lo : 0 ≤ s.pos
  hi : s.pos < s.tape.length
  main : Den (window s.tape s.pos s.dir s.st l r) (run T s.steps cfg)
  seen : SeenExact T cfg s.steps s.seen
  old : ∀ st d p tp, s.old = some (st, d, p, tp) → ¬ hs st ∧
    ∀ cfg', Den (window tp p d st l r) cfg' → ∃ m, Den (window s.tape s.pos s.dir s.st l r) (run T m cfg') ∧
      ∀ u, u < m → ∀ q, VisitedAt T cfg' q u → q ∈ s.seen.map (·.1)

omit [DecidableEq σ] [DecidableEq S] in
theorem limSpec_raise {T : Table} {M : Machine σ S} {Den TDen hs len l r cfg} {a s d} :
    LimSpec T M Den TDen hs len l r cfg (Trans.raise a s d) where
  length h := absurd rfl h
  run h := by cases h
  halt h := by rcases h with h | h <;> cases h
  inf _ _ h := by cases h

theorem limIter_spec {T : Table} {M : Machine σ S} {Den TDen hs} (F : Follows T M Den TDen hs)
    {len : Nat} {l r : Nat → σ} {cfg : Config} (maxLoops : Nat) (s : LimLoop σ S)
    (I : LimInv T Den hs len l r cfg s) :
    match limIter M maxLoops s with
    | .inl s' => LimInv T Den hs len l r cfg s'
    | .inr t => LimSpec T M Den TDen hs len l r cfg t := by
  obtain ⟨A, x, B, hsp, hp⟩ := split_at I.lo I.hi
  obtain ⟨st, d, pos, tape, steps, loops, seen, old, nextSave⟩ := s
  simp only at hsp hp
  subst hsp; subst hp
  have hlen : (A ++ x :: B).length = len := I.len
  have hmain := I.main
  have hseen := I.seen
  have hold := I.old
  simp only at hmain hseen hold
  unfold limIter
  simp only [get_split, set_split]
  obtain ⟨t, ht⟩ : ∃ t, M.trans x st d = t := ⟨_, rfl⟩
  rw [ht]
  have ht' : M.trans (window (A ++ x :: B) A.length d st l r).front
      (window (A ++ x :: B) A.length d st l r).st (window (A ++ x :: B) A.length d st l r).dir = t := by
    rw [window_front]; exact ht
  have hmove : (window (A ++ x :: B) A.length d st l r).take t =
      window (A ++ t.sym :: B) (A.length + t.dir.delta) t.dir t.st l r := window_move A B x _ _ _ _ _ l r
  have hlen' : (A ++ t.sym :: B).length = len := by rw [← hlen]; simp
  have hrun := fun cfg' h => F.run _ cfg' h t ht'
  have hhalt := F.halt _ _ hmain t ht'
  rw [hmove] at hhalt
  simp only [hmove] at hrun
  by_cases hr : t.cond = .raised
  · rw [if_pos hr]; exact limSpec_raise
  rw [if_neg hr]
  -- keys only grow
  have hkeys : ∀ q, q ∈ seen.map (·.1) → q ∈ (mergeSeen seen steps t.seen).map (·.1) :=
    fun q hq => (mergeSeen_keys _ _ _ _).2 (Or.inr hq)
  have hkeys' : ∀ q, q ∈ t.seen.map (·.1) → q ∈ (mergeSeen seen steps t.seen).map (·.1) :=
    fun q hq => (mergeSeen_keys _ _ _ _).2 (Or.inl hq)
  -- inner verdict
  have hinner : FollowsInf T M Den → t.cond = .infRepeat →
      NeverHalts T cfg ∧ ∀ u q, VisitedAt T cfg q u → q ∈ (mergeSeen seen steps t.seen).map (·.1) := by
    intro FI hc
    obtain ⟨h1, h2⟩ := FI _ _ hmain t ht' hc
    refine ⟨neverHalts_of_run h1, fun u q hq => ?_⟩
    by_cases hu : u < steps
    · exact hkeys q (hseen.mem.2 ⟨u, hu, hq⟩)
    · obtain ⟨k, rfl⟩ : ∃ k, u = steps + k := ⟨u - steps, by omega⟩
      exact hkeys' q (h2 k q (visitedAt_add.2 hq))
  -- a running step extends every run
  have hext : t.cond = .running →
      (∀ st' d' p' tp', old = some (st', d', p', tp') → ¬ hs st' ∧
        ∀ cfg', Den (window tp' p' d' st' l r) cfg' →
        ∃ m, 0 < m ∧ Den (window (A ++ t.sym :: B) (A.length + t.dir.delta) t.dir t.st l r) (run T m cfg') ∧
        ∀ u, u < m → ∀ q, VisitedAt T cfg' q u → q ∈ (mergeSeen seen steps t.seen).map (·.1)) := by
    intro hc st' d' p' tp' ho
    refine ⟨(hold _ _ _ _ ho).1, fun cfg' h' => ?_⟩
    obtain ⟨m, hm, hmk⟩ := (hold _ _ _ _ ho).2 cfg' h'
    obtain ⟨h1, h2, h3⟩ := hrun _ hm hc
    refine ⟨m + t.steps, by omega, by rw [run_add]; exact h2, fun u hu q hq => ?_⟩
    by_cases hum : u < m
    · exact hkeys q (hmk u hum q hq)
    · obtain ⟨k, rfl⟩ : ∃ k, u = m + k := ⟨u - m, by omega⟩
      exact hkeys' q (h3.mem.2 ⟨k, by omega, visitedAt_add.2 hq⟩)
  by_cases heq : old = some (t.st, t.dir, (A.length : Int) + t.dir.delta, A ++ t.sym :: B)
  · -- repeated configuration
    rw [if_pos heq]
    refine ⟨fun _ => hlen', (fun h => by cases h), (fun h => by rcases h with h | h <;> cases h), ?_⟩
    intro NG FI _
    cases hc : t.cond with
    | running =>
      obtain ⟨h1, h2, h3⟩ := hrun _ hmain hc
      obtain ⟨-, h5⟩ := hext hc _ _ _ _ heq
      obtain ⟨h6, h7⟩ := recurs_never
        (P := fun c => Den (window (A ++ t.sym :: B) (A.length + t.dir.delta) t.dir t.st l r) c)
        (fun q => q ∈ (mergeSeen seen steps t.seen).map (·.1)) (fun c hc => (F.live _ _ hc).1) h5 _ h2
      rw [← run_add] at h6 h7
      refine ⟨neverHalts_of_run h6, fun u q hq => ?_⟩
      by_cases hu : u < steps + t.steps
      · exact (seenExact_merge hseen h3).mem.2 ⟨u, hu, hq⟩
      · obtain ⟨k, rfl⟩ : ∃ k, u = (steps + t.steps) + k := ⟨u - (steps + t.steps), by omega⟩
        exact h7 k q (visitedAt_add.2 hq)
    | halt => exact absurd (hhalt (Or.inl hc)).1 (hold _ _ _ _ heq).1
    | undefined => exact absurd (hhalt (Or.inr hc)).1 (hold _ _ _ _ heq).1
    | infRepeat => exact hinner FI hc
    | gaveUp => exact absurd (by rw [ht', hc]) (NG _ _ hmain)
    | raised => exact absurd hc hr
  · rw [if_neg heq]
    by_cases hm : loops + 1 > maxLoops
    · rw [if_pos hm]
      exact ⟨fun _ => hlen', (fun h => by cases h), (fun h => by rcases h with h | h <;> cases h),
        (fun _ _ h => by cases h)⟩
    rw [if_neg hm]
    by_cases hc : t.cond = .running
    · rw [if_neg (by rw [hc]; simp)]
      obtain ⟨h1, h2, h3⟩ := hrun _ hmain hc
      rw [← run_add] at h2
      have hseen' := seenExact_merge hseen h3
      by_cases hin : 0 ≤ (A.length : Int) + t.dir.delta ∧
          (A.length : Int) + t.dir.delta < (A ++ t.sym :: B).length
      · rw [if_neg (not_not_intro hin)]
        refine ⟨hlen', hin.1, hin.2, h2, hseen', ?_⟩
        simp only
        intro st' d' p' tp' ho
        split at ho
        · simp only [Option.some.injEq, Prod.mk.injEq] at ho
          obtain ⟨rfl, rfl, rfl, rfl⟩ := ho
          refine ⟨(F.live _ _ h2).2, fun cfg' h' => ⟨0, h', fun u hu => absurd hu (by omega)⟩⟩
        · obtain ⟨h5, h6⟩ := hext hc _ _ _ _ ho
          refine ⟨h5, fun cfg' h' => ?_⟩
          obtain ⟨m, -, h7, h8⟩ := h6 cfg' h'
          exact ⟨m, h7, h8⟩
      · rw [if_pos hin]
        refine ⟨fun _ => hlen', fun _ => ⟨by simp only; omega, ?_, hseen'⟩,
          (fun h => by rcases h with h | h <;> cases h), (fun _ _ h => by cases h)⟩
        simp only
        have hpos : (match t.dir with | .R => (len : Int) | .L => -1) = (A.length : Int) + t.dir.delta := by
          have : (A ++ t.sym :: B).length = A.length + B.length + 1 := by simp; omega
          cases hd : t.dir
          · simp only [hd, Dir.delta] at hin ⊢; omega
          · simp only [hd, Dir.delta] at hin ⊢; omega
        rw [hpos]; exact h2
    · rw [if_pos hc]
      refine ⟨fun _ => hlen', fun h => absurd h hc, fun h => ?_, fun _ FI h => hinner FI h⟩
      obtain ⟨h1, h2, h3, h4, h5⟩ := hhalt h
      have hlive := (F.live _ _ hmain).1
      refine ⟨h1, haltsAt_of_run hlive h2, ⟨(A.length : Int) + t.dir.delta, ?_, ?_, ?_⟩,
        seenExact_merge hseen h4, ?_⟩
      · cases t.dir <;> simp only [Dir.delta] <;> omega
      · have : (A ++ x :: B).length = A.length + B.length + 1 := by simp; omega
        cases t.dir <;> simp only [Dir.delta] <;> omega
      · simp only; rw [run_add]; exact h3
      · obtain ⟨a, q, c1, c2, c3, c4⟩ := h5
        have hpos : 0 < t.steps := by
          rcases Nat.eq_zero_or_pos t.steps with h0 | h0
          · have := h2.1; rw [h0] at this; exact absurd this hlive
          · exact h0
        have e : run T (t.steps - 1) (run T steps cfg) = run T (steps + t.steps - 1) cfg := by
          rw [← run_add]; congr 1; omega
        rw [e] at c2 c3
        exact ⟨a, q, c1, c2, c3, c4⟩

theorem limLoop_spec {T : Table} {M : Machine σ S} {Den TDen hs} (F : Follows T M Den TDen hs)
    {len : Nat} {l r : Nat → σ} {cfg : Config} (maxLoops k : Nat) (s : LimLoop σ S)
    (I : LimInv T Den hs len l r cfg s) :
    LimSpec T M Den TDen hs len l r cfg (limLoop M maxLoops k s) := by
  induction k generalizing s with
  | zero => exact limSpec_raise
  | succ k ih =>
    have := limIter_spec (TDen := TDen) F maxLoops s I
    unfold limLoop
    split
    · next s' h => rw [h] at this; exact ih s' this
    · next t h => rw [h] at this; exact this

theorem simLimited_spec {T : Table} {M : Machine σ S} {Den TDen hs} (F : Follows T M Den TDen hs)
    {l r : Nat → σ} {cfg : Config} (st : S) (tape : List σ) (pos : Int) (dir : Dir) (maxLoops : Nat)
    (h0 : 0 ≤ pos) (h1 : pos < tape.length) (h : Den (window tape pos dir st l r) cfg) :
    LimSpec T M Den TDen hs tape.length l r cfg (simLimited M st tape pos dir maxLoops) := by
  unfold simLimited
  apply limLoop_spec F
  exact ⟨rfl, h0, h1, h, seenExact_nil _ _, fun _ _ _ _ h => by cases h⟩

/-- no exception, and the loop bound suffices -/
theorem limIter_safe {T : Table} {M : Machine σ S} {Den TDen hs} (F : Follows T M Den TDen hs)
    {len : Nat} {l r : Nat → σ} {cfg : Config} (maxLoops : Nat) (s : LimLoop σ S)
    (I : LimInv T Den hs len l r cfg s) :
    match limIter M maxLoops s with
    | .inl s' => s'.loops = s.loops + 1 ∧ s'.loops ≤ maxLoops
    | .inr t => t.cond ≠ .raised := by
  obtain ⟨A, x, B, hsp, hp⟩ := split_at I.lo I.hi
  obtain ⟨st, d, pos, tape, steps, loops, seen, old, nextSave⟩ := s
  simp only at hsp hp
  subst hsp; subst hp
  have hsafe := F.safe _ _ I.main
  rw [window_front] at hsafe
  simp only [window_st, window_dir] at hsafe
  unfold limIter
  simp only [get_split, set_split]
  rw [if_neg hsafe]
  generalize M.trans x st d = t at hsafe ⊢
  by_cases heq : old = some (t.st, t.dir, (A.length : Int) + t.dir.delta, A ++ t.sym :: B)
  · rw [if_pos heq]; simp
  · rw [if_neg heq]
    by_cases hm : loops + 1 > maxLoops
    · rw [if_pos hm]; simp
    · rw [if_neg hm]
      by_cases hc : t.cond = .running
      · rw [if_neg (by rw [hc]; simp)]
        by_cases hin : 0 ≤ (A.length : Int) + t.dir.delta ∧
          (A.length : Int) + t.dir.delta < (A ++ t.sym :: B).length
        · rw [if_neg (not_not_intro hin)]
          exact ⟨rfl, Nat.le_of_not_lt hm⟩
        · rw [if_pos hin]; simp
      · rw [if_pos hc]; exact hsafe

theorem limLoop_safe {T : Table} {M : Machine σ S} {Den TDen hs} (F : Follows T M Den TDen hs)
    {len : Nat} {l r : Nat → σ} {cfg : Config} (maxLoops k : Nat) (s : LimLoop σ S)
    (I : LimInv T Den hs len l r cfg s) (hk : s.loops + k = maxLoops + 1) (hl : s.loops ≤ maxLoops) :
    (limLoop M maxLoops k s).cond ≠ .raised := by
  induction k generalizing s with
  | zero => omega
  | succ k ih =>
    have := limIter_spec (TDen := TDen) F maxLoops s I
    have hs := limIter_safe F maxLoops s I
    unfold limLoop
    split
    · next s' h =>
      rw [h] at this hs
      simp only at hs this
      exact ih s' this (by omega) hs.2
    · next t h => rw [h] at hs; exact hs

theorem simLimited_safe {T : Table} {M : Machine σ S} {Den TDen hs} (F : Follows T M Den TDen hs)
    {l r : Nat → σ} {cfg : Config} (st : S) (tape : List σ) (pos : Int) (dir : Dir) (maxLoops : Nat)
    (h0 : 0 ≤ pos) (h1 : pos < tape.length) (h : Den (window tape pos dir st l r) cfg) :
    (simLimited M st tape pos dir maxLoops).cond ≠ .raised := by
  unfold simLimited
  exact limLoop_safe F (len := tape.length) (l := l) (r := r) (cfg := cfg) maxLoops _ _
    ⟨rfl, h0, h1, h, seenExact_nil _ _, fun _ _ _ _ h => by cases h⟩ (by simp) (Nat.zero_le _)

end Model
