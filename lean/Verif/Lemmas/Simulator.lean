import Verif.Model.Simulator
import Verif.Lemmas.ChainTape

namespace Model
open Spec
variable {σ S : Type}

theorem addSeen_nat (seen : List (Nat × Nat)) (base : Nat) (new : List (Nat × Nat)) :
    SimSt.addSeen natOps seen base new = mergeSeen seen base new := rfl

/-- merging the same visits again at a later time -/
theorem seenExact_again {T : Table} {cfg : Config} {n m a : Nat} {d new : List (Nat × Nat)}
    (hd : Py.NodupKeys d)
    (h : SeenExact T cfg n (mergeSeen d a new)) (h' : SeenExact T (run T n cfg) m new) :
    SeenExact T cfg (n + m) (mergeSeen d n new) := by
  have h2 := seenExact_merge h h'
  refine ⟨mergeSeen_nodup _ _ _ hd, fun q u => ?_⟩
  rw [← h2.2 q u, mergeSeen_get _ _ _ h'.1, mergeSeen_get _ _ _ h'.1, mergeSeen_get _ _ _ h'.1]
  cases Py.dget new q <;> rfl

/-- `n` equal macro steps in a row -/
theorem chain_run {T : Table} {M : Machine σ S} {Den TDen hs} (F : Follows T M Den TDen hs)
    {c : DC σ S} {a : σ} {rest : Nat → σ} {t : Trans σ S} (ht : M.trans a c.st c.dir = t)
    (hst : t.st = c.st) (hd : t.dir = c.dir) (hc : t.cond = .running) (n : Nat)
    (hs : c.side c.dir = pre (List.replicate n a) rest) (cfg : Config) (h : Den c cfg) :
    Den { st := c.st, dir := c.dir
          side := fun e => if e = c.dir then rest else pre (List.replicate n t.sym) (c.side e) }
      (run T (t.steps * n) cfg) ∧
    (0 < n → ∀ s0 cfg0 d, SeenExact T cfg0 s0 d → run T s0 cfg0 = cfg →
      SeenExact T cfg0 (s0 + t.steps * n) (mergeSeen d (s0 + t.steps * (n - 1)) t.seen)) ∧
    ∀ u q, u < t.steps * n → VisitedAt T cfg q u → q ∈ t.seen.map (·.1) := by
  induction n generalizing c cfg with
  | zero =>
    refine ⟨?_, fun h => absurd h (by omega), fun u q hu => absurd hu (by omega)⟩
    have : ({ st := c.st, dir := c.dir
              side := fun e => if e = c.dir then rest else pre (List.replicate 0 t.sym) (c.side e) } : DC σ S)
        = c := by
      ext1
      · rfl
      · rfl
      · rename_i e
        by_cases he : e = c.dir
        · subst he; simp [hs]
        · simp [he]
    rw [this]; exact h
  | succ n ih =>
    have hfront : c.front = a := by unfold DC.front; rw [hs]; rfl
    obtain ⟨h1, h2, h3⟩ := F.run c cfg h t (by rw [hfront]; exact ht) hc
    have hne : c.dir.other ≠ c.dir := Dir.other_ne _
    have hside : (c.take t).side = fun e => if e = c.dir then pre (List.replicate n a) rest
        else cons t.sym (c.side e) := by
      funext e
      show (c.move t.sym t.st t.dir).side e = _
      rw [take_rest, hd]
      unfold DC.rest
      by_cases he : e = c.dir
      · subst he
        rw [if_neg (Ne.symm hne), if_pos rfl, if_pos rfl, hs]
        rfl
      · have he' : e = c.dir.other := Dir.ne_iff.1 he
        subst he'
        simp [hne]
    have hcst : (c.take t).st = c.st := hst
    have hcd : (c.take t).dir = c.dir := hd
    obtain ⟨i1, i2, i3⟩ := ih (c := c.take t) (by rw [hcst, hcd]; exact ht) (by rw [hcst]; exact hst)
      (by rw [hcd]; exact hd) (by rw [hcd, hside]; simp) _ h2
    refine ⟨?_, fun _ s0 cfg0 d hse hr => ?_, ?_⟩
    · rw [show t.steps * (n + 1) = t.steps + t.steps * n by rw [Nat.mul_succ]; omega, run_add]
      convert i1 using 1
      ext1
      · exact hcst.symm
      · exact hcd.symm
      · rename_i e
        simp only [hcd, hside]
        by_cases he : e = c.dir
        · simp [he]
        · simp only [he, if_false]
          rw [List.replicate_succ']
          simp
    · have hm := seenExact_merge hse (by rw [hr]; exact h3)
      cases n with
      | zero => simpa using hm
      | succ n =>
        have := i2 (by omega) (s0 + t.steps) cfg0 _ hm (by rw [run_add, hr])
        refine ⟨mergeSeen_nodup _ _ _ hse.1, fun q u => ?_⟩
        have e1 : s0 + t.steps + t.steps * (n + 1) = s0 + t.steps * (n + 1 + 1) := by
          rw [Nat.mul_succ t.steps (n + 1)]; omega
        have e2 : s0 + t.steps + t.steps * (n + 1 - 1) = s0 + t.steps * (n + 1 + 1 - 1) := by
          simp only [Nat.add_sub_cancel]; rw [Nat.mul_succ]; omega
        rw [e1, e2] at this
        rw [← this.2 q u, mergeSeen_get _ _ _ h3.1, mergeSeen_get _ _ _ h3.1, mergeSeen_get _ _ _ h3.1]
        cases Py.dget t.seen q <;> rfl
    · intro u q hu hv
      by_cases hut : u < t.steps
      · exact h3.mem.2 ⟨u, hut, hv⟩
      · obtain ⟨k, rfl⟩ : ∃ k, u = t.steps + k := ⟨u - t.steps, by omega⟩
        exact i3 k q (by rw [Nat.mul_succ] at hu; omega) (visitedAt_add.2 hv)

/-- running into an infinite run forever -/
theorem chain_forever {T : Table} {M : Machine σ S} {Den TDen hs} (F : Follows T M Den TDen hs)
    {c : DC σ S} {a : σ} {t : Trans σ S} (ht : M.trans a c.st c.dir = t)
    (hst : t.st = c.st) (hd : t.dir = c.dir) (hc : t.cond = .running)
    (hs : c.side c.dir = fun _ => a) (cfg : Config) (h : Den c cfg) :
    NeverHalts T cfg ∧ ∀ q, (VisitedForever T cfg q ↔ q ∈ t.seen.map (·.1)) ∧
      ∀ u, VisitedAt T cfg q u → q ∈ t.seen.map (·.1) := by
  have hfront : c.front = a := by unfold DC.front; rw [hs]
  have hpos := (F.run c cfg h t (by rw [hfront]; exact ht) hc).1
  have key := fun n => chain_run F ht hst hd hc n (rest := fun _ => a)
    (by rw [replicate_const]; exact hs) cfg h
  have hge : ∀ n, n ≤ t.steps * n := fun n => Nat.le_mul_of_pos_left n hpos
  constructor
  · intro n
    exact run_some_mono (hge n) (F.live _ _ (key n).1).1
  · intro q
    have hall : ∀ u, VisitedAt T cfg q u → q ∈ t.seen.map (·.1) := fun u hu =>
      (key (u + 1)).2.2 u q (Nat.lt_of_lt_of_le (Nat.lt_succ_self u) (hge _)) hu
    refine ⟨?_, hall⟩
    constructor
    · intro hv
      obtain ⟨u, -, hu⟩ := hv 0
      exact hall u hu
    · intro hq u
      have hden := (key u).1
      have hfr : M.trans (DC.front (σ := σ) (S := S)
          { st := c.st, dir := c.dir
            side := fun e => if e = c.dir then (fun _ => a) else pre (List.replicate u t.sym) (c.side e) })
          c.st c.dir = t := by
        simp only [DC.front, if_true]; exact ht
      obtain ⟨-, -, h3⟩ := F.run _ _ hden t hfr hc
      obtain ⟨k, hk, hv⟩ := h3.mem.1 hq
      exact ⟨t.steps * u + k, by have := hge u; omega, visitedAt_add.1 hv⟩

/-- what is known about a simulator after any number of steps, started in `cfg0` -/
structure SimOK (T : Table) (M : Machine σ S) (Den : DC σ S → Config → Prop)
    (TDen : DC σ S → (Int → Nat) → Prop) (hs : S → Prop) (z : σ) (cfg0 : Config) (s : SimSt σ S Nat) :
    Prop where
  dir : s.dir = s.tape.dir
  wf : s.tape.WF z
  safe : s.op ≠ .raised
  seen : SeenExact T cfg0 s.steps s.seen
  run : s.op = .running ∨ s.op = .gaveUp → Den (s.dc z) (run T s.steps cfg0)
  halt : s.op = .halt ∨ s.op = .undefined →
    HaltsAt T cfg0 s.steps ∧ TDen (s.dc z) (Spec.run T s.steps cfg0).tape ∧
      CellOK T cfg0 s.steps s.cell (s.op = .undefined)
  inf : s.op = .infRepeat →
    (s.infReason = some .chainStep ∧ NeverHalts T cfg0 ∧
      ∀ q, (VisitedForever T cfg0 q ↔ q ∈ s.recur) ∧ ∀ u, s.steps ≤ u → VisitedAt T cfg0 q u → q ∈ s.recur) ∨
    (s.infReason = some .macroStep ∧ (FollowsInf T M Den → NeverHalts T cfg0 ∧
      ∀ q u, s.steps ≤ u → VisitedAt T cfg0 q u → q ∈ s.recur))

variable [DecidableEq σ] [DecidableEq S]

theorem cellOK_add {T : Table} {cfg : Config} {m n : Nat} {cell : Option (Nat × Nat)} {u : Prop}
    (hn : 0 < n) (h : CellOK T (run T m cfg) n cell u) : CellOK T cfg (m + n) cell u := by
  obtain ⟨a, q, h1, h2, h3, h4⟩ := h
  have e : run T (n - 1) (run T m cfg) = run T (m + n - 1) cfg := by
    rw [← run_add]; congr 1; omega
  rw [e] at h2 h3
  exact ⟨a, q, h1, h2, h3, h4⟩

omit [DecidableEq σ] [DecidableEq S] in
theorem visitedForever_run {T : Table} {cfg : Config} {n q : Nat} :
    VisitedForever T (run T n cfg) q ↔ VisitedForever T cfg q := by
  constructor
  · intro h t
    obtain ⟨t', h1, h2⟩ := h t
    exact ⟨n + t', by omega, visitedAt_add.1 h2⟩
  · intro h t
    obtain ⟨t', h1, h2⟩ := h (n + t)
    obtain ⟨k, rfl⟩ : ∃ k, t' = n + k := ⟨t' - n, by omega⟩
    exact ⟨k, by omega, visitedAt_add.2 h2⟩

theorem macroStep_ok {T : Table} {M : Machine σ S} {Den TDen hs} (F : Follows T M Den TDen hs)
    {z : σ} {cfg0 : Config} {s : SimSt σ S Nat} (h : SimOK T M Den TDen hs z cfg0 s)
    (hop : s.op = .running) : SimOK T M Den TDen hs z cfg0 (s.macroStep natOps M) ∧
      ((s.macroStep natOps M).op = .running → s.steps < (s.macroStep natOps M).steps) ∧
      (s.macroStep natOps M).loops = s.loops := by
  obtain ⟨tape, st, dir, steps, loops, seen, op, cell, reason, recur⟩ := s
  have hdir : dir = tape.dir := h.dir
  subst hdir
  have hwf : tape.WF z := h.wf
  have hseen := h.seen
  have hden := h.run (Or.inl hop)
  change Den (ChainTape.toDC z tape st) _ at hden
  change SeenExact T cfg0 steps seen at hseen
  have htop := ChainTape.topSymbol_spec hwf st
  unfold SimSt.macroStep
  simp only [htop]
  obtain ⟨t, ht⟩ : ∃ t, M.trans (ChainTape.toDC z tape st).front st tape.dir = t := ⟨_, rfl⟩
  rw [ht]
  have hsafe := F.safe _ _ hden
  rw [show M.trans (ChainTape.toDC z tape st).front (ChainTape.toDC z tape st).st
    (ChainTape.toDC z tape st).dir = t from ht] at hsafe
  have hlive := (F.live _ _ hden).1
  rw [if_neg hsafe]
  by_cases hinf : t.cond = .infRepeat
  · rw [if_pos hinf]
    refine ⟨⟨rfl, hwf, by simp [hinf], hseen, ?_, ?_, ?_⟩, ?_, rfl⟩
    · simp [hinf]
    · simp [hinf]
    · intro _
      refine Or.inr ⟨rfl, fun FI => ?_⟩
      obtain ⟨h1, h2⟩ := FI _ _ hden t ht hinf
      refine ⟨neverHalts_of_run h1, fun q u hu hq => ?_⟩
      obtain ⟨v, rfl⟩ := Nat.exists_eq_add_of_le hu
      exact h2 v q (visitedAt_add.2 hq)
    · simp [hinf]
  rw [if_neg hinf]
  by_cases hch : t.st = st ∧ t.dir = tape.dir ∧ t.cond = .running
  · rw [if_pos hch]
    obtain ⟨hc1, hc2, hc3⟩ := hch
    have hw := hwf tape.dir
    obtain ⟨b, rest, hb⟩ : ∃ b rest, tape.half tape.dir = b :: rest := by
      generalize tape.half tape.dir = l at hw
      cases l with
      | nil => exact hw.elim
      | cons b rest => exact ⟨b, rest, rfl⟩
    obtain ⟨a, num⟩ := b
    cases num with
    | none =>
      rw [ChainTape.chainMove_inf t.sym hb]
      simp only
      refine ⟨⟨rfl, hwf, by simp, hseen, by simp, by simp, ?_⟩, by simp, trivial⟩
      intro _
      have hside : (ChainTape.toDC z tape st).side tape.dir = fun _ => a := by
        show unroll z (tape.half tape.dir) = _
        rw [hb]; rfl
      have hfr : (ChainTape.toDC z tape st).front = a := by
        show (ChainTape.toDC z tape st).side tape.dir 0 = a
        rw [hside]
      obtain ⟨h1, h2⟩ := chain_forever F (c := ChainTape.toDC z tape st) (by rw [← ht, hfr]; rfl) hc1 hc2 hc3
        hside _ hden
      refine Or.inl ⟨rfl, neverHalts_of_run h1, fun q => ⟨by rw [← visitedForever_run, (h2 q).1], fun u hu hq => ?_⟩⟩
      obtain ⟨v, rfl⟩ := Nat.exists_eq_add_of_le hu
      exact (h2 q).2 v (visitedAt_add.2 hq)
    | some n =>
      obtain ⟨t', htm, hw', hd', hu1, hu2⟩ := ChainTape.chainMove_fin hwf t.sym hb
      rw [htm]
      simp only
      rw [hb] at hw
      have hn := (wfHalf_cons.1 hw).1
      have hside : (ChainTape.toDC z tape st).side tape.dir = pre (List.replicate n a) (unroll z rest) := by
        show unroll z (tape.half tape.dir) = _
        rw [hb]; rfl
      have hfr : (ChainTape.toDC z tape st).front = a := by
        show (ChainTape.toDC z tape st).side tape.dir 0 = a
        rw [hside]
        obtain ⟨m, rfl⟩ : ∃ m, n = m + 1 := ⟨n - 1, by omega⟩
        rfl
      obtain ⟨r1, r2, -⟩ := chain_run F (c := ChainTape.toDC z tape st) (by rw [← ht, hfr]; rfl) hc1 hc2 hc3 n
        hside _ hden
      have hpos := (F.run _ _ hden t ht hc3).1
      refine ⟨⟨hd'.symm, hw', by rw [hc3]; simp, r2 hn steps cfg0 seen hseen rfl, fun _ => ?_, ?_, ?_⟩,
        fun _ => ?_, trivial⟩
      · show Den _ (run T (steps + t.steps * n) cfg0)
        rw [run_add]
        convert r1 using 1
        ext1
        · rfl
        · exact hd'
        · rename_i e
          show unroll z (t'.half e) = if e = tape.dir then unroll z rest
            else pre (List.replicate n t.sym) (unroll z (tape.half e))
          by_cases he : e = tape.dir
          · subst he; rw [if_pos rfl, hu1]
          · have he' := Dir.ne_iff.1 he
            subst he'
            rw [if_neg he, hu2]
      · simp [hc3]
      · simp [hc3]
      · show steps < steps + t.steps * n
        have := Nat.mul_pos hpos hn
        omega
  rw [if_neg hch]
  by_cases hg : t.cond = .gaveUp
  · rw [if_neg (by simpa using hg)]
    exact ⟨⟨rfl, hwf, by simp [hg], hseen, fun _ => hden, by simp [hg], by simp [hg]⟩, by simp [hg], rfl⟩
  · rw [if_pos hg]
    obtain ⟨t', htm, hw', hd', hdc⟩ := ChainTape.singleMove_spec hwf t.sym t.dir st t.st
    rw [htm]
    simp only
    cases hcond : t.cond with
    | running =>
      obtain ⟨h1, h2, h3⟩ := F.run _ _ hden t ht hcond
      refine ⟨⟨hd'.symm, hw', by simp, ?_, fun _ => ?_, by simp, by simp⟩, fun _ => ?_, trivial⟩
      · exact seenExact_merge hseen h3
      · show Den (ChainTape.toDC z t' t.st) (run T (steps + t.steps) cfg0)
        rw [run_add, hdc]; exact h2
      · show steps < steps + t.steps
        omega
    | halt =>
      obtain ⟨h1, h2, h3, h4, h5⟩ := F.halt _ _ hden t ht (Or.inl hcond)
      have hpos : 0 < t.steps := by
        rcases Nat.eq_zero_or_pos t.steps with h0 | h0
        · have := h2.1; rw [h0] at this; exact absurd this hlive
        · exact h0
      refine ⟨⟨hd'.symm, hw', by simp, seenExact_merge hseen h4, by simp, fun _ => ⟨?_, ?_, ?_⟩, by simp⟩,
        by simp, trivial⟩
      · exact haltsAt_of_run hlive h2
      · show TDen (ChainTape.toDC z t' t.st) (run T (steps + t.steps) cfg0).tape
        rw [run_add, hdc]; exact h3
      · rw [hcond] at h5; exact cellOK_add hpos h5
    | undefined =>
      obtain ⟨h1, h2, h3, h4, h5⟩ := F.halt _ _ hden t ht (Or.inr hcond)
      have hpos : 0 < t.steps := by
        rcases Nat.eq_zero_or_pos t.steps with h0 | h0
        · have := h2.1; rw [h0] at this; exact absurd this hlive
        · exact h0
      refine ⟨⟨hd'.symm, hw', by simp, seenExact_merge hseen h4, by simp, fun _ => ⟨?_, ?_, ?_⟩, by simp⟩,
        by simp, trivial⟩
      · exact haltsAt_of_run hlive h2
      · show TDen (ChainTape.toDC z t' t.st) (run T (steps + t.steps) cfg0).tape
        rw [run_add, hdc]; exact h3
      · rw [hcond] at h5; exact cellOK_add hpos h5
    | infRepeat => exact absurd hcond hinf
    | gaveUp => exact absurd hcond hg
    | raised => exact absurd hcond hsafe

theorem step_ok {T : Table} {M : Machine σ S} {Den TDen hs} (F : Follows T M Den TDen hs)
    {z : σ} {cfg0 : Config} {s : SimSt σ S Nat} (h : SimOK T M Den TDen hs z cfg0 s) :
    SimOK T M Den TDen hs z cfg0 (s.step natOps M) ∧
      (s.op = .running → (s.step natOps M).loops = s.loops + 1 ∧
        ((s.step natOps M).op = .running → s.steps < (s.step natOps M).steps)) := by
  unfold SimSt.step
  by_cases hop : s.op = .running
  · rw [if_neg (by simpa using hop)]
    have h' : SimOK T M Den TDen hs z cfg0 { s with loops := s.loops + 1 } :=
      ⟨h.dir, h.wf, h.safe, h.seen, h.run, h.halt, h.inf⟩
    obtain ⟨h1, h2, h3⟩ := macroStep_ok F h' hop
    exact ⟨h1, fun _ => ⟨h3, h2⟩⟩
  · rw [if_pos hop]
    exact ⟨h, fun hh => absurd hh hop⟩

omit [DecidableEq σ] [DecidableEq S] in
theorem init_ok {T : Table} {M : Machine σ S} {Den TDen hs}
    (hden : Den (initDC M) Spec.init) :
    SimOK T M Den TDen hs M.initSym Spec.init (SimSt.init natOps M) where
  dir := rfl
  wf := ChainTape.wf_init _ _
  safe := by simp [SimSt.init]
  seen := seenExact_nil _ _
  run _ := by
    have e : (SimSt.init natOps M).dc M.initSym = initDC M := by
      ext1
      · rfl
      · rfl
      · rename_i d; cases d <;> rfl
    rw [e]; exact hden
  halt h := by simp [SimSt.init] at h
  inf h := by simp [SimSt.init] at h

theorem after_succ (M : Machine σ S) (n : Nat) :
    SimSt.after M (n + 1) = SimSt.step natOps M (SimSt.after M n) :=
  Function.iterate_succ_apply' _ _ _

theorem after_ok {T : Table} {M : Machine σ S} {Den TDen hs} (F : Follows T M Den TDen hs)
    (hden : Den (initDC M) Spec.init) (n : Nat) :
    SimOK T M Den TDen hs M.initSym Spec.init (SimSt.after M n) ∧
      ((SimSt.after M n).op = .running → (SimSt.after M n).loops = n ∧ n ≤ (SimSt.after M n).steps) := by
  induction n with
  | zero => exact ⟨init_ok hden, fun _ => ⟨rfl, Nat.zero_le _⟩⟩
  | succ n ih =>
    rw [after_succ]
    obtain ⟨h1, h2⟩ := step_ok F ih.1
    refine ⟨h1, fun hr => ?_⟩
    have hop : (SimSt.after M n).op = .running := by
      by_contra hh
      unfold SimSt.step at hr
      rw [if_pos hh] at hr
      exact hh hr
    have := ih.2 hop
    have h3 := (h2 hop).1
    have h4 := (h2 hop).2 hr
    exact ⟨by omega, by omega⟩

theorem loopSeekGo_after (M : Machine σ S) (cutoff k n : Nat) :
    ∃ m, SimSt.loopSeekGo natOps M cutoff k (SimSt.after M n) = SimSt.after M m := by
  induction k generalizing n with
  | zero => exact ⟨n, rfl⟩
  | succ k ih =>
    unfold SimSt.loopSeekGo
    split
    · rw [← after_succ]; exact ih _
    · exact ⟨n, rfl⟩

theorem seekGo_after (M : Machine σ S) (cutoff k n : Nat) :
    ∃ m, SimSt.seekGo M cutoff k (SimSt.after M n) = SimSt.after M m := by
  induction k generalizing n with
  | zero => exact ⟨n, rfl⟩
  | succ k ih =>
    unfold SimSt.seekGo
    split
    · rw [← after_succ]; exact ih _
    · exact ⟨n, rfl⟩

/-- the loop of `seek` is run to its end -/
theorem seek_done {T : Table} {M : Machine σ S} {Den TDen hs} (F : Follows T M Den TDen hs)
    (hden : Den (initDC M) Spec.init) (cutoff : Nat) :
    ∃ m, SimSt.seek M cutoff (SimSt.init natOps M) = SimSt.after M m ∧
      ¬ ((SimSt.after M m).steps < cutoff ∧ (SimSt.after M m).op = .running) ∧
      ∀ j, j < m → (SimSt.after M j).steps < cutoff ∧ (SimSt.after M j).op = .running := by
  have key : ∀ k n, cutoff ≤ n + k → (∀ j, j < n → (SimSt.after M j).steps < cutoff ∧
      (SimSt.after M j).op = .running) → ∃ m, SimSt.seekGo M cutoff k (SimSt.after M n) = SimSt.after M m ∧
      ¬ ((SimSt.after M m).steps < cutoff ∧ (SimSt.after M m).op = .running) ∧
      ∀ j, j < m → (SimSt.after M j).steps < cutoff ∧ (SimSt.after M j).op = .running := by
    intro k
    induction k with
    | zero =>
      intro n hn hall
      refine ⟨n, rfl, ?_, hall⟩
      rintro ⟨h1, h2⟩
      have := ((after_ok F hden n).2 h2).2
      omega
    | succ k ih =>
      intro n hn hall
      by_cases hc : (SimSt.after M n).steps < cutoff ∧ (SimSt.after M n).op = .running
      · obtain ⟨m, hm⟩ := ih (n + 1) (by omega) (fun j hj => by
          rcases Nat.lt_succ_iff_lt_or_eq.1 hj with hj | rfl
          · exact hall j hj
          · exact hc)
        refine ⟨m, ?_, hm.2⟩
        rw [← hm.1, after_succ]
        conv_lhs => unfold SimSt.seekGo
        rw [if_pos hc]
      · refine ⟨n, ?_, hc, hall⟩
        conv_lhs => unfold SimSt.seekGo
        rw [if_neg hc]
  obtain ⟨m, hm⟩ := key cutoff 0 (by omega) (fun j hj => absurd hj (by omega))
  exact ⟨m, hm⟩

/-- the loop of `loop_seek` is run to its end -/
theorem loopSeek_done {T : Table} {M : Machine σ S} {Den TDen hs} (F : Follows T M Den TDen hs)
    (hden : Den (initDC M) Spec.init) (cutoff : Nat) :
    ∃ m, SimSt.loopSeek natOps M cutoff (SimSt.init natOps M) = SimSt.after M m ∧
      ¬ (m < cutoff ∧ (SimSt.after M m).op = .running) ∧
      m ≤ cutoff ∧ ∀ j, j < m → (SimSt.after M j).op = .running := by
  have key : ∀ k n, cutoff = n + k → (∀ j, j < n → (SimSt.after M j).op = .running) →
      ∃ m, SimSt.loopSeekGo natOps M cutoff k (SimSt.after M n) = SimSt.after M m ∧
      ¬ (m < cutoff ∧ (SimSt.after M m).op = .running) ∧
      m ≤ cutoff ∧ ∀ j, j < m → (SimSt.after M j).op = .running := by
    intro k
    induction k with
    | zero =>
      intro n hn hall
      exact ⟨n, rfl, by omega, by omega, hall⟩
    | succ k ih =>
      intro n hn hall
      by_cases hc : (SimSt.after M n).op = .running
      · have hl := ((after_ok F hden n).2 hc).1
        obtain ⟨m, hm⟩ := ih (n + 1) (by omega) (fun j hj => by
          rcases Nat.lt_succ_iff_lt_or_eq.1 hj with hj | rfl
          · exact hall j hj
          · exact hc)
        refine ⟨m, ?_, hm.2⟩
        rw [← hm.1, after_succ]
        conv_lhs => unfold SimSt.loopSeekGo
        rw [if_pos ⟨by omega, hc⟩]
      · refine ⟨n, ?_, fun h => hc h.2, by omega, hall⟩
        conv_lhs => unfold SimSt.loopSeekGo
        rw [if_neg (fun h => hc h.2)]
  obtain ⟨m, hm⟩ := key cutoff 0 (by omega) (fun j hj => absurd hj (by omega))
  exact ⟨m, hm⟩

end Model
