import Verif.Model.CppLazy
import Verif.Lemmas.CppText
import Mathlib.Order.Interval.Finset.Nat

/-!
# The lazy beaver search
-/

namespace Model.Cpp
open Spec

theorem haltsAt_unique {M : Table} {c : Config} {j k : Nat} (h : HaltsAt M c j) (h' : HaltsAt M c k) : j = k := by
  rcases Nat.lt_trichotomy j k with hl | hl | hl
  · exact absurd h.1 (h'.2 j hl)
  · exact hl
  · exact absurd h'.1 (h.2 k hl)

/-- What `Seek` finds out about a machine of the enumeration. -/
theorem seek_spec {tm : TM} {n m : Nat} (h : tm.Good n m) (hn : 0 < n) (hm : 0 < m) (maxSteps : Int) :
    ∃ s, seek tm maxSteps Sim.new = .ok s ∧
      (s.isHalted = true ∧ s.stepNum ≤ maxSteps.toNat ∧ HaltsAt tm.table init s.stepNum ∧
          (∃ t q a, s.stepNum = t + 1 ∧ q < n ∧ a < m ∧ StuckAt tm.table t q a ∧ s.lastState = some (q : Int) ∧ s.lastSymbol = some a) ∨
        s.isHalted = false ∧ (run tm.table maxSteps.toNat init).state ≠ none) := by
  obtain ⟨s, j, e, hj, hr, hsn, g1, g2, g3⟩ := seekN_spec h.toShaped (maxSteps - Sim.new.stepNum).toNat rel_new (inRange_init hn hm)
  have e0 : (maxSteps - Sim.new.stepNum).toNat = maxSteps.toNat := by
    show (maxSteps - ((0 : Nat) : Int)).toNat = _
    simp
  have e1 : s.stepNum = j := by rw [hsn]; show 0 + j = j; omega
  rw [e0] at hj g2
  refine ⟨s, e, ?_⟩
  by_cases hh : s.isHalted = true
  · left
    have hnone := (rel_halted hr).1 hh
    rw [e1]
    refine ⟨hh, hj, ⟨hnone, g1⟩, ?_⟩
    cases j with
    | zero => simp [run, init] at hnone
    | succ t =>
      obtain ⟨q, hq, l1, l2⟩ := g3 (by omega)
      simp only [Nat.add_sub_cancel] at hq l2
      have hir := inRange_run (shaped_fits h.toShaped) (inRange_init hn hm) t (by rw [hq]; simp)
      refine ⟨t, q, _, rfl, hir.1 q hq, hir.2 _, ⟨⟨hq, rfl⟩, ?_⟩, l1, l2⟩
      have hnext : (tm.table q ((run tm.table t init).tape (run tm.table t init).pos)).next = none := by
        rw [← step_state hq, ← run_succ']; exact hnone
      cases hi : tm.table q ((run tm.table t init).tape (run tm.table t init).pos) with
      | undef => rfl
      | halt w d => exact absurd hi (good_noHalt h q _ (hir.1 q hq) (hir.2 _) w d)
      | go w d q' => rw [hi] at hnext; cases hnext
  · right
    refine ⟨by simpa using hh, fun hc => hh ((rel_halted hr).2 ?_)⟩
    by_cases hlt : j < maxSteps.toNat
    · exact g2 hlt
    · have : j = maxSteps.toNat := by omega
      rw [this]; exact hc

/-- what the filter answers -/
def lazyRes (maxSteps : Int) (tm : TM) : Expand :=
  match seek tm maxSteps Sim.new with
  | .ok s => ⟨s.isHalted, s.lastState, s.lastSymbol⟩
  | _ => ⟨false, none, none⟩

theorem lazyRes_right {tm : TM} {n m : Nat} (h : tm.Good n m) (hn : 0 < n) (hm : 0 < m) (maxSteps : Int) :
    ResultRight n m tm (lazyRes maxSteps tm) := by
  obtain ⟨s, e, h1⟩ := seek_spec h hn hm maxSteps
  unfold lazyRes
  rw [e]
  intro hu
  rcases h1 with ⟨-, -, -, t, q, a, -, hq, ha, h2, h3, h4⟩ | ⟨h1, -⟩
  · exact ⟨t, q, a, hq, ha, h2, h3, h4⟩
  · simp only at hu; rw [h1] at hu; cases hu

/-- The three things the filter may do. -/
theorem lazyFilter_cases {tm : TM} {n m : Nat} (h : tm.Good n m) (hn : 0 < n) (hm : 0 < m) (maxSteps : Int) (file : Bool) (st : Lazy) :
    (∃ k ∈ st.steps, k ≤ maxSteps.toNat ∧ HaltsAt tm.table init k ∧
        lazyFilter maxSteps file st tm = .ok ({ st with total := st.total + 1, halt := st.halt + 1 }, lazyRes maxSteps tm)) ∨
    (∃ k, k ∉ st.steps ∧ k ≤ maxSteps.toNat ∧ HaltsAt tm.table init k ∧
        lazyFilter maxSteps file st tm = (tm.write >>= fun text => .ok ({ st with
          total := st.total + 1, halt := st.halt + 1, steps := k :: st.steps, witness := st.witness ++ [(k, text)] }, lazyRes maxSteps tm))) ∨
    ((run tm.table maxSteps.toNat init).state ≠ none ∧ file = true ∧
        lazyFilter maxSteps file st tm = (tm.write >>= fun text => .ok ({ st with
          total := st.total + 1, nonhalt := st.nonhalt ++ [text] }, lazyRes maxSteps tm))) ∨
    ((run tm.table maxSteps.toNat init).state ≠ none ∧ file = false ∧
        lazyFilter maxSteps file st tm = .ok ({ st with total := st.total + 1 }, lazyRes maxSteps tm)) := by
  obtain ⟨s, e, h1⟩ := seek_spec h hn hm maxSteps
  have hr : lazyRes maxSteps tm = ⟨s.isHalted, s.lastState, s.lastSymbol⟩ := by unfold lazyRes; rw [e]
  rw [hr]
  unfold lazyFilter
  rw [e]
  simp only [ok_bind]
  rcases h1 with ⟨hh, hle, hha, -⟩ | ⟨hh, hrun⟩
  · rw [if_pos hh]
    by_cases hmem : s.stepNum ∈ st.steps
    · exact Or.inl ⟨s.stepNum, hmem, hle, hha, by rw [if_pos hmem]⟩
    · exact Or.inr (Or.inl ⟨s.stepNum, hmem, hle, hha, by rw [if_neg hmem]⟩)
  · rw [if_neg (by rw [hh]; simp)]
    cases file with
    | true => exact Or.inr (Or.inr (Or.inl ⟨hrun, rfl, rfl⟩))
    | false => exact Or.inr (Or.inr (Or.inr ⟨hrun, rfl, rfl⟩))

theorem lazyFilter_res {tm : TM} {n m : Nat} (h : tm.Good n m) (hn : 0 < n) (hm : 0 < m) {maxSteps : Int} {file : Bool} {st st' : Lazy}
    {r : Expand} (hf : lazyFilter maxSteps file st tm = .ok (st', r)) : r = lazyRes maxSteps tm ∧ ResultRight n m tm r := by
  have : r = lazyRes maxSteps tm := by
    rcases lazyFilter_cases h hn hm maxSteps file st with ⟨k, -, -, -, e⟩ | ⟨k, -, -, -, e⟩ | ⟨-, -, e⟩ | ⟨-, -, e⟩
    · rw [e] at hf; exact (Prod.mk.inj (Out.ok.inj hf)).2.symm
    · rw [e] at hf
      obtain ⟨x, -, h2⟩ := bind_ok hf
      exact (Prod.mk.inj (Out.ok.inj h2)).2.symm
    · rw [e] at hf
      obtain ⟨x, -, h2⟩ := bind_ok hf
      exact (Prod.mk.inj (Out.ok.inj h2)).2.symm
    · rw [e] at hf; exact (Prod.mk.inj (Out.ok.inj hf)).2.symm
  exact ⟨this, this ▸ lazyRes_right h hn hm maxSteps⟩

/-- the set of numbers and the file of witnesses belong together -/
def Lazy.Consistent (st : Lazy) : Prop := st.witness.map Prod.fst = st.steps.reverse ∧ st.steps.Nodup

/-- What is in the files after a number of machines. -/
theorem folds_lazy {n m : Nat} (hn : 0 < n) (hm : 0 < m) {maxSteps : Int} {file : Bool} {tr : List TM} {st st' : Lazy}
    (h : Folds (lazyFilter maxSteps file) tr st st') (hg : ∀ tm ∈ tr, tm.Good n m) :
    (∀ k, k ∈ st'.steps ↔ k ∈ st.steps ∨ k ≤ maxSteps.toNat ∧ ∃ tm ∈ tr, HaltsAt tm.table init k) ∧
    (∀ k s, (k, s) ∈ st'.witness → (k, s) ∈ st.witness ∨ ∃ tm ∈ tr, tm.write = .ok s ∧ HaltsAt tm.table init k) ∧
    (∀ s, s ∈ st'.nonhalt → s ∈ st.nonhalt ∨ ∃ tm ∈ tr, tm.write = .ok s ∧ (run tm.table maxSteps.toNat init).state ≠ none) ∧
    (file = true → ∀ tm ∈ tr, (run tm.table maxSteps.toNat init).state ≠ none → ∃ s ∈ st'.nonhalt, tm.write = .ok s) ∧
    (∀ s ∈ st.nonhalt, s ∈ st'.nonhalt) ∧
    (st.Consistent → st'.Consistent) := by
  induction h with
  | nil s => exact ⟨fun k => by simp, fun k s h => Or.inl h, fun s h => Or.inl h, by simp, fun _ h => h, id⟩
  | @cons tm tr s s1 s2 r hf _ ih =>
    obtain ⟨i1, i2, i3, i4, i5, i6⟩ := ih fun x hx => hg x (by simp [hx])
    have hgt := hg tm (by simp)
    have key : (∀ k, k ∈ s1.steps ↔ k ∈ s.steps ∨ k ≤ maxSteps.toNat ∧ HaltsAt tm.table init k) ∧
        (∀ k t, (k, t) ∈ s1.witness → (k, t) ∈ s.witness ∨ tm.write = .ok t ∧ HaltsAt tm.table init k) ∧
        (∀ t, t ∈ s1.nonhalt → t ∈ s.nonhalt ∨ tm.write = .ok t ∧ (run tm.table maxSteps.toNat init).state ≠ none) ∧
        (file = true → (run tm.table maxSteps.toNat init).state ≠ none → ∃ t ∈ s1.nonhalt, tm.write = .ok t) ∧
        (∀ t ∈ s.nonhalt, t ∈ s1.nonhalt) ∧ (s.Consistent → s1.Consistent) := by
      have live : (run tm.table maxSteps.toNat init).state ≠ none → ∀ k, ¬ (k ≤ maxSteps.toNat ∧ HaltsAt tm.table init k) :=
        fun hr k hk => hr (run_none_mono hk.1 hk.2.1)
      have dead : ∀ k, k ≤ maxSteps.toNat → HaltsAt tm.table init k → ¬ (run tm.table maxSteps.toNat init).state ≠ none :=
        fun k h1 h2 hc => hc (run_none_mono h1 h2.1)
      rcases lazyFilter_cases hgt hn hm maxSteps file s with ⟨k, a1, a2, a3, e⟩ | ⟨k, a1, a2, a3, e⟩ | ⟨a1, a2, e⟩ | ⟨a1, a2, e⟩
      · rw [e] at hf
        obtain ⟨rfl, -⟩ := Prod.mk.inj (Out.ok.inj hf)
        refine ⟨fun j => ⟨Or.inl, ?_⟩, fun _ _ h => Or.inl h, fun _ h => Or.inl h, fun _ h => absurd h (dead k a2 a3), fun _ h => h, id⟩
        rintro (h | ⟨-, h⟩)
        · exact h
        · rw [haltsAt_unique h a3]; exact a1
      · rw [e] at hf
        obtain ⟨x, hx, h2⟩ := bind_ok hf
        obtain ⟨rfl, -⟩ := Prod.mk.inj (Out.ok.inj h2)
        refine ⟨fun j => ?_, fun j t h => ?_, fun _ h => Or.inl h, fun _ h => absurd h (dead k a2 a3), fun _ h => h, ?_⟩
        · simp only [List.mem_cons]
          constructor
          · rintro (rfl | h)
            · exact Or.inr ⟨a2, a3⟩
            · exact Or.inl h
          · rintro (h | ⟨-, h⟩)
            · exact Or.inr h
            · exact Or.inl (haltsAt_unique h a3)
        · rcases List.mem_append.1 h with h | h
          · exact Or.inl h
          · obtain ⟨rfl, rfl⟩ := Prod.mk.inj (List.mem_singleton.1 h)
            exact Or.inr ⟨hx, a3⟩
        · rintro ⟨c1, c2⟩
          refine ⟨?_, ?_⟩
          · simp [c1]
          · exact List.nodup_cons.2 ⟨a1, c2⟩
      · rw [e] at hf
        obtain ⟨x, hx, h2⟩ := bind_ok hf
        obtain ⟨rfl, -⟩ := Prod.mk.inj (Out.ok.inj h2)
        refine ⟨fun j => ⟨Or.inl, ?_⟩, fun _ _ h => Or.inl h, fun t h => ?_, fun _ _ => ⟨x, by simp, hx⟩, fun t h => by simp [h], id⟩
        · rintro (h | h)
          · exact h
          · exact absurd h (live a1 j)
        · rcases List.mem_append.1 h with h | h
          · exact Or.inl h
          · rw [List.mem_singleton.1 h]; exact Or.inr ⟨hx, a1⟩
      · rw [e] at hf
        obtain ⟨rfl, -⟩ := Prod.mk.inj (Out.ok.inj hf)
        refine ⟨fun j => ⟨Or.inl, ?_⟩, fun _ _ h => Or.inl h, fun _ h => Or.inl h, fun hfl => (by rw [a2] at hfl; cases hfl), fun _ h => h, id⟩
        rintro (h | h)
        · exact h
        · exact absurd h (live a1 j)
    obtain ⟨k1, k2, k3, k4, k5, k6⟩ := key
    refine ⟨fun k => ?_, fun k t h => ?_, fun t h => ?_, fun hfile x hx hrun => ?_, fun t h => i5 t (k5 t h), fun h => i6 (k6 h)⟩
    · rw [i1, k1]
      constructor
      · rintro ((h | ⟨h1, h2⟩) | ⟨h1, x, hx, h2⟩)
        · exact Or.inl h
        · exact Or.inr ⟨h1, tm, by simp, h2⟩
        · exact Or.inr ⟨h1, x, by simp [hx], h2⟩
      · rintro (h | ⟨h1, x, hx, h2⟩)
        · exact Or.inl (Or.inl h)
        · rcases List.mem_cons.1 hx with rfl | hx
          · exact Or.inl (Or.inr ⟨h1, h2⟩)
          · exact Or.inr ⟨h1, x, hx, h2⟩
    · rcases i2 k t h with h | ⟨x, hx, h2⟩
      · rcases k2 k t h with h | h
        · exact Or.inl h
        · exact Or.inr ⟨tm, by simp, h⟩
      · exact Or.inr ⟨x, by simp [hx], h2⟩
    · rcases i3 t h with h | ⟨x, hx, h2⟩
      · rcases k3 t h with h | h
        · exact Or.inl h
        · exact Or.inr ⟨tm, by simp, h⟩
      · exact Or.inr ⟨x, by simp [hx], h2⟩
    · rcases List.mem_cons.1 hx with rfl | hx
      · obtain ⟨t, ht, h2⟩ := k4 hfile hrun
        exact ⟨t, i5 t ht, h2⟩
      · exact i4 hfile x hx hrun

/-! ### Completeness -/

/-- undefined cells made halting ones -/
def totalised (M : Table) : Table := fun q a => match M q a with
  | .undef => .halt 1 .R
  | i => i

theorem totalised_ne (M : Table) (q a : Nat) : totalised M q a ≠ .undef := by
  unfold totalised
  split
  · simp
  · next h => exact h

theorem totalised_fits {M : Table} {n m : Nat} (hm : 1 < m) (h : Fits M n m) : Fits (totalised M) n m := by
  intro q hq a ha
  have := h q hq a ha
  unfold totalised
  cases hi : M q a with
  | undef => exact hm
  | halt w d => rw [hi] at this; exact this
  | go w d q' => rw [hi] at this; exact this

theorem totalised_step (M : Table) (c : Config) : Spec.step (totalised M) c = Spec.step M c := by
  cases hq : c.state with
  | none => rw [step_halted hq, step_halted hq]
  | some q =>
    rw [step_eq hq, step_eq hq]
    unfold totalised
    cases M q (c.tape c.pos) <;> rfl

theorem totalised_run (M : Table) (t : Nat) (c : Config) : run (totalised M) t c = run M t c := by
  induction t generalizing c with
  | zero => rfl
  | succ t ih => unfold run; rw [totalised_step, ih]

theorem totalised_halts (M : Table) (k : Nat) : HaltsAt (totalised M) init k ↔ HaltsAt M init k := by
  unfold HaltsAt
  simp only [totalised_run]

/-- a machine that halts has a halting cell -/
theorem halting_cell {M : Table} {n m k : Nat} (hf : Fits M n m) (hn : 0 < n) (hm : 0 < m) (total : ∀ q < n, ∀ a < m, M q a ≠ .undef)
    (h : HaltsAt M init k) : ∃ q < n, ∃ a < m, ∃ w d, M q a = .halt w d := by
  cases k with
  | zero => have := h.1; simp [run, init] at this
  | succ t =>
    have ht := h.2 t (by omega)
    cases hq : (run M t init).state with
    | none => exact absurd hq ht
    | some q =>
      have hir := inRange_run hf (inRange_init hn hm) t ht
      refine ⟨q, hir.1 q hq, _, hir.2 (run M t init).pos, ?_⟩
      have hnext := h.1
      rw [run_succ', step_state hq] at hnext
      cases hi : M q ((run M t init).tape (run M t init).pos) with
      | undef => exact absurd hi (total q (hir.1 q hq) _ (hir.2 _))
      | halt w d => exact ⟨w, d, rfl⟩
      | go w d q' => rw [hi] at hnext; cases hnext

theorem blank_inv {M : Table} {n m : Nat} : TreeInv M n m (Renaming.flip n m (decide ((M 0 0).dir = .L))) fun _ _ => .undef := by
  refine ⟨rfl, rfl, fun q _ a _ => Or.inl rfl, ?_, ?_, Or.inr ?_⟩
  · intro q _ a _ w d h; cases h
  · rintro q a ⟨-, -, h⟩; exact absurd rfl h
  · unfold Renaming.dir Renaming.flip
    cases hd : (M 0 0).dir <;> rfl

theorem stuck_halts {P : Table} {t q a : Nat} (h : StuckAt P t q a) : HaltsAt P init (t + 1) := by
  refine ⟨?_, fun i hi hc => ?_⟩
  · rw [run_succ', step_state h.1.1, h.1.2, h.2]; rfl
  · have := run_none_mono (show i ≤ t by omega) hc
    rw [h.1.1] at this
    cases this

/-- If the tables `Tree` contain the empty one, and with a table that halts within `L` steps also its children, then the
step count of every halting machine up to `L` is that of one of them. -/
theorem lazy_complete {n m L : Nat} (hn : 0 < n) (hm : 1 < m) (Tree : Table → Prop) (hfit : ∀ P, Tree P → Fits P n m)
    (root : Tree fun _ _ => .undef)
    (closed : ∀ P t q a w d q', Tree P → (run P L init).state = none → StuckAt P t q a → q < n → a < m → TwoUndefined P n m →
      AllowedNext P n m w d q' → Tree (P.fill q a (.go w d q')))
    {k : Nat} (hk : k ≤ L) (hr : RunsExactly n m k) : ∃ P, Tree P ∧ HaltsAt P init k := by
  obtain ⟨M0, hf0, hh0⟩ := hr
  have hf := totalised_fits hm hf0
  have hh := (totalised_halts M0 k).2 hh0
  have total := fun q (_ : q < n) a (_ : a < m) => totalised_ne M0 q a
  generalize totalised M0 = M at hf hh total
  have hm0 : 0 < m := by omega
  obtain ⟨P, ρ, h1, h2, h3⟩ := tree_complete_gen hf hn hm0 total False (Or.inr (halting_cell hf hn hm0 total hh)) Tree
    (fun P => (run P L init).state = none) hfit
    (fun P t q a w d q' g1 g2 g3 g4 g5 g6 g7 => closed P t q a w d q' g1 g2 g3 g4 g5 (g6.resolve_left id) g7) _ _ _ blank_inv (le_refl _) root
  refine ⟨P, h1, ?_⟩
  rcases h3 with h3 | h3 | ⟨t, q, a, h3, h4⟩
  · exact absurd (run_none_mono hk hh.1) (run_restricts ρ hf hn hm0 h2.st0 h2.sy0 h2.restr L h3).2
  · exact absurd (run_none_mono hk hh.1) (run_restricts ρ hf hn hm0 h2.st0 h2.sy0 h2.restr L (h3 L)).2
  · rw [haltsAt_unique hh h4]
    exact stuck_halts h3

/-- a machine that halts in time is expanded, and all allowed children are there -/
theorem trace_closed {n m : Nat} (hn : 0 < n) (hm : 0 < m) {maxSteps : Int} {tr : List TM} (hg : ∀ tm ∈ tr, tm.Good n m)
    (hc : ∀ tm ∈ tr, (lazyRes maxSteps tm).reachedUndecided = true → ∃ cs, expandTM false tm (lazyRes maxSteps tm) = .ok cs ∧ ∀ c ∈ cs, c ∈ tr)
    {tm : TM} (htm : tm ∈ tr) {t q a w q' : Nat} {d : Dir} (hrun : (run tm.table maxSteps.toNat init).state = none)
    (hst : StuckAt tm.table t q a) (h2 : TwoUndefined tm.table n m) (hall : AllowedNext tm.table n m w d q') :
    ∃ c ∈ tr, c.table = Table.fill tm.table q a (.go w d q') := by
  have hgt := hg tm htm
  obtain ⟨s, e, h1⟩ := seek_spec hgt hn hm maxSteps
  have hr : lazyRes maxSteps tm = ⟨s.isHalted, s.lastState, s.lastSymbol⟩ := by unfold lazyRes; rw [e]
  rcases h1 with ⟨hh, -, hha, t1, q1, a1, e1, hq1, ha1, hst1, l1, l2⟩ | ⟨-, hrun'⟩
  · have ht : t1 = t := by
      have := haltsAt_unique hha (stuck_halts hst)
      omega
    subst ht
    have eq : q1 = q := by
      have := hst1.1.1
      rw [hst.1.1] at this
      exact (Option.some.inj this).symm
    have ea : a1 = a := by rw [← hst1.1.2, hst.1.2]
    subst eq; subst ea
    obtain ⟨cs, hcs, hsub⟩ := hc tm htm (by rw [hr]; exact hh)
    obtain ⟨cs', hcs', -, g⟩ := expand_spec false hgt (r := lazyRes maxSteps tm) hq1 ha1 hst (by rw [hr]; exact l1) (by rw [hr]; exact l2)
    rw [hcs] at hcs'
    obtain rfl := Out.ok.inj hcs'
    obtain ⟨c, hcm, hct⟩ := g (Or.inr h2) w d q' hall
    exact ⟨c, hsub c hcm, hct⟩
  · exact absurd hrun hrun'

theorem runs_of_good {tm : TM} {n m k : Nat} (h : tm.Good n m) (hh : HaltsAt tm.table init k) : RunsExactly n m k :=
  ⟨tm.table, shaped_fits h.toShaped, hh⟩

theorem runs_pos {n m k : Nat} (h : RunsExactly n m k) : 1 ≤ k := by
  obtain ⟨M, -, h⟩ := h
  cases k with
  | zero => have := h.1; simp [run, init] at this
  | succ k => omega

/-- what is known of an enumeration that has come to its end -/
theorem lbEnum_trace {fuel n m : Nat} (hn : 1 < n) (hm : 1 < m) {maxSteps : Int} {file : Bool} {st : Lazy}
    (h : lbEnum fuel n m maxSteps file = .ok st) :
    ∃ tr, Folds (lazyFilter maxSteps file) tr {} st ∧ TM.empty n m ∈ tr ∧ (∀ tm ∈ tr, tm.Good n m) ∧
      ∀ tm ∈ tr, (lazyRes maxSteps tm).reachedUndecided = true → ∃ cs, expandTM false tm (lazyRes maxSteps tm) = .ok cs ∧ ∀ c ∈ cs, c ∈ tr := by
  obtain ⟨tr, g1, g2, g3, g4⟩ := enumLoop_trace (n := n) (m := m) (lazyRes maxSteps)
    (fun s tm s' r hg hf => lazyFilter_res hg (by omega) (by omega) hf) fuel _ _ _
    (fun tm htm => by rw [List.mem_singleton.1 htm]; exact empty_good hn hm) h
  exact ⟨tr, g1, g2 _ (by simp), g3, g4⟩

theorem lbEnum_steps {fuel n m : Nat} (hn : 1 < n) (hm : 1 < m) {maxSteps : Int} {file : Bool} {st : Lazy}
    (h : lbEnum fuel n m maxSteps file = .ok st) (k : Nat) : k ∈ st.steps ↔ k ≤ maxSteps.toNat ∧ RunsExactly n m k := by
  obtain ⟨tr, g1, g2, g3, g4⟩ := lbEnum_trace hn hm h
  obtain ⟨f1, -⟩ := folds_lazy (by omega) (by omega) g1 g3
  rw [f1]
  constructor
  · rintro (hk | ⟨hk, tm, htm, hh⟩)
    · cases hk
    · exact ⟨hk, runs_of_good (g3 tm htm) hh⟩
  · rintro ⟨hk, hr⟩
    obtain ⟨P, ⟨tm, htm, rfl⟩, hh⟩ := lazy_complete (L := maxSteps.toNat) (by omega) hm (fun P => ∃ tm ∈ tr, tm.table = P)
      (by rintro P ⟨tm, htm, rfl⟩; exact shaped_fits (g3 tm htm).toShaped) ⟨_, g2, empty_table n m⟩
      (by
        rintro P t q a w d q' ⟨tm, htm, rfl⟩ c1 c2 c3 c4 c5 c6
        exact trace_closed (by omega) (by omega) g3 g4 htm c1 c2 c5 c6) hk hr
    exact Or.inr ⟨hk, tm, htm, hh⟩

/-! ### `min_missing` -/

theorem minMissingFrom_spec (steps : List Nat) (k i : Nat) :
    i ≤ minMissingFrom steps k i ∧ (∀ j, i ≤ j → j < minMissingFrom steps k i → j ∈ steps) ∧
      (minMissingFrom steps k i < i + k → minMissingFrom steps k i ∉ steps) := by
  induction k generalizing i with
  | zero => exact ⟨le_refl _, fun j h1 h2 => by simp only [minMissingFrom] at h2; omega, fun h => by simp only [minMissingFrom] at h; omega⟩
  | succ k ih =>
    unfold minMissingFrom
    by_cases hi : i ∈ steps
    · rw [if_pos hi]
      obtain ⟨h1, h2, h3⟩ := ih (i + 1)
      refine ⟨by omega, fun j a b => ?_, fun h => h3 (by omega)⟩
      by_cases hj : j = i
      · rw [hj]; exact hi
      · exact h2 j (by omega) b
    · rw [if_neg hi]
      exact ⟨le_refl _, fun j a b => by omega, fun _ => hi⟩

theorem minMissing_spec (steps : List Nat) : 1 ≤ minMissing steps ∧ minMissing steps ∉ steps ∧
    ∀ j, 1 ≤ j → j < minMissing steps → j ∈ steps := by
  obtain ⟨h1, h2, h3⟩ := minMissingFrom_spec steps steps.length 1
  refine ⟨h1, ?_, h2⟩
  intro hmem
  have hge : ¬ minMissing steps < 1 + steps.length := fun h => h3 h hmem
  -- then 1, ..., steps.length + 1 would all be members
  have hsub : Finset.Icc 1 (steps.length + 1) ⊆ steps.toFinset := by
    intro j hj
    rw [Finset.mem_Icc] at hj
    rw [List.mem_toFinset]
    rcases Nat.lt_or_ge j (minMissing steps) with hlt | hle
    · exact h2 j hj.1 hlt
    · have : j = minMissing steps := by omega
      rw [this]; exact hmem
  have := Finset.card_le_card hsub
  rw [Nat.card_Icc] at this
  have h5 := List.toFinset_card_le steps
  omega

/-! ### The parallel version -/

theorem lbContinue_trace {fuel n m : Nat} (hn : 1 < n) (hm : 1 < m) (hn' : n < 26) (hm' : m < 10) {maxSteps : Int} :
    ∀ {lines : List (List Char)} {st st' : Lazy}, (∀ l ∈ lines, ∃ tm : TM, tm.Good n m ∧ tm.write = .ok l) →
      lbContinue fuel maxSteps lines st = .ok st' →
      ∃ tr, Folds (lazyFilter maxSteps false) tr st st' ∧ (∀ tm ∈ tr, tm.Good n m) ∧
        (∀ tm : TM, tm.Good n m → (∃ l ∈ lines, tm.write = .ok l) → ∃ tm' ∈ tr, tm'.table = tm.table) ∧
        ∀ tm ∈ tr, (lazyRes maxSteps tm).reachedUndecided = true → ∃ cs, expandTM false tm (lazyRes maxSteps tm) = .ok cs ∧ ∀ c ∈ cs, c ∈ tr := by
  intro lines
  induction lines with
  | nil =>
    intro st st' _ h
    obtain rfl := Out.ok.inj h
    exact ⟨[], .nil _, by simp, by simp, by simp⟩
  | cons l lines ih =>
    intro st st' hl h
    rw [lbContinue] at h
    obtain ⟨tm0, hread, h⟩ := bind_ok h
    obtain ⟨st1, henum, h⟩ := bind_ok h
    -- a machine with this text has the table that is read
    have hsame : ∀ tm : TM, tm.Good n m → tm.write = .ok l → tm0.Good n m ∧ tm0.table = tm.table := by
      intro tm hgt hw
      obtain ⟨s, e1, e2⟩ := readTM_write hgt.toShaped hn' hm' (by omega) [] (Or.inl rfl)
      rw [hw] at e1
      obtain rfl := Out.ok.inj e1
      obtain ⟨tm', e3, e4, e5⟩ := ofTable_good hgt hn hm
      rw [List.append_nil, hread, e3] at e2
      obtain rfl := Out.ok.inj e2
      refine ⟨e5, ?_⟩
      unfold TM.table
      rw [e4]
    obtain ⟨tmw, hgw, hww⟩ := hl l (by simp)
    have hg0 := (hsame tmw hgw hww).1
    obtain ⟨tr1, a1, a2, a3, a4⟩ := enumLoop_trace (n := n) (m := m) (lazyRes maxSteps)
      (fun s tm s' r hg hf => lazyFilter_res hg (by omega) (by omega) hf) fuel _ _ _
      (fun tm htm => by rw [List.mem_singleton.1 htm]; exact hg0) henum
    obtain ⟨tr2, b1, b2, b3, b4⟩ := ih (fun l hl' => hl l (by simp [hl'])) h
    refine ⟨tr1 ++ tr2, folds_append a1 b1, ?_, ?_, ?_⟩
    · intro tm htm
      rcases List.mem_append.1 htm with htm | htm
      · exact a3 tm htm
      · exact b2 tm htm
    · rintro tm hgt ⟨l', hl', hw⟩
      rcases List.mem_cons.1 hl' with rfl | hl'
      · exact ⟨tm0, by simp [a2 tm0 (by simp)], (hsame tm hgt hw).2⟩
      · obtain ⟨tm', c1, c2⟩ := b3 tm hgt ⟨l', hl', hw⟩
        exact ⟨tm', by simp [c1], c2⟩
    · intro tm htm hu
      rcases List.mem_append.1 htm with htm | htm
      · obtain ⟨cs, c1, c2⟩ := a4 tm htm hu
        exact ⟨cs, c1, fun c hc => by simp [c2 c hc]⟩
      · obtain ⟨cs, c1, c2⟩ := b4 tm htm hu
        exact ⟨cs, c1, fun c hc => by simp [c2 c hc]⟩

theorem mapOut_mem {α β : Type} {f : α → Out β} : ∀ {l : List α} {r : List β}, mapOut f l = .ok r →
    (∀ a ∈ l, ∃ b ∈ r, f a = .ok b) ∧ ∀ b ∈ r, ∃ a ∈ l, f a = .ok b
  | [], r, h => by
    obtain rfl := Out.ok.inj h
    simp
  | a :: l, r, h => by
    rw [mapOut] at h
    obtain ⟨b, hb, h⟩ := bind_ok h
    obtain ⟨r', hr, h⟩ := bind_ok h
    obtain rfl := Out.ok.inj h
    obtain ⟨i1, i2⟩ := mapOut_mem hr
    refine ⟨fun x hx => ?_, fun y hy => ?_⟩
    · rcases List.mem_cons.1 hx with rfl | hx
      · exact ⟨b, by simp, hb⟩
      · obtain ⟨y, hy, e⟩ := i1 x hx
        exact ⟨y, by simp [hy], e⟩
    · rcases List.mem_cons.1 hy with rfl | hy
      · exact ⟨a, by simp, hb⟩
      · obtain ⟨x, hx, e⟩ := i2 y hy
        exact ⟨x, by simp [hx], e⟩

theorem mem_insertStep {k j : Nat} : ∀ {l : List Nat}, j ∈ insertStep k l ↔ j = k ∨ j ∈ l
  | [] => by simp [insertStep]
  | x :: l => by
    unfold insertStep
    split
    · simp
    · split
      · next h => rw [List.mem_cons, h]; simp
      · rw [List.mem_cons, mem_insertStep, List.mem_cons]; tauto

theorem sorted_insertStep {k : Nat} : ∀ {l : List Nat}, l.Pairwise (· < ·) → (insertStep k l).Pairwise (· < ·)
  | [], _ => by simp [insertStep]
  | x :: l, h => by
    obtain ⟨h1, h2⟩ := List.pairwise_cons.1 h
    unfold insertStep
    split
    · next hk =>
      refine List.pairwise_cons.2 ⟨fun y hy => ?_, h⟩
      rcases List.mem_cons.1 hy with rfl | hy
      · exact hk
      · exact Nat.lt_trans hk (h1 y hy)
    · split
      · exact h
      · next hk hk' =>
        refine List.pairwise_cons.2 ⟨fun y hy => ?_, sorted_insertStep h2⟩
        rcases mem_insertStep.1 hy with rfl | hy
        · omega
        · exact h1 y hy

theorem mergedSteps_spec (files : List (List (Nat × List Char))) :
    (mergedSteps files).Pairwise (· < ·) ∧ ∀ k, k ∈ mergedSteps files ↔ ∃ f ∈ files, ∃ s, (k, s) ∈ f := by
  have key : ∀ (ks l : List Nat), l.Pairwise (· < ·) → (ks.foldl (fun l k => insertStep k l) l).Pairwise (· < ·) ∧
      ∀ k, k ∈ ks.foldl (fun l k => insertStep k l) l ↔ k ∈ l ∨ k ∈ ks := by
    intro ks
    induction ks with
    | nil => intro l h; exact ⟨h, by simp⟩
    | cons x ks ih =>
      intro l h
      obtain ⟨h1, h2⟩ := ih _ (sorted_insertStep (k := x) h)
      refine ⟨h1, fun k => ?_⟩
      rw [List.foldl_cons, h2, mem_insertStep, List.mem_cons]
      tauto
  obtain ⟨h1, h2⟩ := key (files.flatten.map Prod.fst) [] List.Pairwise.nil
  refine ⟨h1, fun k => ?_⟩
  unfold mergedSteps
  rw [h2]
  simp only [List.not_mem_nil, false_or, List.mem_map, List.mem_flatten, Prod.exists, exists_and_right, exists_eq_right]
  constructor
  · rintro ⟨s, f, hf, hs⟩; exact ⟨f, hf, s, hs⟩
  · rintro ⟨f, hf, s, hs⟩; exact ⟨s, f, hf, hs⟩

/-- the first hole of an ascending list -/
theorem holes_spec : ∀ {l : List Nat} {k : Nat}, l.Pairwise (· < ·) → (holes l).head? = some k →
    k ∉ l ∧ (∃ y ∈ l, k < y) ∧ (∃ x, l.head? = some x ∧ x < k ∧ ∀ j, x ≤ j → j < k → j ∈ l)
  | [], k, _, h => by cases h
  | [x], k, _, h => by cases h
  | x :: y :: l, k, hp, h => by
    obtain ⟨h1, h2⟩ := List.pairwise_cons.1 hp
    have hxy := h1 y (by simp)
    rw [holes, List.head?_append] at h
    by_cases hgap : y - (x + 1) = 0
    · have hy : y = x + 1 := by omega
      rw [hgap] at h
      simp only [List.range_zero, List.map_nil, List.head?_nil, Option.none_or] at h
      obtain ⟨g1, ⟨z, hz, g2⟩, x', g3, g4, g5⟩ := holes_spec h2 h
      simp only [List.head?_cons, Option.some.injEq] at g3
      subst g3
      refine ⟨?_, ⟨z, by simp only [List.mem_cons] at hz ⊢; tauto, g2⟩, x, rfl, by omega, fun j a b => ?_⟩
      · intro hk
        rcases List.mem_cons.1 hk with rfl | hk
        · omega
        · exact g1 hk
      · by_cases hj : j = x
        · rw [hj]; simp
        · exact List.mem_cons_of_mem _ (g5 j (by omega) b)
    · obtain ⟨g, hg⟩ : ∃ g, y - (x + 1) = g + 1 := ⟨y - (x + 1) - 1, by omega⟩
      rw [hg, List.range_succ_eq_map] at h
      simp only [List.map_cons, List.head?_cons, Option.some_or, Option.some.injEq] at h
      have hk : k = x + 1 := by omega
      subst hk
      refine ⟨?_, ⟨y, by simp, by omega⟩, x, rfl, by omega, fun j a b => ?_⟩
      · intro hk
        rcases List.mem_cons.1 hk with hk | hk
        · omega
        · rcases List.mem_cons.1 hk with hk | hk
          · omega
          · have := (List.pairwise_cons.1 h2).1 _ hk
            omega
      · have : j = x := by omega
        rw [this]; simp

/-- without holes everything between the first and any other number is there -/
theorem holes_nil : ∀ {l : List Nat}, l.Pairwise (· < ·) → holes l = [] → ∀ x, l.head? = some x → ∀ y ∈ l, ∀ j, x ≤ j → j ≤ y → j ∈ l
  | [], _, _, x, hx, _, _, _, _, _ => by cases hx
  | [z], _, _, x, hx, y, hy, j, h1, h2 => by
    obtain rfl := Option.some.inj hx
    obtain rfl := List.mem_singleton.1 hy
    rw [Nat.le_antisymm h2 h1]; simp
  | z :: w :: l, hp, h, x, hx, y, hy, j, h1, h2 => by
    obtain rfl := Option.some.inj hx
    obtain ⟨p1, p2⟩ := List.pairwise_cons.1 hp
    have hzw := p1 w (by simp)
    rw [holes, List.append_eq_nil_iff] at h
    have hw : w = z + 1 := by
      have := congrArg List.length h.1
      simp only [List.length_map, List.length_range, List.length_nil] at this
      omega
    by_cases hj : j = z
    · rw [hj]; simp
    · rcases List.mem_cons.1 hy with rfl | hy
      · omega
      · exact List.mem_cons_of_mem _ (holes_nil p2 h.2 w rfl y hy j (by omega) h2)

/-- the numbers in the witness file are those of the set -/
theorem witness_keys {st : Lazy} (h : st.Consistent) (k : Nat) : (∃ s, (k, s) ∈ st.witness) ↔ k ∈ st.steps := by
  rw [← List.mem_reverse, ← h.1]
  simp

theorem parallel_steps {fuel n m : Nat} (hn : 1 < n) (hm : 1 < m) (hn' : n < 26) (hm' : m < 10) {initSteps maxSteps : Int}
    {st : Lazy} {parts : List Lazy} {chunks : List (List (List Char))}
    (h1 : lbEnum fuel n m initSteps true = .ok st) (hch : ∀ l, l ∈ chunks.flatten ↔ l ∈ st.nonhalt)
    (h2 : lbChunks fuel maxSteps chunks = .ok parts) (k : Nat) :
    (∃ f ∈ st.witness :: parts.map Lazy.witness, ∃ s, (k, s) ∈ f) ↔ k ≤ max initSteps.toNat maxSteps.toNat ∧ RunsExactly n m k := by
  have hn0 : 0 < n := by omega
  have hm0 : 0 < m := by omega
  obtain ⟨tr, g1, g2, g3, g4⟩ := lbEnum_trace hn hm h1
  obtain ⟨f1, -, f3, f4, -, f6⟩ := folds_lazy hn0 hm0 g1 g3
  have hcons : st.Consistent := f6 ⟨rfl, List.nodup_nil⟩
  obtain ⟨p1, p2⟩ := mapOut_mem h2
  have hlines : ∀ c ∈ chunks, ∀ l ∈ c, ∃ tm : TM, tm.Good n m ∧ tm.write = .ok l := by
    intro c hc l hl
    rcases f3 l ((hch l).1 (List.mem_flatten.2 ⟨c, hc, hl⟩)) with h | ⟨tm, htm, hw, -⟩
    · cases h
    · exact ⟨tm, g3 tm htm, hw⟩
  -- the chunks one by one
  have hpart : ∀ c ∈ chunks, ∀ p, lbContinue fuel maxSteps c {} = .ok p → ∃ tr' : List TM, (∀ tm ∈ tr', tm.Good n m) ∧
      (∀ tm : TM, tm.Good n m → (∃ l ∈ c, tm.write = .ok l) → ∃ tm' ∈ tr', tm'.table = tm.table) ∧
      (∀ tm ∈ tr', (lazyRes maxSteps tm).reachedUndecided = true → ∃ cs, expandTM false tm (lazyRes maxSteps tm) = .ok cs ∧ ∀ c ∈ cs, c ∈ tr') ∧
      (∀ k, k ∈ p.steps ↔ k ≤ maxSteps.toNat ∧ ∃ tm ∈ tr', HaltsAt tm.table init k) ∧ p.Consistent := by
    intro c hc p hp
    obtain ⟨tr', a1, a2, a3, a4⟩ := lbContinue_trace hn hm hn' hm' (hlines c hc) hp
    obtain ⟨b1, -, -, -, -, b6⟩ := folds_lazy hn0 hm0 a1 a2
    refine ⟨tr', a2, a3, a4, fun k => ?_, b6 ⟨rfl, List.nodup_nil⟩⟩
    rw [b1]
    constructor
    · rintro (h | h)
      · cases h
      · exact h
    · exact Or.inr
  have hfiles : (∃ f ∈ st.witness :: parts.map Lazy.witness, ∃ s, (k, s) ∈ f) ↔ k ∈ st.steps ∨ ∃ p ∈ parts, k ∈ p.steps := by
    constructor
    · rintro ⟨f, hf, hk⟩
      rcases List.mem_cons.1 hf with rfl | hf
      · exact Or.inl ((witness_keys hcons k).1 hk)
      · obtain ⟨p, hp, rfl⟩ := List.mem_map.1 hf
        obtain ⟨c, hc, e⟩ := p2 p hp
        obtain ⟨_, -, -, -, -, hcp⟩ := hpart c hc p e
        exact Or.inr ⟨p, hp, (witness_keys hcp k).1 hk⟩
    · rintro (hk | ⟨p, hp, hk⟩)
      · exact ⟨_, by simp, (witness_keys hcons k).2 hk⟩
      · obtain ⟨c, hc, e⟩ := p2 p hp
        obtain ⟨_, -, -, -, -, hcp⟩ := hpart c hc p e
        exact ⟨p.witness, by simp only [List.mem_cons, List.mem_map]; exact Or.inr ⟨p, hp, rfl⟩, (witness_keys hcp k).2 hk⟩
  rw [hfiles]
  constructor
  · rintro (hk | ⟨p, hp, hk⟩)
    · obtain ⟨a, b⟩ := (lbEnum_steps hn hm h1 k).1 hk
      exact ⟨le_trans a (le_max_left _ _), b⟩
    · obtain ⟨c, hc, e⟩ := p2 p hp
      obtain ⟨tr', q1, -, -, q4, -⟩ := hpart c hc p e
      obtain ⟨a, tm, htm, hh⟩ := (q4 k).1 hk
      exact ⟨le_trans a (le_max_right _ _), runs_of_good (q1 tm htm) hh⟩
  · rintro ⟨hk, hr⟩
    by_cases hk1 : k ≤ initSteps.toNat
    · exact Or.inl ((lbEnum_steps hn hm h1 k).2 ⟨hk1, hr⟩)
    · have hk2 : k ≤ maxSteps.toNat := by
        rcases le_max_iff.1 hk with h | h
        · exact absurd h hk1
        · exact h
      let In : TM → Prop := fun tm => tm ∈ tr ∨ ∃ c ∈ chunks, ∃ p ∈ parts, ∃ tr' : List TM, lbContinue fuel maxSteps c {} = .ok p ∧
        (∀ tm ∈ tr', tm.Good n m) ∧
        (∀ tm ∈ tr', (lazyRes maxSteps tm).reachedUndecided = true → ∃ cs, expandTM false tm (lazyRes maxSteps tm) = .ok cs ∧ ∀ c ∈ cs, c ∈ tr') ∧
        (∀ k, k ∈ p.steps ↔ k ≤ maxSteps.toNat ∧ ∃ tm ∈ tr', HaltsAt tm.table init k) ∧ tm ∈ tr'
      have hIn : ∀ tm, In tm → tm.Good n m := by
        rintro tm (h | ⟨c, hc, p, hp, tr', -, q1, -, -, h⟩)
        · exact g3 tm h
        · exact q1 tm h
      obtain ⟨P, ⟨tm, htm, rfl⟩, hh⟩ := lazy_complete (L := maxSteps.toNat) hn0 hm (fun P => ∃ tm, In tm ∧ tm.table = P)
        (by rintro P ⟨tm, htm, rfl⟩; exact shaped_fits (hIn tm htm).toShaped) ⟨_, Or.inl g2, empty_table n m⟩
        (by
          rintro P t q a w d q' ⟨tm, htm, rfl⟩ c1 c2 c3 c4 c5 c6
          have chunkStep : ∀ {tm : TM} {c p} {tr' : List TM}, c ∈ chunks → p ∈ parts → lbContinue fuel maxSteps c {} = .ok p →
              (∀ tm ∈ tr', tm.Good n m) →
              (∀ tm ∈ tr', (lazyRes maxSteps tm).reachedUndecided = true →
                ∃ cs, expandTM false tm (lazyRes maxSteps tm) = .ok cs ∧ ∀ c ∈ cs, c ∈ tr') →
              (∀ k, k ∈ p.steps ↔ k ≤ maxSteps.toNat ∧ ∃ tm ∈ tr', HaltsAt tm.table init k) → tm ∈ tr' →
              (run tm.table maxSteps.toNat init).state = none → StuckAt tm.table t q a → TwoUndefined tm.table n m →
              AllowedNext tm.table n m w d q' → ∃ tm', In tm' ∧ tm'.table = Table.fill tm.table q a (.go w d q') := by
            intro tm c p tr' hc hp he q1 q3 q4 htm c1 c2 c5 c6
            obtain ⟨x, hx, hxt⟩ := trace_closed hn0 hm0 q1 q3 htm c1 c2 c5 c6
            exact ⟨x, Or.inr ⟨c, hc, p, hp, tr', he, q1, q3, q4, hx⟩, hxt⟩
          rcases htm with htm | ⟨c, hc, p, hp, tr', he, q1, q3, q4, h⟩
          · by_cases hin : (run tm.table initSteps.toNat init).state = none
            · obtain ⟨c, hc, hct⟩ := trace_closed hn0 hm0 g3 g4 htm hin c2 c5 c6
              exact ⟨c, Or.inl hc, hct⟩
            · obtain ⟨l, hl, hw⟩ := f4 rfl tm htm hin
              obtain ⟨c, hc, hlc⟩ := List.mem_flatten.1 ((hch l).2 hl)
              obtain ⟨p, hp, he⟩ := p1 c hc
              obtain ⟨tr', q1, q2, q3, q4, -⟩ := hpart c hc p he
              obtain ⟨tm', htm', et⟩ := q2 tm (g3 tm htm) ⟨l, hlc, hw⟩
              rw [← et] at c1 c2 c5 c6 ⊢
              exact chunkStep hc hp he q1 q3 q4 htm' c1 c2 c5 c6
          · exact chunkStep hc hp he q1 q3 q4 h c1 c2 c5 c6) hk2 hr
      rcases htm with htm | ⟨c, hc, p, hp, tr', he, q1, q3, q4, h⟩
      · by_cases hin : (run tm.table initSteps.toNat init).state = none
        · -- halts within the short bound: then its number is at most that
          exact absurd (by
            by_contra hgt
            exact hh.2 _ (by omega) hin) hk1
        · obtain ⟨l, hl, hw⟩ := f4 rfl tm htm hin
          obtain ⟨c, hc, hlc⟩ := List.mem_flatten.1 ((hch l).2 hl)
          obtain ⟨p, hp, he⟩ := p1 c hc
          obtain ⟨tr', q1, q2, q3, q4, -⟩ := hpart c hc p he
          obtain ⟨tm', htm', et⟩ := q2 tm (g3 tm htm) ⟨l, hlc, hw⟩
          exact Or.inr ⟨p, hp, (q4 k).2 ⟨hk2, tm', htm', by rw [et]; exact hh⟩⟩
      · exact Or.inr ⟨p, hp, (q4 k).2 ⟨hk2, tm, h, hh⟩⟩

/-! ### The enumeration comes to its end -/

/-- the filter never fails on a machine that can be printed -/
theorem lazyFilter_ok {tm : TM} {n m : Nat} (h : tm.Good n m) (hn : 0 < n) (hm : 0 < m) (hn' : n < 26) (hm' : m < 10) (maxSteps : Int)
    (file : Bool) (st : Lazy) : ∃ st', lazyFilter maxSteps file st tm = .ok (st', lazyRes maxSteps tm) := by
  obtain ⟨s, e, -⟩ := readTM_write h.toShaped hn' hm' (by omega) [] (Or.inl rfl)
  rcases lazyFilter_cases h hn hm maxSteps file st with ⟨k, -, -, -, e'⟩ | ⟨k, -, -, -, e'⟩ | ⟨-, -, e'⟩ | ⟨-, -, e'⟩
  · exact ⟨_, e'⟩
  · rw [e, ok_bind] at e'; exact ⟨_, e'⟩
  · rw [e, ok_bind] at e'; exact ⟨_, e'⟩
  · exact ⟨_, e'⟩

/-- what is printed can be continued from -/
theorem lbContinue_ends {n m : Nat} (hn : 1 < n) (hm : 1 < m) (hn' : n < 26) (hm' : m < 10) (maxSteps : Int) :
    ∀ lines : List (List Char), (∀ l ∈ lines, ∃ tm : TM, tm.Good n m ∧ tm.write = .ok l) →
      ∃ f, ∀ st, ∃ st', ∀ k, lbContinue (f + k) maxSteps lines st = .ok st' := by
  intro lines
  induction lines with
  | nil => exact fun _ => ⟨0, fun st => ⟨st, fun _ => rfl⟩⟩
  | cons l lines ih =>
    intro hl
    obtain ⟨f2, h2⟩ := ih fun x hx => hl x (by simp [hx])
    obtain ⟨tm, hgt, hw⟩ := hl l (by simp)
    obtain ⟨s, e1, e2⟩ := readTM_write hgt.toShaped hn' hm' (by omega) [] (Or.inl rfl)
    rw [hw] at e1
    obtain rfl := Out.ok.inj e1
    obtain ⟨tm', e3, e4, e5⟩ := ofTable_good hgt hn hm
    rw [List.append_nil, e3] at e2
    obtain ⟨f1, h1⟩ := enumLoop_ends (n := n) (m := m) (allow := false) (filter := lazyFilter maxSteps false) (lazyRes maxSteps)
      (fun s tm hg => lazyFilter_ok hg (by omega) (by omega) hn' hm' maxSteps false s)
      (fun tm hg => lazyRes_right hg (by omega) (by omega) maxSteps) [tm']
      (fun tm htm => by rw [List.mem_singleton.1 htm]; exact e5)
    refine ⟨f1 + f2, fun st => ?_⟩
    obtain ⟨st1, g1⟩ := h1 st
    obtain ⟨st2, g2⟩ := h2 st1
    refine ⟨st2, fun k => ?_⟩
    rw [lbContinue, e2, ok_bind, show f1 + f2 + k = f1 + (f2 + k) by omega, g1, ok_bind, show f1 + (f2 + k) = f2 + (f1 + k) by omega, g2]

theorem lbChunks_ends {n m : Nat} (hn : 1 < n) (hm : 1 < m) (hn' : n < 26) (hm' : m < 10) (maxSteps : Int) :
    ∀ chunks : List (List (List Char)), (∀ c ∈ chunks, ∀ l ∈ c, ∃ tm : TM, tm.Good n m ∧ tm.write = .ok l) →
      ∃ f parts, ∀ k, lbChunks (f + k) maxSteps chunks = .ok parts := by
  intro chunks
  induction chunks with
  | nil => exact fun _ => ⟨0, [], fun _ => rfl⟩
  | cons c chunks ih =>
    intro h
    obtain ⟨f2, parts, h2⟩ := ih fun x hx => h x (by simp [hx])
    obtain ⟨f1, h1⟩ := lbContinue_ends hn hm hn' hm' maxSteps c (h c (by simp))
    obtain ⟨st, g1⟩ := h1 {}
    refine ⟨f1 + f2, st :: parts, fun k => ?_⟩
    have g2 := h2 (f1 + k)
    unfold lbChunks at g2 ⊢
    rw [mapOut, show f1 + f2 + k = f1 + (f2 + k) by omega, g1, ok_bind, show f1 + (f2 + k) = f2 + (f1 + k) by omega, g2, ok_bind]

end Model.Cpp
