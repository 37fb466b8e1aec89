import Verif.Lemmas.Count4
import Verif.Lemmas.Enumerate2

/-!
# Counting the output of an enumeration, and the machines of the tree
-/

namespace Model.Tools
open Spec Spec.Count Model.IO Model.Permute
open Model.Status (BBStatus)

/-! ## Enumeration runs -/

/-- the machines of an enumeration that starts with `1RB` -/
structure Proper (allow : Bool) (r : Rec) : Prop where
  good : r.tme.Good
  start : r.tme.tm.table 0 0 = .go 1 .R 1
  noHalt : ¬ HasHalt r.tme.tm.table r.tme.tm.nStates r.tme.tm.nSyms
  allow : r.tme.allowNoHalt = allow

/-- the count of a record -/
def val (allow : Bool) (r : Rec) : Int := (count r.tme.tm allow).getD 0

variable {allow : Bool}

theorem count_some {r : Rec} (h : Proper allow r) : (count r.tme.tm allow).isSome := by
  obtain ⟨s, w, hm⟩ := exists_maxes h.good.wf.states h.good.wf.syms ⟨_, _, _, h.start⟩
  have := hm.le 0 h.good.wf.states 0 h.good.wf.syms _ _ _ h.start
  rw [count_eq h.good.wf hm (by omega) (by omega)]
  rfl

theorem kids_proper {r : Rec} (h : Proper allow r) (hx : HaltsUndefined r.status r.tme) : ∀ k ∈ r.kids, Proper allow k := by
  intro k hk
  have hal := kids_allow h.good hx k hk
  obtain ⟨-, -, h3⟩ := kids_weight h.good hx
  by_cases hh : r.Halted
  · obtain ⟨hq, ha, hu⟩ := hx hh.1 hh.2
    obtain ⟨es, kids, -, h2, h4, -, -, h6⟩ := expand_good h.good hq ha
    have e : r.kids = kids := by simp [Rec.kids, hh, h2]
    rw [e] at hk
    obtain ⟨w, d, q', he⟩ := h6 k.tme (by rw [← h4]; exact List.mem_map_of_mem hk)
    refine ⟨(h3 k (e ▸ hk)).1, ?_, ?_, by rw [hal, h.allow]⟩
    · rw [he]
      simp only
      rw [sm_fill_table (h.good.wf.sane h.good.moves) hq ha, Table.fill_ne, h.start]
      rintro ⟨h1, h2⟩
      rw [← h1, ← h2, h.start] at hu
      cases hu
    · rw [he]
      simp only
      rw [sm_fill_table (h.good.wf.sane h.good.moves) hq ha]
      exact hasHalt_fill_go h.noHalt
  · simp [Rec.kids, hh] at hk

/-- what a machine counts is divided among what is written for it and its children -/
theorem step_sum {r : Rec} (h : Proper allow r) (hx : HaltsUndefined r.status r.tme) :
    (count r.written.tme.tm allow).isSome ∧ val allow r.written + (r.kids.map (val allow)).sum = val allow r := by
  by_cases hh : r.Halted
  · obtain ⟨hq, ha, hu⟩ := hx hh.1 hh.2
    obtain ⟨es, kids, h1, h2, h4, -, -, -⟩ := expand_good h.good hq ha
    obtain ⟨r', s1, -, -, s4⟩ := standardize_good h.good hq ha
    have e1 : r.kids = kids := by simp [Rec.kids, hh, h2]
    have e2 : r.written = r' := by simp [Rec.written, hh, s1]
    obtain ⟨c, c0, v, l1, l2, l3, l4⟩ := count_local h.good.wf h.good.moves h.start h.noHalt hq ha hu h1
    rw [h.allow] at l1 l2 l3
    rw [e1, e2]
    unfold val
    rw [s4]
    simp only
    rw [l2, l1]
    refine ⟨rfl, ?_⟩
    simp only [Option.getD_some]
    rw [l4, ← h4, List.map_map]
    congr 2
    apply List.map_congr_left
    intro k hk
    rw [l3 k.tme (by rw [← h4]; exact List.mem_map_of_mem hk)]
    rfl
  · have e1 : r.kids = [] := by simp [Rec.kids, hh]
    have e2 : r.written = r := by simp [Rec.written, hh]
    rw [e1, e2]
    exact ⟨count_some h, by simp⟩

section
variable {σ : Type} {I : QueueImpl σ Rec} {contents : σ → List Rec} {shuf : Nat → List Rec → List Rec}
  {decide : Nat → TMEnum → BBStatus}

/-- the total of what is written and what waits -/
def total (allow : Bool) (contents : σ → List Rec) (s : EState σ) : Int :=
  (s.out.map (val allow)).sum + ((contents s.stack).map (val allow)).sum

/-- records are proper and fresh -/
def Ready (allow : Bool) (contents : σ → List Rec) (s : EState σ) : Prop :=
  (∀ r ∈ contents s.stack, Proper allow r ∧ r.status = .empty) ∧ ∀ r ∈ s.out, (count r.tme.tm allow).isSome

theorem enumLoop_sum (hI : LawfulQueue I contents) (hs : ∀ i l, (shuf i l).Perm l) (hd : ∀ i e, HaltsUndefined (decide i e) e)
    (numEnum : Nat) : ∀ (fuel : Nat) (s s' : EState σ), enumLoop I shuf decide numEnum fuel s = .ok s' → Ready allow contents s →
      Ready allow contents s' ∧ total allow contents s' = total allow contents s
  | 0, _, _, h, _ => by simp [enumLoop] at h
  | fuel + 1, s, s', h, hr => by
    unfold enumLoop at h
    split at h
    · simp only [Res.ok.injEq] at h
      subst h
      exact ⟨hr, rfl⟩
    · split at h
      · rename_i st hp
        simp only [Res.ok.injEq] at h
        subst h
        obtain ⟨c1, c2⟩ := hI.pop_none s.stack (by rw [hp])
        rw [hp] at c2
        simp only at c2
        unfold Ready total
        simp only [c1, c2]
        exact ⟨⟨by simp, hr.2⟩, by simp⟩
      · rename_i r st hp
        have hperm := hI.pop_some s.stack r (by rw [hp])
        rw [hp] at hperm
        obtain ⟨hpr, hst⟩ := hr.1 r (hperm.mem_iff.2 (by simp))
        split at h
        · simp at h
        · rename_i s1 ha
          obtain ⟨o1, -, o3, -, -⟩ := addResult_spec hI hs ha
          simp only at o1 o3
          have hpr1 : Proper allow { r with status := decide s.tmNum r.tme } := ⟨hpr.1, hpr.2, hpr.3, hpr.4⟩
          have hx : HaltsUndefined (Rec.status { r with status := decide s.tmNum r.tme }) (Rec.tme { r with status := decide s.tmNum r.tme }) := hd _ _
          obtain ⟨w1, w2⟩ := step_sum hpr1 hx
          have hk := kids_proper hpr1 hx
          have hr1 : Ready allow contents s1 := by
            refine ⟨fun x hx => ?_, fun x hx => ?_⟩
            · rcases List.mem_append.1 (o3.mem_iff.1 hx) with hx | hx
              · exact ⟨hk x hx, kids_unrun _ x hx⟩
              · exact hr.1 x (hperm.mem_iff.2 (by simp [hx]))
            · rw [o1] at hx
              rcases List.mem_append.1 hx with hx | hx
              · exact hr.2 x hx
              · simp only [List.mem_singleton] at hx
                subst hx
                exact w1
          obtain ⟨i1, i2⟩ := enumLoop_sum hI hs hd numEnum fuel s1 s' h hr1
          refine ⟨i1, i2.trans ?_⟩
          unfold total
          have p1 := (o3.map (val allow)).sum_eq
          have p2 := (hperm.map (val allow)).sum_eq
          have ev : val allow { r with status := decide s.tmNum r.tme } = val allow r := rfl
          rw [p1, p2, o1]
          simp only [List.map_append, List.sum_append, List.map_cons, List.sum_cons, List.map_nil, List.sum_nil]
          rw [ev] at w2
          rw [← w2]
          ring

theorem drainLoop_sum (hI : LawfulQueue I contents) (hs : ∀ i l, (shuf i l).Perm l) :
    ∀ (fuel : Nat) (s s' : EState σ), drainLoop I shuf fuel s = .ok s' → Ready allow contents s →
      Ready allow contents s' ∧ total allow contents s' = total allow contents s
  | 0, _, _, h, _ => by simp [drainLoop] at h
  | fuel + 1, s, s', h, hr => by
    unfold drainLoop at h
    split at h
    · rename_i st hp
      simp only [Res.ok.injEq] at h
      subst h
      obtain ⟨c1, c2⟩ := hI.pop_none s.stack (by rw [hp])
      rw [hp] at c2
      simp only at c2
      unfold Ready total
      simp only [c1, c2]
      exact ⟨⟨by simp, hr.2⟩, by simp⟩
    · rename_i r st hp
      have hperm := hI.pop_some s.stack r (by rw [hp])
      rw [hp] at hperm
      obtain ⟨hpr, hst⟩ := hr.1 r (hperm.mem_iff.2 (by simp))
      obtain ⟨k1, k2, -⟩ := ran_empty hst
      split at h
      · simp at h
      · rename_i s1 ha
        obtain ⟨o1, -, o3, -, -⟩ := addResult_spec hI hs ha
        simp only [k1, k2, List.nil_append] at o1 o3
        have hr1 : Ready allow contents s1 := by
          refine ⟨fun x hx => hr.1 x (hperm.mem_iff.2 (by simp [o3.mem_iff.1 hx])), fun x hx => ?_⟩
          rw [o1] at hx
          rcases List.mem_append.1 hx with hx | hx
          · exact hr.2 x hx
          · simp only [List.mem_singleton] at hx
            subst hx
            exact count_some hpr
        obtain ⟨i1, i2⟩ := drainLoop_sum hI hs fuel s1 s' h hr1
        refine ⟨i1, i2.trans ?_⟩
        unfold total
        have p1 := (o3.map (val allow)).sum_eq
        have p2 := (hperm.map (val allow)).sum_eq
        rw [p1, p2, o1]
        simp only [List.map_append, List.sum_append, List.map_cons, List.sum_cons, List.map_nil, List.sum_nil]
        ring

theorem enumMain_sum (hI : LawfulQueue I contents) (hs : ∀ i l, (shuf i l).Perm l) (hd : ∀ i e, HaltsUndefined (decide i e) e)
    (numEnum fuel : Nat) : ∀ (inits : List Rec) (s s' : EState σ), enumMain I shuf decide numEnum fuel inits s = .ok s' →
      (∀ r ∈ inits, Proper allow r ∧ r.status = .empty) → contents s.stack = [] → Ready allow contents s →
      Ready allow contents s' ∧ total allow contents s' = total allow contents s + (inits.map (val allow)).sum ∧ contents s'.stack = []
  | [], s, s', h, _, hc, hr => by
    simp only [enumMain, Res.ok.injEq] at h
    subst h
    exact ⟨hr, by simp, hc⟩
  | r :: rs, s, s', h, hi, hc, hr => by
    unfold enumMain at h
    split at h
    · rename_i s1 h1
      have hperm := hI.push s.stack r
      rw [hc] at hperm
      have hready : Ready allow contents { s with stack := I.push s.stack r } := by
        refine ⟨fun x hx => ?_, hr.2⟩
        have := hperm.mem_iff.1 hx
        simp only [List.mem_singleton] at this
        subst this
        exact hi _ (by simp)
      have htot : total allow contents { s with stack := I.push s.stack r } = total allow contents s + val allow r := by
        unfold total
        simp only
        rw [(hperm.map (val allow)).sum_eq, hc]
        simp
      obtain ⟨_, _, _, _, _, _, _, hc1, -⟩ := continueEnum_spec hI hs numEnum fuel _ s1 h1 (fun x hx => (hready.1 x hx).2)
      have key : Ready allow contents s1 ∧ total allow contents s1 = total allow contents { s with stack := I.push s.stack r } := by
        unfold continueEnum at h1
        cases hl : enumLoop I shuf decide numEnum fuel { s with stack := I.push s.stack r } with
        | fuel => simp [hl] at h1
        | raised => simp [hl] at h1
        | ok s2 =>
          simp only [hl] at h1
          obtain ⟨i1, i2⟩ := enumLoop_sum hI hs hd numEnum fuel _ s2 hl hready
          by_cases hn : numEnum = 0
          · simp only [hn, ne_eq, not_true_eq_false, if_false, Res.ok.injEq] at h1
            subst h1
            exact ⟨i1, i2⟩
          · simp only [ne_eq, hn, not_false_eq_true, if_true] at h1
            obtain ⟨j1, j2⟩ := drainLoop_sum hI hs fuel s2 s1 h1 i1
            exact ⟨j1, j2.trans i2⟩
      obtain ⟨k1, k2, k3⟩ := enumMain_sum hI hs hd numEnum fuel rs s1 s' h (fun x hx => hi x (by simp [hx])) hc1 key.1
      refine ⟨k1, ?_, k3⟩
      rw [k2, key.2, htot]
      simp only [List.map_cons, List.sum_cons]
      ring
    · rename_i hx
      exact absurd h (hx _)

end

theorem countAll_eq {l : List Rec} (h : ∀ r ∈ l, (count r.tme.tm allow).isSome) :
    countAll (l.map (·.tme.tm)) allow = some (l.map (val allow)).sum := by
  unfold countAll
  rw [mapO_eq_some (g := fun m => (count m allow).getD 0)]
  · rw [List.map_map]
    rfl
  · intro m hm
    obtain ⟨r, hr, rfl⟩ := List.mem_map.1 hm
    obtain ⟨c, hc⟩ := Option.isSome_iff_exists.1 (h r hr)
    rw [hc]
    rfl

/-! ## The machines of the tree -/

/-- until it is stuck the filled table runs as the table -/
theorem run_fill {P : Table} {t q a : Nat} (h : StuckAt P t q a) (i : Instr) : ∀ t' ≤ t, run (Table.fill P q a i) t' init = run P t' init
  | 0, _ => rfl
  | t' + 1, hle => by
    rw [run_succ', run_succ', run_fill h i t' (by omega)]
    cases hq : (run P t' init).state with
    | none => rw [step_halted hq, step_halted hq]
    | some q' =>
      have hne : ¬ (q' = q ∧ (run P t' init).tape (run P t' init).pos = a) := by
        rintro ⟨rfl, rfl⟩
        have h1 : (run P (t' + 1) init).state = none := by
          rw [run_succ', step_state hq, h.2]
          rfl
        have := run_none_mono hle h1
        rw [h.1.1] at this
        cases this
      rw [step_eq hq, step_eq hq, Table.fill_ne hne]

variable {P : Table} {n k : Nat}

theorem treeMachine_fill (hP : TreeMachine P n k) (hh : ¬ HasHalt P n k) {t q a : Nat} (hs : StuckAt P t q a)
    (hq : q < n) (ha : a < k) {i : Instr}
    (hi : i = .halt 1 .R ∨ ∃ x d p, i = .go x d p ∧ AllowedNext P n k x d p) : TreeMachine (Table.fill P q a i) n k := by
  have hu := hs.2
  have keep : ∀ {q' a'}, P q' a' ≠ .undef → Table.fill P q a i q' a' = P q' a' := by
    intro q' a' hd
    rw [Table.fill_ne]
    rintro ⟨rfl, rfl⟩
    exact hd hu
  have hgo : ∀ {q' a'}, DefinedCell P n k q' a' → ∃ x d p, P q' a' = .go x d p := by
    rintro q' a' ⟨g1, g2, g3⟩
    cases e : P q' a' with
    | undef => exact absurd e g3
    | halt x d => exact absurd ⟨q', g1, a', g2, by rw [e]; rfl⟩ hh
    | go x d p => exact ⟨x, d, p, rfl⟩
  have hi0 : i ≠ .undef := by
    rcases hi with rfl | ⟨x, d, p, rfl, -⟩ <;> simp
  refine ⟨?_, ?_, ?_, ?_, ?_, ?_⟩
  · rw [keep (by rw [hP.start]; simp), hP.start]
  · intro q' hq' a' ha' hd
    by_cases hc : q' = q ∧ a' = a
    · obtain ⟨rfl, rfl⟩ := hc
      exact ⟨t, by rw [run_fill hs i t le_rfl]; exact hs.1⟩
    · rw [Table.fill_ne hc] at hd
      obtain ⟨t', h1⟩ := hP.used q' hq' a' ha' hd
      have hle : t' ≤ t := by
        by_contra hlt
        have h2 : (run P (t + 1) init).state = none := by
          rw [run_succ', step_state hs.1.1, hs.1.2, hs.2]
          rfl
        have := run_none_mono (show t + 1 ≤ t' by omega) h2
        rw [h1.1] at this
        cases this
      exact ⟨t', by rw [run_fill hs i t' hle]; exact h1⟩
  · intro q' hq' a' ha' x d p e p' hp'
    have lift : (p' = 0 ∨ ∃ q' < n, ∃ a' < k, ∃ w' d', P q' a' = .go w' d' p') →
        (p' = 0 ∨ ∃ q' < n, ∃ a' < k, ∃ w' d', Table.fill P q a i q' a' = .go w' d' p') := by
      rintro (h | ⟨q1, c1, a1, c2, x1, d1, e1⟩)
      · exact Or.inl h
      · exact Or.inr ⟨q1, c1, a1, c2, x1, d1, by rw [keep (by rw [e1]; simp), e1]⟩
    apply lift
    by_cases hc : q' = q ∧ a' = a
    · rw [hc.1, hc.2, Table.fill_self] at e
      subst e
      rcases hi with hi | ⟨x', d', p1, hi, hal⟩
      · cases hi
      · simp only [Instr.go.injEq] at hi
        obtain ⟨rfl, rfl, rfl⟩ := hi
        rcases hal.stUsed with h | ⟨q1, a1, s1, hdef, e1, hle⟩
        · exact Or.inl (by omega)
        · obtain ⟨x1, d1, p1, e2⟩ := hgo hdef
          rw [e2] at e1
          simp only [Instr.next, Option.some.injEq] at e1
          subst e1
          rcases Nat.lt_or_ge p' p1 with h | h
          · exact hP.states q1 hdef.1 a1 hdef.2.1 _ _ _ e2 p' h
          · have : p' = p1 := by omega
            subst this
            exact Or.inr ⟨q1, hdef.1, a1, hdef.2.1, _, _, e2⟩
    · rw [Table.fill_ne hc] at e
      exact hP.states q' hq' a' ha' _ _ _ e p' hp'
  · intro q' hq' a' ha' x d p e x' hx'
    have lift : (x' = 0 ∨ ∃ q' < n, ∃ a' < k, ∃ d' p', P q' a' = .go x' d' p') →
        (x' = 0 ∨ ∃ q' < n, ∃ a' < k, ∃ d' p', Table.fill P q a i q' a' = .go x' d' p') := by
      rintro (h | ⟨q1, c1, a1, c2, x1, d1, e1⟩)
      · exact Or.inl h
      · exact Or.inr ⟨q1, c1, a1, c2, x1, d1, by rw [keep (by rw [e1]; simp), e1]⟩
    apply lift
    by_cases hc : q' = q ∧ a' = a
    · rw [hc.1, hc.2, Table.fill_self] at e
      subst e
      rcases hi with hi | ⟨x1, d', p1, hi, hal⟩
      · cases hi
      · simp only [Instr.go.injEq] at hi
        obtain ⟨rfl, rfl, rfl⟩ := hi
        rcases hal.symUsed with h | ⟨q1, a1, hdef, hle⟩
        · exact Or.inl (by omega)
        · obtain ⟨x1, d1, p1, e2⟩ := hgo hdef
          rw [e2] at hle
          simp only [Instr.write] at hle
          rcases Nat.lt_or_ge x' x1 with h | h
          · exact hP.symbols q1 hdef.1 a1 hdef.2.1 _ _ _ e2 x' h
          · have : x' = x1 := by omega
            subst this
            exact Or.inr ⟨q1, hdef.1, a1, hdef.2.1, _, _, e2⟩
    · rw [Table.fill_ne hc] at e
      exact hP.symbols q' hq' a' ha' _ _ _ e x' hx'
  · intro q' hq' a' ha' x d e
    by_cases hc : q' = q ∧ a' = a
    · rw [hc.1, hc.2, Table.fill_self] at e
      rcases hi with hi | ⟨x1, d', p1, hi, hal⟩
      · rw [hi] at e
        simp only [Instr.halt.injEq] at e
        exact ⟨e.1.symm, e.2.symm⟩
      · rw [hi] at e
        cases e
    · rw [Table.fill_ne hc] at e
      exact absurd ⟨q', hq', a', ha', by rw [e]; rfl⟩ hh
  · unfold haltCells
    rw [Finset.card_le_one]
    have key : ∀ y ∈ (Finset.range n ×ˢ Finset.range k).filter (fun x => (Table.fill P q a i x.1 x.2).halts = true), y = (q, a) := by
      rintro ⟨q', a'⟩ hy
      simp only [Finset.mem_filter, Finset.mem_product, Finset.mem_range] at hy
      by_contra hne
      rw [Table.fill_ne (by rintro ⟨rfl, rfl⟩; exact hne rfl)] at hy
      exact hh ⟨q', hy.1.1, a', hy.1.2, hy.2⟩
    intro y hy z hz
    rw [key y hy, key z hz]

theorem fill_01_next {n k : Nat} (hn : 0 < n) (hk : 0 < k) : ∀ q a, Table.fill (blankSM n k).table 0 0 (.go 1 .R 1) q a =
    if q = 0 ∧ a = 0 then .go 1 .R 1 else .undef := by
  intro q a
  unfold Table.fill
  rw [blank_table]

theorem treeMachine_root (hn : 1 < n) (hk : 1 < k) : TreeMachine ((blankSM n k).fill 0 0 (.go 1 .R 1)).table n k := by
  have ht : ((blankSM n k).fill 0 0 (.go 1 .R 1)).table = Table.fill (blankSM n k).table 0 0 (.go 1 .R 1) :=
    sm_fill_table (blank_sane (by omega) (by omega)) (show 0 < n by omega) (show 0 < k by omega) _
  rw [ht]
  have hc := fill_01_next (n := n) (k := k) (by omega) (by omega)
  have hgo : ∀ q a x d p, Table.fill (blankSM n k).table 0 0 (.go 1 .R 1) q a = .go x d p → x = 1 ∧ p = 1 := by
    intro q a x d p e
    rw [hc] at e
    split at e
    · simp only [Instr.go.injEq] at e
      omega
    · cases e
  have hnh : ∀ q a x d, Table.fill (blankSM n k).table 0 0 (.go 1 .R 1) q a ≠ .halt x d := by
    intro q a x d e
    rw [hc] at e
    split at e <;> cases e
  refine ⟨by rw [hc]; rfl, ?_, ?_, ?_, fun q _ a _ x d e => absurd e (hnh q a x d), ?_⟩
  · intro q _ a _ hd
    rw [hc] at hd
    split at hd
    · rename_i h
      exact ⟨0, by rw [h.1, h.2]; exact ⟨rfl, rfl⟩⟩
    · exact absurd rfl hd
  · intro q _ a _ x d p e p' hp'
    have := hgo _ _ _ _ _ e
    exact Or.inl (by omega)
  · intro q _ a _ x d p e p' hp'
    have := hgo _ _ _ _ _ e
    exact Or.inl (by omega)
  · unfold haltCells
    rw [Finset.filter_eq_empty_iff.2]
    · simp
    · rintro ⟨q, a⟩ -
      simp only [hc]
      split <;> simp [Instr.halts]

theorem root_wf (hn : 1 < n) (hk : 1 < k) : ((blankSM n k).fill 0 0 (.go 1 .R 1)).WF ∧ ((blankSM n k).fill 0 0 (.go 1 .R 1)).Moves := by
  have hrow : ∀ r ∈ (blankSM n k).rows, r = List.replicate k undefTrans := fun r hr => List.eq_of_mem_replicate hr
  refine fillCell_wf (m := blankSM n k) ⟨by simp [blankSM]; omega, by simp [blankSM]; omega, by simp [blankSM], fun r hr => ?_, fun r hr t ht => ?_⟩
    (fun r hr t ht => ?_) 0 0 (go_wf .R (show 1 < k from hk) (show 1 < n from hn))
  · rw [hrow r hr]; simp [blankSM]
  · rw [hrow r hr] at ht
    rw [List.eq_of_mem_replicate ht]
    unfold BTrans.WF undefTrans
    rfl
  · rw [hrow r hr] at ht
    rw [List.eq_of_mem_replicate ht]
    right; rfl

/-- every machine of the tree can be counted -/
theorem inTree_treeMachine {root e : TMEnum} (hn : 1 < n) (hk : 1 < k) {allow : Bool} (hr : blankTMEnum n k true allow = some root)
    (h : InTree root e) : e.tm.WF ∧ e.tm.Moves ∧ e.tm.nStates = n ∧ e.tm.nSyms = k ∧ e.allowNoHalt = allow ∧
      TreeMachine e.tm.table n k ∧ ¬ HasHalt e.tm.table n k := by
  rw [blank_root_1rb allow hn hk, Option.some.injEq] at hr
  induction h with
  | root =>
    subst hr
    obtain ⟨w1, w2⟩ := root_wf hn hk
    refine ⟨w1, w2, rfl, rfl, rfl, treeMachine_root hn hk, ?_⟩
    rintro ⟨q, hq, a, ha, e⟩
    have ht : ((blankSM n k).fill 0 0 (.go 1 .R 1)).table = Table.fill (blankSM n k).table 0 0 (.go 1 .R 1) :=
      sm_fill_table (blank_sane (by omega) (by omega)) (show 0 < n by omega) (show 0 < k by omega) _
    simp only at e
    rw [ht, fill_01_next (by omega) (by omega)] at e
    split at e <;> simp [Instr.halts] at e
  | @child e e' t q a cs h1 h2 h3 h4 ih =>
    obtain ⟨w1, w2, w3, w4, w5, w6, w7⟩ := ih
    have hf := sane_fits_wf w1
    rw [w3, w4] at hf
    have hrange := inRange_run hf (inRange_init (by omega) (by omega)) t (by rw [h2.1.1]; simp)
    have hq : q < n := hrange.1 q h2.1.1
    have ha : a < k := by rw [← h2.1.2]; exact hrange.2 _
    have hsane := w1.sane w2
    obtain ⟨xs, -, hmem, hc1, hc2⟩ := enumChildren_eq hsane (by rw [w3]; exact hq) (by rw [w4]; exact ha)
    by_cases hal : e.allowNoHalt = true ∨ TwoUndefined e.tm.table e.tm.nStates e.tm.nSyms
    · rw [hc1 hal, Option.some.injEq] at h3
      subst h3
      obtain ⟨x, hx, rfl⟩ := List.mem_map.1 h4
      obtain ⟨-, hnext⟩ := (hmem x).1 hx
      obtain ⟨f1, f2⟩ := fillCell_wf w1 w2 q a (go_wf (n := e.tm.nStates) (k := e.tm.nSyms) (if x.2.2 = 0 then .L else .R) hnext.sym hnext.st)
      have ht : (e.tm.fill q a (tripleInstr x)).table = Table.fill e.tm.table q a (tripleInstr x) :=
        sm_fill_table hsane (by rw [w3]; exact hq) (by rw [w4]; exact ha) _
      refine ⟨f1, f2, w3, w4, w5, ?_, ?_⟩
      · simp only
        rw [ht]
        rw [w3, w4] at hnext
        exact treeMachine_fill w6 w7 h2 hq ha (Or.inr ⟨_, _, _, rfl, hnext⟩)
      · simp only
        rw [ht]
        exact hasHalt_fill_go w7
    · rw [hc2 hal, Option.some.injEq] at h3
      subst h3
      simp at h4

/-- what the root represents: the machines that start with `1RB` -/
theorem represents_root (hn : 1 < n) (hk : 1 < k) (T : Table) :
    StandsFor ((blankSM n k).fill 0 0 (.go 1 .R 1)).table T n k ↔ T 0 0 = .go 1 .R 1 := by
  have ht : ((blankSM n k).fill 0 0 (.go 1 .R 1)).table = Table.fill (blankSM n k).table 0 0 (.go 1 .R 1) :=
    sm_fill_table (blank_sane (by omega) (by omega)) (show 0 < n by omega) (show 0 < k by omega) _
  rw [ht]
  have hc := fill_01_next (n := n) (k := k) (by omega) (by omega)
  constructor
  · rintro ⟨ρ, r1, r2, r3, r4, r5, hr⟩
    have := hr 0 (by omega) 0 (by omega) (by rw [hc]; simp)
    rw [hc, if_pos ⟨rfl, rfl⟩, r2, r4] at this
    rw [this]
    simp [Renaming.instr, Renaming.dir, r1, r3, r5]
  · intro h
    refine ⟨Renaming.flip n k false, rfl, rfl, rfl, rfl, rfl, fun q _ a _ hd => ?_⟩
    rw [hc] at hd ⊢
    split at hd
    · rename_i hx
      rw [if_pos hx, hx.1, hx.2]
      exact h
    · exact absurd rfl hd

theorem count_root (hn : 1 < n) (hk : 1 < k) (allow : Bool) :
    count ((blankSM n k).fill 0 0 (.go 1 .R 1)) allow =
      some (((n * k - 1 : Nat) : Int) * (2 * n * k) ^ (n * k - 2) + if allow = true then (2 * n * k : Int) ^ (n * k - 1) else 0) := by
  classical
  have hwf := (root_wf (n := n) (k := k) hn hk).1
  have ht : ((blankSM n k).fill 0 0 (.go 1 .R 1)).table = Table.fill (blankSM n k).table 0 0 (.go 1 .R 1) :=
    sm_fill_table (blank_sane (by omega) (by omega)) (show 0 < n by omega) (show 0 < k by omega) _
  have hc := fill_01_next (n := n) (k := k) (by omega) (by omega)
  have hm : Maxes ((blankSM n k).fill 0 0 (.go 1 .R 1)).table n k 1 1 := by
    rw [ht]
    refine ⟨fun q _ a _ x d p e => ?_, ⟨0, by omega, 0, by omega, 1, .R, by rw [hc]; rfl⟩, ⟨0, by omega, 0, by omega, .R, 1, by rw [hc]; rfl⟩⟩
    rw [hc] at e
    split at e
    · simp only [Instr.go.injEq] at e; omega
    · cases e
  have hnh : ¬ HasHalt ((blankSM n k).fill 0 0 (.go 1 .R 1)).table n k := by
    rintro ⟨q, hq, a, ha, e⟩
    rw [ht, hc] at e
    split at e <;> simp [Instr.halts] at e
  have hund : undCells ((blankSM n k).fill 0 0 (.go 1 .R 1)).table n k = n * k - 1 := by
    have h1 := undCells_fill (P := (blankSM n k).table) (n := n) (k := k) (q := 0) (a := 0) (by omega) (by omega) (blank_table n k 0 0)
      (i := .go 1 .R 1) (by simp)
    have h2 : undCells (blankSM n k).table n k = n * k := by
      unfold undCells
      rw [Finset.filter_true_of_mem (fun x _ => blank_table n k _ _)]
      simp
    rw [ht]
    omega
  have := count_eq hwf hm le_rfl le_rfl allow
  change _ = some (((k - 2).descFactorial 0 : Nat) * ((n - 2).descFactorial 0 : Nat) *
    countMult n k (decide (HasHalt ((blankSM n k).fill 0 0 (.go 1 .R 1)).table n k)) allow
      (undCells ((blankSM n k).fill 0 0 (.go 1 .R 1)).table n k)) at this
  rw [this, hund, decide_eq_false hnh]
  unfold countMult
  have hnk : n * k - 1 ≥ 1 := by
    have : 2 * 2 ≤ n * k := Nat.mul_le_mul hn hk
    omega
  simp only [Bool.false_eq_true, if_false, if_pos hnk, Nat.descFactorial_zero, Nat.cast_one, one_mul, Option.some.injEq]
  rw [show n * k - 1 - 1 = n * k - 2 by omega]
  split <;> push_cast <;> rfl

end Model.Tools
