import Verif.Spec.Analyze
import Verif.Lemmas.FileTools
import Mathlib.Tactic.Ring

/-!
# Lemmas about `TM_Analyze.py`
-/

namespace Model.Analyze
open Model.Status Model.FileTools

/-! ### Counters -/

theorem bump_get {κ : Type} [DecidableEq κ] (c : List (κ × Nat)) (k k' : κ) :
    (Py.dget (bump c k) k').getD 0 = (Py.dget c k').getD 0 + if k' = k then 1 else 0 := by
  unfold bump
  rw [Py.dget_dset]
  by_cases h : k' = k
  · subst h; simp
  · simp [h]

theorem dset_sum {κ : Type} [DecidableEq κ] (c : List (κ × Nat)) (k : κ) (v : Nat) :
    ((Py.dset c k v).map Prod.snd).sum + (Py.dget c k).getD 0 = (c.map Prod.snd).sum + v := by
  induction c with
  | nil => simp [Py.dset, Py.dget]
  | cons e c ih =>
    unfold Py.dset
    unfold Py.dget at *
    by_cases h : e.1 = k
    · simp [h]; omega
    · simp [h]; omega

theorem bump_sum {κ : Type} [DecidableEq κ] (c : List (κ × Nat)) (k : κ) :
    ((bump c k).map Prod.snd).sum = (c.map Prod.snd).sum + 1 := by
  have := dset_sum c k ((Py.dget c k).getD 0 + 1)
  unfold bump
  omega

theorem dset_keys {κ : Type} [DecidableEq κ] (c : List (κ × Nat)) (k : κ) (v : Nat) (x : κ) :
    x ∈ (Py.dset c k v).map Prod.fst ↔ x = k ∨ x ∈ c.map Prod.fst := by
  induction c with
  | nil => simp [Py.dset]
  | cons e c ih =>
    unfold Py.dset
    by_cases h : e.1 = k
    · simp [h]
    · rw [if_neg h, List.map_cons, List.mem_cons, ih, List.map_cons, List.mem_cons]
      tauto

theorem bumps_get {κ : Type} [DecidableEq κ] (ks : List κ) : ∀ (c : List (κ × Nat)) (k' : κ),
    (Py.dget (ks.foldl bump c) k').getD 0 = (Py.dget c k').getD 0 + ks.count k' := by
  induction ks with
  | nil => intro c k'; simp
  | cons k ks ih =>
    intro c k'
    rw [List.foldl_cons, ih, bump_get, List.count_cons]
    by_cases h : k' = k
    · subst h; simp; omega
    · have : ¬ k = k' := fun e => h e.symm
      simp [h, this]

/-! ### Numbers that sum up a list -/

theorem Stat.Of.add {s : Stat} {vs : List Nat} (h : s.Of vs) {v : Nat} (hv : v ≠ 0) : (s.add v).Of (vs ++ [v]) := by
  obtain ⟨h1, h2, h3, h4, h5⟩ := h
  unfold Stat.add
  rw [if_pos hv]
  refine ⟨by simp [h1], by simp [h2], ?_, ?_, ?_⟩
  · simp only
    cases hm : s.min with
    | none => rw [hm] at h3; simp only at h3; simp [h3]
    | some m =>
      rw [hm] at h3
      simp only at h3
      refine ⟨?_, fun x hx => ?_⟩
      · rcases Nat.le_total m v with h | h
        · simp only [Nat.min_def, if_pos h]; simp [h3.1]
        · have e : Nat.min m v = v := Nat.min_eq_right h
          simp [e]
      · rw [List.mem_append, List.mem_singleton] at hx
        rcases hx with hx | rfl
        · exact Nat.le_trans (Nat.min_le_left _ _) (h3.2 x hx)
        · exact Nat.min_le_right _ _
  · intro x hx
    rw [List.mem_append, List.mem_singleton] at hx
    rcases hx with hx | rfl
    · exact Nat.le_trans (h4 x hx) (Nat.le_max_left _ _)
    · exact Nat.le_max_right _ _
  · left
    rcases Nat.le_total s.max v with h | h
    · have e : Nat.max s.max v = v := Nat.max_eq_right h
      simp [e]
    · have e : Nat.max s.max v = s.max := Nat.max_eq_left h
      rw [e]
      rcases h5 with h5 | ⟨-, h5⟩
      · simp [h5]
      · omega

theorem BigStat.Of.add {s : BigStat} {vs : List Int} (h : s.Of vs) {v : Int} (hv : v ≠ 0) : (s.add (some v)).Of (vs ++ [v]) := by
  obtain ⟨h1, h2, h3, h4⟩ := h
  unfold BigStat.add
  simp only [if_pos hv]
  refine ⟨by simp [h1], ?_, ?_, ?_⟩
  · simp only; omega
  · intro x hx
    rw [List.mem_append, List.mem_singleton] at hx
    rcases hx with hx | rfl
    · have := h3 x hx; simp only; omega
    · simp only; omega
  · simp only
    rcases le_total s.max v with h | h
    · rw [max_eq_right h]; simp
    · rw [max_eq_left h]
      rcases h4 with h4 | h4
      · simp [h4]
      · exact Or.inr h4

/-! ### What the statistics say about the records -/

theorem value_spec (r : Rec) (f : Field) : r.value f = if r.has f then some (r.number f) else none := by
  cases f <;> simp [Rec.value, Rec.has, Rec.number]

theorem numsOf_value (rs : List Rec) (f : Field) : numsOf rs f = rs.filterMap fun r => (r.value f).filter (· ≠ 0) := by
  unfold numsOf
  induction rs with
  | nil => rfl
  | cons r rs ih =>
    rw [List.filterMap_cons, ← ih, value_spec]
    cases h : r.has f
    · simp [h]
    · by_cases h0 : r.number f = 0 <;> simp [h, h0, Option.filter]

section
variable {E : Type} (loads : List Nat → Option E) (value : E → Int)

theorem Stats.Of.start : Stats.Of loads value {} [] := by
  refine ⟨rfl, rfl, rfl, rfl, rfl, ?_, ?_, ?_, fun _ => rfl, fun _ => rfl, rfl, rfl, fun k => by simp, fun _ => rfl, fun f => ?_⟩
  · exact ⟨rfl, by simp, by simp, Or.inr rfl⟩
  · exact ⟨rfl, by simp, by simp, Or.inr rfl⟩
  · exact ⟨rfl, by simp, by simp, Or.inr rfl⟩
  · exact ⟨rfl, rfl, rfl, by simp [numsOf], Or.inr ⟨rfl, rfl⟩⟩

theorem big_add {s : BigStat} {vs : List Int} (h : s.Of vs) {b : BigInt} {o : Option Int} (ho : bigVal loads value b = some o) :
    (s.add o).Of (vs ++ (bigOf loads value b).toList) := by
  unfold bigOf
  rw [ho]
  cases o with
  | none => simpa [BigStat.add] using h
  | some v =>
    by_cases hv : v = 0
    · subst hv
      simpa [BigStat.add, Option.filter] using h
    · have := h.add hv
      simpa [Option.filter, hv] using this

theorem addHalt_none (s : Stats) (r : Rec) : addHalt loads value s r = none ↔
    r.halts = true ∧ ¬ ((bigVal loads value r.status.halt.steps).isSome = true ∧ (bigVal loads value r.status.halt.score).isSome = true) := by
  unfold addHalt Rec.halts
  cases r.status.halt.decided <;> cases r.status.halt.halting <;> simp
  cases bigVal loads value r.status.halt.steps <;> cases bigVal loads value r.status.halt.score <;> simp

theorem addQuasi_none (s : Stats) (r : Rec) : addQuasi loads value s r = none ↔
    r.quasi = true ∧ ¬ (bigVal loads value r.status.quasi.steps).isSome = true := by
  unfold addQuasi Rec.quasi
  cases r.status.quasi.quasihalting <;> simp
  cases bigVal loads value r.status.quasi.steps <;> simp

theorem addRecord_none (s : Stats) (r : Rec) : addRecord loads value s r = none ↔ ¬ r.Readable loads value := by
  unfold addRecord Rec.Readable
  cases h : addHalt loads value { s with count := s.count + 1 } r with
  | none =>
    have := (addHalt_none loads value _ r).1 h
    simp only [Option.bind_none, true_iff]
    intro hc
    exact this.2 (hc.1 this.1)
  | some s1 =>
    have hn : ¬ _ := fun h' => by rw [(addHalt_none loads value { s with count := s.count + 1 } r).2 h'] at h; cases h
    simp only [Option.bind_some, Option.map_eq_none_iff, addQuasi_none]
    tauto

theorem Stats.Of.add {s s' : Stats} {rs : List Rec} (h : s.Of loads value rs) {r : Rec} (hr : addRecord loads value s r = some s') :
    s'.Of loads value (rs ++ [r]) := by
  unfold addRecord at hr
  simp only [Option.bind_eq_some_iff, Option.map_eq_some_iff] at hr
  obtain ⟨s1, hh, s2, hq, rfl⟩ := hr
  -- the statistics of numbers
  have hstat : ∀ f, (match r.value f with | none => s.stat f | some v => (s.stat f).add v).Of (numsOf (rs ++ [r]) f) := by
    intro f
    have e : numsOf (rs ++ [r]) f = numsOf rs f ++ ((r.value f).filter (· ≠ 0)).toList := by
      rw [numsOf_value, numsOf_value, List.filterMap_append]
      simp only [List.filterMap_cons, List.filterMap_nil]
      cases (r.value f).filter (· ≠ 0) <;> rfl
    rw [e]
    cases hv : r.value f with
    | none => simpa using h.stat f
    | some v =>
      by_cases h0 : v = 0
      · subst h0
        simpa [Stat.add, Option.filter] using h.stat f
      · simpa [Option.filter, h0] using (h.stat f).add h0
  have hfil : ∀ k, (Py.dget (r.filters.foldl bump s.filtersRun) k).getD 0 = ((rs ++ [r]).map fun r => r.filters.count k).sum := by
    intro k
    rw [bumps_get, h.filtersRun k]
    simp
  -- the quasihalting part
  have hquasi : s2.count = s1.count ∧ s2.unknown = s1.unknown ∧ s2.halt = s1.halt ∧ s2.inf = s1.inf ∧ s2.haltSteps = s1.haltSteps ∧
      s2.haltScore = s1.haltScore ∧ s2.unknownReason = s1.unknownReason ∧ s2.infReason = s1.infReason ∧
      s2.filtersRun = s1.filtersRun ∧ s2.stat = s1.stat ∧
      s2.qhalt = s1.qhalt + (if r.quasi then 1 else 0) ∧
      (∀ vs, s1.qhaltSteps.Of vs → s2.qhaltSteps.Of (vs ++ if r.quasi then (bigOf loads value r.status.quasi.steps).toList else [])) := by
    unfold addQuasi at hq
    by_cases hb : r.status.quasi.quasihalting = true
    · rw [if_pos hb] at hq
      have hb' : r.quasi = true := hb
      cases hs : bigVal loads value r.status.quasi.steps with
      | none => rw [hs] at hq; cases hq
      | some o =>
        rw [hs] at hq
        cases hq
        refine ⟨rfl, rfl, rfl, rfl, rfl, rfl, rfl, rfl, rfl, rfl, by simp [hb'], fun vs hv => ?_⟩
        rw [if_pos hb']
        exact big_add loads value hv hs
    · rw [if_neg hb] at hq
      have hb' : r.quasi = false := by simpa [Rec.quasi] using hb
      cases hq
      refine ⟨rfl, rfl, rfl, rfl, rfl, rfl, rfl, rfl, rfl, rfl, by simp [hb'], fun vs hv => ?_⟩
      simpa [hb'] using hv
  obtain ⟨q1, q2, q3, q4, q5, q6, q7, q8, q9, q10, q11, q12⟩ := hquasi
  -- the halting part
  have hq0 : s1.qhalt = s.qhalt ∧ s1.qhaltSteps = s.qhaltSteps ∧ s1.filtersRun = s.filtersRun ∧ s1.stat = s.stat ∧ s1.count = s.count + 1 := by
    unfold addHalt at hh
    split at hh
    · cases hh; exact ⟨rfl, rfl, rfl, rfl, rfl⟩
    · split at hh
      · split at hh
        · cases hh; exact ⟨rfl, rfl, rfl, rfl, rfl⟩
        · cases hh
      · cases hh; exact ⟨rfl, rfl, rfl, rfl, rfl⟩
  obtain ⟨z1, z2, z3, z4, z5⟩ := hq0
  have fsplit : ∀ (p : Rec → Bool) (g : Rec → Option Int), ((rs ++ [r]).filter p).filterMap g =
      (rs.filter p).filterMap g ++ if p r then (g r).toList else [] := by
    intro p g
    rw [List.filter_append, List.filterMap_append]
    by_cases hp : p r = true
    · cases hg : g r <;> simp [hp, hg]
    · simp [hp]
  have csplit : ∀ p : Rec → Bool, (rs ++ [r]).countP p = rs.countP p + if p r then 1 else 0 := by
    intro p
    rw [List.countP_append, List.countP_singleton]
  refine ⟨?_, ?_, ?_, ?_, ?_, ?_, ?_, ?_, ?_, ?_, ?_, ?_, ?_, ?_, ?_⟩ <;> simp only [q1, q2, q3, q4, q5, q6, q7, q8, q9, q10, q11]
  · rw [z5, h.count]; simp
  case refine_5 => rw [z1, h.qhalt, csplit]
  case refine_8 =>
    rw [fsplit]
    exact q12 _ (z2 ▸ h.qhaltSteps)
  case refine_14 => rw [z3]; exact hfil
  case refine_15 => rw [z4]; exact hstat
  all_goals
    clear q1 q2 q3 q4 q5 q6 q7 q8 q9 q10 q11 q12 z1 z2 z3 z4 z5 hq hstat hfil
    unfold addHalt at hh
    have hbits : ∀ d t : Bool, r.status.halt.decided = d → r.status.halt.halting = t →
        r.unknown = !d ∧ r.halts = (d && t) ∧ r.infinite = (d && !t) := by
      rintro _ _ rfl rfl; exact ⟨rfl, rfl, rfl⟩
    cases hd : r.status.halt.decided with
    | false =>
      have b := hbits false r.status.halt.halting hd rfl
      simp only [Bool.not_false, Bool.false_and] at b
      rw [hd, if_pos (by simp)] at hh
      cases hh
      obtain ⟨b1, b2, b3⟩ := b
      first
        | (rw [csplit, b1, h.unknown]; rfl)
        | (rw [csplit, b2, h.halt]; rfl)
        | (rw [csplit, b3, h.inf]; rfl)
        | (rw [fsplit, b2]; simpa using h.haltSteps)
        | (rw [fsplit, b2]; simpa using h.haltScore)
        | (intro k; rw [bump_get, h.unknownReason, csplit, b1]; simp [eq_comm])
        | (intro k; rw [h.infReason, csplit, b3]; simp)
        | (rw [bump_sum, h.unknownSum])
        | exact h.infSum
        | (intro k; rw [h.infKeys]; simp [b3, or_and_right, exists_or])
    | true =>
      cases ht : r.status.halt.halting with
      | true =>
        have b := hbits true true hd ht
        simp only [Bool.not_true, Bool.and_true, Bool.and_false] at b
        rw [hd, ht, if_neg (by simp), if_pos rfl] at hh
        obtain ⟨b1, b2, b3⟩ := b
        cases hs1 : bigVal loads value r.status.halt.steps with
        | none => rw [hs1] at hh; cases hh
        | some o1 =>
          cases hs2 : bigVal loads value r.status.halt.score with
          | none => rw [hs1, hs2] at hh; cases hh
          | some o2 =>
            rw [hs1, hs2] at hh
            cases hh
            first
              | (rw [csplit, b1, h.unknown]; rfl)
              | (rw [csplit, b2, h.halt]; rfl)
              | (rw [csplit, b3, h.inf]; rfl)
              | (rw [fsplit, b2]; exact big_add loads value h.haltSteps hs1)
              | (rw [fsplit, b2]; exact big_add loads value h.haltScore hs2)
              | (intro k; rw [h.unknownReason, csplit, b1]; simp)
              | (intro k; rw [h.infReason, csplit, b3]; simp)
              | exact h.unknownSum
              | exact h.infSum
              | (intro k; rw [h.infKeys]; simp [b3, or_and_right, exists_or])
      | false =>
        have b := hbits true false hd ht
        simp only [Bool.not_true, Bool.and_true, Bool.and_false, Bool.not_false] at b
        rw [hd, ht, if_neg (by simp), if_neg (by simp)] at hh
        cases hh
        obtain ⟨b1, b2, b3⟩ := b
        first
          | (rw [csplit, b1, h.unknown]; rfl)
          | (rw [csplit, b2, h.halt]; rfl)
          | (rw [csplit, b3, h.inf]; rfl)
          | (rw [fsplit, b2]; simpa using h.haltSteps)
          | (rw [fsplit, b2]; simpa using h.haltScore)
          | (intro k; rw [h.unknownReason, csplit, b1]; simp)
          | (intro k; rw [bump_get, h.infReason, csplit, b3]; simp [eq_comm])
          | exact h.unknownSum
          | (rw [bump_sum, h.infSum])
          | (intro k
             unfold bump
             rw [dset_keys, h.infKeys]
             simp only [List.mem_append, List.mem_singleton, or_and_right, exists_or, exists_eq_left, b3, true_and]
             constructor
             · rintro (rfl | h)
               · exact Or.inr rfl
               · exact Or.inl h
             · rintro (h | rfl)
               · exact Or.inr h
               · exact Or.inl rfl)

end

/-! ### The loops -/

section
variable {α E : Type} (rec : α → Rec) (loads : List Nat → Option E) (value : E → Int)

theorem addList_of {freq : Nat} (as : List α) : ∀ {s s' : Stats} {rs : List Rec}, s.Of loads value rs →
    addList rec loads value freq as s = some s' → s'.Of loads value (rs ++ as.map rec) := by
  induction as with
  | nil => intro s s' rs h e; cases e; simpa using h
  | cons a as ih =>
    intro s s' rs h e
    unfold addList at e
    cases hr : addRecord loads value s (rec a) with
    | none => rw [hr] at e; cases e
    | some s1 =>
      rw [hr] at e
      simp only at e
      split at e
      · cases e
      · have := ih (h.add loads value hr) e
        simpa using this

theorem addFiles_of {freq : Nat} (files : List (List (Item α))) : ∀ {s s' : Stats} {rs : List Rec}, s.Of loads value rs →
    addFiles rec loads value freq files s = some s' → s'.Of loads value (rs ++ recsOf rec files) := by
  induction files with
  | nil => intro s s' rs h e; cases e; simpa [recsOf] using h
  | cons f files ih =>
    intro s s' rs h e
    unfold addFiles at e
    cases hr : addList rec loads value freq (readAll f).1 s with
    | none => rw [hr] at e; cases e
    | some s1 =>
      rw [hr] at e
      simp only at e
      split at e
      · cases e
      · have := ih (addList_of rec loads value _ h hr) e
        simpa [recsOf, List.append_assoc] using this

theorem addList_none (as : List α) : ∀ s, addList rec loads value 0 as s = none ↔ ∃ a ∈ as, ¬ (rec a).Readable loads value := by
  induction as with
  | nil => intro s; simp [addList]
  | cons a as ih =>
    intro s
    unfold addList
    cases hr : addRecord loads value s (rec a) with
    | none => simp [(addRecord_none loads value s (rec a)).1 hr]
    | some s1 =>
      have : (rec a).Readable loads value := by
        by_contra hc
        rw [(addRecord_none loads value s (rec a)).2 hc] at hr
        cases hr
      simp [ih, this]

theorem addFiles_none (files : List (List (Item α))) : ∀ s, addFiles rec loads value 0 files s = none →
    (∃ f ∈ files, (readAll f).2 = .raised) ∨ ∃ r ∈ recsOf rec files, ¬ r.Readable loads value := by
  induction files with
  | nil => intro s h; cases h
  | cons f files ih =>
    intro s h
    unfold addFiles at h
    cases hr : addList rec loads value 0 (readAll f).1 s with
    | none =>
      obtain ⟨a, ha, hn⟩ := (addList_none rec loads value _ s).1 hr
      exact Or.inr ⟨rec a, by simp only [recsOf, List.map_cons, List.flatten_cons, List.map_append, List.mem_append]; exact Or.inl (List.mem_map_of_mem ha), hn⟩
    | some s1 =>
      rw [hr] at h
      simp only at h
      split at h
      · next hx => exact Or.inl ⟨f, by simp, hx⟩
      · rcases ih s1 h with ⟨g, hg, hx⟩ | ⟨r, hr, hx⟩
        · exact Or.inl ⟨g, by simp [hg], hx⟩
        · refine Or.inr ⟨r, ?_, hx⟩
          simp only [recsOf, List.map_cons, List.flatten_cons, List.map_append, List.mem_append]
          exact Or.inr hr

theorem addFiles_some {freq : Nat} (files : List (List (Item α))) : ∀ s s', addFiles rec loads value freq files s = some s' →
    (∀ f ∈ files, (readAll f).2 ≠ .raised) ∧ (∀ r ∈ recsOf rec files, r.Readable loads value) ∧
      addFiles rec loads value 0 files s = some s' := by
  have hl : ∀ (as : List α) s s', addList rec loads value freq as s = some s' →
      (∀ a ∈ as, (rec a).Readable loads value) ∧ addList rec loads value 0 as s = some s' := by
    intro as
    induction as with
    | nil => intro s s' h; cases h; exact ⟨by simp, rfl⟩
    | cons a as ih =>
      intro s s' h
      unfold addList at h
      cases hr : addRecord loads value s (rec a) with
      | none => rw [hr] at h; cases h
      | some s1 =>
        rw [hr] at h
        simp only at h
        split at h
        · cases h
        · obtain ⟨i1, i2⟩ := ih s1 s' h
          have hread : (rec a).Readable loads value := by
            by_contra hc
            rw [(addRecord_none loads value s (rec a)).2 hc] at hr
            cases hr
          refine ⟨fun x hx => ?_, ?_⟩
          · rw [List.mem_cons] at hx
            rcases hx with rfl | hx
            · exact hread
            · exact i1 x hx
          · unfold addList
            rw [hr]
            simpa using i2
  induction files with
  | nil => intro s s' h; cases h; exact ⟨by simp, by simp [recsOf], rfl⟩
  | cons f files ih =>
    intro s s' h
    unfold addFiles at h
    cases hr : addList rec loads value freq (readAll f).1 s with
    | none => rw [hr] at h; cases h
    | some s1 =>
      rw [hr] at h
      simp only at h
      split at h
      · cases h
      · next hx =>
        obtain ⟨i1, i2, i3⟩ := ih s1 s' h
        obtain ⟨l1, l2⟩ := hl _ _ _ hr
        refine ⟨fun g hg => ?_, fun r hm => ?_, ?_⟩
        · rw [List.mem_cons] at hg
          rcases hg with rfl | hg
          · exact hx
          · exact i1 g hg
        · simp only [recsOf, List.map_cons, List.flatten_cons, List.map_append, List.mem_append] at hm
          rcases hm with hm | hm
          · obtain ⟨a, ha, rfl⟩ := List.mem_map.1 hm
            exact l1 a ha
          · exact i2 r hm
        · unfold addFiles
          rw [l2]
          simp only [if_neg hx]
          exact i3

theorem addList_append (freq : Nat) (as bs : List α) : ∀ s, addList rec loads value freq (as ++ bs) s =
    (addList rec loads value freq as s).bind (addList rec loads value freq bs) := by
  induction as with
  | nil => intro s; rfl
  | cons a as ih =>
    intro s
    rw [List.cons_append, addList, addList]
    cases addRecord loads value s (rec a) with
    | none => rfl
    | some s1 =>
      simp only
      split
      · rfl
      · exact ih s1

theorem addFiles_flat (freq : Nat) (files : List (List (Item α))) (h : ∀ f ∈ files, (readAll f).2 ≠ .raised) : ∀ s,
    addFiles rec loads value freq files s = addList rec loads value freq (files.map fun f => (readAll f).1).flatten s := by
  induction files with
  | nil => intro s; rfl
  | cons f files ih =>
    intro s
    rw [addFiles, List.map_cons, List.flatten_cons, addList_append]
    cases addList rec loads value freq (readAll f).1 s with
    | none => rfl
    | some s1 =>
      simp only [if_neg (h f (by simp)), Option.bind_some]
      exact ih (fun g hg => h g (by simp [hg])) s1

theorem addList_freq {freq : Nat} (hq : freq ≠ 0) (hp : ∀ {s : Stats} {rs : List Rec}, s.Of loads value rs → (printable s = false ↔ Unprintable rs))
    (as : List α) : ∀ {s s' : Stats} {rs : List Rec}, s.Of loads value rs → addList rec loads value 0 as s = some s' →
    (addList rec loads value freq as s = none ↔
      ∃ n, 0 < n ∧ n ≤ as.length ∧ freq ∣ rs.length + n ∧ Unprintable (rs ++ (as.take n).map rec)) := by
  induction as with
  | nil =>
    intro s s' rs _ _
    simp only [addList, List.length_nil]
    constructor
    · intro h; cases h
    · rintro ⟨n, a, b, -⟩; omega
  | cons a as ih =>
    intro s s' rs h e
    unfold addList at e ⊢
    cases hr : addRecord loads value s (rec a) with
    | none => rw [hr] at e; cases e
    | some s1 =>
      rw [hr] at e
      simp only [ne_eq, not_true_eq_false, false_and, if_false] at e
      have h1 := h.add loads value hr
      have hc := h1.count
      have i := ih h1 e
      simp only [List.length_append, List.length_singleton] at hc i
      simp only
      by_cases hx : freq ≠ 0 ∧ s1.count % freq = 0 ∧ printable s1 = false
      · rw [if_pos hx]
        refine ⟨fun _ => ⟨1, by omega, by simp, ?_, ?_⟩, fun _ => rfl⟩
        · rw [← hc]; exact Nat.dvd_of_mod_eq_zero hx.2.1
        · simpa using (hp h1).1 hx.2.2
      · rw [if_neg hx, i]
        constructor
        · rintro ⟨n, x, y, z, w⟩
          refine ⟨n + 1, by omega, by simpa using y, ?_, ?_⟩
          · rwa [show rs.length + (n + 1) = rs.length + 1 + n by omega]
          · simpa using w
        · rintro ⟨n, x, y, z, w⟩
          obtain ⟨n, rfl⟩ : ∃ k, n = k + 1 := ⟨n - 1, by omega⟩
          by_cases hn : n = 0
          · subst hn
            refine absurd ⟨hq, ?_, (hp h1).2 ?_⟩ hx
            · rw [hc]; exact Nat.mod_eq_zero_of_dvd z
            · simpa using w
          · refine ⟨n, by omega, by simpa using y, ?_, ?_⟩
            · rwa [show rs.length + 1 + n = rs.length + (n + 1) by omega]
            · simpa using w

end

end Model.Analyze
