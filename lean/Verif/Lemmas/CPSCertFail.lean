import Verif.Lemmas.CPSCertOrder

/-!
# If some run succeeds, every other run fails by its limits only
-/

namespace Model.CPS
open Spec

theorem limIter_gave (T : Table) (m m' : Nat) (s : LimLoop Nat (Option Nat)) :
    (limIter (simple T) m s = limIter (simple T) m' s ∧
      ∀ s', limIter (simple T) m s = .inl s' → s'.loops = s.loops + 1 ∧ s'.steps = s.steps + 1 ∧ s'.loops ≤ m) ∨
    (∃ t, limIter (simple T) m s = .inr t ∧ ¬ Ended t ∧ t.steps = s.steps + 1 ∧ m < s.loops + 1) ∨
    ∃ t, limIter (simple T) m' s = .inr t ∧ ¬ Ended t := by
  unfold limIter
  cases Py.get s.tape s.pos with
  | none => exact Or.inl ⟨rfl, fun s' h => by cases h⟩
  | some a =>
    simp only
    by_cases h1 : ((simple T).trans a s.st s.dir).cond = .raised
    · exact Or.inl ⟨by simp only [if_pos h1], fun s' h => by simp only [if_pos h1] at h; cases h⟩
    · have h1s : ((simple T).trans a s.st s.dir).steps = 1 := by
        revert h1
        unfold simple
        simp only
        cases s.st with
        | none => intro h; exact absurd rfl h
        | some q => simp only; cases T q a <;> intro _ <;> rfl
      simp only [if_neg h1]
      cases Py.set s.tape s.pos ((simple T).trans a s.st s.dir).sym with
      | none => exact Or.inl ⟨rfl, fun s' h => by cases h⟩
      | some tape =>
        simp only
        split
        · exact Or.inl ⟨rfl, fun s' h => by cases h⟩
        · by_cases h2 : s.loops + 1 > m
          · exact Or.inr (Or.inl ⟨_, by rw [if_pos h2], by simp [Ended], by simp only [h1s], h2⟩)
          · by_cases h3 : s.loops + 1 > m'
            · simp only [if_pos h3]
              exact Or.inr (Or.inr ⟨_, rfl, by simp [Ended]⟩)
            · refine Or.inl ⟨by simp only [if_neg h2, if_neg h3], fun s' h => ?_⟩
              rw [if_neg h2] at h
              split at h
              · cases h
              · split at h
                · cases h
                · cases h
                  exact ⟨rfl, by simp only [h1s], by simp only; omega⟩

theorem limLoop_gave (T : Table) (m m' k k' : Nat) (s : LimLoop Nat (Option Nat)) (hk : s.loops + k = m + 1)
    (hl : s.loops ≤ m) (hs : s.steps = s.loops) (h' : Ended (limLoop (simple T) m' k' s))
    (h : ¬ Ended (limLoop (simple T) m k s)) : m < (limLoop (simple T) m k s).steps := by
  induction k generalizing k' s with
  | zero => omega
  | succ k ih =>
    cases k' with
    | zero => rcases h' with h' | h' <;> cases h'
    | succ k' =>
      unfold limLoop at h h' ⊢
      rcases limIter_gave T m m' s with ⟨e, hn⟩ | ⟨t, e, -, ht, hm⟩ | ⟨t, e, ht⟩
      · rw [← e] at h'
        cases hi : limIter (simple T) m s with
        | inl s' =>
          rw [hi] at h h'
          obtain ⟨e1, e2, e3⟩ := hn s' hi
          exact ih k' s' (by omega) e3 (by omega) h' h
        | inr t => rw [hi] at h h'; exact absurd h' h
      · rw [e]; simp only; omega
      · rw [e] at h'; exact absurd h' ht

theorem simLimited_gave (T : Table) (m m' : Nat) (st : Option Nat) (tape : List Nat) (pos : Int) (d : Dir)
    (h' : Ended (simLimited (simple T) st tape pos d m')) (h : ¬ Ended (simLimited (simple T) st tape pos d m)) :
    m < (simLimited (simple T) st tape pos d m).steps :=
  limLoop_gave T m m' _ _ _ (by simp) (by simp) rfl h' h

theorem simAll_fail {T : Table} {k w : Nat} {gs : G} (S : Closed T k w gs) (lim : Lim)
    {ordB : List (List Nat) → List (List Nat)} (hB : ∀ l x, x ∈ ordB l ↔ x ∈ l)
    (cs : List (Cfg Nat (Option Nat))) (hcs : ∀ c ∈ cs, Known gs c) {g g' : G} (h : Within gs g)
    (he : CGS.simAll (simple T) k lim ordB cs g = .fail g') : lim.steps < g'.steps := by
  induction cs generalizing g with
  | nil => cases he
  | cons c cs ih =>
    unfold CGS.simAll at he
    have hc := hcs c List.mem_cons_self
    have h1 := simConfig_within S lim h hc
    have hcs' : ∀ c ∈ cs, Known gs c := fun c hc => hcs c (List.mem_cons_of_mem _ hc)
    obtain ⟨t, ht⟩ := hc
    obtain ⟨⟨m, hm⟩, hcond⟩ := S.sim c t ht
    have hgave := simLimited_gave T (lim.steps - g.steps) m c.st c.window c.pos c.dir (hm ▸ hcond)
    have hst : (g.simConfig (simple T) lim c).1.steps =
        g.steps + (simLimited (simple T) c.st c.window c.pos c.dir (lim.steps - g.steps)).steps := rfl
    have hco : (g.simConfig (simple T) lim c).2 =
        (simLimited (simple T) c.st c.window c.pos c.dir (lim.steps - g.steps)).cond := rfl
    revert he
    rcases hsc : g.simConfig (simple T) lim c with ⟨g1, cond⟩
    rw [hsc] at h1 hst hco
    simp only at h1 hst hco ⊢
    intro he
    split at he
    · cases he
    · split at he
      · split at he
        · cases he
        · next g2 mm hu => exact ih hcs' (updateSet_within S hB h1 hu) he
      · next hr =>
        split at he
        · next hi =>
          cases he
          have := hgave (by rw [Ended, ← hco]; exact fun h => h.elim hr hi)
          omega
        · exact ih hcs' h1 he

theorem simTodo_fail {T : Table} {k w : Nat} {gs : G} (S : Closed T k w gs) (lim : Lim)
    {ordC : List (Cfg Nat (Option Nat)) → List (Cfg Nat (Option Nat))} (hC : ∀ l x, x ∈ ordC l ↔ x ∈ l)
    {ordB : List (List Nat) → List (List Nat)} (hB : ∀ l x, x ∈ ordB l ↔ x ∈ l) (fuel : Nat) {g g' : G}
    (h : Within gs g) (he : CGS.simTodo (simple T) k lim ordC ordB fuel g = .fail g') : lim.steps < g'.steps := by
  induction fuel generalizing g with
  | zero => cases he
  | succ fuel ih =>
    unfold CGS.simTodo at he
    have h0 : Within gs { g with todo := [] } := by
      refine ⟨(fun c hc => by cases hc), h.known, h.same, fun d => ?_, fun d => ?_, h.keys⟩
      · have := h.dsts d; cases d <;> exact this
      · have := h.once d; cases d <;> exact this
    have hk : ∀ c ∈ ordC g.todo, Known gs c := fun c hc => h.todo c ((hC _ _).1 hc)
    split at he
    · cases he
    · split at he
      · next g1 h1 => exact ih (simAll_within S lim hB _ hk h0 h1) he
      · exact simAll_fail S lim hB _ hk h0 he

theorem runLoop_fail {T : Table} {k w : Nat} {gs : G} (S : Closed T k w gs) (lim : Lim)
    {ordC : List (Cfg Nat (Option Nat)) → List (Cfg Nat (Option Nat))} (hC : ∀ l x, x ∈ ordC l ↔ x ∈ l)
    {ordB : List (List Nat) → List (List Nat)} (hB : ∀ l x, x ∈ ordB l ↔ x ∈ l)
    (fuel : Nat) {g g' : G} (h : Within gs g)
    (he : CGS.runLoop (simple T) k lim ordC ordB fuel g = some (g', false)) :
    lim.steps < g'.steps ∨ lim.iters ≤ g'.iters ∨ lim.configs ≤ g'.configs ∨ lim.edges ≤ g'.edges := by
  induction fuel generalizing g with
  | zero => cases he
  | succ fuel ih =>
    unfold CGS.runLoop at he
    simp only at he
    have h0 : Within gs { g with iters := g.iters + 1 } :=
      ⟨h.todo, h.known, h.same, fun d => by have := h.dsts d; cases d <;> exact this,
        fun d => by have := h.once d; cases d <;> exact this, h.keys⟩
    split at he
    · cases he
    · next g1 h1 =>
      cases he
      exact Or.inl (simTodo_fail S lim hC hB _ h0 h1)
    · next g1 h1 =>
      have H1 := simTodo_within S lim hC hB _ h0 h1
      split at he
      · cases he
      · next g2 m h2 =>
        have H2 := recheck_within S hB _ H1 h2
        split at he
        · simp at he
        · split at he
          · next hlim => cases he; exact Or.inr hlim
          · exact ih H2 he

theorem init_within {T : Table} {k w : Nat} {gs : G} (S : Success T k w gs) :
    Within gs (CGS.init (simple T) k w) := by
  refine ⟨fun c hc => ?_, (fun e he => by cases he), (fun e he => by cases he),
    fun d src dst hm => ?_, fun d e he => ?_, by simp [Py.NodupKeys, CGS.init]⟩
  · have : c = Cfg.new k (some 0) .R (List.replicate w 0) := List.mem_singleton.1 hc
    subst this
    exact S.start
  · unfold CGS.dsts at hm
    have : (CGS.init (simple T) k w).cont d = Py.dset [] (List.replicate k 0) [List.replicate k 0] := by
      cases d <;> rfl
    rw [this, Py.dget_dset] at hm
    split at hm
    · next h => subst h; rw [List.mem_singleton.1 hm]; exact S.inv.blank d
    · cases hm
  · have : e = (List.replicate k 0, [List.replicate k 0]) := by
      cases d <;> exact List.mem_singleton.1 he
    subst this
    simp

theorem run_fail {T : Table} {k w : Nat} {gs : G} (S : Success T k w gs) (lim : Lim)
    {ordC : List (Cfg Nat (Option Nat)) → List (Cfg Nat (Option Nat))} (hC : ∀ l x, x ∈ ordC l ↔ x ∈ l)
    {ordB : List (List Nat) → List (List Nat)} (hB : ∀ l x, x ∈ ordB l ↔ x ∈ l) {g : G}
    (he : CGS.run (simple T) k w lim ordC ordB = some (g, false)) :
    lim.steps < g.steps ∨ lim.iters ≤ g.iters ∨ lim.configs ≤ g.configs ∨ lim.edges ≤ g.edges :=
  runLoop_fail S.closed lim hC hB _ (init_within S) he

end Model.CPS
