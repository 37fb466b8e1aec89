import Verif.Lemmas.CPSCertFail
import Verif.Lemmas.CPSCertCount

/-!
# With enough of everything, every run succeeds if one does
-/

namespace Model.CPS
open Spec Spec.CPSCert

/-! ## Simulations with more steps -/

theorem limLoop_more (T : Table) (m m' k k' : Nat) (s : LimLoop Nat (Option Nat)) (hm : m' < m)
    (hk : s.loops + k' = m' + 1) (hl : s.loops ≤ m') (hkk : k' ≤ k) (h : Ended (limLoop (simple T) m' k' s)) :
    limLoop (simple T) m k s = limLoop (simple T) m' k' s := by
  induction k' generalizing k s with
  | zero => omega
  | succ k' ih =>
    cases k with
    | zero => omega
    | succ k =>
      unfold limLoop at h ⊢
      rcases limIter_gave T m m' s with ⟨e, -⟩ | ⟨t, e, -, -, hlt⟩ | ⟨t, e, ht⟩
      · rw [← e] at h ⊢
        cases hi : limIter (simple T) m s with
        | inr t => rfl
        | inl s' =>
          rw [hi] at h
          rcases limIter_gave T m' m s with ⟨e', hn⟩ | ⟨t, e', -⟩ | ⟨t, e', -⟩
          · obtain ⟨h1, -, h3⟩ := hn s' (e'.trans hi)
            exact ih k s' (by omega) h3 (by omega) h
          · rw [← e, hi] at e'; cases e'
          · rw [hi] at e'; cases e'
      · omega
      · rw [e] at h; exact absurd h ht

abbrev sim (T : Table) (c : Cfg Nat (Option Nat)) (m : Nat) : Trans (List Nat) (Option Nat) :=
  simLimited (simple T) c.st c.window c.pos c.dir m

theorem sim_more (T : Table) (c : Cfg Nat (Option Nat)) {m m' : Nat} (hm : m' < m) (h : Ended (sim T c m')) :
    sim T c m = sim T c m' :=
  limLoop_more T m m' _ _ _ hm (by simp) (by simp) (by omega) h

/-- `N` steps are enough for the simulation of `c` -/
def Needs (T : Table) (N : Nat) (c : Cfg Nat (Option Nat)) : Prop :=
  ∀ m, N ≤ m → Ended (sim T c m) ∧ (sim T c m).steps ≤ N

theorem needs_mono {T : Table} {N N' : Nat} {c : Cfg Nat (Option Nat)} (h : Needs T N c) (hN : N ≤ N') : Needs T N' c :=
  fun m hm => ⟨(h m (hN.trans hm)).1, (h m (hN.trans hm)).2.trans hN⟩

theorem needs_exists {T : Table} {k w : Nat} {gs : G} (S : Closed T k w gs) :
    ∃ N, ∀ c, Known gs c → Needs T N c := by
  have one : ∀ c, Known gs c → ∃ N, Needs T N c := by
    rintro c ⟨t, ht⟩
    obtain ⟨⟨m0, rfl⟩, hc⟩ := S.sim c t ht
    refine ⟨max (m0 + 1) (sim T c m0).steps, fun m hm => ?_⟩
    have hlt : m0 < m := Nat.lt_of_lt_of_le (Nat.lt_of_lt_of_le (Nat.lt_succ_self _) (Nat.le_max_left _ _)) hm
    rw [sim_more T c hlt hc]
    exact ⟨hc, Nat.le_max_right _ _⟩
  have all : ∀ l : List (Cfg Nat (Option Nat)), (∀ c ∈ l, Known gs c) → ∃ N, ∀ c ∈ l, Needs T N c := by
    intro l
    induction l with
    | nil => exact fun _ => ⟨0, fun c hc => by cases hc⟩
    | cons x l ih =>
      intro h
      obtain ⟨N, hN⟩ := ih fun c hc => h c (List.mem_cons_of_mem _ hc)
      obtain ⟨M, hM⟩ := one x (h x List.mem_cons_self)
      refine ⟨max N M, fun c hc => ?_⟩
      rcases List.mem_cons.1 hc with rfl | hc
      · exact needs_mono hM (Nat.le_max_right _ _)
      · exact needs_mono (hN c hc) (Nat.le_max_left _ _)
  obtain ⟨N, hN⟩ := all (gs.trans.map Prod.fst) fun c hc => by
    obtain ⟨e, he, rfl⟩ := List.mem_map.1 hc
    exact known_iff.2 ⟨e, he, rfl⟩
  refine ⟨N, fun c hc => hN c ?_⟩
  obtain ⟨e, he, rfl⟩ := known_iff.1 hc
  exact List.mem_map_of_mem he

/-! ## How many configurations and steps -/

/-- those that have not been simulated -/
def fresh (g : G) (l : List (Cfg Nat (Option Nat))) : List (Cfg Nat (Option Nat)) :=
  l.filter fun c => (Py.dget g.trans c).isNone

structure Few (N : Nat) (pl : List (Cfg Nat (Option Nat))) (g : G) : Prop where
  pend : pl.Nodup
  todo : g.todo.Nodup
  configs : g.configs + 1 ≤ 2 * g.trans.length + (fresh g g.todo).length + (fresh g pl).length
  steps : g.steps + N * (g.todo.length + pl.length) ≤ N * (g.configs + 1)

theorem length_dset {κ ν : Type} [DecidableEq κ] (d : List (κ × ν)) (k : κ) (v : ν) :
    (Py.dset d k v).length = d.length + if (Py.dget d k).isNone then 1 else 0 := by
  induction d with
  | nil => rfl
  | cons e d ih =>
    unfold Py.dset
    by_cases h : e.1 = k
    · simp [h, Py.dget]
    · have : Py.dget (e :: d) k = Py.dget d k := by simp [Py.dget, h]
      rw [if_neg h, this, List.length_cons, ih, List.length_cons]
      omega

theorem addEdge_few {N : Nat} {pl : List (Cfg Nat (Option Nat))} {g : G} (h : Few N pl g) (d : Dir)
    (src dst : List Nat) : Few N pl (g.addEdge d src dst).1 := by
  unfold CGS.addEdge
  split
  · cases d <;> exact ⟨h.pend, h.todo, h.configs, h.steps⟩
  · exact h

theorem addEdges_few {N : Nat} {pl : List (Cfg Nat (Option Nat))} (l : List (List Nat)) {g : G} (h : Few N pl g)
    (d : Dir) (src : List Nat) : Few N pl (g.addEdges d src l).1 := by
  induction l generalizing g with
  | nil => exact h
  | cons x l ih => rw [addEdges_cons]; exact ih (addEdge_few h _ _ _)

theorem addConfig_few {N : Nat} {pl : List (Cfg Nat (Option Nat))} {g : G} (h : Few N pl g)
    (c : Cfg Nat (Option Nat)) : Few N pl (g.addConfig c).1 := by
  unfold CGS.addConfig
  split
  · next hc =>
    refine ⟨h.pend, ?_, ?_, ?_⟩
    · refine List.nodup_append.2 ⟨h.todo, by simp, fun a ha b hb => ?_⟩
      rw [List.mem_singleton.1 hb]
      exact fun e => hc.2 (e ▸ ha)
    · have := h.configs
      have e : (fresh g (g.todo ++ [c])).length = (fresh g g.todo).length + 1 := by
        unfold fresh
        rw [List.filter_append, List.length_append]
        simp [hc.1]
      show g.configs + 1 + 1 ≤ 2 * g.trans.length + (fresh g (g.todo ++ [c])).length + (fresh g pl).length
      omega
    · have := h.steps
      simp only [List.length_append, List.length_singleton, Nat.mul_add, Nat.mul_one] at this ⊢
      omega
  · exact h

theorem addFronts_few {N : Nat} {pl : List (Cfg Nat (Option Nat))} {k : Nat} (l : List (List Nat)) {g : G}
    (h : Few N pl g) (c : Cfg Nat (Option Nat)) : Few N pl (g.addFronts k c l).1 := by
  induction l generalizing g with
  | nil => exact h
  | cons x l ih => rw [addFronts_cons]; exact ih (addConfig_few h _)

theorem updateSet_few {N : Nat} {pl : List (Cfg Nat (Option Nat))} {k : Nat}
    {ordB : List (List Nat) → List (List Nat)} {g g' : G} (h : Few N pl g) {old : Cfg Nat (Option Nat)} {m : Bool}
    (he : g.updateSet k ordB old = some (g', m)) : Few N pl g' := by
  unfold CGS.updateSet at he
  split at he
  · cases he
  · split at he
    · cases he
      exact addFronts_few _ (addEdges_few _ (addEdge_few h _ _ _) _ _) _
    · cases he; exact h

theorem simConfig_few {T : Table} {N : Nat} {lim : Lim} {c : Cfg Nat (Option Nat)} {cs : List (Cfg Nat (Option Nat))}
    {g : G} (h : Few N (c :: cs) g) (hs : (sim T c (lim.steps - g.steps)).steps ≤ N) :
    Few N cs (g.simConfig (simple T) lim c).1 := by
  obtain ⟨hcn, hnd⟩ := List.nodup_cons.1 h.pend
  have hc := h.configs
  have hget : ∀ x, (Py.dget (g.simConfig (simple T) lim c).1.trans x).isNone =
      if x = c then false else (Py.dget g.trans x).isNone := by
    intro x
    show (Py.dget (Py.dset g.trans c _) x).isNone = _
    rw [Py.dget_dset]
    split <;> rfl
  refine ⟨hnd, h.todo, ?_, ?_⟩
  · have hlen : (g.simConfig (simple T) lim c).1.trans.length =
        g.trans.length + if (Py.dget g.trans c).isNone then 1 else 0 := length_dset _ _ _
    have hcs : fresh (g.simConfig (simple T) lim c).1 cs = fresh g cs := by
      unfold fresh
      refine List.filter_congr fun x hx => ?_
      rw [hget, if_neg (show x ≠ c from fun e => hcn (e ▸ hx))]
    show g.configs + 1 ≤ 2 * (g.simConfig (simple T) lim c).1.trans.length +
      (fresh (g.simConfig (simple T) lim c).1 g.todo).length + (fresh (g.simConfig (simple T) lim c).1 cs).length
    rw [hlen, hcs]
    cases hn : (Py.dget g.trans c).isNone with
    | true =>
      have e1 : (fresh g (c :: cs)).length = (fresh g cs).length + 1 := by simp [fresh, hn]
      have e2 : (fresh g g.todo).length ≤ (fresh (g.simConfig (simple T) lim c).1 g.todo).length + 1 := by
        have : fresh g g.todo ⊆ c :: fresh (g.simConfig (simple T) lim c).1 g.todo := by
          intro x hx
          by_cases hxc : x = c
          · subst hxc; exact List.mem_cons_self
          · refine List.mem_cons_of_mem _ (List.mem_filter.2 ⟨(List.mem_filter.1 hx).1, ?_⟩)
            rw [hget, if_neg hxc]
            exact (List.mem_filter.1 hx).2
        exact (List.subperm_of_subset (h.todo.filter _) this).length_le
      simp only [if_true]
      omega
    | false =>
      have e1 : fresh g (c :: cs) = fresh g cs := by simp [fresh, hn]
      have e2 : fresh (g.simConfig (simple T) lim c).1 g.todo = fresh g g.todo := by
        unfold fresh
        refine List.filter_congr fun x _ => ?_
        rw [hget]
        split
        · next e => rw [e, hn]
        · rfl
      rw [e1] at hc
      rw [e2]
      simpa using hc
  · have := h.steps
    show g.steps + (sim T c (lim.steps - g.steps)).steps + N * (g.todo.length + cs.length) ≤ N * (g.configs + 1)
    simp only [List.length_cons, Nat.mul_add, Nat.mul_one] at this ⊢
    omega

theorem known_le {gs : G} {l : List (Cfg Nat (Option Nat))} (h : l.Nodup) (hk : ∀ c ∈ l, Known gs c) :
    l.length ≤ gs.trans.length := by
  have := (List.subperm_of_subset h (fun c hc => by
    obtain ⟨e, he, rfl⟩ := known_iff.1 (hk c hc)
    exact List.mem_map_of_mem he : l ⊆ gs.trans.map Prod.fst)).length_le
  rwa [List.length_map] at this

theorem Few.bound {N : Nat} {pl : List (Cfg Nat (Option Nat))} {gs g : G} (h : Few N pl g) (W : Within gs g)
    (hpl : ∀ c ∈ pl, Known gs c) : g.configs + 1 ≤ 4 * gs.trans.length ∧ g.steps ≤ N * (4 * gs.trans.length) := by
  have h1 : g.trans.length ≤ gs.trans.length := by
    have := known_le (gs := gs) W.keys (fun c hc => by
      obtain ⟨e, he, rfl⟩ := List.mem_map.1 hc
      exact W.known e he)
    rwa [List.length_map] at this
  have h2 := known_le h.todo W.todo
  have h3 := known_le h.pend hpl
  have h4 : (fresh g g.todo).length ≤ g.todo.length := List.length_filter_le _ _
  have h5 : (fresh g pl).length ≤ pl.length := List.length_filter_le _ _
  have hc : g.configs + 1 ≤ 4 * gs.trans.length := by have := h.configs; omega
  exact ⟨hc, by have := h.steps; have := Nat.mul_le_mul_left N hc; omega⟩

/-- did not fail -/
def Fine (N : Nat) : Out G → Prop
  | .go g => Few N [] g
  | .fail _ => False
  | .raise => True

theorem simAll_enough {T : Table} {k w N : Nat} {gs : G} (S : Closed T k w gs) (hN : ∀ c, Known gs c → Needs T N c)
    (lim : Lim) (hlim : N * (4 * gs.trans.length) + N ≤ lim.steps)
    {ordB : List (List Nat) → List (List Nat)} (hB : ∀ l x, x ∈ ordB l ↔ x ∈ l)
    (cs : List (Cfg Nat (Option Nat))) (hcs : ∀ c ∈ cs, Known gs c) {g : G} (h : Within gs g) (F : Few N cs g) :
    Fine N (CGS.simAll (simple T) k lim ordB cs g) := by
  induction cs generalizing g with
  | nil => exact F
  | cons c cs ih =>
    unfold CGS.simAll
    have hc := hcs c List.mem_cons_self
    have h1 := simConfig_within S lim h hc
    have hcs' : ∀ c ∈ cs, Known gs c := fun c hc => hcs c (List.mem_cons_of_mem _ hc)
    have hb := (F.bound h hcs).2
    obtain ⟨hend, hst⟩ := hN c hc (lim.steps - g.steps) (by omega)
    have F1 := simConfig_few F hst
    have hco : (g.simConfig (simple T) lim c).2 = (sim T c (lim.steps - g.steps)).cond := rfl
    rcases hsc : g.simConfig (simple T) lim c with ⟨g1, cond⟩
    rw [hsc] at h1 F1 hco
    simp only at h1 F1 hco ⊢
    split
    · trivial
    · split
      · cases hu : g1.updateSet k ordB c with
        | none => trivial
        | some p =>
          obtain ⟨g2, m⟩ := p
          exact ih hcs' (updateSet_within S hB h1 hu) (updateSet_few F1 hu)
      · next hr =>
        split
        · next hi =>
          rw [Ended, ← hco] at hend
          exact hend.elim hr hi
        · exact ih hcs' h1 F1

theorem simTodo_enough {T : Table} {k w N : Nat} {gs : G} (S : Closed T k w gs) (hN : ∀ c, Known gs c → Needs T N c)
    (lim : Lim) (hlim : N * (4 * gs.trans.length) + N ≤ lim.steps)
    {ordC : List (Cfg Nat (Option Nat)) → List (Cfg Nat (Option Nat))} (hC : ∀ l, (ordC l).Perm l)
    {ordB : List (List Nat) → List (List Nat)} (hB : ∀ l x, x ∈ ordB l ↔ x ∈ l) (fuel : Nat) {g : G}
    (h : Within gs g) (F : Few N [] g) :
    Fine N (CGS.simTodo (simple T) k lim ordC ordB fuel g) := by
  induction fuel generalizing g with
  | zero => trivial
  | succ fuel ih =>
    unfold CGS.simTodo
    have h0 : Within gs { g with todo := [] } := by
      refine ⟨(fun c hc => by cases hc), h.known, h.same, fun d => ?_, fun d => ?_, h.keys⟩
      · have := h.dsts d; cases d <;> exact this
      · have := h.once d; cases d <;> exact this
    have hk : ∀ c ∈ ordC g.todo, Known gs c := fun c hc => h.todo c ((hC _).mem_iff.1 hc)
    have F0 : Few N (ordC g.todo) { g with todo := [] } := by
      refine ⟨(hC _).nodup_iff.2 F.todo, List.nodup_nil, ?_, ?_⟩
      · have := F.configs
        have e : (fresh g (ordC g.todo)).length = (fresh g g.todo).length := ((hC _).filter _).length_eq
        show g.configs + 1 ≤ 2 * g.trans.length + 0 + (fresh g (ordC g.todo)).length
        simp only [fresh, List.filter_nil, List.length_nil] at this e ⊢
        omega
      · have := F.steps
        show g.steps + N * (0 + (ordC g.todo).length) ≤ N * (g.configs + 1)
        rw [(hC _).length_eq, Nat.zero_add]
        exact this
    split
    · exact F
    · have A := simAll_enough S hN lim hlim hB _ hk h0 F0
      revert A
      cases hr : CGS.simAll (simple T) k lim ordB (ordC g.todo) { g with todo := [] } with
      | raise => exact id
      | fail g1 => exact id
      | go g1 => exact fun A => ih (simAll_within S lim hB _ hk h0 hr) A

theorem recheck_few {N : Nat} {k : Nat} {ordB : List (List Nat) → List (List Nat)}
    (cs : List (Cfg Nat (Option Nat))) {g g' : G} {m m' : Bool} (h : Few N [] g)
    (he : CGS.recheck k ordB cs g m = some (g', m')) : Few N [] g' := by
  induction cs generalizing g m with
  | nil => cases he; exact h
  | cons c cs ih =>
    unfold CGS.recheck at he
    split at he
    · cases he
    · next g1 m1 hu => exact ih (updateSet_few h hu) he

/-! ## How many rounds -/

/-- how much was added -/
def size (g : G) : Nat := g.edges + g.configs

/-- nothing is lost; something was added if reported so -/
def Grew (g : G) (p : G × Bool) : Prop := size g ≤ size p.1 ∧ p.1.iters = g.iters ∧ (p.2 = true → size g < size p.1)

theorem addEdge_grew (g : G) (d : Dir) (src dst : List Nat) : Grew g (g.addEdge d src dst) := by
  unfold CGS.addEdge
  split
  · cases d <;> exact ⟨by simp only [size, CGS.setCont]; omega, rfl, fun _ => by simp only [size, CGS.setCont]; omega⟩
  · exact ⟨Nat.le_refl _, rfl, fun h => by cases h⟩

theorem grew_or {g g1 : G} {m1 m2 : Bool} {g2 : G} (h1 : Grew g (g1, m1)) (h2 : Grew g1 (g2, m2)) :
    Grew g (g2, m1 || m2) := by
  obtain ⟨a1, a3, a2⟩ := h1
  obtain ⟨b1, b3, b2⟩ := h2
  simp only at a1 a2 a3 b1 b2 b3
  refine ⟨a1.trans b1, b3.trans a3, fun h => ?_⟩
  simp only [Bool.or_eq_true] at h
  rcases h with h | h
  · exact Nat.lt_of_lt_of_le (a2 h) b1
  · exact Nat.lt_of_le_of_lt a1 (b2 h)

theorem addEdges_grew (l : List (List Nat)) (g : G) (d : Dir) (src : List Nat) : Grew g (g.addEdges d src l) := by
  induction l generalizing g with
  | nil => exact ⟨Nat.le_refl _, rfl, fun h => by cases h⟩
  | cons x l ih => rw [addEdges_cons]; exact grew_or (addEdge_grew g d src x) (ih _)

theorem addFronts_grew {k : Nat} (l : List (List Nat)) (g : G) (c : Cfg Nat (Option Nat)) :
    Grew g (g.addFronts k c l) := by
  induction l generalizing g with
  | nil => exact ⟨Nat.le_refl _, rfl, fun h => by cases h⟩
  | cons x l ih =>
    rw [addFronts_cons]
    refine grew_or ?_ (ih _)
    unfold CGS.addConfig
    split
    · exact ⟨by simp only [size]; omega, rfl, fun _ => by simp only [size]; omega⟩
    · exact ⟨Nat.le_refl _, rfl, fun h => by cases h⟩

theorem updateSet_grew {k : Nat} {ordB : List (List Nat) → List (List Nat)} {g : G} {p : G × Bool}
    {old : Cfg Nat (Option Nat)} (he : g.updateSet k ordB old = some p) : Grew g p := by
  unfold CGS.updateSet at he
  split at he
  · cases he
  · split at he
    · cases he
      exact grew_or (grew_or (addEdge_grew _ _ _ _) (addEdges_grew _ _ _ _)) (addFronts_grew _ _ _)
    · cases he; exact ⟨Nat.le_refl _, rfl, fun h => by cases h⟩

theorem simAll_grew {T : Table} {k : Nat} (lim : Lim) {ordB : List (List Nat) → List (List Nat)}
    (cs : List (Cfg Nat (Option Nat))) {g g' : G}
    (he : CGS.simAll (simple T) k lim ordB cs g = .go g') : size g ≤ size g' ∧ g'.iters = g.iters := by
  induction cs generalizing g with
  | nil => cases he; exact ⟨Nat.le_refl _, rfl⟩
  | cons c cs ih =>
    unfold CGS.simAll at he
    have h1 : size g = size (g.simConfig (simple T) lim c).1 ∧ g.iters = (g.simConfig (simple T) lim c).1.iters := ⟨rfl, rfl⟩
    revert he h1
    rcases g.simConfig (simple T) lim c with ⟨g1, cond⟩
    intro he h1
    simp only at he h1
    rw [h1.1, h1.2]
    split at he
    · cases he
    · split at he
      · split at he
        · cases he
        · next g2 m hu => exact ⟨(updateSet_grew hu).1.trans (ih he).1, (ih he).2.trans (updateSet_grew hu).2.1⟩
      · split at he
        · cases he
        · exact ih he

theorem simTodo_grew {T : Table} {k : Nat} (lim : Lim)
    {ordC : List (Cfg Nat (Option Nat)) → List (Cfg Nat (Option Nat))}
    {ordB : List (List Nat) → List (List Nat)} (fuel : Nat) {g g' : G}
    (he : CGS.simTodo (simple T) k lim ordC ordB fuel g = .go g') : size g ≤ size g' ∧ g'.iters = g.iters := by
  induction fuel generalizing g with
  | zero => cases he
  | succ fuel ih =>
    unfold CGS.simTodo at he
    split at he
    · cases he; exact ⟨Nat.le_refl _, rfl⟩
    · split at he
      · next g1 h1 =>
        obtain ⟨a1, a2⟩ := simAll_grew lim _ h1
        obtain ⟨b1, b2⟩ := ih he
        exact ⟨Nat.le_trans a1 b1, b2.trans a2⟩
      · next hr => exact absurd he (hr _)

theorem recheck_grew {k : Nat} {ordB : List (List Nat) → List (List Nat)} (cs : List (Cfg Nat (Option Nat)))
    {g g' : G} {m m' : Bool} (he : CGS.recheck k ordB cs g m = some (g', m')) :
    size g ≤ size g' ∧ g'.iters = g.iters ∧ (m' = true → m = true ∨ size g < size g') := by
  induction cs generalizing g m with
  | nil => cases he; exact ⟨Nat.le_refl _, rfl, Or.inl⟩
  | cons c cs ih =>
    unfold CGS.recheck at he
    split at he
    · cases he
    · next g1 m1 hu =>
      obtain ⟨a1, a3, a2⟩ := updateSet_grew hu
      obtain ⟨b1, b3, b2⟩ := ih he
      simp only at a1 a2 a3
      refine ⟨a1.trans b1, b3.trans a3, fun h => ?_⟩
      rcases b2 h with h | h
      · rw [Bool.or_eq_true] at h
        exact h.imp id fun h => Nat.lt_of_lt_of_le (a2 h) b1
      · exact Or.inr (Nat.lt_of_le_of_lt a1 h)

/-! ## The run -/

theorem edges_le {k w : Nat} {gs g : G} (Cs : CertG k w gs) (C : CertG k w g) (W : Within gs g) (hc : Counted g) :
    g.edges ≤ (gs.edgeList .L).length + (gs.edgeList .R).length := by
  have one : ∀ d, pairs (g.cont d) ≤ (gs.edgeList d).length := by
    intro d
    rw [← edgeList_length]
    refine (List.subperm_of_subset (edgeList_nodup C W d) fun ⟨src, dst⟩ h => ?_).length_le
    exact (mem_edgeList Cs d src dst).2 (W.dsts _ _ _ ((mem_edgeList C d src dst).1 h))
  have h1 := one .L
  have h2 := one .R
  unfold Counted at hc
  unfold CGS.cont at h1 h2
  simp only at h1 h2
  omega

/-- enough of everything -/
def enough (N : Nat) (gs : G) : Nat :=
  N * (4 * gs.trans.length) + N + 4 * gs.trans.length + (gs.edgeList .L).length + (gs.edgeList .R).length + 1

theorem runLoop_enough {T : Table} (hT : Printable T) {k w N : Nat} (hk : 0 < k) (hw : 2 * k ≤ w) {gs : G}
    (S : Closed T k w gs) (Cs : CertG k w gs) (hN : ∀ c, Known gs c → Needs T N c) (lim : Lim)
    (l1 : enough N gs ≤ lim.steps) (l2 : enough N gs ≤ lim.iters) (l3 : enough N gs ≤ lim.configs)
    (l4 : enough N gs ≤ lim.edges)
    {ordC : List (Cfg Nat (Option Nat)) → List (Cfg Nat (Option Nat))} (hC : ∀ l, (ordC l).Perm l)
    {ordB : List (List Nat) → List (List Nat)} (hB : ∀ l x, x ∈ ordB l ↔ x ∈ l)
    (fuel : Nat) {g g' : G} (W : Within gs g) (C : CertG k w g) (hc : Counted g) (F : Few N [] g)
    (hi : g.iters ≤ size g)
    (he : CGS.runLoop (simple T) k lim ordC ordB fuel g = some (g', false)) : False := by
  have hC' : ∀ l x, x ∈ ordC l ↔ x ∈ l := fun l x => (hC l).mem_iff
  induction fuel generalizing g with
  | zero => cases he
  | succ fuel ih =>
    unfold CGS.runLoop at he
    simp only at he
    have W0 : Within gs { g with iters := g.iters + 1 } :=
      ⟨W.todo, W.known, W.same, fun d => by have := W.dsts d; cases d <;> exact this,
        fun d => by have := W.once d; cases d <;> exact this, W.keys⟩
    have C0 : CertG k w { g with iters := g.iters + 1 } :=
      ⟨C.todo, C.trans, fun d => by have := C.cont d; cases d <;> exact this,
        fun d => by have := C.keys d; cases d <;> exact this⟩
    have F0 : Few N [] { g with iters := g.iters + 1 } := ⟨F.pend, F.todo, F.configs, F.steps⟩
    have A := simTodo_enough S hN lim (by unfold enough at l1; omega) hC hB (lim.steps + 2) W0 F0
    split at he
    · cases he
    · next g1 h1 => rw [h1] at A; exact A
    · next g1 h1 =>
      rw [h1] at A
      have W1 := simTodo_within S lim hC' hB _ W0 h1
      have C1 := simTodo_cert hT hk hw lim hC' hB _ C0 h1
      have c1 := simTodo_counted lim _ (g := { g with iters := g.iters + 1 }) hc h1
      obtain ⟨s1, i1⟩ := simTodo_grew lim _ h1
      split at he
      · cases he
      · next g2 m h2 =>
        have W2 := recheck_within S hB _ W1 h2
        have C2 := recheck_cert hk hw hB _ C1 h2
        have c2 := recheck_counted _ c1 h2
        have F2 : Few N [] g2 := recheck_few _ A h2
        obtain ⟨s2, i2, s3⟩ := recheck_grew _ h2
        split at he
        · simp at he
        · next hm =>
          have hm : m = true := by simpa using hm
          have hlt : size g1 < size g2 := (s3 hm).resolve_left (by simp)
          have hi2 : g2.iters ≤ size g2 := by
            have : size g = size { g with iters := g.iters + 1 } := rfl
            simp only at i1
            omega
          have b1 := (F2.bound W2 (fun c hc => by cases hc)).1
          have b2 := edges_le Cs C2 W2 c2
          split at he
          · next hlim =>
            unfold enough at l2 l3 l4
            unfold size at hi2
            rcases hlim with hl | hl | hl <;> omega
          · exact ih W2 C2 c2 F2 hi2 he

theorem run_enough {T : Table} (hT : Printable T) {k w : Nat} (hk : 0 < k) (hw : 2 * k ≤ w) {gs : G}
    (S : Success T k w gs) : ∃ B, ∀ lim : Lim, B ≤ lim.steps → B ≤ lim.iters → B ≤ lim.configs → B ≤ lim.edges →
    ∀ (ordC : List (Cfg Nat (Option Nat)) → List (Cfg Nat (Option Nat))) (_ : ∀ l, (ordC l).Perm l)
      (ordB : List (List Nat) → List (List Nat)) (_ : ∀ l x, x ∈ ordB l ↔ x ∈ l) (g : G),
      CGS.run (simple T) k w lim ordC ordB ≠ some (g, false) := by
  obtain ⟨N, hN⟩ := needs_exists S.closed
  refine ⟨enough N gs, fun lim l1 l2 l3 l4 ordC hC ordB hB g he => ?_⟩
  refine runLoop_enough hT hk hw S.closed S.cert hN lim l1 l2 l3 l4 hC hB _ (init_within S) (init_cert T hk hw) (by rfl)
    ⟨List.nodup_nil, List.nodup_singleton _, ?_, ?_⟩ (Nat.zero_le _) he
  · simp [CGS.init, fresh, Py.dget]
  · simp [CGS.init]

end Model.CPS
