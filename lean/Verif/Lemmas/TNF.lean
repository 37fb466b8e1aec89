import Verif.Lemmas.Permute
import Verif.Lemmas.DirectSim

/-!
# Lemmas about `to_TNF`
-/

set_option linter.unusedSectionVars false

namespace Model.Permute
open Spec (Dir Instr Table Renaming Renamed run init Config AtCell InRange Fits)
open Model.IO

/-- the state order after `t` steps -/
def ordS (n : Nat) (T : Table) : Nat → Order
  | 0 => Order.start n
  | t + 1 => ((ordS n T t).noteState (run T (t + 1) init).state).lone

/-- the symbol order after `t` steps -/
def ordY (k : Nat) (T : Table) : Nat → Order
  | 0 => Order.start k
  | t + 1 => ((ordY k T t).note ((run T (t + 1) init).tape (run T (t + 1) init).pos)).lone

/-- the search is over at time `t` -/
def Done (n k : Nat) (T : Table) (t : Nat) : Prop := (ordS n T t).unordered = [] ∧ (ordY k T t).unordered = []

variable {n k : Nat} {T : Table} {maxSteps : Int}

theorem isEmpty_iff (t : Nat) :
    ((ordS n T t).unordered.isEmpty && (ordY k T t).unordered.isEmpty) = true ↔ Done n k T t := by
  unfold Done
  simp [List.isEmpty_iff]

theorem tnfLoop_step {fuel t : Nat} {sim : DirectSim} (h : sim.Sim (run T t init)) (hn : sim.stepNum = t)
    (hd : ¬ Done n k T t) (hh : (run T t init).state ≠ none) (hm : (t : Int) ≤ maxSteps) :
    ∃ sim', sim'.Sim (run T (t + 1) init) ∧ sim'.stepNum = t + 1 ∧
      tnfLoop T maxSteps (fuel + 1) sim (ordS n T t) (ordY k T t) =
        tnfLoop T maxSteps fuel sim' (ordS n T (t + 1)) (ordY k T (t + 1)) := by
  obtain ⟨sim', e1, h1, h2, -⟩ := DirectSim.sim_step (M := T) h
  have hhalt : sim.halted = false := by
    rw [h.halted]
    cases hs : (run T t init).state with
    | none => exact absurd hs hh
    | some q => rfl
  rw [← Spec.run_succ'] at h1
  refine ⟨sim', h1, by rw [h2, hn, hhalt]; rfl, ?_⟩
  conv_lhs => unfold tnfLoop
  rw [if_neg (by rw [isEmpty_iff]; exact hd), if_neg (by rw [hn, hhalt]; simp; omega), e1]
  have hr : sim'.tape.read = some ((run T (t + 1) init).tape (run T (t + 1) init).pos) := by
    rw [DirectTape.read_eq h1.wf, h1.tape, h1.pos]
  simp only [hr]
  rw [h1.state]
  rfl

theorem tnfLoop_spec (fuel : Nat) : ∀ (t : Nat) (sim : DirectSim), sim.Sim (run T t init) → sim.stepNum = t →
    t + fuel = maxSteps.toNat + 3 → t ≤ maxSteps.toNat + 1 →
    (∃ t', t ≤ t' ∧ tnfLoop T maxSteps fuel sim (ordS n T t) (ordY k T t) = .found (ordS n T t').order (ordY k T t').order ∧
      Done n k T t' ∧ ∀ s, t ≤ s → s < t' → ¬ Done n k T s ∧ (s : Int) ≤ maxSteps ∧ (run T s init).state ≠ none) ∨
    (tnfLoop T maxSteps fuel sim (ordS n T t) (ordY k T t) = .failed ∧
      ∃ t', t ≤ t' ∧ ((t' : Int) > maxSteps ∨ (run T t' init).state = none) ∧ ∀ s, t ≤ s → s ≤ t' → ¬ Done n k T s) := by
  induction fuel with
  | zero =>
    intro t sim _ _ h1 h2
    omega
  | succ fuel ih =>
    intro t sim h hn h1 h2
    by_cases hd : Done n k T t
    · left
      refine ⟨t, le_refl _, ?_, hd, fun s h3 h4 => absurd h4 (by omega)⟩
      unfold tnfLoop
      rw [if_pos ((isEmpty_iff t).2 hd)]
    · by_cases hs : (t : Int) > maxSteps ∨ (run T t init).state = none
      · right
        refine ⟨?_, t, le_refl _, hs, fun s h1 h2 => by rwa [show s = t by omega]⟩
        unfold tnfLoop
        rw [if_neg (by rw [isEmpty_iff]; exact hd), if_pos]
        rw [hn, h.halted]
        rcases hs with hs | hs
        · exact Or.inl hs
        · exact Or.inr (by rw [hs]; rfl)
      · rw [not_or] at hs
        obtain ⟨sim', g1, g2, g3⟩ := tnfLoop_step (maxSteps := maxSteps) (fuel := fuel) h hn hd hs.2 (by omega)
        rw [g3]
        rcases ih (t + 1) sim' g1 g2 (by omega) (by omega) with ⟨t', a1, a2, a3, a4⟩ | ⟨a1, t', a2, a3, a4⟩
        · left
          refine ⟨t', by omega, a2, a3, fun s b1 b2 => ?_⟩
          by_cases e : s = t
          · subst e; exact ⟨hd, by omega, hs.2⟩
          · exact a4 s (by omega) b2
        · right
          refine ⟨a1, t', by omega, a3, fun s b1 b2 => ?_⟩
          by_cases e : s = t
          · subst e; exact hd
          · exact a4 s (by omega) b2

/-- What `to_TNF` does, in terms of the run of the machine. -/
theorem toTNF_spec {m : SM} (h : m.WF) (maxSteps : Int) :
    (∃ t', Done m.nStates m.nSyms m.table t' ∧
        (∀ s < t', ¬ Done m.nStates m.nSyms m.table s ∧ (s : Int) ≤ maxSteps ∧ (run m.table s init).state ≠ none) ∧
        toTNF m maxSteps = match permuteTable m (ordS m.nStates m.table t').order (ordY m.nSyms m.table t').order
            (decide ((cell m 0 0).dir = 0)) with
          | none => .raised
          | some m' => .ok m') ∨
    (toTNF m maxSteps = .failed ∧
      ∃ t' : Nat, ((t' : Int) > maxSteps ∨ (run m.table t' init).state = none) ∧ ∀ s ≤ t', ¬ Done m.nStates m.nSyms m.table s) := by
  unfold toTNF
  rw [cell_get h h.states h.syms]
  simp only
  rcases tnfLoop_spec (T := m.table) (n := m.nStates) (k := m.nSyms) (maxSteps := maxSteps) (maxSteps.toNat + 3) 0 DirectSim.new
      DirectSim.sim_new rfl (by omega) (by omega) with ⟨t', -, a2, a3, a4⟩ | ⟨a1, t', -, a3, a4⟩
  · left
    refine ⟨t', a3, fun s hs => a4 s (by omega) hs, ?_⟩
    change tnfLoop m.table maxSteps (maxSteps.toNat + 3) DirectSim.new (Order.start m.nStates) (Order.start m.nSyms) = _ at a2
    rw [a2]
    rfl
  · right
    refine ⟨?_, t', a3, fun s hs => a4 s (by omega) hs⟩
    change tnfLoop m.table maxSteps (maxSteps.toNat + 3) DirectSim.new (Order.start m.nStates) (Order.start m.nSyms) = _ at a1
    rw [a1]

/-! ## The orders -/

theorem Order.note_cases (o : Order) (x : Nat) :
    (x ∈ o.unordered ∧ o.note x = { order := o.order ++ [x], unordered := o.unordered.erase x }) ∨
    (x ∉ o.unordered ∧ o.note x = o) := by
  unfold Order.note
  by_cases h : x ∈ o.unordered
  · left; exact ⟨h, if_pos h⟩
  · right; exact ⟨h, if_neg h⟩

theorem Order.lone_cases (o : Order) :
    (∃ x, o.unordered = [x] ∧ o.lone = { order := o.order ++ [x], unordered := [] }) ∨ (o.unordered.length ≠ 1 ∧ o.lone = o) := by
  unfold Order.lone
  rcases o with ⟨l, u⟩
  rcases u with _ | ⟨x, _ | ⟨y, u⟩⟩ <;> simp

theorem start_perm (hn : 0 < n) : ((Order.start n).order ++ (Order.start n).unordered).Perm (List.range n) := by
  unfold Order.start
  obtain ⟨n, rfl⟩ : ∃ k, n = k + 1 := ⟨n - 1, by omega⟩
  rw [List.range_succ_eq_map]
  simp only [ne_eq, decide_not, List.filter_cons, decide_true, Bool.not_true, Bool.false_eq_true, if_false, List.singleton_append]
  rw [List.filter_eq_self.2]
  intro a ha
  simp only [List.mem_map] at ha
  obtain ⟨b, -, rfl⟩ := ha
  simp

theorem note_perm {o : Order} {l : List Nat} (x : Nat) (h : (o.order ++ o.unordered).Perm l) :
    ((o.note x).order ++ (o.note x).unordered).Perm l := by
  rcases o.note_cases x with ⟨hx, e⟩ | ⟨-, e⟩
  · rw [e]
    simp only [List.append_assoc, List.singleton_append]
    exact (List.Perm.append_left _ (List.perm_cons_erase hx).symm).trans h
  · rw [e]; exact h

theorem lone_perm {o : Order} {l : List Nat} (h : (o.order ++ o.unordered).Perm l) :
    ((o.lone).order ++ (o.lone).unordered).Perm l := by
  rcases o.lone_cases with ⟨x, hx, e⟩ | ⟨-, e⟩
  · rw [e]
    rw [hx] at h
    simpa using h
  · rw [e]; exact h

theorem ordS_perm (hn : 0 < n) (t : Nat) : ((ordS n T t).order ++ (ordS n T t).unordered).Perm (List.range n) := by
  induction t with
  | zero => exact start_perm hn
  | succ t ih =>
    unfold ordS
    apply lone_perm
    unfold Order.noteState
    split
    · exact ih
    · exact note_perm _ ih

theorem ordY_perm (hn : 0 < k) (t : Nat) : ((ordY k T t).order ++ (ordY k T t).unordered).Perm (List.range k) := by
  induction t with
  | zero => exact start_perm hn
  | succ t ih => exact lone_perm (note_perm _ ih)

theorem note_head {o : Order} (x : Nat) (h : o.order.head? = some 0) : (o.note x).order.head? = some 0 := by
  rcases o.note_cases x with ⟨-, e⟩ | ⟨-, e⟩ <;> rw [e]
  · simp [h]
  · exact h

theorem lone_head {o : Order} (h : o.order.head? = some 0) : (o.lone).order.head? = some 0 := by
  rcases o.lone_cases with ⟨x, -, e⟩ | ⟨-, e⟩ <;> rw [e]
  · simp [h]
  · exact h

theorem ordS_head (t : Nat) : (ordS n T t).order.head? = some 0 := by
  induction t with
  | zero => rfl
  | succ t ih =>
    unfold ordS
    apply lone_head
    unfold Order.noteState
    split
    · exact ih
    · exact note_head _ ih

theorem ordY_head (t : Nat) : (ordY k T t).order.head? = some 0 := by
  induction t with
  | zero => rfl
  | succ t ih => exact lone_head (note_head _ ih)

theorem idxOf_head {l : List Nat} (h : l.head? = some 0) : l.idxOf 0 = 0 := by
  cases l with
  | nil => simp at h
  | cons x l =>
    simp only [List.head?_cons, Option.some.injEq] at h
    subst h
    simp

/-! ## Renamed machines give the renamed orders -/

/-- `o'` is `o` with all numbers renamed -/
structure Order.Rel (f : Nat → Nat) (o o' : Order) : Prop where
  order : o'.order = o.order.map f
  unord : o'.unordered.Perm (o.unordered.map f)

variable {f : Nat → Nat}

theorem mem_map_inj (hf : ∀ q < n, ∀ q' < n, f q = f q' → q = q') {l : List Nat} (hl : ∀ x ∈ l, x < n) {x : Nat} (hx : x < n) :
    f x ∈ l.map f ↔ x ∈ l := by
  rw [List.mem_map]
  constructor
  · rintro ⟨y, hy, e⟩
    rwa [← hf y (hl y hy) x hx e]
  · intro h; exact ⟨x, h, rfl⟩

theorem map_erase_inj (hf : ∀ q < n, ∀ q' < n, f q = f q' → q = q') {l : List Nat} (hl : ∀ x ∈ l, x < n) {x : Nat} (hx : x < n) :
    (l.map f).erase (f x) = (l.erase x).map f := by
  induction l with
  | nil => rfl
  | cons y l ih =>
    have hy := hl y (by simp)
    rw [List.map_cons, List.erase_cons, List.erase_cons]
    by_cases e : y = x
    · subst e; simp
    · have : f y ≠ f x := fun h => e (hf y hy x hx h)
      simp only [beq_iff_eq, this, e, if_false, List.map_cons]
      rw [ih (fun z hz => hl z (List.mem_cons_of_mem _ hz))]

theorem Order.Rel.note (hf : ∀ q < n, ∀ q' < n, f q = f q' → q = q') {o o' : Order} (h : Order.Rel f o o')
    (hl : ∀ x ∈ o.unordered, x < n) {x : Nat} (hx : x < n) : Order.Rel f (o.note x) (o'.note (f x)) := by
  have key : f x ∈ o'.unordered ↔ x ∈ o.unordered := by rw [h.unord.mem_iff, mem_map_inj hf hl hx]
  rcases o.note_cases x with ⟨a1, e⟩ | ⟨a1, e⟩ <;> rcases o'.note_cases (f x) with ⟨b1, e'⟩ | ⟨b1, e'⟩
  · rw [e, e']
    refine ⟨?_, ?_⟩
    · simp [h.order]
    · simp only
      rw [← map_erase_inj hf hl hx]
      exact h.unord.erase _
  · exact absurd (key.2 a1) b1
  · exact absurd (key.1 b1) a1
  · rw [e, e']; exact h

theorem Order.Rel.lone {o o' : Order} (h : Order.Rel f o o') : Order.Rel f o.lone o'.lone := by
  have key : o'.unordered.length = o.unordered.length := by rw [h.unord.length_eq, List.length_map]
  rcases o.lone_cases with ⟨x, a1, e⟩ | ⟨a1, e⟩ <;> rcases o'.lone_cases with ⟨y, b1, e'⟩ | ⟨b1, e'⟩
  · have := h.unord
    rw [a1, b1] at this
    have hy : y = f x := by simpa using this
    rw [e, e']
    exact ⟨by simp [h.order, hy], by simp⟩
  · rw [key, a1] at b1; exact absurd rfl b1
  · rw [← key, b1] at a1; exact absurd rfl a1
  · rw [e, e']; exact h

theorem unordS_lt (hn : 0 < n) (t : Nat) : ∀ x ∈ (ordS n T t).unordered, x < n := fun _ hx =>
  List.mem_range.1 ((ordS_perm hn t).mem_iff.1 (List.mem_append_right _ hx))

theorem unordY_lt (hn : 0 < k) (t : Nat) : ∀ x ∈ (ordY k T t).unordered, x < k := fun _ hx =>
  List.mem_range.1 ((ordY_perm hn t).mem_iff.1 (List.mem_append_right _ hx))

theorem start_rel (hn : 0 < n) (hlt : ∀ q < n, f q < n) (hf : ∀ q < n, ∀ q' < n, f q = f q' → q = q') (h0 : f 0 = 0) :
    Order.Rel f (Order.start n) (Order.start n) := by
  refine ⟨by simp [Order.start, h0], ?_⟩
  have nd : (Order.start n).unordered.Nodup := List.nodup_range.filter _
  have hl : ∀ x, x ∈ (Order.start n).unordered ↔ x < n ∧ x ≠ 0 := by
    intro x
    simp [Order.start]
  have nd' : ((Order.start n).unordered.map f).Nodup := by
    refine (List.nodup_map_iff_inj_on nd).2 ?_
    intro x hx y hy e
    exact hf x ((hl x).1 hx).1 y ((hl y).1 hy).1 e
  refine (List.Subperm.perm_of_length_le ?_ (by simp)).symm
  refine List.subperm_of_subset nd' ?_
  intro y hy
  rw [List.mem_map] at hy
  obtain ⟨x, hx, rfl⟩ := hy
  rw [hl] at hx ⊢
  refine ⟨hlt x hx.1, fun e => hx.2 ?_⟩
  rw [← h0] at e
  exact hf x hx.1 0 hn e

variable {T' : Table}

theorem ord_rel (ρ : Renaming n k) (hn : 0 < n) (hk : 0 < k) (h0 : ρ.st 0 = 0) (h1 : ρ.sy 0 = 0) (hf : Fits T n k)
    (hr : Renamed ρ T T') (t : Nat) (hh : (run T t init).state ≠ none) :
    Order.Rel ρ.st (ordS n T t) (ordS n T' t) ∧ Order.Rel ρ.sy (ordY k T t) (ordY k T' t) := by
  induction t with
  | zero => exact ⟨start_rel hn ρ.st_lt ρ.st_inj h0, start_rel hk ρ.sy_lt ρ.sy_inj h1⟩
  | succ t ih =>
    have hh' : (run T t init).state ≠ none := Spec.run_some_mono (Nat.le_succ t) hh
    obtain ⟨i1, i2⟩ := ih hh'
    have hi := Spec.inRange_run hf (Spec.inRange_init hn hk) (t + 1) hh
    have hc := Spec.run_renamed ρ hf hr (Spec.inRange_init hn hk) (t + 1) hh
    rw [Spec.config_init ρ h0 h1] at hc
    constructor
    · unfold ordS
      rw [hc]
      apply Order.Rel.lone
      show Order.Rel ρ.st _ (Order.noteState _ ((run T (t + 1) init).state.map ρ.st))
      cases hq : (run T (t + 1) init).state with
      | none => exact absurd hq hh
      | some q => exact i1.note ρ.st_inj (unordS_lt hn t) (hi.1 q hq)
    · unfold ordY
      rw [hc, ρ.config_cell]
      exact (i2.note ρ.sy_inj (unordY_lt hk t) (hi.2 _)).lone

theorem done_iff (ρ : Renaming n k) (hn : 0 < n) (hk : 0 < k) (h0 : ρ.st 0 = 0) (h1 : ρ.sy 0 = 0) (hf : Fits T n k)
    (hr : Renamed ρ T T') (t : Nat) (hh : (run T t init).state ≠ none) : Done n k T' t ↔ Done n k T t := by
  obtain ⟨i1, i2⟩ := ord_rel ρ hn hk h0 h1 hf hr t hh
  unfold Done
  have e1 := i1.unord.length_eq
  have e2 := i2.unord.length_eq
  rw [List.length_map] at e1 e2
  rw [← List.length_eq_zero_iff, ← List.length_eq_zero_iff, ← List.length_eq_zero_iff (l := (ordS n T t).unordered),
    ← List.length_eq_zero_iff (l := (ordY k T t).unordered), e1, e2]

end Model.Permute
