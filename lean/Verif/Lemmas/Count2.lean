import Verif.Lemmas.Count1
import Verif.Lemmas.Tree
import Mathlib.Data.Fintype.CardEmbedding
import Mathlib.Data.Fintype.Sum
import Mathlib.Data.Fintype.Prod
import Mathlib.Tactic.Ring
import Mathlib.Data.Finset.Union

/-!
# Lemmas for counting: the machines that a partial table represents
-/

namespace Spec.Count
open Finset

/-! ## Renamings from embeddings -/

/-- an injective map that keeps 0 and 1 and continues `e` -/
theorem extend {n u : Nat} (hn : 2 ≤ n) (e : Fin u ↪ Fin (n - 2)) : ∃ f : Nat → Nat, (∀ q < n, f q < n) ∧
    (∀ q < n, ∀ q' < n, f q = f q' → q = q') ∧ f 0 = 0 ∧ f 1 = 1 ∧ ∀ i : Fin u, f (i + 2) = e i + 2 := by
  classical
  obtain ⟨g, hg⟩ := Finset.exists_equiv_extend_of_card_eq (α := Fin (n - 2)) (β := Fin (n - 2)) (t := univ) (by simp)
    (s := univ.filter fun i => (i : Nat) < u) (f := fun i => if h : (i : Nat) < u then e ⟨i, h⟩ else i) (by simp) (by
      intro i hi j hj hij
      simp only [coe_filter, mem_univ, true_and, Set.mem_setOf_eq] at hi hj
      simp only [hi, hj, dif_pos] at hij
      have := e.injective hij
      simp only [Fin.mk.injEq] at this
      exact Fin.ext this)
  refine ⟨fun q => if h : 2 ≤ q ∧ q < n then (g ⟨q - 2, by omega⟩ : Fin (n - 2)) + 2 else q, ?_, ?_, rfl, ?_, ?_⟩
  · intro q hq
    simp only
    split
    · have := (g ⟨q - 2, by omega⟩ : Fin (n - 2)).2
      omega
    · exact hq
  · intro q hq q' hq' h
    simp only at h
    split at h <;> split at h
    · have h2 : g ⟨q - 2, by omega⟩ = g ⟨q' - 2, by omega⟩ := Subtype.ext (Fin.ext (by omega))
      have := g.injective h2
      simp only [Fin.mk.injEq] at this
      omega
    · omega
    · omega
    · exact h
  · simp
  · intro i
    have hi : (i : Nat) + 2 < n := by
      have := Fintype.card_le_of_embedding e
      simp only [Fintype.card_fin] at this
      omega
    have := hg ⟨i, by omega⟩ (by simp)
    simp only [i.2, dif_pos, Fin.eta] at this
    simp only [show 2 ≤ (i : Nat) + 2 ∧ (i : Nat) + 2 < n from ⟨by omega, hi⟩, and_self, dif_pos, Nat.add_sub_cancel]
    rw [this]

variable {n k s w : Nat}

/-- a renaming that continues two embeddings -/
theorem exists_ren (hn : 2 ≤ n) (hk : 2 ≤ k) (x : (Fin (s - 1) ↪ Fin (n - 2)) × (Fin (w - 1) ↪ Fin (k - 2))) :
    ∃ ρ : Renaming n k, ρ.mirror = false ∧ (ρ.st 0 = 0 ∧ ρ.st 1 = 1 ∧ ρ.sy 0 = 0 ∧ ρ.sy 1 = 1) ∧
      (∀ i : Fin (s - 1), ρ.st (i + 2) = x.1 i + 2) ∧ ∀ i : Fin (w - 1), ρ.sy (i + 2) = x.2 i + 2 := by
  obtain ⟨f, f1, f2, f3, f4, f5⟩ := extend hn x.1
  obtain ⟨g, g1, g2, g3, g4, g5⟩ := extend hk x.2
  exact ⟨⟨f, g, false, f1, f2, g1, g2⟩, rfl, ⟨f3, f4, g3, g4⟩, f5, g5⟩

noncomputable def ren (hn : 2 ≤ n) (hk : 2 ≤ k) (x : (Fin (s - 1) ↪ Fin (n - 2)) × (Fin (w - 1) ↪ Fin (k - 2))) : Renaming n k :=
  (exists_ren hn hk x).choose

/-- the embeddings of a renaming -/
theorem of_ren {f : Nat → Nat} (h1 : ∀ q < n, f q < n) (h2 : ∀ q < n, ∀ q' < n, f q = f q' → q = q') (h3 : f 0 = 0) (h4 : f 1 = 1)
    (hs : s < n) : ∃ e : Fin (s - 1) ↪ Fin (n - 2), ∀ i : Fin (s - 1), f (i + 2) = e i + 2 := by
  have key : ∀ i : Fin (s - 1), 2 ≤ f (i + 2) ∧ f (i + 2) < n := by
    intro i
    refine ⟨?_, h1 _ (by omega)⟩
    by_contra hc
    have : f (i + 2) = 0 ∨ f (i + 2) = 1 := by omega
    rcases this with h | h
    · have := h2 (i + 2) (by omega) 0 (by omega) (by rw [h, h3])
      omega
    · have hi := i.2
      have := h2 (i + 2) (by omega) 1 (by omega) (by rw [h, h4])
      omega
  refine ⟨⟨fun i => ⟨f (i + 2) - 2, by have := key i; omega⟩, ?_⟩, ?_⟩
  · intro i j hij
    simp only [Fin.mk.injEq] at hij
    have a := key i
    have b := key j
    have := h2 (i + 2) (by omega) (j + 2) (by omega) (by omega)
    exact Fin.ext (by omega)
  · intro i
    have a := key i
    change f (i + 2) = (f (i + 2) - 2) + 2
    omega

/-! ## Runs -/

variable {P T : Table}

/-- the largest state and symbol number used -/
structure Maxes (P : Table) (n k s w : Nat) : Prop where
  le : ∀ q < n, ∀ a < k, ∀ x d p, P q a = .go x d p → p ≤ s ∧ x ≤ w
  st : ∃ q < n, ∃ a < k, ∃ x d, P q a = .go x d s
  sy : ∃ q < n, ∃ a < k, ∃ d p, P q a = .go w d p

variable (hf : Fits P n k) (hP : TreeMachine P n k) (hm : Maxes P n k s w)

include hf hP hm

theorem bounds : 1 ≤ s ∧ s < n ∧ 1 ≤ w ∧ w < k := by
  obtain ⟨q, hq, a, ha, x, d, e⟩ := hm.st
  obtain ⟨q', hq', a', ha', d', p', e'⟩ := hm.sy
  have h0 := hm.le 0 (by omega) 0 (by omega) _ _ _ hP.start
  have f1 := hf q hq a ha
  rw [e] at f1
  have f2 := hf q' hq' a' ha'
  rw [e'] at f2
  simp only at f1 f2
  omega

/-- defined cells belong to used states and symbols -/
theorem cell_le {q a : Nat} (hq : q < n) (ha : a < k) (hd : P q a ≠ .undef) : q ≤ s ∧ a ≤ w := by
  obtain ⟨b1, b2, b3, b4⟩ := bounds hf hP hm
  obtain ⟨t, h1, h2⟩ := hP.used q hq a ha hd
  obtain ⟨u1, u2⟩ := run_used hf (by omega) (by omega) t (by rw [h1]; simp)
  constructor
  · rcases u1 q h1 with rfl | ⟨q', a', s', ⟨d1, d2, d3⟩, e, hle⟩
    · omega
    · cases hi : P q' a' with
      | undef => rw [hi] at e; simp [Instr.next] at e
      | halt x d => rw [hi] at e; simp [Instr.next] at e
      | go x d p =>
        rw [hi] at e
        simp only [Instr.next, Option.some.injEq] at e
        have := (hm.le q' d1 a' d2 _ _ _ hi).1
        omega
  · rcases u2 (run P t init).pos with e | ⟨q', a', ⟨d1, d2, d3⟩, hle⟩
    · omega
    · rw [h2] at hle
      cases hi : P q' a' with
      | undef => exact absurd hi d3
      | halt x d =>
        rw [hi] at hle
        have := (hP.halts q' d1 a' d2 _ _ hi).1
        simp only [Instr.write] at hle
        omega
      | go x d p =>
        rw [hi] at hle
        have := (hm.le q' d1 a' d2 _ _ _ hi).2
        simp only [Instr.write] at hle
        omega

omit hP hm in
/-- a represented machine follows the partial one -/
theorem run_rep (hn : 0 < n) (hk : 0 < k) {ρ : Renaming n k} (h0 : ρ.st 0 = 0) (h1 : ρ.sy 0 = 0)
    (hT : ∀ q < n, ∀ a < k, P q a ≠ .undef → T (ρ.st q) (ρ.sy a) = ρ.instr (P q a)) (t : Nat) (hs : (run P t init).state ≠ none) :
    run T t init = ρ.config (run P t init) := by
  induction t with
  | zero => exact (config_init ρ h0 h1).symm
  | succ t ih =>
    rw [run_succ'] at hs
    have hs' : (run P t init).state ≠ none := fun h' => hs (by rw [step_halted h']; exact h')
    rw [run_succ', run_succ', ih hs']
    obtain ⟨q, hq⟩ := Option.ne_none_iff_exists'.1 hs'
    have hi := inRange_run hf (inRange_init hn hk) t hs'
    rw [step_state hq] at hs
    cases hc : P q ((run P t init).tape (run P t init).pos) with
    | undef => rw [hc] at hs; exact absurd rfl hs
    | halt x d => rw [hc] at hs; exact absurd rfl hs
    | go x d p => exact step_renamed ρ ⟨hq, rfl⟩ hc (hT q (hi.1 q hq) _ (hi.2 _) (by rw [hc]; simp))

omit hm in
/-- the names of used states and symbols can be read off the represented machine -/
theorem names_eq (hn : 0 < n) (hk : 0 < k) {ρ ρ' : Renaming n k} (hr : ρ.mirror = false) (h0 : ρ.st 0 = 0) (h1 : ρ.sy 0 = 0)
    (hT : ∀ q < n, ∀ a < k, P q a ≠ .undef → T (ρ.st q) (ρ.sy a) = ρ.instr (P q a)) (hr' : ρ'.mirror = false) (h0' : ρ'.st 0 = 0)
    (h1' : ρ'.sy 0 = 0)
    (hT' : ∀ q < n, ∀ a < k, P q a ≠ .undef → T (ρ'.st q) (ρ'.sy a) = ρ'.instr (P q a))
    {q a x p : Nat} {d : Dir} (hq : q < n) (ha : a < k) (hc : P q a = .go x d p) : ρ.st p = ρ'.st p ∧ ρ.sy x = ρ'.sy x := by
  obtain ⟨t, hs, hp⟩ := hP.used q hq a ha (by rw [hc]; simp)
  have hst : step P (run P t init) = ⟨some p, (run P t init).pos + d.delta, Function.update (run P t init).tape (run P t init).pos x⟩ := by
    rw [step_eq hs, hp, hc]; rfl
  have hne : (run P (t + 1) init).state ≠ none := by rw [run_succ', hst]; simp
  have e1 := run_rep hf hn hk h0 h1 hT (t + 1) hne
  have e2 := run_rep hf hn hk h0' h1' hT' (t + 1) hne
  rw [e1, run_succ', hst] at e2
  have a1 := congrArg Config.state e2
  have a2 := congrFun (congrArg Config.tape e2) (run P t init).pos
  simp only [Renaming.config, Option.map_some, Option.some.injEq] at a1
  simp only [Renaming.config, Renaming.pos, hr, hr', Bool.false_eq_true, if_false, Function.update_self] at a2
  exact ⟨a1, a2⟩

theorem used_st {p : Nat} (hp : p ≤ s) (h2 : 2 ≤ p) : ∃ q < n, ∃ a < k, ∃ x d, P q a = .go x d p := by
  obtain ⟨q, hq, a, ha, x, d, e⟩ := hm.st
  rcases Nat.eq_or_lt_of_le hp with rfl | hlt
  · exact ⟨q, hq, a, ha, x, d, e⟩
  · rcases hP.states q hq a ha x d s e p hlt with h | h
    · omega
    · exact h

theorem used_sy {x : Nat} (hp : x ≤ w) (h2 : 2 ≤ x) : ∃ q < n, ∃ a < k, ∃ d p, P q a = .go x d p := by
  obtain ⟨q, hq, a, ha, d, p, e⟩ := hm.sy
  rcases Nat.eq_or_lt_of_le hp with rfl | hlt
  · exact ⟨q, hq, a, ha, d, p, e⟩
  · rcases hP.symbols q hq a ha w d p e x hlt with h | h
    · omega
    · exact h

/-- different embeddings give different machines -/
theorem emb_inj (hn : 2 ≤ n) (hk : 2 ≤ k) {x y : (Fin (s - 1) ↪ Fin (n - 2)) × (Fin (w - 1) ↪ Fin (k - 2))}
    (hx : ∀ q < n, ∀ a < k, P q a ≠ .undef → T ((ren hn hk x).st q) ((ren hn hk x).sy a) = (ren hn hk x).instr (P q a))
    (hy : ∀ q < n, ∀ a < k, P q a ≠ .undef → T ((ren hn hk y).st q) ((ren hn hk y).sy a) = (ren hn hk y).instr (P q a)) :
    x = y := by
  obtain ⟨a1, ⟨a2, a3, a4, a5⟩, a6, a7⟩ := (exists_ren hn hk x).choose_spec
  obtain ⟨b1, ⟨b2, b3, b4, b5⟩, b6, b7⟩ := (exists_ren hn hk y).choose_spec
  refine Prod.ext ?_ ?_
  · ext i
    obtain ⟨q, hq, a, ha, z, d, e⟩ := used_st hf hP hm (p := i + 2) (by omega) (by omega)
    have := (names_eq hf hP (by omega) (by omega) a1 a2 a4 hx b1 b2 b4 hy hq ha e).1
    have c := a6 i
    have c' := b6 i
    unfold ren at this
    omega
  · ext i
    obtain ⟨q, hq, a, ha, z, d, e⟩ := used_sy hf hP hm (x := i + 2) (by omega) (by omega)
    have := (names_eq hf hP (by omega) (by omega) a1 a2 a4 hx b1 b2 b4 hy hq ha e).2
    have c := a7 i
    have c' := b7 i
    unfold ren at this
    omega

/-- the renaming matters only on used states and symbols -/
theorem represents_iff (hn : 2 ≤ n) (hk : 2 ≤ k) : StandsFor P T n k ↔
    ∃ x : (Fin (s - 1) ↪ Fin (n - 2)) × (Fin (w - 1) ↪ Fin (k - 2)),
      ∀ q < n, ∀ a < k, P q a ≠ .undef → T ((ren hn hk x).st q) ((ren hn hk x).sy a) = (ren hn hk x).instr (P q a) := by
  obtain ⟨b1, b2, b3, b4⟩ := bounds hf hP hm
  constructor
  · rintro ⟨ρ, r1, r2, r3, r4, r5, hr⟩
    obtain ⟨e, he⟩ := of_ren ρ.st_lt ρ.st_inj r2 r3 b2
    obtain ⟨g, hg⟩ := of_ren ρ.sy_lt ρ.sy_inj r4 r5 b4
    refine ⟨(e, g), ?_⟩
    obtain ⟨a1, ⟨a2, a3, a4, a5⟩, a6, a7⟩ := (exists_ren hn hk (e, g)).choose_spec
    change (ren hn hk (e, g)).mirror = false at a1
    change (ren hn hk (e, g)).st 0 = 0 at a2
    change (ren hn hk (e, g)).st 1 = 1 at a3
    change (ren hn hk (e, g)).sy 0 = 0 at a4
    change (ren hn hk (e, g)).sy 1 = 1 at a5
    have hst : ∀ q ≤ s, (ren hn hk (e, g)).st q = ρ.st q := by
      intro q hq
      match q with
      | 0 => rw [a2, r2]
      | 1 => rw [a3, r3]
      | q + 2 =>
        have c := a6 ⟨q, by omega⟩
        have c' := he ⟨q, by omega⟩
        simp only at c c'
        rw [c']
        exact c
    have hsy : ∀ a ≤ w, (ren hn hk (e, g)).sy a = ρ.sy a := by
      intro q hq
      match q with
      | 0 => rw [a4, r4]
      | 1 => rw [a5, r5]
      | q + 2 =>
        have c := a7 ⟨q, by omega⟩
        have c' := hg ⟨q, by omega⟩
        simp only at c c'
        rw [c']
        exact c
    intro q hq a ha hd
    obtain ⟨c1, c2⟩ := cell_le hf hP hm hq ha hd
    rw [hst q c1, hsy a c2, hr q hq a ha hd]
    cases hi : P q a with
    | undef => rfl
    | halt x d =>
      have := (hP.halts q hq a ha x d hi).1
      simp only [Renaming.instr, Renaming.dir, r1, a1]
      rw [hsy x (by omega)]
    | go x d p =>
      have := hm.le q hq a ha x d p hi
      simp only [Renaming.instr, Renaming.dir, r1, a1]
      rw [hsy x this.2, hst p this.1]
  · rintro ⟨x, hx⟩
    obtain ⟨a1, ⟨a2, a3, a4, a5⟩, -, -⟩ := (exists_ren hn hk x).choose_spec
    exact ⟨ren hn hk x, a1, a2, a3, a4, a5, hx⟩

/-! ## Tables as functions on the cells -/

omit hf hP hm

/-- the table of a function on the cells -/
def ofFun (f : Fin n × Fin k → Instr) : Table := fun q a => if h : q < n ∧ a < k then f (⟨q, h.1⟩, ⟨a, h.2⟩) else .undef

theorem ofFun_apply (f : Fin n × Fin k → Instr) {q a : Nat} (hq : q < n) (ha : a < k) : ofFun f q a = f (⟨q, hq⟩, ⟨a, ha⟩) := by
  unfold ofFun
  rw [dif_pos ⟨hq, ha⟩]

theorem ofFun_inj : Function.Injective (ofFun (n := n) (k := k)) := by
  intro f g h
  funext ⟨q, a⟩
  have := congrFun (congrFun h q) a
  rwa [ofFun_apply f q.2 a.2, ofFun_apply g q.2 a.2] at this

theorem haltCells_eq (T : Table) : haltCells T n k = hc fun x : Fin n × Fin k => T x.1 x.2 := by
  unfold haltCells hc
  symm
  apply Finset.card_bij (fun x _ => ((x.1 : Nat), (x.2 : Nat)))
  · rintro ⟨q, a⟩ h
    simp only [mem_filter, mem_univ, true_and, mem_product, mem_range] at h ⊢
    exact ⟨⟨q.2, a.2⟩, h⟩
  · rintro ⟨q, a⟩ - ⟨q', a'⟩ - h
    simp only [Prod.mk.injEq] at h
    exact Prod.ext (Fin.ext h.1) (Fin.ext h.2)
  · rintro ⟨q, a⟩ h
    simp only [mem_filter, mem_product, mem_range] at h
    exact ⟨(⟨q, h.1.1⟩, ⟨a, h.1.2⟩), by simpa using h.2, rfl⟩

/-- the running transitions -/
def gos (n k : Nat) : Finset Instr :=
  (univ : Finset (Fin k × Bool × Fin n)).image fun x => .go x.1 (if x.2.1 then .R else .L) x.2.2

theorem mem_gos {i : Instr} : i ∈ gos n k ↔ ∃ x < k, ∃ d, ∃ p < n, i = .go x d p := by
  unfold gos
  simp only [mem_image, mem_univ, true_and]
  constructor
  · rintro ⟨⟨x, b, p⟩, rfl⟩
    exact ⟨x, x.2, _, p, p.2, rfl⟩
  · rintro ⟨x, hx, d, p, hp, rfl⟩
    refine ⟨(⟨x, hx⟩, d = .R, ⟨p, hp⟩), ?_⟩
    cases d <;> simp

theorem card_gos : (gos n k).card = 2 * n * k := by
  unfold gos
  rw [Finset.card_image_of_injective]
  · rw [Finset.card_univ, Fintype.card_prod, Fintype.card_prod, Fintype.card_fin, Fintype.card_fin, Fintype.card_bool]
    ring
  · rintro ⟨x, b, p⟩ ⟨x', b', p'⟩ h
    simp only [Instr.go.injEq] at h
    obtain ⟨h1, h2, h3⟩ := h
    refine Prod.ext (Fin.ext h1) (Prod.ext ?_ (Fin.ext h3))
    cases b <;> cases b' <;> simp at h2 ⊢

/-- the renaming of cells -/
noncomputable def cellPerm (ρ : Renaming n k) : Fin n × Fin k ≃ Fin n × Fin k :=
  Equiv.ofBijective (fun x => (⟨ρ.st x.1, ρ.st_lt _ x.1.2⟩, ⟨ρ.sy x.2, ρ.sy_lt _ x.2.2⟩)) (by
    rw [Fintype.bijective_iff_injective_and_card]
    refine ⟨?_, rfl⟩
    rintro ⟨q, a⟩ ⟨q', a'⟩ h
    simp only [Prod.mk.injEq, Fin.mk.injEq] at h
    exact Prod.ext (Fin.ext (ρ.st_inj _ q.2 _ q'.2 h.1)) (Fin.ext (ρ.sy_inj _ a.2 _ a'.2 h.2)))

/-- the renamed partial table -/
noncomputable def renP (P : Table) (ρ : Renaming n k) : Fin n × Fin k → Instr :=
  fun c => ρ.instr (P ((cellPerm ρ).symm c).1 ((cellPerm ρ).symm c).2)

theorem renP_perm (ρ : Renaming n k) (x : Fin n × Fin k) : renP P ρ (cellPerm ρ x) = ρ.instr (P x.1 x.2) := by
  unfold renP
  rw [Equiv.symm_apply_apply]

theorem card_filter_renP (ρ : Renaming n k) (p : Instr → Prop) [DecidablePred p] (h : ∀ i, p (ρ.instr i) ↔ p i) :
    (univ.filter fun c => p (renP P ρ c)).card = (univ.filter fun x : Fin n × Fin k => p (P x.1 x.2)).card := by
  symm
  apply Finset.card_bij (fun x _ => cellPerm ρ x)
  · intro x hx
    simp only [mem_filter, mem_univ, true_and] at hx ⊢
    rw [renP_perm, h]
    exact hx
  · intro x _ y _ e
    exact (cellPerm ρ).injective e
  · intro c hc
    simp only [mem_filter, mem_univ, true_and] at hc
    refine ⟨(cellPerm ρ).symm c, ?_, Equiv.apply_symm_apply _ _⟩
    simp only [mem_filter, mem_univ, true_and]
    rw [← h]
    exact hc

theorem instr_undef_iff (ρ : Renaming n k) (i : Instr) : ρ.instr i = .undef ↔ i = .undef := by
  cases i <;> simp [Renaming.instr]

theorem instr_halts (ρ : Renaming n k) (i : Instr) : (ρ.instr i).halts = true ↔ i.halts = true := by
  cases i <;> simp [Renaming.instr, Instr.halts]

/-- the number of undefined cells of the table -/
def undCells (P : Table) (n k : Nat) : Nat := (univ.filter fun x : Fin n × Fin k => P x.1 x.2 = .undef).card

theorem card_und (ρ : Renaming n k) : (und (renP P ρ)).card = undCells P n k :=
  card_filter_renP ρ (· = .undef) (instr_undef_iff ρ)

theorem hc_renP (ρ : Renaming n k) : hc (renP P ρ) = haltCells P n k := by
  rw [haltCells_eq]
  exact card_filter_renP ρ (fun i => i.halts = true) (instr_halts ρ)

/-- the number that `Count.py` multiplies with -/
def mult (n k h d : Nat) (allow : Bool) : Nat :=
  if h = 1 then (2 * n * k) ^ d else d * (2 * n * k) ^ (d - 1) + if allow = true then (2 * n * k) ^ d else 0

include hf hP hm

theorem represented_eq (hn : 2 ≤ n) (hk : 2 ≤ k) (allow : Bool) : represented P n k allow =
    ofFun '' (((univ : Finset ((Fin (s - 1) ↪ Fin (n - 2)) × (Fin (w - 1) ↪ Fin (k - 2)))).biUnion fun x =>
      compl (gos n k) (renP P (ren hn hk x)) allow : Finset (Fin n × Fin k → Instr)) : Set (Fin n × Fin k → Instr)) := by
  ext T
  simp only [represented, Set.mem_setOf_eq, Set.mem_image, mem_coe, mem_biUnion, mem_univ, true_and]
  rw [represents_iff hf hP hm hn hk]
  constructor
  · rintro ⟨h1, h2, x, hx⟩
    refine ⟨fun c => T c.1 c.2, ⟨x, ?_⟩, ?_⟩
    · rw [mem_compl]
      refine ⟨fun c _ => ?_, fun c hc => ?_, by rw [← haltCells_eq]; exact h2⟩
      · rw [mem_gos]
        exact h1.cells _ c.1.2 _ c.2.2
      · obtain ⟨y, rfl⟩ := (cellPerm (ren hn hk x)).surjective c
        rw [renP_perm] at hc ⊢
        exact hx _ y.1.2 _ y.2.2 (fun h => hc (by rw [instr_undef_iff]; exact h))
    · funext q a
      unfold ofFun
      split
      · rfl
      · rename_i h
        exact (h1.outside q a h).symm
  · rintro ⟨f, ⟨x, hx⟩, rfl⟩
    rw [mem_compl] at hx
    obtain ⟨h1, h2, h3⟩ := hx
    have e : (fun x : Fin n × Fin k => ofFun f x.1 x.2) = f := by
      funext c
      exact ofFun_apply f c.1.2 c.2.2
    refine ⟨⟨fun q hq a ha => ?_, fun q a h => dif_neg h⟩, ?_, x, fun q hq a ha hd => ?_⟩
    · rw [ofFun_apply f hq ha]
      generalize hy : ((⟨q, hq⟩, ⟨a, ha⟩) : Fin n × Fin k) = c
      by_cases hu : renP P (ren hn hk x) c = .undef
      · have := h1 _ hu
        rw [mem_gos] at this
        exact this
      · rw [h2 _ hu]
        obtain ⟨y, rfl⟩ := (cellPerm (ren hn hk x)).surjective c
        rw [renP_perm] at hu ⊢
        obtain ⟨a1, ⟨a2, a3, a4, a5⟩, -, -⟩ := (exists_ren hn hk x).choose_spec
        have hfit := hf _ y.1.2 _ y.2.2
        cases hi : P y.1 y.2 with
        | undef => rw [hi] at hu; exact absurd rfl hu
        | halt z d =>
          obtain ⟨rfl, rfl⟩ := hP.halts _ y.1.2 _ y.2.2 _ _ hi
          left
          simp only [Renaming.instr, Renaming.dir]
          unfold ren
          rw [a1, a5]
          rfl
        | go z d p =>
          rw [hi] at hfit
          exact Or.inr ⟨_, Renaming.sy_lt _ _ hfit.1, _, _, Renaming.st_lt _ _ hfit.2, rfl⟩
    · rw [haltCells_eq, e]
      exact h3
    · have hne : renP P (ren hn hk x) (cellPerm (ren hn hk x) (⟨q, hq⟩, ⟨a, ha⟩)) ≠ .undef := by
        rw [renP_perm, Ne, instr_undef_iff]
        exact hd
      have := h2 _ hne
      rw [renP_perm] at this
      rw [← this]
      exact ofFun_apply f ((ren hn hk x).st_lt q hq) ((ren hn hk x).sy_lt a ha)

theorem represented_card (allow : Bool) : (represented P n k allow).ncard =
    (n - 2).descFactorial (s - 1) * (k - 2).descFactorial (w - 1) * mult n k (haltCells P n k) (undCells P n k) allow := by
  obtain ⟨b1, b2, b3, b4⟩ := bounds hf hP hm
  have hn : 2 ≤ n := by omega
  have hk : 2 ≤ k := by omega
  rw [represented_eq hf hP hm hn hk, Set.ncard_image_of_injective _ ofFun_inj, Set.ncard_coe_finset, Finset.card_biUnion]
  · have : ∀ x ∈ (univ : Finset ((Fin (s - 1) ↪ Fin (n - 2)) × (Fin (w - 1) ↪ Fin (k - 2)))),
        (compl (gos n k) (renP P (ren hn hk x)) allow).card = mult n k (haltCells P n k) (undCells P n k) allow := by
      intro x _
      rw [card_compl, card_und, hc_renP, card_gos]
      · rfl
      · intro i hi
        obtain ⟨_, _, _, _, _, rfl⟩ := mem_gos.1 hi
        rfl
      · rw [hc_renP]; exact hP.oneHalt
    rw [Finset.sum_congr rfl this, Finset.sum_const, Finset.card_univ, Fintype.card_prod, Fintype.card_embedding_eq,
      Fintype.card_embedding_eq, smul_eq_mul]
    simp only [Fintype.card_fin]
  · intro x _ y _ hne
    change Disjoint _ _
    rw [Finset.disjoint_left]
    intro f h1 h2
    apply hne
    rw [mem_compl] at h1 h2
    refine emb_inj hf hP hm hn hk (T := ofFun f) ?_ ?_
    · intro q hq a ha hd
      have := h1.2.1 (cellPerm (ren hn hk x) (⟨q, hq⟩, ⟨a, ha⟩)) (by rw [renP_perm, Ne, instr_undef_iff]; exact hd)
      rw [renP_perm] at this
      rw [← this]
      exact ofFun_apply f ((ren hn hk x).st_lt q hq) ((ren hn hk x).sy_lt a ha)
    · intro q hq a ha hd
      have := h2.2.1 (cellPerm (ren hn hk y) (⟨q, hq⟩, ⟨a, ha⟩)) (by rw [renP_perm, Ne, instr_undef_iff]; exact hd)
      rw [renP_perm] at this
      rw [← this]
      exact ofFun_apply f ((ren hn hk y).st_lt q hq) ((ren hn hk y).sy_lt a ha)

end Spec.Count
