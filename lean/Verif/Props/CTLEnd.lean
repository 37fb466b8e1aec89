import Verif.Lemmas.CTLFinite
import Verif.Props.CTL

/-!
# C85: the closed tape language filters come to an end

`test_CTL` gives no time limit to the loop `while table != new_table`.
-/

namespace Props
open Spec Model Model.CTL

variable {σ S : Type} [DecidableEq σ] [DecidableEq S]

/-- The meaning of `while table != new_table` without any limit: started with `t` it returns `b` after
`n` rounds. -/
inductive Returns (round : Tab σ S → Option (Tab σ S)) (ks : List Slot) : Nat → Tab σ S → Bool → Prop
  | fail {t} : round t = none → Returns round ks 1 t false
  | done {t new} : round t = some new → tabEq t (complete new t ks) = true → Returns round ks 1 t true
  | again {n t new b} : round t = some new → tabEq t (complete new t ks) = false →
      Returns round ks n (complete new t ks) b → Returns round ks (n + 1) t b

/-- the table with which `CTL` of `CTL1.py` starts (29-33) -/
def start1 (s : SimSt σ S Nat) : Tab σ S :=
  upd (upd [] (s.st, s.dir) .L .A (ctl1Tape (s.tape.half .L))) (s.st, s.dir) .R .A (ctl1Tape (s.tape.half .R))

/-- the table with which `CTL` of `CTL2.py` starts (29-36) -/
def start2 (M : Machine σ S) (s : SimSt σ S Nat) : Tab σ S :=
  ctl2Init M (s.st, s.dir) .R (ctl2Tape (s.tape.half .R))
    (ctl2Init M (s.st, s.dir) .L (ctl2Tape (s.tape.half .L)) [])

/-- A loop that ends returns an answer, and this is the answer for all numbers of rounds from there on. -/
theorem returns_of_ends {round : Tab σ S → Option (Tab σ S)} {ks : List Slot} {n : Nat} {t : Tab σ S}
    (h : Ends round ks n t) :
    ∃ b m, m ≤ n ∧ Returns round ks m t b ∧ ∀ fuel, m ≤ fuel → loop round ks fuel t = b := by
  induction n generalizing t with
  | zero => exact h.elim
  | succ n ih =>
    unfold Ends at h
    cases e : round t with
    | none =>
      refine ⟨false, 1, by omega, .fail e, fun fuel hf => ?_⟩
      obtain ⟨f, rfl⟩ : ∃ j, fuel = j + 1 := ⟨fuel - 1, by omega⟩
      simp [loop, e]
    | some new =>
      rw [e] at h
      simp only at h
      cases hq : tabEq t (complete new t ks) with
      | true =>
        refine ⟨true, 1, by omega, .done e hq, fun fuel hf => ?_⟩
        obtain ⟨f, rfl⟩ : ∃ j, fuel = j + 1 := ⟨fuel - 1, by omega⟩
        simp [loop, e, hq]
      | false =>
        obtain ⟨b, m, hm, hr, hl⟩ := ih (h.resolve_left (by rw [hq]; simp))
        refine ⟨b, m + 1, by omega, .again e hq hr, fun fuel hf => ?_⟩
        obtain ⟨f, rfl⟩ : ∃ j, fuel = j + 1 := ⟨fuel - 1, by omega⟩
        simp only [loop, e, hq]
        simpa using hl f (by omega)

omit [DecidableEq S] in
theorem facts_card (U : Finset (S × Dir)) (V : Finset σ) :
    (facts U V).card ≤ U.card * (1 + 6 * V.card) := by
  unfold facts
  rw [Finset.card_product]
  refine Nat.mul_le_mul_left _ (Nat.le_trans (Finset.card_insert_le _ _) ?_)
  have h := Finset.card_image_le (s := ({.L, .R} : Finset Dir) ×ˢ (({.A, .B, .C} : Finset Slot) ×ˢ V))
    (f := some)
  rw [Finset.card_product, Finset.card_product] at h
  have h2 : ({.L, .R} : Finset Dir).card = 2 := rfl
  have h3 : ({.A, .B, .C} : Finset Slot).card = 3 := rfl
  rw [h2, h3] at h
  omega

theorem loop_returns {U : Finset (S × Dir)} {V : Finset σ} {ks : List Slot} (hk : ks ≠ [])
    {round : Tab σ S → Option (Tab σ S)}
    (hr : ∀ t new, Within U V ks t → round t = some new → Within U V ks new) {t : Tab σ S}
    (ht : Within U V ks t) :
    ∃ b m, m ≤ 1 + U.card * (1 + 6 * V.card) ∧ Returns round ks m t b ∧
      ∀ fuel, m ≤ fuel → loop round ks fuel t = b :=
  returns_of_ends (ends_of hk hr _ t ht (by have := facts_card U V; omega))

omit [DecidableEq σ] [DecidableEq S] in
theorem within_one {U : Finset (S × Dir)} {V : Finset σ} {ks : List Slot} {k : S × Dir} (hk : k ∈ U)
    {l r : Side σ} (hl : ∀ s x, x ∈ l.get s → x ∈ V ∧ s ∈ ks) (hr : ∀ s x, x ∈ r.get s → x ∈ V ∧ s ∈ ks) :
    Within U V ks [(k, ⟨l, r⟩)] := by
  refine ⟨by simp [Py.NodupKeys], fun e he => ?_, fun e he d s x hx => ?_⟩
  · rw [List.mem_singleton.1 he]; exact hk
  · rw [List.mem_singleton.1 he] at hx
    cases d with
    | L => exact hl s x hx
    | R => exact hr s x hx

/-- **C85.** On every machine stack, and from every state of the simulator: if symbols, and states with
directions, stay in finite sets, the loop of each of the four filters returns an answer, after a number of
rounds bounded by the sizes of these sets. -/
theorem C85_ends_bound (M : Machine σ S) (U : Finset (S × Dir)) (V : Finset σ) (hblank : M.initSym ∈ V)
    (hclosed : ∀ a ∈ V, ∀ k ∈ U, (M.trans a k.1 k.2).cond = .running →
      (M.trans a k.1 k.2).sym ∈ V ∧ ((M.trans a k.1 k.2).st, (M.trans a k.1 k.2).dir) ∈ U)
    (s : SimSt σ S Nat) (hst : (s.st, s.dir) ∈ U) (htape : ∀ d, ∀ b ∈ s.tape.half d, b.sym ∈ V) :
    (∃ b m, m ≤ 1 + U.card * (1 + 6 * V.card) ∧ Returns (ctl1Round M) [.A] m (start1 s) b ∧
      ∀ fuel, m ≤ fuel → ctl1 M s fuel = b) ∧
    (∃ b m, m ≤ 1 + U.card * (1 + 6 * V.card) ∧ Returns (ctl2Round M) [.A, .B] m (start2 M s) b ∧
      ∀ fuel, m ≤ fuel → ctl2 M s fuel = b) ∧
    (∀ l r, ctl3Side (s.tape.half .L) = some l → ctl3Side (s.tape.half .R) = some r →
      ∃ b m, m ≤ 1 + U.card * (1 + 6 * V.card) ∧
        Returns (ctl3Round M) [.A, .B] m [((s.st, s.dir), ⟨l, r⟩)] b ∧
        ∀ fuel, m ≤ fuel → ctl3 M s fuel = b) ∧
    (∀ l r, ctl4Side (s.tape.half .L).reverse = some l → ctl4Side (s.tape.half .R).reverse = some r →
      ∃ b m, m ≤ 1 + U.card * (1 + 6 * V.card) ∧
        Returns (ctl4Round M) [.A, .B, .C] m [((s.st, s.dir), ⟨l, r⟩)] b ∧
        ∀ fuel, m ≤ fuel → ctl4 M s fuel = b) := by
  have C : Closed M U V := ⟨hblank, hclosed⟩
  have hsym : ∀ d x, x ∈ (s.tape.half d).map (·.sym) → x ∈ V := by
    intro d x hx
    obtain ⟨b, hb, rfl⟩ := List.mem_map.1 hx
    exact htape d b hb
  refine ⟨?_, ?_, fun l r el er => ?_, fun l r el er => ?_⟩
  · exact loop_returns (by simp) (ctl1Round_within C)
      ((Within.nil.upd hst _ (by simp) (hsym .L)).upd hst _ (by simp) (hsym .R))
  · have init : ∀ (d : Dir) (t : Tab σ S), Within U V [.A, .B] t →
        Within U V [.A, .B] (ctl2Init M (s.st, s.dir) d (ctl2Tape (s.tape.half d)) t) := by
      intro d t ht
      unfold ctl2Init
      simp only
      have h1 := ht.upd hst d (s := .A) (xs := (ctl2Tape (s.tape.half d)).dropLast) (by simp)
        (fun x hx => hsym d x (ctl2Tape_mem (List.mem_of_mem_dropLast hx)))
      split
      · exact h1.upd hst _ (by simp) (fun _ => mem_one hblank)
      · rename_i x hx
        exact h1.upd hst _ (by simp) (fun _ => mem_one (hsym d x (ctl2Tape_mem (List.mem_of_getLast? hx))))
    exact loop_returns (by simp) (ctl2Round_within C) (init .R _ (init .L _ Within.nil))
  · have := loop_returns (by simp) (ctl3Round_within C) (within_one (ks := [.A, .B]) hst
      (fun s x hx => ⟨hsym .L x (ctl3Side_mem el s x hx).1, (ctl3Side_mem el s x hx).2⟩)
      (fun s x hx => ⟨hsym .R x (ctl3Side_mem er s x hx).1, (ctl3Side_mem er s x hx).2⟩))
    unfold ctl3
    rw [el, er]
    exact this
  · have rev : ∀ d x, x ∈ ((s.tape.half d).reverse).map (·.sym) → x ∈ V := by
      intro d x hx
      rw [List.map_reverse, List.mem_reverse] at hx
      exact hsym d x hx
    have := loop_returns (by simp) (ctl4Round_within C) (within_one (ks := [.A, .B, .C]) hst
      (fun s x hx => ⟨rev .L x (ctl4Side_mem el s x hx), by cases s <;> simp⟩)
      (fun s x hx => ⟨rev .R x (ctl4Side_mem er s x hx), by cases s <;> simp⟩))
    unfold ctl4
    rw [el, er]
    exact this

/-- The loops of the four filters, run on the machine stack `M` after simulation up to any cutoff, return an
answer after at most `B` rounds, and this is the answer of the filter.  (`none` for one of the sides is an
exception before the loop.) -/
def LoopsEnd (M : Machine σ S) (B : Nat) : Prop :=
  ∀ (cutoff : Nat) (s : SimSt σ S Nat), s = SimSt.seek M cutoff (SimSt.init natOps M) → s.op = .running →
    (∃ b m, m ≤ B ∧ Returns (ctl1Round M) [.A] m (start1 s) b ∧
      ∀ fuel, m ≤ fuel → test1 M cutoff fuel = b) ∧
    (∃ b m, m ≤ B ∧ Returns (ctl2Round M) [.A, .B] m (start2 M s) b ∧
      ∀ fuel, m ≤ fuel → test2 M cutoff fuel = b) ∧
    (∀ l r, ctl3Side (s.tape.half .L) = some l → ctl3Side (s.tape.half .R) = some r →
      ∃ b m, m ≤ B ∧ Returns (ctl3Round M) [.A, .B] m [((s.st, s.dir), ⟨l, r⟩)] b ∧
        ∀ fuel, m ≤ fuel → test3 M cutoff fuel = b) ∧
    (∀ l r, ctl4Side (s.tape.half .L).reverse = some l → ctl4Side (s.tape.half .R).reverse = some r →
      ∃ b m, m ≤ B ∧ Returns (ctl4Round M) [.A, .B, .C] m [((s.st, s.dir), ⟨l, r⟩)] b ∧
        ∀ fuel, m ≤ fuel → test4 M cutoff fuel = b)

theorem loopsEnd_of {M : Machine σ S} {ok : S → Prop} {okS : σ → Prop} (hM : Stays M ok okS)
    (h1 : ok M.initSt) (h2 : okS M.initSym) (f1 : {q | ok q}.Finite) (f2 : {a | okS a}.Finite) :
    ∃ B, LoopsEnd M B := by
  let U : Finset (S × Dir) := f1.toFinset ×ˢ ({.L, .R} : Finset Dir)
  let V : Finset σ := f2.toFinset
  have memU : ∀ q d, (q, d) ∈ U ↔ ok q := by
    intro q d
    rw [Finset.mem_product, Set.Finite.mem_toFinset]
    refine ⟨fun h => h.1, fun h => ⟨h, ?_⟩⟩
    cases d <;> simp
  have memV : ∀ a, a ∈ V ↔ okS a := fun a => Set.Finite.mem_toFinset f2
  refine ⟨1 + U.card * (1 + 6 * V.card), fun cutoff s hs hop => ?_⟩
  have hst : s.tape.All okS (fun _ => True) ∧ ok s.st := by
    subst hs
    refine seek_stays hM cutoff cutoff (fun d b hb => ?_) h1 hop
    have : b = ⟨M.initSym, none⟩ := by
      cases d <;> simpa [SimSt.init, ChainTape.init, ChainTape.half] using hb
    subst this
    exact ⟨h2, fun _ _ => trivial⟩
  have key := C85_ends_bound M U V ((memV _).2 h2) (by
    rintro a ha ⟨q, d⟩ hk hc
    obtain ⟨g1, g2⟩ := hM.next a q d ((memU q d).1 hk) ((memV a).1 ha) hc
    exact ⟨(memV _).2 g2, (memU _ _).2 g1⟩) s ((memU _ _).2 hst.2)
    (fun d b hb => (memV _).2 (hst.1 d b hb).1)
  have test : ∀ (ctl : SimSt σ S Nat → Nat → Bool) fuel, testCTL ctl M cutoff fuel = ctl s fuel := by
    intro ctl fuel
    unfold testCTL
    simp only [← hs]
    rw [if_neg (by rw [hop]; simp)]
  unfold test1 test2 test3 test4
  simp only [test]
  exact key

/-- **C85.** For every machine with finitely many states and symbols, and each of the four stacks that
`test_CTL` builds from it: there is a bound, the same for all cutoffs, on the number of rounds of the loops
of the four filters, which all return an answer. -/
theorem C85_ends (T : Table) (nS nK : Nat) (wf : WFTable T nS nK) (k off maxBlock maxBack : Nat)
    (hoff : off < k) :
    (∃ B, LoopsEnd (simple T) B) ∧
    (∃ B, LoopsEnd (block (simple T) k off maxBlock) B) ∧
    (∃ B, LoopsEnd (back (simple T) maxBack) B) ∧
    (∃ B, LoopsEnd (back (block (simple T) k off maxBlock) maxBack) B) := by
  have hk : 0 < k := by omega
  have f1 : {q : Option Nat | ∃ i < nS, q = some i}.Finite := by
    refine ((Set.finite_lt_nat nS).image some).subset ?_
    rintro q ⟨i, hi, rfl⟩
    exact ⟨i, hi, rfl⟩
  have f2 : {a : Nat | a < nK}.Finite := Set.finite_lt_nat nK
  have i1 : ∃ i < nS, (simple T).initSt = some i := ⟨0, wf.posS, rfl⟩
  have i2 : (simple T).initSym < nK := wf.posK
  have S1 := wf_stays wf
  have S2 := block_stays S1 hk off maxBlock
  have j1 : blockOk k (fun q => ∃ i < nS, q = some i) (block (simple T) k off maxBlock).initSt := by
    by_cases h0 : off = 0
    · simpa [block, h0, blockOk] using i1
    · simp only [block, h0, ne_eq, not_false_eq_true, if_true, blockOk]
      exact ⟨i1, hoff⟩
  have j2 : (block (simple T) k off maxBlock).initSym.length = k ∧
      ∀ x ∈ (block (simple T) k off maxBlock).initSym, x < nK := by
    refine ⟨by simp [block], fun x hx => ?_⟩
    rw [List.eq_of_mem_replicate hx]
    exact i2
  exact ⟨loopsEnd_of S1 i1 i2 f1 f2,
    loopsEnd_of S2 j1 j2 (blockOk_finite f1 k) (lists_finite f2 k),
    loopsEnd_of (back_stays S1 maxBack) ⟨i1, i2⟩ i2 (backOk_finite f1 f2) f2,
    loopsEnd_of (back_stays S2 maxBack) ⟨j1, j2⟩ j2 (backOk_finite (blockOk_finite f1 k) (lists_finite f2 k))
      (lists_finite f2 k)⟩

/-- The bouncer meets the hypothesis; the first filter needs exactly three rounds for it. -/
example : WFTable bouncer2 2 2 ∧
    (SimSt.seek (simple bouncer2) 10 (SimSt.init natOps (simple bouncer2))).op = .running ∧
    test1 (simple bouncer2) 10 3 = true ∧ test1 (simple bouncer2) 10 2 = false := by
  refine ⟨⟨by decide, by decide, ?_⟩, by decide +kernel, by decide +kernel, by decide +kernel⟩
  intro q a w d q' hq ha h
  unfold bouncer2 tbl at h
  rcases q with _ | _ | q <;> rcases a with _ | _ | a <;> simp at h <;> omega

end Props
