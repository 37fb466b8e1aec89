import Verif.Lemmas.RecBase
import Verif.Props.LinearRule
import Verif.Spec.RecLinear

/-! # The simulation with recursive proofs and linear rules applied at once -/

namespace Model.RecLinear
open Spec Model Model.Expr Model.Prover Model.Recursive Model.Linear
variable {σ S : Type}

/-! ## One application -/

/-- the exponents of blocks -/
def cnts (u : List (Blk σ Nat)) : List (Option Int) := u.map (fun b => b.num.map (fun n : Nat => (n : Int)))

theorem fit_vals {vs rs fs} (g : Gens vs rs fs) : ∀ {cs : List (Option Int)}, Fit fs cs → ∀ a, ∃ a', Recursive.fitsMin vs (vals cs) a = .ok a' := by
  induction g with
  | nil => intro cs hf a; cases hf; exact ⟨a, rfl⟩
  | none r g ih =>
    intro cs hf a
    cases hf with
    | none c hf => exact ih hf a
  | @some vs rs fs x m v f gd e g ih =>
    intro cs hf a
    cases hf with
    | @some _ cs _ _ c hm hf =>
      obtain ⟨a', ha⟩ := ih hf (Py.dset a x (.num c))
      refine ⟨a', ?_⟩
      show Recursive.fitsMin _ (some (.num c) :: vals cs) a = _
      unfold Recursive.fitsMin
      simp only
      rw [alwaysGe_num, if_pos (by have := gd.min; simp; omega)]
      exact ha

theorem nums_cnts (η : Nat → Int) : ∀ u : List (Blk σ Nat), NumsIs η (vals (cnts u)) u
  | [] => .nil
  | b :: u => by
    refine .cons ?_ (nums_cnts η u)
    obtain ⟨s, n⟩ := b
    cases n with
    | none => trivial
    | some n => show Val.value η (Val.num (n : Int)) = _; rw [value_num]

theorem count_next {y : Nat → Int} {D : Nat → Prop} {g f : List (Blk σ V)} {vs0 u} (h : GM D g vs0 f u) :
    ∀ {vs fs} {u' : List (Blk σ Nat)}, VarsUp vs vs0 → Gens vs (f.map (·.num)) fs → HalfIs y g u → HalfIs y f u' →
    cnts u' = iterAll 1 fs (cnts u) := by
  induction h with
  | nil =>
    intro vs fs u' hv hg h1 h2
    cases h2
    cases hv
    cases hg
    rfl
  | @inf b g vs0 f u h ih =>
    intro vs fs u' hv hg h1 h2
    cases h1 with
    | cons h1 h1' =>
      cases h2 with
      | @cons _ b' _ u' h2 h2' =>
        cases hv with
        | cons hv hv' =>
          rcases hv with ⟨rfl, -⟩ | ⟨x, m, m0, -, h0, -⟩
          · cases hg with
            | none r hg =>
              have e := numIs_none h2.2
              have := ih hv' hg h1' h2'
              simp only [cnts, List.map_cons, e, Option.map_none, iterAll] at this ⊢
              rw [this]
          · cases h0
  | @one b w g vs0 f u h3 h4 h ih =>
    intro vs fs u' hv hg h1 h2
    cases h1 with
    | cons h1 h1' =>
      cases h2 with
      | @cons _ b' _ u' h2 h2' =>
        cases hv with
        | cons hv hv' =>
          rcases hv with ⟨rfl, -⟩ | ⟨x, m, m0, -, h0, -⟩
          · cases hg with
            | none r hg =>
              obtain ⟨n, e, hn⟩ := numIs_some h2.2
              rw [h4] at hn
              have := ih hv' hg h1' h2'
              simp only [cnts, List.map_cons, e, Option.map_some, iterAll] at this ⊢
              rw [this, ← hn]
              rfl
          · cases h0
  | @many b x m w n g vs0 f u h3 h4 h5 h ih =>
    intro vs fs u' hv hg h1 h2
    cases h1 with
    | cons h1 h1' =>
      cases h2 with
      | @cons _ b' _ u' h2 h2' =>
        cases hv with
        | cons hv hv' =>
          rcases hv with ⟨-, h0⟩ | ⟨x', m1, m0, rfl, h0, -⟩
          · cases h0
          cases h0
          cases hg with
          | @some _ _ fs _ _ _ fn gd hw hg =>
            obtain ⟨n', e, hn⟩ := numIs_some h2.2
            obtain ⟨n0, e0, hn0⟩ := numIs_some h1.2
            cases e0
            rw [varPlus_value, add_zero] at hn0
            rw [hw.1, hn0] at hn
            have := ih hv' hg h1' h2'
            simp only [cnts, List.map_cons, e, Option.map_some, iterAll] at this ⊢
            rw [this, hn]

section
variable [Sums] [DecidableEq σ] [DecidableEq S] {T : Table} {Den : DC σ S → Config → Prop} {z : σ} {key : Strip σ S} {r : Recursive.GenRule}
  {init res : ChainTape σ V} {vl vr : List (Option (Nat × Int))} {D : Nat → Prop}

omit [DecidableEq S] in
theorem lin_once (h : Recursive.GenOK T Den z key r init res vl vr D) {fs} (g : Gens r.vars r.result fs) {u : ChainTape σ Nat}
    (hs : GShape D init res vl vr u) (hf : Fit fs (cnts (u.left ++ u.right))) {cfg : Config} (hden : Den (tapeDC z u key.st) cfg) :
    ∃ u' n, GShape D init res vl vr u' ∧ 0 < n ∧ Den (tapeDC z u' key.st) (run T n cfg) ∧
      (∀ q, q ∈ r.states ↔ ∃ k, k < n ∧ VisitedAt T cfg q k) ∧
      cnts (u'.left ++ u'.right) = iterAll 1 fs (cnts (u.left ++ u.right)) := by
  have hη : ∀ x, 0 ≤ (fun _ : Nat => (0 : Int)) x := fun _ => le_refl _
  obtain ⟨a, ha⟩ := fit_vals g hf []
  have hall := gshape_all hs
  obtain ⟨f1, f2, f3⟩ := fit_is hη hall h.vars (nums_cnts _ _) ha
  rw [hvars_append] at f1 f2 f3
  obtain ⟨f4, f5⟩ := f3 h.nodup
  obtain ⟨f6, f7⟩ := halfIs_split hs.left f4
  obtain ⟨u', n, g1, g2, g3, g4, -⟩ := h.sound _ (valOf_nonneg hη hs f1 f5) f5 u ⟨hs.dir.symm, f6, f7⟩ cfg hden
  refine ⟨u', n, ⟨g1.dir.symm.trans h.dirs, gm_res hs.left g1.left, gm_res hs.right g1.right⟩, g2, g3, g4, ?_⟩
  exact count_next hall h.vars (by rw [← h.result]; exact g) f4 (halfIs_append g1.left g1.right)

omit [DecidableEq S] in
theorem lin_times (h : Recursive.GenOK T Den z key r init res vl vr D) {fs} (g : Gens r.vars r.result fs) {u : ChainTape σ Nat}
    (hs : GShape D init res vl vr u) {cfg : Config} (hden : Den (tapeDC z u key.st) cfg) : ∀ k : Nat,
    (∀ j < k + 1, Fit fs (iterAll j fs (cnts (u.left ++ u.right)))) →
    ∃ u' n, GShape D init res vl vr u' ∧ 0 < n ∧ Den (tapeDC z u' key.st) (run T n cfg) ∧
      (∀ q, q ∈ r.states ↔ ∃ k, k < n ∧ VisitedAt T cfg q k) ∧
      cnts (u'.left ++ u'.right) = iterAll (k + 1) fs (cnts (u.left ++ u.right))
  | 0, hf => lin_once h g hs (by simpa [iterAll_zero] using hf 0 (by omega)) hden
  | k + 1, hf => by
    obtain ⟨u1, n1, a1, a2, a3, a4, a5⟩ := lin_once h g hs (by simpa [iterAll_zero] using hf 0 (by omega)) hden
    obtain ⟨u2, n2, b1, b2, b3, b4, b5⟩ := lin_times h g a1 a3 k (fun j hj => by
      rw [a5, ← iterAll_succ]; exact hf (j + 1) (by omega))
    refine ⟨u2, n1 + n2, b1, by omega, by rw [run_add]; exact b3, fun q => ?_, by rw [b5, a5, ← iterAll_succ]⟩
    rw [visited_add, ← a4 q, ← b4 q, or_self]

omit [DecidableEq S] in
theorem lin_forever (h : Recursive.GenOK T Den z key r init res vl vr D) (live : ∀ q cfg, Den q cfg → cfg.state ≠ none) {fs}
    (g : Gens r.vars r.result fs) {u : ChainTape σ Nat}
    (hs : GShape D init res vl vr u) {cfg : Config} (hden : Den (tapeDC z u key.st) cfg)
    (hf : ∀ j, Fit fs (iterAll j fs (cnts (u.left ++ u.right)))) :
    NeverHalts T cfg ∧ ∀ q, VisitedForever T cfg q ↔ q ∈ r.states := by
  refine loop_forever (T := T) (states := r.states) (P := fun c => ∃ u : ChainTape σ Nat, GShape D init res vl vr u ∧
    Den (tapeDC z u key.st) c ∧ ∀ j, Fit fs (iterAll j fs (cnts (u.left ++ u.right)))) (fun c ⟨u, _, hd, _⟩ => live _ _ hd) ?_ cfg
    ⟨u, hs, hden, hf⟩
  rintro c ⟨u, hs, hd, hf⟩
  obtain ⟨u1, n1, a1, a2, a3, a4, a5⟩ := lin_once h g hs (by simpa [iterAll_zero] using hf 0) hd
  exact ⟨n1, a2, ⟨u1, a1, a3, fun j => by rw [a5, ← iterAll_succ]; exact hf (j + 1)⟩, a4⟩

omit [Sums] [DecidableEq σ] in
theorem intHalf_pos : ∀ {h : List (Blk σ V)}, Pos h → ∃ l, intHalf h = some l ∧ l.map (fun b => (⟨b.sym, b.num.map Val.num⟩ : Blk σ V)) = h
  | [], _ => ⟨[], rfl, rfl⟩
  | ⟨s, n⟩ :: h, hp => by
    rw [pos_cons] at hp
    obtain ⟨l, h1, h2⟩ := intHalf_pos hp.2
    cases n with
    | none => exact ⟨⟨s, none⟩ :: l, by simp [intHalf, h1], by simp [h2]⟩
    | some v =>
      obtain ⟨k, -, rfl⟩ := hp.1 v rfl
      exact ⟨⟨s, some k⟩ :: l, by simp [intHalf, h1], by simp [h2]⟩

omit [Sums] [DecidableEq σ] in
theorem ints_pos {t : ChainTape σ V} (hp : PosT t) : ∃ t', ints t = some t' ∧ values t' = t := by
  obtain ⟨l, h1, h2⟩ := intHalf_pos (hp .L)
  obtain ⟨r, h3, h4⟩ := intHalf_pos (hp .R)
  refine ⟨⟨t.dir, l, r⟩, ?_, ?_⟩
  · unfold ints
    rw [show intHalf t.left = some l from h1, show intHalf t.right = some r from h3]
  · unfold values
    simp only [h2, h4]
    rfl

omit [Sums] [DecidableEq σ] in
theorem half_counts {y : Nat → Int} : ∀ {l : List (Blk σ Int)} {u : List (Blk σ Nat)},
    HalfIs y (l.map (fun b => (⟨b.sym, b.num.map Val.num⟩ : Blk σ V))) u → l.map (·.num) = cnts u
  | [], u, h => by cases h; rfl
  | ⟨s, n⟩ :: l, u, h => by
    cases h with
    | @cons _ b _ u h1 h2 =>
      have ih := half_counts h2
      simp only [cnts, List.map_cons] at ih ⊢
      rw [ih]
      cases n with
      | none => rw [numIs_none h1.2]; rfl
      | some k =>
        obtain ⟨n, e, hn⟩ := numIs_some h1.2
        rw [value_num] at hn
        rw [e, Option.map_some, ← hn]

omit [Sums] [DecidableEq σ] in
theorem grhalf_min {z : σ} {D g vs f} (h : GRHalf z D g vs f) : ∀ x m, some (x, m) ∈ vs → 1 ≤ m := by
  induction h with
  | last => intro x m hm; simp at hm
  | one a _ _ h ih => intro x m hm; exact ih x m (by simpa using hm)
  | many a _ h1 _ h ih =>
    intro x m hm
    rcases List.mem_cons.1 hm with hm | hm
    · cases hm; exact h1
    · exact ih x m hm

omit [Sums] in
theorem varsUp_mem {vs vs0} (h : VarsUp vs vs0) : ∀ x m, some (x, m) ∈ vs → ∃ m0, some (x, m0) ∈ vs0 ∧ m0 ≤ m := by
  induction h with
  | nil => intro x m hm; cases hm
  | cons h1 h ih =>
    intro x m hm
    rcases List.mem_cons.1 hm with hm | hm
    · subst hm
      rcases h1 with ⟨h1, -⟩ | ⟨x', m1, m0, h1, h2, h3⟩
      · cases h1
      · cases h1; subst h2; exact ⟨m0, by simp, h3⟩
    · obtain ⟨m0, h2, h3⟩ := ih x m hm
      exact ⟨m0, by simp [h2], h3⟩

omit [Sums] [DecidableEq σ] in
theorem nums_map (l : List (Blk σ Int)) : Nums (l.map (fun b => (⟨b.sym, b.num.map Val.num⟩ : Blk σ V))) := by
  intro b hb v hv
  obtain ⟨c, -, rfl⟩ := List.mem_map.1 hb
  simp only [Option.map_eq_some_iff] at hv
  obtain ⟨k, -, rfl⟩ := hv
  exact ⟨k, rfl⟩

omit [DecidableEq σ] [DecidableEq S] in
theorem gens_rule (h : Recursive.GenOK T Den z key r init res vl vr D) {lr : LinRule} (hg : tryGen r.vars r.result r.states = .ok lr) :
    Gens r.vars r.result lr.funcs ∧ lr.states = r.states := by
  unfold tryGen at hg
  split at hg
  · next l hl =>
    cases hg
    refine ⟨gens_of (fun x m hm => ?_) hl, rfl⟩
    obtain ⟨m0, h1, h2⟩ := varsUp_mem h.vars x m hm
    have : 1 ≤ m0 := by
      rcases List.mem_append.1 h1 with h1 | h1
      · exact grhalf_min h.left x m0 h1
      · exact grhalf_min h.right x m0 h1
    omega
  · cases hg
  · cases hg

omit [DecidableEq S] in
theorem linear_ok (hS : ¬ SumsRight) (live : ∀ q cfg, Den q cfg → cfg.state ≠ none) (h : Recursive.GenOK T Den z key r init res vl vr D)
    {tape : ChainTape σ V} {u : ChainTape σ Nat} (hkey : key = strip valIsOne key.st tape) (he : EndsT z tape) (hpos : PosT tape)
    {y : Nat → Int} (hy : ∀ x, 0 ≤ y x) (hu : TapeIs y tape u) {cfg : Config} (hden : Den (tapeDC z u key.st) cfg) (metaRules : Bool)
    (o : Opts) {out : Recursive.Res σ} (ha : linearGen tidy metaRules o r tape = .ok out) :
    ResOK T Den z y key.st cfg out ∧ ResEnds z tape.dir out ∧ ResNum y out := by
  unfold linearGen at ha
  split at ha
  · cases ha
  · obtain ⟨h1, h2⟩ := genApply_ok live h hkey he hy hu cfg hden o ha
    exact ⟨h1, h2, genApply_num h hkey he y hpos o ha⟩
  next lr hg =>
  obtain ⟨g, hst⟩ := gens_rule h hg
  have hsh : strip valIsOne key.st init = strip valIsOne key.st tape := h.shape.symm.trans hkey
  unfold strip at hsh
  simp only [Strip.mk.injEq, true_and] at hsh
  obtain ⟨hdir, hl, hr⟩ := hsh
  have hs : GShape D init res vl vr u :=
    ⟨(hdir.trans hu.dir).symm, gmV h.left (he .L) hu.left hl.symm, gmV h.right (he .R) hu.right hr.symm⟩
  obtain ⟨t, ht, htv⟩ := ints_pos hpos
  rw [ht] at ha
  simp only at ha
  have hc : Props.counts t = cnts (u.left ++ u.right) := by
    have h1 := hu.left
    have h2 := hu.right
    rw [← htv] at h1 h2
    unfold Props.counts
    rw [List.map_append, half_counts h1, half_counts h2]
    simp [cnts]
  have hlen : (Props.counts t).length = r.vars.length := by
    rw [hc, List.Forall₂.length_eq h.vars]
    have e1 := List.Forall₂.length_eq (same_gm hs.left)
    have e2 := List.Forall₂.length_eq (same_gm hs.right)
    simp [cnts, ← e1, ← e2, (grhalf_facts h.left).1, (grhalf_facts h.right).1]
  obtain ⟨-, hinf, happ, -⟩ := Props.linear_gens g hst metaRules t hlen
  split at ha
  · cases ha
  · cases ha
  · next states b hal =>
    cases ha
    obtain ⟨fit, rfl, hi⟩ := hinf _ _ hal
    refine ⟨lin_forever h live g hs hden (fun j => ?_), trivial, trivial⟩
    rw [hc] at fit
    refine fit_iter g fit j (fun i x f c hi' _ hdec => ?_)
    exfalso
    unfold LinRule.infinite at hi
    simp only [Bool.not_eq_true', List.any_eq_false] at hi
    have := hi (some (x, f)) (List.mem_of_getElem? hi')
    simp [hdec] at this
  · next t' noMeta hal =>
    cases ha
    obtain ⟨k, k1, hfit, -, hct, hd', sl, sr⟩ := happ _ _ hal
    rw [hc] at hfit hct
    obtain ⟨j, rfl⟩ : ∃ j, k = j + 1 := ⟨k - 1, by omega⟩
    obtain ⟨u', n, g1, g2, g3, g4, g5⟩ := lin_times h g hs hden j hfit
    rw [← g5] at hct
    have sL : Recursive.Same tape.left u'.left := same_trans (same_is hu.left) (same_gm hs.left) (same_gm g1.left)
    have sR : Recursive.Same tape.right u'.right := same_trans (same_is hu.right) (same_gm hs.right) (same_gm g1.right)
    have eL := Props.setCounts_vals t.left t'.left (t'.right.map (·.num)) sl
    have eR := Props.setCounts_vals t.right t'.right [] sr
    have hn : NumsIs y (vals (t'.left.map (·.num) ++ t'.right.map (·.num))) (u'.left ++ u'.right) := by
      rw [← List.map_append, show (t'.left ++ t'.right).map (·.num) = Props.counts t' from rfl, hct]
      exact nums_cnts y _
    have e1 : (values t).left = tape.left := by rw [htv]
    have e2 : (values t).right = tape.right := by rw [htv]
    have e3 : t.dir = tape.dir := by rw [← htv]; rfl
    obtain ⟨a1, a2, a3⟩ := set_is (he .L) sL hn
    rw [show tape.half .L = tape.left from rfl, ← e1] at a1 a2 a3
    replace eL : Recursive.setCounts (values t).left _ = _ := eL
    rw [eL] at a1 a2 a3
    obtain ⟨b1, b2, -⟩ := set_is (rest := []) (he .R) sR (by simpa using a3)
    rw [show tape.half .R = tape.right from rfl, ← e2] at b1 b2
    rw [List.append_nil] at eR
    replace eR : Recursive.setCounts (values t).right _ = _ := eR
    rw [eR] at b1 b2
    obtain ⟨uL, fL1, fL2⟩ := filter_is a1 z
    obtain ⟨uR, fR1, fR2⟩ := filter_is b1 z
    refine ⟨⟨⟨u.dir, uL, uR⟩, n, ⟨?_, fL1, fR1⟩, g2, ?_, g4, fun h => absurd h hS⟩, ⟨fun d => ?_, ?_⟩, ?_⟩
    · show t'.dir = u.dir
      rw [hd', e3, hu.dir]
    · have : tapeDC z (⟨u.dir, uL, uR⟩ : ChainTape σ Nat) key.st = tapeDC z u' key.st := by
        unfold tapeDC
        rw [hs.dir, g1.dir]
        congr 1
        funext d
        cases d
        · exact fL2
        · exact fR2
      rw [this]
      exact g3
    · cases d
      · exact filter_ends a2
      · exact filter_ends b2
    · show t'.dir = tape.dir
      rw [hd', e3]
    · intro v hv d
      cases d
      · exact pos_filter (nums_map _) hv.left
      · exact pos_filter (nums_map _) hv.right
end

/-! ## The invariant of the simulation -/

section
variable [Sums] [DecidableEq σ] [DecidableEq S] {T : Table} {M : Machine σ S} {Den : DC σ S → Config → Prop}
  {TDen : DC σ S → (Int → Nat) → Prop} {hs : S → Prop} {z : σ} {y : Nat → Int} {cfg : Config} {mt : Bool}
  {P : Recursive.Rule σ → Prop} {adj : Nat → Mins → Mins}

omit [DecidableEq S] in
theorem linRule_ok (hS : ¬ SumsRight) (live : ∀ q cfg, Den q cfg → cfg.state ≠ none) {key : Strip σ S} {r : Recursive.Rule σ}
    (h : RuleTrue T Den z key r) {tape : ChainTape σ V} {u : ChainTape σ Nat} (hkey : key = strip valIsOne key.st tape) (he : EndsT z tape)
    (hpos : PosT tape) (hy : ∀ x, 0 ≤ y x) (hu : TapeIs y tape u) (hden : Den (tapeDC z u key.st) cfg) (mt : Bool) (o : Opts)
    (nv nv' : Nat) {out : Recursive.Res σ} (ha : linearRule tidy mt o r tape nv = (.ok out, nv')) :
    ResOK T Den z y key.st cfg out ∧ ResEnds z tape.dir out ∧ ResNum y out := by
  cases r with
  | diff r =>
    have ha' : Recursive.applyRule o (.diff r) tape nv = (.ok out, nv') := ha
    have h1 := applyRule_ok live h hkey he hy hu hden o _ _ (pos_fresh hpos _) ha'
    exact ⟨h1.1, h1.2, applyRule_num h hkey he hpos o _ _ ha'⟩
  | gen r =>
    obtain ⟨init, res, vl, vr, D, h⟩ := h
    exact linear_ok hS live h hkey he hpos hy hu hden mt o (congrArg Prod.fst ha)

theorem linProve_ok {o : Opts} {rs : Rules σ S} {key : Strip σ S} {st : S} {tape : ChainTape σ V} {delta : Int} {nv nv' : Nat}
    {r : Recursive.Rule σ} (h : linearProve adj M o rs key st tape delta nv = (.ok r, nv')) :
    proveWith adj M o rs key st tape delta nv = (.ok r, nv') := by
  unfold linearProve at h
  split at h
  · cases h
  · exact h

theorem linLog_ok (hS : ¬ SumsRight) (hP : Proves P adj) (F : Follows T M Den TDen hs) {b : Base σ S} {loop : Nat} (hk : Known P T Den z b loop)
    (he : EndsT z b.g.sim.tape) (hpos : PosT b.g.sim.tape) (hy : ∀ x, 0 ≤ y x) {u : ChainTape σ Nat}
    (hu : TapeIs y b.g.sim.tape u) (hden : Den (tapeDC z u b.g.sim.st) cfg) (o : Opts) {b' : Base σ S} {out : Out (Recursive.Res σ)}
    (h : linearLog adj tidy mt M o b loop = (b', out)) :
    b'.g.sim = b.g.sim ∧ b'.g.ruleSteps = b.g.ruleSteps ∧ (∀ key r, Py.dget b.rules key = some r → Py.dget b'.rules key = some r) ∧
    (AllRules P b'.rules → Known P T Den z b' (loop + 1) ∧
      ∀ res, out = .ok res → ResOK T Den z y b.g.sim.st cfg res ∧ ResEnds z b.g.sim.tape.dir res ∧ ResNum y res) := by
  have live : ∀ q cfg, Den q cfg → cfg.state ≠ none := fun q cfg h => (F.live q cfg h).1
  have hmono : Known P T Den z b (loop + 1) := ⟨hk.rules, fun key a l h1 h2 => Nat.lt_succ_of_lt (hk.past key a l h1 h2)⟩
  unfold linearLog at h
  simp only at h
  cases hr : Py.dget b.rules (strip valIsOne b.g.sim.st b.g.sim.tape) with
  | some r =>
    rw [hr] at h
    simp only at h
    split at h
    · cases h
      exact ⟨rfl, rfl, fun _ _ h => h, fun _ => ⟨⟨hmono.rules, hmono.past⟩, fun res hr => by cases hr⟩⟩
    · cases h
      exact ⟨rfl, rfl, fun _ _ h => h, fun _ => ⟨⟨hmono.rules, hmono.past⟩, fun res hr => by cases hr⟩⟩
    · next res nv ha =>
      cases h
      have hpl : ∀ (b'' : Base σ S), b''.rules = b.rules → AllRules P b''.rules →
          ∀ res', (Out.ok res : Out (Recursive.Res σ)) = .ok res' →
            ResOK T Den z y b.g.sim.st cfg res' ∧ ResEnds z b.g.sim.tape.dir res' ∧ ResNum y res' := by
        intro b'' e hp res' hres'
        cases hres'
        rw [e] at hp
        have ht := hk.rules _ _ hr (hp _ _ hr)
        exact linRule_ok hS live ht rfl he hpos hy hu hden mt o _ _ ha
      by_cases hlarge : res.large = true
      · rw [if_pos hlarge]
        exact ⟨rfl, rfl, fun _ _ h => h, fun hp => ⟨⟨hmono.rules, fun _ _ _ h => by cases h⟩, hpl { b with past := [] } rfl hp⟩⟩
      · rw [if_neg hlarge]
        exact ⟨rfl, rfl, fun _ _ h => h, fun hp => ⟨⟨hmono.rules, hmono.past⟩, hpl b rfl hp⟩⟩
  | none =>
    rw [hr] at h
    simp only at h
    generalize hkey : strip valIsOne b.g.sim.st b.g.sim.tape = key at *
    have hkst : key.st = b.g.sim.st := by rw [← hkey]; rfl
    generalize hpast : (Py.dget b.past key).getD ⟨none, none⟩ = past at h
    have hlast : ∀ l, past.lastLoop = some l → l < loop := by
      intro l hl
      cases hd : Py.dget b.past key with
      | none => rw [hd] at hpast; subst hpast; cases hl
      | some a => rw [hd] at hpast; subst hpast; exact hk.past key _ l hd hl
    have hlog : (∀ l, (past.log loop).1.lastLoop = some l → l ≤ loop) ∧
        ((past.log loop).2 = true → ∃ l, (past.log loop).1.lastLoop = some l ∧ l < loop) := by
      unfold Past.log
      cases h1 : past.lastLoop with
      | none => exact ⟨fun l h => by simp at h; omega, fun h => by cases h⟩
      | some last =>
        simp only
        cases h2 : past.lastDelta with
        | none => exact ⟨fun l h => by simp at h; omega, fun h => by cases h⟩
        | some d =>
          simp only
          by_cases h3 : d = 0 ∨ d ≠ (loop : Int) - last
          · rw [if_pos h3]; exact ⟨fun l h => by simp at h; omega, fun h => by cases h⟩
          · rw [if_neg h3]
            exact ⟨fun l h => by have := hlast l h; omega, fun _ => ⟨last, h1, hlast _ h1⟩⟩
    generalize past.log loop = pt at hlog h
    obtain ⟨past', try'⟩ := pt
    simp only at hlog h
    have hset : ∀ k a l, Py.dget (Py.dset b.past key past') k = some a → a.lastLoop = some l → l < loop + 1 := by
      intro k a l h1 h2
      rw [Py.dget_dset] at h1
      by_cases hk : k = key
      · rw [if_pos hk] at h1; cases h1; exact Nat.lt_succ_of_le (hlog.1 l h2)
      · rw [if_neg hk] at h1; exact hmono.past k a l h1 h2
    by_cases ht : try' = true
    · rw [if_pos ht] at h
      obtain ⟨l, hl, hlt⟩ := hlog.2 ht
      split at h
      · cases h
        exact ⟨rfl, rfl, fun _ _ h => h, fun _ => ⟨⟨hmono.rules, hset⟩, fun res hr => by cases hr⟩⟩
      · cases h
        exact ⟨rfl, rfl, fun _ _ h => h, fun _ => ⟨⟨hmono.rules, hset⟩, fun res hr => by cases hr⟩⟩
      · next r nv hpr =>
        cases h
        have hgrow : ∀ k r', Py.dget b.rules k = some r' → Py.dget (Py.dset b.rules key r) k = some r' := by
          intro k r' h1
          rw [Py.dget_dset]
          by_cases hk' : k = key
          · rw [hk', hr] at h1; cases h1
          · rw [if_neg hk']; exact h1
        refine ⟨rfl, rfl, hgrow, fun hp => ?_⟩
        replace hp : AllRules P (Py.dset b.rules key r) := hp
        have hrs : RulesOK T Den z b.rules := fun k r' h1 => hk.rules k r' h1 (hp k r' (hgrow k r' h1))
        have hrk : P r → RuleTrue T Den z key r := by
          intro hPr
          rw [← hkey] at hpr ⊢
          exact proveRule_sound F hrs o b.g.sim.st he hu hden _ (by rw [hl]; simp only [Option.getD_some]; omega) _ hP.1 (linProve_ok hpr) (hP.2 r hPr)
        have hplain := hrk (hp key r (by rw [Py.dget_dset, if_pos rfl]))
        refine ⟨⟨fun k r' h1 => ?_, fun k a l' h1 h2 => ?_⟩, fun res hres => ?_⟩
        · simp only at h1
          rw [Py.dget_dset] at h1
          by_cases hk' : k = key
          · rw [if_pos hk'] at h1; cases h1; subst hk'; exact hrk
          · rw [if_neg hk'] at h1; exact hk.rules k r' h1
        · simp only at h1
          by_cases hk' : key = k
          · simp [Py.dget, hk'] at h1; subst h1; cases h2
          · have hk'' : (key == k) = false := by simpa using hk'
            simp [Py.dget, hk''] at h1
        · have ha : linearRule tidy mt o r b.g.sim.tape nv = (.ok res, (linearRule tidy mt o r b.g.sim.tape nv).2) := by rw [← hres]
          rw [← hkst] at hden ⊢
          have hkey' : key = strip valIsOne key.st b.g.sim.tape := by rw [hkst]; exact hkey.symm
          exact linRule_ok hS live hplain hkey' he hpos hy hu hden mt o _ _ ha
    · rw [if_neg ht] at h
      split at h
      · cases h
        exact ⟨rfl, rfl, fun _ _ h => h, fun _ => ⟨⟨hmono.rules, fun _ _ _ h => by cases h⟩, fun res hr => by cases hr⟩⟩
      · cases h
        exact ⟨rfl, rfl, fun _ _ h => h, fun _ => ⟨⟨hmono.rules, hset⟩, fun res hr => by cases hr⟩⟩

theorem linBinv_step (hy : ∀ x, 0 ≤ y x) (hS : ¬ SumsRight) (hP : Proves P adj) (F : Follows T M Den TDen hs) {n : Nat} {b : Base σ S} (h : BInv y P T M Den TDen n b) (o : Opts)
    (hpl : AllRules P (linearWith adj tidy mt M o b).rules) : BInv y P T M Den TDen (n + 1) (linearWith adj tidy mt M o b) := by
  unfold linearWith at hpl ⊢
  by_cases hop : b.g.sim.op ≠ .running
  · rw [if_pos hop] at hpl ⊢
    exact ⟨h.ends, h.pos, fun hr => absurd hr hop, h.gave, h.halt, h.inf⟩
  rw [if_neg hop] at hpl ⊢
  push Not at hop
  simp only at hpl ⊢
  obtain ⟨hl, hk, hi⟩ := h.running hop
  obtain ⟨u, k, hu, hnk, hden, hseen, hsteps⟩ := hi.run
  generalize hb1 : ({ b with g := { b.g with sim := { b.g.sim with loops := b.g.sim.loops + 1 } } } : Base σ S) = b1 at hpl ⊢
  have e1 : b1.g.sim = { b.g.sim with loops := b.g.sim.loops + 1 } := by rw [← hb1]
  have hk1 : Known P T Den M.initSym b1 n := by rw [← hb1]; exact ⟨hk.rules, hk.past⟩
  have he1 : EndsT M.initSym b1.g.sim.tape := by rw [e1]; exact h.ends
  have hp1 : PosT b1.g.sim.tape := by rw [e1]; exact h.pos
  have hu1 : TapeIs y b1.g.sim.tape u := by rw [e1]; exact hu
  have hd1 : b1.g.sim.dir = b1.g.sim.tape.dir := by rw [e1]; exact hi.dir
  have hden1 : Den (tapeDC M.initSym u b1.g.sim.st) (run T k Spec.init) := by rw [e1]; exact hden
  have hop1 : b1.g.sim.op = .running := by rw [e1]; exact hop
  have hseen1 : ∀ q, q ∈ b1.g.sim.seen.map (·.1) ↔ ∃ j, j < k ∧ VisitedAt T Spec.init q j := by rw [e1]; exact hseen
  have hsteps1 : SumsRight → qv y b1.g.sim.steps + Val.value (qy y) b.g.ruleSteps = k := by rw [e1]; exact hsteps
  have hrs1 : b1.g.ruleSteps = b.g.ruleSteps := by rw [← hb1]
  have hl1 : b1.g.sim.loops = n + 1 := by rw [e1]; simp [hl]
  rw [hl] at hpl ⊢
  -- what a step that is right for the base machine gives
  have fin : ∀ (b2 : Base σ S) (s' : SimSt σ S V), b2.g.sim = s' → StepOK T M Den TDen M.initSym y (run T k Spec.init) b1.g.sim s'
        (Val.value (qy y) b2.g.ruleSteps - Val.value (qy y) b.g.ruleSteps) →
      EndsT M.initSym s'.tape → s'.dir = s'.tape.dir → PosT s'.tape → s'.loops = n + 1 → Known P T Den M.initSym b2 (n + 1) →
      BInv y P T M Den TDen (n + 1) b2 := by
    intro b2 s' e hs he' hd' hp' hl' hk'
    subst e
    refine ⟨he', hp', fun hr => ⟨hl', hk', inv_step ⟨u, k, hnk, hu1, hseen1, hsteps1, hs⟩ he' hd' hr⟩, fun hg => ?_, fun hh => ?_, fun hf => ?_⟩
    · obtain ⟨u', h1, h2, h3⟩ := hs.gave hg
      refine ⟨u', k, h1, h2, fun hS => ?_⟩
      have e1 := h3 hS
      have e2 := hsteps1 hS
      rw [stepNum_value]
      linarith
    · obtain ⟨u', m, h1, h2, h3, h4, h5⟩ := hs.halt hh
      have hm : 1 ≤ m := by
        rcases Nat.eq_zero_or_pos m with rfl | hm
        · exact absurd h2.1 (F.live _ _ hden).1
        · exact hm
      refine ⟨u', k + m, h1, haltsAt_of_run (F.live _ _ hden).1 h2, by rw [run_add]; exact h3, cellOK_add hm h4, fun hS => ?_⟩
      have e1 := h5 hS
      have e2 := hsteps1 hS
      rw [stepNum_value]
      push_cast
      linarith
    · rcases hs.inf hf with ⟨h1, h2⟩ | ⟨h1, h2, h3⟩
      · exact Or.inl ⟨h1, fun FI => neverHalts_of_run (h2 FI)⟩
      · exact Or.inr ⟨h1, neverHalts_of_run h2, fun q => by rw [← h3 q, visitedForever_run]⟩
  cases hla : linearLog adj tidy mt M o b1 n with
  | mk b' out =>
    rw [hla] at hpl
    obtain ⟨es, er, hgrow, hall⟩ := linLog_ok (z := M.initSym) (y := y) hS hP F hk1 he1 hp1 hy hu1 hden1 o hla
    cases out with
    | raise =>
      simp only at hpl ⊢
      refine ⟨by rw [es]; exact he1, by rw [es]; exact hp1, ?_, ?_, ?_, ?_⟩ <;> simp [SimSt.raise]
    | fail =>
      simp only at hpl ⊢
      obtain ⟨hk', -⟩ := hall hpl
      have hE := macroStep_ends (z := M.initSym) M (s := b1.g.sim) he1 hd1
      refine fin _ (b1.g.sim.macroStep valOps M) (by simp only [es])
        (by simp only [er, hrs1, sub_self]; exact macroStep_dc F hd1 hu1 (pos_top (hp1 _)) hden1) hE.1 hE.2 (macroStep_pos M hp1) ?_ ⟨hk'.rules, hk'.past⟩
      rw [macroStep_loops, hl1]
    | ok res =>
      simp only at hpl ⊢
      obtain ⟨hk', hres⟩ := hall (by cases res <;> exact hpl)
      obtain ⟨r1, r2, r3⟩ := hres res rfl
      have hS : StepOK T M Den TDen M.initSym y (run T k Spec.init) b'.g.sim (b'.g.result res).sim
          (Val.value (qy y) (b'.g.result res).ruleSteps - Val.value (qy y) b'.g.ruleSteps) :=
        result_ok (by rw [es]; exact hop1) (by rw [es]; exact r1)
      have hE := result_ends (z := M.initSym) (g := b'.g) (by rw [es]; exact he1) (by rw [es]; exact hd1) (by rw [es]; exact r2)
      rw [es, er, hrs1] at hS
      refine fin _ _ rfl hS hE.1 hE.2 ?_ ?_ ⟨hk'.rules, hk'.past⟩
      · cases res with
        | inf states => show PosT b'.g.sim.tape; rw [es]; exact hp1
        | apply tape steps states large =>
          obtain ⟨u', -, h1, -⟩ := r1
          exact r3 u' h1
      · cases res <;> · show b'.g.sim.loops = _; rw [es]; exact hl1

theorem linLog_rules (o : Opts) (b : Base σ S) (loop : Nat) {key : Strip σ S} {r : Recursive.Rule σ} (h : Py.dget b.rules key = some r) :
    Py.dget (linearLog adj tidy mt M o b loop).1.rules key = some r := by
  unfold linearLog
  simp only
  cases hr : Py.dget b.rules (strip valIsOne b.g.sim.st b.g.sim.tape) with
  | some r' =>
    simp only
    split
    · exact h
    · exact h
    · simp only; split <;> exact h
  | none =>
    simp only
    split
    · split
      · exact h
      · exact h
      · simp only
        rw [Py.dget_dset, if_neg (by rintro rfl; rw [h] at hr; cases hr)]
        exact h
    · split <;> exact h

theorem linStep_rules {b : Base σ S} (o : Opts) (hpl : AllRules P (linearWith adj tidy mt M o b).rules) : AllRules P b.rules := by
  unfold linearWith at hpl
  split at hpl
  · exact hpl
  · intro key r h
    simp only at hpl
    refine hpl key r ?_
    have := linLog_rules (M := M) (mt := mt) (adj := adj) o { b with g := { b.g with sim := { b.g.sim with loops := b.g.sim.loops + 1 } } } b.g.sim.loops h
    split <;> next hla => rw [hla] at this; exact this

theorem linBinv_after (hy : ∀ x, 0 ≤ y x) (hS : ¬ SumsRight) (hP : Proves P adj) (F : Follows T M Den TDen hs) (hi : Den (initDC M) Spec.init) (o : Opts) : ∀ n,
    AllRules P (linearAfter adj tidy mt M o n).rules → BInv y P T M Den TDen n (linearAfter adj tidy mt M o n)
  | 0, _ => binv_init hi
  | n + 1, h => by
    unfold linearAfter at h ⊢
    rw [Function.iterate_succ_apply'] at h ⊢
    exact linBinv_step hy hS hP F (linBinv_after hy hS hP F hi o n (linStep_rules o h)) o h

end
end Model.RecLinear
