import Verif.Lemmas.LimitedZone
import Verif.Lemmas.ProverRule
import Verif.Lemmas.Simulator

/-! # A symbolic run that touches only a part of the tape -/

namespace Model.Prover
open Spec Model Model.Expr
variable {σ S ν : Type} [DecidableEq σ]

theorem zstep_back {N : NumOps ν} {M : Machine σ S} {s s' : SimSt σ S ν} {P P' : Dir → List (Blk σ ν)}
    (h : ZStep N M s P s' P') : P' s'.tape.dir.other ≠ [] := by
  cases h with
  | chain a n rest t _ _ _ _ _ _ _ hd _ _ =>
    rw [hd]
    unfold zchain
    rw [if_neg (Dir.other_ne _)]
    exact zpush_ne _ _ _ _
  | single b rest t _ _ _ _ _ hd _ _ =>
    rw [hd]
    unfold zsingle
    rw [if_pos rfl]
    exact zpush_ne _ _ _ _

/-! ## With numbers: the same in every surrounding -/

/-- The part `Q` with `ctx` beyond it is the configuration reached. -/
def CtxOK (T : Table) (Den : DC σ S → Config → Prop) (ctx : Dir → Nat → σ) (cfg0 : Config) (c : SimSt σ S Nat)
    (Q : Dir → List (Blk σ Nat)) : Prop :=
  Den ⟨c.st, c.dir, fun d => unrollOn (ctx d) (Q d)⟩ (run T c.steps cfg0) ∧ SeenExact T cfg0 c.steps c.seen

theorem zstep_ctx {T : Table} {M : Machine σ S} {Den TDen hs} (F : Follows T M Den TDen hs) {ctx : Dir → Nat → σ}
    {cfg0 : Config} {c c' : SimSt σ S Nat} {Q Q' : Dir → List (Blk σ Nat)} (hz : ZStep natOps M c Q c' Q')
    (hdir : c.dir = c.tape.dir) (hpos : ∀ d, ∀ b ∈ Q d, ∀ n, b.num = some n → 0 < n) (h : CtxOK T Den ctx cfg0 c Q) :
    CtxOK T Den ctx cfg0 c' Q' ∧ c.steps < c'.steps := by
  obtain ⟨hden, hseen⟩ := h
  cases hz with
  | chain a n rest t hQ ht hst hd hc hs' hd' _ hsteps hseen' =>
    obtain ⟨h1, h2, -⟩ := chain_run F (c := ⟨c.st, c.dir, fun d => unrollOn (ctx d) (Q d)⟩) (a := a) (t := t)
      (rest := unrollOn (ctx c.dir) rest) ht hst hd hc n (by
        show unrollOn (ctx c.dir) (Q c.dir) = _
        rw [hdir, hQ]; rfl) _ hden
    have hn : 0 < n := hpos c.tape.dir ⟨a, some n⟩ (by rw [hQ]; simp) n rfl
    have hfr : (⟨c.st, c.dir, fun d => unrollOn (ctx d) (Q d)⟩ : DC σ S).front = a := by
      show unrollOn (ctx c.dir) (Q c.dir) 0 = _
      rw [hdir, hQ]
      obtain ⟨m, rfl⟩ : ∃ m, n = m + 1 := ⟨n - 1, by omega⟩
      rfl
    obtain ⟨hp, -, -⟩ := F.run _ _ hden t (by rw [hfr]; exact ht) hc
    unfold CtxOK
    rw [hsteps, hseen', addSeen_nat, hs', hd']
    refine ⟨⟨?_, h2 hn _ _ _ hseen rfl⟩, Nat.lt_add_of_pos_right (Nat.mul_pos hp hn)⟩
    rw [show natOps.add c.steps (natOps.mul (natOps.ofNat t.steps) n) = c.steps + t.steps * n from rfl, run_add]
    convert h1 using 2
    funext e
    unfold zchain
    by_cases he : e = c.dir
    · have : e = c.tape.dir := by rw [he, hdir]
      rw [if_pos this, if_pos he, ← this, this, hQ, hdir]; rfl
    · have : e ≠ c.tape.dir := by rw [← hdir]; exact he
      rw [if_neg this, if_neg he, zpush_unroll]
  | single b rest t hQ ht hc hs' hd' _ hsteps hseen' =>
    have hne : Q c.tape.dir ≠ [] := by rw [hQ]; simp
    have hfr : (⟨c.st, c.dir, fun d => unrollOn (ctx d) (Q d)⟩ : DC σ S).front = b.sym := by
      show unrollOn (ctx c.dir) (Q c.dir) 0 = _
      rw [hdir, hQ]
      obtain ⟨a, num⟩ := b
      cases num with
      | none => rfl
      | some n =>
        have hn : 0 < n := hpos c.tape.dir ⟨a, some n⟩ (by rw [hQ]; simp) n rfl
        obtain ⟨m, rfl⟩ : ∃ m, n = m + 1 := ⟨n - 1, by omega⟩
        rfl
    obtain ⟨hp, h1, h2⟩ := F.run _ _ hden t (by rw [hfr]; exact ht) hc
    unfold CtxOK
    rw [hsteps, hseen', addSeen_nat, hs', hd']
    rw [show natOps.add c.steps (natOps.ofNat t.steps) = c.steps + t.steps from rfl]
    refine ⟨⟨?_, seenExact_merge hseen h2⟩, Nat.lt_add_of_pos_right hp⟩
    rw [run_add]
    convert h1 using 1
    have hless : ∀ e, unrollOn (ctx e) (zless natOps c.tape.dir Q e) =
        DC.rest (⟨c.st, c.dir, fun d => unrollOn (ctx d) (Q d)⟩ : DC σ S) e := by
      intro e
      unfold zless DC.rest
      rw [hdir]
      by_cases he : e = c.tape.dir
      · subst he
        rw [if_pos rfl, if_pos rfl, zpop_unroll _ hne (hpos _)]
      · rw [if_neg he, if_neg he]
    unfold DC.take
    ext1
    · rfl
    · rfl
    · rename_i e
      rw [take_rest]
      show unrollOn (ctx e) (zsingle natOps t.sym c.tape.dir t.dir Q e) = _
      unfold zsingle
      split
      · rw [zpush_unroll, hless]; rfl
      · exact hless e

/-! ## With expressions: the variables -/

def LinHalf (D : Nat → Prop) (h : List (Blk σ V)) : Prop := ∀ b ∈ h, ∀ v, b.num = some v → LinIn D v

omit [DecidableEq σ] in
theorem zpop_lin {D : Nat → Prop} {h : List (Blk σ V)} (hl : LinHalf D h) : LinHalf D (zpop valOps h) := by
  cases h with
  | nil => exact hl
  | cons b rest =>
    obtain ⟨a, num⟩ := b
    cases num with
    | none => exact hl
    | some v =>
      simp only [zpop]
      split
      · exact fun b hb => hl b (by simp [hb])
      · intro b hb w hw
        rcases List.mem_cons.1 hb with rfl | hb
        · cases hw
          exact sub_lin (hl ⟨a, some v⟩ (by simp) v rfl) trivial
        · exact hl b (by simp [hb]) w hw

theorem zpush_lin {D : Nat → Prop} {h : List (Blk σ V)} (hl : LinHalf D h) (sym : σ) {v : V} (hv : LinIn D v) :
    LinHalf D (zpush valOps sym v h) := by
  cases h with
  | nil => intro b hb w hw; simp [zpush] at hb; subst hb; cases hw; exact hv
  | cons top rest =>
    obtain ⟨a, num⟩ := top
    simp only [zpush]
    split
    · cases num with
      | none => exact hl
      | some u =>
        intro b hb w hw
        rcases List.mem_cons.1 hb with rfl | hb
        · cases hw
          exact add_lin (hl ⟨a, some u⟩ (by simp) u rfl) hv
        · exact hl b (by simp [hb]) w hw
    · intro b hb w hw
      rcases List.mem_cons.1 hb with rfl | hb
      · cases hw; exact hv
      · exact hl b hb w hw

structure LinSim (D : Nat → Prop) (s : SimSt σ S V) (P : Dir → List (Blk σ V)) : Prop where
  half : ∀ d, LinHalf D (P d)
  steps : LinIn D s.steps
  seen : ∀ e ∈ s.seen, LinIn D e.2

theorem zstep_lin {D : Nat → Prop} {M : Machine σ S} {s s' : SimSt σ S V} {P P' : Dir → List (Blk σ V)}
    (hz : ZStep valOps M s P s' P') (h : LinSim D s P) : LinSim D s' P' := by
  cases hz with
  | chain a n rest t hQ ht hst hd hc hs' hd' _ hsteps hseen' =>
    have hn : LinIn D n := h.half s.tape.dir ⟨a, some n⟩ (by rw [hQ]; simp) n rfl
    refine ⟨fun e => ?_, ?_, ?_⟩
    · unfold zchain
      split
      · rw [hQ]
        exact fun b hb => h.half s.tape.dir b (by rw [hQ]; exact List.mem_cons_of_mem _ hb)
      · exact zpush_lin (h.half e) _ hn
    · rw [hsteps]; exact add_lin h.steps (num_mul_lin hn _)
    · rw [hseen']
      exact addSeen_lin (add_lin h.steps (num_mul_lin (sub_lin (b := .num 1) hn trivial) _)) _ _ h.seen
  | single b rest t hQ ht hc hs' hd' _ hsteps hseen' =>
    have hl : ∀ e, LinHalf D (zless valOps s.tape.dir P e) := by
      intro e
      unfold zless
      split
      · exact zpop_lin (h.half _)
      · exact h.half e
    refine ⟨fun e => ?_, ?_, ?_⟩
    · unfold zsingle
      split
      · exact zpush_lin (hl e) _ trivial
      · exact hl e
    · rw [hsteps]; exact add_lin h.steps trivial
    · rw [hseen']; exact addSeen_lin h.steps _ _ h.seen

/-! ## The loop -/

theorem touch_le (t : Sides Nat) (d e : Dir) (ids) : t.get e ≤ (touch t d ids).get e := by
  unfold touch
  split
  · by_cases h : e = d
    · subst h; rw [sides_set_same]; exact Nat.le_max_left _ _
    · rw [sides_set_other _ _ h]
  · exact le_refl _

theorem touch_top (t : Sides Nat) (d : Dir) (i : Nat) (r) : i ≤ (touch t d (some i :: r)).get d := by
  unfold touch; rw [sides_set_same]; exact Nat.le_max_right _ _

variable [DecidableEq S]

/-- the touched distances only grow -/
theorem genLoopL_le (M : Machine σ S) : ∀ (k : Nat) (s s' : SimSt σ S V) (mins mins') (ids : Ids) (t t' : Sides Nat),
    genLoopL M k s mins ids t = .ok (s', mins', t') → ∀ d, t.get d ≤ t'.get d := by
  intro k
  induction k with
  | zero => intro s s' mins mins' ids t t' h d; cases h; exact le_refl _
  | succ k ih =>
    intro s s' mins mins' ids t t' h d
    unfold genLoopL at h
    cases hh : s.tape.half s.tape.dir with
    | nil => rw [hh] at h; cases h
    | cons b r =>
      rw [hh] at h
      simp only at h
      split at h
      · cases h
      split at h
      · cases h
      split at h
      · cases h
      split at h
      · cases h
      split at h
      · cases h
      · cases h
      · exact le_trans (touch_le _ _ _ _) (le_trans (touch_le _ _ _ _) (ih _ _ _ _ _ _ _ h d))

omit [DecidableEq σ] [DecidableEq S] in
theorem wf_pos {z : σ} : ∀ {h : List (Blk σ Nat)}, WFHalf z h → ∀ b ∈ h, ∀ n, b.num = some n → 0 < n
  | [], h => h.elim
  | ⟨a, none⟩ :: rest, h => by
    obtain ⟨rfl, rfl⟩ := wfHalf_inf h
    intro b hb n hn
    simp at hb; subst hb; cases hn
  | ⟨a, some m⟩ :: rest, h => by
    rw [wfHalf_cons] at h
    intro b hb n hn
    rcases List.mem_cons.1 hb with rfl | hb
    · cases hn; exact h.1
    · exact wf_pos h.2.2 b hb n hn

/-- **The loop with distances.**  The blocks farther than the distances stay as they are, the steps and times only use the
variables of the near part, and what happens to the near part happens in every surrounding. -/
theorem genLoopL_ok {T : Table} {M : Machine σ S} {Den TDen hs} (F : Follows T M Den TDen hs) {z : σ} {D Dz : Nat → Prop}
    {U : Dir → List (Blk σ V)} : ∀ (k : Nat) (s s' : SimSt σ S V)
    (mins mins' : List (Nat × Option Int)) (ids : Ids) (t t' : Sides Nat) (P : Dir → List (Blk σ V)), SymInv z D s mins →
    genLoopL M k s mins ids t = .ok (s', mins', t') → (∀ d, s.tape.half d = P d ++ U d) → IdsOK t'.get P U ids →
    LinSim Dz s P → MinsLe mins' mins ∧
    ∃ P', (∀ d, s'.tape.half d = P' d ++ U d) ∧ LinSim Dz s' P' ∧
      ∀ y, GoodRho y mins' → ∀ (c0 c : SimSt σ S Nat) (Q W : Dir → List (Blk σ Nat)) (ctx : Dir → Nat → σ) (cfg0 : Config),
        SRel y c0 s c → c.tape.WF z → (∀ d, c.tape.half d = Q d ++ W d) → (∀ d, (Q d).length = (P d).length) →
        CtxOK T Den ctx cfg0 c Q →
        ∃ Q', (∀ d, ((SimSt.step natOps M)^[k] c).tape.half d = Q' d ++ W d) ∧ (∀ d, (Q' d).length = (P' d).length) ∧
          CtxOK T Den ctx cfg0 ((SimSt.step natOps M)^[k] c) Q' ∧ c.steps + k ≤ ((SimSt.step natOps M)^[k] c).steps := by
  intro k
  induction k with
  | zero =>
    intro s s' mins mins' ids t t' P h hg hs hi hl
    cases hg
    exact ⟨minsLe_refl _, P, hs, hl, fun y _ c0 c Q W ctx cfg0 _ _ h1 h2 h3 => ⟨Q, h1, h2, h3, le_refl _⟩⟩
  | succ k ih =>
    intro s s' mins mins' ids t t' P h hg hs hi hl
    unfold genLoopL at hg
    cases hh : s.tape.half s.tape.dir with
    | nil => rw [hh] at hg; cases hg
    | cons b r =>
      rw [hh] at hg
      simp only at hg
      by_cases hb : belowMin b.num = true
      · rw [if_pos hb] at hg; cases hg
      rw [if_neg hb] at hg
      by_cases h1 : (s.step valOps M).op = .raised
      · rw [if_pos h1] at hg; cases hg
      rw [if_neg h1] at hg
      by_cases h2 : (s.step valOps M).op ≠ .running
      · rw [if_pos h2] at hg; cases hg
      rw [if_neg h2] at hg
      simp only [ne_eq, not_not] at h2
      cases hbk : (s.step valOps M).tape.half (s.step valOps M).tape.dir.other with
      | nil => rw [hbk] at hg; cases hg
      | cons b' r' =>
      rw [hbk] at hg
      simp only at hg
      cases hu : updMins ((s.step valOps M).tape.left ++ (s.step valOps M).tape.right) mins with
      | raise => rw [hu] at hg; cases hg
      | fail => rw [hu] at hg; cases hg
      | ok mins1 =>
        rw [hu] at hg
        simp only at hg
        obtain ⟨hinv, hml, -⟩ := step_inv M h h2 hu
        have hle := genLoopL_le M _ _ _ _ _ _ _ _ hg
        -- the near part is not used up
        have hP : P s.tape.dir ≠ [] := by
          intro hn
          obtain ⟨A, B, he, hA, hB, hBi⟩ := hi s.tape.dir
          rw [hn] at hA
          have : A = [] := List.eq_nil_of_length_eq_zero hA
          subst this
          have hU := hs s.tape.dir
          rw [hh, hn] at hU
          rw [← List.nil_append (U s.tape.dir), ← hU] at hB
          cases B with
          | nil => simp at hB
          | cons x B =>
            obtain ⟨i, rfl, hlt⟩ := hBi x (by simp)
            have h5 := touch_top t s.tape.dir i B
            have h6 := le_trans (touch_le _ _ s.tape.dir _) (hle s.tape.dir)
            rw [he] at h6
            exact absurd (le_trans h5 h6) (by omega)
        obtain ⟨P1, hz, hcase⟩ := step_split valOps M h.op h2 hs hP
        have hgood : (∀ d, (s.step valOps M).tape.half d = P1 d ++ U d) ∧ IdsOK t'.get P1 U (stepIds valOps M s ids) := by
          rcases hcase with ⟨ha, hb⟩ | ⟨-, hb⟩
          · exact ⟨ha, hb _ _ hi⟩
          · exfalso
            obtain ⟨i, r2, he, hlt⟩ := hb _ _ hi
            have h6 := hle (s.step valOps M).tape.dir.other
            rw [he] at h6
            exact absurd (le_trans (touch_top _ _ i r2) h6) (by omega)
        obtain ⟨hml', P', hs', hl', hrun⟩ := ih _ _ _ _ _ _ _ P1 hinv hg hgood.1 hgood.2 (zstep_lin hz hl)
        refine ⟨minsLe_trans hml' hml, P', hs', hl', ?_⟩
        intro y hy c0 c Q W ctx cfg0 hr hw hc hlen hctx
        rw [Function.iterate_succ_apply]
        have hr1 := step_rel M hr hw h.op h2 (fun d => pos_of (goodRho_le hy hml') (ghalf_count (hinv.tape.good d)) (hinv.minsOf d))
        have hdc : c.dir = c.tape.dir := by rw [← hr.dir, h.dir, hr.tape.dir]
        have hlenW : ∀ d, (W d).length = (U d).length := by
          intro d
          have := ((tapeIs_iff.1 hr.tape).2 d).length_eq
          rw [hs, hc, List.length_append, List.length_append, hlen] at this
          omega
        have hlen1 : ∀ d, ((c.step natOps M).tape.half d).length = (P1 d).length + (U d).length := by
          intro d
          have := ((tapeIs_iff.1 hr1.tape).2 d).length_eq
          rw [hgood.1, List.length_append] at this
          omega
        have hQ : Q c.tape.dir ≠ [] := by
          intro hn
          have h7 := hlen c.tape.dir
          rw [hn, ← hr.tape.dir] at h7
          exact hP (List.eq_nil_of_length_eq_zero h7.symm)
        obtain ⟨Q1, hzc, hcasec⟩ := step_split natOps M (hr.op ▸ h.op) (hr1.op ▸ h2) hc hQ
        have hsplit : ∀ d, (c.step natOps M).tape.half d = Q1 d ++ W d := by
          rcases hcasec with ⟨ha, -⟩ | ⟨ha, -⟩
          · exact ha
          · exfalso
            rw [hlen1, hlenW] at ha
            have h8 := zstep_back hz
            rw [hr1.tape.dir] at h8
            exact h8 (List.eq_nil_of_length_eq_zero (by omega))
        obtain ⟨hctx1, hlt⟩ := zstep_ctx F hzc hdc (fun d b hb n hn =>
          wf_pos (hw d) b (by rw [hc]; exact List.mem_append_left _ hb) n hn) hctx
        have hlenQ : ∀ d, (Q1 d).length = (P1 d).length := by
          intro d
          have := hlen1 d
          rw [hsplit, List.length_append, hlenW] at this
          omega
        obtain ⟨Q', e1, e2, e3, e4⟩ := hrun y hy c0 _ Q1 W ctx cfg0 hr1 (step_wf M hw) hsplit hlenQ hctx1
        exact ⟨Q', e1, e2, e3, by omega⟩

omit [DecidableEq S] in
theorem push_ne {N : NumOps ν} {sym : σ} {v : ν} {h h' : List (Blk σ ν)} (hp : ChainTape.push N sym v h = some h') : h' ≠ [] := by
  cases h with
  | nil => cases hp
  | cons b r =>
    obtain ⟨a, num⟩ := b
    simp only [ChainTape.push] at hp
    split at hp
    · cases num <;> cases hp <;> simp
    · cases hp; simp

/-- There is always a block behind the head. -/
theorem step_back (N : NumOps ν) (M : Machine σ S) {s : SimSt σ S ν} (hop : s.op = .running)
    (hr : (s.step N M).op = .running) : (s.step N M).tape.half (s.step N M).tape.dir.other ≠ [] := by
  generalize hs' : s.step N M = s' at hr ⊢
  unfold SimSt.step at hs'
  rw [if_neg (by simp [hop])] at hs'
  unfold SimSt.macroStep at hs'
  simp only at hs'
  cases htop : s.tape.topSymbol with
  | none => rw [htop] at hs'; subst hs'; simp [SimSt.raise] at hr
  | some cur =>
    rw [htop] at hs'
    simp only at hs'
    generalize M.trans cur s.st s.dir = t at hs'
    by_cases h1 : t.cond = .raised
    · rw [if_pos h1] at hs'; subst hs'; simp [h1] at hr
    rw [if_neg h1] at hs'
    by_cases h2 : t.cond = .infRepeat
    · rw [if_pos h2] at hs'; subst hs'; simp [h2] at hr
    rw [if_neg h2] at hs'
    by_cases h3 : t.st = s.st ∧ t.dir = s.dir ∧ t.cond = .running
    · rw [if_pos h3] at hs'
      unfold ChainTape.chainMove at hs'
      cases hh : s.tape.half s.tape.dir with
      | nil => rw [hh] at hs'; subst hs'; simp [SimSt.raise] at hr
      | cons b rest =>
        obtain ⟨a, num⟩ := b
        cases num with
        | none => rw [hh] at hs'; subst hs'; simp at hr
        | some n =>
          rw [hh] at hs'
          simp only [dir_setHalf] at hs'
          cases hp : ChainTape.push N t.sym n ((s.tape.setHalf s.tape.dir rest).half s.tape.dir.other) with
          | none => rw [hp] at hs'; subst hs'; simp [SimSt.raise] at hr
          | some h' =>
            rw [hp] at hs'
            subst hs'
            simp only [dir_setHalf, half_setHalf_same]
            exact push_ne hp
    · rw [if_neg h3] at hs'
      by_cases h4 : t.cond ≠ .gaveUp
      · rw [if_pos h4, singleMove_eq] at hs'
        cases hh : ChainTape.popOne N (s.tape.half s.tape.dir) with
        | none => rw [hh] at hs'; subst hs'; simp [SimSt.raise] at hr
        | some h =>
          rw [hh] at hs'
          simp only at hs'
          cases hp : ChainTape.push N t.sym (N.ofNat 1) ((s.tape.setHalf s.tape.dir h).half t.dir.other) with
          | none => rw [hp] at hs'; subst hs'; simp [SimSt.raise] at hr
          | some h' =>
            rw [hp] at hs'
            subst hs'
            simp only [half_dir]
            show ((s.tape.setHalf s.tape.dir h).setHalf t.dir.other h').half t.dir.other ≠ []
            rw [half_setHalf_same]
            exact push_ne hp
      · rw [if_neg h4] at hs'
        simp only [ne_eq, not_not] at h4
        subst hs'
        simp [h4] at hr

/-- The loop without the distances does the same. -/
theorem genLoopL_erase (M : Machine σ S) : ∀ (k : Nat) (s : SimSt σ S V)
    (mins : List (Nat × Option Int)) (ids : Ids) (t : Sides Nat), s.op = .running →
    match genLoopL M k s mins ids t with
    | .raise => genLoop M k s mins = .raise
    | .fail => genLoop M k s mins = .fail
    | .ok (s', mins', _) => genLoop M k s mins = .ok (s', mins') := by
  intro k
  induction k with
  | zero => intro s mins ids t _; rfl
  | succ k ih =>
    intro s mins ids t h
    unfold genLoopL genLoop
    cases hh : s.tape.half s.tape.dir with
    | nil => rfl
    | cons b r =>
      simp only
      by_cases hb : belowMin b.num = true
      · simp only [if_pos hb]
      simp only [if_neg hb]
      by_cases h1 : (s.step valOps M).op = .raised
      · simp only [if_pos h1]
      simp only [if_neg h1]
      by_cases h2 : (s.step valOps M).op ≠ .running
      · simp only [if_pos h2]
      simp only [if_neg h2]
      simp only [ne_eq, not_not] at h2
      cases hbk : (s.step valOps M).tape.half (s.step valOps M).tape.dir.other with
      | nil => exact absurd hbk (step_back valOps M h h2)
      | cons b' r' =>
        simp only
        cases hu : updMins ((s.step valOps M).tape.left ++ (s.step valOps M).tape.right) mins with
        | raise => rfl
        | fail => rfl
        | ok mins1 => exact ih _ _ _ _ h2

end Model.Prover
