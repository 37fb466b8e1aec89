import Verif.Lemmas.ProverSim
import Verif.Lemmas.Machines

/-! # The stacks never raise, whatever tape they run on -/

namespace Model
open Spec
variable {σ S : Type}

theorem simple_stays (T : Table) : Stays (simple T) (fun q => q.isSome = true) (fun _ => True) := by
  constructor
  · intro a q d hq _
    match q, hq with
    | some q, _ => simp only [simple]; cases T q a <;> simp
  · intro a q d hq _
    match q, hq with
    | some q, _ => simp only [simple]; cases T q a <;> simp

variable [DecidableEq σ] [DecidableEq S]

omit [DecidableEq σ] in
theorem get_ok {l : List σ} {i : Int} (h0 : 0 ≤ i) (h1 : i < l.length) : ∃ a, Py.get l i = some a ∧ a ∈ l := by
  unfold Py.get
  rw [Py.pyIdx_of_range h0 h1]
  have : i.toNat < l.length := by omega
  exact ⟨l[i.toNat], by simp [List.getElem?_eq_getElem this], List.getElem_mem this⟩

omit [DecidableEq σ] in
theorem set_ok {l : List σ} {i : Int} (h0 : 0 ≤ i) (h1 : i < l.length) (a : σ) :
    ∃ l', Py.set l i a = some l' ∧ l'.length = l.length ∧ ∀ b ∈ l', b = a ∨ b ∈ l := by
  unfold Py.set
  rw [Py.pyIdx_of_range h0 h1]
  exact ⟨_, rfl, List.length_set, fun b hb => (List.mem_or_eq_of_mem_set hb).symm⟩

/-- the result of `sim_limited` -/
def LimOK (ok : S → Prop) (okS : σ → Prop) (n : Nat) (t : Trans (List σ) S) : Prop :=
  t.cond ≠ .raised ∧ t.sym.length = n ∧ (t.cond = .running → ok t.st ∧ ∀ a ∈ t.sym, okS a)

theorem limLoop_stays {M : Machine σ S} {ok : S → Prop} {okS : σ → Prop} (hM : Stays M ok okS) (maxLoops : Nat) :
    ∀ (k : Nat) (s : LimLoop σ S), s.loops + k = maxLoops + 1 → s.loops ≤ maxLoops → ok s.st → (∀ a ∈ s.tape, okS a) → 0 ≤ s.pos →
    s.pos < s.tape.length → LimOK ok okS s.tape.length (limLoop M maxLoops k s)
  | 0, s, hk, h0, _, _, _, _ => by omega
  | k + 1, s, hk, h0, h1, h2, h3, h4 => by
    obtain ⟨a, ha, hmem⟩ := get_ok h3 h4
    have hsafe := hM.safe a s.st s.dir h1 (h2 a hmem)
    have hnext := hM.next a s.st s.dir h1 (h2 a hmem)
    obtain ⟨l', hl, hlen, hl'⟩ := set_ok h3 h4 (M.trans a s.st s.dir).sym
    unfold limLoop limIter
    simp only [ha]
    generalize M.trans a s.st s.dir = t at *
    simp only [if_neg hsafe, hl]
    have hall : t.cond = .running → ∀ b ∈ l', okS b := by
      intro hc b hb
      rcases hl' b hb with rfl | hb
      · exact (hnext hc).2
      · exact h2 b hb
    by_cases c1 : s.old = some (t.st, t.dir, s.pos + t.dir.delta, l')
    · rw [if_pos c1]; exact ⟨by simp, hlen, fun h => by cases h⟩
    rw [if_neg c1]
    by_cases c2 : s.loops + 1 > maxLoops
    · rw [if_pos c2]; exact ⟨by simp, hlen, fun h => by cases h⟩
    rw [if_neg c2]
    by_cases c3 : t.cond ≠ .running
    · rw [if_pos c3]; exact ⟨hsafe, hlen, fun h => absurd h c3⟩
    rw [if_neg c3]
    push Not at c3
    by_cases c4 : ¬ (0 ≤ s.pos + t.dir.delta ∧ s.pos + t.dir.delta < l'.length)
    · rw [if_pos c4]; exact ⟨by simp, hlen, fun _ => ⟨(hnext c3).1, hall c3⟩⟩
    rw [if_neg c4]
    push Not at c4
    have := limLoop_stays hM maxLoops k { st := t.st, dir := t.dir, pos := s.pos + t.dir.delta, tape := l'
                                          steps := s.steps + t.steps, loops := s.loops + 1
                                          seen := mergeSeen s.seen s.steps t.seen
                                          old := if decide (s.loops + 1 ≥ s.nextSave) then
                                            some (t.st, t.dir, s.pos + t.dir.delta, l') else s.old
                                          nextSave := if decide (s.loops + 1 ≥ s.nextSave) then s.nextSave * 2 else s.nextSave }
      (by simp only; omega) (by simp only; omega) (hnext c3).1 (hall c3) c4.1 c4.2
    rw [← hlen]
    exact this

theorem simLimited_stays {M : Machine σ S} {ok : S → Prop} {okS : σ → Prop} (hM : Stays M ok okS) {st : S} {tape : List σ}
    {pos : Int} (h1 : ok st) (h2 : ∀ a ∈ tape, okS a) (h3 : 0 ≤ pos) (h4 : pos < tape.length) (d : Dir) (maxLoops : Nat) :
    LimOK ok okS tape.length (simLimited M st tape pos d maxLoops) :=
  limLoop_stays hM maxLoops _ _ (by simp) (by simp) h1 h2 h3 h4

/-- states of a block machine -/
def blockOk (k : Nat) (ok : S → Prop) : BSt S → Prop
  | .plain s => ok s
  | .offset s off => ok s ∧ off < k

theorem block_stays {M : Machine σ S} {ok : S → Prop} {okS : σ → Prop} (hM : Stays M ok okS) {k : Nat} (hk : 0 < k)
    (off maxSim : Nat) : Stays (block M k off maxSim) (blockOk k ok) (fun a => a.length = k ∧ ∀ x ∈ a, okS x) := by
  have key : ∀ a st d, blockOk k ok st → (a.length = k ∧ ∀ x ∈ a, okS x) → ∃ t, LimOK ok okS k t ∧
      (block M k off maxSim).trans a st d = t.mapSt .plain := by
    intro a st d hs ha
    obtain ⟨ha1, ha2⟩ := ha
    subst ha1
    match st, hs, d with
    | .offset s o, hs, d => exact ⟨_, simLimited_stays hM hs.1 ha2 (by omega) (by have := hs.2; omega) d maxSim, rfl⟩
    | .plain s, hs, .R => exact ⟨_, simLimited_stays hM hs ha2 (by omega) (by omega) .R maxSim, rfl⟩
    | .plain s, hs, .L => exact ⟨_, simLimited_stays hM hs ha2 (by omega) (by omega) .L maxSim, rfl⟩
  constructor
  · intro a st d hs ha
    obtain ⟨t, h1, h2⟩ := key a st d hs ha
    rw [h2]; exact h1.1
  · intro a st d hs ha hr
    obtain ⟨t, h1, h2⟩ := key a st d hs ha
    rw [h2] at hr ⊢
    exact ⟨(h1.2.2 hr).1, h1.2.1, (h1.2.2 hr).2⟩

theorem back_stays {M : Machine σ S} {ok : S → Prop} {okS : σ → Prop} (hM : Stays M ok okS) (maxSim : Nat) :
    Stays (back M maxSim) (fun st => ok st.1 ∧ okS st.2) okS := by
  have key : ∀ (a : σ) (st : S × σ) (d : Dir), (ok st.1 ∧ okS st.2) → okS a → ((back M maxSim).trans a st d).cond ≠ .raised ∧
      (((back M maxSim).trans a st d).cond = .running →
        (ok ((back M maxSim).trans a st d).st.1 ∧ okS ((back M maxSim).trans a st d).st.2) ∧
          okS ((back M maxSim).trans a st d).sym) := by
    intro a st d hs ha
    obtain ⟨t, ⟨h1, h2, h3⟩, ht⟩ : ∃ t, LimOK ok okS 2 t ∧ (back M maxSim).trans a st d =
        (match t.sym with
        | [x, y] =>
          match t.dir with
          | .R => { cond := t.cond, sym := x, st := (t.st, y), dir := t.dir, steps := t.steps
                    seen := t.seen, cell := t.cell }
          | .L => { cond := t.cond, sym := y, st := (t.st, x), dir := t.dir, steps := t.steps
                    seen := t.seen, cell := t.cell }
        | _ => Trans.raise a st d) := by
      cases d with
      | R => exact ⟨_, simLimited_stays (tape := [st.2, a]) hM hs.1 (by simp [hs.2, ha]) (by omega) (by simp) .R maxSim, rfl⟩
      | L => exact ⟨_, simLimited_stays (tape := [a, st.2]) hM hs.1 (by simp [hs.2, ha]) (by omega) (by simp) .L maxSim, rfl⟩
    rw [ht]
    match hs' : t.sym, h2 with
    | [x, y], _ =>
      rw [hs'] at h3
      simp only
      cases t.dir
      all_goals exact ⟨h1, fun hr => ⟨⟨(h3 hr).1, (h3 hr).2 _ (by simp)⟩, (h3 hr).2 _ (by simp)⟩⟩
  exact ⟨fun a q d h1 h2 => (key a q d h1 h2).1, fun a q d h1 h2 => (key a q d h1 h2).2⟩


/-! ## All stacks -/

/-- what is needed of a stack -/
structure StackOK (T : Table) (M : Machine σ S) (Means : DC σ S → Config → Prop) : Prop where
  follows : ∃ TDen hs, Follows T M Means TDen hs
  init : Means (initDC M) Spec.init
  stays : ∃ ok okS, Stays M ok okS ∧ ok M.initSt ∧ okS M.initSym

theorem stack_ok {T : Table} {σ S : Type} {M : Machine σ S} {mean Means} (h : Stack T σ S M mean Means) : StackOK T M Means := by
  cases h with
  | simple => exact ⟨⟨_, _, simple_follows T⟩, simple_init T, ⟨_, _, simple_stays T, rfl, trivial⟩⟩
  | block k off maxSim hoff =>
    have hk : 0 < k := by omega
    have F := block_follows (simple_follows T) (simple_shift _) hk off maxSim 0
    refine ⟨⟨_, _, F⟩, block_init (simple_init T) hk hoff, ⟨_, _, block_stays (simple_stays T) hk off maxSim, ?_, ?_⟩⟩
    · by_cases h0 : off = 0 <;> simp [block, h0, blockOk, simple, hoff]
    · simp [block]
  | back maxSim =>
    have F := back_follows (simple_follows T) (simple_shift _) maxSim
    exact ⟨⟨_, _, F⟩, back_init (simple_init T) maxSim, ⟨_, _, back_stays (simple_stays T) maxSim, ⟨rfl, trivial⟩, trivial⟩⟩
  | nested k off maxBlock maxBack hoff =>
    have hk : 0 < k := by omega
    have F2 := block_follows (simple_follows T) (simple_shift _) hk off maxBlock 0
    have F := back_follows F2 (block_shift (simple_shift _) hk 0) maxBack
    refine ⟨⟨_, _, F⟩, back_init (block_init (simple_init T) hk hoff) maxBack,
      ⟨_, _, back_stays (block_stays (simple_stays T) hk off maxBlock) maxBack, ⟨?_, ?_⟩, ?_⟩⟩
    · by_cases h0 : off = 0 <;> simp [block, back, h0, blockOk, simple, hoff]
    · simp [block, back]
    · simp [block, back]

/-! ## From the simulator to the base machine -/

/-- a simulator started on a tape -/
def fresh (u : ChainTape σ Nat) (st : S) : SimSt σ S Nat :=
  { tape := u, st := st, dir := u.dir, steps := 0, loops := 0, seen := [], op := .running, cell := none, infReason := none
    recur := [] }

omit [DecidableEq σ] [DecidableEq S] in
theorem fresh_ok {T : Table} {M : Machine σ S} {Means TDen hs} {z : σ} {u : ChainTape σ Nat} {st : S} {cfg : Config}
    (hw : WFTape z u) (h : Means (tapeDC z u st) cfg) : SimOK T M Means TDen hs z cfg (fresh u st) :=
  ⟨rfl, hw, by simp [fresh], seenExact_nil _ _, fun _ => h, fun h => by simp [fresh] at h, fun h => by simp [fresh] at h⟩

theorem iter_ok {T : Table} {M : Machine σ S} {Means TDen hs} (F : Follows T M Means TDen hs) {z : σ} {cfg : Config}
    {s : SimSt σ S Nat} (h : SimOK T M Means TDen hs z cfg s) (k : Nat) :
    SimOK T M Means TDen hs z cfg ((SimSt.step natOps M)^[k] s) ∧
      (((SimSt.step natOps M)^[k] s).op = .running → s.op = .running ∧ s.steps + k ≤ ((SimSt.step natOps M)^[k] s).steps) := by
  induction k with
  | zero => exact ⟨h, fun hr => ⟨hr, le_refl _⟩⟩
  | succ k ih =>
    rw [Function.iterate_succ_apply']
    obtain ⟨h1, h2⟩ := step_ok F ih.1
    refine ⟨h1, fun hr => ?_⟩
    have hop : ((SimSt.step natOps M)^[k] s).op = .running := by
      by_contra hh
      have e : SimSt.step natOps M ((SimSt.step natOps M)^[k] s) = (SimSt.step natOps M)^[k] s := if_pos hh
      rw [e] at hr
      exact hh hr
    have := ih.2 hop
    have h4 := (h2 hop).2 hr
    exact ⟨this.1, by omega⟩

open Prover in
/-- looping forever -/
theorem loops_forever {T : Table} {M : Machine σ S} {Means TDen hs} (F : Follows T M Means TDen hs) {z : σ} {cfg : Config}
    {s : SimSt σ S Nat} (h : SimOK T M Means TDen hs z cfg s) {states : List Nat} (hl : Loops M s states) :
    NeverHalts T cfg ∧ ∀ q, (VisitedForever T cfg q ↔ q ∈ states) ∧ ∀ u, s.steps ≤ u → VisitedAt T cfg q u → q ∈ states := by
  obtain ⟨k, hk, hl⟩ := hl
  have hrun : ∀ i, ((SimSt.step natOps M)^[k * i] s).op = .running := by
    intro i
    cases i with
    | zero => exact ((iter_ok F h _).2 (hl 0).1).1
    | succ i => exact (hl i).1
  have hge : ∀ i, i ≤ ((SimSt.step natOps M)^[k * i] s).steps := by
    intro i
    have := ((iter_ok F h _).2 (hrun i)).2
    have h2 : i ≤ k * i := Nat.le_mul_of_pos_left i hk
    omega
  have hlate : ∀ q u, s.steps ≤ u → VisitedAt T cfg q u → q ∈ states := by
    intro q u hu hvu
    by_contra hq
    have hconst : ∀ i, Py.dget ((SimSt.step natOps M)^[k * i] s).seen q = Py.dget s.seen q := by
      intro i
      induction i with
      | zero => rfl
      | succ i ih => rw [(hl i).2.2.2.2.2 q hq]; exact ih
    have hlt : u < ((SimSt.step natOps M)^[k * (u + 1)] s).steps := hge (u + 1)
    obtain ⟨t, ht⟩ := lastSeen_exists hlt hvu
    have h1 := ((iter_ok F h _).1.seen.2 q t).2 ht
    rw [hconst] at h1
    have h2 := ((h.seen.2 q t).1 h1).1
    have h3 : u ≤ t := by
      by_contra hh
      exact ht.2.2 u (by omega) hlt hvu
    omega
  refine ⟨fun n => ?_, fun q => ⟨⟨fun hv => ?_, fun hq u => ?_⟩, hlate q⟩⟩
  · exact run_some_mono (hge n) (F.live _ _ ((iter_ok F h _).1.run (Or.inl (hrun n)))).1
  · obtain ⟨u, hu, hvu⟩ := hv s.steps
    exact hlate q u hu hvu
  · obtain ⟨n, h1, h2⟩ := (hl u).2.2.2.2.1 q hq
    have h3 := ((iter_ok F h _).1.seen.2 q n).1 h1
    have := hge u
    exact ⟨n, by omega, h3.2.1⟩

open Prover in
theorem reaches_base {T : Table} {M : Machine σ S} {Means TDen hs} (F : Follows T M Means TDen hs) {z : σ} {cfg : Config}
    {u : ChainTape σ Nat} {st : S} (hw : WFTape z u) (h : Means (tapeDC z u st) cfg) {y : Nat → Int} {steps : V}
    {seen : List (Nat × V)} {k : Nat} (hk : 1 ≤ k)
    (hr : Reaches y steps seen (fresh u st) ((SimSt.step natOps M)^[k] (fresh u st))) :
    ∃ n : Nat, ((SimSt.step natOps M)^[k] (fresh u st)).tape.WF z ∧ 0 < n ∧ (n : Int) = Val.value y steps ∧
      Means (tapeDC z ((SimSt.step natOps M)^[k] (fresh u st)).tape st) (Spec.run T n cfg) ∧ SeenIs T cfg n y seen := by
  obtain ⟨h1, h2⟩ := iter_ok F (fresh_ok (T := T) (M := M) (TDen := TDen) (hs := hs) hw h) k
  generalize (SimSt.step natOps M)^[k] (fresh u st) = c at *
  refine ⟨c.steps, h1.wf, ?_, ?_, ?_, fun q => ⟨fun v hv => ?_, fun hv k' hk' hvis => ?_⟩⟩
  · have := (h2 hr.op).2
    omega
  · have := hr.steps
    simpa [fresh] using this
  · have h3 := h1.run (Or.inl hr.op)
    have h4 : c.st = st := hr.st
    rw [← h4]; exact h3
  · obtain ⟨n, e1, e2, -⟩ := (hr.seen q).1 v hv
    refine ⟨n, by simpa [fresh] using e2, (h1.seen.2 q n).1 e1⟩
  · have e := (hr.seen q).2 hv
    obtain ⟨t, ht⟩ := lastSeen_exists hk' hvis
    rw [(h1.seen.2 q t).2 ht] at e
    cases e

/-! ## Rules for the base machine -/

namespace Prover
open Expr

omit [DecidableEq σ] [DecidableEq S] in
/-- counts at or above the constants are instances -/
theorem mhalf_inst {z : σ} {g d u l} (h : MHalf z g d u l) {y : Nat → Int}
    (hy : ∀ e ∈ l, y e.1 = (e.2.2.2 : Int) - e.2.1)
    (ha : List.Forall₂ (fun a b => ∀ v, a.num = some v → ∃ n : Nat, b.num = some n ∧ least v ≤ n) g u) :
    HalfIs y g u ∧ ∀ e ∈ l, 0 ≤ y e.1 := by
  induction h with
  | nil => exact ⟨.nil, by simp⟩
  | last => exact ⟨.cons ⟨rfl, trivial⟩ .nil, by simp⟩
  | one a h ih =>
    cases ha with
    | cons h1 h2 =>
      obtain ⟨i1, i2⟩ := ih hy h2
      exact ⟨.cons ⟨rfl, by simp [NumIs, value_num]⟩ i1, i2⟩
  | @many a x c δ n g d u l h1 h2 h ih =>
    cases ha with
    | cons h3 h4 =>
      obtain ⟨i1, i2⟩ := ih (fun e he => hy e (by simp [he])) h4
      have hx := hy (x, c, δ, n) (by simp)
      obtain ⟨n', e1, e2⟩ := h3 _ rfl
      cases e1
      replace e2 : c ≤ n := e2
      simp only at hx
      refine ⟨.cons ⟨rfl, ?_⟩ i1, ?_⟩
      · show Val.value y (.expr (varPlus x c)) = (n : Int)
        rw [varPlus_value, hx]; ring
      · intro e he
        rcases List.mem_cons.1 he with rfl | he
        · simp only; omega
        · exact i2 e he

theorem diff_covers {z : σ} {M : Machine σ S} {key : Strip σ S} {r : DiffRule σ} {ll lr} (h : DiffOK M z key r ll lr)
    {u : ChainTape σ Nat} (hw : WFTape z u) (hk : strip natIsOne key.st u = key) (ha : AtLeast r.init u) : DiffCovers r u := by
  have hs := hk.trans h.shape
  have hsd : u.dir = r.init.dir := congrArg Strip.dir hs
  obtain ⟨l1, m1, e1⟩ := match_of h.left (hw .L) (congrArg Strip.left hs)
  obtain ⟨l2, m2, e2⟩ := match_of h.right (hw .R) (congrArg Strip.right hs)
  replace m1 : MHalf z r.init.left r.diff.left u.left l1 := m1
  replace m2 : MHalf z r.init.right r.diff.right u.right l2 := m2
  have hkeys : (l1 ++ l2).map (·.1) = (ll ++ lr).map (·.1) := by
    rw [← e1, ← e2, List.map_append, List.map_append, List.map_map, List.map_map]; rfl
  have hnd : ((l1 ++ l2).map (·.1)).Nodup := by rw [hkeys]; exact h.nodup
  let vals : List (Nat × Int) := (l1 ++ l2).map (fun e => (e.1, (e.2.2.2 : Int) - e.2.1))
  have hnv : Py.NodupKeys vals := by
    unfold Py.NodupKeys
    simp only [vals]
    rw [List.map_map]; exact hnd
  let y : Nat → Int := fun x => (Py.dget vals x).getD 0
  have hy : ∀ e ∈ l1 ++ l2, y e.1 = (e.2.2.2 : Int) - e.2.1 := by
    intro e he
    have : Py.dget vals e.1 = some ((e.2.2.2 : Int) - e.2.1) :=
      (Py.mem_iff_dget hnv _ _).1 (List.mem_map.2 ⟨e, he, rfl⟩)
    simp only [y, this, Option.getD_some]
  obtain ⟨a1, b1⟩ := mhalf_inst m1 (fun e he => hy e (by simp [he])) (ha .L)
  obtain ⟨a2, b2⟩ := mhalf_inst m2 (fun e he => hy e (by simp [he])) (ha .R)
  refine ⟨y, fun x => ?_, hsd.symm, a1, a2⟩
  cases hd : Py.dget vals x with
  | none => simp [y, hd]
  | some v =>
    obtain ⟨e, he, heq⟩ := List.mem_map.1 ((Py.mem_iff_dget hnv _ _).2 hd)
    cases heq
    rcases List.mem_append.1 he with he | he
    · exact b1 e he
    · exact b2 e he

omit [DecidableEq σ] [DecidableEq S] in
theorem gm_fits {D : Nat → Prop} {g f : List (Blk σ V)} {vs u} (h : GM D g vs f u) {y : Nat → Int}
    (hf : VarsFit y vs (u.map (·.num))) : HalfIs y g u ∧ ∀ x m, some (x, m) ∈ vs → m ≤ y x := by
  induction h with
  | nil => exact ⟨.nil, by simp⟩
  | inf a h ih =>
    cases hf with
    | cons h1 h2 =>
      obtain ⟨i1, i2⟩ := ih h2
      exact ⟨.cons ⟨rfl, trivial⟩ i1, fun x m hx => i2 x m (by simpa using hx)⟩
  | one a _ _ h ih =>
    cases hf with
    | cons h1 h2 =>
      obtain ⟨i1, i2⟩ := ih h2
      exact ⟨.cons ⟨rfl, by simp [NumIs, value_num]⟩ i1, fun x m hx => i2 x m (by simpa using hx)⟩
  | @many a x m w n g vs f u h1 h2 h3 h ih =>
    cases hf with
    | cons h4 h5 =>
      obtain ⟨i1, i2⟩ := ih h5
      obtain ⟨n', e1, e2, e3⟩ := h4 x m rfl
      cases e1
      refine ⟨.cons ⟨rfl, ?_⟩ i1, ?_⟩
      · show Val.value y (.expr (varPlus x 0)) = (n : Int)
        rw [varPlus_value, e2]; ring
      · intro x' m' hx
        rcases List.mem_cons.1 hx with hx | hx
        · cases hx; omega
        · exact i2 x' m' hx

omit [DecidableEq σ] [DecidableEq S] in
theorem gm_covers {D : Nat → Prop} {g f : List (Blk σ V)} {vs u} (h : GM D g vs f u) {y : Nat → Int} (hg : HalfIs y g u)
    (hm : ∀ x m, some (x, m) ∈ vs → m ≤ y x) : VarsFit y vs (u.map (·.num)) := by
  induction h with
  | nil => exact .nil
  | inf a h ih =>
    cases hg with
    | cons h1 h2 => exact .cons (fun x m e => by cases e) (ih h2 (fun x m hx => hm x m (by simp [hx])))
  | one a _ _ h ih =>
    cases hg with
    | cons h1 h2 => exact .cons (fun x m e => by cases e) (ih h2 (fun x m hx => hm x m (by simp [hx])))
  | @many a x m w n g vs f u h1 h2 h3 h ih =>
    cases hg with
    | cons h4 h5 =>
      refine .cons (fun x' m' e => ?_) (ih h5 (fun x m hx => hm x m (by simp [hx])))
      cases e
      have h6 : Val.value y (.expr (varPlus x 0)) = (n : Int) := h4.2
      rw [varPlus_value] at h6
      have := hm x m (by simp)
      exact ⟨n, rfl, by omega, by omega⟩

omit [DecidableEq σ] [DecidableEq S] in
theorem fits_covers {y : Nat → Int} {vs : List (Option (Nat × Int))} {ls : List (Option Nat)} (h : VarsFit y vs ls) :
    List.Forall₂ (fun v l => ∀ x m, v = some (x, m) → ∃ n : Nat, l = some n ∧ m ≤ (n : Int)) vs ls :=
  h.imp (fun v l h x m e => by obtain ⟨n, h1, -, h3⟩ := h x m e; exact ⟨n, h1, h3⟩)

omit [DecidableEq σ] [DecidableEq S] in
theorem covers_fits {D : Nat → Prop} {g f : List (Blk σ V)} {vs u} (h : GM D g vs f u) (hn : (hvars g).Nodup)
    (hc : List.Forall₂ (fun v l => ∀ x m, v = some (x, m) → ∃ n : Nat, l = some n ∧ m ≤ (n : Int)) vs (u.map (·.num))) :
    ∃ y : Nat → Int, VarsFit y vs (u.map (·.num)) := by
  have hfm := fit_ok h []
  have hok : ∀ a, ∃ a', fitsMin vs (counts u) a = .ok a' := by
    clear hfm hn
    induction h with
    | nil => exact fun a => ⟨a, rfl⟩
    | inf b h ih =>
      cases hc with
      | cons h1 h2 => exact fun a => ih h2 a
    | one b _ _ h ih =>
      cases hc with
      | cons h1 h2 => exact fun a => ih h2 a
    | @many b x m w n g vs f u h1 h2 h3 h ih =>
      cases hc with
      | cons h4 h5 =>
        intro a
        obtain ⟨n', e, hle⟩ := h4 x m rfl
        cases e
        obtain ⟨a', ha'⟩ := ih h5 (Py.dset a x (.num n))
        refine ⟨a', ?_⟩
        show (if (n : Int) - m ≥ 0 then fitsMin vs (counts u) (Py.dset a x (.num n)) else .fail) = _
        rw [if_pos (by omega)]; exact ha'
  obtain ⟨a', ha'⟩ := hok []
  rw [ha'] at hfm
  obtain ⟨k1, k2⟩ := hfm.2.2 hn
  exact ⟨_, gm_covers h k1 k2⟩

omit [DecidableEq σ] [DecidableEq S] in
theorem gm_syms {D : Nat → Prop} {g f : List (Blk σ V)} {vs u} (h : GM D g vs f u) : u.map (·.sym) = g.map (·.sym) := by
  induction h <;> simp_all

omit [DecidableEq σ] [DecidableEq S] in
theorem halfIs_nums {y : Nat → Int} {f : List (Blk σ V)} {u : List (Blk σ Nat)} (h : HalfIs y f u) :
    List.Forall₂ (NumIs y) (f.map (·.num)) (u.map (·.num)) := by
  induction h with
  | nil => exact .nil
  | cons h1 h2 ih => exact .cons h1.2 ih

theorem gen_shape {z : σ} {M : Machine σ S} {key : Strip σ S} {r : GenRule} {init res vl vr D}
    (h : GenOK M z key r init res vl vr D) {u : ChainTape σ Nat} (hw : WFTape z u) (hk : strip natIsOne key.st u = key) :
    GShape D init res vl vr u := by
  have hs := hk.trans h.shape
  exact ⟨congrArg Strip.dir hs, gm_strip h.left (hw .L) (congrArg Strip.left hs), gm_strip h.right (hw .R) (congrArg Strip.right hs)⟩

/-- a rule proved on the chain tape is sound for the base machine -/
theorem rule_sound {T : Table} {M : Machine σ S} {Means TDen hs} (F : Follows T M Means TDen hs) {z : σ} {st : S}
    {tape : ChainTape σ Nat} {r : Rule σ} (h : RuleOK M z (strip natIsOne st tape) r) : RuleSound T z Means st tape r := by
  match r, h with
  | .diff r, ⟨ll, lr, h⟩ =>
    refine ⟨fun u hw hk ha => diff_covers h hw hk ha, fun y hy u hw ht cfg hm => ?_⟩
    obtain ⟨h1, h2⟩ := h.sound y hy (fresh u st) rfl rfl rfl ht hw
    obtain ⟨n, k1, k2, k3, k4, k5⟩ := reaches_base F hw hm h.loops h1
    exact ⟨_, n, k1, h2, k2, k3, k4, k5⟩
  | .gen r, ⟨init, res, vl, vr, D, h⟩ =>
    refine ⟨fun u hw hk hc => ?_, fun u hw hk y hf cfg hm => ?_⟩
    · have hs := gshape_all (gen_shape h hw hk)
      rw [h.vars]
      unfold GenCovers at hc
      rw [h.vars] at hc
      exact covers_fits hs (by rw [hvars_append]; exact h.nodup) hc
    · have hs := gen_shape h hw hk
      have hall := gshape_all hs
      rw [h.vars] at hf
      obtain ⟨f1, f2⟩ := gm_fits hall hf
      obtain ⟨f3, f4⟩ := halfIs_split hs.left f1
      obtain ⟨h1, h2⟩ := h.sound y (by rw [h.vars]; exact f2) (fresh u st) rfl rfl rfl ⟨hs.dir.symm, f3, f4⟩ hw
      obtain ⟨n, k1, k2, k3, k4, k5⟩ := reaches_base F hw hm h.loops h1
      refine ⟨_, n, k1, ?_, ?_, k2, k3, k4, k5⟩
      · have e : (fresh u st).tape = u := rfl
        have d1 := h2.dir
        have l1 := gm_res hs.left h2.left
        have r1 := gm_res hs.right h2.right
        unfold symbols
        rw [gm_syms l1, gm_syms r1, gm_syms hs.left, gm_syms hs.right, ← d1, h.dirs, hs.dir]
      · rw [h.result]
        exact halfIs_nums (halfIs_append h2.left h2.right)

omit [DecidableEq σ] [DecidableEq S] in
theorem lands_base [DecidableEq σ] [DecidableEq S] {T : Table} {M : Machine σ S} {Means TDen hs} (F : Follows T M Means TDen hs) {z : σ} {cfg : Config}
    {u : ChainTape σ Nat} {st : S} (hw : WFTape z u) (h : Means (tapeDC z u st) cfg) {tape : ChainTape σ Nat} {n : Nat}
    {seen : List (Nat × Nat)} {k : Nat} (hk : 1 ≤ k)
    (hr : Lands (fresh u st) ((SimSt.step natOps M)^[k] (fresh u st)) tape n seen) :
    WFTape z tape ∧ k ≤ n ∧ Means (tapeDC z tape st) (Spec.run T n cfg) ∧
      ∀ q t, Py.dget seen q = some t ↔ LastSeen T cfg n q t := by
  obtain ⟨h1, h2⟩ := iter_ok F (fresh_ok (T := T) (M := M) (TDen := TDen) (hs := hs) hw h) k
  generalize (SimSt.step natOps M)^[k] (fresh u st) = c at *
  have hsteps : c.steps = n := by have := hr.steps; simpa [fresh] using this
  refine ⟨hr.tape ▸ h1.wf, ?_, ?_, fun q t => ?_⟩
  · have := (h2 hr.op).2
    simp only [fresh] at this
    omega
  · have h3 := h1.run (Or.inl hr.op)
    have h4 : c.st = st := hr.st
    rw [hsteps] at h3
    rw [← h4, ← hr.tape]; exact h3
  · rw [← hsteps, ← h1.seen.2 q t, hr.seen q]
    cases Py.dget seen q with
    | none => simp [fresh, Py.dget]
    | some m => simp [fresh]

theorem apply_sound {T : Table} {M : Machine σ S} {Means TDen hs} (F : Follows T M Means TDen hs) {z : σ} {st : S}
    {u : ChainTape σ Nat} {r : Rule σ} (h : RuleOK M z (strip natIsOne st u) r) (hw : WFTape z u) {cfg : Config}
    (hm : Means (tapeDC z u st) cfg) (o : Opts) (nv : Nat) : ApplySound T z Means o st u cfg r (applyRule o r u nv).1 := by
  match r, h with
  | .diff r, ⟨ll, lr, h⟩ =>
    have := applyDiff_ok (c := fresh u st) h rfl rfl hw nv
    show ApplySound T z Means o st u cfg (.diff r) (applyDiff r u nv)
    change match applyDiff r u nv with | .raise => _ | .fail => _ | .ok (.inf states) => _ | .ok (.apply tape n seen) => _ at this
    match hd : applyDiff r u nv, this with
    | .raise, this => exact this.elim
    | .fail, h => exact h
    | .ok (.inf states), h =>
      have := loops_forever F (fresh_ok hw hm) h.2
      exact ⟨this.1, fun q => (this.2 q).1⟩
    | .ok (.apply tape n seen), this =>
      obtain ⟨⟨R, hR, hL⟩, hk, hmax⟩ := this
      have hk := Nat.mul_le_mul h.loops hR
      obtain ⟨k1, k2, k3, k4⟩ := lands_base F hw hm hk hL
      exact ⟨k1, by omega, k3, k4, Or.inl hmax⟩
  | .gen r, ⟨init, res, vl, vr, D, h⟩ =>
    have := applyGen_ok (c := fresh u st) h rfl rfl hw o
    have inst : ∀ t, GShape D init res vl vr t → GenCovers r t →
        ∃ y : Nat → Int, TapeIs y init t ∧ ∀ x m, some (x, m) ∈ r.vars → m ≤ y x := by
      intro t hs hc
      unfold GenCovers at hc
      rw [h.vars] at hc ⊢
      have hall := gshape_all hs
      obtain ⟨y, hy⟩ := covers_fits hall (by rw [hvars_append]; exact h.nodup) hc
      obtain ⟨f1, f2⟩ := gm_fits hall hy
      obtain ⟨f3, f4⟩ := halfIs_split hs.left f1
      exact ⟨y, ⟨hs.dir.symm, f3, f4⟩, f2⟩
    show ApplySound T z Means o st u cfg (.gen r) (applyGen o r u)
    change match applyGen o r u with | .raise => _ | .fail => _ | .ok (.inf states) => _ | .ok (.apply tape n seen) => _ at this
    match hd : applyGen o r u, this with
    | .raise, this => exact this
    | .fail, hf => exact fun hc => hf (inst u (gen_shape h hw rfl) hc)
    | .ok (.inf states), h =>
      have := loops_forever F (fresh_ok hw hm) h.2
      exact ⟨this.1, fun q => (this.2 q).1⟩
    | .ok (.apply tape n seen), this =>
      obtain ⟨R, hR, hRm, hL, hk, hsh, hmax⟩ := this
      have hk := Nat.mul_le_mul h.loops hR
      obtain ⟨k1, k2, k3, k4⟩ := lands_base F hw hm hk hL
      refine ⟨k1, by omega, k3, k4, ?_⟩
      rcases Nat.lt_or_ge R o.maxReps with hlt | hge
      · exact Or.inl (fun hc => hmax hlt (inst tape hsh hc))
      · refine Or.inr ⟨⟨r, rfl⟩, ?_⟩
        have : R ≤ r.loops * R := Nat.le_mul_of_pos_left R h.loops
        omega

end Prover
end Model
